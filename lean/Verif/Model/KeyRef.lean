import Verif.Model.Tree

/-!
  Where the boundary keys of a node lie. A record does not hold its low and high key: NodeMetaData (1110-1151) has pointers to them, which the constructors
  take over from the record below, so they lead to another record's memory. Model/Tree gives each record the keys themselves; here the pointers are modelled.
  They are set by the constructors and never changed (SetLowKeyPair 1328 and SetHighKeyPair 1337 are not called).
-/

namespace BwTree
namespace Tree

variable {K V : Type}

/-- The members of a record a key pointer can lead to: `low_key` and `high_key` of a base node (2080-2081), `insert_item` of a split record
(LeafSplitNode, InnerSplitNode). -/
inductive Field where
  | low
  | high
  | item
  deriving DecidableEq, Repr

/-- `low_key_p` of the record at `p`: its own `low_key` for a base node (ElasticNode 2103), and for all other records that of `child_node_p`, which for a merge
record is the left branch (constructors 1420-1838). `fuel` bounds the number of records followed. -/
def Mem.lowRef (m : Mem K V) : Nat → Ptr → Option (Ptr × Field)
  | 0, _ => none
  | fuel + 1, p =>
    match m.heap p with
    | none => none
    | some n => if n.isBase then some (p, .low) else match m.kids p with
      | q :: _ => m.lowRef fuel q
      | [] => none

/-- `high_key_p` of the record at `p`: its own `high_key` for a base node (2103), its own `insert_item` for a split record, that of `right_merge_p` for a merge
record, and that of `child_node_p` for all others (constructors 1420-1838). The second address in a merge record of the model is that of the remove record,
`right_merge_p` is what lies below it. -/
def Mem.highRef (m : Mem K V) : Nat → Ptr → Option (Ptr × Field)
  | 0, _ => none
  | fuel + 1, p =>
    match m.heap p with
    | none => none
    | some (.leaf (.split _ _ _ _)) => some (p, .item)
    | some (.inner (.split _ _ _)) => some (p, .item)
    | some n =>
      if n.isBase then some (p, .high)
      else if n.isMerge then match m.kids p with
        | [_, r] => match m.kids r with
          | [y] => m.highRef fuel y
          | _ => none
        | _ => none
      else match m.kids p with
        | q :: _ => m.highRef fuel q
        | [] => none

/-- The pair stored in that member. -/
def Mem.pairAt (m : Mem K V) : Ptr × Field → Option (K × NodeId)
  | (p, f) => match m.heap p, f with
    | some (.leaf (.base low _ _)), .low => some low
    | some (.leaf (.base _ high _)), .high => some high
    | some (.inner (.base low _ _ _)), .low => some low
    | some (.inner (.base _ high _ _)), .high => some high
    | some (.leaf (.split k id _ _)), .item => some (k, id)
    | some (.inner (.split item _ _)), .item => some item
    | _, _ => none

/-- The base node in whose preallocated space a new record on top of `p` is placed: `InlineAllocate` 2355-2366 takes `low_key_p` of `p` for the address of
the member `low_key` of a base node; `none` = it is not, and the assert 2357 fails. -/
def Mem.inlineHome (m : Mem K V) (fuel : Nat) (p : Ptr) : Option Ptr :=
  match m.lowRef fuel p with
  | some (e, .low) => some e
  | _ => none

end Tree
end BwTree
