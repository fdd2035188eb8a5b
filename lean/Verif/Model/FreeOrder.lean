import Verif.Model.KeyRef
import Verif.Model.Destroy

/-!
  The order in which a delta chain is destroyed, and the memory its records lie in.

  A base node is allocated together with a chunk of memory in front of it, from which the records on top of it are allocated (Model/Alloc has the allocator).
  The destructor of such a record gives nothing back; `Destroy` of the base node (2161-2167, 2045-2063) gives back the chunk, and with it the memory of all
  records in it. Remove and abort records have memory of their own. The models in Model/Tree and Model/Destroy treat each record as if it had memory
  of its own.
-/

namespace BwTree
namespace Tree

variable {K V : Type}

/-- The memory the record at `p` lies in, named by the record whose destruction gives it back: a base node or a record made by `new` (remove, abort) itself,
for a merge record the base node found through the low key pointer of its right branch (7289, 7327), for all others the base node found through
that of the record below, which is also their own (5729, 5792, 6496, 6657, 7386, 7503, 7586; `InlineAllocate` 2355-2366). -/
def Mem.block (m : Mem K V) (p : Ptr) : Option Ptr :=
  match m.heap p with
  | none => none
  | some n =>
    if n.isRemove || n.isAbort then some p
    else if n.isMerge then
      match m.follow p with
      | [_, y] => m.inlineHome (y + 1) y
      | _ => none
    else m.inlineHome (p + 1) p

/-- The record at `p` lies in memory that is not among what was given back, `gone`. -/
def Mem.usable (m : Mem K V) (gone : List Ptr) (p : Ptr) : Bool :=
  match m.block p with
  | none => false
  | some b => !gone.contains b

/-- How the destruction of a chain fails: the record at `p` is read, or its destructor is run, in memory that was given back. -/
inductive FreeFail where
  | fuel
  | read (p : Ptr)
  | dtor (p : Ptr)
  deriving DecidableEq, Repr

/-- `FreeEpochDeltaChain` 8196-8364: `gone` is the memory given back so far. A merge record is read again after its left branch was destroyed (8237, 8304)
and destroyed after both (8239, 8306); the other records are read and destroyed before the walk goes on. The NodeID of a remove record that is recycled
is in Model/Destroy. `fuel` bounds the number of records followed. -/
def Mem.freeEpoch (m : Mem K V) : Nat → Ptr → List Ptr → Except FreeFail (List Ptr)
  | 0, _, _ => .error .fuel
  | fuel + 1, p, gone =>
    if !m.usable gone p then .error (.read p)
    else
      match m.heap p with
      | none => .error (.read p)
      | some n =>
        if n.isBase || n.isRemove || n.isAbort then .ok (p :: gone)
        else
          match m.follow p with
          | [q] => m.freeEpoch fuel q gone
          | [l, r] =>
            match m.freeEpoch fuel l gone with
            | .error e => .error e
            | .ok gone =>
              if !m.usable gone p then .error (.read p)
              else
                match m.freeEpoch fuel r gone with
                | .error e => .error e
                | .ok gone => if !m.usable gone p then .error (.dtor p) else .ok gone
          | _ => .error (.read p)

/-- `FreeNodeByPointer` 2857-2995, as `freePtr` in Model/Destroy, with the memory of the records: a record that is used must lie in memory that was not given
back. A merge record is used again after its left branch (2895, 2953) and after both (2897, 2955), a record that names other nodes after these (2887, 2920,
2945, 2972). Destroyed records are in `freed`; those of them that are base nodes have given back their chunk. -/
def freePtrIn (m : Mem K V) : Nat → Ptr → DState → Except DFail DState
  | 0, _, _ => .error .fuel
  | fuel + 1, p, s =>
    if p ∈ s.freed ∨ m.usable s.freed p = false then .error .dangling
    else
      match m.heap p with
      | none => .error .dangling
      | some n =>
        if n.isRemove || n.isAbort then .error .unknownType
        else do
          let s ← n.frees.foldlM (freeId (freePtrIn m fuel)) s
          let s := s.unmap n.unmaps
          if m.usable s.freed p = false then .error .dangling
          else if n.isBase then .ok (s.free p)
          else if n.isMerge then
            match m.follow p with
            | [l, r] => do
              let s ← freePtrIn m fuel l s
              if m.usable s.freed p = false then .error .dangling
              else do
                let s ← freePtrIn m fuel r s
                if m.usable s.freed p = false then .error .dangling else .ok (s.free p)
            | _ => .error .dangling
          else
            (m.follow p).foldlM (fun s q => freePtrIn m fuel q s) (s.free p)

/-- `~BwTree` 2718-2732, as `destroy` in Model/Destroy; that the epoch manager destroys its garbage first is taken for granted here. -/
def destroyIn (m : Mem K V) (fuel : Nat) : Except DFail DState :=
  freeId (freePtrIn m fuel) (clearGarbage m) m.root

end Tree
end BwTree
