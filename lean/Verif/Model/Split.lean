import Verif.Model.Leaf

/-!
  Splitting a leaf base node (/repo/src/bwtree.h 2467-2640 and AdjustNodeSize 6429-6530).
-/

namespace BwTree

/-- `LEAF_NODE_SIZE_UPPER_THRESHOLD` (157). -/
def LEAF_UPPER : Nat := 128
/-- `LEAF_NODE_SIZE_LOWER_THRESHOLD` (158). -/
def LEAF_LOWER : Nat := 32

namespace LeafChain

variable {K V : Type} [LinearOrder K]

/-- Backward loop 2514-2517: `it` starts at position `i`; stop at `Begin()` or at a key different from `ck`. -/
def scanBack (items : List (K × V)) (ck : K) : Nat → Option Nat
  | 0 => some 0
  | i + 1 =>
    match items[i + 1]? with
    | none => none
    | some x => if x.1 = ck then scanBack items ck i else some (i + 1)

/-- Forward loop 2535-2538: the list argument is the rest of the array from position `i`. -/
def scanFwd (ck : K) : List (K × V) → Nat → Nat
  | [], i => i
  | x :: xs, i => if x.1 = ck then scanFwd ck xs (i + 1) else i

/-- `FindSplitPoint` 2500-2547. Outer `none` = failed assert / out of bounds; inner `none` = result -1. -/
def findSplitPoint (items : List (K × V)) : Option (Option Nat) :=
  let central := items.length / 2
  if 1 < central then
    match items[central]? with
    | none => none
    | some c =>
      match scanBack items c.1 (central - 1) with
      | none => none
      | some it =>
        let left := it + 1
        if LEAF_LOWER < left then some (some left)
        else
          let it := scanFwd c.1 (items.drop (central + 1)) (central + 1)
          if LEAF_LOWER < items.length - it then some (some it) else some none
  else none

/-- `LeafNode::GetSplitSibling` 2573-2625: the new right sibling, `none` inside if the node cannot be split.
Only called on base nodes. -/
def splitSibling : LeafChain K V → Option (Option (LeafChain K V))
  | base _ high items =>
    match findSplitPoint items with
    | none => none
    | some none => some none
    | some (some p) =>
      match items[p]? with
      | none => none
      | some x => some (some (base (x.1, NOT_INVALID) high (items.drop p)))
  | _ => none

/-- Split branch of AdjustNodeSize 6456-6500: if the base node has at least LEAF_UPPER items and a split point exists,
the pair (split delta to be installed at the old NodeID, right sibling to be installed at `newId`). -/
def trySplit (newId : NodeId) (c : LeafChain K V) : Option (Option (LeafChain K V × LeafChain K V)) :=
  if c.isDelta then some none
  else if c.itemCount < (LEAF_UPPER : Int) then some none
  else
    match splitSibling c with
    | none => none
    | some none => some none
    | some (some sib) =>
      match sib with
      | base _ _ (x :: _) => some (some (split x.1 newId sib.itemCount c, sib))
      | _ => none

end LeafChain
end BwTree
