import Verif.Model.Leaf

/-!
  What a leaf delta chain *means*, independently of how the code searches it, and the invariant of the chains that the code
  builds.
-/

namespace BwTree

variable {K V : Type} [LinearOrder K] [DecidableEq V]

/-- `k` is in the half open key range described by a low and a high key pair (`INVALID` NodeID = infinite). -/
def InRange (low high : K × NodeId) (k : K) : Prop :=
  (low.2 = INVALID ∨ low.1 ≤ k) ∧ (high.2 = INVALID ∨ k < high.1)

/-- The key range is not empty. -/
def RangeNE (low high : K × NodeId) : Prop :=
  low.2 = INVALID ∨ high.2 = INVALID ∨ low.1 < high.1

namespace LeafChain

/-- Replay semantics: is `(k, v)` stored in the logical leaf? The newest record about the pair decides; a split cuts off
keys at and above the split key; a merge sends keys at and above the merge key to the right branch. -/
def Has : LeafChain K V → K → V → Prop
  | base _ _ items, k, v => (k, v) ∈ items
  | ins k' v' _ _ c, k, v => (k = k' ∧ v = v') ∨ Has c k v
  | del k' v' _ _ c, k, v => ¬ (k = k' ∧ v = v') ∧ Has c k v
  | split sk _ _ c, k, v => k < sk ∧ Has c k v
  | merge mk _ r c, k, v => if mk ≤ k then Has r k v else Has c k v
  | remove _ c, k, v => Has c k v

/-- The base node that the records about key `k` refer to. -/
def baseFor : LeafChain K V → K → List (K × V)
  | base _ _ items, _ => items
  | ins _ _ _ _ c, k => baseFor c k
  | del _ _ _ _ c, k => baseFor c k
  | split _ _ _ c, k => baseFor c k
  | merge mk _ r c, k => if mk ≤ k then baseFor r k else baseFor c k
  | remove _ c, k => baseFor c k

/-- Meaning of an index pair (1406-1410): position of the pair in the base node if it is there, else the position after
all items with keys `≤ k`. -/
def IdxOk (items : List (K × V)) (k : K) (v : V) (i : Nat) (e : Bool) : Prop :=
  if e then items[i]? = some (k, v)
  else (k, v) ∉ items ∧ i = items.countP (fun x => decide (x.1 ≤ k))

/-- Invariant of leaf chains (without a remove record on top). -/
def WF : LeafChain K V → Prop
  | base low high items =>
    items.Pairwise (fun a b => a.1 ≤ b.1) ∧ items.Nodup ∧ (∀ x ∈ items, InRange low high x.1) ∧
    RangeNE low high
  | ins k v i e c => WF c ∧ InRange c.low c.high k ∧ ¬ Has c k v ∧ IdxOk (baseFor c k) k v i e
  | del k v i e c => WF c ∧ InRange c.low c.high k ∧ Has c k v ∧ IdxOk (baseFor c k) k v i e
  | split sk id sib c =>
    WF c ∧ (∃ low high items, c = base low high items ∧
      sib = (items.countP (fun x => decide (sk ≤ x.1)) : Int)) ∧
    id ≠ INVALID ∧ (c.low.2 = INVALID ∨ c.low.1 < sk) ∧ (c.high.2 = INVALID ∨ sk < c.high.1)
  | merge mk id r c =>
    WF c ∧ WF r ∧ c.high = (mk, id) ∧ id ≠ INVALID ∧ r.low.1 = mk ∧ r.low.2 ≠ INVALID
  | remove _ _ => False

/-- No insert/delete record lies above a merge record (the case in which GetValue is correct, see C30). -/
def NoDataAboveMerge : LeafChain K V → Prop
  | base _ _ _ => True
  | ins _ _ _ _ c => noMerge c
  | del _ _ _ _ c => noMerge c
  | split _ _ _ c => NoDataAboveMerge c
  | merge _ _ r c => NoDataAboveMerge r ∧ NoDataAboveMerge c
  | remove _ c => NoDataAboveMerge c
where
  /-- the chain contains no merge record -/
  noMerge : LeafChain K V → Prop
  | base _ _ _ => True
  | ins _ _ _ _ c => noMerge c
  | del _ _ _ _ c => noMerge c
  | split _ _ _ c => noMerge c
  | merge _ _ _ _ => False
  | remove _ c => noMerge c

end LeafChain
end BwTree
