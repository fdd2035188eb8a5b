import Verif.Model.Inner
import Verif.Spec.Leaf

/-!
  What an inner delta chain *means*, independently of how the code searches it, and the invariant of the chains that the code
  builds.

  `lo : NodeId → Option (Option K)` gives the lower end of the key range of every child the chain may mention:
  `some (some k)` = range begins at `k`, `some none` = range begins at minus infinity, `none` = unknown node. The lower
  end of a node never changes while the node exists. `lv` is the lower end of the inner node itself.
-/

namespace BwTree

variable {K : Type} [LinearOrder K]

/-- `k` is strictly above the lower end `lv`. -/
def Above (lv : Option K) (k : K) : Prop := ∀ l, lv = some l → l < k

/-- `k` is not below the lower end `lv`. -/
def AtLeast (lv : Option K) (k : K) : Prop := ∀ l, lv = some l → l ≤ k

/-- `k` is below the high key (`INVALID` NodeID = no bound). -/
def Below (high : K × NodeId) (k : K) : Prop := high.2 = INVALID ∨ k < high.1

/-- The range of the child `p.2` begins exactly at `p.1`. -/
def SepOk (lo : NodeId → Option (Option K)) (p : K × NodeId) : Prop := lo p.2 = some (some p.1)

/-- A high key pair: absent, or the sibling's range begins exactly at the high key. -/
def HighOk (lo : NodeId → Option (Option K)) (p : K × NodeId) : Prop := p.2 = INVALID ∨ SepOk lo p

namespace InnerChain

/-- Replay semantics: the separators of the logical inner node in key order, without the leftmost child (which is
`low.2`). -/
def seps : InnerChain K → List (K × NodeId)
  | base _ _ _ items => items.tail
  | ins item _ _ c => c.seps.filter (fun x => decide (x.1 < item.1)) ++ item :: c.seps.filter (fun x => decide (item.1 < x.1))
  | del item _ _ _ c => c.seps.filter (fun x => decide (x.1 ≠ item.1))
  | split item _ c => c.seps.filter (fun x => decide (x.1 < item.1))
  | merge mk _ r c => c.seps ++ (mk, r.low.2) :: r.seps
  | remove _ c => c.seps
  | abort _ c => c.seps

/-- There is a separator with key `k`. -/
def HasKey (c : InnerChain K) (k : K) : Prop := ∃ x ∈ c.seps, x.1 = k

/-- The child whose range covers `k`: the one with the largest separator not above `k`, or the leftmost child. -/
def IsTarget (c : InnerChain K) (k : K) (id : NodeId) : Prop :=
  (∃ x ∈ c.seps, x.2 = id ∧ x.1 ≤ k ∧ ∀ y ∈ c.seps, y.1 ≤ k → y.1 ≤ x.1) ∨
  (id = c.low.2 ∧ ∀ y ∈ c.seps, k < y.1)

/-- The child just left of the separator `k`: the one with the largest separator below `k`, or the leftmost child. -/
def IsLeftOf (c : InnerChain K) (k : K) (id : NodeId) : Prop :=
  (∃ x ∈ c.seps, x.2 = id ∧ x.1 < k ∧ ∀ y ∈ c.seps, y.1 < k → y.1 ≤ x.1) ∨
  (id = c.low.2 ∧ ∀ y ∈ c.seps, k ≤ y.1)

/-- `next` carries the key of the first separator above `k`, or the high key if there is none (`INVALID` = no high key).
The NodeID stored beside the key does not matter otherwise: the search never returns it. -/
def IsNext (c : InnerChain K) (k : K) (next : K × NodeId) : Prop :=
  (next.2 ≠ INVALID ∧ ∃ x ∈ c.seps, next.1 = x.1 ∧ k < x.1 ∧ ∀ y ∈ c.seps, k < y.1 → x.1 ≤ y.1) ∨
  ((next.2 = INVALID ↔ c.high.2 = INVALID) ∧ (next.2 ≠ INVALID → next.1 = c.high.1) ∧ ∀ y ∈ c.seps, y.1 ≤ k)

/-- `prev` is the last separator below `k`, or names the leftmost child if there is none. -/
def IsPrev (c : InnerChain K) (k : K) (prev : K × NodeId) : Prop :=
  (prev ∈ c.seps ∧ prev.1 < k ∧ ∀ y ∈ c.seps, y.1 < k → y.1 ≤ prev.1) ∨
  (prev.2 = c.low.2 ∧ ∀ y ∈ c.seps, k ≤ y.1)

/-- The chain contains no merge record. -/
def noMerge : InnerChain K → Prop
  | base _ _ _ _ => True
  | ins _ _ _ c => noMerge c
  | del _ _ _ _ c => noMerge c
  | split _ _ c => noMerge c
  | merge _ _ _ _ => False
  | remove _ c => noMerge c
  | abort _ c => noMerge c

/-- Meaning of `location` (1614): position of the first separator with a key not below `k` in the base array. Only used while
no merge record lies below. -/
def LocOk (c : InnerChain K) (k : K) (loc : Nat) : Prop :=
  noMerge c → loc = 1 + c.baseItems.tail.countP (fun x => decide (x.1 < k))

/-- Invariant of inner chains (without a remove or abort record on top). `INVALID` is not a node: `lo INVALID = none`
is assumed by the theorems. -/
def WF (lo : NodeId → Option (Option K)) : Option K → InnerChain K → Prop
  | lv, base low high _ items =>
    lo low.2 = some lv ∧ (∀ k, lv = some k → low.1 = k) ∧ items.head? = some low ∧
    items.tail.Pairwise (fun a b => a.1 < b.1) ∧
    (∀ x ∈ items.tail, SepOk lo x ∧ Above lv x.1 ∧ Below high x.1) ∧
    HighOk lo high ∧ (∀ k, lv = some k → Below high k)
  | lv, ins item _ loc c =>
    WF lo lv c ∧ SepOk lo item ∧ Above lv item.1 ∧ Below c.high item.1 ∧ ¬ HasKey c item.1 ∧ LocOk c item.1 loc
  | lv, del item prev _ loc c =>
    WF lo lv c ∧ HasKey c item.1 ∧ (prev.2 = c.low.2 ∨ (SepOk lo prev ∧ Above lv prev.1)) ∧ LocOk c item.1 loc
  | lv, split item sib c =>
    WF lo lv c ∧ (∃ low high d items, c = base low high d items ∧
      sib = (items.tail.countP (fun x => decide (item.1 ≤ x.1)) : Nat)) ∧
    SepOk lo item ∧ Above lv item.1 ∧ Below c.high item.1
  | lv, merge mk id r c => WF lo lv c ∧ WF lo (some mk) r ∧ c.high = (mk, id) ∧ id ≠ INVALID
  | _, remove _ _ => False
  | _, abort _ _ => False

/-- The neighbours recorded in insert and delete records are the actual neighbours (what the quick exits of the search
rely on for finding the *best* child; finding an admissible one needs only `WF`). -/
def Exact : InnerChain K → Prop
  | base _ _ _ _ => True
  | ins item next _ c => Exact c ∧ IsNext c item.1 next
  | del item prev next _ c => Exact c ∧ IsPrev c item.1 prev ∧ IsNext c item.1 next
  | split _ _ c => Exact c
  | merge _ _ r c => Exact r ∧ Exact c
  | remove _ c => Exact c
  | abort _ c => Exact c

end InnerChain
end BwTree
