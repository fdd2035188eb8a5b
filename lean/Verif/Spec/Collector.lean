import Verif.Spec.Iterator

/-!
  Calls and the garbage collector on a common time line.
-/

namespace BwTree
namespace Tree

variable {K V : Type} [LinearOrder K] [DecidableEq V] [Inhabited K]

/-- `id` is named by the tree: it is the root or the leftmost leaf, or a child or the right sibling of a node of the tree. -/
def Named (m : Mem K V) (id : NodeId) : Prop :=
  id = m.root ∨ id = FIRST_LEAF ∨ ∃ q n, OnLevel m q ∧ m.node q = some n ∧ (id ∈ n.children ∨ (n.high.2 ≠ INVALID ∧ n.high.2 = id))

/-- In the execution `σ`, thread `t` began a call after time `a`, and that call has not ended at time `j`. -/
def Busy (σ : Nat → Conf K V) (t : Tid) (a j : Nat) : Prop :=
  (σ a).thr t = none ∧ a < j ∧ ∀ i, a < i → i ≤ j → (σ i).thr t ≠ none

/-- `F j e` says that the collector has destroyed the record `e` by time `j`. It destroys only what was retired, and only when the calls that were
running then have ended. (This is what C20 proves of the epoch manager.) -/
def Collector (σ : Nat → Conf K V) (F : Nat → Ptr → Prop) : Prop :=
  ∀ j e, F j e → ∃ r, r ≤ j ∧ Retired (σ r).mem e ∧ ∀ t a, Busy σ t a r → ¬ Busy σ t a j

end Tree
end BwTree
