import Verif.Model.TreeTSO
import Verif.Spec.Tree

/-! Executions of the tree together with its collector on a machine with store buffers. -/

namespace BwTree
namespace Tree

variable {K V : Type} [LinearOrder K] [DecidableEq V] [Inhabited K]

/-- `σ 0, …, σ N` is part of an execution of tree and collector with `n` registered threads, where thread `T` advances the epoch. -/
structure TSysExec (n T : Nat) (σ : Nat → TSys K V) (N : Nat) : Prop where
  start : TSysReach n T (σ 0)
  step : ∀ i, i < N → TSysStep n T (σ i) (σ (i + 1))

/-- The collector has destroyed the record `e`: it is one of those destroyed with a node that a collection took off a garbage list. -/
def TFreed (s : TSys K V) (e : Ptr) : Prop := ∃ g ∈ s.gc.g.freed, ∃ fuel, e ∈ s.tree.mem.cells fuel g

end Tree
end BwTree
