import Verif.Model.TreeGC
import Verif.Spec.Tree
import Verif.Spec.Solo

/-! Executions of the tree together with its collector. -/

namespace BwTree
namespace Tree

variable {K V : Type} [LinearOrder K] [DecidableEq V] [Inhabited K]

/-- `σ 0, …, σ N` is part of an execution of tree and collector with `n` registered threads. -/
structure SysExec (n : Nat) (σ : Nat → Sys K V) (N : Nat) : Prop where
  start : SysReach n (σ 0)
  step : ∀ i, i < N → SysStep n (σ i) (σ (i + 1))

/-- The collector has destroyed the record `e`: it is one of those destroyed with a node that a collection took off a garbage list. -/
def Freed (s : Sys K V) (e : Ptr) : Prop := ∃ g ∈ s.gc.freed, ∃ fuel, e ∈ s.tree.mem.cells fuel g

/-- `s'` is reached from `s`. -/
inductive SysLater (n : Nat) [LinearOrder K] [DecidableEq V] [Inhabited K] : Sys K V → Sys K V → Prop where
  | refl (s : Sys K V) : SysLater n s s
  | step {s s1 s2 : Sys K V} : SysLater n s s1 → SysStep n s1 s2 → SysLater n s s2

/-- Whole calls of thread `t`, one after the other. -/
inductive CallsOf [LinearOrder K] [DecidableEq V] [Inhabited K] (t : Tid) : Conf K V → Conf K V → Prop where
  | refl (c : Conf K V) : CallsOf t c c
  | step {c c1 : Conf K V} {fuel : Nat} {op : Call K V} {m : Mem K V} {a : Ans K V} : CallsOf t c c1 → Steps c1.mem (prog fuel op) m (.ret a) →
      CallsOf t c ⟨m, c1.thr, c1.hist ++ [.call t op, .ret t a]⟩

end Tree
end BwTree
