import Verif.Model.Iterator
import Verif.Spec.Tree

/-!
  Iterators run by a thread of a concurrent execution, and what a scan should return.
-/

namespace BwTree
namespace Iterator

variable {K V : Type}

/-- `Run A a p b out`: started at time `a`, the program `p` ends at time `b` with `out` (`none` = undefined behaviour), when `A q pg a b`
says that request `q` made at time `a` may be answered with `pg` at time `b`. The thread may pause between its requests. -/
inductive Run (A : Query K → Page K V → Nat → Nat → Prop) {α : Type} : Nat → IProg K V α → Nat → Option α → Prop where
  | ret (a : Nat) (x : α) : Run A a (.ret x) a (some x)
  | ub (a : Nat) : Run A a .ub a none
  | ask {a a' b c : Nat} {q : Query K} {k : Page K V → IProg K V α} {pg : Page K V} {out : Option α} :
      a ≤ a' → A q pg a' b → Run A b (k pg) c out → Run A a (.ask q k) c out

variable [LinearOrder K]

/-- `a` and `b` are pairs in the order of a forward scan. -/
def Ascending (l : List (K × V)) : Prop := l.Pairwise (fun a b => a.1 ≤ b.1)

/-- `a` and `b` are pairs in the order of a backward scan. -/
def Descending (l : List (K × V)) : Prop := l.Pairwise (fun a b => b.1 ≤ a.1)

/-- `l` lists the pairs whose keys satisfy `P`, where every key `x` is looked up at the one instant `τ x` between `a` and `b`; larger keys are
looked up later. `S i` is the set stored at time `i`. -/
def Sweep (S : Nat → Spec.PairSet K V) (P : K → Prop) (l : List (K × V)) (a b : Nat) : Prop :=
  ∃ τ : K → Nat, (∀ x, a ≤ τ x ∧ τ x ≤ b) ∧ (∀ x y, x ≤ y → τ x ≤ τ y) ∧ ∀ x v, (x, v) ∈ l ↔ P x ∧ S (τ x) x v

/-- The same with larger keys looked up earlier. -/
def SweepBack (S : Nat → Spec.PairSet K V) (P : K → Prop) (l : List (K × V)) (a b : Nat) : Prop :=
  ∃ τ : K → Nat, (∀ x, a ≤ τ x ∧ τ x ≤ b) ∧ (∀ x y, x ≤ y → τ y ≤ τ x) ∧ ∀ x v, (x, v) ∈ l ↔ P x ∧ S (τ x) x v

/-- Request of an iterator as a call on the tree. -/
def Query.toCall : Query K → Tree.Call K V
  | .first => .first
  | .page k => .page k
  | .back k => .back k

variable [DecidableEq V] [Inhabited K]

/-- `σ 0, …, σ n` is part of an execution of the tree. -/
structure Exec (σ : Nat → Tree.Conf K V) (n : Nat) : Prop where
  start : Tree.Reach (σ 0)
  step : ∀ i, i < n → Tree.Step (σ i) (σ (i + 1))

/-- In the execution `σ`, thread `t` makes the call `op` in the step from `a` to `a + 1`, and it returns `ans` in the step that ends at
`b`. -/
def CallAt (σ : Nat → Tree.Conf K V) (t : Tree.Tid) (op : Tree.Call K V) (ans : Tree.Ans K V) (a b : Nat) : Prop :=
  ∃ post, a < b ∧ (σ (a + 1)).hist = (σ a).hist ++ [.call t op] ∧
    (σ (b - 1)).hist = (σ a).hist ++ .call t op :: post ∧ (∀ e ∈ post, Lin.Event.tid e ≠ t) ∧
    (σ b).hist = (σ (b - 1)).hist ++ [.ret t ans]

/-- Requests of an iterator used by thread `t` in the execution `σ`. -/
def Asked (σ : Nat → Tree.Conf K V) (n : Nat) (t : Tree.Tid) (q : Query K) (pg : Page K V) (a b : Nat) : Prop :=
  b ≤ n ∧ CallAt σ t q.toCall (.page pg.low pg.high pg.items) a b

/-- The set stored in the tree at time `i`. -/
def At (σ : Nat → Tree.Conf K V) (i : Nat) : Spec.PairSet K V := Tree.Stored (σ i).mem

end Iterator
end BwTree
