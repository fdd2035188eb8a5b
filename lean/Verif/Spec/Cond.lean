import Verif.Spec.Solo
import Verif.Model.TreeCondSem

/-!
  Histories of calls that do not overlap, with conditional insertions, and what they should do.
-/

namespace BwTree
namespace Tree

variable {K V : Type} [LinearOrder K] [DecidableEq V] [Inhabited K]

/-- A call and its result, or a conditional insertion with the value returned and the flag. -/
inductive Ev (K V : Type) where
  | call (op : Call K V) (a : Ans K V)
  | cond (k : K) (v : V) (p : V → Bool) (ret sat : Bool)

/-- The trees after calls that do not overlap and what these returned. Conditional insertions are only made of pairs for which Delete has not been
called before. -/
inductive Mixed : Mem K V → List (Ev K V) → Prop where
  | init : Mixed (initConf : Conf K V).mem []
  | call {m m' : Mem K V} {l : List (Ev K V)} {fuel : Nat} {op : Call K V} {a : Ans K V} : Mixed m l → Ample fuel → op.forward = true →
      Steps m (prog fuel op) m' (.ret a) → Mixed m' (l ++ [.call op a])
  | cond {m m' : Mem K V} {l : List (Ev K V)} {fuel : Nat} {k : K} {v : V} {p : V → Bool} {b sat : Bool} : Mixed m l → Ample fuel →
      (∀ a, Ev.call (.api (.delete k v)) a ∉ l) → Steps m (condInsert fuel k v p fuel) m' (.ret (b, sat)) → Mixed m' (l ++ [.cond k v p b sat])

/-- What ConditionalInsert should return on the set `S`, and which set it should leave. -/
def condStep (S : Spec.PairSet K V) (k : K) (v : V) (p : V → Bool) (b sat : Bool) (S' : Spec.PairSet K V) : Prop :=
  (b = true ↔ ¬ S k v ∧ ∀ u, S k u → p u = false) ∧ (sat = true → ∃ u, S k u ∧ p u = true) ∧
  (¬ S k v → (∃ u, S k u ∧ p u = true) → sat = true) ∧ ∀ k' v', S' k' v' ↔ S k' v' ∨ (b = true ∧ k' = k ∧ v' = v)

/-- What a call may return on the set `S`, and which set it leaves, with ConditionalInsert. -/
def cstep (S : Spec.PairSet K V) : CCall K V → CAns K V → Spec.PairSet K V → Prop
  | .plain op, .plain a, S' => tstep S op a S'
  | .cond k v p, .cond b sat, S' => condStep S k v p b sat S'
  | _, _, _ => False

/-- The specification run from the empty set. -/
inductive MixedRun : List (Ev K V) → Spec.PairSet K V → Prop where
  | init {S : Spec.PairSet K V} : (∀ k v, S k v ↔ False) → MixedRun [] S
  | call {l : List (Ev K V)} {S S' : Spec.PairSet K V} {op : Call K V} {a : Ans K V} : MixedRun l S → seqStep S op a S' →
      MixedRun (l ++ [.call op a]) S'
  | cond {l : List (Ev K V)} {S S' : Spec.PairSet K V} {k : K} {v : V} {p : V → Bool} {b sat : Bool} : MixedRun l S → condStep S k v p b sat S' →
      MixedRun (l ++ [.cond k v p b sat]) S'

end Tree
end BwTree
