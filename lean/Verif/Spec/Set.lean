/-!
  The abstract object a BwTree implements: a set of (key, value) pairs, and what each API call may
  return and do to that set. No part of the model is mentioned here.
-/

namespace BwTree
namespace Spec

variable {K V : Type}

/-- API calls (bwtree.h 7353 Insert, 7556 Delete, 7638 GetValue). -/
inductive Op (K V : Type) where
  | insert (k : K) (v : V)
  | delete (k : K) (v : V)
  | get (k : K)
  deriving Repr, DecidableEq

/-- What a call returns. -/
inductive Res (V : Type) where
  | bool (b : Bool)
  | values (l : List V)
  deriving Repr, DecidableEq

/-- A set of pairs. -/
abbrev PairSet (K V : Type) := K → V → Prop

/-- `step S op r S'`: executed atomically on the set `S`, `op` may return `r` and leave the set `S'`. -/
def step (S : PairSet K V) : Op K V → Res V → PairSet K V → Prop
  | .insert k v, .bool b, S' => (b = true ↔ ¬ S k v) ∧ ∀ k' v', S' k' v' ↔ (S k' v' ∨ (k' = k ∧ v' = v))
  | .delete k v, .bool b, S' => (b = true ↔ S k v) ∧ ∀ k' v', S' k' v' ↔ (S k' v' ∧ ¬ (k' = k ∧ v' = v))
  | .get k, .values l, S' => l.Nodup ∧ (∀ v, v ∈ l ↔ S k v) ∧ ∀ k' v', S' k' v' ↔ S k' v'
  | _, _, _ => False

/-- A sequence of calls with their results, executed one after the other. -/
inductive Run : PairSet K V → List (Op K V × Res V) → PairSet K V → Prop where
  | nil (S : PairSet K V) : Run S [] S
  | cons {S S' S'' : PairSet K V} {op r rest} : step S op r S' → Run S' rest S'' → Run S ((op, r) :: rest) S''

end Spec
end BwTree
