/-!
  Linearizability (Herlihy and Wing) of call/return histories with respect to a sequential specification. Nothing of the model is
  mentioned here.
-/

namespace BwTree
namespace Lin

variable {S Op Res : Type}

/-- A call or a return, with the thread that made it. -/
inductive Event (Op Res : Type) where
  | call (t : Nat) (op : Op)
  | ret (t : Nat) (r : Res)
  deriving Repr, DecidableEq

/-- The thread of an event. -/
def Event.tid : Event Op Res → Nat
  | .call t _ => t
  | .ret t _ => t

/-- Rename operations and results. -/
def Event.map {Op' Res' : Type} (f : Op → Op') (g : Res → Res') : Event Op Res → Event Op' Res'
  | .call t op => .call t (f op)
  | .ret t r => .ret t (g r)

/-- The call at position `i` of the history returns `r` at position `j`: the next event of the same thread. -/
def Returns (H : List (Event Op Res)) (i j : Nat) (r : Res) : Prop :=
  i < j ∧ ∃ t op, H[i]? = some (.call t op) ∧ H[j]? = some (.ret t r) ∧
    ∀ m e, i < m → m < j → H[m]? = some e → e.tid ≠ t

/-- Sequential execution: `step s op r s'` = in state `s` the operation may return `r` and leave `s'`. -/
inductive Run (step : S → Op → Res → S → Prop) : S → List (Op × Res) → S → Prop where
  | nil (s : S) : Run step s [] s
  | cons {s s' s'' : S} {op r rest} : step s op r s' → Run step s' rest s'' → Run step s ((op, r) :: rest) s''

/-- There is a sequence of operations (each given by the position of its call, with a result) that
* contains no operation twice and only operations that were called,
* contains every operation that returned, with the result it returned (operations still running may be left out),
* never puts an operation before one that had returned before it was called,
* is a sequential execution of the specification. -/
def Linearizable (step : S → Op → Res → S → Prop) (s0 : S) (H : List (Event Op Res)) : Prop :=
  ∃ lin : List (Nat × Op × Res),
    (lin.map (·.1)).Nodup ∧
    (∀ x ∈ lin, ∃ t, H[x.1]? = some (.call t x.2.1)) ∧
    (∀ i j r, Returns H i j r → ∃ op, (i, op, r) ∈ lin) ∧
    lin.Pairwise (fun a b => ¬ ∃ j r, Returns H b.1 j r ∧ j < a.1) ∧
    ∃ s', Run step s0 (lin.map (·.2)) s'

end Lin
end BwTree
