import Verif.Model.GarbageList

/-!
  Use of a tree's metadata over its life: operations of threads, epoch ticks, and changes of the number of threads.
-/

namespace BwTree
namespace GC
namespace Rec

/-- Following `next_p` from `h` visits the records at the addresses `as` and ends with nullptr; they hold `gs` (object, epoch). -/
def Seg (heap : Nat → Option Node) : Option Nat → List Nat → List (Nat × Nat) → Prop
  | none, [], [] => True
  | some a, b :: as, g :: gs => a = b ∧ ∃ nx, heap a = some ⟨g.2, g.1, nx⟩ ∧ Seg heap nx as gs
  | _, _, _ => False

/-- No operation is running. -/
def Quiet (s : State) : Prop := ∀ t, s.pc t = .idle

/-- What happens to a tree: a step of a thread or of the thread that advances the epoch (`a`: the address `new` returns if the step
allocates), or UpdateThreadLocal. -/
inductive Ev where
  | act (a : Nat) (x : Act)
  | update (n : Nat)

/-- Usage contract: one thread calls IncreaseEpoch, threads are unregistered only between operations, `new` returns an address at which
no record lives, UpdateThreadLocal is called while no operation runs, before the epoch counter reaches 2^64 - 1. -/
def Allowed (s : State) : Ev → Prop
  | .act a x => s.heap a = none ∧
    match x with
    | .tickRead k => k = 0
    | .tickWrite k => k = 0
    | .unregister t => s.pc t = .idle
    | _ => True
  | .update _ => Quiet s ∧ s.epoch < UMAX

/-- The outcome of an event. `ok none`: not enabled. -/
def happen (s : State) : Ev → Except Fault (Option State)
  | .act a x => step a s x
  | .update n => (updateThreadLocal n s).map some

/-- The tree is in state `s'` after the events. -/
inductive Exec : State → List Ev → State → Prop where
  | nil (s : State) : Exec s [] s
  | cons {s s' s'' : State} {e : Ev} {es : List Ev} : Allowed s e → happen s e = .ok (some s') → Exec s' es s'' → Exec s (e :: es) s''

end Rec
end GC
end BwTree
