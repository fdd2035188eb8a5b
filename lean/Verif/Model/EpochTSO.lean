import Verif.Model.EpochGC

/-!
# The epoch counters on a machine with store buffers

`epoch` and `last_active_epoch` are plain integers (bwtree.h 245, 332) that are written without fences: JoinEpoch stores the
epoch and goes on to load pointers from the mapping table. On x86 such a store waits in a buffer of the processor while later
loads are already executed. Here every thread has a first-in first-out buffer of its stores to these counters; a thread sees
its own buffered stores, the others see memory; compare-exchange instructions wait for the buffer to drain. Everything else
is as in `Model/EpochGC`. The C++ standard calls these accesses data races; this is what compiled code does if the compiler
keeps them in program order. UnregisterThread (518) is only in `ustep`.
-/

namespace BwTree
namespace GC

/-- A buffered store: to `epoch` (`true`) or to the thread's own `last_active_epoch` (`false`). -/
abbrev Store := Bool × Nat

/-- What a thread reads from a counter whose value in memory is `mem`: its own last buffered store to it, if there is one. -/
def look (b : Bool) (mem : Nat) : List Store → Nat
  | [] => mem
  | (b', v) :: l => look b (if b' = b then v else mem) l

/-- Memory, and the store buffers, oldest store first. -/
structure TState where
  g : State
  buf : Nat → List Store

/-- A step of the program, or the oldest store of a buffer reaches memory. -/
inductive TAct where
  | act (a : Act)
  | flush (t : Nat)
  deriving DecidableEq, Repr

/-- One step. `T` is the thread that calls IncreaseEpoch (492). -/
def tstep' (n T : Nat) (s : TState) : TAct → Option TState
  -- UpdateLastActiveEpoch 507 in JoinEpoch 8161: load of the epoch, then store
  | .act (.joinRead t) =>
    if t < n ∧ s.g.pc t = .idle then some { s with g := { s.g with pc := upd s.g.pc t (.joining (look true s.g.epoch (s.buf t))) } } else none
  | .act (.joinStore t) =>
    match s.g.pc t with
    | .joining e => some { g := { s.g with pc := upd s.g.pc t .active, joinT := upd s.g.joinT t s.g.clock }, buf := upd s.buf t (s.buf t ++ [(false, e)]) }
    | _ => none
  -- compare-exchange on the mapping table: the buffer is empty
  | .act (.link t o) => if s.buf t = [] then (step' n s.g (.link t o)).map fun g => { s with g := g } else none
  | .act (.unlink t o) => if s.buf t = [] then (step' n s.g (.unlink t o)).map fun g => { s with g := g } else none
  | .act (.make t o) => (step' n s.g (.make t o)).map fun g => { s with g := g }
  -- AddGarbageNode 9394-9396
  | .act (.addRead t o) =>
    if s.g.pc t = .active ∧ s.g.st o = .owned t then
      some { s with g := { s.g with pc := upd s.g.pc t (.adding o (look true s.g.epoch (s.buf t))) } } else none
  | .act (.addLink t) => (step' n s.g (.addLink t)).map fun g => { s with g := g }
  -- SummarizeGCEpoch 563-573
  | .act (.gcRead t) =>
    match s.g.pc t with
    | .summing i m =>
      let v := if i = t then look false (s.g.lae i) (s.buf t) else s.g.lae i
      let m' := if i = 0 then v else min v m
      some { s with g := { s.g with pc := upd s.g.pc t (if i + 1 < n then .summing (i + 1) m' else .freeing m') } }
    | _ => none
  | .act (.gcFree t) => (step' n s.g (.gcFree t)).map fun g => { s with g := g }
  -- UpdateLastActiveEpoch in LeaveEpoch 8167
  | .act (.leaveRead t) =>
    if s.g.pc t = .active then some { s with g := { s.g with pc := upd s.g.pc t (.leaving (look true s.g.epoch (s.buf t))) } } else none
  | .act (.leaveStore t) =>
    match s.g.pc t with
    | .leaving e => some { g := { s.g with pc := upd s.g.pc t .idle }, buf := upd s.buf t (s.buf t ++ [(false, e)]) }
    | _ => none
  -- IncreaseEpoch 492
  | .act (.tickRead k) =>
    if k = T ∧ s.g.tick k = none then some { s with g := { s.g with tick := upd s.g.tick k (some (look true s.g.epoch (s.buf k))) } } else none
  | .act (.tickWrite k) =>
    match s.g.tick k with
    | some e => if k = T then some { g := { s.g with tick := upd s.g.tick k none }, buf := upd s.buf k (s.buf k ++ [(true, e + 1)]) } else none
    | none => none
  | .act (.unregister _) => none
  | .flush t =>
    match s.buf t with
    | [] => none
    | (true, v) :: l => some { g := { s.g with epoch := v }, buf := upd s.buf t l }
    | (false, v) :: l => some { g := { s.g with lae := upd s.g.lae t v }, buf := upd s.buf t l }

/-- A step also advances the ghost clock. -/
def tstep (n T : Nat) (s : TState) (a : TAct) : Option TState := tstep' n T { s with g := { s.g with clock := s.g.clock + 1 } } a

/-- As `GC.init`, with empty buffers. -/
def tinit : TState := ⟨init, fun _ => []⟩

/-- Executions. -/
def trun (n T : Nat) : TState → List TAct → Option TState
  | s, [] => some s
  | s, a :: as => (tstep n T s a).bind (fun s' => trun n T s' as)

/-- As `tstep`, and UnregisterThread 518: a store like that of JoinEpoch, called by the thread itself between operations. The counters
are unbounded here; that the old value is at most 2^64 - 1 is a condition. -/
def ustep (n T : Nat) (s : TState) : TAct → Option TState
  | .act (.unregister t) =>
    if t < n ∧ s.g.pc t = .idle ∧ look false (s.g.lae t) (s.buf t) ≤ UMAX then
      some { g := { s.g with clock := s.g.clock + 1 }, buf := upd s.buf t (s.buf t ++ [(false, UMAX)]) } else none
  | a => tstep n T s a

/-- Executions with UnregisterThread. -/
def urun (n T : Nat) : TState → List TAct → Option TState
  | s, [] => some s
  | s, a :: as => (ustep n T s a).bind (fun s' => urun n T s' as)

end GC
end BwTree
