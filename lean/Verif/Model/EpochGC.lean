/-!
  Epoch based garbage collection (the mechanism in use, `USE_OLD_EPOCH` off): BwTreeBase (bwtree.h 193-576), the
  EpochManager wrappers (8155-8178), AddGarbageNode (9393) and PerformGC (9429).

  One transition per access to shared data. `epoch` and `last_active_epoch` are plain `uint64_t` in the code; they are
  modelled as sequentially consistent natural numbers without wrap around. `epoch++` (493) is a read step followed by
  a write step. The garbage list is thread-local; here it is a list (its linked records
  are in `Model/GarbageList`). Memory objects are abstract: a worker between JoinEpoch and LeaveEpoch makes new objects
  reachable (`link`), makes objects unreachable for operations that start later (`unlink`: a successful CAS on the mapping
  table) and retires what it made unreachable or never published (AddGarbageNode). `clock`, `joinT` and `outT` are ghost
  fields that record when an operation started and when an object became unreachable: an operation may use every object that
  did not become unreachable before the operation started.
-/

namespace BwTree
namespace GC


/-- 0xFFFFFFFFFFFFFFFF, stored by UnregisterThread (518). -/
def UMAX : Nat := 2 ^ 64 - 1

/-- GC_NODE_COUNT_THREADHOLD (201). -/
def THRESHOLD : Nat := 1024

/-- Where an object is in its life. `owned u`: made unreachable (or never published) by thread `u` and not yet retired. -/
inductive Status where
  | fresh
  | linked
  | owned (u : Nat)
  | retired
  | freed
  deriving DecidableEq, Repr

/-- Program counter of a worker thread. -/
inductive PC where
  | idle
  | joining (e : Nat)              -- UpdateLastActiveEpoch (507) in JoinEpoch (8161), epoch read, not yet stored
  | active                         -- between JoinEpoch and LeaveEpoch
  | adding (o : Nat) (d : Nat)     -- AddGarbageNode: epoch `d` read (9395), node not yet appended
  | summing (i : Nat) (m : Nat)    -- SummarizeGCEpoch (559): threads `0..i` read, minimum so far `m`
  | freeing (m : Nat)              -- loop of PerformGC (9441) with min_epoch = m
  | leaving (e : Nat)              -- UpdateLastActiveEpoch in LeaveEpoch (8167)
  deriving DecidableEq, Repr

structure State where
  epoch : Nat
  lae : Nat → Nat                    -- last_active_epoch
  pc : Nat → PC
  garb : Nat → List (Nat × Nat)      -- garbage list, oldest first, with delete_epoch
  cnt : Nat → Nat                    -- node_count
  st : Nat → Status
  tick : Nat → Option Nat            -- callers of IncreaseEpoch (492): value read
  freed : List Nat                   -- log of FreeEpochDeltaChain calls (9449), newest first
  clock : Nat                        -- ghost: number of steps so far
  joinT : Nat → Nat                  -- ghost: time at which the thread's operation started
  outT : Nat → Nat                   -- ghost: time at which the object became unreachable

inductive Act where
  | joinRead (t : Nat)
  | joinStore (t : Nat)
  | link (t : Nat) (o : Nat)
  | make (t : Nat) (o : Nat)
  | unlink (t : Nat) (o : Nat)
  | addRead (t : Nat) (o : Nat)
  | addLink (t : Nat)
  | gcRead (t : Nat)
  | gcFree (t : Nat)
  | leaveRead (t : Nat)
  | leaveStore (t : Nat)
  | tickRead (k : Nat)
  | tickWrite (k : Nat)
  | unregister (t : Nat)
  deriving DecidableEq, Repr

def upd {α : Type} (f : Nat → α) (i : Nat) (x : α) : Nat → α := fun j => if j = i then x else f j

/-- One step; `none` = not enabled. `n` is thread_num (`GetGCMetaData` 538 asserts `thread_id < thread_num`). -/
def step' (n : Nat) (s : State) : Act → Option State
  | .joinRead t =>
    if t < n ∧ s.pc t = .idle then some { s with pc := upd s.pc t (.joining s.epoch) } else none
  | .joinStore t =>
    match s.pc t with
    | .joining e => some { s with lae := upd s.lae t e, pc := upd s.pc t .active, joinT := upd s.joinT t s.clock }
    | _ => none
  -- a new object becomes reachable
  | .link t o =>
    if s.pc t = .active ∧ s.st o = .fresh then some { s with st := upd s.st o .linked } else none
  -- a new object that is not published (e.g. the right half of a split whose CAS failed)
  | .make t o =>
    if s.pc t = .active ∧ s.st o = .fresh then some { s with st := upd s.st o (.owned t), outT := upd s.outT o s.clock } else none
  -- successful CAS that makes `o` unreachable
  | .unlink t o =>
    if s.pc t = .active ∧ s.st o = .linked then some { s with st := upd s.st o (.owned t), outT := upd s.outT o s.clock } else none
  -- AddGarbageNode 9394-9396
  | .addRead t o =>
    if s.pc t = .active ∧ s.st o = .owned t then some { s with pc := upd s.pc t (.adding o s.epoch) } else none
  -- AddGarbageNode 9400-9415
  | .addLink t =>
    match s.pc t with
    | .adding o d =>
      some { s with garb := upd s.garb t (s.garb t ++ [(o, d)]), cnt := upd s.cnt t (s.cnt t + 1),
                    st := upd s.st o .retired,
                    pc := upd s.pc t (if THRESHOLD < s.cnt t + 1 then .summing 0 0 else .active) }
    | _ => none
  -- SummarizeGCEpoch 563-573, one thread record per step
  | .gcRead t =>
    match s.pc t with
    | .summing i m =>
      let m' := if i = 0 then s.lae 0 else min (s.lae i) m
      some { s with pc := upd s.pc t (if i + 1 < n then .summing (i + 1) m' else .freeing m') }
    | _ => none
  -- PerformGC 9441-9465, one iteration per step
  | .gcFree t =>
    match s.pc t with
    | .freeing m =>
      match s.garb t with
      | [] => some { s with pc := upd s.pc t .active }
      | (o, d) :: rest =>
        if d < m then
          some { s with garb := upd s.garb t rest, cnt := upd s.cnt t (s.cnt t - 1), st := upd s.st o .freed,
                        freed := o :: s.freed }
        else some { s with pc := upd s.pc t .active }
    | _ => none
  -- LeaveEpoch (8167): the operation does not use shared objects any more
  | .leaveRead t =>
    if s.pc t = .active then some { s with pc := upd s.pc t (.leaving s.epoch) } else none
  | .leaveStore t =>
    match s.pc t with
    | .leaving e => some { s with lae := upd s.lae t e, pc := upd s.pc t .idle }
    | _ => none
  -- IncreaseEpoch 492: `epoch++` on a plain integer
  | .tickRead k =>
    match s.tick k with
    | none => some { s with tick := upd s.tick k (some s.epoch) }
    | some _ => none
  | .tickWrite k =>
    match s.tick k with
    | some e => some { s with epoch := e + 1, tick := upd s.tick k none }
    | none => none
  -- UnregisterThread 518
  | .unregister t =>
    if t < n then some { s with lae := upd s.lae t UMAX } else none

/-- A step also advances the ghost clock. -/
def step (n : Nat) (s : State) (a : Act) : Option State := step' n { s with clock := s.clock + 1 } a

/-- GCMetaData() (265), BwTreeBase() (441). -/
def init : State :=
  { epoch := 0, lae := fun _ => 0, pc := fun _ => .idle, garb := fun _ => [], cnt := fun _ => 0,
    st := fun _ => .fresh, tick := fun _ => none, freed := [],
    clock := 0, joinT := fun _ => 0, outT := fun _ => 0 }

def run (n : Nat) : State → List Act → Option State
  | s, [] => some s
  | s, a :: as => (step n s a).bind (fun s' => run n s' as)

end GC
end BwTree
