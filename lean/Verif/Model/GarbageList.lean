import Verif.Model.EpochGC

/-!
  The per-thread garbage lists of `Model/EpochGC` as linked records, and the functions that create, replace and destroy the array of
  per-thread metadata: GarbageNode (bwtree.h 210-233), GCMetaData (238-271), DestroyThreadLocal (346), PrepareThreadLocal (372), SetThreadNum
  (408), AddGarbageNode (9393), PerformGC (9429), ClearThreadLocalGarbage (2739), UpdateThreadLocal (2767), and the part of the destructors
  (2714, 431) that deals with them; RegisterThread (480) and AssignGCID (453).

  The interleaved steps are those of `GC.Act`, with the same granularity. Here an access to a record that was deleted, to the array
  after `free` or beyond its end, and a failing assertion are faults. Addresses of records are natural numbers; `new` (9395) may return any
  address at which no record lives, also one that was in use before. The address arithmetic of the array is in `Model/ThreadLocal`. `malloc`
  and `new` do not fail.
-/

namespace BwTree
namespace GC
namespace Rec

/-- class GarbageNode (210). `next = none` is nullptr. -/
structure Node where
  epoch : Nat              -- delete_epoch
  obj : Nat                -- node_p
  next : Option Nat        -- next_p
  deriving DecidableEq, Repr

/-- What `last_p` (259) points to: the header inside the metadata, or a record. -/
inductive Loc where
  | header
  | node (a : Nat)
  deriving DecidableEq, Repr

/-- class GCMetaData (238). Of `header` only `next_p` is ever used. -/
structure Slot where
  lae : Nat                -- last_active_epoch
  head : Option Nat        -- header.next_p
  last : Loc               -- last_p
  count : Nat              -- node_count
  deriving DecidableEq, Repr

/-- GCMetaData() (265). -/
def Slot.new : Slot := ⟨0, none, .header, 0⟩

inductive Fault where
  | gcId             -- assertion 540: the thread's id is not below thread_num
  | outOfArray       -- access beyond the metadata array, or to the array after it was freed
  | useAfterDelete   -- access to a garbage record after `delete`
  | count            -- assertion 9452
  | notCollected     -- assertion 2752
  | pending          -- assertion 354
  | noThread         -- assertion 560
  | fuel             -- the loop of PerformGC did not end within the given number of iterations
  deriving DecidableEq, Repr

/-- The fields of BwTreeBase, the records that exist, and the fields of `GC.State` that this file does not replace. -/
structure State where
  epoch : Nat
  threadNum : Nat                    -- thread_num
  arr : Option (List Slot)           -- the array gc_metadata_p; `none`: freed
  heap : Nat → Option Node           -- the garbage records that exist
  pc : Nat → PC
  st : Nat → Status
  tick : Nat → Option Nat
  freed : List Nat                   -- log of FreeEpochDeltaChain calls (9449), newest first
  clock : Nat
  joinT : Nat → Nat
  outT : Nat → Nat

/-- GetGCMetaData (538). -/
def getSlot (s : State) (i : Nat) : Except Fault Slot :=
  if i < s.threadNum then
    match s.arr with
    | none => throw .outOfArray
    | some l =>
      match l[i]? with
      | none => throw .outOfArray
      | some x => pure x
  else throw .gcId

/-- A store to the metadata of thread `i`. -/
def setSlot (s : State) (i : Nat) (x : Slot) : State := { s with arr := s.arr.map (fun l => l.set i x) }

/-- AddGarbageNode 9394-9406 with `new` returning `a`: the record is linked to the end of the list. `d` is the epoch that was read. -/
def append (s : State) (t a o d : Nat) : Except Fault State := do
  let x ← getSlot s t
  let heap := upd s.heap a (some ⟨d, o, none⟩)
  match x.last with
  | .header => pure (setSlot { s with heap := heap } t { x with head := some a, last := .node a, count := x.count + 1 })
  | .node b =>
    match heap b with
    | none => throw .useAfterDelete
    | some n =>
      pure (setSlot { s with heap := upd heap b (some { n with next := some a }) } t { x with last := .node a, count := x.count + 1 })

/-- One iteration of the loop of PerformGC (9441-9456) on the list of thread `t`, or its end (9441, 9460-9462). The flag says whether the
loop goes on. -/
def collectOnce (s : State) (t m : Nat) : Except Fault (State × Bool) := do
  let x ← getSlot s t
  match x.head with
  | none => pure (setSlot s t { x with last := .header }, false)
  | some a =>
    match s.heap a with
    | none => throw .useAfterDelete
    | some n =>
      if n.epoch < m then
        if x.count = 0 then throw .count
        else pure (setSlot { s with heap := upd s.heap a none, st := upd s.st n.obj .freed, freed := n.obj :: s.freed } t
                    { x with head := n.next, count := x.count - 1 }, true)
      else pure (s, false)

/-- One step, as `GC.step'`. `a` is the address `new` returns if the step allocates. `ok none`: not enabled. -/
def step' (a : Nat) (s : State) : Act → Except Fault (Option State)
  | .joinRead t =>
    if s.pc t = .idle then do
      let _ ← getSlot s t
      pure (some { s with pc := upd s.pc t (.joining s.epoch) })
    else pure none
  | .joinStore t =>
    match s.pc t with
    | .joining e => do
      let x ← getSlot s t
      pure (some { setSlot s t { x with lae := e } with pc := upd s.pc t .active, joinT := upd s.joinT t s.clock })
    | _ => pure none
  | .link t o =>
    pure (if s.pc t = .active ∧ s.st o = .fresh then some { s with st := upd s.st o .linked } else none)
  | .make t o =>
    pure (if s.pc t = .active ∧ s.st o = .fresh then some { s with st := upd s.st o (.owned t), outT := upd s.outT o s.clock } else none)
  | .unlink t o =>
    pure (if s.pc t = .active ∧ s.st o = .linked then some { s with st := upd s.st o (.owned t), outT := upd s.outT o s.clock } else none)
  | .addRead t o =>
    pure (if s.pc t = .active ∧ s.st o = .owned t then some { s with pc := upd s.pc t (.adding o s.epoch) } else none)
  -- AddGarbageNode 9394-9415
  | .addLink t =>
    match s.pc t with
    | .adding o d => do
      let s1 ← append s t a o d
      let x ← getSlot s1 t
      pure (some { s1 with st := upd s1.st o .retired,
                           pc := upd s1.pc t (if THRESHOLD < x.count then .summing 0 0 else .active) })
    | _ => pure none
  -- SummarizeGCEpoch 559-573
  | .gcRead t =>
    match s.pc t with
    | .summing i m =>
      if s.threadNum = 0 then throw .noThread
      else do
        let x ← getSlot s i
        let m' := if i = 0 then x.lae else min x.lae m
        pure (some { s with pc := upd s.pc t (if i + 1 < s.threadNum then .summing (i + 1) m' else .freeing m') })
    | _ => pure none
  | .gcFree t =>
    match s.pc t with
    | .freeing m => do
      let r ← collectOnce s t m
      pure (some (if r.2 then r.1 else { r.1 with pc := upd r.1.pc t .active }))
    | _ => pure none
  | .leaveRead t =>
    pure (if s.pc t = .active then some { s with pc := upd s.pc t (.leaving s.epoch) } else none)
  | .leaveStore t =>
    match s.pc t with
    | .leaving e => do
      let x ← getSlot s t
      pure (some { setSlot s t { x with lae := e } with pc := upd s.pc t .idle })
    | _ => pure none
  | .tickRead k =>
    match s.tick k with
    | none => pure (some { s with tick := upd s.tick k (some s.epoch) })
    | some _ => pure none
  | .tickWrite k =>
    match s.tick k with
    | some e => pure (some { s with epoch := e + 1, tick := upd s.tick k none })
    | none => pure none
  -- UnregisterThread 518
  | .unregister t => do
    let x ← getSlot s t
    pure (some (setSlot s t { x with lae := UMAX }))

/-- A step also advances the ghost clock. -/
def step (a : Nat) (s : State) (x : Act) : Except Fault (Option State) := step' a { s with clock := s.clock + 1 } x

/-! #### Functions that are called while no operation runs -/

/-- UnregisterThread (518) for the threads `i, …, i+k-1` (the loop 2742-2744). -/
def unregisterAll : Nat → Nat → State → Except Fault State
  | 0, _, s => pure s
  | k + 1, i, s => do
    let x ← getSlot s i
    unregisterAll k (i + 1) (setSlot s i { x with lae := UMAX })

/-- The loop of SummarizeGCEpoch (567-573), starting at thread `i`. -/
def minLoop (s : State) : Nat → Nat → Nat → Except Fault Nat
  | 0, _, m => pure m
  | k + 1, i, m => do
    let x ← getSlot s i
    minLoop s k (i + 1) (min x.lae m)

/-- SummarizeGCEpoch (559). -/
def summarize (s : State) : Except Fault Nat :=
  if s.threadNum = 0 then throw .noThread
  else do
    let x ← getSlot s 0
    minLoop s (s.threadNum - 1) 1 x.lae

/-- The loop of PerformGC (9441). -/
def collectLoop : Nat → State → Nat → Nat → Except Fault State
  | 0, _, _, _ => throw .fuel
  | k + 1, s, t, m => do
    let r ← collectOnce s t m
    if r.2 then collectLoop k r.1 t m else pure r.1

/-- PerformGC (9429) for thread `t`. The number of iterations is limited to one more than node_count. -/
def performGC (s : State) (t : Nat) : Except Fault State := do
  let m ← summarize s
  let x ← getSlot s t
  collectLoop (x.count + 1) s t m

/-- PerformGC and the assertion 2752 for the threads `i, …, i+k-1` (the loop 2746-2753). -/
def clearLoop : Nat → Nat → State → Except Fault State
  | 0, _, s => pure s
  | k + 1, i, s => do
    let s1 ← performGC s i
    let x ← getSlot s1 i
    if x.count = 0 then clearLoop k (i + 1) s1 else throw .notCollected

/-- ClearThreadLocalGarbage (2739). -/
def clearGarbage (s : State) : Except Fault State := do
  let s1 ← unregisterAll s.threadNum 0 s
  clearLoop s1.threadNum 0 s1

/-- The loop of DestroyThreadLocal (353-357). -/
def destroyLoop (s : State) : Nat → Nat → Except Fault Unit
  | 0, _ => pure ()
  | k + 1, i => do
    let x ← getSlot s i
    if x.head = none then destroyLoop s k (i + 1) else throw .pending

/-- DestroyThreadLocal (346). -/
def destroyThreadLocal (s : State) : Except Fault State := do
  destroyLoop s s.threadNum 0
  pure { s with arr := none }

/-- SetThreadNum (408). -/
def setThreadNum (n : Nat) (s : State) : State := { s with threadNum := n }

/-- PrepareThreadLocal (372). -/
def prepareThreadLocal (s : State) : State := { s with arr := some (List.replicate s.threadNum Slot.new) }

/-- UpdateThreadLocal (2767). -/
def updateThreadLocal (n : Nat) (s : State) : Except Fault State := do
  let s1 ← clearGarbage s
  let s2 ← destroyThreadLocal s1
  pure (prepareThreadLocal (setThreadNum n s2))

/-- What ~BwTree (2720) and ~BwTreeBase (433) do with the metadata. (FreeNodeByNodeID, called in between, does not touch it.) -/
def tearDown (s : State) : Except Fault State := do
  let s1 ← clearGarbage s
  destroyThreadLocal s1

/-- BwTreeBase() (415) for `n` registered threads. -/
def create (n : Nat) : State :=
  prepareThreadLocal
    { epoch := 0, threadNum := n, arr := none, heap := fun _ => none, pc := fun _ => .idle, st := fun _ => .fresh,
      tick := fun _ => none, freed := [], clock := 0, joinT := fun _ => 0, outT := fun _ => 0 }

/-! #### Thread ids -/

/-- The static members: total_thread_num (315) and the thread local gc_id (311) of every thread, and the trees created so far with their
thread_num, newest first. -/
structure Registry where
  total : Nat
  gcId : Nat → Int
  trees : List Nat

/-- What threads do with ids. -/
inductive RegAct where
  | register (t : Nat)             -- RegisterThread (480), called by thread `t`
  | assign (t : Nat) (id : Int)    -- AssignGCID (453), called by thread `t`
  | create                         -- BwTreeBase() (415)
  deriving DecidableEq, Repr

/-- Initially no thread is registered; gc_id is -1. -/
def Registry.init : Registry := ⟨0, fun _ => -1, []⟩

def Registry.step (r : Registry) : RegAct → Registry
  | .register t => { r with total := r.total + 1, gcId := upd r.gcId t r.total }
  | .assign t id => { r with gcId := upd r.gcId t id }
  | .create => { r with trees := r.total :: r.trees }

end Rec
end GC
end BwTree
