import Verif.Model.EpochGC

/-!
  The counting epoch manager, compiled in with `USE_OLD_EPOCH` (bwtree.h 7792-8180, 8373-8452; the switch at line 91 is
  commented out in this commit).

  One transition per access to shared data. Epoch nodes are numbered in the order of their creation; the list they form
  (`next_p`) is then the sequence of numbers, `head` is `head_epoch_p`, the last number is `current_epoch_p`, and the node
  numbered `e` has been deleted exactly if `e < head`. Addresses of deleted epoch nodes are not used again. An access to a
  deleted node is undefined behaviour and a separate outcome. `active_thread_count` is an unbounded integer. A garbage
  list is a list of objects: its nodes are added at the front only and deleted together with the epoch, so two lists
  are equal if and only if their head pointers are. Objects, `link`, `make`, `unlink` and the ghost fields
  `clock`, `joinT`, `outT` are as in `Verif.Model.EpochGC`.
-/

namespace BwTree
namespace OldEpoch

open GC (Status upd)

/-- MAX_THREAD_COUNT (146). -/
def MAXT : Int := 2147483647

/-- Program counter of a worker thread. -/
inductive PC where
  | idle                                            -- not inside an operation, or at `try_join_again` (8070)
  | joinAdd (e : Nat)                               -- current_epoch_p read (8074), fetch_add to come (8076)
  | joinUndo (e : Nat)                              -- negative count seen, fetch_sub to come (8090)
  | active (e : Nat)                                -- JoinEpoch returned epoch e
  | addLoad (e : Nat) (o : Nat) (c : Nat)           -- AddGarbageNode: epoch_p = c (8028)
  | addCas (e : Nat) (o : Nat) (c : Nat) (l : List Nat) -- expected list l read (8034)
  deriving DecidableEq, Repr

/-- Program counter of the thread that runs PerformGarbageCollection (8128). -/
inductive GPC where
  | idle
  | test                       -- 8377: head_epoch_p == current_epoch_p ?
  | load                       -- 8386
  | sub                        -- 8403
  | addBack                    -- 8409
  | glist                      -- 8424: load of the garbage list
  | free (l : List Nat)        -- 8424-8435
  | del                        -- 8439-8453
  | create                     -- CreateNewEpoch 7986
  | done                       -- ~EpochManager (7918): ClearEpoch returned
  deriving DecidableEq, Repr

structure State where
  n : Nat                      -- number of epoch nodes created
  head : Nat
  down : Bool                  -- current_epoch_p is nullptr (7946)
  cnt : Nat → Int              -- active_thread_count
  garb : Nat → List Nat        -- garbage_list_p
  pc : Nat → PC
  gc : GPC
  st : Nat → Status
  freed : List Nat             -- log of FreeEpochDeltaChain calls (8427)
  clock : Nat
  joinT : Nat → Nat
  outT : Nat → Nat

inductive Act where
  | joinRead (t : Nat)
  | joinAdd (t : Nat)
  | joinUndo (t : Nat)
  | link (t : Nat) (o : Nat)
  | make (t : Nat) (o : Nat)
  | unlink (t : Nat) (o : Nat)
  | addRead (t : Nat) (o : Nat)
  | addLoad (t : Nat)
  | addCas (t : Nat)
  | leave (t : Nat)
  | gc                         -- next step of the cleaner thread
  | shutdown                   -- ~EpochManager 7918-7946
  deriving DecidableEq, Repr

/-- Result of a step: `off` = not enabled, `ub` = access to a deleted epoch node, `crash` = failed assertion. -/
inductive Res where
  | ok (s : State)
  | ub
  | crash
  | off

def guardR (c : Bool) (r : Res) : Res := if c then r else .off

/-- Access to epoch node `e`. -/
def touch (s : State) (e : Nat) (r : Res) : Res := if e < s.head ∨ s.n ≤ e then .ub else r

/-- `head_epoch_p == current_epoch_p` (8377); nullptr counts as the successor of the last node. -/
def atEnd (s : State) : Bool := if s.down then s.head == s.n else s.head + 1 == s.n

/-- One iteration step of PerformGarbageCollection (8128): ClearEpoch (8373) then CreateNewEpoch (7986); with `down` set only
ClearEpoch, called by the destructor (7950). -/
def gcStep (s : State) : Res :=
  match s.gc with
  | .idle => if s.down then .off else .ok { s with gc := .test }
  | .test =>
    if atEnd s then
      .ok { s with gc := if s.down then .done else .create }
    else .ok { s with gc := .load }
  | .load =>
    touch s s.head <|
    if s.cnt s.head < 0 then .crash
    else if s.cnt s.head ≠ 0 then .ok { s with gc := if s.down then .done else .create }
    else .ok { s with gc := .sub }
  | .sub =>
    touch s s.head <|
    .ok { s with cnt := upd s.cnt s.head (s.cnt s.head - MAXT), gc := if 0 < s.cnt s.head then .addBack else .glist }
  | .addBack =>
    touch s s.head <|
    .ok { s with cnt := upd s.cnt s.head (s.cnt s.head + MAXT), gc := if s.down then .done else .create }
  | .glist => touch s s.head <| .ok { s with gc := .free (s.garb s.head) }
  | .free [] => .ok { s with gc := .del }
  | .free (o :: l) => .ok { s with gc := .free l, st := upd s.st o .freed, freed := o :: s.freed }
  | .del => touch s s.head <| .ok { s with head := s.head + 1, gc := .test }
  | .create => .ok { s with n := s.n + 1, cnt := upd s.cnt s.n 0, garb := upd s.garb s.n [], gc := .idle }
  | .done => .off

/-- One step of `N` worker threads and the cleaner thread. -/
def step' (N : Nat) (s : State) : Act → Res
  -- JoinEpoch 8074; no operation may start when the manager is being destroyed
  | .joinRead t => guardR (decide (t < N) && decide (s.pc t = .idle) && !s.down) <|
      .ok { s with pc := upd s.pc t (.joinAdd (s.n - 1)) }
  -- JoinEpoch 8076-8091
  | .joinAdd t =>
    match s.pc t with
    | .joinAdd e => touch s e <|
      if s.cnt e < 0 then .ok { s with cnt := upd s.cnt e (s.cnt e + 1), pc := upd s.pc t (.joinUndo e) }
      else .ok { s with cnt := upd s.cnt e (s.cnt e + 1), pc := upd s.pc t (.active e), joinT := upd s.joinT t s.clock }
    | _ => .off
  -- JoinEpoch 8090-8092
  | .joinUndo t =>
    match s.pc t with
    | .joinUndo e => touch s e <| .ok { s with cnt := upd s.cnt e (s.cnt e - 1), pc := upd s.pc t .idle }
    | _ => .off
  | .link t o =>
    match s.pc t with
    | .active _ => guardR (decide (s.st o = .fresh)) <| .ok { s with st := upd s.st o .linked }
    | _ => .off
  | .make t o =>
    match s.pc t with
    | .active _ => guardR (decide (s.st o = .fresh)) <|
      .ok { s with st := upd s.st o (.owned t), outT := upd s.outT o s.clock }
    | _ => .off
  | .unlink t o =>
    match s.pc t with
    | .active _ => guardR (decide (s.st o = .linked)) <|
      .ok { s with st := upd s.st o (.owned t), outT := upd s.outT o s.clock }
    | _ => .off
  -- AddGarbageNode 8028
  | .addRead t o =>
    match s.pc t with
    | .active e => guardR (decide (s.st o = .owned t)) <| .ok { s with pc := upd s.pc t (.addLoad e o (s.n - 1)) }
    | _ => .off
  -- AddGarbageNode 8034
  | .addLoad t =>
    match s.pc t with
    | .addLoad e o c => touch s c <| .ok { s with pc := upd s.pc t (.addCas e o c (s.garb c)) }
    | _ => .off
  -- AddGarbageNode 8040-8049: a failed compare_exchange_strong loads the actual list
  | .addCas t =>
    match s.pc t with
    | .addCas e o c l => touch s c <|
      if s.garb c = l then
        .ok { s with garb := upd s.garb c (o :: l), st := upd s.st o .retired, pc := upd s.pc t (.active e) }
      else .ok { s with pc := upd s.pc t (.addCas e o c (s.garb c)) }
    | _ => .off
  -- LeaveEpoch 8110
  | .leave t =>
    match s.pc t with
    | .active e => touch s e <| .ok { s with cnt := upd s.cnt e (s.cnt e - 1), pc := upd s.pc t .idle }
    | _ => .off
  | .gc => gcStep s
  -- the destructor runs when the cleaner thread has been joined (7937) and no operation is running
  | .shutdown => guardR (decide (s.gc = .idle) && (List.range N).all (fun t => decide (s.pc t = .idle)) && !s.down) <|
      .ok { s with down := true, gc := .test }

/-- A step also advances the ghost clock. -/
def step (N : Nat) (s : State) (a : Act) : Res := step' N { s with clock := s.clock + 1 } a

/-- EpochManager() (7880). -/
def init : State :=
  { n := 1, head := 0, down := false, cnt := fun _ => 0, garb := fun _ => [], pc := fun _ => .idle, gc := .idle,
    st := fun _ => .fresh, freed := [], clock := 0, joinT := fun _ => 0, outT := fun _ => 0 }

def run (N : Nat) : State → List Act → Res
  | s, [] => .ok s
  | s, a :: as =>
    match step N s a with
    | .ok s' => run N s' as
    | r => r

end OldEpoch
end BwTree
