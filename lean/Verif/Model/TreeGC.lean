import Verif.Model.TreeSem
import Verif.Model.EpochGC

/-!
  The tree together with its garbage collector: the threads of `Model/TreeSem` run their calls between JoinEpoch and LeaveEpoch of `Model/EpochGC`
  (JoinEpoch and LeaveEpoch in Insert 7360-7430, Delete 7563-7624, GetValue 7642-7648 and 7662-7669, Begin 8777-8798, LowerBound 9184-9214 and MoveBackByOne
  9290-9311), and hand what they retire to AddGarbageNode 9393.

  * A collection destroys nodes (FreeEpochDeltaChain 8180-8363, called at 9449) but does not change the memory of the model: what is destroyed is
    recorded by `GC.State.freed`, and that nothing destroyed is read has to be proved. For the same reason the mapping entry cleared by InvalidateNodeID 2821
    keeps its value.
  * A node becomes an object of the collector when it is handed to AddGarbageNode (`GC.Act.make`), not earlier when it is taken out of the tree.
  * UpdateThreadLocal 2767 changes the number of threads while no operation runs; it is one step. Its lists are those of `Model/EpochGC`; that the linked
    records of `Model/GarbageList` and their assertions agree with them is C47.
  * Several calls may be made between one JoinEpoch and LeaveEpoch (in the code only one, where each page LowerBound reads counts as a call).
-/

namespace BwTree

namespace GC

/-- The loop of PerformGC (9441-9465) when `last_active_epoch` of every thread is 2^64 - 1, on the list `l` of thread `u`. -/
def sweep (u : Nat) : List (Nat × Nat) → State → State
  | [], s => s
  | (o, d) :: rest, s =>
    if d < UMAX then
      sweep u rest { s with garb := upd s.garb u rest, cnt := upd s.cnt u (s.cnt u - 1), st := upd s.st o .freed, freed := o :: s.freed }
    else s

/-- The second loop of ClearThreadLocalGarbage (2746-2754), from thread `i` on for `k` threads. -/
def sweepAll : Nat → Nat → State → State
  | 0, _, s => s
  | k + 1, i, s => sweepAll k (i + 1) (sweep i (s.garb i) s)

/-- UpdateThreadLocal (2767) of a tree that serves `n` threads: ClearThreadLocalGarbage (2739), which first calls UnregisterThread (518) for every
thread, and new metadata for all threads (PrepareThreadLocal 372). The number of threads is not part of the state. -/
def updateThreads (n : Nat) (s : State) : State :=
  { sweepAll n 0 { s with lae := fun _ => UMAX } with lae := fun _ => 0, garb := fun _ => [], cnt := fun _ => 0 }

end GC

namespace Tree

variable {K V : Type} [LinearOrder K] [DecidableEq V] [Inhabited K]

/-- A configuration of the tree and a state of the epoch manager. -/
structure Sys (K V : Type) where
  tree : Conf K V
  gc : GC.State

/-- Actions of the epoch manager between which the tree does not matter: JoinEpoch (8161), the rest of AddGarbageNode (9400-9415), a collection (9429), the
end of LeaveEpoch (8167), IncreaseEpoch (492) by the one thread that calls it, and UnregisterThread (518). -/
def ownAct : GC.Act → Bool
  | .joinRead _ | .joinStore _ | .addLink _ | .gcRead _ | .gcFree _ | .leaveStore _ | .unregister _ => true
  | .tickRead k | .tickWrite k => k == 0
  | .link _ _ | .make _ _ | .unlink _ _ | .addRead _ _ | .leaveRead _ => false

/-- One step of tree and collector with `n` registered threads. A thread is unregistered only between operations. -/
inductive SysStep (n : Nat) : Sys K V → Sys K V → Prop where
  | own (s : Sys K V) (a : GC.Act) (g : GC.State) : ownAct a = true → (∀ t, a = .unregister t → s.gc.pc t = .idle) → GC.step n s.gc a = some g →
      SysStep n s ⟨s.tree, g⟩
  | leave (s : Sys K V) (t : Tid) (g : GC.State) : s.tree.thr t = none → GC.step n s.gc (.leaveRead t) = some g → SysStep n s ⟨s.tree, g⟩
  | call (s : Sys K V) (t : Tid) (fuel : Nat) (op : Call K V) : s.gc.pc t = .active → s.tree.thr t = none →
      SysStep n s ⟨⟨s.tree.mem, setThr s.tree.thr t (some (prog fuel op)), s.tree.hist ++ [.call t op]⟩, s.gc⟩
  | step (s : Sys K V) (t : Tid) (p p' : Prog K V (Ans K V)) (m' : Mem K V) : s.gc.pc t = .active → s.tree.thr t = some p →
      (∀ q k, p ≠ .retire q k) → p.step s.tree.mem = some (m', p') → SysStep n s ⟨⟨m', setThr s.tree.thr t (some p'), s.tree.hist⟩, s.gc⟩
  | retire (s : Sys K V) (t : Tid) (q : Ptr) (k : Prog K V (Ans K V)) (g g' : GC.State) : s.gc.pc t = .active → s.tree.thr t = some (.retire q k) →
      GC.step n s.gc (.make t q) = some g → GC.step n g (.addRead t q) = some g' →
      SysStep n s ⟨⟨{ s.tree.mem with garbage := q :: s.tree.mem.garbage }, setThr s.tree.thr t (some k), s.tree.hist⟩, g'⟩
  | ret (s : Sys K V) (t : Tid) (a : Ans K V) : s.gc.pc t = .active → s.tree.thr t = some (.ret a) →
      SysStep n s ⟨⟨s.tree.mem, setThr s.tree.thr t none, s.tree.hist ++ [.ret t a]⟩, s.gc⟩

/-- A new tree with a new epoch manager. -/
def initSys : Sys K V := ⟨initConf, GC.init⟩

/-- States of a tree that now serves `n` threads, reachable by any interleaving of calls, ticks and collections, with any number of calls of
UpdateThreadLocal in between, each while no operation runs and before the epoch reaches 2^64 - 1. -/
inductive SysReach : Nat → Sys K V → Prop where
  | init {n : Nat} : SysReach n initSys
  | step {n : Nat} {s s' : Sys K V} : SysReach n s → SysStep n s s' → SysReach n s'
  | update {n n' : Nat} {s : Sys K V} : SysReach n s → (∀ t, s.gc.pc t = .idle) → s.gc.epoch < GC.UMAX → SysReach n' ⟨s.tree, GC.updateThreads n s.gc⟩

end Tree
end BwTree
