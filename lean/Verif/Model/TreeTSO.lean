import Verif.Model.TreeGC
import Verif.Model.EpochTSO

/-!
# The tree and its collector on a machine with store buffers

As `Model/TreeGC`, with the epoch counters of `Model/EpochTSO` (bwtree.h 245, 332): a thread that has executed JoinEpoch (8161) runs its call while its store to
`last_active_epoch` may still be in its buffer.

* The mapping table is read with atomic loads and changed with compare-exchange (InstallNodeToReplace 2680), the contents of a node are written before the
  compare-exchange that publishes it, and a compare-exchange drains the buffer: for the memory of the tree the buffers make no difference, so the steps of
  calls are those of `Model/TreeSem`.
* A compare-exchange here does not wait for the buffer. This adds executions, it leaves none out.
* UnregisterThread (518) and UpdateThreadLocal (2767) are left out.
-/

namespace BwTree
namespace Tree

variable {K V : Type} [LinearOrder K] [DecidableEq V] [Inhabited K]

/-- A configuration of the tree, and a state of the epoch manager with the store buffers. -/
structure TSys (K V : Type) where
  tree : Conf K V
  gc : GC.TState

/-- As `ownAct`: JoinEpoch (8161), the rest of AddGarbageNode (9400-9415), a collection (9429), the end of LeaveEpoch (8167) and IncreaseEpoch (492). Which
thread may call IncreaseEpoch is decided by `GC.tstep`. -/
def townAct : GC.Act → Bool
  | .joinRead _ | .joinStore _ | .addLink _ | .gcRead _ | .gcFree _ | .leaveStore _ | .tickRead _ | .tickWrite _ => true
  | .link _ _ | .make _ _ | .unlink _ _ | .addRead _ _ | .leaveRead _ | .unregister _ => false

/-- One step of tree and collector with `n` registered threads; `T` is the thread that advances the epoch. -/
inductive TSysStep (n T : Nat) : TSys K V → TSys K V → Prop where
  | own (s : TSys K V) (a : GC.Act) (g : GC.TState) : townAct a = true → GC.tstep n T s.gc (.act a) = some g → TSysStep n T s ⟨s.tree, g⟩
  | flush (s : TSys K V) (t : Nat) (g : GC.TState) : GC.tstep n T s.gc (.flush t) = some g → TSysStep n T s ⟨s.tree, g⟩
  | leave (s : TSys K V) (t : Tid) (g : GC.TState) : s.tree.thr t = none → GC.tstep n T s.gc (.act (.leaveRead t)) = some g → TSysStep n T s ⟨s.tree, g⟩
  | call (s : TSys K V) (t : Tid) (fuel : Nat) (op : Call K V) : s.gc.g.pc t = .active → s.tree.thr t = none →
      TSysStep n T s ⟨⟨s.tree.mem, setThr s.tree.thr t (some (prog fuel op)), s.tree.hist ++ [.call t op]⟩, s.gc⟩
  | step (s : TSys K V) (t : Tid) (p p' : Prog K V (Ans K V)) (m' : Mem K V) : s.gc.g.pc t = .active → s.tree.thr t = some p →
      (∀ q k, p ≠ .retire q k) → p.step s.tree.mem = some (m', p') → TSysStep n T s ⟨⟨m', setThr s.tree.thr t (some p'), s.tree.hist⟩, s.gc⟩
  | retire (s : TSys K V) (t : Tid) (q : Ptr) (k : Prog K V (Ans K V)) (g g' : GC.TState) : s.gc.g.pc t = .active →
      s.tree.thr t = some (.retire q k) → GC.tstep n T s.gc (.act (.make t q)) = some g → GC.tstep n T g (.act (.addRead t q)) = some g' →
      TSysStep n T s ⟨⟨{ s.tree.mem with garbage := q :: s.tree.mem.garbage }, setThr s.tree.thr t (some k), s.tree.hist⟩, g'⟩
  | ret (s : TSys K V) (t : Tid) (a : Ans K V) : s.gc.g.pc t = .active → s.tree.thr t = some (.ret a) →
      TSysStep n T s ⟨⟨s.tree.mem, setThr s.tree.thr t none, s.tree.hist ++ [.ret t a]⟩, s.gc⟩

/-- A new tree with a new epoch manager and empty buffers. -/
def initTSys : TSys K V := ⟨initConf, GC.tinit⟩

/-- States reachable by any interleaving of calls, ticks, collections and buffered stores that reach memory. -/
inductive TSysReach (n T : Nat) : TSys K V → Prop where
  | init : TSysReach n T initTSys
  | step {s s' : TSys K V} : TSysReach n T s → TSysStep n T s s' → TSysReach n T s'

end Tree
end BwTree
