import Verif.Model.TreeSem
import Verif.Model.TreeCond

/-!
  Concurrent executions in which threads may also call `ConditionalInsert`.
-/

namespace BwTree
namespace Tree

variable {K V : Type}

/-- What a thread may call: one of the calls of `Call`, or ConditionalInsert 7449. -/
inductive CCall (K V : Type) where
  | plain (op : Call K V)
  | cond (k : K) (v : V) (p : V → Bool)

/-- What a call returns; for ConditionalInsert also the flag `*predicate_satisfied`. -/
inductive CAns (K V : Type) where
  | plain (a : Ans K V)
  | cond (b sat : Bool)

variable [LinearOrder K] [DecidableEq V] [Inhabited K]

/-- The program of a call. -/
def cprog (fuel : Nat) : CCall K V → Prog K V (CAns K V)
  | .plain op => do
    let a ← prog fuel op
    return .plain a
  | .cond k v p => do
    let r ← condInsert fuel k v p fuel
    return .cond r.1 r.2

/-- A configuration, as `Conf`. -/
structure CConf (K V : Type) where
  mem : Mem K V
  thr : Tid → Option (Prog K V (CAns K V))
  hist : List (Lin.Event (CCall K V) (CAns K V))

/-- Set the program of one thread. -/
def csetThr (f : Tid → Option (Prog K V (CAns K V))) (t : Tid) (p : Option (Prog K V (CAns K V))) :
    Tid → Option (Prog K V (CAns K V)) := fun u => if u = t then p else f u

/-- Which calls are made: Delete only of pairs in `D`, ConditionalInsert only of other pairs. -/
def CCall.Within (D : K → V → Prop) : CCall K V → Prop
  | .plain (.api (.delete k v)) => D k v
  | .plain _ => True
  | .cond k v _ => ¬ D k v

/-- One step of the system, as `Step`. -/
inductive CStep (D : K → V → Prop) : CConf K V → CConf K V → Prop where
  | call (c : CConf K V) (t : Tid) (fuel : Nat) (op : CCall K V) : c.thr t = none → op.Within D →
      CStep D c ⟨c.mem, csetThr c.thr t (some (cprog fuel op)), c.hist ++ [.call t op]⟩
  | step (c : CConf K V) (t : Tid) (p p' : Prog K V (CAns K V)) (m' : Mem K V) : c.thr t = some p → p.step c.mem = some (m', p') →
      CStep D c ⟨m', csetThr c.thr t (some p'), c.hist⟩
  | ret (c : CConf K V) (t : Tid) (a : CAns K V) : c.thr t = some (.ret a) →
      CStep D c ⟨c.mem, csetThr c.thr t none, c.hist ++ [.ret t a]⟩

/-- Configurations reachable by any interleaving of such calls. -/
inductive CReach (D : K → V → Prop) : CConf K V → Prop where
  | init : CReach D ⟨initMem, fun _ => none, []⟩
  | step {c c' : CConf K V} : CReach D c → CStep D c c' → CReach D c'

end Tree
end BwTree
