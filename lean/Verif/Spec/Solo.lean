import Verif.Spec.Tree

/-!
  Executions in which calls do not overlap.
-/

namespace BwTree
namespace Tree

open Prog

variable {K V : Type} [LinearOrder K] [DecidableEq V] [Inhabited K]

/-- Steps of one program with no other thread running. -/
inductive Steps {α : Type} : Mem K V → Prog K V α → Mem K V → Prog K V α → Prop where
  | refl (m : Mem K V) (p : Prog K V α) : Steps m p m p
  | step {m m1 m2 : Mem K V} {p p1 p2 : Prog K V α} : p.step m = some (m1, p1) → Steps m1 p1 m2 p2 → Steps m p m2 p2

/-- Retries and steps of a loop allowed to a call. The loops of the code have no bound; the theorems say that this many are never used up when
calls do not overlap. -/
def Ample (fuel : Nat) : Prop := 3 * TABLE_SIZE < fuel

/-- All calls but stepping an iterator backwards. -/
def Call.forward : Call K V → Bool
  | .back _ => false
  | _ => true

/-- Configurations reached when every call (of whichever thread) is made after the previous one returned. -/
inductive SeqReach : Conf K V → Prop where
  | init : SeqReach initConf
  | call {c : Conf K V} {m : Mem K V} {fuel : Nat} {op : Call K V} {a : Ans K V} (t : Tid) : SeqReach c → Ample fuel → op.forward = true →
      Steps c.mem (prog fuel op) m (.ret a) → SeqReach ⟨m, c.thr, c.hist ++ [.call t op, .ret t a]⟩

/-- The record at address `e` was part of the tree at some moment up to `c`, within a call or between two. -/
inductive Seen (e : Ptr) : Conf K V → Prop where
  | now {c : Conf K V} : SeqReach c → PartOf c.mem e → Seen e c
  | during {c : Conf K V} {m m' : Mem K V} {fuel : Nat} {op : Call K V} {a : Ans K V} {p : Prog K V (Ans K V)} (t : Tid) : SeqReach c → Ample fuel →
      op.forward = true → Steps c.mem (prog fuel op) m p → PartOf m e → Steps c.mem (prog fuel op) m' (.ret a) →
      Seen e ⟨m', c.thr, c.hist ++ [.call t op, .ret t a]⟩
  | later {c : Conf K V} {m : Mem K V} {fuel : Nat} {op : Call K V} {a : Ans K V} (t : Tid) : Seen e c → Ample fuel → op.forward = true →
      Steps c.mem (prog fuel op) m (.ret a) → Seen e ⟨m, c.thr, c.hist ++ [.call t op, .ret t a]⟩

/-- What a call should return on the set `S` and which set it should leave: as in `tstep`, and GetValue returns all values of the key. -/
def seqStep (S : Spec.PairSet K V) : Call K V → Ans K V → Spec.PairSet K V → Prop
  | .api (.get k), .values l _, S' => Spec.step S (.get k) (.values l) S'
  | op, a, S' => tstep S op a S'

end Tree
end BwTree
