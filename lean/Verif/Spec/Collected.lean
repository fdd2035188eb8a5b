import Verif.Model.Collect
import Verif.Spec.Solo

/-!
  Calls that do not overlap, while a collector destroys what was retired.
-/

namespace BwTree
namespace Tree

variable {K V : Type} [LinearOrder K] [DecidableEq V] [Inhabited K]

/-- A program that runs alone, except that the collector destroys chains of `G` from time to time; the number counts the steps of the program. -/
inductive CSteps {α : Type} (G : List Ptr) : Nat → Mem K V → Prog K V α → Mem K V → Prog K V α → Prop where
  | refl (m : Mem K V) (p : Prog K V α) : CSteps G 0 m p m p
  | step {n : Nat} {m m1 m2 : Mem K V} {p p1 p2 : Prog K V α} : CSteps G n m p m1 p1 → p1.step m1 = some (m2, p2) → CSteps G (n + 1) m p m2 p2
  | collect {n : Nat} {m m1 : Mem K V} {p p1 : Prog K V α} {g : Ptr} : CSteps G n m p m1 p1 → g ∈ G → CSteps G n m p (m1.destroy g) p1

/-- Configurations reached when every call is made after the previous one returned, while the collector destroys retired chains: between calls any of them,
during a call those that were retired before it began (C20). -/
inductive SeqCollect : Conf K V → Prop where
  | init : SeqCollect initConf
  | collect {c : Conf K V} {g : Ptr} : SeqCollect c → g ∈ c.mem.garbage → SeqCollect { c with mem := c.mem.destroy g }
  | call {c : Conf K V} {m : Mem K V} {fuel n : Nat} {op : Call K V} {a : Ans K V} (t : Tid) : SeqCollect c → Ample fuel → op.forward = true →
      CSteps c.mem.garbage n c.mem (prog fuel op) m (.ret a) → SeqCollect ⟨m, c.thr, c.hist ++ [.call t op, .ret t a]⟩

/-- The record at address `e` was part of the tree at some moment up to `c`, within a call or between two. -/
inductive CSeen (e : Ptr) : Conf K V → Prop where
  | now {c : Conf K V} : SeqCollect c → PartOf c.mem e → CSeen e c
  | during {c : Conf K V} {m m' : Mem K V} {fuel n k : Nat} {op : Call K V} {a : Ans K V} {p : Prog K V (Ans K V)} (t : Tid) : SeqCollect c → Ample fuel →
      op.forward = true → CSteps c.mem.garbage n c.mem (prog fuel op) m p → PartOf m e → CSteps c.mem.garbage k m p m' (.ret a) →
      CSeen e ⟨m', c.thr, c.hist ++ [.call t op, .ret t a]⟩
  | later {c : Conf K V} {m : Mem K V} {fuel n : Nat} {op : Call K V} {a : Ans K V} (t : Tid) : CSeen e c → Ample fuel → op.forward = true →
      CSteps c.mem.garbage n c.mem (prog fuel op) m (.ret a) → CSeen e ⟨m, c.thr, c.hist ++ [.call t op, .ret t a]⟩
  | collect {c : Conf K V} {g : Ptr} : CSeen e c → g ∈ c.mem.garbage → CSeen e { c with mem := c.mem.destroy g }

end Tree
end BwTree
