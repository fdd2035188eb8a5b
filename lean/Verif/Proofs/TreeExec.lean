import Verif.Model.TreeSem

/-! Executable schedules, to exhibit reachable configurations. -/

namespace BwTree
namespace Tree

open Prog

variable {K V : Type} [LinearOrder K] [DecidableEq V] [Inhabited K]

deriving instance DecidableEq for Call
deriving instance DecidableEq for Ans
deriving instance Repr for Ans

/-- One scheduling decision. -/
inductive Act (K V : Type) where
  | call (t : Tid) (fuel : Nat) (op : Call K V)
  /-- up to `n` atomic steps of thread `t` -/
  | run (t : Tid) (n : Nat)
  | ret (t : Tid)

def steps (t : Tid) (thr : Tid → Option (Prog K V (Ans K V))) (hist : List (Lin.Event (Call K V) (Ans K V))) :
    Nat → Mem K V → Prog K V (Ans K V) → Conf K V
  | 0, m, p => ⟨m, setThr thr t (some p), hist⟩
  | n + 1, m, p => match p.step m with
    | none => ⟨m, setThr thr t (some p), hist⟩
    | some (m', p') => steps t thr hist n m' p'

def act (c : Conf K V) : Act K V → Conf K V
  | .call t fuel op => match c.thr t with
    | none => ⟨c.mem, setThr c.thr t (some (prog fuel op)), c.hist ++ [.call t op]⟩
    | some _ => c
  | .run t n => match c.thr t with
    | none => c
    | some p => steps t c.thr c.hist n c.mem p
  | .ret t => match c.thr t with
    | some (.ret a) => ⟨c.mem, setThr c.thr t none, c.hist ++ [.ret t a]⟩
    | _ => c

def acts (c : Conf K V) : List (Act K V) → Conf K V
  | [] => c
  | a :: l => acts (act c a) l

theorem setThr_setThr (f : Tid → Option (Prog K V (Ans K V))) (t : Tid) (p q : Option (Prog K V (Ans K V))) :
    setThr (setThr f t p) t q = setThr f t q := by
  funext u
  simp only [setThr]
  split <;> rfl

theorem setThr_same {f : Tid → Option (Prog K V (Ans K V))} {t : Tid} {p : Option (Prog K V (Ans K V))} (h : f t = p) : setThr f t p = f := by
  funext u
  simp only [setThr]
  split
  · subst_vars; rfl
  · rfl

theorem reach_steps (t : Tid) (thr : Tid → Option (Prog K V (Ans K V))) (hist : List (Lin.Event (Call K V) (Ans K V))) :
    ∀ (n : Nat) (m : Mem K V) (p : Prog K V (Ans K V)), Reach ⟨m, setThr thr t (some p), hist⟩ → Reach (steps t thr hist n m p)
  | 0, m, p, h => h
  | n + 1, m, p, h => by
    unfold steps
    split
    · exact h
    · rename_i m' p' hs
      apply reach_steps t thr hist n m' p'
      have := h.step (.step _ t p p' m' (by simp [setThr]) hs)
      simpa [setThr_setThr] using this

theorem reach_act {c : Conf K V} (h : Reach c) (a : Act K V) : Reach (act c a) := by
  cases a with
  | call t fuel op =>
    simp only [act]
    split
    · exact h.step (.call c t fuel op (by assumption))
    · exact h
  | run t n =>
    simp only [act]
    split
    · exact h
    · rename_i p hp
      apply reach_steps
      rw [setThr_same hp]
      exact h
  | ret t =>
    simp only [act]
    split
    · rename_i a ha
      exact h.step (.ret c t a ha)
    · exact h

theorem reach_acts {c : Conf K V} (h : Reach c) : ∀ (l : List (Act K V)), Reach (acts c l)
  | [] => h
  | a :: l => by
    rw [acts]
    exact reach_acts (reach_act h a) l

/-- The thread of a scheduling decision. -/
def Act.tid : Act K V → Tid
  | .call t _ _ => t
  | .run t _ => t
  | .ret t => t

theorem steps_thr {t u : Tid} (hu : u ≠ t) (thr : Tid → Option (Prog K V (Ans K V))) (hist : List (Lin.Event (Call K V) (Ans K V))) :
    ∀ (n : Nat) (m : Mem K V) (p : Prog K V (Ans K V)), (steps t thr hist n m p).thr u = thr u
  | 0, m, p => by simp [steps, setThr, hu]
  | n + 1, m, p => by
    unfold steps
    split
    · simp [setThr, hu]
    · exact steps_thr hu thr hist n _ _

theorem acts_thr {u : Tid} : ∀ (l : List (Act K V)), (∀ a ∈ l, a.tid ≠ u) → ∀ c : Conf K V, (acts c l).thr u = c.thr u
  | [], _, _ => rfl
  | a :: l, h, c => by
    rw [acts, acts_thr l (fun x hx => h x (List.mem_cons_of_mem _ hx))]
    have ha := h a List.mem_cons_self
    cases a with
    | call t fuel op =>
      have hu : u ≠ t := fun e => ha e.symm
      simp only [act]
      split <;> simp [setThr, hu]
    | run t n =>
      have hu : u ≠ t := fun e => ha e.symm
      simp only [act]
      split
      · rfl
      · exact steps_thr hu _ _ _ _ _
    | ret t =>
      have hu : u ≠ t := fun e => ha e.symm
      simp only [act]
      split <;> simp [setThr, hu]

/-- A complete call of thread `t`. -/
def whole (t : Tid) (op : Call K V) : List (Act K V) := [.call t 50 op, .run t 1000, .ret t]

end Tree
end BwTree
