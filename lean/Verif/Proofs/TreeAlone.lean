import Verif.Proofs.IterExec

/-! A call during which no other thread executes an update. -/

namespace BwTree
namespace Iterator

open Tree

variable {K V : Type} [LinearOrder K] [DecidableEq V] [Inhabited K]
variable {σ : Nat → Conf K V} {n : Nat} {t : Tid}

/-- Apart from `t`, no thread executes Insert or Delete between `a` and `b`. -/
def Alone (σ : Nat → Conf K V) (t : Tid) (a b : Nat) : Prop :=
  ∀ i, a ≤ i → i < b → ∀ u, u ≠ t → ∀ k v, ¬ Running (σ i).hist u (.api (.insert k v)) ∧ ¬ Running (σ i).hist u (.api (.delete k v))

theorem tstep_read {S S' : Spec.PairSet K V} {op : Call K V} {r : Ans K V} (h : tstep S op r S')
    (hn : ∀ k v, op ≠ .api (.insert k v) ∧ op ≠ .api (.delete k v)) : S' = S := by
  cases op with
  | api o =>
    cases o with
    | insert k v => exact absurd rfl (hn k v).1
    | delete k v => exact absurd rfl (hn k v).2
    | get k =>
      cases r with
      | bool b => exact h.elim
      | values l c => exact h.2.1
      | page a b c => exact h.elim
  | page k => cases r <;> first | exact h.1 | exact h.elim
  | first => cases r <;> first | exact h.1 | exact h.elim
  | back k => cases r <;> first | exact h.1 | exact h.elim

/-- The set changes only by a commit. -/
theorem at_step {w w' : World K V} {i : Nat} (hw : Good (σ i) w) (hw' : Good (σ (i + 1)) w') (ht : TokStep w w')
    (h : ∀ u, u ≠ t → ∀ k v, ¬ Running (σ i).hist u (.api (.insert k v)) ∧ ¬ Running (σ i).hist u (.api (.delete k v)))
    (hne : ¬ ∃ op pos start r, w.tok t = .pending op pos start ∧ w'.tok t = .done op pos r) : At σ (i + 1) = At σ i := by
  rcases ht.com with e | ⟨u, op, pos, start, r, S, S', e1, e2, e3, e4, e5⟩
  · refine last_eq hw ?_ ▸ rfl
    rw [← e]
    exact at_eq hw' ▸ hw'.inv.sets
  · have hut : u ≠ t := by
      rintro rfl
      exact hne ⟨op, pos, start, r, e1, e2⟩
    obtain ⟨op', w0, r1, r2, _⟩ : ∃ op' w0, Running (σ i).hist u op' ∧ _ ∧ (w0 = w0) := by
      cases hp : (σ i).thr u with
      | none => rw [hw.idle u hp] at e1; cases e1
      | some p =>
        obtain ⟨op', w0, r1, r2, _⟩ := hw.run u p hp
        exact ⟨op', w0, r1, r2, rfl⟩
    rw [e1] at r2
    have r2 : op = op' := r2
    subst r2
    have := tstep_read e4 fun k v => ⟨fun e => (h u hut k v).1 (e ▸ r1), fun e => (h u hut k v).2 (e ▸ r1)⟩
    rw [← last_eq hw e3, ← this]
    exact (last_eq hw' (by rw [e5, List.getLast?_append]; rfl)).symm

theorem step_call_thr {c c' : Conf K V} {op : Call K V} (h : Step c c') (he : c'.hist = c.hist ++ [.call t op]) : c'.thr t ≠ none := by
  cases h with
  | call t' fuel op' h =>
    have := List.append_cancel_left he
    simp only [List.cons.injEq, Lin.Event.call.injEq, and_true] at this
    rw [← this.1]
    show setThr _ _ _ _ ≠ none
    rw [setThr_self]
    simp
  | step t p p' m' h1 h2 =>
    have := congrArg List.length he
    simp at this
  | ret t' a h =>
    have := List.append_cancel_left he
    simp at this

theorem step_ret_mem {c c' : Conf K V} {a : Ans K V} (h : Step c c') (he : c'.hist = c.hist ++ [.ret t a]) : c'.mem = c.mem := by
  cases h with
  | call t' fuel op' h => rfl
  | step t p p' m' h1 h2 =>
    have := congrArg List.length he
    simp at this
  | ret t' a' h => rfl

/-- A thread that is executing a call goes on doing so until it returns. -/
theorem step_thr {c c' : Conf K V} (h : Step c c') (ht : c.thr t ≠ none) (he : ∀ a, c'.hist ≠ c.hist ++ [.ret t a]) : c'.thr t ≠ none := by
  cases h with
  | call t' fuel op' h =>
    by_cases e : t = t'
    · subst e; exact absurd h ht
    · show setThr _ _ _ t ≠ none
      rw [setThr_ne _ _ e]; exact ht
  | step t' p p' m' h1 h2 =>
    by_cases e : t = t'
    · subst e
      show setThr _ _ _ t ≠ none
      rw [setThr_self]; simp
    · show setThr _ _ _ t ≠ none
      rw [setThr_ne _ _ e]; exact ht
  | ret t' a' h =>
    by_cases e : t = t'
    · subst e; exact absurd rfl (he a')
    · show setThr _ _ _ t ≠ none
      rw [setThr_ne _ _ e]; exact ht

/-- A call during which no other thread executes an update behaves as the specification says on the set stored when it begins, and
leaves the set it should. -/
theorem alone_call (h : Exec σ n) {op : Call K V} {ans : Ans K V} {a b : Nat} (hb : b ≤ n) (hc : CallAt σ t op ans a b)
    (ha : Alone σ t a b) : tstep (At σ a) op ans (At σ b) := by
  obtain ⟨post, hab, h1, h2, h3, h4⟩ := hc
  have hne : a + 1 < b := by
    rcases Nat.lt_or_ge (a + 1) b with h | h
    · exact h
    · have : b = a + 1 := by omega
      subst this
      simp at h2
  have hev : ∀ d r, a + 1 + d + 1 < b → (σ (a + 1 + d + 1)).hist ≠ (σ (a + 1 + d)).hist ++ [.ret t r] := by
    intro d r hd e
    obtain ⟨x, hx⟩ := exec_hist h (i := a + 1) d (by omega)
    obtain ⟨y, hy⟩ := exec_hist h (i := a + 1 + d + 1) (b - 1 - (a + 1 + d + 1)) (by omega)
    rw [show a + 1 + d + 1 + (b - 1 - (a + 1 + d + 1)) = b - 1 by omega, h2, e, hx, h1] at hy
    simp only [List.append_assoc, List.append_cancel_left_eq, List.cons_append, List.nil_append, List.cons.injEq, true_and] at hy
    exact h3 (.ret t r) (by rw [hy]; simp) rfl
  have hthr : ∀ d, a + 1 + d < b → (σ (a + 1 + d)).thr t ≠ none := by
    intro d
    induction d with
    | zero => exact fun _ => step_call_thr (h.step a (by omega)) h1
    | succ d ih => exact fun hd => step_thr (h.step (a + 1 + d) (by omega)) (ih (by omega)) fun r => hev d r hd
  have key : ∀ d, a + 1 + d < b → ∃ w, Good (σ (a + 1 + d)) w ∧
      (∀ op' pos start, w.tok t = .pending op' pos start → At σ (a + 1 + d) = At σ a ∧ ∀ i S, start ≤ i → w.sets[i]? = some S → S = At σ a) ∧
      (∀ op' pos r, w.tok t = .done op' pos r → tstep (At σ a) op' r (At σ (a + 1 + d))) := by
    intro d
    induction d with
    | zero =>
      intro _
      obtain ⟨w, hw⟩ := good_of_reach (exec_reach h (show a ≤ n by omega))
      have hs := h.step a (by omega)
      obtain ⟨w', hw', _, ht, _⟩ := good_step hw hs
      have hidle := hw.idle t (step_call hs h1)
      have hat := at_step hw hw' ht (ha a (Nat.le_refl a) hab) (by rintro ⟨_, _, _, _, e, _⟩; rw [hidle] at e; cases e)
      refine ⟨w', hw', ?_, ?_⟩
      · intro op' pos start e
        refine ⟨hat, fun i S hi hS => ?_⟩
        rcases ht.pend t op' pos start e with e' | ⟨_, e', _⟩
        · rw [hidle] at e'; cases e'
        · rw [← hat]; exact last_eq hw' (last_index hS (by omega))
      · intro op' pos r e
        rcases ht.done t op' pos r e with e' | ⟨_, _, _, e', _⟩
        · rw [hidle] at e'; cases e'
        · rw [hidle] at e'; cases e'
    | succ d ih =>
      intro hd
      obtain ⟨w, hw, ih1, ih2⟩ := ih (by omega)
      obtain ⟨w', hw', _, ht, _⟩ := good_step hw (h.step (a + 1 + d) (by omega))
      have hal := ha (a + 1 + d) (by omega) (by omega)
      refine ⟨w', hw', ?_, ?_⟩
      · intro op' pos start e
        have hat := at_step hw hw' ht hal (by rintro ⟨_, _, _, _, _, e'⟩; rw [e] at e'; cases e')
        rcases ht.pend t op' pos start e with e' | ⟨e0, _, _⟩
        · obtain ⟨g1, g2⟩ := ih1 _ _ _ e'
          refine ⟨hat.trans g1, fun i S hi hS => ?_⟩
          rcases Nat.lt_or_ge (i + 1) w'.sets.length with hlt | hge
          · refine g2 i S hi ?_
            rcases ht.sets with g | ⟨S', g⟩
            · rw [← g]; exact hS
            · rw [g] at hS hlt
              rwa [List.getElem?_append_left (by simp at hlt; omega)] at hS
          · rw [← g1, ← hat]
            exact last_eq hw' (last_index hS hge)
        · exfalso
          cases hp : (σ (a + 1 + d)).thr t with
          | none => exact hthr d (by omega) hp
          | some p =>
            obtain ⟨op'', w0, r1, r2, _⟩ := hw.run t p hp
            rw [e0] at r2
            exact r2.elim
      · intro op' pos r e
        rcases ht.done t op' pos r e with e' | ⟨start, S, S', e', e2, e3, e4⟩
        · have hat := at_step hw hw' ht hal (by rintro ⟨_, _, _, _, e'', _⟩; rw [e'] at e''; cases e'')
          rw [show a + 1 + (d + 1) = a + 1 + d + 1 by omega, hat]
          exact ih2 _ _ _ e'
        · have e5 : S' = At σ (a + 1 + d + 1) := last_eq hw' (by rw [e4, List.getLast?_append]; rfl)
          rw [last_eq hw e2, (ih1 _ _ _ e').1, e5] at e3
          exact e3
  obtain ⟨w, hw, k1, k2⟩ := key (b - 1 - (a + 1)) (by omega)
  rw [show a + 1 + (b - 1 - (a + 1)) = b - 1 by omega] at hw k1 k2
  have hs := h.step (b - 1) (by omega)
  rw [show b - 1 + 1 = b by omega] at hs
  have hthr' := step_ret hs h4
  have hlast : At σ b = At σ (b - 1) := by
    unfold At
    rw [step_ret_mem hs h4]
  rw [hlast]
  obtain ⟨op', w0, r1, r2, r3, r4⟩ := hw.run t _ hthr'
  have hop : op' = op := Running.unique r1 ⟨_, post, h2, h3⟩
  subst hop
  have hf : Tree.Fin t ans w := Tree.Fin.stable r3 r4.1
  unfold Tree.Fin at hf
  cases htok : w.tok t with
  | idle => rw [htok] at hf; exact hf.elim
  | pending o pos start =>
    rw [htok] at hf r2
    have r2 : o = op' := r2
    subst r2
    obtain ⟨i, S, g1, g2, g3⟩ := hf
    obtain ⟨k3, k4⟩ := k1 _ _ _ htok
    rw [k4 i S g1 g2] at g3
    rw [k3]; exact g3
  | done o pos r =>
    rw [htok] at hf r2
    have r2 : o = op' := r2
    subst r2 hf
    exact k2 _ _ _ htok

/-- A call made while all threads are idle and executed without interruption. -/
theorem solo_call {c : Conf K V} (h : Reach c) (hidle : ∀ u, c.thr u = none) {op : Call K V} {ans : Ans K V} {fuel N : Nat}
    (hp : (act (act c (.call t fuel op)) (.run t N)).thr t = some (.ret ans)) :
    ∃ (σ : Nat → Conf K V) (n : Nat), Exec σ n ∧ σ 0 = c ∧ (σ n).mem = (act (act c (.call t fuel op)) (.run t N)).mem ∧
      CallAt σ t op ans 0 n ∧ Alone σ t 0 n := by
  have h0 : Exec (fun _ => c) 0 := ⟨h, fun i hi => by omega⟩
  obtain ⟨σ1, x1, h1, e1⟩ := exec_snoc h0 (.call c t fuel op (hidle t))
  obtain ⟨σ2, n2, x2, h2, e2, e2'⟩ := exec_steps N h1 e1
  have hact2 : act (act c (.call t fuel op)) (.run t N) = σ2 n2 := by
    rw [e2]
    simp only [act, hidle t, setThr, if_true]
    have : ∀ k m p, steps t (setThr c.thr t (some (prog fuel op))) (c.hist ++ [.call t op]) k m p = steps t c.thr (c.hist ++ [.call t op]) k m p := by
      intro k
      induction k with
      | zero => intro m p; simp only [steps, setThr_setThr]
      | succ k ihk =>
        intro m p
        simp only [steps]
        split
        · simp only [setThr_setThr]
        · exact ihk _ _
    exact this _ _ _
  rw [hact2] at hp
  obtain ⟨σ3, x3, h3, e3⟩ := exec_snoc h2 (.ret (σ2 n2) t _ hp)
  have hn2 : 0 + 1 ≤ n2 := x2.1
  have g0 : σ3 0 = c := (x3.2 0 (by omega)).trans ((x2.2 0 (by omega)).trans (x1.2 0 (Nat.le_refl _)))
  have g1 : (σ3 (0 + 1)).hist = c.hist ++ [.call t op] := by
    rw [x3.2 _ hn2]; exact (e2' _ (Nat.le_refl _) hn2).1
  have g2 : (σ3 n2).hist = c.hist ++ [.call t op] := by
    rw [x3.2 _ (Nat.le_refl _)]; exact (e2' _ hn2 (Nat.le_refl _)).1
  refine ⟨σ3, n2 + 1, h3, g0, by rw [e3, hact2], ⟨[], by omega, ?_, ?_, fun e he => by simp at he, ?_⟩, ?_⟩
  · rw [g0]; exact g1
  · rw [g0, Nat.add_sub_cancel]; exact g2
  · rw [Nat.add_sub_cancel, e3, x3.2 _ (Nat.le_refl _)]
  · intro i _ hi u hu k v
    have hno : ∀ op', ¬ Running (σ3 i).hist u op' := by
      intro op' hr
      refine running_thr (exec_reach h3 (by omega)) hr ?_
      by_cases hi0 : i = 0
      · subst hi0; rw [g0]; exact hidle u
      · rw [x3.2 i (by omega), (e2' i (by omega) (by omega)).2 u hu]
        exact hidle u
    exact ⟨hno _, hno _⟩

end Iterator
end BwTree
