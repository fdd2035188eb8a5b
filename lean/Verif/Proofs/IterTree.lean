import Verif.Proofs.Iterator
import Verif.Proofs.TreePath

/-! Page reads of an iterator inside an execution of the tree. -/

namespace BwTree
namespace Iterator

open Tree

set_option linter.unusedSectionVars false

variable {K V : Type} [LinearOrder K] [DecidableEq V] [Inhabited K]
variable {σ : Nat → Conf K V} {n : Nat} {t : Tid}

theorem exec_reach (h : Exec σ n) {i : Nat} (hi : i ≤ n) : Reach (σ i) := by
  induction i with
  | zero => exact h.start
  | succ i ih => exact .step (ih (by omega)) (h.step i (by omega))

theorem step_hist {c c' : Conf K V} (h : Step c c') : ∃ e, c'.hist = c.hist ++ e := by
  cases h with
  | call => exact ⟨_, rfl⟩
  | step => exact ⟨[], by simp⟩
  | ret => exact ⟨_, rfl⟩

theorem exec_hist (h : Exec σ n) {i : Nat} (d : Nat) (hd : i + d ≤ n) : ∃ e, (σ (i + d)).hist = (σ i).hist ++ e := by
  induction d with
  | zero => exact ⟨[], by simp⟩
  | succ d ih =>
    obtain ⟨e, he⟩ := ih (by omega)
    obtain ⟨e', he'⟩ := step_hist (h.step (i + d) (by omega))
    exact ⟨e ++ e', by rw [show i + (d + 1) = i + d + 1 from rfl, he', he, List.append_assoc]⟩

theorem step_call {c c' : Conf K V} {op : Call K V} (h : Step c c') (he : c'.hist = c.hist ++ [.call t op]) : c.thr t = none := by
  cases h with
  | call t' fuel op' h =>
    have := List.append_cancel_left he
    simp only [List.cons.injEq, Lin.Event.call.injEq, and_true] at this
    rw [← this.1]
    exact h
  | step t p p' m' h1 h2 =>
    have := congrArg List.length he
    simp at this
  | ret t' a h =>
    have := List.append_cancel_left he
    simp at this

theorem step_ret {c c' : Conf K V} {a : Ans K V} (h : Step c c') (he : c'.hist = c.hist ++ [.ret t a]) : c.thr t = some (.ret a) := by
  cases h with
  | call t' fuel op' h =>
    have := List.append_cancel_left he
    simp at this
  | step t p p' m' h1 h2 =>
    have := congrArg List.length he
    simp at this
  | ret t' a' h =>
    have := List.append_cancel_left he
    simp only [List.cons.injEq, Lin.Event.ret.injEq, and_true] at this
    rw [← this.1, ← this.2]
    exact h

theorem Running.unique {H : List (Lin.Event (Call K V) (Ans K V))} {op op' : Call K V} (h : Running H t op) (h' : Running H t op') :
    op = op' := by
  have key : ∀ {op : Call K V}, Running H t op → (H.filter (fun e => decide (e.tid = t))).getLast? = some (.call t op) := by
    rintro op ⟨pre, post, rfl, h2⟩
    have : post.filter (fun e => decide (e.tid = t)) = [] := by
      apply List.filter_eq_nil_iff.mpr
      intro e he
      simpa using h2 e he
    rw [List.filter_append, List.filter_cons_of_pos (by simp [Lin.Event.tid]), this, List.getLast?_append]
    rfl
  have := (key h).symm.trans (key h')
  simpa using this

theorem at_eq {w : World K V} {i : Nat} (h : Good (σ i) w) : At σ i = abs w := by
  funext k v
  apply propext
  unfold At
  rw [← h.mem]
  exact stored_eq_abs h.inv k v

theorem last_eq {w : World K V} {i : Nat} {S : Spec.PairSet K V} (h : Good (σ i) w) (hS : w.sets.getLast? = some S) : S = At σ i := by
  rw [h.inv.sets] at hS
  rw [at_eq h]
  exact (Option.some.inj hS).symm

theorem last_index {α : Type} {l : List α} {i : Nat} {x : α} (h : l[i]? = some x) (hi : l.length ≤ i + 1) : l.getLast? = some x := by
  have : i < l.length := (List.getElem?_eq_some_iff.mp h).1
  rw [List.getLast?_eq_getElem?, show l.length - 1 = i by omega]
  exact h

/-- Every call takes effect at one instant between its call and its return: its result and its effect are right for the set stored in
the tree at that instant. -/
theorem call_point (h : Exec σ n) {op : Call K V} {ans : Ans K V} {a b : Nat} (hb : b ≤ n) (hc : CallAt σ t op ans a b) :
    (∃ j, a < j ∧ j < b ∧ tstep (At σ j) op ans (At σ j)) ∨ ∃ j, a < j ∧ j + 1 < b ∧ tstep (At σ j) op ans (At σ (j + 1)) := by
  obtain ⟨post, hab, h1, h2, h3, h4⟩ := hc
  have hne : a + 1 < b := by
    rcases Nat.lt_or_ge (a + 1) b with h | h
    · exact h
    · have : b = a + 1 := by omega
      subst this
      simp at h2
  have key : ∀ d, a + 1 + d < b → ∃ w, Good (σ (a + 1 + d)) w ∧
      (∀ op' pos start, w.tok t = .pending op' pos start → ∀ i S, start ≤ i → w.sets[i]? = some S →
        ∃ j, a < j ∧ j ≤ a + 1 + d ∧ S = At σ j) ∧
      (∀ op' pos r, w.tok t = .done op' pos r → ∃ j, a < j ∧ j + 1 ≤ a + 1 + d ∧ tstep (At σ j) op' r (At σ (j + 1))) := by
    intro d
    induction d with
    | zero =>
      intro _
      obtain ⟨w, hw⟩ := good_of_reach (exec_reach h (show a ≤ n by omega))
      have hs := h.step a (by omega)
      obtain ⟨w', hw', _, ht, _⟩ := good_step hw hs
      have hidle := hw.idle t (step_call hs h1)
      refine ⟨w', hw', ?_, ?_⟩
      · intro op' pos start e i S hi hS
        rcases ht.pend t op' pos start e with e' | ⟨_, e', _⟩
        · rw [hidle] at e'; cases e'
        · exact ⟨a + 1, by omega, Nat.le_refl _, last_eq hw' (last_index hS (by omega))⟩
      · intro op' pos r e
        rcases ht.done t op' pos r e with e' | ⟨_, _, _, e', _⟩
        · rw [hidle] at e'; cases e'
        · rw [hidle] at e'; cases e'
    | succ d ih =>
      intro hd
      obtain ⟨w, hw, ih1, ih2⟩ := ih (by omega)
      obtain ⟨w', hw', _, ht, _⟩ := good_step hw (h.step (a + 1 + d) (by omega))
      refine ⟨w', hw', ?_, ?_⟩
      · intro op' pos start e i S hi hS
        rcases Nat.lt_or_ge (i + 1) w'.sets.length with hlt | hge
        · rcases ht.pend t op' pos start e with e' | ⟨_, e', _⟩
          · have : w.sets[i]? = some S := by
              rcases ht.sets with g | ⟨S', g⟩
              · rw [← g]; exact hS
              · rw [g] at hS hlt
                rwa [List.getElem?_append_left (by simp at hlt; omega)] at hS
            obtain ⟨j, j1, j2, j3⟩ := ih1 op' pos start e' i S hi this
            exact ⟨j, j1, by omega, j3⟩
          · omega
        · exact ⟨a + 1 + d + 1, by omega, Nat.le_refl _, last_eq hw' (last_index hS hge)⟩
      · intro op' pos r e
        rcases ht.done t op' pos r e with e' | ⟨start, S, S', e', e2, e3, e4⟩
        · obtain ⟨j, j1, j2, j3⟩ := ih2 op' pos r e'
          exact ⟨j, j1, by omega, j3⟩
        · refine ⟨a + 1 + d, by omega, Nat.le_refl _, ?_⟩
          have e5 : S' = At σ (a + 1 + d + 1) := last_eq hw' (by rw [e4, List.getLast?_append]; rfl)
          rw [← last_eq hw e2, ← e5]
          exact e3
  obtain ⟨w, hw, k1, k2⟩ := key (b - 1 - (a + 1)) (by omega)
  rw [show a + 1 + (b - 1 - (a + 1)) = b - 1 by omega] at hw k1 k2
  have hs := h.step (b - 1) (by omega)
  rw [show b - 1 + 1 = b by omega] at hs
  have hthr := step_ret hs h4
  obtain ⟨op', w0, r1, r2, r3, r4⟩ := hw.run t _ hthr
  have hop : op' = op := Running.unique r1 ⟨_, post, h2, h3⟩
  subst hop
  have hf : Tree.Fin t ans w := Tree.Fin.stable r3 r4.1
  unfold Tree.Fin at hf
  cases htok : w.tok t with
  | idle => rw [htok] at hf; exact hf.elim
  | pending o pos start =>
    rw [htok] at hf r2
    have r2 : o = op' := r2
    subst r2
    obtain ⟨i, S, g1, g2, g3⟩ := hf
    obtain ⟨j, j1, j2, rfl⟩ := k1 _ _ _ htok i S g1 g2
    exact Or.inl ⟨j, j1, by omega, g3⟩
  | done o pos r =>
    rw [htok] at hf r2
    have r2 : o = op' := r2
    subst r2 hf
    obtain ⟨j, j1, j2, j3⟩ := k2 _ _ _ htok
    exact Or.inr ⟨j, j1, by omega, j3⟩

theorem answers (h : Exec σ n) : Answers (Asked σ n t) (At σ) := by
  intro q pg a b hq
  have hp := call_point h hq.1 hq.2
  cases q with
  | first =>
    rcases hp with ⟨j, h1, h2, _, h3, h4⟩ | ⟨j, h1, h2, _, h3, h4⟩ <;> exact ⟨j, by omega, by omega, h3, h4⟩
  | page k =>
    rcases hp with ⟨j, h1, h2, _, h3, h4⟩ | ⟨j, h1, h2, _, h3, h4⟩ <;> exact ⟨j, by omega, by omega, h3, h4⟩
  | back k =>
    rcases hp with ⟨j, h1, h2, _, h3, h4⟩ | ⟨j, h1, h2, _, h3, h4⟩ <;> exact ⟨j, by omega, by omega, h3, h4⟩

end Iterator
end BwTree
