import Verif.Proofs.Split

set_option linter.unusedSectionVars false

namespace BwTree
namespace LeafChain

variable {K V : Type} [LinearOrder K] [DecidableEq V]

theorem insertStep_spec {c : LeafChain K V} (h : WF c) {k : K} (hk : InRange c.low c.high k) (v : V) :
    (Has c k v ∧ insertStep k v c = some (false, c)) ∨
    (¬ Has c k v ∧ ∃ i e, insertStep k v c = some (true, ins k v i e c) ∧ WF (ins k v i e c)) := by
  rcases findValue_spec h hk v with ⟨h1, i, e, h2, h3⟩ | ⟨h1, i, e, h2, h3⟩
  · exact Or.inl ⟨h1, by simp [insertStep, h2]⟩
  · exact Or.inr ⟨h1, i, e, by simp [insertStep, h2], h, hk, h1, h3⟩

theorem deleteStep_spec {c : LeafChain K V} (h : WF c) {k : K} (hk : InRange c.low c.high k) (v : V) :
    (¬ Has c k v ∧ deleteStep k v c = some (false, c)) ∨
    (Has c k v ∧ ∃ i e, deleteStep k v c = some (true, del k v i e c) ∧ WF (del k v i e c)) := by
  rcases findValue_spec h hk v with ⟨h1, i, e, h2, h3⟩ | ⟨h1, i, e, h2, h3⟩
  · exact Or.inr ⟨h1, i, e, by simp [deleteStep, h2], h, hk, h1, h3⟩
  · exact Or.inl ⟨h1, by simp [deleteStep, h2]⟩

theorem lookupStep_spec {c : LeafChain K V} (h : WF c) (hn : NoDataAboveMerge c) {k : K}
    (hk : InRange c.low c.high k) :
    ∃ l, lookupStep k c = some l ∧ l.Nodup ∧ ∀ v, v ∈ l ↔ Has c k v := by
  obtain ⟨new, e1, e2, e3⟩ := getValues_spec c.depth k c h hn hk.2 [] [] [] (by simp) (by simp)
  exact ⟨new, by simpa [lookupStep] using e1, e2, by intro v; rw [e3]; simp⟩

theorem lookupStep_sound {c : LeafChain K V} (h : WF c) {k : K} (hk : InRange c.low c.high k) {l : List V}
    (e : lookupStep k c = some l) : l.Nodup ∧ ∀ v ∈ l, Has c k v := by
  obtain ⟨new, e1, e2, e3⟩ := getValues_sound c.depth k c h hk.2 [] [] 0 none [] l e
  rw [List.nil_append] at e1
  subst e1
  exact ⟨e2, fun v hv => (e3 v hv).2.2⟩

theorem predScan_spec {k : K} {v : V} {p : V → Bool} {P D : List V} : ∀ (l : List (K × V)) (i : Nat),
    SortedKeys l → (∀ x ∈ l, k ≤ x.1) →
    match predScan k v p P D l i with
    | .satisfied => ∃ w, w ∉ P ∧ w ∉ D ∧ (k, w) ∈ l ∧ p w = true
    | .existing => v ∉ P ∧ v ∉ D ∧ (k, v) ∈ l
    | .insertAt j e => e = false ∧ j = i + l.countP (fun x => decide (x.1 ≤ k)) ∧
        ∀ w, w ∉ P → w ∉ D → (k, w) ∈ l → p w = false ∧ w ≠ v := by
  intro l
  induction l with
  | nil => intro i _ _; simp [predScan]
  | cons x xs ih =>
    intro i hs hge
    obtain ⟨hs1, hs2⟩ := List.pairwise_cons.mp hs
    simp only [predScan]
    by_cases hx : x.1 = k
    · rw [if_pos hx]
      have ih' := ih (i + 1) hs2 (fun y hy => hge y (by simp [hy]))
      have cont : (∀ w, w ∉ P → w ∉ D → (k, w) = x → p w = false ∧ w ≠ v) →
          match predScan k v p P D xs (i + 1) with
          | .satisfied => ∃ w, w ∉ P ∧ w ∉ D ∧ (k, w) ∈ x :: xs ∧ p w = true
          | .existing => v ∉ P ∧ v ∉ D ∧ (k, v) ∈ x :: xs
          | .insertAt j e => e = false ∧ j = i + (x :: xs).countP (fun x => decide (x.1 ≤ k)) ∧
              ∀ w, w ∉ P → w ∉ D → (k, w) ∈ x :: xs → p w = false ∧ w ≠ v := by
        intro hw
        generalize predScan k v p P D xs (i + 1) = r at ih' ⊢
        cases r with
        | satisfied =>
          obtain ⟨w, a, b, c, d⟩ := ih'
          exact ⟨w, a, b, by simp [c], d⟩
        | existing => exact ⟨ih'.1, ih'.2.1, by simp [ih'.2.2]⟩
        | insertAt j e =>
          refine ⟨ih'.1, ?_, ?_⟩
          · rw [ih'.2.1, List.countP_cons, if_pos (by simp [hx])]; omega
          · intro w a b hm
            rcases List.mem_cons.mp hm with hm | hm
            · exact hw w a b hm
            · exact ih'.2.2 w a b hm
      by_cases hc : (!D.contains x.2 && !P.contains x.2) = true
      · rw [if_pos hc]
        simp only [Bool.and_eq_true, Bool.not_eq_true', List.contains_eq_mem, decide_eq_false_iff_not] at hc
        by_cases hp : p x.2 = true
        · rw [if_pos hp]
          exact ⟨x.2, hc.2, hc.1, by rw [← hx]; simp, hp⟩
        · rw [if_neg hp]
          by_cases hv : v = x.2
          · rw [if_pos hv]
            exact ⟨by rw [hv]; exact hc.2, by rw [hv]; exact hc.1, by rw [hv, ← hx]; simp⟩
          · rw [if_neg hv]
            apply cont
            intro w _ _ hw
            rw [← hw] at hp hv
            exact ⟨by simpa using hp, fun h => hv h.symm⟩
      · rw [if_neg hc]
        apply cont
        intro w a b hw
        exfalso; apply hc
        rw [← hw]; simp [a, b]
    · rw [if_neg hx]
      have hlt : k < x.1 := lt_of_le_of_ne (hge x (by simp)) (Ne.symm hx)
      have hall : ∀ y ∈ x :: xs, k < y.1 := by
        intro y hy
        rcases List.mem_cons.mp hy with rfl | hy
        · exact hlt
        · exact lt_of_lt_of_le hlt (hs1 y hy)
      refine ⟨rfl, ?_, ?_⟩
      · have : (x :: xs).countP (fun x => decide (x.1 ≤ k)) = 0 := by
          rw [List.countP_eq_zero]; intro y hy; simp; exact hall y hy
        rw [this]; rfl
      · intro w _ _ hm
        exact absurd (hall _ hm) (lt_irrefl _)

theorem predSearch_spec (cap : Nat) (k : K) (v : V) (p : V → Bool) : ∀ (c : LeafChain K V), WF c →
    (c.high.2 = INVALID ∨ k < c.high.1) → ∀ P D : List V, P.length + c.depth ≤ cap → D.length + c.depth ≤ cap →
    ∃ r, predSearch cap k v p c P D = some r ∧
      match r with
      | .satisfied => ∃ w, w ∉ P ∧ w ∉ D ∧ Has c k w ∧ p w = true
      | .existing => v ∉ P ∧ v ∉ D ∧ Has c k v
      | .insertAt j e => e = false ∧ j = (baseFor c k).countP (fun x => decide (x.1 ≤ k)) ∧
          ∀ w, w ∉ P → w ∉ D → Has c k w → p w = false ∧ w ≠ v := by
  intro c
  induction c with
  | base low high items =>
    intro h hr P D _ _
    have hs : SortedKeys items := h.1
    refine ⟨predScan k v p P D (items.drop (lbIdx items k)) (lbIdx items k), ?_, ?_⟩
    · simp only [predSearch]
      rw [lowerBound_eq hs (Nat.zero_le _) (lbIdx_le _ _) (Nat.le_refl _)]
    · have hge : ∀ x ∈ items.drop (lbIdx items k), k ≤ x.1 := by
        intro x hx
        obtain ⟨j, hj⟩ := List.mem_iff_getElem?.mp hx
        rw [List.getElem?_drop] at hj
        exact lbIdx_le_get hs (by omega) hj
      have hmem : ∀ w, (k, w) ∈ items ↔ (k, w) ∈ items.drop (lbIdx items k) := by
        intro w
        constructor
        · intro hm
          obtain ⟨j, hj⟩ := List.mem_iff_getElem?.mp hm
          have hlj : lbIdx items k ≤ j := by
            by_contra hc
            exact lt_irrefl _ (lt_lbIdx hs (k := k) (by omega) hj)
          rw [List.mem_iff_getElem?]
          exact ⟨j - lbIdx items k, by rw [List.getElem?_drop, show lbIdx items k + (j - lbIdx items k) = j by omega]; exact hj⟩
        · exact List.mem_of_mem_drop
      have hcount : items.countP (fun x => decide (x.1 ≤ k)) =
          lbIdx items k + (items.drop (lbIdx items k)).countP (fun x => decide (x.1 ≤ k)) := by
        have e : items = items.take (lbIdx items k) ++ items.drop (lbIdx items k) := (List.take_append_drop _ _).symm
        have t1 : (items.take (lbIdx items k)).countP (fun x => decide (x.1 ≤ k)) = lbIdx items k := by
          have : (items.take (lbIdx items k)).countP (fun x => decide (x.1 ≤ k)) = (items.take (lbIdx items k)).length := by
            rw [List.countP_eq_length]
            intro x hx
            obtain ⟨i, hi⟩ := List.mem_iff_getElem?.mp hx
            have hi' := (List.getElem?_eq_some_iff.mp hi).1
            rw [List.length_take] at hi'
            rw [List.getElem?_take_of_lt (by omega)] at hi
            simp only [decide_eq_true_eq]
            exact le_of_lt (lt_lbIdx hs (by omega) hi)
          rw [this, List.length_take]; exact Nat.min_eq_left (lbIdx_le _ _)
        conv => lhs; rw [e]
        rw [List.countP_append, t1]
      have := predScan_spec (v := v) (p := p) (P := P) (D := D) (items.drop (lbIdx items k)) (lbIdx items k)
        (hs.sublist (List.drop_sublist _ _)) hge
      generalize predScan k v p P D (items.drop (lbIdx items k)) (lbIdx items k) = r at this ⊢
      cases r with
      | satisfied =>
        obtain ⟨w, a, b, c, d⟩ := this
        exact ⟨w, a, b, (hmem w).mpr c, d⟩
      | existing => exact ⟨this.1, this.2.1, (hmem v).mpr this.2.2⟩
      | insertAt j e =>
        exact ⟨this.1, by rw [this.2.1]; exact hcount.symm, fun w a b hw => this.2.2 w a b ((hmem w).mp hw)⟩
  | ins k' v' i ex c ih =>
    intro h hr P D hc1 hc2
    simp only [depth] at hc1 hc2
    simp only [predSearch]
    by_cases hk : k = k'
    · subst hk
      rw [if_pos rfl]
      by_cases hc : (!D.contains v' && !P.contains v') = true
      · rw [if_pos hc]
        simp only [Bool.and_eq_true, Bool.not_eq_true', List.contains_eq_mem, decide_eq_false_iff_not] at hc
        by_cases hp : p v' = true
        · rw [if_pos hp]
          exact ⟨_, rfl, v', hc.2, hc.1, Or.inl ⟨rfl, rfl⟩, hp⟩
        · rw [if_neg hp]
          by_cases hv : v = v'
          · rw [if_pos hv]
            exact ⟨_, rfl, by rw [hv]; exact hc.2, by rw [hv]; exact hc.1, Or.inl ⟨rfl, hv⟩⟩
          · rw [if_neg hv, if_pos (by omega)]
            obtain ⟨r, e1, e2⟩ := ih h.1 hr (P ++ [v']) D (by simp; omega) (by omega)
            refine ⟨r, e1, ?_⟩
            cases r with
            | satisfied =>
              obtain ⟨w, a, b, c, d⟩ := e2
              exact ⟨w, fun hh => a (by simp [hh]), b, Or.inr c, d⟩
            | existing => exact ⟨fun hh => e2.1 (by simp [hh]), e2.2.1, Or.inr e2.2.2⟩
            | insertAt j e =>
              refine ⟨e2.1, e2.2.1, ?_⟩
              intro w a b hw
              by_cases hwv : w = v'
              · subst hwv; exact ⟨by simpa using hp, fun hh => hv hh.symm⟩
              · refine e2.2.2 w (by simp [a, hwv]) b ?_
                rcases hw with hw | hw
                · exact absurd hw.2 hwv
                · exact hw
      · rw [if_neg hc]
        have hc' : ¬ (v' ∉ D ∧ v' ∉ P) := by
          simpa only [Bool.and_eq_true, Bool.not_eq_true', List.contains_eq_mem, decide_eq_false_iff_not] using hc
        obtain ⟨r, e1, e2⟩ := ih h.1 hr P D (by omega) (by omega)
        refine ⟨r, e1, ?_⟩
        cases r with
        | satisfied =>
          obtain ⟨w, a, b, c, d⟩ := e2
          exact ⟨w, a, b, Or.inr c, d⟩
        | existing => exact ⟨e2.1, e2.2.1, Or.inr e2.2.2⟩
        | insertAt j e =>
          refine ⟨e2.1, e2.2.1, ?_⟩
          intro w a b hw
          rcases hw with hw | hw
          · rw [hw.2] at a b; exact absurd ⟨b, a⟩ hc'
          · exact e2.2.2 w a b hw
    · rw [if_neg hk]
      obtain ⟨r, e1, e2⟩ := ih h.1 hr P D (by omega) (by omega)
      refine ⟨r, e1, ?_⟩
      have hiff : ∀ w, Has (ins k' v' i ex c) k w ↔ Has c k w := by intro w; simp [Has, hk]
      cases r with
      | satisfied =>
        obtain ⟨w, a, b, c, d⟩ := e2
        exact ⟨w, a, b, (hiff w).mpr c, d⟩
      | existing => exact ⟨e2.1, e2.2.1, (hiff v).mpr e2.2.2⟩
      | insertAt j e => exact ⟨e2.1, e2.2.1, fun w a b hw => e2.2.2 w a b ((hiff w).mp hw)⟩
  | del k' v' i ex c ih =>
    intro h hr P D hc1 hc2
    simp only [depth] at hc1 hc2
    simp only [predSearch]
    by_cases hk : k = k'
    · subst hk
      rw [if_pos rfl]
      by_cases hc : (!P.contains v') = true
      · rw [if_pos hc, if_pos (by omega)]
        simp only [Bool.not_eq_true', List.contains_eq_mem, decide_eq_false_iff_not] at hc
        obtain ⟨r, e1, e2⟩ := ih h.1 hr P (D ++ [v']) (by omega) (by simp; omega)
        refine ⟨r, e1, ?_⟩
        cases r with
        | satisfied =>
          obtain ⟨w, a, b, c, d⟩ := e2
          simp only [List.mem_append, List.mem_singleton, not_or] at b
          exact ⟨w, a, b.1, ⟨fun hh => b.2 hh.2, c⟩, d⟩
        | existing =>
          obtain ⟨a, b, c⟩ := e2
          simp only [List.mem_append, List.mem_singleton, not_or] at b
          exact ⟨a, b.1, fun hh => b.2 hh.2, c⟩
        | insertAt j e =>
          refine ⟨e2.1, e2.2.1, ?_⟩
          intro w a b hw
          refine e2.2.2 w a ?_ hw.2
          simp only [List.mem_append, List.mem_singleton, not_or]
          exact ⟨b, fun hh => hw.1 ⟨rfl, hh⟩⟩
      · rw [if_neg hc]
        simp only [Bool.not_eq_true', List.contains_eq_mem, decide_eq_false_iff_not, Decidable.not_not] at hc
        obtain ⟨r, e1, e2⟩ := ih h.1 hr P D (by omega) (by omega)
        refine ⟨r, e1, ?_⟩
        cases r with
        | satisfied =>
          obtain ⟨w, a, b, c, d⟩ := e2
          exact ⟨w, a, b, ⟨fun hh => a (by rw [hh.2]; exact hc), c⟩, d⟩
        | existing => exact ⟨e2.1, e2.2.1, fun hh => e2.1 (by rw [hh.2]; exact hc), e2.2.2⟩
        | insertAt j e => exact ⟨e2.1, e2.2.1, fun w a b hw => e2.2.2 w a b hw.2⟩
    · rw [if_neg hk]
      obtain ⟨r, e1, e2⟩ := ih h.1 hr P D (by omega) (by omega)
      refine ⟨r, e1, ?_⟩
      have hiff : ∀ w, Has (del k' v' i ex c) k w ↔ Has c k w := by intro w; simp [Has, hk]
      cases r with
      | satisfied =>
        obtain ⟨w, a, b, c, d⟩ := e2
        exact ⟨w, a, b, (hiff w).mpr c, d⟩
      | existing => exact ⟨e2.1, e2.2.1, (hiff v).mpr e2.2.2⟩
      | insertAt j e => exact ⟨e2.1, e2.2.1, fun w a b hw => e2.2.2 w a b ((hiff w).mp hw)⟩
  | split sk id sib c ih =>
    intro h hr P D hc1 hc2
    simp only [depth] at hc1 hc2
    have hlt : k < sk := by
      rcases hr with hr | hr
      · exact absurd hr h.2.2.1
      · exact hr
    have hr' : c.high.2 = INVALID ∨ k < c.high.1 := by
      rcases h.2.2.2.2 with a | a
      · exact Or.inl a
      · exact Or.inr (lt_trans hlt a)
    obtain ⟨r, e1, e2⟩ := ih h.1 hr' P D hc1 hc2
    refine ⟨r, e1, ?_⟩
    have hiff : ∀ w, Has (split sk id sib c) k w ↔ Has c k w := by intro w; simp [Has, hlt]
    cases r with
    | satisfied =>
      obtain ⟨w, a, b, c, d⟩ := e2
      exact ⟨w, a, b, (hiff w).mpr c, d⟩
    | existing => exact ⟨e2.1, e2.2.1, (hiff v).mpr e2.2.2⟩
    | insertAt j e => exact ⟨e2.1, e2.2.1, fun w a b hw => e2.2.2 w a b ((hiff w).mp hw)⟩
  | merge mk id r c ihr ihc =>
    intro h hr P D hc1 hc2
    simp only [depth] at hc1 hc2
    simp only [predSearch, Has, baseFor]
    by_cases hle : mk ≤ k
    · simp only [if_pos hle]
      exact ihr h.2.1 hr P D (by omega) (by omega)
    · simp only [if_neg hle]
      exact ihc h.1 (Or.inr (by rw [h.2.2.1]; exact lt_of_not_ge hle)) P D (by omega) (by omega)
  | remove _ _ _ => intro h; exact absurd h (by simp [WF])

/-- Every chain is well formed that the code can produce by the leaf operations. -/
theorem merge_wf {l r : LeafChain K V} {mk : K} {id : NodeId} (hl : WF l) (hr : WF r) (h1 : l.high = (mk, id))
    (h2 : id ≠ INVALID) (h3 : r.low.1 = mk) (h4 : r.low.2 ≠ INVALID) : WF (merge mk id r l) :=
  ⟨hl, hr, h1, h2, h3, h4⟩

end LeafChain
end BwTree
