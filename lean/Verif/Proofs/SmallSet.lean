import Verif.Model.SmallSet
import Verif.Spec.Order
import Verif.Proofs.Search

namespace BwTree.SmallSet

variable {α : Type} {lt eq : α → α → Bool}

theorem negTrans (h : StrictWeak lt) {a b c : α} (h1 : lt b a = false) (h2 : lt c b = false) :
    lt c a = false := by
  cases hca : lt c a with
  | false => rfl
  | true =>
    exfalso
    cases hab : lt a b with
    | true => have := h.trans _ _ _ hca hab; simp [h2] at this
    | false =>
      cases hbc : lt b c with
      | true => have := h.trans _ _ _ hbc hca; simp [h1] at this
      | false => have := (h.incomp a b c hab h1 hbc h2).2; simp [hca] at this

theorem lt_of_lt_of_not (h : StrictWeak lt) {a b c : α} (h1 : lt a b = true) (h2 : lt c b = false) :
    lt a c = true := by
  cases hac : lt a c with
  | true => rfl
  | false => have := negTrans h h2 hac; simp [h1] at this

theorem asymm (h : StrictWeak lt) {a b : α} (h1 : lt a b = true) : lt b a = false := by
  cases hba : lt b a with
  | false => rfl
  | true => have := h.trans _ _ _ h1 hba; simp [h.irrefl] at this

theorem mem_insert {v x : α} {l : List α} (hx : x ∈ insert lt eq v l) : x = v ∨ x ∈ l := by
  induction l with
  | nil => simp [insert] at hx; exact Or.inl hx
  | cons a l ih =>
    simp only [insert] at hx
    split at hx
    · split at hx
      · rcases List.mem_cons.mp hx with h | h
        · exact Or.inl h
        · exact Or.inr h
      · exact Or.inr hx
    · rcases List.mem_cons.mp hx with h | h
      · exact Or.inr (by simp [h])
      · rcases ih h with h | h
        · exact Or.inl h
        · exact Or.inr (List.mem_cons_of_mem _ h)

theorem subset_insert {v x : α} {l : List α} (hx : x ∈ l) : x ∈ insert lt eq v l := by
  induction l with
  | nil => cases hx
  | cons a l ih =>
    simp only [insert]
    split
    · split
      · exact List.mem_cons_of_mem _ hx
      · exact hx
    · rcases List.mem_cons.mp hx with h | h
      · simp [h]
      · exact List.mem_cons_of_mem _ (ih h)

theorem pairwise_insert (h : StrictWeak lt) (he : EqInduced lt eq) {v : α} {l : List α}
    (hl : l.Pairwise (fun a b => lt a b = true)) :
    (insert lt eq v l).Pairwise (fun a b => lt a b = true) := by
  induction l with
  | nil => simp [insert]
  | cons a l ih =>
    obtain ⟨h1, h2⟩ := List.pairwise_cons.mp hl
    simp only [insert]
    split
    · rename_i hav
      split
      · rename_i hne
        have hva : lt v a = true := by
          cases hva : lt v a with
          | true => rfl
          | false => rw [(he a v).mpr ⟨hav, hva⟩] at hne; cases hne
        refine List.pairwise_cons.mpr ⟨?_, hl⟩
        intro b hb
        rcases List.mem_cons.mp hb with rfl | hb
        · exact hva
        · exact h.trans _ _ _ hva (h1 b hb)
      · exact hl
    · rename_i hav
      refine List.pairwise_cons.mpr ⟨?_, ih h2⟩
      intro b hb
      rcases mem_insert hb with rfl | hb
      · simpa using hav
      · exact h1 b hb

/-- `v` is added exactly when no equal element is present. -/
theorem mem_insert_self {v : α} {l : List α}
    (hl : l.Pairwise (fun a b => lt a b = true)) :
    (∀ x ∈ l, eq x v = false) → v ∈ insert lt eq v l := by
  induction l with
  | nil => intro _; simp [insert]
  | cons a l ih =>
    intro hne
    simp only [insert]
    split
    · split
      · simp
      · rename_i h1; exact absurd (hne a (by simp)) h1
    · exact List.mem_cons_of_mem _ (ih (List.pairwise_cons.mp hl).2
        (fun x hx => hne x (List.mem_cons_of_mem _ hx)))

theorem insert_dup (h : StrictWeak lt) (he : EqInduced lt eq) {v : α} {l : List α}
    (hl : l.Pairwise (fun a b => lt a b = true)) :
    (∃ x ∈ l, eq x v = true) → insert lt eq v l = l := by
  induction l with
  | nil => rintro ⟨x, hx, _⟩; cases hx
  | cons a l ih =>
    rintro ⟨x, hx, hxv⟩
    obtain ⟨h1, h2⟩ := List.pairwise_cons.mp hl
    simp only [insert]
    split
    · rename_i hav
      split
      · rename_i hne
        rcases List.mem_cons.mp hx with rfl | hx
        · simp [hxv] at hne
        · -- a < x and x ~ v, so a < v
          have := lt_of_lt_of_not h (h1 x hx) ((he x v).mp hxv).2
          simp [hav] at this
      · rfl
    · rename_i hav
      rcases List.mem_cons.mp hx with rfl | hx
      · exact absurd ((he x v).mp hxv).1 hav
      · rw [ih h2 ⟨x, hx, hxv⟩]

/-- Upper-bound insertion position in a sorted list. -/
theorem insertNoDedup_split (h : StrictWeak lt) {v : α} {l : List α}
    (hl : l.Pairwise (fun a b => lt b a = false)) :
    ∃ l1 l2, l = l1 ++ l2 ∧ insertNoDedup lt v l = some (l1 ++ v :: l2) ∧
      (∀ x ∈ l1, lt v x = false) ∧ (∀ x ∈ l2, lt v x = true) := by
  have key : ∀ l : List α, l.Pairwise (fun a b => lt b a = false) →
      ∃ l1 l2, l = l1 ++ l2 ∧ (∀ x ∈ l1, lt v x = false) ∧ (∀ x ∈ l2, lt v x = true) := by
    intro l hl
    induction l with
    | nil => exact ⟨[], [], rfl, by simp, by simp⟩
    | cons a l ih =>
      obtain ⟨h1, h2⟩ := List.pairwise_cons.mp hl
      cases hva : lt v a with
      | true =>
        refine ⟨[], a :: l, rfl, by simp, ?_⟩
        intro x hx
        rcases List.mem_cons.mp hx with rfl | hx
        · exact hva
        · exact lt_of_lt_of_not h hva (h1 x hx)
      | false =>
        obtain ⟨l1, l2, e, p1, p2⟩ := ih h2
        refine ⟨a :: l1, l2, by rw [e]; rfl, ?_, p2⟩
        intro x hx
        rcases List.mem_cons.mp hx with rfl | hx
        · exact hva
        · exact p1 x hx
  obtain ⟨l1, l2, e, p1, p2⟩ := key l hl
  refine ⟨l1, l2, e, ?_, p1, p2⟩
  have hb : bsearch (fun x => !lt v x) l 0 l.length = some l1.length := by
    apply bsearch_eq _ _ _ _ _ (by omega) (by rw [e]; simp) (Nat.le_refl _)
    · intro i x _ hi hx
      subst e
      rw [List.getElem?_append_left hi] at hx
      simp [p1 x (List.mem_of_getElem? hx)]
    · intro i x hi _ hx
      subst e
      rw [List.getElem?_append_right hi] at hx
      simp [p2 x (List.mem_of_getElem? hx)]
  unfold insertNoDedup
  rw [hb]
  subst e
  simp

theorem pairwise_insertNoDedup (h : StrictWeak lt) {v : α} {l1 l2 : List α}
    (hl : (l1 ++ l2).Pairwise (fun a b => lt b a = false))
    (h1 : ∀ x ∈ l1, lt v x = false) (h2 : ∀ x ∈ l2, lt v x = true) :
    (l1 ++ v :: l2).Pairwise (fun a b => lt b a = false) := by
  rw [List.pairwise_append] at hl ⊢
  obtain ⟨a1, a2, a3⟩ := hl
  refine ⟨a1, List.pairwise_cons.mpr ⟨fun x hx => asymm h (h2 x hx), a2⟩, ?_⟩
  intro a ha b hb
  rcases List.mem_cons.mp hb with rfl | hb
  · exact h1 a ha
  · exact a3 a ha b hb

end BwTree.SmallSet
