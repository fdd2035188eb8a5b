import Verif.Model.Search
import Mathlib.Order.Defs.LinearOrder

/-! Lemmas about the binary search loop. -/

namespace BwTree

/-- On a range partitioned at `b` the loop finds `b`. -/
theorem bsearchLoop_eq {α : Type} (p : α → Bool) (l : List α) (b : Nat) :
    ∀ (fuel first len : Nat), len ≤ fuel → first ≤ b → b ≤ first + len → first + len ≤ l.length →
      (∀ i x, first ≤ i → i < b → l[i]? = some x → p x = true) →
      (∀ i x, b ≤ i → i < first + len → l[i]? = some x → p x = false) →
      bsearchLoop p l fuel first len = some b := by
  intro fuel
  induction fuel with
  | zero => intro first len h1 h2 h3 _ _ _; simp only [bsearchLoop]; rw [if_pos (by omega)]; congr 1; omega
  | succ n ih =>
    intro first len h1 h2 h3 h4 hT hF
    simp only [bsearchLoop]
    by_cases h0 : len = 0
    · rw [if_pos h0]; congr 1; omega
    · rw [if_neg h0]
      have hlt : first + len / 2 < l.length := by omega
      rw [List.getElem?_eq_getElem hlt]
      simp only
      cases hp : p l[first + len / 2] with
      | true =>
        simp only [if_true]
        have hb : first + len / 2 < b := by
          by_contra hc
          have := hF (first + len / 2) _ (by omega) (by omega) (List.getElem?_eq_getElem hlt)
          simp [this] at hp
        exact ih _ _ (by omega) (by omega) (by omega) (by omega)
          (fun i x h5 h6 => hT i x (by omega) h6) (fun i x h5 h6 => hF i x h5 (by omega))
      | false =>
        simp only [Bool.false_eq_true, if_false]
        have hb : b ≤ first + len / 2 := by
          by_contra hc
          have := hT (first + len / 2) _ (by omega) (by omega) (List.getElem?_eq_getElem hlt)
          simp [this] at hp
        exact ih _ _ (by omega) (by omega) (by omega) (by omega)
          (fun i x h5 h6 => hT i x h5 h6) (fun i x h5 h6 => hF i x h5 (by omega))

theorem bsearch_eq {α : Type} (p : α → Bool) (l : List α) (first last b : Nat)
    (h2 : first ≤ b) (h3 : b ≤ last) (h4 : last ≤ l.length)
    (hT : ∀ i x, first ≤ i → i < b → l[i]? = some x → p x = true)
    (hF : ∀ i x, b ≤ i → i < last → l[i]? = some x → p x = false) :
    bsearch p l first last = some b := by
  unfold bsearch
  rw [if_pos (by omega)]
  exact bsearchLoop_eq p l b _ _ _ (by omega) (by omega) (by omega) (by omega) hT
    (fun i x h5 h6 => hF i x h5 (by omega))

/-- Whatever the contents, a search over a valid range ends inside the range. -/
theorem bsearchLoop_bounds {α : Type} (p : α → Bool) (l : List α) :
    ∀ (fuel first len : Nat), len ≤ fuel → first + len ≤ l.length →
      ∃ b, bsearchLoop p l fuel first len = some b ∧ first ≤ b ∧ b ≤ first + len := by
  intro fuel
  induction fuel with
  | zero => intro first len h1 h4; exact ⟨first, by simp only [bsearchLoop]; rw [if_pos (by omega)], by omega, by omega⟩
  | succ n ih =>
    intro first len h1 h4
    simp only [bsearchLoop]
    by_cases h0 : len = 0
    · exact ⟨first, by rw [if_pos h0], by omega, by omega⟩
    · rw [if_neg h0]
      have hlt : first + len / 2 < l.length := by omega
      rw [List.getElem?_eq_getElem hlt]
      simp only
      cases hp : p l[first + len / 2] with
      | true =>
        simp only [if_true]
        obtain ⟨b, e, h5, h6⟩ := ih (first + len / 2 + 1) (len - len / 2 - 1) (by omega) (by omega)
        exact ⟨b, e, by omega, by omega⟩
      | false =>
        simp only [Bool.false_eq_true, if_false]
        obtain ⟨b, e, h5, h6⟩ := ih first (len / 2) (by omega) (by omega)
        exact ⟨b, e, by omega, by omega⟩

section
variable {K α : Type} [LinearOrder K]

/-- Key order of an array (non-strict). -/
def SortedKeys (l : List (K × α)) : Prop := l.Pairwise (fun a b => a.1 ≤ b.1)

/-- Number of entries with key `< k` (position of the first entry with key `≥ k` when sorted). -/
def lbIdx (l : List (K × α)) (k : K) : Nat := l.countP (fun x => decide (x.1 < k))

/-- Number of entries with key `≤ k` (position of the first entry with key `> k` when sorted). -/
def ubIdx (l : List (K × α)) (k : K) : Nat := l.countP (fun x => decide (x.1 ≤ k))

theorem lbIdx_le (l : List (K × α)) (k : K) : lbIdx l k ≤ l.length := List.countP_le_length
theorem ubIdx_le (l : List (K × α)) (k : K) : ubIdx l k ≤ l.length := List.countP_le_length

theorem lbIdx_le_ubIdx (l : List (K × α)) (k : K) : lbIdx l k ≤ ubIdx l k := by
  unfold lbIdx ubIdx
  apply List.countP_mono_left
  intro x _ h
  simp only [decide_eq_true_eq] at *
  exact le_of_lt h

theorem sorted_get {l : List (K × α)} (hs : SortedKeys l) {i j : Nat} {x y : K × α}
    (hij : i ≤ j) (hi : l[i]? = some x) (hj : l[j]? = some y) : x.1 ≤ y.1 := by
  obtain ⟨h1, e1⟩ := List.getElem?_eq_some_iff.mp hi
  obtain ⟨h2, e2⟩ := List.getElem?_eq_some_iff.mp hj
  rcases Nat.lt_or_ge i j with h | h
  · have := List.pairwise_iff_getElem.mp hs i j h1 h2 h
    rw [e1, e2] at this; exact this
  · have : i = j := by omega
    subst this
    rw [hi] at hj; cases hj; exact le_refl _

/-- Generic: for a down-closed decidable predicate on a sorted list, `countP` is the partition point. -/
theorem countP_partition {l : List (K × α)} (hs : SortedKeys l) (p : K → Bool)
    (hp : ∀ a b, a ≤ b → p b = true → p a = true) :
    (∀ i x, i < l.countP (fun x => p x.1) → l[i]? = some x → p x.1 = true) ∧
    (∀ i x, l.countP (fun x => p x.1) ≤ i → l[i]? = some x → p x.1 = false) := by
  induction l with
  | nil => constructor <;> intro i x _ h <;> simp at h
  | cons a l ih =>
    have hs' : SortedKeys l := (List.pairwise_cons.mp hs).2
    have ha := (List.pairwise_cons.mp hs).1
    obtain ⟨ih1, ih2⟩ := ih hs'
    cases hpa : p a.1 with
    | true =>
      have hc : (a :: l).countP (fun x => p x.1) = l.countP (fun x => p x.1) + 1 := by
        simp [hpa]
      rw [hc]
      constructor
      · intro i x h1 h2
        cases i with
        | zero => simp at h2; subst h2; exact hpa
        | succ i => simp at h2; exact ih1 i x (by omega) h2
      · intro i x h1 h2
        cases i with
        | zero => omega
        | succ i => simp at h2; exact ih2 i x (by omega) h2
    | false =>
      have hall : ∀ x ∈ l, p x.1 = false := by
        intro x hx
        cases h : p x.1 with
        | false => rfl
        | true => have := hp _ _ (ha x hx) h; simp [hpa] at this
      have hc : (a :: l).countP (fun x => p x.1) = 0 := by
        rw [List.countP_eq_zero]
        intro x hx
        rcases List.mem_cons.mp hx with rfl | hx
        · simp [hpa]
        · simp [hall x hx]
      rw [hc]
      constructor
      · intro i x h1 _; omega
      · intro i x _ h2
        cases i with
        | zero => simp at h2; subst h2; exact hpa
        | succ i => simp at h2; exact hall x (List.mem_of_getElem? h2)

theorem lt_lbIdx {l : List (K × α)} (hs : SortedKeys l) {k : K} {i : Nat} {x : K × α}
    (h : i < lbIdx l k) (hx : l[i]? = some x) : x.1 < k := by
  have := (countP_partition hs (fun a => decide (a < k))
    (by intro a b h1 h2; simp only [decide_eq_true_eq] at *; exact lt_of_le_of_lt h1 h2)).1 i x h hx
  simpa using this

theorem lbIdx_le_get {l : List (K × α)} (hs : SortedKeys l) {k : K} {i : Nat} {x : K × α}
    (h : lbIdx l k ≤ i) (hx : l[i]? = some x) : k ≤ x.1 := by
  have := (countP_partition hs (fun a => decide (a < k))
    (by intro a b h1 h2; simp only [decide_eq_true_eq] at *; exact lt_of_le_of_lt h1 h2)).2 i x h hx
  simpa using this

theorem lt_ubIdx {l : List (K × α)} (hs : SortedKeys l) {k : K} {i : Nat} {x : K × α}
    (h : i < ubIdx l k) (hx : l[i]? = some x) : x.1 ≤ k := by
  have := (countP_partition hs (fun a => decide (a ≤ k))
    (by intro a b h1 h2; simp only [decide_eq_true_eq] at *; exact le_trans h1 h2)).1 i x h hx
  simpa using this

theorem ubIdx_le_get {l : List (K × α)} (hs : SortedKeys l) {k : K} {i : Nat} {x : K × α}
    (h : ubIdx l k ≤ i) (hx : l[i]? = some x) : k < x.1 := by
  have := (countP_partition hs (fun a => decide (a ≤ k))
    (by intro a b h1 h2; simp only [decide_eq_true_eq] at *; exact le_trans h1 h2)).2 i x h hx
  simpa using this

/-- `std::lower_bound` on any sub-range that contains the partition point finds it. -/
theorem lowerBound_eq {l : List (K × α)} (hs : SortedKeys l) {first last : Nat} {k : K}
    (h1 : first ≤ lbIdx l k) (h2 : lbIdx l k ≤ last) (h3 : last ≤ l.length) :
    lowerBound l first last k = some (lbIdx l k) := by
  unfold lowerBound
  apply bsearch_eq _ _ _ _ _ h1 h2 h3
  · intro i x _ h hx; simpa using lt_lbIdx hs h hx
  · intro i x h _ hx; simpa using lbIdx_le_get hs h hx

theorem upperBound_eq {l : List (K × α)} (hs : SortedKeys l) {first last : Nat} {k : K}
    (h1 : first ≤ ubIdx l k) (h2 : ubIdx l k ≤ last) (h3 : last ≤ l.length) :
    upperBound l first last k = some (ubIdx l k) := by
  unfold upperBound
  apply bsearch_eq _ _ _ _ _ h1 h2 h3
  · intro i x _ h hx; simpa using lt_ubIdx hs h hx
  · intro i x h _ hx; simpa using ubIdx_le_get hs h hx

end

theorem mem_slice {α : Type} {l : List α} {a b : Nat} {x : α} :
    x ∈ (l.take b).drop a ↔ ∃ j, a ≤ j ∧ j < b ∧ l[j]? = some x := by
  rw [List.mem_iff_getElem?]
  constructor
  · rintro ⟨i, h⟩
    rw [List.getElem?_drop, List.getElem?_take] at h
    split at h
    · exact ⟨a + i, by omega, by assumption, h⟩
    · cases h
  · rintro ⟨j, h1, h2, h3⟩
    refine ⟨j - a, ?_⟩
    rw [List.getElem?_drop, List.getElem?_take]
    rw [show a + (j - a) = j by omega, if_pos h2]; exact h3

end BwTree
