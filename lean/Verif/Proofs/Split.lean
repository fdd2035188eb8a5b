import Verif.Model.Split
import Verif.Spec.Leaf
import Verif.Proofs.Collect

set_option linter.unusedSectionVars false

namespace BwTree
namespace LeafChain

variable {K V : Type} [LinearOrder K] [DecidableEq V]

theorem scanBack_spec {items : List (K × V)} (hs : SortedKeys items) {ck : K} : ∀ {i : Nat},
    i < items.length → (∀ x, items[i]? = some x → x.1 ≤ ck) →
    ∃ j, scanBack items ck i = some j ∧ j ≤ i ∧
      (∀ p x, j < p → p ≤ i → items[p]? = some x → x.1 = ck) ∧
      (j = 0 ∨ ∃ x, items[j]? = some x ∧ x.1 < ck) := by
  intro i
  induction i with
  | zero => intro _ _; exact ⟨0, rfl, Nat.le_refl _, by intro p x h1 h2; omega, Or.inl rfl⟩
  | succ i ih =>
    intro h hle
    have hget := List.getElem?_eq_getElem h
    simp only [scanBack, hget]
    by_cases he : (items[i+1]).1 = ck
    · rw [if_pos he]
      obtain ⟨j, h1, h2, h3, h4⟩ := ih (by omega) (by
        intro x hx
        have := sorted_get hs (i := i) (j := i+1) (by omega) hx hget
        exact le_trans this (hle _ hget))
      refine ⟨j, h1, by omega, ?_, h4⟩
      intro p x p1 p2 hx
      by_cases hp : p = i + 1
      · subst hp; rw [hget] at hx; injection hx with hx; rw [← hx]; exact he
      · exact h3 p x p1 (by omega) hx
    · rw [if_neg he]
      refine ⟨i + 1, rfl, Nat.le_refl _, by intro p x h1 h2; omega, Or.inr ⟨_, hget, ?_⟩⟩
      exact lt_of_le_of_ne (hle _ hget) he

theorem scanFwd_spec {ck : K} : ∀ (l : List (K × V)) (i : Nat),
    ∃ n, scanFwd ck l i = i + n ∧ n ≤ l.length ∧ (∀ p x, p < n → l[p]? = some x → x.1 = ck) ∧
      (∀ x, l[n]? = some x → x.1 ≠ ck) := by
  intro l
  induction l with
  | nil => intro i; exact ⟨0, rfl, Nat.le_refl _, by intro p x h; omega, by simp⟩
  | cons a l ih =>
    intro i
    simp only [scanFwd]
    by_cases he : a.1 = ck
    · rw [if_pos he]
      obtain ⟨n, h1, h2, h3, h4⟩ := ih (i + 1)
      refine ⟨n + 1, by omega, by simp; omega, ?_, ?_⟩
      · intro p x hp hx
        cases p with
        | zero => simp at hx; rw [← hx]; exact he
        | succ p => simp at hx; exact h3 p x (by omega) hx
      · intro x hx; simp at hx; exact h4 x hx
    · rw [if_neg he]
      refine ⟨0, rfl, Nat.zero_le _, by intro p x h; omega, ?_⟩
      intro x hx; simp at hx; rw [← hx]; exact he

/-- `p` is an acceptable split point: a key boundary leaving more than LEAF_LOWER items on both sides. -/
def GoodSplit (items : List (K × V)) (p : Nat) : Prop :=
  LEAF_LOWER < p ∧ LEAF_LOWER < items.length - p ∧
  ∀ x y, items[p - 1]? = some x → items[p]? = some y → x.1 < y.1

theorem findSplitPoint_spec {items : List (K × V)} (hs : SortedKeys items) (hn : LEAF_UPPER ≤ items.length) :
    (∃ p, findSplitPoint items = some (some p) ∧ GoodSplit items p) ∨
    (findSplitPoint items = some none ∧ ∀ p, ¬ GoodSplit items p) := by
  have hn' : 128 ≤ items.length := hn
  have hc : items.length / 2 < items.length := by omega
  have hget := List.getElem?_eq_getElem hc
  unfold findSplitPoint
  simp only [if_pos (show 1 < items.length / 2 by omega), hget]
  generalize hck : items[items.length / 2].1 = ck
  generalize hcen : items.length / 2 = cen at *
  obtain ⟨j, h1, h2, h3, h4⟩ := scanBack_spec hs (ck := ck) (i := cen - 1) (by omega) (by
    intro x hx; rw [← hck]; exact sorted_get hs (by omega) hx hget)
  rw [h1]
  simp only
  by_cases hl : LEAF_LOWER < j + 1
  · left
    rw [if_pos hl]
    refine ⟨j + 1, rfl, hl, by simp only [LEAF_LOWER] at *; omega, ?_⟩
    intro x y hx hy
    simp only [LEAF_LOWER] at hl
    have hx1 : x.1 < ck := by
      rcases h4 with h4 | ⟨z, hz, hz2⟩
      · omega
      · simp at hx; rw [hz] at hx; injection hx with hx; rw [← hx]; exact hz2
    have hy1 : y.1 = ck := by
      by_cases hj : j + 1 ≤ cen - 1
      · exact h3 _ y (by omega) hj hy
      · have : j + 1 = cen := by omega
        rw [this, hget] at hy; injection hy with hy; rw [← hy]; exact hck
    rw [hy1]; exact hx1
  · rw [if_neg hl]
    obtain ⟨n, e1, e2, e3, e4⟩ := scanFwd_spec (ck := ck) (items.drop (cen + 1)) (cen + 1)
    rw [e1]
    rw [List.length_drop] at e2
    simp only [List.getElem?_drop] at e3 e4
    have hlast : ∀ p x, cen ≤ p → p < cen + 1 + n → items[p]? = some x → x.1 = ck := by
      intro p x hp1 hp2 hx
      by_cases hp : p = cen
      · subst hp; rw [hget] at hx; injection hx with hx; rw [← hx]; exact hck
      · have := e3 (p - (cen + 1)) x (by omega)
        rw [show cen + 1 + (p - (cen + 1)) = p by omega] at this
        exact this hx
    by_cases hr : LEAF_LOWER < items.length - (cen + 1 + n)
    · left
      rw [if_pos hr]
      refine ⟨_, rfl, by simp only [LEAF_LOWER] at *; omega, hr, ?_⟩
      intro x y hx hy
      have hx1 : x.1 = ck := hlast _ x (by omega) (by omega) hx
      have hne : y.1 ≠ ck := e4 y hy
      have := sorted_get hs (i := cen + 1 + n - 1) (j := cen + 1 + n) (by omega) hx hy
      rw [hx1] at *
      exact lt_of_le_of_ne this (Ne.symm hne)
    · right
      rw [if_neg hr]
      refine ⟨rfl, ?_⟩
      rintro p ⟨p1, p2, p3⟩
      simp only [LEAF_LOWER] at *
      have hp : p < items.length := by omega
      have hpg := List.getElem?_eq_getElem hp
      have hpg' := List.getElem?_eq_getElem (show p - 1 < items.length by omega)
      have hlt := p3 _ _ hpg' hpg
      -- p-1 and p both lie in the run of the central key
      have hrun : ∀ q x, j < q → q < cen + 1 + n → items[q]? = some x → x.1 = ck := by
        intro q x q1 q2 hx
        by_cases hq : q ≤ cen - 1
        · exact h3 q x q1 hq hx
        · exact hlast q x (by omega) q2 hx
      have a1 := hrun (p - 1) _ (by omega) (by omega) hpg'
      have a2 := hrun p _ (by omega) (by omega) hpg
      rw [a1, a2] at hlt
      exact lt_irrefl _ hlt

/-- Cutting a sorted list at a key boundary. -/
theorem boundary_take {items : List (K × V)} (hs : SortedKeys items) {p : Nat} {y : K × V} (hp : 0 < p)
    (hy : items[p]? = some y)
    (hb : ∀ x y, items[p - 1]? = some x → items[p]? = some y → x.1 < y.1) :
    (∀ x ∈ items.take p, x.1 < y.1) ∧ (∀ x ∈ items.drop p, y.1 ≤ x.1) := by
  have hlen := (List.getElem?_eq_some_iff.mp hy).1
  constructor
  · intro x hx
    obtain ⟨i, hi⟩ := List.mem_iff_getElem?.mp hx
    have hi' := (List.getElem?_eq_some_iff.mp hi).1
    rw [List.length_take] at hi'
    rw [List.getElem?_take_of_lt (by omega)] at hi
    have hg := List.getElem?_eq_getElem (show p - 1 < items.length by omega)
    have h1 := sorted_get hs (i := i) (j := p - 1) (by omega) hi hg
    exact lt_of_le_of_lt h1 (hb _ _ hg hy)
  · intro x hx
    obtain ⟨i, hi⟩ := List.mem_iff_getElem?.mp hx
    rw [List.getElem?_drop] at hi
    exact sorted_get hs (i := p) (j := p + i) (by omega) hy hi

theorem trySplit_spec {c : LeafChain K V} (h : WF c) {newId : NodeId} (hid : newId ≠ INVALID) :
    trySplit newId c = some none ∨
    ∃ sk sib low high items p, c = base low high items ∧ trySplit newId c = some (some (split sk newId sib.itemCount c, sib)) ∧
      sib = base (sk, NOT_INVALID) high (items.drop p) ∧ GoodSplit items p ∧ (∃ y, items[p]? = some y ∧ y.1 = sk) ∧
      WF (split sk newId sib.itemCount c) ∧ WF sib := by
  cases c with
  | base low high items =>
    unfold trySplit
    simp only [isDelta, Bool.false_eq_true, if_false]
    by_cases hlt : (base low high items).itemCount < (LEAF_UPPER : Int)
    · left; rw [if_pos hlt]
    · rw [if_neg hlt]
      have hge : LEAF_UPPER ≤ items.length := by simp only [itemCount] at hlt; omega
      rcases findSplitPoint_spec h.1 hge with ⟨p, hp, hgood⟩ | ⟨hp, _⟩
      · right
        have hplt : p < items.length := by have := hgood.2.1; omega
        have hp0 : 0 < p := by have := hgood.1; omega
        have hg := List.getElem?_eq_getElem hplt
        obtain ⟨hb1, hb2⟩ := boundary_take h.1 hp0 hg hgood.2.2
        have hdrop : items.drop p = items[p] :: items.drop (p + 1) := List.drop_eq_getElem_cons hplt
        refine ⟨items[p].1, base (items[p].1, NOT_INVALID) high (items.drop p), low, high, items, p, rfl, ?_, rfl, hgood,
          ⟨_, hg, rfl⟩, ?_, ?_⟩
        · simp only [splitSibling, hp, hg]
          rw [hdrop]
        · have hmem : items[p] ∈ items := List.getElem_mem hplt
          have hfirst : items[0] ∈ items := List.getElem_mem (by omega)
          refine ⟨h, ⟨low, high, items, rfl, ?_⟩, hid, ?_, ?_⟩
          · simp only [itemCount, List.length_drop]
            have e : items = items.take p ++ items.drop p := (List.take_append_drop p items).symm
            have : items.countP (fun x => decide (items[p].1 ≤ x.1)) = (items.drop p).length := by
              conv => lhs; arg 2; rw [e]
              rw [List.countP_append]
              have z1 : List.countP (fun x : K × V => decide (items[p].1 ≤ x.1)) (items.take p) = 0 := by
                rw [List.countP_eq_zero]; intro x hx; simp; exact hb1 x hx
              have z2 : List.countP (fun x : K × V => decide (items[p].1 ≤ x.1)) (items.drop p) = (items.drop p).length := by
                rw [List.countP_eq_length]; intro x hx; simp; exact hb2 x hx
              rw [z1, z2]; omega
            rw [this, List.length_drop]
          · -- low < split key: the first item is in range and below the split key
            have h0 : items[0] ∈ items.take p := by
              rw [List.mem_iff_getElem?]
              exact ⟨0, by rw [List.getElem?_take_of_lt hp0]; exact List.getElem?_eq_getElem (by omega)⟩
            rcases (h.2.2.1 _ hfirst).1 with a | a
            · exact Or.inl a
            · exact Or.inr (lt_of_le_of_lt a (hb1 _ h0))
          · exact (h.2.2.1 _ hmem).2
        · have hmem : items[p] ∈ items := List.getElem_mem hplt
          refine ⟨h.1.sublist (List.drop_sublist _ _), h.2.1.sublist (List.drop_sublist _ _), ?_, ?_⟩
          · intro x hx
            exact ⟨Or.inr (hb2 x hx), (h.2.2.1 x (List.mem_of_mem_drop hx)).2⟩
          · rcases (h.2.2.1 _ hmem).2 with a | a
            · exact Or.inr (Or.inl a)
            · exact Or.inr (Or.inr a)
      · left
        simp only [splitSibling, hp]
  | ins _ _ _ _ _ => left; rfl
  | del _ _ _ _ _ => left; rfl
  | split _ _ _ _ => left; rfl
  | merge _ _ _ _ => left; rfl
  | remove _ _ => left; rfl

end LeafChain
end BwTree
