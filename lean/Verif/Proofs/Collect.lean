import Verif.Proofs.Leaf

namespace BwTree
namespace LeafChain

variable {K V : Type} [LinearOrder K] [DecidableEq V]
set_option linter.unusedSectionVars false

theorem nodup_getElem?_inj {α : Type} {l : List α} (h : l.Nodup) {i j : Nat} {x : α}
    (hi : l[i]? = some x) (hj : l[j]? = some x) : i = j := by
  obtain ⟨h1, e1⟩ := List.getElem?_eq_some_iff.mp hi
  obtain ⟨h2, e2⟩ := List.getElem?_eq_some_iff.mp hj
  rcases Nat.lt_trichotomy i j with hlt | rfl | hlt
  · exact absurd (e1.trans e2.symm) (List.pairwise_iff_getElem.mp h i j h1 h2 hlt)
  · rfl
  · exact absurd (e2.trans e1.symm) (List.pairwise_iff_getElem.mp h j i h2 h1 hlt)

theorem slice?_some {α : Type} {l : List α} {a b : Nat} (h1 : a ≤ b) (h2 : b ≤ l.length) :
    slice? l a b = some ((l.take b).drop a) := by
  unfold slice?; rw [if_pos ⟨h1, h2⟩]

theorem strictWeak_deltaLt : StrictWeak (deltaLt : DeltaRec K V → DeltaRec K V → Bool) := by
  have key : ∀ a b : DeltaRec K V, deltaLt a b = true ↔ a.k < b.k ∨ (a.k = b.k ∧ a.idx < b.idx) := by
    intro a b
    unfold deltaLt
    by_cases h1 : a.k < b.k
    · simp [h1]
    · by_cases h2 : a.k = b.k
      · simp [h2]
      · simp [h1, h2]
  have keyF : ∀ a b : DeltaRec K V, deltaLt a b = false ↔ ¬ (a.k < b.k ∨ (a.k = b.k ∧ a.idx < b.idx)) := by
    intro a b; rw [← key]; simp
  refine ⟨?_, ?_, ?_⟩
  · intro a; rw [keyF]; simp
  · intro a b c h1 h2
    rw [key] at *
    rcases h1 with h1 | ⟨h1, h1'⟩ <;> rcases h2 with h2 | ⟨h2, h2'⟩
    · exact Or.inl (lt_trans h1 h2)
    · exact Or.inl (by rw [← h2]; exact h1)
    · exact Or.inl (by rw [h1]; exact h2)
    · exact Or.inr ⟨h1.trans h2, by omega⟩
  · intro a b c h1 h2 h3 h4
    rw [keyF] at *
    have e1 : a.k = b.k := le_antisymm (le_of_not_gt fun h => h2 (Or.inl h)) (le_of_not_gt fun h => h1 (Or.inl h))
    have e2 : b.k = c.k := le_antisymm (le_of_not_gt fun h => h4 (Or.inl h)) (le_of_not_gt fun h => h3 (Or.inl h))
    have i1 : a.idx = b.idx := by
      rcases Nat.lt_trichotomy a.idx b.idx with h | h | h
      · exact absurd (Or.inr ⟨e1, h⟩) h1
      · exact h
      · exact absurd (Or.inr ⟨e1.symm, h⟩) h2
    have i2 : b.idx = c.idx := by
      rcases Nat.lt_trichotomy b.idx c.idx with h | h | h
      · exact absurd (Or.inr ⟨e2, h⟩) h3
      · exact h
      · exact absurd (Or.inr ⟨e2.symm, h⟩) h4
    rw [e1, e2, i1, i2]
    constructor <;> simp [lt_irrefl, keyF, e1, e2, i1, i2]

/-- Order in which the sorted set keeps deltas. -/
def DLe (a b : DeltaRec K V) : Prop := a.k < b.k ∨ (a.k = b.k ∧ a.idx ≤ b.idx)

theorem deltaLt_false_iff {a b : DeltaRec K V} : deltaLt b a = false ↔ DLe a b := by
  unfold deltaLt DLe
  by_cases h1 : b.k < a.k
  · simp [h1, not_lt_of_gt h1, ne_of_gt h1]
  · by_cases h2 : b.k = a.k
    · simp [h2, lt_irrefl]
    · simp only [h1, h2, if_false, true_iff]
      exact Or.inl (lt_of_le_of_ne (le_of_not_gt h1) (fun h => h2 h.symm))

/-- Hypotheses under which the merge loop works. -/
structure LoopPre (items : List (K × V)) (copyEnd : Nat) (todo : List (DeltaRec K V)) (start : Nat) : Prop where
  sorted : SortedKeys items
  nodup : items.Nodup
  ord : todo.Pairwise DLe
  dist : todo.Pairwise (fun a b => (a.k, a.v) ≠ (b.k, b.v))
  idx : ∀ d ∈ todo, IdxOk items d.k d.v d.idx d.ex
  ge : ∀ d ∈ todo, start ≤ d.idx
  le : ∀ d ∈ todo, d.idx ≤ copyEnd
  startLe : start ≤ copyEnd
  endLe : copyEnd ≤ items.length
  exLt : ∀ d ∈ todo, d.ex = true → d.idx < copyEnd

theorem idx_mono {items : List (K × V)} (hs : SortedKeys items) {a b : DeltaRec K V}
    (ha : IdxOk items a.k a.v a.idx a.ex) (hb : IdxOk items b.k b.v b.idx b.ex) (h : DLe a b) :
    a.idx ≤ b.idx := by
  rcases h with h | h
  · have h1 := idxOk_le_lb hs ha h
    refine Nat.le_trans h1 ?_
    cases hbe : b.ex with
    | true =>
      rw [hbe] at hb; simp only [IdxOk, if_true] at hb
      by_contra hc
      exact lt_irrefl _ (lt_lbIdx hs (k := b.k) (by omega) hb)
    | false =>
      rw [hbe] at hb; simp only [IdxOk, Bool.false_eq_true, if_false] at hb
      rw [hb.2]; exact lbIdx_le_ubIdx _ _
  · exact h.2

/-- Items below a delta's index have keys at most the delta's key. -/
theorem key_le_of_lt_idx {items : List (K × V)} (hs : SortedKeys items) {d : DeltaRec K V}
    (hd : IdxOk items d.k d.v d.idx d.ex) {j : Nat} {x : K × V} (hj : j < d.idx) (hx : items[j]? = some x) :
    x.1 ≤ d.k := by
  cases hde : d.ex with
  | true =>
    rw [hde] at hd; simp only [IdxOk, if_true] at hd
    exact sorted_get hs (Nat.le_of_lt hj) hx hd
  | false =>
    rw [hde] at hd; simp only [IdxOk, Bool.false_eq_true, if_false] at hd
    exact lt_ubIdx hs (k := d.k) (by rw [hd.2] at hj; exact hj) hx

/-- Items at or above a delta's index have keys at least the delta's key. -/
theorem key_ge_of_idx_le {items : List (K × V)} (hs : SortedKeys items) {d : DeltaRec K V}
    (hd : IdxOk items d.k d.v d.idx d.ex) {j : Nat} {x : K × V} (hj : d.idx ≤ j) (hx : items[j]? = some x) :
    d.k ≤ x.1 := by
  cases hde : d.ex with
  | true =>
    rw [hde] at hd; simp only [IdxOk, if_true] at hd
    exact sorted_get hs hj hd hx
  | false =>
    rw [hde] at hd; simp only [IdxOk, Bool.false_eq_true, if_false] at hd
    exact le_of_lt (ubIdx_le_get hs (k := d.k) (by rw [hd.2] at hj; exact hj) hx)

/-- A delta's pair can only sit at the delta's index in the base node. -/
theorem pos_of_pair {items : List (K × V)} (hn : items.Nodup) {d : DeltaRec K V}
    (hd : IdxOk items d.k d.v d.idx d.ex) {j : Nat} (hx : items[j]? = some (d.k, d.v)) :
    d.ex = true ∧ j = d.idx := by
  cases hde : d.ex with
  | true =>
    rw [hde] at hd; simp only [IdxOk, if_true] at hd
    exact ⟨rfl, nodup_getElem?_inj hn hx hd⟩
  | false =>
    rw [hde] at hd; simp only [IdxOk, Bool.false_eq_true, if_false] at hd
    exact absurd (List.mem_of_getElem? hx) hd.1

/-- What the loop appends. -/
def LoopPost (items : List (K × V)) (copyEnd : Nat) (todo : List (DeltaRec K V)) (start : Nat)
    (M : List (K × V)) : Prop :=
  SortedKeys M ∧ M.Nodup ∧
  ∀ x, x ∈ M ↔ (∃ j, start ≤ j ∧ j < copyEnd ∧ items[j]? = some x ∧ ∀ d ∈ todo, ¬ (d.ex = true ∧ d.idx = j)) ∨
    (∃ d ∈ todo, d.isIns = true ∧ (d.k, d.v) = x)

theorem mergeLoop_spec (items : List (K × V)) (copyEnd : Nat) :
    ∀ (fuel : Nat) (todo : List (DeltaRec K V)) (start : Nat) (out : List (K × V)),
      todo.length ≤ fuel → LoopPre items copyEnd todo start →
      ∃ M, mergeLoop items copyEnd fuel todo start out = some (out ++ M) ∧ LoopPost items copyEnd todo start M := by
  intro fuel
  induction fuel with
  | zero =>
    intro todo start out hlen hp
    have : todo = [] := List.eq_nil_of_length_eq_zero (by omega)
    subst this
    refine ⟨(items.take copyEnd).drop start, ?_, ?_, ?_, ?_⟩
    · simp only [mergeLoop]
      rw [slice?_some hp.startLe hp.endLe]
    · exact hp.sorted.sublist ((List.drop_sublist _ _).trans (List.take_sublist _ _))
    · exact hp.nodup.sublist ((List.drop_sublist _ _).trans (List.take_sublist _ _))
    · intro x; rw [mem_slice]; simp
  | succ fuel ih =>
    intro todo start out hlen hp
    cases todo with
    | nil =>
      refine ⟨(items.take copyEnd).drop start, ?_, ?_, ?_, ?_⟩
      · simp only [mergeLoop]
        rw [slice?_some hp.startLe hp.endLe]
      · exact hp.sorted.sublist ((List.drop_sublist _ _).trans (List.take_sublist _ _))
      · exact hp.nodup.sublist ((List.drop_sublist _ _).trans (List.take_sublist _ _))
      · intro x; rw [mem_slice]; simp
    | cons d ds =>
      have hmin : ∀ x ∈ d :: ds, d.idx ≤ x.idx := by
        intro x hx
        rcases List.mem_cons.mp hx with rfl | hx
        · exact Nat.le_refl _
        · exact idx_mono hp.sorted (hp.idx d (by simp)) (hp.idx x (by simp [hx]))
            ((List.pairwise_cons.mp hp.ord).1 x hx)
      have h1 : start ≤ d.idx := hp.ge d (by simp)
      have h2 : d.idx ≤ copyEnd := hp.le d (by simp)
      simp only [mergeLoop]
      rw [if_pos ⟨h1, h2⟩, slice?_some h1 (Nat.le_trans h2 hp.endLe)]
      simp only
      generalize hgrp : (d :: ds).takeWhile (fun x => x.idx == d.idx) = grp
      generalize hrest : (d :: ds).dropWhile (fun x => x.idx == d.idx) = rest
      have happ : d :: ds = grp ++ rest := by rw [← hgrp, ← hrest]; exact List.takeWhile_append_dropWhile.symm
      have hg : ∀ x ∈ grp, x.idx = d.idx := by
        intro x hx
        rw [← hgrp] at hx
        have := List.all_takeWhile (l := d :: ds) (p := fun x => x.idx == d.idx)
        rw [List.all_eq_true] at this
        simpa using this x hx
      have hord := hp.ord
      have hdist := hp.dist
      rw [happ, List.pairwise_append] at hord hdist
      have hr : ∀ x ∈ rest, d.idx < x.idx := by
        intro x hx
        cases hrc : rest with
        | nil => rw [hrc] at hx; cases hx
        | cons y ys =>
          have hy : y.idx ≠ d.idx := by
            have := List.head?_dropWhile_not (fun x : DeltaRec K V => x.idx == d.idx) (d :: ds)
            rw [hrest, hrc] at this
            simpa using this
          have hyd : d.idx ≤ y.idx := hmin y (by rw [happ, hrc]; simp)
          have hyx : y.idx ≤ x.idx := by
            rw [hrc] at hx
            rcases List.mem_cons.mp hx with rfl | hx
            · exact Nat.le_refl _
            · have hpw := hord.2.1
              rw [hrc] at hpw
              exact idx_mono hp.sorted (hp.idx y (by rw [happ, hrc]; simp)) (hp.idx x (by rw [happ, hrc]; simp [hx]))
                ((List.pairwise_cons.mp hpw).1 x hx)
          omega
      have hing : ∀ x ∈ grp, x ∈ d :: ds := by intro x hx; rw [happ]; simp [hx]
      have hinr : ∀ x ∈ rest, x ∈ d :: ds := by intro x hx; rw [happ]; simp [hx]
      have hglen : 0 < grp.length := by
        rw [← hgrp]; simp
      have hrlen : rest.length ≤ fuel := by
        have := congrArg List.length happ
        simp only [List.length_append] at this
        omega
      -- overwritten?
      generalize how : grp.any (·.ex) = ow
      have how1 : ow = true → ∃ x ∈ grp, x.ex = true := by
        intro h; rw [h, List.any_eq_true] at how; exact how
      have how2 : ow = false → ∀ x ∈ grp, x.ex = false := by
        intro h x hx
        rw [h, List.any_eq_false] at how
        simpa using how x hx
      generalize hst : (if ow = true then d.idx + 1 else d.idx) = start'
      have hst1 : d.idx ≤ start' := by rw [← hst]; split <;> omega
      have hpre : LoopPre items copyEnd rest start' := by
        refine ⟨hp.sorted, hp.nodup, hord.2.1, hdist.2.1, fun x hx => hp.idx x (hinr x hx), ?_,
          fun x hx => hp.le x (hinr x hx), ?_, hp.endLe, fun x hx => hp.exLt x (hinr x hx)⟩
        · intro x hx
          have := hr x hx
          rw [← hst]; split <;> omega
        · rw [← hst]; split
          · rename_i h
            obtain ⟨x, hx, he⟩ := how1 h
            have := hp.exLt x (hing x hx) he
            rw [hg x hx] at this; omega
          · exact h2
      obtain ⟨M', e', s', n', m'⟩ := ih rest start'
        (out ++ (items.take d.idx).drop start ++ (grp.filter (·.isIns)).map (fun x => (x.k, x.v))) hrlen hpre
      refine ⟨(items.take d.idx).drop start ++ ((grp.filter (·.isIns)).map (fun x => (x.k, x.v)) ++ M'), ?_, ?_, ?_, ?_⟩
      · rw [e']; simp
      · -- sorted
        unfold SortedKeys
        rw [List.pairwise_append, List.pairwise_append]
        refine ⟨hp.sorted.sublist ((List.drop_sublist _ _).trans (List.take_sublist _ _)), ⟨?_, s', ?_⟩, ?_⟩
        · rw [List.pairwise_map]
          refine List.Pairwise.imp ?_ (hord.1.sublist List.filter_sublist)
          intro a b hab
          rcases hab with h | h
          · exact le_of_lt h
          · exact le_of_eq h.1
        · intro a ha b hb
          obtain ⟨x, hx, rfl⟩ := List.mem_map.mp ha
          have hx' := (List.mem_filter.mp hx).1
          rcases (m' b).mp hb with ⟨j, hj1, hj2, hj3, _⟩ | ⟨y, hy, _, rfl⟩
          · exact key_ge_of_idx_le hp.sorted (hp.idx x (hing x hx')) (by rw [hg x hx']; omega) hj3
          · rcases hord.2.2 x hx' y hy with h | h
            · exact le_of_lt h
            · exact le_of_eq h.1
        · intro a ha b hb
          obtain ⟨j, hj1, hj2, hj3⟩ := mem_slice.mp ha
          rcases List.mem_append.mp hb with hb | hb
          · obtain ⟨x, hx, rfl⟩ := List.mem_map.mp hb
            have hx' := (List.mem_filter.mp hx).1
            exact key_le_of_lt_idx hp.sorted (hp.idx x (hing x hx')) (by rw [hg x hx']; omega) hj3
          · rcases (m' b).mp hb with ⟨j', hj1', hj2', hj3', _⟩ | ⟨y, hy, _, rfl⟩
            · exact sorted_get hp.sorted (by omega) hj3 hj3'
            · exact key_le_of_lt_idx hp.sorted (hp.idx y (hinr y hy)) (by have := hr y hy; omega) hj3
      · -- nodup
        rw [List.nodup_append, List.nodup_append]
        refine ⟨hp.nodup.sublist ((List.drop_sublist _ _).trans (List.take_sublist _ _)), ⟨?_, n', ?_⟩, ?_⟩
        · rw [List.Nodup, List.pairwise_map]
          exact hdist.1.sublist List.filter_sublist
        · intro a ha b hb hab
          obtain ⟨x, hx, rfl⟩ := List.mem_map.mp ha
          have hx' := (List.mem_filter.mp hx).1
          subst hab
          rcases (m' _).mp hb with ⟨j, hj1, hj2, hj3, _⟩ | ⟨y, hy, _, heq⟩
          · obtain ⟨hex, hpos⟩ := pos_of_pair hp.nodup (hp.idx x (hing x hx')) hj3
            rw [hg x hx'] at hpos
            have how' : ow = true := by
              cases h : ow with
              | true => rfl
              | false => have := how2 h x hx'; simp [hex] at this
            rw [how'] at hst; simp at hst; omega
          · exact hdist.2.2 x hx' y hy heq.symm
        · intro a ha b hb hab
          subst hab
          obtain ⟨j, hj1, hj2, hj3⟩ := mem_slice.mp ha
          rcases List.mem_append.mp hb with hb | hb
          · obtain ⟨x, hx, rfl⟩ := List.mem_map.mp hb
            have hx' := (List.mem_filter.mp hx).1
            have := (pos_of_pair hp.nodup (hp.idx x (hing x hx')) hj3).2
            rw [hg x hx'] at this; omega
          · rcases (m' _).mp hb with ⟨j', hj1', hj2', hj3', _⟩ | ⟨y, hy, _, heq⟩
            · have := nodup_getElem?_inj hp.nodup hj3 hj3'; omega
            · rw [← heq] at hj3
              have := (pos_of_pair hp.nodup (hp.idx y (hinr y hy)) hj3).2
              have := hr y hy; omega
      · -- membership
        intro x
        rw [List.mem_append, List.mem_append, mem_slice, m']
        constructor
        · rintro (⟨j, hj1, hj2, hj3⟩ | hx | (⟨j, hj1, hj2, hj3, hj4⟩ | ⟨y, hy, hy1, rfl⟩))
          · left
            refine ⟨j, hj1, by omega, hj3, ?_⟩
            intro y hy hh
            have := hmin y hy; omega
          · obtain ⟨y, hy, rfl⟩ := List.mem_map.mp hx
            obtain ⟨hy1, hy2⟩ := List.mem_filter.mp hy
            exact Or.inr ⟨y, hing y hy1, hy2, rfl⟩
          · left
            refine ⟨j, by omega, hj2, hj3, ?_⟩
            intro y hy hh
            rw [happ] at hy
            rcases List.mem_append.mp hy with hy | hy
            · have := hg y hy
              cases h : ow with
              | true => rw [h] at hst; simp at hst; omega
              | false => have := how2 h y hy; simp [hh.1] at this
            · exact hj4 y hy hh
          · exact Or.inr ⟨y, hinr y hy, hy1, rfl⟩
        · rintro (⟨j, hj1, hj2, hj3, hj4⟩ | ⟨y, hy, hy1, rfl⟩)
          · by_cases hlt : j < d.idx
            · exact Or.inl ⟨j, hj1, hlt, hj3⟩
            · right; right; left
              refine ⟨j, ?_, hj2, hj3, fun y hy => hj4 y (hinr y hy)⟩
              rw [← hst]
              split
              · rename_i h
                obtain ⟨z, hz, hze⟩ := how1 h
                have := hj4 z (hing z hz)
                have hne : z.idx ≠ j := fun hh => this ⟨hze, hh⟩
                rw [hg z hz] at hne; omega
              · omega
          · rw [happ] at hy
            rcases List.mem_append.mp hy with hy | hy
            · right; left
              exact List.mem_map.mpr ⟨y, List.mem_filter.mpr ⟨hy, hy1⟩, rfl⟩
            · exact Or.inr (Or.inr (Or.inr ⟨y, hy, hy1, rfl⟩))

/-- `k` is below a high key pair. -/
def Below (hi : K × NodeId) (k : K) : Prop := hi.2 = INVALID ∨ k < hi.1

instance (hi : K × NodeId) (k : K) : Decidable (Below hi k) := by unfold Below; infer_instance

theorem dropWhile_nil {α : Type} (p : α → Bool) : ∀ (l : List α), (∀ x ∈ l, p x = true) → l.dropWhile p = [] := by
  intro l
  induction l with
  | nil => intro _; rfl
  | cons a l ih =>
    intro h
    rw [List.dropWhile_cons, if_pos (h a (by simp))]
    exact ih (fun x hx => h x (by simp [hx]))

/-- For a predicate that holds exactly on a prefix of a list, walking back from the end finds that prefix. -/
theorem prefix_split {α : Type} (p : α → Bool) : ∀ (l : List α),
    l.Pairwise (fun a b => p b = true → p a = true) →
    l.take ((l.reverse.dropWhile (fun d => !p d)).length) = l.filter p ∧
    l.drop ((l.reverse.dropWhile (fun d => !p d)).length) = l.filter (fun d => !p d) := by
  intro l
  induction l with
  | nil => intro _; simp
  | cons a l ih =>
    intro h
    obtain ⟨h1, h2⟩ := List.pairwise_cons.mp h
    obtain ⟨i1, i2⟩ := ih h2
    cases hp : p a with
    | true =>
      have e : ((a :: l).reverse.dropWhile (fun d => !p d)).length = (l.reverse.dropWhile (fun d => !p d)).length + 1 := by
        rw [List.reverse_cons, List.dropWhile_append]
        cases hh : l.reverse.dropWhile (fun d => !p d) with
        | nil => simp [hp]
        | cons b bs => simp
      rw [e]
      simp [hp, i1, i2]
    | false =>
      have hall : ∀ x ∈ l, p x = false := by
        intro x hx
        cases hx' : p x with
        | false => rfl
        | true => have := h1 x hx hx'; simp [hp] at this
      have e : (a :: l).reverse.dropWhile (fun d => !p d) = [] := by
        apply dropWhile_nil
        intro x hx
        rw [List.mem_reverse] at hx
        rcases List.mem_cons.mp hx with rfl | hx
        · simp [hp]
        · simp [hall x hx]
      rw [e]
      simp only [List.length_nil, List.take_zero, List.drop_zero]
      constructor
      · symm; rw [List.filter_eq_nil_iff]
        intro x hx
        rcases List.mem_cons.mp hx with rfl | hx
        · simp [hp]
        · simp [hall x hx]
      · symm; rw [List.filter_eq_self]
        intro x hx
        rcases List.mem_cons.mp hx with rfl | hx
        · simp [hp]
        · simp [hall x hx]

/-- Deltas waiting in `sss` that lie below `hi` are correct records about the node `c` being collected. -/
structure CPre (c : LeafChain K V) (hi : K × NodeId) (st : CollectState K V) : Prop where
  ord : st.sss.Pairwise DLe
  dist : st.sss.Pairwise (fun a b => (a.k, a.v) ≠ (b.k, b.v))
  low : ∀ d ∈ st.sss, c.low.2 = INVALID ∨ c.low.1 ≤ d.k
  idx : ∀ d ∈ st.sss, Below hi d.k → IdxOk (baseFor c d.k) d.k d.v d.idx d.ex
  seen : ∀ k v, InRange c.low hi k → ((k, v) ∈ st.seen ↔ ∃ d ∈ st.sss, (d.k, d.v) = (k, v))

/-- Items collected for `c`: the waiting deltas decide about their pairs, the chain decides about all others. -/
def Items (c : LeafChain K V) (hi : K × NodeId) (sss : List (DeltaRec K V)) (M : List (K × V)) : Prop :=
  SortedKeys M ∧ M.Nodup ∧
  ∀ x, x ∈ M ↔ Below hi x.1 ∧ ((∃ d ∈ sss, (d.k, d.v) = x ∧ d.isIns = true) ∨
    ((¬ ∃ d ∈ sss, (d.k, d.v) = x) ∧ Has c x.1 x.2))

structure CPost (c : LeafChain K V) (hi : K × NodeId) (st st' : CollectState K V) : Prop where
  out : ∃ M, st'.out = st.out ++ M ∧ Items c hi st.sss M
  sss : st'.sss = st.sss.filter (fun d => !decide (Below hi d.k))
  seenLe : ∀ x, x ∈ st.seen → x ∈ st'.seen
  seenGe : ∀ x, x ∈ st'.seen → x ∈ st.seen ∨ InRange c.low hi x.1

theorem dle_key {a b : DeltaRec K V} (h : DLe a b) : a.k ≤ b.k := by
  rcases h with h | h
  · exact le_of_lt h
  · exact le_of_eq h.1

theorem collectBase_spec {low high : K × NodeId} {items : List (K × V)} (h : WF (base low high items))
    {hi : K × NodeId} {st : CollectState K V} (hp : CPre (base low high items) hi st) :
    ∃ st', collectBase items hi st = some st' ∧ CPost (base low high items) hi st st' := by
  have hs : SortedKeys items := h.1
  -- copy end
  obtain ⟨copyEnd, hce, hle, hlt, hge⟩ : ∃ copyEnd,
      (if hi.2 = INVALID then some items.length else lowerBound items 0 items.length hi.1) = some copyEnd ∧
      copyEnd ≤ items.length ∧ (∀ j x, items[j]? = some x → j < copyEnd → Below hi x.1) ∧
      (∀ j x, items[j]? = some x → Below hi x.1 → j < copyEnd) := by
    by_cases hinf : hi.2 = INVALID
    · refine ⟨items.length, by rw [if_pos hinf], Nat.le_refl _, fun _ _ _ _ => Or.inl hinf, ?_⟩
      intro j x hx _
      exact (List.getElem?_eq_some_iff.mp hx).1
    · refine ⟨lbIdx items hi.1, by rw [if_neg hinf]; exact lowerBound_eq hs (Nat.zero_le _) (lbIdx_le _ _) (Nat.le_refl _),
        lbIdx_le _ _, ?_, ?_⟩
      · intro j x hx hj; exact Or.inr (lt_lbIdx hs hj hx)
      · intro j x hx hb
        rcases hb with hb | hb
        · exact absurd hb hinf
        · by_contra hc
          exact absurd hb (not_lt_of_ge (lbIdx_le_get hs (by omega) hx))
  -- number of deltas to consume
  obtain ⟨n, hn, htake, hdrop⟩ : ∃ n,
      (if hi.2 = INVALID then st.sss.length
        else (st.sss.reverse.dropWhile (fun d => !decide (d.k < hi.1))).length) = n ∧
      st.sss.take n = st.sss.filter (fun d => decide (Below hi d.k)) ∧
      st.sss.drop n = st.sss.filter (fun d => !decide (Below hi d.k)) := by
    by_cases hinf : hi.2 = INVALID
    · refine ⟨st.sss.length, by rw [if_pos hinf], ?_, ?_⟩
      · rw [List.take_length]; symm; rw [List.filter_eq_self]; intro d _; simp [Below, hinf]
      · rw [List.drop_length]; symm; rw [List.filter_eq_nil_iff]; intro d _; simp [Below, hinf]
    · have := prefix_split (fun d : DeltaRec K V => decide (d.k < hi.1)) st.sss
        (hp.ord.imp (by
          intro a b hab hb
          simp only [decide_eq_true_eq] at *
          exact lt_of_le_of_lt (dle_key hab) hb))
      refine ⟨_, by rw [if_neg hinf], ?_, ?_⟩
      · rw [this.1]; apply List.filter_congr; intro d _; simp [Below, hinf]
      · rw [this.2]; apply List.filter_congr; intro d _; simp [Below, hinf]
  have htodo : ∀ d, d ∈ st.sss.take n ↔ d ∈ st.sss ∧ Below hi d.k := by
    intro d; rw [htake]; simp [List.mem_filter]
  have hidx : ∀ d ∈ st.sss.take n, IdxOk items d.k d.v d.idx d.ex := by
    intro d hd; obtain ⟨a, b⟩ := (htodo d).mp hd; exact hp.idx d a b
  have hexlt : ∀ d ∈ st.sss.take n, d.ex = true → d.idx < copyEnd := by
    intro d hd he
    have := hidx d hd
    rw [he] at this; simp only [IdxOk, if_true] at this
    exact hge _ _ this ((htodo d).mp hd).2
  have hpre : LoopPre items copyEnd (st.sss.take n) 0 := by
    refine ⟨hs, h.2.1, hp.ord.sublist (List.take_sublist _ _), hp.dist.sublist (List.take_sublist _ _), hidx,
      fun _ _ => Nat.zero_le _, ?_, Nat.zero_le _, hle, hexlt⟩
    intro d hd
    have hi' := hidx d hd
    cases he : d.ex with
    | true => exact Nat.le_of_lt (hexlt d hd he)
    | false =>
      rw [he] at hi'; simp only [IdxOk, Bool.false_eq_true, if_false] at hi'
      by_contra hc
      -- item at position copyEnd has key ≤ d.k, so is below hi
      have hlt' : copyEnd < ubIdx items d.k := by rw [hi'.2] at hc; unfold ubIdx; omega
      have hlen : copyEnd < items.length := Nat.lt_of_lt_of_le hlt' (ubIdx_le _ _)
      have hget := List.getElem?_eq_getElem hlen
      have h1 := lt_ubIdx hs hlt' hget
      have : Below hi (items[copyEnd]).1 := by
        rcases ((htodo d).mp hd).2 with hb | hb
        · exact Or.inl hb
        · exact Or.inr (lt_of_le_of_lt h1 hb)
      have := hge _ _ hget this
      omega
  obtain ⟨M, hM, hMs, hMn, hMm⟩ := mergeLoop_spec items copyEnd n (st.sss.take n) 0 st.out
    (by rw [List.length_take]; exact Nat.min_le_left _ _) hpre
  refine ⟨{ sss := st.sss.drop n, seen := st.seen, out := st.out ++ M }, ?_, ?_, ?_, ?_, ?_⟩
  · unfold collectBase
    rw [hce]
    simp only [hn, hM]
  · refine ⟨M, rfl, hMs, hMn, ?_⟩
    intro x
    rw [hMm]
    constructor
    · rintro (⟨j, _, hj2, hj3, hj4⟩ | ⟨d, hd, hd1, rfl⟩)
      · have hb := hlt _ _ hj3 hj2
        refine ⟨hb, Or.inr ⟨?_, List.mem_of_getElem? hj3⟩⟩
        rintro ⟨d, hd, rfl⟩
        have hdt := (htodo d).mpr ⟨hd, hb⟩
        have := pos_of_pair h.2.1 (hidx d hdt) hj3
        exact hj4 d hdt ⟨this.1, this.2.symm⟩
      · obtain ⟨a, b⟩ := (htodo d).mp hd
        exact ⟨b, Or.inl ⟨d, a, rfl, hd1⟩⟩
    · rintro ⟨hb, ⟨d, hd, rfl, hd1⟩ | ⟨hno, hm⟩⟩
      · exact Or.inr ⟨d, (htodo d).mpr ⟨hd, hb⟩, hd1, rfl⟩
      · left
        obtain ⟨j, hj⟩ := List.mem_iff_getElem?.mp hm
        refine ⟨j, Nat.zero_le _, hge _ _ hj hb, hj, ?_⟩
        intro d hd ⟨he, hpos⟩
        have := hidx d hd
        rw [he] at this; simp only [IdxOk, if_true] at this
        rw [hpos] at this
        rw [this] at hj
        exact hno ⟨d, ((htodo d).mp hd).1, by injection hj⟩
  · exact hdrop
  · intro x hx; exact hx
  · intro x hx; exact Or.inl hx

/-- Pushing a data delta that is not yet known. -/
theorem cpre_push {c : LeafChain K V} {hi : K × NodeId} {st : CollectState K V} (hp : CPre c hi st)
    {d : DeltaRec K V} (hr : InRange c.low hi d.k) (hidx : IdxOk (baseFor c d.k) d.k d.v d.idx d.ex)
    (hns : (d.k, d.v) ∉ st.seen) :
    ∃ s, SmallSet.insertNoDedup deltaLt d st.sss = some s ∧
      CPre c hi { st with sss := s, seen := st.seen ++ [(d.k, d.v)] } ∧
      (∀ x, x ∈ s ↔ x = d ∨ x ∈ st.sss) ∧
      s.filter (fun d => !decide (Below hi d.k)) = st.sss.filter (fun d => !decide (Below hi d.k)) := by
  have hord : st.sss.Pairwise (fun a b => deltaLt b a = false) :=
    hp.ord.imp (fun h => deltaLt_false_iff.mpr h)
  obtain ⟨l1, l2, e1, e2, p1, p2⟩ := SmallSet.insertNoDedup_split strictWeak_deltaLt (v := d) hord
  have hno : ∀ x ∈ st.sss, (x.k, x.v) ≠ (d.k, d.v) := by
    intro x hx heq
    exact hns ((hp.seen d.k d.v hr).mpr ⟨x, hx, heq⟩)
  have hmem : ∀ x, x ∈ l1 ++ d :: l2 ↔ x = d ∨ x ∈ st.sss := by
    intro x; rw [e1]; simp only [List.mem_append, List.mem_cons]
    constructor
    · rintro (h | h | h)
      · exact Or.inr (Or.inl h)
      · exact Or.inl h
      · exact Or.inr (Or.inr h)
    · rintro (h | h | h)
      · exact Or.inr (Or.inl h)
      · exact Or.inl h
      · exact Or.inr (Or.inr h)
  refine ⟨l1 ++ d :: l2, e2, ⟨?_, ?_, ?_, ?_, ?_⟩, hmem, ?_⟩
  · have := SmallSet.pairwise_insertNoDedup strictWeak_deltaLt (v := d) (l1 := l1) (l2 := l2)
      (by rw [← e1]; exact hord) p1 p2
    exact this.imp (fun h => deltaLt_false_iff.mp h)
  · have hd := hp.dist
    rw [e1] at hd hno
    rw [List.pairwise_append] at hd ⊢
    refine ⟨hd.1, List.pairwise_cons.mpr ⟨?_, hd.2.1⟩, ?_⟩
    · intro x hx; exact fun h => hno x (by simp [hx]) h.symm
    · intro a ha b hb
      rcases List.mem_cons.mp hb with rfl | hb
      · exact hno a (by simp [ha])
      · exact hd.2.2 a ha b hb
  · intro x hx
    rcases (hmem x).mp hx with rfl | hx
    · exact hr.1
    · exact hp.low x hx
  · intro x hx hb
    rcases (hmem x).mp hx with rfl | hx
    · exact hidx
    · exact hp.idx x hx hb
  · intro k v hkr
    simp only [List.mem_append, List.mem_singleton]
    rw [hp.seen k v hkr]
    constructor
    · rintro (⟨x, hx, h⟩ | h)
      · exact ⟨x, by rw [← List.mem_append, hmem]; exact Or.inr hx, h⟩
      · exact ⟨d, by simp, h.symm⟩
    · rintro ⟨x, hx, h⟩
      rw [← List.mem_append, hmem] at hx
      rcases hx with rfl | hx
      · exact Or.inr h.symm
      · exact Or.inl ⟨x, hx, h⟩
  · have hb : Below hi d.k := hr.2
    rw [e1]; simp [hb]

theorem collectBase_seen {items : List (K × V)} {hi : K × NodeId} {st st' : CollectState K V}
    (h : collectBase items hi st = some st') : st'.seen = st.seen := by
  unfold collectBase at h
  split at h
  · cases h
  · simp only at h
    split at h
    · cases h
    · injection h with h; rw [← h]

theorem collectRec_spec (cap : Nat) : ∀ (c : LeafChain K V), WF c → ∀ st, CPre c c.high st →
    st.seen.length + c.depth ≤ cap →
    ∃ st', collectRec cap c c.high st = some st' ∧ CPost c c.high st st' ∧
      st'.seen.length ≤ st.seen.length + c.depth := by
  intro c
  induction c with
  | base low high items => 
    intro h st hp _
    obtain ⟨st', e, hpost⟩ := collectBase_spec h hp
    exact ⟨st', e, hpost, by rw [collectBase_seen e]; omega⟩
  | ins k v i e c ih =>
    intro h st hp hcap
    simp only [depth] at hcap ⊢
    have hp' : CPre c c.high st := ⟨hp.ord, hp.dist, hp.low, hp.idx, hp.seen⟩
    simp only [collectRec]
    by_cases hseen : st.seen.contains (k, v) = true
    · rw [if_pos hseen]
      obtain ⟨st', e1, ⟨⟨M, hM, hMs, hMn, hMm⟩, hsss, hsl, hsg⟩, hln⟩ := ih h.1 st hp' (by omega)
      refine ⟨st', e1, ⟨⟨M, hM, hMs, hMn, ?_⟩, hsss, hsl, hsg⟩, by omega⟩
      have hd : ∃ d ∈ st.sss, (d.k, d.v) = (k, v) :=
        (hp.seen k v h.2.1).mp (by simpa [List.contains_eq_mem] using hseen)
      intro x
      rw [hMm]
      simp only [Has]
      constructor
      · rintro ⟨hb, hx | ⟨hx1, hx2⟩⟩
        · exact ⟨hb, Or.inl hx⟩
        · exact ⟨hb, Or.inr ⟨hx1, Or.inr hx2⟩⟩
      · rintro ⟨hb, hx | ⟨hx1, hx2 | hx2⟩⟩
        · exact ⟨hb, Or.inl hx⟩
        · exfalso; apply hx1
          rw [show x = (k, v) from Prod.ext hx2.1 hx2.2]; exact hd
        · exact ⟨hb, Or.inr ⟨hx1, hx2⟩⟩
    · rw [if_neg hseen, if_pos (by omega)]
      have hns : (k, v) ∉ st.seen := by simpa [List.contains_eq_mem] using hseen
      obtain ⟨s, es, hps, hms, hfs⟩ := cpre_push hp' (d := ⟨k, v, i, e, true⟩) h.2.1 h.2.2.2 hns
      rw [es]
      obtain ⟨st', e1, ⟨⟨M, hM, hMs, hMn, hMm⟩, hsss, hsl, hsg⟩, hln⟩ := ih h.1 _ hps (by simp only [List.length_append, List.length_singleton]; omega)
      simp only [List.length_append, List.length_singleton] at hln
      refine ⟨st', e1, ⟨⟨M, hM, hMs, hMn, ?_⟩, hsss.trans hfs, fun x hx => hsl x (by simp [hx]), ?_⟩, by omega⟩
      · intro x
        rw [hMm]
        simp only [hms, Has]
        have hnd : ∀ d ∈ st.sss, (d.k, d.v) ≠ (k, v) := by
          intro d hd he; exact hns ((hp.seen k v h.2.1).mpr ⟨d, hd, he⟩)
        constructor
        · rintro ⟨hb, ⟨d, rfl | hd, rfl, hd2⟩ | ⟨hx1, hx2⟩⟩
          · refine ⟨hb, Or.inr ⟨?_, Or.inl ⟨rfl, rfl⟩⟩⟩
            rintro ⟨d, hd, he⟩; exact hnd d hd he
          · exact ⟨hb, Or.inl ⟨d, hd, rfl, hd2⟩⟩
          · refine ⟨hb, Or.inr ⟨?_, Or.inr hx2⟩⟩
            rintro ⟨d, hd, he⟩; exact hx1 ⟨d, Or.inr hd, he⟩
        · rintro ⟨hb, ⟨d, hd, he, hd2⟩ | ⟨hx1, hx2 | hx2⟩⟩
          · exact ⟨hb, Or.inl ⟨d, Or.inr hd, he, hd2⟩⟩
          · exact ⟨hb, Or.inl ⟨⟨k, v, i, e, true⟩, Or.inl rfl, (Prod.ext hx2.1 hx2.2).symm, rfl⟩⟩
          · refine ⟨hb, Or.inr ⟨?_, hx2⟩⟩
            rintro ⟨d, rfl | hd, he⟩
            · rw [← he] at hx2; exact h.2.2.1 hx2
            · exact hx1 ⟨d, hd, he⟩
      · intro x hx
        rcases hsg x hx with hx | hx
        · rcases List.mem_append.mp hx with hx | hx
          · exact Or.inl hx
          · simp at hx; subst hx; exact Or.inr h.2.1
        · exact Or.inr hx
  | del k v i e c ih =>
    intro h st hp hcap
    simp only [depth] at hcap ⊢
    have hp' : CPre c c.high st := ⟨hp.ord, hp.dist, hp.low, hp.idx, hp.seen⟩
    simp only [collectRec]
    by_cases hseen : st.seen.contains (k, v) = true
    · rw [if_pos hseen]
      obtain ⟨st', e1, ⟨⟨M, hM, hMs, hMn, hMm⟩, hsss, hsl, hsg⟩, hln⟩ := ih h.1 st hp' (by omega)
      refine ⟨st', e1, ⟨⟨M, hM, hMs, hMn, ?_⟩, hsss, hsl, hsg⟩, by omega⟩
      have hd : ∃ d ∈ st.sss, (d.k, d.v) = (k, v) :=
        (hp.seen k v h.2.1).mp (by simpa [List.contains_eq_mem] using hseen)
      intro x
      rw [hMm]
      simp only [Has]
      constructor
      · rintro ⟨hb, hx | ⟨hx1, hx2⟩⟩
        · exact ⟨hb, Or.inl hx⟩
        · refine ⟨hb, Or.inr ⟨hx1, ?_, hx2⟩⟩
          rintro ⟨a, b⟩; apply hx1
          rw [show x = (k, v) from Prod.ext a b]; exact hd
      · rintro ⟨hb, hx | ⟨hx1, _, hx2⟩⟩
        · exact ⟨hb, Or.inl hx⟩
        · exact ⟨hb, Or.inr ⟨hx1, hx2⟩⟩
    · rw [if_neg hseen, if_pos (by omega)]
      have hns : (k, v) ∉ st.seen := by simpa [List.contains_eq_mem] using hseen
      obtain ⟨s, es, hps, hms, hfs⟩ := cpre_push hp' (d := ⟨k, v, i, e, false⟩) h.2.1 h.2.2.2 hns
      rw [es]
      obtain ⟨st', e1, ⟨⟨M, hM, hMs, hMn, hMm⟩, hsss, hsl, hsg⟩, hln⟩ := ih h.1 _ hps (by simp only [List.length_append, List.length_singleton]; omega)
      simp only [List.length_append, List.length_singleton] at hln
      refine ⟨st', e1, ⟨⟨M, hM, hMs, hMn, ?_⟩, hsss.trans hfs, fun x hx => hsl x (by simp [hx]), ?_⟩, by omega⟩
      · intro x
        rw [hMm]
        simp only [hms, Has]
        have hnd : ∀ d ∈ st.sss, (d.k, d.v) ≠ (k, v) := by
          intro d hd he; exact hns ((hp.seen k v h.2.1).mpr ⟨d, hd, he⟩)
        constructor
        · rintro ⟨hb, ⟨d, rfl | hd, rfl, hd2⟩ | ⟨hx1, hx2⟩⟩
          · cases hd2
          · exact ⟨hb, Or.inl ⟨d, hd, rfl, hd2⟩⟩
          · refine ⟨hb, Or.inr ⟨?_, ?_, hx2⟩⟩
            · rintro ⟨d, hd, he⟩; exact hx1 ⟨d, Or.inr hd, he⟩
            · rintro ⟨a, b⟩; exact hx1 ⟨⟨k, v, i, e, false⟩, Or.inl rfl, (Prod.ext a b).symm⟩
        · rintro ⟨hb, ⟨d, hd, he, hd2⟩ | ⟨hx1, hx3, hx2⟩⟩
          · exact ⟨hb, Or.inl ⟨d, Or.inr hd, he, hd2⟩⟩
          · refine ⟨hb, Or.inr ⟨?_, hx2⟩⟩
            rintro ⟨d, rfl | hd, he⟩
            · exact hx3 ⟨by rw [← he], by rw [← he]⟩
            · exact hx1 ⟨d, hd, he⟩
      · intro x hx
        rcases hsg x hx with hx | hx
        · rcases List.mem_append.mp hx with hx | hx
          · exact Or.inl hx
          · simp at hx; subst hx; exact Or.inr h.2.1
        · exact Or.inr hx
  | split sk id sib c ih =>
    intro h st hp hcap
    simp only [depth] at hcap ⊢
    obtain ⟨h1, ⟨low, high, items, hc, _⟩, h3, h4, h5⟩ := h
    subst hc
    simp only [collectRec]
    obtain ⟨st', e1, ⟨M, hM, hMs, hMn, hMm⟩, hsss, hsl, hsg⟩ :=
      collectBase_spec (hi := (sk, id)) h1 (st := st) ⟨hp.ord, hp.dist, hp.low, hp.idx, hp.seen⟩
    refine ⟨st', e1, ⟨⟨M, hM, hMs, hMn, ?_⟩, hsss, hsl, hsg⟩, by rw [collectBase_seen e1]; omega⟩
    intro x
    rw [hMm]
    simp only [Has]
    constructor
    · rintro ⟨hb, hx | ⟨hx1, hx2⟩⟩
      · exact ⟨hb, Or.inl hx⟩
      · refine ⟨hb, Or.inr ⟨hx1, ?_, hx2⟩⟩
        rcases hb with hb | hb
        · exact absurd hb h3
        · exact hb
    · rintro ⟨hb, hx | ⟨hx1, _, hx2⟩⟩
      · exact ⟨hb, Or.inl hx⟩
      · exact ⟨hb, Or.inr ⟨hx1, hx2⟩⟩
  | merge mk id r c ihr ihc =>
    intro h st hp hcap
    simp only [depth] at hcap ⊢
    have hw := h
    obtain ⟨h1, h2, h3, h4, h5, h6⟩ := h
    have hmkr : Below r.high mk := by
      have a := rangeNE h2
      unfold RangeNE at a
      rw [h5] at a
      rcases a with a | a | a
      · exact absurd a h6
      · exact Or.inl a
      · exact Or.inr a
    have hbl : ∀ k, Below c.high k ↔ k < mk := by
      intro k; rw [h3]; constructor
      · rintro (a | a)
        · exact absurd a h4
        · exact a
      · intro a; exact Or.inr a
    have hb' : ∀ k, k < mk → Below r.high k := by
      intro k hk
      rcases hmkr with a | a
      · exact Or.inl a
      · exact Or.inr (lt_trans hk a)
    have hpc : CPre c c.high st := by
      refine ⟨hp.ord, hp.dist, hp.low, ?_, ?_⟩
      · intro d hd hb
        have hlt := (hbl _).mp hb
        have := hp.idx d hd (hb' _ hlt)
        simp only [baseFor, if_neg (not_le_of_gt hlt)] at this
        exact this
      · intro k v hr
        exact hp.seen k v ⟨hr.1, hb' _ ((hbl _).mp hr.2)⟩
    obtain ⟨st1, e1, ⟨⟨M1, hM1, hMs1, hMn1, hMm1⟩, hsss1, hsl1, hsg1⟩, hln1⟩ := ihc h1 st hpc (by omega)
    have hmem1 : ∀ d, d ∈ st1.sss ↔ d ∈ st.sss ∧ mk ≤ d.k := by
      intro d; rw [hsss1]
      simp only [List.mem_filter, Bool.not_eq_true', decide_eq_false_iff_not, hbl]
      constructor
      · rintro ⟨a, b⟩; exact ⟨a, le_of_not_gt b⟩
      · rintro ⟨a, b⟩; exact ⟨a, not_lt_of_ge b⟩
    have hpr : CPre r r.high st1 := by
      refine ⟨by rw [hsss1]; exact hp.ord.sublist List.filter_sublist,
        by rw [hsss1]; exact hp.dist.sublist List.filter_sublist, ?_, ?_, ?_⟩
      · intro d hd; right; rw [h5]; exact ((hmem1 d).mp hd).2
      · intro d hd hb
        obtain ⟨a, b⟩ := (hmem1 d).mp hd
        have := hp.idx d a hb
        simp only [baseFor, if_pos b] at this
        exact this
      · intro k v hr
        have hmk : mk ≤ k := by
          rcases hr.1 with a | a
          · exact absurd a h6
          · rw [h5] at a; exact a
        have hrc : InRange (merge mk id r c).low (merge mk id r c).high k := inRange_merge_right hw hr
        have := hp.seen k v hrc
        constructor
        · intro hx
          have hx' : (k, v) ∈ st.seen := by
            rcases hsg1 _ hx with hx | hx
            · exact hx
            · exact absurd ((hbl _).mp hx.2) (not_lt_of_ge hmk)
          obtain ⟨d, hd, he⟩ := this.mp hx'
          refine ⟨d, (hmem1 d).mpr ⟨hd, ?_⟩, he⟩
          injection he with he1 he2
          rw [he1]; exact hmk
        · rintro ⟨d, hd, he⟩
          exact hsl1 _ (this.mpr ⟨d, ((hmem1 d).mp hd).1, he⟩)
    obtain ⟨st2, e2, ⟨⟨M2, hM2, hMs2, hMn2, hMm2⟩, hsss2, hsl2, hsg2⟩, hln2⟩ := ihr h2 st1 hpr (by omega)
    have hlo : ∀ x ∈ M1, x.1 < mk := by
      intro x hx; exact (hbl _).mp ((hMm1 x).mp hx).1
    have hhi : ∀ x ∈ M2, mk ≤ x.1 := by
      intro x hx
      rcases ((hMm2 x).mp hx).2 with ⟨d, hd, rfl, _⟩ | ⟨_, hh⟩
      · exact ((hmem1 d).mp hd).2
      · have := (inRange_of_has h2 hh).1
        rcases this with a | a
        · exact absurd a h6
        · rw [h5] at a; exact a
    refine ⟨st2, ?_, ⟨⟨M1 ++ M2, ?_, ?_, ?_, ?_⟩, ?_, ?_, ?_⟩, by omega⟩
    · simp only [collectRec, e1]; exact e2
    · rw [hM2, hM1]; simp
    · unfold SortedKeys; rw [List.pairwise_append]
      exact ⟨hMs1, hMs2, fun a ha b hb => le_trans (le_of_lt (hlo a ha)) (hhi b hb)⟩
    · rw [List.nodup_append]
      refine ⟨hMn1, hMn2, fun a ha b hb hab => ?_⟩
      subst hab
      exact absurd (hlo a ha) (not_lt_of_ge (hhi a hb))
    · intro x
      rw [List.mem_append]
      by_cases hx : mk ≤ x.1
      · simp only [Has, if_pos hx]
        have hd : ∀ P : DeltaRec K V → Prop, (∃ d ∈ st.sss, (d.k, d.v) = x ∧ P d) ↔ (∃ d ∈ st1.sss, (d.k, d.v) = x ∧ P d) := by
          intro P
          constructor
          · rintro ⟨d, hd, rfl, hP⟩; exact ⟨d, (hmem1 d).mpr ⟨hd, hx⟩, rfl, hP⟩
          · rintro ⟨d, hd, rfl, hP⟩; exact ⟨d, ((hmem1 d).mp hd).1, rfl, hP⟩
        have hd1 := hd (fun _ => True)
        have hd2 := hd (fun d => d.isIns = true)
        simp only [and_true] at hd1
        rw [hd1, hd2]; show _ ↔ Below r.high x.1 ∧ _; rw [← hMm2]
        constructor
        · rintro (h | h)
          · exact absurd (hlo x h) (not_lt_of_ge hx)
          · exact h
        · intro h; exact Or.inr h
      · simp only [Has, if_neg hx]
        have hlt := lt_of_not_ge hx
        have : Below (merge mk id r c).high x.1 ↔ Below c.high x.1 := by
          constructor
          · intro _; exact (hbl _).mpr hlt
          · intro _; exact hb' _ hlt
        rw [this, ← hMm1]
        constructor
        · rintro (h | h)
          · exact h
          · exact absurd (hhi x h) hx
        · intro h; exact Or.inl h
    · rw [hsss2, hsss1, List.filter_filter]
      apply List.filter_congr
      intro d _
      simp only [high]
      by_cases hlt : d.k < mk
      · simp [(hb' _ hlt), (hbl d.k).mpr hlt]
      · have : ¬ Below c.high d.k := fun h => hlt ((hbl _).mp h)
        simp [this]; rfl
    · intro x hx; exact hsl2 x (hsl1 x hx)
    · intro x hx
      rcases hsg2 x hx with hx | hx
      · rcases hsg1 x hx with hx | hx
        · exact Or.inl hx
        · exact Or.inr (inRange_merge_left hw hx)
      · exact Or.inr (inRange_merge_right hw hx)
  | remove _ _ _ => intro h; exact absurd h (by simp [WF])

/-- A duplicate free list of the stored pairs exists and its length is the recorded item count. -/
theorem itemCount_spec : ∀ (c : LeafChain K V), WF c →
    ∃ l : List (K × V), l.Nodup ∧ (∀ x, x ∈ l ↔ Has c x.1 x.2) ∧ (l.length : Int) = c.itemCount := by
  intro c
  induction c with
  | base low high items => intro h; exact ⟨items, h.2.1, fun x => Iff.rfl, rfl⟩
  | ins k v i e c ih =>
    intro h
    obtain ⟨l, h1, h2, h3⟩ := ih h.1
    refine ⟨(k, v) :: l, List.nodup_cons.mpr ⟨fun hm => h.2.2.1 ((h2 _).mp hm), h1⟩, ?_, ?_⟩
    · intro x; rw [List.mem_cons, h2]
      simp only [Has]
      constructor
      · rintro (rfl | h)
        · exact Or.inl ⟨rfl, rfl⟩
        · exact Or.inr h
      · rintro (h | h)
        · exact Or.inl (Prod.ext h.1 h.2)
        · exact Or.inr h
    · simp [itemCount, ← h3]
  | del k v i e c ih =>
    intro h
    obtain ⟨l, h1, h2, h3⟩ := ih h.1
    have hm : (k, v) ∈ l := (h2 (k, v)).mpr h.2.2.1
    refine ⟨l.erase (k, v), h1.erase _, ?_, ?_⟩
    · intro x; rw [h1.mem_erase_iff, h2]
      simp only [Has]
      constructor
      · rintro ⟨a, b⟩; exact ⟨fun hh => a (Prod.ext hh.1 hh.2), b⟩
      · rintro ⟨a, b⟩; exact ⟨fun hh => a ⟨by rw [hh], by rw [hh]⟩, b⟩
    · have := List.length_erase_of_mem hm
      have hpos := List.length_pos_of_mem hm
      simp only [itemCount, ← h3]; omega
  | split sk id sib c ih =>
    intro h
    obtain ⟨h1, ⟨low, high, items, hc, hsib⟩, h3, h4, h5⟩ := h
    subst hc
    refine ⟨items.filter (fun x => decide (x.1 < sk)), h1.2.1.filter _, ?_, ?_⟩
    · intro x; simp only [List.mem_filter, decide_eq_true_eq, Has]; exact and_comm
    · simp only [itemCount, hsib]
      have := List.length_eq_countP_add_countP (fun x : K × V => decide (x.1 < sk)) (l := items)
      rw [← List.countP_eq_length_filter]
      have e : List.countP (fun x : K × V => decide (sk ≤ x.1)) items =
          List.countP (fun a => decide (¬ (decide (a.1 < sk)) = true)) items := by
        apply List.countP_congr; intro x _; simp
      rw [e]; omega
  | merge mk id r c ihr ihc =>
    intro h
    obtain ⟨l1, a1, a2, a3⟩ := ihc h.1
    obtain ⟨l2, b1, b2, b3⟩ := ihr h.2.1
    obtain ⟨h1, h2, h3, h4, h5, h6⟩ := h
    have hl : ∀ x ∈ l1, x.1 < mk := by
      intro x hx
      have := (inRange_of_has h1 ((a2 x).mp hx)).2
      rw [h3] at this
      rcases this with t | t
      · exact absurd t h4
      · exact t
    have hr : ∀ x ∈ l2, mk ≤ x.1 := by
      intro x hx
      have := (inRange_of_has h2 ((b2 x).mp hx)).1
      rcases this with t | t
      · exact absurd t h6
      · rw [h5] at t; exact t
    refine ⟨l1 ++ l2, ?_, ?_, ?_⟩
    · rw [List.nodup_append]
      refine ⟨a1, b1, fun a ha b hb hab => ?_⟩
      subst hab; exact absurd (hl a ha) (not_lt_of_ge (hr a hb))
    · intro x; rw [List.mem_append]
      simp only [Has]
      split
      · rename_i hx
        rw [← b2]
        exact ⟨fun h => h.elim (fun h => absurd (hl x h) (not_lt_of_ge hx)) (fun h => h), Or.inr⟩
      · rename_i hx
        rw [← a2]
        exact ⟨fun h => h.elim (fun h => h) (fun h => absurd (hr x h) hx), Or.inl⟩
    · simp only [itemCount, ← a3, ← b3, List.length_append]; omega
  | remove _ _ _ => intro h; exact absurd h (by simp [WF])

theorem length_eq_of_same_members {α : Type} {l1 l2 : List α} (h1 : l1.Nodup) (h2 : l2.Nodup)
    (h : ∀ x, x ∈ l1 ↔ x ∈ l2) : l1.length = l2.length :=
  Nat.le_antisymm (List.Nodup.length_le_of_subset h1 (fun x hx => (h x).mp hx))
    (List.Nodup.length_le_of_subset h2 (fun x hx => (h x).mpr hx))

/-- Consolidation: no undefined behaviour, exactly `itemCount` items, sorted, duplicate free, same pairs. -/
theorem collect_spec {c : LeafChain K V} (h : WF c) :
    ∃ l, collect c = some l ∧ SortedKeys l ∧ l.Nodup ∧ (∀ x, x ∈ l ↔ Has c x.1 x.2) ∧
      (l.length : Int) = c.itemCount := by
  obtain ⟨st, e, ⟨⟨M, hM, hMs, hMn, hMm⟩, _, _, _⟩, _⟩ := collectRec_spec c.depth c h { sss := [], seen := [], out := [] }
    ⟨by simp, by simp, by simp, by simp, by simp⟩ (by simp)
  obtain ⟨l, a1, a2, a3⟩ := itemCount_spec c h
  have hm : ∀ x, x ∈ M ↔ Has c x.1 x.2 := by
    intro x; rw [hMm]; simp only [List.not_mem_nil, false_and, exists_false, not_false_iff, true_and, false_or]
    exact ⟨fun h => h.2, fun hh => ⟨(inRange_of_has h hh).2, hh⟩⟩
  have hlen : (M.length : Int) = c.itemCount := by
    rw [← a3, length_eq_of_same_members hMn a1 (fun x => (hm x).trans (a2 x).symm)]
  refine ⟨M, ?_, hMs, hMn, hm, hlen⟩
  unfold collect
  rw [e]
  simp only
  simp only [List.nil_append] at hM
  rw [hM, if_pos hlen]

theorem consolidate_wf {c : LeafChain K V} (h : WF c) :
    ∃ l, consolidate c = some (base c.low c.high l) ∧ WF (base c.low c.high l) ∧ ∀ x, x ∈ l ↔ Has c x.1 x.2 := by
  obtain ⟨l, e, h1, h2, h3, _⟩ := collect_spec h
  refine ⟨l, by unfold consolidate; rw [e], ⟨h1, h2, ?_, rangeNE h⟩, h3⟩
  intro x hx
  exact inRange_of_has h ((h3 x).mp hx)

end LeafChain
end BwTree
