import Verif.Proofs.InnerCollect

/-! Existence search, left sibling search, and split of inner chains. -/

namespace BwTree

variable {K : Type} [LinearOrder K] {lo : NodeId → Option (Option K)}

namespace InnerChain

/-- Key range of a (sub)chain in the search for a separator. -/
def InF (inc : Bool) (lv : Option K) (k : K) : Prop := (inc = false → Above lv k) ∧ (inc = true → AtLeast lv k)

theorem findRec_spec (hinv : lo INVALID = none) (lowId : NodeId) (k : K) : ∀ (c : InnerChain K) (lv : Option K) (inc : Bool),
    WF lo lv c → IncOk lo lowId inc lv c → InF inc lv k → Below c.high k →
    ∃ r loc, findRec lowId k c = some (r, loc) ∧ (∀ x, r = some x → x ∈ fseps inc lv c ∧ x.1 = k) ∧
      (r = none → ∀ x ∈ fseps inc lv c, x.1 ≠ k) ∧ (inc = false → LocOk c k loc)
  | base low high d items, lv, inc, h, hinc, hk, hb => by
    cases items with
    | nil => have := h.2.2.1; simp at this
    | cons a t =>
      have hal : a = low := by simpa using h.2.2.1
      subst hal
      have hst : StrictKeys t := h.2.2.2.1
      simp only [findRec, List.getElem?_cons_zero]
      cases inc with
      | false =>
        have hl : lowId = a.2 := hinc.1 rfl
        have := lbIdx_le t k
        simp only [if_pos hl]
        rw [lowerBound_tail hst.sorted (by omega) (by omega) (by simp; omega) (by simp)]
        simp only
        have hidx : (a :: t)[1 + lbIdx t k]? = t[lbIdx t k]? := by rw [Nat.add_comm]; simp
        rw [hidx]
        have hloc : LocOk (base a high d (a :: t)) k (1 + lbIdx t k) := fun _ => rfl
        cases hx : t[lbIdx t k]? with
        | none =>
          refine ⟨none, _, rfl, by simp, ?_, fun _ => hloc⟩
          intro _ x hxm e
          simp only [fseps, seps, List.tail_cons] at hxm
          obtain ⟨i, hi⟩ := List.mem_iff_getElem?.mp hxm
          have h1 : i < lbIdx t k := by
            have := List.getElem?_eq_none_iff.mp hx
            have := (List.getElem?_eq_some_iff.mp hi).1
            omega
          exact absurd (lt_lbIdx hst.sorted h1 hi) (by rw [e]; exact lt_irrefl _)
        | some y =>
          by_cases hy : y.1 = k
          · refine ⟨some y, _, by simp [hy], ?_, by simp, fun _ => hloc⟩
            intro x hx'
            cases hx'
            exact ⟨by simpa [fseps, seps] using List.mem_of_getElem? hx, hy⟩
          · refine ⟨none, _, by simp [hy], by simp, ?_, fun _ => hloc⟩
            intro _ x hxm e
            simp only [fseps, seps, List.tail_cons] at hxm
            obtain ⟨i, hi⟩ := List.mem_iff_getElem?.mp hxm
            rcases Nat.lt_trichotomy i (lbIdx t k) with h1 | h1 | h1
            · exact absurd (lt_lbIdx hst.sorted h1 hi) (by rw [e]; exact lt_irrefl _)
            · rw [h1, hx] at hi; cases hi; exact hy e
            · have h2 := lbIdx_le_get hst.sorted (Nat.le_refl _) hx
              have h3 := sorted_get hst.sorted (Nat.le_of_lt h1) hx hi
              rw [e] at h3
              exact hy (le_antisymm h3 h2)
      | true =>
        obtain ⟨⟨m, hm⟩, lv0, h1, h2⟩ := hinc.2 rfl
        have hl : lowId ≠ a.2 := by
          intro e
          have h3 := h.1
          rw [← e, h1] at h3
          have h5 : lv0 = lv := Option.some.inj h3
          exact absurd (h2 m hm m (by rw [h5, hm])) (lt_irrefl _)
        subst hm
        have ham : a.1 = m := h.2.1 m rfl
        have hat : StrictKeys (a :: t) := by
          refine List.pairwise_cons.mpr ⟨?_, hst⟩
          intro x hx
          rw [ham]
          exact (h.2.2.2.2.1 x hx).2.1 m rfl
        have hfs : fseps true (some m) (base a high d (a :: t)) = a :: t := by
          simp [fseps, seps, InnerChain.low, ← ham]
        rw [hfs]
        have := lbIdx_le (a :: t) k
        simp only [if_neg hl]
        rw [lowerBound_eq hat.sorted (by omega) this (Nat.le_refl _)]
        simp only
        cases hx : (a :: t)[lbIdx (a :: t) k]? with
        | none =>
          refine ⟨none, _, rfl, by simp, ?_, by simp⟩
          intro _ x hxm e
          obtain ⟨i, hi⟩ := List.mem_iff_getElem?.mp hxm
          have h1 : i < lbIdx (a :: t) k := by
            have := List.getElem?_eq_none_iff.mp hx
            have := (List.getElem?_eq_some_iff.mp hi).1
            omega
          exact absurd (lt_lbIdx hat.sorted h1 hi) (by rw [e]; exact lt_irrefl _)
        | some y =>
          by_cases hy : y.1 = k
          · refine ⟨some y, _, if_pos hy, ?_, by simp, by simp⟩
            intro x hx'
            cases hx'
            exact ⟨List.mem_of_getElem? hx, hy⟩
          · refine ⟨none, _, if_neg hy, by simp, ?_, by simp⟩
            intro _ x hxm e
            obtain ⟨i, hi⟩ := List.mem_iff_getElem?.mp hxm
            rcases Nat.lt_trichotomy i (lbIdx (a :: t) k) with h1 | h1 | h1
            · exact absurd (lt_lbIdx hat.sorted h1 hi) (by rw [e]; exact lt_irrefl _)
            · rw [h1, hx] at hi; cases hi; exact hy e
            · have h2 := lbIdx_le_get hat.sorted (Nat.le_refl _) hx
              have h3 := sorted_get hat.sorted (Nat.le_of_lt h1) hx hi
              rw [e] at h3
              exact hy (le_antisymm h3 h2)
  | ins item next loc c, lv, inc, h, hinc, hk, hb => by
    simp only [findRec]
    have hfs : ∀ x, x ∈ fseps inc lv (ins item next loc c) ↔ x = item ∨ (x ∈ fseps inc lv c ∧ x.1 ≠ item.1) := by
      intro y
      have hseps : y ∈ (ins item next loc c).seps ↔ y = item ∨ (y ∈ c.seps ∧ y.1 ≠ item.1) := by
        simp only [seps, List.mem_append, List.mem_cons, List.mem_filter, decide_eq_true_eq]
        constructor
        · rintro (h | h | h)
          · exact Or.inr ⟨h.1, ne_of_lt h.2⟩
          · exact Or.inl h
          · exact Or.inr ⟨h.1, ne_of_gt h.2⟩
        · rintro (h | ⟨h, hne⟩)
          · exact Or.inr (Or.inl h)
          · rcases lt_or_gt_of_ne hne with h' | h'
            · exact Or.inl ⟨h, h'⟩
            · exact Or.inr (Or.inr ⟨h, h'⟩)
      cases inc with
      | false => simpa [fseps] using hseps
      | true =>
        cases lv with
        | none => simpa [fseps] using hseps
        | some m =>
          simp only [fseps, List.mem_cons, hseps, low]
          have hm : m ≠ item.1 := ne_of_lt (h.2.2.1 m rfl)
          constructor
          · rintro (rfl | h | h)
            · exact Or.inr ⟨Or.inl rfl, hm⟩
            · exact Or.inl h
            · exact Or.inr ⟨Or.inr h.1, h.2⟩
          · rintro (h | ⟨h | h, hne⟩)
            · exact Or.inr (Or.inl h)
            · exact Or.inl h
            · exact Or.inr (Or.inr ⟨h, hne⟩)
    by_cases he : item.1 = k
    · refine ⟨some item, loc, by simp [he], ?_, by simp, ?_⟩
      · intro x hx
        cases hx
        exact ⟨(hfs item).mpr (Or.inl rfl), he⟩
      · intro _; subst he; exact h.2.2.2.2.2
    · obtain ⟨r, l, h1, h2, h3, h4⟩ := findRec_spec hinv lowId k c lv inc h.1 hinc hk hb
      refine ⟨r, l, by rw [if_neg he]; exact h1, ?_, ?_, h4⟩
      · intro x hx
        obtain ⟨h5, h6⟩ := h2 x hx
        exact ⟨(hfs x).mpr (Or.inr ⟨h5, by rw [h6]; exact Ne.symm he⟩), h6⟩
      · intro hr x hx
        rcases (hfs x).mp hx with rfl | ⟨h5, _⟩
        · exact he
        · exact h3 hr x h5
  | del item prev next loc c, lv, inc, h, hinc, hk, hb => by
    simp only [findRec]
    obtain ⟨z, hz, hzk⟩ := h.2.1
    have hzs := (WF.seps_spec h.1).2 z hz
    have ha : Above lv item.1 := by rw [← hzk]; exact hzs.2.1
    have hfs : ∀ x, x ∈ fseps inc lv (del item prev next loc c) ↔ (x ∈ fseps inc lv c ∧ x.1 ≠ item.1) := by
      intro y
      have hseps : y ∈ (del item prev next loc c).seps ↔ (y ∈ c.seps ∧ y.1 ≠ item.1) := by
        simp [seps, List.mem_filter]
      cases inc with
      | false => simpa [fseps] using hseps
      | true =>
        cases lv with
        | none => simpa [fseps] using hseps
        | some m =>
          simp only [fseps, List.mem_cons, hseps, low]
          have hm : m ≠ item.1 := ne_of_lt (ha m rfl)
          constructor
          · rintro (rfl | h)
            · exact ⟨Or.inl rfl, hm⟩
            · exact ⟨Or.inr h.1, h.2⟩
          · rintro ⟨h | h, hne⟩
            · exact Or.inl h
            · exact Or.inr ⟨h, hne⟩
    by_cases he : item.1 = k
    · refine ⟨none, loc, by simp [he], by simp, ?_, ?_⟩
      · intro _ x hx e
        exact ((hfs x).mp hx).2 (by rw [e, he])
      · intro _; subst he; exact h.2.2.2
    · obtain ⟨r, l, h1, h2, h3, h4⟩ := findRec_spec hinv lowId k c lv inc h.1 hinc hk hb
      refine ⟨r, l, by rw [if_neg he]; exact h1, ?_, ?_, h4⟩
      · intro x hx
        obtain ⟨h5, h6⟩ := h2 x hx
        exact ⟨(hfs x).mpr ⟨h5, by rw [h6]; exact Ne.symm he⟩, h6⟩
      · intro hr x hx
        exact h3 hr x ((hfs x).mp hx).1
  | split item sib c, lv, inc, h, hinc, hk, hb => by
    have hlt : k < item.1 := hb.resolve_left (SepOk.ne hinv h.2.2.1)
    obtain ⟨r, l, h1, h2, h3, h4⟩ := findRec_spec hinv lowId k c lv inc h.1 hinc hk (h.2.2.2.2.trans (le_of_lt hlt))
    have hf : ∀ x, x.1 < item.1 → (x ∈ fseps inc lv c ↔ x ∈ fseps inc lv (split item sib c)) := by
      intro x hx
      cases inc with
      | false => simp [fseps, seps, List.mem_filter, hx]
      | true =>
        cases lv with
        | none => simp [fseps, seps, List.mem_filter, hx]
        | some m => simp [fseps, seps, InnerChain.low, List.mem_filter, hx]
    refine ⟨r, l, h1, ?_, ?_, h4⟩
    · intro x hx
      obtain ⟨h5, h6⟩ := h2 x hx
      exact ⟨(hf x (by rw [h6]; exact hlt)).mp h5, h6⟩
    · intro hr x hx e
      exact h3 hr x ((hf x (by rw [e]; exact hlt)).mpr hx) e
  | merge mk id r c, lv, inc, h, hinc, hk, hb => by
    have hmk := WF.above_mk h
    have hbel : ∀ k, Below c.high k ↔ k < mk := by
      intro k; rw [h.2.2.1]; simp [Below, h.2.2.2]
    have hall : ∀ x, x ∈ fseps inc lv (merge mk id r c) ↔ x ∈ fseps inc lv c ∨ x ∈ fseps true (some mk) r := by
      intro x
      cases inc with
      | false => simp [fseps, seps]
      | true =>
        cases lv with
        | none => simp [fseps, seps]
        | some m => simp [fseps, seps, low, or_assoc]
    have hcm : ∀ y ∈ fseps inc lv c, y.1 < mk := by
      intro y hy
      have hys : ∀ y ∈ c.seps, y.1 < mk := fun y hy => (hbel _).mp ((WF.seps_spec h.1).2 y hy).2.2
      cases inc with
      | false => exact hys y (by simpa [fseps] using hy)
      | true =>
        cases lv with
        | none => exact hys y (by simpa [fseps] using hy)
        | some m =>
          simp only [fseps, List.mem_cons] at hy
          rcases hy with rfl | hy
          · exact hmk m rfl
          · exact hys y hy
    have hrm : ∀ y ∈ fseps true (some mk) r, mk ≤ y.1 := by
      intro y hy
      simp only [fseps, List.mem_cons] at hy
      rcases hy with rfl | h7
      · exact le_refl _
      · exact le_of_lt (((WF.seps_spec h.2.1).2 y h7).2.1 mk rfl)
    simp only [findRec]
    by_cases hle : mk ≤ k
    · have hinc2 : IncOk lo lowId true (some mk) r := by
        refine ⟨(fun h => by cases h), fun _ => ⟨⟨mk, rfl⟩, ?_⟩⟩
        cases inc with
        | false =>
          refine ⟨lv, ?_, ?_⟩
          · rw [hinc.1 rfl]; exact (WF.low_spec h.1).1
          · intro m hm; cases hm; exact hmk
        | true =>
          obtain ⟨⟨m0, hm0⟩, lv0, h1, h2⟩ := hinc.2 rfl
          refine ⟨lv0, h1, ?_⟩
          intro m hm
          cases hm
          exact (h2 m0 hm0).trans (le_of_lt (hmk m0 hm0))
      obtain ⟨r', l, h1, h2, h3, h4⟩ := findRec_spec hinv lowId k r (some mk) true h.2.1 hinc2
        ⟨(fun h => by cases h), fun _ l hl => by cases hl; exact hle⟩ hb
      refine ⟨r', l, by rw [if_pos hle]; exact h1, ?_, ?_, fun _ hm => hm.elim⟩
      · intro x hx
        exact ⟨(hall x).mpr (Or.inr (h2 x hx).1), (h2 x hx).2⟩
      · intro hr x hx e
        rcases (hall x).mp hx with h5 | h5
        · exact absurd (hcm x h5) (by rw [e]; exact not_lt_of_ge hle)
        · exact h3 hr x h5 e
    · have hlt := lt_of_not_ge hle
      obtain ⟨r', l, h1, h2, h3, h4⟩ := findRec_spec hinv lowId k c lv inc h.1 hinc hk ((hbel k).mpr hlt)
      refine ⟨r', l, by rw [if_neg hle]; exact h1, ?_, ?_, fun _ hm => hm.elim⟩
      · intro x hx
        exact ⟨(hall x).mpr (Or.inl (h2 x hx).1), (h2 x hx).2⟩
      · intro hr x hx e
        rcases (hall x).mp hx with h5 | h5
        · exact h3 hr x h5 e
        · exact absurd (hrm x h5) (by rw [e]; exact hle)
  | remove _ _, _, _, h, _, _, _ => h.elim
  | abort _ _, _, _, h, _, _, _ => h.elim

theorem findSep_spec (hinv : lo INVALID = none) {c : InnerChain K} {lv : Option K} (h : WF lo lv c) {k : K}
    (hk : Above lv k) (hb : Below c.high k) :
    ∃ r loc, findSep k c = some (r, loc) ∧ (∀ x, r = some x → x ∈ c.seps ∧ x.1 = k) ∧
      (r = none → ¬ HasKey c k) ∧ LocOk c k loc := by
  obtain ⟨r, loc, h1, h2, h3, h4⟩ := findRec_spec hinv c.low.2 k c lv false h ⟨fun _ => rfl, fun h => by cases h⟩
    ⟨fun _ => hk, fun h => by cases h⟩ hb
  refine ⟨r, loc, ?_, h2, ?_, h4 rfl⟩
  · unfold findSep; exact (if_pos hb).trans h1
  · rintro hr ⟨x, hx, e⟩; exact h3 hr x hx e

/-! ### Left sibling -/

theorem strictWeak_sepGt : StrictWeak (sepGt : SepRec K → SepRec K → Bool) where
  irrefl a := by simp [sepGt, lt_irrefl]
  trans a b c h1 h2 := by simp only [sepGt, decide_eq_true_eq] at *; exact lt_trans h2 h1
  incomp a b c h1 h2 h3 h4 := by
    simp only [sepGt, decide_eq_false_iff_not, not_lt] at *
    exact ⟨le_trans h1 h3, le_trans h4 h2⟩

theorem eqInduced_sepGt : EqInduced (sepGt : SepRec K → SepRec K → Bool) sepEq := by
  intro a b
  simp only [sepEq, sepGt, decide_eq_true_eq, decide_eq_false_iff_not, not_lt]
  exact ⟨fun h => ⟨le_of_eq h, le_of_eq h.symm⟩, fun h => le_antisymm h.1 h.2⟩

def SDesc (l : List (SepRec K)) : Prop := l.Pairwise (fun a b => b.item.1 < a.item.1)
def DescKeys (l : List (K × NodeId)) : Prop := l.Pairwise (fun a b => b.1 < a.1)

/-- Descending merge: what `popTwo` enumerates. -/
def descMerge : List (K × NodeId) → List (SepRec K) → List (K × NodeId)
  | xs, [] => xs
  | [], d :: ds => (if d.isIns then [d.item] else []) ++ descMerge [] ds
  | x :: xs, d :: ds =>
    if d.item.1 = x.1 then (if d.isIns then [d.item] else []) ++ descMerge xs ds
    else if d.item.1 < x.1 then x :: descMerge xs (d :: ds)
    else (if d.isIns then [d.item] else []) ++ descMerge (x :: xs) ds
  termination_by xs ds => xs.length + ds.length

theorem descMerge_spec : ∀ (xs : List (K × NodeId)) (ds : List (SepRec K)), DescKeys xs → SDesc ds →
    DescKeys (descMerge xs ds) ∧ ∀ x, x ∈ descMerge xs ds ↔ Ovr ds xs x
  | xs, [], h1, h2 => by
    unfold descMerge
    exact ⟨h1, fun x => by simp [Ovr]⟩
  | [], d :: ds, h1, h2 => by
    obtain ⟨p1, p2⟩ := List.pairwise_cons.mp h2
    obtain ⟨i1, i2⟩ := descMerge_spec [] ds h1 p2
    have hgt : ∀ x ∈ descMerge [] ds, x.1 < d.item.1 := by
      intro x hx
      rcases (i2 x).mp hx with ⟨e, he, _, rfl⟩ | ⟨h, _⟩
      · exact p1 e he
      · cases h
    unfold descMerge
    have hov : ∀ x, Ovr (d :: ds) [] x ↔ (d.isIns = true ∧ d.item = x) ∨ Ovr ds [] x := by
      intro x; simp [Ovr]
    cases hd : d.isIns with
    | true =>
      simp only [if_true, List.singleton_append]
      refine ⟨List.pairwise_cons.mpr ⟨hgt, i1⟩, fun x => ?_⟩
      rw [List.mem_cons, i2 x, hov x, hd]
      constructor
      · rintro (h | h)
        · exact Or.inl ⟨rfl, h.symm⟩
        · exact Or.inr h
      · rintro (h | h)
        · exact Or.inl h.2.symm
        · exact Or.inr h
    | false =>
      simp only [Bool.false_eq_true, if_false, List.nil_append]
      refine ⟨i1, fun x => ?_⟩
      rw [i2 x, hov x, hd]
      simp
  | a :: arr, d :: ds, h1, h2 => by
    obtain ⟨p1, p2⟩ := List.pairwise_cons.mp h2
    obtain ⟨q1, q2⟩ := List.pairwise_cons.mp h1
    unfold descMerge
    split
    · rename_i hk
      obtain ⟨i1, i2⟩ := descMerge_spec arr ds q2 p2
      have hgt : ∀ x ∈ descMerge arr ds, x.1 < d.item.1 := by
        intro x hx
        rcases (i2 x).mp hx with ⟨e, he, _, rfl⟩ | ⟨h, _⟩
        · exact p1 e he
        · rw [hk]; exact q1 x h
      have hov : ∀ x, Ovr (d :: ds) (a :: arr) x ↔ (d.isIns = true ∧ d.item = x) ∨ Ovr ds arr x := by
        intro x
        simp only [Ovr, List.mem_cons, exists_eq_or_imp, forall_eq_or_imp]
        constructor
        · rintro ((h | h) | ⟨h3, h4, h5⟩)
          · exact Or.inl h
          · exact Or.inr (Or.inl h)
          · rcases h3 with rfl | h3
            · exact absurd hk h4
            · exact Or.inr (Or.inr ⟨h3, h5⟩)
        · rintro (h | h | ⟨h3, h5⟩)
          · exact Or.inl (Or.inl h)
          · exact Or.inl (Or.inr h)
          · exact Or.inr ⟨Or.inr h3, by rw [hk]; exact ne_of_gt (q1 x h3), h5⟩
      cases hd : d.isIns with
      | true =>
        simp only [if_true, List.singleton_append]
        refine ⟨List.pairwise_cons.mpr ⟨hgt, i1⟩, fun x => ?_⟩
        rw [List.mem_cons, i2 x, hov x, hd]
        constructor
        · rintro (h | h)
          · exact Or.inl ⟨rfl, h.symm⟩
          · exact Or.inr h
        · rintro (h | h)
          · exact Or.inl h.2.symm
          · exact Or.inr h
      | false =>
        simp only [Bool.false_eq_true, if_false, List.nil_append]
        refine ⟨i1, fun x => ?_⟩
        rw [i2 x, hov x, hd]
        simp
    · rename_i hne
      split
      · rename_i hda
        obtain ⟨i1, i2⟩ := descMerge_spec arr (d :: ds) q2 h2
        refine ⟨List.pairwise_cons.mpr ⟨?_, i1⟩, fun x => ?_⟩
        · intro x hx
          rcases (i2 x).mp hx with ⟨e, he, _, rfl⟩ | ⟨h, _⟩
          · rcases List.mem_cons.mp he with rfl | he
            · exact hda
            · exact lt_trans (p1 e he) hda
          · exact q1 x h
        · rw [List.mem_cons, i2 x]
          constructor
          · rintro (rfl | h | ⟨h3, h4⟩)
            · refine Or.inr ⟨by simp, ?_⟩
              intro e he
              rcases List.mem_cons.mp he with rfl | he
              · exact ne_of_lt hda
              · exact ne_of_lt (lt_trans (p1 e he) hda)
            · exact Or.inl h
            · exact Or.inr ⟨List.mem_cons_of_mem _ h3, h4⟩
          · rintro (h | ⟨h3, h4⟩)
            · exact Or.inr (Or.inl h)
            · rcases List.mem_cons.mp h3 with rfl | h3
              · exact Or.inl rfl
              · exact Or.inr (Or.inr ⟨h3, h4⟩)
      · rename_i hda'
        have hda : a.1 < d.item.1 := lt_of_le_of_ne (le_of_not_gt hda') (Ne.symm hne)
        obtain ⟨i1, i2⟩ := descMerge_spec (a :: arr) ds h1 p2
        have hlt : ∀ x ∈ a :: arr, x.1 < d.item.1 := by
          intro x h
          rcases List.mem_cons.mp h with rfl | h
          · exact hda
          · exact lt_trans (q1 x h) hda
        have hgt : ∀ x ∈ descMerge (a :: arr) ds, x.1 < d.item.1 := by
          intro x hx
          rcases (i2 x).mp hx with ⟨e, he, _, rfl⟩ | ⟨h, _⟩
          · exact p1 e he
          · exact hlt x h
        have hov : ∀ x, Ovr (d :: ds) (a :: arr) x ↔ (d.isIns = true ∧ d.item = x) ∨ Ovr ds (a :: arr) x := by
          intro x
          simp only [Ovr, List.mem_cons, exists_eq_or_imp, forall_eq_or_imp]
          constructor
          · rintro ((h | h) | ⟨h3, h4, h5⟩)
            · exact Or.inl h
            · exact Or.inr (Or.inl h)
            · exact Or.inr (Or.inr ⟨h3, h5⟩)
          · rintro (h | h | ⟨h3, h5⟩)
            · exact Or.inl (Or.inl h)
            · exact Or.inl (Or.inr h)
            · exact Or.inr ⟨h3, ne_of_gt (hlt x (List.mem_cons.mpr h3)), h5⟩
        cases hd : d.isIns with
        | true =>
          simp only [if_true, List.singleton_append]
          refine ⟨List.pairwise_cons.mpr ⟨hgt, i1⟩, fun x => ?_⟩
          rw [List.mem_cons, i2 x, hov x, hd]
          constructor
          · rintro (h | h)
            · exact Or.inl ⟨rfl, h.symm⟩
            · exact Or.inr h
          · rintro (h | h)
            · exact Or.inl h.2.symm
            · exact Or.inr h
        | false =>
          simp only [Bool.false_eq_true, if_false, List.nil_append]
          refine ⟨i1, fun x => ?_⟩
          rw [i2 x, hov x, hd]
          simp
  termination_by xs ds => xs.length + ds.length

theorem popTwo_zero (items : List (K × NodeId)) (fuel : Nat) (i : Option Nat) (ds : List (SepRec K)) (left : Option NodeId) :
    popTwo items fuel 0 i ds left = left := by
  cases fuel <;> simp [popTwo]

theorem popTwo_none (items : List (K × NodeId)) (fuel n : Nat) (ds : List (SepRec K)) (left : Option NodeId) :
    popTwo items fuel (n + 1) none ds left = none := by
  cases fuel with
  | zero => simp [popTwo]
  | succ f => cases ds <;> simp [popTwo]

theorem popTwo_spec (a : K × NodeId) (t : List (K × NodeId)) : ∀ (fuel n j : Nat) (ds : List (SepRec K)) (left : Option NodeId),
    j ≤ t.length → j + ds.length + 1 ≤ fuel →
    popTwo (a :: t) fuel (n + 1) (some j) ds left = ((descMerge (t.take j).reverse ds ++ [a])[n]?).map (·.2) := by
  intro fuel
  induction fuel with
  | zero => intro n j ds left _ h; omega
  | succ f ih =>
    intro n j ds left hj hf
    cases ds with
    | nil =>
      cases j with
      | zero =>
        simp only [popTwo, List.getElem?_cons_zero, if_true]
        cases n with
        | zero => rw [popTwo_zero]; simp [descMerge]
        | succ n => rw [popTwo_none]; simp [descMerge]
      | succ j =>
        have hlt : j < t.length := by omega
        have hx : t[j]? = some t[j] := List.getElem?_eq_getElem hlt
        simp only [popTwo, List.getElem?_cons_succ, hx, Nat.add_one_ne_zero, if_false, Nat.add_sub_cancel]
        have ht : (t.take (j + 1)).reverse = t[j] :: (t.take j).reverse := by
          rw [List.take_add_one, hx]; simp
        rw [ht]
        cases n with
        | zero => rw [popTwo_zero]; simp [descMerge]
        | succ n =>
          rw [ih n j [] _ (by omega) (by simpa using hf)]
          simp [descMerge]
    | cons d ds =>
      simp only [List.length_cons] at hf
      cases j with
      | zero =>
        simp only [popTwo, List.take_zero, List.reverse_nil]
        rw [descMerge]
        cases hd : d.isIns with
        | true =>
          simp only [if_true, List.singleton_append, List.cons_append]
          cases n with
          | zero => rw [popTwo_zero]; simp
          | succ n => rw [ih n 0 ds _ (by omega) (by omega)]; simp
        | false =>
          simp only [Bool.false_eq_true, if_false, List.nil_append]
          rw [ih n 0 ds _ (by omega) (by omega)]; simp
      | succ j =>
        have hlt : j < t.length := by omega
        have hx : t[j]? = some t[j] := List.getElem?_eq_getElem hlt
        simp only [popTwo, List.getElem?_cons_succ, hx]
        have ht : (t.take (j + 1)).reverse = t[j] :: (t.take j).reverse := by
          rw [List.take_add_one, hx]; simp
        rw [ht, descMerge]
        by_cases hk : d.item.1 = t[j].1
        · rw [if_pos hk, if_pos hk]
          cases hd : d.isIns with
          | true =>
            simp only [if_true, List.singleton_append, List.cons_append]
            cases n with
            | zero => rw [popTwo_zero]; simp
            | succ n => rw [ih n j ds _ (by omega) (by omega)]; simp
          | false =>
            simp only [Bool.false_eq_true, if_false, List.nil_append]
            rw [ih n j ds _ (by omega) (by omega)]
        · rw [if_neg hk, if_neg hk]
          by_cases hl : d.item.1 < t[j].1
          · rw [if_pos hl, if_pos hl]
            cases n with
            | zero => rw [popTwo_zero]; simp
            | succ n => rw [ih n j (d :: ds) _ (by omega) (by simp only [List.length_cons]; omega)]; simp
          · rw [if_neg hl, if_neg hl]
            cases hd : d.isIns with
            | true =>
              simp only [if_true, List.singleton_append, List.cons_append]
              cases n with
              | zero => rw [popTwo_zero]; simp
              | succ n => rw [ih n (j + 1) ds _ (by omega) (by omega), ht]; simp
            | false =>
              simp only [Bool.false_eq_true, if_false, List.nil_append]
              rw [ih n (j + 1) ds _ (by omega) (by omega), ht]

theorem insertGt_length (r : SepRec K) (l : List (SepRec K)) :
    (SmallSet.insert sepGt sepEq r l).length ≤ l.length + 1 := by
  induction l with
  | nil => simp [SmallSet.insert]
  | cons a l ih =>
    simp only [SmallSet.insert]
    split
    · split <;> simp
    · simp only [List.length_cons]; omega

theorem ovr_insertGt {sss : List (SepRec K)} (hs : SDesc sss) {r : SepRec K} {l l' : List (K × NodeId)}
    (hl : ∀ x, x ∈ l' ↔ (x = r.item ∧ r.isIns = true) ∨ (x ∈ l ∧ x.1 ≠ r.item.1)) (x : K × NodeId) :
    Ovr (SmallSet.insert sepGt sepEq r sss) l x ↔ Ovr sss l' x := by
  have hs' : sss.Pairwise (fun a b => sepGt a b = true) := by
    refine List.Pairwise.imp ?_ hs
    intro a b h; simpa [sepGt] using h
  by_cases hd : ∃ d ∈ sss, d.item.1 = r.item.1
  · rw [SmallSet.insert_dup strictWeak_sepGt eqInduced_sepGt hs' (by simpa [sepEq] using hd)]
    obtain ⟨d, hd1, hd2⟩ := hd
    simp only [Ovr, hl x]
    constructor
    · rintro (h | ⟨h1, h2⟩)
      · exact Or.inl h
      · refine Or.inr ⟨Or.inr ⟨h1, ?_⟩, h2⟩
        rw [← hd2]; exact Ne.symm (h2 d hd1)
    · rintro (h | ⟨⟨rfl, _⟩ | h1, h2⟩)
      · exact Or.inl h
      · exact absurd hd2 (h2 d hd1)
      · exact Or.inr ⟨h1.1, h2⟩
  · have hmem : ∀ d, d ∈ SmallSet.insert sepGt sepEq r sss ↔ d = r ∨ d ∈ sss := by
      intro d
      constructor
      · exact SmallSet.mem_insert
      · rintro (rfl | h)
        · apply SmallSet.mem_insert_self hs'
          intro y hy
          simp only [sepEq, decide_eq_false_iff_not]
          exact fun e => hd ⟨y, hy, e⟩
        · exact SmallSet.subset_insert h
    simp only [Ovr, hmem, hl x]
    constructor
    · rintro (⟨d, rfl | h1, h2, h3⟩ | ⟨h1, h2⟩)
      · exact Or.inr ⟨Or.inl ⟨h3.symm, h2⟩, fun e he hk => hd ⟨e, he, by rw [hk, h3]⟩⟩
      · exact Or.inl ⟨d, h1, h2, h3⟩
      · exact Or.inr ⟨Or.inr ⟨h1, Ne.symm (h2 r (Or.inl rfl))⟩, fun e he => h2 e (Or.inr he)⟩
    · rintro (⟨d, h1, h2, h3⟩ | ⟨⟨rfl, h1⟩ | ⟨h1, h2⟩, h3⟩)
      · exact Or.inl ⟨d, Or.inr h1, h2, h3⟩
      · exact Or.inl ⟨r, Or.inl rfl, h1, rfl⟩
      · refine Or.inr ⟨h1, ?_⟩
        rintro e (rfl | he)
        · exact Ne.symm h2
        · exact h3 e he

theorem sdesc_insert {sss : List (SepRec K)} (h1 : SDesc sss) (r : SepRec K) : SDesc (SmallSet.insert sepGt sepEq r sss) := by
  have hs' : sss.Pairwise (fun a b => sepGt a b = true) := by
    refine List.Pairwise.imp ?_ h1
    intro a b h; simpa [sepGt] using h
  refine List.Pairwise.imp ?_ (SmallSet.pairwise_insert strictWeak_sepGt eqInduced_sepGt hs' (v := r))
  intro a b h; simpa [sepGt] using h

/-- The walk enumerates, in descending order, the separators not above `k` and finally the leftmost child. -/
theorem leftRec_spec (hinv : lo INVALID = none) (cap : Nat) (k : K) : ∀ (c : InnerChain K) (lv : Option K) (sss : List (SepRec K)),
    WF lo lv c → SDesc sss → (∀ d ∈ sss, d.item.1 ≤ k) → sss.length + c.depth ≤ cap → noMerge c → Below c.high k →
    ∃ L, DescKeys L ∧ (∀ x, x ∈ L ↔ x.1 ≤ k ∧ Ovr sss c.seps x) ∧
      leftRec cap k c sss = ((L ++ [c.low])[1]?).map (fun x => .found x.2)
  | base low high d items, lv, sss, h, hs, hle, hcap, hm, hb => by
    cases items with
    | nil => have := h.2.2.1; simp at this
    | cons a t =>
      have hal : a = low := by simpa using h.2.2.1
      subst hal
      have hst : StrictKeys t := h.2.2.2.1
      have hub := ubIdx_le t k
      have hdesc : DescKeys (t.take (ubIdx t k)).reverse := by
        unfold DescKeys
        rw [List.pairwise_reverse]
        exact List.Pairwise.sublist (List.take_sublist _ _) hst
      have hmem : ∀ x, x ∈ (t.take (ubIdx t k)).reverse ↔ x ∈ t ∧ x.1 ≤ k := by
        intro x
        rw [List.mem_reverse]
        have := mem_slice (l := t) (a := 0) (b := ubIdx t k) (x := x)
        rw [List.drop_zero] at this
        rw [this]
        constructor
        · rintro ⟨j, _, h2, h3⟩
          exact ⟨List.mem_of_getElem? h3, lt_ubIdx hst.sorted h2 h3⟩
        · rintro ⟨h1, h2⟩
          obtain ⟨i, hi⟩ := List.mem_iff_getElem?.mp h1
          refine ⟨i, by omega, ?_, hi⟩
          by_contra hc
          exact absurd h2 (not_le_of_gt (ubIdx_le_get hst.sorted (by omega) hi))
      obtain ⟨d1, d2⟩ := descMerge_spec _ sss hdesc hs
      refine ⟨descMerge (t.take (ubIdx t k)).reverse sss, d1, ?_, ?_⟩
      · intro x
        rw [d2 x]
        simp only [Ovr, hmem, seps, List.tail_cons]
        constructor
        · rintro (⟨e, h1, h2, rfl⟩ | ⟨⟨h1, h2⟩, h3⟩)
          · exact ⟨hle e h1, Or.inl ⟨e, h1, h2, rfl⟩⟩
          · exact ⟨h2, Or.inr ⟨h1, h3⟩⟩
        · rintro ⟨h0, h1 | ⟨h1, h3⟩⟩
          · exact Or.inl h1
          · exact Or.inr ⟨⟨h1, h0⟩, h3⟩
      · simp only [leftRec, List.length_cons, Nat.add_one_ne_zero, if_false]
        rw [upperBound_tail hst.sorted (by omega) (by omega) (by omega) (by omega), Nat.add_comm 1]
        simp only
        rw [popTwo_spec a t _ 1 _ sss none hub (by omega)]
        simp only [InnerChain.low]
        cases (descMerge (t.take (ubIdx t k)).reverse sss ++ [a])[1]? <;> rfl
  | ins item next loc c, lv, sss, h, hs, hle, hcap, hm, hb => by
    have hcap : sss.length + (c.depth + 1) ≤ cap := hcap
    have hseps : ∀ y, y ∈ (ins item next loc c).seps ↔ y = item ∨ (y ∈ c.seps ∧ y.1 ≠ item.1) := by
      intro y
      simp only [seps, List.mem_append, List.mem_cons, List.mem_filter, decide_eq_true_eq]
      constructor
      · rintro (h | h | h)
        · exact Or.inr ⟨h.1, ne_of_lt h.2⟩
        · exact Or.inl h
        · exact Or.inr ⟨h.1, ne_of_gt h.2⟩
      · rintro (h | ⟨h, hne⟩)
        · exact Or.inr (Or.inl h)
        · rcases lt_or_gt_of_ne hne with h' | h'
          · exact Or.inl ⟨h, h'⟩
          · exact Or.inr (Or.inr ⟨h, h'⟩)
    simp only [leftRec]
    by_cases hik : item.1 ≤ k
    · rw [if_pos hik, if_pos (by omega)]
      have := insertGt_length (⟨item, true⟩ : SepRec K) sss
      obtain ⟨L, l1, l2, l3⟩ := leftRec_spec hinv cap k c lv _ h.1 (sdesc_insert hs ⟨item, true⟩) (by
        intro d hd
        rcases SmallSet.mem_insert hd with rfl | hd
        · exact hik
        · exact hle d hd) (by omega) hm hb
      refine ⟨L, l1, ?_, l3⟩
      intro x
      rw [l2 x, ovr_insertGt hs (l' := (ins item next loc c).seps) (by
        intro y; rw [hseps y]; simp)]
    · rw [if_neg hik]
      obtain ⟨L, l1, l2, l3⟩ := leftRec_spec hinv cap k c lv sss h.1 hs hle (by omega) hm hb
      refine ⟨L, l1, ?_, l3⟩
      intro x
      rw [l2 x]
      have : x.1 ≤ k → (x ∈ c.seps ↔ x ∈ (ins item next loc c).seps) := by
        intro hx
        have hne : x.1 ≠ item.1 := fun e => hik (by rw [← e]; exact hx)
        rw [hseps x]
        constructor
        · exact fun h => Or.inr ⟨h, hne⟩
        · rintro (rfl | h)
          · exact absurd rfl hne
          · exact h.1
      constructor
      · rintro ⟨h0, h1⟩; exact ⟨h0, by simpa only [Ovr, ← this h0] using h1⟩
      · rintro ⟨h0, h1⟩; exact ⟨h0, by simpa only [Ovr, this h0] using h1⟩
  | del item prev next loc c, lv, sss, h, hs, hle, hcap, hm, hb => by
    have hcap : sss.length + (c.depth + 1) ≤ cap := hcap
    have hseps : ∀ y, y ∈ (del item prev next loc c).seps ↔ (y ∈ c.seps ∧ y.1 ≠ item.1) := by
      intro y
      simp [seps, List.mem_filter]
    simp only [leftRec]
    by_cases hik : item.1 ≤ k
    · rw [if_pos hik, if_pos (by omega)]
      have := insertGt_length (⟨item, false⟩ : SepRec K) sss
      obtain ⟨L, l1, l2, l3⟩ := leftRec_spec hinv cap k c lv _ h.1 (sdesc_insert hs ⟨item, false⟩) (by
        intro d hd
        rcases SmallSet.mem_insert hd with rfl | hd
        · exact hik
        · exact hle d hd) (by omega) hm hb
      refine ⟨L, l1, ?_, l3⟩
      intro x
      rw [l2 x, ovr_insertGt hs (l' := (del item prev next loc c).seps) (by
        intro y; rw [hseps y]; simp)]
    · rw [if_neg hik]
      obtain ⟨L, l1, l2, l3⟩ := leftRec_spec hinv cap k c lv sss h.1 hs hle (by omega) hm hb
      refine ⟨L, l1, ?_, l3⟩
      intro x
      rw [l2 x]
      have : x.1 ≤ k → (x ∈ c.seps ↔ x ∈ (del item prev next loc c).seps) := by
        intro hx
        have hne : x.1 ≠ item.1 := fun e => hik (by rw [← e]; exact hx)
        rw [hseps x]
        exact ⟨fun h => ⟨h, hne⟩, fun h => h.1⟩
      constructor
      · rintro ⟨h0, h1⟩; exact ⟨h0, by simpa only [Ovr, ← this h0] using h1⟩
      · rintro ⟨h0, h1⟩; exact ⟨h0, by simpa only [Ovr, this h0] using h1⟩
  | split item sib c, lv, sss, h, hs, hle, hcap, hm, hb => by
    have hlt : k < item.1 := hb.resolve_left (SepOk.ne hinv h.2.2.1)
    obtain ⟨L, l1, l2, l3⟩ := leftRec_spec hinv cap k c lv sss h.1 hs hle hcap hm (h.2.2.2.2.trans (le_of_lt hlt))
    refine ⟨L, l1, ?_, l3⟩
    intro x
    rw [l2 x]
    have : x.1 ≤ k → (x ∈ c.seps ↔ x ∈ (split item sib c).seps) := by
      intro hx
      simp [seps, List.mem_filter, lt_of_le_of_lt hx hlt]
    constructor
    · rintro ⟨h0, h1⟩; exact ⟨h0, by simpa only [Ovr, ← this h0] using h1⟩
    · rintro ⟨h0, h1⟩; exact ⟨h0, by simpa only [Ovr, this h0] using h1⟩
  | merge mk id r c, lv, sss, h, hs, hle, hcap, hm, hb => hm.elim
  | remove _ _, _, _, h, _, _, _, _, _ => h.elim
  | abort _ _, _, _, h, _, _, _, _, _ => h.elim

theorem leftRec_merge (cap : Nat) (k : K) : ∀ (c : InnerChain K) (lv : Option K) (sss : List (SepRec K)),
    WF lo lv c → sss.length + c.depth ≤ cap → ¬ noMerge c → leftRec cap k c sss = some .sawMerge
  | base _ _ _ _, _, _, _, _, hm => absurd trivial hm
  | ins item next loc c, lv, sss, h, hcap, hm => by
    have hcap : sss.length + (c.depth + 1) ≤ cap := hcap
    have := insertGt_length (⟨item, true⟩ : SepRec K) sss
    simp only [leftRec]
    split
    · rw [if_pos (by omega)]
      exact leftRec_merge cap k c lv _ h.1 (by omega) hm
    · exact leftRec_merge cap k c lv _ h.1 (by omega) hm
  | del item prev next loc c, lv, sss, h, hcap, hm => by
    have hcap : sss.length + (c.depth + 1) ≤ cap := hcap
    have := insertGt_length (⟨item, false⟩ : SepRec K) sss
    simp only [leftRec]
    split
    · rw [if_pos (by omega)]
      exact leftRec_merge cap k c lv _ h.1 (by omega) hm
    · exact leftRec_merge cap k c lv _ h.1 (by omega) hm
  | split _ _ c, lv, sss, h, hcap, hm => leftRec_merge cap k c lv sss h.1 hcap hm
  | merge _ _ _ _, _, _, _, _, _ => rfl
  | remove _ _, _, _, h, _, _ => h.elim
  | abort _ _, _, _, h, _, _ => h.elim

theorem decide_noMerge (c : InnerChain K) : noMerge c ∨ ¬ noMerge c := Classical.em _

/-- FindLeftSibling returns the second element of: separators not above `k` in descending order, then the leftmost
child. (`none` when there is no second element: the code reads before the array.) -/
theorem leftSibling_eq (hinv : lo INVALID = none) {c : InnerChain K} {lv : Option K} (h : WF lo lv c) {k : K}
    (hb : Below c.high k) :
    ∃ L, DescKeys L ∧ (∀ x, x ∈ L ↔ x ∈ c.seps ∧ x.1 ≤ k) ∧ leftSibling k c = ((L ++ [c.low])[1]?).map (·.2) := by
  have hstart : leftStart k c = leftRec c.depth k c [] := by unfold leftStart; exact if_pos hb
  unfold leftSibling
  rw [hstart]
  have hfix : ∀ (L : List (K × NodeId)), (∀ x, x ∈ L ↔ x.1 ≤ k ∧ Ovr [] c.seps x) → ∀ x, x ∈ L ↔ x ∈ c.seps ∧ x.1 ≤ k := by
    intro L hL x
    rw [hL x]
    simp only [Ovr, List.not_mem_nil, false_and, exists_false, false_or]
    exact ⟨fun h => ⟨h.2.1, h.1⟩, fun h => ⟨h.2, h.1, fun _ h => h.elim⟩⟩
  rcases decide_noMerge c with hm | hm
  · obtain ⟨L, l1, l2, l3⟩ := leftRec_spec hinv c.depth k c lv [] h (by simp [SDesc]) (by simp) (by simp) hm hb
    refine ⟨L, l1, hfix L l2, ?_⟩
    rw [l3]
    cases (L ++ [c.low])[1]? <;> rfl
  · rw [leftRec_merge c.depth k c lv [] h (by simp) hm]
    simp only
    rw [consolidate_spec hinv h]
    simp only
    have hb' : Below (base c.low c.high (c.depth + 1) (c.low :: c.seps)).high k := hb
    -- the base case does not use the capacity
    have hcap : leftRec c.depth k (base c.low c.high (c.depth + 1) (c.low :: c.seps)) [] =
        leftRec (c.depth + 1) k (base c.low c.high (c.depth + 1) (c.low :: c.seps)) [] := rfl
    rw [hcap]
    obtain ⟨L, l1, l2, l3⟩ := leftRec_spec hinv (c.depth + 1) k _ lv [] (consolidated_wf h (c.depth + 1)) (by simp [SDesc]) (by simp)
      (by simp [depth]) trivial hb'
    refine ⟨L, l1, hfix L l2, ?_⟩
    rw [l3]
    cases he : (L ++ [(base c.low c.high (c.depth + 1) (c.low :: c.seps)).low])[1]? with
    | none => simp only [InnerChain.low] at he; rw [he]; rfl
    | some y => simp only [InnerChain.low] at he; rw [he]; rfl

/-- Whatever FindLeftSibling returns, its range begins strictly below `k`. -/
theorem leftSibling_weak (hinv : lo INVALID = none) {c : InnerChain K} {lv : Option K} (h : WF lo lv c) {k : K}
    (hb : Below c.high k) {id : NodeId} (hl : leftSibling k c = some id) :
    id = c.low.2 ∨ ∃ key, lo id = some (some key) ∧ Above lv key ∧ key < k := by
  obtain ⟨L, l1, l2, l3⟩ := leftSibling_eq hinv h hb
  rw [l3] at hl
  match L, l1, l2, hl with
  | [], _, _, hl => simp at hl
  | [x], _, _, hl => simp at hl; exact Or.inl hl.symm
  | x :: y :: L, l1, l2, hl =>
    simp at hl
    have hy := (l2 y).mp (by simp)
    have hx := (l2 x).mp (by simp)
    have hs := (WF.seps_spec h).2 y hy.1
    refine Or.inr ⟨y.1, by rw [← hl]; exact hs.1, hs.2.1, ?_⟩
    have : y.1 < x.1 := (List.pairwise_cons.mp l1).1 y (by simp)
    exact lt_of_lt_of_le this hx.2

/-- If the separator `k` is present, FindLeftSibling succeeds and returns the child just left of it. -/
theorem leftSibling_exact (hinv : lo INVALID = none) {c : InnerChain K} {lv : Option K} (h : WF lo lv c) {k : K}
    (hb : Below c.high k) (hk : HasKey c k) : ∃ id, leftSibling k c = some id ∧ IsLeftOf c k id := by
  obtain ⟨L, l1, l2, l3⟩ := leftSibling_eq hinv h hb
  obtain ⟨z, hz, hzk⟩ := hk
  have hzL : z ∈ L := (l2 z).mpr ⟨hz, le_of_eq hzk⟩
  match L, l1, l2, l3, hzL with
  | x :: L', l1, l2, l3, hzL =>
    obtain ⟨p1, p2⟩ := List.pairwise_cons.mp l1
    have hxz : x = z := by
      rcases List.mem_cons.mp hzL with e | hz'
      · exact e.symm
      · exact absurd (p1 z hz') (not_lt_of_ge (by rw [hzk]; exact ((l2 x).mp (by simp)).2))
    subst hxz
    cases L' with
    | nil =>
      refine ⟨c.low.2, by rw [l3]; simp, Or.inr ⟨rfl, ?_⟩⟩
      intro y hy
      by_contra hc
      have := (l2 y).mpr ⟨hy, le_of_lt (lt_of_not_ge hc)⟩
      simp at this
      subst this
      exact hc (le_of_eq hzk.symm)
    | cons y L'' =>
      refine ⟨y.2, by rw [l3]; simp, Or.inl ⟨y, ((l2 y).mp (by simp)).1, rfl, by rw [← hzk]; exact p1 y (by simp), ?_⟩⟩
      intro w hw hwk
      have hwL := (l2 w).mpr ⟨hw, le_of_lt hwk⟩
      rcases List.mem_cons.mp hwL with rfl | hwL
      · exact absurd hwk (by rw [hzk]; exact lt_irrefl _)
      · rcases List.mem_cons.mp hwL with rfl | hwL
        · exact le_refl _
        · exact le_of_lt ((List.pairwise_cons.mp p2).1 w hwL)

/-! ### Split -/

theorem splitSibling_spec {low high : K × NodeId} {d : Nat} {items : List (K × NodeId)} {lv : Option K}
    (h : WF lo lv (base low high d items)) (h2 : 2 ≤ items.length) :
    ∃ x, items[items.length / 2]? = some x ∧ x ∈ items.tail ∧
      splitSibling (base low high d items) = some (base x high 0 (items.drop (items.length / 2))) ∧
      WF lo (some x.1) (base x high 0 (items.drop (items.length / 2))) ∧
      Above lv x.1 ∧ Below high x.1 ∧
      ((items.drop (items.length / 2)).length : Int) = (items.tail.countP (fun y => decide (x.1 ≤ y.1)) : Nat) ∧
      items.tail.filter (fun y => decide (y.1 < x.1)) ++ items.drop (items.length / 2) = items.tail := by
  cases items with
  | nil => simp at h2
  | cons a t =>
    have hst : StrictKeys t := h.2.2.2.1
    generalize hm : (a :: t).length / 2 = m
    simp only [List.length_cons] at h2 hm
    obtain ⟨j, rfl⟩ : ∃ j, m = j + 1 := ⟨m - 1, by omega⟩
    have hj : j < t.length := by omega
    obtain ⟨x, hxe⟩ : ∃ x, x = t[j] := ⟨_, rfl⟩
    have hx : t[j]? = some x := by rw [hxe]; exact List.getElem?_eq_getElem hj
    have hmem : x ∈ t := by rw [hxe]; exact List.getElem_mem hj
    have hxs := h.2.2.2.2.1 x hmem
    have hdrop : t.drop j = x :: t.drop (j + 1) := by rw [List.drop_eq_getElem_cons hj, hxe]
    clear hxe
    have hsplit : t = t.take j ++ t.drop j := (List.take_append_drop j t).symm
    have hpw := hst
    unfold StrictKeys at hpw
    rw [hsplit, List.pairwise_append] at hpw
    have hpd := hpw.2.1
    rw [hdrop, List.pairwise_cons] at hpd
    have htk : ∀ y ∈ t.take j, y.1 < x.1 := fun y hy => hpw.2.2 y hy x (by rw [hdrop]; simp)
    refine ⟨x, by simp [hx], hmem, ?_, ?_, hxs.2.1, hxs.2.2, ?_, ?_⟩
    · simp only [splitSibling]
      rw [if_pos (by simp only [List.length_cons]; omega)]
      have hm' : (a :: t).length / 2 = j + 1 := by simpa using hm
      rw [hm', List.getElem?_cons_succ, hx]
    · refine ⟨hxs.1, fun k hk => Option.some.inj hk, ?_, ?_, ?_, h.2.2.2.2.2.1, ?_⟩
      · rw [List.drop_succ_cons, hdrop]; rfl
      · rw [List.drop_succ_cons, hdrop]; exact hpd.2
      · intro y hy
        rw [List.drop_succ_cons, hdrop, List.tail_cons] at hy
        have hyt : y ∈ t := List.mem_of_mem_drop hy
        refine ⟨(h.2.2.2.2.1 y hyt).1, ?_, (h.2.2.2.2.1 y hyt).2.2⟩
        intro l hl; cases hl; exact hpd.1 y hy
      · intro k hk; cases hk; exact hxs.2.2
    · rw [List.drop_succ_cons, List.tail_cons]
      congr 1
      conv => rhs; rw [hsplit]
      rw [List.countP_append]
      have h0 : (t.take j).countP (fun y => decide (x.1 ≤ y.1)) = 0 := by
        rw [List.countP_eq_zero]
        intro y hy
        simpa using htk y hy
      have h1 : (t.drop j).countP (fun y => decide (x.1 ≤ y.1)) = (t.drop j).length := by
        rw [List.countP_eq_length]
        intro y hy
        rw [hdrop] at hy
        rcases List.mem_cons.mp hy with rfl | hy
        · simp
        · simpa using le_of_lt (hpd.1 y hy)
      omega
    · rw [List.drop_succ_cons, List.tail_cons]
      conv => rhs; rw [hsplit]
      congr 1
      conv => lhs; rw [hsplit]
      rw [List.filter_append]
      have h0 : (t.take j).filter (fun y => decide (y.1 < x.1)) = t.take j := by
        rw [List.filter_eq_self]
        intro y hy
        simpa using htk y hy
      have h1 : (t.drop j).filter (fun y => decide (y.1 < x.1)) = [] := by
        rw [List.filter_eq_nil_iff]
        intro y hy
        rw [hdrop] at hy
        rcases List.mem_cons.mp hy with rfl | hy
        · simp [lt_irrefl]
        · simpa using le_of_lt (hpd.1 y hy)
      rw [h0, h1, List.append_nil]

end InnerChain
end BwTree
