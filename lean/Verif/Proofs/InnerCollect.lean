import Verif.Proofs.Inner
import Verif.Proofs.Collect

/-! Consolidation of inner chains. -/

namespace BwTree

variable {K : Type} [LinearOrder K] {lo : NodeId → Option (Option K)}

instance (hi : K × NodeId) (k : K) : Decidable (Below hi k) := by unfold Below; infer_instance

namespace InnerChain

theorem strictWeak_sepLt : StrictWeak (sepLt : SepRec K → SepRec K → Bool) where
  irrefl a := by simp [sepLt, lt_irrefl]
  trans a b c h1 h2 := by simp only [sepLt, decide_eq_true_eq] at *; exact lt_trans h1 h2
  incomp a b c h1 h2 h3 h4 := by
    simp only [sepLt, decide_eq_false_iff_not, not_lt] at *
    exact ⟨le_trans h3 h1, le_trans h2 h4⟩

theorem eqInduced_sepLt : EqInduced (sepLt : SepRec K → SepRec K → Bool) sepEq := by
  intro a b
  simp only [sepEq, sepLt, decide_eq_true_eq, decide_eq_false_iff_not, not_lt]
  exact ⟨fun h => ⟨le_of_eq h.symm, le_of_eq h⟩, fun h => le_antisymm h.2 h.1⟩

/-- Strictly ascending pending records. -/
def SAsc (l : List (SepRec K)) : Prop := l.Pairwise (fun a b => a.item.1 < b.item.1)

/-- Separators `l` overridden by the pending records `ds`. -/
def Ovr (ds : List (SepRec K)) (l : List (K × NodeId)) (x : K × NodeId) : Prop :=
  (∃ d ∈ ds, d.isIns = true ∧ d.item = x) ∨ (x ∈ l ∧ ∀ d ∈ ds, d.item.1 ≠ x.1)

theorem mergeSeps_spec : ∀ (arr : List (K × NodeId)) (ds : List (SepRec K)), StrictKeys arr → SAsc ds →
    StrictKeys (mergeSeps arr ds) ∧ (∀ x, x ∈ mergeSeps arr ds ↔ Ovr ds arr x)
  | arr, [], h1, h2 => by
    unfold mergeSeps
    refine ⟨h1, fun x => ?_⟩
    simp [Ovr]
  | [], d :: ds, h1, h2 => by
    obtain ⟨p1, p2⟩ := List.pairwise_cons.mp h2
    obtain ⟨i1, i2⟩ := mergeSeps_spec [] ds h1 p2
    have hgt : ∀ x ∈ mergeSeps [] ds, d.item.1 < x.1 := by
      intro x hx
      rcases (i2 x).mp hx with ⟨e, he, _, rfl⟩ | ⟨h, _⟩
      · exact p1 e he
      · cases h
    unfold mergeSeps
    cases hd : d.isIns with
    | true =>
      simp only [if_true, List.singleton_append]
      refine ⟨List.pairwise_cons.mpr ⟨hgt, i1⟩, fun x => ?_⟩
      rw [List.mem_cons, i2 x]
      simp only [Ovr, List.mem_cons, exists_eq_or_imp, hd, List.not_mem_nil, false_and, or_false, true_and]
      constructor
      · rintro (h | h)
        · exact Or.inl h.symm
        · exact Or.inr h
      · rintro (h | h)
        · exact Or.inl h.symm
        · exact Or.inr h
    | false =>
      simp only [Bool.false_eq_true, if_false, List.nil_append]
      refine ⟨i1, fun x => ?_⟩
      rw [i2 x]
      simp [Ovr, hd]
  | a :: arr, d :: ds, h1, h2 => by
    obtain ⟨p1, p2⟩ := List.pairwise_cons.mp h2
    obtain ⟨q1, q2⟩ := List.pairwise_cons.mp h1
    unfold mergeSeps
    split
    · rename_i had
      obtain ⟨i1, i2⟩ := mergeSeps_spec arr (d :: ds) q2 h2
      refine ⟨List.pairwise_cons.mpr ⟨?_, i1⟩, fun x => ?_⟩
      · intro x hx
        rcases (i2 x).mp hx with ⟨e, he, _, rfl⟩ | ⟨h, _⟩
        · rcases List.mem_cons.mp he with rfl | he
          · exact had
          · exact lt_trans had (p1 e he)
        · exact q1 x h
      · rw [List.mem_cons, i2 x]
        constructor
        · rintro (rfl | h | ⟨h3, h4⟩)
          · refine Or.inr ⟨by simp, ?_⟩
            intro e he
            rcases List.mem_cons.mp he with rfl | he
            · exact ne_of_gt had
            · exact ne_of_gt (lt_trans had (p1 e he))
          · exact Or.inl h
          · exact Or.inr ⟨List.mem_cons_of_mem _ h3, h4⟩
        · rintro (h | ⟨h3, h4⟩)
          · exact Or.inr (Or.inl h)
          · rcases List.mem_cons.mp h3 with rfl | h3
            · exact Or.inl rfl
            · exact Or.inr (Or.inr ⟨h3, h4⟩)
    · rename_i had
      split
      · rename_i hda
        obtain ⟨i1, i2⟩ := mergeSeps_spec (a :: arr) ds h1 p2
        have hgt : ∀ x ∈ mergeSeps (a :: arr) ds, d.item.1 < x.1 := by
          intro x hx
          rcases (i2 x).mp hx with ⟨e, he, _, rfl⟩ | ⟨h, _⟩
          · exact p1 e he
          · rcases List.mem_cons.mp h with rfl | h
            · exact hda
            · exact lt_trans hda (q1 x h)
        have hne : ∀ x ∈ a :: arr, d.item.1 ≠ x.1 := by
          intro x h
          rcases List.mem_cons.mp h with rfl | h
          · exact ne_of_lt hda
          · exact ne_of_lt (lt_trans hda (q1 x h))
        have hov : ∀ x, Ovr (d :: ds) (a :: arr) x ↔ (d.isIns = true ∧ d.item = x) ∨ Ovr ds (a :: arr) x := by
          intro x
          simp only [Ovr, List.mem_cons, exists_eq_or_imp, forall_eq_or_imp]
          constructor
          · rintro ((h | h) | ⟨h3, h4, h5⟩)
            · exact Or.inl h
            · exact Or.inr (Or.inl h)
            · exact Or.inr (Or.inr ⟨h3, h5⟩)
          · rintro (h | h | ⟨h3, h5⟩)
            · exact Or.inl (Or.inl h)
            · exact Or.inl (Or.inr h)
            · exact Or.inr ⟨h3, hne x (List.mem_cons.mpr h3), h5⟩
        cases hd : d.isIns with
        | true =>
          simp only [if_true, List.singleton_append]
          refine ⟨List.pairwise_cons.mpr ⟨hgt, i1⟩, fun x => ?_⟩
          rw [List.mem_cons, i2 x, hov x, hd]
          constructor
          · rintro (h | h)
            · exact Or.inl ⟨rfl, h.symm⟩
            · exact Or.inr h
          · rintro (h | h)
            · exact Or.inl h.2.symm
            · exact Or.inr h
        | false =>
          simp only [Bool.false_eq_true, if_false, List.nil_append]
          refine ⟨i1, fun x => ?_⟩
          rw [i2 x, hov x, hd]
          simp
      · rename_i hda
        have hk : a.1 = d.item.1 := le_antisymm (le_of_not_gt hda) (le_of_not_gt had)
        obtain ⟨i1, i2⟩ := mergeSeps_spec arr ds q2 p2
        have hgt : ∀ x ∈ mergeSeps arr ds, d.item.1 < x.1 := by
          intro x hx
          rcases (i2 x).mp hx with ⟨e, he, _, rfl⟩ | ⟨h, _⟩
          · exact p1 e he
          · rw [← hk]; exact q1 x h
        have hov : ∀ x, Ovr (d :: ds) (a :: arr) x ↔ (d.isIns = true ∧ d.item = x) ∨ Ovr ds arr x := by
          intro x
          simp only [Ovr, List.mem_cons, exists_eq_or_imp, forall_eq_or_imp]
          constructor
          · rintro ((h | h) | ⟨h3, h4, h5⟩)
            · exact Or.inl h
            · exact Or.inr (Or.inl h)
            · rcases h3 with rfl | h3
              · exact absurd hk.symm h4
              · exact Or.inr (Or.inr ⟨h3, h5⟩)
          · rintro (h | h | ⟨h3, h5⟩)
            · exact Or.inl (Or.inl h)
            · exact Or.inl (Or.inr h)
            · exact Or.inr ⟨Or.inr h3, by rw [← hk]; exact ne_of_lt (q1 x h3), h5⟩
        cases hd : d.isIns with
        | true =>
          simp only [if_true, List.singleton_append]
          refine ⟨List.pairwise_cons.mpr ⟨hgt, i1⟩, fun x => ?_⟩
          rw [List.mem_cons, i2 x, hov x, hd]
          constructor
          · rintro (h | h)
            · exact Or.inl ⟨rfl, h.symm⟩
            · exact Or.inr h
          · rintro (h | h)
            · exact Or.inl h.2.symm
            · exact Or.inr h
        | false =>
          simp only [Bool.false_eq_true, if_false, List.nil_append]
          refine ⟨i1, fun x => ?_⟩
          rw [i2 x, hov x, hd]
          simp
  termination_by arr ds => arr.length + ds.length

/-- Separators of a chain, with the leftmost child included when the chain is a right branch. -/
def fseps (inc : Bool) (lv : Option K) (c : InnerChain K) : List (K × NodeId) :=
  match inc, lv with
  | true, some m => (m, c.low.2) :: c.seps
  | _, _ => c.seps

/-- How the leftmost child of the chain relates to the `lowId` of the whole collection. -/
def IncOk (lo : NodeId → Option (Option K)) (lowId : NodeId) (inc : Bool) (lv : Option K) (c : InnerChain K) : Prop :=
  (inc = false → lowId = c.low.2) ∧ (inc = true → (∃ m, lv = some m) ∧ ∃ lv0, lo lowId = some lv0 ∧ ∀ m, lv = some m → Above lv0 m)

/-- Pending records lie inside the range of the chain (or above it). -/
def PendOk (inc : Bool) (lv : Option K) (sss : List (SepRec K)) : Prop :=
  SAsc sss ∧ (inc = false → ∀ d ∈ sss, Above lv d.item.1) ∧ (inc = true → ∀ d ∈ sss, AtLeast lv d.item.1)

theorem collectSepsBase_spec {low high : K × NodeId} {d : Nat} {items : List (K × NodeId)} {lv : Option K} (h : WF lo lv (base low high d items))
    {lowId : NodeId} {inc : Bool} (hi : K × NodeId) (hhi : ∀ k, lv = some k → Below hi k) {st : SepState K}
    (hinc : IncOk lo lowId inc lv (base low high d items)) (hp : PendOk inc lv st.sss) :
    ∃ L, collectSepsBase items lowId hi st =
        some { sss := st.sss.filter (fun d => !decide (Below hi d.item.1)), used := st.used, out := st.out ++ L } ∧
      StrictKeys L ∧ ∀ x, x ∈ L ↔ Below hi x.1 ∧ Ovr st.sss (fseps inc lv (base low high d items)) x := by
  cases items with
  | nil => have := h.2.2.1; simp at this
  | cons a t =>
    have hal : a = low := by simpa using h.2.2.1
    subst hal
    have hst : StrictKeys t := h.2.2.2.1
    obtain ⟨n, hn, htake, hdrop⟩ : ∃ n,
        (if hi.2 = INVALID then st.sss.length
          else (st.sss.reverse.dropWhile (fun d => !decide (d.item.1 < hi.1))).length) = n ∧
        st.sss.take n = st.sss.filter (fun d => decide (Below hi d.item.1)) ∧
        st.sss.drop n = st.sss.filter (fun d => !decide (Below hi d.item.1)) := by
      by_cases hI : hi.2 = INVALID
      · refine ⟨_, rfl, ?_, ?_⟩
        · rw [if_pos hI, List.take_length]
          symm; rw [List.filter_eq_self]; simp [hI, Below]
        · rw [if_pos hI, List.drop_length]
          symm; rw [List.filter_eq_nil_iff]; simp [hI, Below]
      · refine ⟨_, rfl, ?_, ?_⟩
        · rw [if_neg hI]
          have := (LeafChain.prefix_split (fun d : SepRec K => decide (d.item.1 < hi.1)) st.sss
            (List.Pairwise.imp (fun {a b} h hb => by
              simp only [decide_eq_true_eq] at *; exact lt_trans h hb) hp.1)).1
          rw [this]
          congr 1; funext d; simp [Below, hI]
        · rw [if_neg hI]
          have := (LeafChain.prefix_split (fun d : SepRec K => decide (d.item.1 < hi.1)) st.sss
            (List.Pairwise.imp (fun {a b} h hb => by
              simp only [decide_eq_true_eq] at *; exact lt_trans h hb) hp.1)).2
          rw [this]
          congr 1; funext d; simp [Below, hI]
    obtain ⟨ce, hce, hce1, hce2, hce3⟩ : ∃ ce, (if hi.2 = INVALID then some (a :: t).length
         else if (a :: t).length = 0 then none else lowerBound (a :: t) 1 (a :: t).length hi.1) = some ce ∧
         1 ≤ ce ∧ ce ≤ t.length + 1 ∧ ∀ i x, t[i]? = some x → (i + 1 < ce ↔ Below hi x.1) := by
      by_cases hI : hi.2 = INVALID
      · refine ⟨_, if_pos hI, by simp, by simp, ?_⟩
        intro i x hx
        have := (List.getElem?_eq_some_iff.mp hx).1
        simp [hI, Below, this]
      · have := lbIdx_le t hi.1
        refine ⟨1 + lbIdx t hi.1, ?_, by omega, by omega, ?_⟩
        · rw [if_neg hI, if_neg (by simp)]
          exact lowerBound_tail hst.sorted (by omega) (by omega) (by simp; omega) (by simp)
        · intro i x hx
          simp only [Below, hI, false_or]
          constructor
          · intro hlt; exact lt_lbIdx hst.sorted (by omega) hx
          · intro hlt
            by_contra hc
            exact absurd hlt (not_lt_of_ge (lbIdx_le_get hst.sorted (by omega) hx))
    unfold collectSepsBase
    rw [hce]
    simp only [List.getElem?_cons_zero]
    rw [hn]
    have hstart : (if a.2 = lowId then 1 else 0) = if inc = true then 0 else 1 := by
      cases inc with
      | false => rw [if_pos (show a.2 = lowId from (hinc.1 rfl).symm)]; simp
      | true =>
        obtain ⟨⟨m, hm⟩, lv0, h1, h2⟩ := hinc.2 rfl
        rw [if_neg]
        · simp
        · intro e
          have h3 := h.1
          rw [e, h1] at h3
          have h4 := h2 m hm
          have h5 : lv0 = lv := Option.some.inj h3
          exact absurd (h4 m (by rw [h5, hm])) (lt_irrefl _)
    rw [hstart]
    have hsl : ∀ s, s ≤ 1 → slice? (a :: t) s ce = some (((a :: t).take ce).drop s) := by
      intro s hs
      unfold slice?
      rw [if_pos ⟨by omega, by simpa using hce2⟩]
    rw [hsl _ (by split <;> omega)]
    simp only
    refine ⟨_, by rw [hdrop], ?_⟩
    rw [htake]
    have harr : StrictKeys (((a :: t).take ce).drop (if inc = true then 0 else 1)) ∧
        ∀ x, x ∈ ((a :: t).take ce).drop (if inc = true then 0 else 1) ↔
          x ∈ fseps inc lv (base a high d (a :: t)) ∧ Below hi x.1 := by
      have hmemt : ∀ x, (∃ j, 1 ≤ j ∧ j < ce ∧ (a :: t)[j]? = some x) ↔ x ∈ t ∧ Below hi x.1 := by
        intro x
        constructor
        · rintro ⟨j, h1, h2, h3⟩
          obtain ⟨i, rfl⟩ : ∃ i, j = i + 1 := ⟨j - 1, by omega⟩
          simp only [List.getElem?_cons_succ] at h3
          exact ⟨List.mem_of_getElem? h3, (hce3 i x h3).mp h2⟩
        · rintro ⟨h1, h2⟩
          obtain ⟨i, hi'⟩ := List.mem_iff_getElem?.mp h1
          exact ⟨i + 1, by omega, (hce3 i x hi').mpr h2, by simpa using hi'⟩
      cases inc with
      | false =>
        simp only [Bool.false_eq_true, if_false]
        refine ⟨?_, ?_⟩
        · have : ((a :: t).take ce).drop 1 = t.take (ce - 1) := by
            obtain ⟨j, rfl⟩ : ∃ j, ce = j + 1 := ⟨ce - 1, by omega⟩
            simp
          rw [this]
          exact List.Pairwise.sublist (List.take_sublist _ _) hst
        · intro x
          rw [mem_slice, hmemt x]
          simp [fseps, seps]
      | true =>
        obtain ⟨⟨m, hm⟩, _⟩ := hinc.2 rfl
        simp only [if_true, List.drop_zero]
        have ham : a.1 = m := h.2.1 m hm
        have hat : StrictKeys (a :: t) := by
          refine List.pairwise_cons.mpr ⟨?_, hst⟩
          intro x hx
          rw [ham]
          exact (h.2.2.2.2.1 x hx).2.1 m hm
        refine ⟨List.Pairwise.sublist (List.take_sublist _ _) hat, ?_⟩
        intro x
        have := mem_slice (l := a :: t) (a := 0) (b := ce) (x := x)
        rw [List.drop_zero] at this
        rw [this]
        subst hm
        simp only [fseps, seps, List.tail_cons, low, List.mem_cons]
        constructor
        · rintro ⟨j, _, h2, h3⟩
          rcases Nat.eq_zero_or_pos j with rfl | hj
          · simp at h3
            subst h3
            refine ⟨Or.inl (by rw [← ham]), ?_⟩
            rw [ham]; exact hhi m rfl
          · obtain ⟨h4, h5⟩ := (hmemt x).mp ⟨j, hj, h2, h3⟩
            exact ⟨Or.inr h4, h5⟩
        · rintro ⟨rfl | h1, h2⟩
          · exact ⟨0, by omega, by omega, by simp [← ham]⟩
          · obtain ⟨j, h4, h5, h6⟩ := (hmemt x).mpr ⟨h1, h2⟩
            exact ⟨j, by omega, h5, h6⟩
    obtain ⟨r1, r2⟩ := mergeSeps_spec _ (st.sss.filter (fun d => decide (Below hi d.item.1))) harr.1 (hp.1.filter _)
    refine ⟨r1, ?_⟩
    intro x
    rw [r2 x]
    simp only [Ovr, List.mem_filter, decide_eq_true_eq]
    constructor
    · rintro (⟨e, ⟨h1, h2⟩, h3, rfl⟩ | ⟨h1, h2⟩)
      · exact ⟨h2, Or.inl ⟨e, h1, h3, rfl⟩⟩
      · obtain ⟨h3, h4⟩ := (harr.2 x).mp h1
        exact ⟨h4, Or.inr ⟨h3, fun e he hk => h2 e ⟨he, by rw [hk]; exact h4⟩ hk⟩⟩
    · rintro ⟨h0, ⟨e, h1, h3, rfl⟩ | ⟨h1, h2⟩⟩
      · exact Or.inl ⟨e, ⟨h1, h0⟩, h3, rfl⟩
      · exact Or.inr ⟨(harr.2 x).mpr ⟨h1, h0⟩, fun e he => h2 e he.1⟩

/-- Effect of one more record in the pending set. -/
theorem ovr_insert {sss : List (SepRec K)} (hs : SAsc sss) {r : SepRec K} {l l' : List (K × NodeId)}
    (hl : ∀ x, x ∈ l' ↔ (x = r.item ∧ r.isIns = true) ∨ (x ∈ l ∧ x.1 ≠ r.item.1)) (x : K × NodeId) :
    Ovr (SmallSet.insert sepLt sepEq r sss) l x ↔ Ovr sss l' x := by
  have hs' : sss.Pairwise (fun a b => sepLt a b = true) := by
    refine List.Pairwise.imp ?_ hs
    intro a b h; simpa [sepLt] using h
  by_cases hd : ∃ d ∈ sss, d.item.1 = r.item.1
  · rw [SmallSet.insert_dup strictWeak_sepLt eqInduced_sepLt hs' (by simpa [sepEq] using hd)]
    obtain ⟨d, hd1, hd2⟩ := hd
    simp only [Ovr, hl x]
    constructor
    · rintro (h | ⟨h1, h2⟩)
      · exact Or.inl h
      · refine Or.inr ⟨Or.inr ⟨h1, ?_⟩, h2⟩
        rw [← hd2]; exact Ne.symm (h2 d hd1)
    · rintro (h | ⟨⟨rfl, _⟩ | h1, h2⟩)
      · exact Or.inl h
      · exact absurd hd2 (h2 d hd1)
      · exact Or.inr ⟨h1.1, h2⟩
  · have hmem : ∀ d, d ∈ SmallSet.insert sepLt sepEq r sss ↔ d = r ∨ d ∈ sss := by
      intro d
      constructor
      · exact SmallSet.mem_insert
      · rintro (rfl | h)
        · apply SmallSet.mem_insert_self hs'
          intro y hy
          simp only [sepEq, decide_eq_false_iff_not]
          exact fun e => hd ⟨y, hy, e⟩
        · exact SmallSet.subset_insert h
    simp only [Ovr, hmem, hl x]
    constructor
    · rintro (⟨d, rfl | h1, h2, h3⟩ | ⟨h1, h2⟩)
      · exact Or.inr ⟨Or.inl ⟨h3.symm, h2⟩, fun e he hk => hd ⟨e, he, by rw [hk, h3]⟩⟩
      · exact Or.inl ⟨d, h1, h2, h3⟩
      · exact Or.inr ⟨Or.inr ⟨h1, Ne.symm (h2 r (Or.inl rfl))⟩, fun e he => h2 e (Or.inr he)⟩
    · rintro (⟨d, h1, h2, h3⟩ | ⟨⟨rfl, h1⟩ | ⟨h1, h2⟩, h3⟩)
      · exact Or.inl ⟨d, Or.inr h1, h2, h3⟩
      · exact Or.inl ⟨r, Or.inl rfl, h1, rfl⟩
      · refine Or.inr ⟨h1, ?_⟩
        rintro e (rfl | he)
        · exact Ne.symm h2
        · exact h3 e he

theorem insert_length (r : SepRec K) (l : List (SepRec K)) :
    (SmallSet.insert sepLt sepEq r l).length ≤ l.length + 1 ∧ l.length ≤ (SmallSet.insert sepLt sepEq r l).length := by
  induction l with
  | nil => simp [SmallSet.insert]
  | cons a l ih =>
    simp only [SmallSet.insert]
    split
    · split <;> simp
    · simp only [List.length_cons]; omega

theorem pend_insert {inc : Bool} {lv : Option K} {sss : List (SepRec K)} (hp : PendOk inc lv sss) {r : SepRec K}
    (hr : Above lv r.item.1) : PendOk inc lv (SmallSet.insert sepLt sepEq r sss) := by
  obtain ⟨h1, h2, h3⟩ := hp
  refine ⟨?_, ?_, ?_⟩
  · have hs' : sss.Pairwise (fun a b => sepLt a b = true) := by
      refine List.Pairwise.imp ?_ h1
      intro a b h; simpa [sepLt] using h
    refine List.Pairwise.imp ?_ (SmallSet.pairwise_insert strictWeak_sepLt eqInduced_sepLt hs' (v := r))
    intro a b h; simpa [sepLt] using h
  · intro hi d hd
    rcases SmallSet.mem_insert hd with rfl | hd
    · exact hr
    · exact h2 hi d hd
  · intro hi d hd
    rcases SmallSet.mem_insert hd with rfl | hd
    · exact hr.atLeast
    · exact h3 hi d hd

theorem filter_insert_not {sss : List (SepRec K)} {r : SepRec K} {hi : K × NodeId} (hr : Below hi r.item.1) :
    (SmallSet.insert sepLt sepEq r sss).filter (fun d => !decide (Below hi d.item.1)) =
      sss.filter (fun d => !decide (Below hi d.item.1)) := by
  induction sss with
  | nil => simp [SmallSet.insert, hr]
  | cons a l ih =>
    simp only [SmallSet.insert]
    split
    · split
      · rw [List.filter_cons, if_neg (by simp [hr])]
      · rfl
    · rw [List.filter_cons, List.filter_cons, ih]

theorem collectSepsRec_spec (hinv : lo INVALID = none) (cap : Nat) (lowId : NodeId) : ∀ (c : InnerChain K) (lv : Option K) (inc : Bool) (st : SepState K),
    WF lo lv c → IncOk lo lowId inc lv c → PendOk inc lv st.sss → st.used + c.depth ≤ cap →
    ∃ L u, collectSepsRec cap lowId c c.high st =
        some { sss := st.sss.filter (fun d => !decide (Below c.high d.item.1)), used := u, out := st.out ++ L } ∧
      u ≤ st.used + c.depth ∧ StrictKeys L ∧ ∀ x, x ∈ L ↔ Below c.high x.1 ∧ Ovr st.sss (fseps inc lv c) x
  | base low high d items, lv, inc, st, h, hinc, hp, hcap => by
    obtain ⟨L, h1, h2, h3⟩ := collectSepsBase_spec h high h.2.2.2.2.2.2 hinc hp
    exact ⟨L, st.used, h1, by omega, h2, h3⟩
  | ins item next loc c, lv, inc, st, h, hinc, hp, hcap => by
    have hcap : st.used + (c.depth + 1) ≤ cap := hcap
    have hb : c.high.2 = INVALID ∨ item.1 < c.high.1 := h.2.2.2.1
    have hl := insert_length (⟨item, true⟩ : SepRec K) st.sss
    obtain ⟨L, u, h1, h2, h3, h4⟩ := collectSepsRec_spec hinv cap lowId c lv inc
      { st with sss := SmallSet.insert sepLt sepEq ⟨item, true⟩ st.sss, used := st.used + ((SmallSet.insert sepLt sepEq ⟨item, true⟩ st.sss).length - st.sss.length) }
      h.1 hinc (pend_insert hp h.2.2.1) (by simp only; omega)
    simp only at h1 h2 h4
    refine ⟨L, u, ?_, by simp only [depth]; omega, h3, ?_⟩
    · exact (if_pos ⟨hb, by omega⟩).trans (h1.trans (by rw [filter_insert_not (r := ⟨item, true⟩) hb]; rfl))
    · intro x
      rw [h4 x]
      simp only [high]
      have := ovr_insert (sss := st.sss) hp.1 (r := ⟨item, true⟩) (l := fseps inc lv c) (l' := fseps inc lv (ins item next loc c)) (by
        intro y
        have hseps : y ∈ (ins item next loc c).seps ↔ y = item ∨ (y ∈ c.seps ∧ y.1 ≠ item.1) := by
          simp only [seps, List.mem_append, List.mem_cons, List.mem_filter, decide_eq_true_eq]
          constructor
          · rintro (h | h | h)
            · exact Or.inr ⟨h.1, ne_of_lt h.2⟩
            · exact Or.inl h
            · exact Or.inr ⟨h.1, ne_of_gt h.2⟩
          · rintro (h | ⟨h, hne⟩)
            · exact Or.inr (Or.inl h)
            · rcases lt_or_gt_of_ne hne with h' | h'
              · exact Or.inl ⟨h, h'⟩
              · exact Or.inr (Or.inr ⟨h, h'⟩)
        cases inc with
        | false => simpa [fseps] using hseps
        | true =>
          cases lv with
          | none => simpa [fseps] using hseps
          | some m =>
            simp only [fseps, List.mem_cons, hseps, low]
            have hm : m ≠ item.1 := ne_of_lt (h.2.2.1 m rfl)
            constructor
            · rintro (rfl | h | h)
              · exact Or.inr ⟨Or.inl rfl, hm⟩
              · exact Or.inl ⟨h, trivial⟩
              · exact Or.inr ⟨Or.inr h.1, h.2⟩
            · rintro (h | ⟨h | h, hne⟩)
              · exact Or.inr (Or.inl h.1)
              · exact Or.inl h
              · exact Or.inr (Or.inr ⟨h, hne⟩)) x
      rw [this]
  | del item prev next loc c, lv, inc, st, h, hinc, hp, hcap => by
    have hcap : st.used + (c.depth + 1) ≤ cap := hcap
    obtain ⟨z, hz, hzk⟩ := h.2.1
    have hzs := (WF.seps_spec h.1).2 z hz
    have hb : c.high.2 = INVALID ∨ item.1 < c.high.1 := by rw [← hzk]; exact hzs.2.2
    have ha : Above lv item.1 := by rw [← hzk]; exact hzs.2.1
    have hl := insert_length (⟨item, false⟩ : SepRec K) st.sss
    obtain ⟨L, u, h1, h2, h3, h4⟩ := collectSepsRec_spec hinv cap lowId c lv inc
      { st with sss := SmallSet.insert sepLt sepEq ⟨item, false⟩ st.sss, used := st.used + ((SmallSet.insert sepLt sepEq ⟨item, false⟩ st.sss).length - st.sss.length) }
      h.1 hinc (pend_insert hp ha) (by simp only; omega)
    simp only at h1 h2 h4
    refine ⟨L, u, ?_, by simp only [depth]; omega, h3, ?_⟩
    · exact (if_pos ⟨hb, by omega⟩).trans (h1.trans (by rw [filter_insert_not (r := ⟨item, false⟩) hb]; rfl))
    · intro x
      rw [h4 x]
      simp only [high]
      have := ovr_insert (sss := st.sss) hp.1 (r := ⟨item, false⟩) (l := fseps inc lv c) (l' := fseps inc lv (del item prev next loc c)) (by
        intro y
        have hseps : y ∈ (del item prev next loc c).seps ↔ (y ∈ c.seps ∧ y.1 ≠ item.1) := by
          simp [seps, List.mem_filter]
        cases inc with
        | false => simpa [fseps] using hseps
        | true =>
          cases lv with
          | none => simpa [fseps] using hseps
          | some m =>
            simp only [fseps, List.mem_cons, hseps, low]
            have hm : m ≠ item.1 := ne_of_lt (ha m rfl)
            constructor
            · rintro (rfl | h)
              · exact Or.inr ⟨Or.inl rfl, hm⟩
              · exact Or.inr ⟨Or.inr h.1, h.2⟩
            · rintro (h | ⟨h | h, hne⟩)
              · exact absurd h.2 (by simp)
              · exact Or.inl h
              · exact Or.inr ⟨h, hne⟩) x
      rw [this]
  | split item sib c, lv, inc, st, h, hinc, hp, hcap => by
    obtain ⟨low, hgh, d, items, rfl, hs⟩ := h.2.1
    have hne := SepOk.ne hinv h.2.2.1
    simp only [collectSepsRec, high]
    obtain ⟨L, h1, h2, h3⟩ := collectSepsBase_spec h.1 item (fun k hk => Or.inr (h.2.2.2.1 k hk)) hinc hp
    refine ⟨L, st.used, h1, by omega, h2, ?_⟩
    intro x
    rw [h3 x]
    have hlt : Below item x.1 ↔ x.1 < item.1 := by simp [Below, hne]
    have hf : x.1 < item.1 → (x ∈ fseps inc lv (base low hgh d items) ↔ x ∈ fseps inc lv (split item sib (base low hgh d items))) := by
      intro hx
      cases inc with
      | false => simp [fseps, seps, List.mem_filter, hx]
      | true =>
        cases lv with
        | none => simp [fseps, seps, List.mem_filter, hx]
        | some m => simp [fseps, seps, InnerChain.low, List.mem_filter, hx]
    rw [hlt]
    simp only [Ovr]
    constructor
    · rintro ⟨h5, h6⟩
      rw [hf h5] at h6
      exact ⟨h5, h6⟩
    · rintro ⟨h5, h6⟩
      rw [← hf h5] at h6
      exact ⟨h5, h6⟩
  | merge mk id r c, lv, inc, st, h, hinc, hp, hcap => by
    have hcap' : st.used + (c.depth + r.depth) ≤ cap := hcap
    obtain ⟨L1, u1, a1, a2, a3, a4⟩ := collectSepsRec_spec hinv cap lowId c lv inc st h.1 hinc hp (by omega)
    have hmk := WF.above_mk h
    have hbel : ∀ k, Below c.high k ↔ k < mk := by
      intro k; rw [h.2.2.1]; simp [Below, h.2.2.2]
    have hinc2 : IncOk lo lowId true (some mk) r := by
      refine ⟨(fun h => by cases h), fun _ => ⟨⟨mk, rfl⟩, ?_⟩⟩
      cases inc with
      | false =>
        refine ⟨lv, ?_, ?_⟩
        · rw [hinc.1 rfl]; exact (WF.low_spec h.1).1
        · intro m hm; cases hm; exact hmk
      | true =>
        obtain ⟨⟨m0, hm0⟩, lv0, h1, h2⟩ := hinc.2 rfl
        refine ⟨lv0, h1, ?_⟩
        intro m hm
        cases hm
        exact (h2 m0 hm0).trans (le_of_lt (hmk m0 hm0))
    have hp2 : PendOk true (some mk) (st.sss.filter (fun d => !decide (Below c.high d.item.1))) := by
      refine ⟨hp.1.filter _, (fun h => by cases h), ?_⟩
      intro _ d hd l hl
      cases hl
      have := (List.mem_filter.mp hd).2
      simp only [hbel, Bool.not_eq_true', decide_eq_false_iff_not, not_lt] at this
      exact this
    obtain ⟨L2, u2, b1, b2, b3, b4⟩ := collectSepsRec_spec hinv cap lowId r (some mk) true
      { sss := st.sss.filter (fun d => !decide (Below c.high d.item.1)), used := u1, out := st.out ++ L1 }
      h.2.1 hinc2 hp2 (by simp only; omega)
    have hmr := WF.lv_below h.2.1 mk rfl
    refine ⟨L1 ++ L2, u2, ?_, ?_, ?_, ?_⟩
    · simp only [collectSepsRec, a1, b1, high, List.append_assoc, List.filter_filter]
      congr 2
      apply List.filter_congr
      intro d hd
      by_cases h5 : Below r.high d.item.1
      · simp [h5]
      · have : ¬ Below c.high d.item.1 := by
          intro h6
          rw [hbel] at h6
          exact h5 (hmr.trans (le_of_lt h6))
        simp [h5, this]
    · simp only [depth]; simp only at b2; omega
    · refine List.pairwise_append.mpr ⟨a3, b3, ?_⟩
      intro a ha b hb
      have h5 : a.1 < mk := (hbel _).mp ((a4 a).mp ha).1
      have h6 : mk ≤ b.1 := by
        rcases ((b4 b).mp hb).2 with ⟨d, h7, h8, rfl⟩ | ⟨h7, _⟩
        · exact hp2.2.2 rfl d h7 mk rfl
        · simp only [fseps, List.mem_cons] at h7
          rcases h7 with rfl | h7
          · exact le_refl _
          · exact le_of_lt (((WF.seps_spec h.2.1).2 b h7).2.1 mk rfl)
      exact lt_of_lt_of_le h5 h6
    · intro x
      have hcm : ∀ y ∈ fseps inc lv c, y.1 < mk := by
        intro y hy
        have hys : ∀ y ∈ c.seps, y.1 < mk := fun y hy => (hbel _).mp ((WF.seps_spec h.1).2 y hy).2.2
        cases inc with
        | false => exact hys y (by simpa [fseps] using hy)
        | true =>
          cases lv with
          | none => exact hys y (by simpa [fseps] using hy)
          | some m =>
            simp only [fseps, List.mem_cons] at hy
            rcases hy with rfl | hy
            · exact hmk m rfl
            · exact hys y hy
      have hrm : ∀ y ∈ fseps true (some mk) r, mk ≤ y.1 := by
        intro y hy
        simp only [fseps, List.mem_cons] at hy
        rcases hy with rfl | h7
        · exact le_refl _
        · exact le_of_lt (((WF.seps_spec h.2.1).2 y h7).2.1 mk rfl)
      have hall : x ∈ fseps inc lv (merge mk id r c) ↔ x ∈ fseps inc lv c ∨ x ∈ fseps true (some mk) r := by
        cases inc with
        | false => simp [fseps, seps]
        | true =>
          cases lv with
          | none => simp [fseps, seps]
          | some m => simp [fseps, seps, low, or_assoc]
      rw [List.mem_append, a4 x, b4 x, hbel]
      simp only [high, Ovr, hall, List.mem_filter, hbel, Bool.not_eq_true', decide_eq_false_iff_not, not_lt]
      constructor
      · rintro (⟨h1, ⟨d, h2, h3, rfl⟩ | ⟨h2, h3⟩⟩ | ⟨h1, ⟨d, ⟨h2, h4⟩, h3, rfl⟩ | ⟨h2, h3⟩⟩)
        · exact ⟨hmr.trans (le_of_lt h1), Or.inl ⟨d, h2, h3, rfl⟩⟩
        · exact ⟨hmr.trans (le_of_lt h1), Or.inr ⟨Or.inl h2, h3⟩⟩
        · exact ⟨h1, Or.inl ⟨d, h2, h3, rfl⟩⟩
        · refine ⟨h1, Or.inr ⟨Or.inr h2, ?_⟩⟩
          intro d hd e
          exact h3 d ⟨hd, by rw [e]; exact hrm x h2⟩ e
      · rintro ⟨h1, ⟨d, h2, h3, rfl⟩ | ⟨h2 | h2, h3⟩⟩
        · rcases lt_or_ge d.item.1 mk with h4 | h4
          · exact Or.inl ⟨h4, Or.inl ⟨d, h2, h3, rfl⟩⟩
          · exact Or.inr ⟨h1, Or.inl ⟨d, ⟨h2, h4⟩, h3, rfl⟩⟩
        · exact Or.inl ⟨hcm x h2, Or.inr ⟨h2, h3⟩⟩
        · exact Or.inr ⟨h1, Or.inr ⟨h2, fun d hd => h3 d hd.1⟩⟩
  | remove _ _, _, _, _, h, _, _, _ => h.elim
  | abort _ _, _, _, _, h, _, _, _ => h.elim

/-- Consolidation succeeds (capacity, asserts, item count) and yields exactly the replayed separators. -/
theorem collectSeps_spec (hinv : lo INVALID = none) {c : InnerChain K} {lv : Option K} (h : WF lo lv c) :
    collectSeps c = some (c.low :: c.seps) := by
  obtain ⟨L, u, h1, _, h3, h4⟩ := collectSepsRec_spec hinv c.depth c.low.2 c lv false { sss := [], used := 0, out := [c.low] } h
    ⟨fun _ => rfl, fun h => by cases h⟩ ⟨by simp [SAsc], by simp, by simp⟩ (by simp)
  have hL : L = c.seps := by
    apply strict_ext h3 (WF.seps_spec h).1
    intro x
    rw [h4 x]
    simp only [Ovr, fseps, List.not_mem_nil, false_and, exists_false, false_or]
    exact ⟨fun h => h.2.1, fun hx => ⟨((WF.seps_spec h).2 x hx).2.2, hx, fun _ h => h.elim⟩⟩
  subst hL
  unfold collectSeps
  rw [h1]
  have := WF.seps_length h
  simp only [List.singleton_append, List.length_cons]
  rw [if_pos (by push_cast; omega)]

theorem consolidate_spec (hinv : lo INVALID = none) {c : InnerChain K} {lv : Option K} (h : WF lo lv c) (d : Nat) :
    consolidate d c = some (base c.low c.high d (c.low :: c.seps)) := by
  unfold consolidate
  rw [collectSeps_spec hinv h]

theorem consolidated_wf {c : InnerChain K} {lv : Option K} (h : WF lo lv c) (d : Nat) :
    WF lo lv (base c.low c.high d (c.low :: c.seps)) :=
  ⟨(WF.low_spec h).1, (WF.low_spec h).2.1, rfl, (WF.seps_spec h).1, (WF.seps_spec h).2, WF.highOk h, WF.lv_below h⟩

end InnerChain
end BwTree
