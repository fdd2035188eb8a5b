import Verif.Spec.Leaf
import Verif.Proofs.Search
import Verif.Proofs.SmallSet

namespace BwTree
namespace LeafChain

variable {K V : Type} [LinearOrder K] [DecidableEq V]

set_option linter.unusedSectionVars false

theorem rangeNE {c : LeafChain K V} (h : WF c) : RangeNE c.low c.high := by
  induction c with
  | base low high items => exact h.2.2.2
  | ins k' v' i e c ih => exact ih h.1
  | del k' v' i e c ih => exact ih h.1
  | split sk id sib c ih =>
    rcases h.2.2.2.1 with h | h
    · exact Or.inl h
    · exact Or.inr (Or.inr h)
  | merge mk id r c ihr ihc =>
    obtain ⟨h1, h2, h3, h4, h5, h6⟩ := h
    have a := ihc h1
    have b := ihr h2
    unfold RangeNE at *
    simp only [low, high]
    rw [h3] at a
    rcases a with a | a | a
    · exact Or.inl a
    · exact absurd a h4
    · rcases b with b | b | b
      · exact absurd b h6
      · exact Or.inr (Or.inl b)
      · rw [h5] at b
        exact Or.inr (Or.inr (lt_trans a b))
  | remove _ _ _ => exact absurd h (by simp [WF])

theorem inRange_merge_right {mk : K} {id : NodeId} {r c : LeafChain K V} (h : WF (merge mk id r c)) {k : K}
    (hk : InRange r.low r.high k) : InRange (merge mk id r c).low (merge mk id r c).high k := by
  obtain ⟨h1, h2, h3, h4, h5, h6⟩ := h
  refine ⟨?_, hk.2⟩
  have a := rangeNE h1
  unfold RangeNE at a
  rw [h3] at a
  rcases a with a | a | a
  · exact Or.inl a
  · exact absurd a h4
  · rcases hk.1 with b | b
    · exact absurd b h6
    · right; rw [h5] at b; exact le_trans (le_of_lt a) b

theorem inRange_merge_left {mk : K} {id : NodeId} {r c : LeafChain K V} (h : WF (merge mk id r c)) {k : K}
    (hk : InRange c.low c.high k) : InRange (merge mk id r c).low (merge mk id r c).high k := by
  obtain ⟨h1, h2, h3, h4, h5, h6⟩ := h
  refine ⟨hk.1, ?_⟩
  have a := rangeNE h2
  unfold RangeNE at a
  have b := hk.2
  rw [h3] at b
  rcases a with a | a | a
  · exact absurd a h6
  · exact Or.inl a
  · rcases b with b | b
    · exact absurd b h4
    · right; rw [h5] at a; exact lt_trans b a

/-- A key in the range of a merged node is in the range of the branch it is sent to. -/
theorem inRange_branch {mk : K} {id : NodeId} {r c : LeafChain K V} (h : WF (merge mk id r c)) {k : K}
    (hk : InRange (merge mk id r c).low (merge mk id r c).high k) :
    (mk ≤ k → InRange r.low r.high k) ∧ (¬ mk ≤ k → InRange c.low c.high k) := by
  obtain ⟨h1, h2, h3, h4, h5, h6⟩ := h
  constructor
  · intro hle
    exact ⟨Or.inr (by rw [h5]; exact hle), hk.2⟩
  · intro hle
    exact ⟨hk.1, Or.inr (by rw [h3]; exact lt_of_not_ge hle)⟩

/-- Stored keys are inside the key range. -/
theorem inRange_of_has {c : LeafChain K V} (h : WF c) {k : K} {v : V} (hk : Has c k v) :
    InRange c.low c.high k := by
  induction c with
  | base low high items => exact h.2.2.1 (k, v) hk
  | ins k' v' i e c ih =>
    obtain ⟨h1, h2, _, _⟩ := h
    rcases hk with ⟨rfl, rfl⟩ | hk
    · exact h2
    · exact ih h1 hk
  | del k' v' i e c ih => exact ih h.1 hk.2
  | split sk id sib c ih =>
    have := ih h.1 hk.2
    exact ⟨this.1, Or.inr hk.1⟩
  | merge mk id r c ihr ihc =>
    unfold Has at hk
    split at hk
    · exact inRange_merge_right h (ihr h.2.1 hk)
    · exact inRange_merge_left h (ihc h.1 hk)
  | remove _ _ _ => exact absurd h (by simp [WF])

/-- All base nodes of a well formed chain are sorted and duplicate free. -/
theorem baseFor_sorted {c : LeafChain K V} (h : WF c) (k : K) :
    SortedKeys (baseFor c k) ∧ (baseFor c k).Nodup := by
  induction c with
  | base low high items => exact ⟨h.1, h.2.1⟩
  | ins k' v' i e c ih => exact ih h.1
  | del k' v' i e c ih => exact ih h.1
  | split sk id sib c ih => exact ih h.1
  | merge mk id r c ihr ihc =>
    unfold baseFor
    split
    · exact ihr h.2.1
    · exact ihc h.1
  | remove _ _ _ => exact absurd h (by simp [WF])

/-! ### Existence search -/

theorem scanFor_spec (items : List (K × V)) (hs : SortedKeys items) (k : K) (v : V) :
    ∀ (n b : Nat), n = items.length - b → b ≤ ubIdx items k → lbIdx items k ≤ b →
      (∀ j, lbIdx items k ≤ j → j < b → items[j]? ≠ some (k, v)) →
      (∃ i, scanFor k v (items.drop b) b = (true, i) ∧ items[i]? = some (k, v)) ∨
      (scanFor k v (items.drop b) b = (false, ubIdx items k) ∧ (k, v) ∉ items) := by
  have hle := ubIdx_le items k
  have notin : ∀ b, ubIdx items k ≤ b →
      (∀ j, lbIdx items k ≤ j → j < b → items[j]? ≠ some (k, v)) → (k, v) ∉ items := by
    intro b hb hno hm
    obtain ⟨j, hj⟩ := List.mem_iff_getElem?.mp hm
    by_cases h1 : lbIdx items k ≤ j
    · by_cases h2 : j < b
      · exact hno j h1 h2 hj
      · have := ubIdx_le_get hs (k := k) (i := j) (by omega) hj
        exact lt_irrefl _ this
    · have := lt_lbIdx hs (k := k) (i := j) (by omega) hj
      exact lt_irrefl _ this
  intro n
  induction n with
  | zero =>
    intro b h1 h2 h3 h4
    have hb : b = items.length := by omega
    rw [List.drop_eq_nil_of_le (by omega)]
    simp only [scanFor]
    right
    exact ⟨by rw [show ubIdx items k = b by omega], notin b (by omega) h4⟩
  | succ n ih =>
    intro b h1 h2 h3 h4
    have hb : b < items.length := by omega
    rw [List.drop_eq_getElem_cons hb]
    simp only [scanFor]
    have hget : items[b]? = some items[b] := List.getElem?_eq_getElem hb
    by_cases hk : (items[b]).1 = k
    · rw [if_pos hk]
      by_cases hv : (items[b]).2 = v
      · rw [if_pos hv]
        left
        refine ⟨b, rfl, ?_⟩
        rw [hget]
        congr 1
        exact Prod.ext hk hv
      · rw [if_neg hv]
        have hub : b < ubIdx items k := by
          by_contra hc
          have := ubIdx_le_get hs (k := k) (i := b) (by omega) hget
          rw [hk] at this; exact lt_irrefl _ this
        apply ih (b + 1) (by omega) (by omega) (by omega)
        intro j h5 h6
        by_cases hj : j = b
        · subst hj; rw [hget]; intro he
          injection he with he
          exact hv (by rw [he])
        · exact h4 j h5 (by omega)
    · rw [if_neg hk]
      right
      have hub : ubIdx items k = b := by
        by_contra hc
        have h5 := lt_ubIdx hs (k := k) (i := b) (by omega) hget
        have h6 := lbIdx_le_get hs (k := k) (i := b) h3 hget
        exact hk (le_antisymm h5 h6)
      exact ⟨by rw [hub], notin b (by omega) h4⟩

/-- The existence search terminates without undefined behaviour, answers the replay semantics, and the index pair it
reports is correct for the base node the key belongs to. -/
theorem findValue_spec {c : LeafChain K V} (h : WF c) {k : K} (hk : InRange c.low c.high k) (v : V) :
    (Has c k v ∧ ∃ i e, findValue k v c = some (true, i, e) ∧ IdxOk (baseFor c k) k v i e) ∨
    (¬ Has c k v ∧ ∃ i e, findValue k v c = some (false, i, e) ∧ IdxOk (baseFor c k) k v i e) := by
  -- the range condition is only needed at the top: generalise to "not cut off by a split"
  have main : ∀ c : LeafChain K V, WF c → ((c.high.2 = INVALID ∨ k < c.high.1)) →
      (Has c k v ∧ ∃ i e, findValue k v c = some (true, i, e) ∧ IdxOk (baseFor c k) k v i e) ∨
      (¬ Has c k v ∧ ∃ i e, findValue k v c = some (false, i, e) ∧ IdxOk (baseFor c k) k v i e) := by
    intro c
    induction c with
    | base low high items =>
      intro h _
      have hs := h.1
      have hlb : lowerBound items 0 items.length k = some (lbIdx items k) :=
        lowerBound_eq hs (by omega) (lbIdx_le _ _) (Nat.le_refl _)
      have := scanFor_spec items hs k v _ (lbIdx items k) rfl (lbIdx_le_ubIdx _ _) (Nat.le_refl _)
        (by intro j h1 h2; omega)
      rcases this with ⟨i, e1, e2⟩ | ⟨e1, e2⟩
      · left
        refine ⟨List.mem_of_getElem? e2, i, true, ?_, ?_⟩
        · simp only [findValue, hlb, e1]
        · simp only [IdxOk, if_true, baseFor]; exact e2
      · right
        refine ⟨e2, ubIdx items k, false, ?_, ?_⟩
        · simp only [findValue, hlb, e1]
        · simp only [IdxOk, baseFor]; exact ⟨e2, rfl⟩
    | ins k' v' i e c ih =>
      intro h hr
      simp only [findValue, Has, baseFor]
      by_cases hc : k = k' ∧ v' = v
      · obtain ⟨rfl, rfl⟩ := hc
        left
        refine ⟨Or.inl ⟨rfl, rfl⟩, i, e, by simp, h.2.2.2⟩
      · rw [if_neg hc]
        have hc' : ¬ (k = k' ∧ v = v') := fun ⟨a, b⟩ => hc ⟨a, b.symm⟩
        rcases ih h.1 hr with ⟨a, b⟩ | ⟨a, b⟩
        · exact Or.inl ⟨Or.inr a, b⟩
        · exact Or.inr ⟨fun hh => hh.elim hc' a, b⟩
    | del k' v' i e c ih =>
      intro h hr
      simp only [findValue, Has, baseFor]
      by_cases hc : k = k' ∧ v' = v
      · obtain ⟨rfl, rfl⟩ := hc
        right
        refine ⟨fun hh => hh.1 ⟨rfl, rfl⟩, i, e, by simp, h.2.2.2⟩
      · rw [if_neg hc]
        have hc' : ¬ (k = k' ∧ v = v') := fun ⟨a, b⟩ => hc ⟨a, b.symm⟩
        rcases ih h.1 hr with ⟨a, b⟩ | ⟨a, b⟩
        · exact Or.inl ⟨⟨hc', a⟩, b⟩
        · exact Or.inr ⟨fun hh => a hh.2, b⟩
    | split sk id sib c ih =>
      intro h hr
      simp only [findValue, Has, baseFor]
      have hlt : k < sk := by
        rcases hr with hr | hr
        · exact absurd hr h.2.2.1
        · exact hr
      have hr' : c.high.2 = INVALID ∨ k < c.high.1 := by
        rcases h.2.2.2.2 with a | a
        · exact Or.inl a
        · exact Or.inr (lt_trans hlt a)
      rcases ih h.1 hr' with ⟨a, b⟩ | ⟨a, b⟩
      · exact Or.inl ⟨⟨hlt, a⟩, b⟩
      · exact Or.inr ⟨fun hh => a hh.2, b⟩
    | merge mk id r c ihr ihc =>
      intro h hr
      simp only [findValue, Has, baseFor]
      by_cases hle : mk ≤ k
      · simp only [if_pos hle]
        exact ihr h.2.1 hr
      · simp only [if_neg hle]
        exact ihc h.1 (Or.inr (by rw [h.2.2.1]; exact lt_of_not_ge hle))
    | remove _ _ _ => intro h; exact absurd h (by simp [WF])
  exact main c h hk.2

/-! ### Value collection (GetValue) -/

theorem copyValues_eq (k : K) (P D : List V) :
    ∀ (l : List (K × V)), SortedKeys l → (∀ x ∈ l, k ≤ x.1) → ∀ out,
      copyValues k P D l out =
        out ++ ((l.filter (fun x => decide (x.1 = k))).map (·.2)).filter (fun v => !D.contains v && !P.contains v) := by
  intro l
  induction l with
  | nil => intro _ _ out; simp [copyValues]
  | cons a l ih =>
    intro hs hge out
    obtain ⟨h1, h2⟩ := List.pairwise_cons.mp hs
    simp only [copyValues]
    by_cases ha : a.1 = k
    · rw [if_pos ha, ih h2 (fun x hx => hge x (List.mem_cons_of_mem _ hx))]
      have e : (a :: l).filter (fun x => decide (x.1 = k)) = a :: l.filter (fun x => decide (x.1 = k)) :=
        List.filter_cons_of_pos (by simpa using ha)
      rw [e, List.map_cons, List.filter_cons]
      split <;> simp
    · rw [if_neg ha]
      have : (a :: l).filter (fun x => decide (x.1 = k)) = [] := by
        rw [List.filter_eq_nil_iff]
        intro x hx
        have hak : k < a.1 := lt_of_le_of_ne (hge a (by simp)) (fun h => ha h.symm)
        rcases List.mem_cons.mp hx with rfl | hx
        · simpa using ha
        · simp only [decide_eq_true_eq]
          intro hxk
          exact absurd (h1 x hx) (not_le_of_gt (by rw [hxk]; exact hak))
      rw [this]; simp

theorem ubIdx_le_lbIdx (l : List (K × V)) {a b : K} (h : a < b) : ubIdx l a ≤ lbIdx l b := by
  unfold lbIdx ubIdx
  apply List.countP_mono_left
  intro x _ hx
  simp only [decide_eq_true_eq] at *
  exact lt_of_le_of_lt hx h

theorem lbIdx_mono (l : List (K × V)) {a b : K} (h : a ≤ b) : lbIdx l a ≤ lbIdx l b := by
  unfold lbIdx
  apply List.countP_mono_left
  intro x _ hx
  simp only [decide_eq_true_eq] at *
  exact lt_of_lt_of_le hx h

theorem ubIdx_mono (l : List (K × V)) {a b : K} (h : a ≤ b) : ubIdx l a ≤ ubIdx l b := by
  unfold ubIdx
  apply List.countP_mono_left
  intro x _ hx
  simp only [decide_eq_true_eq] at *
  exact le_trans hx h

theorem idxOk_le_lb {items : List (K × V)} (hs : SortedKeys items) {k k' : K} {v' : V} {i : Nat} {e : Bool}
    (h : IdxOk items k' v' i e) (hlt : k' < k) : i ≤ lbIdx items k := by
  cases e with
  | true =>
    simp only [IdxOk, if_true] at h
    by_contra hc
    have := lbIdx_le_get hs (k := k) (i := i) (by omega) h
    exact absurd hlt (not_lt_of_ge this)
  | false =>
    simp only [IdxOk, Bool.false_eq_true, if_false] at h
    rw [h.2]; exact ubIdx_le_lbIdx items hlt

theorem lb_le_idxOk {items : List (K × V)} (hs : SortedKeys items) {k k' : K} {v' : V} {i : Nat} {e : Bool}
    (h : IdxOk items k' v' i e) (hlt : k < k') : lbIdx items k ≤ i ∧ i ≤ items.length := by
  cases e with
  | true =>
    simp only [IdxOk, if_true] at h
    constructor
    · by_contra hc
      have := lt_lbIdx hs (k := k) (i := i) (by omega) h
      exact absurd hlt (not_lt_of_ge (le_of_lt this))
    · have := (List.getElem?_eq_some_iff.mp h).1; omega
  | false =>
    simp only [IdxOk, Bool.false_eq_true, if_false] at h
    rw [h.2]
    exact ⟨Nat.le_trans (lbIdx_mono items (le_of_lt hlt)) (lbIdx_le_ubIdx items k'), ubIdx_le items k'⟩

theorem baseFor_noMerge {c : LeafChain K V} (h : NoDataAboveMerge.noMerge c) (k k' : K) :
    baseFor c k = baseFor c k' := by
  induction c with
  | base low high items => rfl
  | ins k' v' i e c ih => exact ih h
  | del k' v' i e c ih => exact ih h
  | split sk id sib c ih => exact ih h
  | merge mk id r c ihr ihc => exact absurd h (by simp [NoDataAboveMerge.noMerge])
  | remove _ _ ih => exact ih h

theorem base_values_nodup {items : List (K × V)} (hnd : items.Nodup) (k : K) :
    ((items.filter (fun x => decide (x.1 = k))).map (·.2)).Nodup := by
  rw [List.Nodup, List.pairwise_map]
  have h1 : (items.filter (fun x => decide (x.1 = k))).Nodup := hnd.filter _
  refine List.Pairwise.imp_of_mem ?_ h1
  intro a b ha hb hab heq
  simp only [List.mem_filter, decide_eq_true_eq] at ha hb
  exact hab (Prod.ext (ha.2.trans hb.2.symm) heq)

/-- What a call of `getValues` adds to its output. -/
def Collected (c : LeafChain K V) (k : K) (P D : List V) (new : List V) : Prop :=
  new.Nodup ∧ ∀ v, v ∈ new ↔ (v ∉ P ∧ v ∉ D ∧ Has c k v)

theorem getValues_base {low high : K × NodeId} {items : List (K × V)} (h : WF (base low high items)) {k : K}
    (cap : Nat) (P D : List V) (s : Nat) (e : Option Nat) (out : List V)
    (hsx : s ≤ lbIdx items k) (hex : ∀ i, e = some i → lbIdx items k ≤ i ∧ i ≤ items.length) :
    ∃ new, getValues cap k (base low high items) P D s e out = some (out ++ new) ∧
      Collected (base low high items) k P D new := by
  have hs : SortedKeys items := h.1
  have hlb : ∀ last, lbIdx items k ≤ last → last ≤ items.length →
      lowerBound items s last k = some (lbIdx items k) := fun last h1 h2 => lowerBound_eq hs hsx h1 h2
  have hge : ∀ x ∈ items.drop (lbIdx items k), k ≤ x.1 := by
    intro x hx
    obtain ⟨j, hj⟩ := List.mem_iff_getElem?.mp hx
    rw [List.getElem?_drop] at hj
    exact lbIdx_le_get hs (by omega) hj
  refine ⟨(((items.drop (lbIdx items k)).filter (fun x => decide (x.1 = k))).map (·.2)).filter
    (fun v => !D.contains v && !P.contains v), ?_, ?_, ?_⟩
  · simp only [getValues]
    have : lowerBound items s (e.getD items.length) k = some (lbIdx items k) := by
      cases e with
      | none => exact hlb _ (lbIdx_le _ _) (Nat.le_refl _)
      | some i => exact hlb _ (hex i rfl).1 (hex i rfl).2
    rw [this]
    simp only
    rw [copyValues_eq k P D _ (hs.sublist (List.drop_sublist _ _)) hge]
  · exact (base_values_nodup (h.2.1.sublist (List.drop_sublist _ _)) k).filter _
  · intro v
    simp only [List.mem_filter, List.mem_map, decide_eq_true_eq, Bool.and_eq_true, Bool.not_eq_true',
      List.contains_eq_mem, decide_eq_false_iff_not, Has]
    constructor
    · rintro ⟨⟨x, ⟨hx, hk⟩, hv⟩, hD, hP⟩
      refine ⟨hP, hD, ?_⟩
      have : x = (k, v) := Prod.ext hk hv
      rw [← this]; exact List.mem_of_mem_drop hx
    · rintro ⟨hP, hD, hm⟩
      refine ⟨⟨(k, v), ⟨?_, rfl⟩, rfl⟩, hD, hP⟩
      obtain ⟨j, hj⟩ := List.mem_iff_getElem?.mp hm
      have hlj : lbIdx items k ≤ j := by
        by_contra hc
        exact lt_irrefl _ (lt_lbIdx hs (k := k) (by omega) hj)
      rw [List.mem_iff_getElem?]
      exact ⟨j - lbIdx items k, by rw [List.getElem?_drop, show lbIdx items k + (j - lbIdx items k) = j by omega]; exact hj⟩

theorem getValues_noMerge (cap : Nat) (k : K) : ∀ (c : LeafChain K V), WF c → NoDataAboveMerge.noMerge c →
    (c.high.2 = INVALID ∨ k < c.high.1) →
    ∀ (P D : List V) (s : Nat) (e : Option Nat) (out : List V),
      P.length + c.depth ≤ cap → D.length + c.depth ≤ cap → s ≤ lbIdx (baseFor c k) k →
      (∀ i, e = some i → lbIdx (baseFor c k) k ≤ i ∧ i ≤ (baseFor c k).length) →
      ∃ new, getValues cap k c P D s e out = some (out ++ new) ∧ Collected c k P D new := by
  intro c
  induction c with
  | base low high items => intro h _ _ P D s e out _ _ h1 h2; exact getValues_base h cap P D s e out h1 h2
  | ins k' v' i ex c ih =>
    intro h hnm hr P D s e out hc1 hc2 h1 h2
    simp only [depth] at hc1 hc2
    have hs := (baseFor_sorted h.1 k).1
    have hidx : IdxOk (baseFor c k) k' v' i ex := by rw [baseFor_noMerge (c := c) hnm k k']; exact h.2.2.2
    simp only [getValues]
    by_cases hk : k = k'
    · subst hk
      rw [if_pos rfl]
      by_cases hc : (!D.contains v' && !P.contains v') = true
      · rw [if_pos hc, if_pos (by omega)]
        simp only [Bool.and_eq_true, Bool.not_eq_true', List.contains_eq_mem, decide_eq_false_iff_not] at hc
        obtain ⟨new, e1, e2, e3⟩ := ih h.1 hnm hr (P ++ [v']) D s e (out ++ [v']) (by (try simp only [List.length_append, List.length_singleton]); omega) (by (try simp only [List.length_append, List.length_singleton]); omega) h1 h2
        refine ⟨v' :: new, by rw [e1]; simp, ?_, ?_⟩
        · refine List.nodup_cons.mpr ⟨?_, e2⟩
          intro hm
          have := ((e3 v').mp hm).1
          simp at this
        · intro w
          simp only [List.mem_cons, e3, Has]
          constructor
          · rintro (rfl | ⟨a, b, d⟩)
            · exact ⟨hc.2, hc.1, Or.inl ⟨trivial, rfl⟩⟩
            · exact ⟨fun hh => a (by simp [hh]), b, Or.inr d⟩
          · rintro ⟨a, b, d⟩
            by_cases hw : w = v'
            · exact Or.inl hw
            · right
              refine ⟨by simp [a, hw], b, ?_⟩
              rcases d with d | d
              · exact absurd d.2 hw
              · exact d
      · rw [if_neg hc]
        obtain ⟨new, e1, e2, e3⟩ := ih h.1 hnm hr P D s e out (by (try simp only [List.length_append, List.length_singleton]); omega) (by (try simp only [List.length_append, List.length_singleton]); omega) h1 h2
        refine ⟨new, e1, e2, ?_⟩
        intro w
        rw [e3]
        simp only [Bool.and_eq_true, Bool.not_eq_true', List.contains_eq_mem, decide_eq_false_iff_not] at hc
        rw [Decidable.not_and_iff_not_or_not, Decidable.not_not, Decidable.not_not] at hc
        simp only [Has]
        constructor
        · rintro ⟨a, b, d⟩; exact ⟨a, b, Or.inr d⟩
        · rintro ⟨a, b, d⟩
          refine ⟨a, b, ?_⟩
          rcases d with d | d
          · exfalso
            rw [d.2] at a b
            rcases hc with hc | hc
            · exact b hc
            · exact a hc
          · exact d
    · rw [if_neg hk]
      have hcol : ∀ new, Collected c k P D new → Collected (ins k' v' i ex c) k P D new := by
        rintro new ⟨e2, e3⟩
        refine ⟨e2, fun w => ?_⟩
        rw [e3]; simp [Has, hk]
      by_cases hlt : k' < k
      · rw [if_pos hlt]
        obtain ⟨new, e1, e2⟩ := ih h.1 hnm hr P D i e out (by (try simp only [List.length_append, List.length_singleton]); omega) (by (try simp only [List.length_append, List.length_singleton]); omega) (idxOk_le_lb hs hidx hlt) h2
        exact ⟨new, e1, hcol new e2⟩
      · rw [if_neg hlt]
        have hlt' : k < k' := lt_of_le_of_ne (le_of_not_gt hlt) hk
        obtain ⟨new, e1, e2⟩ := ih h.1 hnm hr P D s (some i) out (by (try simp only [List.length_append, List.length_singleton]); omega) (by (try simp only [List.length_append, List.length_singleton]); omega) h1
          (by intro j hj; injection hj with hj; subst hj; exact lb_le_idxOk hs hidx hlt')
        exact ⟨new, e1, hcol new e2⟩
  | del k' v' i ex c ih =>
    intro h hnm hr P D s e out hc1 hc2 h1 h2
    simp only [depth] at hc1 hc2
    have hs := (baseFor_sorted h.1 k).1
    have hidx : IdxOk (baseFor c k) k' v' i ex := by rw [baseFor_noMerge (c := c) hnm k k']; exact h.2.2.2
    simp only [getValues]
    by_cases hk : k = k'
    · subst hk
      rw [if_pos rfl]
      by_cases hc : (!P.contains v') = true
      · rw [if_pos hc, if_pos (by omega)]
        simp only [Bool.not_eq_true', List.contains_eq_mem, decide_eq_false_iff_not] at hc
        obtain ⟨new, e1, e2, e3⟩ := ih h.1 hnm hr P (D ++ [v']) s e out (by (try simp only [List.length_append, List.length_singleton]); omega) (by (try simp only [List.length_append, List.length_singleton]); omega) h1 h2
        refine ⟨new, e1, e2, ?_⟩
        intro w
        rw [e3]
        simp only [Has, List.mem_append, List.mem_singleton, not_or]
        constructor
        · rintro ⟨a, ⟨b, b'⟩, d⟩; exact ⟨a, b, fun hh => b' hh.2, d⟩
        · rintro ⟨a, b, b', d⟩; exact ⟨a, ⟨b, fun hh => b' ⟨trivial, hh⟩⟩, d⟩
      · rw [if_neg hc]
        obtain ⟨new, e1, e2, e3⟩ := ih h.1 hnm hr P D s e out (by (try simp only [List.length_append, List.length_singleton]); omega) (by (try simp only [List.length_append, List.length_singleton]); omega) h1 h2
        refine ⟨new, e1, e2, ?_⟩
        intro w
        rw [e3]
        simp only [Bool.not_eq_true', List.contains_eq_mem, decide_eq_false_iff_not, Decidable.not_not] at hc
        simp only [Has]
        constructor
        · rintro ⟨a, b, d⟩; exact ⟨a, b, fun hh => a (by rw [hh.2]; exact hc), d⟩
        · rintro ⟨a, b, _, d⟩; exact ⟨a, b, d⟩
    · rw [if_neg hk]
      have hcol : ∀ new, Collected c k P D new → Collected (del k' v' i ex c) k P D new := by
        rintro new ⟨e2, e3⟩
        refine ⟨e2, fun w => ?_⟩
        rw [e3]; simp [Has, hk]
      by_cases hlt : k' < k
      · rw [if_pos hlt]
        obtain ⟨new, e1, e2⟩ := ih h.1 hnm hr P D i e out (by (try simp only [List.length_append, List.length_singleton]); omega) (by (try simp only [List.length_append, List.length_singleton]); omega) (idxOk_le_lb hs hidx hlt) h2
        exact ⟨new, e1, hcol new e2⟩
      · rw [if_neg hlt]
        have hlt' : k < k' := lt_of_le_of_ne (le_of_not_gt hlt) hk
        obtain ⟨new, e1, e2⟩ := ih h.1 hnm hr P D s (some i) out (by (try simp only [List.length_append, List.length_singleton]); omega) (by (try simp only [List.length_append, List.length_singleton]); omega) h1
          (by intro j hj; injection hj with hj; subst hj; exact lb_le_idxOk hs hidx hlt')
        exact ⟨new, e1, hcol new e2⟩
  | split sk id sib c ih =>
    intro h hnm hr P D s e out hc1 hc2 h1 h2
    simp only [depth] at hc1 hc2
    have hlt : k < sk := by
      rcases hr with hr | hr
      · exact absurd hr h.2.2.1
      · exact hr
    have hr' : c.high.2 = INVALID ∨ k < c.high.1 := by
      rcases h.2.2.2.2 with a | a
      · exact Or.inl a
      · exact Or.inr (lt_trans hlt a)
    obtain ⟨new, e1, e2, e3⟩ := ih h.1 hnm hr' P D s e out (by (try simp only [List.length_append, List.length_singleton]); omega) (by (try simp only [List.length_append, List.length_singleton]); omega) h1 h2
    refine ⟨new, e1, e2, fun w => ?_⟩
    rw [e3]; simp [Has, hlt]
  | merge mk id r c ihr ihc => intro _ hnm; exact absurd hnm (by simp [NoDataAboveMerge.noMerge])
  | remove _ _ _ => intro h; exact absurd h (by simp [WF])

theorem copyValues_sound (k : K) (P D : List V) :
    ∀ (l : List (K × V)), l.Nodup → ∀ out, ∃ new, copyValues k P D l out = out ++ new ∧ new.Nodup ∧
      ∀ v ∈ new, v ∉ P ∧ v ∉ D ∧ (k, v) ∈ l := by
  intro l
  induction l with
  | nil => intro _ out; exact ⟨[], by simp [copyValues]⟩
  | cons a l ih =>
    intro hn out
    obtain ⟨h1, h2⟩ := List.nodup_cons.mp hn
    simp only [copyValues]
    by_cases ha : a.1 = k
    · rw [if_pos ha]
      by_cases hc : (!D.contains a.2 && !P.contains a.2) = true
      · rw [if_pos hc]
        simp only [Bool.and_eq_true, Bool.not_eq_true', List.contains_eq_mem, decide_eq_false_iff_not] at hc
        obtain ⟨new, e1, e2, e3⟩ := ih h2 (out ++ [a.2])
        refine ⟨a.2 :: new, by rw [e1]; simp, List.nodup_cons.mpr ⟨fun hm => ?_, e2⟩, fun v hv => ?_⟩
        · have := (e3 _ hm).2.2
          rw [← ha] at this
          exact h1 this
        · rcases List.mem_cons.mp hv with rfl | hv
          · exact ⟨hc.2, hc.1, by rw [← ha]; simp⟩
          · exact ⟨(e3 v hv).1, (e3 v hv).2.1, List.mem_cons_of_mem _ (e3 v hv).2.2⟩
      · rw [if_neg hc]
        obtain ⟨new, e1, e2, e3⟩ := ih h2 out
        exact ⟨new, e1, e2, fun v hv => ⟨(e3 v hv).1, (e3 v hv).2.1, List.mem_cons_of_mem _ (e3 v hv).2.2⟩⟩
    · rw [if_neg ha]
      exact ⟨[], by simp⟩

/-- Whatever index window it ends up with, GetValue adds only stored values, each once. -/
theorem getValues_sound (cap : Nat) (k : K) : ∀ (c : LeafChain K V), WF c → (c.high.2 = INVALID ∨ k < c.high.1) →
    ∀ (P D : List V) (s : Nat) (e : Option Nat) (out r : List V), getValues cap k c P D s e out = some r →
      ∃ new, r = out ++ new ∧ new.Nodup ∧ ∀ v ∈ new, v ∉ P ∧ v ∉ D ∧ Has c k v := by
  intro c
  induction c with
  | base low high items =>
    intro h _ P D s e out r hr
    simp only [getValues] at hr
    split at hr
    · cases hr
    · rename_i b _
      cases hr
      obtain ⟨new, e1, e2, e3⟩ := copyValues_sound k P D (items.drop b) (h.2.1.sublist (List.drop_sublist _ _)) out
      exact ⟨new, e1, e2, fun v hv => ⟨(e3 v hv).1, (e3 v hv).2.1, List.mem_of_mem_drop (e3 v hv).2.2⟩⟩
  | ins k' v' i ex c ih =>
    intro h hk P D s e out r hr
    have lift : ∀ {P' new : List V}, (∀ v ∈ new, v ∉ P' ∧ v ∉ D ∧ Has c k v) → (∀ v, v ∉ P' → v ∉ P) →
        ∀ v ∈ new, v ∉ P ∧ v ∉ D ∧ Has (ins k' v' i ex c) k v :=
      fun e3 hp v hv => ⟨hp v (e3 v hv).1, (e3 v hv).2.1, Or.inr (e3 v hv).2.2⟩
    simp only [getValues] at hr
    split at hr
    · rename_i hkk
      split at hr
      · rename_i hc
        simp only [Bool.and_eq_true, Bool.not_eq_true', List.contains_eq_mem, decide_eq_false_iff_not] at hc
        split at hr
        · obtain ⟨new, e1, e2, e3⟩ := ih h.1 hk _ _ _ _ _ _ hr
          refine ⟨v' :: new, by rw [e1]; simp, List.nodup_cons.mpr ⟨fun hm => (e3 _ hm).1 (by simp), e2⟩, fun v hv => ?_⟩
          rcases List.mem_cons.mp hv with rfl | hv
          · exact ⟨hc.2, hc.1, Or.inl ⟨hkk, rfl⟩⟩
          · exact lift e3 (fun v hn hp => hn (by simp [hp])) v hv
        · cases hr
      · obtain ⟨new, e1, e2, e3⟩ := ih h.1 hk _ _ _ _ _ _ hr
        exact ⟨new, e1, e2, lift e3 fun _ h => h⟩
    · split at hr
      · obtain ⟨new, e1, e2, e3⟩ := ih h.1 hk _ _ _ _ _ _ hr
        exact ⟨new, e1, e2, lift e3 fun _ h => h⟩
      · obtain ⟨new, e1, e2, e3⟩ := ih h.1 hk _ _ _ _ _ _ hr
        exact ⟨new, e1, e2, lift e3 fun _ h => h⟩
  | del k' v' i ex c ih =>
    intro h hk P D s e out r hr
    simp only [getValues] at hr
    split at hr
    · split at hr
      · split at hr
        · obtain ⟨new, e1, e2, e3⟩ := ih h.1 hk _ _ _ _ _ _ hr
          refine ⟨new, e1, e2, fun v hv => ?_⟩
          obtain ⟨a, b, d⟩ := e3 v hv
          simp only [List.mem_append, List.mem_singleton, not_or] at b
          exact ⟨a, b.1, fun hh => b.2 hh.2, d⟩
        · cases hr
      · rename_i hc
        simp only [Bool.not_eq_true', List.contains_eq_mem, decide_eq_false_iff_not, Decidable.not_not] at hc
        obtain ⟨new, e1, e2, e3⟩ := ih h.1 hk _ _ _ _ _ _ hr
        refine ⟨new, e1, e2, fun v hv => ?_⟩
        obtain ⟨a, b, d⟩ := e3 v hv
        exact ⟨a, b, fun hh => a (by rw [hh.2]; exact hc), d⟩
    · rename_i hkk
      split at hr
      · obtain ⟨new, e1, e2, e3⟩ := ih h.1 hk _ _ _ _ _ _ hr
        exact ⟨new, e1, e2, fun v hv => ⟨(e3 v hv).1, (e3 v hv).2.1, fun hh => hkk hh.1, (e3 v hv).2.2⟩⟩
      · obtain ⟨new, e1, e2, e3⟩ := ih h.1 hk _ _ _ _ _ _ hr
        exact ⟨new, e1, e2, fun v hv => ⟨(e3 v hv).1, (e3 v hv).2.1, fun hh => hkk hh.1, (e3 v hv).2.2⟩⟩
  | split sk id sib c ih =>
    intro h hk P D s e out r hr
    have hlt : k < sk := by
      rcases hk with hk | hk
      · exact absurd hk h.2.2.1
      · exact hk
    have hk' : c.high.2 = INVALID ∨ k < c.high.1 := by
      rcases h.2.2.2.2 with a | a
      · exact Or.inl a
      · exact Or.inr (lt_trans hlt a)
    obtain ⟨new, e1, e2, e3⟩ := ih h.1 hk' _ _ _ _ _ _ hr
    exact ⟨new, e1, e2, fun v hv => ⟨(e3 v hv).1, (e3 v hv).2.1, hlt, (e3 v hv).2.2⟩⟩
  | merge mk id r c ihr ihc =>
    intro h hk P D s e out res hr
    simp only [getValues] at hr
    split at hr
    · rename_i hle
      obtain ⟨new, e1, e2, e3⟩ := ihr h.2.1 hk _ _ _ _ _ _ hr
      refine ⟨new, e1, e2, fun v hv => ?_⟩
      simp only [Has, if_pos hle]
      exact e3 v hv
    · rename_i hle
      obtain ⟨new, e1, e2, e3⟩ := ihc h.1 (Or.inr (by rw [h.2.2.1]; exact lt_of_not_ge hle)) _ _ _ _ _ _ hr
      refine ⟨new, e1, e2, fun v hv => ?_⟩
      simp only [Has, if_neg hle]
      exact e3 v hv
  | remove _ _ _ => intro h; exact absurd h (by simp [WF])

theorem getValues_spec (cap : Nat) (k : K) : ∀ (c : LeafChain K V), WF c → NoDataAboveMerge c →
    (c.high.2 = INVALID ∨ k < c.high.1) → ∀ (P D : List V) (out : List V),
      P.length + c.depth ≤ cap → D.length + c.depth ≤ cap →
      ∃ new, getValues cap k c P D 0 none out = some (out ++ new) ∧ Collected c k P D new := by
  intro c
  induction c with
  | base low high items =>
    intro h _ _ P D out _ _
    exact getValues_base h cap P D 0 none out (Nat.zero_le _) (by intro i hi; cases hi)
  | ins k' v' i e c ih =>
    intro h hn hr P D out hc1 hc2
    simp only [depth] at hc1 hc2
    exact getValues_noMerge cap k _ h (by exact hn) hr P D 0 none out (by simp only [depth]; omega) (by simp only [depth]; omega) (Nat.zero_le _) (by intro i hi; cases hi)
  | del k' v' i e c ih =>
    intro h hn hr P D out hc1 hc2
    simp only [depth] at hc1 hc2
    exact getValues_noMerge cap k _ h (by exact hn) hr P D 0 none out (by simp only [depth]; omega) (by simp only [depth]; omega) (Nat.zero_le _) (by intro i hi; cases hi)
  | split sk id sib c ih =>
    intro h hn hr P D out hc1 hc2
    simp only [depth] at hc1 hc2
    have hlt : k < sk := by
      rcases hr with hr | hr
      · exact absurd hr h.2.2.1
      · exact hr
    have hr' : c.high.2 = INVALID ∨ k < c.high.1 := by
      rcases h.2.2.2.2 with a | a
      · exact Or.inl a
      · exact Or.inr (lt_trans hlt a)
    obtain ⟨new, e1, e2, e3⟩ := ih h.1 hn hr' P D out (by omega) (by omega)
    refine ⟨new, e1, e2, fun w => ?_⟩
    rw [e3]; simp [Has, hlt]
  | merge mk id r c ihr ihc =>
    intro h hn hr P D out hc1 hc2
    simp only [depth] at hc1 hc2
    simp only [getValues]
    by_cases hle : mk ≤ k
    · rw [if_pos hle]
      obtain ⟨new, e1, e2, e3⟩ := ihr h.2.1 hn.1 hr P D out (by omega) (by omega)
      refine ⟨new, e1, e2, fun w => ?_⟩
      rw [e3]; simp [Has, hle]
    · rw [if_neg hle]
      obtain ⟨new, e1, e2, e3⟩ := ihc h.1 hn.2 (Or.inr (by rw [h.2.2.1]; exact lt_of_not_ge hle)) P D out (by omega) (by omega)
      refine ⟨new, e1, e2, fun w => ?_⟩
      rw [e3]; simp [Has, hle]
  | remove _ _ _ => intro h; exact absurd h (by simp [WF])

end LeafChain
end BwTree
