import Verif.Spec.Inner
import Verif.Proofs.Search
import Verif.Proofs.SmallSet

/-! Lemmas about inner chains. -/

namespace BwTree

variable {K : Type} [LinearOrder K] {lo : NodeId → Option (Option K)}

theorem Above.trans {lv : Option K} {a b : K} (h : Above lv a) (hab : a ≤ b) : Above lv b :=
  fun l hl => lt_of_lt_of_le (h l hl) hab

theorem AtLeast.trans {lv : Option K} {a b : K} (h : AtLeast lv a) (hab : a ≤ b) : AtLeast lv b :=
  fun l hl => le_trans (h l hl) hab

theorem AtLeast.lt {lv : Option K} {a b : K} (h : AtLeast lv a) (hab : a < b) : Above lv b :=
  fun l hl => lt_of_le_of_lt (h l hl) hab

theorem Above.atLeast {lv : Option K} {a : K} (h : Above lv a) : AtLeast lv a := fun l hl => le_of_lt (h l hl)

theorem Below.trans {hi : K × NodeId} {a b : K} (h : Below hi b) (hab : a ≤ b) : Below hi a := by
  rcases h with h | h
  · exact Or.inl h
  · exact Or.inr (lt_of_le_of_lt hab h)

theorem SepOk.ne (hinv : lo INVALID = none) {p : K × NodeId} (h : SepOk lo p) : p.2 ≠ INVALID := by
  intro e
  unfold SepOk at h
  rw [e, hinv] at h
  cases h

/-- Strictly sorted by key. -/
def StrictKeys (l : List (K × NodeId)) : Prop := l.Pairwise (fun a b => a.1 < b.1)

theorem StrictKeys.sorted {l : List (K × NodeId)} (h : StrictKeys l) : SortedKeys l :=
  List.Pairwise.imp (fun h => le_of_lt h) h

theorem StrictKeys.inj {l : List (K × NodeId)} (h : StrictKeys l) {x y : K × NodeId} (hx : x ∈ l) (hy : y ∈ l)
    (e : x.1 = y.1) : x = y := by
  induction l with
  | nil => cases hx
  | cons a l ih =>
    obtain ⟨h1, h2⟩ := List.pairwise_cons.mp h
    rcases List.mem_cons.mp hx with rfl | hx
    · rcases List.mem_cons.mp hy with rfl | hy
      · rfl
      · exact absurd (h1 y hy) (by rw [e]; exact lt_irrefl _)
    · rcases List.mem_cons.mp hy with rfl | hy
      · exact absurd (h1 _ ‹_›) (by rw [e]; exact lt_irrefl _)
      · exact ih h2 ‹_› hy

theorem strict_ext {l1 l2 : List (K × NodeId)} (h1 : StrictKeys l1) (h2 : StrictKeys l2)
    (h : ∀ x, x ∈ l1 ↔ x ∈ l2) : l1 = l2 := by
  induction l1 generalizing l2 with
  | nil =>
    cases l2 with
    | nil => rfl
    | cons b l2 => have := (h b).mpr (by simp); cases this
  | cons a l1 ih =>
    cases l2 with
    | nil => have := (h a).mp (by simp); cases this
    | cons b l2 =>
      obtain ⟨p1, p2⟩ := List.pairwise_cons.mp h1
      obtain ⟨q1, q2⟩ := List.pairwise_cons.mp h2
      have hab : a = b := by
        rcases List.mem_cons.mp ((h a).mp (by simp)) with e | ha
        · exact e
        · rcases List.mem_cons.mp ((h b).mpr (by simp)) with e | hb
          · exact e.symm
          · exact absurd (lt_trans (p1 b hb) (q1 a ha)) (lt_irrefl _)
      subst hab
      congr 1
      apply ih p2 q2
      intro x
      constructor
      · intro hx
        rcases List.mem_cons.mp ((h x).mp (List.mem_cons_of_mem _ hx)) with rfl | hx'
        · exact absurd (p1 x hx) (lt_irrefl _)
        · exact hx'
      · intro hx
        rcases List.mem_cons.mp ((h x).mpr (List.mem_cons_of_mem _ hx)) with rfl | hx'
        · exact absurd (q1 x hx) (lt_irrefl _)
        · exact hx'

theorem countP_key_eq_one {l : List (K × NodeId)} (h : StrictKeys l) {k : K} (hk : ∃ x ∈ l, x.1 = k) :
    l.countP (fun x => decide (x.1 = k)) = 1 := by
  induction l with
  | nil => obtain ⟨x, hx, _⟩ := hk; cases hx
  | cons a l ih =>
    obtain ⟨h1, h2⟩ := List.pairwise_cons.mp h
    rw [List.countP_cons]
    by_cases ha : a.1 = k
    · have : l.countP (fun x => decide (x.1 = k)) = 0 := by
        rw [List.countP_eq_zero]
        intro x hx
        have := h1 x hx
        rw [ha] at this
        simp [ne_of_gt this]
      simp [this, ha]
    · obtain ⟨x, hx, hxk⟩ := hk
      rcases List.mem_cons.mp hx with rfl | hx
      · exact absurd hxk ha
      · simp [ih h2 ⟨x, hx, hxk⟩, ha]

namespace InnerChain

theorem WF.low_spec : ∀ {c : InnerChain K} {lv : Option K}, WF lo lv c →
    lo c.low.2 = some lv ∧ (∀ k, lv = some k → c.low.1 = k) ∧ c.baseItems.head? = some c.low
  | base _ _ _ _, _, h => ⟨h.1, h.2.1, h.2.2.1⟩
  | ins _ _ _ c, _, h => WF.low_spec (c := c) h.1
  | del _ _ _ _ c, _, h => WF.low_spec (c := c) h.1
  | split _ _ c, _, h => WF.low_spec (c := c) h.1
  | merge _ _ _ c, _, h => WF.low_spec (c := c) h.1
  | remove _ _, _, h => h.elim
  | abort _ _, _, h => h.elim

theorem WF.highOk : ∀ {c : InnerChain K} {lv : Option K}, WF lo lv c → HighOk lo c.high
  | base _ _ _ _, _, h => h.2.2.2.2.2.1
  | ins _ _ _ c, _, h => WF.highOk (c := c) h.1
  | del _ _ _ _ c, _, h => WF.highOk (c := c) h.1
  | split _ _ _, _, h => Or.inr h.2.2.1
  | merge _ _ r _, _, h => WF.highOk (c := r) h.2.1
  | remove _ _, _, h => h.elim
  | abort _ _, _, h => h.elim

theorem WF.lv_below : ∀ {c : InnerChain K} {lv : Option K}, WF lo lv c → ∀ k, lv = some k → Below c.high k
  | base _ _ _ _, _, h => h.2.2.2.2.2.2
  | ins _ _ _ c, _, h => WF.lv_below (c := c) h.1
  | del _ _ _ _ c, _, h => WF.lv_below (c := c) h.1
  | split _ _ _, _, h => fun k hk => Or.inr (h.2.2.2.1 k hk)
  | merge mk id r c, lv, h => fun k hk => by
    have h1 := WF.lv_below (c := c) h.1 k hk
    have h2 := WF.lv_below (c := r) h.2.1 mk rfl
    rw [h.2.2.1] at h1
    rcases h1 with h1 | h1
    · exact absurd h1 h.2.2.2
    · exact Below.trans h2 (le_of_lt h1)
  | remove _ _, _, h => h.elim
  | abort _ _, _, h => h.elim

theorem WF.above_mk {mk : K} {id : NodeId} {r c : InnerChain K} {lv : Option K} (h : WF lo lv (merge mk id r c)) :
    Above lv mk := by
  intro l hl
  have h1 := WF.lv_below h.1 l hl
  rw [h.2.2.1] at h1
  rcases h1 with h1 | h1
  · exact absurd h1 h.2.2.2
  · exact h1

theorem WF.seps_spec : ∀ {c : InnerChain K} {lv : Option K}, WF lo lv c →
    StrictKeys c.seps ∧ ∀ x ∈ c.seps, SepOk lo x ∧ Above lv x.1 ∧ Below c.high x.1
  | base _ _ _ _, _, h => ⟨h.2.2.2.1, h.2.2.2.2.1⟩
  | ins item _ _ c, lv, h => by
    obtain ⟨h1, h2⟩ := WF.seps_spec h.1
    refine ⟨?_, ?_⟩
    · simp only [seps, StrictKeys]
      rw [List.pairwise_append]
      refine ⟨h1.filter _, List.pairwise_cons.mpr ⟨?_, h1.filter _⟩, ?_⟩
      · intro x hx; simpa using (List.mem_filter.mp hx).2
      · intro a ha b hb
        have ha' : a.1 < item.1 := by simpa using (List.mem_filter.mp ha).2
        rcases List.mem_cons.mp hb with rfl | hb
        · exact ha'
        · exact lt_trans ha' (by simpa using (List.mem_filter.mp hb).2)
    · intro x hx
      simp only [seps, List.mem_append, List.mem_cons, List.mem_filter] at hx
      rcases hx with hx | rfl | hx
      · exact h2 x hx.1
      · exact ⟨h.2.1, h.2.2.1, h.2.2.2.1⟩
      · exact h2 x hx.1
  | del _ _ _ _ c, lv, h => by
    obtain ⟨h1, h2⟩ := WF.seps_spec h.1
    refine ⟨h1.filter _, ?_⟩
    intro x hx
    exact h2 x (List.mem_filter.mp hx).1
  | split item _ c, lv, h => by
    obtain ⟨h1, h2⟩ := WF.seps_spec h.1
    refine ⟨h1.filter _, ?_⟩
    intro x hx
    obtain ⟨h3, h4⟩ := List.mem_filter.mp hx
    exact ⟨(h2 x h3).1, (h2 x h3).2.1, Or.inr (by simpa [high] using h4)⟩
  | merge mk id r c, lv, h => by
    obtain ⟨h1, h2⟩ := WF.seps_spec h.1
    obtain ⟨h3, h4⟩ := WF.seps_spec h.2.1
    have hr := WF.low_spec h.2.1
    have hm := WF.lv_below h.2.1 mk rfl
    have ha := WF.above_mk h
    have hc : ∀ x ∈ c.seps, x.1 < mk := by
      intro x hx
      have := (h2 x hx).2.2
      rw [h.2.2.1] at this
      exact this.resolve_left h.2.2.2
    refine ⟨?_, ?_⟩
    · simp only [seps, StrictKeys]
      rw [List.pairwise_append]
      refine ⟨h1, List.pairwise_cons.mpr ⟨fun x hx => (h4 x hx).2.1 mk rfl, h3⟩, ?_⟩
      intro a ha b hb
      rcases List.mem_cons.mp hb with rfl | hb
      · exact hc a ha
      · exact lt_trans (hc a ha) ((h4 b hb).2.1 mk rfl)
    · intro x hx
      simp only [seps, List.mem_append, List.mem_cons] at hx
      rcases hx with hx | rfl | hx
      · exact ⟨(h2 x hx).1, (h2 x hx).2.1, hm.trans (le_of_lt (hc x hx))⟩
      · exact ⟨hr.1, ha, hm⟩
      · exact ⟨(h4 x hx).1, ha.trans (le_of_lt ((h4 x hx).2.1 mk rfl)), (h4 x hx).2.2⟩
  | remove _ _, _, h => h.elim
  | abort _ _, _, h => h.elim

theorem WF.seps_length : ∀ {c : InnerChain K} {lv : Option K}, WF lo lv c → (c.seps.length : Int) + 1 = c.itemCount
  | base low _ _ items, _, h => by
    have := h.2.2.1
    cases items with
    | nil => simp at this
    | cons a t => simp [seps, itemCount]
  | ins item _ _ c, lv, h => by
    have ih := WF.seps_length h.1
    have hn := h.2.2.2.2.1
    have := List.length_eq_countP_add_countP (fun x : K × NodeId => decide (x.1 < item.1)) (l := c.seps)
    have e : c.seps.countP (fun x => decide (item.1 < x.1)) =
        c.seps.countP (fun a => decide ¬(fun x : K × NodeId => decide (x.1 < item.1)) a = true) := by
      apply List.countP_congr
      intro x hx
      simp only [decide_eq_true_eq, not_lt]
      constructor
      · exact le_of_lt
      · intro hle
        exact lt_of_le_of_ne hle (fun e => hn ⟨x, hx, e.symm⟩)
    rw [← e] at this
    simp only [seps, itemCount, List.length_append, List.length_cons, ← List.countP_eq_length_filter]
    omega
  | del item _ _ _ c, lv, h => by
    have ih := WF.seps_length h.1
    have h1 := countP_key_eq_one (WF.seps_spec h.1).1 h.2.1
    have := List.length_eq_countP_add_countP (fun x : K × NodeId => decide (x.1 = item.1)) (l := c.seps)
    have e : c.seps.countP (fun x => decide (x.1 ≠ item.1)) =
        c.seps.countP (fun a => decide ¬(fun x : K × NodeId => decide (x.1 = item.1)) a = true) := by
      apply List.countP_congr
      intro x hx
      simp
    rw [← e] at this
    simp only [seps, itemCount, ← List.countP_eq_length_filter]
    omega
  | split item sib c, lv, h => by
    have ih := WF.seps_length h.1
    obtain ⟨low, high, d, items, rfl, hs⟩ := h.2.1
    have := List.length_eq_countP_add_countP (fun x : K × NodeId => decide (x.1 < item.1)) (l := items.tail)
    have e : items.tail.countP (fun x => decide (item.1 ≤ x.1)) =
        items.tail.countP (fun a => decide ¬(fun x : K × NodeId => decide (x.1 < item.1)) a = true) := by
      apply List.countP_congr
      intro x hx
      simp
    simp only [seps, itemCount, ← List.countP_eq_length_filter] at *
    omega
  | merge mk id r c, lv, h => by
    have i1 := WF.seps_length h.1
    have i2 := WF.seps_length h.2.1
    simp only [seps, itemCount, List.length_append, List.length_cons]
    omega
  | remove _ _, _, h => h.elim
  | abort _ _, _, h => h.elim

/-! ### Search -/

theorem upperBound_tail {a : K × NodeId} {t : List (K × NodeId)} (hs : SortedKeys t) {s e : Nat} {k : K}
    (h0 : 1 ≤ s) (h1 : s ≤ 1 + ubIdx t k) (h2 : 1 + ubIdx t k ≤ e) (h3 : e ≤ t.length + 1) :
    upperBound (a :: t) s e k = some (1 + ubIdx t k) := by
  unfold upperBound
  apply bsearch_eq _ _ _ _ _ h1 h2 (by simpa using h3)
  · intro i x hi h hx
    obtain ⟨j, rfl⟩ : ∃ j, i = j + 1 := ⟨i - 1, by omega⟩
    simp at hx
    simpa using lt_ubIdx hs (by omega) hx
  · intro i x h _ hx
    obtain ⟨j, rfl⟩ : ∃ j, i = j + 1 := ⟨i - 1, by omega⟩
    simp at hx
    simpa using ubIdx_le_get hs (by omega) hx

theorem lowerBound_tail {a : K × NodeId} {t : List (K × NodeId)} (hs : SortedKeys t) {s e : Nat} {k : K}
    (h0 : 1 ≤ s) (h1 : s ≤ 1 + lbIdx t k) (h2 : 1 + lbIdx t k ≤ e) (h3 : e ≤ t.length + 1) :
    lowerBound (a :: t) s e k = some (1 + lbIdx t k) := by
  unfold lowerBound
  apply bsearch_eq _ _ _ _ _ h1 h2 (by simpa using h3)
  · intro i x hi h hx
    obtain ⟨j, rfl⟩ : ∃ j, i = j + 1 := ⟨i - 1, by omega⟩
    simp at hx
    simpa using lt_lbIdx hs (by omega) hx
  · intro i x h _ hx
    obtain ⟨j, rfl⟩ : ∃ j, i = j + 1 := ⟨i - 1, by omega⟩
    simp at hx
    simpa using lbIdx_le_get hs (by omega) hx

theorem ubIdx_le_lbIdx {t : List (K × NodeId)} {k k' : K} (h : k < k') : ubIdx t k ≤ lbIdx t k' := by
  unfold ubIdx lbIdx
  apply List.countP_mono_left
  intro x _ hx
  simp only [decide_eq_true_eq] at *
  exact lt_of_le_of_lt hx h

theorem lbIdx_le_ubIdx' {t : List (K × NodeId)} {k k' : K} (h : k' ≤ k) : lbIdx t k' ≤ ubIdx t k := by
  unfold ubIdx lbIdx
  apply List.countP_mono_left
  intro x _ hx
  simp only [decide_eq_true_eq] at *
  exact le_of_lt (lt_of_lt_of_le hx h)

/-- Search range kept by `nav`. -/
def RangeOk (c : InnerChain K) (k : K) (s e : Nat) : Prop :=
  noMerge c → 1 ≤ s ∧ s ≤ 1 + ubIdx c.baseItems.tail k ∧ 1 + ubIdx c.baseItems.tail k ≤ e ∧ e ≤ c.baseItems.length

theorem locate_spec {low : K × NodeId} {items : List (K × NodeId)} (hh : items.head? = some low)
    (hs : StrictKeys items.tail) {s e : Nat} {k : K}
    (hr : 1 ≤ s ∧ s ≤ 1 + ubIdx items.tail k ∧ 1 + ubIdx items.tail k ≤ e ∧ e ≤ items.length) :
    ∃ id, locate items s e k = some id ∧
      ((∃ x ∈ items.tail, x.2 = id ∧ x.1 ≤ k ∧ ∀ y ∈ items.tail, y.1 ≤ k → y.1 ≤ x.1) ∨
       (id = low.2 ∧ ∀ y ∈ items.tail, k < y.1)) := by
  cases items with
  | nil => simp at hh
  | cons a t =>
    simp at hh
    subst hh
    simp only [List.tail_cons, List.length_cons] at *
    obtain ⟨h0, h1, h2, h3⟩ := hr
    have hu := upperBound_tail (a := a) hs.sorted h0 h1 h2 h3
    unfold locate
    rw [if_neg (by simp), hu, Nat.add_comm 1]
    simp only
    cases hub : ubIdx t k with
    | zero =>
      refine ⟨a.2, by simp, Or.inr ⟨rfl, ?_⟩⟩
      intro y hy
      obtain ⟨i, hi⟩ := List.mem_iff_getElem?.mp hy
      exact ubIdx_le_get hs.sorted (by omega) hi
    | succ n =>
      have hlt : n < t.length := by have := ubIdx_le t k; omega
      have hx : t[n]? = some t[n] := List.getElem?_eq_getElem hlt
      refine ⟨t[n].2, by simp [hx], Or.inl ⟨t[n], List.getElem_mem hlt, rfl, lt_ubIdx hs.sorted (by omega) hx, ?_⟩⟩
      intro y hy hyk
      obtain ⟨i, hi⟩ := List.mem_iff_getElem?.mp hy
      have : i < ubIdx t k := by
        by_contra hc
        exact absurd hyk (not_le_of_gt (ubIdx_le_get hs.sorted (by omega) hi))
      exact sorted_get hs.sorted (by omega) hi hx

/-- What a search may rely on without assuming anything about neighbours: the child's range begins inside the
node's range and not above the key. -/
def NavOk (lo : NodeId → Option (Option K)) (lv : Option K) (c : InnerChain K) (k : K) (id : NodeId) : Prop :=
  id = c.low.2 ∨ ∃ key, lo id = some (some key) ∧ Above lv key ∧ key ≤ k

theorem range_start (c : InnerChain K) (k : K) (hb : c.baseItems.head? = some c.low) :
    RangeOk c k 1 c.baseItems.length := by
  intro _
  cases h : c.baseItems with
  | nil => rw [h] at hb; cases hb
  | cons a t =>
    have := ubIdx_le t k
    simp only [List.tail_cons, List.length_cons]
    omega

theorem nav_weak (k : K) : ∀ (c : InnerChain K) (lv : Option K) (s e : Nat), WF lo lv c → RangeOk c k s e →
    ∃ id, nav k c s e = some id ∧ NavOk lo lv c k id
  | base low high d items, lv, s, e, h, hr => by
    obtain ⟨id, h1, h2⟩ := locate_spec h.2.2.1 h.2.2.2.1 (hr trivial)
    refine ⟨id, h1, ?_⟩
    rcases h2 with ⟨x, hx, rfl, hxk, _⟩ | ⟨rfl, _⟩
    · exact Or.inr ⟨x.1, (h.2.2.2.2.1 x hx).1, (h.2.2.2.2.1 x hx).2.1, hxk⟩
    · exact Or.inl rfl
  | ins item next loc c, lv, s, e, h, hr => by
    simp only [nav]
    split
    · rename_i hle
      split
      · exact ⟨item.2, rfl, Or.inr ⟨item.1, h.2.1, h.2.2.1, hle⟩⟩
      · apply nav_weak k c lv _ _ h.1
        intro hm
        have hr := hr hm
        have hl := h.2.2.2.2.2 hm
        have : lbIdx c.baseItems.tail item.1 ≤ ubIdx c.baseItems.tail k := lbIdx_le_ubIdx' hle
        unfold lbIdx at this
        simp only [baseItems] at hr
        omega
    · rename_i hle
      apply nav_weak k c lv _ _ h.1
      intro hm
      have hr := hr hm
      have hl := h.2.2.2.2.2 hm
      have : ubIdx c.baseItems.tail k ≤ lbIdx c.baseItems.tail item.1 := ubIdx_le_lbIdx (lt_of_not_ge hle)
      unfold lbIdx at this
      simp only [baseItems] at hr
      omega
  | del item prev next loc c, lv, s, e, h, hr => by
    simp only [nav]
    split
    · rename_i hle
      refine ⟨prev.2, rfl, ?_⟩
      rcases hle.1 with h1 | h1
      · exact Or.inl h1.symm
      · rcases h.2.2.1 with h2 | h2
        · exact Or.inl h2
        · exact Or.inr ⟨prev.1, h2.1, h2.2, h1⟩
    · split
      · rename_i hle
        apply nav_weak k c lv _ _ h.1
        intro hm
        have hr := hr hm
        have hl := h.2.2.2 hm
        have : lbIdx c.baseItems.tail item.1 ≤ ubIdx c.baseItems.tail k := lbIdx_le_ubIdx' hle
        unfold lbIdx at this
        simp only [baseItems] at hr
        omega
      · rename_i hle
        apply nav_weak k c lv _ _ h.1
        intro hm
        have hr := hr hm
        have hl := h.2.2.2 hm
        have : ubIdx c.baseItems.tail k ≤ lbIdx c.baseItems.tail item.1 := ubIdx_le_lbIdx (lt_of_not_ge hle)
        unfold lbIdx at this
        simp only [baseItems] at hr
        omega
  | split item sib c, lv, s, e, h, hr => nav_weak k c lv s e h.1 hr
  | merge mk id r c, lv, s, e, h, hr => by
    simp only [nav]
    have ha := WF.above_mk h
    split
    · rename_i hle
      obtain ⟨id, h1, h2⟩ := nav_weak k r (some mk) _ _ h.2.1 (range_start r k (WF.low_spec h.2.1).2.2)
      refine ⟨id, h1, Or.inr ?_⟩
      rcases h2 with rfl | ⟨key, h3, h4, h5⟩
      · exact ⟨mk, (WF.low_spec h.2.1).1, ha, hle⟩
      · exact ⟨key, h3, ha.trans (le_of_lt (h4 mk rfl)), h5⟩
    · exact nav_weak k c lv _ _ h.1 (range_start c k (WF.low_spec h.1).2.2)
  | remove _ _, _, _, _, h, _ => h.elim
  | abort _ _, _, _, _, h, _ => h.elim

theorem IsTarget.unique {c : InnerChain K} (hs : StrictKeys c.seps) {k : K} {i j : NodeId}
    (h1 : IsTarget c k i) (h2 : IsTarget c k j) : i = j := by
  rcases h1 with ⟨x, hx, rfl, hxk, hxm⟩ | ⟨rfl, hx⟩
  · rcases h2 with ⟨y, hy, rfl, hyk, hym⟩ | ⟨rfl, hy⟩
    · rw [hs.inj hx hy (le_antisymm (hym x hx hxk) (hxm y hy hyk))]
    · exact absurd (hy x hx) (not_lt_of_ge hxk)
  · rcases h2 with ⟨y, hy, rfl, hyk, hym⟩ | ⟨rfl, hy⟩
    · exact absurd (hx y hy) (not_lt_of_ge hyk)
    · rfl

theorem nav_exact (hinv : lo INVALID = none) (k : K) : ∀ (c : InnerChain K) (lv : Option K) (s e : Nat), WF lo lv c → Exact c →
    RangeOk c k s e → AtLeast lv k → Below c.high k → ∃ id, nav k c s e = some id ∧ IsTarget c k id
  | base low high d items, lv, s, e, h, _, hr, hk, hb => by
    obtain ⟨id, h1, h2⟩ := locate_spec h.2.2.1 h.2.2.2.1 (hr trivial)
    exact ⟨id, h1, h2⟩
  | ins item next loc c, lv, s, e, h, hx, hr, hk, hb => by
    have hsp := WF.seps_spec h.1
    simp only [nav]
    have key : ∀ id, IsTarget c k id → (item.1 ≤ k → ∃ y ∈ c.seps, item.1 < y.1 ∧ y.1 ≤ k) → IsTarget (ins item next loc c) k id := by
      intro id hid hy
      rcases hid with ⟨x, hxm, rfl, hxk, hmax⟩ | ⟨rfl, hall⟩
      · refine Or.inl ⟨x, ?_, rfl, hxk, ?_⟩
        · simp only [seps, List.mem_append, List.mem_cons, List.mem_filter, decide_eq_true_eq]
          rcases lt_trichotomy x.1 item.1 with h1 | h1 | h1
          · exact Or.inl ⟨hxm, h1⟩
          · exact absurd ⟨x, hxm, h1⟩ h.2.2.2.2.1
          · exact Or.inr (Or.inr ⟨hxm, h1⟩)
        · intro y hy' hyk
          simp only [seps, List.mem_append, List.mem_cons, List.mem_filter, decide_eq_true_eq] at hy'
          rcases hy' with hy' | rfl | hy'
          · exact hmax y hy'.1 hyk
          · obtain ⟨z, hz, h1, h2⟩ := hy hyk
            exact le_trans (le_of_lt h1) (hmax z hz h2)
          · exact hmax y hy'.1 hyk
      · refine Or.inr ⟨rfl, ?_⟩
        intro y hy'
        simp only [seps, List.mem_append, List.mem_cons, List.mem_filter, decide_eq_true_eq] at hy'
        rcases hy' with hy' | rfl | hy'
        · exact hall y hy'.1
        · by_contra hc
          obtain ⟨z, hz, h1, h2⟩ := hy (le_of_not_gt hc)
          exact absurd (hall z hz) (not_lt_of_ge h2)
        · exact hall y hy'.1
    split
    · rename_i hle
      split
      · rename_i hn
        refine ⟨item.2, rfl, Or.inl ⟨item, by simp [seps], rfl, hle, ?_⟩⟩
        intro y hy hyk
        simp only [seps, List.mem_append, List.mem_cons, List.mem_filter, decide_eq_true_eq] at hy
        rcases hy with hy | rfl | hy
        · exact le_of_lt hy.2
        · exact le_refl _
        · exfalso
          rcases hx.2 with ⟨h0, z, hz, h1, h2, h3⟩ | ⟨_, _, h3⟩
          · rcases hn with hn | hn
            · exact absurd hn h0
            · rw [h1] at hn
              exact absurd (lt_of_lt_of_le hn (h3 y hy.1 hy.2)) (not_lt_of_ge hyk)
          · exact absurd hy.2 (not_lt_of_ge (h3 y hy.1))
      · rename_i hn
        have hr' : RangeOk c k (max s loc) e := by
          intro hm
          have hr := hr hm
          have hl := h.2.2.2.2.2 hm
          have : lbIdx c.baseItems.tail item.1 ≤ ubIdx c.baseItems.tail k := lbIdx_le_ubIdx' hle
          unfold lbIdx at this
          simp only [baseItems] at hr
          omega
        obtain ⟨id, h1, h2⟩ := nav_exact hinv k c lv _ _ h.1 hx.1 hr' hk hb
        refine ⟨id, h1, key id h2 ?_⟩
        intro _
        have hnn : next.2 ≠ INVALID ∧ next.1 ≤ k := ⟨fun e => hn (Or.inl e), le_of_not_gt fun e => hn (Or.inr e)⟩
        rcases hx.2 with ⟨h0, z, hz, h1, h2, h3⟩ | ⟨h1, h2, h3⟩
        · exact ⟨z, hz, h2, by rw [← h1]; exact hnn.2⟩
        · rcases hb with hb | hb
          · exact absurd (h1.mpr hb) hnn.1
          · exact absurd hb (not_lt_of_ge (by simp only [high]; rw [← h2 hnn.1]; exact hnn.2))
    · rename_i hle
      have hr' : RangeOk c k s (min e loc) := by
        intro hm
        have hr := hr hm
        have hl := h.2.2.2.2.2 hm
        have : ubIdx c.baseItems.tail k ≤ lbIdx c.baseItems.tail item.1 := ubIdx_le_lbIdx (lt_of_not_ge hle)
        unfold lbIdx at this
        simp only [baseItems] at hr
        omega
      obtain ⟨id, h1, h2⟩ := nav_exact hinv k c lv _ _ h.1 hx.1 hr' hk hb
      exact ⟨id, h1, key id h2 (fun h => absurd h hle)⟩
  | del item prev next loc c, lv, s, e, h, hx, hr, hk, hb => by
    have hsp := WF.seps_spec h.1
    have hmem : ∀ y, y ∈ (del item prev next loc c).seps ↔ y ∈ c.seps ∧ y.1 ≠ item.1 := by
      intro y; simp [seps, List.mem_filter]
    simp only [nav]
    split
    · rename_i hq
      refine ⟨prev.2, rfl, ?_⟩
      have hnext : ∀ y ∈ c.seps, item.1 < y.1 → k < y.1 := by
        intro y hy hiy
        rcases hx.2.2 with ⟨h0, z, hz, h1, h2, h3⟩ | ⟨h1, h2, h3⟩
        · rcases hq.2 with hn | hn
          · exact absurd hn h0
          · exact lt_of_lt_of_le (by rw [← h1]; exact hn) (h3 y hy hiy)
        · exact absurd hiy (not_lt_of_ge (h3 y hy))
      rcases hx.2.1 with ⟨h1, h2, h3⟩ | ⟨h1, h3⟩
      · refine Or.inl ⟨prev, (hmem _).mpr ⟨h1, ne_of_lt h2⟩, rfl, ?_, ?_⟩
        · rcases hq.1 with h4 | h4
          · exfalso
            have h5 := (hsp.2 prev h1).1
            have h6 := (WF.low_spec h.1).1
            unfold SepOk at h5
            rw [h4, h5] at h6
            exact absurd ((hsp.2 prev h1).2.1 prev.1 (by simpa using h6.symm)) (lt_irrefl _)
          · exact h4
        · intro y hy hyk
          obtain ⟨hy1, hy2⟩ := (hmem _).mp hy
          rcases lt_trichotomy y.1 item.1 with h7 | h7 | h7
          · exact h3 y hy1 h7
          · exact absurd h7 hy2
          · exact absurd (hnext y hy1 h7) (not_lt_of_ge hyk)
      · refine Or.inr ⟨h1, ?_⟩
        intro y hy
        obtain ⟨hy1, hy2⟩ := (hmem _).mp hy
        exact hnext y hy1 (lt_of_le_of_ne (h3 y hy1) (Ne.symm hy2))
    · rename_i hq
      have key : ∀ id, IsTarget c k id → IsTarget (del item prev next loc c) k id := by
        intro id hid
        rcases hid with ⟨x, hxm, rfl, hxk, hmax⟩ | ⟨rfl, hall⟩
        · refine Or.inl ⟨x, (hmem _).mpr ⟨hxm, ?_⟩, rfl, hxk, ?_⟩
          · intro e
            -- the target is the deleted separator: then the quick exit would have fired
            apply hq
            refine ⟨?_, ?_⟩
            · rcases hx.2.1 with ⟨h1, h2, h3⟩ | ⟨h1, h3⟩
              · exact Or.inr (le_trans (le_of_lt h2) (by rw [← e]; exact hxk))
              · exact Or.inl h1.symm
            · rcases hx.2.2 with ⟨h0, z, hz, h1, h2, h3⟩ | ⟨h1, h2, h3⟩
              · right
                by_contra hc
                exact absurd (hmax z hz (by rw [← h1]; exact le_of_not_gt hc)) (not_le_of_gt (by rw [e]; exact h2))
              · by_cases hni : next.2 = INVALID
                · exact Or.inl hni
                · rcases hb with hb | hb
                  · exact absurd (h1.mpr hb) hni
                  · exact Or.inr (by rw [h2 hni]; exact hb)
          · intro y hy hyk
            exact hmax y ((hmem _).mp hy).1 hyk
        · exact Or.inr ⟨rfl, fun y hy => hall y ((hmem _).mp hy).1⟩
      split
      · rename_i hle
        have hr' : RangeOk c k (max loc s) e := by
          intro hm
          have hr := hr hm
          have hl := h.2.2.2 hm
          have : lbIdx c.baseItems.tail item.1 ≤ ubIdx c.baseItems.tail k := lbIdx_le_ubIdx' hle
          unfold lbIdx at this
          simp only [baseItems] at hr
          omega
        obtain ⟨id, h1, h2⟩ := nav_exact hinv k c lv _ _ h.1 hx.1 hr' hk hb
        exact ⟨id, h1, key id h2⟩
      · rename_i hle
        have hr' : RangeOk c k s (min loc e) := by
          intro hm
          have hr := hr hm
          have hl := h.2.2.2 hm
          have : ubIdx c.baseItems.tail k ≤ lbIdx c.baseItems.tail item.1 := ubIdx_le_lbIdx (lt_of_not_ge hle)
          unfold lbIdx at this
          simp only [baseItems] at hr
          omega
        obtain ⟨id, h1, h2⟩ := nav_exact hinv k c lv _ _ h.1 hx.1 hr' hk hb
        exact ⟨id, h1, key id h2⟩
  | split item sib c, lv, s, e, h, hx, hr, hk, hb => by
    have hb' : k < item.1 := hb.resolve_left (SepOk.ne hinv h.2.2.1)
    obtain ⟨id, h1, h2⟩ := nav_exact hinv k c lv s e h.1 hx hr hk (h.2.2.2.2.trans (le_of_lt hb'))
    refine ⟨id, h1, ?_⟩
    rcases h2 with ⟨x, hxm, rfl, hxk, hmax⟩ | ⟨rfl, hall⟩
    · refine Or.inl ⟨x, ?_, rfl, hxk, fun y hy => hmax y (List.mem_filter.mp hy).1⟩
      simp only [seps, List.mem_filter, decide_eq_true_eq]
      exact ⟨hxm, lt_of_le_of_lt hxk hb'⟩
    · exact Or.inr ⟨rfl, fun y hy => hall y (List.mem_filter.mp hy).1⟩
  | merge mk id r c, lv, s, e, h, hx, hr, hk, hb => by
    have hsc := WF.seps_spec h.1
    have hsr := WF.seps_spec h.2.1
    have hc : ∀ x ∈ c.seps, x.1 < mk := by
      intro x hx
      have := (hsc.2 x hx).2.2
      rw [h.2.2.1] at this
      exact this.resolve_left h.2.2.2
    simp only [nav]
    split
    · rename_i hle
      obtain ⟨id', h1, h2⟩ := nav_exact hinv k r (some mk) _ _ h.2.1 hx.1 (range_start r k (WF.low_spec h.2.1).2.2)
        (fun l hl => by cases hl; exact hle) hb
      refine ⟨id', h1, Or.inl ?_⟩
      rcases h2 with ⟨x, hxm, rfl, hxk, hmax⟩ | ⟨rfl, hall⟩
      · refine ⟨x, by simp [seps, hxm], rfl, hxk, ?_⟩
        intro y hy hyk
        simp only [seps, List.mem_append, List.mem_cons] at hy
        rcases hy with hy | rfl | hy
        · exact le_of_lt (lt_trans (hc y hy) ((hsr.2 x hxm).2.1 mk rfl))
        · exact le_of_lt ((hsr.2 x hxm).2.1 mk rfl)
        · exact hmax y hy hyk
      · refine ⟨(mk, r.low.2), by simp [seps], rfl, hle, ?_⟩
        intro y hy hyk
        simp only [seps, List.mem_append, List.mem_cons] at hy
        rcases hy with hy | rfl | hy
        · exact le_of_lt (hc y hy)
        · exact le_refl _
        · exact absurd (hall y hy) (not_lt_of_ge hyk)
    · rename_i hle
      have hlt : k < mk := lt_of_not_ge hle
      obtain ⟨id', h1, h2⟩ := nav_exact hinv k c lv _ _ h.1 hx.2 (range_start c k (WF.low_spec h.1).2.2) hk
        (by rw [h.2.2.1]; exact Or.inr hlt)
      refine ⟨id', h1, ?_⟩
      rcases h2 with ⟨x, hxm, rfl, hxk, hmax⟩ | ⟨rfl, hall⟩
      · refine Or.inl ⟨x, by simp [seps, hxm], rfl, hxk, ?_⟩
        intro y hy hyk
        simp only [seps, List.mem_append, List.mem_cons] at hy
        rcases hy with hy | rfl | hy
        · exact hmax y hy hyk
        · exact absurd hyk hle
        · exact absurd (le_trans (le_of_lt ((hsr.2 y hy).2.1 mk rfl)) hyk) hle
      · refine Or.inr ⟨rfl, ?_⟩
        intro y hy
        simp only [seps, List.mem_append, List.mem_cons] at hy
        rcases hy with hy | rfl | hy
        · exact hall y hy
        · exact hlt
        · exact lt_trans hlt ((hsr.2 y hy).2.1 mk rfl)
  | remove _ _, _, _, _, h, _, _, _, _ => h.elim
  | abort _ _, _, _, _, h, _, _, _, _ => h.elim

end InnerChain
end BwTree
