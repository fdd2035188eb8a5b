import Verif.Proofs.InnerFind
import Mathlib.Data.List.Perm.Subperm
import Mathlib.Data.Nat.Basic
import Mathlib.Data.Int.Order.Basic

/-!
  Inner node properties: C08 (arrays), C10 (split), C12 (search), C13 (left sibling), and the backward search used by
  `--` (part of C17).

  `InnerChain.seps` (the separators left after replaying the delta records), `IsTarget`, `IsLeftOf` are in `Verif.Spec.Inner`.
-/

namespace BwTree

open InnerChain

variable {K : Type} [LinearOrder K] {lo : NodeId → Option (Option K)}

/-- C12. Searching a chain for a key in its range finds the child with the largest separator not above the key, and the
consolidated node gives the same child. -/
theorem C12_search (hinv : lo INVALID = none) {lv : Option K} {c : InnerChain K} (h : WF lo lv c) (hx : Exact c) {k : K}
    (hk : AtLeast lv k) (hb : Below c.high k) :
    ∃ id, navigate k c = some id ∧ IsTarget c k id ∧ (∀ j, IsTarget c k j → j = id) ∧
      ∀ d, ∃ b, consolidate d c = some b ∧ b.low = c.low ∧ b.high = c.high ∧ b.seps = c.seps ∧ navigate k b = some id := by
  obtain ⟨id, h1, h2⟩ := nav_exact hinv k c lv _ _ h hx (range_start c k (WF.low_spec h).2.2) hk hb
  have hs := (WF.seps_spec h).1
  refine ⟨id, h1, h2, fun j hj => IsTarget.unique hs hj h2, ?_⟩
  intro d
  refine ⟨_, consolidate_spec hinv h d, rfl, rfl, rfl, ?_⟩
  have hw := consolidated_wf h d
  obtain ⟨id', h3, h4⟩ := nav_exact hinv k _ lv 1 (c.low :: c.seps).length hw trivial (range_start _ k (WF.low_spec hw).2.2) hk hb
  have : id' = id := IsTarget.unique hs (c := c) h4 h2
  subst this
  exact h3

/-- C12. Without any assumption on the neighbours recorded in the deltas: the search is defined and never goes to a
child whose range begins above the key. -/
theorem C12_no_overshoot {lv : Option K} {c : InnerChain K} (h : WF lo lv c) {k : K} (hk : AtLeast lv k) :
    ∃ id lk, navigate k c = some id ∧ lo id = some lk ∧ AtLeast lk k := by
  obtain ⟨id, h1, h2⟩ := nav_weak k c lv _ _ h (range_start c k (WF.low_spec h).2.2)
  rcases h2 with rfl | ⟨key, h3, _, h5⟩
  · exact ⟨_, lv, h1, (WF.low_spec h).1, hk⟩
  · exact ⟨id, some key, h1, h3, fun l hl => by cases hl; exact h5⟩

/-- C12. The existence search finds a separator with the given key exactly if there is one. -/
theorem C12_existence (hinv : lo INVALID = none) {lv : Option K} {c : InnerChain K} (h : WF lo lv c) {k : K}
    (hk : Above lv k) (hb : Below c.high k) :
    ∃ r loc, findSep k c = some (r, loc) ∧ ∀ id, r = some (k, id) ↔ (k, id) ∈ c.seps := by
  obtain ⟨r, loc, h1, h2, h3, _⟩ := findSep_spec hinv h hk hb
  refine ⟨r, loc, h1, ?_⟩
  intro id
  constructor
  · intro e; exact (h2 _ e).1
  · intro hm
    cases r with
    | none => exact absurd ⟨_, hm, rfl⟩ (h3 rfl)
    | some x =>
      obtain ⟨h5, h6⟩ := h2 x rfl
      rw [(WF.seps_spec h).1.inj h5 hm h6]

/-- C08 / C12. Consolidation of an inner chain never runs out of the scratch array (sized by the chain depth), never
overruns the new node (sized by the item count), and produces the replayed separators in key order. -/
theorem C08_inner_consolidation (hinv : lo INVALID = none) {lv : Option K} {c : InnerChain K} (h : WF lo lv c) :
    collectSeps c = some (c.low :: c.seps) ∧ ((c.low :: c.seps).length : Int) = c.itemCount ∧
      c.seps.Pairwise (fun a b => a.1 < b.1) := by
  refine ⟨collectSeps_spec hinv h, ?_, (WF.seps_spec h).1⟩
  have := WF.seps_length h
  simp only [List.length_cons]
  push_cast
  omega

theorem smallSet_insert_length {α : Type} (lt eq : α → α → Bool) (v : α) (l : List α) : (SmallSet.insert lt eq v l).length ≤ l.length + 1 := by
  induction l with
  | nil => exact Nat.le_refl _
  | cons x xs ih =>
    simp only [SmallSet.insert]
    split
    · split
      · exact Nat.le_refl _
      · exact Nat.le_succ _
    · simp only [List.length_cons]; omega

/-- Consolidation of an inner chain, when it is defined, never uses more cells of its stack array than there are. -/
theorem C08_inner_scratch_fits (cap : Nat) (l0 : NodeId) : ∀ (c : InnerChain K) (hi : K × NodeId) (st st' : SepState K), st.used ≤ cap →
    collectSepsRec cap l0 c hi st = some st' → st'.used ≤ cap := by
  intro c
  induction c with
  | base low high d items =>
    intro hi st st' h e
    simp only [collectSepsRec, collectSepsBase] at e
    split at e
    · split at e
      · cases e
      · cases e; exact h
    · cases e
  | ins item a b c ih =>
    intro hi st st' h e
    simp only [collectSepsRec] at e
    split at e
    · refine ih _ _ _ ?_ e
      have := smallSet_insert_length sepLt sepEq (⟨item, true⟩ : SepRec K) st.sss
      show st.used + _ ≤ cap
      omega
    · cases e
  | del item a b d c ih =>
    intro hi st st' h e
    simp only [collectSepsRec] at e
    split at e
    · refine ih _ _ _ ?_ e
      have := smallSet_insert_length sepLt sepEq (⟨item, false⟩ : SepRec K) st.sss
      show st.used + _ ≤ cap
      omega
    · cases e
  | split item d c ih => intro hi st st' h e; exact ih _ _ _ h e
  | merge k id r c ih1 ih2 =>
    intro hi st st' h e
    simp only [collectSepsRec] at e
    split at e
    · cases e
    · next st1 h1 => first | exact ih1 _ _ _ (ih2 _ _ _ h h1) e | exact ih2 _ _ _ (ih1 _ _ _ h h1) e
  | remove a c ih => intro hi st st' h e; cases e
  | abort a c ih => intro hi st st' h e; cases e

/-- The keys, up to `k`, of the separator records above the base node or the first merge record. -/
def leftKeys (k : K) : InnerChain K → List K
  | .ins item _ _ c => if item.1 ≤ k then item.1 :: leftKeys k c else leftKeys k c
  | .del item _ _ _ c => if item.1 ≤ k then item.1 :: leftKeys k c else leftKeys k c
  | .split _ _ c => leftKeys k c
  | _ => []

theorem leftKeys_length {cap : Nat} {k : K} : ∀ (c : InnerChain K) (sss : List (SepRec K)) {r : LeftRes}, leftRec cap k c sss = some r →
    sss.length ≤ cap → ∀ l : List K, l.Nodup → (∀ x ∈ l, x ∈ leftKeys k c ∨ ∃ s ∈ sss, s.item.1 = x) → l.length ≤ cap := by
  have stop : ∀ (sss : List (SepRec K)), sss.length ≤ cap → ∀ l : List K, l.Nodup → (∀ x ∈ l, x ∈ ([] : List K) ∨ ∃ s ∈ sss, s.item.1 = x) → l.length ≤ cap := by
    intro sss h l hl hs
    have hsub : l ⊆ sss.map (fun s => s.item.1) := by
      intro x hx
      rcases hs x hx with h1 | ⟨s, h1, rfl⟩
      · cases h1
      · exact List.mem_map_of_mem h1
    have := (hl.subperm hsub).length_le
    rw [List.length_map] at this
    omega
  have push : ∀ (item : K × NodeId) (b : Bool) (sss : List (SepRec K)) (x : K), (item.1 = x ∨ ∃ s ∈ sss, s.item.1 = x) →
      ∃ s ∈ SmallSet.insert sepGt sepEq (⟨item, b⟩ : SepRec K) sss, s.item.1 = x := by
    intro item b sss x h
    rcases h with rfl | ⟨s, hs, rfl⟩
    · induction sss with
      | nil => exact ⟨_, List.mem_singleton.2 rfl, rfl⟩
      | cons y ys ih =>
        simp only [SmallSet.insert]
        split
        · split
          · exact ⟨_, List.mem_cons_self, rfl⟩
          · next he => exact ⟨y, List.mem_cons_self, of_decide_eq_true ((Bool.not_eq_false _).mp he)⟩
        · obtain ⟨s, h1, h2⟩ := ih
          exact ⟨s, List.mem_cons_of_mem _ h1, h2⟩
    · exact ⟨s, SmallSet.subset_insert hs, rfl⟩
  intro c
  induction c with
  | base low high d items => intro sss r _ h; exact stop sss h
  | ins item a b c ih =>
    intro sss r e h l hl hs
    simp only [leftRec] at e
    simp only [leftKeys] at hs
    split at e
    · next hk =>
      rw [if_pos hk] at hs
      split at e
      · refine ih _ e (by have := smallSet_insert_length sepGt sepEq (⟨item, true⟩ : SepRec K) sss; omega) l hl ?_
        intro x hx
        rcases hs x hx with h1 | h1
        · rcases List.mem_cons.1 h1 with rfl | h1
          · exact .inr (push item true sss _ (.inl rfl))
          · exact .inl h1
        · exact .inr (push item true sss _ (.inr h1))
      · cases e
    · next hk => rw [if_neg hk] at hs; exact ih _ e h l hl hs
  | del item a b d c ih =>
    intro sss r e h l hl hs
    simp only [leftRec] at e
    simp only [leftKeys] at hs
    split at e
    · next hk =>
      rw [if_pos hk] at hs
      split at e
      · refine ih _ e (by have := smallSet_insert_length sepGt sepEq (⟨item, false⟩ : SepRec K) sss; omega) l hl ?_
        intro x hx
        rcases hs x hx with h1 | h1
        · rcases List.mem_cons.1 h1 with rfl | h1
          · exact .inr (push item false sss _ (.inl rfl))
          · exact .inl h1
        · exact .inr (push item false sss _ (.inr h1))
      · cases e
    · next hk => rw [if_neg hk] at hs; exact ih _ e h l hl hs
  | split item d c ih => intro sss r e h l hl hs; exact ih sss e h l hl hs
  | merge k id r c _ _ => intro sss r _ h; exact stop sss h
  | remove a c ih => intro sss r e; cases e
  | abort a c ih => intro sss r e; cases e

/-- FindLeftSibling, when it is defined, never puts more records into its stack array than it holds (the array is sized by the chain depth). -/
theorem C13_scratch_fits {k : K} {c : InnerChain K} {r : LeftRes} (h : leftStart k c = some r) :
    ∀ l : List K, l.Nodup → (∀ x ∈ l, x ∈ leftKeys k c) → l.length ≤ c.depth := by
  intro l hl hs
  unfold leftStart at h
  split at h
  · exact leftKeys_length c [] h (Nat.zero_le _) l hl fun x hx => .inl (hs x hx)
  · cases h

/-- Two records, both at or below the key searched. -/
example : ∃ r, leftStart (K := Nat) 9 (.ins (7, 4) (20, 6) 0 (.ins (5, 3) (20, 6) 0 (.base (0, 1) (0, INVALID) 0 [(0, 1), (20, 6)]))) = some r ∧
    leftKeys (K := Nat) 9 (.ins (7, 4) (20, 6) 0 (.ins (5, 3) (20, 6) 0 (.base (0, 1) (0, INVALID) 0 [(0, 1), (20, 6)]))) = [7, 5] := ⟨_, rfl, rfl⟩

/-- C13. If the separator is in the parent, the node found as its left sibling is the child with the next smaller
separator (or the leftmost child). -/
theorem C13_left_sibling (hinv : lo INVALID = none) {lv : Option K} {c : InnerChain K} (h : WF lo lv c) {k : K}
    (hk : HasKey c k) : ∃ id, leftSibling k c = some id ∧ IsLeftOf c k id := by
  obtain ⟨z, hz, hzk⟩ := hk
  have hb : Below c.high k := by rw [← hzk]; exact ((WF.seps_spec h).2 z hz).2.2
  exact leftSibling_exact hinv h hb ⟨z, hz, hzk⟩

/-- C13. Even if the separator is missing, a returned node lies strictly left of the key. -/
theorem C13_left_sibling_below (hinv : lo INVALID = none) {lv : Option K} {c : InnerChain K} (h : WF lo lv c) {k : K}
    (hk : Above lv k) (hb : Below c.high k) {id : NodeId} (hl : leftSibling k c = some id) :
    ∃ lk, lo id = some lk ∧ Above lk k := by
  rcases leftSibling_weak hinv h hb hl with rfl | ⟨key, h1, _, h3⟩
  · exact ⟨lv, (WF.low_spec h).1, hk⟩
  · exact ⟨some key, h1, fun l hl => by cases hl; exact h3⟩

/-- C13. The condition "separator present" is needed: if no separator lies at or below the key the code reads before the
beginning of the array. -/
theorem C13_missing_separator (hinv : lo INVALID = none) {lv : Option K} {c : InnerChain K} (h : WF lo lv c) {k : K}
    (hb : Below c.high k) (hno : ∀ x ∈ c.seps, k < x.1) : leftSibling k c = none := by
  obtain ⟨L, _, l2, l3⟩ := leftSibling_eq hinv h hb
  cases L with
  | nil => rw [l3]; rfl
  | cons x L =>
    obtain ⟨h1, h2⟩ := (l2 x).mp (by simp)
    exact absurd (hno x h1) (not_lt_of_ge h2)

/-- C10. Splitting an inner node with at least two separators: the split succeeds, every separator is in exactly one of
the two halves, and every search reaches the same child as before, in the left half (now carrying the split delta) or in the
sibling. -/
theorem C10_inner_split (hinv : lo INVALID = none) {lv : Option K} {low high : K × NodeId} {d : Nat} {items : List (K × NodeId)}
    (h : WF lo lv (base low high d items)) (h2 : 2 ≤ items.length) (newId : NodeId) (hnew : newId ≠ INVALID)
    (hfresh : lo newId = none) :
    ∃ sib, splitSibling (base low high d items) = some sib ∧
      (let left := splitDelta newId sib (base low high d items)
       (∀ x, x ∈ (base low high d items).seps ↔ (x ∈ left.seps ∨ x = sib.low ∨ x ∈ sib.seps)) ∧
       (∀ x ∈ left.seps, x.1 < sib.low.1) ∧ (∀ x ∈ sib.seps, sib.low.1 < x.1) ∧
       left.low = low ∧ left.high = (sib.low.1, newId) ∧ sib.high = high ∧
       (∀ k, AtLeast lv k → Below high k → ∃ id, navigate k (base low high d items) = some id ∧
         (if k < sib.low.1 then navigate k left else navigate k sib) = some id) ∧
       WF (fun i => if i = newId then some (some sib.low.1) else lo i) lv left ∧
       WF (fun i => if i = newId then some (some sib.low.1) else lo i) (some sib.low.1) sib) := by
  obtain ⟨x, hx, hxt, hsp, hws, ha, hbx, hcount, happ⟩ := splitSibling_spec h h2
  refine ⟨_, hsp, ?_⟩
  have hmono : ∀ (lv : Option K) (c : InnerChain K), WF lo lv c → WF (fun i => if i = newId then some (some x.1) else lo i) lv c := by
    have hso : ∀ p : K × NodeId, SepOk lo p → SepOk (fun i => if i = newId then some (some x.1) else lo i) p := by
      intro p hp
      unfold SepOk at *
      have : p.2 ≠ newId := by intro e; rw [e, hfresh] at hp; cases hp
      simp only [this, if_false]; exact hp
    intro lv c
    induction c generalizing lv with
    | base l hg dd it =>
      rintro ⟨q1, q2, q3, q4, q5, q6, q7⟩
      refine ⟨?_, q2, q3, q4, fun y hy => ⟨hso y (q5 y hy).1, (q5 y hy).2⟩, ?_, q7⟩
      · have : l.2 ≠ newId := by intro e; rw [e, hfresh] at q1; cases q1
        simp only [this, if_false]; exact q1
      · rcases q6 with q6 | q6
        · exact Or.inl q6
        · exact Or.inr (hso _ q6)
    | ins item next loc c ih => rintro ⟨q1, q2, q3⟩; exact ⟨ih lv q1, hso _ q2, q3⟩
    | del item prev next loc c ih =>
      rintro ⟨q1, q2, q3, q4⟩
      exact ⟨ih lv q1, q2, q3.imp id (fun q => ⟨hso _ q.1, q.2⟩), q4⟩
    | split item sib c ih => rintro ⟨q1, q2, q3, q4⟩; exact ⟨ih lv q1, q2, hso _ q3, q4⟩
    | merge mk id r c ih1 ih2 => rintro ⟨q1, q2, q3⟩; exact ⟨ih2 lv q1, ih1 _ q2, q3⟩
    | remove => intro q; exact q.elim
    | abort => intro q; exact q.elim
  generalize hsib : base x high 0 (items.drop (items.length / 2)) = sib at *
  have hlow : sib.low = x := by rw [← hsib]; rfl
  have hhigh : sib.high = high := by rw [← hsib]; rfl
  have hseps : sib.seps = (items.drop (items.length / 2)).tail := by rw [← hsib]; rfl
  have hdrop : items.drop (items.length / 2) = x :: sib.seps := by
    have : (items.drop (items.length / 2)).head? = some x := by
      have := hws; rw [← hsib] at this; exact this.2.2.1
    cases hd : items.drop (items.length / 2) with
    | nil => rw [hd] at this; cases this
    | cons a t => rw [hd] at this hseps; simp at this; rw [hseps, this]; rfl
  have hcnt : sib.itemCount = ((items.drop (items.length / 2)).length : Int) := by rw [← hsib]; rfl
  have hlseps : (splitDelta newId sib (base low high d items)).seps = items.tail.filter (fun y => decide (y.1 < x.1)) := by
    simp [splitDelta, seps, hlow]
  simp only
  rw [hlow]
  have hwl : WF (fun i => if i = newId then some (some x.1) else lo i) lv (splitDelta newId sib (base low high d items)) := by
    refine ⟨hmono _ _ h, ⟨low, high, d, items, rfl, ?_⟩, ?_, ?_, ?_⟩
    · rw [hcnt, hlow]; exact hcount
    · simp [SepOk, hlow]
    · rw [hlow]; exact ha
    · rw [hlow]; exact hbx
  have hinv' : (fun i => if i = newId then some (some x.1) else lo i) INVALID = none := by
    simp [Ne.symm hnew, hinv]
  have hmemb : ∀ y, y ∈ (base low high d items).seps ↔ (y ∈ (splitDelta newId sib (base low high d items)).seps ∨ y = x ∨ y ∈ sib.seps) := by
    intro y
    rw [hlseps]
    show y ∈ items.tail ↔ _
    conv => lhs; rw [← happ]
    rw [List.mem_append, hdrop, List.mem_cons]
  have hsr := (WF.seps_spec hws)
  refine ⟨hmemb, ?_, ?_, rfl, by simp [splitDelta, InnerChain.high, hlow], hhigh, ?_, hwl, hmono _ _ hws⟩
  · intro y hy
    rw [hlseps] at hy
    simpa using (List.mem_filter.mp hy).2
  · intro y hy
    exact (hsr.2 y hy).2.1 x.1 rfl
  · intro k hk hb
    obtain ⟨id, h3, h4⟩ := nav_exact hinv k _ lv _ _ h trivial (range_start _ k (WF.low_spec h).2.2) hk hb
    refine ⟨id, h3, ?_⟩
    have hcs := (WF.seps_spec h).1
    split
    · rename_i hlt
      obtain ⟨id', h5, h6⟩ := nav_exact hinv' k _ lv _ _ hwl trivial (range_start _ k (WF.low_spec hwl).2.2) hk
        (by simp only [splitDelta, InnerChain.high, hlow]; exact Or.inr hlt)
      have : id' = id := by
        apply IsTarget.unique hcs (c := base low high d items) (k := k) _ h4
        rcases h6 with ⟨y, hy, rfl, hyk, hmax⟩ | ⟨rfl, hall⟩
        · refine Or.inl ⟨y, (hmemb y).mpr (Or.inl hy), rfl, hyk, ?_⟩
          intro z hz hzk
          rcases (hmemb z).mp hz with hz | rfl | hz
          · exact hmax z hz hzk
          · exact absurd hzk (not_le_of_gt hlt)
          · exact absurd (le_trans (le_of_lt ((hsr.2 z hz).2.1 x.1 rfl)) hzk) (not_le_of_gt hlt)
        · refine Or.inr ⟨rfl, ?_⟩
          intro z hz
          rcases (hmemb z).mp hz with hz | rfl | hz
          · exact hall z hz
          · exact hlt
          · exact lt_trans hlt ((hsr.2 z hz).2.1 x.1 rfl)
      subst this
      exact h5
    · rename_i hge
      have hge : x.1 ≤ k := le_of_not_gt hge
      obtain ⟨id', h5, h6⟩ := nav_exact hinv k sib (some x.1) _ _ hws (by rw [← hsib]; trivial)
        (range_start _ k (WF.low_spec hws).2.2) (fun l hl => by cases hl; exact hge) (by rw [hhigh]; exact hb)
      have hleft : ∀ z ∈ (splitDelta newId sib (base low high d items)).seps, z.1 < x.1 := by
        intro y hy
        rw [hlseps] at hy
        simpa using (List.mem_filter.mp hy).2
      have : id' = id := by
        apply IsTarget.unique hcs (c := base low high d items) (k := k) _ h4
        rcases h6 with ⟨y, hy, rfl, hyk, hmax⟩ | ⟨rfl, hall⟩
        · refine Or.inl ⟨y, (hmemb y).mpr (Or.inr (Or.inr hy)), rfl, hyk, ?_⟩
          intro z hz hzk
          have hxy := (hsr.2 y hy).2.1 x.1 rfl
          rcases (hmemb z).mp hz with hz | rfl | hz
          · exact le_of_lt (lt_trans (hleft z hz) hxy)
          · exact le_of_lt hxy
          · exact hmax z hz hzk
        · refine Or.inl ⟨x, (hmemb x).mpr (Or.inr (Or.inl rfl)), by rw [hlow], hge, ?_⟩
          intro z hz hzk
          rcases (hmemb z).mp hz with hz | rfl | hz
          · exact le_of_lt (hleft z hz)
          · exact le_refl _
          · exact absurd (hall z hz) (not_lt_of_ge hzk)
      subst this
      exact h5

/-! ### Backward search -/

theorem locateBI_spec {lv : Option K} {low high : K × NodeId} {d : Nat} {items : List (K × NodeId)}
    (h : WF lo lv (base low high d items)) {k : K} (hk : Above lv k) (hp : lv = none → low.1 ≠ k) :
    ∃ id, locateBI items k = some id ∧
      ((∃ x ∈ items.tail, x.2 = id ∧ x.1 < k ∧ ∀ y ∈ items.tail, y.1 < k → y.1 ≤ x.1) ∨
       (id = low.2 ∧ ∀ y ∈ items.tail, k ≤ y.1)) := by
  cases items with
  | nil => have := h.2.2.1; simp at this
  | cons a t =>
    have hal : a = low := by simpa using h.2.2.1
    subst hal
    have hst : StrictKeys t := h.2.2.2.1
    have hub := ubIdx_le t k
    have hak : a.1 ≠ k := by
      cases hlv : lv with
      | none => exact hp hlv
      | some l => rw [h.2.1 l hlv]; exact ne_of_lt (hk l hlv)
    simp only [locateBI, List.length_cons, Nat.add_one_ne_zero, if_false, List.tail_cons]
    rw [upperBound_tail hst.sorted (by omega) (by omega) (by omega) (by omega), Nat.add_comm 1]
    simp only
    -- position of the last separator below k
    have hlb : ∀ n, lbIdx t k = n → ∃ x, (a :: t)[n]? = some x ∧
        ((∃ x' ∈ t, x'.2 = x.2 ∧ x'.1 < k ∧ ∀ y ∈ t, y.1 < k → y.1 ≤ x'.1) ∨ (x.2 = a.2 ∧ ∀ y ∈ t, k ≤ y.1)) := by
      intro n hn
      cases n with
      | zero =>
        refine ⟨a, by simp, Or.inr ⟨rfl, ?_⟩⟩
        intro y hy
        obtain ⟨i, hi⟩ := List.mem_iff_getElem?.mp hy
        exact lbIdx_le_get hst.sorted (by omega) hi
      | succ n =>
        have hlt : n < t.length := by have := lbIdx_le t k; omega
        have hx : t[n]? = some t[n] := List.getElem?_eq_getElem hlt
        refine ⟨t[n], by simp [hx], Or.inl ⟨t[n], List.getElem_mem hlt, rfl, lt_lbIdx hst.sorted (by omega) hx, ?_⟩⟩
        intro y hy hyk
        obtain ⟨i, hi⟩ := List.mem_iff_getElem?.mp hy
        have : i < lbIdx t k := by
          by_contra hc
          exact absurd hyk (not_lt_of_ge (lbIdx_le_get hst.sorted (by omega) hi))
        exact sorted_get hst.sorted (by omega) hi hx
    cases hn : ubIdx t k with
    | zero =>
      have h0 : lbIdx t k = 0 := by have := lbIdx_le_ubIdx t k; omega
      obtain ⟨x, hx, hor⟩ := hlb 0 h0
      simp only [List.getElem?_cons_zero, if_neg hak]
      simp at hx
      subst hx
      exact ⟨a.2, rfl, hor⟩
    | succ n =>
      have hlt : n < t.length := by omega
      have hx : t[n]? = some t[n] := List.getElem?_eq_getElem hlt
      simp only [List.getElem?_cons_succ, hx]
      have hle : t[n].1 ≤ k := lt_ubIdx hst.sorted (by omega) hx
      by_cases he : t[n].1 = k
      · rw [if_pos he]
        have hl : lbIdx t k = n := by
          have h1 : lbIdx t k ≤ n := by
            by_contra hc
            have hc' : n < lbIdx t k := by omega
            exact absurd (lt_lbIdx hst.sorted hc' hx) (by rw [he]; exact lt_irrefl _)
          have h2 : n ≤ lbIdx t k := by
            by_contra hc
            have hlt' : lbIdx t k < t.length := by omega
            have hg : t[lbIdx t k]? = some t[lbIdx t k] := List.getElem?_eq_getElem hlt'
            have h3 := lbIdx_le_get hst.sorted (Nat.le_refl _) hg
            have h4 := List.pairwise_iff_getElem.mp hst (lbIdx t k) n hlt' hlt (by omega)
            rw [he] at h4
            exact absurd h4 (not_lt_of_ge h3)
          omega
        obtain ⟨x, hx', hor⟩ := hlb n hl
        exact ⟨x.2, by rw [hx'], hor⟩
      · rw [if_neg he]
        have hl : lbIdx t k = n + 1 := by
          have h1 := lbIdx_le_ubIdx t k
          have h2 : n + 1 ≤ lbIdx t k := by
            by_contra hc
            have hc' : lbIdx t k ≤ n := by omega
            have h3 := lbIdx_le_get hst.sorted hc' hx
            exact he (le_antisymm hle h3)
          omega
        obtain ⟨x, hx', hor⟩ := hlb (n + 1) hl
        have : x = t[n] := by simpa [hx] using hx'.symm
        subst this
        exact ⟨t[n].2, rfl, hor⟩

/-- C17 (search). Searching for the page left of key `k` never goes to a child whose range begins at or above `k`, unless the
default-constructed key stored as placeholder in a leftmost node happens to equal `k`. -/
theorem C17_backward_search_partial {k : K} : ∀ {c : InnerChain K} {lv : Option K}, WF lo lv c → Above lv k →
    (lv = none → c.low.1 ≠ k) → ∃ id lk, navBI k c = some id ∧ lo id = some lk ∧ Above lk k
  | base low high d items, lv, h, hk, hp => by
    obtain ⟨id, h1, h2⟩ := locateBI_spec h hk hp
    rcases h2 with ⟨x, hx, rfl, hxk, _⟩ | ⟨rfl, _⟩
    · exact ⟨_, some x.1, h1, (h.2.2.2.2.1 x hx).1, fun l hl => by cases hl; exact hxk⟩
    · exact ⟨_, lv, h1, h.1, hk⟩
  | ins item next loc c, lv, h, hk, hp => by
    simp only [navBI]
    split
    · rename_i hc
      exact ⟨item.2, some item.1, rfl, h.2.1, fun l hl => by cases hl; exact hc.2⟩
    · exact C17_backward_search_partial h.1 hk hp
  | del item prev next loc c, lv, h, hk, hp => by
    simp only [navBI]
    split
    · rename_i hc
      have hlow := (WF.low_spec h.1).1
      rcases hc.1 with h1 | h1
      · exact ⟨_, lv, rfl, by rw [← h1]; exact hlow, hk⟩
      · rcases h.2.2.1 with h2 | h2
        · exact ⟨_, lv, rfl, by rw [h2]; exact hlow, hk⟩
        · exact ⟨prev.2, some prev.1, rfl, h2.1, fun l hl => by cases hl; exact h1⟩
    · exact C17_backward_search_partial h.1 hk hp
  | split item sib c, lv, h, hk, hp => C17_backward_search_partial (c := c) h.1 hk hp
  | merge mk id r c, lv, h, hk, hp => by
    simp only [navBI]
    split
    · rename_i hlt
      exact C17_backward_search_partial h.2.1 (fun l hl => by cases hl; exact hlt) (fun h => by cases h)
    · exact C17_backward_search_partial h.1 hk hp
  | remove _ _, _, h, _, _ => h.elim
  | abort _ _, _, h, _, _ => h.elim

/-! ### Concrete chains -/

/-- A parent of children 2 (leftmost), 3 at 10, 4 at 20, 5 at 30; child 4 was merged into child 3. -/
def exMerged : InnerChain Nat :=
  del (20, 4) (10, 3) (30, 5) 2 (base (0, 2) (0, INVALID) 0 [(0, 2), (10, 3), (20, 4), (30, 5)])

/-- Ranges of the children of the examples. -/
def exLo : NodeId → Option (Option Nat)
  | 2 => some none
  | 3 => some (some 10)
  | 4 => some (some 20)
  | 5 => some (some 30)
  | 6 => some (some 15)
  | 7 => some (some 40)
  | 8 => some (some 50)
  | _ => none

theorem exMerged_wf : WF exLo none exMerged ∧ Exact exMerged := by
  refine ⟨⟨⟨rfl, by simp, rfl, by simp, ?_, Or.inl rfl, by simp⟩, ⟨(20, 4), by simp [seps], rfl⟩,
    Or.inr ⟨rfl, (by intro l hl; cases hl)⟩, fun _ => by decide⟩, trivial, ?_, ?_⟩
  · intro x hx
    simp at hx
    rcases hx with rfl | rfl | rfl <;> exact ⟨rfl, (by intro l hl; cases hl), Or.inl rfl⟩
  · refine Or.inl ⟨by simp [seps], by simp, ?_⟩
    simp [seps]
  · refine Or.inl ⟨by simp [INVALID], (30, 5), by simp [seps], rfl, by simp, ?_⟩
    simp [seps]

/-- C17 fails: after child 4 was merged away, the search for the page left of key 30 (the first key of child 5) is sent to the
removed child 4, which is no longer a child of the node; the page left of it is child 3. -/
theorem C17_backward_search_wrong :
    WF exLo none exMerged ∧ Exact exMerged ∧ navBI 30 exMerged = some 4 ∧ (∀ x ∈ exMerged.seps, x.2 ≠ 4) ∧
      exMerged.low.2 ≠ 4 ∧ IsLeftOf exMerged 30 3 := by
  refine ⟨exMerged_wf.1, exMerged_wf.2, by decide, by decide, by decide, Or.inl ⟨(10, 3), by decide, rfl, by decide, by decide⟩⟩

/-- C17 fails: if moreover the left neighbour of the removed child is the leftmost child, helping the removed child then reads
before the beginning of the separator array. -/
theorem C17_backward_helping_undefined :
    navBI 20 (del (10, 3) (0, 2) (20, 4) 1 (base (0, 2) (0, INVALID) 0 [(0, 2), (10, 3), (20, 4)])) = some 3 ∧
    leftSibling 10 (del (10, 3) (0, 2) (20, 4) 1 (base (0, 2) (0, INVALID) 0 [(0, 2), (10, 3), (20, 4)])) = none := by
  decide

/-- C17 fails: the placeholder key of the leftmost separator is compared with the search key. -/
theorem C17_backward_placeholder :
    navBI (0 : Int) (base (0, 2) (0, INVALID) 0 [(0, 2), (10, 3)]) = none ∧
    navBI (-1 : Int) (base (0, 2) (0, INVALID) 0 [(0, 2), (10, 3)]) = some 2 := by
  decide

/-- The hypotheses of the theorems above are met by a chain with a merge, an insert and a delete record. -/
def exChain : InnerChain Nat :=
  ins (15, 6) (30, 5) 0 (merge 30 9 (base (30, 5) (50, 8) 0 [(30, 5), (40, 7)])
    (del (20, 4) (10, 3) (30, 5) 2 (base (0, 2) (30, 9) 0 [(0, 2), (10, 3), (20, 4)])))

def exLo2 : NodeId → Option (Option Nat) := fun i => if i = 9 then some (some 30) else exLo i

example : WF exLo2 none exChain ∧ Exact exChain := by
  refine ⟨⟨⟨⟨⟨rfl, by simp, rfl, by simp, ?_, Or.inr rfl, by simp⟩, ⟨(20, 4), by simp [seps], rfl⟩,
      Or.inr ⟨rfl, (by intro l hl; cases hl)⟩, fun _ => by decide⟩, ⟨rfl, by simp, rfl, by simp, ?_, Or.inr rfl, ?_⟩, rfl, by simp [INVALID]⟩,
      rfl, (by intro l hl; cases hl), Or.inr (by simp [high]), ?_, fun h => h.elim⟩, ⟨trivial, trivial, ?_, ?_⟩, ?_⟩
  · intro x hx
    simp at hx
    rcases hx with rfl | rfl
    · exact ⟨rfl, (by intro l hl; cases hl), Or.inr (by simp)⟩
    · exact ⟨rfl, (by intro l hl; cases hl), Or.inr (by simp)⟩
  · intro x hx
    simp at hx
    subst hx
    exact ⟨rfl, (by intro l hl; cases hl; simp), Or.inr (by simp)⟩
  · intro k hk; cases hk; exact Or.inr (by simp)
  · rintro ⟨x, hx, e⟩
    simp [seps, low] at hx
    rcases hx with rfl | rfl | rfl <;> simp at e
  · refine Or.inl ⟨by simp [seps], by simp, ?_⟩
    simp [seps]
  · refine Or.inr ⟨by simp [high, INVALID], fun _ => rfl, ?_⟩
    simp [seps]
  · refine Or.inl ⟨by simp [INVALID], (30, 5), by simp [seps, low], rfl, by simp, ?_⟩
    simp [seps, low]

example : navigate 17 exChain = some 6 ∧ navigate 25 exChain = some 6 ∧ navigate 12 exChain = some 3 ∧ navigate 45 exChain = some 7 ∧
    collectSeps exChain = some [(0, 2), (10, 3), (15, 6), (30, 5), (40, 7)] ∧ leftSibling 30 exChain = some 6 ∧
    findSep 20 exChain = some (none, 2) := by decide +kernel

end BwTree
