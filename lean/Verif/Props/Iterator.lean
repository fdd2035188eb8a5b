import Mathlib.Data.Nat.Basic
import Verif.Proofs.IterBack
import Verif.Proofs.IterExec
import Verif.Props.TreeWitness

/-!
  Properties of iterators: C14, C15, C16, C17, C19 and C32.

  `σ` is any execution of the concurrent tree (any threads, any calls, any interleaving), `t` the thread that uses the iterator. `Run (Asked σ n t) a p b out`
  says that `t`, executing the iterator program `p`, starts at time `a` and ends at time `b` with result `out` (`none` = undefined behaviour).
-/

namespace BwTree
namespace Iterator

open Tree

variable {K V : Type} [LinearOrder K] [DecidableEq V] [Inhabited K]
variable {σ : Nat → Conf K V} {n : Nat} {t : Tid}

/-- No Insert or Delete is running between the times `a` and `b` (other threads may read, iterate, and finish structure modifications on the
way). -/
def Quiet (σ : Nat → Conf K V) (a b : Nat) : Prop :=
  ∀ i, a ≤ i → i < b → ∀ u k v, ¬ Running (σ i).hist u (.api (.insert k v)) ∧ ¬ Running (σ i).hist u (.api (.delete k v))

/-- In a quiet period the stored set does not change. -/
theorem quiet_const (h : Exec σ n) {a b : Nat} (hq : Quiet σ a b) (hb : b ≤ n) {i : Nat} (h1 : a ≤ i) (h2 : i ≤ b) : At σ i = At σ a := by
  obtain ⟨d, rfl⟩ := Nat.exists_eq_add_of_le h1
  induction d with
  | zero => rfl
  | succ d ih =>
    rw [← ih (by omega) (by omega)]
    funext k v
    apply propext
    rcases C29_steps_keep_set (exec_reach h (show a + d ≤ n by omega)) (h.step (a + d) (by omega)) with e | ⟨u, x, y, e, _⟩ | ⟨u, x, y, e, _⟩
    · exact e k v
    · exact absurd e (hq (a + d) (by omega) (by omega) u x y).1
    · exact absurd e (hq (a + d) (by omega) (by omega) u x y).2

theorem Sweep.quiet {S : Nat → Spec.PairSet K V} {T : Spec.PairSet K V} {P : K → Prop} {l : List (K × V)} {a b : Nat}
    (h : Sweep S P l a b) (hc : ∀ i, a ≤ i → i ≤ b → S i = T) (x : K) (v : V) : (x, v) ∈ l ↔ P x ∧ T x v := by
  obtain ⟨τ, h1, _, h3⟩ := h
  rw [h3 x v, hc _ (h1 x).1 (h1 x).2]

theorem SweepBack.quiet {S : Nat → Spec.PairSet K V} {T : Spec.PairSet K V} {P : K → Prop} {l : List (K × V)} {a b : Nat}
    (h : SweepBack S P l a b) (hc : ∀ i, a ≤ i → i ≤ b → S i = T) (x : K) (v : V) : (x, v) ∈ l ↔ P x ∧ T x v := by
  obtain ⟨τ, h1, _, h3⟩ := h
  rw [h3 x v, hc _ (h1 x).1 (h1 x).2]

/-! ## C32: iteration concurrent with updates -/

/-- A scan from `k` that runs concurrently with anything never has undefined behaviour, yields keys in order and no pair twice; every
key from `k` on is looked up at one instant of the scan, larger keys later. -/
theorem C32_scanFrom (h : Exec σ n) {m fuel : Nat} {k : K} {a b : Nat} {out : Option (List (K × V))}
    (hr : Run (Asked σ n t) a (scanFrom m fuel k) b out) :
    ∃ l, out = some l ∧ Ascending l ∧ l.Nodup ∧ Sweep (At σ) (fun x => k ≤ x) l a b := by
  obtain ⟨l, h1, h2, h3, τ, h4, h5, h6⟩ := scanFrom_spec (answers h) hr
  refine ⟨l, h1, h2, h3, τ, h4, h5, fun x v => (h6 x v).trans ?_⟩
  refine and_congr_left (fun _ => ⟨fun h => h k rfl, fun h y e => ?_⟩)
  cases e
  exact h

/-- C32 in the words of the property. -/
theorem C32_concurrent_scan (h : Exec σ n) {m fuel : Nat} {k : K} {a b : Nat} {l : List (K × V)}
    (hr : Run (Asked σ n t) a (scanFrom m fuel k) b (some l)) :
    Ascending l ∧
    (∀ x v, (x, v) ∈ l → ∃ i, a ≤ i ∧ i ≤ b ∧ Stored (σ i).mem x v) ∧
    (∀ x v, k ≤ x → (∀ i, a ≤ i → i ≤ b → Stored (σ i).mem x v) → (x, v) ∈ l) := by
  obtain ⟨l', h1, h2, h3, τ, h4, h5, h6⟩ := C32_scanFrom h hr
  cases h1
  exact ⟨h2, fun x v hx => ⟨τ x, (h4 x).1, (h4 x).2, ((h6 x v).mp hx).2⟩, fun x v hk hx => (h6 x v).mpr ⟨hk, hx _ (h4 x).1 (h4 x).2⟩⟩

/-- The same for a scan from Begin(), if it does not hit an empty leftmost leaf. -/
theorem C32_concurrent_scanAll (h : Exec σ n) {m fuel : Nat} {a b : Nat} {l : List (K × V)}
    (hr : Run (Asked σ n t) a (scanAll m fuel) b (some l)) :
    Ascending l ∧ l.Nodup ∧
    (∀ x v, (x, v) ∈ l → ∃ i, a ≤ i ∧ i ≤ b ∧ Stored (σ i).mem x v) ∧
    (∀ x v, (∀ i, a ≤ i → i ≤ b → Stored (σ i).mem x v) → (x, v) ∈ l) := by
  rcases scanAll_spec (answers h) hr with ⟨l', h1, h2, h3, τ, h4, h5, h6⟩ | ⟨h1, _⟩
  · cases h1
    exact ⟨h2, h3, fun x v hx => ⟨τ x, (h4 x).1, (h4 x).2, ((h6 x v).mp hx).2⟩,
      fun x v hx => (h6 x v).mpr ⟨fun _ e => (by cases e), hx _ (h4 x).1 (h4 x).2⟩⟩
  · cases h1

/-! ## C14: forward iteration in a quiet tree -/

/-- Iterating from Begin() with `++` until IsEnd() visits every stored pair exactly once in key order. Partial: the loop must not end in
undefined behaviour; `C14_ub_only_empty_first` says when it does, and it does: `C15_begin_undefined`. -/
theorem C14_scan_partial (h : Exec σ n) {m fuel : Nat} {a b : Nat} {l : List (K × V)} (hb : b ≤ n) (hq : Quiet σ a b)
    (hr : Run (Asked σ n t) a (scanAll m fuel) b (some l)) :
    Ascending l ∧ l.Nodup ∧ ∀ x v, (x, v) ∈ l ↔ Stored (σ a).mem x v := by
  rcases scanAll_spec (answers h) hr with ⟨l', h1, h2, h3, h4⟩ | ⟨h1, _⟩
  · cases h1
    refine ⟨h2, h3, fun x v => ?_⟩
    rw [h4.quiet (fun i => quiet_const h hq hb) x v]
    exact ⟨fun h => h.2, fun h => ⟨fun _ e => (by cases e), h⟩⟩
  · cases h1

/-- The loop has undefined behaviour only if Begin() read an empty leftmost leaf that has a right sibling. -/
theorem C14_ub_only_empty_first (h : Exec σ n) {m fuel : Nat} {a b : Nat} (hr : Run (Asked σ n t) a (scanAll m fuel) b none) :
    ∃ pg a' b', a ≤ a' ∧ b' ≤ b ∧ Asked σ n t .first pg a' b' ∧ pg.items = [] ∧ pg.high.2 ≠ INVALID := by
  rcases scanAll_spec (answers h) hr with ⟨l', h1, _⟩ | ⟨_, h1⟩
  · cases h1
  · exact h1

/-! ## C15: Begin() -/

/-- `*tree.Begin()`, when it is defined, has the smallest key. Partial: see `C15_begin_undefined`. -/
theorem C15_begin_partial (h : Exec σ n) {a b : Nat} {x : K} {v : V} (hb : b ≤ n) (hq : Quiet σ a b)
    (hr : Run (Asked σ n t) a (begin >>= fun it => deref (some it)) b (some (x, v))) :
    Stored (σ a).mem x v ∧ ∀ y w, Stored (σ a).mem y w → x ≤ y := by
  obtain ⟨b1, o1, r1, _, r3⟩ := run_bind (p := begin) (f := fun it => deref (some it)) hr
  cases r1 with
  | ask h1 h2 h3 =>
    rename_i a' b' pg
    obtain ⟨i, g1, g2, g3, g4⟩ := answers h _ _ _ _ h2
    cases h3
    have r3 := r3 _ rfl
    cases hl : pg.items with
    | nil => simp [deref, It.item, hl] at r3; cases r3
    | cons y l =>
      simp [deref, It.item, hl] at r3
      cases r3
      rw [hl] at g4
      have e := quiet_const h hq hb (i := i) (by omega) (by omega)
      rw [e] at g4
      refine ⟨(g4.2.2.2 x v (g4.2.2.1 _ List.mem_cons_self)).mpr List.mem_cons_self, fun z w hz => ?_⟩
      by_cases hi : pg.high.2 = INVALID ∨ z < pg.high.1
      · rcases List.mem_cons.mp ((g4.2.2.2 z w ⟨Or.inl g3, hi⟩).mp hz) with hm | hm
        · cases hm; exact le_refl _
        · exact (List.pairwise_cons.mp g4.1).1 _ hm
      · have h1 := (g4.2.2.1 _ List.mem_cons_self).2.resolve_left (fun e => hi (Or.inl e))
        exact le_trans (le_of_lt h1) (not_lt.mp (fun h => hi (Or.inr h)))

/-- If Begin() is the end iterator, the tree is empty. -/
theorem C15_begin_isEnd (h : Exec σ n) {a b : Nat} {it : It K V} (hb : b ≤ n) (hq : Quiet σ a b)
    (hr : Run (Asked σ n t) a begin b (some it)) (he : isEnd (some it) = true) : ∀ y w, ¬ Stored (σ a).mem y w := by
  cases hr with
  | ask h1 h2 h3 =>
    rename_i a' b' pg
    obtain ⟨i, g1, g2, g3, g4⟩ := answers h _ _ _ _ h2
    cases h3
    simp only [isEnd, decide_eq_true_eq] at he
    have hl : pg.items = [] := List.length_eq_zero_iff.mp (by omega)
    have e := quiet_const h hq hb (i := i) (by omega) g2
    rw [e, hl] at g4
    intro y w hy
    have := (g4.2.2.2 y w ⟨Or.inl g3, Or.inl he.1⟩).mp hy
    cases this

/-- `IsBegin()` holds for the iterator that Begin() returns. -/
theorem C15_isBegin {A : Query K → Page K V → Nat → Nat → Prop} {S : Nat → Spec.PairSet K V} (hA : Answers A S) {a b : Nat} {it : It K V}
    (hr : Run A a begin b (some it)) : isBegin (some it) = true := by
  cases hr with
  | ask h1 h2 h3 =>
    obtain ⟨i, g1, g2, g3, g4⟩ := hA _ _ _ _ h2
    cases h3
    simp only [isBegin, decide_eq_true_eq]
    exact ⟨g3, trivial⟩

/-- The null iterator is at both ends: the loops in both directions visit nothing. -/
theorem C15_null (m fuel : Nat) : isBegin (none : Option (It K V)) = true ∧ scan (m + 1) fuel (none : Option (It K V)) = .ret [] ∧
    scanBack (m + 1) fuel (none : Option (It K V)) = .ret [] := ⟨rfl, rfl, rfl⟩

/-! ## C16: Begin(k) -/

/-- Begin(k) is the end iterator if no stored key is `≥ k`, else it points to a pair with the smallest such key. It is always defined. -/
theorem C16_begin (h : Exec σ n) {fuel : Nat} {k : K} {a b : Nat} {out : Option (It K V)} (hb : b ≤ n) (hq : Quiet σ a b)
    (hr : Run (Asked σ n t) a (beginAt fuel k) b out) :
    ∃ it, out = some it ∧
      ((isEnd (some it) = true ∧ ∀ y w, Stored (σ a).mem y w → y < k) ∨
       (isEnd (some it) = false ∧ ∃ x v, it.item = some (x, v) ∧ k ≤ x ∧ Stored (σ a).mem x v ∧ ∀ y w, Stored (σ a).mem y w → k ≤ y → x ≤ y)) := by
  exact beginAt_point (answers h) (fun i => quiet_const h hq hb) hr

/-- If `IsBegin()` holds for Begin(k), no stored key is smaller than `k`. Partial: the converse fails (`C16_isBegin_missed`). -/
theorem C16_isBegin_partial (h : Exec σ n) {fuel : Nat} {k : K} {a b : Nat} {it : It K V} (hb : b ≤ n) (hq : Quiet σ a b)
    (hr : Run (Asked σ n t) a (beginAt fuel k) b (some it)) (hB : isBegin (some it) = true) : ∀ y w, Stored (σ a).mem y w → k ≤ y := by
  obtain ⟨it', e, hv, hab, _⟩ := lowerBoundIt_spec (answers h) hr
  cases e
  obtain ⟨it', s, i, e, i1, i2, i3, i4, i5, i6, i7, i8, i9, i10⟩ := lowerBoundIt_pos (answers h) hr
  cases e
  simp only [isBegin, decide_eq_true_eq] at hB
  rw [show At σ i = At σ a from quiet_const h hq hb i1 i2] at i3
  intro y w hy
  apply not_lt.mp
  intro hlt
  have hs : k ≤ s := i9
  have hh : it.page.high.2 = INVALID ∨ y < it.page.high.1 := i4.2.imp_right (fun h => lt_trans (lt_of_lt_of_le hlt hs) h)
  have hm := (i3.2.2.2 y w ⟨Or.inl hB.1, hh⟩).mp hy
  have := i8 (y, w) (by rw [hB.2]; exact hm)
  exact absurd (lt_of_lt_of_le hlt hs) (not_lt.mpr this)

/-- Iterating from Begin(k) until IsEnd() visits exactly the stored pairs with key `≥ k`, in order, each once; it is always defined. -/
theorem C16_scan (h : Exec σ n) {m fuel : Nat} {k : K} {a b : Nat} {out : Option (List (K × V))} (hb : b ≤ n) (hq : Quiet σ a b)
    (hr : Run (Asked σ n t) a (scanFrom m fuel k) b out) :
    ∃ l, out = some l ∧ Ascending l ∧ l.Nodup ∧ ∀ x v, (x, v) ∈ l ↔ k ≤ x ∧ Stored (σ a).mem x v := by
  obtain ⟨l, h1, h2, h3, h4⟩ := C32_scanFrom h hr
  exact ⟨l, h1, h2, h3, fun x v => h4.quiet (fun i => quiet_const h hq hb) x v⟩

/-! ## C17: backward iteration -/

/-- Stepping back from Begin(k) until IsREnd() visits exactly the stored pairs with key `< k`, in descending order, each once; it is always
defined. Partial: a page read to the left may fail inside the tree (`C17_backward_placeholder`, `C31_failures_partial`); here all page reads
are answered. -/
theorem C17_backward_scan_partial (h : Exec σ n) {m fuel : Nat} {k : K} {a b : Nat} {out : Option (List (K × V))} (hb : b ≤ n) (hq : Quiet σ a b)
    (hr : Run (Asked σ n t) a (scanBelow m fuel k) b out) :
    ∃ l, out = some l ∧ Descending l ∧ l.Nodup ∧ ∀ x v, (x, v) ∈ l ↔ x < k ∧ Stored (σ a).mem x v := by
  obtain ⟨l, s, h1, h2, ⟨h3, h4, h5⟩, h6⟩ := scanBelow_spec (answers h) hr
  refine ⟨l, h1, h3, h4, fun x v => ?_⟩
  rw [h5.quiet (fun i => quiet_const h hq hb) x v]
  refine and_congr_left (fun hx => ⟨fun hs => not_le.mp fun hk => ?_, fun hk y e => ?_⟩)
  · have := (h6.quiet (fun i => quiet_const h hq hb) x v).mpr ⟨⟨hk, hs _ rfl⟩, hx⟩
    cases this
  · cases e
    exact lt_of_lt_of_le hk h2

/-- Backward iteration concurrent with updates: descending, no pair twice, every pair stored at some instant of the scan, and every pair below `k`
that is stored all the time is visited. -/
theorem C17_backward_concurrent (h : Exec σ n) {m fuel : Nat} {k : K} {a b : Nat} {out : Option (List (K × V))}
    (hr : Run (Asked σ n t) a (scanBelow m fuel k) b out) :
    ∃ l, out = some l ∧ Descending l ∧ l.Nodup ∧ (∀ x v, (x, v) ∈ l → ∃ i, a ≤ i ∧ i ≤ b ∧ Stored (σ i).mem x v) ∧
      ∀ x v, x < k → (∀ i, a ≤ i → i ≤ b → Stored (σ i).mem x v) → (x, v) ∈ l := by
  obtain ⟨l, s, h1, h2, ⟨h3, h4, τ, h5, h6, h7⟩, _⟩ := scanBelow_spec (answers h) hr
  refine ⟨l, h1, h3, h4, fun x v hx => ⟨τ x, (h5 x).1, (h5 x).2, ((h7 x v).mp hx).2⟩, fun x v hk hx => ?_⟩
  refine (h7 x v).mpr ⟨fun y e => ?_, hx _ (h5 x).1 (h5 x).2⟩
  cases e
  exact lt_of_lt_of_le hk h2

/-! ## C01 again: the instant at which a call takes effect -/

/-- Every call takes effect at one instant between call and return: the set stored in the tree just before and after that instant
(the same set for a read) are what the specification says. -/
theorem C01_takes_effect (h : Exec σ n) {op : Call K V} {ans : Ans K V} {a b : Nat} (hb : b ≤ n) (hc : CallAt σ t op ans a b) :
    (∃ j, a < j ∧ j < b ∧ tstep (At σ j) op ans (At σ j)) ∨ ∃ j, a < j ∧ j + 1 < b ∧ tstep (At σ j) op ans (At σ (j + 1)) :=
  call_point h hb hc

/-! ## C19: comparison of iterators -/

/-- The iterator is at the end or points to an item. -/
def Points (o : Option (It K V)) : Prop := isEnd o = true ∨ (o.bind It.item).isSome

/-- The key an iterator points to; `none` = the end. -/
def keyOf (o : Option (It K V)) : Option K := if isEnd o then none else (o.bind It.item).map (·.1)

/-- Order of keys with the end after all keys. -/
def keyLt : Option K → Option K → Prop
  | some x, some y => x < y
  | some _, none => True
  | none, _ => False

omit [DecidableEq V] [Inhabited K] in
theorem C19_lt {a b : Option (It K V)} (ha : Points a) (hb : Points b) : ∃ r, lt a b = some r ∧ (r = true ↔ keyLt (keyOf a) (keyOf b)) := by
  unfold lt keyOf
  cases ea : isEnd a with
  | true =>
    cases eb : isEnd b with
    | true => exact ⟨false, rfl, by simp [keyLt]⟩
    | false => exact ⟨false, rfl, by simp [keyLt]⟩
  | false =>
    obtain ⟨x, hx⟩ := Option.isSome_iff_exists.mp (ha.resolve_left (by rw [ea]; decide))
    cases eb : isEnd b with
    | true => exact ⟨true, rfl, by simp [keyLt, hx]⟩
    | false =>
      obtain ⟨y, hy⟩ := Option.isSome_iff_exists.mp (hb.resolve_left (by rw [eb]; decide))
      refine ⟨decide (x.1 < y.1), by simp [hx, hy], ?_⟩
      simp [hx, hy, keyLt]

omit [DecidableEq V] [Inhabited K] in
theorem C19_eq {a b : Option (It K V)} (ha : Points a) (hb : Points b) : ∃ r, eq a b = some r ∧ (r = true ↔ keyOf a = keyOf b) := by
  unfold eq keyOf
  cases ea : isEnd a with
  | true =>
    cases eb : isEnd b with
    | true => exact ⟨true, rfl, by simp⟩
    | false =>
      obtain ⟨y, hy⟩ := Option.isSome_iff_exists.mp (hb.resolve_left (by rw [eb]; decide))
      exact ⟨false, rfl, by simp [hy]⟩
  | false =>
    obtain ⟨x, hx⟩ := Option.isSome_iff_exists.mp (ha.resolve_left (by rw [ea]; decide))
    cases eb : isEnd b with
    | true => exact ⟨false, rfl, by simp [hx]⟩
    | false =>
      obtain ⟨y, hy⟩ := Option.isSome_iff_exists.mp (hb.resolve_left (by rw [eb]; decide))
      refine ⟨decide (x.1 = y.1), by simp [hx, hy], ?_⟩
      simp [hx, hy]

omit [DecidableEq V] [Inhabited K] in
/-- `<` is a strict weak order whose ties are exactly `==`, and `==` is an equivalence. Partial: only for iterators that are at the end or
point to an item; otherwise the comparison is undefined (`C19_rend_undefined`). -/
theorem C19_order_partial {a b c : Option (It K V)} (ha : Points a) (hb : Points b) (hc : Points c) :
    lt a a = some false ∧
    (lt a b = some true → lt b a = some false) ∧
    (lt a b = some true → lt b c = some true → lt a c = some true) ∧
    (eq a b = some true ↔ lt a b = some false ∧ lt b a = some false) ∧
    eq a a = some true ∧ (eq a b = some true → eq b a = some true) ∧ (eq a b = some true → eq b c = some true → eq a c = some true) ∧
    (isEnd b = true → (lt a b = some true ↔ isEnd a = false)) := by
  have L : ∀ {a b : Option (It K V)}, Points a → Points b → ((lt a b = some true ↔ keyLt (keyOf a) (keyOf b)) ∧
      (lt a b = some false ↔ ¬ keyLt (keyOf a) (keyOf b))) := by
    intro a b ha hb
    obtain ⟨r, h1, h2⟩ := C19_lt ha hb
    rw [h1]
    cases r <;> simp_all
  have E : ∀ {a b : Option (It K V)}, Points a → Points b → (eq a b = some true ↔ keyOf a = keyOf b) := by
    intro a b ha hb
    obtain ⟨r, h1, h2⟩ := C19_eq ha hb
    rw [h1]
    cases r <;> simp_all
  have irr : ∀ x : Option K, ¬ keyLt x x := by
    intro x
    cases x with
    | none => exact fun h => h
    | some x => exact lt_irrefl x
  have tr : ∀ x y z : Option K, keyLt x y → keyLt y z → keyLt x z := by
    intro x y z h1 h2
    cases x with
    | none => exact h1.elim
    | some x =>
      cases y with
      | none => exact h2.elim
      | some y =>
        cases z with
        | none => trivial
        | some z => exact lt_trans (α := K) h1 h2
  have tot : ∀ x y : Option K, ¬ keyLt x y → ¬ keyLt y x → x = y := by
    intro x y h1 h2
    cases x with
    | none =>
      cases y with
      | none => rfl
      | some y => exact absurd trivial h2
    | some x =>
      cases y with
      | none => exact absurd trivial h1
      | some y => exact congrArg some (le_antisymm (not_lt.mp h2) (not_lt.mp h1))
  refine ⟨(L ha ha).2.mpr (irr _), fun h => (L hb ha).2.mpr fun h' => irr _ (tr _ _ _ ((L ha hb).1.mp h) h'),
    fun h h' => (L ha hc).1.mpr (tr _ _ _ ((L ha hb).1.mp h) ((L hb hc).1.mp h')), ?_, (E ha ha).mpr rfl, fun h => (E hb ha).mpr ((E ha hb).mp h).symm,
    fun h h' => (E ha hc).mpr (((E ha hb).mp h).trans ((E hb hc).mp h')), ?_⟩
  · rw [E ha hb, (L ha hb).2, (L hb ha).2]
    exact ⟨fun e => by rw [e]; exact ⟨irr _, irr _⟩, fun h => tot _ _ h.1 h.2⟩
  · intro he
    unfold lt
    simp [he]

/-! ## Concrete cases -/

/-- Three iterators to compare: on an item, on another item, and null. -/
example : Points (some (⟨⟨(0, INVALID), (0, INVALID), [(1, 10), (2, 20)]⟩, 1⟩ : It Nat Nat)) ∧ Points (none : Option (It Nat Nat)) ∧
    lt (some (⟨⟨(0, INVALID), (0, INVALID), [(1, 10), (2, 20)]⟩, 0⟩ : It Nat Nat)) (some ⟨⟨(0, INVALID), (0, INVALID), [(1, 10), (2, 20)]⟩, 1⟩) = some true :=
  ⟨Or.inr rfl, Or.inl rfl, rfl⟩

/-- C19 fails for an iterator that has been moved before the first item: comparing it reads outside the page. Here the iterator is the result of
`--` on the first item. -/
theorem C19_rend_undefined : ∃ it : It Nat Nat, (∃ it0 : It Nat Nat, moveBack 1 it0 = .ret it ∧ it0.item = some (5, 7)) ∧
    lt (some it) (some ⟨it.page, 0⟩) = none ∧ eq (some it) (some it) = none :=
  ⟨⟨⟨(0, INVALID), (0, INVALID), [(5, 7)]⟩, -1⟩, ⟨⟨⟨(0, INVALID), (0, INVALID), [(5, 7)]⟩, 0⟩, rfl, rfl⟩, rfl, rfl⟩

/-- A configuration reached by script, as a one-point execution. -/
theorem exec_point {c : Conf K V} (h : Reach c) : Exec (fun _ => c) 0 := ⟨h, fun i hi => by omega⟩

/-- A solo run from a configuration in which all threads are idle. -/
theorem exists_run {α : Type} (p : IProg K V α) {c c' : Conf K V} {out : Option α} (h : Reach c) (hidle : ∀ u, c.thr u = none)
    (hp : solo t p c = some (c', out)) :
    ∃ (σ : Nat → Conf K V) (n : Nat), Exec σ n ∧ σ 0 = c ∧ Quiet σ 0 n ∧ Run (Asked σ n t) 0 p n out := by
  obtain ⟨σ, n, x, e, _, _, r, q⟩ := solo_run p (exec_point h) hidle hp
  refine ⟨σ, n, e, x.2 0 (Nat.le_refl _), fun i _ h2 u k v => ⟨fun hr => ?_, fun hr => ?_⟩, r⟩
  · obtain ⟨q, e⟩ := q i (Nat.zero_le _) (by omega) u _ hr
    cases q <;> cases e
  · obtain ⟨q, e⟩ := q i (Nat.zero_le _) (by omega) u _ hr
    cases q <;> cases e

/-- A tree of two leaves, `0 .. 63` and `64 .. 128`. -/
def twoLeaves : Conf Nat Nat := exec (insR 0 129)

/-- The same tree after deleting `0 .. 64`: the leftmost leaf is empty. -/
def emptyFirst : Conf Nat Nat := exec (insR 0 129 ++ delR 0 65)

theorem insR_tid {a b : Nat} : ∀ x ∈ insR a b, x.tid = 0 := by
  intro x hx
  obtain ⟨i, _, hi⟩ := List.mem_flatMap.mp hx
  simp only [whole, List.mem_cons, List.not_mem_nil, or_false] at hi
  rcases hi with rfl | rfl | rfl <;> rfl

theorem delR_tid {a b : Nat} : ∀ x ∈ delR a b, x.tid = 0 := by
  intro x hx
  obtain ⟨i, _, hi⟩ := List.mem_flatMap.mp hx
  simp only [whole, List.mem_cons, List.not_mem_nil, or_false] at hi
  rcases hi with rfl | rfl | rfl <;> rfl

theorem idle_of {l : List (Act Nat Nat)} (hl : ∀ x ∈ l, x.tid = 0) (h0 : ((exec l).thr 0).isNone = true) (u : Tid) : (exec l).thr u = none := by
  by_cases hu : u = 0
  · subst hu
    exact Option.isNone_iff_eq_none.mp h0
  · exact acts_thr l (fun x hx e => hu (e.symm.trans (hl x hx))) initConf

theorem twoLeaves_idle0 : ((exec (insR 0 129)).thr 0).isNone = true := by decide +kernel

theorem twoLeaves_idle : ∀ u, twoLeaves.thr u = none := by
  unfold twoLeaves
  exact idle_of insR_tid twoLeaves_idle0

theorem emptyFirst_idle0 : ((exec (insR 0 129 ++ delR 0 65)).thr 0).isNone = true := by decide +kernel

theorem emptyFirst_idle : ∀ u, emptyFirst.thr u = none := by
  unfold emptyFirst
  exact idle_of (fun x hx => (List.mem_append.mp hx).elim (insR_tid x) (delR_tid x)) emptyFirst_idle0

/-- Result of a solo run. -/
def soloOut {α : Type} (p : IProg Nat Nat α) (c : Conf Nat Nat) : Option (Option α) := (solo 1 p c).map (·.2)

theorem exists_run_of {α : Type} {p : IProg Nat Nat α} {c : Conf Nat Nat} {out : Option α} (h : Reach c) (hidle : ∀ u, c.thr u = none)
    (hp : soloOut p c = some out) :
    ∃ (σ : Nat → Conf Nat Nat) (n : Nat), Exec σ n ∧ σ 0 = c ∧ Quiet σ 0 n ∧ Run (Asked σ n 1) 0 p n out := by
  unfold soloOut at hp
  cases hs : solo 1 p c with
  | none => rw [hs] at hp; cases hp
  | some x =>
    rw [hs] at hp
    obtain ⟨c', o⟩ := x
    cases hp
    exact exists_run p h hidle hs

/-- C14, C15: the loop from Begin() over the two leaves runs to its end and yields 129 pairs. -/
theorem C14_nonvacuous : ∃ (σ : Nat → Conf Nat Nat) (n : Nat), Exec σ n ∧ Quiet σ 0 n ∧
    Run (Asked σ n 1) 0 (scanAll 200 50) n (some ((List.range 129).map fun i => (i, i))) := by
  obtain ⟨σ, n, h1, _, h2, h3⟩ := exists_run_of (p := scanAll 200 50) (c := twoLeaves) (reach_exec _) twoLeaves_idle
    (out := some ((List.range 129).map fun i => (i, i))) (by decide +kernel)
  exact ⟨σ, n, h1, h2, h3⟩

theorem C15_nonvacuous : ∃ (σ : Nat → Conf Nat Nat) (n : Nat), Exec σ n ∧ Quiet σ 0 n ∧
    Run (Asked σ n 1) 0 (begin >>= fun it => deref (some it)) n (some (0, 0)) := by
  obtain ⟨σ, n, h1, _, h2, h3⟩ := exists_run_of (p := begin >>= fun it => deref (some it)) (c := twoLeaves) (reach_exec _) twoLeaves_idle
    (out := some (0, 0)) (by decide +kernel)
  exact ⟨σ, n, h1, h2, h3⟩

/-- C16, C32: scanning from 30 across both leaves; scanning from 10 when the leaf of 10 is empty. -/
theorem C16_nonvacuous : (∃ (σ : Nat → Conf Nat Nat) (n : Nat), Exec σ n ∧ Quiet σ 0 n ∧
      Run (Asked σ n 1) 0 (scanFrom 200 50 30) n (some ((List.range 99).map fun i => (30 + i, 30 + i)))) ∧
    ∃ (σ : Nat → Conf Nat Nat) (n : Nat), Exec σ n ∧ σ 0 = emptyFirst ∧ Quiet σ 0 n ∧
      Run (Asked σ n 1) 0 (scanFrom 200 50 10) n (some ((List.range 64).map fun i => (65 + i, 65 + i))) := by
  constructor
  · obtain ⟨σ, n, h1, _, h2, h3⟩ := exists_run_of (p := scanFrom 200 50 30) (c := twoLeaves) (reach_exec _) twoLeaves_idle
      (out := some ((List.range 99).map fun i => (30 + i, 30 + i))) (by decide +kernel)
    exact ⟨σ, n, h1, h2, h3⟩
  · exact exists_run_of (p := scanFrom 200 50 10) (c := emptyFirst) (reach_exec _) emptyFirst_idle
      (out := some ((List.range 64).map fun i => (65 + i, 65 + i))) (by decide +kernel)

/-- C16: Begin(0) in the first tree satisfies IsBegin(). -/
example : ∃ (σ : Nat → Conf Nat Nat) (n : Nat) (it : It Nat Nat), Exec σ n ∧ Quiet σ 0 n ∧ Run (Asked σ n 1) 0 (beginAt 50 0) n (some it) ∧
    isBegin (some it) = true ∧ it.item = some (0, 0) := by
  obtain ⟨σ, n, h1, _, h2, h3⟩ := exists_run_of (p := beginAt 50 0) (c := twoLeaves) (reach_exec _) twoLeaves_idle
    (out := some (((soloOut (beginAt 50 0) twoLeaves).bind id).getD ⟨⟨(0, 0), (0, 0), []⟩, 0⟩)) (by decide +kernel)
  exact ⟨σ, n, _, h1, h2, h3, by decide +kernel, by decide +kernel⟩

/-- `IsBegin()` can be false for an iterator on the first pair: in a quiet tree Begin(10) points to (65, 65), no smaller key is stored, and `IsBegin()` is
false, because an empty leaf lies to the left. -/
theorem C16_isBegin_missed : ∃ (σ : Nat → Conf Nat Nat) (n : Nat) (it : It Nat Nat), Exec σ n ∧ Quiet σ 0 n ∧
    Run (Asked σ n 1) 0 (beginAt 50 10) n (some it) ∧ it.item = some (65, 65) ∧ isBegin (some it) = false ∧
    ∀ y w, Stored (σ 0).mem y w → 65 ≤ y := by
  obtain ⟨σ, n, h1, h0, h2, h3⟩ := exists_run_of (p := beginAt 50 10) (c := emptyFirst) (reach_exec _) emptyFirst_idle
    (out := some (((soloOut (beginAt 50 10) emptyFirst).bind id).getD ⟨⟨(0, 0), (0, 0), []⟩, 0⟩)) (by decide +kernel)
  refine ⟨σ, n, _, h1, h2, h3, by decide +kernel, by decide +kernel, ?_⟩
  obtain ⟨σ', n', g1, g0, g2, g3⟩ := exists_run_of (p := scanFrom 200 50 0) (c := emptyFirst) (reach_exec _) emptyFirst_idle
    (out := some ((List.range 64).map fun i => (65 + i, 65 + i))) (by decide +kernel)
  obtain ⟨l, e, _, _, hl⟩ := C16_scan g1 (Nat.le_refl n') g2 g3
  cases e
  intro y w hy
  rw [h0, ← g0] at hy
  obtain ⟨i, _, ei⟩ := List.mem_map.mp ((hl y w).mpr ⟨Nat.zero_le y, hy⟩)
  have := congrArg Prod.fst ei
  simp only at this
  omega

/-- C17: scanning back from 100 across both leaves. -/
theorem C17_nonvacuous : ∃ (σ : Nat → Conf Nat Nat) (n : Nat), Exec σ n ∧ Quiet σ 0 n ∧
    Run (Asked σ n 1) 0 (scanBelow 200 50 100) n (some ((List.range 100).map fun i => (99 - i, 99 - i))) := by
  obtain ⟨σ, n, h1, _, h2, h3⟩ := exists_run_of (p := scanBelow 200 50 100) (c := twoLeaves) (reach_exec _) twoLeaves_idle
    (out := some ((List.range 100).map fun i => (99 - i, 99 - i))) (by decide +kernel)
  exact ⟨σ, n, h1, h2, h3⟩

/-- C15 and C14 fail: in a quiet tree that stores the pair (100, 100), `*tree.Begin()` and the loop from Begin() read outside the page, because the
leftmost leaf is empty and Begin() does not go on to the next one. -/
theorem C15_begin_undefined : ∃ c : Conf Nat Nat, Reach c ∧ (∀ u, c.thr u = none) ∧ Stored c.mem 100 100 ∧
    (∃ (σ : Nat → Conf Nat Nat) (n : Nat), Exec σ n ∧ σ 0 = c ∧ Quiet σ 0 n ∧ Run (Asked σ n 1) 0 (begin >>= fun it => deref (some it)) n none) ∧
    ∃ (σ : Nat → Conf Nat Nat) (n : Nat), Exec σ n ∧ σ 0 = c ∧ Quiet σ 0 n ∧ Run (Asked σ n 1) 0 (scanAll 200 50) n none := by
  refine ⟨emptyFirst, reach_exec _, emptyFirst_idle, ?_, ?_, ?_⟩
  · obtain ⟨σ, n, h1, h2, h3, h4⟩ := C16_nonvacuous.2
    obtain ⟨l, e, _, _, h5⟩ := C16_scan h1 (Nat.le_refl n) h3 h4
    rw [← h2]
    refine ((h5 100 100).mp ?_).2
    cases e
    exact List.mem_map.mpr ⟨35, by decide, rfl⟩
  · exact exists_run_of (c := emptyFirst) (reach_exec _) emptyFirst_idle (by decide +kernel)
  · exact exists_run_of (c := emptyFirst) (reach_exec _) emptyFirst_idle (by decide +kernel)

end Iterator
end BwTree
