import Verif.Spec.Iterator
import Verif.Proofs.Search

/-! Iterator programs over any source of correct pages. -/

namespace BwTree
namespace Iterator

open Tree (PageOk)

set_option linter.unusedSectionVars false

variable {K V : Type}

section Run
variable {A : Query K → Page K V → Nat → Nat → Prop} {α β : Type}

theorem run_bind {p : IProg K V α} {f : α → IProg K V β} {s c : Nat} {out : Option β} (h : Run A s (p.bind f) c out) :
    ∃ b o, Run A s p b o ∧ (o = none → out = none ∧ c = b) ∧ ∀ x, o = some x → Run A b (f x) c out := by
  induction p generalizing s with
  | ret x => exact ⟨s, some x, .ret s x, fun h => (by cases h), fun y e => by cases e; exact h⟩
  | ub =>
    cases h
    exact ⟨_, none, .ub _, fun _ => ⟨rfl, rfl⟩, fun y e => by cases e⟩
  | spin => cases h
  | ask q k ih =>
    cases h with
    | ask h1 h2 h3 =>
      obtain ⟨b, o, g1, g2, g3⟩ := ih _ h3
      exact ⟨b, o, .ask h1 h2 g1, g2, g3⟩

end Run

variable [LinearOrder K]

/-- What a page answered to a request should be, for the stored set `S`. -/
def QueryOk (S : Spec.PairSet K V) : Query K → Page K V → Prop
  | .first, pg => pg.low.2 = INVALID ∧ PageOk S pg.low pg.high pg.items
  | .page k, pg => InRange pg.low pg.high k ∧ PageOk S pg.low pg.high pg.items
  | .back k, pg => (pg.low.2 = INVALID ∨ pg.low.1 < k) ∧ (pg.high.2 = INVALID ∨ k ≤ pg.high.1) ∧ PageOk S pg.low pg.high pg.items

/-- Every answer is right at some instant between request and answer. -/
def Answers (A : Query K → Page K V → Nat → Nat → Prop) (S : Nat → Spec.PairSet K V) : Prop :=
  ∀ q pg a b, A q pg a b → ∃ i, a ≤ i ∧ i ≤ b ∧ QueryOk (S i) q pg

variable {A : Query K → Page K V → Nat → Nat → Prop} {S : Nat → Spec.PairSet K V}

theorem run_le {α : Type} (hA : Answers A S) {p : IProg K V α} {a b : Nat} {out : Option α} (h : Run A a p b out) : a ≤ b := by
  induction h with
  | ret a x => exact Nat.le_refl _
  | ub a => exact Nat.le_refl _
  | ask h1 h2 h3 ih =>
    obtain ⟨i, g1, g2, _⟩ := hA _ _ _ _ h2
    omega

/-- `s ≤ x`, with `none` for minus infinity. -/
def Above (s : Option K) (x : K) : Prop := ∀ k, s = some k → k ≤ x

/-- `x < s`, with `none` for plus infinity. -/
def Below (s : Option K) (x : K) : Prop := ∀ k, s = some k → x < k

/-- A forward scan from `s` between the times `a` and `b` may return `l`. -/
structure Fwd (S : Nat → Spec.PairSet K V) (s : Option K) (l : List (K × V)) (a b : Nat) : Prop where
  asc : Ascending l
  nodup : l.Nodup
  sweep : Sweep S (Above s) l a b

/-- What follows the page of an iterator. -/
def Tail (S : Nat → Spec.PairSet K V) (pg : Page K V) (rest : List (K × V)) (a b : Nat) : Prop :=
  (pg.high.2 = INVALID → rest = []) ∧ (pg.high.2 ≠ INVALID → Fwd S (some pg.high.1) rest a b)

theorem Fwd.glue {i a b c : Nat} {pg : Page K V} {s : Option K} {p : Nat} {rest : List (K × V)}
    (hp : PageOk (S i) pg.low pg.high pg.items) (hlo : ∀ x, Above s x → pg.low.2 = INVALID ∨ pg.low.1 ≤ x)
    (hs : ∀ k, s = some k → pg.high.2 = INVALID ∨ k < pg.high.1)
    (h1 : ∀ x ∈ pg.items.take p, ¬ Above s x.1) (h2 : ∀ x ∈ pg.items.drop p, Above s x.1)
    (ha : a ≤ i) (hb : i ≤ b) (hc : b ≤ c) (ht : Tail S pg rest b c) : Fwd S s (pg.items.drop p ++ rest) a c := by
  obtain ⟨p1, p2, p3, p4⟩ := hp
  have hmem : ∀ x v, Above s x → (pg.high.2 = INVALID ∨ x < pg.high.1) → ((x, v) ∈ pg.items.drop p ↔ S i x v) := by
    intro x v hx hh
    rw [p4 x v ⟨hlo x hx, hh⟩]
    refine ⟨fun h => List.mem_of_mem_drop h, fun h => ?_⟩
    rw [← List.take_append_drop p pg.items] at h
    rcases List.mem_append.mp h with h | h
    · exact absurd hx (h1 _ h)
    · exact h
  by_cases hi : pg.high.2 = INVALID
  · rw [ht.1 hi, List.append_nil]
    refine ⟨p1.sublist (List.drop_sublist _ _), p2.sublist (List.drop_sublist _ _), fun _ => i, fun _ => ⟨ha, Nat.le_trans hb hc⟩,
      fun _ _ _ => Nat.le_refl _, fun x v => ⟨fun h => ?_, fun h => ?_⟩⟩
    · have := h2 _ h
      exact ⟨this, (hmem x v this (Or.inl hi)).mp h⟩
    · exact (hmem x v h.1 (Or.inl hi)).mpr h.2
  · obtain ⟨t1, t2, τ, t3, t4, t5⟩ := ht.2 hi
    have hlt : ∀ x ∈ pg.items.drop p, x.1 < pg.high.1 := by
      intro x hx
      exact (p3 x (List.mem_of_mem_drop hx)).2.resolve_left hi
    have hge : ∀ x ∈ rest, pg.high.1 ≤ x.1 := fun x hx => ((t5 x.1 x.2).mp hx).1 _ rfl
    refine ⟨?_, ?_, fun x => if x < pg.high.1 then i else τ x, ?_, ?_, ?_⟩
    · refine List.pairwise_append.mpr ⟨p1.sublist (List.drop_sublist _ _), t1, fun x hx y hy => ?_⟩
      exact le_of_lt (lt_of_lt_of_le (hlt x hx) (hge y hy))
    · refine List.nodup_append.mpr ⟨p2.sublist (List.drop_sublist _ _), t2, fun x hx y hy e => ?_⟩
      subst e
      exact absurd (hlt x hx) (not_lt.mpr (hge x hy))
    · intro x
      simp only
      split
      · omega
      · have := t3 x
        omega
    · intro x y hxy
      simp only
      split
      · split
        · omega
        · have := t3 y
          omega
      · rename_i h
        rw [if_neg (fun hy => h (lt_of_le_of_lt hxy hy))]
        exact t4 x y hxy
    · intro x v
      by_cases hx : x < pg.high.1
      · simp only [if_pos hx]
        constructor
        · intro h
          rcases List.mem_append.mp h with h | h
          · have := h2 _ h
            exact ⟨this, (hmem x v this (Or.inr hx)).mp h⟩
          · exact absurd hx (not_lt.mpr (hge _ h))
        · intro h
          exact List.mem_append.mpr (Or.inl ((hmem x v h.1 (Or.inr hx)).mpr h.2))
      · simp only [if_neg hx]
        constructor
        · intro h
          rcases List.mem_append.mp h with h | h
          · exact absurd (hlt _ h) hx
          · refine ⟨fun k e => ?_, ((t5 x v).mp h).2⟩
            exact le_trans (le_of_lt ((hs k e).resolve_left hi)) (not_lt.mp hx)
        · intro h
          refine List.mem_append.mpr (Or.inr ((t5 x v).mpr ⟨fun k e => ?_, h.2⟩))
          cases e
          exact not_lt.mp hx

/-- An iterator that points to an item or is at the end. -/
structure Valid (S : Nat → Spec.PairSet K V) (it : It K V) (a : Nat) : Prop where
  pos : 0 ≤ it.pos
  le : it.pos ≤ it.page.items.length
  val : it.pos < it.page.items.length ∨ isEnd (some it) = true
  page : ∃ i, i ≤ a ∧ PageOk (S i) it.page.low it.page.high it.page.items

theorem Valid.later {it : It K V} {a b : Nat} (h : Valid S it a) (hab : a ≤ b) : Valid S it b := by
  obtain ⟨h1, h2, h3, i, h4, h5⟩ := h
  exact ⟨h1, h2, h3, i, by omega, h5⟩

theorem lb_split {l : List (K × V)} (hs : l.Pairwise (fun a b => a.1 ≤ b.1)) (k : K) :
    ∃ p, lowerBound l 0 l.length k = some p ∧ p ≤ l.length ∧ (∀ x ∈ l.take p, x.1 < k) ∧ ∀ x ∈ l.drop p, k ≤ x.1 := by
  refine ⟨lbIdx l k, lowerBound_eq hs (Nat.zero_le _) (lbIdx_le _ _) (Nat.le_refl _), lbIdx_le _ _, ?_, ?_⟩
  · intro x hx
    obtain ⟨i, hi, rfl⟩ := List.mem_take_iff_getElem.mp hx
    exact lt_lbIdx hs (i := i) (by omega) (List.getElem?_eq_getElem (by omega))
  · intro x hx
    obtain ⟨i, hi, rfl⟩ := List.mem_drop_iff_getElem.mp hx
    exact lbIdx_le_get hs (Nat.le_add_right _ i) (List.getElem?_eq_getElem (by omega))

theorem lowerBoundIt_spec (hA : Answers A S) {fuel : Nat} {k : K} {a b : Nat} {out : Option (It K V)}
    (h : Run A a (lowerBoundIt fuel k) b out) :
    ∃ it, out = some it ∧ Valid S it b ∧ a ≤ b ∧
      ∀ rest c, b ≤ c → Tail S it.page rest b c → Fwd S (some k) (it.page.items.drop it.pos.toNat ++ rest) a c := by
  induction fuel generalizing k a with
  | zero => cases h
  | succ fuel ih =>
    cases h with
    | ask h1 h2 h3 =>
      rename_i a' b' pg
      obtain ⟨i, g1, g2, g3, g4⟩ := hA _ _ _ _ h2
      have hle := run_le hA h3
      obtain ⟨p, e1, e2, e3, e4⟩ := lb_split g4.1 k
      simp only [e1] at h3
      have hglue : ∀ rest c, b' ≤ c → Tail S pg rest b' c → Fwd S (some k) (pg.items.drop p ++ rest) a c := by
        intro rest c hc ht
        refine Fwd.glue g4 ?_ ?_ ?_ ?_ (show a ≤ i by omega) g2 hc ht
        · intro x hx
          exact g3.1.imp_right (fun h => le_trans h (hx _ rfl))
        · intro y e; cases e; exact g3.2
        · intro x hx hab
          exact absurd (hab _ rfl) (not_le.mpr (e3 x hx))
        · intro x hx y e
          cases e
          exact e4 x hx
      by_cases hp : p = pg.items.length
      · rw [if_neg (fun h => h hp)] at h3
        by_cases hend : isEnd (some (⟨pg, p⟩ : It K V)) = true
        · rw [if_pos hend] at h3
          cases h3
          exact ⟨_, rfl, ⟨Int.natCast_nonneg _, Int.ofNat_le.mpr e2, Or.inr hend, i, g2, g4⟩, by omega, hglue⟩
        · rw [if_neg hend] at h3
          have hne : pg.high.2 ≠ INVALID := by
            intro e
            apply hend
            simp [isEnd, e, hp]
          obtain ⟨it, r1, r2, r3, r4⟩ := ih h3
          refine ⟨it, r1, r2, by omega, fun rest c hc ht => ?_⟩
          have := hglue _ c (by omega) ⟨fun e => absurd e hne, fun _ => r4 rest c hc ht⟩
          rwa [List.drop_eq_nil_of_le (by omega), List.nil_append] at this
      · rw [if_pos hp] at h3
        cases h3
        exact ⟨_, rfl, ⟨Int.natCast_nonneg _, Int.ofNat_le.mpr e2, Or.inl (Int.ofNat_lt.mpr (show p < pg.items.length by omega)), i, g2, g4⟩, by omega, hglue⟩

/-- What `++` does to an iterator that points to an item. -/
theorem moveAhead_spec (hA : Answers A S) {fuel : Nat} {it : It K V} {a b : Nat} {out : Option (It K V)} (hv : Valid S it a)
    (he : isEnd (some it) = false) (h : Run A a (moveAhead fuel it) b out) :
    ∃ it', out = some it' ∧ Valid S it' b ∧ a ≤ b ∧
      ((it'.page = it.page ∧ it'.pos = it.pos + 1) ∨
       (it.pos + 1 = it.page.items.length ∧ it.page.high.2 ≠ INVALID ∧ ∀ rest c, b ≤ c → Tail S it'.page rest b c →
          Fwd S (some it.page.high.1) (it'.page.items.drop it'.pos.toNat ++ rest) a c)) := by
  obtain ⟨v1, v2, v3, i, v4, v5⟩ := hv
  have hlt : it.pos < it.page.items.length := v3.resolve_right (by rw [he]; decide)
  unfold moveAhead at h
  rw [if_neg (by rw [he]; decide), if_neg (by omega)] at h
  by_cases h1 : it.pos + 1 = it.page.items.length
  · rw [if_pos h1] at h
    by_cases h2 : isEnd (some (⟨it.page, it.pos + 1⟩ : It K V)) = true
    · rw [if_pos h2] at h
      cases h
      exact ⟨_, rfl, ⟨by show 0 ≤ it.pos + 1; omega, by show it.pos + 1 ≤ (it.page.items.length : Int); omega, Or.inr h2, i, v4, v5⟩, Nat.le_refl _, Or.inl ⟨rfl, rfl⟩⟩
    · rw [if_neg h2] at h
      obtain ⟨it', r1, r2, r3, r4⟩ := lowerBoundIt_spec hA h
      refine ⟨it', r1, r2, r3, Or.inr ⟨h1, fun e => h2 ?_, r4⟩⟩
      simp [isEnd, e, h1]
  · rw [if_neg h1] at h
    cases h
    exact ⟨_, rfl, ⟨by show 0 ≤ it.pos + 1; omega, by show it.pos + 1 ≤ (it.page.items.length : Int); omega, Or.inl (by show it.pos + 1 < (it.page.items.length : Int); omega), i, v4, v5⟩,
      Nat.le_refl _, Or.inl ⟨rfl, rfl⟩⟩

theorem item_valid {it : It K V} (h0 : 0 ≤ it.pos) (h : it.pos < it.page.items.length) :
    ∃ x, it.item = some x ∧ it.page.items.drop it.pos.toNat = x :: it.page.items.drop (it.pos + 1).toNat := by
  have hlt : it.pos.toNat < it.page.items.length := by omega
  refine ⟨it.page.items[it.pos.toNat], ?_, ?_⟩
  · unfold It.item
    rw [if_pos h0, List.getElem?_eq_getElem hlt]
  · rw [List.drop_eq_getElem_cons hlt]
    congr 2
    omega

theorem scan_spec (hA : Answers A S) {n fuel : Nat} {it : It K V} {a b : Nat} {out : Option (List (K × V))} (hv : Valid S it a)
    (h : Run A a (scan n fuel (some it)) b out) :
    ∃ rest, out = some (it.page.items.drop it.pos.toNat ++ rest) ∧ Tail S it.page rest a b := by
  induction n generalizing it a b out with
  | zero => cases h
  | succ n ih =>
    unfold scan at h
    by_cases he : isEnd (some it) = true
    · rw [if_pos he] at h
      cases h
      simp only [isEnd, decide_eq_true_eq] at he
      refine ⟨[], ?_, fun _ => rfl, fun hn => absurd he.1 hn⟩
      rw [List.drop_eq_nil_of_le (by omega)]
      rfl
    · rw [if_neg he] at h
      have he : isEnd (some it) = false := by simpa using he
      have hlt : it.pos < it.page.items.length := hv.val.resolve_right (by rw [he]; decide)
      obtain ⟨x, hx, hdrop⟩ := item_valid hv.pos hlt
      have h : Run A a ((deref (some it)).bind fun x => (next fuel (some it)).bind fun o' => (scan n fuel o').bind fun xs => .ret (x :: xs)) b out := h
      simp only [deref, hx, IProg.bind] at h
      obtain ⟨b1, o1, r1, r2, r3⟩ := run_bind h
      have r1 : Run A a (if isEnd (some it) then .ret (some it) else (moveAhead fuel it).bind fun it' => .ret (some it')) b1 o1 := r1
      rw [if_neg (by rw [he]; decide)] at r1
      obtain ⟨b2, o2, s1, s2, s3⟩ := run_bind r1
      obtain ⟨it', rfl, v', hab, hcase⟩ := moveAhead_spec hA hv he s1
      have := s3 it' rfl
      cases this
      have r3 := r3 _ rfl
      obtain ⟨b3, o3, t1, t2, t3⟩ := run_bind r3
      obtain ⟨rest, rfl, ht⟩ := ih v' t1
      have t3 := t3 _ rfl
      cases t3
      have hle := run_le hA t1
      rcases hcase with ⟨e1, e2⟩ | ⟨e1, e2, e3⟩
      · refine ⟨rest, ?_, ?_⟩
        · rw [hdrop, e1, e2]; rfl
        · rw [e1] at ht
          refine ⟨ht.1, fun hn => ?_⟩
          obtain ⟨f1, f2, τ, f3, f4, f5⟩ := ht.2 hn
          exact ⟨f1, f2, τ, fun x => ⟨by have := (f3 x).1; omega, (f3 x).2⟩, f4, f5⟩
      · refine ⟨it'.page.items.drop it'.pos.toNat ++ rest, ?_, fun e => absurd e e2, fun _ => e3 rest _ hle ht⟩
        rw [hdrop, List.drop_eq_nil_of_le (as := it.page.items) (by omega)]
        rfl

/-- A whole scan from a key. -/
theorem scanFrom_spec (hA : Answers A S) {n fuel : Nat} {k : K} {a b : Nat} {out : Option (List (K × V))}
    (h : Run A a (scanFrom n fuel k) b out) : ∃ l, out = some l ∧ Fwd S (some k) l a b := by
  obtain ⟨b1, o1, r1, _, r3⟩ := run_bind (p := beginAt fuel k) (f := fun it => scan n fuel (some it)) h
  obtain ⟨it, rfl, hv, hab, hf⟩ := lowerBoundIt_spec hA r1
  have r3 := r3 _ rfl
  obtain ⟨rest, rfl, ht⟩ := scan_spec hA hv r3
  exact ⟨_, rfl, hf rest b (run_le hA r3) ht⟩

/-- A whole scan from Begin(). -/
theorem scanAll_spec (hA : Answers A S) {n fuel : Nat} {a b : Nat} {out : Option (List (K × V))}
    (h : Run A a (scanAll n fuel) b out) :
    (∃ l, out = some l ∧ Fwd S none l a b) ∨
    (out = none ∧ ∃ pg a' b', a ≤ a' ∧ b' ≤ b ∧ A .first pg a' b' ∧ pg.items = [] ∧ pg.high.2 ≠ INVALID) := by
  obtain ⟨b1, o1, r1, _, r3⟩ := run_bind (p := begin) (f := fun it => scan n fuel (some it)) h
  cases r1 with
  | ask h1 h2 h3 =>
    rename_i a' b' pg
    obtain ⟨i, g1, g2, g3, g4⟩ := hA _ _ _ _ h2
    cases h3
    have r3 := r3 _ rfl
    have hle := run_le hA r3
    by_cases hv : pg.items = [] ∧ pg.high.2 ≠ INVALID
    · refine Or.inr ⟨?_, pg, a', _, h1, hle, h2, hv⟩
      cases n with
      | zero => cases r3
      | succ n =>
        have he : isEnd (some (⟨pg, 0⟩ : It K V)) = false := by
          simp [isEnd, hv.2]
        unfold scan at r3
        rw [if_neg (by rw [he]; decide)] at r3
        have r3 : Run A b1 ((deref (some (⟨pg, 0⟩ : It K V))).bind _) b out := r3
        simp only [deref, It.item, hv.1] at r3
        cases r3
        rfl
    · left
      have hval : Valid S (⟨pg, 0⟩ : It K V) b1 := by
        refine ⟨Int.le_refl 0, Int.natCast_nonneg _, ?_, i, g2, g4⟩
        by_cases hi : pg.items = []
        · right
          have : pg.high.2 = INVALID := by
            by_cases h : pg.high.2 = INVALID
            · exact h
            · exact absurd ⟨hi, h⟩ hv
          simp [isEnd, hi, this]
        · left
          exact Int.ofNat_lt.mpr (List.length_pos_iff.mpr hi)
      obtain ⟨rest, rfl, ht⟩ := scan_spec hA hval r3
      refine ⟨_, rfl, Fwd.glue (p := 0) g4 ?_ ?_ ?_ ?_ (show a ≤ i by omega) g2 hle ht⟩
      · intro x _; exact Or.inl g3
      · intro k e; cases e
      · intro x hx; simp at hx
      · intro x _ k e; cases e

end Iterator
end BwTree
