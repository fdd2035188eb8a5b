import Verif.Proofs.Iterator

/-! Backward iteration over any source of correct pages. -/

namespace BwTree
namespace Iterator

open Tree (PageOk)

set_option linter.unusedSectionVars false

variable {K V : Type} [LinearOrder K]
variable {A : Query K → Page K V → Nat → Nat → Prop} {S : Nat → Spec.PairSet K V}

/-- A backward scan from below `u` between the times `a` and `b` may return `l`. -/
structure Bwd (S : Nat → Spec.PairSet K V) (u : Option K) (l : List (K × V)) (a b : Nat) : Prop where
  desc : Descending l
  nodup : l.Nodup
  sweep : SweepBack S (Below u) l a b

/-- What precedes the page of an iterator. -/
def TailB (S : Nat → Spec.PairSet K V) (pg : Page K V) (rest : List (K × V)) (a b : Nat) : Prop :=
  (pg.low.2 = INVALID → rest = []) ∧ (pg.low.2 ≠ INVALID → Bwd S (some pg.low.1) rest a b)

theorem TailB.earlier {pg : Page K V} {rest : List (K × V)} {a a' b : Nat} (h : TailB S pg rest a b) (ha : a' ≤ a) : TailB S pg rest a' b := by
  refine ⟨h.1, fun hn => ?_⟩
  obtain ⟨f1, f2, τ, f3, f4, f5⟩ := h.2 hn
  exact ⟨f1, f2, τ, fun x => ⟨Nat.le_trans ha (f3 x).1, (f3 x).2⟩, f4, f5⟩

theorem Bwd.glue {i a b c : Nat} {pg : Page K V} {u : Option K} {p : Nat} {rest : List (K × V)}
    (hp : PageOk (S i) pg.low pg.high pg.items) (hhi : ∀ x, Below u x → pg.high.2 = INVALID ∨ x < pg.high.1)
    (hs : ∀ k, u = some k → pg.low.2 = INVALID ∨ pg.low.1 ≤ k)
    (h1 : ∀ x ∈ pg.items.take p, Below u x.1) (h2 : ∀ x ∈ pg.items.drop p, ¬ Below u x.1)
    (ha : a ≤ i) (hb : i ≤ b) (hc : b ≤ c) (ht : TailB S pg rest b c) : Bwd S u ((pg.items.take p).reverse ++ rest) a c := by
  obtain ⟨p1, p2, p3, p4⟩ := hp
  have hmem : ∀ x v, Below u x → (pg.low.2 = INVALID ∨ pg.low.1 ≤ x) → ((x, v) ∈ (pg.items.take p).reverse ↔ S i x v) := by
    intro x v hx hh
    rw [p4 x v ⟨hh, hhi x hx⟩, List.mem_reverse]
    refine ⟨fun h => List.mem_of_mem_take h, fun h => ?_⟩
    rw [← List.take_append_drop p pg.items] at h
    rcases List.mem_append.mp h with h | h
    · exact h
    · exact absurd hx (h2 _ h)
  have hdesc : ((pg.items.take p).reverse).Pairwise (fun a b => b.1 ≤ a.1) :=
    List.pairwise_reverse.mpr (p1.sublist (List.take_sublist _ _))
  have hnd : ((pg.items.take p).reverse).Nodup := by
    refine List.pairwise_reverse.mpr ((p2.sublist (List.take_sublist _ _)).imp ?_)
    intro a b h e
    exact h e.symm
  by_cases hi : pg.low.2 = INVALID
  · rw [ht.1 hi, List.append_nil]
    refine ⟨hdesc, hnd, fun _ => i, fun _ => ⟨ha, Nat.le_trans hb hc⟩, fun _ _ _ => Nat.le_refl _, fun x v => ⟨fun h => ?_, fun h => ?_⟩⟩
    · have := h1 _ (List.mem_reverse.mp h)
      exact ⟨this, (hmem x v this (Or.inl hi)).mp h⟩
    · exact (hmem x v h.1 (Or.inl hi)).mpr h.2
  · obtain ⟨t1, t2, τ, t3, t4, t5⟩ := ht.2 hi
    have hge : ∀ x ∈ (pg.items.take p).reverse, pg.low.1 ≤ x.1 := by
      intro x hx
      exact (p3 x (List.mem_of_mem_take (List.mem_reverse.mp hx))).1.resolve_left hi
    have hlt : ∀ x ∈ rest, x.1 < pg.low.1 := fun x hx => ((t5 x.1 x.2).mp hx).1 _ rfl
    refine ⟨?_, ?_, fun x => if x < pg.low.1 then τ x else i, ?_, ?_, ?_⟩
    · refine List.pairwise_append.mpr ⟨hdesc, t1, fun x hx y hy => ?_⟩
      exact le_of_lt (lt_of_lt_of_le (hlt y hy) (hge x hx))
    · refine List.nodup_append.mpr ⟨hnd, t2, fun x hx y hy e => ?_⟩
      subst e
      exact absurd (hlt x hy) (not_lt.mpr (hge x hx))
    · intro x
      simp only
      split
      · have := t3 x
        omega
      · omega
    · intro x y hxy
      simp only
      split
      · rename_i hy
        rw [if_pos (lt_of_le_of_lt hxy hy)]
        exact t4 x y hxy
      · split
        · have := t3 x
          omega
        · omega
    · intro x v
      by_cases hx : x < pg.low.1
      · simp only [if_pos hx]
        constructor
        · intro h
          rcases List.mem_append.mp h with h | h
          · exact absurd hx (not_lt.mpr (hge _ h))
          · refine ⟨fun k e => ?_, ((t5 x v).mp h).2⟩
            exact lt_of_lt_of_le hx ((hs k e).resolve_left hi)
        · intro h
          refine List.mem_append.mpr (Or.inr ((t5 x v).mpr ⟨fun k e => ?_, h.2⟩))
          cases e
          exact hx
      · simp only [if_neg hx]
        constructor
        · intro h
          rcases List.mem_append.mp h with h | h
          · have := h1 _ (List.mem_reverse.mp h)
            exact ⟨this, (hmem x v this (Or.inr (not_lt.mp hx))).mp h⟩
          · exact absurd (hlt _ h) hx
        · intro h
          exact List.mem_append.mpr (Or.inl ((hmem x v h.1 (Or.inr (not_lt.mp hx))).mpr h.2))

/-- An iterator that points to an item or is before the first. -/
structure ValidB (S : Nat → Spec.PairSet K V) (it : It K V) (a : Nat) : Prop where
  pos : -1 ≤ it.pos
  lt : it.pos < it.page.items.length
  val : it.pos = -1 → it.page.low.2 = INVALID
  page : ∃ i, i ≤ a ∧ PageOk (S i) it.page.low it.page.high it.page.items

theorem backLoop_spec (hA : Answers A S) {fuel : Nat} {k : K} {a b : Nat} {out : Option (It K V)}
    (h : Run A a (backLoop fuel k) b out) :
    ∃ it, out = some it ∧ ValidB S it b ∧ a ≤ b ∧
      ∀ rest c, b ≤ c → TailB S it.page rest b c → Bwd S (some k) ((it.page.items.take (it.pos + 1).toNat).reverse ++ rest) a c := by
  induction fuel generalizing k a b out with
  | zero => cases h
  | succ fuel ih =>
    cases h with
    | ask h1 h2 h3 =>
      rename_i a' b' pg
      obtain ⟨i, g1, g2, g3, g5, g4⟩ := hA _ _ _ _ h2
      have hle := run_le hA h3
      obtain ⟨p, e1, e2, e3, e4⟩ := lb_split g4.1 k
      simp only [if_pos g3, e1] at h3
      have hglue : ∀ rest c, b' ≤ c → TailB S pg rest b' c → Bwd S (some k) ((pg.items.take p).reverse ++ rest) a c := by
        intro rest c hc ht
        refine Bwd.glue g4 ?_ ?_ ?_ ?_ (show a ≤ i by omega) g2 hc ht
        · intro x hx
          exact g5.imp_right (fun h => lt_of_lt_of_le (hx _ rfl) h)
        · intro y e; cases e; exact g3.imp_right le_of_lt
        · intro x hx y e
          cases e
          exact e3 x hx
        · intro x hx hab
          exact absurd (hab _ rfl) (not_lt.mpr (e4 x hx))
      by_cases hp : (p : Int) - 1 = -1
      · have hp0 : p = 0 := by omega
        rw [if_pos hp] at h3
        by_cases hl : pg.low.2 = INVALID
        · rw [if_pos hl] at h3
          cases h3
          refine ⟨_, rfl, ⟨Int.le_refl _, (by show (-1 : Int) < (pg.items.length : Int); omega), fun _ => hl, i, g2, g4⟩, by omega, ?_⟩
          rw [hp0] at hglue
          exact hglue
        · rw [if_neg hl] at h3
          obtain ⟨it, r1, r2, r3, r4⟩ := ih h3
          refine ⟨it, r1, r2, by omega, fun rest c hc ht => ?_⟩
          have := hglue _ c (by omega) ⟨fun e => absurd e hl, fun _ => r4 rest c hc ht⟩
          rwa [hp0, List.take_zero, List.reverse_nil, List.nil_append] at this
      · rw [if_neg hp] at h3
        cases h3
        refine ⟨_, rfl, ⟨by show (-1 : Int) ≤ (p : Int) - 1; omega, (by show (p : Int) - 1 < (pg.items.length : Int); omega), fun e => absurd e hp, i, g2, g4⟩,
          by omega, ?_⟩
        rw [show ((⟨pg, (p : Int) - 1⟩ : It K V).pos + 1).toNat = p by show ((p : Int) - 1 + 1).toNat = p; omega]
        exact hglue

/-- What `--` does to an iterator that is not before the first item. -/
theorem moveBack_spec (hA : Answers A S) {fuel : Nat} {it : It K V} {a b : Nat} {out : Option (It K V)} (h0 : 0 ≤ it.pos)
    (h1 : it.pos ≤ it.page.items.length) (hpg : ∃ i, i ≤ a ∧ PageOk (S i) it.page.low it.page.high it.page.items)
    (h : Run A a (moveBack fuel it) b out) :
    ∃ it', out = some it' ∧ ValidB S it' b ∧ a ≤ b ∧
      ∀ rest c, b ≤ c → TailB S it'.page rest b c → ∃ rest', (it'.page.items.take (it'.pos + 1).toNat).reverse ++ rest =
        (it.page.items.take it.pos.toNat).reverse ++ rest' ∧ TailB S it.page rest' a c := by
  unfold moveBack at h
  have hr : isREnd (some it) = false := by
    simp only [isREnd, decide_eq_false_iff_not]
    intro h
    omega
  rw [if_neg (by rw [hr]; decide), if_neg (by omega)] at h
  by_cases h2 : isREnd (some (⟨it.page, it.pos - 1⟩ : It K V)) = true
  · rw [if_pos h2] at h
    cases h
    simp only [isREnd, decide_eq_true_eq] at h2
    refine ⟨_, rfl, ⟨by show (-1 : Int) ≤ it.pos - 1; omega, by show it.pos - 1 < (it.page.items.length : Int); omega, fun _ => h2.1, hpg⟩,
      Nat.le_refl _, fun rest c _ ht => ⟨rest, ?_, ht⟩⟩
    show (it.page.items.take (it.pos - 1 + 1).toNat).reverse ++ rest = _
    rw [show it.pos - 1 + 1 = it.pos by omega]
  · rw [if_neg h2] at h
    by_cases h3 : it.pos - 1 ≠ -1
    · rw [if_pos h3] at h
      cases h
      refine ⟨_, rfl, ⟨by show (-1 : Int) ≤ it.pos - 1; omega, by show it.pos - 1 < (it.page.items.length : Int); omega, fun e => absurd e h3, hpg⟩,
        Nat.le_refl _, fun rest c _ ht => ⟨rest, ?_, ht⟩⟩
      show (it.page.items.take (it.pos - 1 + 1).toNat).reverse ++ rest = _
      rw [show it.pos - 1 + 1 = it.pos by omega]
    · rw [if_neg h3] at h
      have hp : it.pos = 0 := by
        have : it.pos - 1 = -1 := by
          by_cases e : it.pos - 1 = -1
          · exact e
          · exact absurd e h3
        omega
      have hl : it.page.low.2 ≠ INVALID := by
        intro e
        apply h2
        simp [isREnd, e, hp]
      obtain ⟨it', r1, r2, r3, r4⟩ := backLoop_spec hA h
      refine ⟨it', r1, r2, r3, fun rest c hc ht => ⟨_, ?_, fun e => absurd e hl, fun _ => r4 rest c hc ht⟩⟩
      rw [hp]
      rfl

theorem scanBack_spec (hA : Answers A S) {n fuel : Nat} {it : It K V} {a b : Nat} {out : Option (List (K × V))} (hv : ValidB S it a)
    (h : Run A a (scanBack n fuel (some it)) b out) :
    ∃ rest, out = some ((it.page.items.take (it.pos + 1).toNat).reverse ++ rest) ∧ TailB S it.page rest a b := by
  induction n generalizing it a b out with
  | zero => cases h
  | succ n ih =>
    unfold scanBack at h
    by_cases he : isREnd (some it) = true
    · rw [if_pos he] at h
      cases h
      simp only [isREnd, decide_eq_true_eq] at he
      refine ⟨[], ?_, fun _ => rfl, fun hn => absurd he.1 hn⟩
      rw [he.2]
      rfl
    · rw [if_neg he] at h
      have hpos : 0 ≤ it.pos := by
        have h1 := hv.pos
        have h2 : it.pos ≠ -1 := by
          intro e
          apply he
          simp only [isREnd, decide_eq_true_eq]
          exact ⟨hv.val e, e⟩
        omega
      obtain ⟨x, hx, _⟩ := item_valid hpos hv.lt
      have hlt : it.pos.toNat < it.page.items.length := by have := hv.lt; omega
      have htake : (it.page.items.take (it.pos + 1).toNat).reverse = x :: (it.page.items.take it.pos.toNat).reverse := by
        have hx' : it.page.items[it.pos.toNat] = x := by
          unfold It.item at hx
          rw [if_pos hpos, List.getElem?_eq_getElem hlt] at hx
          exact Option.some.inj hx
        rw [show (it.pos + 1).toNat = it.pos.toNat + 1 by omega, ← List.take_append_getElem hlt, List.reverse_append, hx']
        rfl
      have h : Run A a ((deref (some it)).bind fun x => (prev fuel (some it)).bind fun o' => (scanBack n fuel o').bind fun xs => .ret (x :: xs)) b out := h
      simp only [deref, hx, IProg.bind] at h
      obtain ⟨b1, o1, r1, r2, r3⟩ := run_bind h
      have r1 : Run A a (if isREnd (some it) then .ret (some it) else (moveBack fuel it).bind fun it' => .ret (some it')) b1 o1 := r1
      rw [if_neg he] at r1
      obtain ⟨b2, o2, s1, s2, s3⟩ := run_bind r1
      obtain ⟨it', rfl, v', hab, hf⟩ := moveBack_spec hA hpos (by have := hv.lt; omega) hv.page s1
      have := s3 it' rfl
      cases this
      have r3 := r3 _ rfl
      obtain ⟨b3, o3, t1, t2, t3⟩ := run_bind r3
      obtain ⟨rest, rfl, ht⟩ := ih v' t1
      have t3 := t3 _ rfl
      cases t3
      obtain ⟨rest', e1, e2⟩ := hf rest _ (run_le hA t1) ht
      refine ⟨rest', ?_, e2⟩
      rw [htake, e1]
      rfl

/-- Where Begin(k) stops. -/
theorem lowerBoundIt_pos (hA : Answers A S) {fuel : Nat} {k : K} {a b : Nat} {out : Option (It K V)}
    (h : Run A a (lowerBoundIt fuel k) b out) :
    ∃ it s i, out = some it ∧ a ≤ i ∧ i ≤ b ∧ PageOk (S i) it.page.low it.page.high it.page.items ∧ InRange it.page.low it.page.high s ∧
      0 ≤ it.pos ∧ it.pos ≤ it.page.items.length ∧ (∀ x ∈ it.page.items.take it.pos.toNat, x.1 < s) ∧
      (∀ x ∈ it.page.items.drop it.pos.toNat, s ≤ x.1) ∧ k ≤ s ∧ Sweep S (fun x => k ≤ x ∧ x < s) [] a b := by
  induction fuel generalizing k a b out with
  | zero => cases h
  | succ fuel ih =>
    cases h with
    | ask h1 h2 h3 =>
      rename_i a' b' pg
      obtain ⟨i, g1, g2, g3, g4⟩ := hA _ _ _ _ h2
      have hle := run_le hA h3
      obtain ⟨p, e1, e2, e3, e4⟩ := lb_split g4.1 k
      simp only [e1] at h3
      have hdone : Sweep S (fun x => k ≤ x ∧ x < k) [] a b :=
        ⟨fun _ => a, fun _ => ⟨Nat.le_refl _, show a ≤ b by omega⟩, fun _ _ _ => Nat.le_refl _, fun x v =>
          ⟨fun h => by simp at h, fun h => absurd h.1.2 (not_lt.mpr h.1.1)⟩⟩
      by_cases hp : p = pg.items.length
      · rw [if_neg (fun h => h hp)] at h3
        by_cases hend : isEnd (some (⟨pg, p⟩ : It K V)) = true
        · rw [if_pos hend] at h3
          cases h3
          exact ⟨_, k, i, rfl, by omega, g2, g4, g3, Int.natCast_nonneg _, Int.ofNat_le.mpr e2, e3, e4, le_refl _, hdone⟩
        · rw [if_neg hend] at h3
          have hne : pg.high.2 ≠ INVALID := by
            intro e
            apply hend
            simp [isEnd, e, hp]
          have hk := g3.2.resolve_left hne
          obtain ⟨it, s, j, r1, r2, r3, r4, r5, r6, r7, r8, r9, r10, τ, r11, r12, r13⟩ := ih h3
          refine ⟨it, s, j, r1, by omega, r3, r4, r5, r6, r7, r8, r9, le_trans (le_of_lt hk) r10,
            fun x => if x < pg.high.1 then i else τ x, ?_, ?_, ?_⟩
          · intro x
            simp only
            split
            · omega
            · have := r11 x
              omega
          · intro x y hxy
            simp only
            split
            · split
              · omega
              · have := r11 y
                omega
            · rename_i hx
              rw [if_neg (fun hy => hx (lt_of_le_of_lt hxy hy))]
              exact r12 x y hxy
          · intro x v
            refine ⟨fun h => by simp at h, fun ⟨⟨hx1, hx2⟩, hx3⟩ => ?_⟩
            by_cases hx : x < pg.high.1
            · simp only [if_pos hx] at hx3
              have := (g4.2.2.2 x v ⟨g3.1.imp_right (fun h => le_trans h hx1), Or.inr hx⟩).mp hx3
              have := e3 (x, v) (by rw [hp, List.take_length]; exact this)
              exact absurd hx1 (not_le.mpr this)
            · simp only [if_neg hx] at hx3
              exact (r13 x v).mpr ⟨⟨not_lt.mp hx, hx2⟩, hx3⟩
      · rw [if_pos hp] at h3
        cases h3
        exact ⟨_, k, i, rfl, by omega, g2, g4, g3, Int.natCast_nonneg _, Int.ofNat_le.mpr e2, e3, e4, le_refl _, hdone⟩

/-- Begin(k) when the set does not change. -/
theorem beginAt_point (hA : Answers A S) {T : Spec.PairSet K V} {fuel : Nat} {k : K} {a b : Nat} {out : Option (It K V)}
    (hc : ∀ i, a ≤ i → i ≤ b → S i = T) (hr : Run A a (beginAt fuel k) b out) :
    ∃ it, out = some it ∧
      ((isEnd (some it) = true ∧ ∀ y w, T y w → y < k) ∨
       (isEnd (some it) = false ∧ ∃ x v, it.item = some (x, v) ∧ k ≤ x ∧ T x v ∧ ∀ y w, T y w → k ≤ y → x ≤ y)) := by
  obtain ⟨it, rfl, hv, hab, _⟩ := lowerBoundIt_spec hA hr
  obtain ⟨it', s, i, e, i1, i2, i3, i4, i5, i6, i7, i8, i9, i10⟩ := lowerBoundIt_pos hA hr
  cases e
  refine ⟨it, rfl, ?_⟩
  rw [hc i i1 i2] at i3
  have hsweep : ∀ y w, (y, w) ∈ ([] : List (K × V)) ↔ (k ≤ y ∧ y < s) ∧ T y w := by
    obtain ⟨τ, t1, _, t3⟩ := i10
    intro y w
    rw [t3 y w, hc _ (t1 y).1 (t1 y).2]
  have hgap : ∀ y w, T y w → k ≤ y → s ≤ y := by
    intro y w hy hk
    apply not_lt.mp
    intro hlt
    have := (hsweep y w).mpr ⟨⟨hk, hlt⟩, hy⟩
    cases this
  have hin : ∀ y w, T y w → s ≤ y → (it.page.high.2 = INVALID ∨ y < it.page.high.1) → (y, w) ∈ it.page.items.drop it.pos.toNat := by
    intro y w hy hs hh
    have := (i3.2.2.2 y w ⟨i4.1.imp_right (fun h => le_trans h hs), hh⟩).mp hy
    rw [← List.take_append_drop it.pos.toNat it.page.items] at this
    rcases List.mem_append.mp this with hm | hm
    · exact absurd hs (not_le.mpr (i7 _ hm))
    · exact hm
  cases he : isEnd (some it) with
  | true =>
    refine Or.inl ⟨rfl, fun y w hy => not_le.mp fun hk => ?_⟩
    simp only [isEnd, decide_eq_true_eq] at he
    have := hin y w hy (hgap y w hy hk) (Or.inl he.1)
    rw [List.drop_eq_nil_of_le (by omega)] at this
    cases this
  | false =>
    have hlt : it.pos < it.page.items.length := hv.val.resolve_right (by rw [he]; decide)
    obtain ⟨x, hx, hd⟩ := item_valid i5 hlt
    have hxm : x ∈ it.page.items.drop it.pos.toNat := by rw [hd]; exact List.mem_cons_self
    have hxi := List.mem_of_mem_drop hxm
    refine Or.inr ⟨rfl, x.1, x.2, hx, le_trans i9 (i8 x hxm), (i3.2.2.2 x.1 x.2 (i3.2.2.1 x hxi)).mpr hxi, fun y w hy hk => ?_⟩
    by_cases hh : it.page.high.2 = INVALID ∨ y < it.page.high.1
    · have := hin y w hy (hgap y w hy hk) hh
      have hs := i3.1.sublist (List.drop_sublist it.pos.toNat it.page.items)
      rw [hd] at this hs
      rcases List.mem_cons.mp this with hm | hm
      · rw [← hm]
      · exact (List.pairwise_cons.mp hs).1 _ hm
    · have h1 := (i3.2.2.1 x hxi).2.resolve_left (fun e => hh (Or.inl e))
      exact le_trans (le_of_lt h1) (not_lt.mp (fun h => hh (Or.inr h)))

/-- Position at `k`, step back and go on backwards. -/
theorem scanBelow_spec (hA : Answers A S) {n fuel : Nat} {k : K} {a b : Nat} {out : Option (List (K × V))}
    (h : Run A a (scanBelow n fuel k) b out) :
    ∃ l s, out = some l ∧ k ≤ s ∧ Bwd S (some s) l a b ∧ Sweep S (fun x => k ≤ x ∧ x < s) [] a b := by
  obtain ⟨b1, o1, r1, _, r3⟩ := run_bind (p := beginAt fuel k) (f := fun it => (prev fuel (some it)).bind fun o => scanBack n fuel o) h
  obtain ⟨it, s, i, rfl, i1, i2, i3, i4, i5, i6, i7, i8, i9, i10⟩ := lowerBoundIt_pos hA r1
  have hle1 := run_le hA r1
  obtain ⟨b2, o2, s1, _, s3⟩ := run_bind (r3 _ rfl)
  have hr : isREnd (some it) = false := by
    simp only [isREnd, decide_eq_false_iff_not]
    intro h
    omega
  have s1 : Run A b1 (if isREnd (some it) then .ret (some it) else (moveBack fuel it).bind fun it' => .ret (some it')) b2 o2 := s1
  rw [if_neg (by rw [hr]; decide)] at s1
  obtain ⟨b3, o3, t1, _, t3⟩ := run_bind s1
  obtain ⟨it', rfl, v', hab, hf⟩ := moveBack_spec hA i5 i6 ⟨i, i2, i3⟩ t1
  have := t3 it' rfl
  cases this
  have s3 := s3 _ rfl
  obtain ⟨rest, rfl, ht⟩ := scanBack_spec hA v' s3
  have hle2 := run_le hA s3
  obtain ⟨rest', e1, e2⟩ := hf rest _ hle2 ht
  refine ⟨_, s, rfl, i9, ?_, ?_⟩
  · rw [e1]
    refine Bwd.glue i3 ?_ ?_ ?_ ?_ i1 i2 (by omega) e2
    · intro x hx
      exact i4.2.imp_right (fun h => lt_trans (hx _ rfl) h)
    · intro y e; cases e; exact i4.1
    · intro x hx y e
      cases e
      exact i7 x hx
    · intro x hx hab
      exact absurd (hab _ rfl) (not_lt.mpr (i8 x hx))
  · obtain ⟨τ, f1, f2, f3⟩ := i10
    exact ⟨τ, fun x => ⟨(f1 x).1, by have := (f1 x).2; omega⟩, f2, f3⟩

end Iterator
end BwTree
