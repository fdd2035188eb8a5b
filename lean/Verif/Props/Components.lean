import Verif.Model.SmallSet
import Verif.Model.Bloom
import Verif.Model.KeyCmp
import Verif.Proofs.SmallSet
import Mathlib.Data.List.Induction
import Mathlib.Data.Nat.Basic
import Mathlib.Data.Int.Order.Basic

/-!
  Properties of the small components: C25 (membership filter), C26 (small sorted set),
  C35 (derived key comparisons).
-/

namespace BwTree

/-! ### C26 – SortedSmallSet -/

/-- `Insert` any sequence of values into an empty set: the result is strictly sorted and contains exactly those
values that had no equal value inserted before them. -/
theorem C26_insert_sequence {α : Type} (lt eq : α → α → Bool) (h : StrictWeak lt) (he : EqInduced lt eq)
    (vs : List α) :
    let s := vs.foldl (fun s v => SmallSet.insert lt eq v s) []
    s.Pairwise (fun a b => lt a b = true) ∧
    ∀ x, x ∈ s ↔ ∃ pre post, vs = pre ++ x :: post ∧ ∀ y ∈ pre, eq y x = false := by
  intro s
  have erefl : ∀ a, eq a a = true := fun a => (he a a).mpr ⟨h.irrefl a, h.irrefl a⟩
  have main : ∀ vs : List α,
      (vs.foldl (fun s v => SmallSet.insert lt eq v s) []).Pairwise (fun a b => lt a b = true) ∧
      (∀ x, x ∈ vs.foldl (fun s v => SmallSet.insert lt eq v s) [] ↔
        ∃ pre post, vs = pre ++ x :: post ∧ ∀ y ∈ pre, eq y x = false) ∧
      (∀ y ∈ vs, ∃ x ∈ vs.foldl (fun s v => SmallSet.insert lt eq v s) [], eq x y = true) := by
    intro vs
    induction vs using List.reverseRecOn with
    | nil => simp
    | append_singleton vs v ih =>
      obtain ⟨i1, i2, i3⟩ := ih
      rw [List.foldl_append]
      simp only [List.foldl_cons, List.foldl_nil]
      generalize vs.foldl (fun s v => SmallSet.insert lt eq v s) [] = s at i1 i2 i3
      refine ⟨SmallSet.pairwise_insert h he i1, ?_, ?_⟩
      · intro x
        by_cases hd : ∃ x ∈ s, eq x v = true
        · rw [SmallSet.insert_dup h he i1 hd, i2]
          obtain ⟨w, hw, hwv⟩ := hd
          obtain ⟨wp, wq, we, _⟩ := (i2 w).mp hw
          constructor
          · rintro ⟨p, q, e, hp⟩; exact ⟨p, q ++ [v], by rw [e]; simp, hp⟩
          · rintro ⟨p, q, e, hp⟩
            rcases List.eq_nil_or_concat q with rfl | ⟨q', z, rfl⟩
            · exfalso
              have := List.append_inj' e rfl
              obtain ⟨e1, e2⟩ := this
              simp at e2; subst e2
              have := hp w (by rw [← e1, we]; simp)
              simp [hwv] at this
            · refine ⟨p, q', ?_, hp⟩
              have e' : vs ++ [v] = (p ++ x :: q') ++ [z] := by rw [e]; simp
              exact (List.append_inj' e' rfl).1
        · have hd' : ∀ x ∈ s, eq x v = false := by
            intro x hx; cases hxv : eq x v with
            | false => rfl
            | true => exact absurd ⟨x, hx, hxv⟩ hd
          constructor
          · intro hx
            rcases SmallSet.mem_insert hx with rfl | hx
            · refine ⟨vs, [], rfl, ?_⟩
              intro y hy
              cases hyx : eq y x with
              | false => rfl
              | true =>
                exfalso
                obtain ⟨z, hz, hzy⟩ := i3 y hy
                have a1 := (he _ _).mp hzy
                have a2 := (he _ _).mp hyx
                have a3 := h.incomp z y x a1.1 a1.2 a2.1 a2.2
                have := hd' z hz
                rw [(he z x).mpr a3] at this; cases this
            · obtain ⟨p, q, e, hp⟩ := (i2 x).mp hx
              exact ⟨p, q ++ [v], by rw [e]; simp, hp⟩
          · rintro ⟨p, q, e, hp⟩
            rcases List.eq_nil_or_concat q with rfl | ⟨q', z, rfl⟩
            · have := List.append_inj' e rfl
              obtain ⟨e1, e2⟩ := this
              simp at e2; subst e2
              exact SmallSet.mem_insert_self i1 hd'
            · apply SmallSet.subset_insert
              apply (i2 x).mpr
              have e' : vs ++ [v] = (p ++ x :: q') ++ [z] := by rw [e]; simp
              exact ⟨p, q', (List.append_inj' e' rfl).1, hp⟩
      · intro y hy
        rcases List.mem_append.mp hy with hy | hy
        · obtain ⟨x, hx, e⟩ := i3 y hy
          exact ⟨x, SmallSet.subset_insert hx, e⟩
        · simp at hy; subst hy
          by_cases hd : ∃ x ∈ s, eq x y = true
          · obtain ⟨x, hx, e⟩ := hd
            exact ⟨x, SmallSet.subset_insert hx, e⟩
          · refine ⟨y, SmallSet.mem_insert_self i1 ?_, erefl y⟩
            intro x hx; cases hxv : eq x y with
            | false => rfl
            | true => exact absurd ⟨x, hx, hxv⟩ hd
  exact ⟨(main vs).1, (main vs).2.1⟩

/-- Insert values one after the other without removing duplicates. -/
def SmallSet.insertAll {α : Type} (lt : α → α → Bool) (vs : List α) : Option (List α) :=
  vs.foldlM (fun s v => SmallSet.insertNoDedup lt v s) []

/-- `InsertNoDedup` is a stable insertion sort: it never fails, the result is sorted, a permutation of the inserted
values, and within each class of equal values the insertion order is kept. -/
theorem C26_insertNoDedup_sequence {α : Type} (lt : α → α → Bool) (h : StrictWeak lt) (vs : List α) :
    ∃ s, SmallSet.insertAll lt vs = some s ∧
      s.Pairwise (fun a b => lt b a = false) ∧ s.Perm vs ∧
      ∀ x, s.filter (fun y => !lt x y && !lt y x) = vs.filter (fun y => !lt x y && !lt y x) := by
  unfold SmallSet.insertAll
  induction vs using List.reverseRecOn with
  | nil => exact ⟨[], rfl, by simp, by simp, by simp⟩
  | append_singleton vs v ih =>
    obtain ⟨s, e, i1, i2, i3⟩ := ih
    obtain ⟨l1, l2, e1, e2, p1, p2⟩ := SmallSet.insertNoDedup_split (v := v) h i1
    refine ⟨l1 ++ v :: l2, ?_, ?_, ?_, ?_⟩
    · rw [List.foldlM_append, e]
      simp [e2]
    · subst e1; exact SmallSet.pairwise_insertNoDedup h i1 p1 p2
    · subst e1
      exact List.perm_middle.trans ((List.Perm.cons v i2).trans (List.perm_append_singleton v vs).symm)
    · intro x
      have := i3 x
      rw [List.filter_append (l₁ := vs), ← this]
      subst e1
      rw [List.filter_append, List.filter_append]
      cases hv : (!lt x v && !lt v x) with
      | false => simp [hv]
      | true =>
        have hl2 : l2.filter (fun y => !lt x y && !lt y x) = [] := by
          rw [List.filter_eq_nil_iff]
          intro y hy hh
          simp only [Bool.and_eq_true, Bool.not_eq_true'] at hv hh
          have := (h.incomp v x y hv.2 hv.1 hh.1 hh.2).1
          rw [p2 y hy] at this; cases this
        simp [hv, hl2]

/-- `GetFront` returns a least element, `PopFront` removes it and keeps the rest sorted. -/
theorem C26_popFront {α : Type} (lt : α → α → Bool) (l : List α)
    (hl : l.Pairwise (fun a b => lt b a = false)) (hne : l ≠ []) :
    ∃ x r, SmallSet.getFront l = some x ∧ SmallSet.popFront l = some (x, r) ∧ l = x :: r ∧ (∀ y ∈ r, lt y x = false) ∧
      r.Pairwise (fun a b => lt b a = false) := by
  cases l with
  | nil => exact absurd rfl hne
  | cons x r => exact ⟨x, r, rfl, rfl, rfl, (List.pairwise_cons.mp hl).1, (List.pairwise_cons.mp hl).2⟩

/-- Non-vacuity: `Nat` with `<` and `==` is such an order, and pairs compared by first component give a
strict weak order with non-trivial classes. -/
example : StrictWeak (fun a b : Nat × Nat => decide (a.1 < b.1)) ∧
    EqInduced (fun a b : Nat × Nat => decide (a.1 < b.1)) (fun a b => a.1 == b.1) := by
  refine ⟨⟨by simp, by intro a b c; simp; omega, by intro a b c; simp; omega⟩, ?_⟩
  intro a b; simp; omega

example : [(2, 0), (1, 0), (2, 1), (1, 1)].foldl
    (fun s v => SmallSet.insert (fun a b : Nat × Nat => decide (a.1 < b.1)) (fun a b => a.1 == b.1) v s) []
    = [(1, 0), (2, 0)] := by decide

example : SmallSet.insertAll (fun a b : Nat × Nat => decide (a.1 < b.1)) [(2, 0), (1, 0), (2, 1), (1, 1)]
    = some [(1, 0), (1, 1), (2, 0), (2, 1)] := by decide

/-! ### C25 – BloomFilter -/

theorem Bloom.bitMask_ne_zero (h : BitVec 64) : Bloom.bitMask h ≠ 0#8 := by
  have hlt : (h &&& 0x07#64).toNat < 8 := by
    rw [BitVec.toNat_and]
    exact Nat.lt_of_le_of_lt Nat.and_le_right (by decide)
  unfold Bloom.bitMask
  generalize (h &&& 0x07#64).toNat = n at hlt
  have : ∀ n : Fin 8, (1#8 <<< n.val) ≠ 0#8 := by decide
  exact this ⟨n, hlt⟩

theorem Bloom.or_and (a b c : BitVec 8) : (a ||| b) &&& c = (a &&& c) ||| (b &&& c) := by
  apply BitVec.eq_of_getLsbD_eq
  intro i _
  simp [Bool.and_or_distrib_right]

/-- Every access to `bit_array_0` is inside its 32 bytes. -/
theorem C25_byte_in_bounds (h : BitVec 64) : Bloom.byteIdx h < 32 := by
  unfold Bloom.byteIdx
  rw [BitVec.toNat_ushiftRight, BitVec.toNat_and]
  have : h.toNat &&& (0xF8#64).toNat ≤ 0xF8 := Nat.and_le_right
  rw [Nat.shiftRight_eq_div_pow]
  omega

/-- After inserting `vs`, `Exists v` answers exactly whether an equal value was inserted. -/
theorem C25_exists_exact {V : Type} (hash : V → BitVec 64) (eq : V → V → Bool)
    (hh : ∀ u v, eq u v = true → hash u = hash v) (vs : List V) (v : V) :
    Bloom.exists? hash eq (vs.foldl (Bloom.insert hash) Bloom.empty) v = true ↔ ∃ u ∈ vs, eq v u = true := by
  have hdata : ∀ vs : List V, (vs.foldl (Bloom.insert hash) Bloom.empty).data = vs := by
    intro vs
    induction vs using List.reverseRecOn with
    | nil => rfl
    | append_singleton vs w ih => rw [List.foldl_append]; simp [Bloom.insert, ih]
  have hbits : ∀ vs : List V, ∀ u ∈ vs,
      (vs.foldl (Bloom.insert hash) Bloom.empty).bits (Bloom.byteIdx (hash u)) &&& Bloom.bitMask (hash u) ≠ 0#8 := by
    intro vs
    induction vs using List.reverseRecOn with
    | nil => simp
    | append_singleton vs w ih =>
      intro u hu
      rw [List.foldl_append]
      simp only [List.foldl_cons, List.foldl_nil]
      generalize vs.foldl (Bloom.insert hash) Bloom.empty = f at ih
      simp only [Bloom.insert]
      intro hz
      rcases List.mem_append.mp hu with hu | hu
      · split at hz
        · rw [Bloom.or_and] at hz
          have := (BitVec.or_eq_zero_iff.mp hz).1
          exact ih u hu this
        · exact ih u hu hz
      · simp at hu; subst hu
        simp only [if_true] at hz
        rw [Bloom.or_and] at hz
        have := (BitVec.or_eq_zero_iff.mp hz).2
        rw [BitVec.and_self] at this
        exact Bloom.bitMask_ne_zero _ this
  unfold Bloom.exists?
  simp only [hdata]
  constructor
  · intro h
    split at h
    · cases h
    · obtain ⟨u, hu, e⟩ := List.any_eq_true.mp h
      exact ⟨u, hu, e⟩
  · rintro ⟨u, hu, e⟩
    have := hbits vs u hu
    rw [← hh v u e] at this
    rw [if_neg this]
    exact List.any_eq_true.mpr ⟨u, hu, e⟩

/-- Non-vacuity: with a constant hash (worst case collisions) the answer is still exact. -/
example : (∀ u v : Nat, (u == v) = true → (fun _ => 13#64 : Nat → BitVec 64) u = (fun _ => 13#64) v) ∧
    Bloom.exists? (fun _ => 13#64) (· == ·) ([1, 2].foldl (Bloom.insert (fun _ => 13#64)) Bloom.empty) 3 = false ∧
    Bloom.exists? (fun _ => 13#64) (· == ·) ([1, 2].foldl (Bloom.insert (fun _ => 13#64)) Bloom.empty) 2 = true := by
  refine ⟨by simp, by decide, by decide⟩

/-! ### C35 – derived key comparisons -/

/-- For any strict weak order with matching equality checker exactly one of less / equal / greater holds, the
`…Equal` helpers are the disjunctions their names say, and all helpers respect the equivalence. -/
theorem C35_trichotomy {K : Type} (lt eq : K → K → Bool) (h : StrictWeak lt) (he : EqInduced lt eq) (a b : K) :
    ((KeyCmp.less lt a b = true ∧ KeyCmp.equal eq a b = false ∧ KeyCmp.greater lt a b = false) ∨
     (KeyCmp.less lt a b = false ∧ KeyCmp.equal eq a b = true ∧ KeyCmp.greater lt a b = false) ∨
     (KeyCmp.less lt a b = false ∧ KeyCmp.equal eq a b = false ∧ KeyCmp.greater lt a b = true)) ∧
    (KeyCmp.greaterEqual lt a b = (KeyCmp.greater lt a b || KeyCmp.equal eq a b)) ∧
    (KeyCmp.lessEqual lt a b = (KeyCmp.less lt a b || KeyCmp.equal eq a b)) := by
  unfold KeyCmp.lessEqual KeyCmp.greaterEqual KeyCmp.greater KeyCmp.less KeyCmp.equal
  have e1 := he a b
  cases h1 : lt a b <;> cases h2 : lt b a <;> cases h3 : eq a b <;> simp_all
  have := h.trans _ _ _ h1 h2
  simp [h.irrefl] at this

theorem C35_congr {K : Type} (lt eq : K → K → Bool) (h : StrictWeak lt) (he : EqInduced lt eq) (a b c : K)
    (hab : KeyCmp.equal eq a b = true) :
    KeyCmp.less lt a c = KeyCmp.less lt b c ∧ KeyCmp.greater lt a c = KeyCmp.greater lt b c ∧
    KeyCmp.equal eq a c = KeyCmp.equal eq b c ∧ KeyCmp.greaterEqual lt a c = KeyCmp.greaterEqual lt b c ∧
    KeyCmp.lessEqual lt a c = KeyCmp.lessEqual lt b c := by
  unfold KeyCmp.lessEqual KeyCmp.greaterEqual KeyCmp.greater KeyCmp.less
  unfold KeyCmp.equal at *
  obtain ⟨h1, h2⟩ := (he a b).mp hab
  have e1 : lt a c = lt b c := by
    cases hbc : lt b c with
    | true => 
      cases hac : lt a c with
      | true => rfl
      | false => have := SmallSet.negTrans h hac h2; simp [hbc] at this
    | false => exact SmallSet.negTrans h hbc h1
  have e2 : lt c a = lt c b := by
    cases hcb : lt c b with
    | true => exact SmallSet.lt_of_lt_of_not h hcb h1
    | false => exact SmallSet.negTrans h h2 hcb
  have e3 : eq a c = eq b c := by
    rw [Bool.eq_iff_iff, he, he, e1, e2]
  simp [e1, e2, e3]

example : KeyCmp.greaterEqual (fun a b : Nat => decide (a < b)) 5 5 = true := by decide

end BwTree
