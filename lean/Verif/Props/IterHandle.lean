import Verif.Model.IterHandle
import Mathlib.Data.Finset.Card

/-!
  C18: page buffers of iterators are never used after release, never released twice, and are released when the last
  iterator referring to them goes away.
-/

namespace BwTree
namespace Iter

/-- The operation copies an iterator that holds no page (default-constructed or moved-from). -/
def CopiesNull (s : State) : Op → Prop
  | .copyCtor _ j => s.var j = some none
  | .copyAssign i j => i ≠ j ∧ s.var j = some none
  | .postMove i _ _ => s.var i = some none
  | _ => False

/-- The operation move-assigns onto an iterator that still holds a page. -/
def MovesOnto (s : State) : Op → Prop
  | .moveAssign i j => i ≠ j ∧ ∃ c, s.var i = some (some c)
  | _ => False

/-- States reachable by any program. -/
inductive Reach : State → Prop
  | init : Reach init
  | step {s s' : State} {o : Op} : Reach s → op s o = some s' → Reach s'

/-- States reachable by programs that never move-assign onto an iterator holding a page. -/
inductive ReachNL : State → Prop
  | init : ReachNL init
  | step {s s' : State} {o : Op} : ReachNL s → ¬ MovesOnto s o → op s o = some s' → ReachNL s'

/-- Invariant; with `exact` the count is the number of iterators, otherwise at least that number. -/
structure Inv (exact : Prop) (s : State) : Prop where
  alive : ∀ i c, s.var i = some (some c) → s.ctx c ≠ none
  count : ∀ c r, s.ctx c = some r → c < s.next ∧ 0 < r ∧
    ∃ L : Finset Nat, (∀ i, i ∈ L ↔ s.var i = some (some c)) ∧ L.card ≤ r ∧ (exact → L.card = r)

theorem upd_same {α : Type} (f : Nat → α) (i : Nat) (x : α) : upd f i x i = x := by simp [upd]

theorem upd_upd {α : Type} (f : Nat → α) (i : Nat) (x y : α) : upd (upd f i x) i y = upd f i y := by
  funext j; simp only [upd]; split <;> rfl

theorem inv_init (e : Prop) : Inv e init := ⟨by simp [init], by simp [init]⟩

/-- Changing a variable that holds no page to another such value. -/
theorem inv_setNull {e : Prop} {s : State} (h : Inv e s) {i : Nat} {x : Option (Option Nat)} (hi : ∀ c, s.var i ≠ some (some c))
    (hx : ∀ c, x ≠ some (some c)) : Inv e { s with var := upd s.var i x } := by
  have key : ∀ j c, upd s.var i x j = some (some c) ↔ s.var j = some (some c) := by
    intro j c
    simp only [upd]
    split
    · next hj => subst hj; exact ⟨fun hh => absurd hh (hx c), fun hh => absurd hh (hi c)⟩
    · exact Iff.rfl
  refine ⟨fun j c hj => h.alive j c ((key j c).mp hj), fun c r hr => ?_⟩
  obtain ⟨h1, h2, L, hL, h3⟩ := h.count c r hr
  exact ⟨h1, h2, L, fun j => (hL j).trans (key j c).symm, h3⟩

/-- Releasing the page held by variable `i`. -/
theorem inv_drop {e : Prop} {s : State} (h : Inv e s) {i c : Nat} (hi : s.var i = some (some c)) {x : Option (Option Nat)}
    (hx : ∀ c, x ≠ some (some c)) :
    ∃ s1, decRef s c = some s1 ∧ s1.var = s.var ∧ s1.next = s.next ∧ Inv e { s1 with var := upd s.var i x } := by
  obtain ⟨r, hr⟩ := Option.ne_none_iff_exists'.mp (h.alive i c hi)
  obtain ⟨hlt, hpos, L, hL, hle, hex⟩ := h.count c r hr
  have hiL : i ∈ L := (hL i).mpr hi
  have key : ∀ j d, upd s.var i x j = some (some d) → j ≠ i ∧ s.var j = some (some d) := by
    intro j d hj
    simp only [upd] at hj
    split at hj
    · exact absurd hj (hx d)
    · exact ⟨by assumption, hj⟩
  have key2 : ∀ j d, j ≠ i → s.var j = some (some d) → upd s.var i x j = some (some d) := by
    intro j d hj hh; simp [upd, hj, hh]
  have others : ∀ d, d ≠ c → ∀ j, upd s.var i x j = some (some d) ↔ s.var j = some (some d) := by
    intro d hd j
    refine ⟨fun hj => (key j d hj).2, fun hj => key2 j d ?_ hj⟩
    rintro rfl
    rw [hi] at hj
    exact hd (by simpa using hj.symm)
  have herase : ∀ j, j ∈ L.erase i ↔ upd s.var i x j = some (some c) := by
    intro j
    rw [Finset.mem_erase, hL]
    exact ⟨fun hh => key2 j c hh.1 hh.2, fun hh => key j c hh⟩
  have hcard := Finset.card_erase_of_mem hiL
  have hLpos : 0 < L.card := Finset.card_pos.mpr ⟨i, hiL⟩
  match r, hr, hpos, hle, hex with
  | 1, hr, _, hle, hex =>
    refine ⟨{ s with ctx := upd s.ctx c none }, by simp [decRef, hr], rfl, rfl, ?_, ?_⟩
    · intro j d hj
      show upd s.ctx c none d ≠ none
      have hd : d ≠ c := by
        rintro rfl
        have : j ∈ L.erase i := (herase j).mpr hj
        have := Finset.card_pos.mpr ⟨j, this⟩
        omega
      simp only [upd, hd, if_false]
      exact h.alive j d (key j d hj).2
    · intro d r hdr
      have hd : d ≠ c := by
        rintro rfl
        simp [upd] at hdr
      have hdr' : s.ctx d = some r := by simpa [upd, hd] using hdr
      obtain ⟨a, b, M, hM, hc⟩ := h.count d r hdr'
      exact ⟨a, b, M, fun j => (hM j).trans (others d hd j).symm, hc⟩
  | r + 2, hr, _, hle, hex =>
    refine ⟨{ s with ctx := upd s.ctx c (some (r + 1)) }, by simp [decRef, hr], rfl, rfl, ?_, ?_⟩
    · intro j d hj
      show upd s.ctx c (some (r + 1)) d ≠ none
      simp only [upd]
      split
      · simp
      · exact h.alive j d (key j d hj).2
    · intro d r' hdr
      by_cases hd : d = c
      · subst hd
        have : r' = r + 1 := by simpa [upd] using hdr.symm
        subst this
        exact ⟨hlt, by omega, L.erase i, herase, by omega, fun he => by have := hex he; omega⟩
      · have hdr' : s.ctx d = some r' := by simpa [upd, hd] using hdr
        obtain ⟨a, b, M, hM, hc⟩ := h.count d r' hdr'
        exact ⟨a, b, M, fun j => (hM j).trans (others d hd j).symm, hc⟩

/-- One more iterator refers to a live page. -/
theorem inv_acquire {e : Prop} {s : State} (h : Inv e s) {i c : Nat} (hi : ∀ d, s.var i ≠ some (some d)) (hc : s.ctx c ≠ none) :
    ∃ s1, incRef { s with var := upd s.var i (some (some c)) } c = some s1 ∧ s1.var = upd s.var i (some (some c)) ∧ Inv e s1 := by
  obtain ⟨r, hr⟩ := Option.ne_none_iff_exists'.mp hc
  obtain ⟨hlt, hpos, L, hL, hle, hex⟩ := h.count c r hr
  have hiL : i ∉ L := fun hh => hi c ((hL i).mp hh)
  refine ⟨{ s with var := upd s.var i (some (some c)), ctx := upd s.ctx c (some (r + 1)) }, by simp [incRef, hr], rfl, ?_, ?_⟩
  · intro j d hj
    show upd s.ctx c (some (r + 1)) d ≠ none
    by_cases hd : d = c
    · simp [upd, hd]
    · have hj' : s.var j = some (some d) := by
        by_cases hji : j = i
        · subst hji; simp [upd] at hj; exact absurd hj.symm hd
        · simpa [upd, hji] using hj
      simpa [upd, hd] using h.alive j d hj'
  · intro d r' hdr
    by_cases hd : d = c
    · subst hd
      have : r' = r + 1 := by simpa [upd] using hdr.symm
      subst this
      refine ⟨hlt, by omega, insert i L, ?_, ?_, fun he => ?_⟩
      · intro j
        rw [Finset.mem_insert, hL]
        by_cases hji : j = i
        · simp [hji, upd]
        · simp [hji, upd]
      · rw [Finset.card_insert_of_notMem hiL]; omega
      · rw [Finset.card_insert_of_notMem hiL, hex he]
    · have hdr' : s.ctx d = some r' := by simpa [upd, hd] using hdr
      obtain ⟨a, b, M, hM, hc⟩ := h.count d r' hdr'
      refine ⟨a, b, M, fun j => ?_, hc⟩
      rw [hM]
      by_cases hji : j = i
      · subst hji
        have : c ≠ d := fun hh => hd hh.symm
        simp [upd, hi, this]
      · simp [upd, hji]

/-- A new page for a variable that holds none. -/
theorem inv_fresh {e : Prop} {s : State} (h : Inv e s) {i : Nat} (hi : ∀ d, s.var i ≠ some (some d)) :
    Inv e { (getCtx s).1 with var := upd (getCtx s).1.var i (some (some (getCtx s).2)) } := by
  have hfresh : s.ctx s.next = none := by
    cases hc : s.ctx s.next with
    | none => rfl
    | some r => have := (h.count _ _ hc).1; omega
  have hnone : ∀ j, s.var j ≠ some (some s.next) := fun j hj => h.alive j _ hj hfresh
  refine ⟨?_, ?_⟩
  · intro j d hj
    show upd s.ctx s.next (some 1) d ≠ none
    by_cases hd : d = s.next
    · simp [upd, hd]
    · have hj' : s.var j = some (some d) := by
        by_cases hji : j = i
        · subst hji; simp [upd, getCtx] at hj; exact absurd hj.symm hd
        · simpa [upd, hji, getCtx] using hj
      simpa [upd, hd] using h.alive j d hj'
  · intro d r' hdr
    show d < s.next + 1 ∧ _
    by_cases hd : d = s.next
    · subst hd
      have : r' = 1 := by simpa [upd, getCtx] using hdr.symm
      subst this
      refine ⟨by omega, by omega, {i}, ?_, by simp, by simp⟩
      intro j
      by_cases hji : j = i
      · simp [hji, upd, getCtx]
      · simp [hji, upd, getCtx, hnone]
    · have hdr' : s.ctx d = some r' := by simpa [upd, hd, getCtx] using hdr
      obtain ⟨a, b, M, hM, hc⟩ := h.count d r' hdr'
      refine ⟨by omega, b, M, fun j => ?_, hc⟩
      rw [hM]
      by_cases hji : j = i
      · subst hji
        have : s.next ≠ d := fun hh => hd hh.symm
        simp [upd, hi, this, getCtx]
      · simp [upd, hji, getCtx]

theorem inv_reload {e : Prop} : ∀ (k : Nat) {s : State}, Inv e s → ∀ {i c : Nat}, s.var i = some (some c) →
    ∃ s', reload k s i = some s' ∧ Inv e s'
  | 0, s, h, _, _, _ => ⟨s, rfl, h⟩
  | k + 1, s, h, i, c, hi => by
    obtain ⟨s1, h1, hv, hn, hI⟩ := inv_drop h hi (x := some none) (by simp)
    have hI2 := inv_fresh hI (i := i) (by simp [upd])
    simp only [getCtx] at hI2
    rw [upd_upd] at hI2
    have hI3 : Inv e { (getCtx s1).1 with var := upd (getCtx s1).1.var i (some (some (getCtx s1).2)) } := by
      simpa [getCtx, hv] using hI2
    obtain ⟨s', h', hI'⟩ := inv_reload k hI3 (i := i) (c := (getCtx s1).2) (by simp [upd])
    refine ⟨s', ?_, hI'⟩
    rw [reload]
    simp only [hi, h1]
    exact h'

/-- Every usable operation that copies no null iterator is defined and keeps the invariant. -/
theorem inv_op {e : Prop} {s : State} (h : Inv e s) {o : Op} (hu : Usable s o) (hn : ¬ CopiesNull s o) (hm : e → ¬ MovesOnto s o) :
    ∃ s', op s o = some s' ∧ Inv e s' := by
  cases o with
  | ctorNull i =>
    have hu : s.var i = none := hu
    exact ⟨{ s with var := upd s.var i (some none) }, by simp only [op, hu],
      inv_setNull h (i := i) (x := some none) (by simp [hu]) (by simp)⟩
  | ctorPage i k =>
    have hu : s.var i = none := hu
    have hI := inv_fresh h (i := i) (by simp [hu])
    obtain ⟨s', h', hI'⟩ := inv_reload k hI (i := i) (c := (getCtx s).2) (by simp [upd])
    exact ⟨s', by simp only [op, hu]; exact h', hI'⟩
  | copyCtor i j =>
    obtain ⟨hi, hj⟩ : s.var i = none ∧ s.var j ≠ none := hu
    have hn : s.var j ≠ some none := hn
    obtain ⟨x, hx⟩ := Option.ne_none_iff_exists'.mp hj
    cases x with
    | none => exact absurd hx hn
    | some c =>
      obtain ⟨s1, h1, _, hI⟩ := inv_acquire h (i := i) (by simp [hi]) (h.alive j c hx)
      exact ⟨s1, by simp only [op, hi, hx]; exact h1, hI⟩
  | copyAssign i j =>
    obtain ⟨hi, hj⟩ : s.var i ≠ none ∧ s.var j ≠ none := hu
    obtain ⟨a, ha⟩ := Option.ne_none_iff_exists'.mp hi
    obtain ⟨b, hb⟩ := Option.ne_none_iff_exists'.mp hj
    by_cases hij : i = j
    · subst hij
      exact ⟨s, by simp [op, ha], h⟩
    · cases b with
      | none => exact absurd ⟨hij, hb⟩ hn
      | some d =>
        cases a with
        | none =>
          obtain ⟨s1, h1, _, hI⟩ := inv_acquire h (i := i) (by simp [ha]) (h.alive j d hb)
          exact ⟨s1, by simp only [op, ha, hb, if_neg hij]; exact h1, hI⟩
        | some c =>
          obtain ⟨s1, h1, hv, _, hI⟩ := inv_drop h ha (x := some none) (by simp)
          have hjd : upd s.var i (some none) j = some (some d) := by simp [upd, Ne.symm hij, hb]
          obtain ⟨s2, h2, _, hI2⟩ := inv_acquire hI (i := i) (by simp [upd]) (hI.alive j d hjd)
          simp only [upd_upd] at h2
          refine ⟨s2, ?_, hI2⟩
          simp only [op, ha, hb, if_neg hij, h1]
          rw [hv]; exact h2
  | moveAssign i j =>
    obtain ⟨hi, hj⟩ : s.var i ≠ none ∧ s.var j ≠ none := hu
    obtain ⟨a, ha⟩ := Option.ne_none_iff_exists'.mp hi
    obtain ⟨b, hb⟩ := Option.ne_none_iff_exists'.mp hj
    by_cases hij : i = j
    · subst hij
      exact ⟨s, by simp [op, ha], h⟩
    · refine ⟨{ s with var := upd (upd s.var i (some b)) j (some none) }, by simp only [op, ha, hb, if_neg hij], ?_, ?_⟩
      · intro k c hk
        show s.ctx c ≠ none
        by_cases hkj : k = j
        · simp [upd, hkj] at hk
        · by_cases hki : k = i
          · have : b = some c := by subst hki; simpa [upd, hkj] using hk
            exact h.alive j c (by rw [hb, this])
          · exact h.alive k c (by simpa [upd, hkj, hki] using hk)
      · intro c r hr
        obtain ⟨h1, h2, L, hL, h3, h4⟩ := h.count c r hr
        refine ⟨h1, h2, ?_⟩
        have hiff : ∀ k, upd (upd s.var i (some b)) j (some none) k = some (some c) ↔
            (k = i ∧ b = some c) ∨ (k ≠ i ∧ k ≠ j ∧ s.var k = some (some c)) := by
          intro k
          by_cases hkj : k = j
          · subst hkj; simp [upd, Ne.symm hij]
          · by_cases hki : k = i
            · subst hki; simp [upd, hkj]
            · simp [upd, hkj, hki]
        by_cases hbc : b = some c
        · have hjL : j ∈ L := (hL j).mpr (by rw [hb, hbc])
          refine ⟨insert i (L.erase j), fun k => ?_, ?_, fun he => ?_⟩
          · rw [hiff, Finset.mem_insert, Finset.mem_erase, hL]
            by_cases hki : k = i
            · simp [hki, hbc]
            · simp [hki]
          · have := Finset.card_insert_le i (L.erase j)
            have h5 := Finset.card_erase_of_mem hjL
            have h6 : 0 < L.card := Finset.card_pos.mpr ⟨j, hjL⟩
            omega
          · have hi' : i ∉ L.erase j := by
              intro hh
              exact hm he ⟨hij, c, (hL i).mp (Finset.mem_of_mem_erase hh)⟩
            have h5 := Finset.card_erase_of_mem hjL
            have h6 : 0 < L.card := Finset.card_pos.mpr ⟨j, hjL⟩
            rw [Finset.card_insert_of_notMem hi', h5]
            have := h4 he
            omega
        · refine ⟨L.erase i, fun k => ?_, ?_, fun he => ?_⟩
          · rw [hiff, Finset.mem_erase, hL]
            by_cases hkj : k = j
            · subst hkj; simp [hb, hbc]
            · simp [hbc, hkj]
          · exact Nat.le_trans (Finset.card_erase_le) h3
          · have hi' : i ∉ L := fun hh => hm he ⟨hij, c, (hL i).mp hh⟩
            rw [Finset.erase_eq_of_notMem hi']; exact h4 he
  | dtor i =>
    have hi : s.var i ≠ none := hu
    obtain ⟨a, ha⟩ := Option.ne_none_iff_exists'.mp hi
    cases a with
    | none => exact ⟨{ s with var := upd s.var i none }, by simp only [op, ha],
        inv_setNull h (i := i) (x := none) (by simp [ha]) (by simp)⟩
    | some c =>
      obtain ⟨s1, h1, hv, hn, hI⟩ := inv_drop h ha (x := none) (by simp)
      refine ⟨_, ?_, hI⟩
      simp only [op, ha]
      unfold decRef at h1 ⊢
      cases hc : s.ctx c with
      | none => simp [hc] at h1
      | some r =>
        match r with
        | 0 => simp [hc] at h1
        | 1 => simp [hc] at h1; subst h1; simp [hc]
        | r + 2 => simp [hc] at h1; subst h1; simp [hc]
  | move i k =>
    have hi : s.var i ≠ none := hu
    obtain ⟨a, ha⟩ := Option.ne_none_iff_exists'.mp hi
    cases a with
    | none => exact ⟨s, by simp only [op, ha], h⟩
    | some c =>
      obtain ⟨s', h', hI⟩ := inv_reload k h ha
      exact ⟨s', by simp only [op, ha]; exact h', hI⟩
  | postMove i j k =>
    obtain ⟨hi, hj, hij⟩ : s.var i ≠ none ∧ s.var j = none ∧ i ≠ j := hu
    obtain ⟨a, ha⟩ := Option.ne_none_iff_exists'.mp hi
    cases a with
    | none => exact absurd ha hn
    | some c =>
      obtain ⟨s1, h1, hv, hI⟩ := inv_acquire h (i := j) (by simp [hj]) (h.alive i c ha)
      obtain ⟨s', h', hI'⟩ := inv_reload k hI (i := i) (c := c) (by rw [hv]; simp [upd, hij, ha])
      exact ⟨s', by simp only [op, ha, hj, h1]; exact h', hI'⟩

theorem copiesNull_undefined {s : State} {o : Op} (hu : Usable s o) (hn : CopiesNull s o) : op s o = none := by
  cases o with
  | copyCtor i j => have hn : s.var j = some none := hn; simp [op, hn]
  | copyAssign i j =>
    obtain ⟨hij, hj⟩ : i ≠ j ∧ s.var j = some none := hn
    obtain ⟨hi, _⟩ : s.var i ≠ none ∧ s.var j ≠ none := hu
    obtain ⟨a, ha⟩ := Option.ne_none_iff_exists'.mp hi
    simp only [op, ha, hj, if_neg hij]
    split <;> rfl
  | postMove i j k => have hn : s.var i = some none := hn; simp [op, hn]
  | _ => exact absurd hn (by simp [CopiesNull])

theorem usable_of_op {s s' : State} {o : Op} (h : op s o = some s') : Usable s o := by
  cases o <;> simp only [op, Usable] at h ⊢
  case ctorNull i => cases hi : s.var i <;> simp_all
  case ctorPage i k => cases hi : s.var i <;> simp_all
  case copyCtor i j => split at h <;> simp_all
  case copyAssign i j => split at h <;> simp_all
  case moveAssign i j => split at h <;> simp_all
  case dtor i => split at h <;> simp_all
  case move i k => split at h <;> simp_all
  case postMove i j k =>
    split at h
    · next c h1 h2 => refine ⟨by simp [h1], h2, ?_⟩; rintro rfl; simp [h1] at h2
    · simp at h

theorem inv_step {e : Prop} {s s' : State} {o : Op} (h : Inv e s) (hs : op s o = some s') (hm : e → ¬ MovesOnto s o) : Inv e s' := by
  have hu := usable_of_op hs
  have hn : ¬ CopiesNull s o := fun hn => by rw [copiesNull_undefined hu hn] at hs; simp at hs
  obtain ⟨s1, h1, hI⟩ := inv_op h hu hn hm
  rw [h1] at hs
  obtain rfl := Option.some.inj hs
  exact hI

theorem reach_inv {s : State} (h : Reach s) : Inv False s := by
  induction h with
  | init => exact inv_init _
  | step _ hs ih => exact inv_step ih hs (by simp)

theorem reachNL_inv {s : State} (h : ReachNL s) : Inv True s := by
  induction h with
  | init => exact inv_init _
  | step _ hm hs ih => exact inv_step ih hs (fun _ => hm)

/-- **C18 (a).** In every reachable state, an operation on live iterators touches only live page buffers and releases none
    twice (it is defined) — except exactly when it copies an iterator that holds no page, which dereferences null. -/
theorem C18_defined_iff {s : State} (h : Reach s) {o : Op} (hu : Usable s o) : op s o ≠ none ↔ ¬ CopiesNull s o := by
  constructor
  · intro hd hn; exact hd (copiesNull_undefined hu hn)
  · intro hn
    obtain ⟨s', h', _⟩ := inv_op (reach_inv h) hu hn (by simp)
    simp [h']

/-- **C18 (b).** A page an iterator refers to is still allocated. -/
theorem C18_alive {s : State} (h : Reach s) {i c : Nat} (hi : s.var i = some (some c)) : s.ctx c ≠ none :=
  (reach_inv h).alive i c hi

/-- **C18 (c).** A page no iterator refers to has been released, for programs that never move-assign onto an iterator
    that holds a page. Missing: such move assignments, for which it is false (`C18_move_leak`). -/
theorem C18_released_partial {s : State} (h : ReachNL s) {c : Nat} (hno : ∀ i, s.var i ≠ some (some c)) : s.ctx c = none := by
  cases hc : s.ctx c with
  | none => rfl
  | some r =>
    obtain ⟨_, hpos, L, hL, _, hex⟩ := (reachNL_inv h).count c r hc
    have : L = ∅ := Finset.eq_empty_of_forall_notMem (fun j hj => hno j ((hL j).mp hj))
    have := hex trivial
    simp_all

/-- The count is the number of iterators referring to the page (no move assignment onto a page holder). -/
theorem C18_count_partial {s : State} (h : ReachNL s) {c r : Nat} (hc : s.ctx c = some r) :
    ∃ L : Finset Nat, (∀ i, i ∈ L ↔ s.var i = some (some c)) ∧ L.card = r := by
  obtain ⟨_, _, L, hL, _, hex⟩ := (reachNL_inv h).count c r hc
  exact ⟨L, hL, hex trivial⟩

theorem reach_run : ∀ {os : List Op} {s s' : State}, Reach s → run s os = some s' → Reach s'
  | [], _, _, h, hr => by obtain rfl := Option.some.inj hr; exact h
  | o :: os, s, s', h, hr => by
    simp only [run] at hr
    cases ho : op s o with
    | none => simp [ho] at hr
    | some s1 => rw [ho] at hr; exact reach_run (Reach.step h ho) hr

/-- **C18 fails in general**: `it0 = std::move(it1)` with a page in `it0`. After both iterators are destroyed the first
    page is still allocated and nothing refers to it. -/
theorem C18_move_leak : ∃ s, Reach s ∧ (∀ i, s.var i = none) ∧ s.ctx 0 ≠ none := by
  have hrun : (run init [.ctorPage 0 0, .ctorPage 1 0, .moveAssign 0 1, .dtor 0, .dtor 1]).isSome := rfl
  obtain ⟨s, hs⟩ := Option.isSome_iff_exists.mp hrun
  have hs' := Option.some.inj hs
  refine ⟨s, reach_run Reach.init hs, ?_, ?_⟩
  · intro i
    rw [← hs']
    simp only [upd, decRef]
    by_cases h0 : i = 0
    · subst h0; rfl
    · by_cases h1 : i = 1
      · subst h1; rfl
      · simp [upd, h0, h1, getCtx, init]
  · rw [← hs']; decide

/-- **C18 fails in general**: copying a default-constructed iterator is undefined. -/
theorem C18_copy_null : ∃ s, Reach s ∧ Usable s (.copyCtor 1 0) ∧ op s (.copyCtor 1 0) = none :=
  ⟨_, Reach.step (o := .ctorNull 0) Reach.init rfl, ⟨rfl, by simp [upd]⟩, rfl⟩

/-- Non-vacuity: a loop with copies, post-increments over several pages, assignment and destruction ends with every
    page released. -/
example : (run init [.ctorPage 0 1, .copyCtor 1 0, .postMove 0 2 1, .move 0 2, .copyAssign 1 0, .ctorNull 3, .moveAssign 3 0,
    .dtor 2, .dtor 1, .dtor 3, .dtor 0]).map (fun s => (List.range 8).map s.ctx) = some (List.replicate 8 none) := by decide

end Iter
end BwTree
