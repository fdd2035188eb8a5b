import Verif.Model.SpinLock
import Mathlib.Data.Finset.Card
import Mathlib.Data.Finset.Range

namespace BwTree.Spin

/-- The thread holds the lock for reading: from the exchange in `read_lock` to the one in `read_unlock`. -/
def Pc.holdR : Pc → Bool
  | .after .readLock | .reading | .load .readUnlock | .before .readUnlock _ | .cas .readUnlock _ => true
  | _ => false

/-- The thread holds the lock for writing. -/
def Pc.holdW : Pc → Bool
  | .after .writeLock | .writing | .load .writeUnlock | .before .writeUnlock _ | .cas .writeUnlock _ => true
  | _ => false

/-- What the code has established about `expected` where the thread is. -/
def Pc.Ok : Pc → Prop
  | .cas .readLock e => 0 ≤ e
  | .cas .readUnlock e | .before .readUnlock e => 0 < e
  | .cas .writeLock e => e = 0
  | .cas .writeUnlock e | .before .writeUnlock e => e = -1
  | .before _ _ => False
  | .after .readUnlock | .after .writeUnlock => False
  | .stuck => False
  | _ => True

/-- The threads that hold the lock for reading. -/
def readers (n : Nat) (s : State) : Finset Nat := (Finset.range n).filter fun t => (s.thr t).pc.holdR = true

structure Inv (n : Nat) (s : State) : Prop where
  le : ∀ t, (s.thr t).seen ≤ s.last
  out : ∀ t, n ≤ t → (s.thr t).pc = .idle
  ok : ∀ t, (s.thr t).pc.Ok
  bound : ∀ i, i ≤ s.last → (s.hist i).val ≤ n
  cnt : 0 ≤ (s.hist s.last).val → (s.hist s.last).val = (readers n s).card
  noR : (s.hist s.last).val < 0 → ∀ t, (s.thr t).pc.holdR = false
  wrt : ∀ t, (s.thr t).pc.holdW = true → (s.hist s.last).val = -1 ∧ (s.thr t).seen = s.last ∧ ∀ u, (s.thr u).pc.holdW = true → u = t
  rd : ∀ t, (s.thr t).pc.holdR = true → ∀ i, (s.thr t).seen ≤ i → i ≤ s.last → 1 ≤ (s.hist i).val

theorem inv_init (n : Nat) : Inv n init where
  le _ := Nat.le_refl _
  out _ _ := rfl
  ok _ := trivial
  bound _ _ := Int.natCast_nonneg n
  cnt _ := by
    have : readers n init = ∅ := by
      refine Finset.filter_eq_empty_iff.2 fun t _ h => ?_
      cases h
    rw [this]; rfl
  noR h := absurd h (by decide)
  wrt _ h := by cases h
  rd _ h := by cases h

/-- A step that writes neither the lock nor the data and keeps what the thread holds. -/
theorem Inv.quiet {n : Nat} {s : State} (h : Inv n s) {t : Nat} (ht : t < n) {h' : Thr} (hs : (s.thr t).seen ≤ h'.seen) (hl : h'.seen ≤ s.last)
    (hr : h'.pc.holdR = (s.thr t).pc.holdR) (hw : h'.pc.holdW = (s.thr t).pc.holdW) (hok : h'.pc.Ok) :
    Inv n { s with thr := Function.update s.thr t h' } := by
  have hR : ∀ u, (Function.update s.thr t h' u).pc.holdR = (s.thr u).pc.holdR := by
    intro u
    by_cases e : u = t
    · subst e; rw [Function.update_self]; exact hr
    · rw [Function.update_of_ne e]
  have hW : ∀ u, (Function.update s.thr t h' u).pc.holdW = (s.thr u).pc.holdW := by
    intro u
    by_cases e : u = t
    · subst e; rw [Function.update_self]; exact hw
    · rw [Function.update_of_ne e]
  have hS : ∀ u, (s.thr u).seen ≤ (Function.update s.thr t h' u).seen ∧ (Function.update s.thr t h' u).seen ≤ s.last := by
    intro u
    by_cases e : u = t
    · subst e; rw [Function.update_self]; exact ⟨hs, hl⟩
    · rw [Function.update_of_ne e]; exact ⟨Nat.le_refl _, h.le u⟩
  have hRd : readers n { s with thr := Function.update s.thr t h' } = readers n s := by
    unfold readers
    refine Finset.filter_congr fun u _ => ?_
    show (Function.update s.thr t h' u).pc.holdR = true ↔ _
    rw [hR]
  refine ⟨fun u => (hS u).2, fun u hu => ?_, fun u => ?_, h.bound, ?_, fun hv u => (hR u).trans (h.noR hv u), fun u hu => ?_, fun u hu i h1 h2 => ?_⟩
  · show (Function.update s.thr t h' u).pc = _
    rw [Function.update_of_ne (by omega)]; exact h.out u hu
  · show (Function.update s.thr t h' u).pc.Ok
    by_cases e : u = t
    · subst e; rw [Function.update_self]; exact hok
    · rw [Function.update_of_ne e]; exact h.ok u
  · rw [hRd]; exact h.cnt
  · have hu' := h.wrt u ((hW u).symm.trans hu)
    refine ⟨hu'.1, ?_, fun v hv => hu'.2.2 v ((hW v).symm.trans hv)⟩
    have := hS u
    show (Function.update s.thr t h' u).seen = s.last
    omega
  · exact h.rd u ((hR u).symm.trans hu) i (Nat.le_trans (hS u).1 h1) h2

/-- The exchange. -/
theorem Inv.cas {n : Nat} {s : State} (h : Inv n s) {t : Nat} (ht : t < n) {o : Op} {e : Int} (hpc : (s.thr t).pc = .cas o e)
    (hv : (s.hist s.last).val = e) {h' : Thr} (hseen : h'.seen = s.last + 1) (hpc' : h'.pc = won o) {v : Nat → Bool} :
    Inv n { s with thr := Function.update s.thr t h', hist := Function.update s.hist (s.last + 1) ⟨desired e o, v⟩, last := s.last + 1 } := by
  have hok := h.ok t
  rw [hpc] at hok
  have hne : ∀ u, u ≠ t → Function.update s.thr t h' u = s.thr u := fun u hu => Function.update_of_ne hu _ _
  have hnew : (Function.update s.hist (s.last + 1) (⟨desired e o, v⟩ : Msg) (s.last + 1)).val = desired e o := by rw [Function.update_self]
  have hold : ∀ i, i ≤ s.last → Function.update s.hist (s.last + 1) (⟨desired e o, v⟩ : Msg) i = s.hist i :=
    fun i hi => Function.update_of_ne (by omega) _ _
  have hsub : ∀ s' : State, (readers n s').card ≤ n := fun s' => (Finset.card_filter_le _ _).trans (by rw [Finset.card_range])
  have hmem : ∀ (s' : State) u, u ∈ readers n s' ↔ u < n ∧ (s'.thr u).pc.holdR = true := by
    intro s' u; unfold readers; rw [Finset.mem_filter, Finset.mem_range]
  -- the parts that do not depend on the operation
  have hle : ∀ u, (Function.update s.thr t h' u).seen ≤ s.last + 1 := by
    intro u
    by_cases eu : u = t
    · subst eu; rw [Function.update_self]; omega
    · rw [hne u eu]; exact Nat.le_succ_of_le (h.le u)
  have hout : ∀ u, n ≤ u → (Function.update s.thr t h' u).pc = .idle := by
    intro u hu; rw [hne u (by omega)]; exact h.out u hu
  have hok' : ∀ u, (Function.update s.thr t h' u).pc.Ok := by
    intro u
    by_cases eu : u = t
    · subst eu; rw [Function.update_self, hpc']; cases o <;> trivial
    · rw [hne u eu]; exact h.ok u
  have key : ∀ s' : State, s' = { s with thr := Function.update s.thr t h', hist := Function.update s.hist (s.last + 1) ⟨desired e o, v⟩, last := s.last + 1 } →
      (0 ≤ desired e o → desired e o = (readers n s').card) → (desired e o < 0 → ∀ u, (s'.thr u).pc.holdR = false) →
      (∀ u, (s'.thr u).pc.holdW = true → desired e o = -1 ∧ (s'.thr u).seen = s.last + 1 ∧ ∀ w, (s'.thr w).pc.holdW = true → w = u) →
      (∀ u, u ≠ t → (s.thr u).pc.holdR = true → 1 ≤ desired e o) → (h'.pc.holdR = true → 1 ≤ desired e o) →
      desired e o ≤ n → Inv n s' := by
    intro s' es c1 c2 c3 c4 c5 c6
    subst es
    refine ⟨hle, hout, hok', fun i hi => ?_, fun hx => ?_, fun hx => c2 (hnew ▸ hx), fun u hu => ?_, fun u hu i h1 h2 => ?_⟩
    · by_cases ei : i = s.last + 1
      · subst ei; exact le_of_eq_of_le hnew c6
      · have hi' : i ≤ s.last := by have : i ≤ s.last + 1 := hi; omega
        show (Function.update s.hist (s.last + 1) (⟨desired e o, v⟩ : Msg) i).val ≤ n
        rw [hold i hi']; exact h.bound i hi'
    · exact hnew.trans (c1 (hnew ▸ hx))
    · have := c3 u hu
      exact ⟨hnew.trans this.1, this.2⟩
    · by_cases ei : i = s.last + 1
      · subst ei
        show 1 ≤ (Function.update s.hist (s.last + 1) (⟨desired e o, v⟩ : Msg) (s.last + 1)).val
        rw [hnew]
        by_cases eu : u = t
        · subst eu
          have hu' : (Function.update s.thr u h' u).pc.holdR = true := hu
          rw [Function.update_self] at hu'
          exact c5 hu'
        · have hu' : (Function.update s.thr t h' u).pc.holdR = true := hu
          rw [hne u eu] at hu'
          exact c4 u eu hu'
      · have h2' : i ≤ s.last := by have : i ≤ s.last + 1 := h2; omega
        have h1' : (Function.update s.thr t h' u).seen ≤ i := h1
        by_cases eu : u = t
        · subst eu; rw [Function.update_self] at h1'; omega
        · have hu' : (Function.update s.thr t h' u).pc.holdR = true := hu
          rw [hne u eu] at hu' h1'
          show 1 ≤ (Function.update s.hist (s.last + 1) (⟨desired e o, v⟩ : Msg) i).val
          rw [hold i h2']
          exact h.rd u hu' i h1' h2'
  have hself : Function.update s.thr t h' t = h' := Function.update_self _ _ _
  have noW : 0 ≤ e → ∀ u, (s.thr u).pc.holdW ≠ true := fun he u hu => by have := (h.wrt u hu).1; omega
  refine key _ rfl ?_ ?_ ?_ ?_ ?_ ?_ <;> cases o
  -- the count
  case refine_1.readLock =>
    intro _
    have he : 0 ≤ e := hok
    have : readers n { s with thr := Function.update s.thr t h', hist := Function.update s.hist (s.last + 1) ⟨desired e .readLock, v⟩, last := s.last + 1 } = insert t (readers n s) := by
      ext u
      rw [hmem, Finset.mem_insert, hmem]
      by_cases eu : u = t
      · subst eu
        refine ⟨fun _ => .inl rfl, fun _ => ⟨ht, ?_⟩⟩
        show (Function.update s.thr u h' u).pc.holdR = true
        rw [hself, hpc']; rfl
      · show u < n ∧ (Function.update s.thr t h' u).pc.holdR = true ↔ _
        rw [hne u eu]
        exact ⟨.inr, fun hx => hx.resolve_left eu⟩
    rw [this, Finset.card_insert_of_notMem (fun hx => by have := ((hmem s t).1 hx).2; rw [hpc] at this; cases this)]
    have := h.cnt (by omega)
    show 1 + e = _
    push_cast; omega
  case refine_1.readUnlock =>
    intro _
    have he : 0 < e := hok
    have : readers n { s with thr := Function.update s.thr t h', hist := Function.update s.hist (s.last + 1) ⟨desired e .readUnlock, v⟩, last := s.last + 1 } = (readers n s).erase t := by
      ext u
      rw [hmem, Finset.mem_erase, hmem]
      by_cases eu : u = t
      · subst eu
        refine ⟨fun hx => ?_, fun hx => absurd rfl hx.1⟩
        have hx' : (Function.update s.thr u h' u).pc.holdR = true := hx.2
        rw [hself, hpc'] at hx'; cases hx'
      · show u < n ∧ (Function.update s.thr t h' u).pc.holdR = true ↔ _
        rw [hne u eu]
        exact ⟨fun hx => ⟨eu, hx⟩, fun hx => hx.2⟩
    rw [this, Finset.card_erase_of_mem ((hmem s t).2 ⟨ht, by rw [hpc]; rfl⟩)]
    have := h.cnt (by omega)
    show e - 1 = _
    omega
  case refine_1.writeLock => intro hx; exact absurd hx (by simp [desired])
  case refine_1.writeUnlock =>
    intro _
    have he : e = -1 := hok
    symm
    show ((readers n _).card : Int) = 0
    rw [Int.natCast_eq_zero, Finset.card_eq_zero, Finset.eq_empty_iff_forall_notMem]
    intro u hu
    have hu' : (Function.update s.thr t h' u).pc.holdR = true := ((hmem _ u).1 hu).2
    by_cases eu : u = t
    · subst eu; rw [hself, hpc'] at hu'; cases hu'
    · rw [hne u eu, h.noR (by omega) u] at hu'; cases hu'
  case refine_2.readLock => intro hx; have he : 0 ≤ e := hok; have hx' : 1 + e < 0 := hx; omega
  case refine_2.readUnlock => intro hx; have he : 0 < e := hok; have hx' : e - 1 < 0 := hx; omega
  case refine_2.writeLock =>
    intro _ u
    show (Function.update s.thr t h' u).pc.holdR = false
    by_cases eu : u = t
    · subst eu; rw [hself, hpc']; rfl
    · rw [hne u eu]
      by_contra hx
      have hx := (Bool.not_eq_false _).mp hx
      have he : e = 0 := hok
      have := h.rd u hx s.last (h.le u) (Nat.le_refl _)
      omega
  case refine_2.writeUnlock => intro hx; exact absurd hx (by simp [desired])
  -- the writer
  case refine_3.readLock =>
    intro u hu
    have hu' : (Function.update s.thr t h' u).pc.holdW = true := hu
    by_cases eu : u = t
    · subst eu; rw [hself, hpc'] at hu'; cases hu'
    · rw [hne u eu] at hu'; exact absurd hu' (noW hok u)
  case refine_3.readUnlock =>
    intro u hu
    have hu' : (Function.update s.thr t h' u).pc.holdW = true := hu
    by_cases eu : u = t
    · subst eu; rw [hself, hpc'] at hu'; cases hu'
    · rw [hne u eu] at hu'; exact absurd hu' (noW (Int.le_of_lt hok) u)
  case refine_3.writeLock =>
    have he : e = 0 := hok
    have only : ∀ u, (Function.update s.thr t h' u).pc.holdW = true → u = t := by
      intro u hu
      by_contra eu
      rw [hne u eu] at hu
      exact noW (by omega) u hu
    intro u hu
    have := only u hu
    subst this
    refine ⟨rfl, ?_, only⟩
    show (Function.update s.thr u h' u).seen = _
    rw [hself]; exact hseen
  case refine_3.writeUnlock =>
    intro u hu
    have hu' : (Function.update s.thr t h' u).pc.holdW = true := hu
    by_cases eu : u = t
    · subst eu; rw [hself, hpc'] at hu'; cases hu'
    · rw [hne u eu] at hu'
      exact absurd ((h.wrt t (by rw [hpc]; rfl)).2.2 u hu') eu
  -- other readers
  case refine_4.readLock => intro u _ _; have he : 0 ≤ e := hok; show 1 ≤ 1 + e; omega
  case refine_4.readUnlock =>
    intro u eu hu
    have he : 0 < e := hok
    have hu' : u < n := by
      by_contra hx
      rw [h.out u (by omega)] at hu; cases hu
    have hc := h.cnt (by omega)
    have : 1 < (readers n s).card := Finset.one_lt_card.2 ⟨u, (hmem s u).2 ⟨hu', hu⟩, t, (hmem s t).2 ⟨ht, by rw [hpc]; rfl⟩, eu⟩
    show 1 ≤ e - 1
    omega
  case refine_4.writeLock =>
    intro u _ hu
    have he : e = 0 := hok
    have := h.rd u hu s.last (h.le u) (Nat.le_refl _)
    omega
  case refine_4.writeUnlock =>
    intro u _ hu
    have he : e = -1 := hok
    have := h.rd u hu s.last (h.le u) (Nat.le_refl _)
    omega
  case refine_5.readLock => intro _; have he : 0 ≤ e := hok; show 1 ≤ 1 + e; omega
  case refine_5.readUnlock => intro hx; rw [hpc'] at hx; cases hx
  case refine_5.writeLock => intro hx; rw [hpc'] at hx; cases hx
  case refine_5.writeUnlock => intro hx; rw [hpc'] at hx; cases hx
  -- the bound
  case refine_6.readLock =>
    have he : 0 ≤ e := hok
    have hc := h.cnt (by omega)
    have hlt : (readers n s).card < n := by
      have : (readers n s).card < (Finset.range n).card := by
        refine Finset.card_lt_card ⟨Finset.filter_subset _ _, fun hx => ?_⟩
        have := ((hmem s t).1 (hx (Finset.mem_range.2 ht))).2
        rw [hpc] at this; cases this
      rwa [Finset.card_range] at this
    show 1 + e ≤ n
    omega
  case refine_6.readUnlock => have := h.bound s.last (Nat.le_refl _); show e - 1 ≤ n; omega
  case refine_6.writeLock => show (-1 : Int) ≤ n; omega
  case refine_6.writeUnlock => show (0 : Int) ≤ n; omega

theorem Inv.step {fix : Bool} {n : Nat} (hn : (n : Int) < intMax) {s s' : State} (h : Inv n s) {t : Nat} (ht : t < n) {a : Act}
    (hs : Spin.step fix s t a = some s') : Inv n s' := by
  have hok := h.ok t
  unfold Spin.step at hs
  simp only at hs
  split at hs
  · next hpc => cases hs; exact h.quiet ht (Nat.le_refl _) (h.le t) (by rw [hpc]; rfl) (by rw [hpc]; rfl) trivial
  · next hpc => cases hs; exact h.quiet ht (Nat.le_refl _) (h.le t) (by rw [hpc]; rfl) (by rw [hpc]; rfl) trivial
  · next hpc => cases hs; exact h.quiet ht (Nat.le_refl _) (h.le t) (by rw [hpc]; rfl) (by rw [hpc]; rfl) trivial
  · next hpc => cases hs; exact h.quiet ht (Nat.le_refl _) (h.le t) (by rw [hpc]; rfl) (by rw [hpc]; rfl) trivial
  · next i o hpc =>
    split at hs
    · next hi =>
      cases hs
      have hb := h.bound i hi.2
      refine h.quiet ht hi.1 hi.2 ?_ ?_ ?_ <;> rw [Thr.read] <;> simp only [hpc] <;> cases o <;> simp only [loaded]
      case refine_1.readLock | refine_2.readLock => split <;> [split; skip] <;> rfl
      case refine_1.writeLock | refine_2.writeLock => split <;> rfl
      case refine_1.readUnlock | refine_2.readUnlock | refine_3.readUnlock =>
        have := h.rd t (by rw [hpc]; rfl) i hi.1 hi.2
        rw [if_pos (by omega)]
        first | rfl | (show (0 : Int) < _; omega)
      case refine_1.writeUnlock | refine_2.writeUnlock | refine_3.writeUnlock =>
        have := h.wrt t (by rw [hpc]; rfl)
        have e : i = s.last := by omega
        rw [e, if_pos this.1]
        first | rfl | exact this.1
      case refine_3.readLock =>
        split
        · next h0 =>
          rw [if_neg (by omega)]; exact h0
        · trivial
      case refine_3.writeLock =>
        split
        · next h0 => exact h0
        · trivial
    · cases hs
  · next o e hpc =>
    cases hs
    rw [hpc] at hok
    refine h.quiet ht (Nat.le_refl _) (h.le t) ?_ ?_ ?_ <;> simp only [hpc] <;> cases o <;> first | rfl | exact hok | exact hok.elim
  · next i o e hpc =>
    split at hs
    · next hi =>
      cases hs
      refine h.quiet ht hi.1 hi.2 ?_ ?_ ?_ <;> rw [Thr.read] <;> simp only [hpc] <;> cases o <;> first | rfl | trivial
    · cases hs
  · next o e hpc =>
    split at hs
    · next hv => cases hs; exact h.cas ht hpc hv rfl rfl
    · cases hs
  · next hpc => cases hs; exact h.quiet ht (Nat.le_refl _) (h.le t) (by rw [hpc]; rfl) (by rw [hpc]; rfl) trivial
  · next hpc => cases hs; exact h.quiet ht (Nat.le_refl _) (h.le t) (by rw [hpc]; rfl) (by rw [hpc]; rfl) trivial
  · split at hs
    · cases hs
      have := h.quiet (h' := { s.thr t with cur := Function.update (s.thr t).cur s.nacc true }) ht (Nat.le_refl _) (h.le t) rfl rfl hok
      exact ⟨this.le, this.out, this.ok, this.bound, this.cnt, this.noR, this.wrt, this.rd⟩
    · cases hs
  · cases hs

theorem Reach.inv {fix : Bool} {n : Nat} (hn : (n : Int) < intMax) {s : State} (h : Reach fix n s) : Inv n s := by
  induction h with
  | init => exact inv_init n
  | step _ ht hs ih => exact ih.step hn ht hs

/-- What the threads know of the accesses to the data. -/
structure VInv (fix : Bool) (s : State) : Prop where
  /-- every access is attached to the newest value of the lock, or known to a thread that holds the lock and will attach it -/
  pub : ∀ i, i < s.nacc → (s.hist s.last).view i = true ∨ ∃ u, (s.thr u).cur i = true ∧ (∀ o e, (s.thr u).pc = .cas o e → (s.thr u).rel i = true) ∧
    ((s.thr u).pc.holdW = true ∨ ((s.thr u).pc.holdR = true ∧ s.wr i = false))
  /-- readers know all writes once they are past the fence -/
  rdv : ∀ u, (s.thr u).pc.holdR = true → ∀ i, i < s.nacc → s.wr i = true →
    if (s.thr u).pc = .after .readLock then (s.thr u).acq i = true else (s.thr u).cur i = true
  /-- with the fence repaired, writers know all accesses -/
  wrv : fix = true → ∀ u, (s.thr u).pc.holdW = true → ∀ i, i < s.nacc →
    if (s.thr u).pc = .after .writeLock then (s.thr u).acq i = true else (s.thr u).cur i = true

theorem vinv_init (fix : Bool) : VInv fix init where
  pub _ h := absurd h (Nat.not_lt_zero _)
  rdv _ h := by cases h
  wrv _ _ h := by cases h

/-- A step that writes neither the lock nor the data. -/
theorem VInv.quiet {fix : Bool} {s : State} (h : VInv fix s) {t : Nat} {h' : Thr}
    (hr : h'.pc.holdR = (s.thr t).pc.holdR) (hw : h'.pc.holdW = (s.thr t).pc.holdW)
    (hc : ∀ i, (s.thr t).cur i = true → h'.cur i = true) (hq : ∀ i, (s.thr t).acq i = true → h'.acq i = true)
    (hcas : ∀ i, (s.thr t).cur i = true → (h'.pc.holdR = true ∨ h'.pc.holdW = true) → ∀ o e, h'.pc = .cas o e → h'.rel i = true)
    (hR : h'.pc.holdR = true → (h'.pc = .after .readLock → (s.thr t).pc = .after .readLock) ∧
      ((s.thr t).pc = .after .readLock → h'.pc ≠ .after .readLock → ∀ i, (s.thr t).acq i = true → h'.cur i = true))
    (hW : fix = true → h'.pc.holdW = true → (h'.pc = .after .writeLock → (s.thr t).pc = .after .writeLock) ∧
      ((s.thr t).pc = .after .writeLock → h'.pc ≠ .after .writeLock → ∀ i, (s.thr t).acq i = true → h'.cur i = true)) :
    VInv fix { s with thr := Function.update s.thr t h' } := by
  refine ⟨fun i hi => ?_, fun u hu i hi hwi => ?_, fun hf u hu i hi => ?_⟩
  · refine (h.pub i hi).imp_right ?_
    rintro ⟨u, h1, h2, h3⟩
    refine ⟨u, ?_⟩
    show (Function.update s.thr t h' u).cur i = true ∧ (∀ o e, (Function.update s.thr t h' u).pc = .cas o e → (Function.update s.thr t h' u).rel i = true) ∧
      ((Function.update s.thr t h' u).pc.holdW = true ∨ ((Function.update s.thr t h' u).pc.holdR = true ∧ s.wr i = false))
    by_cases e : u = t
    · subst e
      rw [Function.update_self, hr, hw]
      refine ⟨hc i h1, hcas i h1 ?_, h3⟩
      rw [hr, hw]
      exact h3.elim .inr (fun x => .inl x.1)
    · rw [Function.update_of_ne e]; exact ⟨h1, h2, h3⟩
  · show if (Function.update s.thr t h' u).pc = .after .readLock then (Function.update s.thr t h' u).acq i = true else (Function.update s.thr t h' u).cur i = true
    have hu' : (Function.update s.thr t h' u).pc.holdR = true := hu
    by_cases e : u = t
    · subst e
      rw [Function.update_self] at hu' ⊢
      have := h.rdv u (hr ▸ hu') i hi hwi
      have hR' := hR hu'
      split
      · next e1 => rw [if_pos (hR'.1 e1)] at this; exact hq i this
      · next e1 =>
        split at this
        · next e2 => exact hR'.2 e2 e1 i this
        · exact hc i this
    · rw [Function.update_of_ne e] at hu' ⊢; exact h.rdv u hu' i hi hwi
  · show if (Function.update s.thr t h' u).pc = .after .writeLock then (Function.update s.thr t h' u).acq i = true else (Function.update s.thr t h' u).cur i = true
    have hu' : (Function.update s.thr t h' u).pc.holdW = true := hu
    by_cases e : u = t
    · subst e
      rw [Function.update_self] at hu' ⊢
      have := h.wrv hf u (hw ▸ hu') i hi
      have hW' := hW hf hu'
      split
      · next e1 => rw [if_pos (hW'.1 e1)] at this; exact hq i this
      · next e1 =>
        split at this
        · next e2 => exact hW'.2 e2 e1 i this
        · exact hc i this
    · rw [Function.update_of_ne e] at hu' ⊢; exact h.wrv hf u hu' i hi

/-- The exchange. -/
theorem VInv.cas {fix : Bool} {n : Nat} {s : State} (hI : Inv n s) (h : VInv fix s) {t : Nat} {o : Op} {e : Int} (hpc : (s.thr t).pc = .cas o e)
    (hv : (s.hist s.last).val = e) {v : Int} :
    VInv fix { s with
      thr := Function.update s.thr t ((s.thr t).read (s.last + 1) (s.hist s.last) (won o))
      hist := Function.update s.hist (s.last + 1) ⟨v, join (s.hist s.last).view (s.thr t).rel⟩
      last := s.last + 1 } := by
  have hok := hI.ok t
  rw [hpc] at hok
  have noW : 0 ≤ e → ∀ u, (s.thr u).pc.holdW ≠ true := fun he u hu => by have := (hI.wrt u hu).1; omega
  have noR : e ≤ 0 → ∀ u, (s.thr u).pc.holdR ≠ true := fun he u hu => by have := hI.rd u hu s.last (hI.le u) (Nat.le_refl _); omega
  refine ⟨fun i hi => ?_, fun u hu i hi hwi => ?_, fun hf u hu i hi => ?_⟩
  · show (Function.update s.hist (s.last + 1) ⟨v, join (s.hist s.last).view (s.thr t).rel⟩ (s.last + 1)).view i = true ∨ _
    rw [Function.update_self]
    rcases h.pub i hi with h1 | ⟨u, h1, h2, h3⟩
    · exact .inl (Bool.or_eq_true_iff.2 (.inl h1))
    · by_cases eu : u = t
      · subst eu
        exact .inl (Bool.or_eq_true_iff.2 (.inr (h2 o e hpc)))
      · refine .inr ⟨u, ?_⟩
        show (Function.update s.thr t _ u).cur i = true ∧ (∀ o e, (Function.update s.thr t _ u).pc = .cas o e → (Function.update s.thr t _ u).rel i = true) ∧
          ((Function.update s.thr t _ u).pc.holdW = true ∨ ((Function.update s.thr t _ u).pc.holdR = true ∧ s.wr i = false))
        rw [Function.update_of_ne eu]; exact ⟨h1, h2, h3⟩
  · have hi' : i < s.nacc := hi
    have hwi' : s.wr i = true := hwi
    have hu' : (Function.update s.thr t ((s.thr t).read (s.last + 1) (s.hist s.last) (won o)) u).pc.holdR = true := hu
    show if (Function.update s.thr t _ u).pc = .after .readLock then (Function.update s.thr t _ u).acq i = true else (Function.update s.thr t _ u).cur i = true
    by_cases eu : u = t
    · subst eu
      rw [Function.update_self] at hu' ⊢
      cases o with
      | readLock =>
        refine (if_pos (rfl : won Op.readLock = Pc.after .readLock)).mpr ?_
        have he : 0 ≤ e := hok
        rcases h.pub i hi' with h1 | ⟨w, _, _, h3 | h3⟩
        · exact Bool.or_eq_true_iff.2 (.inr h1)
        · exact absurd h3 (noW he w)
        · rw [hwi'] at h3; cases h3.2
      | readUnlock => cases hu'
      | writeLock => cases hu'
      | writeUnlock => cases hu'
    · rw [Function.update_of_ne eu] at hu' ⊢; exact h.rdv u hu' i hi' hwi'
  · have hi' : i < s.nacc := hi
    have hu' : (Function.update s.thr t ((s.thr t).read (s.last + 1) (s.hist s.last) (won o)) u).pc.holdW = true := hu
    show if (Function.update s.thr t _ u).pc = .after .writeLock then (Function.update s.thr t _ u).acq i = true else (Function.update s.thr t _ u).cur i = true
    by_cases eu : u = t
    · subst eu
      rw [Function.update_self] at hu' ⊢
      cases o with
      | writeLock =>
        refine (if_pos (rfl : won Op.writeLock = Pc.after .writeLock)).mpr ?_
        have he : e = 0 := hok
        rcases h.pub i hi' with h1 | ⟨w, _, _, h3 | h3⟩
        · exact Bool.or_eq_true_iff.2 (.inr h1)
        · exact absurd h3 (noW (by omega) w)
        · exact absurd h3.1 (noR (by omega) w)
      | readLock => cases hu'
      | readUnlock => cases hu'
      | writeUnlock => cases hu'
    · rw [Function.update_of_ne eu] at hu' ⊢; exact h.wrv hf u hu' i hi'

/-- An access to the data. -/
theorem VInv.access {fix : Bool} {n : Nat} {s : State} (hI : Inv n s) (h : VInv fix s) {t : Nat} {w : Bool}
    (hp : (s.thr t).pc = .writing ∨ ((s.thr t).pc = .reading ∧ w = false)) :
    VInv fix { s with
      thr := Function.update s.thr t { s.thr t with cur := Function.update (s.thr t).cur s.nacc true }
      nacc := s.nacc + 1
      wr := Function.update s.wr s.nacc w } := by
  have hthr : ∀ u, (Function.update s.thr t { s.thr t with cur := Function.update (s.thr t).cur s.nacc true } u).pc = (s.thr u).pc ∧
      (Function.update s.thr t { s.thr t with cur := Function.update (s.thr t).cur s.nacc true } u).acq = (s.thr u).acq ∧
      (Function.update s.thr t { s.thr t with cur := Function.update (s.thr t).cur s.nacc true } u).rel = (s.thr u).rel ∧
      ∀ i, i < s.nacc → (Function.update s.thr t { s.thr t with cur := Function.update (s.thr t).cur s.nacc true } u).cur i = (s.thr u).cur i := by
    intro u
    by_cases eu : u = t
    · subst eu; rw [Function.update_self]
      exact ⟨rfl, rfl, rfl, fun i hi => Function.update_of_ne (by omega) _ _⟩
    · rw [Function.update_of_ne eu]; exact ⟨rfl, rfl, rfl, fun _ _ => rfl⟩
  have hwr : ∀ i, i < s.nacc → Function.update s.wr s.nacc w i = s.wr i := fun i hi => Function.update_of_ne (by omega) _ _
  have hself : (Function.update s.thr t { s.thr t with cur := Function.update (s.thr t).cur s.nacc true } t).cur s.nacc = true := by
    rw [Function.update_self]; exact Function.update_self _ _ _
  refine ⟨fun i hi => ?_, fun u hu i hi hwi => ?_, fun hf u hu i hi => ?_⟩
  · by_cases ei : i = s.nacc
    · subst ei
      refine .inr ⟨t, hself, fun o e he => ?_, ?_⟩
      · have he' := (hthr t).1.symm.trans he
        rcases hp with hp | hp
        · rw [hp] at he'; cases he'
        · rw [hp.1] at he'; cases he'
      · show (Function.update s.thr t _ t).pc.holdW = true ∨ (Function.update s.thr t _ t).pc.holdR = true ∧ Function.update s.wr s.nacc w s.nacc = false
        rw [(hthr t).1, Function.update_self]
        rcases hp with hp | hp
        · left; rw [hp]; rfl
        · right; rw [hp.1]; exact ⟨rfl, hp.2⟩
    · have hi' : i < s.nacc := by have : i < s.nacc + 1 := hi; omega
      refine (h.pub i hi').imp_right ?_
      rintro ⟨u, h1, h2, h3⟩
      refine ⟨u, ((hthr u).2.2.2 i hi').trans h1, fun o e he => ?_, ?_⟩
      · show (Function.update s.thr t _ u).rel i = true
        rw [(hthr u).2.2.1]
        exact h2 o e ((hthr u).1.symm.trans he)
      · show (Function.update s.thr t _ u).pc.holdW = true ∨ (Function.update s.thr t _ u).pc.holdR = true ∧ Function.update s.wr s.nacc w i = false
        rw [(hthr u).1, hwr i hi']; exact h3
  · have hu' : (s.thr u).pc.holdR = true := by
      have : (Function.update s.thr t _ u).pc.holdR = true := hu
      rwa [(hthr u).1] at this
    show if (Function.update s.thr t _ u).pc = .after .readLock then (Function.update s.thr t _ u).acq i = true else (Function.update s.thr t _ u).cur i = true
    by_cases ei : i = s.nacc
    · subst ei
      have hw : w = true := by
        have : Function.update s.wr s.nacc w s.nacc = true := hwi
        rwa [Function.update_self] at this
      have htw : (s.thr t).pc = .writing := hp.resolve_right fun x => by rw [hw] at x; cases x.2
      have h1 := (hI.wrt t (by rw [htw]; rfl)).1
      have h2 := hI.rd u hu' s.last (hI.le u) (Nat.le_refl _)
      omega
    · have hi' : i < s.nacc := by have : i < s.nacc + 1 := hi; omega
      rw [(hthr u).1, (hthr u).2.1, (hthr u).2.2.2 i hi']
      exact h.rdv u hu' i hi' ((hwr i hi').symm.trans hwi)
  · have hu' : (s.thr u).pc.holdW = true := by
      have : (Function.update s.thr t _ u).pc.holdW = true := hu
      rwa [(hthr u).1] at this
    show if (Function.update s.thr t _ u).pc = .after .writeLock then (Function.update s.thr t _ u).acq i = true else (Function.update s.thr t _ u).cur i = true
    by_cases ei : i = s.nacc
    · subst ei
      have h1 := hI.wrt u hu'
      have htw : (s.thr t).pc = .writing := hp.resolve_right fun x => by
        have := hI.rd t (by rw [x.1]; rfl) s.last (hI.le t) (Nat.le_refl _)
        have := h1.1
        omega
      have := h1.2.2 t (by rw [htw]; rfl)
      subst this
      rw [(hthr t).1, htw, if_neg (by intro x; cases x)]
      exact hself
    · have hi' : i < s.nacc := by have : i < s.nacc + 1 := hi; omega
      rw [(hthr u).1, (hthr u).2.1, (hthr u).2.2.2 i hi']
      exact h.wrv hf u hu' i hi'

theorem VInv.step {fix : Bool} {n : Nat} {s s' : State} (hI : Inv n s) (h : VInv fix s) {t : Nat} {a : Act}
    (hI' : Inv n s') (hs : Spin.step fix s t a = some s') : VInv fix s' := by
  have hok := hI.ok t
  have hok' := hI'.ok t
  unfold Spin.step at hs
  simp only at hs
  split at hs
  · next hpc =>
    cases hs
    exact h.quiet (by rw [hpc]; rfl) (by rw [hpc]; rfl) (fun _ x => x) (fun _ x => x) (fun _ _ x => by cases x <;> contradiction) (fun x => by cases x) (fun _ x => by cases x)
  · next hpc =>
    cases hs
    exact h.quiet (by rw [hpc]; rfl) (by rw [hpc]; rfl) (fun _ x => x) (fun _ x => x) (fun _ _ x => by cases x <;> contradiction) (fun x => by cases x) (fun _ x => by cases x)
  · next hpc =>
    cases hs
    exact h.quiet (by rw [hpc]; rfl) (by rw [hpc]; rfl) (fun _ x => x) (fun _ x => x) (fun _ _ _ _ _ x => by cases x)
      (fun _ => ⟨fun x => (by cases x), fun x => by rw [hpc] at x; cases x⟩) (fun _ x => by cases x)
  · next hpc =>
    cases hs
    exact h.quiet (by rw [hpc]; rfl) (by rw [hpc]; rfl) (fun _ x => x) (fun _ x => x) (fun _ _ _ _ _ x => by cases x)
      (fun x => by cases x) (fun _ _ => ⟨fun x => (by cases x), fun x => by rw [hpc] at x; cases x⟩)
  · next i o hpc =>
    split at hs
    · next hi =>
      cases hs
      have hj : ∀ j, (s.thr t).acq j = true → join (s.thr t).acq (s.hist i).view j = true := fun j x => Bool.or_eq_true_iff.2 (.inl x)
      cases o with
      | readLock =>
        have : ∀ P : Pc → Prop, P (.cas .readLock (s.hist i).val) → P .stuck → P (.load .readLock) → P (loaded (s.hist i).val .readLock) := by
          intro P a b c
          simp only [loaded]
          split
          · split <;> assumption
          · exact c
        refine this (fun pc => VInv fix { s with thr := Function.update s.thr t ((s.thr t).read i (s.hist i) pc) }) ?_ ?_ ?_ <;>
          exact h.quiet (by rw [hpc]; rfl) (by rw [hpc]; rfl) (fun _ x => x) hj (fun _ _ x => by cases x <;> contradiction) (fun x => by cases x) (fun _ x => by cases x)
      | writeLock =>
        have : ∀ P : Pc → Prop, P (.cas .writeLock (s.hist i).val) → P (.load .writeLock) → P (loaded (s.hist i).val .writeLock) := by
          intro P a b; simp only [loaded]; split <;> assumption
        refine this (fun pc => VInv fix { s with thr := Function.update s.thr t ((s.thr t).read i (s.hist i) pc) }) ?_ ?_ <;>
          exact h.quiet (by rw [hpc]; rfl) (by rw [hpc]; rfl) (fun _ x => x) hj (fun _ _ x => by cases x <;> contradiction) (fun x => by cases x) (fun _ x => by cases x)
      | readUnlock =>
        have := hI.rd t (by rw [hpc]; rfl) i hi.1 hi.2
        have e : loaded (s.hist i).val .readUnlock = .before .readUnlock (s.hist i).val := if_pos (by omega)
        rw [e]
        exact h.quiet (by rw [hpc]; rfl) (by rw [hpc]; rfl) (fun _ x => x) hj (fun _ _ _ _ _ x => by cases x)
          (fun _ => ⟨fun x => (by cases x), fun x => by rw [hpc] at x; cases x⟩) (fun _ x => by cases x)
      | writeUnlock =>
        have := hI.wrt t (by rw [hpc]; rfl)
        have ei : i = s.last := by omega
        have e : loaded (s.hist i).val .writeUnlock = .before .writeUnlock (s.hist i).val := if_pos (by rw [ei]; exact this.1)
        rw [e]
        exact h.quiet (by rw [hpc]; rfl) (by rw [hpc]; rfl) (fun _ x => x) hj (fun _ _ _ _ _ x => by cases x)
          (fun x => by cases x) (fun _ _ => ⟨fun x => (by cases x), fun x => by rw [hpc] at x; cases x⟩)
    · cases hs
  · next o e hpc =>
    cases hs
    refine h.quiet (by rw [hpc]; cases o <;> rfl) (by rw [hpc]; cases o <;> rfl) (fun _ x => x) (fun _ x => x)
      (fun i x _ _ _ _ => Bool.or_eq_true_iff.2 (.inr x)) ?_ ?_
    · exact fun _ => ⟨fun x => (by cases x), fun x => by rw [hpc] at x; cases x⟩
    · exact fun _ _ => ⟨fun x => (by cases x), fun x => by rw [hpc] at x; cases x⟩
  · next i o e hpc =>
    split at hs
    · next hi =>
      cases hs
      refine h.quiet (by rw [hpc]; cases o <;> rfl) (by rw [hpc]; cases o <;> rfl) (fun _ x => x) (fun j x => Bool.or_eq_true_iff.2 (.inl x))
        (fun _ _ _ _ _ x => by cases x) ?_ ?_
      · exact fun _ => ⟨fun x => (by cases x), fun x => by rw [hpc] at x; cases x⟩
      · exact fun _ _ => ⟨fun x => (by cases x), fun x => by rw [hpc] at x; cases x⟩
    · cases hs
  · next o e hpc =>
    split at hs
    · next hv => cases hs; exact h.cas hI hpc hv
    · cases hs
  · next hpc =>
    cases hs
    exact h.quiet (by rw [hpc]; rfl) (by rw [hpc]; rfl) (fun _ x => Bool.or_eq_true_iff.2 (.inl x)) (fun _ x => x) (fun _ _ _ _ _ x => by cases x)
      (fun _ => ⟨fun x => (by cases x), fun _ _ i x => Bool.or_eq_true_iff.2 (.inr x)⟩) (fun _ x => by cases x)
  · next hpc =>
    cases hs
    refine h.quiet (by rw [hpc]; rfl) (by rw [hpc]; rfl) (fun i x => ?_) (fun _ x => x) (fun _ _ _ _ _ x => by cases x)
      (fun x => by cases x) (fun hf _ => ⟨fun x => (by cases x), fun _ _ i x => ?_⟩)
    · show (if fix = true then join (s.thr t).cur (s.thr t).acq else (s.thr t).cur) i = true
      split
      · exact Bool.or_eq_true_iff.2 (.inl x)
      · exact x
    · show (if fix = true then join (s.thr t).cur (s.thr t).acq else (s.thr t).cur) i = true
      rw [if_pos hf]; exact Bool.or_eq_true_iff.2 (.inr x)
  · split at hs
    · next hp => cases hs; exact h.access hI hp
    · cases hs
  · cases hs

theorem Reach.vinv {fix : Bool} {n : Nat} (hn : (n : Int) < intMax) {s : State} (h : Reach fix n s) : VInv fix s := by
  induction h with
  | init => exact vinv_init fix
  | step hr ht hs ih => exact ih.step (hr.inv hn) ((hr.step ht hs).inv hn) hs

end BwTree.Spin
