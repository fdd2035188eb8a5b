import Verif.Model.TreeGC
import Verif.Proofs.GarbageLife

/-! UpdateThreadLocal on the lists of `Model/EpochGC` (used by Proofs/TreeGC). -/

namespace BwTree
namespace GC

/-- Only registered threads have garbage. -/
theorem garb_lt {n : Nat} {s s' : State} {a : Act} (hi : Inv n s) (hs : step n s a = some s') (h : ∀ u, s.garb u ≠ [] → u < n) :
    ∀ u, s'.garb u ≠ [] → u < n := by
  have hr := hi.runN
  clear hi
  cases a <;> simp only [step, step'] at hs <;> (try split at hs) <;> (try split at hs) <;> (try split at hs) <;>
    first
    | (obtain rfl := Option.some.inj hs; simp only [upd] at *; grind)
    | cases hs

theorem garb_lt_run {n : Nat} {s s' : State} {as : List Act} (h : RunC n s as s') (hi : Inv n s) (hg : ∀ u, s.garb u ≠ [] → u < n) :
    ∀ u, s'.garb u ≠ [] → u < n := by
  induction h with
  | nil => exact hg
  | cons hc hs _ ih => exact ih (inv_step hi hc hs) (garb_lt hi hs hg)

/-- What UpdateThreadLocal has done so far. -/
structure Swept (n : Nat) (s s' : State) : Prop where
  inv : Inv n s'
  idle : ∀ t, s'.pc t = .idle
  epoch : s'.epoch = s.epoch
  st : ∀ o, s'.st o = s.st o ∨ (s.st o = .retired ∧ s'.st o = .freed)
  sub : ∀ u, s'.garb u ≠ [] → s.garb u ≠ []

theorem Swept.trans {n : Nat} {s s1 s2 : State} (h : Swept n s s1) (h' : Swept n s1 s2) : Swept n s s2 where
  inv := h'.inv
  idle := h'.idle
  epoch := h'.epoch.trans h.epoch
  st := fun o => by
    rcases h'.st o with e | ⟨e1, e2⟩
    · rw [e]; exact h.st o
    · rcases h.st o with e | ⟨e3, e4⟩
      · rw [← e]; exact .inr ⟨e1, e2⟩
      · rw [e1] at e4; cases e4
  sub := fun u hu => h.sub u (h'.sub u hu)

theorem sweep_spec {n u : Nat} : ∀ (l : List (Nat × Nat)) {s : State}, Inv n s → (∀ t, s.pc t = .idle) → s.epoch < UMAX → s.garb u = l →
    Swept n s (sweep u l s) ∧ (sweep u l s).garb u = []
  | [], s, hi, hq, _, hg => ⟨⟨hi, hq, rfl, fun _ => .inl rfl, fun _ h => h⟩, hg⟩
  | (o, d) :: rest, s, hi, hq, he, hg => by
    have ho : (o, d) ∈ s.garb u := by rw [hg]; exact List.mem_cons_self
    have hd : d < UMAX := Nat.lt_of_le_of_lt (hi.garbE u o d ho) he
    have hst := hi.garbS u o d ho
    rw [sweep, if_pos hd]
    have h1 : Inv n { s with garb := upd s.garb u rest, cnt := upd s.cnt u (s.cnt u - 1), st := upd s.st o .freed, freed := o :: s.freed } := by
      refine Rec.inv_pop hi hq hg fun v => ?_
      have := hi.cnt v
      by_cases e : v = u
      · subst e; rw [hg] at this; simp [upd, this]
      · simp [upd, e, this]
    have h2 : Swept n s { s with garb := upd s.garb u rest, cnt := upd s.cnt u (s.cnt u - 1), st := upd s.st o .freed, freed := o :: s.freed } := by
      refine ⟨h1, hq, rfl, fun o' => ?_, fun v hv => ?_⟩
      · by_cases e : o' = o
        · subst e; exact .inr ⟨hst, by simp [upd]⟩
        · exact .inl (by simp [upd, e])
      · by_cases e : v = u
        · subst e; rw [hg]; exact List.cons_ne_nil _ _
        · simpa [upd, e] using hv
    obtain ⟨h3, h4⟩ := sweep_spec rest (u := u) h1 hq he (by simp [upd])
    exact ⟨h2.trans h3, h4⟩

theorem sweepAll_spec {n : Nat} : ∀ (k i : Nat) {s : State}, Inv n s → (∀ t, s.pc t = .idle) → s.epoch < UMAX →
    Swept n s (sweepAll k i s) ∧ ∀ u, i ≤ u → u < i + k → (sweepAll k i s).garb u = []
  | 0, i, s, hi, hq, _ => ⟨⟨hi, hq, rfl, fun _ => .inl rfl, fun _ h => h⟩, fun u h1 h2 => absurd h2 (by omega)⟩
  | k + 1, i, s, hi, hq, he => by
    obtain ⟨h1, h2⟩ := sweep_spec (u := i) _ hi hq he rfl
    obtain ⟨h3, h4⟩ := sweepAll_spec k (i + 1) h1.inv h1.idle (by rw [h1.epoch]; exact he)
    refine ⟨h1.trans h3, fun u hu hk => ?_⟩
    by_cases e : u = i
    · subst e
      by_contra hn
      exact h3.sub u hn h2
    · exact h4 u (by omega) (by omega)

/-- UpdateThreadLocal: the invariants hold for the new number of threads; what was retired is destroyed, all else is as before. -/
theorem update_spec {n : Nat} (n' : Nat) {s : State} (hi : Inv n s) (hq : ∀ t, s.pc t = .idle) (he : s.epoch < UMAX) (hg : ∀ u, s.garb u ≠ [] → u < n) :
    Inv n' (updateThreads n s) ∧ (∀ t, (updateThreads n s).pc t = .idle) ∧ (updateThreads n s).epoch = s.epoch ∧
      ∀ o, (updateThreads n s).st o = if s.st o = .retired then .freed else s.st o := by
  obtain ⟨h1, h2⟩ := sweepAll_spec (n := n) n 0 (s := { s with lae := fun _ => UMAX }) (Rec.inv_relabel hi hq _) hq he
  have h3 : (sweepAll n 0 { s with lae := fun _ => UMAX }).garb = fun _ => [] := by
    funext u
    by_contra hn
    exact hn (h2 u (Nat.zero_le u) (by rw [Nat.zero_add]; exact hg u (h1.sub u hn)))
  have h4 : (sweepAll n 0 { s with lae := fun _ => UMAX }).cnt = fun _ => 0 := by
    funext u
    rw [h1.inv.cnt u, h3]; rfl
  have h5 : updateThreads n s = { sweepAll n 0 { s with lae := fun _ => UMAX } with lae := fun _ => 0 } := by
    rw [updateThreads, ← h3, ← h4]
  rw [h5]
  refine ⟨Rec.inv_relabel h1.inv h1.idle _, h1.idle, h1.epoch, fun o => ?_⟩
  have hnr : (sweepAll n 0 { s with lae := fun _ => UMAX }).st o ≠ .retired := by
    intro e
    obtain ⟨u, d, hd⟩ := h1.inv.garbAll o e
    rw [h3] at hd
    cases hd
  show (sweepAll n 0 { s with lae := fun _ => UMAX }).st o = _
  rcases h1.st o with e | ⟨e1, e2⟩
  · have e : (sweepAll n 0 { s with lae := fun _ => UMAX }).st o = s.st o := e
    rw [e] at hnr
    rw [e, if_neg hnr]
  · rw [e2, if_pos e1]

end GC
end BwTree
