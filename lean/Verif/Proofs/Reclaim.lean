import Verif.Props.EpochGC

/-! How long garbage can stay with the collector (used by Props/Reclaim). -/

set_option linter.unusedSimpArgs false

namespace BwTree
namespace GC

theorem past_keep {n D : Nat} {s s' : State} {a : Act} (hD : ∀ t, a = .unregister t → D < UMAX) (hi : Inv n s) (hc : Contract s a)
    (hs : step n s a = some s') (h : Past n D s) : Past n D s' := by
  by_cases hu : D < UMAX
  · exact past_step hu hi hc hs h
  · obtain ⟨h1, h2, h3, h4⟩ := h
    have ht := hi.tickE
    clear hi
    cases a with
    | unregister t => exact absurd (hD t rfl) hu
    | _ =>
      clear hD
      simp only [step, step', Contract] at hs hc <;> (try split at hs) <;> (try split at hs) <;> (try split at hs) <;>
        first
        | (obtain rfl := Option.some.inj hs; constructor <;> simp only [upd] at * <;> grind)
        | cases hs

/-- What old garbage (of epoch `D` or before) thread `t` can still have, if it has retired `k` nodes since `Past n D` held: none, or a collection is running
that takes it all, or fewer nodes were retired than a collection needs. -/
def Owes (n t D k : Nat) (s : State) : Prop :=
  ((∀ p ∈ s.garb t, D < p.2) ∧ ∀ o d, s.pc t = .adding o d → D < d) ∨
  (∃ i m, s.pc t = .summing i m ∧ i < n ∧ (i = 0 ∨ D < m)) ∨ (∃ m, s.pc t = .freeing m ∧ D < m) ∨
  k = 0 ∨ (k ≤ s.cnt t ∧ s.cnt t ≤ THRESHOLD ∧ (∀ i m, s.pc t ≠ .summing i m) ∧ ∀ m, s.pc t ≠ .freeing m)

/-- The thread that makes the step. -/
def Act.thread : Act → Option Nat
  | .joinRead t | .joinStore t | .link t _ | .make t _ | .unlink t _ | .addRead t _ | .addLink t | .gcRead t | .gcFree t | .leaveRead t
  | .leaveStore t => some t
  | .tickRead _ | .tickWrite _ | .unregister _ => none

theorem step_other {n : Nat} {s s' : State} {a : Act} (hs : step n s a = some s') {t : Nat} (ha : a.thread ≠ some t) :
    s'.pc t = s.pc t ∧ s'.garb t = s.garb t ∧ s'.cnt t = s.cnt t := by
  cases a <;> simp only [step, step', Act.thread] at hs ha <;> (try split at hs) <;> (try split at hs) <;> (try split at hs) <;>
    first
    | (obtain rfl := Option.some.inj hs; simp only [upd] at *; grind)
    | cases hs

theorem owes_step {n t D k : Nat} (ht : t < n) {s s' : State} {a : Act} (hi : Inv n s) (hp : Past n D s) (hs : step n s a = some s') (h : Owes n t D k s) :
    Owes n t D (if a = .addLink t then k + 1 else k) s' := by
  by_cases ha : a.thread = some t
  rotate_left
  · obtain ⟨h1, h2, h3⟩ := step_other hs ha
    rw [if_neg (fun e => ha (by rw [e]; rfl))]
    unfold Owes
    rw [h1, h2, h3]
    exact h
  have hsort := hi.sorted t
  have hl := hp.lae
  have hep := hp.ep
  clear hi hp
  cases a with
  | tickRead _ => cases ha
  | tickWrite _ => cases ha
  | unregister _ => cases ha
  | addLink u =>
    obtain rfl : u = t := Option.some.inj ha
    rw [if_pos rfl]
    simp only [step, step'] at hs
    split at hs
    · rename_i o d hpc
      obtain rfl := Option.some.inj hs
      unfold Owes at h ⊢
      by_cases hc : THRESHOLD < s.cnt u + 1
      · right; left
        exact ⟨0, 0, by simp [upd, hc], by omega, .inl rfl⟩
      · rcases h with ⟨h1, h2⟩ | ⟨i, m, h1, _⟩ | ⟨m, h1, _⟩ | h1 | ⟨h1, h2, _⟩
        · left
          refine ⟨fun p hp => ?_, fun o' d' e => ?_⟩
          · simp only [upd, if_true, List.mem_append, List.mem_singleton] at hp
            rcases hp with hp | rfl
            · exact h1 p hp
            · exact h2 o d hpc
          · simp [upd, hc] at e
        · rw [hpc] at h1; cases h1
        · rw [hpc] at h1; cases h1
        · right; right; right; right
          simp only [upd, if_true, if_neg hc]
          exact ⟨by omega, by omega, nofun, nofun⟩
        · right; right; right; right
          simp only [upd, if_true, if_neg hc]
          exact ⟨by omega, by omega, nofun, nofun⟩
    · cases hs
  | gcRead u =>
    obtain rfl : u = t := Option.some.inj ha
    rw [if_neg nofun]
    simp only [step, step'] at hs
    split at hs
    · rename_i i m hpc
      obtain rfl := Option.some.inj hs
      unfold Owes at h ⊢
      rcases h with ⟨h1, h2⟩ | ⟨i', m', h1, h2, h3⟩ | ⟨m, h1, _⟩ | h1 | ⟨_, _, h1, _⟩
      · left
        refine ⟨h1, fun o d e => ?_⟩
        simp only [upd, if_true] at e
        split at e <;> cases e
      · rw [hpc] at h1
        simp only [PC.summing.injEq] at h1
        obtain ⟨rfl, rfl⟩ := h1
        have hm : D < (if i = 0 then s.lae 0 else min (s.lae i) m) := by
          split
          · exact hl 0 (by omega)
          · have := hl i h2
            have : D < m := h3.resolve_left (by assumption)
            omega
        by_cases hin : i + 1 < n
        · right; left; exact ⟨i + 1, _, by simp [upd, hin], hin, Or.inr hm⟩
        · right; right; left; exact ⟨_, by simp [upd, hin], hm⟩
      · rw [hpc] at h1; cases h1
      · exact .inr (.inr (.inr (.inl h1)))
      · exact absurd hpc (h1 i m)
    · cases hs
  | gcFree u =>
    obtain rfl : u = t := Option.some.inj ha
    rw [if_neg nofun]
    simp only [step, step'] at hs
    split at hs
    · rename_i m hpc
      unfold Owes at h ⊢
      rcases h with ⟨h1, h2⟩ | ⟨i', m', h1, h2, h3⟩ | ⟨m', h1, h3⟩ | h1 | ⟨_, _, _, h1⟩
      · left
        split at hs
        · obtain rfl := Option.some.inj hs
          exact ⟨h1, fun o d e => by simp [upd] at e⟩
        · rename_i o d rest hgb
          split at hs
          · obtain rfl := Option.some.inj hs
            refine ⟨fun p hp => h1 p ?_, h2⟩
            simp only [upd, if_true] at hp
            rw [hgb]
            exact List.mem_cons_of_mem _ hp
          · obtain rfl := Option.some.inj hs
            exact ⟨h1, fun o d e => by simp [upd] at e⟩
      · rw [hpc] at h1; cases h1
      · rw [hpc] at h1
        simp only [PC.freeing.injEq] at h1
        subst h1
        split at hs
        · rename_i hgb
          obtain rfl := Option.some.inj hs
          left; simp [upd, hgb]
        · rename_i o d rest hgb
          split at hs
          · obtain rfl := Option.some.inj hs
            right; right; left; exact ⟨m, hpc, h3⟩
          · rename_i hlt
            obtain rfl := Option.some.inj hs
            left
            rw [hgb, List.pairwise_cons] at hsort
            refine ⟨?_, fun o d e => by simp [upd] at e⟩
            intro p hp
            simp only [hgb, List.mem_cons] at hp
            rcases hp with rfl | hp
            · simp only; omega
            · have := hsort.1 p hp
              simp only at this
              omega
      · exact .inr (.inr (.inr (.inl h1)))
      · exact absurd hpc (h1 m)
    · cases hs
  | _ =>
    rw [if_neg nofun]
    simp only [step, step', Act.thread, Option.some.injEq] at hs ha
    subst ha
    unfold Owes at h ⊢
    clear hsort hl
    (try split at hs) <;>
    first
    | (obtain rfl := Option.some.inj hs; simp only [upd] at *; grind)
    | cases hs

end GC
end BwTree
