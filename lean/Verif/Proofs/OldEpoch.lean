import Verif.Model.OldEpoch

/-! Invariant of the counting epoch manager (used by Props/OldEpoch). -/

set_option linter.unusedSimpArgs false
set_option linter.unusedVariables false

namespace BwTree
namespace OldEpoch

open GC (Status upd)

/-- Epoch a running operation has joined. -/
def PC.epoch : PC → Option Nat
  | .active e => some e
  | .addLoad e _ _ => some e
  | .addCas e _ _ _ => some e
  | _ => none

/-- The thread is inside an operation (between JoinEpoch and LeaveEpoch). -/
def Running (s : State) (t : Nat) : Prop := (s.pc t).epoch ≠ none

/-- The object is unreachable for operations that start now. -/
def Out (s : State) (o : Nat) : Prop := s.st o ≠ .fresh ∧ s.st o ≠ .linked

/-- The thread is counted in epoch `e`. -/
def PC.counts (p : PC) (e : Nat) : Bool :=
  match p with
  | .joinUndo e' => e' == e
  | .active e' => e' == e
  | .addLoad e' _ _ => e' == e
  | .addCas e' _ _ _ => e' == e
  | _ => false

def b2i (b : Bool) : Int := if b then 1 else 0

/-- Number of threads counted in epoch `e`. -/
def C (f : Nat → PC) (e : Nat) : Nat → Int
  | 0 => 0
  | N + 1 => C f e N + b2i ((f N).counts e)

theorem C_nonneg (f : Nat → PC) (e N : Nat) : 0 ≤ C f e N := by
  induction N with
  | zero => simp [C]
  | succ N ih => simp only [C, b2i]; split <;> omega

theorem C_upd_ge (f : Nat → PC) (e t N : Nat) (x : PC) (h : N ≤ t) : C (upd f t x) e N = C f e N := by
  induction N with
  | zero => rfl
  | succ N ih =>
    have h1 : upd f t x N = f N := by simp only [upd]; rw [if_neg (by omega)]
    simp only [C, ih (by omega), h1]

theorem C_upd (f : Nat → PC) (e t N : Nat) (x : PC) (h : t < N) :
    C (upd f t x) e N = C f e N + b2i (x.counts e) - b2i ((f t).counts e) := by
  induction N with
  | zero => omega
  | succ N ih =>
    by_cases ht : t = N
    · subst ht
      have h1 : upd f t x t = x := by simp [upd]
      simp only [C, C_upd_ge f e t t x (Nat.le_refl _), h1]
      omega
    · have h1 : upd f t x N = f N := by simp only [upd]; rw [if_neg (by omega)]
      simp only [C, ih (by omega), h1]
      omega

theorem C_le (f : Nat → PC) (e N : Nat) : C f e N ≤ N := by
  induction N with
  | zero => simp [C]
  | succ N ih => simp only [C, b2i]; split <;> omega

/-- A thread that is not counted leaves room below the number of threads. -/
theorem C_lt (f : Nat → PC) (e t N : Nat) (h : t < N) (hc : (f t).counts e = false) : C f e N < N := by
  induction N with
  | zero => omega
  | succ N ih =>
    by_cases ht : t = N
    · subst ht
      have := C_le f e t
      simp only [C, hc, b2i]
      simp
      omega
    · have := ih (by omega)
      simp only [C, b2i]
      split <;> omega

theorem C_zero (f : Nat → PC) (e N t : Nat) (h : C f e N ≤ 0) (ht : t < N) : (f t).counts e = false := by
  induction N with
  | zero => omega
  | succ N ih =>
    have h0 := C_nonneg f e N
    simp only [C] at h
    cases hb : (f N).counts e with
    | true => simp only [hb, b2i] at h; simp at h; omega
    | false =>
      simp only [hb, b2i] at h
      by_cases hN : t = N
      · subst hN; exact hb
      · exact ih (by simpa using h) (by omega)

theorem C_none (f : Nat → PC) (e N : Nat) (h : ∀ t, (f t).counts e = false) : C f e N = 0 := by
  induction N with
  | zero => rfl
  | succ N ih => simp only [C, ih, h, b2i]; simp

/-- The cleaner has subtracted MAX_THREAD_COUNT from the head epoch's counter. -/
def GPC.subbed : GPC → Bool
  | .addBack => true
  | .glist => true
  | .free _ => true
  | .del => true
  | _ => false

/-- The cleaner has decided to delete the head epoch. -/
def GPC.sealed : GPC → Bool
  | .glist => true
  | .free _ => true
  | .del => true
  | _ => false

/-- The cleaner works on the head epoch. -/
def GPC.onHead : GPC → Bool
  | .load => true
  | .sub => true
  | g => g.subbed

structure InvA (N : Nat) (s : State) : Prop where
  n1 : 1 ≤ s.n
  headle : s.head ≤ s.n
  headn : s.down = false → s.head < s.n
  onH : s.gc.onHead = true → s.head < s.n ∧ (s.down = false → s.head + 1 < s.n)
  gcD : s.down = true → s.gc ≠ .idle ∧ s.gc ≠ .create
  gcDone : s.gc = .done → s.down = true
  runN : ∀ t, s.pc t ≠ .idle → t < N
  downIdle : s.down = true → ∀ t, s.pc t = .idle
  bnd : ∀ t e, (s.pc t).counts e = true → e < s.n
  bndJ : ∀ t e, s.pc t = .joinAdd e → e < s.n
  bndA : ∀ t e o c, s.pc t = .addLoad e o c → e ≤ c ∧ c < s.n
  bndC : ∀ t e o c l, s.pc t = .addCas e o c l → e ≤ c ∧ c < s.n
  act : ∀ t e, (s.pc t).epoch = some e → s.head ≤ e ∧ (s.gc.sealed = true → s.head < e)
  cntE : ∀ e, s.head ≤ e → e < s.n → s.cnt e = C s.pc e N - (if s.gc.subbed = true ∧ e = s.head then MAXT else 0)

theorem invA_init (N : Nat) : InvA N init := by
  constructor <;> simp [init, PC.counts, PC.epoch, GPC.onHead, GPC.subbed, GPC.sealed]
  rw [C_none]
  intro t; rfl

theorem counts_of_epoch {p : PC} {e : Nat} (h : p.epoch = some e) : p.counts e = true := by
  cases p <;> simp_all [PC.epoch, PC.counts]

theorem upd_apply {α : Type} (f : Nat → α) (i j : Nat) (x : α) : upd f i x j = if j = i then x else f j := rfl

/-- Change of one thread's program counter together with the counter of epoch `e`. -/
theorem invA_pc {N : Nat} {s s' : State} {t : Nat} {x : PC} (h : InvA N s) (ht : t < N) (hd : s.down = false)
    (hn : s'.n = s.n) (hh : s'.head = s.head) (hdn : s'.down = s.down) (hg : s'.gc = s.gc)
    (hp : s'.pc = upd s.pc t x)
    (hb : ∀ e, x.counts e = true → e < s.n)
    (hbj : ∀ e, x = .joinAdd e → e < s.n)
    (hba : ∀ e o c, x = .addLoad e o c → e ≤ c ∧ c < s.n)
    (hbc : ∀ e o c l, x = .addCas e o c l → e ≤ c ∧ c < s.n)
    (ha : ∀ e, x.epoch = some e → s.head ≤ e ∧ (s.gc.sealed = true → s.head < e))
    (hc : ∀ e, s.head ≤ e → e < s.n → s'.cnt e = s.cnt e + b2i (x.counts e) - b2i ((s.pc t).counts e)) : InvA N s' := by
  obtain ⟨n1, headle, headn, onH, gcD, gcDone, runN, downIdle, bnd, bndJ, bndA, bndC, act, cntE⟩ := h
  constructor
  · rw [hn]; exact n1
  · rw [hn, hh]; exact headle
  · rw [hn, hh, hdn]; exact headn
  · rw [hn, hh, hdn, hg]; exact onH
  · rw [hdn, hg]; exact gcD
  · rw [hdn, hg]; exact gcDone
  · intro u; rw [hp, upd_apply]; split
    · intro _; omega
    · exact runN u
  · rw [hdn, hd]; intro h; cases h
  · intro u e; rw [hp, hn, upd_apply]; split
    · exact hb e
    · exact bnd u e
  · intro u e; rw [hp, hn, upd_apply]; split
    · exact hbj e
    · exact bndJ u e
  · intro u e o c; rw [hp, hn, upd_apply]; split
    · exact hba e o c
    · exact bndA u e o c
  · intro u e o c l; rw [hp, hn, upd_apply]; split
    · exact hbc e o c l
    · exact bndC u e o c l
  · intro u e; rw [hp, hg, hh, upd_apply]; split
    · exact ha e
    · exact act u e
  · intro e h1 h2
    rw [hh] at h1; rw [hn] at h2
    rw [hc e h1 h2, hp, C_upd _ _ _ _ _ ht, hg, hh, cntE e h1 h2]
    omega

/-- Steps that leave threads, counters and epochs alone. -/
theorem invA_same {N : Nat} {s s' : State} (h : InvA N s) (hn : s'.n = s.n) (hh : s'.head = s.head)
    (hdn : s'.down = s.down) (hg : s'.gc = s.gc) (hp : s'.pc = s.pc) (hc : s'.cnt = s.cnt) : InvA N s' := by
  obtain ⟨n1, headle, headn, onH, gcD, gcDone, runN, downIdle, bnd, bndJ, bndA, bndC, act, cntE⟩ := h
  constructor <;> simp only [hn, hh, hdn, hg, hp, hc] <;> assumption

theorem down_of_run {N : Nat} {s : State} {t : Nat} (h : InvA N s) (hp : s.pc t ≠ .idle) : s.down = false := by
  cases hd : s.down with
  | false => rfl
  | true => exact absurd (h.downIdle hd t) hp

set_option maxHeartbeats 1000000 in
theorem invA_step {N : Nat} {s s' : State} {a : Act} (hN : (N : Int) ≤ MAXT) (h : InvA N s)
    (hs : step N s a = .ok s') : InvA N s' := by
  cases a with
  | joinRead t =>
    simp only [step, step', guardR] at hs
    split at hs
    · rename_i hif
      simp only [Bool.and_eq_true, decide_eq_true_eq, Bool.not_eq_true'] at hif
      cases hs
      have := h.headn hif.2
      refine invA_pc (t := t) (x := .joinAdd (s.n - 1)) h hif.1.1 hif.2 rfl rfl rfl rfl rfl ?_ ?_ ?_ ?_ ?_ ?_
      · simp [PC.counts]
      · intro e he; cases he; have := h.n1; omega
      · simp
      · simp
      · simp [PC.epoch]
      · simp [PC.counts, b2i, hif.1.2]
    · cases hs
  | joinAdd t =>
    simp only [step, step', touch] at hs
    split at hs
    · rename_i e hpc
      have hd := down_of_run h (t := t) (by rw [hpc]; simp)
      have ht := h.runN t (by rw [hpc]; simp)
      split at hs
      · cases hs
      · rename_i hu
        simp only [not_or, Nat.not_lt, Nat.not_le] at hu
        have hce := h.cntE e hu.1 hu.2
        have hCN := C_lt s.pc e t N ht (by rw [hpc]; rfl)
        split at hs
        · cases hs
          refine invA_pc (t := t) (x := .joinUndo e) h ht hd rfl rfl rfl rfl rfl ?_ ?_ ?_ ?_ ?_ ?_
          · intro e' he'; simp [PC.counts] at he'; omega
          · simp
          · simp
          · simp
          · simp [PC.epoch]
          · intro e' h1 h2
            simp only [upd_apply, PC.counts, b2i, hpc, beq_iff_eq]
            split
            · subst_vars; simp
            · rw [if_neg (by omega)]; simp
        · rename_i hneg
          cases hs
          have hsub : ¬ (s.gc.subbed = true ∧ e = s.head) := by
            intro hh
            rw [if_pos hh] at hce
            try simp only at hneg
            omega
          refine invA_pc (t := t) (x := .active e) h ht hd rfl rfl rfl rfl rfl ?_ ?_ ?_ ?_ ?_ ?_
          · intro e' he'; simp [PC.counts] at he'; omega
          · simp
          · simp
          · simp
          · intro e' he'
            simp only [PC.epoch, Option.some.injEq] at he'
            subst he'
            refine ⟨hu.1, fun hse => ?_⟩
            have h1 := hu.1
            try simp only at h1
            have : s.gc.subbed = true := by
              revert hse; cases s.gc <;> simp [GPC.sealed, GPC.subbed]
            by_cases he : e = s.head
            · exact absurd ⟨this, he⟩ hsub
            · omega
          · intro e' h1 h2
            simp only [upd_apply, PC.counts, b2i, hpc, beq_iff_eq]
            split
            · subst_vars; simp
            · rw [if_neg (by omega)]; simp
    · cases hs
  | joinUndo t =>
    simp only [step, step', touch] at hs
    split at hs
    · rename_i e hpc
      have hd := down_of_run h (t := t) (by rw [hpc]; simp)
      have ht := h.runN t (by rw [hpc]; simp)
      split at hs
      · cases hs
      · cases hs
        refine invA_pc (t := t) (x := .idle) h ht hd rfl rfl rfl rfl rfl ?_ ?_ ?_ ?_ ?_ ?_
        · simp [PC.counts]
        · simp
        · simp
        · simp
        · simp [PC.epoch]
        · intro e' h1 h2
          simp only [upd_apply, PC.counts, b2i, hpc, beq_iff_eq]
          split
          · subst_vars; simp
          · rw [if_neg (by omega)]; simp
    · cases hs
  | link t o =>
    simp only [step, step', guardR] at hs
    split at hs
    · split at hs
      · cases hs; exact invA_same h rfl rfl rfl rfl rfl rfl
      · cases hs
    · cases hs
  | make t o =>
    simp only [step, step', guardR] at hs
    split at hs
    · split at hs
      · cases hs; exact invA_same h rfl rfl rfl rfl rfl rfl
      · cases hs
    · cases hs
  | unlink t o =>
    simp only [step, step', guardR] at hs
    split at hs
    · split at hs
      · cases hs; exact invA_same h rfl rfl rfl rfl rfl rfl
      · cases hs
    · cases hs
  | addRead t o =>
    simp only [step, step', guardR] at hs
    split at hs
    · rename_i e hpc
      have hd := down_of_run h (t := t) (by rw [hpc]; simp)
      have ht := h.runN t (by rw [hpc]; simp)
      have hb := h.bnd t e (by rw [hpc]; simp [PC.counts])
      have ha := h.act t e (by rw [hpc]; rfl)
      split at hs
      · cases hs
        refine invA_pc (t := t) (x := .addLoad e o (s.n - 1)) h ht hd rfl rfl rfl rfl rfl ?_ ?_ ?_ ?_ ?_ ?_
        · intro e' he'; simp [PC.counts] at he'; omega
        · simp
        · intro e' o' c' he'; cases he'; omega
        · simp
        · intro e' he'; simp only [PC.epoch, Option.some.injEq] at he'; subst he'; exact ha
        · intro e' h1 h2
          simp only [PC.counts, hpc]
          omega
      · cases hs
    · cases hs
  | addLoad t =>
    simp only [step, step', touch] at hs
    split at hs
    · rename_i e o c hpc
      have hd := down_of_run h (t := t) (by rw [hpc]; simp)
      have ht := h.runN t (by rw [hpc]; simp)
      have hb := h.bnd t e (by rw [hpc]; simp [PC.counts])
      have ha := h.act t e (by rw [hpc]; rfl)
      have hA := h.bndA t e o c hpc
      split at hs
      · cases hs
      · cases hs
        refine invA_pc (t := t) (x := .addCas e o c (s.garb c)) h ht hd rfl rfl rfl rfl rfl ?_ ?_ ?_ ?_ ?_ ?_
        · intro e' he'; simp [PC.counts] at he'; omega
        · simp
        · simp
        · intro e' o' c' l' he'; cases he'; omega
        · intro e' he'; simp only [PC.epoch, Option.some.injEq] at he'; subst he'; exact ha
        · intro e' h1 h2
          simp only [PC.counts, hpc]
          omega
    · cases hs
  | addCas t =>
    simp only [step, step', touch] at hs
    split at hs
    · rename_i e o c l hpc
      have hd := down_of_run h (t := t) (by rw [hpc]; simp)
      have ht := h.runN t (by rw [hpc]; simp)
      have hb := h.bnd t e (by rw [hpc]; simp [PC.counts])
      have ha := h.act t e (by rw [hpc]; rfl)
      have hA := h.bndC t e o c l hpc
      split at hs
      · cases hs
      · split at hs
        · cases hs
          refine invA_pc (t := t) (x := .active e) h ht hd rfl rfl rfl rfl rfl ?_ ?_ ?_ ?_ ?_ ?_
          · intro e' he'; simp [PC.counts] at he'; omega
          · simp
          · simp
          · simp
          · intro e' he'; simp only [PC.epoch, Option.some.injEq] at he'; subst he'; exact ha
          · intro e' h1 h2
            simp only [PC.counts, hpc]
            omega
        · cases hs
          refine invA_pc (t := t) (x := .addCas e o c (s.garb c)) h ht hd rfl rfl rfl rfl rfl ?_ ?_ ?_ ?_ ?_ ?_
          · intro e' he'; simp [PC.counts] at he'; omega
          · simp
          · simp
          · intro e' o' c' l' he'; cases he'; omega
          · intro e' he'; simp only [PC.epoch, Option.some.injEq] at he'; subst he'; exact ha
          · intro e' h1 h2
            simp only [PC.counts, hpc]
            omega
    · cases hs
  | leave t =>
    simp only [step, step', touch] at hs
    split at hs
    · rename_i e hpc
      have hd := down_of_run h (t := t) (by rw [hpc]; simp)
      have ht := h.runN t (by rw [hpc]; simp)
      split at hs
      · cases hs
      · cases hs
        refine invA_pc (t := t) (x := .idle) h ht hd rfl rfl rfl rfl rfl ?_ ?_ ?_ ?_ ?_ ?_
        · simp [PC.counts]
        · simp
        · simp
        · simp
        · simp [PC.epoch]
        · intro e' h1 h2
          simp only [upd_apply, PC.counts, b2i, hpc, beq_iff_eq]
          split
          · subst_vars; simp
          · rw [if_neg (by omega)]; simp
    · cases hs
  | shutdown =>
    simp only [step, step', guardR] at hs
    split at hs
    · rename_i hif
      simp only [Bool.and_eq_true, decide_eq_true_eq, Bool.not_eq_true', List.all_eq_true, List.mem_range] at hif
      cases hs
      obtain ⟨n1, headle, headn, onH, gcD, gcDone, runN, downIdle, bnd, bndJ, bndA, bndC, act, cntE⟩ := h
      refine ⟨n1, headle, by simp, by simp [GPC.onHead, GPC.subbed], by simp, by simp, runN, ?_, bnd, bndJ, bndA, bndC, ?_, ?_⟩
      · intro _ t
        by_cases ht : s.pc t = .idle
        · exact ht
        · exact hif.1.2 t (runN t ht)
      · intro t e he
        have := act t e he
        simp [GPC.sealed, this.1]
      · intro e h1 h2
        have := cntE e h1 h2
        simp only [hif.1.1, GPC.subbed] at this
        simp only [GPC.subbed]
        exact this
    · cases hs
  | gc =>
    obtain ⟨n1, headle, headn, onH, gcD, gcDone, runN, downIdle, bnd, bndJ, bndA, bndC, act, cntE⟩ := h
    simp only [step, step', gcStep] at hs
    split at hs
    -- idle
    · rename_i hg
      try simp only at hg
      split at hs
      · cases hs
      · cases hs
        rw [hg] at onH act cntE
        refine ⟨n1, headle, headn, by simp [GPC.onHead, GPC.subbed], by simp, by simp, runN, downIdle, bnd, bndJ, bndA, bndC, ?_, ?_⟩
        · exact fun t e he => ⟨(act t e he).1, by simp [GPC.sealed]⟩
        · exact fun e h1 h2 => cntE e h1 h2
    -- test
    · rename_i hg
      try simp only at hg
      rw [hg] at onH act cntE
      split at hs
      · cases hs
        refine ⟨n1, headle, headn, ?_, ?_, ?_, runN, downIdle, bnd, bndJ, bndA, bndC, ?_, ?_⟩
        all_goals (simp only; cases hd : s.down <;> simp [GPC.onHead, GPC.subbed, GPC.sealed])
        · exact fun t e he => (act t e he).1
        · exact fun t e he => (act t e he).1
        · exact fun e h1 h2 => by have := cntE e h1 h2; simpa [GPC.subbed] using this
        · exact fun e h1 h2 => by have := cntE e h1 h2; simpa [GPC.subbed] using this
      · rename_i hne
        cases hs
        refine ⟨n1, headle, headn, ?_, by simp, by simp, runN, downIdle, bnd, bndJ, bndA, bndC, ?_, ?_⟩
        · intro _
          simp only [atEnd] at hne ⊢
          cases hd : s.down with
          | true => simp [hd] at hne; exact ⟨by omega, by simp⟩
          | false =>
            simp [hd] at hne
            have := headn hd
            exact ⟨by omega, fun _ => by omega⟩
        · exact fun t e he => ⟨(act t e he).1, by simp [GPC.sealed]⟩
        · exact fun e h1 h2 => cntE e h1 h2
    -- load
    · rename_i hg
      try simp only at hg
      rw [hg] at onH act cntE
      simp only [touch] at hs
      split at hs
      · cases hs
      split at hs
      · cases hs
      split at hs
      · cases hs
        refine ⟨n1, headle, headn, ?_, ?_, ?_, runN, downIdle, bnd, bndJ, bndA, bndC, ?_, ?_⟩
        all_goals (simp only; cases hd : s.down <;> simp [GPC.onHead, GPC.subbed, GPC.sealed])
        · exact fun t e he => (act t e he).1
        · exact fun t e he => (act t e he).1
        · exact fun e h1 h2 => by have := cntE e h1 h2; simpa [GPC.subbed] using this
        · exact fun e h1 h2 => by have := cntE e h1 h2; simpa [GPC.subbed] using this
      · cases hs
        refine ⟨n1, headle, headn, fun _ => onH (by rfl), by simp, by simp, runN, downIdle, bnd, bndJ, bndA, bndC, ?_, ?_⟩
        · exact fun t e he => ⟨(act t e he).1, by simp [GPC.sealed]⟩
        · exact fun e h1 h2 => cntE e h1 h2
    -- sub
    · rename_i hg
      try simp only at hg
      rw [hg] at onH act cntE
      simp only [touch] at hs
      split at hs
      · cases hs
      cases hs
      have hH := onH (by rfl)
      have hc0 := cntE s.head (Nat.le_refl _) hH.1
      simp only [GPC.subbed, Bool.false_eq_true, false_and, if_false, Int.sub_zero] at hc0
      by_cases hpos : 0 < s.cnt s.head
      · refine ⟨n1, headle, headn, ?_, ?_, ?_, runN, downIdle, bnd, bndJ, bndA, bndC, ?_, ?_⟩
        all_goals simp only [if_pos hpos]
        · exact fun _ => hH
        · simp
        · simp
        · exact fun t e he => ⟨(act t e he).1, by simp [GPC.sealed]⟩
        · intro e h1 h2
          have := cntE e h1 h2
          simp only [GPC.subbed, Bool.false_eq_true, false_and, if_false, Int.sub_zero, true_and, upd_apply] at this ⊢
          split
          · subst_vars; omega
          · omega
      · have hz : C s.pc s.head N ≤ 0 := by omega
        refine ⟨n1, headle, headn, ?_, ?_, ?_, runN, downIdle, bnd, bndJ, bndA, bndC, ?_, ?_⟩
        all_goals simp only [if_neg hpos]
        · exact fun _ => hH
        · simp
        · simp
        · intro t e he
          refine ⟨(act t e he).1, fun _ => ?_⟩
          have h1 := (act t e he).1
          rcases Nat.lt_or_ge s.head e with h2 | h2
          · exact h2
          · have h3 : e = s.head := Nat.le_antisymm h2 h1
            subst h3
            have h4 := C_zero s.pc s.head N t hz (runN t (by intro h5; rw [h5] at he; cases he))
            rw [counts_of_epoch he] at h4
            cases h4
        · intro e h1 h2
          have := cntE e h1 h2
          simp only [GPC.subbed, Bool.false_eq_true, false_and, if_false, Int.sub_zero, true_and, upd_apply] at this ⊢
          split
          · subst_vars; omega
          · omega
    -- addBack
    · rename_i hg
      try simp only at hg
      rw [hg] at onH act cntE
      simp only [touch] at hs
      split at hs
      · cases hs
      cases hs
      refine ⟨n1, headle, headn, ?_, ?_, ?_, runN, downIdle, bnd, bndJ, bndA, bndC, ?_, ?_⟩
      all_goals (simp only; cases hd : s.down <;> simp [GPC.onHead, GPC.subbed, GPC.sealed])
      · exact fun t e he => (act t e he).1
      · exact fun t e he => (act t e he).1
      all_goals
        intro e h1 h2
        have := cntE e h1 h2
        simp only [GPC.subbed, true_and] at this
        simp only [upd_apply]
        split
        · subst_vars; simp only [if_true] at this; omega
        · rename_i hne; rw [if_neg hne] at this; omega
    -- glist
    · rename_i hg
      try simp only at hg
      rw [hg] at onH act cntE
      simp only [touch] at hs
      split at hs
      · cases hs
      cases hs
      exact ⟨n1, headle, headn, fun _ => onH (by rfl), by simp, by simp, runN, downIdle, bnd, bndJ, bndA, bndC, act, cntE⟩
    -- free []
    · rename_i hg
      try simp only at hg
      rw [hg] at onH act cntE
      cases hs
      exact ⟨n1, headle, headn, fun _ => onH (by rfl), by simp, by simp, runN, downIdle, bnd, bndJ, bndA, bndC, act, cntE⟩
    -- free (o :: l)
    · rename_i o l hg
      try simp only at hg
      rw [hg] at onH act cntE
      cases hs
      exact ⟨n1, headle, headn, fun _ => onH (by rfl), by simp, by simp, runN, downIdle, bnd, bndJ, bndA, bndC, act, cntE⟩
    -- del
    · rename_i hg
      try simp only at hg
      rw [hg] at onH act cntE
      simp only [touch] at hs
      split at hs
      · cases hs
      cases hs
      have hH := onH (by rfl)
      refine ⟨n1, by simp only; omega, fun hd => hH.2 hd, by simp [GPC.onHead, GPC.subbed], by simp, by simp, runN, downIdle, bnd,
        bndJ, bndA, bndC, ?_, ?_⟩
      · intro t e he
        have := (act t e he).2 (by rfl)
        exact ⟨this, by simp [GPC.sealed]⟩
      · intro e h1 h2
        simp only at h1 h2
        have := cntE e (by omega) h2
        rw [if_neg (by omega)] at this
        simp only [GPC.subbed, Bool.false_eq_true, false_and, if_false]
        exact this
    -- create
    · rename_i hg
      try simp only at hg
      rw [hg] at onH act cntE
      cases hs
      have hdn : s.down = false := by
        cases hd : s.down with
        | false => rfl
        | true => exact absurd hg (gcD hd).2
      refine ⟨by simp, by simp only; omega, fun _ => by have := headn hdn; simp only; omega, by simp [GPC.onHead, GPC.subbed],
        by simp [hdn], by simp, runN, downIdle, ?_, ?_, ?_, ?_, ?_, ?_⟩
      · exact fun t e he => Nat.lt_succ_of_lt (bnd t e he)
      · exact fun t e he => Nat.lt_succ_of_lt (bndJ t e he)
      · exact fun t e o c he => ⟨(bndA t e o c he).1, Nat.lt_succ_of_lt (bndA t e o c he).2⟩
      · exact fun t e o c l he => ⟨(bndC t e o c l he).1, Nat.lt_succ_of_lt (bndC t e o c l he).2⟩
      · exact fun t e he => ⟨(act t e he).1, by simp [GPC.sealed]⟩
      · intro e h1 h2
        simp only [GPC.subbed, Bool.false_eq_true, false_and, if_false, upd_apply] at cntE ⊢
        split
        · subst_vars
          rw [C_none]
          · rfl
          · intro t
            cases hb : (s.pc t).counts s.n with
            | false => rfl
            | true => exact absurd (bnd t _ hb) (by omega)
        · exact cntE e h1 (by simp only at h2; omega)
    -- done
    · cases hs

/-- The cleaner holds the head epoch's garbage list. -/
def GPC.taken : GPC → Bool
  | .free _ => true
  | .del => true
  | _ => false

/-- The garbage list of epoch `c` is still to be processed. -/
def Live (s : State) (c : Nat) : Prop := c < s.n ∧ s.head ≤ c ∧ (s.gc.taken = true → s.head < c)

structure InvB (s : State) : Prop where
  outC : ∀ o, s.outT o ≤ s.clock
  joinC : ∀ t, s.joinT t ≤ s.clock
  addL : ∀ u e o c, s.pc u = .addLoad e o c → s.st o = .owned u
  addCs : ∀ u e o c l, s.pc u = .addCas e o c l → s.st o = .owned u
  garbS : ∀ c o, Live s c → o ∈ s.garb c → s.st o = .retired
  garbND : ∀ c, Live s c → (s.garb c).Nodup
  garbDisj : ∀ c c' o, Live s c → Live s c' → o ∈ s.garb c → o ∈ s.garb c' → c = c'
  pendS : ∀ l o, s.gc = .free l → o ∈ l → s.st o = .retired
  pendND : ∀ l, s.gc = .free l → l.Nodup
  pendDisj : ∀ l c o, s.gc = .free l → Live s c → o ∈ l → o ∉ s.garb c
  garbAll : ∀ o, s.st o = .retired → (∃ c, Live s c ∧ o ∈ s.garb c) ∨ (∃ l, s.gc = .free l ∧ o ∈ l)
  freedS : ∀ o, o ∈ s.freed ↔ s.st o = .freed
  freedND : s.freed.Nodup
  safe : ∀ t o, Running s t → Out s o → s.joinT t < s.outT o → s.st o ≠ .freed
  safeL : ∀ t u o e' c e, (s.pc t).epoch = some e → s.joinT t < s.outT o → s.pc u = .addLoad e' o c → e ≤ c
  safeC : ∀ t u o e' c l e, (s.pc t).epoch = some e → s.joinT t < s.outT o → s.pc u = .addCas e' o c l → e ≤ c
  safeG : ∀ t o c e, (s.pc t).epoch = some e → s.joinT t < s.outT o → Live s c → o ∈ s.garb c → e ≤ c
  safeP : ∀ t o l, Running s t → s.gc = .free l → o ∈ l → s.outT o ≤ s.joinT t

theorem invB_init : InvB init := by
  constructor <;> simp [init, PC.epoch, Running, Out]

/-- Steps that change neither objects nor garbage nor epochs, and leave every thread's epoch as it was. -/
theorem invB_pc {s s' : State} {t : Nat} {x : PC} (h : InvB s) (hx : x.epoch = none)
    (hn : s'.n = s.n) (hh : s'.head = s.head) (hg : s'.gc = s.gc) (hp : s'.pc = upd s.pc t x)
    (hga : s'.garb = s.garb) (hst : s'.st = s.st) (hf : s'.freed = s.freed) (hc : s'.clock = s.clock + 1)
    (hj : s'.joinT = s.joinT) (ho : s'.outT = s.outT) : InvB s' := by
  obtain ⟨outC, joinC, addL, addCs, garbS, garbND, garbDisj, pendS, pendND, pendDisj, garbAll, freedS, freedND, safe, safeL,
    safeC, safeG, safeP⟩ := h
  have hl : ∀ c, Live s' c ↔ Live s c := fun c => by simp only [Live, hn, hh, hg]
  have hpe : ∀ u e, (s'.pc u).epoch = some e → (s.pc u).epoch = some e ∧ s'.pc u = s.pc u := by
    intro u e he
    rw [hp, upd_apply] at he ⊢
    split at he
    · rw [hx] at he; cases he
    · rename_i hne; rw [if_neg hne]; exact ⟨he, rfl⟩
  have hru : ∀ u, Running s' u → Running s u := by
    intro u hu
    simp only [Running] at hu ⊢
    cases he : (s'.pc u).epoch with
    | none => exact absurd he hu
    | some e => rw [(hpe u e he).1]; simp
  have hL : ∀ u e o c, s'.pc u = .addLoad e o c → s.pc u = .addLoad e o c := by
    intro u e o c he
    have := hpe u e (by rw [he]; rfl)
    rw [← this.2]; exact he
  have hC : ∀ u e o c l, s'.pc u = .addCas e o c l → s.pc u = .addCas e o c l := by
    intro u e o c l he
    have := hpe u e (by rw [he]; rfl)
    rw [← this.2]; exact he
  constructor
  · intro o; rw [ho, hc]; have := outC o; omega
  · intro u; rw [hj, hc]; have := joinC u; omega
  · intro u e o c he; rw [hst]; exact addL u e o c (hL u e o c he)
  · intro u e o c l he; rw [hst]; exact addCs u e o c l (hC u e o c l he)
  · intro c o; rw [hl, hga, hst]; exact garbS c o
  · intro c; rw [hl, hga]; exact garbND c
  · intro c c' o; rw [hl, hl, hga]; exact garbDisj c c' o
  · intro l o; rw [hg, hst]; exact pendS l o
  · intro l; rw [hg]; exact pendND l
  · intro l c o; rw [hg, hl, hga]; exact pendDisj l c o
  · intro o; rw [hst, hg, hga]; intro hr
    rcases garbAll o hr with ⟨c, h1, h2⟩ | h1
    · exact Or.inl ⟨c, (hl c).mpr h1, h2⟩
    · exact Or.inr h1
  · rw [hf, hst]; exact freedS
  · rw [hf]; exact freedND
  · intro u o hr; simp only [Out]; rw [hst, hj, ho]; exact safe u o (hru u hr)
  · intro u v o e' c e he; rw [hj, ho]; intro h1 h2
    exact safeL u v o e' c e (hpe u e he).1 h1 (hL v _ _ _ h2)
  · intro u v o e' c l e he; rw [hj, ho]; intro h1 h2
    exact safeC u v o e' c l e (hpe u e he).1 h1 (hC v _ _ _ _ h2)
  · intro u o c e he; rw [hj, ho, hl, hga]; exact safeG u o c e (hpe u e he).1
  · intro u o l hr; rw [hg, hj, ho]; exact safeP u o l (hru u hr)

/-- A step of the cleaner that does not touch garbage lists. -/
theorem invB_gc {s s' : State} (h : InvB s) (h1 : s.gc.taken = false) (h2 : s'.gc.taken = false)
    (hn : s'.n = s.n) (hh : s'.head = s.head) (hp : s'.pc = s.pc)
    (hga : s'.garb = s.garb) (hst : s'.st = s.st) (hf : s'.freed = s.freed) (hc : s'.clock = s.clock + 1)
    (hj : s'.joinT = s.joinT) (ho : s'.outT = s.outT) : InvB s' := by
  obtain ⟨outC, joinC, addL, addCs, garbS, garbND, garbDisj, pendS, pendND, pendDisj, garbAll, freedS, freedND, safe, safeL,
    safeC, safeG, safeP⟩ := h
  have hl : ∀ c, Live s' c ↔ Live s c := fun c => by simp only [Live, hn, hh, h1, h2]
  have hnf : ∀ l, s'.gc ≠ .free l := by intro l e; rw [e] at h2; cases h2
  have hnf0 : ∀ l, s.gc ≠ .free l := by intro l e; rw [e] at h1; cases h1
  constructor
  · intro o; rw [ho, hc]; have := outC o; omega
  · intro u; rw [hj, hc]; have := joinC u; omega
  · rw [hp, hst]; exact addL
  · rw [hp, hst]; exact addCs
  · intro c o; rw [hl, hga, hst]; exact garbS c o
  · intro c; rw [hl, hga]; exact garbND c
  · intro c c' o; rw [hl, hl, hga]; exact garbDisj c c' o
  · intro l o e; exact absurd e (hnf l)
  · intro l e; exact absurd e (hnf l)
  · intro l c o e; exact absurd e (hnf l)
  · intro o; rw [hst, hga]; intro hr
    rcases garbAll o hr with ⟨c, h1, h2⟩ | ⟨l, h1, _⟩
    · exact Or.inl ⟨c, (hl c).mpr h1, h2⟩
    · exact absurd h1 (hnf0 l)
  · rw [hf, hst]; exact freedS
  · rw [hf]; exact freedND
  · simp only [Running, Out]; rw [hp, hst, hj, ho]; exact safe
  · rw [hp, hj, ho]; exact safeL
  · rw [hp, hj, ho]; exact safeC
  · intro u o c e; rw [hp, hj, ho, hl, hga]; exact safeG u o c e
  · intro u o l _ e; exact absurd e (hnf l)

set_option maxHeartbeats 1000000 in
theorem invB_glist {N : Nat} {s s' : State} (hA : InvA N s) (h : InvB s) (hg : s.gc = .glist)
    (hn : s'.n = s.n) (hh : s'.head = s.head) (hgc : s'.gc = .free (s.garb s.head)) (hp : s'.pc = s.pc) (hga : s'.garb = s.garb)
    (hst : s'.st = s.st) (hf : s'.freed = s.freed) (hj : s'.joinT = s.joinT) (ho : s'.outT = s.outT)
    (hc : s'.clock = s.clock + 1) : InvB s' := by
  have hact := hA.act
  have hon := hA.onH
  have hb : ∀ t e, (s.pc t).epoch = some e → e < s.n := fun t e he => hA.bnd t e (counts_of_epoch he)
  clear hA
  rw [hg] at hact hon
  have hhd := hon rfl
  have hx := fun t e he => (hact t e he).2 rfl
  clear hact hon
  have hlh : Live s s.head := ⟨hhd.1, Nat.le_refl _, by rw [hg]; simp [GPC.taken]⟩
  have hll : ∀ c, Live s' c ↔ Live s c ∧ c ≠ s.head := by
    intro c
    simp [Live, hn, hh, hgc, hg, GPC.taken]
    omega
  obtain ⟨outC, joinC, addL, addCs, garbS, garbND, garbDisj, pendS, pendND, pendDisj, garbAll, freedS, freedND, safe,
    safeL, safeC, safeG, safeP⟩ := h
  have hG : ∀ t o, (s.pc t).epoch ≠ none → o ∈ s.garb s.head → s.outT o ≤ s.joinT t := by
    intro t o hr ho
    cases he : (s.pc t).epoch with
    | none => exact absurd he hr
    | some e =>
      have h1 := hx t e he
      rcases Nat.lt_or_ge (s.joinT t) (s.outT o) with h2 | h2
      · have := safeG t o s.head e he h2 hlh ho; omega
      · exact h2
  constructor <;> simp only [Running, Out, hn, hh, hgc, hp, hga, hst, hf, hj, ho, hc, hll, upd_apply] at * <;>
    grind [PC.epoch]

set_option maxHeartbeats 1000000 in
theorem invB_freeNil {N : Nat} {s s' : State} (hA : InvA N s) (h : InvB s) (hg : s.gc = .free [])
    (hn : s'.n = s.n) (hh : s'.head = s.head) (hgc : s'.gc = .del) (hp : s'.pc = s.pc) (hga : s'.garb = s.garb)
    (hst : s'.st = s.st) (hf : s'.freed = s.freed) (hj : s'.joinT = s.joinT) (ho : s'.outT = s.outT)
    (hc : s'.clock = s.clock + 1) : InvB s' := by
  clear hA
  have hll : ∀ c, Live s' c ↔ Live s c := by
    intro c
    simp [Live, hn, hh, hgc, hg, GPC.taken]
  obtain ⟨outC, joinC, addL, addCs, garbS, garbND, garbDisj, pendS, pendND, pendDisj, garbAll, freedS, freedND, safe,
    safeL, safeC, safeG, safeP⟩ := h
  constructor <;> simp only [Running, Out, hn, hh, hgc, hp, hga, hst, hf, hj, ho, hc, hll, upd_apply] at * <;>
    grind [PC.epoch]

set_option maxHeartbeats 1000000 in
theorem invB_freeCons {N : Nat} {s s' : State} {o : Nat} {l : List Nat} (hA : InvA N s) (h : InvB s) (hg : s.gc = .free (o :: l))
    (hn : s'.n = s.n) (hh : s'.head = s.head) (hgc : s'.gc = .free l) (hp : s'.pc = s.pc) (hga : s'.garb = s.garb)
    (hst : s'.st = upd s.st o .freed) (hf : s'.freed = o :: s.freed) (hj : s'.joinT = s.joinT) (ho : s'.outT = s.outT)
    (hc : s'.clock = s.clock + 1) : InvB s' := by
  clear hA
  have hll : ∀ c, Live s' c ↔ Live s c := by
    intro c
    simp [Live, hn, hh, hgc, hg, GPC.taken]
  obtain ⟨outC, joinC, addL, addCs, garbS, garbND, garbDisj, pendS, pendND, pendDisj, garbAll, freedS, freedND, safe,
    safeL, safeC, safeG, safeP⟩ := h
  have p1 := pendS _ o hg (by simp)
  have p2 : ∀ x, x ∈ l → s.st x = .retired := fun x hx => pendS _ x hg (by simp [hx])
  have p3 := List.nodup_cons.mp (pendND _ hg)
  have p4 : ∀ c, Live s c → o ∉ s.garb c := fun c hc => pendDisj _ c o hg hc (by simp)
  have p5 : ∀ c x, Live s c → x ∈ l → x ∉ s.garb c := fun c x hc hx => pendDisj _ c x hg hc (by simp [hx])
  have p6 : ∀ t, (s.pc t).epoch ≠ none → s.outT o ≤ s.joinT t := fun t hr => safeP t o _ hr hg (by simp)
  have p7 : ∀ t x, (s.pc t).epoch ≠ none → x ∈ l → s.outT x ≤ s.joinT t := fun t x hr hx => safeP t x _ hr hg (by simp [hx])
  have p8 : ∀ x, s.st x = .retired → (∃ c, Live s c ∧ x ∈ s.garb c) ∨ x = o ∨ x ∈ l := by
    intro x hx
    rcases garbAll x hx with h1 | ⟨l', h1, h2⟩
    · exact Or.inl h1
    · rw [hg] at h1; cases h1; exact Or.inr (List.mem_cons.mp h2)
  clear pendS pendND pendDisj safeP garbAll
  constructor <;> simp only [Running, Out, hn, hh, hgc, hp, hga, hst, hf, hj, ho, hc, hll, upd_apply] at * <;>
    grind [PC.epoch]

set_option maxHeartbeats 1000000 in
theorem invB_del {N : Nat} {s s' : State} (hA : InvA N s) (h : InvB s) (hg : s.gc = .del)
    (hn : s'.n = s.n) (hh : s'.head = s.head + 1) (hgc : s'.gc = .test) (hp : s'.pc = s.pc) (hga : s'.garb = s.garb)
    (hst : s'.st = s.st) (hf : s'.freed = s.freed) (hj : s'.joinT = s.joinT) (ho : s'.outT = s.outT)
    (hc : s'.clock = s.clock + 1) : InvB s' := by
  clear hA
  have hll : ∀ c, Live s' c ↔ Live s c := by
    intro c
    simp [Live, hn, hh, hgc, hg, GPC.taken]
    omega
  obtain ⟨outC, joinC, addL, addCs, garbS, garbND, garbDisj, pendS, pendND, pendDisj, garbAll, freedS, freedND, safe,
    safeL, safeC, safeG, safeP⟩ := h
  constructor <;> simp only [Running, Out, hn, hh, hgc, hp, hga, hst, hf, hj, ho, hc, hll, upd_apply] at * <;>
    grind [PC.epoch]

set_option maxHeartbeats 1000000 in
theorem invB_create {N : Nat} {s s' : State} (hA : InvA N s) (h : InvB s) (hg : s.gc = .create)
    (hn : s'.n = s.n + 1) (hh : s'.head = s.head) (hgc : s'.gc = .idle) (hp : s'.pc = s.pc) (hga : s'.garb = upd s.garb s.n [])
    (hst : s'.st = s.st) (hf : s'.freed = s.freed) (hj : s'.joinT = s.joinT) (ho : s'.outT = s.outT)
    (hc : s'.clock = s.clock + 1) : InvB s' := by
  have hle := hA.headle
  clear hA
  have hll : ∀ c, Live s' c ↔ Live s c ∨ c = s.n := by
    intro c
    simp [Live, hn, hh, hgc, hg, GPC.taken]
    omega
  have hln : ¬ Live s s.n := by simp [Live]
  obtain ⟨outC, joinC, addL, addCs, garbS, garbND, garbDisj, pendS, pendND, pendDisj, garbAll, freedS, freedND, safe,
    safeL, safeC, safeG, safeP⟩ := h
  constructor <;> simp only [Running, Out, hn, hh, hgc, hp, hga, hst, hf, hj, ho, hc, hll, upd_apply] at * <;>
    grind [PC.epoch]

set_option maxHeartbeats 2000000 in
theorem invB_step {N : Nat} {s s' : State} {a : Act} (hA : InvA N s) (h : InvB s)
    (hs : step N s a = .ok s') : InvB s' := by
  cases a with
  | joinRead t =>
    simp only [step, step', guardR] at hs
    split at hs
    · cases hs
      exact invB_pc (t := t) (x := .joinAdd (s.n - 1)) h rfl rfl rfl rfl rfl rfl rfl rfl rfl rfl rfl
    · cases hs
  | joinUndo t =>
    simp only [step, step', touch] at hs
    split at hs
    · split at hs
      · cases hs
      · cases hs
        exact invB_pc (t := t) (x := .idle) h rfl rfl rfl rfl rfl rfl rfl rfl rfl rfl rfl
    · cases hs
  | leave t =>
    simp only [step, step', touch] at hs
    split at hs
    · split at hs
      · cases hs
      · cases hs
        exact invB_pc (t := t) (x := .idle) h rfl rfl rfl rfl rfl rfl rfl rfl rfl rfl rfl
    · cases hs
  | joinAdd t =>
    simp only [step, step', touch] at hs
    split at hs
    · rename_i e hpc
      split at hs
      · cases hs
      split at hs
      · cases hs
        exact invB_pc (t := t) (x := .joinUndo e) h rfl rfl rfl rfl rfl rfl rfl rfl rfl rfl rfl
      · cases hs
        obtain ⟨outC, joinC, addL, addCs, garbS, garbND, garbDisj, pendS, pendND, pendDisj, garbAll, freedS, freedND, safe,
          safeL, safeC, safeG, safeP⟩ := h
        constructor <;> simp only [Running, Out, Live, upd_apply] at * <;> grind [PC.epoch]
    · cases hs
  | link t o =>
    simp only [step, step', guardR] at hs
    split at hs
    · split at hs
      · cases hs
        obtain ⟨outC, joinC, addL, addCs, garbS, garbND, garbDisj, pendS, pendND, pendDisj, garbAll, freedS, freedND, safe,
          safeL, safeC, safeG, safeP⟩ := h
        constructor <;> simp only [Running, Out, Live, upd_apply, decide_eq_true_eq] at * <;> grind [PC.epoch]
      · cases hs
    · cases hs
  | make t o =>
    simp only [step, step', guardR] at hs
    split at hs
    · split at hs
      · cases hs
        obtain ⟨outC, joinC, addL, addCs, garbS, garbND, garbDisj, pendS, pendND, pendDisj, garbAll, freedS, freedND, safe,
          safeL, safeC, safeG, safeP⟩ := h
        constructor <;> simp only [Running, Out, Live, upd_apply, decide_eq_true_eq] at * <;> grind [PC.epoch]
      · cases hs
    · cases hs
  | unlink t o =>
    simp only [step, step', guardR] at hs
    split at hs
    · split at hs
      · cases hs
        obtain ⟨outC, joinC, addL, addCs, garbS, garbND, garbDisj, pendS, pendND, pendDisj, garbAll, freedS, freedND, safe,
          safeL, safeC, safeG, safeP⟩ := h
        constructor <;> simp only [Running, Out, Live, upd_apply, decide_eq_true_eq] at * <;> grind [PC.epoch]
      · cases hs
    · cases hs
  | addRead t o =>
    simp only [step, step', guardR] at hs
    split at hs
    · rename_i e hpc
      split at hs
      · cases hs
        have hb : ∀ t e, (s.pc t).epoch = some e → e < s.n := fun t e he => hA.bnd t e (counts_of_epoch he)
        clear hA
        obtain ⟨outC, joinC, addL, addCs, garbS, garbND, garbDisj, pendS, pendND, pendDisj, garbAll, freedS, freedND, safe,
          safeL, safeC, safeG, safeP⟩ := h
        constructor <;> simp only [Running, Out, Live, upd_apply, decide_eq_true_eq] at * <;> grind [PC.epoch]
      · cases hs
    · cases hs
  | addLoad t =>
    simp only [step, step', touch] at hs
    split at hs
    · rename_i e o c hpc
      split at hs
      · cases hs
      · cases hs
        obtain ⟨outC, joinC, addL, addCs, garbS, garbND, garbDisj, pendS, pendND, pendDisj, garbAll, freedS, freedND, safe,
          safeL, safeC, safeG, safeP⟩ := h
        clear hA
        constructor <;> simp only [Running, Out, Live, upd_apply, decide_eq_true_eq] at * <;> grind [PC.epoch]
    · cases hs
  | addCas t =>
    simp only [step, step', touch] at hs
    split at hs
    · rename_i e o c l hpc
      split at hs
      · cases hs
      split at hs
      · rename_i hl
        cases hs
        have hb := hA.bndC t e o c l hpc
        have ha := hA.act t e (by rw [hpc]; rfl)
        have ht : s.gc.taken = true → s.gc.sealed = true := by cases s.gc <;> simp [GPC.taken, GPC.sealed]
        clear hA
        have hlive : Live s c := ⟨hb.2, by omega, fun h => by have := ha.2 (ht h); omega⟩
        obtain ⟨outC, joinC, addL, addCs, garbS, garbND, garbDisj, pendS, pendND, pendDisj, garbAll, freedS, freedND, safe,
          safeL, safeC, safeG, safeP⟩ := h
        constructor <;> simp only [Running, Out, Live, upd_apply, decide_eq_true_eq] at * <;> grind [PC.epoch]
      · cases hs
        obtain ⟨outC, joinC, addL, addCs, garbS, garbND, garbDisj, pendS, pendND, pendDisj, garbAll, freedS, freedND, safe,
          safeL, safeC, safeG, safeP⟩ := h
        clear hA
        constructor <;> simp only [Running, Out, Live, upd_apply, decide_eq_true_eq] at * <;> grind [PC.epoch]
    · cases hs
  | shutdown =>
    simp only [step, step', guardR] at hs
    split at hs
    · rename_i hif
      simp only [Bool.and_eq_true, decide_eq_true_eq] at hif
      have hgi := hif.1.1
      clear hif hA
      cases hs
      obtain ⟨outC, joinC, addL, addCs, garbS, garbND, garbDisj, pendS, pendND, pendDisj, garbAll, freedS, freedND, safe,
        safeL, safeC, safeG, safeP⟩ := h
      constructor <;> simp only [Running, Out, Live, upd_apply, decide_eq_true_eq] at * <;> grind [PC.epoch, GPC.taken]
    · cases hs
  | gc =>
    have hb : ∀ t e, (s.pc t).epoch = some e → e < s.n := fun t e he => hA.bnd t e (counts_of_epoch he)
    have hact := hA.act
    have hon := hA.onH
    have hbA := hA.bndA
    have hbC := hA.bndC
    simp only [step, step', gcStep, touch] at hs
    split at hs
    · rename_i hg
      split at hs
      · cases hs
      · cases hs
        exact invB_gc h (by rw [hg]; rfl) rfl rfl rfl rfl rfl rfl rfl rfl rfl rfl
    · rename_i hg
      split at hs
      · cases hs
        exact invB_gc h (by rw [hg]; rfl) (by simp only; split <;> rfl) rfl rfl rfl rfl rfl rfl rfl rfl rfl
      · cases hs
        exact invB_gc h (by rw [hg]; rfl) rfl rfl rfl rfl rfl rfl rfl rfl rfl rfl
    · rename_i hg
      split at hs
      · cases hs
      split at hs
      · cases hs
      split at hs
      · cases hs
        exact invB_gc h (by rw [hg]; rfl) (by simp only; split <;> rfl) rfl rfl rfl rfl rfl rfl rfl rfl rfl
      · cases hs
        exact invB_gc h (by rw [hg]; rfl) rfl rfl rfl rfl rfl rfl rfl rfl rfl rfl
    · rename_i hg
      split at hs
      · cases hs
      · cases hs
        exact invB_gc h (by rw [hg]; rfl) (by simp only; split <;> rfl) rfl rfl rfl rfl rfl rfl rfl rfl rfl
    · rename_i hg
      split at hs
      · cases hs
      · cases hs
        exact invB_gc h (by rw [hg]; rfl) (by simp only; split <;> rfl) rfl rfl rfl rfl rfl rfl rfl rfl rfl
    · rename_i hg
      split at hs
      · cases hs
      cases hs
      exact invB_glist hA h hg rfl rfl rfl rfl rfl rfl rfl rfl rfl rfl
    · rename_i hg
      cases hs
      exact invB_freeNil hA h hg rfl rfl rfl rfl rfl rfl rfl rfl rfl rfl
    · rename_i o l hg
      cases hs
      exact invB_freeCons hA h hg rfl rfl rfl rfl rfl rfl rfl rfl rfl rfl
    · rename_i hg
      split at hs
      · cases hs
      cases hs
      exact invB_del hA h hg rfl rfl rfl rfl rfl rfl rfl rfl rfl rfl
    · rename_i hg
      cases hs
      exact invB_create hA h hg rfl rfl rfl rfl rfl rfl rfl rfl rfl rfl
    · cases hs

end OldEpoch
end BwTree
