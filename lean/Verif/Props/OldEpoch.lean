import Verif.Proofs.OldEpoch

/-!
  ### C33 – the counting epoch manager (`USE_OLD_EPOCH`)

  `run N init as = .ok s`: the interleaving `as` of steps of `N` worker threads and the cleaner thread leads to `s` and no
  step touched a deleted epoch node. `N` is at most MAX_THREAD_COUNT = 2^31 - 1.
-/

set_option linter.unusedSimpArgs false
set_option linter.unusedVariables false

namespace BwTree
namespace OldEpoch

open GC (Status upd)

theorem run_append {N : Nat} {s s' : State} {as bs : List Act} (h : run N s (as ++ bs) = .ok s') :
    ∃ s1, run N s as = .ok s1 ∧ run N s1 bs = .ok s' := by
  induction as generalizing s with
  | nil => exact ⟨s, rfl, h⟩
  | cons a as ih =>
    simp only [List.cons_append, run] at h ⊢
    split at h
    · exact ih h
    · rename_i r hr
      exact absurd h (hr s')

theorem run_cons {N : Nat} {s s' : State} {a : Act} {as : List Act} (h : run N s (a :: as) = .ok s') :
    ∃ s1, step N s a = .ok s1 ∧ run N s1 as = .ok s' := by
  simp only [run] at h
  split at h
  · rename_i s1 h1; exact ⟨s1, h1, h⟩
  · rename_i r hr; exact absurd h (hr s')

theorem inv_run {N : Nat} (hN : (N : Int) ≤ MAXT) {s s' : State} {as : List Act} (h : run N s as = .ok s') (hA : InvA N s)
    (hB : InvB s) : InvA N s' ∧ InvB s' := by
  induction as generalizing s with
  | nil => cases h; exact ⟨hA, hB⟩
  | cons a as ih =>
    obtain ⟨s1, h1, h2⟩ := run_cons h
    exact ih h2 (invA_step hN hA h1) (invB_step hA hB h1)

theorem clock_step {N : Nat} {s s' : State} {a : Act} (hs : step N s a = .ok s') : s'.clock = s.clock + 1 := by
  cases a <;> simp only [step, step', gcStep, guardR, touch] at hs <;> (try split at hs) <;> (try split at hs) <;>
    (try split at hs) <;> (try split at hs) <;> first | (cases hs; rfl) | cases hs

theorem clock_run {N : Nat} {s s' : State} {as : List Act} (h : run N s as = .ok s') : s.clock ≤ s'.clock := by
  induction as generalizing s with
  | nil => cases h; exact Nat.le_refl _
  | cons a as ih =>
    obtain ⟨s1, h1, h2⟩ := run_cons h
    have := clock_step h1; have := ih h2; omega

theorem running_step {N : Nat} {s s' : State} {a : Act} {t : Nat} (hs : step N s a = .ok s') (hr : Running s t)
    (ha : a ≠ .leave t) : Running s' t ∧ s'.joinT t = s.joinT t := by
  cases a <;> simp only [step, step', gcStep, guardR, touch] at hs <;> (try split at hs) <;> (try split at hs) <;>
    (try split at hs) <;> (try split at hs) <;>
    first
    | (cases hs; simp only [Running, upd] at *; grind [PC.epoch])
    | cases hs

theorem running_run {N : Nat} {s s' : State} {as : List Act} {t : Nat} (h : run N s as = .ok s') (hr : Running s t)
    (ha : Act.leave t ∉ as) : Running s' t ∧ s'.joinT t = s.joinT t := by
  induction as generalizing s with
  | nil => cases h; exact ⟨hr, rfl⟩
  | cons a as ih =>
    obtain ⟨s1, h1, h2⟩ := run_cons h
    simp only [List.mem_cons, not_or] at ha
    obtain ⟨h3, h4⟩ := running_step h1 hr (fun h => ha.1 h.symm)
    obtain ⟨h5, h6⟩ := ih h2 h3 ha.2
    exact ⟨h5, h6.trans h4⟩

theorem out_step {N : Nat} {s s' : State} {a : Act} {o : Nat} (hB : InvB s) (hs : step N s a = .ok s') (ho : Out s o) :
    Out s' o ∧ s'.outT o = s.outT o := by
  have h1 := hB.addCs
  have h2 := hB.pendS
  clear hB
  cases a <;> simp only [step, step', gcStep, guardR, touch] at hs <;> (try split at hs) <;> (try split at hs) <;>
    (try split at hs) <;> (try split at hs) <;>
    first
    | (cases hs; simp only [Out, upd] at *; grind)
    | cases hs

theorem out_run {N : Nat} (hN : (N : Int) ≤ MAXT) {s s' : State} {as : List Act} {o : Nat} (h : run N s as = .ok s')
    (hA : InvA N s) (hB : InvB s) (ho : Out s o) : Out s' o ∧ s'.outT o = s.outT o := by
  induction as generalizing s with
  | nil => cases h; exact ⟨ho, rfl⟩
  | cons a as ih =>
    obtain ⟨s1, h1, h2⟩ := run_cons h
    obtain ⟨h3, h4⟩ := out_step hB h1 ho
    obtain ⟨h5, h6⟩ := ih h2 (invA_step hN hA h1) (invB_step hA hB h1) h3
    exact ⟨h5, h6.trans h4⟩

/-- **C33 (partial).** Thread `t` is inside an operation in state `s1`; later some thread makes `o` unreachable; as long as
`t` has not left its operation `o` is not freed, whatever all threads and the cleaner do. Missing for the full claim: the
execution must not contain an access to a deleted epoch node, and JoinEpoch can make one (`C33_join_race`). -/
theorem C33_no_early_free_partial (N t u o : Nat) (hN : (N : Int) ≤ MAXT) {pre mid post : List Act} {s1 s2 s3 s4 : State}
    (h1 : run N init pre = .ok s1) (hr : Running s1 t) (h2 : run N s1 mid = .ok s2)
    (h3 : step N s2 (.unlink u o) = .ok s3) (h4 : run N s3 post = .ok s4) (hstay : Act.leave t ∉ mid ++ post) :
    o ∉ s4.freed := by
  simp only [List.mem_append, not_or] at hstay
  obtain ⟨a1, b1⟩ := inv_run hN h1 (invA_init N) invB_init
  obtain ⟨a2, b2⟩ := inv_run hN h2 a1 b1
  have a3 := invA_step hN a2 h3
  have b3 := invB_step a2 b2 h3
  obtain ⟨a4, b4⟩ := inv_run hN h4 a3 b3
  obtain ⟨r2, j2⟩ := running_run h2 hr hstay.1
  obtain ⟨r3, j3⟩ := running_step h3 r2 (by simp)
  obtain ⟨r4, j4⟩ := running_run h4 r3 hstay.2
  have hu : Out s3 o ∧ s3.outT o = s2.clock + 1 := by
    simp only [step, step', guardR] at h3
    split at h3
    · split at h3
      · cases h3; simp [Out, upd]
      · cases h3
    · cases h3
  obtain ⟨o4, t4⟩ := out_run hN h4 a3 b3 hu.1
  have := b2.joinC t
  rw [b4.freedS]
  exact b4.safe t o r4 o4 (by omega)

/-- **C33.** No object is freed twice. -/
theorem C33_freed_once (N : Nat) (hN : (N : Int) ≤ MAXT) {as : List Act} {s : State} (h : run N init as = .ok s) :
    s.freed.Nodup := (inv_run hN h (invA_init N) invB_init).2.freedND

/-- **C33.** Only objects handed to AddGarbageNode are freed: an object in use (reachable, or unlinked and still owned by a
thread) is not in the log of freed objects. -/
theorem C33_freed_retired (N : Nat) (hN : (N : Int) ≤ MAXT) {as : List Act} {s : State} (h : run N init as = .ok s) (o : Nat)
    (ho : s.st o = .linked ∨ ∃ u, s.st o = .owned u) : o ∉ s.freed := by
  rw [(inv_run hN h (invA_init N) invB_init).2.freedS]
  rcases ho with h | ⟨u, h⟩ <;> rw [h] <;> simp

/-- The assertion in ClearEpoch (8387) never fails. -/
theorem C33_no_crash (N : Nat) (hN : (N : Int) ≤ MAXT) {as : List Act} {s : State} (h : run N init as = .ok s) (a : Act) :
    step N s a ≠ .crash := by
  have hA := (inv_run hN h (invA_init N) invB_init).1
  intro hs
  cases a
  case gc =>
    simp only [step, step', gcStep, touch] at hs
    split at hs
    case h_3 hg =>
      split at hs
      · cases hs
      · rename_i hu
        simp only [not_or, Nat.not_lt, Nat.not_le] at hu
        split at hs
        · rename_i hneg
          have hg' : s.gc = .load := hg
          have hc := hA.cntE s.head hu.1 hu.2
          rw [hg'] at hc
          simp only [GPC.subbed, Bool.false_eq_true, false_and, if_false] at hc
          have := C_nonneg s.pc s.head N
          omega
        · split at hs <;> cases hs
    all_goals first | cases hs | (split at hs <;> cases hs)
  all_goals
    simp only [step, step', guardR, touch] at hs
    repeat' (first | cases hs | split at hs)

/-- **C33.** The only accesses to deleted epoch nodes are the fetch_add of JoinEpoch and the fetch_sub that takes it back:
AddGarbageNode, LeaveEpoch and the cleaner never make one. -/
theorem C33_ub_only_join (N : Nat) (hN : (N : Int) ≤ MAXT) {as : List Act} {s : State} (h : run N init as = .ok s) (a : Act)
    (hs : step N s a = .ub) :
    ∃ t e, e < s.head ∧ ((a = .joinAdd t ∧ s.pc t = .joinAdd e) ∨ (a = .joinUndo t ∧ s.pc t = .joinUndo e)) := by
  have hA := (inv_run hN h (invA_init N) invB_init).1
  cases a with
  | joinAdd t =>
    simp only [step, step', touch] at hs
    split at hs
    · rename_i e hpc
      have hpc' : s.pc t = .joinAdd e := hpc
      have := hA.bndJ t e hpc'
      split at hs
      · rename_i hu
        exact ⟨t, e, by omega, Or.inl ⟨rfl, hpc'⟩⟩
      · split at hs <;> cases hs
    · cases hs
  | joinUndo t =>
    simp only [step, step', touch] at hs
    split at hs
    · rename_i e hpc
      have hpc' : s.pc t = .joinUndo e := hpc
      have := hA.bnd t e (by rw [hpc']; simp [PC.counts])
      split at hs
      · rename_i hu
        exact ⟨t, e, by omega, Or.inr ⟨rfl, hpc'⟩⟩
      · cases hs
    · cases hs
  | addLoad t =>
    simp only [step, step', touch] at hs
    split at hs
    · rename_i e o c hpc
      have hpc' : s.pc t = .addLoad e o c := hpc
      have h1 := hA.bndA t e o c hpc'
      have h2 := hA.act t e (by rw [hpc']; rfl)
      split at hs
      · rename_i hu; omega
      · cases hs
    · cases hs
  | addCas t =>
    simp only [step, step', touch] at hs
    split at hs
    · rename_i e o c l hpc
      have hpc' : s.pc t = .addCas e o c l := hpc
      have h1 := hA.bndC t e o c l hpc'
      have h2 := hA.act t e (by rw [hpc']; rfl)
      split at hs
      · rename_i hu; omega
      · split at hs <;> cases hs
    · cases hs
  | leave t =>
    simp only [step, step', touch] at hs
    split at hs
    · rename_i e hpc
      have hpc' : s.pc t = .active e := hpc
      have h1 := hA.bnd t e (by rw [hpc']; simp [PC.counts])
      have h2 := hA.act t e (by rw [hpc']; rfl)
      split at hs
      · rename_i hu; omega
      · cases hs
    · cases hs
  | gc =>
    have hon := hA.onH
    simp only [step, step', gcStep, touch] at hs
    split at hs
    all_goals (rename_i hg)
    all_goals first
      | (cases hs; done)
      | (have hg' : s.gc = _ := hg
         rw [hg'] at hon
         repeat' (first | (cases hs; done) | split at hs)
         all_goals (rename_i hu; have := hon rfl; omega))
  | joinRead t => simp only [step, step', guardR] at hs; split at hs <;> cases hs
  | link t o => simp only [step, step', guardR] at hs; repeat' (first | cases hs | split at hs)
  | make t o => simp only [step, step', guardR] at hs; repeat' (first | cases hs | split at hs)
  | unlink t o => simp only [step, step', guardR] at hs; repeat' (first | cases hs | split at hs)
  | addRead t o => simp only [step, step', guardR] at hs; repeat' (first | cases hs | split at hs)
  | shutdown => simp only [step, step', guardR] at hs; split at hs <;> cases hs

/-- **C33 does not hold without the restriction**: JoinEpoch reads `current_epoch_p`, the cleaner creates the next epoch and,
one round later, deletes the one that was read; the fetch_add then hits freed memory. One worker thread is enough. -/
theorem C33_join_race : ∃ as, run 1 init as = .ub :=
  ⟨[.joinRead 0, .gc, .gc, .gc, .gc, .gc, .gc, .gc, .gc, .gc, .gc, .joinAdd 0], by rfl⟩

/-- The second window: the thread got a negative count and is about to take its increment back when the node is deleted. -/
theorem C33_undo_race : ∃ as, run 1 init as = .ub ∧ Act.joinUndo 0 ∈ as :=
  ⟨[.joinRead 0, .gc, .gc, .gc, .gc, .gc, .gc, .gc, .joinAdd 0, .gc, .gc, .gc, .joinUndo 0], by rfl, by simp⟩

/-! #### If reading the current epoch and joining it were one step -/

/-- Steps in which JoinEpoch's two accesses are not separated. -/
inductive MAct where
  | join (t : Nat)
  | other (a : Act)

def MAct.ok : MAct → Prop
  | .join _ => True
  | .other (.joinRead _) => False
  | .other (.joinAdd _) => False
  | .other (.joinUndo _) => False
  | .other _ => True

def MAct.expand : MAct → List Act
  | .join t => [.joinRead t, .joinAdd t]
  | .other a => [a]

/-- No thread is between the accesses of JoinEpoch. -/
def Settled (s : State) : Prop := ∀ t e, s.pc t ≠ .joinAdd e ∧ s.pc t ≠ .joinUndo e

theorem settled_step {N : Nat} {s s' : State} {a : Act} (hS : Settled s) (ha : (MAct.other a).ok)
    (hs : step N s a = .ok s') : Settled s' := by
  simp only [Settled] at *
  cases a <;> simp only [MAct.ok] at ha <;> simp only [step, step', gcStep, guardR, touch] at hs <;> (try split at hs) <;>
    (try split at hs) <;> (try split at hs) <;> (try split at hs) <;>
    first
    | (cases hs; simp only [upd] at *; grind)
    | cases hs

/-- A join without interruption succeeds. -/
theorem join_atomic {N t : Nat} {s s1 : State} (hA : InvA N s) (h : step N s (.joinRead t) = .ok s1) :
    ∃ s2, step N s1 (.joinAdd t) = .ok s2 ∧ s2.pc = upd s1.pc t (.active (s.n - 1)) := by
  simp only [step, step', guardR] at h
  split at h
  · rename_i hif
    simp only [Bool.and_eq_true, decide_eq_true_eq, Bool.not_eq_true'] at hif
    cases h
    have h1 := hA.headn hif.2
    have h2 := hA.cntE (s.n - 1) (by omega) (by omega)
    have h3 := C_nonneg s.pc (s.n - 1) N
    rw [if_neg] at h2
    · have hpc : upd s.pc t (PC.joinAdd (s.n - 1)) t = .joinAdd (s.n - 1) := by simp [upd]
      simp only [step, step', touch, hpc]
      rw [if_neg (by omega), if_neg (by omega)]
      exact ⟨_, rfl, rfl⟩
    · rintro ⟨h4, h5⟩
      have h6 : s.gc.onHead = true := by
        revert h4; cases s.gc <;> simp [GPC.subbed, GPC.onHead]
      have := (hA.onH h6).2 hif.2
      omega
  · cases h

/-- **C33 with an uninterrupted JoinEpoch**: then no execution touches a deleted epoch node, so the restriction in
`C33_no_early_free_partial` disappears. (The code does not provide this.) -/
theorem C33_atomic_join (N : Nat) (hN : (N : Int) ≤ MAXT) (ms : List MAct) (hok : ∀ m ∈ ms, m.ok) :
    run N init (ms.flatMap MAct.expand) ≠ .ub := by
  suffices h : ∀ (ms : List MAct) (s : State) (as : List Act), (∀ m ∈ ms, m.ok) → run N init as = .ok s → Settled s →
      run N s (ms.flatMap MAct.expand) ≠ .ub from
    h ms init [] hok rfl (fun t e => by simp [init])
  intro ms
  induction ms with
  | nil => intro s as _ _ _ h; simp [run] at h
  | cons m ms ih =>
    intro s as hok hr hS hub
    have hA := (inv_run hN hr (invA_init N) invB_init).1
    have hrun : ∀ (as bs : List Act) (s1 s2 s3 : State), run N s1 as = .ok s2 → run N s2 bs = .ok s3 →
        run N s1 (as ++ bs) = .ok s3 := by
      intro as
      induction as with
      | nil => intro bs s1 s2 s3 h1 h2; cases h1; exact h2
      | cons a as ih =>
        intro bs s1 s2 s3 h1 h2
        obtain ⟨s4, h3, h4⟩ := run_cons h1
        simp only [List.cons_append, run, h3]
        exact ih bs s4 s2 s3 h4 h2
    have hms : ∀ m ∈ ms, m.ok := fun m hm => hok m (List.mem_cons_of_mem _ hm)
    cases m with
    | join t =>
      simp only [List.flatMap_cons, MAct.expand, List.cons_append, List.nil_append, run] at hub
      cases h1 : step N s (.joinRead t) with
      | ub =>
        obtain ⟨t', e, _, h2⟩ := C33_ub_only_join N hN hr _ h1
        rcases h2 with h2 | h2 <;> cases h2.1
      | crash => rw [h1] at hub; cases hub
      | off => rw [h1] at hub; cases hub
      | ok s1 =>
        rw [h1] at hub
        obtain ⟨s2, h2, h3⟩ := join_atomic hA h1
        simp only [h2] at hub
        refine ih s2 (as ++ [.joinRead t, .joinAdd t]) hms (hrun _ _ _ _ _ hr (by simp only [run, h1, h2])) ?_ hub
        intro u e
        rw [h3]
        have hp1 : s1.pc = upd s.pc t (.joinAdd (s.n - 1)) := by
          simp only [step, step', guardR] at h1
          split at h1
          · cases h1; rfl
          · cases h1
        rw [hp1]
        simp only [upd]
        split
        · simp
        · exact hS u e
    | other a =>
      have ha := hok _ (List.mem_cons_self ..)
      simp only [List.flatMap_cons, MAct.expand, List.cons_append, List.nil_append, run] at hub
      cases h1 : step N s a with
      | ub =>
        obtain ⟨t', e, _, h2⟩ := C33_ub_only_join N hN hr _ h1
        rcases h2 with h2 | h2
        · rw [h2.1] at ha; exact ha
        · rw [h2.1] at ha; exact ha
      | crash => rw [h1] at hub; cases hub
      | off => rw [h1] at hub; cases hub
      | ok s1 =>
        rw [h1] at hub
        refine ih s1 (as ++ [a]) hms (hrun _ _ _ _ _ hr (by simp only [run, h1])) (settled_step hS ha h1) hub

/-! #### Destruction -/

/-- When the destructor's ClearEpoch returns, every epoch node is deleted. -/
structure InvD (s : State) : Prop where
  done : s.gc = .done → s.head = s.n
  noBack : s.down = true → s.gc ≠ .addBack

theorem invD_step {N : Nat} {s s' : State} {a : Act} (hA : InvA N s) (h : InvD s) (hs : step N s a = .ok s') : InvD s' := by
  have hdn := hA.gcDone
  have hon := hA.onH
  have hcz : s.down = true → s.gc.onHead = true → s.gc.subbed = false → s.cnt s.head = 0 := by
    intro hd h1 h2
    rw [hA.cntE s.head (Nat.le_refl _) (hon h1).1, h2, C_none _ _ _ (fun t => by rw [hA.downIdle hd t]; rfl)]
    simp
  have hdi : s.down = true → ∀ t, s.pc t = .idle := hA.downIdle
  clear hA
  obtain ⟨hd, hb⟩ := h
  cases a <;> simp only [step, step', gcStep, guardR, touch, atEnd] at hs <;> (try split at hs) <;> (try split at hs) <;>
    (try split at hs) <;> (try split at hs) <;>
    first
    | (cases hs; constructor <;> simp only [upd] at * <;> grind [GPC.onHead, GPC.subbed])
    | cases hs

theorem invD_run {N : Nat} (hN : (N : Int) ≤ MAXT) {s s' : State} {as : List Act} (h : run N s as = .ok s') (hA : InvA N s)
    (hD : InvD s) : InvD s' := by
  induction as generalizing s with
  | nil => cases h; exact hD
  | cons a as ih =>
    obtain ⟨s1, h1, h2⟩ := run_cons h
    exact ih h2 (invA_step hN hA h1) (invD_step hA hD h1)

/-- **C33, destruction.** When ~EpochManager has run ClearEpoch (no operation running), every object that was handed to
AddGarbageNode has been freed and every epoch node deleted: the forced second sweep (7955-7970) is never needed and the
assertion at 7973 holds. -/
theorem C33_destroy (N : Nat) (hN : (N : Int) ≤ MAXT) {as : List Act} {s : State} (h : run N init as = .ok s)
    (hg : s.gc = .done) : s.head = s.n ∧ ∀ o, s.st o ≠ .retired := by
  obtain ⟨hA, hB⟩ := inv_run hN h (invA_init N) invB_init
  have hD := invD_run hN h (invA_init N) ⟨by simp [init], by simp [init]⟩
  have hh := hD.done hg
  refine ⟨hh, fun o ho => ?_⟩
  rcases hB.garbAll o ho with ⟨c, h1, _⟩ | ⟨l, h1, _⟩
  · have h2 := h1.1; have h3 := h1.2.1; omega
  · rw [hg] at h1; cases h1

/-! #### Concrete executions -/

/-- Thread 0 retires object 7 while thread 1 is inside an operation; the cleaner keeps 7 until thread 1 leaves. -/
def demo : List Act :=
  [.joinRead 0, .joinAdd 0, .link 0 7, .joinRead 1, .joinAdd 1, .unlink 0 7, .addRead 0 7, .addLoad 0, .addCas 0, .leave 0,
   .gc, .gc, .gc, .gc, .gc, .gc, .gc]

def demoEnd : List Act := demo ++ [.leave 1, .gc, .gc, .gc, .gc, .gc, .gc, .gc, .gc]

def Res.view : Res → Option (List Nat × Nat × Nat)
  | .ok s => some (s.freed, s.head, s.n)
  | _ => none

/-- The hypotheses of `C33_no_early_free_partial` are met, and the object is freed once thread 1 has left. -/
example : (run 2 init demo).view = some ([], 0, 3) ∧ (run 2 init demoEnd).view = some ([7], 1, 3) := by
  constructor <;> rfl

/-- Destruction after that: the cleaner finishes its round, then the destructor deletes all epochs. -/
example : ∃ k m s, run 2 init (demoEnd ++ List.replicate k .gc ++ [.shutdown] ++ List.replicate m .gc) = .ok s ∧
    s.gc = .done ∧ s.freed = [7] ∧ s.head = s.n := ⟨8, 13, _, rfl, rfl, rfl, rfl⟩

end OldEpoch
end BwTree
