import Verif.Proofs.EpochTSO
import Verif.Props.EpochGC

/-!
# C55: reclamation on a machine with store buffers
-/

namespace BwTree
namespace GC

theorem tstep_cases {n T : Nat} {s s' : TState} {a : TAct} (hs : tstep n T s a = some s') :
    (∃ b g', a = .act b ∧ step n s.g b = some g' ∧ s' = { s with g := g' }) ∨
    (s'.g.st = s.g.st ∧ s'.g.outT = s.g.outT ∧ s'.g.clock = s.g.clock + 1 ∧
      ∀ t, Running s.g t → a ≠ .act (.leaveRead t) → Running s'.g t ∧ s'.g.joinT t = s.g.joinT t) := by
  cases a with
  | flush t =>
    right
    simp only [tstep, tstep'] at hs
    split at hs
    · cases hs
    · cases hs; exact ⟨rfl, rfl, rfl, fun t ht _ => ⟨ht, rfl⟩⟩
    · cases hs; exact ⟨rfl, rfl, rfl, fun t ht _ => ⟨ht, rfl⟩⟩
  | act a =>
    cases a with
    | link t o =>
      left
      simp only [tstep, tstep'] at hs
      split at hs
      · obtain ⟨g', h1, rfl⟩ := Option.map_eq_some_iff.1 hs
        exact ⟨_, g', rfl, h1, rfl⟩
      · cases hs
    | unlink t o =>
      left
      simp only [tstep, tstep'] at hs
      split at hs
      · obtain ⟨g', h1, rfl⟩ := Option.map_eq_some_iff.1 hs
        exact ⟨_, g', rfl, h1, rfl⟩
      · cases hs
    | make t o => obtain ⟨g', h1, rfl⟩ := Option.map_eq_some_iff.1 hs; exact .inl ⟨_, g', rfl, h1, rfl⟩
    | addLink t => obtain ⟨g', h1, rfl⟩ := Option.map_eq_some_iff.1 hs; exact .inl ⟨_, g', rfl, h1, rfl⟩
    | gcFree t => obtain ⟨g', h1, rfl⟩ := Option.map_eq_some_iff.1 hs; exact .inl ⟨_, g', rfl, h1, rfl⟩
    | unregister t => simp only [tstep, tstep'] at hs; cases hs
    | joinRead t | joinStore t | addRead t o | gcRead t | leaveRead t | leaveStore t | tickRead t | tickWrite t =>
      right
      simp only [tstep, tstep'] at hs
      (repeat' split at hs) <;>
        first
        | (obtain rfl := Option.some.inj hs; refine ⟨rfl, rfl, rfl, ?_⟩; simp only [Running, upd] at *; grind)
        | cases hs

theorem tout_step {n T : Nat} {Z : Nat → Prop} {s s' : TState} {a : TAct} {o : Nat} (hI : TInvZ n T Z s) (hs : tstep n T s a = some s') (ho : Out s.g o) :
    Out s'.g o ∧ s'.g.outT o = s.g.outT o := by
  rcases tstep_cases hs with ⟨b, g', rfl, h1, rfl⟩ | ⟨h1, h2, _⟩
  · have hG := hI.2.G
    have hA := hI.2.A
    clear hs hI
    cases b <;> simp only [step, step'] at h1 <;> (try split at h1) <;> (try split at h1) <;> (try split at h1) <;>
      first
      | (obtain rfl := Option.some.inj h1; simp only [Out, upd] at *; grind)
      | cases h1
  · simp only [Out, h1, h2]; exact ⟨ho, trivial⟩

theorem tclock_step {n T : Nat} {s s' : TState} {a : TAct} (hs : tstep n T s a = some s') : s'.g.clock = s.g.clock + 1 := by
  rcases tstep_cases hs with ⟨b, g', rfl, h1, rfl⟩ | ⟨_, _, h, _⟩
  · exact clock_step h1
  · exact h

theorem trunning_step {n T : Nat} {s s' : TState} {a : TAct} {t : Nat} (hs : tstep n T s a = some s') (hr : Running s.g t)
    (ha : a ≠ .act (.leaveRead t)) : Running s'.g t ∧ s'.g.joinT t = s.g.joinT t := by
  rcases tstep_cases hs with ⟨b, g', rfl, h1, rfl⟩ | ⟨_, _, _, h⟩
  · exact running_step h1 hr fun e => ha (by rw [e])
  · exact h t hr ha

theorem trun_append (n T : Nat) : ∀ (as bs : List TAct) (s : TState), trun n T s (as ++ bs) = (trun n T s as).bind fun s' => trun n T s' bs
  | [], _, _ => rfl
  | a :: as, bs, s => by
    simp only [List.cons_append, trun]
    cases tstep n T s a with
    | none => rfl
    | some s1 => exact trun_append n T as bs s1

theorem tkeep_run {n T t : Nat} (hT : n ≤ T) : ∀ {as : List TAct} {s s' : TState}, trun n T s as = some s' → TInv n T s → Running s.g t →
    TAct.act (.leaveRead t) ∉ as → Running s'.g t ∧ s'.g.joinT t = s.g.joinT t ∧ s.g.clock ≤ s'.g.clock ∧ ∀ o, Out s.g o → Out s'.g o ∧ s'.g.outT o = s.g.outT o
  | [], s, s', e, _, hr, _ => by cases e; exact ⟨hr, rfl, Nat.le_refl _, fun o ho => ⟨ho, rfl⟩⟩
  | a :: as, s, s', e, hI, hr, hl => by
    simp only [trun, Option.bind_eq_some_iff] at e
    obtain ⟨s1, h1, h2⟩ := e
    rw [List.mem_cons, not_or] at hl
    obtain ⟨r1, r2⟩ := trunning_step h1 hr (fun x => hl.1 x.symm)
    obtain ⟨q1, q2, q3, q4⟩ := tkeep_run hT h2 (hI.step hT h1) r1 hl.2
    have := tclock_step h1
    refine ⟨q1, q2.trans r2, by omega, fun o ho => ?_⟩
    obtain ⟨o1, o2⟩ := tout_step hI h1 ho
    obtain ⟨o3, o4⟩ := q4 o o1
    exact ⟨o3, o4.trans o2⟩

/-- **C55.** The claim of C20 on a machine with store buffers: if an operation of thread `t` started, later some thread made `o` unreachable,
and `t` has not left its operation, then `o` has not been freed, however long the stores to the epoch counters stay in the buffers. The
thread `T` that advances the epoch is not one of the `n` threads that use the tree. Missing for the full property: a thread that does both,
for which it fails (`C55_ticker_operates`); UnregisterThread, with
which it fails (`C55_rejoin`) unless no unregistered thread starts again (`C55_unregister_partial`). -/
theorem C55_no_early_free_partial (n T t u o : Nat) (hT : n ≤ T) (pre mid post : List TAct) {s : TState}
    (hrun : trun n T tinit (pre ++ .act (.joinStore t) :: mid ++ .act (.unlink u o) :: post) = some s)
    (hstay : TAct.act (.leaveRead t) ∉ mid ++ post) : o ∉ s.g.freed := by
  rw [List.append_assoc, trun_append, Option.bind_eq_some_iff] at hrun
  obtain ⟨s1, r1, r2⟩ := hrun
  have i1 := (tinv_init n T).run hT r1
  simp only [List.cons_append, trun, Option.bind_eq_some_iff] at r2
  obtain ⟨s2, hs, r3⟩ := r2
  have i2 := i1.step hT hs
  rw [trun_append, Option.bind_eq_some_iff] at r3
  obtain ⟨s3, r4, r5⟩ := r3
  have i3 := i2.run hT r4
  have hj : Running s2.g t ∧ s2.g.joinT t = s1.g.clock + 1 ∧ s2.g.clock = s1.g.clock + 1 := by
    simp only [tstep, tstep'] at hs
    split at hs
    · obtain rfl := Option.some.inj hs
      simp [Running, upd]
    · cases hs
  rw [List.mem_append, not_or] at hstay
  obtain ⟨k1, k2, k3, _⟩ := tkeep_run hT r4 i2 hj.1 hstay.1
  simp only [trun, Option.bind_eq_some_iff] at r5
  obtain ⟨s4, hs', r6⟩ := r5
  have i4 := i3.step hT hs'
  obtain ⟨l1, l2⟩ := trunning_step hs' k1 (by simp)
  have hu : Out s4.g o ∧ s4.g.outT o = s3.g.clock + 1 := by
    simp only [tstep, tstep'] at hs'
    split at hs'
    · obtain ⟨g', h1, rfl⟩ := Option.map_eq_some_iff.1 hs'
      simp only [step'] at h1
      split at h1
      · obtain rfl := Option.some.inj h1
        simp [Out, upd]
      · cases h1
    · cases hs'
  obtain ⟨m1, m2, _, m4⟩ := tkeep_run hT r6 i4 l1 hstay.2
  have i5 := i4.run hT r6
  intro hf
  have h1 := (i5.2.F o hf).2 t m1
  have h2 := (m4 o hu.1).2
  omega

/-- With an empty buffer, steps of thread `t` that store nothing are those of the machine without buffers. -/
theorem trun_empty {n T t : Nat} : ∀ (as : List Act) {g g' : State} {buf : Nat → List Store}, buf t = [] →
    (∀ a ∈ as, (∃ o, a = Act.make t o) ∨ (∃ o, a = Act.addRead t o) ∨ a = Act.addLink t ∨ a = Act.gcRead t ∨ a = Act.gcFree t) →
    run n g as = some g' → trun n T ⟨g, buf⟩ (as.map TAct.act) = some ⟨g', buf⟩
  | [], _, _, _, _, _, e => by cases e; rfl
  | a :: as, g, g', buf, hb, ha, e => by
    simp only [run, Option.bind_eq_some_iff] at e
    obtain ⟨g1, h1, h2⟩ := e
    have : tstep n T ⟨g, buf⟩ (.act a) = some ⟨g1, buf⟩ := by
      rcases ha a List.mem_cons_self with ⟨o, rfl⟩ | ⟨o, rfl⟩ | rfl | rfl | rfl
      · exact Option.map_eq_some_iff.2 ⟨g1, h1, rfl⟩
      · simp only [step, step'] at h1
        simp only [tstep, tstep', hb, look]
        split at h1
        · next hc => cases h1; rw [if_pos hc]
        · cases h1
      · exact Option.map_eq_some_iff.2 ⟨g1, h1, rfl⟩
      · simp only [step, step'] at h1
        simp only [tstep, tstep', hb, look]
        split at h1
        · next i m hc =>
          cases h1
          have : (if i = 0 then g.lae i else min (g.lae i) m) = if i = 0 then g.lae 0 else min (g.lae i) m := by
            split
            · next e => rw [e]
            · rfl
          simp only [hc, ite_self, this]
        · cases h1
      · exact Option.map_eq_some_iff.2 ⟨g1, h1, rfl⟩
    simp only [List.map_cons, trun, this, Option.bind_some]
    exact trun_empty as hb (fun x hx => ha x (List.mem_cons_of_mem _ hx)) h2

theorem fill_plain (t : Nat) : ∀ (k b : Nat), ∀ a ∈ fill t b k,
    (∃ o, a = Act.make t o) ∨ (∃ o, a = Act.addRead t o) ∨ a = Act.addLink t ∨ a = Act.gcRead t ∨ a = Act.gcFree t
  | 0, _, a, h => by simp [fill] at h
  | k + 1, b, a, h => by
    simp only [fill, List.mem_cons] at h
    rcases h with rfl | rfl | rfl | h
    · exact .inl ⟨_, rfl⟩
    · exact .inr (.inl ⟨_, rfl⟩)
    · exact .inr (.inr (.inl rfl))
    · exact fill_plain t k (b + 1) a h

/-- Prefix for `C55_ticker_operates`: thread 0 advances the epoch to 1 and starts an operation, which sees epoch 1 in its own buffer; before
the buffer drains, thread 1 unlinks object 0 and retires it in epoch 0. -/
def bufPre : List TAct :=
  [.act (.tickRead 0), .act (.tickWrite 0), .act (.joinRead 0), .act (.joinStore 0), .act (.joinRead 1), .act (.joinStore 1), .flush 1, .act (.link 1 0),
   .act (.unlink 1 0), .act (.addRead 1 0), .act (.addLink 1), .flush 0, .flush 0, .act (.leaveRead 1), .act (.leaveStore 1), .flush 1,
   .act (.joinRead 1), .act (.joinStore 1), .flush 1]

/-- **C20 fails on such a machine** if the thread that advances the epoch also uses the tree: the object is freed while thread 0, whose operation
started before the object was unlinked, is still running. There is one caller of IncreaseEpoch and nobody is unregistered, so the contract
of C20 is respected. -/
theorem C55_ticker_operates : ∃ as s, trun 2 0 tinit as = some s ∧ Running s.g 0 ∧ Out s.g 0 ∧ s.g.joinT 0 < s.g.outT 0 ∧ 0 ∈ s.g.freed := by
  obtain ⟨s1, h1, hb, hpc, hpc0, hlae0, hlae1, hcnt, hgarb, hst, hst0, hfr, hj, ho⟩ : ∃ s1, trun 2 0 tinit bufPre = some s1 ∧ (∀ t, s1.buf t = []) ∧
      s1.g.pc 1 = .active ∧ s1.g.pc 0 = .active ∧
      s1.g.lae 0 = 1 ∧ s1.g.lae 1 = 1 ∧ s1.g.cnt 1 = 1 ∧ s1.g.garb 1 = [(0, 0)] ∧ (∀ o, 1 ≤ o → s1.g.st o = .fresh) ∧
      s1.g.st 0 = .retired ∧ s1.g.freed = [] ∧ s1.g.joinT 0 = 4 ∧ s1.g.outT 0 = 9 := by
    refine ⟨_, rfl, ?_, rfl, rfl, rfl, rfl, rfl, rfl, ?_, rfl, rfl, rfl, rfl⟩
    · intro t
      simp only [upd, tinit]
      repeat' split
      all_goals first | rfl | simp_all
    · intro o ho
      have : o ≠ 0 := by omega
      simp [tinit, init, upd, this]
  obtain ⟨g2, h2, e1, e2, _, _, e5, e6, e7, ⟨l, e8⟩, e9, e10⟩ := fill_run 2 1 1023 1 s1.g hpc (by rw [hcnt]; decide) hst
  have hfresh := e10 1024 (by omega)
  have hpc2 : g2.pc 1 = .active := by rw [e1]; exact hpc
  have hpc20 : g2.pc 0 = .active := by rw [e1]; exact hpc0
  have hcnt2 : g2.cnt 1 = 1024 := by rw [e7, hcnt]
  have hl0 : g2.lae 0 = 1 := by rw [e2]; exact hlae0
  have hl1 : g2.lae 1 = 1 := by rw [e2]; exact hlae1
  have hg2 : g2.garb 1 = (0, 0) :: l := by rw [e8, hgarb]; rfl
  have hj2 : g2.joinT 0 = 4 := by rw [e6]; exact hj
  have ho2 : g2.outT 0 = 9 := by rw [(e9 0 (by omega)).2]; exact ho
  have h3 : ∃ g3, run 2 g2 lastSteps = some g3 ∧
      Running g3 0 ∧ Out g3 0 ∧ g3.joinT 0 < g3.outT 0 ∧ 0 ∈ g3.freed := by
    simp [lastSteps, run, step, step', hpc2, hpc20, hfresh, upd, hcnt2, THRESHOLD, hl0, hl1, hg2, Running, Out, hj2, ho2]
  obtain ⟨g3, h3, hf⟩ := h3
  refine ⟨bufPre ++ ((fill 1 1 1023).map .act ++ lastSteps.map .act), ⟨g3, s1.buf⟩, ?_, hf⟩
  rw [trun_append, h1, Option.bind_some, trun_append]
  have k1 : trun 2 0 s1 ((fill 1 1 1023).map .act) = some ⟨g2, s1.buf⟩ := trun_empty (fill 1 1 1023) (hb 1) (fill_plain 1 1023 1) h2
  rw [k1, Option.bind_some]
  exact trun_empty lastSteps (hb 1) (by simp [lastSteps]) h3

/-- Prefix for the next theorem: the epoch is advanced by a thread of its own (2). The store with which thread 0 enters stays in its buffer while thread 1
unlinks object 0; thread 0 then leaves, and enters again in a later epoch. -/
def bufOk : List TAct :=
  [.act (.joinRead 0), .act (.joinStore 0), .act (.joinRead 1), .act (.joinStore 1), .flush 1, .act (.link 1 0), .act (.tickRead 2), .act (.tickWrite 2),
   .act (.unlink 1 0), .act (.addRead 1 0), .act (.addLink 1), .flush 2, .flush 0, .act (.leaveRead 0), .act (.leaveStore 0), .flush 0,
   .act (.leaveRead 1), .act (.leaveStore 1), .flush 1, .act (.joinRead 1), .act (.joinStore 1), .flush 1, .act (.joinRead 0), .act (.joinStore 0), .flush 0]

/-- Non-vacuity: an execution that meets the hypotheses of `C55_no_early_free_partial` with a delayed store up to some point, and goes on until the object is
freed, which happens after the thread has left. -/
theorem C55_nonvacuous : ∃ as s, trun 2 2 tinit as = some s ∧ 0 ∈ s.g.freed ∧
    ∃ pre mid post rest, as = pre ++ .act (.joinStore 0) :: mid ++ .act (.unlink 1 0) :: post ++ .act (.leaveRead 0) :: rest ∧
      TAct.act (.leaveRead 0) ∉ mid ++ post ∧ TAct.flush 0 ∉ mid := by
  obtain ⟨s1, h1, hb, hpc, hpc0, hlae0, hlae1, hcnt, hgarb, hst, hst0, hfr⟩ : ∃ s1, trun 2 2 tinit bufOk = some s1 ∧ (∀ t, s1.buf t = []) ∧
      s1.g.pc 1 = .active ∧ s1.g.pc 0 = .active ∧
      s1.g.lae 0 = 1 ∧ s1.g.lae 1 = 1 ∧ s1.g.cnt 1 = 1 ∧ s1.g.garb 1 = [(0, 0)] ∧ (∀ o, 1 ≤ o → s1.g.st o = .fresh) ∧
      s1.g.st 0 = .retired ∧ s1.g.freed = [] := by
    refine ⟨_, rfl, ?_, rfl, rfl, rfl, rfl, rfl, rfl, ?_, rfl, rfl⟩
    · intro t
      simp only [upd, tinit]
      repeat' split
      all_goals first | rfl | simp_all
    · intro o ho
      have : o ≠ 0 := by omega
      simp [tinit, init, upd, this]
  obtain ⟨g2, h2, e1, e2, _, _, e5, e6, e7, ⟨l, e8⟩, e9, e10⟩ := fill_run 2 1 1023 1 s1.g hpc (by rw [hcnt]; decide) hst
  have hfresh := e10 1024 (by omega)
  have hpc2 : g2.pc 1 = .active := by rw [e1]; exact hpc
  have hcnt2 : g2.cnt 1 = 1024 := by rw [e7, hcnt]
  have hl0 : g2.lae 0 = 1 := by rw [e2]; exact hlae0
  have hl1 : g2.lae 1 = 1 := by rw [e2]; exact hlae1
  have hg2 : g2.garb 1 = (0, 0) :: l := by rw [e8, hgarb]; rfl
  have h3 : ∃ g3, run 2 g2 lastSteps = some g3 ∧ 0 ∈ g3.freed := by
    simp [lastSteps, run, step, step', hpc2, hfresh, upd, hcnt2, THRESHOLD, hl0, hl1, hg2]
  obtain ⟨g3, h3, hf⟩ := h3
  refine ⟨bufOk ++ ((fill 1 1 1023).map .act ++ lastSteps.map .act), ⟨g3, s1.buf⟩, ?_, hf,
    bufOk.take 1, (bufOk.drop 2).take 6, (bufOk.drop 9).take 4, bufOk.drop 14 ++ ((fill 1 1 1023).map .act ++ lastSteps.map .act), ?_, by decide, by decide⟩
  · rw [trun_append, h1, Option.bind_some, trun_append]
    have k1 : trun 2 2 s1 ((fill 1 1 1023).map .act) = some ⟨g2, s1.buf⟩ := trun_empty (fill 1 1 1023) (hb 1) (fill_plain 1 1023 1) h2
    rw [k1, Option.bind_some]
    exact trun_empty lastSteps (hb 1) (by simp [lastSteps]) h3
  · simp [bufOk]

/-- Without UnregisterThread, the executions are those above. -/
theorem urun_plain {n T : Nat} : ∀ (as : List TAct) (s : TState), (∀ t, TAct.act (.unregister t) ∉ as) → urun n T s as = trun n T s as
  | [], _, _ => rfl
  | a :: as, s, h => by
    have : ustep n T s a = tstep n T s a := by
      cases a with
      | flush t => rfl
      | act a => cases a <;> first | rfl | exact absurd List.mem_cons_self (h _)
    simp only [urun, trun, this]
    exact congrArg _ (funext fun s' => urun_plain as s' fun t ht => h t (List.mem_cons_of_mem _ ht))

theorem urun_append (n T : Nat) : ∀ (as bs : List TAct) (s : TState), urun n T s (as ++ bs) = (urun n T s as).bind fun s' => urun n T s' bs
  | [], _, _ => rfl
  | a :: as, bs, s => by
    simp only [List.cons_append, urun]
    cases ustep n T s a with
    | none => rfl
    | some s1 => exact urun_append n T as bs s1

/-- Prefix for `C55_rejoin`: thread 0 unregisters between operations, then starts another one. While the store of JoinEpoch is in its buffer, thread 1
unlinks object 0 and retires it; the epoch is advanced by a thread of its own (2). -/
def rejoinPre : List TAct :=
  [.act (.unregister 0), .flush 0, .act (.joinRead 0), .act (.joinStore 0), .act (.joinRead 1), .act (.joinStore 1), .flush 1, .act (.link 1 0),
   .act (.unlink 1 0), .act (.addRead 1 0), .act (.addLink 1), .act (.tickRead 2), .act (.tickWrite 2), .flush 2, .act (.leaveRead 1), .act (.leaveStore 1),
   .flush 1, .act (.joinRead 1), .act (.joinStore 1), .flush 1]

/-- **C20 fails on such a machine** also if a thread that has called UnregisterThread starts an operation again: the others still see that it takes no part, and
the object is freed while thread 0, whose operation started before the object was unlinked, is still running. The epoch is advanced by a thread that does nothing
else, and the thread is unregistered between operations, so the contract of C20 is respected. -/
theorem C55_rejoin : ∃ as s, urun 2 2 tinit as = some s ∧ Running s.g 0 ∧ Out s.g 0 ∧ s.g.joinT 0 < s.g.outT 0 ∧ 0 ∈ s.g.freed := by
  obtain ⟨s1, h1, hb, hpc, hpc0, hlae0, hlae1, hcnt, hgarb, hst, hst0, hfr, hj, ho⟩ : ∃ s1, urun 2 2 tinit rejoinPre = some s1 ∧ s1.buf 1 = [] ∧
      s1.g.pc 1 = .active ∧ s1.g.pc 0 = .active ∧
      s1.g.lae 0 = UMAX ∧ s1.g.lae 1 = 1 ∧ s1.g.cnt 1 = 1 ∧ s1.g.garb 1 = [(0, 0)] ∧ (∀ o, 1 ≤ o → s1.g.st o = .fresh) ∧
      s1.g.st 0 = .retired ∧ s1.g.freed = [] ∧ s1.g.joinT 0 = 4 ∧ s1.g.outT 0 = 9 := by
    refine ⟨_, rfl, rfl, rfl, rfl, rfl, rfl, rfl, rfl, ?_, rfl, rfl, rfl, rfl⟩
    intro o ho
    have : o ≠ 0 := by omega
    simp [tinit, init, upd, this]
  obtain ⟨g2, h2, e1, e2, _, _, e5, e6, e7, ⟨l, e8⟩, e9, e10⟩ := fill_run 2 1 1023 1 s1.g hpc (by rw [hcnt]; decide) hst
  have hfresh := e10 1024 (by omega)
  have hpc2 : g2.pc 1 = .active := by rw [e1]; exact hpc
  have hpc20 : g2.pc 0 = .active := by rw [e1]; exact hpc0
  have hcnt2 : g2.cnt 1 = 1024 := by rw [e7, hcnt]
  have hl0 : g2.lae 0 = UMAX := by rw [e2]; exact hlae0
  have hl1 : g2.lae 1 = 1 := by rw [e2]; exact hlae1
  have hg2 : g2.garb 1 = (0, 0) :: l := by rw [e8, hgarb]; rfl
  have hj2 : g2.joinT 0 = 4 := by rw [e6]; exact hj
  have ho2 : g2.outT 0 = 9 := by rw [(e9 0 (by omega)).2]; exact ho
  have h3 : ∃ g3, run 2 g2 lastSteps = some g3 ∧
      Running g3 0 ∧ Out g3 0 ∧ g3.joinT 0 < g3.outT 0 ∧ 0 ∈ g3.freed := by
    simp [lastSteps, run, step, step', hpc2, hpc20, hfresh, upd, hcnt2, THRESHOLD, hl0, hl1, hg2, Running, Out, hj2, ho2, UMAX]
  obtain ⟨g3, h3, hf⟩ := h3
  refine ⟨rejoinPre ++ ((fill 1 1 1023).map .act ++ lastSteps.map .act), ⟨g3, s1.buf⟩, ?_, hf⟩
  rw [urun_append, h1, Option.bind_some, urun_plain, trun_append]
  · have k1 : trun 2 2 s1 ((fill 1 1 1023).map .act) = some ⟨g2, s1.buf⟩ := trun_empty (fill 1 1 1023) hb (fill_plain 1 1023 1) h2
    rw [k1, Option.bind_some]
    exact trun_empty lastSteps hb (by simp [lastSteps]) h3
  · intro t ht
    rcases List.mem_append.1 ht with h | h
    · obtain ⟨a, ha, e⟩ := List.mem_map.1 h
      cases e
      have := fill_plain 1 1023 1 _ ha
      simp at this
    · simp [lastSteps] at h

/-- No thread starts an operation after it has called UnregisterThread. -/
def NoRejoin : List TAct → Prop
  | [] => True
  | a :: as => (∀ t, a = .act (.unregister t) → TAct.act (.joinRead t) ∉ as) ∧ NoRejoin as

theorem ustep_cases {n T : Nat} {s s' : TState} {a : TAct} (hs : ustep n T s a = some s') :
    ((∀ t, a ≠ .act (.unregister t)) ∧ tstep n T s a = some s') ∨ ∃ t, a = .act (.unregister t) ∧ t < n ∧ s.g.pc t = .idle ∧ s.L t ≤ UMAX ∧
      s' = { g := { s.g with clock := s.g.clock + 1 }, buf := upd s.buf t (s.buf t ++ [(false, UMAX)]) } := by
  cases a with
  | flush t => exact .inl ⟨fun _ h => (by cases h), hs⟩
  | act a =>
    cases a with
    | unregister t =>
      simp only [ustep] at hs
      split at hs
      · next hc => exact .inr ⟨t, rfl, hc.1, hc.2.1, hc.2.2, (Option.some.inj hs).symm⟩
      · cases hs
    | _ => exact .inl ⟨fun _ h => (by cases h), hs⟩

/-- The invariant and what it needs of the rest of the execution; a thread that does not leave stays in its operation. -/
theorem ukeep_run {n T : Nat} (hT : n ≤ T) (rest : List TAct) : ∀ {as : List TAct} {s s' : TState} {Z : Nat → Prop}, urun n T s as = some s' → TInvZ n T Z s →
    (∀ t, Z t → TAct.act (.joinRead t) ∉ as ++ rest) → NoRejoin (as ++ rest) →
    (∃ Z', TInvZ n T Z' s' ∧ (∀ t, Z' t → TAct.act (.joinRead t) ∉ rest)) ∧ NoRejoin rest ∧
    (∀ t, Running s.g t → TAct.act (.leaveRead t) ∉ as → Running s'.g t ∧ s'.g.joinT t = s.g.joinT t) ∧ s.g.clock ≤ s'.g.clock ∧
    ∀ o, Out s.g o → Out s'.g o ∧ s'.g.outT o = s.g.outT o
  | [], s, s', Z, e, hI, hz, hn => by
    cases e
    exact ⟨⟨Z, hI, hz⟩, hn, fun t hr _ => ⟨hr, rfl⟩, Nat.le_refl _, fun o ho => ⟨ho, rfl⟩⟩
  | a :: as, s, s', Z, e, hI, hz, hn => by
    simp only [urun, Option.bind_eq_some_iff] at e
    obtain ⟨s1, h1, h2⟩ := e
    rw [List.cons_append] at hn hz
    rcases ustep_cases h1 with ⟨_, h3⟩ | ⟨t, rfl, ht, hp, hv, rfl⟩
    · have hI1 := hI.step hT (fun t e hZ => hz t hZ (by rw [e]; exact List.mem_cons_self)) h3
      obtain ⟨q1, q2, q3, q4, q5⟩ := ukeep_run hT rest h2 hI1 (fun t hZ hm => hz t hZ (List.mem_cons_of_mem _ hm)) hn.2
      have := tclock_step h3
      refine ⟨q1, q2, fun t hr hl => ?_, by omega, fun o ho => ?_⟩
      · rw [List.mem_cons, not_or] at hl
        obtain ⟨r1, r2⟩ := trunning_step h3 hr (fun x => hl.1 x.symm)
        obtain ⟨r3, r4⟩ := q3 t r1 hl.2
        exact ⟨r3, r4.trans r2⟩
      · obtain ⟨o1, o2⟩ := tout_step hI h3 ho
        obtain ⟨o3, o4⟩ := q5 o o1
        exact ⟨o3, o4.trans o2⟩
    · have hI1 := hI.unregister hT ht hp hv
      obtain ⟨q1, q2, q3, q4, q5⟩ := ukeep_run hT rest h2 hI1 (fun u hZ hm => by
        rcases hZ with hZ | rfl
        · exact hz u hZ (List.mem_cons_of_mem _ hm)
        · exact hn.1 u rfl hm) hn.2
      refine ⟨q1, q2, fun t hr hl => ?_, Nat.le_trans (Nat.le_succ _) q4, q5⟩
      rw [List.mem_cons, not_or] at hl
      exact q3 t hr hl.2

/-- **C55 with UnregisterThread.** As `C55_no_early_free_partial`; threads may call UnregisterThread between operations, and then take no part any more.
Missing for the full property: what `C55_ticker_operates` and `C55_rejoin` refute. -/
theorem C55_unregister_partial (n T t u o : Nat) (hT : n ≤ T) (pre mid post : List TAct) {s : TState}
    (hrun : urun n T tinit (pre ++ .act (.joinStore t) :: (mid ++ .act (.unlink u o) :: post)) = some s)
    (hno : NoRejoin (pre ++ .act (.joinStore t) :: (mid ++ .act (.unlink u o) :: post)))
    (hstay : TAct.act (.leaveRead t) ∉ mid ++ post) : o ∉ s.g.freed := by
  rw [urun_append, Option.bind_eq_some_iff] at hrun
  obtain ⟨s1, r1, r2⟩ := hrun
  obtain ⟨⟨Z1, i1, z1⟩, n1, _⟩ := ukeep_run hT _ r1 (tinv_init n T) (fun _ h => h.elim) hno
  simp only [urun, Option.bind_eq_some_iff] at r2
  obtain ⟨s2, hs, r3⟩ := r2
  replace hs : tstep n T s1 (.act (.joinStore t)) = some s2 := hs
  have i2 := i1.step hT (fun _ e => by cases e) hs
  have hj : Running s2.g t ∧ s2.g.joinT t = s1.g.clock + 1 ∧ s2.g.clock = s1.g.clock + 1 := by
    simp only [tstep, tstep'] at hs
    split at hs
    · obtain rfl := Option.some.inj hs
      simp [Running, upd]
    · cases hs
  rw [urun_append, Option.bind_eq_some_iff] at r3
  obtain ⟨s3, r4, r5⟩ := r3
  rw [List.mem_append, not_or] at hstay
  obtain ⟨⟨Z3, i3, z3⟩, n3, k1, k3, _⟩ := ukeep_run hT _ r4 i2 (fun v hv hm => z1 v hv (List.mem_cons_of_mem _ hm)) n1.2
  obtain ⟨k1, k2⟩ := k1 t hj.1 hstay.1
  simp only [urun, Option.bind_eq_some_iff] at r5
  obtain ⟨s4, hs', r6⟩ := r5
  replace hs' : tstep n T s3 (.act (.unlink u o)) = some s4 := hs'
  have i4 := i3.step hT (fun _ e => by cases e) hs'
  obtain ⟨l1, l2⟩ := trunning_step hs' k1 (by simp)
  have hu : Out s4.g o ∧ s4.g.outT o = s3.g.clock + 1 := by
    simp only [tstep, tstep'] at hs'
    split at hs'
    · obtain ⟨g', h1, rfl⟩ := Option.map_eq_some_iff.1 hs'
      simp only [step'] at h1
      split at h1
      · obtain rfl := Option.some.inj h1
        simp [Out, upd]
      · cases h1
    · cases hs'
  obtain ⟨⟨Z5, i5, _⟩, _, m1, _, m4⟩ := ukeep_run hT [] r6 i4 (fun v hv hm => z3 v hv (List.mem_cons_of_mem _ (by simpa using hm))) (by simpa using n3.2)
  obtain ⟨m1, m2⟩ := m1 t l1 hstay.2
  intro hf
  have h1 := (i5.2.F o hf).2 t m1
  have h2 := (m4 o hu.1).2
  omega

/-- The hypotheses are met: thread 0 has run an operation and unregistered, its last store is still buffered; thread 1 unlinks an object. -/
example : ∃ pre mid post s, urun 2 2 tinit (pre ++ .act (.joinStore 1) :: (mid ++ .act (.unlink 1 0) :: post)) = some s ∧
    NoRejoin (pre ++ .act (.joinStore 1) :: (mid ++ .act (.unlink 1 0) :: post)) ∧ TAct.act (.leaveRead 1) ∉ mid ++ post ∧ s.buf 0 = [(false, UMAX)] ∧
    0 ∉ s.g.freed := by
  refine ⟨[.act (.joinRead 0), .act (.joinStore 0), .act (.leaveRead 0), .act (.leaveStore 0), .act (.unregister 0), .act (.joinRead 1)],
    [.flush 1, .act (.link 1 0), .flush 0, .flush 0], [.act (.addRead 1 0), .act (.addLink 1)], _, rfl, ?_, ?_, rfl, ?_⟩
  · simp [NoRejoin]
  · simp
  · simp [tinit, init]

end GC
end BwTree
