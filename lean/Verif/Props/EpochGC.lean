import Verif.Proofs.EpochGC

/-!
  ### C20, C21 – epoch based reclamation

  `RunC n s as s'` : the interleaving `as` of steps of `n` worker threads and the GC thread leads from `s` to `s'` and
  respects the usage contract (`Contract`): one thread calls IncreaseEpoch, threads are unregistered only between operations.
-/

namespace BwTree
namespace GC

theorem RunC.append {n : Nat} {s s' : State} {as bs : List Act} (h : RunC n s (as ++ bs) s') :
    ∃ s1, RunC n s as s1 ∧ RunC n s1 bs s' := by
  induction as generalizing s with
  | nil => exact ⟨s, .nil s, h⟩
  | cons a as ih =>
    cases h with
    | cons hc hs hr =>
      obtain ⟨s1, h1, h2⟩ := ih hr
      exact ⟨s1, .cons hc hs h1, h2⟩

theorem clock_step {n : Nat} {s s' : State} {a : Act} (hs : step n s a = some s') : s'.clock = s.clock + 1 := by
  cases a <;> simp only [step, step'] at hs <;> (try split at hs) <;> (try split at hs) <;> (try split at hs) <;>
    first | (obtain rfl := Option.some.inj hs; rfl) | cases hs

theorem running_step {n : Nat} {s s' : State} {a : Act} {t : Nat} (hs : step n s a = some s') (hr : Running s t)
    (ha : a ≠ .leaveRead t) : Running s' t ∧ s'.joinT t = s.joinT t := by
  cases a <;> simp only [step, step'] at hs <;> (try split at hs) <;> (try split at hs) <;> (try split at hs) <;>
    first
    | (obtain rfl := Option.some.inj hs; simp only [Running, upd] at *; grind)
    | cases hs

theorem running_run {n : Nat} {s s' : State} {as : List Act} {t : Nat} (h : RunC n s as s') (hr : Running s t)
    (ha : Act.leaveRead t ∉ as) : Running s' t ∧ s'.joinT t = s.joinT t := by
  induction h with
  | nil => exact ⟨hr, rfl⟩
  | cons hc hs _ ih =>
    simp only [List.mem_cons, not_or] at ha
    obtain ⟨h1, h2⟩ := running_step hs hr (fun h => ha.1 h.symm)
    obtain ⟨h3, h4⟩ := ih h1 ha.2
    exact ⟨h3, h4.trans h2⟩

theorem out_step {n : Nat} {s s' : State} {a : Act} {o : Nat} (hi : Inv n s) (hs : step n s a = some s') (ho : Out s o) :
    Out s' o ∧ s'.outT o = s.outT o := by
  have h1 := hi.garbS
  have h2 := hi.addS
  clear hi
  cases a <;> simp only [step, step'] at hs <;> (try split at hs) <;> (try split at hs) <;> (try split at hs) <;>
    first
    | (obtain rfl := Option.some.inj hs; simp only [Out, upd] at *; grind)
    | cases hs

theorem out_run {n : Nat} {s s' : State} {as : List Act} {o : Nat} (h : RunC n s as s') (hi : Inv n s) (ho : Out s o) :
    Out s' o ∧ s'.outT o = s.outT o := by
  induction h with
  | nil => exact ⟨ho, rfl⟩
  | cons hc hs _ ih =>
    obtain ⟨h1, h2⟩ := out_step hi hs ho
    obtain ⟨h3, h4⟩ := ih (inv_step hi hc hs) h1
    exact ⟨h3, h4.trans h2⟩

theorem clock_run {n : Nat} {s s' : State} {as : List Act} (h : RunC n s as s') : s.clock ≤ s'.clock := by
  induction h with
  | nil => exact Nat.le_refl _
  | cons hc hs _ ih => have := clock_step hs; omega

/-- **C20.** If an operation of thread `t` started (JoinEpoch returned), later some thread made `o` unreachable, and `t` has
not left its operation, then `o` has not been freed — whatever all threads did before, in between and afterwards. -/
theorem C20_no_early_free (n t u o : Nat) (pre mid post : List Act) {s : State}
    (hrun : RunC n init (pre ++ .joinStore t :: mid ++ .unlink u o :: post) s)
    (hstay : Act.leaveRead t ∉ mid ++ post) : o ∉ s.freed := by
  rw [List.append_assoc] at hrun
  obtain ⟨s1, r1, r2⟩ := RunC.append hrun
  have i1 := inv_run r1 (inv_init n)
  rw [List.cons_append] at r2
  cases r2 with
  | cons hc hs r3 =>
    rename_i s2
    have i2 := inv_step i1 hc hs
    obtain ⟨s3, r4, r5⟩ := RunC.append r3
    have i3 := inv_run r4 i2
    have hj : Running s2 t ∧ s2.joinT t = s1.clock + 1 ∧ s2.clock = s1.clock + 1 := by
      simp only [step, step'] at hs
      split at hs
      · obtain rfl := Option.some.inj hs
        simp [Running, upd]
      · cases hs
    simp only [List.mem_append, not_or] at hstay
    obtain ⟨hr3, hj3⟩ := running_run r4 hj.1 hstay.1
    have hc3 := clock_run r4
    cases r5 with
    | cons hc' hs' r6 =>
      rename_i s4
      have i4 := inv_step i3 hc' hs'
      obtain ⟨hr4, hj4⟩ := running_step hs' hr3 (by simp)
      obtain ⟨hr5, hj5⟩ := running_run r6 hr4 hstay.2
      have hu : Out s4 o ∧ s4.outT o = s3.clock + 1 := by
        simp only [step, step'] at hs'
        split at hs'
        · obtain rfl := Option.some.inj hs'
          simp [Out, upd]
        · cases hs'
      obtain ⟨ho, hot⟩ := out_run r6 i4 hu.1
      have i5 := inv_run r6 i4
      rw [i5.freedS]
      exact i5.safe t o hr5 ho (by omega)

/-- Same for an object that was never published (a new node whose installation failed): its creation plays the role of the
unlink step. -/
theorem C20_no_early_free_unpublished (n t u o : Nat) (pre mid post : List Act) {s : State}
    (hrun : RunC n init (pre ++ .joinStore t :: mid ++ .make u o :: post) s)
    (hstay : Act.leaveRead t ∉ mid ++ post) : o ∉ s.freed := by
  rw [List.append_assoc] at hrun
  obtain ⟨s1, r1, r2⟩ := RunC.append hrun
  have i1 := inv_run r1 (inv_init n)
  rw [List.cons_append] at r2
  cases r2 with
  | cons hc hs r3 =>
    rename_i s2
    have i2 := inv_step i1 hc hs
    obtain ⟨s3, r4, r5⟩ := RunC.append r3
    have i3 := inv_run r4 i2
    have hj : Running s2 t ∧ s2.joinT t = s1.clock + 1 ∧ s2.clock = s1.clock + 1 := by
      simp only [step, step'] at hs
      split at hs
      · obtain rfl := Option.some.inj hs
        simp [Running, upd]
      · cases hs
    simp only [List.mem_append, not_or] at hstay
    obtain ⟨hr3, hj3⟩ := running_run r4 hj.1 hstay.1
    have hc3 := clock_run r4
    cases r5 with
    | cons hc' hs' r6 =>
      rename_i s4
      have i4 := inv_step i3 hc' hs'
      obtain ⟨hr4, hj4⟩ := running_step hs' hr3 (by simp)
      obtain ⟨hr5, hj5⟩ := running_run r6 hr4 hstay.2
      have hu : Out s4 o ∧ s4.outT o = s3.clock + 1 := by
        simp only [step, step'] at hs'
        split at hs'
        · obtain rfl := Option.some.inj hs'
          simp [Out, upd]
        · cases hs'
      obtain ⟨ho, hot⟩ := out_run r6 i4 hu.1
      have i5 := inv_run r6 i4
      rw [i5.freedS]
      exact i5.safe t o hr5 ho (by omega)

/-- A reachable object is never freed (only retired ones are). -/
theorem C20_linked_not_freed (n : Nat) (as : List Act) {s : State} (hrun : RunC n init as s) (o : Nat)
    (ho : s.st o = .linked) : o ∉ s.freed := by
  have := inv_run hrun (inv_init n)
  rw [this.freedS, ho]
  simp

/-- Objects retired (AddGarbageNode completed) by thread `t` in an execution, in order. -/
def retiredBy (n t : Nat) : State → List Act → List Nat
  | _, [] => []
  | s, a :: as =>
    match step n s a with
    | none => []
    | some s' =>
      match a, s.pc t with
      | .addLink u, .adding o _ => if u = t then o :: retiredBy n t s' as else retiredBy n t s' as
      | _, _ => retiredBy n t s' as

/-- Objects freed by collections of thread `t`, in order. -/
def freedBy (n t : Nat) : State → List Act → List Nat
  | _, [] => []
  | s, a :: as =>
    match step n s a with
    | none => []
    | some s' =>
      match a with
      | .gcFree u => if u = t ∧ s'.freed.length = s.freed.length + 1 then s'.freed.head?.toList ++ freedBy n t s' as
                     else freedBy n t s' as
      | _ => freedBy n t s' as

theorem fifo_run {n : Nat} {s s' : State} {as : List Act} (t : Nat) (h : RunC n s as s') :
    (s.garb t).map Prod.fst ++ retiredBy n t s as = freedBy n t s as ++ (s'.garb t).map Prod.fst := by
  induction h with
  | nil => simp [retiredBy, freedBy]
  | @cons s s1 s2 a as hc hs _ ih =>
    simp only [retiredBy, freedBy, hs]
    cases a with
    | addLink u =>
      simp only
      simp only [step, step'] at hs
      split at hs
      · rename_i o d hpc
        obtain rfl := Option.some.inj hs
        by_cases hut : u = t
        · subst hut
          simp only [hpc, if_true]
          simp only [upd, if_true, List.map_append, List.map_cons, List.map_nil, List.append_assoc] at ih
          simpa using ih
        · have : t ≠ u := fun h => hut h.symm
          simp only [upd, this, if_false] at ih
          split
          · rename_i h1 h2
            cases h1
            simpa [hut] using ih
          · simpa [hut] using ih
      · cases hs
    | gcFree u =>
      simp only
      simp only [step, step'] at hs
      split at hs
      · split at hs
        · obtain rfl := Option.some.inj hs
          simpa using ih
        · split at hs
          · rename_i o d rest hg hlt
            obtain rfl := Option.some.inj hs
            by_cases hut : u = t
            · subst hut
              simp only [upd, if_true] at ih
              simpa [hg, upd] using ih
            · have : t ≠ u := fun h => hut h.symm
              simp only [upd, this, if_false] at ih
              simpa [hut, upd] using ih
          · obtain rfl := Option.some.inj hs
            simpa using ih
      · cases hs
    | _ =>
      simp only [step, step'] at hs
      split at hs
      · obtain rfl := Option.some.inj hs
        simpa using ih
      · first | (obtain rfl := Option.some.inj hs; simpa using ih) | cases hs

/-- **C21 (order, exactly once, no loss).** In every execution the objects retired by a thread are, in this order, those freed by
its collections followed by those still in its list. -/
theorem C21_fifo (n t : Nat) (as : List Act) {s : State} (hrun : RunC n init as s) :
    retiredBy n t init as = freedBy n t init as ++ (s.garb t).map Prod.fst := by
  simpa [init] using fifo_run t hrun

/-- **C21 (at most once).** No object is freed twice. -/
theorem C21_freed_once (n : Nat) (as : List Act) {s : State} (hrun : RunC n init as s) : s.freed.Nodup :=
  (inv_run hrun (inv_init n)).freedND

/-- **C21 (counter).** `node_count` is the number of pending garbage nodes, so the assertion `node_count != 0` (9452) holds. -/
theorem C21_counter (n t : Nat) (as : List Act) {s : State} (hrun : RunC n init as s) : s.cnt t = (s.garb t).length :=
  (inv_run hrun (inv_init n)).cnt t

/-- Everything a thread may still publish as its active epoch lies after epoch `D`: the epoch advanced past `D` and every thread
has refreshed its record since. -/
structure Past (n D : Nat) (s : State) : Prop where
  ep : D < s.epoch
  lae : ∀ i, i < n → D < s.lae i
  join : ∀ i e, s.pc i = .joining e → D < e
  leave : ∀ i e, s.pc i = .leaving e → D < e

theorem past_step {n D : Nat} {s s' : State} {a : Act} (hD : D < UMAX) (hi : Inv n s) (hc : Contract s a)
    (hs : step n s a = some s') (h : Past n D s) : Past n D s' := by
  obtain ⟨h1, h2, h3, h4⟩ := h
  have ht := hi.tickE
  clear hi
  cases a <;> simp only [step, step', Contract] at hs hc <;> (try split at hs) <;> (try split at hs) <;> (try split at hs) <;>
    first
    | (obtain rfl := Option.some.inj hs; constructor <;> simp only [upd] at * <;> grind)
    | cases hs

/-- `t` performs a collection and nothing else. -/
def OnlyGC (t : Nat) : Act → Prop
  | .gcRead _ | .gcFree _ => True
  | .joinRead u | .joinStore u | .link u _ | .make u _ | .unlink u _ | .addRead u _ | .addLink u | .leaveRead u
  | .leaveStore u => u ≠ t
  | .tickRead _ | .tickWrite _ | .unregister _ => True

theorem collect_run {n D t : Nat} (hn : 0 < n) (hD : D < UMAX) {s s' : State} {as : List Act} (h : RunC n s as s') (hi : Inv n s)
    (hp : Past n D s) (hg : ∀ a ∈ as, OnlyGC t a)
    (ht : (∃ i m, s.pc t = .summing i m ∧ i < n ∧ (i = 0 ∨ D < m)) ∨ (∃ m, s.pc t = .freeing m ∧ D < m) ∨
      (s.pc t = .active ∧ ∀ p ∈ s.garb t, D < p.2)) :
    (∃ i m, s'.pc t = .summing i m ∧ i < n ∧ (i = 0 ∨ D < m)) ∨ (∃ m, s'.pc t = .freeing m ∧ D < m) ∨
      (s'.pc t = .active ∧ ∀ p ∈ s'.garb t, D < p.2) := by
  induction h with
  | nil => exact ht
  | @cons s s1 s2 a as hc hs _ ih =>
    have hg1 := hg a (by simp)
    refine ih (inv_step hi hc hs) (past_step hD hi hc hs hp) (fun b hb => hg b (by simp [hb])) ?_
    have hsort := hi.sorted t
    have hl := hp.lae
    clear ih hg hp hi
    cases a with
    | gcRead u =>
      simp only [step, step'] at hs
      split at hs
      · rename_i i m hpc
        obtain rfl := Option.some.inj hs
        by_cases hut : t = u
        · subst hut
          rcases ht with ⟨i', m', h1, h2, h3⟩ | ⟨m', h1, h3⟩ | ⟨h1, h3⟩
          · rw [hpc] at h1
            simp only [PC.summing.injEq] at h1
            obtain ⟨rfl, rfl⟩ := h1
            have hm : D < (if i = 0 then s.lae 0 else min (s.lae i) m) := by
              split
              · exact hl 0 hn
              · have := hl i h2
                have : D < m := h3.resolve_left (by assumption)
                omega
            by_cases hin : i + 1 < n
            · left; exact ⟨i + 1, _, by simp [upd, hin], hin, Or.inr hm⟩
            · right; left; exact ⟨_, by simp [upd, hin], hm⟩
          · rw [hpc] at h1; cases h1
          · rw [hpc] at h1; cases h1
        · simpa only [upd, hut, if_false] using ht
      · cases hs
    | gcFree u =>
      simp only [step, step'] at hs
      split at hs
      · rename_i m hpc
        by_cases hut : t = u
        · subst hut
          rcases ht with ⟨i', m', h1, h2, h3⟩ | ⟨m', h1, h3⟩ | ⟨h1, h3⟩
          · rw [hpc] at h1; cases h1
          · rw [hpc] at h1
            simp only [PC.freeing.injEq] at h1
            subst h1
            split at hs
            · rename_i hgb
              obtain rfl := Option.some.inj hs
              right; right; simp [upd, hgb]
            · rename_i o d rest hgb
              split at hs
              · obtain rfl := Option.some.inj hs
                right; left; exact ⟨m, hpc, h3⟩
              · rename_i hlt
                obtain rfl := Option.some.inj hs
                right; right
                rw [hgb, List.pairwise_cons] at hsort
                refine ⟨by simp [upd], ?_⟩
                intro p hp
                simp only [hgb, List.mem_cons] at hp
                rcases hp with rfl | hp
                · simp only; omega
                · have := hsort.1 p hp
                  simp only at this
                  omega
          · rw [hpc] at h1; cases h1
        · split at hs
          · obtain rfl := Option.some.inj hs
            simpa only [upd, hut, if_false] using ht
          · split at hs
            · obtain rfl := Option.some.inj hs
              simpa only [upd, hut, if_false] using ht
            · obtain rfl := Option.some.inj hs
              simpa only [upd, hut, if_false] using ht
      · cases hs
    | _ =>
      simp only [step, step', OnlyGC] at hs hg1
      (try split at hs) <;>
        first
        | (obtain rfl := Option.some.inj hs
           first
           | simpa only [upd, hg1.symm, if_false] using ht
           | simpa using ht)
        | cases hs

/-- **C21 (reclamation).** Suppose the epoch has advanced past `D` and every thread has refreshed its record since (`Past`). If
thread `t` now runs a collection (PerformGC), interleaved arbitrarily with the other threads, then when it is done nothing
that was retired in epoch `D` or earlier is left in its list. -/
theorem C21_reclaims (n D t : Nat) (hn : 0 < n) (hD : D < UMAX) (pre as : List Act) {s s' : State} {m0 : Nat}
    (hpre : RunC n init pre s) (hpast : Past n D s) (hstart : s.pc t = .summing 0 m0)
    (hrun : RunC n s as s') (honly : ∀ a ∈ as, OnlyGC t a) (hend : s'.pc t = .active) :
    ∀ o d, (o, d) ∈ s'.garb t → D < d := by
  rcases collect_run hn hD hrun (inv_run hpre (inv_init n)) hpast honly (Or.inl ⟨0, m0, hstart, hn, Or.inl rfl⟩) with
    ⟨i, m, h, _⟩ | ⟨m, h, _⟩ | ⟨_, h⟩
  · rw [hend] at h; cases h
  · rw [hend] at h; cases h
  · exact fun o d hd => h (o, d) hd

/-- **C21 (a collection ends).** The loop of PerformGC, run by `t`, ends after finitely many steps. -/
theorem C21_collection_ends (n t m : Nat) {s : State} (hpc : s.pc t = .freeing m) :
    ∃ k s', run n s (List.replicate k (.gcFree t)) = some s' ∧ s'.pc t = .active ∧
      s'.garb t = (s.garb t).dropWhile (fun p => decide (p.2 < m)) := by
  generalize hl : s.garb t = l
  induction l generalizing s with
  | nil =>
    have hstep : ∃ s1, step n s (.gcFree t) = some s1 ∧ s1.pc t = .active ∧ s1.garb t = [] := by
      simp [step, step', hpc, hl, upd]
    obtain ⟨s1, h1, h2, h3⟩ := hstep
    exact ⟨1, s1, by simp [List.replicate, run, h1], h2, by simpa using h3⟩
  | cons p rest ih =>
    obtain ⟨o, d⟩ := p
    by_cases hlt : d < m
    · have hstep : ∃ s1, step n s (.gcFree t) = some s1 ∧ s1.pc t = .freeing m ∧ s1.garb t = rest := by
        simp [step, step', hpc, hl, hlt, upd]
      obtain ⟨s1, h1, h2, h3⟩ := hstep
      obtain ⟨k, s', h4, h5, h6⟩ := ih h2 h3
      refine ⟨k + 1, s', ?_, h5, ?_⟩
      · simp [List.replicate_succ, run, h1, h4]
      · simpa [hlt] using h6
    · have hstep : ∃ s1, step n s (.gcFree t) = some s1 ∧ s1.pc t = .active ∧ s1.garb t = (o, d) :: rest := by
        simp [step, step', hpc, hl, hlt, upd]
      obtain ⟨s1, h1, h2, h3⟩ := hstep
      refine ⟨1, s1, ?_, h2, ?_⟩
      · simp [List.replicate, run, h1]
      · simpa [hlt] using h3

/-! #### Non-vacuity: a complete life cycle, with the real threshold -/

theorem run_append (n : Nat) (as bs : List Act) (s : State) :
    run n s (as ++ bs) = (run n s as).bind (fun s' => run n s' bs) := by
  induction as generalizing s with
  | nil => rfl
  | cons a as ih =>
    simp only [List.cons_append, run]
    cases step n s a with
    | none => rfl
    | some s' => simp [ih]

/-- `k` unpublished objects `b, b+1, …` created and retired by `t`. -/
def fill (t b : Nat) : Nat → List Act
  | 0 => []
  | k + 1 => .make t b :: .addRead t b :: .addLink t :: fill t (b + 1) k

/-- What `fill` does as long as the threshold is not exceeded. -/
theorem fill_run (n t : Nat) : ∀ (k b : Nat) (s : State), s.pc t = .active → s.cnt t + k ≤ THRESHOLD →
    (∀ o, b ≤ o → s.st o = .fresh) →
    ∃ s', run n s (fill t b k) = some s' ∧ s'.pc = s.pc ∧ s'.lae = s.lae ∧ s'.epoch = s.epoch ∧ s'.tick = s.tick ∧
      s'.freed = s.freed ∧ s'.joinT = s.joinT ∧ s'.cnt t = s.cnt t + k ∧ (∃ l, s'.garb t = s.garb t ++ l) ∧
      (∀ o, o < b → s'.st o = s.st o ∧ s'.outT o = s.outT o) ∧ (∀ o, b + k ≤ o → s'.st o = .fresh)
  | 0, b, s, _, _, hf => ⟨s, rfl, rfl, rfl, rfl, rfl, rfl, rfl, rfl, ⟨[], by simp⟩, fun _ _ => ⟨rfl, rfl⟩, hf⟩
  | k + 1, b, s, hpc, hk, hf => by
    have hth : ¬ THRESHOLD < s.cnt t + 1 := by omega
    let s3 : State :=
      { s with
        clock := s.clock + 3
        outT := upd s.outT b (s.clock + 1)
        st := upd (upd s.st b (.owned t)) b .retired
        garb := upd s.garb t (s.garb t ++ [(b, s.epoch)])
        cnt := upd s.cnt t (s.cnt t + 1)
        pc := upd (upd s.pc t (.adding b s.epoch)) t .active }
    have h3 : run n s (fill t b (k + 1)) = run n s3 (fill t (b + 1) k) := by
      simp [fill, run, step, step', hpc, hf b (Nat.le_refl b), upd, hth, s3]
    have hpc3 : s3.pc = s.pc := by
      funext x
      simp only [s3, upd]
      split
      · rename_i h; rw [h, hpc]
      · rfl
    obtain ⟨s', r, e1, e2, e3, e4, e5, e6, e7, ⟨l, e8⟩, e9, e10⟩ := fill_run n t k (b + 1) s3
      (by rw [hpc3]; exact hpc) (by simp only [s3, upd, if_true]; omega)
      (by intro o ho; have : o ≠ b := by omega
          simp only [s3, upd, this, if_false]; exact hf o (by omega))
    refine ⟨s', by rw [h3, r], by rw [e1, hpc3], e2, e3, e4, e5, e6, ?_, ⟨(b, s.epoch) :: l, ?_⟩, ?_, ?_⟩
    · rw [e7]; simp only [s3, upd, if_true]; omega
    · rw [e8]; simp [s3, upd]
    · intro o ho
      obtain ⟨h1, h2⟩ := e9 o (by omega)
      have : o ≠ b := by omega
      rw [h1, h2]
      simp [s3, upd, this]
    · intro o ho; exact e10 o (by omega)

/-- A run that frees something: thread 1 unlinks and retires object 0 in epoch 0 and leaves; the epoch advances; both threads
start new operations; 1024 more retirements make thread 1 collect: object 0 is freed. -/
def lifePre : List Act :=
  [.joinRead 1, .joinStore 1, .link 1 0, .unlink 1 0, .addRead 1 0, .addLink 1, .leaveRead 1, .leaveStore 1,
   .tickRead 0, .tickWrite 0, .joinRead 0, .joinStore 0, .joinRead 1, .joinStore 1]

/-- One retirement too many and the collection it starts. -/
def lastSteps : List Act := [.make 1 1024, .addRead 1 1024, .addLink 1, .gcRead 1, .gcRead 1, .gcFree 1]

/-- Exactly this is reached when `run` succeeds and the actions do not depend on the state for their contract. -/
def EasyAct : Act → Prop
  | .tickRead k => k = 0
  | .tickWrite k => k = 0
  | .unregister _ => False
  | _ => True

theorem runC_of_run {n : Nat} : ∀ {as : List Act} {s s' : State}, (∀ a ∈ as, EasyAct a) → run n s as = some s' → RunC n s as s'
  | [], s, s', _, h => by simp [run] at h; subst h; exact .nil s
  | a :: as, s, s', he, h => by
    simp only [run] at h
    cases hs : step n s a with
    | none => simp [hs] at h
    | some s1 =>
      simp only [hs, Option.bind_some] at h
      refine .cons ?_ hs (runC_of_run (fun b hb => he b (by simp [hb])) h)
      have := he a (by simp)
      cases a <;> first | trivial | exact this | exact this.elim

theorem fill_easy (t : Nat) : ∀ (k b : Nat), ∀ a ∈ fill t b k, EasyAct a
  | 0, _, a, h => by simp [fill] at h
  | k + 1, b, a, h => by
    simp only [fill, List.mem_cons] at h
    rcases h with rfl | rfl | rfl | h
    · trivial
    · trivial
    · trivial
    · exact fill_easy t k (b + 1) a h

/-- The whole life of an object, ending with its release, is possible under the contract. -/
theorem C21_nonvacuous : ∃ as s, RunC 2 init as s ∧ 0 ∈ s.freed := by
  obtain ⟨s1, h1, hpc, hlae0, hlae1, hcnt, hgarb, hst, hfr⟩ : ∃ s1, run 2 init lifePre = some s1 ∧ s1.pc 1 = .active ∧
      s1.lae 0 = 1 ∧ s1.lae 1 = 1 ∧ s1.cnt 1 = 1 ∧ s1.garb 1 = [(0, 0)] ∧ (∀ o, 1 ≤ o → s1.st o = .fresh) ∧ s1.freed = [] := by
    refine ⟨_, rfl, rfl, rfl, rfl, rfl, rfl, ?_, rfl⟩
    intro o ho
    have : o ≠ 0 := by omega
    simp [init, upd, this]
  obtain ⟨s2, h2, e1, e2, _, _, e5, _, e7, ⟨l, e8⟩, _, e10⟩ := fill_run 2 1 1023 1 s1 hpc (by rw [hcnt]; decide) hst
  have hfresh := e10 1024 (by omega)
  have hpc2 : s2.pc 1 = .active := by rw [e1]; exact hpc
  have hcnt2 : s2.cnt 1 = 1024 := by rw [e7, hcnt]
  have hl0 : s2.lae 0 = 1 := by rw [e2]; exact hlae0
  have hl1 : s2.lae 1 = 1 := by rw [e2]; exact hlae1
  have hg2 : s2.garb 1 = (0, 0) :: l := by rw [e8, hgarb]; rfl
  have h3 : ∃ s3, run 2 s2 lastSteps = some s3 ∧
      0 ∈ s3.freed := by
    simp [lastSteps, run, step, step', hpc2, hfresh, upd, hcnt2, THRESHOLD, hl0, hl1, hg2]
  obtain ⟨s3, h3, hf⟩ := h3
  refine ⟨lifePre ++ (fill 1 1 1023 ++ lastSteps), s3, runC_of_run ?_ ?_, hf⟩
  rotate_left
  · rw [run_append, h1, Option.bind_some, run_append, h2, Option.bind_some]
    exact h3
  · intro a ha
    simp only [List.mem_append] at ha
    rcases ha with ha | ha | ha
    · simp only [lifePre, List.mem_cons, List.not_mem_nil, or_false] at ha
      rcases ha with rfl | rfl | rfl | rfl | rfl | rfl | rfl | rfl | rfl | rfl | rfl | rfl | rfl | rfl <;> trivial
    · exact fill_easy 1 _ _ a ha
    · simp only [lastSteps, List.mem_cons, List.not_mem_nil, or_false] at ha
      rcases ha with rfl | rfl | rfl | rfl | rfl | rfl <;> trivial

/-! #### The contract is necessary -/

/-- Prefix for `C20_two_tickers`: a second caller of IncreaseEpoch (7) reads epoch 0, the GC thread advances the epoch to 2, threads
0 and 1 start operations in epoch 2, then the second caller writes 1: the epoch goes back. Thread 1 unlinks object 0. -/
def tickPre : List Act :=
  [.tickRead 7, .tickRead 0, .tickWrite 0, .tickRead 0, .tickWrite 0, .joinRead 0, .joinStore 0, .joinRead 1, .joinStore 1,
   .link 1 0, .tickWrite 7, .unlink 1 0, .addRead 1 0, .addLink 1]

/-- **C20 fails** if two threads call IncreaseEpoch: `epoch++` (493) is not atomic, the epoch can decrease, and an object is freed
while thread 0, whose operation started before the object was unlinked, is still running. -/
theorem C20_two_tickers : ∃ as s, run 2 init as = some s ∧ Running s 0 ∧ Out s 0 ∧ s.joinT 0 < s.outT 0 ∧ 0 ∈ s.freed := by
  obtain ⟨s1, h1, hpc, hpc0, hlae0, hlae1, hcnt, hgarb, hst, hst0, hfr, hj, ho⟩ : ∃ s1, run 2 init tickPre = some s1 ∧
      s1.pc 1 = .active ∧ s1.pc 0 = .active ∧
      s1.lae 0 = 2 ∧ s1.lae 1 = 2 ∧ s1.cnt 1 = 1 ∧ s1.garb 1 = [(0, 1)] ∧ (∀ o, 1 ≤ o → s1.st o = .fresh) ∧
      s1.st 0 = .retired ∧ s1.freed = [] ∧ s1.joinT 0 = 7 ∧ s1.outT 0 = 12 := by
    refine ⟨_, rfl, rfl, rfl, rfl, rfl, rfl, rfl, ?_, rfl, rfl, rfl, rfl⟩
    intro o ho
    have : o ≠ 0 := by omega
    simp [init, upd, this]
  obtain ⟨s2, h2, e1, e2, _, _, e5, e6, e7, ⟨l, e8⟩, e9, e10⟩ := fill_run 2 1 1023 1 s1 hpc (by rw [hcnt]; decide) hst
  have hfresh := e10 1024 (by omega)
  have hpc2 : s2.pc 1 = .active := by rw [e1]; exact hpc
  have hpc20 : s2.pc 0 = .active := by rw [e1]; exact hpc0
  have hcnt2 : s2.cnt 1 = 1024 := by rw [e7, hcnt]
  have hl0 : s2.lae 0 = 2 := by rw [e2]; exact hlae0
  have hl1 : s2.lae 1 = 2 := by rw [e2]; exact hlae1
  have hg2 : s2.garb 1 = (0, 1) :: l := by rw [e8, hgarb]; rfl
  have hj2 : s2.joinT 0 = 7 := by rw [e6]; exact hj
  have ho2 : s2.outT 0 = 12 := by rw [(e9 0 (by omega)).2]; exact ho
  have h3 : ∃ s3, run 2 s2 lastSteps = some s3 ∧
      Running s3 0 ∧ Out s3 0 ∧ s3.joinT 0 < s3.outT 0 ∧ 0 ∈ s3.freed := by
    simp [lastSteps, run, step, step', hpc2, hpc20, hfresh, upd, hcnt2, THRESHOLD, hl0, hl1, hg2, Running, Out, hj2, ho2]
  obtain ⟨s3, h3, hf⟩ := h3
  refine ⟨tickPre ++ (fill 1 1 1023 ++ lastSteps), s3, ?_, hf⟩
  rw [run_append, h1, Option.bind_some, run_append, h2, Option.bind_some]
  exact h3

def unregPre : List Act :=
  [.joinRead 0, .joinStore 0, .joinRead 1, .joinStore 1, .link 1 0, .unregister 0, .unlink 1 0, .addRead 1 0, .addLink 1,
   .leaveRead 1, .leaveStore 1, .tickRead 0, .tickWrite 0, .joinRead 1, .joinStore 1]

/-- **C20 fails** if a thread is unregistered while it is inside an operation. -/
theorem C20_unregister_running : ∃ as s, run 2 init as = some s ∧ Running s 0 ∧ Out s 0 ∧ s.joinT 0 < s.outT 0 ∧ 0 ∈ s.freed := by
  obtain ⟨s1, h1, hpc, hpc0, hlae0, hlae1, hcnt, hgarb, hst, hst0, hfr, hj, ho⟩ : ∃ s1, run 2 init unregPre = some s1 ∧
      s1.pc 1 = .active ∧ s1.pc 0 = .active ∧
      s1.lae 0 = UMAX ∧ s1.lae 1 = 1 ∧ s1.cnt 1 = 1 ∧ s1.garb 1 = [(0, 0)] ∧ (∀ o, 1 ≤ o → s1.st o = .fresh) ∧
      s1.st 0 = .retired ∧ s1.freed = [] ∧ s1.joinT 0 = 2 ∧ s1.outT 0 = 7 := by
    refine ⟨_, rfl, rfl, rfl, rfl, rfl, rfl, rfl, ?_, rfl, rfl, rfl, rfl⟩
    intro o ho
    have : o ≠ 0 := by omega
    simp [init, upd, this]
  obtain ⟨s2, h2, e1, e2, _, _, e5, e6, e7, ⟨l, e8⟩, e9, e10⟩ := fill_run 2 1 1023 1 s1 hpc (by rw [hcnt]; decide) hst
  have hfresh := e10 1024 (by omega)
  have hpc2 : s2.pc 1 = .active := by rw [e1]; exact hpc
  have hpc20 : s2.pc 0 = .active := by rw [e1]; exact hpc0
  have hcnt2 : s2.cnt 1 = 1024 := by rw [e7, hcnt]
  have hl0 : s2.lae 0 = UMAX := by rw [e2]; exact hlae0
  have hl1 : s2.lae 1 = 1 := by rw [e2]; exact hlae1
  have hg2 : s2.garb 1 = (0, 0) :: l := by rw [e8, hgarb]; rfl
  have hj2 : s2.joinT 0 = 2 := by rw [e6]; exact hj
  have ho2 : s2.outT 0 = 7 := by rw [(e9 0 (by omega)).2]; exact ho
  have h3 : ∃ s3, run 2 s2 lastSteps = some s3 ∧
      Running s3 0 ∧ Out s3 0 ∧ s3.joinT 0 < s3.outT 0 ∧ 0 ∈ s3.freed := by
    simp [lastSteps, run, step, step', hpc2, hpc20, hfresh, upd, hcnt2, THRESHOLD, hl0, hl1, hg2, Running, Out, hj2, ho2, UMAX]
  obtain ⟨s3, h3, hf⟩ := h3
  refine ⟨unregPre ++ (fill 1 1 1023 ++ lastSteps), s3, ?_, hf⟩
  rw [run_append, h1, Option.bind_some, run_append, h2, Option.bind_some]
  exact h3

end GC
end BwTree
