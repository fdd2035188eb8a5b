import Verif.Proofs.SpinLock

/-!
# C54: the reader-writer spin lock
-/

namespace BwTree.Spin

/-- Whoever has the lock for writing has it alone, and an unlock never runs into its assertion nor a lock into an overflow: for all
interleavings of fewer than 2^31 - 1 threads, whatever stale values the relaxed loads return and however often the weak exchanges fail. -/
theorem C54_exclusive (n : Nat) (hn : (n : Int) < intMax) {s : State} (h : Reach false n s) :
    (∀ t u, (s.thr t).pc = .writing → (s.thr u).pc = .writing ∨ (s.thr u).pc = .reading → u = t) ∧ ∀ t, (s.thr t).pc ≠ .stuck := by
  have hI := h.inv hn
  refine ⟨fun t u ht hu => ?_, fun t ht => ?_⟩
  · have h1 := hI.wrt t (by rw [ht]; rfl)
    rcases hu with hu | hu
    · exact h1.2.2 u (by rw [hu]; rfl)
    · have := hI.rd u (by rw [hu]; rfl) s.last (hI.le u) (Nat.le_refl _)
      have := h1.1
      omega
  · have := hI.ok t
    rw [ht] at this
    exact this

/-- A read under `read_lock` never races: every write made before it, by whatever thread, happens before it. Missing for the full
property: accesses under `write_lock`, which do race (`C54_writer_races`). -/
theorem C54_readers_partial (n : Nat) (hn : (n : Int) < intMax) {s : State} (h : Reach false n s) {t : Nat} (ht : (s.thr t).pc = .reading) :
    ¬ Racy s t false := by
  rintro ⟨i, hi, hw, hc⟩
  have := (h.vinv hn).rdv t (by rw [ht]; rfl) i hi (hw.resolve_left Bool.false_ne_true)
  rw [ht, if_neg (by intro x; cases x), hc] at this
  cases this

/-- The steps of one thread that locks for writing, accesses the data and unlocks, when the lock has `k` values before. -/
def writeSection (t k : Nat) (accesses : List Act) : List (Nat × Act) :=
  ([Act.call .writeLock, .load k, .casOk, .fence] ++ accesses ++ [Act.call .writeUnlock, .load (k + 1), .fence, .casOk]).map (Prod.mk t)

/-- The steps that take the lock for writing. -/
def enterWrite (t k : Nat) : List (Nat × Act) := [Act.call .writeLock, .load k, .casOk, .fence].map (Prod.mk t)

theorem Reach.of_run {fix : Bool} {n : Nat} : ∀ (l : List (Nat × Act)) {s s' : State}, Reach fix n s → (∀ x ∈ l, x.1 < n) → run fix s l = some s' → Reach fix n s'
  | [], s, s', h, _, e => by cases e; exact h
  | (t, a) :: l, s, s', h, hl, e => by
    simp only [run, Option.bind_eq_some_iff] at e
    obtain ⟨s1, h1, h2⟩ := e
    exact Reach.of_run l (h.step (hl _ List.mem_cons_self) h1) (fun x hx => hl x (List.mem_cons_of_mem _ hx)) h2

/-- A schedule that runs leads to a reachable state. -/
theorem reach_run {α : Type} {fix : Bool} {n : Nat} (l : List (Nat × Act)) (f : State → α) (a : α) (hl : ∀ x ∈ l, x.1 < n)
    (e : (run fix init l).map f = some a) : ∃ s, Reach fix n s ∧ f s = a := by
  obtain ⟨s, h1, h2⟩ := Option.map_eq_some_iff.1 e
  exact ⟨s, Reach.of_run l .init hl h1, h2⟩

/-- The claim fails for writers: `write_lock` ends with a release fence, so nothing orders what the new owner does after what the previous
one did. Two threads; the first one writes under the lock and releases it, then the second one takes the lock: its access races. -/
theorem C54_writer_races : ∃ s, Reach false 2 s ∧ (s.thr 0).pc = .idle ∧ (s.thr 1).pc = .writing ∧ Racy s 1 false ∧ Racy s 1 true := by
  obtain ⟨s, hr, h⟩ := reach_run (fix := false) (n := 2) (writeSection 0 0 [.access true] ++ enterWrite 1 2)
    (fun s => ((s.thr 0).pc, (s.thr 1).pc, s.nacc, s.wr 0, (s.thr 1).cur 0)) (.idle, .writing, 1, true, false) (by decide) (by decide)
  simp only [Prod.mk.injEq] at h
  obtain ⟨h1, h2, h3, h4, h5⟩ := h
  exact ⟨s, hr, h1, h2, ⟨0, by omega, .inr h4, h5⟩, ⟨0, by omega, .inl rfl, h5⟩⟩

/-- The same when the previous owner only read: the write of the new owner races with that read. -/
theorem C54_writer_races_reader : ∃ s, Reach false 2 s ∧ (s.thr 0).pc = .idle ∧ (s.thr 1).pc = .writing ∧ s.wr 0 = false ∧ Racy s 1 true := by
  obtain ⟨s, hr, h⟩ := reach_run (fix := false) (n := 2)
    ([Act.call .readLock, .load 0, .casOk, .fence, .access false, .call .readUnlock, .load 1, .fence, .casOk].map (Prod.mk 0) ++ enterWrite 1 2)
    (fun s => ((s.thr 0).pc, (s.thr 1).pc, s.nacc, s.wr 0, (s.thr 1).cur 0)) (.idle, .writing, 1, false, false) (by decide) (by decide)
  simp only [Prod.mk.injEq] at h
  obtain ⟨h1, h2, h3, h4, h5⟩ := h
  exact ⟨s, hr, h1, h2, h4, ⟨0, by omega, .inl rfl, h5⟩⟩

/-- With an acquire-release fence at that place exclusion still holds and no access races, neither under `read_lock` nor under `write_lock`. -/
theorem C54_repaired (n : Nat) (hn : (n : Int) < intMax) {s : State} (h : Reach true n s) {t : Nat} :
    ((s.thr t).pc = .reading → ¬ Racy s t false) ∧ ((s.thr t).pc = .writing → ∀ w, ¬ Racy s t w) := by
  refine ⟨fun ht => ?_, fun ht w => ?_⟩
  · rintro ⟨i, hi, hw, hc⟩
    have := (h.vinv hn).rdv t (by rw [ht]; rfl) i hi (hw.resolve_left Bool.false_ne_true)
    rw [ht, if_neg (by intro x; cases x), hc] at this
    cases this
  · rintro ⟨i, hi, _, hc⟩
    have := (h.vinv hn).wrv rfl t (by rw [ht]; rfl) i hi
    rw [ht, if_neg (by intro x; cases x), hc] at this
    cases this

/-- Non-vacuity: after a write by thread 0, threads 1 and 2 hold the lock for reading at the same time, thread 1 having first read an
outdated value and lost an exchange; both know the write, and thread 0 cannot get in. -/
example : ∃ s, Reach false 3 s ∧ (s.thr 1).pc = .reading ∧ (s.thr 2).pc = .reading ∧ s.nacc = 1 ∧ s.wr 0 = true ∧ (s.thr 0).pc = .load .writeLock := by
  obtain ⟨s, hr, h⟩ := reach_run (fix := false) (n := 3) (writeSection 0 0 [.access true] ++
      [(1, .call .readLock), (1, .load 1), (1, .load 2), (2, .call .readLock), (2, .load 2), (2, .casOk), (1, .casFail 3), (1, .load 3), (1, .casOk),
        (2, .fence), (1, .fence), (0, .call .writeLock), (0, .load 4)])
    (fun s => ((s.thr 1).pc, (s.thr 2).pc, s.nacc, s.wr 0, (s.thr 0).pc)) (.reading, .reading, 1, true, .load .writeLock) (by decide) (by decide)
  simp only [Prod.mk.injEq] at h
  exact ⟨s, hr, h⟩

/-- Non-vacuity of `C54_repaired`: the schedule of `C54_writer_races` with the repaired fence; the second writer knows the write. -/
example : ∃ s, Reach true 2 s ∧ (s.thr 1).pc = .writing ∧ s.nacc = 1 ∧ (s.thr 1).cur 0 = true := by
  obtain ⟨s, hr, h⟩ := reach_run (fix := true) (n := 2) (writeSection 0 0 [.access true] ++ enterWrite 1 2)
    (fun s => ((s.thr 1).pc, s.nacc, (s.thr 1).cur 0)) (.writing, 1, true) (by decide) (by decide)
  simp only [Prod.mk.injEq] at h
  exact ⟨s, hr, h⟩

end BwTree.Spin
