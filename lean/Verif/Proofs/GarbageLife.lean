import Verif.Proofs.GarbageSim

/-! ClearThreadLocalGarbage, UpdateThreadLocal and the destructor on the linked lists (used by Props/GarbageList). -/

namespace BwTree
namespace GC
namespace Rec

theorem quiet_not_running {g : GC.State} (hq : ∀ t, g.pc t = .idle) (t : Nat) : ¬ Running g t := by
  rintro (h | ⟨_, _, h⟩ | ⟨_, _, h⟩ | ⟨_, h⟩) <;> (rw [hq t] at h; cases h)

/-- While no operation runs the epochs and the number of threads do not matter. -/
theorem inv_relabel {n n' : Nat} {g : GC.State} (h : Inv n g) (hq : ∀ t, g.pc t = .idle) (lae : Nat → Nat) :
    Inv n' { g with lae := lae } where
  runN := fun t ht => absurd (hq t) ht
  runE := fun t hr => absurd hr (quiet_not_running (g := { g with lae := lae }) hq t)
  joinE := h.joinE
  tickE := h.tickE
  outC := h.outC
  joinC := h.joinC
  addS := h.addS
  garbS := h.garbS
  garbND := h.garbND
  garbDisj := h.garbDisj
  garbAll := h.garbAll
  sorted := h.sorted
  garbE := h.garbE
  addLast := h.addLast
  cnt := h.cnt
  freedS := h.freedS
  freedND := h.freedND
  safe := fun t _ hr => absurd hr (quiet_not_running (g := { g with lae := lae }) hq t)
  safeAdd := fun t _ _ _ hr => absurd hr (quiet_not_running (g := { g with lae := lae }) hq t)
  safeGarb := fun t _ _ _ hr => absurd hr (quiet_not_running (g := { g with lae := lae }) hq t)
  safeSum := fun t _ _ _ _ _ hr => absurd hr (quiet_not_running (g := { g with lae := lae }) hq t)
  safeFree := fun t _ _ _ _ hr => absurd hr (quiet_not_running (g := { g with lae := lae }) hq t)

/-- Destroying the oldest garbage of a thread while no operation runs. -/
theorem inv_pop {n : Nat} {g : GC.State} (h : Inv n g) (hq : ∀ t, g.pc t = .idle) {t o d : Nat} {rest : List (Nat × Nat)}
    (hg : g.garb t = (o, d) :: rest) {cnt : Nat → Nat} (hc : ∀ u, cnt u = (upd g.garb t rest u).length) :
    Inv n { g with garb := upd g.garb t rest, cnt := cnt, st := upd g.st o .freed, freed := o :: g.freed } := by
  have hot : (o, d) ∈ g.garb t := by rw [hg]; simp
  have hsub : ∀ u p, p ∈ upd g.garb t rest u → p ∈ g.garb u := by
    intro u p hp
    by_cases e : u = t
    · subst e; rw [upd_same] at hp; rw [hg]; exact List.mem_cons_of_mem _ hp
    · rw [upd_ne _ _ e] at hp; exact hp
  have hne : ∀ u o' d', (o', d') ∈ upd g.garb t rest u → o' ≠ o := by
    intro u o' d' hp e
    subst e
    have := h.garbDisj u t o' d' d (hsub u _ hp) hot
    subst this
    rw [upd_same] at hp
    have hnd := h.garbND u
    rw [hg, List.pairwise_cons] at hnd
    exact hnd.1 _ hp rfl
  have hpw : ∀ {R : Nat × Nat → Nat × Nat → Prop} (u : Nat), (g.garb u).Pairwise R → (upd g.garb t rest u).Pairwise R := by
    intro R u hp
    by_cases e : u = t
    · subst e; rw [upd_same]; rw [hg, List.pairwise_cons] at hp; exact hp.2
    · rw [upd_ne _ _ e]; exact hp
  have hrun : ∀ u, ¬ Running { g with garb := upd g.garb t rest, cnt := cnt, st := upd g.st o .freed, freed := o :: g.freed } u :=
    fun u => quiet_not_running (g := { g with garb := upd g.garb t rest, cnt := cnt, st := upd g.st o .freed, freed := o :: g.freed }) hq u
  have hidle : ∀ {u : Nat} {p : PC}, g.pc u = p → p ≠ .idle → False := fun {u p} he hp => hp (he.symm.trans (hq u))
  refine
    { runN := fun u hu => absurd (hq u) hu, runE := fun u hr => absurd hr (hrun u), joinE := h.joinE, tickE := h.tickE, outC := h.outC,
      joinC := h.joinC, addS := ?_, garbS := ?_, garbND := fun u => hpw u (h.garbND u), garbDisj := ?_, garbAll := ?_,
      sorted := fun u => hpw u (h.sorted u), garbE := fun u o' d' hp => h.garbE u o' d' (hsub u _ hp), addLast := ?_, cnt := hc,
      freedS := ?_, freedND := ?_, safe := fun u _ hr => absurd hr (hrun u), safeAdd := fun u _ _ _ hr => absurd hr (hrun u),
      safeGarb := fun u _ _ _ hr => absurd hr (hrun u), safeSum := fun u _ _ _ _ _ hr => absurd hr (hrun u),
      safeFree := fun u _ _ _ _ hr => absurd hr (hrun u) }
  · intro u o' d' hp
    exact (hidle hp (by intro e; cases e)).elim
  · intro u o' d' hp
    show upd g.st o .freed o' = .retired
    rw [upd_ne _ _ (hne u o' d' hp)]
    exact h.garbS u o' d' (hsub u _ hp)
  · intro u v o' d' d'' hu hv
    exact h.garbDisj u v o' d' d'' (hsub u _ hu) (hsub v _ hv)
  · intro o' ho'
    have ho'2 : upd g.st o .freed o' = .retired := ho'
    have hoo : o' ≠ o := by
      intro e
      subst e
      rw [upd_same] at ho'2
      cases ho'2
    rw [upd_ne _ _ hoo] at ho'2
    obtain ⟨u, d', hd'⟩ := h.garbAll o' ho'2
    refine ⟨u, d', ?_⟩
    show (o', d') ∈ upd g.garb t rest u
    by_cases e : u = t
    · subst e
      rw [upd_same]
      rw [hg] at hd'
      rcases List.mem_cons.1 hd' with e | e
      · exact absurd (congrArg Prod.fst e) hoo
      · exact e
    · rw [upd_ne _ _ e]; exact hd'
  · intro u o' d' hp
    exact (hidle hp (by intro e; cases e)).elim
  · intro o'
    show o' ∈ o :: g.freed ↔ upd g.st o .freed o' = .freed
    by_cases e : o' = o
    · subst e; simp [upd]
    · rw [upd_ne _ _ e]
      simp only [List.mem_cons, e, false_or]
      exact h.freedS o'
  · show (o :: g.freed).Nodup
    refine List.nodup_cons.2 ⟨?_, h.freedND⟩
    intro ho
    have h1 := (h.freedS o).1 ho
    have h2 := h.garbS t o d hot
    rw [h1] at h2
    cases h2

/-- A state of a tree in which no operation runs. -/
structure Rest (s : State) (lae : Nat → Nat) (garb : Nat → List (Nat × Nat)) (loose : Nat → Prop) : Prop where
  quiet : Quiet s
  inv : Inv s.threadNum (view s lae garb (fun u => (garb u).length))
  lists : ∃ l A, Lists s.threadNum s.arr s.heap lae garb loose l A

/-- What collecting garbage changes. -/
structure Swept (s s' : State) : Prop where
  eq : s' = { s with arr := s'.arr, heap := s'.heap, st := s'.st, freed := s'.freed }
  st : ∀ o, s'.st o = s.st o ∨ (s.st o = .retired ∧ s'.st o = .freed)
  freed : ∃ w, s'.freed = w ++ s.freed

theorem Swept.refl (s : State) : Swept s s := ⟨rfl, fun _ => Or.inl rfl, [], rfl⟩

theorem Swept.trans {s s' s'' : State} (h : Swept s s') (h' : Swept s' s'') : Swept s s'' := by
  refine ⟨?_, ?_, ?_⟩
  · rw [h'.eq, h.eq]
  · intro o
    rcases h'.st o with e | ⟨e1, e2⟩
    · rcases h.st o with f | ⟨f1, f2⟩
      · exact Or.inl (e.trans f)
      · exact Or.inr ⟨f1, e.trans f2⟩
    · rcases h.st o with f | ⟨f1, f2⟩
      · exact Or.inr ⟨f.symm.trans e1, e2⟩
      · rw [f2] at e1; cases e1
  · obtain ⟨w, hw⟩ := h.freed
    obtain ⟨w', hw'⟩ := h'.freed
    exact ⟨w' ++ w, by rw [hw', hw, List.append_assoc]⟩

theorem Swept.num {s s' : State} (h : Swept s s') : s'.threadNum = s.threadNum := by rw [h.eq]

theorem Swept.epoch {s s' : State} (h : Swept s s') : s'.epoch = s.epoch := by rw [h.eq]

/-- The loop 2742-2744. -/
theorem unregisterAll_spec : ∀ (k i : Nat) {s : State} {lae : Nat → Nat} {garb : Nat → List (Nat × Nat)},
    Rest s lae garb (fun _ => False) → i + k = s.threadNum → (∀ j, j < i → lae j = UMAX) →
    ∃ s' lae', unregisterAll k i s = .ok s' ∧ Swept s s' ∧ Rest s' lae' garb (fun _ => False) ∧ ∀ j, j < s.threadNum → lae' j = UMAX
  | 0, i, s, lae, garb, h, hik, hlt => ⟨s, lae, rfl, Swept.refl s, h, fun j hj => hlt j (by omega)⟩
  | k + 1, i, s, lae, garb, h, hik, hlt => by
    obtain ⟨l, A, hl⟩ := h.lists
    obtain ⟨x, hg, hx⟩ := hl.get (i := i) (by omega)
    have h1 : Rest (setSlot s i { x with lae := UMAX }) (upd lae i UMAX) garb (fun _ => False) :=
      ⟨h.quiet, inv_relabel h.inv h.quiet _, _, A, hl.setLae hx UMAX⟩
    obtain ⟨s', lae', hr, hsw, hrest, hall⟩ := unregisterAll_spec k (i + 1) (s := setSlot s i { x with lae := UMAX }) h1
      (by show i + 1 + k = s.threadNum; omega)
      (by
        intro j hj
        by_cases e : j = i
        · subst e; rw [upd_same]
        · rw [upd_ne _ _ e]; exact hlt j (by omega))
    refine ⟨s', lae', ?_, ?_, hrest, hall⟩
    · simp [unregisterAll, hg, bind, Except.bind, hr]
    · exact Swept.trans (s' := setSlot s i { x with lae := UMAX }) ⟨rfl, fun _ => Or.inl rfl, [], rfl⟩ hsw

/-- SummarizeGCEpoch when every thread has been unregistered. -/
theorem summarize_spec {s : State} {lae : Nat → Nat} {garb : Nat → List (Nat × Nat)} {loose : Nat → Prop}
    (h : Rest s lae garb loose) (hn : s.threadNum ≠ 0) (hu : ∀ j, j < s.threadNum → lae j = UMAX) : summarize s = .ok UMAX := by
  obtain ⟨l, A, hl⟩ := h.lists
  have hloop : ∀ k i, i + k ≤ s.threadNum → minLoop s k i UMAX = .ok UMAX := by
    intro k
    induction k with
    | zero => intro i _; rfl
    | succ k ih =>
      intro i hi
      obtain ⟨x, hg, hx⟩ := hl.get (i := i) (by omega)
      have : x.lae = UMAX := (hl.lae i x hx).trans (hu i (by omega))
      simp only [minLoop, hg, bind, Except.bind, this, Nat.min_self]
      exact ih (i + 1) (by omega)
  obtain ⟨x, hg, hx⟩ := hl.get (i := 0) (by omega)
  have : x.lae = UMAX := (hl.lae 0 x hx).trans (hu 0 (by omega))
  simp only [summarize, hn, if_false, hg, bind, Except.bind, this]
  exact hloop _ _ (by omega)

/-- The loop of PerformGC when everything is old enough. -/
theorem collectLoop_spec (t m : Nat) : ∀ (gs : List (Nat × Nat)) {s : State} {lae : Nat → Nat} {garb : Nat → List (Nat × Nat)}
    {loose : Nat → Prop}, Rest s lae garb loose → (∀ i, loose i → i = t) → t < s.threadNum → garb t = gs → (∀ p ∈ gs, p.2 < m) →
    ∃ s', collectLoop (gs.length + 1) s t m = .ok s' ∧ Swept s s' ∧ Rest s' lae (upd garb t []) (fun _ => False)
  | [], s, lae, garb, loose, h, hlo, ht, hg, _ => by
    obtain ⟨l, A, hl⟩ := h.lists
    obtain ⟨l1, hc, hl1⟩ := collect_nil (m := m) hl ht hg
    have hup : upd garb t [] = garb := by
      funext i
      by_cases e : i = t
      · subst e; rw [upd_same, hg]
      · rw [upd_ne _ _ e]
    refine ⟨{ s with arr := some l1 }, ?_, ⟨rfl, fun _ => Or.inl rfl, [], rfl⟩, h.quiet, ?_, l1, A, ?_⟩
    · simp [collectLoop, hc, bind, Except.bind, pure, Except.pure]
    · rw [hup]; exact h.inv
    · rw [hup]
      exact hl1.weaken (fun i hi => hi.2 (hlo i hi.1))
  | (o, d) :: gs, s, lae, garb, loose, h, hlo, ht, hg, hm => by
    obtain ⟨l, A, hl⟩ := h.lists
    obtain ⟨l1, h1, as, hc, hl1⟩ := collect_pop hl ht hg (hm (o, d) (by simp))
    have hrest : Rest { s with arr := some l1, heap := h1, st := upd s.st o .freed, freed := o :: s.freed } lae (upd garb t gs)
        (fun i => loose i ∨ i = t) := ⟨h.quiet, inv_pop h.inv h.quiet hg (fun _ => rfl), l1, _, hl1⟩
    obtain ⟨s', hr, hsw, hr'⟩ := collectLoop_spec t m gs hrest (by
      rintro i (hi | hi)
      · exact hlo i hi
      · exact hi) ht (upd_same _ _ _) (fun p hp => hm p (List.mem_cons_of_mem _ hp))
    have hup : upd (upd garb t gs) t [] = upd garb t [] := by
      funext i
      by_cases e : i = t
      · subst e; simp [upd]
      · simp [upd, e]
    rw [hup] at hr'
    have hst : s.st o = .retired := h.inv.garbS t o d (by show (o, d) ∈ garb t; rw [hg]; simp)
    refine ⟨s', ?_, Swept.trans ⟨rfl, ?_, [o], rfl⟩ hsw, hr'⟩
    · simp only [List.length_cons, collectLoop, hc, bind, Except.bind, if_true]
      exact hr
    · intro o'
      by_cases e : o' = o
      · subst e
        exact Or.inr ⟨hst, upd_same _ _ _⟩
      · exact Or.inl (upd_ne _ _ e)

/-- The loop 2746-2753. -/
theorem clearLoop_spec : ∀ (k i : Nat) {s : State} {lae : Nat → Nat} {garb : Nat → List (Nat × Nat)},
    Rest s lae garb (fun _ => False) → i + k = s.threadNum → (∀ j, j < s.threadNum → lae j = UMAX) → s.epoch < UMAX →
    (∀ j, j < i → garb j = []) →
    ∃ s', clearLoop k i s = .ok s' ∧ Swept s s' ∧ Rest s' lae (fun _ => []) (fun _ => False)
  | 0, i, s, lae, garb, h, hik, hu, he, hdone => by
    obtain ⟨l, A, hl⟩ := h.lists
    have hup : garb = fun _ => [] := by
      funext j
      by_cases hj : j < i
      · exact hdone j hj
      · exact (hl.out j (by omega)).2
    refine ⟨s, rfl, Swept.refl s, ?_⟩
    rw [← hup]
    exact h
  | k + 1, i, s, lae, garb, h, hik, hu, he, hdone => by
    obtain ⟨l, A, hl⟩ := h.lists
    obtain ⟨x, hg, hx⟩ := hl.get (i := i) (by omega)
    have hsum : summarize s = .ok UMAX := summarize_spec h (by omega) hu
    have hcx : x.count = (garb i).length := hl.cnt i x hx
    obtain ⟨s1, hr1, hsw1, hrest1⟩ := collectLoop_spec i UMAX (garb i) h (fun _ hf => hf.elim) (by omega) rfl (by
      rintro ⟨o, d⟩ hp
      exact Nat.lt_of_le_of_lt (h.inv.garbE i o d hp) he)
    have hn1 := hsw1.num
    obtain ⟨l1, A1, hl1⟩ := hrest1.lists
    obtain ⟨x1, hg1, hx1⟩ := hl1.get (i := i) (by omega)
    have hc1 : x1.count = 0 := by rw [hl1.cnt i x1 hx1, upd_same]; rfl
    obtain ⟨s', hr', hsw', hrest'⟩ := clearLoop_spec k (i + 1) hrest1 (by omega) (by rw [hn1]; exact hu) (by rw [hsw1.epoch]; exact he) (by
      intro j hj
      by_cases e : j = i
      · subst e; rw [upd_same]
      · rw [upd_ne _ _ e]; exact hdone j (by omega))
    refine ⟨s', ?_, hsw1.trans hsw', hrest'⟩
    simp only [clearLoop, performGC, hsum, hg, hcx, hr1, hg1, hc1, bind, Except.bind, if_true]
    exact hr'

/-- ClearThreadLocalGarbage. -/
theorem clearGarbage_spec {s : State} {lae : Nat → Nat} {garb : Nat → List (Nat × Nat)} (h : Rest s lae garb (fun _ => False))
    (he : s.epoch < UMAX) :
    ∃ s' lae', clearGarbage s = .ok s' ∧ Swept s s' ∧ Rest s' lae' (fun _ => []) (fun _ => False) := by
  obtain ⟨s1, lae1, hr1, hsw1, hrest1, hall1⟩ := unregisterAll_spec s.threadNum 0 h (by omega) (by intro j hj; omega)
  have hn1 := hsw1.num
  obtain ⟨s', hr', hsw', hrest'⟩ := clearLoop_spec s1.threadNum 0 hrest1 (by omega) (by rw [hn1]; exact hall1)
    (by rw [hsw1.epoch]; exact he) (by intro j hj; omega)
  exact ⟨s', lae1, by simp [clearGarbage, hr1, bind, Except.bind, hr'], hsw1.trans hsw', hrest'⟩

/-- No record exists when all lists are empty. -/
theorem Rest.heap {s : State} {lae : Nat → Nat} {loose : Nat → Prop} (h : Rest s lae (fun _ => []) loose) : ∀ a, s.heap a = none := by
  intro a
  obtain ⟨l, A, hl⟩ := h.lists
  cases ha : s.heap a with
  | none => rfl
  | some n =>
    obtain ⟨i, hi⟩ := hl.cover a (by rw [ha]; intro e; cases e)
    by_cases hin : i < s.threadNum
    · obtain ⟨x, _, hx⟩ := hl.get hin
      have := (hl.seg i x hx).len
      rw [List.length_eq_zero_iff.1 this] at hi
      cases hi
    · rw [(hl.out i (by omega)).1] at hi
      cases hi

/-- DestroyThreadLocal when all lists are empty. -/
theorem destroy_spec {s : State} {lae : Nat → Nat} {loose : Nat → Prop} (h : Rest s lae (fun _ => []) loose) :
    destroyThreadLocal s = .ok { s with arr := none } := by
  obtain ⟨l, A, hl⟩ := h.lists
  have hloop : ∀ k i, i + k ≤ s.threadNum → destroyLoop s k i = .ok () := by
    intro k
    induction k with
    | zero => intro i _; rfl
    | succ k ih =>
      intro i hi
      obtain ⟨x, hg, hx⟩ := hl.get (i := i) (by omega)
      have hs := hl.seg i x hx
      have hA : A i = [] := List.length_eq_zero_iff.1 hs.len
      have hh : x.head = none := (hA ▸ hs).nil.1
      simp only [destroyLoop, hg, bind, Except.bind, hh, if_true]
      exact ih (i + 1) (by omega)
  simp [destroyThreadLocal, hloop s.threadNum 0 (by omega), bind, Except.bind, pure, Except.pure]

/-- A new array of metadata. -/
theorem prepare_spec {s : State} {lae : Nat → Nat} {loose : Nat → Prop} (h : Rest s lae (fun _ => []) loose) (n : Nat) :
    Rest { s with threadNum := n, arr := some (List.replicate n Slot.new) } (fun _ => 0) (fun _ => []) (fun _ => False) := by
  have hheap := h.heap
  refine ⟨h.quiet, inv_relabel h.inv h.quiet _, List.replicate n Slot.new, fun _ => [], ?_⟩
  have hget : ∀ (i : Nat) (x : Slot), (List.replicate n Slot.new)[i]? = some x → x = Slot.new := by
    intro i x hx
    exact List.eq_of_mem_replicate (List.mem_of_getElem? hx)
  constructor
  · rfl
  · simp
  · intro i x hx; rw [hget i x hx]; rfl
  · intro i x hx; rw [hget i x hx]; rfl
  · intro i x hx; rw [hget i x hx]; trivial
  · intro i x b _ hb; cases hb
  · intro i x hx _; rw [hget i x hx]; exact Or.inl rfl
  · intro i; exact List.nodup_nil
  · intro i j a hi; cases hi
  · intro i _; exact ⟨rfl, rfl⟩
  · intro a ha; exact absurd (hheap a) ha
  · intro i a hi; cases hi

/-- UpdateThreadLocal. -/
theorem update_spec {s : State} {lae : Nat → Nat} {garb : Nat → List (Nat × Nat)} (h : Rest s lae garb (fun _ => False))
    (he : s.epoch < UMAX) (n : Nat) :
    ∃ s1, Swept s s1 ∧ updateThreadLocal n s = .ok { s1 with threadNum := n, arr := some (List.replicate n Slot.new) } ∧
      tearDown s = .ok { s1 with arr := none } ∧ (∀ a, s1.heap a = none) ∧
      Rest { s1 with threadNum := n, arr := some (List.replicate n Slot.new) } (fun _ => 0) (fun _ => []) (fun _ => False) := by
  obtain ⟨s1, lae1, hr, hsw, hrest⟩ := clearGarbage_spec h he
  refine ⟨s1, hsw, ?_, ?_, hrest.heap, prepare_spec hrest n⟩
  · simp [updateThreadLocal, hr, destroy_spec hrest, bind, Except.bind, pure, Except.pure, setThreadNum, prepareThreadLocal]
  · simp [tearDown, hr, destroy_spec hrest, bind, Except.bind]

end Rec
end GC
end BwTree
