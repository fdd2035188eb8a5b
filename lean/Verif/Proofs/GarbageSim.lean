import Verif.Proofs.GarbageList

/-! Every step on the linked lists is a step of `Model/EpochGC` (used by Props/GarbageList). -/

namespace BwTree
namespace GC
namespace Rec

/-- The state of `Model/EpochGC` with the given epochs and lists. -/
def view (s : State) (lae : Nat → Nat) (garb : Nat → List (Nat × Nat)) (cnt : Nat → Nat) : GC.State :=
  { epoch := s.epoch, lae := lae, pc := s.pc, garb := garb, cnt := cnt, st := s.st, tick := s.tick, freed := s.freed,
    clock := s.clock, joinT := s.joinT, outT := s.outT }

/-- `last_p` is out of date only during a collection. -/
def Loose (s : State) (i : Nat) : Prop := ∃ m, s.pc i = .freeing m

/-- `s` represents `g`. -/
structure Abs (s : State) (g : GC.State) : Prop where
  eq : g = view s g.lae g.garb g.cnt
  sum : ∀ t i m, s.pc t = .summing i m → i < s.threadNum
  lists : ∃ l A, Lists s.threadNum s.arr s.heap g.lae g.garb (Loose s) l A

/-- The step is an attempt to use an id for which there is no metadata. -/
def BadId (s : State) (x : Act) : Prop :=
  ∃ t, ¬ t < s.threadNum ∧ ((x = .joinRead t ∧ s.pc t = .idle) ∨ x = .unregister t)

/-- The results agree. -/
def Agree (n : Nat) (r : Except Fault (Option State)) (q : Option GC.State) : Prop :=
  (q = none ∧ r = .ok none) ∨ ∃ s' g', q = some g' ∧ r = .ok (some s') ∧ s'.threadNum = n ∧ Abs s' g'

theorem Agree.some {n : Nat} {s' : State} {g' : GC.State} (hn : s'.threadNum = n) (h : Abs s' g') :
    Agree n (.ok (some s')) (some g') := Or.inr ⟨s', g', rfl, rfl, hn, h⟩

theorem Agree.none {n : Nat} : Agree n (.ok none) none := Or.inl ⟨rfl, rfl⟩

theorem sum_upd {s : State} {t : Nat} {p : PC} (h : ∀ t i m, s.pc t = .summing i m → i < s.threadNum)
    (hp : ∀ i m, p = .summing i m → i < s.threadNum) :
    ∀ u i m, upd s.pc t p u = .summing i m → i < s.threadNum := by
  intro u i m hu
  by_cases e : u = t
  · subst e; rw [upd_same] at hu; exact hp i m hu
  · rw [upd_ne _ _ e] at hu; exact h u i m hu

theorem loose_upd {s s' : State} {t : Nat} {p q : PC} (hs' : s'.pc = upd s.pc t p) (hq : s.pc t = q) (hnq : ∀ m, q ≠ .freeing m) :
    ∀ i, Loose s i → Loose s' i := by
  rintro i ⟨m, hm⟩
  have e : i ≠ t := by
    intro e
    subst e
    exact hnq m (hq.symm.trans hm)
  exact ⟨m, by rw [hs', upd_ne _ _ e]; exact hm⟩

theorem sim_step' {s : State} {lae : Nat → Nat} {garb : Nat → List (Nat × Nat)} {cnt : Nat → Nat} {l : List Slot} {A : Nat → List Nat}
    {a : Nat} {x : Act} (hrun : ∀ t, s.pc t ≠ PC.idle → t < s.threadNum) (hcnt : ∀ u, cnt u = (garb u).length)
    (hsum : ∀ t i m, s.pc t = .summing i m → i < s.threadNum)
    (hl : Lists s.threadNum s.arr s.heap lae garb (Loose s) l A) (ha : s.heap a = none) (hb : ¬ BadId s x) :
    Agree s.threadNum (step' a s x) (GC.step' s.threadNum (view s lae garb cnt) x) := by
  cases x with
  | joinRead t =>
    by_cases hpc : s.pc t = .idle
    · have ht : t < s.threadNum := Decidable.byContradiction (fun hn => hb ⟨t, hn, Or.inl ⟨rfl, hpc⟩⟩)
      obtain ⟨x, hg, hx⟩ := hl.get ht
      have e1 : step' a s (.joinRead t) = .ok (some { s with pc := upd s.pc t (.joining s.epoch) }) := by
        simp [step', hpc, hg, bind, Except.bind, pure, Except.pure]
      have e2 : GC.step' s.threadNum (view s lae garb cnt) (.joinRead t) =
          some { view s lae garb cnt with pc := upd s.pc t (.joining s.epoch) } := by
        simp [GC.step', view, ht, hpc]
      rw [e1, e2]
      exact Agree.some rfl ⟨rfl, sum_upd hsum (fun _ _ h => by cases h),
        l, A, hl.weaken (loose_upd rfl hpc (by intro m h; cases h))⟩
    · have e1 : step' a s (.joinRead t) = .ok none := by simp [step', hpc, pure, Except.pure]
      have e2 : GC.step' s.threadNum (view s lae garb cnt) (.joinRead t) = none := by simp [GC.step', view, hpc]
      rw [e1, e2]
      exact Agree.none
  | joinStore t =>
    cases hpc : s.pc t with
    | joining e =>
      have ht : t < s.threadNum := hrun t (by rw [hpc]; intro h; cases h)
      obtain ⟨x, hg, hx⟩ := hl.get ht
      have e1 : step' a s (.joinStore t) =
          .ok (some { setSlot s t { x with lae := e } with pc := upd s.pc t .active, joinT := upd s.joinT t s.clock }) := by
        simp [step', hpc, hg, bind, Except.bind, pure, Except.pure]
      have e2 : GC.step' s.threadNum (view s lae garb cnt) (.joinStore t) =
          some { view s lae garb cnt with lae := upd lae t e, pc := upd s.pc t .active, joinT := upd s.joinT t s.clock } := by
        simp [GC.step', view, hpc]
      rw [e1, e2]
      exact Agree.some rfl ⟨rfl, sum_upd hsum (fun _ _ h => by cases h),
        _, A, (hl.setLae hx e).weaken (loose_upd rfl hpc (by intro m h; cases h))⟩
    | _ =>
      have e1 : step' a s (.joinStore t) = .ok none := by simp [step', hpc, pure, Except.pure]
      have e2 : GC.step' s.threadNum (view s lae garb cnt) (.joinStore t) = none := by simp [GC.step', view, hpc]
      rw [e1, e2]
      exact Agree.none
  | link t o =>
    by_cases hc : s.pc t = .active ∧ s.st o = .fresh
    · have e1 : step' a s (.link t o) = .ok (some { s with st := upd s.st o .linked }) := by simp [step', hc, pure, Except.pure]
      have e2 : GC.step' s.threadNum (view s lae garb cnt) (.link t o) = some { view s lae garb cnt with st := upd s.st o .linked } := by
        simp [GC.step', view, hc]
      rw [e1, e2]
      exact Agree.some rfl ⟨rfl, hsum, l, A, hl⟩
    · have e1 : step' a s (.link t o) = .ok none := by simp only [step', hc]; rfl
      have e2 : GC.step' s.threadNum (view s lae garb cnt) (.link t o) = none := by
        simp only [GC.step', view, hc]; rfl
      rw [e1, e2]
      exact Agree.none
  | make t o =>
    by_cases hc : s.pc t = .active ∧ s.st o = .fresh
    · have e1 : step' a s (.make t o) = .ok (some { s with st := upd s.st o (.owned t), outT := upd s.outT o s.clock }) := by
        simp [step', hc, pure, Except.pure]
      have e2 : GC.step' s.threadNum (view s lae garb cnt) (.make t o) =
          some { view s lae garb cnt with st := upd s.st o (.owned t), outT := upd s.outT o s.clock } := by
        simp [GC.step', view, hc]
      rw [e1, e2]
      exact Agree.some rfl ⟨rfl, hsum, l, A, hl⟩
    · have e1 : step' a s (.make t o) = .ok none := by simp only [step', hc]; rfl
      have e2 : GC.step' s.threadNum (view s lae garb cnt) (.make t o) = none := by
        simp only [GC.step', view, hc]; rfl
      rw [e1, e2]
      exact Agree.none
  | unlink t o =>
    by_cases hc : s.pc t = .active ∧ s.st o = .linked
    · have e1 : step' a s (.unlink t o) = .ok (some { s with st := upd s.st o (.owned t), outT := upd s.outT o s.clock }) := by
        simp [step', hc, pure, Except.pure]
      have e2 : GC.step' s.threadNum (view s lae garb cnt) (.unlink t o) =
          some { view s lae garb cnt with st := upd s.st o (.owned t), outT := upd s.outT o s.clock } := by
        simp [GC.step', view, hc]
      rw [e1, e2]
      exact Agree.some rfl ⟨rfl, hsum, l, A, hl⟩
    · have e1 : step' a s (.unlink t o) = .ok none := by simp only [step', hc]; rfl
      have e2 : GC.step' s.threadNum (view s lae garb cnt) (.unlink t o) = none := by
        simp only [GC.step', view, hc]; rfl
      rw [e1, e2]
      exact Agree.none
  | addRead t o =>
    by_cases hc : s.pc t = .active ∧ s.st o = .owned t
    · have e1 : step' a s (.addRead t o) = .ok (some { s with pc := upd s.pc t (.adding o s.epoch) }) := by
        simp [step', hc, pure, Except.pure]
      have e2 : GC.step' s.threadNum (view s lae garb cnt) (.addRead t o) =
          some { view s lae garb cnt with pc := upd s.pc t (.adding o s.epoch) } := by
        simp [GC.step', view, hc]
      rw [e1, e2]
      exact Agree.some rfl ⟨rfl, sum_upd hsum (fun _ _ h => by cases h),
        l, A, hl.weaken (loose_upd rfl hc.1 (by intro m h; cases h))⟩
    · have e1 : step' a s (.addRead t o) = .ok none := by simp only [step', hc]; rfl
      have e2 : GC.step' s.threadNum (view s lae garb cnt) (.addRead t o) = none := by
        simp only [GC.step', view, hc]; rfl
      rw [e1, e2]
      exact Agree.none
  | addLink t =>
    cases hpc : s.pc t with
    | adding o d =>
      have ht : t < s.threadNum := hrun t (by rw [hpc]; intro h; cases h)
      obtain ⟨l1, h1, x1, hap, hx1, hl1⟩ := append_spec (o := o) (d := d) hl ht ha (by rintro ⟨m, hm⟩; rw [hpc] at hm; cases hm)
      have hcount : x1.count = cnt t + 1 := by
        have := hl1.cnt t x1 hx1
        rw [upd_same] at this
        simp [this, hcnt t]
      have hg1 : getSlot { s with arr := some l1, heap := h1 } t = .ok x1 := by
        simp [getSlot, ht, hx1]; rfl
      have e1 : step' a s (.addLink t) =
          .ok (some { s with arr := some l1, heap := h1, st := upd s.st o .retired,
                             pc := upd s.pc t (if THRESHOLD < x1.count then .summing 0 0 else .active) }) := by
        simp only [step', hpc, hap, bind, Except.bind, hg1]
        rfl
      have e2 : GC.step' s.threadNum (view s lae garb cnt) (.addLink t) =
          some { view s lae garb cnt with
                  garb := upd garb t (garb t ++ [(o, d)]), cnt := upd cnt t (cnt t + 1), st := upd s.st o .retired,
                  pc := upd s.pc t (if THRESHOLD < cnt t + 1 then .summing 0 0 else .active) } := by
        simp only [GC.step', view, hpc]
        rfl
      rw [e1, e2, hcount]
      refine Agree.some rfl ⟨rfl, sum_upd hsum ?_, l1, _, hl1.weaken (loose_upd rfl hpc (by intro m h; cases h))⟩
      intro i m h
      split at h
      · cases h; omega
      · cases h
    | _ =>
      have e1 : step' a s (.addLink t) = .ok none := by simp [step', hpc, pure, Except.pure]
      have e2 : GC.step' s.threadNum (view s lae garb cnt) (.addLink t) = none := by simp [GC.step', view, hpc]
      rw [e1, e2]
      exact Agree.none
  | gcRead t =>
    cases hpc : s.pc t with
    | summing i m =>
      have hi := hsum t i m hpc
      obtain ⟨x, hg, hx⟩ := hl.get hi
      have hn : s.threadNum ≠ 0 := by omega
      have hlae := hl.lae i x hx
      have hm' : (if i = 0 then x.lae else min x.lae m) = (if i = 0 then lae 0 else min (lae i) m) := by
        rw [hlae]
        by_cases h0 : i = 0
        · simp [h0]
        · simp [h0]
      have e1 : step' a s (.gcRead t) =
          .ok (some { s with pc := upd s.pc t (if i + 1 < s.threadNum then .summing (i + 1) (if i = 0 then x.lae else min x.lae m)
            else .freeing (if i = 0 then x.lae else min x.lae m)) }) := by
        simp only [step', hpc, hn, if_false, bind, Except.bind, hg]
        rfl
      have e2 : GC.step' s.threadNum (view s lae garb cnt) (.gcRead t) =
          some { view s lae garb cnt with
                  pc := upd s.pc t (if i + 1 < s.threadNum then .summing (i + 1) (if i = 0 then lae 0 else min (lae i) m)
                    else .freeing (if i = 0 then lae 0 else min (lae i) m)) } := by
        simp only [GC.step', view, hpc]
      rw [e1, e2, hm']
      refine Agree.some rfl ⟨rfl, sum_upd hsum ?_, l, A, hl.weaken (loose_upd rfl hpc (by intro m h; cases h))⟩
      intro j m h
      split at h
      · cases h; assumption
      · cases h
    | _ =>
      have e1 : step' a s (.gcRead t) = .ok none := by simp [step', hpc, pure, Except.pure]
      have e2 : GC.step' s.threadNum (view s lae garb cnt) (.gcRead t) = none := by simp [GC.step', view, hpc]
      rw [e1, e2]
      exact Agree.none
  | gcFree t =>
    cases hpc : s.pc t with
    | freeing m =>
      have ht : t < s.threadNum := hrun t (by rw [hpc]; intro h; cases h)
      have tight : ∀ i, (Loose s i ∧ i ≠ t) → ∃ m, upd s.pc t .active i = .freeing m := by
        rintro i ⟨⟨m, hm⟩, hi⟩
        exact ⟨m, by rw [upd_ne _ _ hi]; exact hm⟩
      cases hgt : garb t with
      | nil =>
        obtain ⟨l1, hc, hl1⟩ := collect_nil (m := m) hl ht hgt
        have e1 : step' a s (.gcFree t) = .ok (some { s with arr := some l1, pc := upd s.pc t .active }) := by
          simp only [step', hpc, bind, Except.bind, hc]
          rfl
        have e2 : GC.step' s.threadNum (view s lae garb cnt) (.gcFree t) = some { view s lae garb cnt with pc := upd s.pc t .active } := by
          simp only [GC.step', view, hpc, hgt]
        rw [e1, e2]
        exact Agree.some rfl ⟨rfl, sum_upd hsum (fun _ _ h => by cases h), l1, A, hl1.weaken tight⟩
      | cons p rest =>
        obtain ⟨o, d⟩ := p
        by_cases hd : d < m
        · obtain ⟨l1, h1, as, hc, hl1⟩ := collect_pop hl ht hgt hd
          have e1 : step' a s (.gcFree t) =
              .ok (some { s with arr := some l1, heap := h1, st := upd s.st o .freed, freed := o :: s.freed }) := by
            simp only [step', hpc, bind, Except.bind, hc]
            rfl
          have e2 : GC.step' s.threadNum (view s lae garb cnt) (.gcFree t) =
              some { view s lae garb cnt with garb := upd garb t rest, cnt := upd cnt t (cnt t - 1), st := upd s.st o .freed,
                                              freed := o :: s.freed } := by
            simp only [GC.step', view, hpc, hgt, hd, if_true]
          rw [e1, e2]
          refine Agree.some rfl ⟨rfl, hsum, l1, _, hl1.weaken ?_⟩
          rintro i (h | rfl)
          · exact h
          · exact ⟨m, hpc⟩
        · obtain ⟨hc, hl1⟩ := collect_stop hl ht hgt hd
          have e1 : step' a s (.gcFree t) = .ok (some { s with pc := upd s.pc t .active }) := by
            simp only [step', hpc, bind, Except.bind, hc]
            rfl
          have e2 : GC.step' s.threadNum (view s lae garb cnt) (.gcFree t) = some { view s lae garb cnt with pc := upd s.pc t .active } := by
            simp only [GC.step', view, hpc, hgt, hd, if_false]
          rw [e1, e2]
          exact Agree.some rfl ⟨rfl, sum_upd hsum (fun _ _ h => by cases h), l, A, hl1.weaken tight⟩
    | _ =>
      have e1 : step' a s (.gcFree t) = .ok none := by simp [step', hpc, pure, Except.pure]
      have e2 : GC.step' s.threadNum (view s lae garb cnt) (.gcFree t) = none := by simp [GC.step', view, hpc]
      rw [e1, e2]
      exact Agree.none
  | leaveRead t =>
    by_cases hc : s.pc t = .active
    · have e1 : step' a s (.leaveRead t) = .ok (some { s with pc := upd s.pc t (.leaving s.epoch) }) := by
        simp [step', hc, pure, Except.pure]
      have e2 : GC.step' s.threadNum (view s lae garb cnt) (.leaveRead t) =
          some { view s lae garb cnt with pc := upd s.pc t (.leaving s.epoch) } := by
        simp [GC.step', view, hc]
      rw [e1, e2]
      exact Agree.some rfl ⟨rfl, sum_upd hsum (fun _ _ h => by cases h),
        l, A, hl.weaken (loose_upd rfl hc (by intro m h; cases h))⟩
    · have e1 : step' a s (.leaveRead t) = .ok none := by simp [step', hc, pure, Except.pure]
      have e2 : GC.step' s.threadNum (view s lae garb cnt) (.leaveRead t) = none := by simp [GC.step', view, hc]
      rw [e1, e2]
      exact Agree.none
  | leaveStore t =>
    cases hpc : s.pc t with
    | leaving e =>
      have ht : t < s.threadNum := hrun t (by rw [hpc]; intro h; cases h)
      obtain ⟨x, hg, hx⟩ := hl.get ht
      have e1 : step' a s (.leaveStore t) =
          .ok (some { setSlot s t { x with lae := e } with pc := upd s.pc t .idle }) := by
        simp [step', hpc, hg, bind, Except.bind, pure, Except.pure]
      have e2 : GC.step' s.threadNum (view s lae garb cnt) (.leaveStore t) =
          some { view s lae garb cnt with lae := upd lae t e, pc := upd s.pc t .idle } := by
        simp [GC.step', view, hpc]
      rw [e1, e2]
      exact Agree.some rfl ⟨rfl, sum_upd hsum (fun _ _ h => by cases h),
        _, A, (hl.setLae hx e).weaken (loose_upd rfl hpc (by intro m h; cases h))⟩
    | _ =>
      have e1 : step' a s (.leaveStore t) = .ok none := by simp [step', hpc, pure, Except.pure]
      have e2 : GC.step' s.threadNum (view s lae garb cnt) (.leaveStore t) = none := by simp [GC.step', view, hpc]
      rw [e1, e2]
      exact Agree.none
  | tickRead k =>
    cases ht : s.tick k with
    | none =>
      have e1 : step' a s (.tickRead k) = .ok (some { s with tick := upd s.tick k (some s.epoch) }) := by
        simp [step', ht, pure, Except.pure]
      have e2 : GC.step' s.threadNum (view s lae garb cnt) (.tickRead k) =
          some { view s lae garb cnt with tick := upd s.tick k (some s.epoch) } := by
        simp [GC.step', view, ht]
      rw [e1, e2]
      exact Agree.some rfl ⟨rfl, hsum, l, A, hl⟩
    | some e =>
      have e1 : step' a s (.tickRead k) = .ok none := by simp [step', ht, pure, Except.pure]
      have e2 : GC.step' s.threadNum (view s lae garb cnt) (.tickRead k) = none := by simp [GC.step', view, ht]
      rw [e1, e2]
      exact Agree.none
  | tickWrite k =>
    cases ht : s.tick k with
    | some e =>
      have e1 : step' a s (.tickWrite k) = .ok (some { s with epoch := e + 1, tick := upd s.tick k none }) := by
        simp [step', ht, pure, Except.pure]
      have e2 : GC.step' s.threadNum (view s lae garb cnt) (.tickWrite k) =
          some { view s lae garb cnt with epoch := e + 1, tick := upd s.tick k none } := by
        simp [GC.step', view, ht]
      rw [e1, e2]
      exact Agree.some rfl ⟨rfl, hsum, l, A, hl⟩
    | none =>
      have e1 : step' a s (.tickWrite k) = .ok none := by simp [step', ht, pure, Except.pure]
      have e2 : GC.step' s.threadNum (view s lae garb cnt) (.tickWrite k) = none := by simp [GC.step', view, ht]
      rw [e1, e2]
      exact Agree.none
  | unregister t =>
    have ht : t < s.threadNum := Decidable.byContradiction (fun hn => hb ⟨t, hn, Or.inr rfl⟩)
    obtain ⟨x, hg, hx⟩ := hl.get ht
    have e1 : step' a s (.unregister t) = .ok (some (setSlot s t { x with lae := UMAX })) := by
      simp [step', hg, bind, Except.bind, pure, Except.pure]
    have e2 : GC.step' s.threadNum (view s lae garb cnt) (.unregister t) = some { view s lae garb cnt with lae := upd lae t UMAX } := by
      simp [GC.step', view, ht]
    rw [e1, e2]
    exact Agree.some rfl ⟨rfl, hsum, _, A, hl.setLae hx UMAX⟩

/-- One step on the linked lists and one step of `Model/EpochGC`. -/
theorem sim_step {s : State} {g : GC.State} (h : Abs s g) (hi : Inv s.threadNum g) {a : Nat} {x : Act} (ha : s.heap a = none)
    (hb : ¬ BadId s x) : Agree s.threadNum (step a s x) (GC.step s.threadNum g x) := by
  obtain ⟨l, A, hl⟩ := h.lists
  have hpc : s.pc = g.pc := by rw [h.eq]; rfl
  have e : GC.step s.threadNum g x = GC.step' s.threadNum (view { s with clock := s.clock + 1 } g.lae g.garb g.cnt) x := by
    have : GC.step s.threadNum g x = GC.step s.threadNum (view s g.lae g.garb g.cnt) x := by rw [← h.eq]
    rw [this]
    rfl
  rw [e]
  exact sim_step' (s := { s with clock := s.clock + 1 }) (by rw [hpc]; exact hi.runN) hi.cnt h.sum hl ha hb

/-- With an id for which there is no metadata the assertion in GetGCMetaData fails. -/
theorem bad_step {s : State} {a : Nat} {x : Act} (hb : BadId s x) : step a s x = .error .gcId := by
  obtain ⟨t, ht, ⟨rfl, hpc⟩ | rfl⟩ := hb
  · have hg : getSlot { s with clock := s.clock + 1 } t = .error .gcId := getSlot_big ht
    simp [step, step', hpc, hg, bind, Except.bind]
  · have hg : getSlot { s with clock := s.clock + 1 } t = .error .gcId := getSlot_big ht
    simp [step, step', hg, bind, Except.bind]

end Rec
end GC
end BwTree
