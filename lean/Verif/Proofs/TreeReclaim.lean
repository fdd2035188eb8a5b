import Verif.Proofs.Reclaim
import Verif.Proofs.TreeGC
import Verif.Spec.Solo

/-! What the calls of one thread make the collector destroy (used by Props/Reclaim). -/

set_option linter.unusedSimpArgs false

namespace BwTree

namespace GC

/-- Garbage stays in the list of its thread until it is freed. -/
theorem garb_keep {n : Nat} {s s' : State} {a : Act} (hs : step n s a = some s') {t : Nat} {p : Nat × Nat} (h : p ∈ s.garb t ∨ p.1 ∈ s.freed) :
    p ∈ s'.garb t ∨ p.1 ∈ s'.freed := by
  cases a <;> simp only [step, step'] at hs <;> (try split at hs) <;> (try split at hs) <;> (try split at hs) <;>
    first
    | (obtain rfl := Option.some.inj hs; simp only [upd] at *; grind)
    | cases hs

theorem garb_run {n : Nat} {s s' : State} {as : List Act} (h : RunC n s as s') {t : Nat} {p : Nat × Nat} (hp : p ∈ s.garb t ∨ p.1 ∈ s.freed) :
    p ∈ s'.garb t ∨ p.1 ∈ s'.freed := by
  induction h with
  | nil => exact hp
  | cons _ hs _ ih => exact ih (garb_keep hs hp)

theorem freed_keep {n : Nat} {s s' : State} {a : Act} (hs : step n s a = some s') {o : Nat} (h : o ∈ s.freed) : o ∈ s'.freed := by
  cases a <;> simp only [step, step'] at hs <;> (try split at hs) <;> (try split at hs) <;> (try split at hs) <;>
    first
    | (obtain rfl := Option.some.inj hs; simp only [upd] at *; grind)
    | cases hs

theorem freed_run {n : Nat} {s s' : State} {as : List Act} (h : RunC n s as s') {o : Nat} (hp : o ∈ s.freed) : o ∈ s'.freed := by
  induction h with
  | nil => exact hp
  | cons _ hs _ ih => exact ih (freed_keep hs hp)

/-- AddGarbageNode is at work on what it was given. -/
def Owned (s : State) : Prop := ∀ o u, s.st o = .owned u → ∃ d, s.pc u = .adding o d

theorem owned_own {n : Nat} {s s' : State} {a : Act} (ha : Tree.ownAct a = true ∨ ∃ t, a = .leaveRead t) (hs : step n s a = some s') (h : Owned s) : Owned s' := by
  intro o u
  have h := h o u
  rcases ha with ha | ⟨t, rfl⟩
  · cases a <;> simp only [step, step', Tree.ownAct] at hs ha <;> (try split at hs) <;> (try split at hs) <;> (try split at hs) <;>
      first
      | (obtain rfl := Option.some.inj hs; simp only [upd] at *; grind)
      | cases hs
      | cases ha
  · simp only [step, step'] at hs
    split at hs
    · obtain rfl := Option.some.inj hs; simp only [upd] at *; grind
    · cases hs

theorem owned_add {n : Nat} {s s1 s2 : State} {t q : Nat} (h1 : step n s (.make t q) = some s1) (h2 : step n s1 (.addRead t q) = some s2) (h : Owned s) :
    Owned s2 := by
  intro o u ho
  simp only [step, step'] at h1 h2
  split at h1
  · rename_i c1
    obtain rfl := Option.some.inj h1
    split at h2
    · obtain rfl := Option.some.inj h2
      simp only [upd] at ho ⊢
      by_cases e : o = q
      · subst e
        simp only [if_true, Status.owned.injEq] at ho
        subst ho
        simp
      · rw [if_neg e] at ho
        obtain ⟨d, hd⟩ := h o u ho
        refine ⟨d, ?_⟩
        rw [if_neg]
        · exact hd
        · rintro rfl
          rw [c1.1] at hd
          cases hd
    · cases h2
  · cases h1

end GC

namespace Tree

variable {K V : Type} [LinearOrder K] [DecidableEq V] [Inhabited K]

theorem SysReach.garb {n : Nat} {s : Sys K V} (h : SysReach n s) : (∀ u, s.gc.garb u ≠ [] → u < n) ∧ GC.Owned s.gc := by
  induction h with
  | init => exact ⟨fun u h => absurd rfl h, fun o u h => by cases h⟩
  | step hr hs ih =>
    obtain ⟨i1, i2⟩ := ih
    have hi := hr.inv
    cases hs with
    | own a g h1 h2 h3 => exact ⟨GC.garb_lt hi h3 i1, GC.owned_own (.inl h1) h3 i2⟩
    | leave t g h1 h2 => exact ⟨GC.garb_lt hi h2 i1, GC.owned_own (.inr ⟨t, rfl⟩) h2 i2⟩
    | call => exact ⟨i1, i2⟩
    | step => exact ⟨i1, i2⟩
    | retire t q k g g' h1 h2 h3 h4 => exact ⟨GC.garb_lt (GC.inv_step (a := .make t q) hi trivial h3) h4 (GC.garb_lt hi h3 i1), GC.owned_add h3 h4 i2⟩
    | ret => exact ⟨i1, i2⟩
  | update hr hq he ih =>
    rename_i n0 n1 s
    obtain ⟨_, _, _, h4⟩ := GC.update_spec n1 hr.inv hq he ih.1
    refine ⟨fun u h => absurd rfl h, fun o u h => ?_⟩
    have h : (GC.updateThreads n0 s.gc).st o = .owned u := h
    rw [h4 o] at h
    split at h
    · cases h
    · obtain ⟨d, hd⟩ := ih.2 o u h
      rw [hq u] at hd
      cases hd

/-- Whatever was handed to the collector is in the list of a thread or destroyed, when AddGarbageNode is not running. -/
theorem SysReach.held {n : Nat} {s : Sys K V} (h : SysReach n s) (hi : ∀ t, s.gc.pc t = .idle) {g : Ptr} (hg : g ∈ s.tree.mem.garbage) :
    g ∈ s.gc.freed ∨ ∃ t, t < n ∧ ∃ d, (g, d) ∈ s.gc.garb t := by
  have h1 := h.sysInv.notLinked g
  have h2 : s.gc.st g ≠ .fresh := fun e => (h.sysInv.obj g).mp e hg
  cases e : s.gc.st g with
  | fresh => exact absurd e h2
  | linked => exact absurd e h1
  | owned u =>
    obtain ⟨d, hd⟩ := h.garb.2 g u e
    rw [hi u] at hd
    cases hd
  | retired =>
    obtain ⟨u, d, hu⟩ := h.inv.garbAll g e
    exact .inr ⟨u, h.garb.1 u (fun e => by rw [e] at hu; cases hu), d, hu⟩
  | freed => exact .inl ((h.inv.freedS g).mpr e)

/-- No thread but `t` has a call running. -/
def Solo (t : Tid) (c : Conf K V) : Prop := ∀ u, u ≠ t → c.thr u = none

theorem step_garbage {α : Type} {m m' : Mem K V} {p p' : Prog K V α} (h : p.step m = some (m', p')) (hp : ∀ q k, p ≠ .retire q k) : m'.garbage = m.garbage := by
  cases p with
  | retire q k => exact absurd rfl (hp q k)
  | ret => cases h
  | fail => cases h
  | spin => cases h
  | load => cases h; rfl
  | cas =>
    simp only [Prog.step] at h
    split at h <;> (cases h; rfl)
  | casRoot =>
    simp only [Prog.step] at h
    split at h <;> (cases h; rfl)
  | _ => first | (cases h; rfl) | (simp only [Prog.step] at h; split at h <;> first | (cases h; done) | (cases h; rfl))

/-- The garbage thread `t` may still have, where `N` nodes had been handed over when `Past n D` held. -/
def SysOwes (n : Nat) (t : Tid) (D N : Nat) (s : Sys K V) : Prop :=
  GC.Past n D s.gc ∧ ∃ k, GC.Owes n t D k s.gc ∧
    (s.tree.mem.garbage.length ≤ N + k ∨ (∃ o d, s.gc.pc t = .adding o d) ∧ s.tree.mem.garbage.length ≤ N + k + 1)

theorem adding_stays {n : Nat} {g g' : GC.State} {a : GC.Act} (hs : GC.step n g a = some g') {t o d : Nat} (h : g.pc t = .adding o d) (ha : a ≠ .addLink t) :
    g'.pc t = .adding o d := by
  by_cases hc : a.thread = some t
  · exfalso
    cases a <;> simp only [GC.Act.thread, Option.some.injEq] at hc <;> (try subst hc) <;>
      first | (exact ha rfl) | (simp [GC.step, GC.step', h] at hs; done) | (cases hc; done)
  · rw [(GC.step_other hs hc).1, h]

theorem sysOwes_act {n : Nat} {t : Tid} {D N : Nat} (ht : t < n) (hD : D < GC.UMAX) {s : Sys K V} {a : GC.Act} {g : GC.State} (hi : GC.Inv n s.gc)
    (hc : GC.Contract s.gc a) (hs : GC.step n s.gc a = some g) (h : SysOwes n t D N s) : SysOwes n t D N ⟨s.tree, g⟩ := by
  obtain ⟨h1, k, h2, h3⟩ := h
  refine ⟨GC.past_step hD hi hc hs h1, _, GC.owes_step ht hi h1 hs h2, ?_⟩
  show s.tree.mem.garbage.length ≤ _ ∨ (∃ o d, g.pc t = _) ∧ s.tree.mem.garbage.length ≤ _
  by_cases ha : a = .addLink t
  · rw [if_pos ha]
    rcases h3 with h3 | ⟨_, h3⟩ <;> (left; omega)
  · rw [if_neg ha]
    rcases h3 with h3 | ⟨⟨o, d, h4⟩, h3⟩
    · exact .inl h3
    · exact .inr ⟨⟨o, d, adding_stays hs h4 ha⟩, h3⟩

theorem sysOwes_step {n : Nat} {t : Tid} {D N : Nat} (ht : t < n) (hD : D < GC.UMAX) {s s' : Sys K V} (hr : SysReach n s) (hP : Solo t s.tree) (hs : SysStep n s s')
    (h : SysOwes n t D N s) : SysOwes n t D N s' := by
  have hi := hr.inv
  cases hs with
  | own a g h1 h2 h3 => exact sysOwes_act ht hD hi (contract_own h1 h2) h3 h
  | leave u g h1 h2 => exact sysOwes_act (a := .leaveRead u) ht hD hi trivial h2 h
  | call u fuel op h1 h2 => exact h
  | step u p p' m' h1 h2 h3 h4 =>
    obtain ⟨i1, k, i2, i3⟩ := h
    refine ⟨i1, k, i2, ?_⟩
    show m'.garbage.length ≤ _ ∨ _ ∧ m'.garbage.length ≤ _
    rw [step_garbage h4 h3]
    exact i3
  | retire u q k g g' h1 h2 h3 h4 =>
    have hu : u = t := by
      by_contra hu
      rw [hP u hu] at h2
      cases h2
    subst hu
    obtain ⟨i1, k', i2, i3⟩ := h
    have hi1 := GC.inv_step (a := .make u q) hi trivial h3
    have p1 := GC.past_step (a := .make u q) hD hi trivial h3 i1
    have o1 := GC.owes_step ht hi i1 h3 i2
    rw [if_neg nofun] at o1
    have o2 := GC.owes_step ht hi1 p1 h4 o1
    rw [if_neg nofun] at o2
    refine ⟨GC.past_step (a := .addRead u q) hD hi1 trivial h4 p1, k', o2, .inr ⟨?_, ?_⟩⟩
    · simp only [GC.step, GC.step'] at h4
      split at h4
      · obtain rfl := Option.some.inj h4
        exact ⟨q, g.epoch, by simp [GC.upd]⟩
      · cases h4
    · show (q :: s.tree.mem.garbage).length ≤ _
      rw [List.length_cons]
      rcases i3 with i3 | ⟨⟨o, d, e⟩, _⟩
      · omega
      · rw [h1] at e
        cases e
  | ret u a h1 h2 => exact h

/-- After enough retirements the collector has destroyed all old garbage of the thread. -/
theorem path_frees {n : Nat} {t : Tid} {D : Nat} (ht : t < n) (hD : D < GC.UMAX) {s s' : Sys K V} (hr : SysReach n s) (hp : GC.Past n D s.gc)
    (h : SysPath n (Solo t) s s') (hi : s'.gc.pc t = .idle) (hm : s.tree.mem.garbage.length + GC.THRESHOLD < s'.tree.mem.garbage.length) {g d : Nat}
    (hg : (g, d) ∈ s.gc.garb t) (hd : d ≤ D) : g ∈ s'.gc.freed := by
  have key : SysOwes n t D s.tree.mem.garbage.length s' ∧ ((g, d) ∈ s'.gc.garb t ∨ g ∈ s'.gc.freed) := by
    clear hi hm
    induction h with
    | refl => exact ⟨⟨hp, 0, .inr (.inr (.inr (.inl rfl))), .inl (Nat.le_refl _)⟩, .inl hg⟩
    | step h1 h2 h3 _ _ ih =>
      obtain ⟨as, r1, _⟩ := h3.gc
      exact ⟨sysOwes_step ht hD (h1.reach hr) h2 h3 ih.1, GC.garb_run r1 ih.2⟩
  obtain ⟨⟨_, k, h1, h2⟩, h3⟩ := key
  rcases h3 with h3 | h3
  · exfalso
    have h2 : s'.tree.mem.garbage.length ≤ s.tree.mem.garbage.length + k := by
      rcases h2 with h2 | ⟨⟨o, d, h2⟩, _⟩
      · exact h2
      · rw [hi] at h2; cases h2
    rcases h1 with ⟨h1, _⟩ | ⟨i, m, h1, _⟩ | ⟨m, h1, _⟩ | h1 | ⟨h1, h4, _⟩
    · have := h1 _ h3
      exact absurd this (by show ¬ D < d; omega)
    · rw [hi] at h1; cases h1
    · rw [hi] at h1; cases h1
    · omega
    · omega
  · exact h3

theorem SysPath.freed {n : Nat} {P : Conf K V → Prop} {s s' : Sys K V} (h : SysPath n P s s') {g : Ptr} (hg : g ∈ s.gc.freed) : g ∈ s'.gc.freed := by
  induction h with
  | refl => exact hg
  | step _ _ hs _ _ ih =>
    obtain ⟨as, r1, _⟩ := hs.gc
    exact GC.freed_run r1 ih

theorem SysLater.trans {n : Nat} {s s1 s2 : Sys K V} (h : SysLater n s s1) (h' : SysLater n s1 s2) : SysLater n s s2 := by
  induction h' with
  | refl => exact h
  | step _ hs ih => exact .step ih hs

theorem SysLater.reach {n : Nat} {s s' : Sys K V} (h : SysLater n s s') (hr : SysReach n s) : SysReach n s' := by
  induction h with
  | refl => exact hr
  | step _ hs ih => exact .step ih hs

theorem SysLater.tree {n : Nat} {s s' : Sys K V} (h : SysLater n s s') : Later s.tree s'.tree := by
  induction h with
  | refl => exact .refl
  | step _ hs ih =>
    rcases hs.proj with e | e
    · rw [e]; exact ih
    · exact .step ih e

theorem SysPath.later {n : Nat} {P : Conf K V → Prop} {s s' : Sys K V} (h : SysPath n P s s') : SysLater n s s' := by
  induction h with
  | refl => exact .refl _
  | step _ _ hs _ _ ih => exact .step ih hs

/-- What was destroyed stays so. -/
theorem Freed.later {n : Nat} {s s' : Sys K V} (hr : SysReach n s) (h : SysLater n s s') {e : Ptr} (hf : Freed s e) : Freed s' e := by
  obtain ⟨o, h1, f, h2⟩ := hf
  have ho : o ∈ s.tree.mem.garbage := by
    by_contra hn
    have := (hr.sysInv.obj o).mpr hn
    rw [(hr.inv.freedS o).mp h1] at this
    cases this
  refine ⟨o, ?_, f, by rw [cells_later hr.tree h.tree ho]; exact h2⟩
  clear h2 ho
  induction h with
  | refl => exact h1
  | step _ hs ih =>
    obtain ⟨as, r1, _⟩ := hs.gc
    exact GC.freed_run r1 ih

/-- The epoch advances and every thread passes through an operation. -/
theorem advance {n : Nat} {s : Sys K V} (hr : SysReach n s) (hi : ∀ t, s.gc.pc t = .idle) (hq : ∀ t, s.tree.thr t = none) :
    ∃ g, SysLater n s ⟨s.tree, g⟩ ∧ (∀ t, g.pc t = .idle) ∧ GC.Past n s.gc.epoch g ∧ g.garb = s.gc.garb ∧ g.freed = s.gc.freed := by
  obtain ⟨g0, r0, p0, t0, a0, b0, c0⟩ : ∃ g0, SysLater n s ⟨s.tree, g0⟩ ∧ g0.pc = s.gc.pc ∧ g0.tick 0 = some s.gc.epoch ∧ g0.epoch = s.gc.epoch ∧
      g0.garb = s.gc.garb ∧ g0.freed = s.gc.freed := by
    cases e : s.gc.tick 0 with
    | some x => exact ⟨s.gc, .refl s, rfl, by rw [e, hr.inv.tickE x e], rfl, rfl, rfl⟩
    | none =>
      obtain ⟨g1, e1, h1⟩ : ∃ g1, GC.step n s.gc (.tickRead 0) = some g1 ∧ g1.pc = s.gc.pc ∧ g1.tick 0 = some s.gc.epoch ∧ g1.epoch = s.gc.epoch ∧
          g1.garb = s.gc.garb ∧ g1.freed = s.gc.freed := by
        simp [GC.step, GC.step', e, GC.upd]
      exact ⟨g1, .step (.refl s) (.own s _ g1 rfl (fun _ e => by cases e) e1), h1⟩
  obtain ⟨g1, e1, p1, a1, b1, c1⟩ : ∃ g1, GC.step n g0 (.tickWrite 0) = some g1 ∧ g1.pc = g0.pc ∧ g1.epoch = s.gc.epoch + 1 ∧
      g1.garb = g0.garb ∧ g1.freed = g0.freed := by
    simp [GC.step, GC.step', t0, GC.upd]
  have r1 : SysLater n s ⟨s.tree, g1⟩ := .step r0 (.own _ _ g1 rfl (fun _ e => by cases e) e1)
  have key : ∀ i, i ≤ n → ∃ g, SysLater n s ⟨s.tree, g⟩ ∧ (∀ t, g.pc t = .idle) ∧ g.epoch = s.gc.epoch + 1 ∧ g.garb = s.gc.garb ∧ g.freed = s.gc.freed ∧
      ∀ u, u < i → g.lae u = s.gc.epoch + 1 := by
    intro i
    induction i with
    | zero => exact fun _ => ⟨g1, r1, fun t => by rw [p1, p0, hi], a1, b1.trans b0, c1.trans c0, fun u hu => by omega⟩
    | succ i ih =>
      intro hin
      obtain ⟨g, h1, h2, h3, h4, h5, h6⟩ := ih (by omega)
      obtain ⟨g2, j1, j2, j3, j4, j5, j6⟩ := join_run (n := n) (P := fun _ => True) (s := ⟨s.tree, g⟩) trivial (t := i) (show i < n from hin) (h2 i)
      obtain ⟨g3, k1, k2, k3, k4, k5, k6⟩ := leave_run (n := n) (P := fun _ => True) (s := ⟨s.tree, g2⟩) trivial (t := i) j2 (hq i)
      have e2 : g2.epoch = s.gc.epoch + 1 := j1.same.1.trans h3
      refine ⟨g3, (h1.trans j1.later).trans k1.later, fun t => ?_, k1.same.1.trans e2, k4.trans (j4.trans h4), k5.trans (j5.trans h5), fun u hu => ?_⟩
      · by_cases e : t = i
        · rw [e]; exact k2
        · rw [k3 t e]; exact (j3 t e).trans (h2 t)
      · rw [k6]
        show GC.upd g2.lae i g2.epoch u = _
        by_cases e : u = i
        · simp [GC.upd, e, e2]
        · simp only [GC.upd, e, if_false]
          rw [j6]
          simp only [GC.upd, e, if_false]
          exact h6 u (by omega)
  obtain ⟨g, h1, h2, h3, h4, h5, h6⟩ := key n (Nat.le_refl n)
  refine ⟨g, h1, h2, ⟨by omega, fun i hi => by rw [h6 i hi]; omega, fun i e he => ?_, fun i e he => ?_⟩, h4, h5⟩
  · rw [h2] at he; cases he
  · rw [h2] at he; cases he

/-- Steps of the call of one thread, with the collector. -/
theorem solo_steps {n : Nat} {t : Tid} {m m' : Mem K V} {p p' : Prog K V (Ans K V)} (h : Steps m p m' p') : ∀ {s : Sys K V}, SysReach n s → Solo t s.tree →
    s.tree.mem = m → s.tree.thr t = some p → s.gc.pc t = .active →
    ∃ s', SysPath n (Solo t) s s' ∧ s'.tree = ⟨m', setThr s.tree.thr t (some p'), s.tree.hist⟩ ∧ s'.gc.pc t = .active ∧
      ∀ u, u ≠ t → s'.gc.pc u = s.gc.pc u := by
  induction h with
  | refl m p =>
    intro s hr hS hm ht ha
    refine ⟨s, .refl s, ?_, ha, fun _ _ => rfl⟩
    obtain ⟨⟨mem, thr, hist⟩, gc⟩ := s
    simp only at hm ht ⊢
    subst hm
    congr
    funext u
    by_cases e : u = t
    · subst e; simp [setThr, ht]
    · simp [setThr, e]
  | @step m m1 m2 p p1 p2 hs _ ih =>
    intro s hr hS hm ht ha
    subst hm
    have hS' : ∀ (m : Mem K V) (q : Prog K V (Ans K V)), Solo t (⟨m, setThr s.tree.thr t (some q), s.tree.hist⟩ : Conf K V) := fun m q u hu => by
      show setThr s.tree.thr t (some q) u = none
      simp [setThr, hu, hS u hu]
    have fin : ∀ {s1 : Sys K V}, SysPath n (Solo t) s s1 → s1.tree = ⟨m1, setThr s.tree.thr t (some p1), s.tree.hist⟩ → s1.gc.pc t = .active →
        (∀ u, u ≠ t → s1.gc.pc u = s.gc.pc u) → ∃ s', SysPath n (Solo t) s s' ∧ s'.tree = ⟨m2, setThr s.tree.thr t (some p2), s.tree.hist⟩ ∧
          s'.gc.pc t = .active ∧ ∀ u, u ≠ t → s'.gc.pc u = s.gc.pc u := by
      intro s1 h1 h2 h3 h4
      obtain ⟨s', j1, j2, j3, j4⟩ := ih (s := s1) (h1.reach hr) (by rw [h2]; exact hS' _ _) (by rw [h2]) (by rw [h2]; simp [setThr]) h3
      refine ⟨s', h1.trans j1, ?_, j3, fun u hu => (j4 u hu).trans (h4 u hu)⟩
      have e : setThr (setThr s.tree.thr t (some p1)) t (some p2) = setThr s.tree.thr t (some p2) := by
        funext u
        by_cases e : u = t
        · subst e; simp [setThr]
        · simp [setThr, e]
      rw [j2, h2]
      exact congrArg (fun f => (⟨m2, f, s.tree.hist⟩ : Conf K V)) e
    by_cases hp : ∃ q k, p = .retire q k
    · obtain ⟨q, k, rfl⟩ := hp
      cases hs
      obtain ⟨s1, j1, j2, j3, j4⟩ := retire_run (P := Solo t) hr hS (hS' _ _) ht ha
      exact fin j1 j2 j3 j4
    · exact fin (.one hS (.step s t p p1 m1 ha ht (fun q k e => hp ⟨q, k, e⟩) hs) rfl rfl) rfl ha fun _ _ => rfl

/-- A whole call of one thread, from JoinEpoch to LeaveEpoch. -/
theorem solo_call {n : Nat} {t : Tid} (htn : t < n) {s : Sys K V} (hr : SysReach n s) (hi : ∀ t, s.gc.pc t = .idle) (hq : ∀ t, s.tree.thr t = none)
    {fuel : Nat} {op : Call K V} {m : Mem K V} {a : Ans K V} (h : Steps s.tree.mem (prog fuel op) m (.ret a)) :
    ∃ s', SysPath n (Solo t) s s' ∧ s'.tree = ⟨m, s.tree.thr, s.tree.hist ++ [.call t op] ++ [.ret t a]⟩ ∧ ∀ t, s'.gc.pc t = .idle := by
  have hS : Solo t s.tree := fun u _ => hq u
  obtain ⟨g, j1, j2, j3, _⟩ := join_run (n := n) (P := Solo t) (s := s) hS htn (hi t)
  have c1 : SysPath n (Solo t) s ⟨⟨s.tree.mem, setThr s.tree.thr t (some (prog fuel op)), s.tree.hist ++ [.call t op]⟩, g⟩ :=
    .step j1 hS (.call _ t fuel op j2 (hq t)) rfl rfl
  obtain ⟨s1, k1, k2, k3, k4⟩ := solo_steps (n := n) (t := t) h (c1.reach hr) (fun u hu => by show setThr s.tree.thr t _ u = none; simp [setThr, hu, hq u]) rfl
    (by show setThr s.tree.thr t _ t = _; simp [setThr]) j2
  have ht1 : s1.tree.thr t = some (.ret a) := by rw [k2]; simp [setThr]
  have hS1 : Solo t s1.tree := fun u hu => by rw [k2]; simp [setThr, hu, hq u]
  have c2 : SysPath n (Solo t) s ⟨⟨s1.tree.mem, setThr s1.tree.thr t none, s1.tree.hist ++ [.ret t a]⟩, s1.gc⟩ :=
    .step (c1.trans k1) hS1 (.ret s1 t a k3 ht1) rfl rfl
  have hthr : setThr s1.tree.thr t none = s.tree.thr := by
    rw [k2]
    funext u
    by_cases e : u = t
    · subst e; simp [setThr, hq]
    · simp [setThr, e]
  obtain ⟨g2, l1, l2, l3, _⟩ := leave_run (n := n) (P := Solo t) (s := ⟨⟨s1.tree.mem, setThr s1.tree.thr t none, s1.tree.hist ++ [.ret t a]⟩, s1.gc⟩) (t := t)
    (fun u hu => by show setThr s1.tree.thr t none u = none; rw [hthr, hq]) k3 (by simp [setThr])
  refine ⟨_, c2.trans l1, ?_, fun u => ?_⟩
  · show (⟨_, _, _⟩ : Conf K V) = _
    rw [hthr, k2]
  · by_cases e : u = t
    · rw [e]; exact l2
    · rw [show g2.pc u = s1.gc.pc u from l3 u e, k4 u e]
      exact (j3 u e).trans (hi u)

end Tree
end BwTree
