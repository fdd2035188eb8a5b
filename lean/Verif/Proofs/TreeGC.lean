import Verif.Spec.System
import Verif.Proofs.EpochGC
import Verif.Proofs.Sweep
import Verif.Props.EpochGC
import Verif.Props.TreeUse

/-! Tree and collector together: invariants that connect them. -/

namespace BwTree
namespace Tree

variable {K V : Type} [LinearOrder K] [DecidableEq V] [Inhabited K]

theorem contract_own {g : GC.State} {a : GC.Act} (h : ownAct a = true) (hu : ∀ t, a = .unregister t → g.pc t = .idle) : GC.Contract g a := by
  cases a <;> simp_all [ownAct, GC.Contract]

/-- The tree of the system makes a step or stays as it is. -/
theorem SysStep.proj {n : Nat} {s s' : Sys K V} (h : SysStep n s s') : s'.tree = s.tree ∨ Step s.tree s'.tree := by
  cases h with
  | own => exact .inl rfl
  | leave => exact .inl rfl
  | call t fuel op h1 h2 => exact .inr (.call _ t fuel op h2)
  | step t p p' m' h1 h2 h3 h4 => exact .inr (.step _ t p p' m' h2 h4)
  | retire t q k g g' h1 h2 h3 h4 => exact .inr (.step s.tree t (.retire q k) k _ h2 rfl)
  | ret t a h1 h2 => exact .inr (.ret _ t a h2)

theorem SysReach.tree {n : Nat} {s : Sys K V} (h : SysReach n s) : Reach s.tree := by
  induction h with
  | init => exact .init
  | step _ hs ih =>
    rcases hs.proj with h | h
    · rw [h]; exact ih
    · exact .step ih h
  | update _ _ _ ih => exact ih

/-- The collector of the system makes no, one or two steps. -/
theorem SysStep.gc {n : Nat} {s s' : Sys K V} (h : SysStep n s s') : ∃ as, GC.RunC n s.gc as s'.gc ∧
    ∀ t, s.tree.thr t ≠ none → GC.Act.leaveRead t ∉ as := by
  cases h with
  | own a g h1 h2 h3 =>
    refine ⟨[a], .cons (contract_own h1 h2) h3 (.nil _), fun t _ hm => ?_⟩
    obtain rfl := List.mem_singleton.mp hm
    cases h1
  | leave t g h1 h2 =>
    refine ⟨[.leaveRead t], .cons trivial h2 (.nil _), fun u hu hm => ?_⟩
    cases List.mem_singleton.mp hm
    exact hu h1
  | call t fuel op h1 h2 => exact ⟨[], .nil _, fun t _ hm => by cases hm⟩
  | step t p p' m' h1 h2 h3 h4 => exact ⟨[], .nil _, fun t _ hm => by cases hm⟩
  | retire t q k g g' h1 h2 h3 h4 =>
    refine ⟨[.make t q, .addRead t q], .cons trivial h3 (.cons trivial h4 (.nil _)), fun u _ hm => ?_⟩
    simp at hm
  | ret t a h1 h2 => exact ⟨[], .nil _, fun t _ hm => by cases hm⟩

theorem SysReach.inv_garb {n : Nat} {s : Sys K V} (h : SysReach n s) : GC.Inv n s.gc ∧ ∀ u, s.gc.garb u ≠ [] → u < n := by
  induction h with
  | init => exact ⟨GC.inv_init _, fun u h => absurd rfl h⟩
  | step _ hs ih =>
    obtain ⟨as, h1, _⟩ := hs.gc
    exact ⟨GC.inv_run h1 ih.1, GC.garb_lt_run h1 ih.1 ih.2⟩
  | update _ hq he ih => exact ⟨(GC.update_spec _ ih.1 hq he ih.2).1, fun u h => absurd rfl h⟩

theorem SysReach.inv {n : Nat} {s : Sys K V} (h : SysReach n s) : GC.Inv n s.gc := h.inv_garb.1

/-- Objects of the collector are the nodes handed to it; calls run inside an operation. -/
structure SysInv (n : Nat) (s : Sys K V) : Prop where
  obj : ∀ o, s.gc.st o = .fresh ↔ o ∉ s.tree.mem.garbage
  notLinked : ∀ o, s.gc.st o ≠ .linked
  run : ∀ t, s.tree.thr t ≠ none → GC.Running s.gc t

theorem st_own {n : Nat} {g g' : GC.State} {a : GC.Act} (hi : GC.Inv n g) (ha : ownAct a = true ∨ ∃ t, a = .leaveRead t) (hs : GC.step n g a = some g')
    (o : Nat) : (g'.st o = .fresh ↔ g.st o = .fresh) ∧ (g'.st o = .linked ↔ g.st o = .linked) := by
  have h1 := hi.garbS
  have h2 := hi.addS
  clear hi
  cases a <;> simp [ownAct] at ha <;> simp only [GC.step, GC.step'] at hs <;> (try split at hs) <;> (try split at hs) <;> (try split at hs) <;>
    first
    | (obtain rfl := Option.some.inj hs; simp only [GC.upd] at *; grind)
    | cases hs
    | skip
  rename_i u _ m hm _ o' d rest hg hd
  have h3 := h1 u o' d (by rw [hg]; exact List.mem_cons_self)
  simp only [GC.upd] at *
  grind

theorem st_make {n : Nat} {g g1 g2 : GC.State} {t q : Nat} (h1 : GC.step n g (.make t q) = some g1) (h2 : GC.step n g1 (.addRead t q) = some g2) (o : Nat) :
    g.st q = .fresh ∧ g2.st o = (if o = q then .owned t else g.st o) ∧ g2.outT q = g.clock + 1 := by
  simp only [GC.step, GC.step'] at h1 h2
  split at h1 <;> try cases h1
  next h3 =>
  split at h2 <;> try cases h2
  refine ⟨h3.2, rfl, ?_⟩
  simp [GC.upd]

theorem SysReach.sysInv {n : Nat} {s : Sys K V} (h : SysReach n s) : SysInv n s := by
  induction h with
  | init => exact ⟨fun o => ⟨fun _ h => (by cases h), fun _ => rfl⟩, fun o h => (by cases h), fun t h => absurd rfl h⟩
  | update hr hq he ih =>
    rename_i n0 n1 s
    obtain ⟨_, _, _, h4⟩ := GC.update_spec n1 hr.inv hq he hr.inv_garb.2
    refine ⟨fun o => ?_, fun o e => ?_, fun t ht => ?_⟩
    · show (GC.updateThreads n0 s.gc).st o = .fresh ↔ _
      rw [← ih.obj o, h4 o]
      split
      · next e => simp [e]
      · rfl
    · have e : (GC.updateThreads n0 s.gc).st o = .linked := e
      rw [h4 o] at e
      split at e
      · cases e
      · exact ih.notLinked o e
    · exact absurd (ih.run t ht) (GC.Rec.quiet_not_running hq t)
  | step hr hs ih =>
    rename_i n s s'
    have hi := hr.inv
    have hrun : ∀ t, s.tree.thr t ≠ none → GC.Running s'.gc t := by
      obtain ⟨as, h1, h2⟩ := hs.gc
      exact fun t ht => (GC.running_run h1 (ih.run t ht) (h2 t ht)).1
    cases hs with
    | own a g h1 h2 h3 => exact ⟨fun o => (st_own hi (.inl h1) h3 o).1.trans (ih.obj o), fun o e => ih.notLinked o ((st_own hi (.inl h1) h3 o).2.mp e), hrun⟩
    | leave t g h1 h2 =>
      exact ⟨fun o => (st_own hi (.inr ⟨t, rfl⟩) h2 o).1.trans (ih.obj o), fun o e => ih.notLinked o ((st_own hi (.inr ⟨t, rfl⟩) h2 o).2.mp e), hrun⟩
    | call t fuel op h1 h2 =>
      refine ⟨ih.obj, ih.notLinked, fun u hu => ?_⟩
      by_cases e : u = t
      · subst e; exact .inl h1
      · exact ih.run u (by simpa [setThr, e] using hu)
    | step t p p' m' h1 h2 h3 h4 =>
      refine ⟨fun o => ?_, ih.notLinked, fun u hu => ?_⟩
      · rw [ih.obj o]
        have : m'.garbage = s.tree.mem.garbage := by
          cases p with
          | retire q k => exact absurd rfl (h3 q k)
          | ret => cases h4
          | fail => cases h4
          | spin => cases h4
          | casRoot o n k => simp only [Prog.step] at h4; split at h4 <;> (cases h4; rfl)
          | cas id o n k => simp only [Prog.step] at h4; split at h4 <;> (cases h4; rfl)
          | loadRoot k => cases h4; rfl
          | load id k => cases h4; rfl
          | store id p k => cases h4; rfl
          | alloc n ks k => cases h4; rfl
          | newId k => cases h4; rfl
        show _ ↔ o ∉ m'.garbage
        rw [this]
      · by_cases e : u = t
        · subst e; exact .inl h1
        · exact ih.run u (by simpa [setThr, e] using hu)
    | retire t q k g g' h1 h2 h3 h4 =>
      refine ⟨fun o => ?_, fun o => ?_, fun u hu => ?_⟩
      · show g'.st o = .fresh ↔ o ∉ q :: s.tree.mem.garbage
        rw [(st_make h3 h4 o).2.1, List.mem_cons]
        have := ih.obj o
        split
        · next e => simp [e]
        · next e => simp [e, this]
      · show g'.st o ≠ .linked
        rw [(st_make h3 h4 o).2.1]
        split
        · intro e; cases e
        · exact ih.notLinked o
      · by_cases e : u = t
        · subst e; exact hrun u (by rw [h2]; intro e; cases e)
        · exact hrun u (by simpa [setThr, e] using hu)
    | ret t a h1 h2 =>
      refine ⟨ih.obj, ih.notLinked, fun u hu => ?_⟩
      by_cases e : u = t
      · subst e; exact absurd (by simp [setThr]) hu
      · exact ih.run u (by simpa [setThr, e] using hu)

theorem SysExec.reach {n N : Nat} {σ : Nat → Sys K V} (h : SysExec n σ N) : ∀ {i : Nat}, i ≤ N → SysReach n (σ i)
  | 0, _ => h.start
  | i + 1, hi => .step (h.reach (by omega)) (h.step i (by omega))

theorem SysExec.later {n N : Nat} {σ : Nat → Sys K V} (h : SysExec n σ N) {i : Nat} : ∀ {j : Nat}, i ≤ j → j ≤ N → Later (σ i).tree (σ j).tree
  | 0, hij, _ => by
    obtain rfl : i = 0 := by omega
    exact .refl
  | j + 1, hij, hj => by
    by_cases e : i = j + 1
    · subst e; exact .refl
    · have ih := h.later (i := i) (j := j) (by omega) (by omega)
      rcases (h.step j (by omega)).proj with h1 | h1
      · rw [h1]; exact ih
      · exact .step ih h1

/-- A node newly handed to the collector is newer than every operation. -/
theorem new_garbage {n : Nat} {s s' : Sys K V} (hs : SysStep n s s') {g : Ptr} (h1 : g ∉ s.tree.mem.garbage)
    (h2 : g ∈ s'.tree.mem.garbage) : s'.gc.outT g = s.gc.clock + 1 := by
  cases hs with
  | own => exact absurd h2 h1
  | leave => exact absurd h2 h1
  | call => exact absurd h2 h1
  | ret => exact absurd h2 h1
  | step t p p' m' h3 h4 h5 h6 =>
    exfalso
    cases p with
    | retire q k => exact absurd rfl (h5 q k)
    | ret => cases h6
    | fail => cases h6
    | spin => cases h6
    | casRoot o n k => simp only [Prog.step] at h6; split at h6 <;> (cases h6; exact h1 h2)
    | cas id o n k => simp only [Prog.step] at h6; split at h6 <;> (cases h6; exact h1 h2)
    | loadRoot k => cases h6; exact h1 h2
    | load id k => cases h6; exact h1 h2
    | store id p k => cases h6; exact h1 h2
    | alloc n ks k => cases h6; exact h1 h2
    | newId k => cases h6; exact h1 h2
  | retire t q k g1 g2 h3 h4 h5 h6 =>
    rcases List.mem_cons.mp h2 with rfl | h2
    · exact (st_make h5 h6 g).2.2
    · exact absurd h2 h1

theorem garbage_step {n : Nat} {s s' : Sys K V} (hs : SysStep n s s') {g : Ptr} (hg : g ∈ s.tree.mem.garbage) : g ∈ s'.tree.mem.garbage := by
  rcases hs.proj with h | h
  · rw [h]; exact hg
  · generalize s.tree = c at h hg
    generalize s'.tree = c' at h
    cases h with
    | call => exact hg
    | ret => exact hg
    | step _ _ _ _ _ hp => exact Prog.step_garbage hp hg

/-- The call begins outside the memory. -/
theorem begin_garbage {n : Nat} {s s' : Sys K V} (hs : SysStep n s s') {t : Tid} (h1 : s.tree.thr t = none) (h2 : s'.tree.thr t ≠ none) :
    s'.tree.mem = s.tree.mem := by
  cases hs with
  | own => rfl
  | leave => rfl
  | call => rfl
  | ret => rfl
  | step u p p' m' h3 h4 h5 h6 =>
    have : t ≠ u := fun e => by rw [e, h4] at h1; cases h1
    exact absurd h1 (by simpa [setThr, this] using h2)
  | retire u q k g1 g2 h3 h4 h5 h6 =>
    have : t ≠ u := fun e => by rw [e, h4] at h1; cases h1
    exact absurd h1 (by simpa [setThr, this] using h2)

/-- What lies below a node handed to the collector does not change. -/
theorem cells_later {c c' : Conf K V} (h : Reach c) (hl : Later c c') {g : Ptr} (hg : g ∈ c.mem.garbage) (f : Nat) : c'.mem.cells f g = c.mem.cells f g := by
  induction hl with
  | refl => rfl
  | step hl hs ih =>
    rename_i c1 c2
    have hr := reach_later h hl
    obtain ⟨w, hw⟩ := good_of_reach hr
    obtain ⟨w', hw', _, _, hm⟩ := good_step hw hs
    have hg1 : g ∈ c1.mem.garbage := by
      clear hs ih hw hw' hm hr
      induction hl with
      | refl => exact hg
      | step _ hs ih =>
        cases hs with
        | call => exact ih
        | ret => exact ih
        | step _ _ _ _ _ hp => exact Prog.step_garbage hp ih
    rw [← hw.mem] at hg1
    obtain ⟨x, hx⟩ := garbage_alloc hw.inv hg1
    rw [← hw'.mem, cells_same hw.inv hm f hx, hw.mem, ih]

/-- What is destroyed while a call is running was retired before the call began. -/
theorem freed_before {n N : Nat} {σ : Nat → Sys K V} (h : SysExec n σ N) {t : Tid} {a j : Nat} (hb : Busy (fun i => (σ i).tree) t a j) (hj : j ≤ N)
    {g : Ptr} (hg : g ∈ (σ j).gc.freed) : g ∈ (σ a).tree.mem.garbage := by
  obtain ⟨hb1, hb2, hb3⟩ := hb
  have hstep := h.step a (by omega)
  have key : ∀ i, a + 1 ≤ i → i ≤ j → GC.Running (σ i).gc t ∧ (σ i).gc.joinT t = (σ (a + 1)).gc.joinT t ∧
      (g ∈ (σ i).tree.mem.garbage → g ∈ (σ (a + 1)).tree.mem.garbage ∨ (σ (a + 1)).gc.joinT t < (σ i).gc.outT g) := by
    intro i hi
    induction i, hi using Nat.le_induction with
    | base => exact fun _ => ⟨(h.reach (by omega)).sysInv.run t (hb3 _ (by omega) (by omega)), rfl, fun h => .inl h⟩
    | succ i hi ih =>
      intro hij
      obtain ⟨i1, i2, i3⟩ := ih (by omega)
      have hr := h.reach (show i ≤ N by omega)
      have hs := h.step i (by omega)
      obtain ⟨as, r1, r2⟩ := hs.gc
      obtain ⟨j1, j2⟩ := GC.running_run r1 i1 (r2 t (hb3 i (by omega) (by omega)))
      refine ⟨j1, j2.trans i2, fun hg' => ?_⟩
      by_cases hgi : g ∈ (σ i).tree.mem.garbage
      · rcases i3 hgi with h1 | h1
        · exact .inl h1
        · have ho : GC.Out (σ i).gc g := ⟨fun e => (hr.sysInv.obj g).mp e hgi, hr.sysInv.notLinked g⟩
          rw [(GC.out_run r1 hr.inv ho).2]
          exact .inr h1
      · right
        rw [new_garbage hs hgi hg', ← i2]
        exact Nat.lt_succ_of_le (hr.inv.joinC t)
  have hr := h.reach hj
  obtain ⟨k1, k2, k3⟩ := key j (by omega) (Nat.le_refl j)
  have hf := (hr.inv.freedS g).mp hg
  have hgj : g ∈ (σ j).tree.mem.garbage := by
    by_contra hn
    have := (hr.sysInv.obj g).mpr hn
    rw [hf] at this
    cases this
  rcases k3 hgj with h1 | h1
  · rw [begin_garbage hstep hb1 (hb3 _ (by omega) (by omega))] at h1
    exact h1
  · exact absurd hf (hr.inv.safe t g k1 ⟨by rw [hf]; exact nofun, by rw [hf]; exact nofun⟩ (by rw [k2]; exact h1))

/-- An execution in which the epoch does not advance; its configurations of the tree but for the last satisfy `P`. -/
inductive SysPath (n : Nat) (P : Conf K V → Prop) : Sys K V → Sys K V → Prop where
  | refl (s : Sys K V) : SysPath n P s s
  | step {s s1 s2 : Sys K V} : SysPath n P s s1 → P s1.tree → SysStep n s1 s2 → s2.gc.epoch = s1.gc.epoch → s2.gc.tick = s1.gc.tick → SysPath n P s s2

theorem SysPath.reach {n : Nat} {P : Conf K V → Prop} {s s' : Sys K V} (h : SysPath n P s s') (hr : SysReach n s) : SysReach n s' := by
  induction h with
  | refl => exact hr
  | step _ _ hs _ _ ih => exact .step ih hs

theorem SysPath.trans {n : Nat} {P : Conf K V → Prop} {s s1 s2 : Sys K V} (h : SysPath n P s s1) (h' : SysPath n P s1 s2) : SysPath n P s s2 := by
  induction h' with
  | refl => exact h
  | step _ hp hs e1 e2 ih => exact .step ih hp hs e1 e2

theorem SysPath.same {n : Nat} {P : Conf K V → Prop} {s s' : Sys K V} (h : SysPath n P s s') : s'.gc.epoch = s.gc.epoch ∧ s'.gc.tick = s.gc.tick := by
  induction h with
  | refl => exact ⟨rfl, rfl⟩
  | step _ _ _ e1 e2 ih => exact ⟨e1.trans ih.1, e2.trans ih.2⟩

/-- One step. -/
theorem SysPath.one {n : Nat} {P : Conf K V → Prop} {s s' : Sys K V} (hp : P s.tree) (hs : SysStep n s s') (e1 : s'.gc.epoch = s.gc.epoch)
    (e2 : s'.gc.tick = s.gc.tick) : SysPath n P s s' := .step (.refl s) hp hs e1 e2

/-- A step of the collector alone. -/
theorem SysPath.act {n : Nat} {P : Conf K V → Prop} {s : Sys K V} {a : GC.Act} {g : GC.State} (hp : P s.tree) (ha : ownAct a = true)
    (hu : ∀ t, a ≠ .unregister t) (hs : GC.step n s.gc a = some g) (e1 : g.epoch = s.gc.epoch) (e2 : g.tick = s.gc.tick) : SysPath n P s ⟨s.tree, g⟩ :=
  .one hp (.own s a g ha (fun t e => absurd e (hu t)) hs) e1 e2

/-- JoinEpoch. -/
theorem join_run {n : Nat} {P : Conf K V → Prop} {s : Sys K V} (hP : P s.tree) {t : Tid} (ht : t < n) (hp : s.gc.pc t = .idle) :
    ∃ g, SysPath n P s ⟨s.tree, g⟩ ∧ g.pc t = .active ∧ (∀ u, u ≠ t → g.pc u = s.gc.pc u) ∧ g.garb = s.gc.garb ∧ g.freed = s.gc.freed ∧
      g.lae = GC.upd s.gc.lae t s.gc.epoch := by
  obtain ⟨g1, e1, p1, a1, b1, c1, d1, l1⟩ : ∃ g1, GC.step n s.gc (.joinRead t) = some g1 ∧ g1.pc = GC.upd s.gc.pc t (.joining s.gc.epoch) ∧
      g1.epoch = s.gc.epoch ∧ g1.tick = s.gc.tick ∧ g1.garb = s.gc.garb ∧ g1.freed = s.gc.freed ∧ g1.lae = s.gc.lae := by
    simp [GC.step, GC.step', ht, hp]
  have q1 : g1.pc t = .joining s.gc.epoch := by rw [p1]; simp [GC.upd]
  obtain ⟨g2, e2, p2, a2, b2, c2, d2, l2⟩ : ∃ g2, GC.step n g1 (.joinStore t) = some g2 ∧ g2.pc = GC.upd g1.pc t .active ∧ g2.epoch = g1.epoch ∧
      g2.tick = g1.tick ∧ g2.garb = g1.garb ∧ g2.freed = g1.freed ∧ g2.lae = GC.upd g1.lae t s.gc.epoch := by
    simp [GC.step, GC.step', q1]
  refine ⟨g2, .trans (.act hP rfl (fun _ h => by cases h) e1 a1 b1) (.act (s := ⟨s.tree, g1⟩) hP rfl (fun _ h => by cases h) e2 a2 b2), by rw [p2]; simp [GC.upd], fun u hu => ?_, c2.trans c1,
    d2.trans d1, by rw [l2, l1]⟩
  rw [p2, p1]; simp [GC.upd, hu]

/-- LeaveEpoch. -/
theorem leave_run {n : Nat} {P : Conf K V → Prop} {s : Sys K V} (hP : P s.tree) {t : Tid} (hp : s.gc.pc t = .active) (ht : s.tree.thr t = none) :
    ∃ g, SysPath n P s ⟨s.tree, g⟩ ∧ g.pc t = .idle ∧ (∀ u, u ≠ t → g.pc u = s.gc.pc u) ∧ g.garb = s.gc.garb ∧ g.freed = s.gc.freed ∧
      g.lae = GC.upd s.gc.lae t s.gc.epoch := by
  obtain ⟨g1, e1, p1, a1, b1, c1, d1, l1⟩ : ∃ g1, GC.step n s.gc (.leaveRead t) = some g1 ∧ g1.pc = GC.upd s.gc.pc t (.leaving s.gc.epoch) ∧
      g1.epoch = s.gc.epoch ∧ g1.tick = s.gc.tick ∧ g1.garb = s.gc.garb ∧ g1.freed = s.gc.freed ∧ g1.lae = s.gc.lae := by
    simp [GC.step, GC.step', hp]
  have q1 : g1.pc t = .leaving s.gc.epoch := by rw [p1]; simp [GC.upd]
  obtain ⟨g2, e2, p2, a2, b2, c2, d2, l2⟩ : ∃ g2, GC.step n g1 (.leaveStore t) = some g2 ∧ g2.pc = GC.upd g1.pc t .idle ∧ g2.epoch = g1.epoch ∧
      g2.tick = g1.tick ∧ g2.garb = g1.garb ∧ g2.freed = g1.freed ∧ g2.lae = GC.upd g1.lae t s.gc.epoch := by
    simp [GC.step, GC.step', q1]
  refine ⟨g2, .trans (.one hP (.leave s t g1 ht e1) a1 b1) (.act (s := ⟨s.tree, g1⟩) hP rfl (fun _ h => by cases h) e2 a2 b2), by rw [p2]; simp [GC.upd], fun u hu => ?_,
    c2.trans c1, d2.trans d1, by rw [l2, l1]⟩
  rw [p2, p1]; simp [GC.upd, hu]

/-- The loop of a collection ends. -/
theorem free_run {n : Nat} {P : Conf K V → Prop} {t : Tid} {m : Nat} : ∀ (l : List (Nat × Nat)) {s : Sys K V}, P s.tree → s.gc.pc t = .freeing m →
    s.gc.garb t = l → ∃ g, SysPath n P s ⟨s.tree, g⟩ ∧ g.pc t = .active ∧ ∀ u, u ≠ t → g.pc u = s.gc.pc u := by
  have stop : ∀ {s : Sys K V}, P s.tree → (∃ g1, GC.step n s.gc (.gcFree t) = some g1 ∧ g1.pc = GC.upd s.gc.pc t .active ∧ g1.epoch = s.gc.epoch ∧
      g1.tick = s.gc.tick) → ∃ g, SysPath n P s ⟨s.tree, g⟩ ∧ g.pc t = .active ∧ ∀ u, u ≠ t → g.pc u = s.gc.pc u := by
    intro s h ⟨g1, e1, p1, a1, b1⟩
    exact ⟨g1, .act h rfl (fun _ h => by cases h) e1 a1 b1, by rw [p1]; simp [GC.upd], fun u hu => by rw [p1]; simp [GC.upd, hu]⟩
  intro l
  induction l with
  | nil => exact fun h hp hg => stop h (by simp [GC.step, GC.step', hp, hg])
  | cons x l ih =>
    intro s h hp hg
    obtain ⟨o, d⟩ := x
    by_cases hd : d < m
    · obtain ⟨g1, e1, p1, q1, a1, b1⟩ : ∃ g1, GC.step n s.gc (.gcFree t) = some g1 ∧ g1.pc = s.gc.pc ∧ g1.garb t = l ∧ g1.epoch = s.gc.epoch ∧
          g1.tick = s.gc.tick := by
        simp [GC.step, GC.step', hp, hg, hd, GC.upd]
      obtain ⟨g, h2, h3, h4⟩ := ih (s := ⟨s.tree, g1⟩) h (by show g1.pc t = _; rw [p1, hp]) q1
      exact ⟨g, .trans (.act h rfl (fun _ h => by cases h) e1 a1 b1) h2, h3, fun u hu => (h4 u hu).trans (by show g1.pc u = _; rw [p1])⟩
    · exact stop h (by simp [GC.step, GC.step', hp, hg, hd])

/-- A collection ends. -/
theorem sum_run {n : Nat} {P : Conf K V → Prop} {t : Tid} : ∀ (k i m : Nat) {s : Sys K V}, n ≤ i + k → P s.tree → s.gc.pc t = .summing i m →
    ∃ g, SysPath n P s ⟨s.tree, g⟩ ∧ g.pc t = .active ∧ ∀ u, u ≠ t → g.pc u = s.gc.pc u := by
  have stop : ∀ {s : Sys K V} (i m : Nat), P s.tree → s.gc.pc t = .summing i m → ¬ i + 1 < n →
      ∃ g, SysPath n P s ⟨s.tree, g⟩ ∧ g.pc t = .active ∧ ∀ u, u ≠ t → g.pc u = s.gc.pc u := by
    intro s i m h hp hi
    obtain ⟨g1, m', e1, p1, a1, b1⟩ : ∃ g1 m', GC.step n s.gc (.gcRead t) = some g1 ∧ g1.pc = GC.upd s.gc.pc t (.freeing m') ∧ g1.epoch = s.gc.epoch ∧
        g1.tick = s.gc.tick := by
      simp only [GC.step, GC.step', hp, hi, if_false]; exact ⟨_, _, rfl, rfl, rfl, rfl⟩
    obtain ⟨g, h2, h3, h4⟩ := free_run (n := n) (P := P) (t := t) (m := m') _ (s := ⟨s.tree, g1⟩) h (by show g1.pc t = _; rw [p1]; simp [GC.upd]) rfl
    exact ⟨g, .trans (.act h rfl (fun _ h => by cases h) e1 a1 b1) h2, h3, fun u hu => (h4 u hu).trans (by show g1.pc u = _; rw [p1]; simp [GC.upd, hu])⟩
  intro k
  induction k with
  | zero => exact fun i m s hk h hp => stop i m h hp (by omega)
  | succ k ih =>
    intro i m s hk h hp
    by_cases hi : i + 1 < n
    · obtain ⟨g1, m', e1, p1, a1, b1⟩ : ∃ g1 m', GC.step n s.gc (.gcRead t) = some g1 ∧ g1.pc = GC.upd s.gc.pc t (.summing (i + 1) m') ∧
          g1.epoch = s.gc.epoch ∧ g1.tick = s.gc.tick := by
        simp only [GC.step, GC.step', hp, hi, if_true]; exact ⟨_, _, rfl, rfl, rfl, rfl⟩
      obtain ⟨g, h2, h3, h4⟩ := ih (i + 1) m' (s := ⟨s.tree, g1⟩) (by omega) h (by show g1.pc t = _; rw [p1]; simp [GC.upd])
      exact ⟨g, .trans (.act h rfl (fun _ h => by cases h) e1 a1 b1) h2, h3, fun u hu => (h4 u hu).trans (by show g1.pc u = _; rw [p1]; simp [GC.upd, hu])⟩
    · exact stop i m h hp hi

/-- AddGarbageNode can always begin: nothing is retired twice. -/
theorem retire_step {n : Nat} {s : Sys K V} (h : SysReach n s) {t : Tid} {q : Ptr} {k : Prog K V (Ans K V)} (ht : s.tree.thr t = some (.retire q k))
    (hp : s.gc.pc t = .active) : ∃ g, SysStep n s ⟨⟨{ s.tree.mem with garbage := q :: s.tree.mem.garbage }, setThr s.tree.thr t (some k), s.tree.hist⟩, g⟩ ∧
      (∃ d, g.pc t = .adding q d) ∧ (∀ u, u ≠ t → g.pc u = s.gc.pc u) ∧ g.epoch = s.gc.epoch ∧ g.tick = s.gc.tick := by
  have hq : s.gc.st q = .fresh := by
    rw [h.sysInv.obj q]
    have := C36_no_double_free (Reach.step h.tree (.step _ t _ _ _ ht rfl)) 1
    intro hm
    rw [List.flatMap_cons] at this
    exact (List.nodup_append.mp this).2.2 q List.mem_cons_self q (List.mem_flatMap.mpr ⟨q, hm, List.mem_cons_self⟩) rfl
  obtain ⟨g1, e1, p1, q1, a1, b1⟩ : ∃ g1, GC.step n s.gc (.make t q) = some g1 ∧ g1.pc = s.gc.pc ∧ g1.st q = .owned t ∧ g1.epoch = s.gc.epoch ∧
      g1.tick = s.gc.tick := by
    simp [GC.step, GC.step', hp, hq, GC.upd]
  obtain ⟨g2, e2, p2, a2, b2⟩ : ∃ g2, GC.step n g1 (.addRead t q) = some g2 ∧ g2.pc = GC.upd g1.pc t (.adding q g1.epoch) ∧ g2.epoch = g1.epoch ∧
      g2.tick = g1.tick := by
    simp [GC.step, GC.step', p1, hp, q1]
  exact ⟨g2, .retire s t q k g1 g2 hp ht e1 e2, ⟨g1.epoch, by rw [p2]; simp [GC.upd]⟩, fun u hu => by rw [p2, p1]; simp [GC.upd, hu], a2.trans a1, b2.trans b1⟩

/-- AddGarbageNode with the collection it may start. -/
theorem retire_run {n : Nat} {P : Conf K V → Prop} {s : Sys K V} (h : SysReach n s) (hP : P s.tree) {t : Tid} {q : Ptr} {k : Prog K V (Ans K V)}
    (hP' : P ⟨{ s.tree.mem with garbage := q :: s.tree.mem.garbage }, setThr s.tree.thr t (some k), s.tree.hist⟩)
    (ht : s.tree.thr t = some (.retire q k)) (hp : s.gc.pc t = .active) : ∃ s', SysPath n P s s' ∧
      s'.tree = ⟨{ s.tree.mem with garbage := q :: s.tree.mem.garbage }, setThr s.tree.thr t (some k), s.tree.hist⟩ ∧
      s'.gc.pc t = .active ∧ ∀ u, u ≠ t → s'.gc.pc u = s.gc.pc u := by
  obtain ⟨g, h1, ⟨d, h2⟩, h3, a0, b0⟩ := retire_step h ht hp
  have h4 : SysPath n P s _ := .one hP h1 a0 b0
  obtain ⟨g1, e1, p1, a1, b1⟩ : ∃ g1, GC.step n g (.addLink t) = some g1 ∧
      g1.pc = GC.upd g.pc t (if GC.THRESHOLD < g.cnt t + 1 then .summing 0 0 else .active) ∧ g1.epoch = g.epoch ∧ g1.tick = g.tick := by
    simp [GC.step, GC.step', h2]
  have h5 := h4.trans (.act hP' rfl (fun _ h => by cases h) e1 a1 b1)
  have h6 : ∀ u, u ≠ t → g1.pc u = s.gc.pc u := fun u hu => by rw [p1]; simp [GC.upd, hu, h3 u hu]
  by_cases hc : GC.THRESHOLD < g.cnt t + 1
  · obtain ⟨g', h7, h8, h9⟩ := sum_run (n := n) (P := P) (s := ⟨_, g1⟩) n 0 0 (by omega) hP' (by show g1.pc t = _; rw [p1]; simp [GC.upd, hc])
    exact ⟨_, h5.trans h7, rfl, h8, fun u hu => (h9 u hu).trans (h6 u hu)⟩
  · exact ⟨_, h5, rfl, by show g1.pc t = _; rw [p1]; simp [GC.upd, hc], h6⟩

end Tree
end BwTree
