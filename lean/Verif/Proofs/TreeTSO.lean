import Verif.Spec.SystemTSO
import Verif.Proofs.TreeGC
import Verif.Props.EpochTSO

/-! Tree and collector with store buffers: invariants that connect them. -/

namespace BwTree
namespace Tree

variable {K V : Type} [LinearOrder K] [DecidableEq V] [Inhabited K]

/-- The tree of the system makes a step or stays as it is. -/
theorem TSysStep.proj {n T : Nat} {s s' : TSys K V} (h : TSysStep n T s s') : s'.tree = s.tree ∨ Step s.tree s'.tree := by
  cases h with
  | own => exact .inl rfl
  | flush => exact .inl rfl
  | leave => exact .inl rfl
  | call t fuel op h1 h2 => exact .inr (.call _ t fuel op h2)
  | step t p p' m' h1 h2 h3 h4 => exact .inr (.step _ t p p' m' h2 h4)
  | retire t q k g g' h1 h2 h3 h4 => exact .inr (.step s.tree t (.retire q k) k _ h2 rfl)
  | ret t a h1 h2 => exact .inr (.ret _ t a h2)

theorem TSysReach.tree {n T : Nat} {s : TSys K V} (h : TSysReach n T s) : Reach s.tree := by
  induction h with
  | init => exact .init
  | step _ hs ih =>
    rcases hs.proj with h | h
    · rw [h]; exact ih
    · exact .step ih h

/-- The collector of the system makes no, one or two steps. -/
theorem TSysStep.gc {n T : Nat} {s s' : TSys K V} (h : TSysStep n T s s') : ∃ as, GC.trun n T s.gc as = some s'.gc ∧
    ∀ t, s.tree.thr t ≠ none → GC.TAct.act (.leaveRead t) ∉ as := by
  cases h with
  | own a g h1 h2 =>
    refine ⟨[.act a], by simp [GC.trun, h2], fun t _ hm => ?_⟩
    cases List.mem_singleton.mp hm
    cases h1
  | flush t g h1 => exact ⟨[.flush t], by simp [GC.trun, h1], fun u _ hm => by cases List.mem_singleton.mp hm⟩
  | leave t g h1 h2 =>
    refine ⟨[.act (.leaveRead t)], by simp [GC.trun, h2], fun u hu hm => ?_⟩
    cases List.mem_singleton.mp hm
    exact hu h1
  | call t fuel op h1 h2 => exact ⟨[], rfl, fun t _ hm => by cases hm⟩
  | step t p p' m' h1 h2 h3 h4 => exact ⟨[], rfl, fun t _ hm => by cases hm⟩
  | retire t q k g g' h1 h2 h3 h4 => exact ⟨[.act (.make t q), .act (.addRead t q)], by simp [GC.trun, h3, h4], fun u _ hm => by simp at hm⟩
  | ret t a h1 h2 => exact ⟨[], rfl, fun t _ hm => by cases hm⟩

theorem TSysReach.inv {n T : Nat} (hT : n ≤ T) {s : TSys K V} (h : TSysReach n T s) : GC.TInv n T s.gc := by
  induction h with
  | init => exact GC.tinv_init n T
  | step _ hs ih =>
    obtain ⟨as, h1, _⟩ := hs.gc
    exact ih.run hT h1

/-- Objects of the collector are the nodes handed to it; calls run inside an operation. -/
structure TSysInv (s : TSys K V) : Prop where
  obj : ∀ o, s.gc.g.st o = .fresh ↔ o ∉ s.tree.mem.garbage
  notLinked : ∀ o, s.gc.g.st o ≠ .linked
  run : ∀ t, s.tree.thr t ≠ none → GC.Running s.gc.g t

theorem tst_own {n T : Nat} {s s' : GC.TState} {a : GC.TAct} (hi : GC.TInv n T s)
    (ha : (∃ b, a = .act b ∧ townAct b = true) ∨ (∃ t, a = .act (.leaveRead t)) ∨ ∃ t, a = .flush t) (hs : GC.tstep n T s a = some s')
    (o : Nat) : (s'.g.st o = .fresh ↔ s.g.st o = .fresh) ∧ (s'.g.st o = .linked ↔ s.g.st o = .linked) := by
  rcases GC.tstep_cases hs with ⟨b, g', rfl, h1, rfl⟩ | ⟨h1, _⟩
  · have hG := hi.2.G
    have hA := hi.2.A
    have hb : townAct b = true ∨ ∃ t, b = .leaveRead t := by
      rcases ha with ⟨c, e, h⟩ | ⟨t, e⟩ | ⟨t, e⟩
      · cases e; exact .inl h
      · cases e; exact .inr ⟨t, rfl⟩
      · cases e
    clear hs hi ha
    cases b <;> simp [townAct] at hb <;> simp only [GC.step, GC.step'] at h1 <;> (try split at h1) <;> (try split at h1) <;> (try split at h1) <;>
      first
      | (obtain rfl := Option.some.inj h1; simp only [GC.Out, GC.upd] at *; grind)
      | (cases h1; done)
      | skip
    rename_i u _ m hm _ o' d rest hg hd
    have h3 := (hG u o' d (by rw [hg]; exact List.mem_cons_self)).1
    obtain rfl := Option.some.inj h1
    simp only [GC.Out, GC.upd] at *
    clear hG hA
    grind
  · rw [h1]; exact ⟨.rfl, .rfl⟩

theorem tst_make {n T : Nat} {g g1 g2 : GC.TState} {t q : Nat} (h1 : GC.tstep n T g (.act (.make t q)) = some g1)
    (h2 : GC.tstep n T g1 (.act (.addRead t q)) = some g2) (o : Nat) :
    g2.g.st o = (if o = q then .owned t else g.g.st o) ∧ g2.g.outT q = g.g.clock + 1 := by
  simp only [GC.tstep, GC.tstep', GC.step'] at h1 h2
  obtain ⟨g', h3, rfl⟩ := Option.map_eq_some_iff.1 h1
  split at h3 <;> try cases h3
  split at h2 <;> try cases h2
  refine ⟨rfl, ?_⟩
  simp [GC.upd]

theorem Prog.step_same_garbage {p p' : Prog K V (Ans K V)} {m m' : Mem K V} (h : ∀ q k, p ≠ .retire q k) (hs : p.step m = some (m', p')) :
    m'.garbage = m.garbage := by
  cases p with
  | retire q k => exact absurd rfl (h q k)
  | ret => cases hs
  | fail => cases hs
  | spin => cases hs
  | casRoot o n k => simp only [Prog.step] at hs; split at hs <;> (cases hs; rfl)
  | cas id o n k => simp only [Prog.step] at hs; split at hs <;> (cases hs; rfl)
  | loadRoot k => cases hs; rfl
  | load id k => cases hs; rfl
  | store id p k => cases hs; rfl
  | alloc n ks k => cases hs; rfl
  | newId k => cases hs; rfl

theorem TSysReach.sysInv {n T : Nat} (hT : n ≤ T) {s : TSys K V} (h : TSysReach n T s) : TSysInv s := by
  induction h with
  | init => exact ⟨fun o => ⟨fun _ h => (by cases h), fun _ => rfl⟩, fun o h => (by cases h), fun t h => absurd rfl h⟩
  | step hr hs ih =>
    rename_i s s'
    have hi := hr.inv hT
    have hrun : ∀ t, s.tree.thr t ≠ none → GC.Running s'.gc.g t := by
      obtain ⟨as, h1, h2⟩ := hs.gc
      exact fun t ht => (GC.tkeep_run hT h1 hi (ih.run t ht) (h2 t ht)).1
    cases hs with
    | own a g h1 h2 =>
      have h3 := tst_own hi (.inl ⟨a, rfl, h1⟩) h2
      exact ⟨fun o => (h3 o).1.trans (ih.obj o), fun o e => ih.notLinked o ((h3 o).2.mp e), hrun⟩
    | flush t g h2 =>
      have h3 := tst_own hi (.inr (.inr ⟨t, rfl⟩)) h2
      exact ⟨fun o => (h3 o).1.trans (ih.obj o), fun o e => ih.notLinked o ((h3 o).2.mp e), hrun⟩
    | leave t g h1 h2 =>
      have h3 := tst_own hi (.inr (.inl ⟨t, rfl⟩)) h2
      exact ⟨fun o => (h3 o).1.trans (ih.obj o), fun o e => ih.notLinked o ((h3 o).2.mp e), hrun⟩
    | call t fuel op h1 h2 =>
      refine ⟨ih.obj, ih.notLinked, fun u hu => ?_⟩
      by_cases e : u = t
      · subst e; exact .inl h1
      · exact ih.run u (by simpa [setThr, e] using hu)
    | step t p p' m' h1 h2 h3 h4 =>
      refine ⟨fun o => ?_, ih.notLinked, fun u hu => ?_⟩
      · rw [ih.obj o]
        show _ ↔ o ∉ m'.garbage
        rw [Prog.step_same_garbage h3 h4]
      · by_cases e : u = t
        · subst e; exact .inl h1
        · exact ih.run u (by simpa [setThr, e] using hu)
    | retire t q k g g' h1 h2 h3 h4 =>
      refine ⟨fun o => ?_, fun o => ?_, fun u hu => ?_⟩
      · show g'.g.st o = .fresh ↔ o ∉ q :: s.tree.mem.garbage
        rw [(tst_make h3 h4 o).1, List.mem_cons]
        have := ih.obj o
        split
        · next e => simp [e]
        · next e => simp [e, this]
      · show g'.g.st o ≠ .linked
        rw [(tst_make h3 h4 o).1]
        split
        · intro e; cases e
        · exact ih.notLinked o
      · by_cases e : u = t
        · subst e; exact hrun u (by rw [h2]; intro e; cases e)
        · exact hrun u (by simpa [setThr, e] using hu)
    | ret t a h1 h2 =>
      refine ⟨ih.obj, ih.notLinked, fun u hu => ?_⟩
      by_cases e : u = t
      · subst e; exact absurd (by simp [setThr]) hu
      · exact ih.run u (by simpa [setThr, e] using hu)

theorem TSysExec.reach {n T N : Nat} {σ : Nat → TSys K V} (h : TSysExec n T σ N) : ∀ {i : Nat}, i ≤ N → TSysReach n T (σ i)
  | 0, _ => h.start
  | i + 1, hi => .step (h.reach (by omega)) (h.step i (by omega))

theorem TSysExec.later {n T N : Nat} {σ : Nat → TSys K V} (h : TSysExec n T σ N) {i : Nat} : ∀ {j : Nat}, i ≤ j → j ≤ N → Later (σ i).tree (σ j).tree
  | 0, hij, _ => by
    obtain rfl : i = 0 := by omega
    exact .refl
  | j + 1, hij, hj => by
    by_cases e : i = j + 1
    · subst e; exact .refl
    · have ih := h.later (i := i) (j := j) (by omega) (by omega)
      rcases (h.step j (by omega)).proj with h1 | h1
      · rw [h1]; exact ih
      · exact .step ih h1

/-- A node newly handed to the collector is newer than every operation. -/
theorem tnew_garbage {n T : Nat} {s s' : TSys K V} (hs : TSysStep n T s s') {g : Ptr} (h1 : g ∉ s.tree.mem.garbage)
    (h2 : g ∈ s'.tree.mem.garbage) : s'.gc.g.outT g = s.gc.g.clock + 1 := by
  cases hs with
  | own => exact absurd h2 h1
  | flush => exact absurd h2 h1
  | leave => exact absurd h2 h1
  | call => exact absurd h2 h1
  | ret => exact absurd h2 h1
  | step t p p' m' h3 h4 h5 h6 =>
    rw [show _ = _ from Prog.step_same_garbage h5 h6] at h2
    exact absurd h2 h1
  | retire t q k g1 g2 h3 h4 h5 h6 =>
    rcases List.mem_cons.mp h2 with rfl | h2
    · exact (tst_make h5 h6 g).2
    · exact absurd h2 h1

/-- The call begins outside the memory. -/
theorem tbegin_garbage {n T : Nat} {s s' : TSys K V} (hs : TSysStep n T s s') {t : Tid} (h1 : s.tree.thr t = none) (h2 : s'.tree.thr t ≠ none) :
    s'.tree.mem = s.tree.mem := by
  cases hs with
  | own => rfl
  | flush => rfl
  | leave => rfl
  | call => rfl
  | ret => rfl
  | step u p p' m' h3 h4 h5 h6 =>
    have : t ≠ u := fun e => by rw [e, h4] at h1; cases h1
    exact absurd h1 (by simpa [setThr, this] using h2)
  | retire u q k g1 g2 h3 h4 h5 h6 =>
    have : t ≠ u := fun e => by rw [e, h4] at h1; cases h1
    exact absurd h1 (by simpa [setThr, this] using h2)

/-- What is destroyed has been handed to AddGarbageNode. -/
theorem tfreed_garbage {n T : Nat} (hT : n ≤ T) {s : TSys K V} (h : TSysReach n T s) {g : Ptr} (hg : g ∈ s.gc.g.freed) : g ∈ s.tree.mem.garbage := by
  by_contra hn
  exact ((h.inv hT).2.F g hg).1.1 (((h.sysInv hT).obj g).mpr hn)

/-- What is destroyed while a call is running was retired before the call began. -/
theorem tfreed_before {n T N : Nat} (hT : n ≤ T) {σ : Nat → TSys K V} (h : TSysExec n T σ N) {t : Tid} {a j : Nat}
    (hb : Busy (fun i => (σ i).tree) t a j) (hj : j ≤ N) {g : Ptr} (hg : g ∈ (σ j).gc.g.freed) : g ∈ (σ a).tree.mem.garbage := by
  obtain ⟨hb1, hb2, hb3⟩ := hb
  have hstep := h.step a (by omega)
  have key : ∀ i, a + 1 ≤ i → i ≤ j → GC.Running (σ i).gc.g t ∧ (σ i).gc.g.joinT t = (σ (a + 1)).gc.g.joinT t ∧
      (g ∈ (σ i).tree.mem.garbage → g ∈ (σ (a + 1)).tree.mem.garbage ∨ (σ (a + 1)).gc.g.joinT t < (σ i).gc.g.outT g) := by
    intro i hi
    induction i, hi using Nat.le_induction with
    | base => exact fun _ => ⟨((h.reach (by omega)).sysInv hT).run t (hb3 _ (by omega) (by omega)), rfl, fun h => .inl h⟩
    | succ i hi ih =>
      intro hij
      obtain ⟨i1, i2, i3⟩ := ih (by omega)
      have hr := h.reach (show i ≤ N by omega)
      have hs := h.step i (by omega)
      obtain ⟨as, r1, r2⟩ := hs.gc
      obtain ⟨j1, j2, _, j4⟩ := GC.tkeep_run hT r1 (hr.inv hT) i1 (r2 t (hb3 i (by omega) (by omega)))
      refine ⟨j1, j2.trans i2, fun hg' => ?_⟩
      by_cases hgi : g ∈ (σ i).tree.mem.garbage
      · rcases i3 hgi with h1 | h1
        · exact .inl h1
        · rw [(j4 g ⟨fun e => ((hr.sysInv hT).obj g).mp e hgi, (hr.sysInv hT).notLinked g⟩).2]
          exact .inr h1
      · right
        rw [tnew_garbage hs hgi hg', ← i2]
        exact Nat.lt_succ_of_le ((hr.inv hT).2.C2 t)
  have hr := h.reach hj
  obtain ⟨k1, k2, k3⟩ := key j (by omega) (Nat.le_refl j)
  rcases k3 (tfreed_garbage hT hr hg) with h1 | h1
  · rw [tbegin_garbage hstep hb1 (hb3 _ (by omega) (by omega))] at h1
    exact h1
  · have := ((hr.inv hT).2.F g hg).2 t k1
    omega

end Tree
end BwTree
