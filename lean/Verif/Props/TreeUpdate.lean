import Verif.Props.Reclaim

/-!
  C47 for the tree together with the epoch manager: UpdateThreadLocal destroys everything that was retired, nothing that is part of the tree, and the tree can
  then be used by the new number of threads. (C36, C37 and C44 hold in all states of `SysReach`, so also after any number of calls of UpdateThreadLocal.)
-/

namespace BwTree
namespace Tree

variable {K V : Type} [LinearOrder K] [DecidableEq V] [Inhabited K]

/-- **C47 (the tree).** UpdateThreadLocal, called while no operation runs: afterwards exactly the records that were retired have been destroyed, each once, none
of them part of the tree; no thread runs an operation, and each of the `n'` threads can begin one. -/
theorem C47_tree_update {n : Nat} {s : Sys K V} (hr : SysReach n s) (hi : ∀ t, s.gc.pc t = .idle) (he : s.gc.epoch < GC.UMAX) (n' : Nat) :
    SysReach n' ⟨s.tree, GC.updateThreads n s.gc⟩ ∧ (∀ e, Freed ⟨s.tree, GC.updateThreads n s.gc⟩ e ↔ Retired s.tree.mem e) ∧
      (∀ e, PartOf s.tree.mem e → ¬ Freed ⟨s.tree, GC.updateThreads n s.gc⟩ e) ∧
      (∀ fuel, ((GC.updateThreads n s.gc).freed.flatMap (s.tree.mem.cells fuel)).Nodup) ∧ (∀ t, (GC.updateThreads n s.gc).pc t = .idle) ∧
      ∀ t, t < n' → ∃ g, SysReach n' ⟨s.tree, g⟩ ∧ g.pc t = .active := by
  have hr' : SysReach n' ⟨s.tree, GC.updateThreads n s.gc⟩ := .update hr hi he
  obtain ⟨_, h2, _, h4⟩ := GC.update_spec n' hr.inv hi he hr.inv_garb.2
  refine ⟨hr', fun e => ⟨fun h => (C37_epochs hr' h).1, ?_⟩, fun e hp hf => (C37_epochs hr' hf).2 hp, C36_epochs_freed_once hr', h2, fun t ht => ?_⟩
  · rintro ⟨f, g, hg, hf⟩
    refine ⟨g, (hr'.inv.freedS g).mpr ?_, f, hf⟩
    show (GC.updateThreads n s.gc).st g = .freed
    rw [h4 g]
    rcases hr.held hi hg with h | ⟨t, _, d, h⟩
    · rw [(hr.inv.freedS g).mp h]; rfl
    · rw [hr.inv.garbS t g d h]; rfl
  · obtain ⟨g, h5, h6, _⟩ := join_run (n := n') (P := fun _ => True) (s := ⟨s.tree, GC.updateThreads n s.gc⟩) trivial ht (h2 t)
    exact ⟨g, h5.reach hr', h6⟩

/-- Nonvacuity: a reachable state in which no operation runs and a record is retired. After a change to five threads and then to two, the record is destroyed
and thread 1 can begin an operation. -/
example : ∃ n, ∃ s : Sys Nat Nat, SysReach n s ∧ (∀ t, s.gc.pc t = .idle) ∧ s.gc.epoch < GC.UMAX ∧ Retired s.tree.mem 11648 ∧
    ∃ s2 : Sys Nat Nat, SysReach 2 s2 ∧ s2.tree = s.tree ∧ s2.gc.pc 1 = .active ∧ Freed ⟨s.tree, GC.updateThreads 5 (GC.updateThreads n s.gc)⟩ 11648 := by
  obtain ⟨c, hr, hq, hc⟩ := Long.reach_razed
  obtain ⟨_, hp⟩ := Long.razed_retired hr hq hc
  obtain ⟨n0, hn⟩ := C44_epochs_complete hr
  obtain ⟨s, r1, rfl, r3, r4⟩ := hn n0 (Nat.le_refl n0)
  have hi : ∀ t, s.gc.pc t = .idle := fun t => by rw [r3, hq]; rfl
  have he : s.gc.epoch < GC.UMAX := by rw [r4]; decide
  obtain ⟨h1, _, _, _, h5, _⟩ := C47_tree_update r1 hi he 5
  obtain ⟨_, _, e1, _⟩ := GC.update_spec 5 r1.inv hi he r1.inv_garb.2
  obtain ⟨_, k2, _, _, _, k6⟩ := C47_tree_update h1 h5 (show (GC.updateThreads n0 s.gc).epoch < GC.UMAX by rw [e1]; exact he) 2
  obtain ⟨g, k7, k8⟩ := k6 1 (by decide)
  exact ⟨n0, s, r1, hi, he, hp, ⟨s.tree, g⟩, k7, rfl, k8, (k2 _).mpr hp⟩

end Tree
end BwTree
