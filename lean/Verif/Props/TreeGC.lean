import Verif.Proofs.TreeGC
import Mathlib.Data.List.Pairwise

/-!
  C44 and C36 for the tree together with the epoch manager: what C44 assumes of a collector is proved of the one in the code, on the same time line.
-/

namespace BwTree
namespace Tree

variable {K V : Type} [LinearOrder K] [DecidableEq V] [Inhabited K]

/-- The epoch manager is a collector as C44 requires: what it has destroyed while a call is running was retired before the call began. -/
theorem C44_epochs_collector {n N : Nat} {σ : Nat → Sys K V} (h : SysExec n σ N) {t : Tid} {a b j : Nat} (hb : Busy (fun i => (σ i).tree) t a j)
    (hab : a ≤ b) (hbj : b ≤ j) (hj : j ≤ N) {e : Ptr} (he : Freed (σ j) e) : Retired (σ b).tree.mem e := by
  obtain ⟨g, hg, f, hf⟩ := he
  have ha := freed_before h hb hj hg
  have hr := (h.reach (show a ≤ N by omega)).tree
  rw [cells_later hr (h.later (show a ≤ j by omega) hj) ha] at hf
  exact retired_later hr (h.later hab (by omega)) ⟨f, g, ha, hf⟩

/-- C44 with the collector of the code. While a call that began after time `a` is running, the tree names `id` at time `b`, the call reads the entry of `id` at
time `i` and finds `p`; then `p` is not destroyed as long as the call runs (until `j`), and no record a reader of `p` would follow is, if `id` was not
merged away at `b`. Partial in the same way as `C44_no_use_after_free_partial`. -/
theorem C44_epochs_partial {n N : Nat} {σ : Nat → Sys K V} (h : SysExec n σ N) {t : Tid} {a b i j : Nat} (hb : Busy (fun i => (σ i).tree) t a j)
    (hab : a ≤ b) (hbi : b ≤ i) (hij : i ≤ j) (hj : j ≤ N) {id : NodeId} (hn : Named (σ b).tree.mem id) {p : Ptr}
    (hp : (σ i).tree.mem.table id = some p) :
    ¬ Freed (σ j) p ∧ (OnLevel (σ b).tree.mem id → ∀ e, Uses (σ i).tree.mem p e → ¬ Freed (σ j) e) := by
  have hr := (h.reach (show b ≤ N by omega)).tree
  have hl := h.later hbi (show i ≤ N by omega)
  exact ⟨fun he => C44_load hr hl hn hp (C44_epochs_collector h hb hab (by omega) hj he),
    fun ho e hu he => C44_contents_partial hr hl ho hp hu (C44_epochs_collector h hb hab (by omega) hj he)⟩

/-- Collections destroy only what was handed to AddGarbageNode, and no record that is part of the tree. -/
theorem C37_epochs {n : Nat} {s : Sys K V} (h : SysReach n s) {e : Ptr} (he : Freed s e) : Retired s.tree.mem e ∧ ¬ PartOf s.tree.mem e := by
  obtain ⟨g, hg, f, hf⟩ := he
  have hgm : g ∈ s.tree.mem.garbage := by
    by_contra hn
    have := (h.sysInv.obj g).mpr hn
    rw [(h.inv.freedS g).mp hg] at this
    cases this
  exact ⟨⟨f, g, hgm, hf⟩, fun hp => C37_tree_not_retired h.tree hp ⟨f, g, hgm, hf⟩⟩

/-- No record is destroyed twice. -/
theorem C36_epochs_freed_once {n : Nat} {s : Sys K V} (h : SysReach n s) (fuel : Nat) : (s.gc.freed.flatMap (s.tree.mem.cells fuel)).Nodup := by
  have h1 := List.nodup_flatMap.mp (C36_no_double_free h.tree fuel)
  have hsub : ∀ g ∈ s.gc.freed, g ∈ s.tree.mem.garbage := by
    intro g hg
    by_contra hn
    have := (h.sysInv.obj g).mpr hn
    rw [(h.inv.freedS g).mp hg] at this
    cases this
  refine List.nodup_flatMap.mpr ⟨fun g hg => h1.1 g (hsub g hg), ?_⟩
  have : Std.Symm (Function.onFun List.Disjoint (s.tree.mem.cells fuel)) := ⟨fun a b h x ha hb => h hb ha⟩
  exact h.inv.freedND.imp_of_mem fun ha hb hne => h1.2.forall (hsub _ ha) (hsub _ hb) hne

/-- The collector never stops a call: whenever the call of a thread can make a step in the tree, the thread can make a step (of the call, of AddGarbageNode
or of a collection). -/
theorem C44_epochs_not_blocked {n : Nat} {s : Sys K V} (h : SysReach n s) {t : Tid} {p : Prog K V (Ans K V)} (ht : s.tree.thr t = some p)
    (hp : ∃ x, p.step s.tree.mem = some x) : ∃ s', SysStep n s s' ∧
      ((s.gc.pc t = .active ∧ Step s.tree s'.tree) ∨ ∃ a, (a = GC.Act.addLink t ∨ a = .gcRead t ∨ a = .gcFree t) ∧ GC.step n s.gc a = some s'.gc) := by
  rcases h.sysInv.run t (by rw [ht]; exact nofun) with h1 | ⟨o, d, h1⟩ | ⟨i, m, h1⟩ | ⟨m, h1⟩
  · by_cases hq : ∃ q k, p = .retire q k
    · obtain ⟨q, k, rfl⟩ := hq
      obtain ⟨g, h2, _⟩ := retire_step h ht h1
      exact ⟨_, h2, .inl ⟨h1, .step _ t _ _ _ ht rfl⟩⟩
    · obtain ⟨⟨m', p'⟩, hp⟩ := hp
      exact ⟨_, .step s t p p' m' h1 ht (fun q k e => hq ⟨q, k, e⟩) hp, .inl ⟨h1, .step _ t p p' m' ht hp⟩⟩
  · obtain ⟨g, e⟩ : ∃ g, GC.step n s.gc (.addLink t) = some g := by simp [GC.step, GC.step', h1]
    exact ⟨_, .own s _ g rfl (fun _ e => by cases e) e, .inr ⟨_, .inl rfl, e⟩⟩
  · obtain ⟨g, e⟩ : ∃ g, GC.step n s.gc (.gcRead t) = some g := by simp [GC.step, GC.step', h1]
    exact ⟨_, .own s _ g rfl (fun _ e => by cases e) e, .inr ⟨_, .inr (.inl rfl), e⟩⟩
  · obtain ⟨g, e⟩ : ∃ g, GC.step n s.gc (.gcFree t) = some g := by
      simp only [GC.step, GC.step', h1]
      split
      · exact ⟨_, rfl⟩
      · split
        · exact ⟨_, rfl⟩
        · exact ⟨_, rfl⟩
    exact ⟨_, .own s _ g rfl (fun _ e => by cases e) e, .inr ⟨_, .inr (.inr rfl), e⟩⟩

/-- The collector excludes no execution of the tree: every configuration of the tree can be reached with the collector running, if enough threads are
registered, and this even if the epoch never advances. -/
theorem C44_epochs_complete {c : Conf K V} (h : Reach c) : ∃ n0, ∀ n, n0 ≤ n → ∃ s : Sys K V, SysReach n s ∧ s.tree = c ∧
    (∀ t, s.gc.pc t = if (c.thr t).isNone then .idle else .active) ∧ s.gc.epoch = 0 := by
  suffices H : ∃ n0, ∀ n, n0 ≤ n → ∃ s : Sys K V, SysPath n (fun _ => True) initSys s ∧ s.tree = c ∧
      ∀ t, s.gc.pc t = if (c.thr t).isNone then .idle else .active by
    obtain ⟨n0, H⟩ := H
    refine ⟨n0, fun n hn => ?_⟩
    obtain ⟨s, h1, h2, h3⟩ := H n hn
    exact ⟨s, h1.reach .init, h2, h3, h1.same.1⟩
  induction h with
  | init => exact ⟨0, fun n _ => ⟨initSys, .refl _, rfl, fun t => rfl⟩⟩
  | step hr hs ih =>
    rename_i c c'
    obtain ⟨n0, ih⟩ := ih
    cases hs with
    | call t fuel op h1 =>
      refine ⟨max n0 (t + 1), fun n hn => ?_⟩
      obtain ⟨s, h2, rfl, h3⟩ := ih n (Nat.le_trans (Nat.le_max_left n0 (t + 1)) hn)
      obtain ⟨g, h4, h5, h6, _⟩ := join_run (n := n) (P := fun _ => True) (s := s) trivial
        (show t < n from Nat.lt_of_lt_of_le (Nat.lt_succ_self t) (Nat.le_trans (Nat.le_max_right n0 (t + 1)) hn)) (by rw [h3, h1]; rfl)
      refine ⟨_, .step (h2.trans h4) trivial (.call _ t fuel op h5 h1) rfl rfl, rfl, fun u => ?_⟩
      by_cases e : u = t
      · subst e; rw [h5]; simp [setThr]
      · rw [h6 u e, h3]; simp [setThr, e]
    | step t p p' m' h1 h2 =>
      refine ⟨n0, fun n hn => ?_⟩
      obtain ⟨s, h3, rfl, h4⟩ := ih n hn
      have ha : s.gc.pc t = .active := by rw [h4, h1]; rfl
      by_cases hp : ∃ q k, p = .retire q k
      · obtain ⟨q, k, rfl⟩ := hp
        obtain ⟨s', h5, h6, h7, h8⟩ := retire_run (P := fun _ => True) (h3.reach .init) trivial trivial h1 ha
        cases h2
        refine ⟨s', h3.trans h5, h6, fun u => ?_⟩
        by_cases e : u = t
        · subst e; rw [h7]; simp [setThr]
        · rw [h8 u e, h4]; simp [setThr, e]
      · refine ⟨_, .step h3 trivial (.step _ t p p' m' ha h1 (fun q k e => hp ⟨q, k, e⟩) h2) rfl rfl, rfl, fun u => ?_⟩
        show s.gc.pc u = _
        by_cases e : u = t
        · subst e; rw [ha]; simp [setThr]
        · rw [h4]; simp [setThr, e]
    | ret t a h1 =>
      refine ⟨n0, fun n hn => ?_⟩
      obtain ⟨s, h3, rfl, h4⟩ := ih n hn
      have ha : s.gc.pc t = .active := by rw [h4, h1]; rfl
      obtain ⟨g, h5, h6, h7, _⟩ := leave_run (n := n) (P := fun _ => True) (s := ⟨⟨s.tree.mem, setThr s.tree.thr t none, s.tree.hist ++ [.ret t a]⟩, s.gc⟩)
        (t := t) trivial ha (by simp [setThr])
      refine ⟨_, .trans (.step h3 trivial (.ret _ t a ha h1) rfl rfl) h5, rfl, fun u => ?_⟩
      by_cases e : u = t
      · subst e; rw [h6]; simp [setThr]
      · rw [h7 u e, show s.gc.pc u = _ from h4 u]; simp [setThr, e]

/-- The hypotheses of C44 are met from any reachable configuration of the tree on: with the collector running, an idle thread begins a call, and the tree names
its root. -/
example {c : Conf K V} (h : Reach c) {t : Tid} (ht : c.thr t = none) (op : Call K V) : ∃ n, ∃ σ : Nat → Sys K V, SysExec n σ 1 ∧
    Busy (fun i => (σ i).tree) t 0 1 ∧ (σ 0).tree = c ∧ Named (σ 0).tree.mem c.mem.root := by
  obtain ⟨n0, h1⟩ := C44_epochs_complete h
  obtain ⟨s, h2, rfl, h3, _⟩ := h1 (max n0 (t + 1)) (Nat.le_max_left _ _)
  obtain ⟨g, h4, h5, _⟩ := join_run (P := fun _ => True) (s := s) trivial
    (show t < max n0 (t + 1) from Nat.lt_of_lt_of_le (Nat.lt_succ_self t) (Nat.le_max_right n0 (t + 1))) (by rw [h3, ht]; rfl)
  refine ⟨_, fun i => if i = 0 then ⟨s.tree, g⟩ else ⟨⟨s.tree.mem, setThr s.tree.thr t (some (prog 0 op)), s.tree.hist ++ [.call t op]⟩, g⟩,
    ⟨h4.reach h2, fun i hi => ?_⟩, ⟨ht, Nat.zero_lt_one, fun i h6 h7 => ?_⟩, rfl, .inl rfl⟩
  · obtain rfl : i = 0 := by omega
    exact .call ⟨s.tree, g⟩ t 0 op h5 ht
  · obtain rfl : i = 1 := by omega
    simp [setThr]

end Tree
end BwTree
