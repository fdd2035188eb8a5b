import Verif.Proofs.TreeTSO
import Verif.Props.TreeGC

/-!
# C55 for the tree: no call touches a record that has been destroyed, on a machine with store buffers
-/

namespace BwTree
namespace Tree

variable {K V : Type} [LinearOrder K] [DecidableEq V] [Inhabited K]

/-- What the epoch manager has destroyed while a call is running was retired before the call began, however long stores to its counters are buffered. -/
theorem C55_tree_collector_partial {n T N : Nat} (hT : n ≤ T) {σ : Nat → TSys K V} (h : TSysExec n T σ N) {t : Tid} {a b j : Nat}
    (hb : Busy (fun i => (σ i).tree) t a j) (hab : a ≤ b) (hbj : b ≤ j) (hj : j ≤ N) {e : Ptr} (he : TFreed (σ j) e) : Retired (σ b).tree.mem e := by
  obtain ⟨g, hg, f, hf⟩ := he
  have ha := tfreed_before hT h hb hj hg
  have hr := (h.reach (show a ≤ N by omega)).tree
  rw [cells_later hr (h.later (show a ≤ j by omega) hj) ha] at hf
  exact retired_later hr (h.later hab (by omega)) ⟨f, g, ha, hf⟩

/-- **C55 for the tree.** As `C44_epochs_partial`, on a machine with store buffers: while a call that began after time `a` is running, the tree names `id` at
time `b`, the call reads the entry of `id` at time `i` and finds `p`; then `p` is not destroyed as long as the call runs (until `j`), and no record a reader of
`p` would follow is, if `id` was not merged away at `b`. Partial as `C44_no_use_after_free_partial` and as `C55_no_early_free_partial`: the thread `T` that
advances the epoch runs no calls, no thread is unregistered. -/
theorem C55_tree_partial {n T N : Nat} (hT : n ≤ T) {σ : Nat → TSys K V} (h : TSysExec n T σ N) {t : Tid} {a b i j : Nat}
    (hb : Busy (fun i => (σ i).tree) t a j) (hab : a ≤ b) (hbi : b ≤ i) (hij : i ≤ j) (hj : j ≤ N) {id : NodeId} (hn : Named (σ b).tree.mem id) {p : Ptr}
    (hp : (σ i).tree.mem.table id = some p) :
    ¬ TFreed (σ j) p ∧ (OnLevel (σ b).tree.mem id → ∀ e, Uses (σ i).tree.mem p e → ¬ TFreed (σ j) e) := by
  have hr := (h.reach (show b ≤ N by omega)).tree
  have hl := h.later hbi (show i ≤ N by omega)
  exact ⟨fun he => C44_load hr hl hn hp (C55_tree_collector_partial hT h hb hab (by omega) hj he),
    fun ho e hu he => C44_contents_partial hr hl ho hp hu (C55_tree_collector_partial hT h hb hab (by omega) hj he)⟩

/-- Collections destroy only what was handed to AddGarbageNode, and no record that is part of the tree. -/
theorem C55_tree_not_part_partial {n T : Nat} (hT : n ≤ T) {s : TSys K V} (h : TSysReach n T s) {e : Ptr} (he : TFreed s e) :
    Retired s.tree.mem e ∧ ¬ PartOf s.tree.mem e := by
  obtain ⟨g, hg, f, hf⟩ := he
  have hgm := tfreed_garbage hT h hg
  exact ⟨⟨f, g, hgm, hf⟩, fun hp => C37_tree_not_retired h.tree hp ⟨f, g, hgm, hf⟩⟩

/-- The hypotheses are met: thread 0 begins a call on a new tree while its store in JoinEpoch is still in its buffer, and the tree names its root. -/
example {n T : Nat} (hn : 0 < n) (op : Call K V) : ∃ σ : Nat → TSys K V, TSysExec n T σ 1 ∧ Busy (fun i => (σ i).tree) 0 0 1 ∧ (σ 1).gc.buf 0 ≠ [] ∧
    Named (σ 0).tree.mem (σ 0).tree.mem.root := by
  obtain ⟨g1, e1, p1⟩ : ∃ g1, GC.tstep n T GC.tinit (.act (.joinRead 0)) = some g1 ∧ g1.g.pc 0 = .joining (GC.look true 0 []) := by
    simp [GC.tstep, GC.tstep', GC.tinit, GC.init, GC.upd, hn]
  obtain ⟨g2, e2, p2, b2⟩ : ∃ g2, GC.tstep n T g1 (.act (.joinStore 0)) = some g2 ∧ g2.g.pc 0 = .active ∧ g2.buf 0 ≠ [] := by
    simp [GC.tstep, GC.tstep', p1, GC.upd]
  have r2 : TSysReach n T (⟨initConf, g2⟩ : TSys K V) := .step (.step .init (.own initTSys _ g1 rfl e1)) (.own ⟨initConf, g1⟩ _ g2 rfl e2)
  refine ⟨fun i => if i = 0 then ⟨initConf, g2⟩ else ⟨⟨initConf.mem, setThr initConf.thr 0 (some (prog 0 op)), initConf.hist ++ [.call 0 op]⟩, g2⟩,
    ⟨r2, fun i hi => ?_⟩, ⟨rfl, Nat.zero_lt_one, fun i h6 h7 => ?_⟩, b2, .inl rfl⟩
  · obtain rfl : i = 0 := by omega
    exact .call ⟨initConf, g2⟩ 0 0 op p2 rfl
  · obtain rfl : i = 1 := by omega
    simp [setThr]

end Tree
end BwTree
