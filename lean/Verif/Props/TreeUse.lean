import Verif.Proofs.TreeUse
import Verif.Props.TreeLeak

/-!
  C44: calls do not use memory that the garbage collector has destroyed.

  A call learns a NodeID from a node of the tree at one moment and reads the mapping entry of that NodeID at a later one; in between anything may
  happen to the tree. Retired memory is destroyed when the calls that were running at its retirement have ended (`Collector`, C20). So a call must not
  read anything that was retired before the call began.
-/

namespace BwTree
namespace Tree

open Iterator (Exec)

variable {K V : Type} [LinearOrder K] [DecidableEq V] [Inhabited K]

theorem named_info {w : World K V} (hi : Inv w) {id : NodeId} (h : Named w.mem id) : ∃ x, w.info id = some x ∧ ¬ w.del id := by
  rcases h with rfl | rfl | ⟨q, n, hq, hn, hc⟩
  · obtain ⟨m, h1, _⟩ := hi.root
    exact ⟨_, h1, fun hd => hi.keep _ _ h1 (hi.dead _ (hi.dl.dead _ hd))⟩
  · exact ⟨_, hi.first, fun hd => hi.keep _ _ hi.first (hi.dead _ (hi.dl.dead _ hd))⟩
  · obtain ⟨m, hl⟩ := (onLevel_iff hi).mp hq
    obtain ⟨p, hat⟩ := Mem.node_at hn
    rcases hc with hc | ⟨h1, rfl⟩
    · obtain ⟨lk, hq'⟩ := hl.1
      rw [children_eff] at hc
      have hb := (hi.at_ok hq' hat).2.1
      refine Exists.imp (fun x hx => ⟨hx, fun hd => hi.dl.sep id hd m q p n hl hat hc⟩) ?_
      rw [← Node.eff_strip] at hc
      cases hst : n.strip with
      | leaf c => rw [hst] at hc; cases hc
      | inner c =>
        rw [hst] at hb hc
        obtain ⟨_, _, _, m', _, e2, e3⟩ := hb
        simp only [Node.eff, List.map_cons, List.mem_cons, List.mem_map] at hc
        rcases hc with rfl | ⟨y, hy, rfl⟩
        · obtain ⟨l, hl⟩ := e3 _ (InnerChain.low_mem_childIds e2)
          exact ⟨_, hl⟩
        · obtain ⟨l, hl⟩ := e3 _ (InnerChain.seps_mem_childIds e2 y hy)
          exact ⟨_, hl⟩
    · rcases hi.next m q p n hl hat with h2 | h2
      · exact absurd h2 h1
      · exact ⟨_, h2.1.choose_spec, fun hd => h2.2 (hi.dl.dead _ hd)⟩

/-- The record found at a NodeID was not retired at the moment the tree named the NodeID, however much later the entry is read. -/
theorem C44_load {c c' : Conf K V} (h : Reach c) (hl : Later c c') {id : NodeId} (hn : Named c.mem id) {p : Ptr} (hp : c'.mem.table id = some p) :
    ¬ Retired c.mem p := by
  obtain ⟨w, hw⟩ := good_of_reach h
  rw [← hw.mem] at hn
  obtain ⟨x, hx, hd⟩ := named_info hw.inv hn
  obtain ⟨_, _, _, h3⟩ := load_later h hl hw hx hd
  exact h3 p hp

/-- Nor was any record below it, if the node was not merged away at that moment. -/
theorem C44_contents_partial {c c' : Conf K V} (h : Reach c) (hl : Later c c') {id : NodeId} (hn : OnLevel c.mem id) {p e : Ptr}
    (hp : c'.mem.table id = some p) (hu : Uses c'.mem p e) : ¬ Retired c.mem e := by
  obtain ⟨w, hw⟩ := good_of_reach h
  rw [← hw.mem] at hn
  obtain ⟨m, ⟨lk, hx⟩, hd⟩ := (onLevel_iff hw.inv).mp hn
  obtain ⟨_, _, _, h3⟩ := contents_later h hl hw hx hd
  exact h3 p e hp hu

theorem exec_later {σ : Nat → Conf K V} {n : Nat} (h : Exec σ n) {i j : Nat} (hij : i ≤ j) (hj : j ≤ n) : Later (σ i) (σ j) := by
  induction j with
  | zero => rw [Nat.le_zero.mp hij]; exact .refl
  | succ j ih =>
    rcases Nat.lt_or_ge i (j + 1) with hlt | hge
    · exact .step (ih (by omega) (by omega)) (h.step j (by omega))
    · rw [Nat.le_antisymm hij hge]; exact .refl

theorem exec_reach {σ : Nat → Conf K V} {n : Nat} (h : Exec σ n) {i : Nat} (hi : i ≤ n) : Reach (σ i) :=
  reach_later h.start (exec_later h (Nat.zero_le i) hi)

/-- Destroyed memory was retired before the call began. -/
theorem Collector.before {σ : Nat → Conf K V} {n : Nat} (h : Exec σ n) {F : Nat → Ptr → Prop} (hF : Collector σ F) {t : Tid} {a b j : Nat}
    (hb : Busy σ t a j) (hab : a ≤ b) (hbj : b ≤ j) (hj : j ≤ n) {e : Ptr} (he : F j e) : Retired (σ b).mem e := by
  obtain ⟨r, h1, h2, h3⟩ := hF j e he
  by_cases hr : r ≤ b
  · exact retired_later (exec_reach h (by omega)) (exec_later h hr (by omega)) h2
  · exact absurd hb (h3 t a ⟨hb.1, by omega, fun i hi hi' => hb.2.2 i hi (by omega)⟩)

/-- C44. While a call that began after time `a` is running, the tree names `id` at time `b`, the call reads the entry of `id` at time `i` and finds `p`;
then `p` is not destroyed as long as the call runs (until `j`), and no record a reader of `p` would follow is, if `id` was not merged away at `b`.

Partial: the contents of a node that was merged away before the call read its NodeID are not covered. Without the hypothesis that the tree names the NodeID the
claim is false, see `C44_use_after_free`. -/
theorem C44_no_use_after_free_partial {σ : Nat → Conf K V} {n : Nat} (h : Exec σ n) {F : Nat → Ptr → Prop} (hF : Collector σ F) {t : Tid} {a b i j : Nat}
    (hb : Busy σ t a j) (hab : a ≤ b) (hbi : b ≤ i) (hij : i ≤ j) (hj : j ≤ n) {id : NodeId} (hn : Named (σ b).mem id) {p : Ptr}
    (hp : (σ i).mem.table id = some p) :
    ¬ F j p ∧ (OnLevel (σ b).mem id → ∀ e, Uses (σ i).mem p e → ¬ F j e) := by
  have hr := exec_reach h (show b ≤ n by omega)
  have hl := exec_later h hbi (show i ≤ n by omega)
  exact ⟨fun he => C44_load hr hl hn hp (hF.before h hb hab (by omega) hj he),
    fun ho e hu he => C44_contents_partial hr hl ho hp hu (hF.before h hb hab (by omega) hj he)⟩

/-- The tree of `mergeRun` before leaf 3 falls below its lower bound, and after it was merged. -/
def beforeMerge : Conf Nat Nat := exec (insR 0 129 ++ delR 64 103)
def afterMerge : Conf Nat Nat := acts beforeMerge (delR 103 110)

theorem beforeMerge_nodes : (beforeMerge.mem.node beforeMerge.mem.root).map (fun n => n.children.head?) = some (some 2) ∧
    (beforeMerge.mem.node 2).map (fun n => n.high) = some (64, 3) := ⟨by decide +kernel, by decide +kernel⟩

theorem beforeMerge_level : OnLevel beforeMerge.mem 3 := by
  obtain ⟨n, h1, h2⟩ := Option.map_eq_some_iff.mp beforeMerge_nodes.1
  obtain ⟨n', h3, h4⟩ := Option.map_eq_some_iff.mp beforeMerge_nodes.2
  have := OnLevel.right (.first (.down .root h1 h2)) h3 (by rw [h4]; decide)
  rwa [h4] at this

/-- Leaf 3 is part of the tree; later its entry leads to a retired record, which was not retired at the time. -/
example : Reach beforeMerge ∧ Later beforeMerge afterMerge ∧ OnLevel beforeMerge.mem 3 ∧
    ∃ p, afterMerge.mem.table 3 = some p ∧ Retired afterMerge.mem p ∧ ¬ Retired beforeMerge.mem p := by
  have hr : Reach beforeMerge := reach_exec _
  have hl : Later beforeMerge afterMerge := later_acts .refl _
  refine ⟨hr, hl, beforeMerge_level, ?_⟩
  have : (afterMerge.mem.table 3).map (fun p => afterMerge.mem.garbage.contains p) = some true := by decide +kernel
  obtain ⟨p, h1, h2⟩ := Option.map_eq_some_iff.mp this
  exact ⟨p, h1, ⟨1, p, List.contains_iff_mem.mp h2, List.mem_cons_self⟩, C44_contents_partial hr hl beforeMerge_level h1 (.chain (fuel := 1) List.mem_cons_self)⟩

/-- A collector that destroys everything retired as soon as no call is running. -/
example (σ : Nat → Conf K V) : Collector σ (fun j e => Retired (σ j).mem e ∧ ∀ t, (σ j).thr t = none) :=
  fun j e h => ⟨j, Nat.le_refl j, h.1, fun t a hb => absurd (h.2 t) (hb.2.2 j hb.2.1 (Nat.le_refl j))⟩

end Tree
end BwTree
