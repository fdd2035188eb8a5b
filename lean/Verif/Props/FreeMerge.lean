import Verif.Props.FreeOrder
import Verif.Props.BackLate

/-!
  C34 fails in executions of tree and collector: after two leaves were merged the collector runs the destructor of the merge record in memory it gave back.
-/

set_option Elab.async false

namespace BwTree
namespace Tree

open Prog

theorem freed_self {K V : Type} [LinearOrder K] [DecidableEq V] [Inhabited K] {n : Nat} {s : Sys K V} (h : SysReach n s) {g : Ptr}
    (hg : g ∈ s.tree.mem.garbage) (hf : Freed s g) : g ∈ s.gc.freed := by
  obtain ⟨x, hx, f, he⟩ := hf
  have hxm : x ∈ s.tree.mem.garbage := by
    by_contra hn
    have := (h.sysInv.obj x).mpr hn
    rw [(h.inv.freedS x).mp hx] at this
    cases this
  have h1 := List.nodup_flatMap.mp (C36_no_double_free h.tree f)
  by_cases e : x = g
  · rw [← e]; exact hx
  · have : Std.Symm (Function.onFun List.Disjoint (s.tree.mem.cells f)) := ⟨fun a b h x ha hb => h hb ha⟩
    cases f with
    | zero => cases he
    | succ f => exact absurd List.mem_cons_self (h1.2.forall hxm hg e he)

/-- Whatever the tree and the collector do: if a chain with a merge record and no remove or abort record was handed to the collector, `FreeEpochDeltaChain` runs
the destructor of a merge record in memory it gave back. -/
theorem free_garbage {K V : Type} [LinearOrder K] [DecidableEq V] [Inhabited K] {c : Conf K V} (h : Reach c) {g : Nat} (hg : g ∈ c.mem.garbage) {n : Node K V}
    (hp : c.mem.heap g = some n) (hn : n.Plain) {f : Nat} (hf : g < f) {e : Ptr} (he : e ∈ c.mem.cells f g) (hm : MergeAt c.mem e) :
    ∃ q, MergeAt c.mem q ∧ c.mem.freeEpoch f g [] = .error (.dtor q) := by
  obtain ⟨w, hw⟩ := good_of_reach h
  rw [← hw.mem] at hg hp he hm ⊢
  rcases free_world hw.inv hp hn (by rw [(hw.inv.ow.trash g).mpr hg]; simp [Owner.Hidden]) hf with ⟨h1, _⟩ | ⟨q, _, h2, h3⟩
  · exact absurd hm (h1 e he)
  · exact ⟨q, h2, h3⟩

/-- `Plain` as a computation. -/
def _root_.BwTree.LeafChain.plainB {K V : Type} : LeafChain K V → Bool
  | .base _ _ _ => true
  | .ins _ _ _ _ c => c.plainB
  | .del _ _ _ _ c => c.plainB
  | .split _ _ _ c => c.plainB
  | .merge _ _ r c => r.plainB && c.plainB
  | .remove _ _ => false

theorem _root_.BwTree.LeafChain.plainB_spec : ∀ {c : LeafChain Nat Nat}, c.plainB = true → c.Plain
  | .base _ _ _, _ => trivial
  | .ins _ _ _ _ c, h => LeafChain.plainB_spec (c := c) h
  | .del _ _ _ _ c, h => LeafChain.plainB_spec (c := c) h
  | .split _ _ _ c, h => LeafChain.plainB_spec (c := c) h
  | .merge _ _ r c, h => ⟨LeafChain.plainB_spec (c := r) (Bool.and_eq_true_iff.mp h).1, LeafChain.plainB_spec (c := c) (Bool.and_eq_true_iff.mp h).2⟩
  | .remove _ _, h => by cases h

/-- 129 pairs are inserted and 46 deleted again, which merges leaf 3 into leaf 2; then (10, 999) is inserted and deleted again, four times. -/
def mergedOps : List (Call Nat Nat) := insDel 129 64 110 ++ (Long.togs 999).map (togOp 10)

def merged : Option (Conf Nat Nat) := seqRun 1000 initConf mergedOps

/-- The root: the separator of leaf 3 was inserted and deleted. -/
def rootMerged : InnerChain Nat := .del (64, 3) (0, 2) (default, INVALID) 1 (.ins (64, 3) (default, INVALID) 1 (.base (default, 2) (default, INVALID) 0 [(default, 2)]))

def leafMerged : LeafChain Nat Nat :=
  .del 10 999 11 true (.ins 10 999 11 true (.del 10 999 11 true (.ins 10 999 11 true (.del 10 999 11 true (.ins 10 999 11 true (.del 10 999 11 true
    (.base (default, INVALID) (default, INVALID) ((List.range 11).map (fun i => (i, i)) ++ [(10, 999)] ++ (List.range 53).map (fun i => (11 + i, 11 + i)) ++
      (List.range 19).map fun i => (110 + i, 110 + i)))))))))

def mergedRest : Rows Nat Nat where
  root := 1
  nextId := 4
  nextPtr := 216
  rows := [(1, 198, .inner rootMerged)]

def mergedRows : Rows Nat Nat := { mergedRest with rows := (2, 215, .leaf leafMerged) :: mergedRest.rows }

/-- The merge record, at 197, was handed to the collector. -/
theorem merged_facts : (merged.map fun c => inMem mergedRows c.mem && c.mem.garbage.contains 197 &&
    match c.mem.heap 197 with | some (.leaf l) => l.plainB && (Node.leaf l : Node Nat Nat).isMerge | _ => false) = some true := by decide +kernel

theorem togsMerged : opsEffect 10 (Long.togs 999) leafMerged = some (1, leafMerged) := by decide +kernel

theorem merged_routes : Routes mergedRest 2 10 := by
  intro s p c h
  have h0 : look s s.root = some (198, .inner rootMerged) := by
    rw [h.root]
    exact h.look (x := (1, 198, .inner rootMerged)) List.mem_cons_self (by decide)
  exact (walkRoot_at h0 (by decide +kernel)).trans (walk_child (by decide +kernel) (h.lookLeaf (by decide)))

/-- **C34 fails.** Some state of tree and collector, reached by Insert and Delete when all calls have returned: a collection has taken the node `g` off a
garbage list and called `FreeEpochDeltaChain` on it, which runs the destructor of the record `q`, a merge record, in memory that it gave back before. -/
theorem C34_collector_merge_destructor : ∃ (n : Nat) (s : Sys Nat Nat) (g : Nat) (q : Ptr), SysReach n s ∧ (∀ t, s.tree.thr t = none) ∧ (∀ t, s.gc.pc t = .idle) ∧
    g ∈ s.gc.freed ∧ MergeAt s.tree.mem q ∧ s.tree.mem.freeEpoch (g + 1) g [] = .error (.dtor q) := by
  have h := merged_facts
  cases hc : merged with
  | none => rw [hc] at h; cases h
  | some c =>
    rw [hc] at h
    have h := Option.some.inj h
    simp only [Bool.and_eq_true] at h
    obtain ⟨⟨h1, h2⟩, h3⟩ := h
    have hs : SeqReach c := seqRun_reach .init (fun op ho => by
      rcases List.mem_append.mp ho with ho | ho
      · exact insDel_forward op ho
      · obtain ⟨x, _, rfl⟩ := List.mem_map.mp ho
        rcases x with ⟨_ | _, _⟩ <;> rfl) hc
    have hq : ∀ t, c.thr t = none := by obtain ⟨_, hw⟩ := hs.calls; exact hw.thr
    obtain ⟨n0, hn⟩ := C44_epochs_complete hs.reach
    obtain ⟨s, r1, rfl, r3, r4⟩ := hn (n0 + 1) (by omega)
    have hm := inMem_spec h1
    have hi : ∀ t, s.gc.pc t = .idle := fun t => by rw [r3, hq]; rfl
    have hg : (197 : Nat) ∈ s.tree.mem.garbage := List.contains_iff_mem.mp h2
    obtain ⟨t, ht, H⟩ := C21_tree_reclaims (by omega) r1 hi hq (by rw [r4]; decide) (e := 197) ⟨1, 197, hg, List.mem_cons_self⟩
    have hS : Scene mergedRest 2 mergedRows.mem 215 leafMerged := ⟨rfl, rfl, by decide +kernel, by decide +kernel, by decide +kernel⟩
    obtain ⟨C, s1, p1, d1, d2, d3, d4, _⟩ := ops_repeat merged_routes (t := t) togsMerged (GC.THRESHOLD + 1) hS hm.knows
    obtain ⟨s', e1, e2, e3, e4⟩ := H C d1 (by omega)
    have hr' := e1.reach r1
    have hl := e1.tree
    split at h3
    · rename_i l hl3
      simp only [Bool.and_eq_true] at h3
      have hg' : (197 : Nat) ∈ s'.tree.mem.garbage := by
        clear e2 e3 e4 hr' hl
        induction e1 with
        | refl => exact hg
        | step _ hs ih => exact garbage_step hs ih
      have hp' := heap_later r1.tree hl hl3
      obtain ⟨q, q1, q2⟩ := free_garbage hr'.tree hg' hp' (LeafChain.plainB_spec h3.1) (Nat.lt_succ_self 197) (List.mem_cons_self) ⟨_, hp', h3.2⟩
      exact ⟨_, s', 197, q, hr', fun t => by rw [e2, d1.thr]; exact hq t, e3, freed_self hr' hg' e4, q1, q2⟩
    · cases h3

end Tree
end BwTree
