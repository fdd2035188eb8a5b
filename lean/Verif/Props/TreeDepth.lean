import Verif.Proofs.TreeDepth
import Verif.Props.Stuck

/-!
  C08, second half: how long delta chains get. A leaf's chain never has more records that add to `depth` than the consolidation threshold; an inner node's
  chain can be longer, because a thread posts the separators of several siblings on one snapshot of the parent.
-/

set_option Elab.async false

namespace BwTree
namespace Tree

open Prog

/-- C08: the depth of a leaf in the mapping table is never above the consolidation threshold, however calls overlap. -/
theorem C08_leaf_depth {K V : Type} [LinearOrder K] [DecidableEq V] [Inhabited K] {c : Conf K V} (h : Reach c) {id : NodeId} {p : Ptr} {l : LeafChain K V}
    (ht : c.mem.table id = some p) (hp : c.mem.heap p = some (.leaf l)) : l.depth ≤ LEAF_CHAIN := by
  obtain ⟨w, hg, hf, -⟩ := flat_of_reach h
  rw [← hg.mem] at ht hp
  obtain ⟨n, hn, hs⟩ := hf id p ht
  rw [hp] at hn
  cases hn
  cases l <;> first | exact hs | (have : _ = 0 := hs; simp only [LeafChain.depth]; omega)

namespace Long

/-- 513 keys; then leaf 9 gets 32 keys below, 128 copies of 1000 and 32 keys above, so that it cannot be split; then 33 below and 37 above. -/
def heavy (i : Nat) : Call Nat Nat :=
  if i < 513 then .api (.insert i i)
  else if i < 573 then .api (.insert 1000 i)
  else if i < 606 then .api (.delete (i - 93) (i - 93))
  else if i < 674 then .api (.insert 1000 i)
  else if i = 706 then .api (.insert 600 0)
  else .api (.insert (2000 + i) 0)

/-- Node 1 has 7 records on top. Thread 1 loads it on its way to leaf 9. Thread 0 splits leaf 9, posts the separator of the new leaf 10 on node 1 and is
interrupted. Thread 1 loads leaf 9, moves on to 10, splits it and is interrupted. Thread 0 moves on to 10 and posts the separator of 11. -/
def deepen (s : PMem Nat Nat) : Option (Ptr × Node Nat Nat) :=
  let a := runP 2 s (prog 100 (.api (.insert 5001 0)))
  let b := runP 19 a.1 (prog 100 (.api (.insert 5000 0)))
  look (runP 3 (runP 7 b.1 a.2).1 b.2).1 1

def deep : Bool := match callsP heavy 712 712 rowsInit.mem with
  | none => false
  | some s => (match look s 9 with
      | some (_, .leaf l) => decide (l.depth = 8)
      | _ => false) &&
    match deepen s with
      | some (_, .inner l) => decide (l.depth = 9)
      | _ => false

theorem deep_true : deep = true := by decide +kernel

theorem look_knows {s : PMem Nat Nat} {m : Mem Nat Nat} (h : Knows s m) {id : NodeId} {p : Ptr} {n : Node Nat Nat} (e : look s id = some (p, n)) :
    m.table id = some p ∧ m.heap p = some n := by
  unfold look at e
  split at e
  · cases e
  split at e
  · cases e
  rename_i q hq
  split at e
  · cases e
  rename_i n' hn
  cases e
  exact ⟨h.table _ _ hq, h.heap _ _ hn⟩

theorem reach_deep : ∃ c : Conf Nat Nat, Reach c ∧ ∃ s, Knows s c.mem ∧ (∃ p l, look s 9 = some (p, .leaf l) ∧ l.depth = 8) ∧
    (∃ p l, deepen s = some (p, .inner l) ∧ l.depth = 9) ∧ ∀ t, c.thr t = none := by
  have hd := deep_true
  unfold deep at hd
  split at hd
  · cases hd
  rename_i s hs
  obtain ⟨c, o, k⟩ := callsP_onward (t := 0) (c := initConf) rfl init_rows.knows hs
  rw [Bool.and_eq_true] at hd
  obtain ⟨h1, h2⟩ := hd
  refine ⟨c, o.reach .init, s, k, ?_, ?_, fun t => by rw [o.thr]; rfl⟩
  · split at h1
    · rename_i p l e
      exact ⟨p, l, e, of_decide_eq_true h1⟩
    · cases h1
  · split at h2
    · rename_i p l e
      exact ⟨p, l, e, of_decide_eq_true h2⟩
    · cases h2

end Long

/-- The bound is met: after 712 calls a leaf has depth 8. -/
theorem C08_leaf_depth_met : ∃ (c : Conf Nat Nat) (id : NodeId) (p : Ptr) (l : LeafChain Nat Nat), Reach c ∧ c.mem.table id = some p ∧
    c.mem.heap p = some (.leaf l) ∧ l.depth = LEAF_CHAIN := by
  obtain ⟨c, hr, s, k, ⟨p, l, e, hl⟩, -, -⟩ := Long.reach_deep
  obtain ⟨h1, h2⟩ := Long.look_knows k e
  exact ⟨c, 9, p, l, hr, h1, h2, hl⟩

/-- C08 fails for inner nodes: the depth of a chain in the mapping table can be above the consolidation threshold. Two threads are enough for 9. -/
theorem C08_inner_depth_exceeds : ∃ (c : Conf Nat Nat) (id : NodeId) (p : Ptr) (l : InnerChain Nat), Reach c ∧ c.mem.table id = some p ∧
    c.mem.heap p = some (.inner l) ∧ INNER_CHAIN < l.depth := by
  obtain ⟨c, hr, s, k, -, ⟨p, l, e, hl⟩, hi⟩ := Long.reach_deep
  obtain ⟨c1, h1, i1, k1, -⟩ := Long.start (t := 1) hr (hi 1) k 2 100 (.api (.insert 5001 0))
  obtain ⟨c2, h2, i2, k2, -⟩ := Long.start (t := 0) h1 (show c1.thr 0 = none by rw [i1]; exact hi 0) k1 19 100 (.api (.insert 5000 0))
  obtain ⟨c3, h3, i3, k3, -⟩ := Long.resume (t := 1) h2 (by rw [i2, i1]; rfl) k2 7
  obtain ⟨c4, h4, i4, k4, -⟩ := Long.resume (t := 0) h3 (by rw [i3, i2]; rfl) k3 3
  obtain ⟨t4, p4⟩ := Long.look_knows k4 e
  exact ⟨c4, 1, p, l, h4, t4, p4, by rw [hl]; decide⟩

end Tree
end BwTree
