import Mathlib.Data.Nat.Basic
import Verif.Proofs.TreeCells
import Verif.Props.TreeWitness

/-!
  Memory of the concurrent tree: what is handed to the epoch manager is destroyed once, and is not part of the tree.
-/

namespace BwTree
namespace Tree

variable {K V : Type} [LinearOrder K] [DecidableEq V] [Inhabited K]

/-! ## C36 -/

/-- Freeing everything that was ever handed to the epoch manager destroys no record twice: neither within one delta chain, nor across
chains that share records through merges and aborted updates. -/
theorem C36_no_double_free {c : Conf K V} (h : Reach c) (fuel : Nat) : (c.mem.garbage.flatMap (c.mem.cells fuel)).Nodup := by
  obtain ⟨w, hw⟩ := good_of_reach h
  rw [← hw.mem]
  exact garbage_nodup hw.inv.ow fuel

/-- Only allocated addresses are destroyed. -/
theorem C36_frees_allocated {c : Conf K V} (h : Reach c) {e : Ptr} (he : Retired c.mem e) : ∃ n, c.mem.heap e = some n := by
  obtain ⟨w, hw⟩ := good_of_reach h
  rw [← hw.mem] at he ⊢
  obtain ⟨fuel, g, hg, hc⟩ := he
  have hv := path_visible hw.inv.ow (by rw [(hw.inv.ow.trash g).mpr hg]; simp [Owner.Hidden]) (path_of_cells hc)
  cases hh : w.mem.heap e with
  | some n => exact ⟨n, rfl⟩
  | none => rw [(hw.inv.ow.free e).mpr hh] at hv; exact absurd trivial hv

/-- The addresses stored in a record lead to the rest of the chain the record stands for. -/
theorem C36_records_consistent {c : Conf K V} (h : Reach c) {p : Ptr} {n : Node K V} (hp : c.mem.heap p = some n) :
    ChildrenOk c.mem.heap (c.mem.kids p) n := by
  obtain ⟨w, hw⟩ := good_of_reach h
  rw [← hw.mem] at hp ⊢
  exact (hw.inv.ow.klt p n hp).1

/-! ## C37 -/

theorem Mem.node_at {w : World K V} {id : NodeId} {n : Node K V} (h : w.mem.node id = some n) : ∃ p, w.At id p n := by
  unfold Mem.node at h
  obtain ⟨p, h1, h2⟩ := Option.bind_eq_some_iff.mp h
  exact ⟨p, h1, h2⟩

/-- NodeIDs of the tree are known and their separators were not deleted. -/
theorem linked_live {w : World K V} (hi : Inv w) {id : NodeId} (h : Linked w.mem id) : (∃ x, w.info id = some x) ∧ ¬ w.del id := by
  have hkeep : ∀ {i n}, w.info i = some (none, n) → ¬ w.del i := by
    intro i n hx hd
    exact hi.keep _ _ hx (hi.dead _ (hi.dl.dead _ hd))
  induction h with
  | root => obtain ⟨n, hr, _⟩ := hi.root; exact ⟨⟨_, hr⟩, hkeep hr⟩
  | first => exact ⟨⟨_, hi.first⟩, hkeep hi.first⟩
  | child hl hn hr hm ih =>
    rename_i id i n
    obtain ⟨p, ha⟩ := Mem.node_at hn
    obtain ⟨⟨x, hx⟩, _⟩ := ih
    have hb := (hi.at_ok hx ha).2.1
    have hmem : i ∈ n.eff := by
      cases n with
      | leaf c => cases hm
      | inner c => simpa [Node.children, Node.eff] using hm
    refine ⟨?_, fun hd => hi.dl.sep i hd x.2 id p n ⟨⟨x.1, hx⟩, hi.not_dead ha hr⟩ ha hmem⟩
    rw [← Node.eff_strip] at hmem
    cases hs : n.strip with
    | leaf c => rw [hs] at hmem; cases hmem
    | inner c =>
      rw [hs] at hb hmem
      obtain ⟨_, _, _, m', _, e2, e3⟩ := hb
      simp only [Node.eff, List.map_cons, List.mem_cons, List.mem_map] at hmem
      rcases hmem with rfl | ⟨y, hy, rfl⟩
      · obtain ⟨l, hl⟩ := e3 _ (InnerChain.low_mem_childIds e2)
        exact ⟨_, hl⟩
      · obtain ⟨l, hl⟩ := e3 _ (InnerChain.seps_mem_childIds e2 y hy)
        exact ⟨_, hl⟩
  | right hl hn hr hm ih =>
    rename_i id n
    obtain ⟨p, ha⟩ := Mem.node_at hn
    obtain ⟨⟨x, hx⟩, _⟩ := ih
    have hlive : Live w x.2 id := ⟨⟨x.1, hx⟩, hi.not_dead ha hr⟩
    have := (hi.next _ _ _ _ hlive ha).resolve_left hm
    exact ⟨⟨_, this.1.choose_spec⟩, fun hd => this.2 (hi.dl.dead _ hd)⟩

/-- The node mapped at a NodeID of the tree is not retired, and unless it is marked removed nothing below it is either. (Reading a node
marked removed stops at the remove record; see `C37_right_sibling_not_retired` for its contents.)

Partial: a traversal follows these links in a tree in which every separator is exact. After two updates of a parent that each miss a
separator posted late, the search under a delete record may name a NodeID that is not a child; those searches are not covered here. -/
theorem C37_linked_not_retired_partial {c : Conf K V} (h : Reach c) {id : NodeId} (hl : Linked c.mem id) :
    ∃ p n, c.mem.table id = some p ∧ c.mem.heap p = some n ∧ ¬ Retired c.mem p ∧
      (n.isRemove = false → ∀ e, Uses c.mem p e → ¬ Retired c.mem e) := by
  obtain ⟨w, hw⟩ := good_of_reach h
  rw [← hw.mem] at hl ⊢
  have hi := hw.inv
  obtain ⟨⟨x, hx⟩, hd⟩ := linked_live hi hl
  obtain ⟨p, n, ha, _⟩ := hi.at hx
  have ho : w.ow p = .tab id := (hi.ow.tab id x p hx ha.1).resolve_right hd
  have hv : ¬ (w.ow p).Hidden := by rw [ho]; simp [Owner.Hidden]
  have hret : ∀ {e}, Anc w.ow p e → ¬ Retired w.mem e := by
    rintro e hanc ⟨fuel, g, hg, hc⟩
    exact tab_alive hi.ow ho hanc fuel (List.mem_flatMap.mpr ⟨g, hg, hc⟩)
  refine ⟨p, n, ha.1, ha.2, hret .refl, fun hr e hu => ?_⟩
  cases hu with
  | chain hc => exact hret (path_anc hi.ow hv (path_of_cells hc))
  | below hp hk hq hc =>
    rw [ha.2] at hp
    cases hp
    have hab := hk.resolve_left (by rw [hr]; simp)
    cases n with
    | leaf d => cases hab
    | inner d =>
      cases d with
      | abort o d =>
        have hk := (hi.ow.klt p _ ha.2).1
        obtain ⟨e1, e2⟩ := hk
        rw [e1] at hq
        rw [List.mem_singleton.mp hq] at hc
        have hoc := hi.ow.abort id x p o d hx ha
        have hvo : ¬ (w.ow o).Hidden := by rw [hoc]; simp [Owner.Hidden]
        exact hret ((path_anc hi.ow hvo (path_of_cells hc)).head hoc)
      | _ => cases hab

/-- The right sibling of a node of the tree, removed or not, can be merged: nothing of its contents is retired. -/
theorem C37_right_sibling_not_retired {c : Conf K V} (h : Reach c) {id : NodeId} {n : Node K V} (hl : Linked c.mem id)
    (hn : c.mem.node id = some n) (hr : n.isRemove = false) (hne : n.high.2 ≠ INVALID) :
    ∃ p, c.mem.table n.high.2 = some p ∧ ∀ e, Uses c.mem p e → ¬ Retired c.mem e := by
  have hl' := Linked.right hl hn hr hne
  obtain ⟨w, hw⟩ := good_of_reach h
  obtain ⟨p, m, h1, h2, _, h4⟩ := C37_linked_not_retired_partial h hl'
  refine ⟨p, h1, fun e hu => ?_⟩
  cases hrm : m.isRemove with
  | false => exact h4 hrm e hu
  | true =>
    rw [← hw.mem] at *
    have hi := hw.inv
    obtain ⟨⟨x, hx⟩, _⟩ := linked_live hi hl
    obtain ⟨q, ha⟩ := Mem.node_at hn
    have hlive : Live w x.2 id := ⟨⟨x.1, hx⟩, hi.not_dead ha hr⟩
    obtain ⟨⟨lk, hx'⟩, hd⟩ := (hi.next _ _ _ _ hlive ha).resolve_left hne
    have hnd : ¬ w.del n.high.2 := fun hd' => hd (hi.dl.dead _ hd')
    have ho : w.ow p = .tab n.high.2 := (hi.ow.tab _ _ p hx' h1).resolve_right hnd
    have hv : ¬ (w.ow p).Hidden := by rw [ho]; simp [Owner.Hidden]
    have hret : ∀ {e}, Anc w.ow p e → ¬ Retired w.mem e := by
      rintro e hanc ⟨fuel, g, hg, hc⟩
      exact tab_alive hi.ow ho hanc fuel (List.mem_flatMap.mpr ⟨g, hg, hc⟩)
    cases hu with
    | chain hc => exact hret (path_anc hi.ow hv (path_of_cells hc))
    | below hp hk hq hc =>
      obtain ⟨y, y1, y2⟩ := hi.ow.rem _ _ p m hx' ⟨h1, h2⟩ hrm hd
      rw [y1] at hq
      rw [List.mem_singleton.mp hq] at hc
      have hvo : ¬ (w.ow y).Hidden := by rw [y2]; simp [Owner.Hidden]
      exact hret ((path_anc hi.ow hvo (path_of_cells hc)).head y2)

/-! ## Concrete cases -/

/-- Trees after a split, a removal and a merge. -/
def mergeRun : List (Act Nat Nat) := insR 0 129 ++ delR 64 110

/-- 25 chains of together 196 records were retired, among them a chain with a merge record. -/
example : Reach (exec mergeRun) ∧ (exec mergeRun).mem.garbage.length = 25 ∧
    ((exec mergeRun).mem.garbage.flatMap ((exec mergeRun).mem.cells 100)).length = 196 ∧
    ((exec mergeRun).mem.garbage.flatMap ((exec mergeRun).mem.cells 100)).any
      (fun p => match (exec mergeRun).mem.heap p with | some n => n.isMerge | none => false) = true :=
  ⟨reach_exec _, by decide +kernel, by decide +kernel, by decide +kernel⟩

/-- Leaf 3 carries a remove record and is still the right sibling of the leftmost leaf: thread 1 has not yet posted the merge. -/
def removedRun : List (Act Nat Nat) := insR 0 129 ++ delR 64 103 ++ [.call 1 50 (.api (.delete 103 103)), .run 1 12]

theorem removedRun_node : ((exec removedRun).mem.node FIRST_LEAF).map (fun n => (n.isRemove, n.high)) = some (false, (64, 3)) ∧
    ((exec removedRun).mem.node 3).map (fun n => n.isRemove) = some true ∧ (exec removedRun).mem.garbage.length = 23 := by
  decide +kernel

/-- The right sibling of the leftmost leaf satisfies the hypotheses of both theorems. -/
example : ∃ n, (exec removedRun).mem.node FIRST_LEAF = some n ∧ n.isRemove = false ∧ n.high = (64, 3) ∧
    Linked (exec removedRun).mem n.high.2 := by
  obtain ⟨n, h1, h2⟩ := Option.map_eq_some_iff.mp removedRun_node.1
  have h3 : n.isRemove = false := congrArg Prod.fst h2
  have h4 : n.high = (64, 3) := congrArg Prod.snd h2
  exact ⟨n, h1, h3, h4, Linked.right .first h1 h3 (by rw [h4]; decide)⟩

end Tree
end BwTree
