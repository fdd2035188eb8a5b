import Verif.Proofs.TreeLeak
import Verif.Props.TreeMem
import Verif.Props.Iterator

/-!
  Memory of the concurrent tree: what leaves the tree is handed to the epoch manager, and no node stays locked.
-/

namespace BwTree
namespace Tree

variable {K V : Type} [LinearOrder K] [DecidableEq V] [Inhabited K]

/-! ## C37 -/

/-- No record of the tree is retired, whatever splits and merges are in flight. -/
theorem C37_tree_not_retired {c : Conf K V} (h : Reach c) {e : Ptr} (he : PartOf c.mem e) : ¬ Retired c.mem e := by
  obtain ⟨w, hw⟩ := good_of_reach h
  rw [← hw.mem] at he ⊢
  obtain ⟨id, p, hl, ht, hu⟩ := he
  obtain ⟨ho, ha⟩ := uses_anc hw.inv hl ht hu
  rintro ⟨f, g, hg, hc⟩
  exact tab_alive hw.inv.ow ho ha f (List.mem_flatMap.mpr ⟨g, hg, hc⟩)

/-- No record belongs to two nodes of the tree. -/
theorem C37_tree_disjoint {c : Conf K V} (h : Reach c) {id id' : NodeId} {p p' e : Ptr} (hl : OnLevel c.mem id) (hl' : OnLevel c.mem id')
    (ht : c.mem.table id = some p) (ht' : c.mem.table id' = some p') (hu : Uses c.mem p e) (hu' : Uses c.mem p' e) : id = id' := by
  obtain ⟨w, hw⟩ := good_of_reach h
  rw [← hw.mem] at *
  obtain ⟨ho, ha⟩ := uses_anc hw.inv hl ht hu
  obtain ⟨ho', ha'⟩ := uses_anc hw.inv hl' ht' hu'
  have := anc_top (fun x hx => (by rw [ho] at hx; cases hx)) (fun x hx => (by rw [ho'] at hx; cases hx)) ha ha'
  subst this
  rw [ho] at ho'
  cases ho'
  rfl

/-! ## C38 -/

/-- A record that was part of the tree still is, or is retired, or marks a merged node whose separator is still to be deleted; otherwise
some call is still running. -/
theorem C38_accounted {c c' : Conf K V} (h : Reach c) (hl : Later c c') {e : Ptr} (he : PartOf c.mem e) :
    PartOf c'.mem e ∨ Retired c'.mem e ∨ Marker c'.mem e ∨ ∃ t, c'.thr t ≠ none := by
  obtain ⟨w, hw⟩ := good_of_reach h
  obtain ⟨w', hw', hv, _⟩ := visible_later hl hw
  rw [← hw.mem] at he
  rw [← hw'.mem]
  rcases classify hw'.inv (hv e (partOf_visible hw.inv he)) with h1 | h1 | h1 | ⟨t, p, f, h1, _⟩
  · exact Or.inl h1
  · exact Or.inr (Or.inl h1)
  · exact Or.inr (Or.inr (Or.inl h1.1))
  · refine Or.inr (Or.inr (Or.inr ⟨t, fun hn => ?_⟩))
    exact (hw'.clear t hn).1 p h1

/-- When no call is running, every record that was ever part of the tree is part of it now, or was handed to the epoch manager, or is the
marker of a merged node. -/
theorem C38_no_leak {c c' : Conf K V} (h : Reach c) (hl : Later c c') (hq : ∀ t, c'.thr t = none) {e : Ptr} (he : PartOf c.mem e) :
    PartOf c'.mem e ∨ Retired c'.mem e ∨ Marker c'.mem e := by
  rcases C38_accounted h hl he with h1 | h1 | h1 | ⟨t, h1⟩
  · exact Or.inl h1
  · exact Or.inr (Or.inl h1)
  · exact Or.inr (Or.inr h1)
  · exact absurd (hq t) h1

/-- Once a delete record for the separator of a merged node was part of the tree and no call is running, the marker of that node is retired
too. -/
theorem C38_marker_retired {c c' : Conf K V} (h : Reach c) (hl : Later c c') (hq : ∀ t, c'.thr t = none) {p e : Ptr} {id : NodeId}
    (hp : PartOf c.mem p) (hd : DeletesChild c.mem p id) (ht : c'.mem.table id = some e) : Retired c'.mem e := by
  obtain ⟨w, hw⟩ := good_of_reach h
  obtain ⟨w', hw', _, hdel⟩ := visible_later hl hw
  rw [← hw.mem] at hp hd
  rw [← hw'.mem] at ht ⊢
  obtain ⟨item, prev, next, loc, ch, hh, rfl⟩ := hd
  rcases hw'.inv.dl.gone _ e (hdel _ (hw.inv.dl.recs p _ _ hh (partOf_visible hw.inv hp) rfl)) ht with h1 | ⟨t, h1⟩
  · exact ⟨1, e, (hw'.inv.ow.trash e).mp h1, List.mem_cons_self⟩
  · exact absurd h1 ((hw'.clear t (hq t)).1 e)

/-- Later configurations of a schedule. -/
theorem later_steps {c : Conf K V} (t : Tid) (thr : Tid → Option (Prog K V (Ans K V))) (hist : List (Lin.Event (Call K V) (Ans K V))) :
    ∀ (n : Nat) (m : Mem K V) (p : Prog K V (Ans K V)), Later c ⟨m, setThr thr t (some p), hist⟩ → Later c (steps t thr hist n m p)
  | 0, m, p, h => h
  | n + 1, m, p, h => by
    unfold steps
    split
    · exact h
    · rename_i m' p' hs
      apply later_steps t thr hist n m' p'
      have := h.step (.step _ t p p' m' (by simp [setThr]) hs)
      simpa [setThr_setThr] using this

theorem later_act {c c' : Conf K V} (h : Later c c') (a : Act K V) : Later c (act c' a) := by
  cases a with
  | call t fuel op =>
    simp only [act]
    split
    · exact h.step (.call c' t fuel op (by assumption))
    · exact h
  | run t n =>
    simp only [act]
    split
    · exact h
    · rename_i p hp
      apply later_steps
      rw [setThr_same hp]
      exact h
  | ret t =>
    simp only [act]
    split
    · rename_i a ha
      exact h.step (.ret c' t a ha)
    · exact h

theorem later_acts {c c' : Conf K V} (h : Later c c') : ∀ (l : List (Act K V)), Later c (acts c' l)
  | [] => h
  | a :: l => by
    rw [acts]
    exact later_acts (later_act h a) l

theorem mergeRun_idle0 : ((exec mergeRun).thr 0).isNone = true := by decide +kernel

theorem mergeRun_idle : ∀ u, (exec mergeRun).thr u = none := by
  have := mergeRun_idle0
  unfold mergeRun at this ⊢
  exact Iterator.idle_of (fun x hx => (List.mem_append.mp hx).elim (Iterator.insR_tid x) (Iterator.delR_tid x)) this

/-- The base node of the first leaf is part of the empty tree, and no longer after a split and a merge. -/
example : ∃ c c' : Conf Nat Nat, Reach c ∧ Later c c' ∧ (∀ t, c'.thr t = none) ∧ PartOf c.mem 1 ∧ Retired c'.mem 1 := by
  refine ⟨initConf, exec mergeRun, .init, later_acts .refl _, mergeRun_idle, ?_, 100, ?_⟩
  · refine ⟨2, 1, .first (.down (n := .inner (.base _ _ _ _)) .root rfl rfl), rfl, .chain (fuel := 1) ?_⟩
    exact List.mem_cons_self
  · have : ((exec mergeRun).mem.garbage.any fun g => ((exec mergeRun).mem.cells 100 g).contains 1) = true := by decide +kernel
    obtain ⟨g, h1, h2⟩ := List.any_eq_true.mp this
    exact ⟨g, h1, List.contains_iff_mem.mp h2⟩

/-- The separator and the record that deletes it, on top of the root. -/
def topDelete (m : Mem Nat Nat) : Option (Ptr × NodeId × Option Ptr) :=
  match m.table m.root with
  | none => none
  | some p => match m.heap p with
    | some (.inner (.del item _ _ _ _)) => some (p, item.2, m.table item.2)
    | _ => none

theorem mergeRun_delete : (topDelete (exec mergeRun).mem).map (·.2.1) = some 3 := by decide +kernel

/-- After the merge the root carries a delete record for leaf 3. -/
example : ∃ (c : Conf Nat Nat) (p e : Ptr) (id : NodeId), Reach c ∧ Later c c ∧ (∀ t, c.thr t = none) ∧ PartOf c.mem p ∧ DeletesChild c.mem p id ∧
    c.mem.table id = some e := by
  have h1 : ((exec mergeRun).mem.table 3).isSome = true := by decide +kernel
  have h2 := mergeRun_delete
  unfold topDelete at h2
  split at h2
  · cases h2
  · rename_i p hp
    split at h2
    · rename_i item _ _ _ _ hh
      obtain ⟨e, he⟩ := Option.isSome_iff_exists.mp h1
      have h3 : item.2 = 3 := Option.some.inj h2
      exact ⟨exec mergeRun, p, e, 3, reach_exec _, .refl, mergeRun_idle, ⟨_, p, .first .root, hp, .chain (fuel := 1) List.mem_cons_self⟩,
        ⟨item, _, _, _, _, hh, h3⟩, he⟩
    · cases h2

/-! ## C39 -/

/-- A node of the tree that is locked for an update of its children is locked by a call that is still running. -/
theorem C39_locked_running {c : Conf K V} (h : Reach c) {id : NodeId} (hl : OnLevel c.mem id ∨ Linked c.mem id) {n : Node K V}
    (hn : c.mem.node id = some n) (ha : n.isAbort = true) : ∃ t, c.thr t ≠ none := by
  obtain ⟨w, hw⟩ := good_of_reach h
  rw [← hw.mem] at hl hn
  have hx : ∃ x, w.info id = some x := by
    rcases hl with hl | hl
    · obtain ⟨n, ⟨l, hx⟩, _⟩ := onLevel_live hw.inv hl; exact ⟨_, hx⟩
    · exact (linked_live hw.inv hl).1
  obtain ⟨x, hx⟩ := hx
  obtain ⟨p, hat⟩ := at_of_node hn
  cases n with
  | leaf d => cases ha
  | inner d =>
    cases d with
    | abort o d =>
      obtain ⟨t, ht⟩ := hw.inv.abort id x p o d hx hat
      exact ⟨t, fun hn => (hw.clear t hn).2 id ht⟩
    | _ => cases ha

/-- When no call is running no node of the tree is locked. -/
theorem C39_no_lock_left {c : Conf K V} (h : Reach c) (hq : ∀ t, c.thr t = none) {id : NodeId} (hl : OnLevel c.mem id ∨ Linked c.mem id)
    {n : Node K V} (hn : c.mem.node id = some n) : n.isAbort = false := by
  cases ha : n.isAbort with
  | false => rfl
  | true =>
    obtain ⟨t, ht⟩ := C39_locked_running h hl hn ha
    exact absurd (hq t) ht

/-- Thread 1 has locked the root to remove its second leaf. -/
def lockedRun : List (Act Nat Nat) := insR 0 129 ++ delR 64 103 ++ [.call 1 50 (.api (.delete 103 103)), .run 1 9]

theorem lockedRun_root : ((exec lockedRun).mem.node (exec lockedRun).mem.root).map (fun n => n.isAbort) = some true := by decide +kernel

/-- The locked root satisfies the hypotheses of the first theorem, the root after a finished merge those of the second. -/
example : (∃ (c : Conf Nat Nat) (id : NodeId) (n : Node Nat Nat), Reach c ∧ OnLevel c.mem id ∧ c.mem.node id = some n ∧ n.isAbort = true) ∧
    ∃ (c : Conf Nat Nat) (id : NodeId), Reach c ∧ (∀ t, c.thr t = none) ∧ OnLevel c.mem id ∧ (c.mem.node id).isSome = true := by
  refine ⟨?_, exec mergeRun, _, reach_exec _, mergeRun_idle, .first .root, ?_⟩
  · have h := lockedRun_root
    cases hn : (exec lockedRun).mem.node (exec lockedRun).mem.root with
    | none => rw [hn] at h; cases h
    | some n =>
      rw [hn] at h
      exact ⟨_, _, n, reach_exec _, .first .root, hn, Option.some.inj h⟩
  · decide +kernel

end Tree
end BwTree
