import Verif.Proofs.TreeDestroy
import Verif.Props.TreeLeak

/-!
  C40: the destructor. All theorems speak about the memory left behind by any concurrent execution of the API once no call is running.
-/

namespace BwTree
namespace Tree

variable {K V : Type} [LinearOrder K] [DecidableEq V] [Inhabited K]

/-- A recursion depth that is always enough for the destructor. -/
def Mem.depth (m : Mem K V) : Nat := m.nextId * (m.nextPtr + 1)

theorem quiet_world {c : Conf K V} (h : Reach c) (hq : ∀ t, c.thr t = none) :
    ∃ w, Good c w ∧ w.mem = c.mem ∧ Inv w ∧ (∀ p t, w.ow p ≠ .owed t) ∧ ∀ id, w.lock id = none := by
  obtain ⟨w, hw⟩ := good_of_reach h
  refine ⟨w, hw, hw.mem, hw.inv, fun p t => (hw.clear t (hq t)).1 p, fun id => ?_⟩
  cases hl : w.lock id with
  | none => rfl
  | some t => exact absurd hl ((hw.clear t (hq t)).2 id)

/-- The destructor never touches memory that was freed before, never frees anything twice, frees only what was allocated and terminates. It
can only stop at a node whose removal was left unfinished: then `FreeNodeByPointer` meets a record it does not know. Here every record has memory of its own;
that records share the memory of a base node is in Props/FreeDestroy (`C40_merge_destructor`). -/
theorem C40_no_double_free {c : Conf K V} (h : Reach c) (hq : ∀ t, c.thr t = none) {fuel : Nat} (hf : c.mem.depth ≤ fuel) :
    match destroy c.mem fuel with
    | .ok s => s.freed.Nodup ∧ ∀ e ∈ s.freed, c.mem.heap e ≠ none
    | .error e => e = .unknownType ∧ ∃ id p n, id < c.mem.nextId ∧ c.mem.table id = some p ∧ c.mem.heap p = some n ∧ n.isRemove = true ∧ ¬ Retired c.mem p := by
  obtain ⟨w, _, hm, hi, hno, hlk⟩ := quiet_world h hq
  rw [← hm] at hf ⊢
  have := destroy_good hi hno hlk hf
  cases hr : destroy w.mem fuel with
  | ok s =>
    rw [hr] at this
    exact ⟨this.1.nodup, fun e he => by obtain ⟨n, hn⟩ := this.1.heap e he; rw [hn]; simp⟩
  | error e =>
    rw [hr] at this
    obtain ⟨rfl, id, x, p, n, hx, hat, hrm, ho⟩ := this
    refine ⟨rfl, id, p, n, (hi.ids id x hx).2.2, hat.1, hat.2, hrm, ?_⟩
    rintro ⟨f, g, hg, hc⟩
    exact tab_alive hi.ow ho .refl f (List.mem_flatMap.mpr ⟨g, hg, hc⟩)

/-- When no removal was left unfinished the destructor runs to its end. -/
theorem C40_completes {c : Conf K V} (h : Reach c) (hq : ∀ t, c.thr t = none) {fuel : Nat} (hf : c.mem.depth ≤ fuel)
    (hr : ∀ id p n, id < c.mem.nextId → c.mem.table id = some p → c.mem.heap p = some n → n.isRemove = true → Retired c.mem p) : ∃ s, destroy c.mem fuel = .ok s := by
  have := C40_no_double_free h hq hf
  cases hd : destroy c.mem fuel with
  | ok s => exact ⟨s, rfl⟩
  | error e =>
    rw [hd] at this
    obtain ⟨_, id, p, n, h0, h1, h2, h3, h4⟩ := this
    exact absurd (hr id p n h0 h1 h2 h3) h4

/-- A destructor that runs to its end frees everything handed to the epoch manager and every record of every node that hangs below the root
by child pointers and split records. -/
theorem C40_frees_partial {c : Conf K V} (h : Reach c) (hq : ∀ t, c.thr t = none) {fuel : Nat} (hf : c.mem.depth ≤ fuel) {s : DState}
    (hs : destroy c.mem fuel = .ok s) {e : Ptr}
    (he : Retired c.mem e ∨ ∃ id p, OnLevel c.mem id ∧ Attached c.mem id ∧ c.mem.table id = some p ∧ Uses c.mem p e) : e ∈ s.freed := by
  obtain ⟨w, hw, hm, hi, hno, hlk⟩ := quiet_world h hq
  rw [← hm] at hf hs he
  have hg := destroy_good hi hno hlk hf
  rw [hs] at hg
  obtain ⟨_, hrel, hroot⟩ := hg
  rcases he with he | ⟨id, p, hol, ha, ht, hu⟩
  · exact hrel.mono e (retired_freed hi he)
  · obtain ⟨⟨x, hx⟩, hnone⟩ := attached_cleared hi hlk hno hrel hroot ha
    obtain ⟨_, _, hdd⟩ := onLevel_live hi hol
    have hd : ¬ w.del id := fun hd => hdd (hi.dl.dead id hd)
    · have hs0 := clearGarbage_inv hi hno
      have hst := clear_live hi hx hd
      rw [ht] at hst
      cases hu with
      | chain hc => exact (freed_all hi hs0 hrel hx hst hnone (path_of_cells hc)).1
      | below hh hk hq' hc =>
        rename_i q f n
        exfalso
        have h1 := ((freed_all hi hs0 hrel hx hst hnone .refl).2 n hh).1
        rcases hk with hk | hk
        · rw [h1] at hk; cases hk
        · cases n with
          | leaf c => cases hk
          | inner c =>
            cases c with
            | abort q c =>
              obtain ⟨t, h⟩ := hi.abort id _ p q c hx ⟨ht, hh⟩
              rw [hlk] at h
              cases h
            | _ => cases hk

/-- Nothing leaks: whatever was once part of the tree is freed exactly once by the epoch manager or the destructor. Missing from the full
claim: that each level's nodes all hang below the root by child pointers and split records, which is false (`C40_leaks` in Props/Stuck), and that no marker
of a merged node is left when no call is running (the destructor does not follow right sibling links and does not look for markers). -/
theorem C40_no_leak_partial {c c' : Conf K V} (h : Reach c) (hl : Later c c') (hq : ∀ t, c'.thr t = none) {fuel : Nat} (hf : c'.mem.depth ≤ fuel)
    (hatt : ∀ id, OnLevel c'.mem id → Attached c'.mem id) (hmark : ∀ e, Marker c'.mem e → Retired c'.mem e) {s : DState}
    (hs : destroy c'.mem fuel = .ok s) {e : Ptr} (he : PartOf c.mem e) : s.freed.count e = 1 := by
  have h' : Reach c' := by
    clear hq hf hatt hmark hs he
    induction hl with
    | refl => exact h
    | step _ hs ih => exact .step ih hs
  have hnd := C40_no_double_free h' hq hf
  rw [hs] at hnd
  refine List.count_eq_one_of_mem hnd.1 (C40_frees_partial h' hq hf hs ?_)
  rcases C38_no_leak h hl hq he with ⟨id, p, h1, h2, h3⟩ | h1 | h1
  · exact Or.inr ⟨id, p, h1, hatt id h1, h2, h3⟩
  · exact Or.inl h1
  · exact Or.inl (hmark e h1)

/-! The tree after a split and a merge meets all hypotheses. -/

/-- Mapped remove records are retired. -/
def markersRetired (m : Mem Nat Nat) : Bool := (List.range m.nextId).all fun id =>
  match m.table id with
  | none => true
  | some p => match m.heap p with
    | none => true
    | some n => !n.isRemove || m.garbage.contains p

/-- What the examples need to know about the memory after the merge: the root has the leaf 2 as its only child, neither has a right sibling, and
the destructor frees every address that was ever allocated. -/
def mergeFacts (m : Mem Nat Nat) : Bool :=
  markersRetired m && ((m.node m.root).map fun n => (n.children, n.high.2, n.isRemove)) == some ([2], INVALID, false) &&
  ((m.node 2).map fun n => (n.children, n.high.2, n.isRemove)) == some ([], INVALID, false) &&
  match destroy m m.depth with
  | .error _ => false
  | .ok s => (List.range m.nextPtr).all (fun e => (m.heap e).isNone || s.freed.contains e) && decide (200 < s.freed.length)

theorem mergeRun_facts : mergeFacts (exec mergeRun).mem = true := by decide +kernel

theorem mergeRun_node {m : Mem Nat Nat} {i : NodeId} {n : Node Nat Nat} {x : List NodeId × NodeId × Bool} (hn : m.node i = some n)
    (h : ((m.node i).map fun n => (n.children, n.high.2, n.isRemove)) = some x) : n.children = x.1 ∧ n.high.2 = x.2.1 ∧ n.isRemove = x.2.2 := by
  rw [hn] at h
  cases h
  exact ⟨rfl, rfl, rfl⟩

example : ∃ (c c' : Conf Nat Nat) (s : DState), Reach c ∧ Later c c' ∧ (∀ t, c'.thr t = none) ∧ destroy c'.mem c'.mem.depth = .ok s ∧ 200 < s.freed.length ∧
    (∀ id p n, id < c'.mem.nextId → c'.mem.table id = some p → c'.mem.heap p = some n → n.isRemove = true → Retired c'.mem p) ∧
    (∀ id, OnLevel c'.mem id → Attached c'.mem id) ∧ (∀ e, Marker c'.mem e → Retired c'.mem e) ∧
    (∃ e, PartOf c.mem e ∧ ¬ PartOf c'.mem e) ∧ ∀ e < c'.mem.nextPtr, c'.mem.heap e ≠ none → e ∈ s.freed := by
  have hf := mergeRun_facts
  have hidle := mergeRun_idle
  have hreach : Reach (exec mergeRun) := reach_exec _
  have hlater : Later initConf (exec mergeRun) := later_acts .refl _
  have hfirst : ((exec mergeRun).mem.garbage.any fun g => ((exec mergeRun).mem.cells 100 g).contains 1) = true := by decide +kernel
  generalize exec mergeRun = c' at *
  simp only [mergeFacts, Bool.and_eq_true, beq_iff_eq] at hf
  obtain ⟨⟨⟨h1, h2⟩, h3⟩, h4⟩ := hf
  have hret : ∀ id p n, id < c'.mem.nextId → c'.mem.table id = some p → c'.mem.heap p = some n → n.isRemove = true → Retired c'.mem p := by
    intro id p n h5 h6 h7 h8
    have := List.all_eq_true.mp h1 id (List.mem_range.mpr h5)
    rw [h6] at this
    simp only [h7, h8, Bool.not_true, Bool.false_or] at this
    exact ⟨1, p, List.contains_iff_mem.mp this, List.mem_cons_self⟩
  have hleft : ∀ id, Leftmost c'.mem id → id = c'.mem.root ∨ id = 2 := by
    intro id h
    induction h with
    | root => exact Or.inl rfl
    | down _ hn hc ih =>
      rcases ih with rfl | rfl
      · rw [(mergeRun_node hn h2).1] at hc
        cases hc
        exact Or.inr rfl
      · rw [(mergeRun_node hn h3).1] at hc
        cases hc
  have hlevel : ∀ id, OnLevel c'.mem id → id = c'.mem.root ∨ id = 2 := by
    intro id h
    induction h with
    | first h => exact hleft _ h
    | right _ hn hne ih =>
      rcases ih with rfl | rfl
      · exact absurd (mergeRun_node hn h2).2.1 hne
      · exact absurd (mergeRun_node hn h3).2.1 hne
  have hatt : ∀ id, OnLevel c'.mem id → Attached c'.mem id := by
    intro id h
    rcases hlevel id h with rfl | rfl
    · exact .root
    · cases hn : c'.mem.node c'.mem.root with
      | none => rw [hn] at h2; cases h2
      | some n =>
        obtain ⟨a, b, d⟩ := mergeRun_node hn h2
        exact .child .root hn d (by rw [a]; exact List.mem_cons_self)
  cases hd : destroy c'.mem c'.mem.depth with
  | error e => rw [hd] at h4; cases h4
  | ok s =>
    rw [hd] at h4
    simp only [Bool.and_eq_true, List.all_eq_true, List.mem_range, decide_eq_true_eq] at h4
    refine ⟨initConf, c', s, .init, hlater, hidle, hd, h4.2, hret, hatt, ?_, ⟨1, ?_, ?_⟩, ?_⟩
    · rintro e ⟨id, n, h5, _, h6, h7, h8⟩
      exact hret id e n h5 h6 h7 h8
    · exact ⟨2, 1, .first (.down (n := .inner (.base _ _ _ _)) .root rfl rfl), rfl, .chain (fuel := 1) List.mem_cons_self⟩
    · obtain ⟨g, h5, h6⟩ := List.any_eq_true.mp hfirst
      exact fun h => C37_tree_not_retired hreach h ⟨100, g, h5, List.contains_iff_mem.mp h6⟩
    · intro e he hh
      have := h4.1 e he
      cases hx : c'.mem.heap e with
      | none => exact absurd hx hh
      | some n => rw [hx] at this; exact List.contains_iff_mem.mp (by simpa using this)

end Tree
end BwTree
