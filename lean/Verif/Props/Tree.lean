import Verif.Proofs.TreePath
import Verif.Proofs.TreeExec
import Verif.Proofs.LinMap

/-!
  Properties of the concurrent tree, for every configuration reachable by any number of threads under any interleaving.
-/

namespace BwTree
namespace Tree

open Prog

variable {K V : Type} [LinearOrder K] [DecidableEq V] [Inhabited K]

/-! ## C01 -/

/-- Every history of Insert, Delete, GetValue and iterator page reads is linearizable with respect to `tstep`. -/
theorem C01_all_calls_linearizable {c : Conf K V} (h : Reach c) :
    Lin.Linearizable tstep (fun _ _ => False) c.hist := by
  obtain ⟨w, hw⟩ := good_of_reach h
  exact Lin.linearizable (0, .first, .bool true) hw.lin

/-- Insert and Delete are linearizable as operations on a set of pairs, whatever else runs (GetValue and iterators included). -/
theorem C01_updates_linearizable {c : Conf K V} (h : Reach c) :
    Lin.Linearizable apiStep (fun _ _ => False) (c.hist.map (Lin.Event.map Call.toUpdate Ans.toUpdate)) := by
  refine Lin.Linearizable.map _ _ (fun _ _ => True) ?_ (fun _ _ _ _ h => absurd trivial h) (fun _ _ _ _ _ _ _ => trivial)
    (C01_all_calls_linearizable h)
  intro S op r S' _ hs
  cases op with
  | api o => cases o <;> cases r <;> first | exact hs | exact hs.elim | exact hs.2.1
  | page k => cases r <;> first | exact hs.elim | exact hs.1
  | first => cases r <;> first | exact hs.elim | exact hs.1
  | back k => cases r <;> first | exact hs.elim | exact hs.1

/-- All API calls are linearizable as operations on a set of pairs, provided no GetValue read a leaf in which a data record lies above a
merge record. Without the proviso the claim is false: `C01_getValue_not_linearizable`. -/
theorem C01_linearizable_partial {c : Conf K V} (h : Reach c)
    (hg : ∀ t l leaf, .ret t (.values l leaf) ∈ c.hist → leaf.NoDataAboveMerge) :
    Lin.Linearizable apiStep (fun _ _ => False) (c.hist.map (Lin.Event.map Call.toApi Ans.toApi)) := by
  refine Lin.Linearizable.map _ _ (fun _ r => ∀ l leaf, r = .values l leaf → leaf.NoDataAboveMerge) ?_ ?_ ?_
    (C01_all_calls_linearizable h)
  · intro S op r S' hp hs
    cases op with
    | api o =>
      cases o <;> cases r <;> first | exact hs | exact hs.elim | skip
      rename_i l leaf
      exact hs.1 (hp l leaf rfl)
    | page k => cases r <;> first | exact hs.elim | exact hs.1
    | first => cases r <;> first | exact hs.elim | exact hs.1
    | back k => cases r <;> first | exact hs.elim | exact hs.1
  · intro S op r S' hp hs
    cases r with
    | bool b => exact absurd (fun l leaf h => by cases h) hp
    | page a b c => exact absurd (fun l leaf h => by cases h) hp
    | values l leaf =>
      cases op with
      | api o => cases o <;> first | exact hs.elim | exact hs.2.1
      | page k => exact hs.elim
      | first => exact hs.elim
      | back k => exact hs.elim
  · intro i j r t op hr _ l leaf e
    obtain ⟨_, u, _, _, h2, _⟩ := hr
    rw [e] at h2
    exact hg u l leaf (List.mem_of_getElem? h2)

/-- All API calls, with no proviso: linearizable as operations on a set of pairs of which GetValue may miss some values, but returns no
value that is not stored and no value twice. -/
theorem C30_linearizable_sound {c : Conf K V} (h : Reach c) :
    Lin.Linearizable apiStepSome (fun _ _ => False) (c.hist.map (Lin.Event.map Call.toApi Ans.toApi)) := by
  refine Lin.Linearizable.map _ _ (fun _ _ => True) ?_ (fun _ _ _ _ h => absurd trivial h) (fun _ _ _ _ _ _ _ => trivial)
    (C01_all_calls_linearizable h)
  intro S op r S' _ hs
  cases op with
  | api o => cases o <;> cases r <;> first | exact hs | exact hs.elim | exact hs.2
  | page k => cases r <;> first | exact hs.elim | exact hs.1
  | first => cases r <;> first | exact hs.elim | exact hs.1
  | back k => cases r <;> first | exact hs.elim | exact hs.1

/-! ## C28 -/

/-- At every moment: every key is in the range of exactly one leaf on the sibling path; a leaf stores only pairs of its range; the
next leaf on the path begins where the previous ends; the leftmost leaf has no lower bound; a leaf lists its pairs without
repetition. -/
theorem C28_leaves_partition {c : Conf K V} (h : Reach c) :
    (∀ k : K, ∃ id l, OnPath c.mem id l ∧ InRange l.low l.high k ∧
      ∀ id' l', OnPath c.mem id' l' → InRange l'.low l'.high k → id' = id ∧ l' = l) ∧
    (∀ id l k v, OnPath c.mem id l → l.Has k v → InRange l.low l.high k) ∧
    (∀ id l, OnPath c.mem id l → l.high.2 ≠ INVALID →
      ∃ l', c.mem.node l.high.2 = some (.leaf l') ∧ l'.low.2 ≠ INVALID ∧ l'.low.1 = l.high.1) ∧
    (∃ l, OnPath c.mem FIRST_LEAF l ∧ l.low.2 = INVALID) := by
  obtain ⟨w, hw⟩ := good_of_reach h
  have hi := hw.inv
  rw [← hw.mem]
  have hlow : ∀ {id l p} {d : LeafChain K V}, w.info id = some (l, 0) → w.At id p (.leaf d) →
      (l = none → d.low.2 = INVALID) ∧ ∀ k, l = some k → d.low.2 ≠ INVALID ∧ d.low.1 = k := by
    intro id l p d hx ha
    have hb := (hi.at_ok hx ha).2.1
    cases d with
    | remove i d => exact ⟨hb.2.2.2.2.2.1, hb.2.2.2.2.2.2⟩
    | _ => exact ⟨hb.2.2.2.2.2.1, hb.2.2.2.2.2.2⟩
  refine ⟨cover_path hi, ?_, ?_, ?_⟩
  · intro id l k v h1 h2
    obtain ⟨⟨⟨lk, g1⟩, g2⟩, p, g3⟩ := (onPath_iff hi).mp h1
    exact (inRange_iff hi g1 g3 k).mpr ((hi.at_ok g1 g3).2.has_range h2)
  · intro id l h1 h2
    obtain ⟨⟨⟨lk, g1⟩, g2⟩, p, g3⟩ := (onPath_iff hi).mp h1
    have hlive := (hi.next 0 _ _ _ ⟨⟨lk, g1⟩, g2⟩ g3).resolve_left h2
    have hx := (hi.at_ok g1 g3).2.high.resolve_left h2
    obtain ⟨l', q, d, e1, e2⟩ := live_leaf hi hlive
    rw [show (Node.leaf l : Node K V).high.2 = l.high.2 from rfl] at hx e1
    rw [hx] at e1
    cases e1
    exact ⟨d, node_of_at e2, (hlow hx e2).2 _ rfl⟩
  · obtain ⟨l, p, d, e1, e2⟩ := live_leaf hi ⟨⟨_, hi.first⟩, fun hd => hi.keep _ _ hi.first (hi.dead _ hd)⟩
    refine ⟨d, .first (node_of_at e2), (hlow hi.first e2).1 rfl⟩

/-- Reading any leaf of the path out yields its pairs in key order, each once. -/
theorem C28_no_pair_twice {c : Conf K V} (h : Reach c) {id : NodeId} {l : LeafChain K V} (hp : OnPath c.mem id l)
    (hr : l.isRemove = false) :
    ∃ items, l.collect = some items ∧ items.Nodup ∧ items.Pairwise (fun a b => a.1 ≤ b.1) ∧ ∀ x : K × V, x ∈ items ↔ l.Has x.1 x.2 := by
  obtain ⟨w, hw⟩ := good_of_reach h
  rw [← hw.mem] at hp
  obtain ⟨⟨⟨lk, g1⟩, g2⟩, p, g3⟩ := (onPath_iff hw.inv).mp hp
  have hb := (hw.inv.at_ok g1 g3).2.1
  have hcl : (Node.leaf l : Node K V).clean = true := by
    cases l <;> first | rfl | cases hr
  rw [Node.strip_of_clean hcl] at hb
  obtain ⟨items, h1, h2, h3, h4, _⟩ := LeafChain.collect_spec hb.2.2.2.2.1
  exact ⟨items, h1, h3, h2, h4⟩

/-! ## C29 -/

/-- One step of one thread leaves the stored set as it is, or that thread is executing an Insert or Delete of some pair and the set
changes as that operation says. -/
theorem C29_steps_keep_set {c c' : Conf K V} (h : Reach c) (hs : Step c c') :
    (∀ k v, Stored c'.mem k v ↔ Stored c.mem k v) ∨
    (∃ t k v, Running c.hist t (.api (.insert k v)) ∧ ¬ Stored c.mem k v ∧
      ∀ k' v', Stored c'.mem k' v' ↔ Stored c.mem k' v' ∨ (k' = k ∧ v' = v)) ∨
    (∃ t k v, Running c.hist t (.api (.delete k v)) ∧ Stored c.mem k v ∧
      ∀ k' v', Stored c'.mem k' v' ↔ Stored c.mem k' v' ∧ ¬ (k' = k ∧ v' = v)) := by
  obtain ⟨w, hw⟩ := good_of_reach h
  obtain ⟨w', hw', hst, _⟩ := good_step hw hs
  rw [← hw.mem, ← hw'.mem]
  simp only [stored_eq_abs hw.inv, stored_eq_abs hw'.inv]
  have hsame : w'.sets = w.sets → ∀ k v, abs w' k v ↔ abs w k v := by
    intro e k v
    have := hw'.inv.sets
    rw [e, hw.inv.sets] at this
    rw [Option.some.inj this]
  rcases hst with ⟨_, h2, _⟩ | ⟨t, ⟨_, _, ⟨h2, _⟩ | ⟨op, pos, start, r, S, S', g1, g2, g3, g4, g5⟩⟩⟩
  · exact Or.inl (hsame h2)
  · exact Or.inl (hsame h2)
  have eS : S = abs w := by
    have := hw.inv.sets
    rw [g2] at this
    exact Option.some.inj this
  have eS' : S' = abs w' := by
    have := hw'.inv.sets
    rw [g4, List.getLast?_append] at this
    exact Option.some.inj this
  subst eS eS'
  have hrun : Running c.hist t op := by
    cases hp : c.thr t with
    | none =>
      have := hw.idle t hp
      rw [g1] at this
      cases this
    | some p =>
      obtain ⟨op', w0, e1, e2, _⟩ := hw.run t p hp
      rw [g1] at e2
      have : op = op' := e2
      subst this
      exact e1
  cases op with
  | api o =>
    cases o with
    | insert k v =>
      cases r with
      | bool b =>
        by_cases hk : abs w k v
        · left
          intro k' v'
          rw [g3.2 k' v']
          exact ⟨fun h => h.elim (fun h => h) (fun e => by obtain ⟨rfl, rfl⟩ := e; exact hk), Or.inl⟩
        · exact Or.inr (Or.inl ⟨t, k, v, hrun, hk, g3.2⟩)
      | _ => exact g3.elim
    | delete k v =>
      cases r with
      | bool b =>
        by_cases hk : abs w k v
        · exact Or.inr (Or.inr ⟨t, k, v, hrun, hk, g3.2⟩)
        · left
          intro k' v'
          rw [g3.2 k' v']
          exact ⟨fun h => h.1, fun h => ⟨h, fun e => by obtain ⟨rfl, rfl⟩ := e; exact hk h⟩⟩
      | _ => exact g3.elim
    | get k =>
      left
      cases r with
      | values l leaf => intro k' v'; rw [g3.2.1]
      | _ => exact g3.elim
  | page k =>
    left
    cases r with
    | page a b d => intro k' v'; rw [g3.1]
    | _ => exact g3.elim
  | first =>
    left
    cases r with
    | page a b d => intro k' v'; rw [g3.1]
    | _ => exact g3.elim
  | back k =>
    left
    cases r with
    | page a b d => intro k' v'; rw [g3.1]
    | _ => exact g3.elim

/-! ## C31 and the absence of failed assertions -/

/-- The only ways a thread can stop with a failed assertion or undefined behaviour. In particular Begin() never does, stepping
back always finds a page that begins below its key, and
Insert, Delete and page reads never use an uninitialised snapshot, never meet a null or foreign NodeID, never confuse leaf and inner nodes, and
never fail inside a leaf search, an inner search, a split, or a consolidation. -/
theorem C31_failures_partial {c : Conf K V} (h : Reach c) {t : Tid} {f : Fail} (hf : c.thr t = some (.fail f)) :
    ∃ op, Running c.hist t op ∧
      match op with
      | .first => False
      | .api (.get _) => f ∈ [.noParent, .leftSibling, .mergeRange, .mergeSep, .tableFull, .uninit, .search]
      | .back _ => f ∈ [.noParent, .leftSibling, .mergeRange, .mergeSep, .tableFull, .navigate]
      | _ => f ∈ [.noParent, .leftSibling, .mergeRange, .mergeSep, .tableFull] := by
  obtain ⟨w, hw⟩ := good_of_reach h
  obtain ⟨op, w0, h1, _, _, h3⟩ := hw.run t _ hf
  refine ⟨op, h1, ?_⟩
  have h3 : allowed op f := h3
  cases op with
  | first => exact h3
  | page k => exact h3
  | back k => exact h3
  | api o => cases o <;> exact h3

end Tree
end BwTree
