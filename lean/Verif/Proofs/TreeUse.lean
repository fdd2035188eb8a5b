import Verif.Proofs.TreeLeak
import Verif.Spec.Collector

/-! What a call may read from a mapping entry while the tree changes. -/

namespace BwTree
namespace Tree

set_option linter.unusedSectionVars false

variable {K V : Type} [LinearOrder K] [DecidableEq V] [Inhabited K]
variable {w w' : World K V}

/-- A step changes one mapping entry at most. -/
theorem Prog.step_one {α : Type} {m m' : Mem K V} {p p' : Prog K V α} (h : p.step m = some (m', p')) :
    ∃ i, ∀ r, r ≠ i → m'.table r = m.table r := by
  cases p with
  | ret _ => cases h
  | fail _ => cases h
  | spin => cases h
  | loadRoot k => cases h; exact ⟨0, fun _ _ => rfl⟩
  | casRoot o n k =>
    simp only [Prog.step] at h
    split at h <;> (cases h; exact ⟨0, fun _ _ => rfl⟩)
  | load id k => cases h; exact ⟨0, fun _ _ => rfl⟩
  | cas id o n k =>
    simp only [Prog.step] at h
    split at h
    · cases h; exact ⟨id, fun r hr => if_neg hr⟩
    · cases h; exact ⟨0, fun _ _ => rfl⟩
  | store id q k => cases h; exact ⟨id, fun r hr => if_neg hr⟩
  | alloc n ks k => cases h; exact ⟨0, fun _ _ => rfl⟩
  | newId k => cases h; exact ⟨0, fun _ _ => rfl⟩
  | retire q k => cases h; exact ⟨0, fun _ _ => rfl⟩

theorem step_one {c c' : Conf K V} (h : Step c c') : ∃ i, ∀ r, r ≠ i → c'.mem.table r = c.mem.table r := by
  cases h with
  | call => exact ⟨0, fun _ _ => rfl⟩
  | ret => exact ⟨0, fun _ _ => rfl⟩
  | step t p p' m' _ h => exact Prog.step_one h

/-- The entry of a merged node no longer changes, nor does it in the step that merges the node. -/
theorem dead_table {c c' : Conf K V} (hw : Good c w) (hw' : Good c' w') (hs : Step c c') {t : Tid} (hg : Guar t w w') {id : NodeId}
    {x : Option K × Nat} (hx : w.info id = some x) (hd : w'.dead id) : c'.mem.table id = c.mem.table id := by
  obtain ⟨hm, _, _, gs⟩ := hg
  rcases gs.dead id hd with h | ⟨q, y, p, n, k, h1, h2, h3, h4⟩
  · obtain ⟨x', p, n, e1, e2, e3⟩ := hw.inv.dead id h
    have := hm.removed id x' p n e1 e2 e3
    rw [← hw'.mem, ← hw.mem, this]
    exact e2.1.symm
  · obtain ⟨i, hi⟩ := step_one hs
    have hq : q = i := by
      by_contra hne
      have e := hi q hne
      obtain ⟨p0, g1, g2⟩ := hw.inv.cur q y h1
      obtain ⟨_, _, nd, _, g3, _⟩ := hw.inv.ok q p0 g2
      rw [← hw.mem, ← hw'.mem] at e
      have e1 : p = p0 := Option.some.inj (h2.1.symm.trans (e.trans g1))
      subst e1
      have e2 := Option.some.inj ((hm.heap p nd g3).symm.trans h2.2)
      subst e2
      exact h4 ⟨g1, g3⟩
    refine hi id fun e => ?_
    obtain ⟨x', p', n', _, e2, e3⟩ := hw'.inv.dead id hd
    rw [e, ← hq] at e2
    have e4 : p' = p := Option.some.inj (e2.1.symm.trans h2.1)
    subst e4
    have e5 : n' = n := Option.some.inj (e2.2.symm.trans h2.2)
    subst e5
    cases n' with
    | leaf c => cases c <;> first | (cases h3; done) | (cases e3; done)
    | inner c => cases c <;> first | (cases h3; done) | (cases e3; done)

/-- What lies below an allocated address never changes. -/
theorem follow_same (hi : Inv w) (hm : Mono w w') {p : Ptr} {n : Node K V} (h : w.mem.heap p = some n) : w'.mem.follow p = w.mem.follow p := by
  unfold Mem.follow
  rw [h, hm.heap p n h, hm.gh.kids p n h]
  simp only
  split
  · rfl
  · split
    · cases hk : w.mem.kids p with
      | nil => rfl
      | cons l ks =>
        cases ks with
        | nil => rfl
        | cons r ks =>
          cases ks with
          | cons _ _ => rfl
          | nil =>
            obtain ⟨_, nr, hr⟩ := (hi.ow.klt p n h).2 r (by rw [hk]; simp)
            simp only
            rw [hm.gh.kids r nr hr]
    · rfl

theorem follow_alloc (hi : Inv w) {p c : Ptr} (hc : c ∈ w.mem.follow p) : ∃ n, w.mem.heap c = some n := by
  unfold Mem.follow at hc
  cases h : w.mem.heap p with
  | none => rw [h] at hc; cases hc
  | some n =>
    rw [h] at hc
    simp only at hc
    split at hc
    · cases hc
    · split at hc
      · split at hc
        · rename_i l r hk
          rcases List.mem_cons.mp hc with rfl | hc
          · exact ((hi.ow.klt p n h).2 _ (by rw [hk]; simp)).2
          · obtain ⟨_, nr, hr⟩ := (hi.ow.klt p n h).2 r (by rw [hk]; simp)
            exact ((hi.ow.klt r nr hr).2 _ hc).2
        · cases hc
      · exact ((hi.ow.klt p n h).2 _ hc).2

theorem cells_same (hi : Inv w) (hm : Mono w w') : ∀ (f : Nat) {p : Ptr} {n : Node K V}, w.mem.heap p = some n →
    w'.mem.cells f p = w.mem.cells f p
  | 0, _, _, _ => rfl
  | f + 1, p, n, h => by
    unfold Mem.cells
    rw [follow_same hi hm h]
    congr 1
    apply List.flatMap_congr
    intro c hc
    obtain ⟨nc, hn⟩ := follow_alloc hi hc
    exact cells_same hi hm f hn

theorem uses_same (hi : Inv w) (hm : Mono w w') {p e : Ptr} {n : Node K V} (h : w.mem.heap p = some n) (hu : Uses w'.mem p e) :
    Uses w.mem p e := by
  cases hu with
  | chain h1 =>
    rw [cells_same hi hm _ h] at h1
    exact .chain h1
  | below h1 h2 h3 h4 =>
    rename_i q f n'
    have e1 := Option.some.inj (h1.symm.trans (hm.heap p n h))
    subst e1
    rw [hm.gh.kids p _ h] at h3
    obtain ⟨_, nq, hq⟩ := (hi.ow.klt p _ h).2 q h3
    rw [cells_same hi hm _ hq] at h4
    exact .below h h2 h3 h4

/-- Garbage stays garbage. -/
theorem Prog.step_garbage {α : Type} {m m' : Mem K V} {p p' : Prog K V α} (h : p.step m = some (m', p')) {g : Ptr} (hg : g ∈ m.garbage) :
    g ∈ m'.garbage := by
  cases p with
  | ret _ => cases h
  | fail _ => cases h
  | spin => cases h
  | loadRoot k => cases h; exact hg
  | casRoot o n k =>
    simp only [Prog.step] at h
    split at h <;> (cases h; exact hg)
  | load id k => cases h; exact hg
  | cas id o n k =>
    simp only [Prog.step] at h
    split at h <;> (cases h; exact hg)
  | store id q k => cases h; exact hg
  | alloc n ks k => cases h; exact hg
  | newId k => cases h; exact hg
  | retire q k => cases h; exact List.mem_cons_of_mem _ hg

theorem garbage_alloc (hi : Inv w) {g : Ptr} (hg : g ∈ w.mem.garbage) : ∃ n, w.mem.heap g = some n := by
  cases h : w.mem.heap g with
  | some n => exact ⟨n, rfl⟩
  | none =>
    have h1 := (hi.ow.free g).mpr h
    have h2 := (hi.ow.trash g).mpr hg
    rw [h1] at h2
    cases h2

/-- What is retired stays retired. -/
theorem retired_step {c c' : Conf K V} (h : Reach c) (hs : Step c c') {e : Ptr} (he : Retired c.mem e) : Retired c'.mem e := by
  obtain ⟨w, hw⟩ := good_of_reach h
  obtain ⟨f, g, hg, hc⟩ := he
  obtain ⟨w', hw', h4, _⟩ := good_step hw hs
  rcases h4 with ⟨_, _, h5, _⟩ | ⟨t, h5⟩
  · rw [← hw'.mem, h5, hw.mem]
    exact ⟨f, g, hg, hc⟩
  · refine ⟨f, g, ?_, ?_⟩
    · cases hs with
      | call => exact hg
      | ret => exact hg
      | step _ _ _ _ _ hp => exact Prog.step_garbage hp hg
    · rw [← hw.mem] at hg hc
      obtain ⟨n, hn⟩ := garbage_alloc hw.inv hg
      rw [← hw'.mem, cells_same hw.inv h5.1 f hn]
      exact hc

theorem reach_later {c c' : Conf K V} (h : Reach c) (hl : Later c c') : Reach c' := by
  induction hl with
  | refl => exact h
  | step _ hs ih => exact .step ih hs

theorem retired_later {c c' : Conf K V} (h : Reach c) (hl : Later c c') {e : Ptr} (he : Retired c.mem e) : Retired c'.mem e := by
  induction hl with
  | refl => exact he
  | step hl hs ih => exact retired_step (reach_later h hl) hs ih

/-- What is mapped at `id` was not retired when the tree named `id`. -/
theorem load_later {c c' : Conf K V} (h : Reach c) (hl : Later c c') {w : World K V} (hw : Good c w) {id : NodeId} {x : Option K × Nat}
    (hx : w.info id = some x) (hd : ¬ w.del id) : ∃ w', Good c' w' ∧ w'.info id = some x ∧ ∀ p, c'.mem.table id = some p → ¬ Retired c.mem p := by
  have alive : ∀ {c' : Conf K V} {w' : World K V}, Later c c' → Good c' w' → w'.info id = some x → ¬ w'.del id → ∀ p, c'.mem.table id = some p →
      ¬ Retired c.mem p := by
    intro c' w' hl hw' hx hd p hp hr
    obtain ⟨f, g, hg, hc⟩ := retired_later h hl hr
    rw [← hw'.mem] at hp hg hc
    rcases hw'.inv.ow.tab id x p hx hp with ht | ht
    · exact tab_alive hw'.inv.ow ht .refl f (List.mem_flatMap.mpr ⟨g, hg, hc⟩)
    · exact hd ht
  induction hl with
  | refl => exact ⟨w, hw, hx, alive .refl hw hx hd⟩
  | step hl hs ih =>
    rename_i c1 c2
    obtain ⟨w1, hw1, hx1, ht1⟩ := ih
    obtain ⟨w2, hw2, h4, _⟩ := good_step hw1 hs
    rcases h4 with ⟨h5, _, h6, _⟩ | ⟨t, h5⟩
    · refine ⟨w2, hw2, by rw [h5]; exact hx1, fun p hp => ht1 p ?_⟩
      rw [← hw1.mem, ← h6, hw2.mem]; exact hp
    · have hx2 := h5.1.info id x hx1
      refine ⟨w2, hw2, hx2, ?_⟩
      by_cases hd2 : w2.del id
      · intro p hp
        rw [dead_table hw1 hw2 hs h5 hx1 (hw2.inv.dl.dead id hd2)] at hp
        exact ht1 p hp
      · exact alive (.step hl hs) hw2 hx2 hd2

/-- What lies below it was not retired when the node was part of the tree. -/
theorem contents_later {c c' : Conf K V} (h : Reach c) (hl : Later c c') {w : World K V} (hw : Good c w) {id : NodeId} {x : Option K × Nat}
    (hx : w.info id = some x) (hd : ¬ w.dead id) :
    ∃ w', Good c' w' ∧ w'.info id = some x ∧ ∀ p e, c'.mem.table id = some p → Uses c'.mem p e → ¬ Retired c.mem e := by
  have alive : ∀ {c' : Conf K V} {w' : World K V}, Later c c' → Good c' w' → w'.info id = some x → ¬ w'.dead id → ∀ p e, c'.mem.table id = some p →
      Uses c'.mem p e → ¬ Retired c.mem e := by
    intro c' w' hl hw' hx hd p e hp hu hr
    obtain ⟨f, g, hg, hc⟩ := retired_later h hl hr
    rw [← hw'.mem] at hp hg hc hu
    obtain ⟨ho, ha⟩ := uses_anc hw'.inv ((onLevel_iff hw'.inv).mpr ⟨x.2, ⟨x.1, hx⟩, hd⟩) hp hu
    exact tab_alive hw'.inv.ow ho ha f (List.mem_flatMap.mpr ⟨g, hg, hc⟩)
  induction hl with
  | refl => exact ⟨w, hw, hx, alive .refl hw hx hd⟩
  | step hl hs ih =>
    rename_i c1 c2
    obtain ⟨w1, hw1, hx1, ht1⟩ := ih
    obtain ⟨w2, hw2, h4, _⟩ := good_step hw1 hs
    rcases h4 with ⟨h5, _, h6, _⟩ | ⟨t, h5⟩
    · have e : c2.mem = c1.mem := by rw [← hw1.mem, ← h6, hw2.mem]
      rw [e]
      exact ⟨w2, hw2, by rw [h5]; exact hx1, ht1⟩
    · have hx2 := h5.1.info id x hx1
      refine ⟨w2, hw2, hx2, ?_⟩
      by_cases hd2 : w2.dead id
      · intro p e hp hu
        rw [dead_table hw1 hw2 hs h5 hx1 hd2] at hp
        refine ht1 p e hp ?_
        rw [← hw1.mem] at hp ⊢
        rw [← hw2.mem] at hu
        obtain ⟨p0, g1, g2⟩ := hw1.inv.cur id x hx1
        obtain ⟨_, _, nd, _, g3, _⟩ := hw1.inv.ok id p0 g2
        have e1 : p = p0 := Option.some.inj (hp.symm.trans g1)
        subst e1
        exact uses_same hw1.inv h5.1 g3 hu
      · exact alive (.step hl hs) hw2 hx2 hd2

end Tree
end BwTree
