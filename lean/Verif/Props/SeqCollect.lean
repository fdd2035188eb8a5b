import Verif.Props.SeqUse
import Verif.Props.SeqTotal
import Verif.Proofs.FastRun
import Verif.Spec.Collected
import Verif.Proofs.TreeDestroy
import Verif.Proofs.TreeGC

/-!
  Calls that do not overlap do not notice that the collector destroys retired memory: C41, C42 and C44 for a tree whose retired records disappear and
  whose entries of removed nodes are cleared. The run on such a memory is related to the run of the same calls on a memory that keeps everything.
-/

set_option Elab.async false

namespace BwTree
namespace Tree

open Prog

set_option linter.unusedSectionVars false

variable {K V : Type} [LinearOrder K] [DecidableEq V] [Inhabited K]

/-- `m'` is `m` without some retired records and without some entries of removed nodes. -/
structure Coll (m m' : Mem K V) : Prop where
  root : m'.root = m.root
  kids : m'.kids = m.kids
  nextId : m'.nextId = m.nextId
  nextPtr : m'.nextPtr = m.nextPtr
  garbage : m'.garbage = m.garbage
  heap : ∀ p, m'.heap p = m.heap p ∨ (m'.heap p = none ∧ Retired m p)
  table : ∀ i, m'.table i = m.table i ∨ (m'.table i = none ∧ ∃ p n, Retired m p ∧ m.heap p = some n ∧ n.removedId = some i)

theorem Coll.refl (m : Mem K V) : Coll m m := ⟨rfl, rfl, rfl, rfl, rfl, fun _ => Or.inl rfl, fun _ => Or.inl rfl⟩

theorem Coll.rec_of {m m' : Mem K V} (h : Coll m m') {p : Ptr} {n : Node K V} (e : m'.heap p = some n) : m.heap p = some n := by
  rcases h.heap p with e' | ⟨e', _⟩
  · rw [← e']; exact e
  · rw [e] at e'; cases e'

theorem Coll.follow {m m' : Mem K V} (h : Coll m m') {p c : Ptr} (hc : c ∈ m'.follow p) : c ∈ m.follow p := by
  rcases h.heap p with e | ⟨e, _⟩
  · unfold Mem.follow at hc ⊢
    rw [e, h.kids] at hc
    exact hc
  · unfold Mem.follow at hc
    rw [e] at hc
    cases hc

theorem Coll.cells {m m' : Mem K V} (h : Coll m m') : ∀ {f : Nat} {p e : Ptr}, e ∈ m'.cells f p → e ∈ m.cells f p
  | 0, _, _, he => by cases he
  | f + 1, p, e, he => by
    rcases List.mem_cons.mp he with rfl | he
    · exact List.mem_cons_self
    · obtain ⟨c, h1, h2⟩ := List.mem_flatMap.mp he
      exact List.mem_cons_of_mem _ (List.mem_flatMap.mpr ⟨c, h.follow h1, h.cells h2⟩)

theorem Coll.destroy {m m' : Mem K V} (h : Coll m m') {g : Ptr} (hg : g ∈ m.garbage) : Coll m (m'.destroy g) := by
  refine ⟨h.root, h.kids, h.nextId, h.nextPtr, h.garbage, fun p => ?_, fun i => ?_⟩
  · by_cases hp : p ∈ m'.cells m'.nextPtr g
    · exact Or.inr ⟨if_pos hp, _, g, hg, h.cells hp⟩
    · have : (m'.destroy g).heap p = m'.heap p := if_neg hp
      rw [this]
      exact h.heap p
  · by_cases hi : (m'.cells m'.nextPtr g).any (fun p => decide ((m'.heap p).bind Node.removedId = some i)) = true
    · have e : (m'.destroy g).table i = none := if_pos hi
      refine Or.inr ⟨e, ?_⟩
      obtain ⟨p, hp, hr⟩ := List.any_eq_true.mp hi
      obtain ⟨n, h1, h2⟩ := Option.bind_eq_some_iff.mp (of_decide_eq_true hr)
      exact ⟨p, n, ⟨_, g, hg, h.cells hp⟩, h.rec_of h1, h2⟩
    · have e : (m'.destroy g).table i = m'.table i := if_neg hi
      rw [e]
      exact h.table i

/-- The entry of a node that may be looked at was not cleared, and its record not destroyed. -/
theorem Coll.look {w : World K V} {m' : Mem K V} (h : Coll w.mem m') (hi : Inv w) {id : NodeId} (hl : Lookable w id) :
    m'.table id = w.mem.table id ∧ ∀ p, w.mem.table id = some p → ¬ Retired w.mem p ∧ m'.heap p = w.mem.heap p := by
  obtain ⟨⟨x, hx⟩, hd⟩ := hl
  have hnot : ∀ p, w.mem.table id = some p → ¬ Retired w.mem p := fun p hp => not_retired hi hx hp (by
    by_cases hd' : w.dead id
    · exact hd hd' p hp
    · exact hi.not_garbage hx hd' hp)
  constructor
  · rcases h.table id with e | ⟨_, p, n, h1, h2, h3⟩
    · exact e
    · exfalso
      rcases (hi.dl.rmv p n id h2 (retired_visible hi h1) h3).2 with ⟨_, h4⟩ | ⟨h4, _⟩
      · exact hnot p h4 h1
      · rw [hx] at h4; cases h4
  · intro p hp
    refine ⟨hnot p hp, ?_⟩
    rcases h.heap p with e | ⟨_, e⟩
    · exact e
    · exact absurd e (hnot p hp)

/-- A step on the memory with holes is a step on the full memory. -/
theorem Coll.step {α : Type} {w : World K V} {m' m1' : Mem K V} {p p1 : Prog K V α} (h : Coll w.mem m') (hi : Inv w) (hl : ∀ id, p.touches id → Lookable w id)
    (hs : p.step m' = some (m1', p1)) :
    ∃ m1, p.step w.mem = some (m1, p1) ∧ ((∀ e, Retired w.mem e → Retired m1 e) → Coll m1 m1') := by
  have hfresh : w.mem.heap w.mem.nextPtr = none := by
    cases e : w.mem.heap w.mem.nextPtr with
    | none => rfl
    | some n => exact absurd (hi.heapLt _ _ e) (Nat.lt_irrefl _)
  cases p with
  | ret a => cases hs
  | fail f => cases hs
  | spin => cases hs
  | loadRoot k => simp only [Prog.step, Option.some.injEq, Prod.mk.injEq] at hs ⊢; obtain ⟨rfl, rfl⟩ := hs; exact ⟨_, ⟨rfl, by rw [h.root]⟩, fun _ => h⟩
  | casRoot o n k =>
    simp only [Prog.step, h.root] at hs ⊢
    split at hs
    · rename_i e
      rw [if_pos e]
      cases hs
      exact ⟨_, rfl, fun hr => ⟨rfl, h.kids, h.nextId, h.nextPtr, h.garbage, fun p => Or.imp_right (fun ⟨a, b⟩ => ⟨a, hr _ b⟩) (h.heap p),
      fun i => Or.imp_right (fun ⟨a, p, n, b, d⟩ => ⟨a, p, n, hr _ b, d⟩) (h.table i)⟩⟩
    · rename_i e
      rw [if_neg e]
      cases hs
      exact ⟨_, rfl, fun _ => h⟩
  | load id k =>
    obtain ⟨h1, h2⟩ := h.look hi (hl id rfl)
    simp only [Prog.step, h1] at hs ⊢
    cases ht : w.mem.table id with
    | none => rw [ht] at hs; cases hs; exact ⟨_, rfl, fun _ => h⟩
    | some q =>
      rw [ht] at hs
      simp only [(h2 q ht).2] at hs ⊢
      cases hh : w.mem.heap q with
      | none => rw [hh] at hs; cases hs; exact ⟨_, rfl, fun _ => h⟩
      | some n => rw [hh] at hs; cases hs; exact ⟨_, rfl, fun _ => h⟩
  | cas id o n k =>
    obtain ⟨h1, _⟩ := h.look hi (hl id rfl)
    simp only [Prog.step, h1] at hs ⊢
    split at hs
    · rename_i e
      rw [if_pos e]
      cases hs
      refine ⟨_, rfl, fun hr => ⟨h.root, h.kids, h.nextId, h.nextPtr, h.garbage, fun p => Or.imp_right (fun ⟨a, b⟩ => ⟨a, hr _ b⟩) (h.heap p), fun i => ?_⟩⟩
      show (if i = id then some n else m'.table i) = (if i = id then some n else w.mem.table i) ∨ _
      by_cases hid : i = id
      · rw [if_pos hid, if_pos hid]; exact Or.inl rfl
      · rcases h.table i with e | ⟨e, p, n, h3, h4, h5⟩
        · rw [if_neg hid, if_neg hid]; exact Or.inl e
        · exact Or.inr ⟨(if_neg hid).trans e, p, n, hr _ h3, h4, h5⟩
    · rename_i e
      rw [if_neg e]
      cases hs
      exact ⟨_, rfl, fun _ => h⟩
  | store id q k =>
    simp only [Prog.step, Option.some.injEq, Prod.mk.injEq] at hs ⊢
    obtain ⟨rfl, rfl⟩ := hs
    refine ⟨_, ⟨rfl, rfl⟩, fun hr => ⟨h.root, h.kids, h.nextId, h.nextPtr, h.garbage, fun p => Or.imp_right (fun ⟨a, b⟩ => ⟨a, hr _ b⟩) (h.heap p), fun i => ?_⟩⟩
    show (if i = id then some q else m'.table i) = (if i = id then some q else w.mem.table i) ∨ _
    by_cases hid : i = id
    · rw [if_pos hid, if_pos hid]; exact Or.inl rfl
    · rcases h.table i with e | ⟨e, p, n, h3, h4, h5⟩
      · rw [if_neg hid, if_neg hid]; exact Or.inl e
      · exact Or.inr ⟨(if_neg hid).trans e, p, n, hr _ h3, h4, h5⟩
  | alloc n ks k =>
    simp only [Prog.step, Option.some.injEq, Prod.mk.injEq] at hs ⊢
    obtain ⟨rfl, rfl⟩ := hs
    have hne : ∀ {p : Ptr} {nd : Node K V}, w.mem.heap p = some nd → p ≠ w.mem.nextPtr := by
      rintro p nd e rfl
      rw [hfresh] at e
      cases e
    refine ⟨_, ⟨rfl, by rw [h.nextPtr]⟩, fun hr => ⟨h.root, ?_, h.nextId, ?_, h.garbage, fun p => ?_, fun i => ?_⟩⟩
    · show (fun p => if p = m'.nextPtr then ks else m'.kids p) = _
      rw [h.nextPtr, h.kids]
    · show m'.nextPtr + 1 = _
      rw [h.nextPtr]
    · show (if p = m'.nextPtr then some n else m'.heap p) = (if p = w.mem.nextPtr then some n else w.mem.heap p) ∨ _
      rw [h.nextPtr]
      by_cases hp : p = w.mem.nextPtr
      · rw [if_pos hp, if_pos hp]; exact Or.inl rfl
      · rcases h.heap p with e | ⟨e, h3⟩
        · rw [if_neg hp, if_neg hp]; exact Or.inl e
        · refine Or.inr ⟨?_, hr _ h3⟩
          exact (if_neg hp).trans e
    · rcases h.table i with e | ⟨e, p, nd, h3, h4, h5⟩
      · exact Or.inl e
      · exact Or.inr ⟨e, p, nd, hr _ h3, (if_neg (hne h4)).trans h4, h5⟩
  | newId k =>
    simp only [Prog.step, Option.some.injEq, Prod.mk.injEq] at hs ⊢
    obtain ⟨rfl, rfl⟩ := hs
    exact ⟨_, ⟨rfl, by rw [h.nextId]⟩, fun hr => ⟨h.root, h.kids, by show m'.nextId + 1 = _; rw [h.nextId], h.nextPtr, h.garbage, fun p => Or.imp_right (fun ⟨a, b⟩ => ⟨a, hr _ b⟩) (h.heap p),
      fun i => Or.imp_right (fun ⟨a, p, n, b, d⟩ => ⟨a, p, n, hr _ b, d⟩) (h.table i)⟩⟩
  | retire q k =>
    simp only [Prog.step, Option.some.injEq, Prod.mk.injEq] at hs ⊢
    obtain ⟨rfl, rfl⟩ := hs
    exact ⟨_, ⟨rfl, rfl⟩, fun hr => ⟨h.root, h.kids, h.nextId, h.nextPtr, by show q :: m'.garbage = _; rw [h.garbage],
      fun p => Or.imp_right (fun ⟨a, b⟩ => ⟨a, hr _ b⟩) (h.heap p),
      fun i => Or.imp_right (fun ⟨a, p, n, b, d⟩ => ⟨a, p, n, hr _ b, d⟩) (h.table i)⟩⟩

/-- Destroyed chains are destroyed as a whole, and the entries named in their remove records are cleared. -/
structure Gone (m m' : Mem K V) : Prop where
  whole : ∀ g ∈ m.garbage, (∀ f, ∀ e ∈ m.cells f g, m'.heap e = none) ∨ ∀ f, ∀ e ∈ m.cells f g, m'.heap e = m.heap e
  clear : ∀ p n i, Retired m p → m.heap p = some n → n.removedId = some i → m'.heap p = none → m'.table i = none

theorem Gone.refl (m : Mem K V) : Gone m m := ⟨fun _ _ => Or.inr fun _ _ _ => rfl, fun p n i _ h _ e => by rw [h] at e; cases e⟩

/-- Different retired chains share no record. -/
theorem chains_apart {w : World K V} (h : OwInv w) {c d : Ptr} (hc : c ∈ w.mem.garbage) (hd : d ∈ w.mem.garbage) {f f' : Nat} {e : Ptr}
    (h1 : e ∈ w.mem.cells f c) (h2 : e ∈ w.mem.cells f' d) : c = d := by
  obtain ⟨a1, a2⟩ := trash_anc h hc (path_of_cells h1)
  obtain ⟨b1, b2⟩ := trash_anc h hd (path_of_cells h2)
  exact anc_top a1 b1 a2 b2

/-- The chain of an intact record. -/
theorem cells_intact {m m' : Mem K V} (hk : m'.kids = m.kids) : ∀ (f : Nat) {p : Ptr}, (∀ f, ∀ e ∈ m.cells f p, m'.heap e = m.heap e) → m'.cells f p = m.cells f p
  | 0, _, _ => rfl
  | f + 1, p, h => by
    have hp : m'.follow p = m.follow p := by
      unfold Mem.follow
      rw [h 1 p List.mem_cons_self, hk]
    unfold Mem.cells
    rw [hp]
    congr 1
    apply List.flatMap_congr
    intro c hc
    exact cells_intact hk f fun f' e he => h (f' + 1) e (List.mem_cons_of_mem _ (List.mem_flatMap.mpr ⟨c, hc, he⟩))

theorem cells_gone {m : Mem K V} {g : Ptr} (h : m.heap g = none) : ∀ {f : Nat} {e : Ptr}, e ∈ m.cells f g → e = g
  | 0, _, he => by cases he
  | f + 1, e, he => by
    rcases List.mem_cons.mp he with rfl | he
    · rfl
    · have : m.follow g = [] := by unfold Mem.follow; rw [h]
      rw [this] at he
      cases he

theorem Gone.destroy {w : World K V} {m' : Mem K V} (hi : Inv w) (hc : Coll w.mem m') (h : Gone w.mem m') {g : Ptr} (hg : g ∈ w.mem.garbage) :
    Gone w.mem (m'.destroy g) := by
  rcases h.whole g hg with hd | hd
  · have hgn : m'.heap g = none := hd 1 g List.mem_cons_self
    have e1 : (m'.destroy g).heap = m'.heap := by
      funext p
      show (if p ∈ m'.cells m'.nextPtr g then none else m'.heap p) = _
      split
      · rename_i hp; rw [cells_gone hgn hp, hgn]
      · rfl
    have e2 : (m'.destroy g).table = m'.table := by
      funext i
      show (if _ then none else m'.table i) = _
      rw [if_neg]
      intro hany
      obtain ⟨p, hp, hr⟩ := List.any_eq_true.mp hany
      have hr := of_decide_eq_true hr
      rw [cells_gone hgn hp, hgn] at hr
      cases hr
    exact ⟨fun g' hg' => by rw [e1]; exact h.whole g' hg', by rw [e1, e2]; exact h.clear⟩
  · have hcell : m'.cells m'.nextPtr g = w.mem.cells w.mem.nextPtr g := by rw [cells_intact hc.kids _ hd, hc.nextPtr]
    have hv : ¬ (w.ow g).Hidden := by rw [(hi.ow.trash g).mpr hg]; exact fun h => h
    obtain ⟨ng, hng⟩ := visible_heap hi.ow hv
    have hin : ∀ {f e}, e ∈ w.mem.cells f g → e ∈ m'.cells m'.nextPtr g := fun he => by
      rw [hcell]; exact path_cells hi.ow _ (hi.heapLt g ng hng) (path_of_cells he)
    refine ⟨fun g' hg' => ?_, fun p n i hp hn hr e => ?_⟩
    · by_cases hgg : g' = g
      · subst hgg
        exact Or.inl fun f e he => if_pos (hin he)
      · have hsame : ∀ f, ∀ e ∈ w.mem.cells f g', (m'.destroy g).heap e = m'.heap e := fun f e he => if_neg (by
          rw [hcell]
          exact fun he' => hgg (chains_apart hi.ow hg' hg he he'))
        rcases h.whole g' hg' with h1 | h1
        · exact Or.inl fun f e he => (hsame f e he).trans (h1 f e he)
        · exact Or.inr fun f e he => (hsame f e he).trans (h1 f e he)
    · show (if _ then none else m'.table i) = none
      split
      · rfl
      · rename_i hany
        by_cases hpc : p ∈ m'.cells m'.nextPtr g
        · refine absurd (List.any_eq_true.mpr ⟨p, hpc, decide_eq_true ?_⟩) hany
          rw [hd _ p (hcell ▸ hpc), hn]
          exact hr
        · have : (m'.destroy g).heap p = m'.heap p := if_neg hpc
          exact h.clear p n i hp hn hr (this.symm.trans e)

theorem Gone.keep {m m' m1 m1' : Mem K V} (h : Gone m m') (hst : ∀ g ∈ m.garbage, ∀ f, m1.cells f g = m.cells f g) (hg : m1.garbage = m.garbage)
    (hh : ∀ e, Retired m e → m1.heap e = m.heap e ∧ m1'.heap e = m'.heap e)
    (ht : ∀ p n i, Retired m p → m.heap p = some n → n.removedId = some i → m1'.table i = m'.table i) : Gone m1 m1' := by
  have hret : ∀ {e}, Retired m1 e → Retired m e := by
    rintro e ⟨f, g, h1, h2⟩
    rw [hg] at h1
    exact ⟨f, g, h1, hst g h1 f ▸ h2⟩
  refine ⟨fun g h1 => ?_, fun p n i hp hn hr e => ?_⟩
  · rw [hg] at h1
    have hr : ∀ {f e}, e ∈ m1.cells f g → Retired m e := fun {f e} he => ⟨f, g, h1, hst g h1 f ▸ he⟩
    rcases h.whole g h1 with h2 | h2
    · exact Or.inl fun f e he => (hh e (hr he)).2.trans (h2 f e (hst g h1 f ▸ he))
    · exact Or.inr fun f e he => ((hh e (hr he)).2.trans (h2 f e (hst g h1 f ▸ he))).trans (hh e (hr he)).1.symm
  · have hp' := hret hp
    have hn' := (hh p hp').1.symm.trans hn
    rw [ht p n i hp' hn' hr]
    exact h.clear p n i hp' hn' hr ((hh p hp').2.symm.trans e)

/-- A step keeps destroyed chains apart from everything else. -/
theorem Gone.step {α : Type} {w w1 : World K V} {m' m1' : Mem K V} {t : Tid} {p p1 : Prog K V α} (hc : Coll w.mem m') (h : Gone w.mem m') (hi : Inv w) (hi1 : Inv w1)
    (hl : ∀ id, p.touches id → Lookable w id) (hown : ∀ id, p.stores id → w.own id = some t) (hs : p.step w.mem = some (w1.mem, p1))
    (hs' : p.step m' = some (m1', p1)) (hst : ∀ g ∈ w.mem.garbage, ∀ f, w1.mem.cells f g = w.mem.cells f g) : Gone w1.mem m1' := by
  have hne : ∀ {e}, Retired w.mem e → e ≠ w.mem.nextPtr := by
    rintro e he rfl
    obtain ⟨n, hn⟩ := visible_heap hi.ow (retired_visible hi he)
    exact Nat.lt_irrefl _ (hi.heapLt _ _ hn)
  have hid : ∀ {id}, (Lookable w id ∨ w.own id = some t) → ∀ p n i, Retired w.mem p → w.mem.heap p = some n → n.removedId = some i → i ≠ id := by
    rintro id hlo p n i hp hn hr rfl
    rcases hlo with hlo | ho
    · obtain ⟨⟨x, hx⟩, hd⟩ := hlo
      rcases (hi.dl.rmv p n _ hn (retired_visible hi hp) hr).2 with ⟨_, h4⟩ | ⟨h4, _⟩
      · refine not_retired hi hx h4 ?_ hp
        by_cases hd' : w.dead i
        · exact hd hd' p h4
        · exact hi.not_garbage hx hd' h4
      · rw [hx] at h4; cases h4
    · rcases (hi.dl.rmv p n _ hn (retired_visible hi hp) hr).2 with ⟨⟨x, hx⟩, _⟩ | ⟨_, h4, _⟩
      · rw [(hi.own _ _ ho).1] at hx; cases hx
      · rw [ho] at h4; cases h4
  cases p with
  | ret a => cases hs
  | fail f => cases hs
  | spin => cases hs
  | loadRoot k =>
    simp only [Prog.step, Option.some.injEq, Prod.mk.injEq] at hs hs'
    rw [← hs.1, ← hs'.1]; exact h
  | casRoot o n k =>
    simp only [Prog.step, hc.root] at hs hs'
    split at hs'
    · rename_i e
      rw [if_pos e] at hs
      simp only [Option.some.injEq, Prod.mk.injEq] at hs hs'
      refine h.keep hst (by rw [← hs.1]) (fun e _ => ?_) (fun p n i _ _ _ => ?_)
      · rw [← hs.1, ← hs'.1]; exact ⟨rfl, rfl⟩
      · rw [← hs'.1]
    · rename_i e
      rw [if_neg e] at hs
      simp only [Option.some.injEq, Prod.mk.injEq] at hs hs'
      rw [← hs.1, ← hs'.1]; exact h
  | load id k =>
    simp only [Prog.step, Option.some.injEq, Prod.mk.injEq] at hs hs'
    rw [← hs.1, ← hs'.1]; exact h
  | cas id o n k =>
    simp only [Prog.step, (hc.look hi (hl id rfl)).1] at hs hs'
    split at hs'
    · rename_i e
      rw [if_pos e] at hs
      simp only [Option.some.injEq, Prod.mk.injEq] at hs hs'
      refine h.keep hst (by rw [← hs.1]) (fun e _ => ?_) (fun p n i h1 h2 h3 => ?_)
      · rw [← hs.1, ← hs'.1]; exact ⟨rfl, rfl⟩
      · rw [← hs'.1]; exact if_neg (hid (Or.inl (hl id rfl)) p n i h1 h2 h3)
    · rename_i e
      rw [if_neg e] at hs
      simp only [Option.some.injEq, Prod.mk.injEq] at hs hs'
      rw [← hs.1, ← hs'.1]; exact h
  | store id q k =>
    simp only [Prog.step, Option.some.injEq, Prod.mk.injEq] at hs hs'
    refine h.keep hst (by rw [← hs.1]) (fun e _ => ?_) (fun p n i h1 h2 h3 => ?_)
    · rw [← hs.1, ← hs'.1]; exact ⟨rfl, rfl⟩
    · rw [← hs'.1]; exact if_neg (hid (Or.inr (hown id rfl)) p n i h1 h2 h3)
  | alloc n ks k =>
    simp only [Prog.step, Option.some.injEq, Prod.mk.injEq] at hs hs'
    refine h.keep hst (by rw [← hs.1]) (fun e he => ?_) (fun p n i _ _ _ => ?_)
    · rw [← hs.1, ← hs'.1]
      exact ⟨if_neg (hne he), if_neg (by rw [hc.nextPtr]; exact hne he)⟩
    · rw [← hs'.1]
  | newId k =>
    simp only [Prog.step, Option.some.injEq, Prod.mk.injEq] at hs hs'
    refine h.keep hst (by rw [← hs.1]) (fun e _ => ?_) (fun p n i _ _ _ => ?_)
    · rw [← hs.1, ← hs'.1]; exact ⟨rfl, rfl⟩
    · rw [← hs'.1]
  | retire q k =>
    simp only [Prog.step, Option.some.injEq, Prod.mk.injEq] at hs hs'
    have eg : w1.mem.garbage = q :: w.mem.garbage := by rw [← hs.1]
    have eh : w1.mem.heap = w.mem.heap := by rw [← hs.1]
    have eh' : m1'.heap = m'.heap := by rw [← hs'.1]
    have et' : m1'.table = m'.table := by rw [← hs'.1]
    have hq : ∀ f, ∀ e ∈ w1.mem.cells f q, m1'.heap e = w1.mem.heap e := by
      intro f e he
      rw [eh, eh']
      rcases hc.heap e with h1 | ⟨_, f', g, h1, h2⟩
      · exact h1
      · exfalso
        have hnd := hi1.ow.nodup
        have := chains_apart hi1.ow (c := q) (d := g) (by rw [eg]; exact List.mem_cons_self) (by rw [eg]; exact List.mem_cons_of_mem _ h1) he (hst g h1 f' ▸ h2)
        subst this
        rw [eg] at hnd
        exact (List.nodup_cons.mp hnd).1 h1
    refine ⟨fun g hg => ?_, fun p n i hp hn hr e => ?_⟩
    · rw [eg] at hg
      rcases List.mem_cons.mp hg with rfl | hg
      · exact Or.inr hq
      · rw [eh, eh']
        simp only [hst g hg]
        exact h.whole g hg
    · obtain ⟨f, g, h1, h2⟩ := hp
      rw [eg] at h1
      rcases List.mem_cons.mp h1 with rfl | h1
      · rw [hq f p h2, hn] at e; cases e
      · rw [et']
        rw [eh] at hn
        rw [eh'] at e
        exact h.clear p n i ⟨f, g, h1, hst g h1 f ▸ h2⟩ hn hr e

/-- `n` steps. -/
def iter {α : Type} : Nat → Mem K V → Prog K V α → Option (Mem K V × Prog K V α)
  | 0, m, p => some (m, p)
  | n + 1, m, p => (iter n m p).bind fun x => x.2.step x.1

theorem iter_steps {α : Type} {m : Mem K V} {p : Prog K V α} : ∀ {n : Nat} {m1 : Mem K V} {p1 : Prog K V α}, iter n m p = some (m1, p1) → Steps m p m1 p1
  | 0, m1, p1, h => by cases h; exact .refl _ _
  | n + 1, m1, p1, h => by
    obtain ⟨⟨m2, p2⟩, h1, h2⟩ := Option.bind_eq_some_iff.mp h
    exact (iter_steps h1).snoc h2

theorem iter_head {α : Type} : ∀ (n : Nat) {m m1 : Mem K V} {p p1 : Prog K V α}, p.step m = some (m1, p1) → iter (n + 1) m p = iter n m1 p1
  | 0, m, m1, p, p1, h => by simp [iter, h]
  | n + 1, m, m1, p, p1, h => by
    show (iter (n + 1) m p).bind _ = (iter n m1 p1).bind _
    rw [iter_head n h]

theorem Steps.iter {α : Type} {m m1 : Mem K V} {p p1 : Prog K V α} (h : Steps m p m1 p1) : ∃ n, iter n m p = some (m1, p1) := by
  induction h with
  | refl => exact ⟨0, rfl⟩
  | step h1 _ ih =>
    obtain ⟨n, e⟩ := ih
    exact ⟨n + 1, (iter_head n h1).trans e⟩

/-- Nothing comes after the end. -/
theorem iter_le {α : Type} {m m1 : Mem K V} {p p1 : Prog K V α} {N : Nat} (h : iter N m p = some (m1, p1)) (he : ∀ m, p1.step m = none) :
    ∀ {n : Nat} {x : Mem K V × Prog K V α}, iter n m p = some x → n ≤ N := by
  have none_of : ∀ d, iter (N + d + 1) m p = none := by
    intro d
    induction d with
    | zero => show (iter N m p).bind _ = none; rw [h]; exact he m1
    | succ d ih => show (iter (N + d + 1) m p).bind _ = none; rw [ih]; rfl
  intro n x hx
  apply Nat.le_of_not_lt
  intro hlt
  obtain ⟨d, rfl⟩ : ∃ d, n = N + d + 1 := ⟨n - N - 1, by omega⟩
  rw [none_of] at hx
  cases hx

/-- A configuration within a call. -/
theorem mid_reach {c : Conf K V} (h : SeqReach c) {fuel : Nat} {op : Call K V} {m : Mem K V} {p : Prog K V (Ans K V)} (hs : Steps c.mem (prog fuel op) m p) :
    Reach ⟨m, setThr c.thr 0 (some p), c.hist ++ [.call 0 op]⟩ := by
  obtain ⟨w, hw⟩ := h.calls
  exact hs.reach _ _ (h.reach.step (.call c 0 fuel op (hw.thr 0)))

/-- A call on the memory with holes runs as on the full memory. -/
theorem CSteps.sim {c : Conf K V} (h : SeqReach c) {fuel : Nat} (hf : Ample fuel) {op : Call K V} (hop : op.forward = true) {m0 : Mem K V} (hc : Coll c.mem m0)
    (hgo : Gone c.mem m0) {G : List Ptr} (hG : ∀ g ∈ G, g ∈ c.mem.garbage) {n : Nat} {m' : Mem K V} {p : Prog K V (Ans K V)}
    (hs : CSteps G n m0 (prog fuel op) m' p) :
    ∃ m, iter n c.mem (prog fuel op) = some (m, p) ∧ Coll m m' ∧ Gone m m' ∧ ∀ g ∈ G, g ∈ m.garbage := by
  generalize hq : prog fuel op = q at hs
  induction hs with
  | refl => subst hq; exact ⟨c.mem, rfl, hc, hgo, hG⟩
  | @step n _ _ _ _ p1 p2 _ hstep ih =>
    subst hq
    obtain ⟨m, h1, h2, h2', h3⟩ := ih hc hgo rfl
    obtain ⟨w, hw⟩ := h.calls
    obtain ⟨wm, rfl, hi, hl, ho⟩ := hw.looks hf hop (iter_steps h1)
    obtain ⟨m1, h4, h5⟩ := h2.step hi hl hstep
    have hr := mid_reach h (iter_steps h1)
    have hst := Step.step ⟨wm.mem, setThr c.thr 0 (some p1), c.hist ++ [.call 0 op]⟩ 0 p1 p2 m1 (by simp [setThr]) h4
    have h6 : iter (n + 1) c.mem (prog fuel op) = some (m1, p2) := by
      show (iter _ _ _).bind _ = _
      rw [h1]
      exact h4
    obtain ⟨w1, e1, hi1, _⟩ := hw.looks hf hop (iter_steps h6)
    subst e1
    exact ⟨w1.mem, h6, h5 fun e he => retired_step hr hst he,
      h2'.step h2 hi hi1 hl ho h4 hstep (fun g hg f => cells_later hr (.step .refl hst) hg f), fun g hg => Prog.step_garbage h4 (h3 g hg)⟩
  | collect _ hg ih =>
    subst hq
    obtain ⟨m, h1, h2, h2', h3⟩ := ih hc hgo rfl
    obtain ⟨w, hw⟩ := h.calls
    obtain ⟨wm, rfl, hi, _⟩ := hw.looks hf hop (iter_steps h1)
    exact ⟨wm.mem, h1, h2.destroy (h3 _ hg), h2'.destroy hi h2 (h3 _ hg), h3⟩

/-- The same calls without the collector. -/
theorem SeqCollect.sim {c : Conf K V} (h : SeqCollect c) : ∃ m, SeqReach ⟨m, c.thr, c.hist⟩ ∧ Coll m c.mem ∧ Gone m c.mem := by
  induction h with
  | init => exact ⟨initMem, .init, Coll.refl _, Gone.refl _⟩
  | collect _ hg ih =>
    obtain ⟨m, h1, h2, h3⟩ := ih
    obtain ⟨w, hw⟩ := h1.calls
    have e : w.mem = m := hw.mem
    subst e
    exact ⟨w.mem, h1, h2.destroy (h2.garbage ▸ hg), h3.destroy hw.rest.1 h2 (h2.garbage ▸ hg)⟩
  | call t _ hf hop hs ih =>
    obtain ⟨m, h1, h2, h3⟩ := ih
    obtain ⟨m1, h4, h5, h6, _⟩ := hs.sim h1 hf hop h2 h3 (fun g hg => h2.garbage ▸ hg)
    exact ⟨m1, .call t h1 hf hop (iter_steps h4), h5, h6⟩

/-- The nodes of the tree are the same. -/
theorem Coll.node {w : World K V} {m' : Mem K V} (h : Coll w.mem m') (hi : Inv w) {id : NodeId} {n : Nat} (hl : Live w n id) : m'.node id = w.mem.node id := by
  obtain ⟨⟨lk, hx⟩, hd⟩ := hl
  obtain ⟨h1, h2⟩ := h.look hi (seen_live hx hd)
  unfold Mem.node
  rw [h1]
  cases ht : w.mem.table id with
  | none => rfl
  | some p => exact (h2 p ht).2

/-- The pairs stored are the same. -/
theorem Coll.stored {w : World K V} {m' : Mem K V} (h : Coll w.mem m') (hi : Inv w) : Stored m' = Stored w.mem := by
  have hnode : ∀ {id n}, Live w n id → m'.node id = w.mem.node id := h.node hi
  have hfst : Live w 0 FIRST_LEAF := ⟨⟨none, hi.first⟩, hi.first_live⟩
  have hpath : ∀ {id c}, OnPath m' id c → OnPath w.mem id c := by
    intro id c hp
    induction hp with
    | first e => exact .first (by rw [← hnode hfst]; exact e)
    | next _ hne e ih =>
      obtain ⟨g1, p, g2⟩ := onPath_live hi ih
      have hl := (hi.next 0 _ _ _ g1 g2).resolve_left hne
      exact .next ih hne ((hnode hl).symm.trans e)
  have hpath' : ∀ {id c}, OnPath w.mem id c → OnPath m' id c := by
    intro id c hp
    induction hp with
    | first e => exact .first (by rw [hnode hfst]; exact e)
    | next hp hne e ih =>
      obtain ⟨g1, p, g2⟩ := onPath_live hi hp
      have hl := (hi.next 0 _ _ _ g1 g2).resolve_left hne
      exact .next ih hne ((hnode hl).trans e)
  funext k v
  exact propext ⟨fun ⟨id, c, h1, h2⟩ => ⟨id, c, hpath h1, h2⟩, fun ⟨id, c, h1, h2⟩ => ⟨id, c, hpath' h1, h2⟩⟩

/-- While the collector destroys what was retired, a call makes a bounded number of steps, and then has returned or needs more node IDs than the mapping table
holds (or it is GetValue and reads the parent snapshot it has not set). -/
theorem C41_collected {c : Conf K V} (h : SeqCollect c) {fuel : Nat} (hf : Ample fuel) {op : Call K V} (hop : op.forward = true) :
    ∃ N, ∀ n m p, CSteps c.mem.garbage n c.mem (prog fuel op) m p → n ≤ N ∧
      ((∃ x, p.step m = some x) ∨ (∃ a, p = .ret a) ∨ (p = .fail .tableFull ∧ TABLE_SIZE < m.nextId) ∨ ((∃ k, op = .api (.get k)) ∧ p = .fail .uninit)) := by
  obtain ⟨m0, h1, h2, h2'⟩ := h.sim
  have hG : ∀ g ∈ c.mem.garbage, g ∈ m0.garbage := fun g hg => h2.garbage ▸ hg
  obtain ⟨w, hw⟩ := h1.calls
  have main : ∀ {mf : Mem K V} {pf : Prog K V (Ans K V)}, Steps m0 (prog fuel op) mf pf → (∀ m, pf.step m = none) →
      ((∃ a, pf = .ret a) ∨ (pf = .fail .tableFull ∧ TABLE_SIZE < mf.nextId) ∨ ((∃ k, op = .api (.get k)) ∧ pf = .fail .uninit)) →
      ∃ N, ∀ n m p, CSteps c.mem.garbage n c.mem (prog fuel op) m p → n ≤ N ∧
        ((∃ x, p.step m = some x) ∨ (∃ a, p = .ret a) ∨ (p = .fail .tableFull ∧ TABLE_SIZE < m.nextId) ∨ ((∃ k, op = .api (.get k)) ∧ p = .fail .uninit)) := by
    intro mf pf hs he hgood
    obtain ⟨N, hN⟩ := hs.iter
    refine ⟨N, fun n m p hp => ?_⟩
    obtain ⟨m1, h3, h4, _⟩ := hp.sim h1 hf hop h2 h2' hG
    refine ⟨iter_le hN he h3, ?_⟩
    cases hst : p.step m with
    | some x => exact Or.inl ⟨x, rfl⟩
    | none =>
      have hend : ∀ m, p.step m = none := by
        intro m2
        cases p with
        | ret | fail | spin => rfl
        | loadRoot | store | alloc | newId | retire => cases hst
        | casRoot o nn k => simp only [Prog.step] at hst; split at hst <;> cases hst
        | cas id o nn k => simp only [Prog.step] at hst; split at hst <;> cases hst
        | load id k => simp only [Prog.step] at hst; split at hst <;> cases hst
      obtain ⟨e1, e2⟩ := hs.det (iter_steps h3) he hend
      subst e1 e2
      rcases hgood with hg | ⟨hg1, hg2⟩ | hg
      · exact Or.inr (Or.inl hg)
      · exact Or.inr (Or.inr (Or.inl ⟨hg1, by rw [h4.nextId]; exact hg2⟩))
      · exact Or.inr (Or.inr (Or.inr hg))
  rcases hw.run 0 hf hop with ⟨w1, f, h3, h4⟩ | ⟨a, w1, h3, _⟩
  · refine main h3 (fun _ => rfl) ?_
    unfold mayFail at h4
    split at h4
    · rcases h4 with rfl | ⟨rfl, h5⟩
      · exact Or.inr (Or.inr ⟨⟨_, rfl⟩, rfl⟩)
      · exact Or.inr (Or.inl ⟨rfl, h5⟩)
    · obtain ⟨rfl, h5⟩ := h4
      exact Or.inr (Or.inl ⟨rfl, h5⟩)
  · exact main h3 (fun _ => rfl) (Or.inl ⟨a, rfl⟩)

/-- While the collector destroys what was retired, each call does what the specification says. -/
theorem C42_collected {c : Conf K V} (h : SeqCollect c) {fuel : Nat} (hf : Ample fuel) {op : Call K V} (hop : op.forward = true) {n : Nat} {m : Mem K V}
    {a : Ans K V} (hs : CSteps c.mem.garbage n c.mem (prog fuel op) m (.ret a)) : seqStep (Stored c.mem) op a (Stored m) := by
  obtain ⟨m0, h1, h2, h2'⟩ := h.sim
  obtain ⟨m1, h3, h4, _⟩ := hs.sim h1 hf hop h2 h2' (fun g hg => h2.garbage ▸ hg)
  have := C42_exact h1 hf hop (iter_steps h3)
  obtain ⟨w, hw⟩ := h1.calls
  obtain ⟨wm, rfl, hi, _⟩ := hw.looks hf hop (iter_steps h3)
  obtain ⟨w0, e0, hi0, _⟩ := hw.looks hf hop (.refl _ _)
  rw [h4.stored hi]
  have e0 : w0.mem = m0 := e0
  subst e0
  rw [h2.stored hi0]
  exact this

/-- While the collector destroys what was retired, no call finds a cleared entry or destroyed memory. Where the node is part
of the tree, all records below the one found exist; otherwise the record found says that the node was removed. -/
theorem C44_collected {c : Conf K V} (h : SeqCollect c) {fuel : Nat} (hf : Ample fuel) {op : Call K V} (hop : op.forward = true) {n : Nat} {m : Mem K V}
    {id : NodeId} {k : Option (Ptr × Node K V) → Prog K V (Ans K V)} (hs : CSteps c.mem.garbage n c.mem (prog fuel op) m (.load id k)) :
    ∃ p nd, m.table id = some p ∧ m.heap p = some nd ∧ ((∀ e, Uses m p e → m.heap e ≠ none) ∨ nd.isRemove = true) := by
  obtain ⟨m0, h1, h2, h2'⟩ := h.sim
  obtain ⟨m1, h3, h4, _⟩ := hs.sim h1 hf hop h2 h2' (fun g hg => h2.garbage ▸ hg)
  obtain ⟨w, hw⟩ := h1.calls
  obtain ⟨wm, rfl, hi, hl, _⟩ := hw.looks hf hop (iter_steps h3)
  obtain ⟨g1, g2⟩ := h4.look hi (hl id rfl)
  obtain ⟨x, hx⟩ := (hl id rfl).1
  obtain ⟨p, nd, ha, _⟩ := hi.at hx
  obtain ⟨g3, g4⟩ := g2 p ha.1
  refine ⟨p, nd, g1.trans ha.1, g4.trans ha.2, ?_⟩
  obtain ⟨_, s2, s3⟩ := C44_sequential h1 hf hop (iter_steps h3) ha.1
  by_cases ho : OnLevel wm.mem id
  · refine Or.inl fun e hu => ?_
    have hu' : Uses wm.mem p e := by
      cases hu with
      | chain he => exact .chain (h4.cells he)
      | below q1 q2 q3 q4 => exact .below (h4.rec_of q1) q2 (by rw [← h4.kids]; exact q3) (h4.cells q4)
    have hne := s2 ho e hu'
    rcases h4.heap e with e1 | ⟨_, e1⟩
    · rw [e1]
      obtain ⟨a1, a2⟩ := uses_anc hi ho ha.1 hu'
      intro hnone
      have hfree := (hi.ow.free e).mpr hnone
      cases a2 with
      | refl => rw [a1] at hfree; cases hfree
      | step _ a3 => rw [a3] at hfree; cases hfree
    · exact absurd e1 hne
  · obtain ⟨nd', h5, h6⟩ := s3 ho
    rw [ha.2] at h5
    cases h5
    exact Or.inr h6

/-! ## A tree from which a node was removed, and the collector has destroyed it -/

theorem Steps.csteps {α : Type} (G : List Ptr) {m m1 : Mem K V} {p p1 : Prog K V α} (h : Steps m p m1 p1) : ∃ n, CSteps G n m p m1 p1 := by
  obtain ⟨n, hn⟩ := h.iter
  refine ⟨n, ?_⟩
  induction n generalizing m1 p1 with
  | zero => cases hn; exact .refl _ _
  | succ n ih =>
    obtain ⟨⟨m2, p2⟩, h1, h2⟩ := Option.bind_eq_some_iff.mp hn
    exact .step (ih (iter_steps h1) h1) h2

theorem SeqReach.collected {c : Conf K V} (h : SeqReach c) : SeqCollect c := by
  induction h with
  | init => exact .init
  | call t _ hf hop hs ih =>
    obtain ⟨n, hn⟩ := hs.csteps _
    exact .call t ih hf hop hn

/-- Leaf 3 was merged into leaf 2; its remove record is at 271. -/
def afterLast : Option (Conf Nat Nat) := seqRun 1000 initConf (insDel 200 64 97)

/-- The entry of node 3 is cleared by destroying chain 271; a call whose key was on node 3 returns `true`, although chain 272 is destroyed on the way. -/
def goesOn (c : Conf Nat Nat) : Bool :=
  c.mem.garbage.contains 271 && c.mem.garbage.contains 272 && (c.mem.table 3).isSome && decide ((c.mem.destroy 271).table 3 = none) &&
  decide (3 < c.mem.nextId) && ((c.mem.destroy 271).heap 272).isSome &&
  (let r := runN 2 (c.mem.destroy 271) (prog (3 * TABLE_SIZE + 1) (.api (.insert 96 96)))
   match runN 1000 (r.1.destroy 272) r.2 with
   | (m, .ret (.bool b)) => b && (m.heap 272).isNone
   | _ => false)

theorem afterLast_goesOn : (afterLast.map goesOn) = some true := by decide +kernel

theorem CSteps.trans {α : Type} {G : List Ptr} {n n' : Nat} {m m1 m2 : Mem K V} {p p1 p2 : Prog K V α} (h : CSteps G n m p m1 p1) (h' : CSteps G n' m1 p1 m2 p2) :
    CSteps G (n + n') m p m2 p2 := by
  induction h' with
  | refl => exact h
  | step _ hs ih => exact .step (ih h) hs
  | collect _ hg ih => exact .collect (ih h) hg

/-- The hypotheses of the theorems above are met by a memory from which the entry of a node has gone, and by a call during which more memory goes. -/
example : ∃ (c : Conf Nat Nat) (n : Nat) (m : Mem Nat Nat), SeqCollect c ∧ Ample (3 * TABLE_SIZE + 1) ∧ 3 < c.mem.nextId ∧ c.mem.table 3 = none ∧
    CSteps c.mem.garbage n c.mem (prog (3 * TABLE_SIZE + 1) (.api (.insert 96 96))) m (.ret (.bool true)) ∧ c.mem.heap 272 ≠ none ∧ m.heap 272 = none := by
  have h := afterLast_goesOn
  cases hc : afterLast with
  | none => rw [hc] at h; cases h
  | some c =>
    rw [hc] at h
    have h : goesOn c = true := Option.some.inj h
    have hr : SeqReach c := seqRun_reach .init insDel_forward hc
    have hs := runN_steps 2 (c.mem.destroy 271) (prog (3 * TABLE_SIZE + 1) (.api (.insert 96 96)))
    simp only [goesOn, Bool.and_eq_true, decide_eq_true_eq, List.contains_iff_mem] at h
    obtain ⟨⟨⟨⟨⟨⟨h1, h2⟩, h3⟩, h4⟩, h5⟩, h6⟩, h7⟩ := h
    generalize runN 2 (c.mem.destroy 271) (prog (3 * TABLE_SIZE + 1) (.api (.insert 96 96))) = r at hs h7
    have hs' := runN_steps 1000 (r.1.destroy 272) r.2
    generalize runN 1000 (r.1.destroy 272) r.2 = r' at hs' h7
    obtain ⟨m, q⟩ := r'
    split at h7
    · rename_i m' b hx
      cases hx
      simp only [Bool.and_eq_true] at h7
      obtain ⟨rfl, h8⟩ := h7
      obtain ⟨n1, k1⟩ := hs.csteps c.mem.garbage
      obtain ⟨n2, k2⟩ := hs'.csteps c.mem.garbage
      exact ⟨{ c with mem := c.mem.destroy 271 }, _, m, hr.collected.collect h1, Nat.lt_succ_self _, h5, h4, (k1.collect h2).trans k2,
        Option.isSome_iff_ne_none.mp h6, Option.isNone_iff_eq_none.mp h8⟩
    · cases h7

end Tree
end BwTree
