import Verif.Proofs.TreeRun
import Verif.Spec.Solo

/-!
  Running one call at a time: a total correctness logic for `Prog` on top of the rely/guarantee logic. The history variables are those of
  the concurrent proof (`wp`); here only what they and the memory look like after each step is used.
-/

namespace BwTree
namespace Tree

open Prog

set_option linter.unusedSectionVars false

variable {K V : Type} [LinearOrder K] [DecidableEq V] [Inhabited K]

/-- Failures the concurrent proof does not exclude, apart from the exhaustion of NodeIDs. -/
def Bad (f : Fail) (w : World K V) : Prop :=
  f ∈ [.noParent, .leftSibling, .mergeRange, .mergeSep, .uninit, .search] ∨ (f = .tableFull ∧ w.mem.nextId ≤ TABLE_SIZE)

theorem not_bad {f : Fail} {w : World K V} (h : f ∉ [Fail.noParent, .leftSibling, .mergeRange, .mergeSep, .uninit, .search, .tableFull]) : ¬ Bad f w := by
  simp only [List.mem_cons, List.not_mem_nil, or_false, not_or] at h
  rintro (h1 | ⟨h1, _⟩)
  · simp only [List.mem_cons, List.not_mem_nil, or_false] at h1
    rcases h1 with h1 | h1 | h1 | h1 | h1 | h1 <;> simp [h1] at h
  · simp [h1] at h

/-- What a program may look at: a node of the tree, or one that has been merged into its left sibling and whose record nobody has handed to
the epoch manager yet. -/
def Lookable (w : World K V) (id : NodeId) : Prop :=
  (∃ x, w.info id = some x) ∧ (w.dead id → ∀ p, w.mem.table id = some p → p ∉ w.mem.garbage)

theorem seen_live {w : World K V} {id : NodeId} {x : Option K × Nat} (hx : w.info id = some x) (hd : ¬ w.dead id) : Lookable w id :=
  ⟨⟨x, hx⟩, fun h => absurd h hd⟩

/-- Total correctness without interference: the program ends, in `Q` or with a failure that is not `bad`, whatever the history
variables do as long as they respect guarantee and invariant; and it only looks at what is `Lookable`. -/
def twb {α : Type} (bad : Fail → World K V → Prop) (t : Tid) : Prog K V α → (α → World K V → Prop) → World K V → Prop
  | .ret a, Q, w => Q a w
  | .fail f, _, w => ¬ bad f w
  | .spin, _, _ => False
  | .loadRoot k, Q, w => ∀ w', w'.mem = w.mem → Guar t w w' → Inv w' → twb bad t (k w.mem.root) Q w'
  | .casRoot o n k, Q, w =>
      (w.mem.root = o → ∀ w', w'.mem = { w.mem with root := n } → Guar t w w' → Inv w' → twb bad t (k true) Q w') ∧
      (w.mem.root ≠ o → ∀ w', w'.mem = w.mem → Guar t w w' → Inv w' → twb bad t (k false) Q w')
  | .load id k, Q, w =>
      (∀ p n, w.At id p n → ∀ w', w'.mem = w.mem → Guar t w w' → Inv w' → twb bad t (k (some (p, n))) Q w') ∧
      ((∀ p n, ¬ w.At id p n) → ∀ w', w'.mem = w.mem → Guar t w w' → Inv w' → twb bad t (k none) Q w') ∧ Lookable w id
  | .cas id o n k, Q, w =>
      (w.mem.table id = some o → ∀ w', w'.mem = { w.mem with table := fun i => if i = id then some n else w.mem.table i } →
        Guar t w w' → Inv w' → twb bad t (k true) Q w') ∧
      (w.mem.table id ≠ some o → ∀ w', w'.mem = w.mem → Guar t w w' → Inv w' → twb bad t (k false) Q w') ∧ Lookable w id
  | .store id p k, Q, w => ∀ w', w'.mem = { w.mem with table := fun i => if i = id then some p else w.mem.table i } →
      Guar t w w' → Inv w' → twb bad t k Q w'
  | .alloc n ks k, Q, w => ∀ w', w'.mem = { w.mem with heap := (fun p => if p = w.mem.nextPtr then some n else w.mem.heap p), kids := (fun p => if p = w.mem.nextPtr then ks else w.mem.kids p), nextPtr := w.mem.nextPtr + 1 } → Guar t w w' → Inv w' → twb bad t (k w.mem.nextPtr) Q w'
  | .newId k, Q, w => ∀ w', w'.mem = { w.mem with nextId := w.mem.nextId + 1 } → Guar t w w' → Inv w' → twb bad t (k w.mem.nextId) Q w'
  | .retire p k, Q, w => ∀ w', w'.mem = { w.mem with garbage := p :: w.mem.garbage } → Guar t w w' → Inv w' → twb bad t k Q w'

/-- Total correctness, excluding all failures of `Bad`. -/
abbrev tw {α : Type} (t : Tid) (p : Prog K V α) (Q : α → World K V → Prop) (w : World K V) : Prop := twb Bad t p Q w

variable {t : Tid} {allow : Fail → Prop} {bad : Fail → World K V → Prop} {α β : Type} {w : World K V}

theorem tw_mono {Q Q' : α → World K V → Prop} (hQ : ∀ a w, Q a w → Q' a w) :
    ∀ {p : Prog K V α} {w : World K V}, twb bad t p Q w → twb bad t p Q' w
  | .ret a, w, h => hQ a w h
  | .fail _, _, h => h
  | .spin, _, h => h
  | .loadRoot k, w, h => fun w' a b c => tw_mono hQ (h w' a b c)
  | .casRoot o n k, w, h => ⟨fun e w' a b c => tw_mono hQ (h.1 e w' a b c), fun e w' a b c => tw_mono hQ (h.2 e w' a b c)⟩
  | .load id k, w, h => ⟨fun p n e w' a b c => tw_mono hQ (h.1 p n e w' a b c), fun e w' a b c => tw_mono hQ (h.2.1 e w' a b c), h.2.2⟩
  | .cas id o n k, w, h => ⟨fun e w' a b c => tw_mono hQ (h.1 e w' a b c), fun e w' a b c => tw_mono hQ (h.2.1 e w' a b c), h.2.2⟩
  | .store id p k, w, h => fun w' a b c => tw_mono hQ (h w' a b c)
  | .alloc n ks k, w, h => fun w' a b c => tw_mono hQ (h w' a b c)
  | .newId k, w, h => fun w' a b c => tw_mono hQ (h w' a b c)
  | .retire p k, w, h => fun w' a b c => tw_mono hQ (h w' a b c)

theorem tw_bind {Q : β → World K V → Prop} {f : α → Prog K V β} :
    ∀ {p : Prog K V α} {w : World K V}, twb bad t p (fun a w' => twb bad t (f a) Q w') w → twb bad t (p.bind f) Q w
  | .ret a, w, h => h
  | .fail _, _, h => h
  | .spin, _, h => h
  | .loadRoot k, w, h => fun w' a b c => tw_bind (h w' a b c)
  | .casRoot o n k, w, h => ⟨fun e w' a b c => tw_bind (h.1 e w' a b c), fun e w' a b c => tw_bind (h.2 e w' a b c)⟩
  | .load id k, w, h => ⟨fun p n e w' a b c => tw_bind (h.1 p n e w' a b c), fun e w' a b c => tw_bind (h.2.1 e w' a b c), h.2.2⟩
  | .cas id o n k, w, h => ⟨fun e w' a b c => tw_bind (h.1 e w' a b c), fun e w' a b c => tw_bind (h.2.1 e w' a b c), h.2.2⟩
  | .store id p k, w, h => fun w' a b c => tw_bind (h w' a b c)
  | .alloc n ks k, w, h => fun w' a b c => tw_bind (h w' a b c)
  | .newId k, w, h => fun w' a b c => tw_bind (h w' a b c)
  | .retire p k, w, h => fun w' a b c => tw_bind (h w' a b c)

theorem tw_seq {Q : β → World K V → Prop} {f : α → Prog K V β} {p : Prog K V α} {R : α → World K V → Prop} (h : twb bad t p R w)
    (hR : ∀ a w', R a w' → twb bad t (f a) Q w') : twb bad t (p >>= f) Q w := tw_bind (tw_mono hR h)

/-- Every moment of the run of `p` from `w` up to `w'` has a world. -/
def Through (w : World K V) (p : Prog K V α) (w' : World K V) : Prop :=
  Mono w w' ∧ ∀ m p', Steps w.mem p m p' → ∃ wm : World K V, wm.mem = m ∧ Inv wm ∧ Mono wm w'

/-- With the concurrent proof, the program runs to its end. -/
theorem tw_run {Q Q0 : α → World K V → Prop} {p : Prog K V α} : ∀ {w : World K V}, twb bad t p Q w → wp t allow p Q0 w → Inv w →
    (∃ (w1 : World K V) (f : Fail), Steps w.mem p w1.mem (.fail f) ∧ allow f ∧ ¬ bad f w1) ∨
    ∃ a w', Steps w.mem p w'.mem (.ret a) ∧ Inv w' ∧ Q a w' ∧ Q0 a w' ∧ (∀ u, u ≠ t → Priv u w w') ∧ Through w p w' := by
  have lift : ∀ {w : World K V} {m' : Mem K V} {p p' : Prog K V α}, Inv w → p.step w.mem = some (m', p') → Next t w m' (wp t allow p' Q0) →
      (∀ w', w'.mem = m' → Guar t w w' → Inv w' → twb bad t p' Q w') →
      (∀ w', twb bad t p' Q w' → wp t allow p' Q0 w' → Inv w' →
        (∃ (w1 : World K V) (f : Fail), Steps w'.mem p' w1.mem (.fail f) ∧ allow f ∧ ¬ bad f w1) ∨
        ∃ a w'', Steps w'.mem p' w''.mem (.ret a) ∧ Inv w'' ∧ Q a w'' ∧ Q0 a w'' ∧ (∀ u, u ≠ t → Priv u w' w'') ∧ Through w' p' w'') →
      (∃ (w1 : World K V) (f : Fail), Steps w.mem p w1.mem (.fail f) ∧ allow f ∧ ¬ bad f w1) ∨
      ∃ a w', Steps w.mem p w'.mem (.ret a) ∧ Inv w' ∧ Q a w' ∧ Q0 a w' ∧ (∀ u, u ≠ t → Priv u w w') ∧ Through w p w' := by
    intro w m' p p' hi hs hn ht ih
    obtain ⟨w', e1, e2, e3, e4⟩ := hn
    rcases ih w' (ht w' e1 e2 e3) e4 e3 with ⟨m2, f, s, h1, h2⟩ | ⟨a, w2, s, h1, h2, h3, h4, h5, h6⟩
    · exact Or.inl ⟨m2, f, .step hs (e1 ▸ s), h1, h2⟩
    · refine Or.inr ⟨a, w2, .step hs (e1 ▸ s), h1, h2, h3, fun u hu => (e2.2.1 u hu).trans (h4 u hu), e2.1.trans h5, fun m pm hm => ?_⟩
      cases hm with
      | refl => exact ⟨w, rfl, hi, e2.1.trans h5⟩
      | step g1 g2 =>
        rw [hs] at g1
        cases g1
        exact h6 m pm (e1 ▸ g2)
  induction p with
  | ret a => intro w h h0 hi; exact Or.inr ⟨a, w, .refl _ _, hi, h, h0, fun u _ => Priv.refl u w, Mono.refl w, fun m pm hm => by
    cases hm with
    | refl => exact ⟨w, rfl, hi, Mono.refl w⟩
    | step g1 _ => cases g1⟩
  | fail f => intro w h h0 hi; exact Or.inl ⟨w, f, .refl _ _, h0, h⟩
  | spin => intro w h h0 hi; exact h.elim
  | loadRoot k ih => intro w h h0 hi; exact lift hi rfl (h0 w (Rely.refl t w) hi) h (fun w' => ih _)
  | casRoot o n k ih =>
    intro w h h0 hi
    by_cases hc : w.mem.root = o
    · exact lift hi (by simp only [Prog.step, if_pos hc]) ((h0 w (Rely.refl t w) hi).1 hc) (h.1 hc) (fun w' => ih _)
    · exact lift hi (by simp only [Prog.step, if_neg hc]) ((h0 w (Rely.refl t w) hi).2 hc) (h.2 hc) (fun w' => ih _)
  | load id k ih =>
    intro w h h0 hi
    cases ht : w.mem.table id with
    | none =>
      have hno : ∀ p n, ¬ w.At id p n := fun p n ha => by rw [ha.1] at ht; cases ht
      exact lift hi (by simp only [Prog.step, ht]) ((h0 w (Rely.refl t w) hi).2.1 hno) (h.2.1 hno) (fun w' => ih _)
    | some p =>
      cases hh : w.mem.heap p with
      | none =>
        have hno : ∀ p n, ¬ w.At id p n := fun q n ha => by
          rw [ha.1] at ht
          cases ht
          rw [ha.2] at hh
          cases hh
        exact lift hi (by simp only [Prog.step, ht, hh]) ((h0 w (Rely.refl t w) hi).2.1 hno) (h.2.1 hno) (fun w' => ih _)
      | some n =>
        exact lift hi (by simp only [Prog.step, ht, hh]) ((h0 w (Rely.refl t w) hi).1 p n ⟨ht, hh⟩) (h.1 p n ⟨ht, hh⟩) (fun w' => ih _)
  | cas id o n k ih =>
    intro w h h0 hi
    by_cases hc : w.mem.table id = some o
    · exact lift hi (by simp only [Prog.step, if_pos hc]) ((h0 w (Rely.refl t w) hi).1 hc) (h.1 hc) (fun w' => ih _)
    · exact lift hi (by simp only [Prog.step, if_neg hc]) ((h0 w (Rely.refl t w) hi).2.1 hc) (h.2.1 hc) (fun w' => ih _)
  | store id p k ih => intro w h h0 hi; exact lift hi rfl (h0 w (Rely.refl t w) hi).1 h (fun w' => ih)
  | alloc n ks k ih => intro w h h0 hi; exact lift hi rfl (h0 w (Rely.refl t w) hi) h (fun w' => ih _)
  | newId k ih => intro w h h0 hi; exact lift hi rfl (h0 w (Rely.refl t w) hi) h (fun w' => ih _)
  | retire p k ih => intro w h h0 hi; exact lift hi rfl (h0 w (Rely.refl t w) hi) h (fun w' => ih)

/-- The program is about to read or replace the mapping entry of `id`. -/
def _root_.BwTree.Tree.Prog.touches : Prog K V α → NodeId → Prop
  | .load i _, id => i = id
  | .cas i _ _ _, id => i = id
  | _, _ => False

/-- The program is about to fill the mapping entry of `id`. -/
def _root_.BwTree.Tree.Prog.stores : Prog K V α → NodeId → Prop
  | .store i _ _, id => i = id
  | _, _ => False

/-- At every moment of a run, also of one that ends in a failure, the program only touches what is `Lookable` and fills only entries of NodeIDs it was given. -/
theorem tw_looks {Q Q0 : α → World K V → Prop} {p : Prog K V α} : ∀ {w : World K V}, twb bad t p Q w → wp t allow p Q0 w → Inv w →
    ∀ m p', Steps w.mem p m p' → ∃ wm : World K V, wm.mem = m ∧ Inv wm ∧ (∀ id, p'.touches id → Lookable wm id) ∧ ∀ id, p'.stores id → wm.own id = some t := by
  have lift : ∀ {w : World K V} {m' : Mem K V} {p p' : Prog K V α}, Inv w → (∀ id, p.touches id → Lookable w id) → (∀ id, p.stores id → w.own id = some t) → p.step w.mem = some (m', p') →
      Next t w m' (wp t allow p' Q0) → (∀ w', w'.mem = m' → Guar t w w' → Inv w' → twb bad t p' Q w') →
      (∀ w', twb bad t p' Q w' → wp t allow p' Q0 w' → Inv w' →
        ∀ m q, Steps w'.mem p' m q → ∃ wm : World K V, wm.mem = m ∧ Inv wm ∧ (∀ id, q.touches id → Lookable wm id) ∧ ∀ id, q.stores id → wm.own id = some t) →
      ∀ m q, Steps w.mem p m q → ∃ wm : World K V, wm.mem = m ∧ Inv wm ∧ (∀ id, q.touches id → Lookable wm id) ∧ ∀ id, q.stores id → wm.own id = some t := by
    intro w m' p p' hi hl hg hs hn ht ih m q hm
    obtain ⟨w', e1, e2, e3, e4⟩ := hn
    cases hm with
    | refl => exact ⟨w, rfl, hi, hl, hg⟩
    | step g1 g2 =>
      rw [hs] at g1
      cases g1
      exact ih w' (ht w' e1 e2 e3) e4 e3 m q (e1 ▸ g2)
  induction p with
  | ret a =>
    intro w h h0 hi m q hm
    cases hm with
    | refl => exact ⟨w, rfl, hi, fun _ e => e.elim, fun _ e => e.elim⟩
    | step g1 _ => cases g1
  | fail f =>
    intro w h h0 hi m q hm
    cases hm with
    | refl => exact ⟨w, rfl, hi, fun _ e => e.elim, fun _ e => e.elim⟩
    | step g1 _ => cases g1
  | spin => intro w h h0 hi; exact h.elim
  | loadRoot k ih => intro w h h0 hi; exact lift hi (fun _ e => e.elim) (fun _ e => e.elim) rfl (h0 w (Rely.refl t w) hi) h (fun w' => ih _)
  | casRoot o n k ih =>
    intro w h h0 hi
    by_cases hc : w.mem.root = o
    · exact lift hi (fun _ e => e.elim) (fun _ e => e.elim) (by simp only [Prog.step, if_pos hc]) ((h0 w (Rely.refl t w) hi).1 hc) (h.1 hc) (fun w' => ih _)
    · exact lift hi (fun _ e => e.elim) (fun _ e => e.elim) (by simp only [Prog.step, if_neg hc]) ((h0 w (Rely.refl t w) hi).2 hc) (h.2 hc) (fun w' => ih _)
  | load id k ih =>
    intro w h h0 hi
    have hl : ∀ id', (Prog.load id k : Prog K V α).touches id' → Lookable w id' := fun _ e => by cases e; exact h.2.2
    cases ht : w.mem.table id with
    | none =>
      have hno : ∀ p n, ¬ w.At id p n := fun p n ha => by rw [ha.1] at ht; cases ht
      exact lift hi hl (fun _ e => e.elim) (by simp only [Prog.step, ht]) ((h0 w (Rely.refl t w) hi).2.1 hno) (h.2.1 hno) (fun w' => ih _)
    | some p =>
      cases hh : w.mem.heap p with
      | none =>
        have hno : ∀ p n, ¬ w.At id p n := fun q n ha => by
          rw [ha.1] at ht
          cases ht
          rw [ha.2] at hh
          cases hh
        exact lift hi hl (fun _ e => e.elim) (by simp only [Prog.step, ht, hh]) ((h0 w (Rely.refl t w) hi).2.1 hno) (h.2.1 hno) (fun w' => ih _)
      | some n =>
        exact lift hi hl (fun _ e => e.elim) (by simp only [Prog.step, ht, hh]) ((h0 w (Rely.refl t w) hi).1 p n ⟨ht, hh⟩) (h.1 p n ⟨ht, hh⟩) (fun w' => ih _)
  | cas id o n k ih =>
    intro w h h0 hi
    have hl : ∀ id', (Prog.cas id o n k : Prog K V α).touches id' → Lookable w id' := fun _ e => by cases e; exact h.2.2
    by_cases hc : w.mem.table id = some o
    · exact lift hi hl (fun _ e => e.elim) (by simp only [Prog.step, if_pos hc]) ((h0 w (Rely.refl t w) hi).1 hc) (h.1 hc) (fun w' => ih _)
    · exact lift hi hl (fun _ e => e.elim) (by simp only [Prog.step, if_neg hc]) ((h0 w (Rely.refl t w) hi).2.1 hc) (h.2.1 hc) (fun w' => ih _)
  | store id p k ih =>
    intro w h h0 hi
    exact lift hi (fun _ e => e.elim) (fun _ e => by cases e; exact (h0 w (Rely.refl t w) hi).2) rfl (h0 w (Rely.refl t w) hi).1 h (fun w' => ih)
  | alloc n ks k ih => intro w h h0 hi; exact lift hi (fun _ e => e.elim) (fun _ e => e.elim) rfl (h0 w (Rely.refl t w) hi) h (fun w' => ih _)
  | newId k ih => intro w h h0 hi; exact lift hi (fun _ e => e.elim) (fun _ e => e.elim) rfl (h0 w (Rely.refl t w) hi) h (fun w' => ih _)
  | retire p k ih => intro w h h0 hi; exact lift hi (fun _ e => e.elim) (fun _ e => e.elim) rfl (h0 w (Rely.refl t w) hi) h (fun w' => ih)

/-- The leftmost leaf is never merged away. -/
theorem Inv.first_live (hi : Inv w) : ¬ w.dead FIRST_LEAF := fun hd => hi.keep _ _ hi.first (hi.dead _ hd)

/-- What is mapped at a node of the tree has not been handed to the epoch manager. -/
theorem Inv.not_garbage (hi : Inv w) {id : NodeId} {x : Option K × Nat} (hx : w.info id = some x) (hd : ¬ w.dead id) {p : Ptr}
    (hp : w.mem.table id = some p) : p ∉ w.mem.garbage := by
  intro hg
  rcases hi.ow.tab id x p hx hp with h | h
  · rw [(hi.ow.trash p).mpr hg] at h
    cases h
  · exact hd (hi.dl.dead _ h)

/-- Fewer failures excluded. -/
theorem twb_weaken {bad' : Fail → World K V → Prop} (hb : ∀ f w, bad' f w → bad f w) {Q : α → World K V → Prop} :
    ∀ {p : Prog K V α} {w : World K V}, twb bad t p Q w → twb bad' t p Q w
  | .ret a, w, h => h
  | .fail f, w, h => fun hf => h (hb f w hf)
  | .spin, _, h => h
  | .loadRoot k, w, h => fun w' a b c => twb_weaken hb (h w' a b c)
  | .casRoot o n k, w, h => ⟨fun e w' a b c => twb_weaken hb (h.1 e w' a b c), fun e w' a b c => twb_weaken hb (h.2 e w' a b c)⟩
  | .load id k, w, h => ⟨fun p n e w' a b c => twb_weaken hb (h.1 p n e w' a b c), fun e w' a b c => twb_weaken hb (h.2.1 e w' a b c), h.2.2⟩
  | .cas id o n k, w, h => ⟨fun e w' a b c => twb_weaken hb (h.1 e w' a b c), fun e w' a b c => twb_weaken hb (h.2.1 e w' a b c), h.2.2⟩
  | .store id p k, w, h => fun w' a b c => twb_weaken hb (h w' a b c)
  | .alloc n ks k, w, h => fun w' a b c => twb_weaken hb (h w' a b c)
  | .newId k, w, h => fun w' a b c => twb_weaken hb (h w' a b c)
  | .retire p k, w, h => fun w' a b c => twb_weaken hb (h w' a b c)

/-- The tree is the same; only unreachable memory changed. -/
structure Calm (w w' : World K V) : Prop where
  mono : Mono w w'
  root : w'.mem.root = w.mem.root
  info : w'.info = w.info
  dead : w'.dead = w.dead
  table : ∀ id x, w.info id = some x → w'.mem.table id = w.mem.table id
  heap : ∀ p n, w.mem.heap p = some n → w'.mem.heap p = some n
  nextId : w.mem.nextId ≤ w'.mem.nextId

theorem Calm.refl (w : World K V) : Calm w w := ⟨Mono.refl w, rfl, rfl, rfl, fun _ _ _ => rfl, fun _ _ h => h, Nat.le_refl _⟩

theorem Calm.trans {a b c : World K V} (h1 : Calm a b) (h2 : Calm b c) : Calm a c :=
  ⟨h1.mono.trans h2.mono, h2.root.trans h1.root, h2.info.trans h1.info, h2.dead.trans h1.dead,
    fun id x h => (h2.table id x (h1.info ▸ h)).trans (h1.table id x h), fun p n h => h2.heap p n (h1.heap p n h),
    Nat.le_trans h1.nextId h2.nextId⟩

theorem Calm.at_ {w w' : World K V} (h : Calm w w') (hi : Inv w) {id : NodeId} {x : Option K × Nat} (hx : w.info id = some x) {p : Ptr}
    {n : Node K V} : w'.At id p n ↔ w.At id p n := by
  constructor
  · intro ha
    obtain ⟨q, m, h1, _⟩ := hi.at hx
    have e : q = p := Option.some.inj (h1.1.symm.trans ((h.table id x hx).symm.trans ha.1))
    subst e
    have := (h.heap _ _ h1.2).symm.trans ha.2
    cases this
    exact h1
  · intro ha
    exact ⟨(h.table id x hx).trans ha.1, h.heap _ _ ha.2⟩

theorem Guar.sameInfo {w w' : World K V} (hg : Guar t w w') (hi : Inv w) (hroot : w'.mem.root = w.mem.root)
    (hat : ∀ id x, w.info id = some x → w'.mem.table id = w.mem.table id) : w'.info = w.info ∧ w'.dead = w.dead := by
  have back : ∀ {q y p n}, w.info q = some y → w'.At q p n → w.At q p n := by
    intro q y p n hq ha
    obtain ⟨p0, m, h1, _⟩ := hi.at hq
    have e : p0 = p := Option.some.inj (h1.1.symm.trans ((hat q y hq).symm.trans ha.1))
    subst e
    have := (hg.1.heap _ _ h1.2).symm.trans ha.2
    cases this
    exact h1
  constructor
  · funext id
    cases hx : w'.info id with
    | none =>
      cases hy : w.info id with
      | none => rfl
      | some y => rw [hg.1.info _ _ hy] at hx; cases hx
    | some x =>
      rcases hg.2.2.2.info id x hx with h | ⟨h1, h2⟩ | ⟨q, y, p, n, h1, h2, _, h3⟩
      · exact h.symm
      · exact absurd (hroot.symm.trans h1) h2
      · exact absurd (back h1 h2) h3
  · funext id
    apply propext
    refine ⟨fun h => ?_, hg.1.dead id⟩
    rcases hg.2.2.2.dead id h with h | ⟨q, y, p, n, k, h1, h2, _, h3⟩
    · exact h
    · exact absurd (back h1 h2) h3

theorem calm_of {w w' : World K V} (hg : Guar t w w') (hi : Inv w) (hroot : w'.mem.root = w.mem.root)
    (hat : ∀ id x, w.info id = some x → w'.mem.table id = w.mem.table id) (hn : w.mem.nextId ≤ w'.mem.nextId) : Calm w w' :=
  ⟨hg.1, hroot, (hg.sameInfo hi hroot hat).1, (hg.sameInfo hi hroot hat).2, hat, hg.1.heap, hn⟩

theorem calm_mem {w w' : World K V} (hg : Guar t w w') (hi : Inv w) (he : w'.mem = w.mem) : Calm w w' :=
  calm_of hg hi (by rw [he]) (fun _ _ _ => by rw [he]) (by rw [he])

theorem tw_getNode' (hi : Inv w) {id : NodeId} (hs : Lookable w id) {Q : Ptr × Node K V → World K V → Prop}
    (H : ∀ w' p n, Inv w' → Calm w w' → w'.mem = w.mem → w.At id p n → Q (p, n) w') : tw t (getNode id) Q w := by
  obtain ⟨x, hx⟩ := hs.1
  obtain ⟨h1, h2, _⟩ := hi.ids id x hx
  unfold getNode
  rw [if_neg (by intro h; rcases h with h | h; exact h1 h; exact absurd h2 (Nat.not_lt.mpr h))]
  refine ⟨fun p n ha w' e g i => H w' p n i (calm_mem g hi e) e ha, fun hno => ?_, hs⟩
  obtain ⟨p, n, ha, _⟩ := hi.at hx
  exact absurd ha (hno p n)

theorem tw_getNode (hi : Inv w) {id : NodeId} {x : Option K × Nat} (hx : w.info id = some x) (hd : ¬ w.dead id) {Q : Ptr × Node K V → World K V → Prop}
    (H : ∀ w' p n, Inv w' → Calm w w' → w.At id p n → Q (p, n) w') : tw t (getNode id) Q w :=
  tw_getNode' hi (seen_live hx hd) fun w' p n h1 h2 _ h3 => H w' p n h1 h2 h3

theorem tw_readRoot (hi : Inv w) {Q : NodeId → World K V → Prop} (H : ∀ w', Inv w' → Calm w w' → Q w.mem.root w') : tw t readRoot Q w :=
  fun w' e g i => H w' i (calm_mem g hi e)

theorem tw_allocate' (hi : Inv w) {n : Node K V} {ks : List Ptr} {Q : Ptr → World K V → Prop}
    (H : ∀ w' p, Inv w' → Calm w w' → w'.mem.garbage = w.mem.garbage → w'.mem.heap p = some n → Q p w') : tw t (allocate n ks) Q w := by
  intro w' e g i
  exact H w' _ i (calm_of g hi (by rw [e]) (fun _ _ _ => by rw [e]) (by rw [e])) (by rw [e]) (by rw [e]; simp)

theorem tw_allocate (hi : Inv w) {n : Node K V} {ks : List Ptr} {Q : Ptr → World K V → Prop}
    (H : ∀ w' p, Inv w' → Calm w w' → w'.mem.heap p = some n → Q p w') : tw t (allocate n ks) Q w := by
  intro w' e g i
  exact H w' _ i (calm_of g hi (by rw [e]) (fun _ _ _ => by rw [e]) (by rw [e])) (by rw [e]; simp)

theorem tw_addGarbage (hi : Inv w) {p : Ptr} {Q : Unit → World K V → Prop} (H : ∀ w', Inv w' → Calm w w' → Q () w') :
    tw t (addGarbage p) Q w := by
  intro w' e g i
  exact H w' i (calm_of g hi (by rw [e]) (fun _ _ _ => by rw [e]) (by rw [e]))

theorem Inv.info_none (hi : Inv w) : w.info w.mem.nextId = none := by
  cases h : w.info w.mem.nextId with
  | none => rfl
  | some x => exact absurd (hi.ids _ _ h).2.2 (Nat.lt_irrefl _)

theorem tw_nextNodeId (hi : Inv w) {Q : NodeId → World K V → Prop} (H : ∀ w' id, Inv w' → Calm w w' → w.info id = none → id = w.mem.nextId → w'.mem.nextId = id + 1 → Q id w') :
    tw t nextNodeId Q w := by
  intro w' e g i
  exact H w' _ i (calm_of g hi (by rw [e]) (fun _ _ _ => by rw [e]) (by rw [e]; exact Nat.le_succ _)) hi.info_none rfl (by rw [e])

theorem tw_installNew (hi : Inv w) {id : NodeId} {p : Ptr} (hid : w.info id = none) (hlt : id < w.mem.nextId) {Q : Unit → World K V → Prop}
    (H : ∀ w', Inv w' → Calm w w' → w'.mem.table id = some p → id < TABLE_SIZE → Q () w') : tw t (installNew id p) Q w := by
  unfold installNew
  by_cases h : TABLE_SIZE ≤ id
  · rw [if_pos h]; 
    rintro (h1 | ⟨_, h1⟩)
    · exact absurd h1 (by decide)
    · exact absurd (Nat.lt_of_lt_of_le hlt h1) (Nat.not_lt.mpr h)
  · rw [if_neg h]
    intro w' e g i
    refine H w' i (calm_of g hi (by rw [e]) (fun j x hx => ?_) (by rw [e])) (by rw [e]; simp) (Nat.lt_of_not_le h)
    have : j ≠ id := by rintro rfl; rw [hid] at hx; cases hx
    rw [e]; simp [this]

/-- A node of the tree is replaced. -/
structure Put (w w' : World K V) (id : NodeId) (p : Ptr) : Prop where
  mono : Mono w w'
  gstep : GStep w w'
  root : w'.mem.root = w.mem.root
  heap : w'.mem.heap = w.mem.heap
  nextId : w'.mem.nextId = w.mem.nextId
  garbage : w'.mem.garbage = w.mem.garbage
  table : ∀ i, w'.mem.table i = if i = id then some p else w.mem.table i

theorem Put.ne {w w' : World K V} {id : NodeId} {p : Ptr} (h : Put w w' id p) {i : NodeId} (hne : i ≠ id) {q : Ptr} {n : Node K V} :
    w'.At i q n ↔ w.At i q n := by
  simp [World.At, h.table, h.heap, hne]

theorem Put.self {w w' : World K V} {id : NodeId} {p : Ptr} (h : Put w w' id p) {node : Node K V} (hp : w.mem.heap p = some node) {q : Ptr}
    {n : Node K V} : w'.At id q n ↔ q = p ∧ n = node := by
  simp only [World.At, h.table, h.heap, if_true, Option.some.injEq]
  constructor
  · rintro ⟨rfl, h2⟩; exact ⟨rfl, Option.some.inj (h2.symm.trans hp)⟩
  · rintro ⟨rfl, rfl⟩; exact ⟨rfl, hp⟩

theorem tw_replace (hi : Inv w) {id : NodeId} {x : Option K × Nat} (hx : w.info id = some x) (hd : ¬ w.dead id) {o n : Ptr} (ht : w.mem.table id = some o)
    {Q : Bool → World K V → Prop} (H : ∀ w', Inv w' → Put w w' id n → Q true w') : tw t (replace id n o) Q w := by
  obtain ⟨h1, h2, _⟩ := hi.ids id x hx
  unfold replace
  rw [if_neg (by intro h; rcases h with h | h; exact h1 h; exact absurd h2 (Nat.not_lt.mpr h))]
  refine ⟨fun _ w' e g i => H w' i ⟨g.1, g.2.2.2, by rw [e], by rw [e], by rw [e], by rw [e], fun j => by rw [e]⟩, fun h => absurd ht h, seen_live hx hd⟩

theorem tw_installRoot (hi : Inv w) {o n : NodeId} (ho : w.mem.root = o) {Q : Bool → World K V → Prop}
    (H : ∀ w', Inv w' → Mono w w' → GStep w w' → w'.mem = { w.mem with root := n } → Q true w') : tw t (installRoot o n) Q w :=
  ⟨fun _ w' e g i => H w' i g.1 g.2.2.2 e, fun h => absurd ho h⟩

/-- Only a merge record takes a node out of the tree. -/
theorem Put.dead {w w' : World K V} {id : NodeId} {p : Ptr} (h : Put w w' id p) {node : Node K V}
    (hp : w.mem.heap p = some node) (hm : node.merged = none) : w'.dead = w.dead := by
  funext i
  apply propext
  refine ⟨fun hd => ?_, h.mono.dead i⟩
  rcases h.gstep.dead i hd with e | ⟨q, z, p', n, k, h1, h2, h3, h4⟩
  · exact e
  · by_cases hq : q = id
    · subst hq
      obtain ⟨rfl, rfl⟩ := (h.self hp).mp h2
      rw [hm] at h3; cases h3
    · exact absurd ((h.ne hq).mp h2) h4

/-- Replacing a node without moving its upper end. -/
theorem Put.same {w w' : World K V} {id : NodeId} {p o : Ptr} (h : Put w w' id p) (hi : Inv w) (hi' : Inv w') {x : Option K × Nat} {old node : Node K V}
    (hx : w.info id = some x) (ha : w.At id o old) (hp : w.mem.heap p = some node) (hh : node.high = old.high) (hm : node.merged = none) :
    w'.info = w.info ∧ w'.dead = w.dead := by
  constructor
  · funext i
    cases hx' : w'.info i with
    | none =>
      cases hy : w.info i with
      | none => rfl
      | some y => rw [h.mono.info _ _ hy] at hx'; cases hx'
    | some y =>
      rcases h.gstep.info i y hx' with e | ⟨h1, h2⟩ | ⟨q, z, p', n, h1, h2, h3, h4⟩
      · exact e.symm
      · exact absurd (h.root.symm.trans h1) h2
      · by_cases hq : q = id
        · subst hq
          obtain ⟨rfl, rfl⟩ := (h.self hp).mp h2
          have hb := (hi.at_ok hx ha).2.high
          rw [← hh] at hb
          rw [h3] at hb
          rcases hb with hb | hb
          · exact absurd hb (hi'.ids _ _ hx').1
          · exact (hx'.symm.trans (h.mono.info _ _ hb)).trans hb.symm
        · exact absurd ((h.ne hq).mp h2) h4
  · exact h.dead hp hm

end Tree
end BwTree
