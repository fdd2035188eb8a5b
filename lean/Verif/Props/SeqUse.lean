import Verif.Proofs.SeqRun
import Verif.Props.TreeUse
import Verif.Props.SeqBack

/-!
  C44 for calls that do not overlap: no call other than stepping an iterator back looks at memory that was retired before. (With overlapping calls this is
  false, `C44_use_after_free`, and for stepping back it is false even without overlap, `C44_back_use_after_free`.)
-/

set_option Elab.async false

namespace BwTree
namespace Tree

open Prog
open Iterator (Exec)

set_option linter.unusedSectionVars false

variable {K V : Type} [LinearOrder K] [DecidableEq V] [Inhabited K]

/-- The record mapped at a node is not retired if it is not itself in the hands of the epoch manager. -/
theorem not_retired {w : World K V} (hi : Inv w) {id : NodeId} {x : Option K × Nat} (hx : w.info id = some x) {p : Ptr} (hp : w.mem.table id = some p)
    (hg : p ∉ w.mem.garbage) : ¬ Retired w.mem p := by
  rintro ⟨f, g, h1, h2⟩
  have top : ∀ y, w.ow p ≠ .cell y := by
    rcases hi.ow.tab id x p hx hp with h | h
    · intro y e; rw [h] at e; cases e
    · rcases hi.dl.gone id p h hp with e | ⟨u, e⟩ <;> (intro y e'; rw [e] at e'; cases e')
  obtain ⟨b1, b2⟩ := trash_anc hi.ow h1 (path_of_cells h2)
  have := anc_top top b1 .refl b2
  exact hg (this ▸ h1)

/-- What a call finds in the mapping entries it reads, if it runs after other calls have returned and no other call runs: a record that is not retired. If
the node is still part of the tree, nothing below that record is retired either; otherwise the record says that the node was removed. -/
theorem C44_sequential {c : Conf K V} (h : SeqReach c) {fuel : Nat} (hf : Ample fuel) {op : Call K V} (hop : op.forward = true) {m : Mem K V} {id : NodeId}
    {k : Option (Ptr × Node K V) → Prog K V (Ans K V)} (hs : Steps c.mem (prog fuel op) m (.load id k)) {p : Ptr} (hp : m.table id = some p) :
    ¬ Retired m p ∧ (OnLevel m id → ∀ e, Uses m p e → ¬ Retired m e) ∧ (¬ OnLevel m id → ∃ n, m.heap p = some n ∧ n.isRemove = true) := by
  obtain ⟨w, hw⟩ := h.calls
  obtain ⟨wm, rfl, hi, hlook, _⟩ := hw.looks hf hop hs
  obtain ⟨⟨x, hx⟩, hl⟩ := hlook id rfl
  have hnot : p ∉ wm.mem.garbage := by
    by_cases hd : wm.dead id
    · exact hl hd p hp
    · exact hi.not_garbage hx hd hp
  refine ⟨not_retired hi hx hp hnot, fun ho e hu => ?_, fun ho => ?_⟩
  · rintro ⟨f, g, h1, h2⟩
    obtain ⟨a1, a2⟩ := uses_anc hi ho hp hu
    exact tab_alive hi.ow a1 a2 f (List.mem_flatMap.mpr ⟨g, h1, h2⟩)
  · have hd : wm.dead id := by
      by_contra hd
      exact ho ((onLevel_iff hi).mpr ⟨x.2, ⟨x.1, hx⟩, hd⟩)
    obtain ⟨_, q, n, _, ha, hr⟩ := hi.dead id hd
    have : p = q := Option.some.inj (hp.symm.trans ha.1)
    subst this
    exact ⟨n, ha.2, hr⟩

/-- A call that runs alone, as steps of its program. -/
theorem Steps.snoc {α : Type} {m m1 m2 : Mem K V} {p p1 p2 : Prog K V α} (h : Steps m p m1 p1) (hs : p1.step m1 = some (m2, p2)) : Steps m p m2 p2 := by
  induction h with
  | refl => exact .step hs (.refl _ _)
  | step h1 _ ih => exact .step h1 (ih hs)

theorem alone_steps {σ : Nat → Conf K V} {n : Nat} (hx : Exec σ n) {t : Tid} (hb : Busy σ t 0 n) (ha : ∀ i, i ≤ n → ∀ u, u ≠ t → (σ i).thr u = none)
    {q : Prog K V (Ans K V)} (hc : (σ 1).thr t = some q) :
    ∀ i, 1 ≤ i → i ≤ n → ∃ p, (σ i).thr t = some p ∧ Steps (σ 0).mem q (σ i).mem p := by
  have h0 : ∀ u, (σ 0).thr u = none := fun u => by
    by_cases hu : u = t
    · rw [hu]; exact hb.1
    · exact ha 0 (Nat.zero_le _) u hu
  intro i hi
  induction i with
  | zero => cases hi
  | succ i ih =>
    intro hn
    have hs := hx.step i (by omega)
    have hbusy := hb.2.2 (i + 1) (by omega) hn
    have halone := ha (i + 1) hn
    rcases Nat.eq_zero_or_pos i with rfl | hpos
    · refine ⟨q, hc, ?_⟩
      have : (σ (0 + 1)).mem = (σ 0).mem := by
        generalize σ (0 + 1) = c1 at hs
        cases hs with
        | call => rfl
        | step u p _ _ hu _ => rw [h0 u] at hu; cases hu
        | ret u p hu => rfl
      rw [this]
      exact .refl _ _
    · obtain ⟨p, h1, h2⟩ := ih hpos (by omega)
      generalize σ (i + 1) = c1 at hs hbusy halone
      have hai := ha i (by omega)
      cases hs with
      | call u fuel op hu =>
        by_cases hut : u = t
        · subst hut; rw [h1] at hu; cases hu
        · have := halone u hut
          simp [setThr] at this
      | step u p1 p2 m' hu hstep =>
        by_cases hut : u = t
        · subst hut
          rw [h1] at hu
          cases hu
          exact ⟨p2, by simp [setThr], h2.snoc hstep⟩
        · rw [hai u hut] at hu; cases hu
      | ret u a hu =>
        by_cases hut : u = t
        · subst hut
          simp [setThr] at hbusy
        · rw [hai u hut] at hu; cases hu

/-- C44 without overlap: when a call is about to look at a node, and it runs alone after calls that did not overlap either, the collector has not destroyed
what it will look at. (`σ` is any execution that begins when those calls have returned; `op` is any call except stepping an iterator back.) -/
theorem C44_no_overlap {σ : Nat → Conf K V} {n : Nat} (h : SeqReach (σ 0)) (hx : Exec σ n) {F : Nat → Ptr → Prop} (hF : Collector σ F) {t : Tid}
    (hb : Busy σ t 0 n) (ha : ∀ i, i ≤ n → ∀ u, u ≠ t → (σ i).thr u = none) {fuel : Nat} (hf : Ample fuel) {op : Call K V} (hop : op.forward = true)
    (hc : (σ 1).thr t = some (prog fuel op)) {id : NodeId} {k : Option (Ptr × Node K V) → Prog K V (Ans K V)} (hl : (σ n).thr t = some (.load id k))
    {p : Ptr} (hp : (σ n).mem.table id = some p) : ¬ F n p ∧ (OnLevel (σ n).mem id → ∀ e, Uses (σ n).mem p e → ¬ F n e) := by
  obtain ⟨q, h1, h2⟩ := alone_steps hx hb ha hc n hb.2.1 (Nat.le_refl n)
  rw [hl] at h1
  cases h1
  obtain ⟨g1, g2, _⟩ := C44_sequential h hf hop h2 hp
  have freed : ∀ e, F n e → Retired (σ n).mem e := by
    intro e he
    obtain ⟨r, hr, h3, _⟩ := hF n e he
    exact retired_later (exec_reach hx (by omega)) (exec_later hx hr (Nat.le_refl n)) h3
  exact ⟨fun he => g1 (freed p he), fun ho e hu he => g2 ho e hu (freed e he)⟩

/-- Is the program about to look at node `id`, which is marked removed, while something has been retired? -/
def looksAtRemoved (id : NodeId) (r : Mem Nat Nat × Prog Nat Nat (Ans Nat Nat)) : Bool :=
  (match r.2 with
    | .load i _ => decide (i = id)
    | _ => false) &&
  (match r.1.table id with
    | some p => ((r.1.heap p).map fun n => n.isRemove).getD false
    | none => false) && !r.1.garbage.isEmpty

/-- A tree with leaves from 0, 64 and 128; 32 of the 64 pairs of the second were deleted. -/
def beforeLast : Option (Conf Nat Nat) := seqRun 1000 initConf (insDel 200 64 96)

theorem beforeLast_looks :
    (beforeLast.map fun c => looksAtRemoved 3 (runN 22 c.mem (prog (3 * TABLE_SIZE + 1) (.api (.delete 96 96))))) = some true := by decide +kernel

/-- The next delete removes the leaf, merges it, deletes its separator and then looks at it once more to retire it. -/
theorem seq_looks : ∃ (c : Conf Nat Nat) (m : Mem Nat Nat) (k : Option (Ptr × Node Nat Nat) → Prog Nat Nat (Ans Nat Nat)) (p : Ptr) (n : Node Nat Nat),
    SeqReach c ∧ Ample (3 * TABLE_SIZE + 1) ∧ Steps c.mem (prog (3 * TABLE_SIZE + 1) (.api (.delete 96 96))) m (.load 3 k) ∧ m.table 3 = some p ∧
    m.heap p = some n ∧ n.isRemove = true ∧ ¬ Retired m p ∧ ∃ e, Retired m e := by
  have h := beforeLast_looks
  cases hc : beforeLast with
  | none => rw [hc] at h; cases h
  | some c =>
    rw [hc] at h
    have h : looksAtRemoved 3 (runN 22 c.mem (prog (3 * TABLE_SIZE + 1) (.api (.delete 96 96)))) = true := Option.some.inj h
    have hs := runN_steps 22 c.mem (prog (3 * TABLE_SIZE + 1) (.api (.delete 96 96)))
    have hr : SeqReach c := seqRun_reach .init insDel_forward hc
    generalize runN 22 c.mem (prog (3 * TABLE_SIZE + 1) (.api (.delete 96 96))) = r at h hs
    obtain ⟨m, q⟩ := r
    simp only [looksAtRemoved, Bool.and_eq_true] at h
    obtain ⟨⟨h1, h2⟩, h3⟩ := h
    split at h1
    · rename_i i k
      simp only [decide_eq_true_eq] at h1
      subst h1
      split at h2
      · rename_i p hp
        cases hh : m.heap p with
        | none => rw [hh] at h2; cases h2
        | some n =>
          rw [hh] at h2
          refine ⟨c, m, k, p, n, hr, Nat.lt_succ_self _, hs, hp, hh, h2, (C44_sequential hr (Nat.lt_succ_self _) rfl hs hp).1, ?_⟩
          cases hg : m.garbage with
          | nil => rw [hg] at h3; cases h3
          | cons g l => exact ⟨g, 1, g, by rw [hg]; exact List.mem_cons_self, List.mem_cons_self⟩
      · cases h2
    · cases h1

end Tree
end BwTree
