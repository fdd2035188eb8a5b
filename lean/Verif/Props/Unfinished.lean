import Verif.Props.Stuck

/-!
  The destructor can fail: a removal can be left unfinished when all calls have returned, because taking the abort record off a parent restores the address
  another thread saw before.
-/

set_option Elab.async false

namespace BwTree
namespace Tree

open Prog

namespace Long

def delFront (i : Nat) : Call Nat Nat := .api (.delete (4032 + i) (4032 + i))

/-- Leaf 65 is marked removed but was not merged into leaf 64; node 1 knows leaf 133. -/
def marked : Rows Nat Nat where
  root := 132
  nextId := 134
  nextPtr := 11652
  rows := rootRow :: (1, 11601, .inner (.ins (4099, 133) (4160, 67) 65 (.del (sep 66) (sep 65) (sep 67) 64 (.base (0, 2) (0, INVALID) 0 (seps 64 ++ kids 5))))) ::
    firstLeaf :: fullLeaf 64 ::
    (65, 11648, .leaf (.remove 65 (.base (4032, NOT_INVALID) (4099, 133) (own 4071 19 ++ [(4090, 4090), (4090, 7)] ++ own 4091 5 ++ late 4096 3)))) :: fullLeaves 3 61

/-- Thread 0 splits leaf 65, tries again and is interrupted before it posts the separator of leaf 133. Thread 1, which has an old snapshot of node 1, skips
the split, returns, and makes 39 deletes in leaf 65; its next call, an insert into leaf 133, finds leaf 65 too small, marks it removed and is interrupted.
Thread 0 posts the separator and returns. Thread 1 now finds leaf 133 without passing leaf 65, and returns. -/
def forget : Bool :=
  match callsP insLate 39 39 joined.mem with
  | none => false
  | some s =>
    match runP 20 (runP 17 s (prog 100 (insLate 39))).1 waiting with
    | (s1, .ret _) => match callsP delFront 39 39 s1 with
      | none => false
      | some s2 => match runP 100 (runP 13 s2 (prog 100 (.api (.insert 4139 7)))).1 (runP 17 s (prog 100 (insLate 39))).2 with
        | (s3, .ret _) => match runP 100 s3 (runP 13 s2 (prog 100 (.api (.insert 4139 7)))).2 with
          | (s4, .ret _) => marked.holds s4
          | _ => false
        | _ => false
    | _ => false

theorem forget_true : forget = true := by decide +kernel

theorem reach_marked : ∃ c : Conf Nat Nat, Reach c ∧ (∀ t, c.thr t = none) ∧ HasRows marked c.mem := by
  have hp := forget_true
  unfold forget at hp
  split at hp
  · cases hp
  rename_i s hs
  obtain ⟨c4, h4, i4, k4⟩ := reach_full hs
  obtain ⟨c5, h5, i5, k5, _⟩ := start (t := 0) h4 (by rw [i4]; rfl) k4 17 100 (insLate 39)
  obtain ⟨c6, h6, i6, k6, _⟩ := resume (t := 1) h5 (p := waiting) (by rw [i5, i4]; rfl) k5 20
  split at hp
  case h_2 => cases hp
  rename_i s1 a1 e1
  rw [e1] at i6 k6
  obtain ⟨c7, h7, i7, m7⟩ := back (t := 1) h6 (a := a1) (by rw [i6]; rfl)
  rw [← m7] at k6
  split at hp
  · cases hp
  rename_i s2 hs2
  obtain ⟨c8, o8, k8⟩ := callsP_onward (t := 1) (show c7.thr 1 = none by rw [i7]; rfl) k6 hs2
  obtain ⟨c9, h9, i9, k9, _⟩ := start (t := 1) (o8.reach h7) (by rw [o8.thr, i7]; rfl) k8 13 100 (.api (.insert 4139 7))
  obtain ⟨c10, h10, i10, k10, _⟩ := resume (t := 0) h9 (p := (runP 17 s (prog 100 (insLate 39))).2) (by rw [i9, o8.thr, i7, i6, i5]; rfl) k9 100
  split at hp
  case h_2 => cases hp
  rename_i s3 a3 e3
  rw [e3] at i10 k10
  obtain ⟨c11, h11, i11, m11⟩ := back (t := 0) h10 (a := a3) (by rw [i10]; rfl)
  rw [← m11] at k10
  obtain ⟨c12, h12, i12, k12, _⟩ := resume (t := 1) h11 (p := (runP 13 s2 (prog 100 (.api (.insert 4139 7)))).2) (by rw [i11, i10, i9]; rfl) k10 100
  split at hp
  case h_2 => cases hp
  rename_i s4 a4 e4
  rw [e4] at i12 k12
  obtain ⟨c13, h13, i13, m13⟩ := back (t := 1) h12 (a := a4) (by rw [i12]; rfl)
  rw [← m13] at k12
  refine ⟨c13, h13, fun t => ?_, Rows.holds_spec hp k12⟩
  rw [i13, i12, i11, i10, i9, o8.thr, i7, i6, i5, i4]
  simp only [setThr]
  repeat' split
  all_goals first | rfl | (simp_all; done)

theorem marked_leaves : ∀ j < 62, fullLeaf (3 + j) ∈ marked.rows := by decide +kernel

theorem marked_first : firstLeaf ∈ marked.rows := by decide +kernel

theorem marked_level {m : Mem Nat Nat} (h : HasRows marked m) : OnLevel m 65 ∧ Attached m 65 ∧ m.table 65 = some 11648 ∧
    ∃ c, m.heap 11648 = some (.leaf (.remove 65 c)) := by
  have n132 := row_node h (x := rootRow) List.mem_cons_self
  have n1 := row_node h (x := (1, 11601, _)) (List.mem_cons_of_mem _ List.mem_cons_self)
  have l0 : Leftmost m 132 := by have := Leftmost.root (m := m); rwa [h.root] at this
  have l1 : Leftmost m 1 := .down l0 n132 (by decide +kernel)
  have l2 : Leftmost m 2 := .down l1 n1 (by decide +kernel)
  have o3 : OnLevel m 3 := .right (.first l2) (row_node h marked_first) (by decide)
  have o : ∀ j : Nat, j ≤ 62 → OnLevel m (3 + j) := by
    intro j
    induction j with
    | zero => exact fun _ => o3
    | succ j ih =>
      intro hj
      exact .right (ih (by omega)) (row_node h (marked_leaves j (by omega))) (by show (3 + j + 1 : Nat) ≠ 0; omega)
  have a0 : Attached m 132 := by have := Attached.root (m := m); rwa [h.root] at this
  have a1 : Attached m 1 := .child a0 n132 rfl (by decide +kernel)
  have a2 : Attached m 65 := .child a1 n1 rfl (by decide +kernel)
  obtain ⟨h1, h2⟩ := h.rows (65, 11648, _) (by right; right; right; right; exact List.mem_cons_self)
  exact ⟨o 62 (Nat.le_refl _), a2, h1, _, h2⟩

end Long

/-- C40 fails in a second way: in some state that is reached when all calls have returned, a leaf is marked removed but was never merged, and the destructor
stops at the assertion that such records do not exist (2990). -/
theorem C40_unfinished_removal : ∃ c : Conf Nat Nat, Reach c ∧ (∀ t, c.thr t = none) ∧
    (∃ id p l, OnLevel c.mem id ∧ c.mem.table id = some p ∧ c.mem.heap p = some (.leaf (.remove id l))) ∧
    ∀ fuel, c.mem.depth ≤ fuel → destroy c.mem fuel = .error .unknownType := by
  obtain ⟨c, hr, hq, hc⟩ := Long.reach_marked
  obtain ⟨hol, ha, ht, l, hh⟩ := Long.marked_level hc
  refine ⟨c, hr, hq, ⟨65, 11648, l, hol, ht, hh⟩, fun fuel hf => ?_⟩
  have hnd := C40_no_double_free hr hq hf
  cases hd : destroy c.mem fuel with
  | error e => rw [hd] at hnd; rw [hnd.1]
  | ok s =>
    exfalso
    obtain ⟨w, hw, hm, hi, hno, hlk⟩ := quiet_world hr hq
    rw [← hm] at hf hd hol ha ht hh
    have hg := destroy_good hi hno hlk hf
    rw [hd] at hg
    obtain ⟨_, hrel, hroot⟩ := hg
    obtain ⟨⟨x, hx⟩, hnone⟩ := attached_cleared hi hlk hno hrel hroot ha
    obtain ⟨_, _, hdd⟩ := onLevel_live hi hol
    have hdl : ¬ w.del 65 := fun hd => hdd (hi.dl.dead 65 hd)
    have hst := clear_live hi hx hdl
    rw [ht] at hst
    have h1 := ((freed_all hi (clearGarbage_inv hi hno) hrel hx hst hnone .refl).2 _ hh).1
    cases h1

end Tree
end BwTree
