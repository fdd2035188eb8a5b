import Verif.Props.SeqTotal
import Verif.Props.TreeDestroy

/-!
  C43, histories of calls that do not overlap: the destructor frees everything, each piece once.
-/

namespace BwTree
namespace Tree

open Prog

set_option linter.unusedSectionVars false

variable {K V : Type} [LinearOrder K] [DecidableEq V] [Inhabited K] {w w' : World K V}

/-- The nodes of a level hang below the root if those of the next level up do. -/
theorem attached_level (hi : Inv w) (hs : SInv w) (hn : NoRm w) {n : Nat} (hup : ∀ q, Live w (n + 1) q → Attached w.mem q) {y : NodeId}
    (hy : Live w n y) : Attached w.mem y := by
  have hpar : ∀ {z}, HasPar w n z → Attached w.mem z := by
    rintro z ⟨q, node, d, he⟩
    obtain ⟨p, ha⟩ := d.2
    refine .child (hup q d.1) (node_of_at ha) ?_ ?_
    · cases hr : node.isRemove with
      | false => rfl
      | true => exact absurd ⟨node, d, hr⟩ (hn _ _)
    · cases node with
      | leaf c => cases he
      | inner c => exact he
  rcases hs.par n y hy with rfl | h | ⟨x, node, sib, d, hsp, d2, hb, _, _⟩
  · exact .root
  · exact hpar h
  · have hx : Attached w.mem x := by
      rcases hs.par n x d.1 with rfl | h | ⟨x', node', sib', d', hsp', d2', hb', _, _⟩
      · exact .root
      · exact hpar h
      · obtain ⟨_, rfl⟩ := d.unique d2'
        rw [Node.splits_of_base hb'] at hsp
        cases hsp
    obtain ⟨p, ha⟩ := d.2
    refine .sibling (fuel := 1) hx ha.1 ha.2 ?_ List.mem_cons_self ha.2 ?_
    · cases hr : node.isRemove with
      | false => rfl
      | true => exact absurd ⟨node, d, hr⟩ (hn _ _)
    · unfold Node.splits at hsp
      split at hsp
      · cases hsp; exact Or.inl ⟨_, _, _, rfl⟩
      · cases hsp
        exact Or.inr ⟨_, _, _, rfl⟩
      · cases hsp

theorem attached_all (h : Rest w) : ∀ {n : Nat} {y : NodeId}, Live w n y → Attached w.mem y := by
  obtain ⟨hi, hs, hn⟩ := h
  obtain ⟨r, _, hr⟩ := hi.root
  have : ∀ d n y, r + 1 < n + d → Live w n y → Attached w.mem y := by
    intro d
    induction d with
    | zero =>
      intro n y h hl
      obtain ⟨l, e⟩ := hl.1
      have := hr _ _ _ e
      omega
    | succ d ih =>
      intro n y h hl
      exact attached_level hi hs hn (fun q hq => ih (n + 1) q (by omega) hq) hl
  intro n y hl
  exact this (r + 2) n y (by omega) hl

theorem Seen.visible {c : Conf K V} {e : Ptr} (h : Seen e c) : ∃ w, Calls c w ∧ SeqReach c ∧ ¬ (w.ow e).Hidden := by
  induction h with
  | now h he =>
    obtain ⟨w, hw⟩ := h.calls
    rw [← hw.mem] at he
    exact ⟨w, hw, h, partOf_visible hw.rest.1 he⟩
  | during t h hf hop hm he hs =>
    obtain ⟨w, hw⟩ := h.calls
    rcases hw.run t hf hop with ⟨w1, f, h1, _⟩ | ⟨a, w1, h1, h2, _, _, h4, _⟩
    · have := (h1.det hs (fun _ => rfl) (fun _ => rfl)).2
      cases this
    · obtain ⟨e1, e2⟩ := h1.det hs (fun _ => rfl) (fun _ => rfl)
      cases e2
      rw [e1] at h2
      obtain ⟨wm, g1, g2, g3⟩ := h4 _ _ hm
      rw [← g1] at he
      exact ⟨w1, h2, .call t h hf hop hs, g3.gh.vis e (partOf_visible g2 he)⟩
  | later t _ hf hop hs ih =>
    obtain ⟨w, hw, h, hv⟩ := ih
    rcases hw.run t hf hop with ⟨w1, f, h1, _⟩ | ⟨a, w1, h1, h2, _, h3, _⟩
    · have := (h1.det hs (fun _ => rfl) (fun _ => rfl)).2
      cases this
    · obtain ⟨e1, e2⟩ := h1.det hs (fun _ => rfl) (fun _ => rfl)
      cases e2
      rw [e1] at h2
      exact ⟨w1, h2, .call t h hf hop hs, h3.gh.vis e hv⟩

theorem Calls.del_gone {c : Conf K V} (h : Calls c w) {p : Ptr} {id : NodeId} (ho : w.ow p = .tab id) : ¬ w.dead id := by
  intro hd
  obtain ⟨h1, x, hx⟩ := h.rest.1.ow.btab p id ho
  rcases h.rest.1.dl.gone id p (h.rest.2.1.gone id x hx hd) h1 with h2 | ⟨t, h2⟩
  · rw [ho] at h2; cases h2
  · rw [ho] at h2; cases h2

/-- After calls that do not overlap the destructor runs to its end, frees nothing twice, and frees everything that was part of the tree at
any moment. -/
theorem C43_destroy {c : Conf K V} (h : SeqReach c) {fuel : Nat} (hf : c.mem.depth ≤ fuel) :
    ∃ s, destroy c.mem fuel = .ok s ∧ s.freed.Nodup ∧ (∀ e ∈ s.freed, c.mem.heap e ≠ none) ∧ ∀ e, Seen e c → s.freed.count e = 1 := by
  obtain ⟨w, hw⟩ := h.calls
  have hnd := C40_no_double_free h.reach hw.thr hf
  cases hd : destroy c.mem fuel with
  | error x =>
    exfalso
    have hlk : ∀ id, w.lock id = none := fun id => by
      cases hl : w.lock id with
      | none => rfl
      | some t => exact absurd hl ((hw.clear t).2 id)
    have hg := destroy_good hw.rest.1 (fun p t => (hw.clear t).1 p) hlk (f := fuel) (by rw [hw.mem]; exact hf)
    rw [hw.mem, hd] at hg
    obtain ⟨_, id, y, p, n, hx, ha, hr, ho⟩ := hg
    exact hw.rest.2.2 y.2 id ⟨n, ⟨⟨⟨y.1, hx⟩, hw.del_gone ho⟩, p, ha⟩, hr⟩
  | ok s =>
    rw [hd] at hnd
    refine ⟨s, rfl, hnd.1, hnd.2, fun e he => List.count_eq_one_of_mem hnd.1 (C40_frees_partial h.reach hw.thr hf hd ?_)⟩
    obtain ⟨w1, hw1, _, hv⟩ := he.visible
    rw [← hw1.mem]
    rcases classify hw1.rest.1 hv with ⟨id, p, h1, h2, h3⟩ | h1 | ⟨_, id, ho, hdd⟩ | ⟨t, p, f, h1, _⟩
    · obtain ⟨n, hl⟩ := onLevel_live hw1.rest.1 h1
      exact Or.inr ⟨id, p, h1, attached_all hw1.rest hl, h2, h3⟩
    · exact Or.inl h1
    · exact absurd hdd (hw1.del_gone ho)
    · exact absurd h1 ((hw1.clear t).1 p)

theorem seqRun_seen {n : Nat} {e : Ptr} : ∀ {l : List (Call K V)} {c c' : Conf K V}, Seen e c → (∀ op ∈ l, op.forward = true) →
    seqRun n c l = some c' → Seen e c'
  | [], c, c', h, _, e => by cases e; exact h
  | op :: l, c, c', h, hop, e => by
    unfold seqRun at e
    have hs := runN_steps n c.mem (prog (3 * TABLE_SIZE + 1) op)
    split at e
    · rename_i m a hx
      rw [hx] at hs
      exact seqRun_seen (.later 0 h (Nat.lt_succ_self _) (hop op List.mem_cons_self) hs) (fun o ho => hop o (List.mem_cons_of_mem _ ho)) e
    · cases e

/-- Inserts of (0, 0) … (128, 128) and deletes of (64, 64) … (109, 109): the leaf is split and the new leaf merged again. -/
def merge175 : List (Call Nat Nat) := ins129 ++ (List.range 46).map fun i => .api (.delete (64 + i) (64 + i))

/-- The first base node of the leaf was part of the tree, and is retired after the split and the merge. -/
example : ∃ c : Conf Nat Nat, SeqReach c ∧ Seen 1 c ∧ Retired c.mem 1 := by
  have h : ((seqRun 1000 initConf merge175).map fun c => c.mem.garbage.any fun g => (c.mem.cells 100 g).contains 1) = some true := by decide +kernel
  cases hc : seqRun 1000 initConf merge175 with
  | none => rw [hc] at h; cases h
  | some c =>
    rw [hc] at h
    injection h with h
    have hop : ∀ op ∈ merge175, op.forward = true := by
      intro op ho
      simp only [merge175, ins129, List.mem_append, List.mem_map] at ho
      rcases ho with ⟨i, _, rfl⟩ | ⟨i, _, rfl⟩ <;> rfl
    obtain ⟨g, h1, h2⟩ := List.any_eq_true.mp h
    refine ⟨c, seqRun_reach .init hop hc, seqRun_seen (.now .init ?_) hop hc, 100, g, h1, List.contains_iff_mem.mp h2⟩
    exact ⟨2, 1, .first (.down (n := .inner (.base _ _ _ _)) .root rfl rfl), rfl, .chain (fuel := 1) List.mem_cons_self⟩

end Tree
end BwTree
