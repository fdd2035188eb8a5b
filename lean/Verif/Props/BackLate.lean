import Verif.Props.Reclaim

/-!
  C44 fails for MoveBackByOne in a further way: it reads the leaf it found once more (9323) after it has left the epoch (9305).
-/

set_option Elab.async false

namespace BwTree
namespace Tree

open Prog

theorem seqRun_calls {K V : Type} [LinearOrder K] [DecidableEq V] [Inhabited K] {n : Nat} (t : Tid) : ∀ {l : List (Call K V)} {c c' : Conf K V},
    seqRun n c l = some c' → ∀ {d : Conf K V}, d.mem = c.mem → ∃ d', CallsOf t d d' ∧ d'.mem = c'.mem
  | [], c, c', h, d, e => by cases h; exact ⟨d, .refl d, e⟩
  | op :: l, c, c', h, d, e => by
    unfold seqRun at h
    have hs := runN_steps n c.mem (prog (3 * TABLE_SIZE + 1) op)
    split at h
    · rename_i m a hx
      rw [hx, ← e] at hs
      obtain ⟨d', h1, h2⟩ := seqRun_calls t h (d := ⟨m, d.thr, d.hist ++ [.call t op, .ret t a]⟩) rfl
      exact ⟨d', (CallsOf.step (.refl d) hs).trans h1, h2⟩
    · cases h

/-- After calls of thread `t` only, the history has grown by events of `t`. -/
theorem CallsOf.hist {t : Tid} {c c' : Conf Nat Nat} (h : CallsOf t c c') : ∃ l, c'.hist = c.hist ++ l ∧ ∀ e ∈ l, e.tid = t := by
  induction h with
  | refl => exact ⟨[], (List.append_nil _).symm, fun _ h => by cases h⟩
  | step _ _ ih =>
    rename_i op m a _ _
    obtain ⟨l, h1, h2⟩ := ih
    refine ⟨l ++ [.call t op, .ret t a], by show _ ++ _ = _; rw [h1, List.append_assoc], fun e he => ?_⟩
    rcases List.mem_append.mp he with he | he
    · exact h2 e he
    · rcases List.mem_cons.mp he with rfl | he
      · rfl
      · rw [List.mem_singleton.mp he]; rfl

/-- Leaf 2 (below 64) has become empty, leaf 3 (from 64) is full; no record lies on leaf 2. -/
def emptied : Option (Conf Nat Nat) := seqRun 1000 initConf (insDel 129 0 64 ++ [.page 0])

def emptyLeaf : LeafChain Nat Nat := .base (default, INVALID) (64, 3) []

/-- Leaf 3 and the root. -/
def leaf3 : LeafChain Nat Nat := .ins 128 128 64 false (.base (64, NOT_INVALID) (default, INVALID) ((List.range 64).map fun i => (64 + i, 64 + i)))

def rootOf2 : InnerChain Nat := .ins (64, 3) (default, INVALID) 1 (.base (default, 2) (default, INVALID) 0 [(default, 2)])

/-- The records of `emptied`. -/
def emptiedRows : Rows Nat Nat where
  root := 1
  nextId := 4
  nextPtr := 223
  rows := [(1, 148, .inner rootOf2), (2, 222, .leaf emptyLeaf), (3, 150, .leaf leaf3)]

theorem emptied_rows : (emptied.map fun c => inMem emptiedRows c.mem && stepsBack c 64) = some true := by decide +kernel

/-- (10, 999) is inserted and deleted again, eight times. -/
def refill : List (Call Nat Nat) := (Long.togs 999 ++ Long.togs 999).map (togOp 10)

/-- The records afterwards that later calls leave as they are, and leaf 3. -/
def refilledRest : Rows Nat Nat where
  root := 1
  nextId := 4
  nextPtr := 240
  rows := [(1, 148, .inner rootOf2)]

def refilled : Rows Nat Nat := { refilledRest with rows := (3, 150, .leaf leaf3) :: refilledRest.rows }

/-- Meanwhile record 222 was retired. -/
theorem emptied_refill : (emptied.bind fun c => (seqRun 1000 c refill).map fun c => inMem refilled c.mem && c.mem.garbage.contains 230 &&
    (c.mem.cells 20 230).contains 222) = some true := by decide +kernel

/-- Leaf 3 after (70, 999) was inserted and deleted again, four times. -/
def leaf3' : LeafChain Nat Nat := .del 70 999 7 true (.base (64, NOT_INVALID) (default, INVALID)
  ((List.range 7).map (fun i => (64 + i, 64 + i)) ++ [(70, 999)] ++ (List.range 58).map fun i => (71 + i, 71 + i)))

theorem togs3_first : opsEffect 70 (Long.togs 999) leaf3 = some (1, leaf3') := by decide +kernel

theorem togs3_again : opsEffect 70 (Long.togs 999) leaf3' = some (1, leaf3') := by decide +kernel

theorem refilled_routes : Routes refilledRest 3 70 := by
  intro s p c h
  have h0 : look s s.root = some (148, .inner rootOf2) := by
    rw [h.root]
    exact h.look (x := (1, 148, .inner rootOf2)) List.mem_cons_self (by decide)
  exact (walkRoot_at h0 (by decide +kernel)).trans (walk_child (by decide +kernel) (h.lookLeaf (by decide)))

/-- The search for the page left of 64 ends at record 222. -/
def endsAt222 : Bool :=
  match readP 10 emptiedRows.mem (traverseBI (3 * TABLE_SIZE + 1) 64 (3 * TABLE_SIZE + 1)) with
  | .ret ctx => decide (ctx.cur = ⟨2, 222, .leaf emptyLeaf⟩)
  | _ => false

theorem ends_at_222 : endsAt222 = true := by decide +kernel

theorem back_finds {m : Mem Nat Nat} (hm : HasRows emptiedRows m) : ∃ ctx : Ctx Nat Nat,
    Steps m (traverseBI (3 * TABLE_SIZE + 1) 64 (3 * TABLE_SIZE + 1)) m (.ret ctx) ∧ ctx.cur = ⟨2, 222, .leaf emptyLeaf⟩ := by
  have h1 := readP_steps (r := emptiedRows) (x := 223) hm 10 (traverseBI (3 * TABLE_SIZE + 1) 64 (3 * TABLE_SIZE + 1))
  have h2 := ends_at_222
  unfold endsAt222 at h2
  split at h2
  · rename_i ctx e
    rw [e] at h1
    exact ⟨ctx, h1, of_decide_eq_true h2⟩
  · cases h2

/-- What the call returns. -/
def emptyPage : Ans Nat Nat := .page (default, INVALID) (64, 3) []

theorem back_returns {m : Mem Nat Nat} (hm : HasRows emptiedRows m) : Steps m (prog (3 * TABLE_SIZE + 1) (.back 64)) m (.ret emptyPage) := by
  obtain ⟨ctx, h1, h2⟩ := back_finds hm
  have h3 : Steps m (prog (3 * TABLE_SIZE + 1) (.back 64)) m
      (if ctx.cur.node.low.2 = INVALID ∨ ctx.cur.node.low.1 < 64 then readPage ctx.cur.node else .fail .backLow) := h1.seq _
  rw [h2] at h3
  exact h3

/-- With this page, and 64 as the low key of the old one, MoveBackByOne reads `node_p` again: lower_bound is at the beginning (9313-9323). -/
theorem empty_reads : lowerBound ([] : List (Nat × Nat)) 0 0 64 = some 0 := by decide

/-- One thread makes the call. -/
theorem back_call {n : Nat} {s : Sys Nat Nat} (hr : SysReach n s) (hi : ∀ t, s.gc.pc t = .idle) (hq : ∀ t, s.tree.thr t = none) (hm : HasRows emptiedRows s.tree.mem)
    {v : Tid} (hv : v < n) : ∃ s1, SysPath n (Solo v) s s1 ∧ s1.tree = ⟨s.tree.mem, s.tree.thr, s.tree.hist ++ [.call v (.back 64), .ret v emptyPage]⟩ ∧
      ∀ t, s1.gc.pc t = .idle :=
  solo_calls hv (CallsOf.step (.refl s.tree) (back_returns hm)) rfl hr hi hq

/-- Record 222 is the record of the leftmost leaf. -/
theorem not_freed {n : Nat} {s : Sys Nat Nat} (hr : SysReach n s) (hm : HasRows emptiedRows s.tree.mem) : ¬ Freed s 222 := fun h => by
  obtain ⟨p, _, h1, _, h2, _⟩ := C37_linked_not_retired_partial hr.tree .first
  have h3 := (hm.rows (2, 222, .leaf emptyLeaf) (by right; exact List.mem_cons_self)).1
  rw [show p = 222 from Option.some.inj (h1.symm.trans h3)] at h2
  exact h2 (C37_epochs hr h).1

/-- From any state in which the calls of all threads have returned and the tree is that of `emptied`, calls of threads 2 and some `t` make the collector destroy
record 222. -/
theorem destroys222 {n : Nat} {s : Sys Nat Nat} (hn : 2 < n) (hr : SysReach n s) (hi : ∀ t, s.gc.pc t = .idle) (hq : ∀ t, s.tree.thr t = none) (he : s.gc.epoch = 0)
    {c : Conf Nat Nat} (hc : emptied = some c) (hm : s.tree.mem = c.mem) : ∃ (t : Nat) (s2 : Sys Nat Nat), SysLater n s s2 ∧
      (∃ l, s2.tree.hist = s.tree.hist ++ l ∧ ∀ e ∈ l, e.tid = 2 ∨ e.tid = t) ∧ (∀ t, s2.tree.thr t = none) ∧ Freed s2 222 := by
  have h := emptied_refill
  rw [hc] at h
  simp only [Option.bind_some] at h
  cases hd : seqRun 1000 c refill with
  | none => rw [hd] at h; cases h
  | some d =>
    rw [hd] at h
    have h := Option.some.inj h
    simp only [Bool.and_eq_true] at h
    obtain ⟨⟨h1, h2⟩, h3⟩ := h
    obtain ⟨d', a1, a2⟩ := seqRun_calls 2 hd hm
    obtain ⟨s1, b1, b2, b3⟩ := solo_calls hn a1 rfl hr hi hq
    have r1 := b1.reach hr
    have q1 : ∀ t, s1.tree.thr t = none := fun t => by rw [b2, a1.thr]; exact hq t
    have m1 : s1.tree.mem = d.mem := by rw [b2]; exact a2
    have hR : HasRows refilled s1.tree.mem := by rw [m1]; exact inMem_spec h1
    have hret : Retired s1.tree.mem 222 := ⟨20, 230, by rw [m1]; exact List.contains_iff_mem.mp h2, by rw [m1]; exact List.contains_iff_mem.mp h3⟩
    obtain ⟨t, ht, h⟩ := C21_tree_reclaims (by omega) r1 b3 q1 (by rw [b1.same.1, he]; decide) hret
    have hS : Scene refilledRest 3 refilled.mem 150 leaf3 := ⟨rfl, rfl, by decide +kernel, by decide +kernel, by decide +kernel⟩
    obtain ⟨C1, t1, p1, c1, c2, c3, c4, _⟩ := ops_view refilled_routes (t := t) hS hR.knows togs3_first
    obtain ⟨C2, t2, p2, d1, d2, d3, d4, _⟩ := ops_repeat refilled_routes (t := t) togs3_again (GC.THRESHOLD + 1) c2 c3
    obtain ⟨s2, e1, e2, e3, e4⟩ := h C2 (c1.trans d1) (by omega)
    obtain ⟨l1, f1, f2⟩ := a1.hist
    obtain ⟨l2, g1, g2⟩ := (c1.trans d1).hist
    refine ⟨t, s2, b1.later.trans e1, ⟨l1 ++ l2, by rw [e2, g1, b2, f1, List.append_assoc], fun e h => ?_⟩, fun t => by rw [e2, (c1.trans d1).thr]; exact q1 t, e4⟩
    rcases List.mem_append.mp h with h | h
    · exact .inl (f2 e h)
    · exact .inr (g2 e h)

/-- **C44 fails for stepping back, in a further way.** In some state `s` of tree and collector, reached when all calls have returned, `Begin(64)` gives an
iterator whose step back searches the page left of 64. The search ends at the record `p` of the empty leftmost leaf, so MoveBackByOne, after it has left the
epoch, goes on to read the low key of `p` (9323, `empty_reads`). Thread `v` makes this call, which returns in state `s1`; before it makes any further step, the
calls of other threads can make the collector destroy `p` (state `s2`). -/
theorem C44_back_late_read : ∃ (n : Nat) (s s1 s2 : Sys Nat Nat) (v : Tid) (p : Ptr), SysReach n s ∧ (∀ t, s.tree.thr t = none) ∧ stepsBack s.tree 64 = true ∧
    (∃ ctx : Ctx Nat Nat, Steps s.tree.mem (traverseBI (3 * TABLE_SIZE + 1) 64 (3 * TABLE_SIZE + 1)) s.tree.mem (.ret ctx) ∧ ctx.cur.ptr = p) ∧
    SysLater n s s1 ∧ s1.tree.hist = s.tree.hist ++ [.call v (.back 64), .ret v (.page (default, INVALID) (64, 3) [])] ∧ ¬ Freed s1 p ∧
    SysLater n s1 s2 ∧ (∃ l, s2.tree.hist = s1.tree.hist ++ l ∧ ∀ e ∈ l, e.tid ≠ v) ∧ (∀ t, s2.tree.thr t = none) ∧ Freed s2 p := by
  have h := emptied_rows
  cases hc : emptied with
  | none => rw [hc] at h; cases h
  | some c =>
    rw [hc] at h
    have h := Option.some.inj h
    simp only [Bool.and_eq_true] at h
    obtain ⟨h1, h2⟩ := h
    have hs : SeqReach c := seqRun_reach .init (fun op ho => by
      rcases List.mem_append.mp ho with ho | ho
      · exact insDel_forward op ho
      · rw [List.mem_singleton.mp ho]; rfl) hc
    have hq : ∀ t, c.thr t = none := by obtain ⟨_, hw⟩ := hs.calls; exact hw.thr
    obtain ⟨n0, hn⟩ := C44_epochs_complete hs.reach
    obtain ⟨s, r1, rfl, r3, r4⟩ := hn (n0 + 3) (by omega)
    have hm := inMem_spec h1
    have hi : ∀ t, s.gc.pc t = .idle := fun t => by rw [r3, hq]; rfl
    -- thread 0 and thread 1 make the call
    obtain ⟨s0, a1, a2, a3⟩ := back_call r1 hi hq hm (v := 0) (show (0 : Nat) < n0 + 3 by omega)
    have m0 : s0.tree.mem = s.tree.mem := by rw [a2]
    have q0 : ∀ t, s0.tree.thr t = none := fun t => by rw [a2]; exact hq t
    have H0 : HasRows emptiedRows s0.tree.mem := by rw [m0]; exact hm
    have R0 := a1.reach r1
    obtain ⟨s1, b1, b2, b3⟩ := back_call R0 a3 q0 H0 (v := 1) (show (1 : Nat) < n0 + 3 by omega)
    have m1 : s1.tree.mem = s.tree.mem := by rw [b2, ← m0]
    have q1 : ∀ t, s1.tree.thr t = none := fun t => by rw [b2]; exact q0 t
    have H1 : HasRows emptiedRows s1.tree.mem := by rw [m1]; exact hm
    have R1 := b1.reach R0
    obtain ⟨t, s2, d1, ⟨l, d2, d3⟩, d4, d5⟩ := destroys222 (by omega) R1 b3 q1 (by rw [b1.same.1, a1.same.1, r4]) hc m1
    have hb : stepsBack s0.tree 64 = true := by
      have : stepsBack s0.tree 64 = stepsBack s.tree 64 := by unfold stepsBack; rw [m0]
      rw [this]; exact h2
    obtain ⟨ctx, f1, f2⟩ := back_finds hm
    by_cases ht : t = 0
    · obtain ⟨ctx, f1, f2⟩ := back_finds H0
      refine ⟨_, s0, s1, s2, 1, 222, R0, q0, hb, ⟨ctx, f1, by rw [f2]⟩, b1.later, by rw [b2]; rfl, not_freed R1 H1, d1, ⟨l, d2, fun e he => ?_⟩, d4, d5⟩
      rcases d3 e he with h | h <;> rw [h]
      · decide
      · rw [ht]; decide
    · refine ⟨_, s, s0, s2, 0, 222, r1, hq, h2, ⟨ctx, f1, by rw [f2]⟩, a1.later, by rw [a2]; rfl, not_freed R0 H0, b1.later.trans d1,
        ⟨[.call 1 (.back 64), .ret 1 emptyPage] ++ l, by rw [d2, b2, List.append_assoc], fun e he => ?_⟩, d4, d5⟩
      rcases List.mem_append.mp he with he | he
      · rcases List.mem_cons.mp he with rfl | he
        · decide
        · rw [List.mem_singleton.mp he]; decide
      · rcases d3 e he with h | h <;> rw [h]
        · decide
        · exact ht

end Tree
end BwTree
