import Verif.Props.SeqTotal
import Verif.Props.Iterator
import Verif.Proofs.FastRun

/-!
  C41 and C17 fail for stepping backwards, even when calls do not overlap: after a leaf was merged into its left neighbour, the search for the page left
  of a key is sent to the merged leaf (`C17_backward_search_wrong`). It then stops with undefined behaviour, or retries for ever.
-/

namespace BwTree
namespace Tree

open Prog

/-- Inserts of (0, 0) … (a - 1, a - 1), then deletes of (b, b) … (c - 1, c - 1). -/
def insDel (a b c : Nat) : List (Call Nat Nat) :=
  (List.range a).map (fun i => .api (.insert i i)) ++ (List.range (c - b)).map fun i => .api (.delete (b + i) (b + i))

theorem insDel_forward {a b c : Nat} : ∀ op ∈ insDel a b c, op.forward = true := by
  intro op h
  rcases List.mem_append.mp h with h | h <;> (obtain ⟨i, _, rfl⟩ := List.mem_map.mp h; rfl)

/-- Leaves 2 (from 0), 3 (from 64) and 4 (from 128); leaf 3 was merged into leaf 2. -/
def mergedFirst : Option (Conf Nat Nat) := seqRun 1000 initConf (insDel 200 64 100)

/-- Leaves 2 (from 0), 3 (from 64), 4 (from 128) and 5 (from 192); leaf 4 was merged into leaf 3. -/
def mergedSecond : Option (Conf Nat Nat) := seqRun 1000 initConf (insDel 270 128 170)

section
variable {K : Type} [LinearOrder K] [Inhabited K]

/-- What the search for the page left of `k` ends with. -/
def backEnds (c : Conf K K) (k : K) : Option Fail :=
  match (runN 1000 c.mem (prog (3 * TABLE_SIZE + 1) (.back k))).2 with
  | .fail f => some f
  | _ => none

/-- `Begin(k)` that is given this page stands at its first pair, (k, k), so one step back searches the page left of `k`. -/
def asksBack (k : K) (low high : K × NodeId) (items : List (K × K)) : Bool :=
  decide (low.1 = k ∧ items.head? = some (k, k)) && match Iterator.beginAt 2 k with
    | .ask (.page k') f => decide (k' = k) && match f ⟨low, high, items⟩ with
      | .ret it => match Iterator.prev 2 (some it) with
        | .ask (.back k') _ => decide (k' = k)
        | _ => false
      | _ => false
    | _ => false

/-- The page of `Begin(k)` in this tree is such a page. -/
def stepsBack (c : Conf K K) (k : K) : Bool :=
  match runN 1000 c.mem (prog (3 * TABLE_SIZE + 1) (.page k)) with
  | (_, .ret (.page low high items)) => asksBack k low high items
  | _ => false

theorem backEnds_steps {c : Conf K K} {k : K} {f : Fail} (h : backEnds c k = some f) :
    ∃ m, Steps c.mem (prog (3 * TABLE_SIZE + 1) (.back k)) m (.fail f) := by
  have hs := runN_steps 1000 c.mem (prog (3 * TABLE_SIZE + 1) (.back k))
  unfold backEnds at h
  split at h
  · rename_i f' e
    rw [e, Option.some.inj h] at hs
    exact ⟨_, hs⟩
  · cases h

end

theorem mergedFirst_back : (mergedFirst.map fun c => backEnds c 128) = some (some .leftSibling) := by decide +kernel

theorem mergedFirst_steps : (mergedFirst.map fun c => stepsBack c 128) = some true := by decide +kernel

/-- C41 and C17 fail: after 200 inserts and 36 deletes by one thread, `Begin(128)` followed by one step back is undefined: FindLeftSibling reads before
the first separator (7142). -/
theorem C41_back_undefined : ∃ (c : Conf Nat Nat) (m : Mem Nat Nat), SeqReach c ∧ Ample (3 * TABLE_SIZE + 1) ∧
    Steps c.mem (prog (3 * TABLE_SIZE + 1) (.back 128)) m (.fail .leftSibling) ∧ stepsBack c 128 = true := by
  have h := mergedFirst_back
  have h' := mergedFirst_steps
  cases hc : mergedFirst with
  | none => rw [hc] at h; cases h
  | some c =>
    rw [hc] at h h'
    obtain ⟨m, hs⟩ := backEnds_steps (Option.some.inj h)
    exact ⟨c, m, seqRun_reach .init insDel_forward hc, Nat.lt_succ_self _, hs, Option.some.inj h'⟩

/-- Inserts of (-64, -64) … (64, 64). -/
def aroundZero : List (Call Int Int) := (List.range 129).map fun i => .api (.insert (Int.ofNat i - 64) (Int.ofNat i - 64))

/-- The leaf has split at key 0. -/
def zeroSplit : Option (Conf Int Int) := seqRun 1000 initConf aroundZero

theorem zeroSplit_back : (zeroSplit.map fun c => backEnds c 0) = some (some .navigate) := by decide +kernel

theorem zeroSplit_steps : (zeroSplit.map fun c => stepsBack c 0) = some true := by decide +kernel

/-- C41 and C17 fail: after 129 inserts of the integers from -64 to 64 by one thread, `Begin(0)` followed by one step back is undefined: the placeholder in front of the
separators is the default key 0, so the search for the page left of 0 looks before the first separator (3510). -/
theorem C41_back_placeholder : ∃ (c : Conf Int Int) (m : Mem Int Int), SeqReach c ∧ Ample (3 * TABLE_SIZE + 1) ∧
    Steps c.mem (prog (3 * TABLE_SIZE + 1) (.back 0)) m (.fail .navigate) ∧ stepsBack c 0 = true := by
  have h := zeroSplit_back
  have h' := zeroSplit_steps
  cases hc : zeroSplit with
  | none => rw [hc] at h; cases h
  | some c =>
    rw [hc] at h h'
    obtain ⟨m, hs⟩ := backEnds_steps (Option.some.inj h)
    refine ⟨c, m, seqRun_reach .init (fun op ho => ?_) hc, Nat.lt_succ_self _, hs, Option.some.inj h'⟩
    obtain ⟨i, _, rfl⟩ := List.mem_map.mp ho
    rfl

/-- The root, the merged leaf and the leaf left of it after the second history. -/
def rootNow : InnerChain Nat :=
  .del (128, 4) (64, 3) (192, 5) 1 (.ins (192, 5) (default, INVALID) 1 (.ins (128, 4) (default, INVALID) 1 (.ins (64, 3) (default, INVALID) 1
    (.base (default, 2) (default, INVALID) 0 [(default, 2)]))))

def mergedNow : LeafChain Nat Nat := .remove 4 (.base (128, NOT_INVALID) (192, 5) ((List.range 32).map fun i => (160 + i, 160 + i)))

def leftNow : LeafChain Nat Nat := .base (default, INVALID) (64, 3) ((List.range 64).map fun i => (i, i))

def viewNow (m : Mem Nat Nat) : Bool :=
  decide (m.root = 1) && decide (m.node 1 = some (.inner rootNow)) && decide (m.node 4 = some (.leaf mergedNow)) && decide (m.node 2 = some (.leaf leftNow))

theorem mergedSecond_view : (mergedSecond.map fun c => viewNow c.mem) = some true := by decide +kernel

theorem mergedSecond_steps : (mergedSecond.map fun c => stepsBack c 192) = some true := by decide +kernel

theorem mem_node {m : Mem Nat Nat} {i : NodeId} {n : Node Nat Nat} (h : m.node i = some n) : ∃ p, m.table i = some p ∧ m.heap p = some n := by
  unfold Mem.node at h
  exact Option.bind_eq_some_iff.mp h

/-- The merged leaf as it is found by the search. -/
def ctxNow (p1 p4 : Ptr) : Ctx Nat Nat := { cur := ⟨4, p4, .leaf mergedNow⟩, par := .snap ⟨1, p1, .inner rootNow⟩, level := 1 }

/-- Helping it looks for the left neighbour of key 128 in the root, which is leaf 2, and gives up because leaf 2 is not linked to leaf 4. -/
theorem jump_back {m : Mem Nat Nat} {p1 p2 p4 : Ptr} (t1 : m.table 1 = some p1) (e1 : m.heap p1 = some (.inner rootNow)) (t2 : m.table 2 = some p2)
    (e2 : m.heap p2 = some (.leaf leftNow)) (f : Nat) : Steps m (jumpLeft (finishSMO (f + 2)) (ctxNow p1 p4)) m (.ret none) := by
  refine .step (load_step _ t1 e1) ?_
  show Steps m (if p1 ≠ p1 then Prog.ret none else _) m _
  rw [if_neg (fun h => h rfl)]
  refine .step (load_step _ t2 e2) ?_
  exact .refl _ _

theorem settle_back {m : Mem Nat Nat} {p1 p2 p4 : Ptr} (t1 : m.table 1 = some p1) (e1 : m.heap p1 = some (.inner rootNow)) (t2 : m.table 2 = some p2)
    (e2 : m.heap p2 = some (.leaf leftNow)) (f : Nat) : Steps m (settle (finishSMO (f + 3)) (ctxNow p1 p4)) m (.ret none) := by
  show Steps m (Prog.bind (Prog.bind (jumpLeft (finishSMO (f + 2)) (ctxNow p1 p4)) _) _) m _
  exact ((jump_back (p4 := p4) t1 e1 t2 e2 f).seq _).seq _

/-- One attempt of the search for the page left of 192 aborts and changes nothing. -/
theorem try_back {m : Mem Nat Nat} (h : viewNow m = true) (f : Nat) : Steps m (tryTraverseBI (f + 3) 192) m (.ret none) := by
  simp only [viewNow, Bool.and_eq_true, decide_eq_true_eq] at h
  obtain ⟨⟨⟨h0, h1⟩, h4⟩, h2⟩ := h
  obtain ⟨p1, t1, e1⟩ := mem_node h1
  obtain ⟨p4, t4, e4⟩ := mem_node h4
  obtain ⟨p2, t2, e2⟩ := mem_node h2
  refine .step (m1 := m) rfl ?_
  show Steps m (Prog.bind (loadRootNode (f + 3) m.root) _) m _
  rw [h0]
  refine .step (load_step _ t1 e1) ?_
  refine .step (load_step _ t4 e4) ?_
  exact (settle_back (p4 := p4) t1 e1 t2 e2 f).seq _

theorem traverse_back {m : Mem Nat Nat} (h : viewNow m = true) (f : Nat) : ∀ n, Steps m (traverseBI (f + 3) 192 n) m .spin
  | 0 => .refl _ _
  | n + 1 => ((try_back h f).seq _).trans' (traverse_back h f n)

/-- C41 fails: after 270 inserts and 42 deletes by one thread, the search for the page left of 192 never ends, however often it retries; it changes
nothing meanwhile. -/
theorem C41_back_never_returns : ∃ c : Conf Nat Nat, SeqReach c ∧ stepsBack c 192 = true ∧
    ∀ fuel, 3 ≤ fuel → Steps c.mem (prog fuel (.back 192)) c.mem .spin ∧ ∀ m a, ¬ Steps c.mem (prog fuel (.back 192)) m (.ret a) := by
  have h := mergedSecond_view
  have h' := mergedSecond_steps
  cases hc : mergedSecond with
  | none => rw [hc] at h; cases h
  | some c =>
    rw [hc] at h h'
    refine ⟨c, seqRun_reach .init insDel_forward hc, Option.some.inj h', fun fuel hf => ?_⟩
    obtain ⟨f, rfl⟩ := Nat.exists_eq_add_of_le' hf
    have hs : Steps c.mem (prog (f + 3) (.back 192)) c.mem .spin := (traverse_back (Option.some.inj h) f (f + 3)).seq _
    refine ⟨hs, fun m a ha => ?_⟩
    have := (hs.det ha (fun _ => rfl) (fun _ => rfl)).2
    cases this

end Tree
end BwTree
