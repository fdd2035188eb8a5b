import Verif.Props.TreeCond
import Verif.Proofs.TreeLocal
import Verif.Spec.Cond

/-!
  C05: a pair that nobody has deleted may be inserted by ConditionalInsert, and the tree goes on as if Insert had been called.
-/

namespace BwTree

/-- No record of the chain deletes (k, v). -/
def LeafChain.NoDel {K V : Type} (k : K) (v : V) : LeafChain K V → Prop
  | .base _ _ _ => True
  | .ins _ _ _ _ c => NoDel k v c
  | .del k' v' _ _ c => ¬ (k' = k ∧ v' = v) ∧ NoDel k v c
  | .split _ _ _ c => NoDel k v c
  | .merge _ _ r c => NoDel k v r ∧ NoDel k v c
  | .remove _ c => NoDel k v c

/-- A pair of the base node that is not deleted is stored. -/
theorem LeafChain.NoDel.has {K V : Type} [LinearOrder K] {k : K} {v : V} : ∀ {c : LeafChain K V}, c.WF → (c.high.2 = INVALID ∨ k < c.high.1) →
    NoDel k v c → (k, v) ∈ c.baseFor k → c.Has k v
  | .base _ _ _, _, _, _, hb => hb
  | .ins _ _ _ _ c, hw, hh, hn, hb => Or.inr (NoDel.has (c := c) hw.1 hh hn hb)
  | .del _ _ _ _ c, hw, hh, hn, hb => ⟨fun e => hn.1 ⟨e.1.symm, e.2.symm⟩, NoDel.has (c := c) hw.1 hh hn.2 hb⟩
  | .split sk id _ c, hw, hh, hn, hb => by
    have hk : k < sk := hh.resolve_left hw.2.2.1
    exact ⟨hk, NoDel.has (c := c) hw.1 (hw.2.2.2.2.imp (fun g => g) (fun g => lt_trans hk g)) hn hb⟩
  | .merge mk id r c, hw, hh, hn, hb => by
    simp only [LeafChain.Has, LeafChain.baseFor] at hb ⊢
    split
    · rename_i hm
      rw [if_pos hm] at hb
      exact NoDel.has (c := r) hw.2.1 hh hn.1 hb
    · rename_i hm
      rw [if_neg hm] at hb
      exact NoDel.has (c := c) hw.1 (Or.inr (by rw [hw.2.2.1]; exact lt_of_not_ge hm)) hn.2 hb
  | .remove _ _, hw, _, _, _ => hw.elim

namespace Tree

open Prog

set_option linter.unusedSectionVars false

variable {K V : Type} [LinearOrder K] [DecidableEq V] [Inhabited K]

theorem noDel_keeps (k : K) (v : V) : KeepsLeaf (LeafChain.NoDel k v) :=
  ⟨fun _ _ _ => trivial, fun _ _ _ _ h => h, fun _ _ => Iff.rfl, fun _ _ _ _ h1 h2 => ⟨h1, h2⟩⟩

/-- Delete records come from calls of Delete. -/
theorem SeqReach.noDel {c : Conf K V} (h : SeqReach c) (k : K) (v : V) (hd : ∀ t, Lin.Event.call t (.api (.delete k v)) ∉ c.hist) :
    AllGood (LeafChain.NoDel k v) c.mem := by
  induction h with
  | init =>
    intro p n e
    have e : (if p = 0 then _ else if p = 1 then _ else none) = some n := e
    split at e
    · cases e; trivial
    · split at e
      · cases e; trivial
      · cases e
  | @call c m fuel op a t _ _ _ hs ih =>
    have hc := ih fun t' g => hd t' (List.mem_append_left _ g)
    refine (lp_steps hs (lp_prog (noDel_keeps k v) fuel op (fun _ _ _ _ _ _ g => g) ?_) hc).1
    rintro k' v' rfl i e ch g
    refine ⟨?_, g⟩
    rintro ⟨rfl, rfl⟩
    exact hd t (List.mem_append_right _ (List.mem_cons_self ..))

theorem OnPath.good {H : LeafChain K V → Prop} {m : Mem K V} (hm : AllGood H m) {id : NodeId} {c : LeafChain K V} (h : OnPath m id c) : H c := by
  have key : ∀ {i : NodeId} {d : LeafChain K V}, m.node i = some (.leaf d) → H d := by
    intro i d e
    obtain ⟨p, _, e⟩ := Option.bind_eq_some_iff.mp e
    exact hm _ _ e
  cases h with
  | first e => exact key e
  | next _ _ e => exact key e

/-- ConditionalInsert of a pair that has never been deleted leaves the tree as the other calls do: if it returns true as Insert of the pair would
have, otherwise as a search for the key. So everything proved for histories of calls that do not overlap holds for what follows too, and again for
conditional insertions of pairs that have not been deleted. Partial: for pairs that have been deleted see `C05_tree_continues_partial`,
`C05_tree_breaks`. -/
theorem C05_tree_fresh_partial {c : Conf K V} (h : SeqReach c) {fuel : Nat} (hf : Ample fuel) {k : K} {v : V} {p : V → Bool} {m : Mem K V}
    {b sat : Bool} (hs : Steps c.mem (condInsert fuel k v p fuel) m (.ret (b, sat)))
    (hd : ∀ t, Lin.Event.call t (.api (.delete k v)) ∉ c.hist) (t : Tid) :
    ∃ op a, op = (if b then .api (.insert k v) else .page k) ∧ SeqReach ⟨m, c.thr, c.hist ++ [.call t op, .ret t a]⟩ := by
  rcases condInsert_run h hf k v p with ⟨m', h1, _⟩ | ⟨m', b', sat', h1, _, h2, h3⟩
  · have := (h1.det hs (fun _ => rfl) (fun _ => rfl)).2
    cases this
  · obtain ⟨rfl, e⟩ := h1.det hs (fun _ => rfl) (fun _ => rfl)
    cases e
    cases b with
    | false =>
      obtain ⟨a, g⟩ := h2 rfl
      exact ⟨_, a, rfl, .call t h hf rfl g⟩
    | true =>
      obtain ⟨m1, ctx, ch, i, e, g1, g2, g3, g4, g5, _, g6⟩ := h3 rfl
      have hm := (lp_steps g1 (lp_traverse (noDel_keeps k v) fuel k fuel) (h.noDel k v hd)).1
      exact ⟨_, _, rfl, .call t h hf rfl (g6 fun hb => g5 ((g2.good hm).has g3 g4.2 hb))⟩

/-! ### Histories with conditional insertions -/

/-- The tree after such a history is one the other calls reach, with no more deletions. -/
theorem Mixed.seq {m : Mem K V} {l : List (Ev K V)} (h : Mixed m l) : ∃ c, SeqReach c ∧ c.mem = m ∧
    ∀ k v t, Lin.Event.call t (.api (.delete k v)) ∈ c.hist → ∃ a, Ev.call (.api (.delete k v)) a ∈ l := by
  induction h with
  | init => exact ⟨_, .init, rfl, fun _ _ _ g => (by cases g)⟩
  | @call m m' l fuel op a _ hf hop hs ih =>
    obtain ⟨c, h1, rfl, h3⟩ := ih
    refine ⟨_, .call 0 h1 hf hop hs, rfl, fun k v t g => ?_⟩
    rcases List.mem_append.mp g with g | g
    · obtain ⟨a, g⟩ := h3 k v t g
      exact ⟨a, List.mem_append_left _ g⟩
    · simp only [List.mem_cons, Lin.Event.call.injEq, List.not_mem_nil, or_false, reduceCtorEq] at g
      obtain ⟨_, rfl⟩ := g
      exact ⟨a, List.mem_append_right _ (List.mem_cons_self ..)⟩
  | @cond m m' l fuel k v p b sat _ hf hd hs ih =>
    obtain ⟨c, h1, rfl, h3⟩ := ih
    obtain ⟨op, a, e, h4⟩ := C05_tree_fresh_partial h1 hf hs (fun t g => by obtain ⟨a, g⟩ := h3 k v t g; exact hd a g) 0
    refine ⟨_, h4, rfl, fun k' v' t g => ?_⟩
    rcases List.mem_append.mp g with g | g
    · obtain ⟨a, g⟩ := h3 k' v' t g
      exact ⟨a, List.mem_append_left _ g⟩
    · simp only [List.mem_cons, Lin.Event.call.injEq, List.not_mem_nil, or_false, reduceCtorEq] at g
      rw [e] at g
      cases b <;> exact absurd g.2 (by simp)

/-- Nothing is stored in a new tree. -/
theorem stored_init (k : K) (v : V) : ¬ Stored (initConf : Conf K V).mem k v := by
  have h2 : (initConf : Conf K V).mem.node FIRST_LEAF = some (.leaf (.base (default, INVALID) (default, INVALID) [])) := rfl
  have : ∀ {id : NodeId} {ch : LeafChain K V}, OnPath (initConf : Conf K V).mem id ch → ch = .base (default, INVALID) (default, INVALID) [] := by
    intro id ch h
    induction h with
    | first e => rw [h2] at e; cases e; rfl
    | next _ e _ ih => subst ih; exact absurd rfl e
  rintro ⟨id, ch, h, g⟩
  rw [this h] at g
  cases g

/-- In every history of calls that do not overlap, with conditional insertions of pairs that have not been deleted before, each result and the set of
stored pairs are those of the specification. -/
theorem C05_histories_partial {m : Mem K V} {l : List (Ev K V)} (h : Mixed m l) : MixedRun l (Stored m) := by
  induction h with
  | init => exact .init fun k v => ⟨fun g => stored_init k v g, fun g => g.elim⟩
  | @call m m' l fuel op a hm hf hop hs ih =>
    obtain ⟨c, h1, rfl, _⟩ := hm.seq
    exact .call ih (C42_exact h1 hf hop hs)
  | @cond m m' l fuel k v p b sat hm hf hd hs ih =>
    obtain ⟨c, h1, rfl, _⟩ := hm.seq
    refine .cond ih ?_
    rcases C05_tree h1 hf k v p with ⟨m1, g, _⟩ | ⟨m1, b1, sat1, g, g1, g2, g3, g4⟩
    · have := (g.det hs (fun _ => rfl) (fun _ => rfl)).2
      cases this
    · obtain ⟨rfl, e⟩ := g.det hs (fun _ => rfl) (fun _ => rfl)
      cases e
      exact ⟨g1, g2, g3, g4⟩

/-- And each further call returns, conditional insertions as well (also of pairs that have been deleted), unless the node IDs are used up; GetValue
may also read the parent snapshot it has not set. -/
theorem C05_histories_return {m : Mem K V} {l : List (Ev K V)} (h : Mixed m l) {fuel : Nat} (hf : Ample fuel) :
    (∀ k v p, ∃ m', (∃ r, Steps m (condInsert fuel k v p fuel) m' (.ret r)) ∨
      (Steps m (condInsert fuel k v p fuel) m' (.fail .tableFull) ∧ TABLE_SIZE < m'.nextId)) ∧
    ∀ op : Call K V, op.forward = true → ∃ m', (∃ a, Steps m (prog fuel op) m' (.ret a)) ∨
      (Steps m (prog fuel op) m' (.fail .tableFull) ∧ TABLE_SIZE < m'.nextId) ∨
      (Steps m (prog fuel op) m' (.fail .uninit) ∧ ∃ k, op = .api (.get k)) := by
  obtain ⟨c, h1, rfl, _⟩ := h.seq
  refine ⟨fun k v p => ?_, fun op hop => ?_⟩
  · rcases C05_tree h1 hf k v p with ⟨m', g⟩ | ⟨m', b, sat, g, _⟩
    · exact ⟨m', Or.inr g⟩
    · exact ⟨m', Or.inl ⟨_, g⟩⟩
  · by_cases hg : ∃ k, op = .api (.get k)
    · obtain ⟨k, rfl⟩ := hg
      obtain ⟨m', g | g | g⟩ := C41_get_partial h1 hf k
      · exact ⟨m', Or.inl g⟩
      · exact ⟨m', Or.inr (Or.inr ⟨g, k, rfl⟩)⟩
      · exact ⟨m', Or.inr (Or.inl g)⟩
    · obtain ⟨m', g | g⟩ := C41_returns h1 hf hop fun k e => hg ⟨k, e⟩
      · exact ⟨m', Or.inl g⟩
      · exact ⟨m', Or.inr (Or.inl g)⟩

/-- Runs the calls in `req` (whose results are ignored) and puts the results into the history. -/
def mixRun (n : Nat) : Mem Nat Nat → List (Ev Nat Nat) → List (Ev Nat Nat) → Option (Mem Nat Nat × List (Ev Nat Nat))
  | m, l, [] => some (m, l)
  | m, l, .call op _ :: req =>
    if op.forward then
      match runN n m (prog (3 * TABLE_SIZE + 1) op) with
      | (m', .ret a) => mixRun n m' (l ++ [.call op a]) req
      | _ => none
    else none
  | m, l, .cond k v p _ _ :: req =>
    if l.all fun e => match e with | .call (.api (.delete k' v')) _ => !(k' == k && v' == v) | _ => true then
      match runN n m (condInsert (3 * TABLE_SIZE + 1) k v p (3 * TABLE_SIZE + 1)) with
      | (m', .ret (b, sat)) => mixRun n m' (l ++ [.cond k v p b sat]) req
      | _ => none
    else none

theorem mixRun_mixed {n : Nat} {req : List (Ev Nat Nat)} : ∀ {m : Mem Nat Nat} {l : List (Ev Nat Nat)} {r}, Mixed m l → mixRun n m l req = some r →
    Mixed r.1 r.2 := by
  induction req with
  | nil => intro m l r h e; cases e; exact h
  | cons x req ih =>
    intro m l r h e
    cases x with
    | call op a =>
      simp only [mixRun] at e
      split at e
      · rename_i hop
        split at e
        · rename_i m' a' he
          have hs := runN_steps n m (prog (3 * TABLE_SIZE + 1) op)
          rw [he] at hs
          exact ih (.call h (Nat.lt_succ_self _) hop hs) e
        · cases e
      · cases e
    | cond k v p _ _ =>
      simp only [mixRun] at e
      split at e
      · rename_i hd
        split at e
        · rename_i m' b sat he
          have hs := runN_steps n m (condInsert (3 * TABLE_SIZE + 1) k v p (3 * TABLE_SIZE + 1))
          rw [he] at hs
          refine ih (.cond h (Nat.lt_succ_self _) (fun a g => ?_) hs) e
          have := List.all_eq_true.mp hd _ g
          simp at this
        · cases e
      · cases e

/-- Conditional insertions of 130 keys (the leaf is split), then one whose predicate holds for a value of its key, one of a pair already there, the
deletion of a pair, and the conditional insertion of another value for that key. -/
def mix130 : List (Ev Nat Nat) := (List.range 130).map (fun i => .cond i 1 (fun _ => true) false false) ++
  [.cond 7 2 (fun u => u == 1) false false, .cond 7 1 (fun _ => false) false false, .call (.api (.delete 7 1)) (.bool false),
    .cond 7 2 (fun u => u == 1) false false]

def Ev.res : Ev Nat Nat → Option Bool × Bool
  | .cond _ _ _ b sat => (some b, sat)
  | .call _ (.bool b) => (some b, false)
  | _ => (none, false)

theorem C05_histories_example : ∃ (m : Mem Nat Nat) (l : List (Ev Nat Nat)), Mixed m l ∧ m.nextId = 4 ∧
    l.map Ev.res = List.replicate 130 (some true, false) ++ [(some false, true), (some false, false), (some true, false), (some true, false)] := by
  have h : (mixRun 1000 (initConf : Conf Nat Nat).mem [] mix130).map (fun x => (x.1.nextId, x.2.map Ev.res)) = some (4,
      List.replicate 130 (some true, false) ++ [(some false, true), (some false, false), (some true, false), (some true, false)]) := by decide +kernel
  cases hc : mixRun 1000 (initConf : Conf Nat Nat).mem [] mix130 with
  | none => rw [hc] at h; cases h
  | some r =>
    rw [hc] at h
    simp only [Option.map_some, Option.some.injEq, Prod.mk.injEq] at h
    exact ⟨r.1, r.2, mixRun_mixed .init hc, h.1, h.2⟩

end Tree
end BwTree
