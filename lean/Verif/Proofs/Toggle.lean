import Verif.Proofs.FastRun
import Verif.Proofs.TreeReclaim

/-!
  Long histories of inserts and deletes in one leaf, of any length (used by Props/Reclaim): what they do to the leaf is evaluated once, and pointers are
  variables.
-/

namespace BwTree
namespace Tree

variable {K V : Type} [LinearOrder K] [DecidableEq V] [Inhabited K]

theorem CallsOf.trans {t : Tid} {c c1 c2 : Conf K V} (h : CallsOf t c c1) (h' : CallsOf t c1 c2) : CallsOf t c c2 := by
  induction h' with
  | refl => exact h
  | step _ hs ih => exact .step ih hs

theorem CallsOf.thr {t : Tid} {c c' : Conf K V} (h : CallsOf t c c') : c'.thr = c.thr := by
  induction h with
  | refl => rfl
  | step _ _ ih => exact ih

theorem solo_calls {n : Nat} {t : Tid} (htn : t < n) {c c' : Conf K V} (h : CallsOf t c c') : ∀ {s : Sys K V}, s.tree = c → SysReach n s →
    (∀ t, s.gc.pc t = .idle) → (∀ t, s.tree.thr t = none) → ∃ s', SysPath n (Solo t) s s' ∧ s'.tree = c' ∧ ∀ t, s'.gc.pc t = .idle := by
  induction h with
  | refl => exact fun e _ hi _ => ⟨_, .refl _, e, hi⟩
  | step h1 h2 ih =>
    intro s e hr hi hq
    obtain ⟨s1, j1, rfl, j3⟩ := ih e hr hi hq
    obtain ⟨s2, k1, k2, k3⟩ := solo_call htn (j1.reach hr) j3 (fun u => by rw [h1.thr, ← e, hq]) h2
    exact ⟨s2, j1.trans k1, by rw [k2, List.append_assoc]; rfl, k3⟩

/-- What loading the leaf does to its chain, and whether it is replaced by a new base. -/
def leafEffect (k : K) (c : LeafChain K V) : Option (Bool × LeafChain K V) :=
  if calm false (Node.leaf c) then (if below k (Node.leaf c) then some (false, c) else none)
  else if dataTop c && decide (LEAF_CHAIN ≤ c.depth) then match c.consolidate with
    | some (.base (l1, l2) (h1, h2) items) => forceItems items fun items =>
      if calm false (Node.leaf (.base (l1, l2) (h1, h2) items)) && below k (Node.leaf (.base (l1, l2) (h1, h2) items)) then
        some (true, .base (l1, l2) (h1, h2) items) else none
    | _ => none
  else none

theorem leafEffect_settle {s : PMem K V} {k : K} {id : NodeId} {p : Ptr} {c c' : LeafChain K V} {b : Bool} (h : leafEffect k c = some (b, c')) :
    settleLeaf s k id p (.leaf c) = some (if b then (s.push id (.leaf c'), ⟨id, s.nextPtr, .leaf c'⟩) else (s, ⟨id, p, .leaf c'⟩)) := by
  unfold leafEffect at h
  unfold settleLeaf
  split at h
  · rename_i hc
    rw [if_pos hc]
    split at h
    · rename_i hb
      cases h
      rw [if_pos hb]
      rfl
    · cases h
  · rename_i hc
    rw [if_neg hc]
    show (if _ then _ else _) = _
    split at h
    · rename_i hd
      rw [if_pos hd]
      split at h
      · rename_i l1 l2 h1 h2 items e
        rw [e]
        rw [forceItems_eq] at h
        show forceItems items _ = _
        rw [forceItems_eq]
        unfold newLeaf
        split at h
        · rename_i hn
          cases h
          rw [if_pos hn]
          rfl
        · cases h
      · cases h
    · cases h

/-- What an insert or delete that changes the leaf does to its chain. -/
def opEffect (k : K) (c : LeafChain K V) : Bool × V → Option (Bool × LeafChain K V)
  | (ins, v) => match leafEffect k c with
    | none => none
    | some (b, c) => match c.findValue k v with
      | some (found, i, e) => if found = ins then none else some (b, if ins then .ins k v i e c else .del k v i e c)
      | none => none

/-- The call: an insert or a delete of `k` with the given value. -/
def togOp (k : K) : Bool × V → Call K V
  | (true, v) => .api (.insert k v)
  | (false, v) => .api (.delete k v)

def opsEffect (k : K) : List (Bool × V) → LeafChain K V → Option (Nat × LeafChain K V)
  | [], c => some (0, c)
  | x :: l, c => match opEffect k c x with
    | none => none
    | some (b, c) => match opsEffect k l c with
      | none => none
      | some (j, c) => some (j + b.toNat, c)

/-- The partial memory holds these rows, and the leaf `id` with chain `c`. -/
structure Scene (r : Rows K V) (id : NodeId) (s : PMem K V) (p : Ptr) (c : LeafChain K V) : Prop where
  root : s.root = r.root
  nextId : s.nextId = r.nextId
  rows : ∀ x ∈ r.rows, s.table.get x.1 = some x.2.1 ∧ s.heap.get x.2.1 = some x.2.2
  old : ∀ x ∈ r.rows, x.1 ≠ id ∧ x.2.1 < s.nextPtr
  leaf : s.table.get id = some p ∧ s.heap.get p = some (.leaf c)

theorem Scene.push {r : Rows K V} {id : NodeId} {s : PMem K V} {p : Ptr} {c : LeafChain K V} (h : Scene r id s p c) (c' : LeafChain K V) :
    Scene r id (s.push id (.leaf c')) s.nextPtr c' := by
  refine ⟨h.root, h.nextId, fun x hx => ?_, fun x hx => ⟨(h.old x hx).1, Nat.lt_succ_of_lt (h.old x hx).2⟩, ?_⟩
  · show (s.table.set id s.nextPtr).get _ = _ ∧ (s.heap.set s.nextPtr _).get _ = _
    rw [Trie.get_set, Trie.get_set]
    simp only [(h.old x hx).1, Nat.ne_of_lt (h.old x hx).2, if_false]
    exact h.rows x hx
  · show (s.table.set id s.nextPtr).get _ = _ ∧ (s.heap.set s.nextPtr _).get _ = _
    rw [Trie.get_set, Trie.get_set]
    simp

theorem Scene.look {r : Rows K V} {id : NodeId} {s : PMem K V} {p : Ptr} {c : LeafChain K V} (h : Scene r id s p c) {x : NodeId × Ptr × Node K V}
    (hx : x ∈ r.rows) (hok : ¬ (x.1 = INVALID ∨ TABLE_SIZE ≤ x.1)) : look s x.1 = some x.2 := by
  unfold Tree.look
  rw [if_neg hok, (h.rows x hx).1]
  simp only
  rw [(h.rows x hx).2]

theorem Scene.lookLeaf {r : Rows K V} {id : NodeId} {s : PMem K V} {p : Ptr} {c : LeafChain K V} (h : Scene r id s p c)
    (hok : ¬ (id = INVALID ∨ TABLE_SIZE ≤ id)) : Tree.look s id = some (p, .leaf c) := by
  unfold Tree.look
  rw [if_neg hok, h.leaf.1]
  simp only
  rw [h.leaf.2]

/-- The rows alone. -/
theorem Scene.rest {r : Rows K V} {id : NodeId} {s : PMem K V} {p : Ptr} {c : LeafChain K V} (h : Scene r id s p c) {m : Mem K V} (hk : Knows s m) :
    HasRows { r with nextPtr := s.nextPtr } m :=
  ⟨hk.root.trans h.root, hk.nextId.trans h.nextId, hk.nextPtr, fun x hx => ⟨hk.table _ _ (h.rows x hx).1, hk.heap _ _ (h.rows x hx).2⟩⟩

/-- The search for `k` ends in the leaf `id`, whatever its chain. -/
def Routes (r : Rows K V) (id : NodeId) (k : K) : Prop :=
  ∀ {s : PMem K V} {p : Ptr} {c : LeafChain K V}, Scene r id s p c → walkRoot s k = settleLeaf s k id p (.leaf c)

theorem walk_child {s : PMem K V} {k : K} {f : Nat} {c : InnerChain K} {id : NodeId} {p : Ptr} {l : LeafChain K V} (hn : c.navigate k = some id)
    (hl : look s id = some (p, .leaf l)) : walk s k (f + 1) (.inner c) = settleLeaf s k id p (.leaf l) := by
  unfold walk
  simp only [hn, hl]
  rfl

theorem walk_down {s : PMem K V} {k : K} {f : Nat} {c d : InnerChain K} {id : NodeId} {p : Ptr} (hn : c.navigate k = some id)
    (hl : look s id = some (p, .inner d)) (hc : (calm false (Node.inner d : Node K V) && below k (Node.inner d : Node K V)) = true) :
    walk s k (f + 1) (.inner c) = walk s k f (.inner d) := by
  conv => lhs; unfold walk
  simp only [hn, hl, hc, if_true]
  rfl

theorem walkRoot_at {s : PMem K V} {k : K} {p : Ptr} {n : Node K V} (hl : look s s.root = some (p, n)) (hc : (calm true n && below k n) = true) :
    walkRoot s k = walk s k 9 n := by
  unfold walkRoot
  simp only [hl, hc, if_true]

theorem op_view {r : Rows K V} {id : NodeId} {k : K} (hr : Routes r id k) {s : PMem K V} {p : Ptr} {c c' : LeafChain K V} (h : Scene r id s p c) {x : Bool × V} {b : Bool}
    (he : opEffect k c x = some (b, c')) : ∃ s' p', fastOp s (togOp k x) = some s' ∧ Scene r id s' p' c' ∧ s'.nextPtr = s.nextPtr + 1 + b.toNat := by
  obtain ⟨ins, v⟩ := x
  unfold opEffect at he
  simp only at he
  split at he
  · cases he
  · rename_i b1 c1 hl
    split at he
    · rename_i found i e hf
      split at he
      · cases he
      · rename_i hne
        cases he
        have hw := (hr h).trans (leafEffect_settle (s := s) (id := id) (p := p) hl)
        have key : ∀ (s1 : PMem K V) (q : Ptr), walkRoot s k = some (s1, ⟨id, q, .leaf c1⟩) →
            fastOp s (togOp k (ins, v)) = some (s1.push id (.leaf (if ins then .ins k v i e c1 else .del k v i e c1))) := by
          intro s1 q hw
          cases ins
          · cases found
            · exact absurd rfl hne
            · show (match walkRoot s k with | some (s', ⟨id, _, .leaf c⟩) => _ | _ => _) = _
              rw [hw]
              show (match c1.findValue k v with | some (true, i, e) => _ | _ => _) = _
              rw [hf]
              rfl
          · cases found
            · show (match walkRoot s k with | some (s', ⟨id, _, .leaf c⟩) => _ | _ => _) = _
              rw [hw]
              show (match c1.findValue k v with | some (false, i, e) => _ | _ => _) = _
              rw [hf]
              rfl
            · exact absurd rfl hne
        cases b with
        | false => exact ⟨_, _, key _ _ hw, h.push _, rfl⟩
        | true => exact ⟨_, _, key _ _ hw, (h.push _).push _, rfl⟩
    · cases he

/-- The calls as calls of thread `t`; each consolidation retires one node. -/
theorem ops_view {r : Rows K V} {id : NodeId} {k : K} (hr : Routes r id k) {t : Tid} : ∀ {l : List (Bool × V)} {s : PMem K V} {p : Ptr} {c c' : LeafChain K V} {j : Nat} {C : Conf K V},
    Scene r id s p c → Knows s C.mem → opsEffect k l c = some (j, c') →
    ∃ C' s' p', CallsOf t C C' ∧ Scene r id s' p' c' ∧ Knows s' C'.mem ∧ C.mem.garbage.length + j ≤ C'.mem.garbage.length ∧ (SeqReach C → SeqReach C')
  | [], s, p, c, c', j, C, h, hk, he => by
    cases he
    exact ⟨C, s, p, .refl C, h, hk, Nat.le_refl _, fun h => h⟩
  | x :: l, s, p, c, c', j, C, h, hk, he => by
    unfold opsEffect at he
    split at he
    · cases he
    · rename_i b c1 h1
      split at he
      · cases he
      · rename_i j2 c2 h2
        cases he
        obtain ⟨s1, p1, f1, v1, n1⟩ := op_view hr h h1
        obtain ⟨m1, a, st1, k1, g1⟩ := fastOp_steps hk f1 (3 * TABLE_SIZE)
        obtain ⟨C', s', p', i1, i2, i3, i4, i5⟩ := ops_view hr (t := t) (C := ⟨m1, C.thr, C.hist ++ [.call t (togOp k x), .ret t a]⟩) v1 k1 h2
        refine ⟨C', s', p', .trans (.step (.refl C) st1) i1, i2, i3, ?_, fun hq => i5 (.call t hq ?_ ?_ st1)⟩
        have n1 : @Eq Nat s1.nextPtr (s.nextPtr + 1 + b.toNat) := n1
        · simp only at i4
          omega
        · show 3 * TABLE_SIZE < 3 * TABLE_SIZE + 9
          omega
        · obtain ⟨b, v⟩ := x
          cases b <;> rfl

/-- Repeated as often as one likes. -/
theorem ops_repeat {r : Rows K V} {id : NodeId} {k : K} (hr : Routes r id k) {t : Tid} {l : List (Bool × V)} {c : LeafChain K V} {j : Nat}
    (he : opsEffect k l c = some (j, c)) : ∀ (N : Nat) {s : PMem K V} {p : Ptr} {C : Conf K V}, Scene r id s p c → Knows s C.mem →
    ∃ C' s' p', CallsOf t C C' ∧ Scene r id s' p' c ∧ Knows s' C'.mem ∧ C.mem.garbage.length + N * j ≤ C'.mem.garbage.length ∧
      (SeqReach C → SeqReach C')
  | 0, s, p, C, h, hk => ⟨C, s, p, .refl C, h, hk, by omega, fun h => h⟩
  | N + 1, s, p, C, h, hk => by
    obtain ⟨C1, s1, p1, a1, a2, a3, a4, a5⟩ := ops_view hr (t := t) h hk he
    obtain ⟨C', s', p', b1, b2, b3, b4, b5⟩ := ops_repeat hr (t := t) he N a2 a3
    exact ⟨C', s', p', a1.trans b1, b2, b3, by rw [Nat.succ_mul]; omega, fun h => b5 (a5 h)⟩

/-- Up to `n` steps that read the root identifier or an entry of the table. -/
def readP {α : Type} : Nat → PMem K V → Prog K V α → Prog K V α
  | 0, _, p => p
  | n + 1, s, .loadRoot k => readP n s (k s.root)
  | n + 1, s, .load id k => match s.table.get id with
    | none => .load id k
    | some p => match s.heap.get p with
      | none => .load id k
      | some x => readP n s (k (some (p, x)))
  | _ + 1, _, p => p

theorem readP_steps {α : Type} {r : Rows K V} {m : Mem K V} {x : Nat} (h : HasRows { r with nextPtr := x } m) : ∀ (n : Nat) (p : Prog K V α),
    Steps m p m (readP n r.mem p)
  | 0, p => .refl _ _
  | n + 1, p => by
    have hk := h.knows
    have e : ({ r with nextPtr := x } : Rows K V).mem = { r.mem with nextPtr := x } := by
      have : ∀ (l : List (NodeId × Ptr × Node K V)) (s : PMem K V), addRows { s with nextPtr := x } l = { addRows s l with nextPtr := x } := by
        intro l
        induction l with
        | nil => exact fun _ => rfl
        | cons y l ih => exact fun s => ih { s with table := s.table.set y.1 y.2.1, heap := s.heap.set y.2.1 y.2.2 }
      exact this r.rows ⟨r.root, .nil, .nil, r.nextId, r.nextPtr⟩
    rw [e] at hk
    cases p with
    | loadRoot k => exact .step (by rw [Prog.step, hk.root]) (readP_steps h n _)
    | load id k =>
      unfold readP
      split
      · exact .refl _ _
      · rename_i q hq
        split
        · exact .refl _ _
        · rename_i y hy
          exact .step (load_step k (hk.table _ _ hq) (hk.heap _ _ hy)) (readP_steps h n _)
    | _ => exact .refl _ _

end Tree
end BwTree
