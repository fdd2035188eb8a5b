import Verif.Proofs.TreeExec
import Verif.Spec.Solo

/-!
  Long executions. The memory of the model is made of functions; to evaluate thousands of calls, the same steps are taken here on binary tries that
  hold a part of the memory (`Knows`). A call that meets nothing to complete is evaluated at once (`fastOp`); other calls step by step.
-/

namespace BwTree
namespace Tree

open Prog

/-- Binary trie: the entry of 0, and those of the odd and even numbers above. -/
inductive Trie (α : Type) where
  | nil
  | node (v : Option α) (l r : Trie α)

namespace Trie
variable {α : Type}

def get : Trie α → Nat → Option α
  | nil, _ => none
  | node v l r, n => if n = 0 then v else if n % 2 = 1 then get l (n / 2) else get r (n / 2 - 1)

def put : Nat → Trie α → Nat → α → Trie α
  | 0, nil, _, a => node (some a) nil nil
  | 0, node _ l r, _, a => node (some a) l r
  | f + 1, nil, n, a => if n = 0 then node (some a) nil nil else if n % 2 = 1 then node none (put f nil (n / 2) a) nil else node none nil (put f nil (n / 2 - 1) a)
  | f + 1, node v l r, n, a =>
    if n = 0 then node (some a) l r
    else if n % 2 = 1 then match put f l (n / 2) a with
      | nil => nil
      | node v' l' r' => node v (node v' l' r') r
    else match put f r (n / 2 - 1) a with
      | nil => nil
      | node v' l' r' => node v l (node v' l' r')

def set (t : Trie α) (n : Nat) (a : α) : Trie α := put n t n a

theorem put_ne (f : Nat) (t : Trie α) (n : Nat) (a : α) : put f t n a ≠ nil := by
  induction f generalizing t n with
  | zero => cases t <;> simp [put]
  | succ f ih =>
    cases t with
    | nil => simp only [put]; split <;> (try split) <;> simp
    | node v l r =>
      simp only [put]
      split
      · simp
      · split
        · split
          · rename_i e; exact absurd e (ih l (n / 2))
          · simp
        · split
          · rename_i e; exact absurd e (ih r (n / 2 - 1))
          · simp

theorem put_node (f : Nat) (v : Option α) (l r : Trie α) (n : Nat) (a : α) : put (f + 1) (node v l r) n a =
    if n = 0 then node (some a) l r else if n % 2 = 1 then node v (put f l (n / 2) a) r else node v l (put f r (n / 2 - 1) a) := by
  simp only [put]
  split
  · rfl
  · split
    · split
      · rename_i e; exact absurd e (put_ne _ _ _ _)
      · rename_i e; rw [e]
    · split
      · rename_i e; exact absurd e (put_ne _ _ _ _)
      · rename_i e; rw [e]

theorem get_put : ∀ (f : Nat) (t : Trie α) (n : Nat) (a : α), n ≤ f → ∀ j, (put f t n a).get j = if j = n then some a else t.get j
  | 0, nil, n, a, h, j => by
    have : n = 0 := by omega
    subst this
    simp only [put, get]
    split <;> simp
  | 0, node v l r, n, a, h, j => by
    have : n = 0 := by omega
    subst this
    simp only [put, get]
    split <;> simp_all
  | f + 1, nil, n, a, h, j => by
    have h1 := get_put f nil (n / 2) a
    have h2 := get_put f nil (n / 2 - 1) a
    simp only [put]
    split
    · rename_i hn; subst hn
      simp only [get]
      split <;> simp
    · split
      · simp only [get, h1 (by omega)]
        split
        · rename_i hj; rw [if_neg (by omega)]
        · split
          · by_cases hj : j = n
            · subst hj; simp
            · rw [if_neg (by omega), if_neg hj]
          · rw [if_neg (by intro e; subst e; contradiction)]
      · simp only [get, h2 (by omega)]
        split
        · rename_i hj; rw [if_neg (by omega)]
        · split
          · rw [if_neg (by intro e; subst e; contradiction)]
          · by_cases hj : j = n
            · subst hj; simp
            · rw [if_neg (by omega), if_neg hj]
  | f + 1, node v l r, n, a, h, j => by
    have h1 := get_put f l (n / 2) a
    have h2 := get_put f r (n / 2 - 1) a
    rw [put_node]
    split
    · rename_i hn; subst hn
      simp only [get]
      split <;> simp_all
    · split
      · simp only [get, h1 (by omega)]
        split
        · rename_i hj; rw [if_neg (by omega)]
        · split
          · by_cases hj : j = n
            · subst hj; simp
            · rw [if_neg (by omega), if_neg hj]
          · rw [if_neg (by intro e; subst e; contradiction)]
      · simp only [get, h2 (by omega)]
        split
        · rename_i hj; rw [if_neg (by omega)]
        · split
          · rw [if_neg (by intro e; subst e; contradiction)]
          · by_cases hj : j = n
            · subst hj; simp
            · rw [if_neg (by omega), if_neg hj]

theorem get_set (t : Trie α) (n : Nat) (a : α) : (t.set n a).get = fun j => if j = n then some a else t.get j :=
  funext (get_put n t n a (Nat.le_refl n))

end Trie

variable {K V : Type}

/-! ### Runs of programs -/

theorem Prog.step_bind {α β : Type} {m m' : Mem K V} {p p' : Prog K V α} (g : α → Prog K V β) (h : p.step m = some (m', p')) :
    (p.bind g).step m = some (m', p'.bind g) := by
  cases p with
  | ret a => cases h
  | fail f => cases h
  | spin => cases h
  | casRoot o n k =>
    simp only [Prog.step, Prog.bind] at h ⊢
    split at h <;> (rename_i hc; cases h; first | rw [if_pos hc] | rw [if_neg hc])
  | cas i o n k =>
    simp only [Prog.step, Prog.bind] at h ⊢
    split at h <;> (rename_i hc; cases h; first | rw [if_pos hc] | rw [if_neg hc])
  | _ => cases h; rfl

theorem Steps.seq {α β : Type} {m m' : Mem K V} {p p' : Prog K V α} (g : α → Prog K V β) (h : Steps m p m' p') :
    Steps m (p.bind g) m' (p'.bind g) := by
  induction h with
  | refl => exact .refl _ _
  | step hs _ ih => exact .step (Prog.step_bind g hs) ih

theorem Steps.trans' {α : Type} {m m1 m2 : Mem K V} {p p1 p2 : Prog K V α} (h : Steps m p m1 p1) (h' : Steps m1 p1 m2 p2) : Steps m p m2 p2 := by
  induction h with
  | refl => exact h'
  | step hs _ ih => exact .step hs (ih h')

theorem load_step {α : Type} {m : Mem K V} {i : NodeId} {p : Ptr} {n : Node K V} (k : Option (Ptr × Node K V) → Prog K V α)
    (ht : m.table i = some p) (hh : m.heap p = some n) : (Prog.load i k).step m = some (m, k (some (p, n))) := by
  simp only [Prog.step, ht, hh]

/-! ### Part of a memory -/

/-- A part of the mapping table and of the nodes. -/
structure PMem (K V : Type) where
  root : NodeId
  table : Trie Ptr
  heap : Trie (Node K V)
  nextId : NodeId
  nextPtr : Ptr

/-- What `s` says holds in `m`. -/
structure Knows (s : PMem K V) (m : Mem K V) : Prop where
  root : m.root = s.root
  table : ∀ i p, s.table.get i = some p → m.table i = some p
  heap : ∀ p n, s.heap.get p = some n → m.heap p = some n
  nextId : m.nextId = s.nextId
  nextPtr : m.nextPtr = s.nextPtr

/-- One step; `none` if the call has ended, or an entry is not known. -/
def Prog.stepP {α : Type} (m : PMem K V) : Prog K V α → Option (PMem K V × Prog K V α)
  | ret _ => none
  | fail _ => none
  | spin => none
  | loadRoot k => some (m, k m.root)
  | casRoot o n k => if m.root = o then some ({ m with root := n }, k true) else some (m, k false)
  | load id k => match m.table.get id with
    | none => none
    | some p => match m.heap.get p with
      | none => none
      | some n => some (m, k (some (p, n)))
  | cas id o n k => match m.table.get id with
    | none => none
    | some p => if p = o then some ({ m with table := m.table.set id n }, k true) else some (m, k false)
  | store id p k => some ({ m with table := m.table.set id p }, k)
  | alloc n _ k => some ({ m with heap := m.heap.set m.nextPtr n, nextPtr := m.nextPtr + 1 }, k m.nextPtr)
  | newId k => some ({ m with nextId := m.nextId + 1 }, k m.nextId)
  | retire _ k => some (m, k)

theorem Knows.setTable {s : PMem K V} {m : Mem K V} (h : Knows s m) (id : NodeId) (p : Ptr) :
    Knows { s with table := s.table.set id p } { m with table := fun i => if i = id then some p else m.table i } := by
  refine ⟨h.root, fun i q hq => ?_, h.heap, h.nextId, h.nextPtr⟩
  have hq : (s.table.set id p).get i = some q := hq
  rw [Trie.get_set] at hq
  show (if i = id then some p else m.table i) = some q
  by_cases e : i = id
  · simp only [e, if_true] at hq ⊢; exact hq
  · simp only [e, if_false] at hq ⊢; exact h.table i q hq

theorem Knows.alloc {s : PMem K V} {m : Mem K V} (h : Knows s m) (n : Node K V) (ks : List Ptr) :
    Knows { s with heap := s.heap.set s.nextPtr n, nextPtr := s.nextPtr + 1 }
      { m with heap := fun p => if p = m.nextPtr then some n else m.heap p, kids := fun p => if p = m.nextPtr then ks else m.kids p, nextPtr := m.nextPtr + 1 } := by
  refine ⟨h.root, h.table, fun p q hq => ?_, h.nextId, congrArg (· + 1) h.nextPtr⟩
  have hq : (s.heap.set s.nextPtr n).get p = some q := hq
  rw [Trie.get_set] at hq
  show (if p = m.nextPtr then some n else m.heap p) = some q
  rw [h.nextPtr]
  by_cases e : p = s.nextPtr
  · simp only [e, if_true] at hq ⊢; exact hq
  · simp only [e, if_false] at hq ⊢; exact h.heap p q hq

theorem Prog.stepP_step {α : Type} {s s' : PMem K V} {m : Mem K V} {p p' : Prog K V α} (h : Knows s m) (hs : p.stepP s = some (s', p')) :
    ∃ m', p.step m = some (m', p') ∧ Knows s' m' := by
  cases p with
  | ret a => cases hs
  | fail f => cases hs
  | spin => cases hs
  | loadRoot k =>
    cases hs
    exact ⟨m, by rw [Prog.step, h.root], h⟩
  | casRoot o n k =>
    simp only [Prog.stepP] at hs
    split at hs
    · rename_i e
      cases hs
      exact ⟨{ m with root := n }, by rw [Prog.step, h.root, if_pos e], ⟨rfl, h.table, h.heap, h.nextId, h.nextPtr⟩⟩
    · rename_i e
      cases hs
      exact ⟨m, by rw [Prog.step, h.root, if_neg e], h⟩
  | load id k =>
    simp only [Prog.stepP] at hs
    split at hs
    · cases hs
    · rename_i p hp
      split at hs
      · cases hs
      · rename_i n hn
        cases hs
        exact ⟨m, load_step k (h.table _ _ hp) (h.heap _ _ hn), h⟩
  | cas id o n k =>
    simp only [Prog.stepP] at hs
    split at hs
    · cases hs
    · rename_i p hp
      have ht := h.table _ _ hp
      split at hs
      · rename_i e
        cases hs
        subst e
        exact ⟨_, by rw [Prog.step, if_pos ht], h.setTable id n⟩
      · rename_i e
        cases hs
        exact ⟨m, by rw [Prog.step, if_neg (by rw [ht]; intro e'; exact e (Option.some.inj e'))], h⟩
  | store id p k =>
    cases hs
    exact ⟨_, rfl, h.setTable id p⟩
  | alloc n ks k =>
    cases hs
    exact ⟨_, by rw [Prog.step, h.nextPtr], by rw [← h.nextPtr]; exact h.nextPtr ▸ h.alloc n ks⟩
  | newId k =>
    cases hs
    exact ⟨{ m with nextId := m.nextId + 1 }, by rw [Prog.step, h.nextId], ⟨h.root, h.table, h.heap, congrArg (· + 1) h.nextId, h.nextPtr⟩⟩
  | retire p k =>
    cases hs
    exact ⟨_, rfl, ⟨h.root, h.table, h.heap, h.nextId, h.nextPtr⟩⟩

/-- Up to `n` steps. -/
def runP {α : Type} : Nat → PMem K V → Prog K V α → PMem K V × Prog K V α
  | 0, m, p => (m, p)
  | n + 1, m, p => match p.stepP m with
    | none => (m, p)
    | some (m', p') => runP n m' p'

theorem runP_steps {α : Type} : ∀ (n : Nat) {s : PMem K V} {m : Mem K V} (p : Prog K V α), Knows s m →
    ∃ m', Steps m p m' (runP n s p).2 ∧ Knows (runP n s p).1 m'
  | 0, s, m, p, h => ⟨m, .refl _ _, h⟩
  | n + 1, s, m, p, h => by
    unfold runP
    split
    · exact ⟨m, .refl _ _, h⟩
    · rename_i s' p' hs
      obtain ⟨m1, h1, k1⟩ := Prog.stepP_step h hs
      obtain ⟨m2, h2, k2⟩ := runP_steps n p' k1
      exact ⟨m2, .step h1 h2, k2⟩

/-! ### Calls that meet nothing to complete -/

/-- Loading this node completes, consolidates and resizes nothing. -/
def calm (root : Bool) : Node K V → Bool
  | .leaf (.base l h items) => decide ((LEAF_LOWER : Int) < (LeafChain.base l h items).itemCount) && decide ((LeafChain.base l h items).itemCount < (LEAF_UPPER : Int))
  | .leaf (.ins k v i e c) => decide ((LeafChain.ins k v i e c).depth < LEAF_CHAIN)
  | .leaf (.del k v i e c) => decide ((LeafChain.del k v i e c).depth < LEAF_CHAIN)
  | .inner (.base l h d items) =>
    (root || decide ((INNER_LOWER : Int) < (InnerChain.base l h d items).itemCount)) && decide ((InnerChain.base l h d items).itemCount < (INNER_UPPER : Int))
  | .inner (.ins i n l c) => decide ((InnerChain.ins i n l c).depth < INNER_CHAIN)
  | .inner (.del i p n l c) => decide ((InnerChain.del i p n l c).depth < INNER_CHAIN)
  | _ => false

variable [LinearOrder K] [DecidableEq V] [Inhabited K]

theorem calm_settle {root : Bool} {ctx : Ctx K V} (h : calm root ctx.cur.node = true) (hr : root = true → ctx.par = .root) (f : Nat) :
    settle (finishSMO (f + 1)) ctx = .ret (some ctx) := by
  obtain ⟨⟨id, ptr, node⟩, par, level⟩ := ctx
  have h : calm root node = true := h
  have hr : root = true → par = .root := hr
  have key : ∀ c : Ctx K V, finishSMO (f + 1) c = .ret (some c) → tryConsolidate c = .ret c → adjustSize c = .ret (some c) →
      settle (finishSMO (f + 1)) c = .ret (some c) := fun c h1 h2 h3 => by
    unfold settle
    rw [h1]
    show Prog.bind (tryConsolidate c) _ = _
    rw [h2]
    exact h3
  unfold calm at h
  split at h
  · rename_i l hi items
    simp only [Bool.and_eq_true, decide_eq_true_eq] at h
    refine key _ rfl rfl ?_
    simp only [adjustSize]
    rw [if_neg (by simp [LeafChain.isDelta]), if_neg (by omega), if_neg (by omega)]
  · rename_i k v i e c
    simp only [decide_eq_true_eq] at h
    refine key _ rfl ?_ rfl
    simp only [tryConsolidate]
    rw [if_neg (by simp [Node.isDelta, LeafChain.isDelta]), if_pos (by simpa [Node.depth, Node.isLeaf] using h)]
  · rename_i k v i e c
    simp only [decide_eq_true_eq] at h
    refine key _ rfl ?_ rfl
    simp only [tryConsolidate]
    rw [if_neg (by simp [Node.isDelta, LeafChain.isDelta]), if_pos (by simpa [Node.depth, Node.isLeaf] using h)]
  · rename_i l hi d items
    simp only [Bool.and_eq_true, Bool.or_eq_true, decide_eq_true_eq] at h
    refine key _ rfl rfl ?_
    simp only [adjustSize]
    rw [if_neg (by simp [InnerChain.isDelta]), if_neg (by omega)]
    split
    · rename_i hle
      have hroot : root = true := by
        rcases h.1 with h | h
        · exact h
        · omega
      have hp := hr hroot
      subst hp
      rfl
    · rfl
  · rename_i i n l c
    simp only [decide_eq_true_eq] at h
    refine key _ rfl ?_ rfl
    simp only [tryConsolidate]
    rw [if_neg (by simp [Node.isDelta, InnerChain.isDelta]), if_pos (by simpa [Node.depth, Node.isLeaf] using h)]
  · rename_i i p n l c
    simp only [decide_eq_true_eq] at h
    refine key _ rfl ?_ rfl
    simp only [tryConsolidate]
    rw [if_neg (by simp [Node.isDelta, InnerChain.isDelta]), if_pos (by simpa [Node.depth, Node.isLeaf] using h)]
  · cases h

/-- The node with NodeID `id`, if it is known. -/
def look (s : PMem K V) (id : NodeId) : Option (Ptr × Node K V) :=
  if id = INVALID ∨ TABLE_SIZE ≤ id then none
  else match s.table.get id with
    | none => none
    | some p => match s.heap.get p with
      | none => none
      | some n => some (p, n)

/-- `k` is below the high key. -/
def below (k : K) (n : Node K V) : Bool := decide (n.high.2 = INVALID) || decide (k < n.high.1)

/-- Memory after `n` has become the node with NodeID `id`. -/
def PMem.push (s : PMem K V) (id : NodeId) (n : Node K V) : PMem K V :=
  { s with heap := s.heap.set s.nextPtr n, nextPtr := s.nextPtr + 1, table := s.table.set id s.nextPtr }

/-- Evaluate a list before it is used. -/
def forceItems {β : Type} : List (K × V) → (List (K × V) → β) → β
  | [], g => g []
  | (a, b) :: l, g => forceItems l fun l' => g ((a, b) :: l')

/-- A chain of data records. -/
def dataTop : LeafChain K V → Bool
  | .ins _ _ _ _ _ => true
  | .del _ _ _ _ _ => true
  | _ => false

def newLeaf (s : PMem K V) (k : K) (id : NodeId) (b : Node K V) : Option (PMem K V × Snap K V) :=
  if calm false b && below k b then some (s.push id b, ⟨id, s.nextPtr, b⟩) else none

/-- Loading a leaf that is calm or a long chain of data records. -/
def settleLeaf (s : PMem K V) (k : K) (id : NodeId) (p : Ptr) (n : Node K V) : Option (PMem K V × Snap K V) :=
  if calm false n then (if below k n then some (s, ⟨id, p, n⟩) else none)
  else match n with
    | .leaf c =>
      if dataTop c && decide (LEAF_CHAIN ≤ c.depth) then match c.consolidate with
        | some (.base (l1, l2) (h1, h2) items) => forceItems items fun items => newLeaf s k id (.leaf (.base (l1, l2) (h1, h2) items))
        | _ => none
      else none
    | .inner _ => none

/-- The leaf found from the inner node `n` on. -/
def walk (s : PMem K V) (k : K) : Nat → Node K V → Option (PMem K V × Snap K V)
  | 0, _ => none
  | f + 1, n => match n with
    | .leaf _ => none
    | .inner c => match c.navigate k with
      | none => none
      | some id => match look s id with
        | none => none
        | some (p, n) =>
          if n.isLeaf then settleLeaf s k id p n
          else if calm false n && below k n then walk s k f n else none

/-- The leaf found from the root. -/
def walkRoot (s : PMem K V) (k : K) : Option (PMem K V × Snap K V) :=
  match look s s.root with
  | none => none
  | some (_, n) => if calm true n && below k n then walk s k 9 n else none

theorem forceItems_eq {β : Type} : ∀ (l : List (K × V)) (g : List (K × V) → β), forceItems l g = g l
  | [], _ => rfl
  | (a, b) :: l, g => forceItems_eq l _

theorem look_spec {s : PMem K V} {m : Mem K V} (h : Knows s m) {id : NodeId} {p : Ptr} {n : Node K V} (hc : look s id = some (p, n)) :
    ¬ (id = INVALID ∨ TABLE_SIZE ≤ id) ∧ s.table.get id = some p ∧ m.table id = some p ∧ m.heap p = some n := by
  unfold look at hc
  split at hc
  · cases hc
  · rename_i hid
    split at hc
    · cases hc
    · rename_i p' hp
      split at hc
      · cases hc
      · rename_i n' hn
        cases hc
        exact ⟨hid, hp, h.table _ _ hp, h.heap _ _ hn⟩

theorem below_spec {k : K} {n : Node K V} (h : below k n = true) : ¬ (n.high.2 ≠ INVALID ∧ n.high.1 ≤ k) := by
  simp only [below, Bool.or_eq_true, decide_eq_true_eq] at h
  intro hx
  rcases h with e | e
  · exact hx.1 e
  · exact absurd e (not_lt.mpr hx.2)

theorem navSibling_stay {ctx : Ctx K V} {k : K} (h : ¬ (ctx.cur.node.high.2 ≠ INVALID ∧ ctx.cur.node.high.1 ≤ k)) (fuel n : Nat) :
    navSibling fuel k (n + 1) ctx = .ret (some ctx) := by
  unfold navSibling
  rw [if_neg h]

theorem push_steps {α : Type} {s : PMem K V} {m : Mem K V} (h : Knows s m) {id : NodeId} {ptr : Ptr} (ht : s.table.get id = some ptr)
    (hid : ¬ (id = INVALID ∨ TABLE_SIZE ≤ id)) (n : Node K V) (ks : List Ptr) (g : Ptr → Bool → Prog K V α) :
    ∃ m', Steps m (Prog.bind (allocate n ks) fun p => Prog.bind (replace id p ptr) (g p)) m' (g s.nextPtr true) ∧ Knows (s.push id n) m' ∧
      m'.garbage = m.garbage := by
  have k1 := h.alloc n ks
  have k2 := k1.setTable id s.nextPtr
  refine ⟨_, .step (m1 := _) (p1 := Prog.bind (replace id m.nextPtr ptr) (g m.nextPtr)) rfl ?_, k2, rfl⟩
  unfold replace
  rw [if_neg hid, ← h.nextPtr]
  refine .step (p1 := g m.nextPtr true) ?_ (.refl _ _)
  show (if m.table id = some ptr then _ else _) = _
  exact if_pos (h.table _ _ ht)

theorem push_get (s : PMem K V) (id : NodeId) (n : Node K V) : (s.push id n).table.get id = some s.nextPtr := by
  show (s.table.set id s.nextPtr).get id = _
  rw [Trie.get_set]
  simp

theorem Knows.retire {s : PMem K V} {m : Mem K V} (h : Knows s m) (p : Ptr) : Knows s { m with garbage := p :: m.garbage } :=
  ⟨h.root, h.table, h.heap, h.nextId, h.nextPtr⟩

/-- What is known after the leaf has been loaded: for each record allocated one was retired. -/
structure Loads (s : PMem K V) (m : Mem K V) (k : K) (p : Prog K V (Option (Ctx K V))) (s' : PMem K V) (r : Snap K V) : Prop where
  run : ∃ m' ctx, Steps m p m' (.ret (some ctx)) ∧ ctx.cur = r ∧ Knows s' m' ∧ m.garbage.length + s'.nextPtr ≤ m'.garbage.length + s.nextPtr
  tab : s'.table.get r.id = some r.ptr
  id : ¬ (r.id = INVALID ∨ TABLE_SIZE ≤ r.id)
  high : ¬ (r.node.high.2 ≠ INVALID ∧ r.node.high.1 ≤ k)

theorem settleLeaf_spec {s s' : PMem K V} {m : Mem K V} (h : Knows s m) {k : K} {id : NodeId} {p : Ptr} {n : Node K V} {r : Snap K V}
    (hid : ¬ (id = INVALID ∨ TABLE_SIZE ≤ id)) (ht : s.table.get id = some p) (hs : settleLeaf s k id p n = some (s', r)) (par : Par K V) (level f : Nat) :
    Loads s m k (settle (finishSMO (f + 1)) { cur := ⟨id, p, n⟩, par := par, level := level }) s' r := by
  unfold settleLeaf at hs
  split at hs
  · rename_i hc
    split at hs
    · rename_i hb
      cases hs
      exact ⟨⟨m, _, by rw [calm_settle (root := false) hc (fun h => by cases h)]; exact .refl _ _, rfl, h, Nat.le_refl _⟩, ht, hid, below_spec hb⟩
    · cases hs
  · split at hs
    · rename_i c hnc
      split at hs
      · rename_i hb
        simp only [Bool.and_eq_true, decide_eq_true_eq] at hb
        split at hs
        · rename_i l1 l2 h1 h2 items hcons
          rw [forceItems_eq] at hs
          unfold newLeaf at hs
          split at hs
          · rename_i hok
            simp only [Bool.and_eq_true] at hok
            cases hs
            refine ⟨?_, push_get _ _ _, hid, below_spec hok.2⟩
            obtain ⟨m1, e1, k1, j1⟩ := push_steps h ht hid (.leaf (.base (l1, l2) (h1, h2) items)) []
              (fun q ok => Prog.bind (if ok then Prog.bind (addGarbage p) fun _ => .ret ⟨id, q, .leaf (.base (l1, l2) (h1, h2) items)⟩
                else Prog.bind (addGarbage q) fun _ => .ret ⟨id, p, .leaf c⟩) fun cur => adjustSize { cur := cur, par := par, level := level })
            have hfin : finishSMO (f + 1) ({ cur := ⟨id, p, .leaf c⟩, par := par, level := level } : Ctx K V) =
                .ret (some { cur := ⟨id, p, .leaf c⟩, par := par, level := level }) := by
              cases c <;> first | rfl | (cases hb.1; done)
            have hdelta : c.isDelta = true := by
              cases c <;> first | rfl | (cases hb.1; done)
            have htry : tryConsolidate ({ cur := ⟨id, p, .leaf c⟩, par := par, level := level } : Ctx K V) =
                Prog.bind (consolidateNode ⟨id, p, .leaf c⟩) fun cur => .ret { cur := cur, par := par, level := level } := by
              unfold tryConsolidate
              rw [if_neg (by show ¬ c.isDelta = false; rw [hdelta]; simp), if_neg (by show ¬ c.depth < LEAF_CHAIN; omega)]
              rfl
            have hset : settle (finishSMO (f + 1)) ({ cur := ⟨id, p, .leaf c⟩, par := par, level := level } : Ctx K V) =
                Prog.bind (allocate (.leaf (.base (l1, l2) (h1, h2) items)) []) fun q => Prog.bind (replace id q p)
                  fun ok => Prog.bind (if ok then Prog.bind (addGarbage p) fun _ => .ret ⟨id, q, .leaf (.base (l1, l2) (h1, h2) items)⟩
                else Prog.bind (addGarbage q) fun _ => .ret ⟨id, p, .leaf c⟩) fun cur => adjustSize { cur := cur, par := par, level := level } := by
              unfold settle
              rw [hfin]
              show Prog.bind (tryConsolidate _) _ = _
              rw [htry]
              unfold consolidateNode
              have : consolidated (Node.leaf c) = some (.leaf (.base (l1, l2) (h1, h2) items)) := by
                show (c.consolidate).map _ = _
                rw [hcons]
                rfl
              show Prog.bind (Prog.bind (match consolidated (Node.leaf c) with | none => _ | some b => _) _) _ = _
              have hrep : ∀ q, (replace id q p : Prog K V Bool) = Prog.cas id p q .ret := fun q => if_neg hid
              simp only [this, hrep]
              show Prog.alloc _ _ _ = Prog.alloc _ _ _
              congr 1
              funext q
              show Prog.cas _ _ _ _ = Prog.cas _ _ _ _
              congr 1
              funext ok
              cases ok <;> rfl
            refine ⟨_, { cur := ⟨id, s.nextPtr, .leaf (.base (l1, l2) (h1, h2) items)⟩, par := par, level := level }, ?_, rfl, k1.retire p, ?_⟩
            rotate_left
            · show m.garbage.length + (s.nextPtr + 1) ≤ (p :: m1.garbage).length + s.nextPtr
              rw [j1, List.length_cons]
              omega
            rw [hset]
            refine e1.trans' ?_
            refine .step (m1 := _) rfl ?_
            have := calm_settle (root := false) (ctx := ({ cur := ⟨id, s.nextPtr, .leaf (.base (l1, l2) (h1, h2) items)⟩, par := par, level := level } : Ctx K V)) hok.1
              (fun h => by cases h) f
            show Steps _ (adjustSize ({ cur := ⟨id, s.nextPtr, .leaf (.base (l1, l2) (h1, h2) items)⟩, par := par, level := level } : Ctx K V)) _ _
            rw [show adjustSize ({ cur := ⟨id, s.nextPtr, .leaf (.base (l1, l2) (h1, h2) items)⟩, par := par, level := level } : Ctx K V) = _ from this]
            exact .refl _ _
          · cases hs
        · cases hs
      · cases hs
    · cases hs

theorem walk_descend {s s' : PMem K V} {m : Mem K V} (h : Knows s m) {k : K} {fuel : Nat} :
    ∀ {f : Nat} {ctx : Ctx K V} {r : Snap K V} {n : Nat}, walk s k f ctx.cur.node = some (s', r) → ¬ (ctx.cur.node.high.2 ≠ INVALID ∧ ctx.cur.node.high.1 ≤ k) → f ≤ n →
      Loads s m k (descend (fuel + 1) k n ctx) s' r
  | 0, _, _, _, hw, _, _ => by cases hw
  | f + 1, ctx, r, 0, _, _, hn => by omega
  | f + 1, ctx, r, n + 1, hw, hk, hn => by
    unfold walk at hw
    split at hw
    · cases hw
    · rename_i c e
      split at hw
      · cases hw
      · rename_i id hid
        split at hw
        · cases hw
        · rename_i p nd hcn
          obtain ⟨hok, hst, ht, hh⟩ := look_spec h hcn
          have hnav : navInner (fuel + 1) k ctx = .ret (some (ctx, id)) := by
            unfold navInner
            rw [navSibling_stay hk]
            show (match ctx.cur.node with | .leaf _ => _ | .inner c => _) = _
            rw [e]
            show (match c.navigate k with | none => _ | some id => _) = _
            rw [hid]
            rfl
          have hdesc : descend (fuel + 1) k (n + 1) ctx = Prog.bind (loadChild (fuel + 1) id ctx) fun r => match r with
              | none => .ret none
              | some ctx => if ctx.cur.node.isLeaf then navSibling (fuel + 1) k (fuel + 1) ctx else descend (fuel + 1) k n ctx := by
            show Prog.bind (navInner (fuel + 1) k ctx) _ = _
            rw [hnav]
            rfl
          have hload : ∀ {m' : Mem K V} {x : Option (Ctx K V)},
              Steps m (settle (finishSMO (fuel + 1)) { cur := ⟨id, p, nd⟩, par := .snap ctx.cur, level := ctx.level + 1 }) m' (.ret x) →
              Steps m (loadChild (fuel + 1) id ctx) m' (.ret x) := by
            intro m' x hx
            unfold loadChild getNode
            rw [if_neg hok]
            exact .step (load_step _ ht hh) hx
          rw [hdesc]
          split at hw
          · rename_i hl
            have hsl := settleLeaf_spec h hok hst hw (.snap ctx.cur) (ctx.level + 1) fuel
            obtain ⟨m', ctx', h1, h2, h3, h4⟩ := hsl.run
            refine ⟨⟨m', ctx', ((hload h1).seq _).trans' ?_, h2, h3, h4⟩, hsl.tab, hsl.id, hsl.high⟩
            have hleaf : ctx'.cur.node.isLeaf = true := by
              rw [h2]
              unfold settleLeaf at hw
              split at hw
              · split at hw
                · cases hw; exact hl
                · cases hw
              · split at hw
                · split at hw
                  · split at hw
                    · rw [forceItems_eq] at hw
                      unfold newLeaf at hw
                      split at hw
                      · cases hw; rfl
                      · cases hw
                    · cases hw
                  · cases hw
                · cases hw
            show Steps m' (if ctx'.cur.node.isLeaf then _ else _) m' _
            rw [if_pos hleaf, navSibling_stay (by rw [h2]; exact hsl.high)]
            exact .refl _ _
          · rename_i hl
            split at hw
            · rename_i hb
              simp only [Bool.and_eq_true] at hb
              have := walk_descend h (fuel := fuel) (ctx := { cur := ⟨id, p, nd⟩, par := .snap ctx.cur, level := ctx.level + 1 }) hw (below_spec hb.2)
                (Nat.le_of_succ_le_succ hn)
              obtain ⟨m', ctx', h1, h2, h3, h4⟩ := this.run
              refine ⟨⟨m', ctx', ((hload (m' := m) (x := some { cur := ⟨id, p, nd⟩, par := .snap ctx.cur, level := ctx.level + 1 }) ?_).seq _).trans' ?_, h2, h3, h4⟩, this.tab,
                this.id, this.high⟩
              · rw [calm_settle (root := false) (f := fuel) hb.1 (fun h => by cases h)]
                exact .refl _ _
              · show Steps m (if nd.isLeaf then _ else _) _ _
                rw [if_neg hl]
                exact h1
            · cases hw

theorem walk_traverse {s s' : PMem K V} {m : Mem K V} (h : Knows s m) {k : K} {r : Snap K V} (hw : walkRoot s k = some (s', r)) (fuel n : Nat) :
    ∃ m' ctx, Steps m (traverse (fuel + 9) k (n + 1)) m' (.ret ctx) ∧ ctx.cur = r ∧ Knows s' m' ∧ s'.table.get r.id = some r.ptr ∧
      ¬ (r.id = INVALID ∨ TABLE_SIZE ≤ r.id) ∧ m.garbage.length + s'.nextPtr ≤ m'.garbage.length + s.nextPtr := by
  unfold walkRoot at hw
  split at hw
  · cases hw
  · rename_i p nd hcn
    split at hw
    · rename_i hb
      simp only [Bool.and_eq_true] at hb
      obtain ⟨hok, hst, ht, hh⟩ := look_spec h hcn
      have hd := walk_descend h (fuel := fuel + 8) (n := fuel + 9) (ctx := { cur := ⟨s.root, p, nd⟩, par := .root, level := 0 }) hw (below_spec hb.2)
        (by omega)
      obtain ⟨m', ctx', h1, h2, h3, h4⟩ := hd.run
      refine ⟨m', ctx', ?_, h2, h3, hd.tab, hd.id, h4⟩
      have hload : Steps m (loadRootNode (fuel + 9) s.root) m (.ret (some { cur := ⟨s.root, p, nd⟩, par := .root, level := 0 })) := by
        unfold loadRootNode getNode
        rw [if_neg hok]
        refine .step (load_step _ ht hh) ?_
        show Steps m (settle (finishSMO (fuel + 8 + 1)) _) m _
        rw [calm_settle (root := true) (f := fuel + 8) hb.1 (fun _ => rfl)]
        exact .refl _ _
      have htry : Steps m (tryTraverse (fuel + 9) k) m' (.ret (some ctx')) := by
        refine .step (m1 := m) rfl ?_
        show Steps m (Prog.bind (loadRootNode (fuel + 9) m.root) _) m' _
        rw [h.root]
        exact (hload.seq _).trans' h1
      exact (htry.seq _).trans' (.refl _ _)
    · cases hw

/-- Insert and Delete when they meet nothing to complete and change the leaf. -/
def fastOp (s : PMem K V) : Call K V → Option (PMem K V)
  | .api (.insert k v) => match walkRoot s k with
    | some (s', ⟨id, _, .leaf c⟩) => match c.findValue k v with
      | some (false, i, e) => some (s'.push id (.leaf (.ins k v i e c)))
      | _ => none
    | _ => none
  | .api (.delete k v) => match walkRoot s k with
    | some (s', ⟨id, _, .leaf c⟩) => match c.findValue k v with
      | some (true, i, e) => some (s'.push id (.leaf (.del k v i e c)))
      | _ => none
    | _ => none
  | _ => none

theorem fastOp_steps {s s' : PMem K V} {m : Mem K V} (h : Knows s m) {op : Call K V} (hf : fastOp s op = some s') (fuel : Nat) :
    ∃ m' a, Steps m (prog (fuel + 9) op) m' (.ret a) ∧ Knows s' m' ∧ m.garbage.length + s'.nextPtr ≤ m'.garbage.length + s.nextPtr + 1 := by
  unfold fastOp at hf
  split at hf
  · rename_i k v
    split at hf
    · rename_i s1 id p c hw
      split at hf
      · rename_i i e hv
        cases hf
        obtain ⟨m1, ctx, h1, h2, h3, ht, hid, hgb⟩ := walk_traverse h hw fuel (fuel + 8)
        obtain ⟨m', h4, h5, h6⟩ := push_steps h3 ht hid (.leaf (.ins k v i e c)) [p] (fun _ ok => if ok then .ret true else insert (fuel + 9) k v (fuel + 8))
        have hins : Steps m (insert (fuel + 9) k v (fuel + 9)) m' (.ret true) := by
          refine ((h1.seq _).trans' ?_)
          show Steps m1 (match ctx.cur.node with | .inner _ => _ | .leaf c => _) _ _
          rw [h2]
          show Steps m1 (match c.findValue k v with | none => _ | some (true, _, _) => _ | some (false, i, e) => _) _ _
          rw [hv]
          exact h4
        exact ⟨m', _, hins.seq _, h5, by rw [h6]; show m.garbage.length + (s1.nextPtr + 1) ≤ _; omega⟩
      · cases hf
    · cases hf
  · rename_i k v
    split at hf
    · rename_i s1 id p c hw
      split at hf
      · rename_i i e hv
        cases hf
        obtain ⟨m1, ctx, h1, h2, h3, ht, hid, hgb⟩ := walk_traverse h hw fuel (fuel + 8)
        obtain ⟨m', h4, h5, h6⟩ := push_steps h3 ht hid (.leaf (.del k v i e c)) [p] (fun _ ok => if ok then .ret true else delete (fuel + 9) k v (fuel + 8))
        have hdel : Steps m (delete (fuel + 9) k v (fuel + 9)) m' (.ret true) := by
          refine ((h1.seq _).trans' ?_)
          show Steps m1 (match ctx.cur.node with | .inner _ => _ | .leaf c => _) _ _
          rw [h2]
          show Steps m1 (match c.findValue k v with | none => _ | some (false, _, _) => _ | some (true, i, e) => _) _ _
          rw [hv]
          exact h4
        exact ⟨m', _, hdel.seq _, h5, by rw [h6]; show m.garbage.length + (s1.nextPtr + 1) ≤ _; omega⟩
      · cases hf
    · cases hf
  · cases hf

/-! ### Histories -/

/-- A whole call. -/
def callP (s : PMem K V) (op : Call K V) : Option (PMem K V) :=
  match fastOp s op with
  | some s' => some s'
  | none => match runP 200 s (prog 100 op) with
    | (s', .ret _) => some s'
    | _ => none

/-- The calls `f (b - n)`, …, `f (b - 1)`, one after the other. -/
def callsP (f : Nat → Call K V) (b : Nat) : Nat → PMem K V → Option (PMem K V)
  | 0, s => some s
  | n + 1, s => match callP s (f (b - (n + 1))) with
    | none => none
    | some s' => callsP f b n s'

/-- A configuration that is reachable from `c` by whole calls of thread `t`. -/
structure Onward (t : Tid) (c c' : Conf K V) : Prop where
  reach : Reach c → Reach c'
  thr : c'.thr = c.thr
  hist : ∃ l, c'.hist = c.hist ++ l ∧ ∀ e ∈ l, e.tid = t

theorem Onward.refl (t : Tid) (c : Conf K V) : Onward t c c := ⟨id, rfl, [], (List.append_nil _).symm, fun _ h => (by cases h)⟩

theorem Onward.trans {t : Tid} {c1 c2 c3 : Conf K V} (h1 : Onward t c1 c2) (h2 : Onward t c2 c3) : Onward t c1 c3 :=
  ⟨fun h => h2.reach (h1.reach h), h2.thr.trans h1.thr, by
    obtain ⟨l1, e1, k1⟩ := h1.hist
    obtain ⟨l2, e2, k2⟩ := h2.hist
    exact ⟨l1 ++ l2, by rw [e2, e1, List.append_assoc], fun e he => (List.mem_append.mp he).elim (k1 e) (k2 e)⟩⟩

theorem Steps.reach {t : Tid} {m m' : Mem K V} {p p' : Prog K V (Ans K V)} (h : Steps m p m' p') (thr : Tid → Option (Prog K V (Ans K V)))
    (hist : List (Lin.Event (Call K V) (Ans K V))) : Reach ⟨m, setThr thr t (some p), hist⟩ → Reach ⟨m', setThr thr t (some p'), hist⟩ := by
  induction h with
  | refl m p => exact fun h => h
  | step h _ ih =>
    intro hr
    have := hr.step (.step _ t _ _ _ (by simp [setThr]) h)
    exact ih (by simpa [setThr_setThr] using this)

theorem Steps.onward {t : Tid} {c : Conf K V} (hidle : c.thr t = none) {fuel : Nat} {op : Call K V} {m : Mem K V} {a : Ans K V}
    (h : Steps c.mem (prog fuel op) m (.ret a)) : Onward t c ⟨m, c.thr, c.hist ++ [.call t op] ++ [.ret t a]⟩ := by
  refine ⟨fun hr => ?_, rfl, [.call t op, .ret t a], by simp, fun e he => ?_⟩
  rotate_left
  · simp only [List.mem_cons, List.not_mem_nil, or_false] at he
    rcases he with rfl | rfl <;> rfl
  have h1 := hr.step (.call c t fuel op hidle)
  have h2 := h.reach _ _ h1
  have h3 := h2.step (.ret _ t a (by simp [setThr]))
  rw [setThr_setThr, setThr_same hidle] at h3
  exact h3

theorem callP_onward {t : Tid} {c : Conf K V} (hidle : c.thr t = none) {s s' : PMem K V} (h : Knows s c.mem) {op : Call K V} (hc : callP s op = some s') :
    ∃ c', Onward t c c' ∧ Knows s' c'.mem := by
  unfold callP at hc
  split at hc
  · rename_i s1 hf
    cases hc
    obtain ⟨m', a, h1, h2, _⟩ := fastOp_steps h hf 0
    exact ⟨_, h1.onward hidle, h2⟩
  · split at hc
    · rename_i s1 a hr
      cases hc
      obtain ⟨m', h1, h2⟩ := runP_steps 200 (prog 100 op) h
      rw [hr] at h1 h2
      exact ⟨_, h1.onward hidle, h2⟩
    · cases hc

theorem callsP_onward {t : Tid} {f : Nat → Call K V} {b : Nat} : ∀ {n : Nat} {c : Conf K V} {s s' : PMem K V}, c.thr t = none → Knows s c.mem →
    callsP f b n s = some s' → ∃ c', Onward t c c' ∧ Knows s' c'.mem
  | 0, c, s, s', _, h, hc => by cases hc; exact ⟨c, .refl t c, h⟩
  | n + 1, c, s, s', hidle, h, hc => by
    unfold callsP at hc
    split at hc
    · cases hc
    · rename_i s1 h1
      obtain ⟨c1, o1, k1⟩ := callP_onward hidle h h1
      obtain ⟨c2, o2, k2⟩ := callsP_onward (o1.thr ▸ hidle) k1 hc
      exact ⟨c2, o1.trans o2, k2⟩

/-! ### Written-down states -/

/-- Some nodes with their NodeIDs and addresses. -/
structure Rows (K V : Type) where
  root : NodeId
  nextId : NodeId
  nextPtr : Ptr
  rows : List (NodeId × Ptr × Node K V)

def addRows (s : PMem K V) : List (NodeId × Ptr × Node K V) → PMem K V
  | [] => s
  | x :: l => addRows { s with table := s.table.set x.1 x.2.1, heap := s.heap.set x.2.1 x.2.2 } l

def Rows.mem (r : Rows K V) : PMem K V := addRows ⟨r.root, .nil, .nil, r.nextId, r.nextPtr⟩ r.rows

/-- Memory holds these rows. -/
structure HasRows (r : Rows K V) (m : Mem K V) : Prop where
  root : m.root = r.root
  nextId : m.nextId = r.nextId
  nextPtr : m.nextPtr = r.nextPtr
  rows : ∀ x ∈ r.rows, m.table x.1 = some x.2.1 ∧ m.heap x.2.1 = some x.2.2

theorem addRows_knows {m : Mem K V} : ∀ {l : List (NodeId × Ptr × Node K V)} {s : PMem K V}, Knows s m →
    (∀ x ∈ l, m.table x.1 = some x.2.1 ∧ m.heap x.2.1 = some x.2.2) → Knows (addRows s l) m
  | [], _, h, _ => h
  | x :: l, s, h, hl => by
    refine addRows_knows (s := { s with table := s.table.set x.1 x.2.1, heap := s.heap.set x.2.1 x.2.2 }) ?_ fun y hy => hl y (List.mem_cons_of_mem _ hy)
    obtain ⟨h1, h2⟩ := hl x List.mem_cons_self
    refine ⟨h.root, fun i q hq => ?_, fun p q hq => ?_, h.nextId, h.nextPtr⟩
    · have hq : (s.table.set x.1 x.2.1).get i = some q := hq
      rw [Trie.get_set] at hq
      by_cases e : i = x.1
      · simp only [e, if_true] at hq; rw [e, h1, hq]
      · simp only [e, if_false] at hq; exact h.table i q hq
    · have hq : (s.heap.set x.2.1 x.2.2).get p = some q := hq
      rw [Trie.get_set] at hq
      by_cases e : p = x.2.1
      · simp only [e, if_true] at hq; rw [e, h2, hq]
      · simp only [e, if_false] at hq; exact h.heap p q hq

theorem HasRows.knows {r : Rows K V} {m : Mem K V} (h : HasRows r m) : Knows r.mem m :=
  addRows_knows ⟨h.root, fun i p hp => (by cases hp), fun i p hp => (by cases hp), h.nextId, h.nextPtr⟩ h.rows

def rowsIn [DecidableEq (Node K V)] (s : PMem K V) : List (NodeId × Ptr × Node K V) → Bool
  | [] => true
  | x :: l => match decide (s.table.get x.1 = some x.2.1) && decide (s.heap.get x.2.1 = some x.2.2) with
    | true => rowsIn s l
    | false => false

/-- The partial memory holds these rows. -/
def Rows.holds [DecidableEq (Node K V)] (r : Rows K V) (s : PMem K V) : Bool :=
  decide (s.root = r.root) && decide (s.nextId = r.nextId) && decide (s.nextPtr = r.nextPtr) && rowsIn s r.rows

theorem rowsIn_spec [DecidableEq (Node K V)] {s : PMem K V} : ∀ {l : List (NodeId × Ptr × Node K V)}, rowsIn s l = true →
    ∀ x ∈ l, s.table.get x.1 = some x.2.1 ∧ s.heap.get x.2.1 = some x.2.2
  | [], _, x, hx => by cases hx
  | y :: l, h, x, hx => by
    unfold rowsIn at h
    split at h
    · rename_i hb
      simp only [Bool.and_eq_true, decide_eq_true_eq] at hb
      rcases List.mem_cons.mp hx with rfl | hx
      · exact hb
      · exact rowsIn_spec h x hx
    · cases h

theorem Rows.holds_spec [DecidableEq (Node K V)] {r : Rows K V} {s : PMem K V} {m : Mem K V} (h : r.holds s = true) (hk : Knows s m) : HasRows r m := by
  simp only [Rows.holds, Bool.and_eq_true, decide_eq_true_eq] at h
  obtain ⟨⟨⟨h1, h2⟩, h3⟩, h4⟩ := h
  refine ⟨hk.root.trans h1, hk.nextId.trans h2, hk.nextPtr.trans h3, fun x hx => ?_⟩
  have := rowsIn_spec h4 x hx
  exact ⟨hk.table _ _ this.1, hk.heap _ _ this.2⟩

/-- From one written-down state, these calls lead to the other. -/
def leads [DecidableEq (Node K V)] (f : Nat → Call K V) (b n : Nat) (r r' : Rows K V) : Bool :=
  match callsP f b n r.mem with
  | none => false
  | some s => r'.holds s

theorem leads_onward [DecidableEq (Node K V)] {t : Tid} {f : Nat → Call K V} {b n : Nat} {r r' : Rows K V} (h : leads f b n r r' = true) {c : Conf K V}
    (hidle : c.thr t = none) (hr : HasRows r c.mem) : ∃ c', Onward t c c' ∧ HasRows r' c'.mem := by
  unfold leads at h
  split at h
  · cases h
  · rename_i s hs
    obtain ⟨c', o, k⟩ := callsP_onward hidle hr.knows hs
    exact ⟨c', o, Rows.holds_spec h k⟩

end Tree
end BwTree
