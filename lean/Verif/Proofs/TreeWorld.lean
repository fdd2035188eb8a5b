import Verif.Spec.Tree
import Verif.Model.RemovedId
import Verif.Proofs.TreeIds
import Verif.Proofs.Lin
import Verif.Proofs.LeafSteps
import Verif.Proofs.Split

/-!
  The invariant of the shared tree, what one thread may assume about the steps of the others, and a rely/guarantee logic for
  `Prog`.
-/

namespace BwTree
namespace Tree

open Prog

variable {K V : Type} [LinearOrder K] [DecidableEq V] [Inhabited K]

/-- Who is responsible for the memory at an address. -/
inductive Owner where
  /-- not allocated -/
  | free
  /-- allocated by a thread and never visible to others -/
  | mine (t : Tid)
  /-- taken out of the tree by a thread that has yet to hand it to the epoch manager -/
  | owed (t : Tid)
  /-- mapped at a NodeID -/
  | tab (id : NodeId)
  /-- below the record at that address -/
  | cell (q : Ptr)
  /-- handed to the epoch manager -/
  | trash

/-- Not visible to other threads. -/
def Owner.Hidden : Owner → Prop
  | .free => True
  | .mine _ => True
  | _ => False

/-- Handed to the epoch manager, or about to be. -/
def Owner.Gone (o : Owner) : Prop := o = .trash ∨ ∃ t, o = .owed t

/-- Only the given thread changes it. -/
def Owner.Of (o : Owner) (t : Tid) : Prop := o = .mine t ∨ o = .owed t

/-- Shared memory with the history variables of the proof. -/
structure World (K V : Type) where
  mem : Mem K V
  /-- NodeIDs that are part of the tree: lower end of their key range, and level (leaves are 0) -/
  info : NodeId → Option (Option K × Nat)
  /-- addresses that were mapped at a NodeID of the tree at some time -/
  pub : NodeId → Ptr → Prop
  /-- NodeIDs a thread has drawn and not made part of the tree -/
  own : NodeId → Option Tid
  /-- NodeIDs with an abort record, and the thread that posted it -/
  lock : NodeId → Option Tid
  /-- NodeIDs merged into their left sibling -/
  dead : NodeId → Prop
  /-- NodeIDs whose separator was deleted from the parent -/
  del : NodeId → Prop
  /-- owner of each address -/
  ow : Ptr → Owner
  /-- contents of the tree since the beginning -/
  sets : List (Spec.PairSet K V)
  tok : Tid → Lin.Tok (Call K V) (Ans K V)

namespace World

/-- Lower ends of published NodeIDs. -/
def lo (w : World K V) : NodeId → Option (Option K) := fun id => (w.info id).map (·.1)

/-- The node currently mapped at a NodeID. -/
def At (w : World K V) (id : NodeId) (p : Ptr) (n : Node K V) : Prop := w.mem.table id = some p ∧ w.mem.heap p = some n

/-- The NodeID is part of the tree and its node is removed. -/
def Removed (w : World K V) (id : NodeId) : Prop := ∃ x p n, w.info id = some x ∧ w.At id p n ∧ n.isRemove = true

/-- The address is mapped at the NodeID, or hidden there by an abort record. -/
def Cur (w : World K V) (id : NodeId) (p : Ptr) : Prop :=
  w.mem.table id = some p ∨ ∃ a c, w.At id a (.inner (.abort p c))

end World

/-- Without the remove or abort record on top. -/
def Node.strip : Node K V → Node K V
  | .leaf (.remove _ c) => .leaf c
  | .inner (.remove _ c) => .inner c
  | .inner (.abort _ c) => .inner c
  | n => n

/-- No remove or abort record on top. -/
def Node.clean : Node K V → Bool
  | .leaf (.remove _ _) => false
  | .inner (.remove _ _) => false
  | .inner (.abort _ _) => false
  | _ => true

/-- NodeID of the merged node when a merge record is on top. -/
def Node.merged : Node K V → Option (K × NodeId)
  | .leaf (.merge k id _ _) => some (k, id)
  | .inner (.merge k id _ _) => some (k, id)
  | _ => none

/-- NodeID whose separator is deleted by the record on top. -/
def Node.deletes : Node K V → Option NodeId
  | .inner (.del item _ _ _ _) => some item.2
  | _ => none

/-- NodeID of the new right sibling when a split record is on top. -/
def Node.splits : Node K V → Option NodeId
  | .leaf (.split _ id _ _) => some id
  | .inner (.split item _ _) => some item.2
  | _ => none

/-- Children of the logical node. -/
def Node.eff : Node K V → List NodeId
  | .leaf _ => []
  | .inner c => (c.low :: c.seps).map (·.2)

/-- A logical node of level `n` whose range begins at `lk`. -/
def Body (w : World K V) (lk : Option K) (n : Nat) (node : Node K V) : Prop :=
  (node.high.2 = INVALID ∨ w.info node.high.2 = some (some node.high.1, n)) ∧
  (∀ k, lk = some k → Below node.high k) ∧
  (∀ m, node.merged = some m → w.dead m.2) ∧
  match node with
  | .leaf c => n = 0 ∧ c.WF ∧ (lk = none → c.low.2 = INVALID) ∧ ∀ k, lk = some k → c.low.2 ≠ INVALID ∧ c.low.1 = k
  | .inner c => ∃ m, n = m + 1 ∧ c.WF w.lo lk ∧ ∀ id ∈ c.childIds, ∃ l, w.info id = some (l, m)

/-- A node that may be mapped at `id`. -/
def NodeOK (w : World K V) (id : NodeId) (lk : Option K) (n : Nat) (node : Node K V) : Prop :=
  Body w lk n node.strip ∧
  ∀ q c, node = .inner (.abort q c) → w.pub id q ∧ w.mem.heap q = some (.inner c)

/-- Part of the tree and not merged away. -/
def Live (w : World K V) (n : Nat) (id : NodeId) : Prop := (∃ lk, w.info id = some (lk, n)) ∧ ¬ w.dead id

/-- `k` is in the current range of the live node `id` of level `n`. -/
def Covers (w : World K V) (n : Nat) (id : NodeId) (k : K) : Prop :=
  ∃ lk p node, w.info id = some (lk, n) ∧ ¬ w.dead id ∧ w.At id p node ∧ AtLeast lk k ∧ Below node.high k

/-- The pairs stored in live leaves. -/
def abs (w : World K V) : Spec.PairSet K V := fun k v =>
  ∃ id lk p c, w.info id = some (lk, 0) ∧ ¬ w.dead id ∧ w.At id p (.leaf c) ∧ c.Has k v

/-- Every allocated address has one owner. -/
structure OwInv (w : World K V) : Prop where
  free : ∀ p, w.ow p = .free ↔ w.mem.heap p = none
  klt : ∀ p n, w.mem.heap p = some n → ChildrenOk w.mem.heap (w.mem.kids p) n ∧ ∀ c ∈ w.mem.kids p, c < p ∧ ∃ m, w.mem.heap c = some m
  pub : ∀ id p, w.pub id p → ¬ (w.ow p).Hidden
  tab : ∀ id x p, w.info id = some x → w.mem.table id = some p → w.ow p = .tab id ∨ w.del id
  nd : ∀ p, ¬ (w.ow p).Hidden → (w.mem.follow p).Nodup
  kid : ∀ p, ¬ (w.ow p).Hidden → ∀ c ∈ w.mem.follow p, w.ow c = .cell p
  abort : ∀ id x a o c, w.info id = some x → w.At id a (.inner (.abort o c)) → w.ow o = .cell a
  rem : ∀ r x p n, w.info r = some x → w.At r p n → n.isRemove = true → ¬ w.dead r → ∃ y, w.mem.kids p = [y] ∧ w.ow y = .cell p
  trash : ∀ p, w.ow p = .trash ↔ p ∈ w.mem.garbage
  nodup : w.mem.garbage.Nodup
  btab : ∀ p id, w.ow p = .tab id → w.mem.table id = some p ∧ ∃ x, w.info id = some x
  bcell : ∀ c p, w.ow c = .cell p → ¬ (w.ow p).Hidden ∧ (c ∈ w.mem.follow p ∨ ∃ id n, w.ow p = .tab id ∧ w.mem.heap p = some n ∧
    c ∈ w.mem.kids p ∧ (n.isAbort = true ∨ (n.isRemove = true ∧ ¬ w.dead id)))

/-- The remove record at `p` names NodeID `r`: it is mapped nowhere else in the tree, and mapped there, or `r` will never be part of the tree. -/
def Rmv (w : World K V) (p : Ptr) (r : NodeId) : Prop :=
  (∀ i x, w.info i = some x → w.mem.table i = some p → i = r) ∧
  (((∃ x, w.info r = some x) ∧ w.mem.table r = some p) ∨ (w.info r = none ∧ w.own r = none ∧ r < w.mem.nextId))

/-- A node whose separator was deleted is not a child of any live node. -/
structure DelInv (w : World K V) : Prop where
  dead : ∀ r, w.del r → w.dead r
  top : ∀ r, w.del r → ∃ l n q l', w.info r = some (l, n) ∧ w.info q = some (l', n + 1)
  sep : ∀ r, w.del r → ∀ n id p node, Live w n id → w.At id p node → r ∉ node.eff
  recs : ∀ p n r, w.mem.heap p = some n → ¬ (w.ow p).Hidden → n.deletes = some r → w.del r
  gone : ∀ r p, w.del r → w.mem.table r = some p → (w.ow p).Gone
  rmv : ∀ p n r, w.mem.heap p = some n → ¬ (w.ow p).Hidden → n.removedId = some r → Rmv w p r
  spl : ∀ p n r, w.mem.heap p = some n → ¬ (w.ow p).Hidden → n.splits = some r → ∃ x, w.info r = some x

structure Inv (w : World K V) : Prop where
  ids : ∀ id x, w.info id = some x → id ≠ INVALID ∧ id < TABLE_SIZE ∧ id < w.mem.nextId
  own : ∀ id t, w.own id = some t → w.info id = none ∧ id ≠ INVALID ∧ id < w.mem.nextId
  nextId : 0 < w.mem.nextId
  heapLt : ∀ p n, w.mem.heap p = some n → p < w.mem.nextPtr
  cur : ∀ id x, w.info id = some x → ∃ p, w.mem.table id = some p ∧ w.pub id p
  ok : ∀ id p, w.pub id p → ∃ lk n node, w.info id = some (lk, n) ∧ w.mem.heap p = some node ∧ NodeOK w id lk n node
  lock : ∀ id t, w.lock id = some t → ∃ x p q c, w.info id = some x ∧ w.At id p (.inner (.abort q c))
  root : ∃ n, w.info w.mem.root = some (none, n + 1) ∧ ∀ id lk m, w.info id = some (lk, m) → m ≤ n + 1
  dead : ∀ id, w.dead id → w.Removed id
  keep : ∀ id n, w.info id = some (none, n) → ¬ w.Removed id
  next : ∀ n id p node, Live w n id → w.At id p node → node.high.2 = INVALID ∨ Live w n node.high.2
  disj : ∀ n x y k, Covers w n x k → Covers w n y k → x = y
  lowU : ∀ n x y, w.info x = some (none, n) → w.info y = some (none, n) → x = y
  pred : ∀ n id k, w.info id = some (some k, n) → ¬ w.dead id → ∃ x p node, Live w n x ∧ w.At x p node ∧ node.high = (k, id)
  first : w.info FIRST_LEAF = some (none, 0)
  sets : w.sets.getLast? = some (abs w)
  ow : OwInv w
  dl : DelInv w
  abort : ∀ id x p q c, w.info id = some x → w.At id p (.inner (.abort q c)) → ∃ t, w.lock id = some t

/-- What never changes again, whoever steps: addresses stored in a node; an address that is no longer current does not come back; a
separator is deleted from every current node that could hold it. -/
structure GMono (w w' : World K V) : Prop where
  kids : ∀ p n, w.mem.heap p = some n → w'.mem.kids p = w.mem.kids p
  cur : ∀ id p, w.pub id p → w'.Cur id p → w.Cur id p
  del : ∀ r, w.del r → w'.del r
  delNew : ∀ r k n, w.info r = some (some k, n) → w'.del r → w.del r ∨ ∀ id lp p c, w.info id = some (lp, n + 1) → w.pub id p →
    w.mem.heap p = some (.inner c) → (Node.inner c : Node K V).clean = true → Above lp k → Below c.high k → ¬ w'.Cur id p
  vis : ∀ p, ¬ (w.ow p).Hidden → ¬ (w'.ow p).Hidden

/-- What never changes again, whoever steps. -/
structure Mono (w w' : World K V) : Prop where
  info : ∀ id x, w.info id = some x → w'.info id = some x
  heap : ∀ p n, w.mem.heap p = some n → w'.mem.heap p = some n
  pub : ∀ id p, w.pub id p → w'.pub id p
  removed : ∀ id x p n, w.info id = some x → w.At id p n → n.isRemove = true → w'.mem.table id = some p
  dead : ∀ id, w.dead id → w'.dead id
  sets : ∃ e, w'.sets = w.sets ++ e
  gh : GMono w w'

/-- What only thread `u` changes. -/
structure Priv (u : Tid) (w w' : World K V) : Prop where
  own : ∀ id, w.own id = some u → w'.own id = some u ∧ w'.mem.table id = w.mem.table id
  lock : ∀ id, w.lock id = some u → w'.lock id = some u ∧ w'.mem.table id = w.mem.table id
  tok : w'.tok u = w.tok u
  ow : ∀ p, (w.ow p).Of u → w'.ow p = w.ow p
  owB : ∀ p, w'.ow p = .owed u → w.ow p = .owed u
  lockB : ∀ id, w'.lock id = some u → w.lock id = some u

/-- Effect of one step of thread `t` on the specification: nothing, or the commit of its update. -/
def LinStep (t : Tid) (w w' : World K V) : Prop :=
  (w'.sets = w.sets ∧ w'.tok = w.tok) ∨
  ∃ op pos start r S S', w.tok t = .pending op pos start ∧ w.sets.getLast? = some S ∧ tstep S op r S' ∧
    w'.sets = w.sets ++ [S'] ∧ w'.tok = Lin.upd w.tok t (.done op pos r)

/-- How the history variables follow the memory: a NodeID becomes part of the tree as the new root or as the right sibling named by a
new node, and is merged away when a merge record naming it is installed. -/
structure GStep (w w' : World K V) : Prop where
  info : ∀ id x, w'.info id = some x → w.info id = some x ∨ (w'.mem.root = id ∧ w.mem.root ≠ id) ∨
    ∃ q y p n, w.info q = some y ∧ w'.At q p n ∧ n.high.2 = id ∧ ¬ w.At q p n
  dead : ∀ id, w'.dead id → w.dead id ∨ ∃ q y p n k, w.info q = some y ∧ w'.At q p n ∧ n.merged = some (k, id) ∧ ¬ w.At q p n

theorem GStep.same {w w' : World K V} (h1 : w'.info = w.info) (h2 : w'.dead = w.dead) : GStep w w' :=
  ⟨fun id x h => Or.inl (h1 ▸ h), fun id h => Or.inl (h2 ▸ h)⟩

/-- What thread `t` may assume about steps of other threads. -/
def Rely (t : Tid) (w w' : World K V) : Prop := Mono w w' ∧ Priv t w w'

/-- What a step of thread `t` satisfies. -/
def Guar (t : Tid) (w w' : World K V) : Prop := Mono w w' ∧ (∀ u, u ≠ t → Priv u w w') ∧ LinStep t w w' ∧ GStep w w'

theorem Mono.refl (w : World K V) : Mono w w :=
  ⟨fun _ _ h => h, fun _ _ h => h, fun _ _ h => h, fun _ _ _ _ _ h _ => h.1, fun _ h => h, ⟨[], by simp⟩,
    ⟨fun _ _ _ => rfl, fun _ _ _ h => h, fun _ h => h, fun _ _ _ _ h => Or.inl h, fun _ h => h⟩⟩

theorem Mono.trans {a b c : World K V} (h1 : Mono a b) (h2 : Mono b c) : Mono a c where
  info id x h := h2.info id x (h1.info id x h)
  heap p n h := h2.heap p n (h1.heap p n h)
  pub id p h := h2.pub id p (h1.pub id p h)
  removed id x p n hx h hr := h2.removed id x p n (h1.info id x hx) ⟨h1.removed id x p n hx h hr, h1.heap p n h.2⟩ hr
  dead id h := h2.dead id (h1.dead id h)
  sets := by
    obtain ⟨e1, h1⟩ := h1.sets
    obtain ⟨e2, h2⟩ := h2.sets
    exact ⟨e1 ++ e2, by rw [h2, h1, List.append_assoc]⟩
  gh := by
    refine ⟨fun p n hp => (h2.gh.kids p n (h1.heap p n hp)).trans (h1.gh.kids p n hp),
      fun id p hp hc => h1.gh.cur id p hp (h2.gh.cur id p (h1.pub id p hp) hc), fun r hr => h2.gh.del r (h1.gh.del r hr), ?_,
      fun p hp => h2.gh.vis p (h1.gh.vis p hp)⟩
    intro r k n hr hd
    rcases h2.gh.delNew r k n (h1.info _ _ hr) hd with hd' | hd'
    · rcases h1.gh.delNew r k n hr hd' with hd'' | hd''
      · exact Or.inl hd''
      · exact Or.inr fun id lp p c x1 x2 x3 x4 x5 x6 hc => hd'' id lp p c x1 x2 x3 x4 x5 x6 (h2.gh.cur id p (h1.pub id p x2) hc)
    · exact Or.inr fun id lp p c x1 x2 x3 x4 x5 x6 hc =>
        hd' id lp p c (h1.info _ _ x1) (h1.pub _ _ x2) (h1.heap _ _ x3) x4 x5 x6 hc

theorem Priv.refl (u : Tid) (w : World K V) : Priv u w w := ⟨fun _ h => ⟨h, rfl⟩, fun _ h => ⟨h, rfl⟩, rfl, fun _ _ => rfl,
  fun _ h => h, fun _ h => h⟩

theorem Priv.trans {u : Tid} {a b c : World K V} (h1 : Priv u a b) (h2 : Priv u b c) : Priv u a c where
  own id h := by
    obtain ⟨x1, x2⟩ := h1.own id h
    obtain ⟨y1, y2⟩ := h2.own id x1
    exact ⟨y1, y2.trans x2⟩
  lock id h := by
    obtain ⟨x1, x2⟩ := h1.lock id h
    obtain ⟨y1, y2⟩ := h2.lock id x1
    exact ⟨y1, y2.trans x2⟩
  tok := h2.tok.trans h1.tok
  ow p h := by
    have e := h1.ow p h
    exact (h2.ow p (by rw [e]; exact h)).trans e
  owB p h := h1.owB p (h2.owB p h)
  lockB id h := h1.lockB id (h2.lockB id h)

theorem Rely.refl (t : Tid) (w : World K V) : Rely t w w := ⟨Mono.refl w, Priv.refl t w⟩

theorem Rely.trans {t : Tid} {a b c : World K V} (h1 : Rely t a b) (h2 : Rely t b c) : Rely t a c :=
  ⟨h1.1.trans h2.1, h1.2.trans h2.2⟩

theorem Guar.rely {t u : Tid} {a b : World K V} (h : Guar t a b) (hu : u ≠ t) : Rely u a b := ⟨h.1, h.2.1 u hu⟩

/-- A step of `t` from `w` leads to memory `m'`, respecting the guarantee and the invariant, and then `φ` holds. -/
def Next (t : Tid) (w : World K V) (m' : Mem K V) (φ : World K V → Prop) : Prop :=
  ∃ w', w'.mem = m' ∧ Guar t w w' ∧ Inv w' ∧ φ w'

/-- Weakest precondition: from any world that thread `t` last left as `w`, the program runs safely under interference (failing at
most with a reason in `allow`), reads and replaces only entries of the tree, fills only entries of NodeIDs it was given, respects the guarantee at each
step, and ends in `Q`. -/
def wp {α : Type} (t : Tid) (allow : Fail → Prop) : Prog K V α → (α → World K V → Prop) → World K V → Prop
  | .ret a, Q, w => Q a w
  | .fail f, _, _ => allow f
  | .spin, _, _ => True
  | .loadRoot k, Q, w => ∀ w1, Rely t w w1 → Inv w1 → Next t w1 w1.mem (wp t allow (k w1.mem.root) Q)
  | .casRoot o n k, Q, w => ∀ w1, Rely t w w1 → Inv w1 →
      (w1.mem.root = o → Next t w1 { w1.mem with root := n } (wp t allow (k true) Q)) ∧
      (w1.mem.root ≠ o → Next t w1 w1.mem (wp t allow (k false) Q))
  | .load id k, Q, w => ∀ w1, Rely t w w1 → Inv w1 →
      (∀ p n, w1.At id p n → Next t w1 w1.mem (wp t allow (k (some (p, n))) Q)) ∧
      ((∀ p n, ¬ w1.At id p n) → Next t w1 w1.mem (wp t allow (k none) Q)) ∧ ∃ x, w1.info id = some x
  | .cas id o n k, Q, w => ∀ w1, Rely t w w1 → Inv w1 →
      (w1.mem.table id = some o →
        Next t w1 { w1.mem with table := fun i => if i = id then some n else w1.mem.table i } (wp t allow (k true) Q)) ∧
      (w1.mem.table id ≠ some o → Next t w1 w1.mem (wp t allow (k false) Q)) ∧ ∃ x, w1.info id = some x
  | .store id p k, Q, w => ∀ w1, Rely t w w1 → Inv w1 →
      Next t w1 { w1.mem with table := fun i => if i = id then some p else w1.mem.table i } (wp t allow k Q) ∧ w1.own id = some t
  | .alloc n ks k, Q, w => ∀ w1, Rely t w w1 → Inv w1 →
      Next t w1 { w1.mem with heap := fun p => if p = w1.mem.nextPtr then some n else w1.mem.heap p,
                              kids := fun p => if p = w1.mem.nextPtr then ks else w1.mem.kids p,
                              nextPtr := w1.mem.nextPtr + 1 } (wp t allow (k w1.mem.nextPtr) Q)
  | .newId k, Q, w => ∀ w1, Rely t w w1 → Inv w1 →
      Next t w1 { w1.mem with nextId := w1.mem.nextId + 1 } (wp t allow (k w1.mem.nextId) Q)
  | .retire p k, Q, w => ∀ w1, Rely t w w1 → Inv w1 →
      Next t w1 { w1.mem with garbage := p :: w1.mem.garbage } (wp t allow k Q)

theorem Next.mono {t : Tid} {w : World K V} {m' : Mem K V} {φ ψ : World K V → Prop} (h : Next t w m' φ) (hi : ∀ w', φ w' → ψ w') :
    Next t w m' ψ := by
  obtain ⟨w', h1, h2, h3, h4⟩ := h
  exact ⟨w', h1, h2, h3, hi w' h4⟩

theorem wp_mono {α : Type} {t : Tid} {allow : Fail → Prop} {Q Q' : α → World K V → Prop} (hQ : ∀ a w, Q a w → Q' a w) :
    ∀ {p : Prog K V α} {w : World K V}, wp t allow p Q w → wp t allow p Q' w
  | .ret a, w, h => hQ a w h
  | .fail _, _, h => h
  | .spin, _, _ => trivial
  | .loadRoot k, w, h => fun w1 hr hi => (h w1 hr hi).mono fun _ => wp_mono hQ
  | .casRoot o n k, w, h => fun w1 hr hi =>
    ⟨fun he => ((h w1 hr hi).1 he).mono fun _ => wp_mono hQ, fun he => ((h w1 hr hi).2 he).mono fun _ => wp_mono hQ⟩
  | .load id k, w, h => fun w1 hr hi =>
    ⟨fun p n he => ((h w1 hr hi).1 p n he).mono fun _ => wp_mono hQ, fun he => ((h w1 hr hi).2.1 he).mono fun _ => wp_mono hQ, (h w1 hr hi).2.2⟩
  | .cas id o n k, w, h => fun w1 hr hi =>
    ⟨fun he => ((h w1 hr hi).1 he).mono fun _ => wp_mono hQ, fun he => ((h w1 hr hi).2.1 he).mono fun _ => wp_mono hQ, (h w1 hr hi).2.2⟩
  | .store id p k, w, h => fun w1 hr hi => ⟨(h w1 hr hi).1.mono fun _ => wp_mono hQ, (h w1 hr hi).2⟩
  | .alloc n ks k, w, h => fun w1 hr hi => (h w1 hr hi).mono fun _ => wp_mono hQ
  | .newId k, w, h => fun w1 hr hi => (h w1 hr hi).mono fun _ => wp_mono hQ
  | .retire p k, w, h => fun w1 hr hi => (h w1 hr hi).mono fun _ => wp_mono hQ

theorem wp_bind {α β : Type} {t : Tid} {allow : Fail → Prop} {Q : β → World K V → Prop} {f : α → Prog K V β} :
    ∀ {p : Prog K V α} {w : World K V}, wp t allow p (fun a w' => wp t allow (f a) Q w') w → wp t allow (p.bind f) Q w
  | .ret a, w, h => h
  | .fail _, _, h => h
  | .spin, _, _ => trivial
  | .loadRoot k, w, h => fun w1 hr hi => (h w1 hr hi).mono fun _ => wp_bind
  | .casRoot o n k, w, h => fun w1 hr hi =>
    ⟨fun he => ((h w1 hr hi).1 he).mono fun _ => wp_bind, fun he => ((h w1 hr hi).2 he).mono fun _ => wp_bind⟩
  | .load id k, w, h => fun w1 hr hi =>
    ⟨fun p n he => ((h w1 hr hi).1 p n he).mono fun _ => wp_bind, fun he => ((h w1 hr hi).2.1 he).mono fun _ => wp_bind, (h w1 hr hi).2.2⟩
  | .cas id o n k, w, h => fun w1 hr hi =>
    ⟨fun he => ((h w1 hr hi).1 he).mono fun _ => wp_bind, fun he => ((h w1 hr hi).2.1 he).mono fun _ => wp_bind, (h w1 hr hi).2.2⟩
  | .store id p k, w, h => fun w1 hr hi => ⟨(h w1 hr hi).1.mono fun _ => wp_bind, (h w1 hr hi).2⟩
  | .alloc n ks k, w, h => fun w1 hr hi => (h w1 hr hi).mono fun _ => wp_bind
  | .newId k, w, h => fun w1 hr hi => (h w1 hr hi).mono fun _ => wp_bind
  | .retire p k, w, h => fun w1 hr hi => (h w1 hr hi).mono fun _ => wp_bind

end Tree
end BwTree
