import Verif.Proofs.TreeWorld

/-! The steps on the mapping table and the root that keep the invariant: replacing a node, splitting, merging, new root. -/

namespace BwTree
namespace Tree

open Prog

set_option linter.unusedSectionVars false

variable {K V : Type} [LinearOrder K] [DecidableEq V] [Inhabited K]

/-! ### Nodes -/

@[simp] theorem Node.strip_high (n : Node K V) : n.strip.high = n.high := by
  cases n with
  | leaf c => cases c <;> rfl
  | inner c => cases c <;> rfl

@[simp] theorem Node.strip_low (n : Node K V) : n.strip.low = n.low := by
  cases n with
  | leaf c => cases c <;> rfl
  | inner c => cases c <;> rfl

@[simp] theorem Node.strip_isLeaf (n : Node K V) : n.strip.isLeaf = n.isLeaf := by
  cases n with
  | leaf c => cases c <;> rfl
  | inner c => cases c <;> rfl

theorem Node.strip_of_clean {n : Node K V} (h : n.clean = true) : n.strip = n := by
  cases n with
  | leaf c => cases c <;> first | rfl | cases h
  | inner c => cases c <;> first | rfl | cases h

theorem Node.not_remove_of_clean {n : Node K V} (h : n.clean = true) : n.isRemove = false := by
  cases n with
  | leaf c => cases c <;> first | rfl | cases h
  | inner c => cases c <;> first | rfl | cases h

/-- Is `(k, v)` stored in the node (never, for inner nodes)? -/
def Node.Has : Node K V → K → V → Prop
  | .leaf c, k, v => c.Has k v
  | .inner _, _, _ => False

theorem At.unique {w : World K V} {id : NodeId} {p q : Ptr} {m n : Node K V} (h1 : w.At id p m) (h2 : w.At id q n) :
    p = q ∧ m = n := by
  have hp : p = q := Option.some.inj (h1.1.symm.trans h2.1)
  subst hp
  exact ⟨rfl, Option.some.inj (h1.2.symm.trans h2.2)⟩

theorem removed_at {w : World K V} {id : NodeId} {p : Ptr} {n : Node K V} (h : w.Removed id) (ha : w.At id p n) :
    n.isRemove = true := by
  obtain ⟨x, q, m, _, hm, hr⟩ := h
  rw [← (At.unique hm ha).2]; exact hr

theorem Live.not_dead {w : World K V} {n : Nat} {id : NodeId} (h : Live w n id) : ¬ w.dead id := h.2

/-! ### Stability -/

theorem Mono.lo {w w' : World K V} (h : Mono w w') : ∀ i x, w.lo i = some x → w'.lo i = some x := by
  intro i x hx
  simp only [World.lo, Option.map_eq_some_iff] at hx ⊢
  obtain ⟨a, h1, h2⟩ := hx
  exact ⟨a, h.info _ _ h1, h2⟩

theorem Mono.removedAt {w w' : World K V} (h : Mono w w') {id : NodeId} {x : Option K × Nat} {p : Ptr} {n : Node K V}
    (hx : w.info id = some x) (ha : w.At id p n) (hr : n.isRemove = true) : w'.At id p n :=
  ⟨h.removed id x p n hx ha hr, h.heap p n ha.2⟩

theorem Mono.rem {w w' : World K V} (h : Mono w w') {id : NodeId} (hr : w.Removed id) : w'.Removed id := by
  obtain ⟨x, p, n, h1, h2, h3⟩ := hr
  exact ⟨x, p, n, h.info _ _ h1, h.removedAt h1 h2 h3, h3⟩

theorem Body.mono {w w' : World K V} (h : Mono w w') {lk : Option K} {n : Nat} {node : Node K V} (hb : Body w lk n node) :
    Body w' lk n node := by
  obtain ⟨b1, b2, b3, b4⟩ := hb
  refine ⟨b1.imp id (h.info _ _), b2, fun m hm => h.dead _ (b3 m hm), ?_⟩
  cases node with
  | leaf c => exact b4
  | inner c =>
    obtain ⟨m, c1, c2, c3⟩ := b4
    exact ⟨m, c1, c2.mono h.lo, fun id hid => (c3 id hid).imp fun l hl => h.info _ _ hl⟩

theorem NodeOK.mono {w w' : World K V} (h : Mono w w') {id : NodeId} {lk : Option K} {n : Nat} {node : Node K V}
    (hb : NodeOK w id lk n node) : NodeOK w' id lk n node :=
  ⟨hb.1.mono h, fun q c hc => ⟨h.pub _ _ (hb.2 q c hc).1, h.heap _ _ (hb.2 q c hc).2⟩⟩

theorem NodeOK.high {w : World K V} {id : NodeId} {lk : Option K} {n : Nat} {node : Node K V} (h : NodeOK w id lk n node) :
    node.high.2 = INVALID ∨ w.info node.high.2 = some (some node.high.1, n) := by
  have := h.1.1
  rwa [Node.strip_high] at this

theorem NodeOK.below {w : World K V} {id : NodeId} {lk : Option K} {n : Nat} {node : Node K V} (h : NodeOK w id lk n node) :
    ∀ k, lk = some k → Below node.high k := by
  have := h.1.2.1
  rwa [Node.strip_high] at this

theorem Inv.lo_invalid {w : World K V} (h : Inv w) : w.lo INVALID = none := by
  cases hx : w.info INVALID with
  | none => simp [World.lo, hx]
  | some x => exact absurd rfl (h.ids _ _ hx).1

/-- The current node of a NodeID of the tree. -/
theorem Inv.at {w : World K V} (h : Inv w) {id : NodeId} {x : Option K × Nat} (hx : w.info id = some x) :
    ∃ p node, w.At id p node ∧ w.pub id p ∧ NodeOK w id x.1 x.2 node := by
  obtain ⟨p, h1, h2⟩ := h.cur id x hx
  obtain ⟨lk, n, node, e1, e2, e3⟩ := h.ok id p h2
  rw [hx] at e1
  cases e1
  exact ⟨p, node, ⟨h1, e2⟩, h2, e3⟩

theorem Inv.at_ok {w : World K V} (h : Inv w) {id : NodeId} {x : Option K × Nat} (hx : w.info id = some x) {p : Ptr}
    {node : Node K V} (ha : w.At id p node) : w.pub id p ∧ NodeOK w id x.1 x.2 node := by
  obtain ⟨q, m, h1, h2, h3⟩ := h.at hx
  obtain ⟨e1, e2⟩ := At.unique h1 ha
  subst e1 e2
  exact ⟨h2, h3⟩

/-- A node that is current and not removed has not been merged away. -/
theorem Inv.not_dead {w : World K V} (h : Inv w) {id : NodeId} {p : Ptr} {node : Node K V} (ha : w.At id p node)
    (hc : node.isRemove = false) : ¬ w.dead id := fun hd => by
  have := removed_at (h.dead id hd) ha
  rw [hc] at this; cases this

theorem Inv.lock_none {w : World K V} (h : Inv w) {id : NodeId} {p : Ptr} {node : Node K V} (ha : w.At id p node)
    (hc : node.clean = true) : w.lock id = none := by
  cases hl : w.lock id with
  | none => rfl
  | some t =>
    obtain ⟨_, q, q', c, _, hq⟩ := h.lock id t hl
    rw [(At.unique ha hq).2] at hc; cases hc

theorem Inv.own_none {w : World K V} (h : Inv w) {id : NodeId} {x : Option K × Nat} (hx : w.info id = some x) :
    w.own id = none := by
  cases ho : w.own id with
  | none => rfl
  | some t => rw [(h.own id t ho).1] at hx; cases hx

/-! ### Replacing the node of one NodeID -/

/-- Memory after a successful CAS on the mapping table. -/
abbrev Mem.set (m : Mem K V) (id : NodeId) (n : Ptr) : Mem K V :=
  { m with table := fun i => if i = id then some n else m.table i }

/-- Owners and deleted separators. -/
abbrev Gst := (Ptr → Owner) × (NodeId → Prop)

/-- The world after mapping address `n` at `id`. -/
def World.put (w : World K V) (id : NodeId) (n : Ptr) (lock : NodeId → Option Tid) (g : Gst) : World K V :=
  { w with mem := w.mem.set id n, pub := fun i p => w.pub i p ∨ (i = id ∧ p = n), lock := lock, ow := g.1, del := g.2 }

/-- The owners and the deleted separators are right after a step of `t`. -/
structure GOK (t : Tid) (w w' : World K V) : Prop where
  ow : OwInv w'
  dl : DelInv w'
  gh : GMono w w'
  priv : ∀ u, u ≠ t → ∀ p, (w.ow p).Of u → w'.ow p = w.ow p
  privB : ∀ u, u ≠ t → ∀ p, w'.ow p = .owed u → w.ow p = .owed u

theorem World.put_at_ne {w : World K V} {id i : NodeId} {n p : Ptr} {lock} {g : Gst} {node : Node K V} (h : i ≠ id) :
    (w.put id n lock g).At i p node ↔ w.At i p node := by
  simp [World.put, World.At, h]

theorem World.put_at {w : World K V} {id : NodeId} {n p : Ptr} {lock} {g : Gst} {node : Node K V} :
    (w.put id n lock g).At id p node ↔ p = n ∧ w.mem.heap n = some node := by
  simp only [World.put, World.At, if_pos, Option.some.injEq]
  constructor
  · rintro ⟨rfl, h⟩; exact ⟨rfl, h⟩
  · rintro ⟨rfl, h⟩; exact ⟨rfl, h⟩

/-- Premises of replacing the node `old` of `id` by `new` with the same range. -/
structure PutOK (w : World K V) (id : NodeId) (lk : Option K) (l : Nat) (o : Ptr) (old : Node K V) (n : Ptr) (new : Node K V) : Prop where
  info : w.info id = some (lk, l)
  at_ : w.At id o old
  notRemoved : old.isRemove = false
  heap : w.mem.heap n = some new
  ok : NodeOK w id lk l new
  high : new.high = old.high
  keep : new.isRemove = true → lk ≠ none

theorem PutOK.mono_put {w : World K V} {id lk l o old n new} (h : PutOK w id lk l o old n new) {lock} {g : Gst}
    (gh : GMono w (w.put id n lock g)) : Mono w (w.put id n lock g) where
  info _ _ hx := hx
  heap _ _ hx := hx
  pub _ _ hx := Or.inl hx
  removed i x p nd hx ha hr := by
    by_cases hi : i = id
    · subst hi
      rw [(At.unique ha h.at_).2, h.notRemoved] at hr; cases hr
    · exact (World.put_at_ne (lock := lock) (g := g) (n := n) hi).mpr ha |>.1
  dead _ hx := hx
  sets := ⟨[], by simp [World.put]⟩
  gh := gh

theorem PutOK.covers {w : World K V} {id lk l o old n new} (h : PutOK w id lk l o old n new) (lock) (g : Gst) {m : Nat} {x : NodeId} {k : K} :
    Covers (w.put id n lock g) m x k → Covers w m x k := by
  rintro ⟨lk', p, node, h1, h2, h3, h4, h5⟩
  by_cases hx : x = id
  · subst hx
    rw [World.put_at] at h3
    obtain ⟨rfl, h3⟩ := h3
    rw [h.heap] at h3
    cases h3
    exact ⟨lk', o, old, h1, h2, h.at_, h4, h.high ▸ h5⟩
  · exact ⟨lk', p, node, h1, h2, (World.put_at_ne hx).mp h3, h4, h5⟩

/-- The invariant after replacing a node, with the new contents of the tree left open. -/
theorem PutOK.inv {w : World K V} {id lk l o old n new} (hi : Inv w) (h : PutOK w id lk l o old n new) {lock : NodeId → Option Tid}
    (hlock : ∀ i t, lock i = some t → (i ≠ id ∧ w.lock i = some t) ∨ (i = id ∧ ∃ q c, new = .inner (.abort q c)))
    (hlockA : ∀ i t, i ≠ id → w.lock i = some t → lock i = some t) (hlockN : ∀ q c, new = .inner (.abort q c) → ∃ t, lock id = some t)
    {w' : World K V} (hm : w'.mem = w.mem.set id n) (hinfo : w'.info = w.info) (hpub : w'.pub = fun i p => w.pub i p ∨ (i = id ∧ p = n))
    (hown : w'.own = w.own) (hdead : w'.dead = w.dead) (hl : w'.lock = lock) (hmono : Mono w w')
    (hsets : w'.sets.getLast? = some (abs w')) (how : OwInv w') (hdl : DelInv w') : Inv w' := by
  obtain ⟨mem', info', pub', own', lock', dead', del', ow', sets', tok'⟩ := w'
  simp only at hm hinfo hpub hown hdead hl
  subst hm hinfo hpub hown hdead hl
  have hat : ∀ {i p nd}, i ≠ id → ((World.mk (w.mem.set id n) w.info (fun i p => w.pub i p ∨ (i = id ∧ p = n)) w.own lock' w.dead del' ow' sets' tok').At i p nd ↔ w.At i p nd) := by
    intro i p nd hne; simp [World.At, hne]
  have hatid : ∀ {p nd}, ((World.mk (w.mem.set id n) w.info (fun i p => w.pub i p ∨ (i = id ∧ p = n)) w.own lock' w.dead del' ow' sets' tok').At id p nd ↔ p = n ∧ nd = new) := by
    intro p nd
    have := World.put_at (w := w) (id := id) (n := n) (p := p) (lock := lock') (g := (ow', del')) (node := nd)
    rw [h.heap] at this
    simp only [Option.some.injEq] at this
    exact this.trans ⟨fun x => ⟨x.1, x.2.symm⟩, fun x => ⟨x.1, x.2.symm⟩⟩
  constructor
  · exact hi.ids
  · exact hi.own
  · exact hi.nextId
  · exact hi.heapLt
  · intro i x hx
    by_cases hne : i = id
    · exact ⟨n, by simp [hne], Or.inr ⟨hne, rfl⟩⟩
    · obtain ⟨p, h1, h2⟩ := hi.cur i x hx
      exact ⟨p, by simpa [hne] using h1, Or.inl h2⟩
  · rintro i p (hp | ⟨rfl, rfl⟩)
    · obtain ⟨lk', m, node, e1, e2, e3⟩ := hi.ok i p hp
      exact ⟨lk', m, node, e1, e2, e3.mono hmono⟩
    · exact ⟨lk, l, new, h.info, h.heap, h.ok.mono hmono⟩
  · intro i t ht
    rcases hlock i t ht with ⟨hne, hw⟩ | ⟨rfl, q, c, hn⟩
    · obtain ⟨x, p, q, c, hx, hq⟩ := hi.lock i t hw
      exact ⟨x, p, q, c, hx, (hat hne).mpr hq⟩
    · exact ⟨_, n, q, c, h.info, hatid.mpr ⟨rfl, hn.symm⟩⟩
  · exact hi.root
  · intro i hd
    exact hmono.rem (hi.dead i hd)
  · intro i m hx hr
    obtain ⟨x, p, nd, h1, h2, h3⟩ := hr
    by_cases hne : i = id
    · subst hne
      obtain ⟨_, rfl⟩ := hatid.mp h2
      rw [h.info] at hx
      cases hx
      exact h.keep h3 rfl
    · exact hi.keep i m hx ⟨x, p, nd, h1, (hat hne).mp h2, h3⟩
  · intro m i p nd hl ha
    by_cases hne : i = id
    · subst hne
      obtain ⟨_, rfl⟩ := hatid.mp ha
      rw [h.high]
      exact hi.next m i o old hl h.at_
    · exact hi.next m i p nd hl ((hat hne).mp ha)
  · intro m x y k hx hy
    exact hi.disj m x y k (h.covers lock' (ow', del') hx) (h.covers lock' (ow', del') hy)
  · exact hi.lowU
  · intro m i k hx hd
    obtain ⟨x, p, nd, h1, h2, h3⟩ := hi.pred m i k hx hd
    by_cases hne : x = id
    · subst hne
      refine ⟨x, n, new, h1, hatid.mpr ⟨rfl, rfl⟩, ?_⟩
      rw [h.high, ← (At.unique h2 h.at_).2, h3]
    · exact ⟨x, p, nd, h1, (hat hne).mpr h2, h3⟩
  · exact hi.first
  · exact hsets
  · exact how
  · exact hdl
  · intro i x p q c hx ha
    by_cases hne : i = id
    · subst hne
      exact hlockN q c (hatid.mp ha).2.symm
    · obtain ⟨t, ht⟩ := hi.abort i x p q c hx ((hat hne).mp ha)
      exact ⟨t, hlockA i t hne ht⟩

/-- Contents of the tree in terms of nodes. -/
theorem abs_iff {w : World K V} {k : K} {v : V} :
    abs w k v ↔ ∃ id lk p node, w.info id = some (lk, 0) ∧ ¬ w.dead id ∧ w.At id p node ∧ node.Has k v := by
  constructor
  · rintro ⟨id, lk, p, c, h1, h2, h3, h4⟩
    exact ⟨id, lk, p, .leaf c, h1, h2, h3, h4⟩
  · rintro ⟨id, lk, p, node, h1, h2, h3, h4⟩
    cases node with
    | leaf c => exact ⟨id, lk, p, c, h1, h2, h3, h4⟩
    | inner c => exact h4.elim

theorem PutOK.abs_same {w : World K V} {id lk l o old n new} (h : PutOK w id lk l o old n new) (lock) (g : Gst)
    (hhas : ∀ k v, new.Has k v ↔ old.Has k v) : abs (w.put id n lock g) = abs w := by
  funext k v
  apply propext
  rw [abs_iff, abs_iff]
  constructor
  · rintro ⟨i, lk', p, node, h1, h2, h3, h4⟩
    by_cases hx : i = id
    · subst hx
      rw [World.put_at] at h3
      obtain ⟨rfl, h3⟩ := h3
      rw [h.heap] at h3
      cases h3
      exact ⟨i, lk', o, old, h1, h2, h.at_, (hhas k v).mp h4⟩
    · exact ⟨i, lk', p, node, h1, h2, (World.put_at_ne hx).mp h3, h4⟩
  · rintro ⟨i, lk', p, node, h1, h2, h3, h4⟩
    by_cases hx : i = id
    · subst hx
      rw [(At.unique h3 h.at_).2] at h4
      exact ⟨i, lk', n, new, h1, h2, World.put_at.mpr ⟨rfl, h.heap⟩, (hhas k v).mpr h4⟩
    · exact ⟨i, lk', p, node, h1, h2, (World.put_at_ne hx).mpr h3, h4⟩

/-- Replacing a clean node by one with the same contents. -/
theorem next_same {t : Tid} {w : World K V} {id lk l o old n new} (hi : Inv w) (h : PutOK w id lk l o old n new)
    (hc : old.clean = true) (hna : ∀ q c, new ≠ .inner (.abort q c)) (hhas : ∀ k v, new.Has k v ↔ old.Has k v) {g : Gst} (hg : GOK t w (w.put id n w.lock g)) :
    Guar t w (w.put id n w.lock g) ∧ Inv (w.put id n w.lock g) := by
  have hm := h.mono_put hg.gh
  have hlk := hi.lock_none h.at_ hc
  refine ⟨⟨hm, fun u hu => ⟨fun i hx => ⟨hx, ?_⟩, fun i hx => ⟨hx, ?_⟩, rfl, hg.priv u hu, hg.privB u hu, fun _ h => h⟩, Or.inl ⟨rfl, rfl⟩, GStep.same rfl rfl⟩, ?_⟩
  · have : i ≠ id := by rintro rfl; rw [hi.own_none h.info] at hx; cases hx
    simp [World.put, this]
  · have : i ≠ id := by rintro rfl; rw [hlk] at hx; cases hx
    simp [World.put, this]
  · refine h.inv hi (lock := w.lock) ?_ ?_ ?_ rfl rfl rfl rfl rfl rfl hm ?_ hg.ow hg.dl
    · intro i u hx
      refine Or.inl ⟨?_, hx⟩
      rintro rfl; rw [hlk] at hx; cases hx
    · exact fun _ _ _ h => h
    · exact fun q c e => absurd e (hna q c)
    · rw [h.abs_same w.lock g hhas]
      exact hi.sets

/-- Posting an abort record. -/
theorem next_lock {t : Tid} {w : World K V} {id lk l o c n} (hi : Inv w)
    (h : PutOK w id lk l o (.inner c) n (.inner (.abort o c))) (hc : (Node.inner c : Node K V).clean = true) {g : Gst}
    (hg : GOK t w (w.put id n (Lin.upd w.lock id (some t)) g)) :
    Guar t w (w.put id n (Lin.upd w.lock id (some t)) g) ∧ Inv (w.put id n (Lin.upd w.lock id (some t)) g) := by
  have hm := h.mono_put hg.gh
  have hlk := hi.lock_none h.at_ hc
  refine ⟨⟨hm, fun u hu => ⟨fun i hx => ⟨hx, ?_⟩, fun i hx => ?_, rfl, hg.priv u hu, hg.privB u hu, fun i hx => ?_⟩, Or.inl ⟨rfl, rfl⟩, GStep.same rfl rfl⟩, ?_⟩
  · have : i ≠ id := by rintro rfl; rw [hi.own_none h.info] at hx; cases hx
    simp [World.put, this]
  · have : i ≠ id := by rintro rfl; rw [hlk] at hx; cases hx
    simp [World.put, this, Lin.upd, hx]
  · by_cases hne : i = id
    · subst hne
      have hx' : Lin.upd w.lock i (some t) i = some u := hx
      rw [Lin.upd_self] at hx'
      exact absurd (Option.some.inj hx').symm hu
    · have hx' : Lin.upd w.lock id (some t) i = some u := hx
      rwa [Lin.upd_ne _ _ hne] at hx'
  · refine h.inv hi (lock := Lin.upd w.lock id (some t)) ?_ ?_ ?_ rfl rfl rfl rfl rfl rfl hm ?_ hg.ow hg.dl
    · intro i u hx
      by_cases hne : i = id
      · exact Or.inr ⟨hne, o, c, rfl⟩
      · rw [Lin.upd_ne _ _ hne] at hx
        exact Or.inl ⟨hne, hx⟩
    · intro i u hne hx
      rw [Lin.upd_ne _ _ hne]; exact hx
    · exact fun _ _ _ => ⟨t, Lin.upd_self _ _ _⟩
    · rw [h.abs_same _ g (fun _ _ => Iff.rfl)]
      exact hi.sets

/-- Taking the abort record away again. -/
theorem next_unlock {t : Tid} {w : World K V} {id lk l o n c} (hi : Inv w)
    (h : PutOK w id lk l o (.inner (.abort n c)) n (.inner c)) (ht : w.lock id = some t) (hcl : (Node.inner c : Node K V).clean = true) {g : Gst}
    (hg : GOK t w (w.put id n (Lin.upd w.lock id none) g)) :
    Guar t w (w.put id n (Lin.upd w.lock id none) g) ∧ Inv (w.put id n (Lin.upd w.lock id none) g) := by
  have hm := h.mono_put hg.gh
  refine ⟨⟨hm, fun u hu => ⟨fun i hx => ⟨hx, ?_⟩, fun i hx => ?_, rfl, hg.priv u hu, hg.privB u hu, fun i hx => ?_⟩, Or.inl ⟨rfl, rfl⟩, GStep.same rfl rfl⟩, ?_⟩
  · have : i ≠ id := by rintro rfl; rw [hi.own_none h.info] at hx; cases hx
    simp [World.put, this]
  · have : i ≠ id := by rintro rfl; rw [ht] at hx; exact hu (Option.some.inj hx).symm
    simp [World.put, this, Lin.upd, hx]
  · by_cases hne : i = id
    · subst hne
      have hx' : Lin.upd w.lock i none i = some u := hx
      rw [Lin.upd_self] at hx'
      cases hx'
    · have hx' : Lin.upd w.lock id none i = some u := hx
      rwa [Lin.upd_ne _ _ hne] at hx'
  · refine h.inv hi (lock := Lin.upd w.lock id none) ?_ ?_ ?_ rfl rfl rfl rfl rfl rfl hm ?_ hg.ow hg.dl
    · intro i u hx
      by_cases hne : i = id
      · simp [hne, Lin.upd] at hx
      · rw [Lin.upd_ne _ _ hne] at hx
        exact Or.inl ⟨hne, hx⟩
    · intro i u hne hx
      rw [Lin.upd_ne _ _ hne]; exact hx
    · intro q d e
      cases e
      cases hcl
    · rw [h.abs_same _ g (fun _ _ => Iff.rfl)]
      exact hi.sets

/-- The world after an update of thread `t` commits. -/
def World.commit (w : World K V) (id : NodeId) (n : Ptr) (t : Tid) (S' : Spec.PairSet K V) (d : Lin.Tok (Call K V) (Ans K V))
    (g : Gst) : World K V :=
  { w.put id n w.lock g with sets := w.sets ++ [S'], tok := Lin.upd w.tok t d }

/-- Replacing a clean node by one with a data record on top: the update of the tree. -/
theorem next_commit {t : Tid} {w : World K V} {id lk l o old n new} (hi : Inv w) (h : PutOK w id lk l o old n new)
    (hc : old.clean = true) (hna : ∀ q c, new ≠ .inner (.abort q c)) {op : Call K V} {pos start : Nat} {r : Ans K V} {g : Gst} (htok : w.tok t = .pending op pos start)
    (hstep : tstep (abs w) op r (abs (w.put id n w.lock g)))
    (hg : GOK t w (w.put id n w.lock g)) :
    Guar t w (w.commit id n t (abs (w.put id n w.lock g)) (.done op pos r) g) ∧
    Inv (w.commit id n t (abs (w.put id n w.lock g)) (.done op pos r) g) := by
  have hm0 := h.mono_put hg.gh
  have hm : Mono w (w.commit id n t (abs (w.put id n w.lock g)) (.done op pos r) g) :=
    ⟨hm0.info, hm0.heap, hm0.pub, hm0.removed, hm0.dead, ⟨_, rfl⟩, ⟨hg.gh.kids, hg.gh.cur, hg.gh.del, hg.gh.delNew, hg.gh.vis⟩⟩
  have hlk := hi.lock_none h.at_ hc
  refine ⟨⟨hm, fun u hu => ⟨fun i hx => ⟨hx, ?_⟩, fun i hx => ⟨hx, ?_⟩, Lin.upd_ne _ _ hu, hg.priv u hu, hg.privB u hu, fun _ h => h⟩, Or.inr ?_, GStep.same rfl rfl⟩, ?_⟩
  · have : i ≠ id := by rintro rfl; rw [hi.own_none h.info] at hx; cases hx
    simp [World.commit, World.put, this]
  · have : i ≠ id := by rintro rfl; rw [hlk] at hx; cases hx
    simp [World.commit, World.put, this]
  · exact ⟨op, pos, start, r, _, _, htok, hi.sets, hstep, rfl, rfl⟩
  · refine h.inv hi (lock := w.lock) ?_ ?_ ?_ rfl rfl rfl rfl rfl rfl hm ?_
      ⟨hg.ow.free, hg.ow.klt, hg.ow.pub, hg.ow.tab, hg.ow.nd, hg.ow.kid, hg.ow.abort, hg.ow.rem, hg.ow.trash, hg.ow.nodup,
        hg.ow.btab, hg.ow.bcell⟩
      ⟨hg.dl.dead, hg.dl.top, hg.dl.sep, hg.dl.recs, hg.dl.gone, hg.dl.rmv, hg.dl.spl⟩
    · intro i u hx
      refine Or.inl ⟨?_, hx⟩
      rintro rfl; rw [hlk] at hx; cases hx
    · exact fun _ _ _ h => h
    · exact fun q c e => absurd e (hna q c)
    · simp only [World.commit, List.getLast?_append, List.getLast?_singleton, Option.some_or]
      rfl

end Tree
end BwTree
