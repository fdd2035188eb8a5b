import Verif.Proofs.TreeProg

/-! What holds of a traversal context, and the help-along functions up to FinishPartialSMO. -/

namespace BwTree
namespace Tree

open Prog

set_option linter.unusedSectionVars false

variable {K V : Type} [LinearOrder K] [DecidableEq V] [Inhabited K]

/-- Outcomes that are not excluded: see DESIGN.md, findings B13, B14, B17 and property C23. -/
structure Allowed (allow : Fail → Prop) : Prop where
  noParent : allow .noParent
  leftSibling : allow .leftSibling
  mergeRange : allow .mergeRange
  mergeSep : allow .mergeSep
  tableFull : allow .tableFull

/-- The parent snapshot: an inner node of the level above, of which `cur` is or was a child or the right neighbour of one. -/
structure ParSnap (w : World K V) (cur : NodeId) (s : Snap K V) (c : InnerChain K) (lp lc : Option K) (m : Nat) : Prop where
  node : s.node = .inner c
  clean : s.node.clean = true
  snap : SnapOK w s
  info : w.info s.id = some (lp, m + 1)
  cinfo : w.info cur = some (lc, m)
  child : cur = c.low.2 ∨ ∃ key, lc = some key ∧ Above lp key

theorem ParSnap.mono {w w' : World K V} (h : Mono w w') {cur s} {c : InnerChain K} {lp lc m} (hp : ParSnap (V := V) w cur s c lp lc m) :
    ParSnap w' cur s c lp lc m :=
  ⟨hp.node, hp.clean, hp.snap.mono h, h.info _ _ hp.info, h.info _ _ hp.cinfo, hp.child⟩

/-- What holds of the parent part of a context. -/
inductive ParOK (allow : Fail → Prop) (w : World K V) (cur : NodeId) : Par K V → Nat → Prop where
  | uninit {level} : allow .uninit → ParOK allow w cur .uninit level
  | root : ParOK allow w cur .root 0
  | snap {s level c lp lc m} : level ≠ 0 → ParSnap w cur s c lp lc m → ParOK allow w cur (.snap s) level

theorem ParOK.mono {allow : Fail → Prop} {w w' : World K V} (h : Mono w w') {cur : NodeId} {par : Par K V} {level : Nat}
    (hp : ParOK allow w cur par level) : ParOK allow w' cur par level := by
  cases hp with
  | uninit h => exact .uninit h
  | root => exact .root
  | snap h1 h2 => exact .snap h1 (h2.mono h)

/-- The leaf agrees, on its range, with the contents of the tree at some time not before `start`. -/
def Valid (start : Nat) (w : World K V) (node : Node K V) : Prop :=
  ∀ c, node = .leaf c → ∃ i S, start ≤ i ∧ w.sets[i]? = some S ∧ ∀ k v, InRange c.low c.high k → (S k v ↔ c.Has k v)

theorem getElem?_sets {w w' : World K V} (h : Mono w w') {i : Nat} {S : Spec.PairSet K V} (hs : w.sets[i]? = some S) :
    w'.sets[i]? = some S := by
  obtain ⟨e, he⟩ := h.sets
  rw [he, List.getElem?_append_left (List.getElem?_eq_some_iff.mp hs).1, hs]

theorem Valid.mono {start : Nat} {w w' : World K V} (h : Mono w w') {node : Node K V} (hv : Valid start w node) : Valid start w' node := by
  intro c hc
  obtain ⟨i, S, h1, h2, h3⟩ := hv c hc
  exact ⟨i, S, h1, getElem?_sets h h2, h3⟩

theorem Valid.same {start : Nat} {w : World K V} {a b : Node K V} (hv : Valid start w a) (hs : Same a b) : Valid start w b := by
  intro c hc
  subst hc
  cases a with
  | inner a => have := hs.leaf; simp [Node.isLeaf] at this
  | leaf a =>
    obtain ⟨i, S, h1, h2, h3⟩ := hv a rfl
    refine ⟨i, S, h1, h2, fun k v hk => ?_⟩
    have hl : c.low = a.low := hs.low
    have hh : c.high = a.high := hs.high
    rw [hl, hh] at hk
    exact (h3 k v hk).trans (hs.has k v).symm

/-- A context between two help-along steps: the current node has no remove or abort record on top. -/
structure Settled (allow : Fail → Prop) (start : Nat) (w : World K V) (ctx : Ctx K V) : Prop where
  st : start < w.sets.length
  snap : SnapOK w ctx.cur
  par : ParOK allow w ctx.cur.id ctx.par ctx.level
  clean : ctx.cur.node.clean = true
  valid : Valid start w ctx.cur.node

theorem st_mono {start : Nat} {w w' : World K V} (h : Mono w w') (hs : start < w.sets.length) : start < w'.sets.length := by
  obtain ⟨e, he⟩ := h.sets
  rw [he, List.length_append]; omega

theorem Settled.mono {allow : Fail → Prop} {start : Nat} {w w' : World K V} (h : Mono w w') {ctx : Ctx K V} (hs : Settled allow start w ctx) :
    Settled allow start w' ctx :=
  ⟨st_mono h hs.st, hs.snap.mono h, hs.par.mono h, hs.clean, hs.valid.mono h⟩

/-- Separators of the parent that compete with the right neighbour of the current node belong to removed nodes. -/
def NextUniq (w : World K V) (ctx : Ctx K V) : Prop :=
  ctx.cur.node.isRemove = false → ∀ s c, ctx.par = .snap s → s.node = .inner c → ∀ x ∈ c.childIds, ∀ y,
    w.info x = some y → w.info ctx.cur.node.high.2 = some y → x ≠ ctx.cur.node.high.2 → w.Removed x

/-- A context just after its current node was loaded. -/
structure Loaded (allow : Fail → Prop) (start : Nat) (w : World K V) (ctx : Ctx K V) : Prop where
  st : start < w.sets.length
  snap : SnapOK w ctx.cur
  par : ParOK allow w ctx.cur.id ctx.par ctx.level
  valid : ctx.cur.node.clean = true → Valid start w ctx.cur.node
  rem : ctx.cur.node.isRemove = true → w.At ctx.cur.id ctx.cur.ptr ctx.cur.node
  uniq : NextUniq w ctx
  live : ctx.cur.node.isRemove = false → ctx.cur.node.high.2 ≠ INVALID → ¬ w.del ctx.cur.node.high.2

/-- The lower end `l'` is not above `l`. -/
def LowLe (l' l : Option K) : Prop := ∀ y', l' = some y' → ∃ y, l = some y ∧ y' ≤ y

theorem LowLe.atLeast {l' l : Option K} (h : LowLe l' l) {k : K} (hk : AtLeast l k) : AtLeast l' k := by
  intro y' e
  obtain ⟨y, e1, e2⟩ := h y' e
  exact le_trans e2 (hk y e1)

theorem LowLe.above {l' l : Option K} (h : LowLe l' l) {k : K} (hk : Above l k) : Above l' k := by
  intro y' e
  obtain ⟨y, e1, e2⟩ := h y' e
  exact lt_of_le_of_lt e2 (hk y e1)

/-- The second node is on the same level and its range begins no later. -/
def LoLe (w : World K V) (a b : NodeId) : Prop :=
  ∀ l n, w.info a = some (l, n) → ∃ l', w.info b = some (l', n) ∧ LowLe l' l

theorem LoLe.refl (w : World K V) (a : NodeId) : LoLe w a a := fun l _ h => ⟨l, h, fun y e => ⟨y, e, le_refl y⟩⟩
theorem LoLe.trans {w : World K V} {a b c : NodeId} (h1 : LoLe w a b) (h2 : LoLe w b c) : LoLe w a c := by
  intro l n h
  obtain ⟨l', e1, e2⟩ := h1 l n h
  obtain ⟨l'', e3, e4⟩ := h2 l' n e1
  refine ⟨l'', e3, fun y e => ?_⟩
  obtain ⟨y', f1, f2⟩ := e4 y e
  obtain ⟨y'', f3, f4⟩ := e2 y' f1
  exact ⟨y'', f3, le_trans f2 f4⟩

theorem LoLe.mono {w w' : World K V} (hm : Mono w w') {a b : NodeId} {x : Option K × Nat} (ha : w.info a = some x) (h : LoLe w a b) :
    LoLe w' a b := by
  intro l n hl
  rw [hm.info _ _ ha] at hl
  cases hl
  obtain ⟨l', e1, e2⟩ := h l n ha
  exact ⟨l', hm.info _ _ e1, e2⟩

/-! ### Facts about the current contents -/

theorem Body.leaf_range {w : World K V} {lk : Option K} {n : Nat} {c : LeafChain K V} (h : Body w lk n (.leaf c)) {k : K}
    (hk : InRange c.low c.high k) : AtLeast lk k ∧ Below c.high k := by
  obtain ⟨_, _, _, _, _, h4, h5⟩ := h
  refine ⟨?_, hk.2⟩
  intro l hl
  obtain ⟨e1, e2⟩ := h5 l hl
  rw [← e2]
  exact hk.1.resolve_left e1

theorem Body.range_leaf {w : World K V} {lk : Option K} {n : Nat} {c : LeafChain K V} (h : Body w lk n (.leaf c)) {k : K}
    (h1 : AtLeast lk k) (h2 : Below c.high k) : InRange c.low c.high k := by
  obtain ⟨_, _, _, _, _, h4, h5⟩ := h
  refine ⟨?_, h2⟩
  cases lk with
  | none => exact Or.inl (h4 rfl)
  | some l =>
    obtain ⟨e1, e2⟩ := h5 l rfl
    rw [e2]
    exact Or.inr (h1 l rfl)

theorem Node.Has_strip (n : Node K V) (k : K) (v : V) : n.strip.Has k v ↔ n.Has k v := by
  cases n with
  | leaf c => cases c <;> exact Iff.rfl
  | inner c => cases c <;> exact Iff.rfl

/-- A node that stores a key covers it. -/
theorem NodeOK.has_range {w : World K V} {id : NodeId} {lk : Option K} {n : Nat} {node : Node K V} (h : NodeOK w id lk n node)
    {k : K} {v : V} (hk : node.Has k v) : AtLeast lk k ∧ Below node.high k := by
  rw [← Node.Has_strip] at hk
  rw [← Node.strip_high]
  have hb := h.1
  cases hs : node.strip with
  | inner c => rw [hs] at hk; exact hk.elim
  | leaf c =>
    rw [hs] at hb hk
    exact hb.leaf_range (LeafChain.inRange_of_has hb.2.2.2.2.1 hk)

/-- Within its range, a live leaf holds exactly the pairs of the tree. -/
theorem abs_at {w : World K V} (hi : Inv w) {id : NodeId} {lk : Option K} (hx : w.info id = some (lk, 0)) (hd : ¬ w.dead id) {p : Ptr}
    {node : Node K V} (ha : w.At id p node) {k : K} (h1 : AtLeast lk k) (h2 : Below node.high k) (v : V) :
    abs w k v ↔ node.Has k v := by
  rw [abs_iff]
  constructor
  · rintro ⟨i, l', q, nd, e1, e2, e3, e4⟩
    obtain ⟨r1, r2⟩ := (hi.at_ok e1 e3).2.has_range e4
    have : i = id := hi.disj 0 i id k ⟨l', q, nd, e1, e2, e3, r1, r2⟩ ⟨lk, p, node, hx, hd, ha, h1, h2⟩
    subst this
    rw [← (At.unique e3 ha).2]; exact e4
  · intro h
    exact ⟨id, lk, p, node, hx, hd, ha, h⟩

theorem getLast?_getElem? {α : Type} {l : List α} {a : α} (h : l.getLast? = some a) : l[l.length - 1]? = some a := by
  rw [List.getLast?_eq_getElem?] at h; exact h

/-- A clean node is valid at the moment it is current. -/
theorem valid_of_at {start : Nat} {w : World K V} (hi : Inv w) (hst : start < w.sets.length) {id : NodeId} {x : Option K × Nat}
    (hx : w.info id = some x) {p : Ptr} {node : Node K V} (ha : w.At id p node) (hc : node.clean = true) : Valid start w node := by
  intro c hcn
  subst hcn
  obtain ⟨lk, n⟩ := x
  have hb := (hi.at_ok hx ha).2.1
  rw [Node.strip_of_clean hc] at hb
  have hn : n = 0 := hb.2.2.2.1
  subst hn
  refine ⟨w.sets.length - 1, abs w, by omega, getLast?_getElem? hi.sets, fun k v hk => ?_⟩
  obtain ⟨r1, r2⟩ := hb.leaf_range hk
  exact abs_at hi hx (hi.not_dead ha (Node.not_remove_of_clean hc)) ha r1 r2 v

theorem loaded_of_at {allow : Fail → Prop} {start : Nat} {w : World K V} (hi : Inv w) (hst : start < w.sets.length) {id : NodeId}
    {x : Option K × Nat} (hx : w.info id = some x) {p : Ptr} {node : Node K V} (ha : w.At id p node) {par : Par K V} {level : Nat}
    (hp : ParOK allow w id par level) : Loaded allow start w ⟨⟨id, p, node⟩, par, level⟩ := by
  refine ⟨hst, snap_of_at hi hx ha, hp, fun hc => valid_of_at hi hst hx ha hc, fun _ => ha, ?_, fun hr hne hd =>
    ((hi.next x.2 id p node ⟨⟨x.1, hx⟩, hi.not_dead ha hr⟩ ha).resolve_left hne).2 (hi.dl.dead _ hd)⟩
  intro hr s c hs hn y hy z hz1 hz2 hne
  simp only at hz2 hne
  -- if `y` were alive it would cover the same key as the right neighbour
  apply Classical.byContradiction
  intro hnr
  obtain ⟨lk, n⟩ := x
  have hok := (hi.at_ok hx ha).2
  have hlive : Live w n id := ⟨⟨lk, hx⟩, hi.not_dead ha hr⟩
  have hhi : node.high.2 ≠ INVALID := (hi.ids _ _ hz2).1
  have hh := hok.high.resolve_left hhi
  rw [hz2] at hh
  cases hh
  have hl2 := (hi.next n id p node hlive ha).resolve_left hhi
  apply hne
  have hcov : ∀ i, w.info i = some (some node.high.1, n) → ¬ w.dead i → Covers w n i node.high.1 := by
    intro i h1 h2
    obtain ⟨q, nd, a1, _, a3⟩ := hi.at h1
    exact ⟨_, q, nd, h1, h2, a1, fun l hl => by cases hl; exact le_refl _, a3.below _ rfl⟩
  exact hi.disj n _ _ node.high.1 (hcov y hz1 (fun hd => hnr (hi.dead y hd))) (hcov _ hz2 hl2.2)

/-! ### Access to the parent -/

variable {t : Tid} {allow : Fail → Prop} {w : World K V} {start : Nat}

theorem wp_parent (A : Allowed allow) {ctx : Ctx K V} (hp : ParOK allow w ctx.cur.id ctx.par ctx.level) {Q : Snap K V → World K V → Prop}
    (H : ∀ s c lp lc m, ctx.par = .snap s → ctx.level ≠ 0 → ParSnap w ctx.cur.id s c lp lc m → Q s w) : wp t allow (parent ctx) Q w := by
  unfold parent
  split
  · exact A.noParent
  · rename_i hl
    cases hpar : ctx.par with
    | uninit => rw [hpar] at hp; cases hp with | uninit h => exact h
    | root => rw [hpar] at hp; generalize ctx.level = lv at hp hl; cases hp with | root => exact absurd rfl hl
    | snap s =>
      rw [hpar] at hp
      cases hp with
      | snap h1 h2 => exact H s _ _ _ _ hpar h1 h2

theorem wp_onRoot {ctx : Ctx K V} (hp : ParOK allow w ctx.cur.id ctx.par ctx.level) {Q : Bool → World K V → Prop}
    (H1 : ctx.par = .root → Q true w) (H0 : ∀ s, ctx.par = .snap s → Q false w) : wp t allow (onRoot ctx) Q w := by
  unfold onRoot
  cases hpar : ctx.par with
  | uninit => rw [hpar] at hp; cases hp with | uninit h => exact h
  | root => exact H1 hpar
  | snap s => exact H0 s hpar

/-- The chain of a parent snapshot. -/
theorem ParSnap.wf {cur : NodeId} {s : Snap K V} {c : InnerChain K} {lp lc : Option K} {m : Nat} (hi : Inv w)
    (h : ParSnap w cur s c lp lc m) :
    c.WF w.lo lp ∧ (∀ id ∈ c.childIds, ∃ l, w.info id = some (l, m)) ∧
    (c.high.2 = INVALID ∨ w.info c.high.2 = some (some c.high.1, m + 1)) ∧ NodeOK w s.id lp (m + 1) s.node := by
  obtain ⟨lk, n, h1, h2⟩ := h.snap.ok hi
  rw [h.info] at h1
  cases h1
  have hb := h2.1
  rw [Node.strip_of_clean h.clean, h.node] at hb
  obtain ⟨b1, b2, b3, m', b4, b5, b6⟩ := hb
  cases b4
  exact ⟨b5, b6, b1, h2⟩

/-- The current node begins at or after the parent. -/
theorem ParSnap.lo_le {cur : NodeId} {s : Snap K V} {c : InnerChain K} {lp lc : Option K} {m : Nat} (hi : Inv w)
    (h : ParSnap w cur s c lp lc m) : ∀ k, (∀ l, lc = some l → l < k) → Above lp k := by
  intro k hk
  rcases h.child with hc | ⟨key, h1, h2⟩
  · have := (InnerChain.WF.low_spec (h.wf hi).1).1
    rw [← hc] at this
    simp only [World.lo, h.cinfo, Option.map_some, Option.some.injEq] at this
    subst this
    exact hk
  · intro l hl
    exact lt_trans (h2 l hl) (hk key h1)

/-- An inner node with a new record on top. -/
theorem innerOK {id : NodeId} {lp : Option K} {m : Nat} {c c' : InnerChain K} (ho : NodeOK w id lp (m + 1) (.inner c))
    (hc : (Node.inner c : Node K V).clean = true) (hwf : c'.WF w.lo lp) (hids : ∀ i ∈ c'.childIds, ∃ l, w.info i = some (l, m))
    (hh : c'.high = c.high) (hm : (Node.inner c' : Node K V).merged = none) : NodeOK w id lp (m + 1) (.inner c') := by
  have hcl : (Node.inner c' : Node K V).clean = true := by
    cases c' <;> first | rfl | exact hwf.elim
  have hb := ho.1
  rw [Node.strip_of_clean hc] at hb
  obtain ⟨b1, b2, b3, _⟩ := hb
  refine ⟨?_, fun q d h => ?_⟩
  · rw [Node.strip_of_clean hcl]
    refine ⟨?_, ?_, fun x hx => ?_, m, rfl, hwf, hids⟩
    · rw [show (Node.inner c' : Node K V).high = c.high from hh]; exact b1
    · rw [show (Node.inner c' : Node K V).high = c.high from hh]; exact b2
    · rw [hm] at hx; cases hx
  · cases h
    exact hwf.elim

end Tree
end BwTree
