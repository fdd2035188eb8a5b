import Verif.Proofs.TreeRun

/-!
  The depth of leaf chains. A second, smaller logic for `Prog` on top of the first: the history variables and what they promise are taken from
  there, and only the depth of what is put into the mapping table is followed here.
-/

namespace BwTree
namespace Tree

open Prog

set_option linter.unusedSectionVars false

variable {K V : Type} [LinearOrder K] [DecidableEq V] [Inhabited K]

/-- Depth within bounds for a leaf; below a remove record there is a base node. -/
def Node.shallow : Node K V → Prop
  | .leaf (.remove _ c) => c.depth = 0
  | .leaf c => c.depth ≤ LEAF_CHAIN
  | .inner _ => True

/-- The node at the address is within bounds. -/
def FlatAt (w : World K V) (p : Ptr) : Prop := ∃ n, w.mem.heap p = some n ∧ n.shallow

/-- All mapped nodes are within bounds. -/
def Flat (w : World K V) : Prop := ∀ id p, w.mem.table id = some p → FlatAt w p

theorem FlatAt.mono {w w' : World K V} (h : Mono w w') {p : Ptr} (hp : FlatAt w p) : FlatAt w' p :=
  let ⟨n, h1, h2⟩ := hp
  ⟨n, h.heap p n h1, h2⟩

/-- From any later world the program maps only nodes within bounds, and ends in `Q`. -/
def dp {α : Type} : Prog K V α → (α → World K V → Prop) → World K V → Prop
  | .ret a, Q, w => Q a w
  | .fail _, _, _ => True
  | .spin, _, _ => True
  | .loadRoot k, Q, w => ∀ w1, Mono w w1 → Inv w1 → Flat w1 → ∀ id, dp (k id) Q w1
  | .casRoot _ _ k, Q, w => ∀ w1, Mono w w1 → Inv w1 → Flat w1 → ∀ b, dp (k b) Q w1
  | .load id k, Q, w => ∀ w1, Mono w w1 → Inv w1 → Flat w1 → ∀ x p n, w1.info id = some x → w1.At id p n → dp (k (some (p, n))) Q w1
  | .cas id o n k, Q, w => ∀ w1, Mono w w1 → Inv w1 → Flat w1 → ∀ x, w1.info id = some x →
      (w1.mem.table id = some o → FlatAt w1 n ∧ ∀ w2, w2.mem.table id = some n → Mono w1 w2 → Inv w2 → Flat w2 → dp (k true) Q w2) ∧
      (w1.mem.table id ≠ some o → dp (k false) Q w1)
  | .store _ p k, Q, w => ∀ w1, Mono w w1 → Inv w1 → Flat w1 → FlatAt w1 p ∧ dp k Q w1
  | .alloc n _ k, Q, w => ∀ w1, Mono w w1 → Inv w1 → Flat w1 → ∀ p, w1.mem.heap p = some n → dp (k p) Q w1
  | .newId k, Q, w => ∀ w1, Mono w w1 → Inv w1 → Flat w1 → ∀ id, dp (k id) Q w1
  | .retire _ k, Q, w => ∀ w1, Mono w w1 → Inv w1 → Flat w1 → dp k Q w1

theorem dp_mono {α : Type} {Q Q' : α → World K V → Prop} (hQ : ∀ a w, Q a w → Q' a w) : ∀ {p : Prog K V α} {w : World K V}, dp p Q w → dp p Q' w
  | .ret a, w, h => hQ a w h
  | .fail _, _, _ => trivial
  | .spin, _, _ => trivial
  | .loadRoot k, w, h => fun w1 a b c id => dp_mono hQ (h w1 a b c id)
  | .casRoot o n k, w, h => fun w1 a b c x => dp_mono hQ (h w1 a b c x)
  | .load id k, w, h => fun w1 a b c x p n h1 h2 => dp_mono hQ (h w1 a b c x p n h1 h2)
  | .cas id o n k, w, h => fun w1 a b c x hx =>
    ⟨fun he => ⟨((h w1 a b c x hx).1 he).1, fun w2 d e f g => dp_mono hQ (((h w1 a b c x hx).1 he).2 w2 d e f g)⟩,
      fun he => dp_mono hQ ((h w1 a b c x hx).2 he)⟩
  | .store id p k, w, h => fun w1 a b c => ⟨(h w1 a b c).1, dp_mono hQ (h w1 a b c).2⟩
  | .alloc n ks k, w, h => fun w1 a b c p hp => dp_mono hQ (h w1 a b c p hp)
  | .newId k, w, h => fun w1 a b c id => dp_mono hQ (h w1 a b c id)
  | .retire p k, w, h => fun w1 a b c => dp_mono hQ (h w1 a b c)

theorem dp_bind {α β : Type} {Q : β → World K V → Prop} {f : α → Prog K V β} :
    ∀ {p : Prog K V α} {w : World K V}, dp p (fun a w' => dp (f a) Q w') w → dp (p.bind f) Q w
  | .ret a, w, h => h
  | .fail _, _, _ => trivial
  | .spin, _, _ => trivial
  | .loadRoot k, w, h => fun w1 a b c id => dp_bind (h w1 a b c id)
  | .casRoot o n k, w, h => fun w1 a b c x => dp_bind (h w1 a b c x)
  | .load id k, w, h => fun w1 a b c x p n h1 h2 => dp_bind (h w1 a b c x p n h1 h2)
  | .cas id o n k, w, h => fun w1 a b c x hx =>
    ⟨fun he => ⟨((h w1 a b c x hx).1 he).1, fun w2 d e f g => dp_bind (((h w1 a b c x hx).1 he).2 w2 d e f g)⟩,
      fun he => dp_bind ((h w1 a b c x hx).2 he)⟩
  | .store id p k, w, h => fun w1 a b c => ⟨(h w1 a b c).1, dp_bind (h w1 a b c).2⟩
  | .alloc n ks k, w, h => fun w1 a b c p hp => dp_bind (h w1 a b c p hp)
  | .newId k, w, h => fun w1 a b c id => dp_bind (h w1 a b c id)
  | .retire p k, w, h => fun w1 a b c => dp_bind (h w1 a b c)

variable {α β : Type} {w : World K V}

theorem dp_seq {Q : β → World K V → Prop} {R : α → World K V → Prop} {f : α → Prog K V β} {p : Prog K V α} (h : dp p R w)
    (hR : ∀ a w', R a w' → dp (f a) Q w') : dp (p >>= f) Q w := dp_bind (dp_mono hR h)

/-- What the first logic says about the next entry that is read or replaced. -/
def Known1 (w : World K V) : Prog K V α → Prop
  | .load id _ => ∃ x, w.info id = some x
  | .cas id _ _ _ => ∃ x, w.info id = some x
  | _ => True

theorem known1 {t : Tid} {allow : Fail → Prop} {Q : α → World K V → Prop} {p : Prog K V α} {w0 : World K V} (h : wp t allow p Q w0)
    (hr : Rely t w0 w) (hi : Inv w) : Known1 w p := by
  cases p with
  | load id k => exact (h w hr hi).2.2
  | cas id o n k => exact (h w hr hi).2.2
  | _ => trivial

/-- One step. -/
theorem dp_step {Q : α → World K V → Prop} {p p' : Prog K V α} {w0 w' : World K V} (h : dp p Q w0) (hm : Mono w0 w) (hi : Inv w) (hf : Flat w)
    (hk : Known1 w p) (hs : p.step w.mem = some (w'.mem, p')) (hm' : Mono w w') (hi' : Inv w') : Flat w' ∧ ∃ w1, Mono w1 w' ∧ dp p' Q w1 := by
  have same : w'.mem.table = w.mem.table → Flat w' := fun e id q hq => (hf id q (e ▸ hq)).mono hm'
  have put : ∀ {i q}, (w'.mem.table = fun j => if j = i then some q else w.mem.table j) → FlatAt w q → Flat w' := by
    intro i q e hq j r hj
    rw [e] at hj
    simp only at hj
    split at hj
    · cases hj; exact hq.mono hm'
    · exact (hf j r hj).mono hm'
  cases p with
  | ret a => cases hs
  | fail f => cases hs
  | spin => cases hs
  | loadRoot k =>
    simp only [Prog.step, Option.some.injEq, Prod.mk.injEq] at hs
    obtain ⟨e, rfl⟩ := hs
    exact ⟨same (by rw [← e]), w, hm', h w hm hi hf _⟩
  | casRoot o n k =>
    simp only [Prog.step] at hs
    split at hs <;> (
      simp only [Option.some.injEq, Prod.mk.injEq] at hs
      obtain ⟨e, rfl⟩ := hs
      exact ⟨same (by rw [← e]), w, hm', h w hm hi hf _⟩)
  | load id k =>
    simp only [Prog.step, Option.some.injEq, Prod.mk.injEq] at hs
    obtain ⟨e, rfl⟩ := hs
    obtain ⟨x, hx⟩ := hk
    obtain ⟨p, n, ha, _⟩ := hi.at hx
    refine ⟨same (by rw [← e]), w, hm', ?_⟩
    rw [ha.1]
    simp only
    rw [ha.2]
    exact h w hm hi hf x p n hx ha
  | cas id o n k =>
    obtain ⟨x, hx⟩ := hk
    simp only [Prog.step] at hs
    split at hs
    · rename_i hc
      simp only [Option.some.injEq, Prod.mk.injEq] at hs
      obtain ⟨e, rfl⟩ := hs
      have hc := (h w hm hi hf x hx).1 hc
      have hf' := put (i := id) (q := n) (by rw [← e]) hc.1
      exact ⟨hf', w', Mono.refl w', hc.2 w' (by rw [← e]; simp) hm' hi' hf'⟩
    · rename_i hc
      simp only [Option.some.injEq, Prod.mk.injEq] at hs
      obtain ⟨e, rfl⟩ := hs
      exact ⟨same (by rw [← e]), w, hm', (h w hm hi hf x hx).2 hc⟩
  | store id q k =>
    simp only [Prog.step, Option.some.injEq, Prod.mk.injEq] at hs
    obtain ⟨e, rfl⟩ := hs
    exact ⟨put (i := id) (q := q) (by rw [← e]) (h w hm hi hf).1, w, hm', (h w hm hi hf).2⟩
  | alloc n ks k =>
    simp only [Prog.step, Option.some.injEq, Prod.mk.injEq] at hs
    obtain ⟨e, rfl⟩ := hs
    have hf' := same (by rw [← e])
    exact ⟨hf', w', Mono.refl w', h w' (hm.trans hm') hi' hf' _ (by rw [← e]; simp)⟩
  | newId k =>
    simp only [Prog.step, Option.some.injEq, Prod.mk.injEq] at hs
    obtain ⟨e, rfl⟩ := hs
    exact ⟨same (by rw [← e]), w, hm', h w hm hi hf _⟩
  | retire q k =>
    simp only [Prog.step, Option.some.injEq, Prod.mk.injEq] at hs
    obtain ⟨e, rfl⟩ := hs
    exact ⟨same (by rw [← e]), w, hm', h w hm hi hf⟩

/-! ### Snapshots -/

/-- A snapshot within bounds. -/
structure SnapD (w : World K V) (s : Snap K V) : Prop where
  was : ∃ w0, Inv w0 ∧ Mono w0 w ∧ SnapOK w0 s
  flat : s.node.shallow

theorem SnapD.mono {w' : World K V} (h : Mono w w') {s : Snap K V} (hs : SnapD w s) : SnapD w' s :=
  ⟨let ⟨w0, a, b, c⟩ := hs.was; ⟨w0, a, b.trans h, c⟩, hs.flat⟩

theorem SnapD.ok {s : Snap K V} (hs : SnapD w s) : SnapOK w s :=
  let ⟨_, _, b, c⟩ := hs.was
  c.mono b

/-- Below an abort record. -/
theorem SnapD.unabort {s : Snap K V} (hs : SnapD w s) {p : Ptr} {c : InnerChain K} (h : s.node = .inner (.abort p c)) : SnapD w ⟨s.id, p, .inner c⟩ := by
  obtain ⟨w0, hi, hm, h1⟩ := hs.was
  obtain ⟨_, _, _, hn⟩ := h1.ok hi
  obtain ⟨h2, h3⟩ := hn.2 _ _ h
  exact ⟨⟨w0, hi, hm, h2, h3⟩, trivial⟩

/-- A leaf on which one more record may be put, unless it was seen to be no longer current. -/
def Room (w : World K V) (s : Snap K V) : Prop := ∀ c, s.node = .leaf c →
  c.depth < LEAF_CHAIN ∨ ∃ w0, Inv w0 ∧ Mono w0 w ∧ SnapOK w0 s ∧ w0.mem.table s.id ≠ some s.ptr

theorem Room.mono {w' : World K V} (h : Mono w w') {s : Snap K V} (hr : Room w s) : Room w' s :=
  fun c hc => (hr c hc).imp_right fun ⟨w0, a, b, d, e⟩ => ⟨w0, a, b.trans h, d, e⟩

/-- The address of a leaf that was replaced does not come back. -/
theorem Room.use {s : Snap K V} (hr : Room w s) {c : LeafChain K V} (hc : s.node = .leaf c) (he : w.mem.table s.id = some s.ptr) : c.depth < LEAF_CHAIN := by
  rcases hr c hc with h | ⟨w0, hi, h, hs, hne⟩
  · exact h
  · rcases h.gh.cur s.id s.ptr hs.pub (Or.inl he) with h1 | ⟨a, c', h1⟩
    · exact absurd h1 hne
    · obtain ⟨lk, n, hx, _⟩ := hs.ok hi
      obtain ⟨_, _, _, hn⟩ := (snap_of_at hi hx h1).ok hi
      have := (hn.2 _ _ rfl).2
      rw [hs.heap, hc] at this
      cases this

/-- The parent snapshot is in memory. -/
def ParD (w : World K V) (ctx : Ctx K V) : Prop := ∀ s, ctx.par = .snap s → w.mem.heap s.ptr = some s.node

structure CtxD (w : World K V) (ctx : Ctx K V) : Prop where
  cur : SnapD w ctx.cur
  par : ParD w ctx

theorem CtxD.mono {w' : World K V} (h : Mono w w') {ctx : Ctx K V} (hs : CtxD w ctx) : CtxD w' ctx :=
  ⟨hs.cur.mono h, fun s e => h.heap _ _ (hs.par s e)⟩

structure SetD (w : World K V) (ctx : Ctx K V) : Prop where
  base : CtxD w ctx
  room : Room w ctx.cur

theorem SetD.mono {w' : World K V} (h : Mono w w') {ctx : Ctx K V} (hs : SetD w ctx) : SetD w' ctx :=
  ⟨hs.base.mono h, hs.room.mono h⟩

/-- Outcome of a function that may abort. -/
def Opt (P : World K V → Ctx K V → Prop) (r : Option (Ctx K V)) (w : World K V) : Prop := ∀ c, r = some c → P w c

theorem Opt.none {P : World K V → Ctx K V → Prop} : Opt P none w := fun _ h => by cases h
theorem Opt.some {P : World K V → Ctx K V → Prop} {c : Ctx K V} (h : P w c) : Opt P (some c) w := fun _ e => by cases e; exact h

/-! ### Atomic steps -/

theorem dp_getNode {id : NodeId} {Q : Ptr × Node K V → World K V → Prop}
    (H : ∀ w' p n, Mono w w' → Inv w' → SnapD w' ⟨id, p, n⟩ → Q (p, n) w') : dp (getNode id) Q w := by
  unfold getNode
  split
  · trivial
  · intro w1 hm hi hf x p n hx ha
    refine H w1 p n hm hi ⟨⟨w1, hi, Mono.refl w1, snap_of_at hi hx ha⟩, ?_⟩
    obtain ⟨n', h1, h2⟩ := hf id p ha.1
    rw [ha.2] at h1
    cases h1
    exact h2

theorem dp_replace' {id : NodeId} {n o : Ptr} {Q : Bool → World K V → Prop}
    (H1 : ∀ w1, Mono w w1 → Inv w1 → w1.mem.table id = some o → FlatAt w1 n)
    (H2 : ∀ w1, Mono w w1 → Inv w1 → w1.pub id n → FlatAt w1 n → Q true w1)
    (H0 : ∀ w1, Mono w w1 → Inv w1 → w1.mem.table id ≠ some o → Q false w1) : dp (replace id n o) Q w := by
  unfold replace
  split
  · trivial
  · intro w1 hm hi hf x hx
    refine ⟨fun he => ⟨H1 w1 hm hi he, fun w2 h2 hm2 hi2 _ => H2 w2 (hm.trans hm2) hi2 ?_ ((H1 w1 hm hi he).mono hm2)⟩, fun he => H0 w1 hm hi he⟩
    obtain ⟨p, hp, hpub⟩ := hi2.cur id x (hm2.info _ _ hx)
    rw [h2] at hp
    cases hp
    exact hpub

theorem dp_replace {id : NodeId} {n o : Ptr} {Q : Bool → World K V → Prop}
    (H1 : ∀ w1, Mono w w1 → Inv w1 → w1.mem.table id = some o → FlatAt w1 n)
    (H2 : ∀ w1, Mono w w1 → Inv w1 → w1.pub id n → Q true w1)
    (H0 : ∀ w1, Mono w w1 → Inv w1 → w1.mem.table id ≠ some o → Q false w1) : dp (replace id n o) Q w :=
  dp_replace' H1 (fun w1 a b c _ => H2 w1 a b c) H0

theorem dp_allocate {n : Node K V} {ks : List Ptr} {Q : Ptr → World K V → Prop}
    (H : ∀ w1 p, Mono w w1 → Inv w1 → w1.mem.heap p = some n → Q p w1) : dp (allocate n ks) Q w :=
  fun w1 a b _ p hp => H w1 p a b hp

theorem dp_addGarbage {p : Ptr} {Q : Unit → World K V → Prop} (H : ∀ w1, Mono w w1 → Inv w1 → Q () w1) : dp (addGarbage p) Q w :=
  fun w1 a b _ => H w1 a b

theorem dp_nextNodeId {Q : NodeId → World K V → Prop} (H : ∀ w1 id, Mono w w1 → Inv w1 → Q id w1) : dp nextNodeId Q w :=
  fun w1 a b _ id => H w1 id a b

theorem dp_readRoot {Q : NodeId → World K V → Prop} (H : ∀ w1 id, Mono w w1 → Inv w1 → Q id w1) : dp readRoot Q w :=
  fun w1 a b _ id => H w1 id a b

theorem dp_installRoot {o n : NodeId} {Q : Bool → World K V → Prop} (H : ∀ w1 b, Mono w w1 → Inv w1 → Q b w1) : dp (installRoot o n) Q w :=
  fun w1 a b _ x => H w1 x a b

theorem dp_installNew {id : NodeId} {p : Ptr} (hp : FlatAt w p) {Q : Unit → World K V → Prop} (H : ∀ w1, Mono w w1 → Inv w1 → Q () w1) :
    dp (installNew id p) Q w := by
  unfold installNew
  split
  · trivial
  · exact fun w1 a b _ => ⟨hp.mono a, H w1 a b⟩

theorem dp_parent {ctx : Ctx K V} {Q : Snap K V → World K V → Prop} (H : ∀ s, ctx.par = .snap s → Q s w) : dp (parent ctx) Q w := by
  unfold parent
  split
  · trivial
  · split
    · trivial
    · trivial
    · exact H _ (by assumption)

theorem dp_onRoot {ctx : Ctx K V} {Q : Bool → World K V → Prop} (H : ∀ b, Q b w) : dp (onRoot ctx) Q w := by
  unfold onRoot
  split
  · trivial
  · exact H _
  · exact H _

/-! ### The help-along functions -/

theorem consolidated_leaf {n b : Node K V} (h : consolidated n = some b) : b.shallow ∧ ∀ c, b = .leaf c → c.depth = 0 := by
  cases n with
  | leaf c =>
    simp only [consolidated, LeafChain.consolidate] at h
    cases hc : c.collect with
    | none => rw [hc] at h; cases h
    | some items =>
      rw [hc] at h
      cases h
      exact ⟨Nat.zero_le _, fun c' e => by cases e; rfl⟩
  | inner c =>
    simp only [consolidated] at h
    cases hc : c.consolidate 0 with
    | none => rw [hc] at h; cases h
    | some b' =>
      rw [hc] at h
      cases h
      exact ⟨trivial, fun c' e => by cases e⟩

theorem dp_consolidateNode {s : Snap K V} (hs : SnapD w s) {Q : Snap K V → World K V → Prop}
    (H : ∀ w' s', Mono w w' → SnapD w' s' → Room w' s' → Q s' w') : dp (consolidateNode s) Q w := by
  unfold consolidateNode
  cases hb : consolidated s.node with
  | none => trivial
  | some b =>
    obtain ⟨h1, h2⟩ := consolidated_leaf hb
    refine dp_seq (R := fun p w1 => Mono w w1 ∧ w1.mem.heap p = some b) (dp_allocate fun w1 p hm _ hp => ⟨hm, hp⟩) ?_
    rintro p w1 ⟨hm, hp⟩
    refine dp_seq (R := fun ok w2 => Mono w1 w2 ∧ Inv w2 ∧ (ok = true → w2.pub s.id p) ∧ (ok = false → w2.mem.table s.id ≠ some s.ptr)) (dp_replace
      (fun w2 a _ _ => ⟨b, a.heap _ _ hp, h1⟩) (fun w2 a i hq => ⟨a, i, fun _ => hq, fun h => by cases h⟩)
      (fun w2 a i hq => ⟨a, i, fun h => (by cases h), fun _ => hq⟩)) ?_
    rintro ok w2 ⟨hm2, hi2, h3, h4⟩
    cases ok with
    | true =>
      refine dp_seq (R := fun _ w3 => Mono w2 w3) (dp_addGarbage fun w3 a _ => a) ?_
      intro _ w3 hm3
      refine H w3 _ (hm.trans (hm2.trans hm3)) ⟨⟨w2, hi2, hm3, h3 rfl, hm2.heap _ _ hp⟩, h1⟩ fun c hc => Or.inl ?_
      rw [h2 c hc]
      decide
    | false =>
      refine dp_seq (R := fun _ w3 => Mono w2 w3) (dp_addGarbage fun w3 a _ => a) ?_
      intro _ w3 hm3
      have hs2 := hs.mono (hm.trans hm2)
      exact H w3 _ (hm.trans (hm2.trans hm3)) (hs2.mono hm3) fun c _ => Or.inr ⟨w2, hi2, hm3, hs2.ok, h4 rfl⟩

theorem dp_postInnerInsert {ctx : Ctx K V} (h : CtxD w ctx) (item next : K × NodeId) (loc : Nat) :
    dp (postInnerInsert ctx item next loc) (Opt CtxD) w := by
  unfold postInnerInsert
  refine dp_seq (R := fun _ w1 => w1 = w) (dp_parent fun s _ => rfl) ?_
  rintro s _ rfl
  cases hn : s.node with
  | leaf c => trivial
  | inner c =>
    refine dp_seq (R := fun p w1 => Mono _ w1 ∧ w1.mem.heap p = some (.inner (.ins item next loc c))) (dp_allocate fun w1 p hm _ hp => ⟨hm, hp⟩) ?_
    rintro p w1 ⟨hm, hp⟩
    refine dp_seq (R := fun ok w2 => Mono w1 w2) (dp_replace (fun w2 a _ _ => ⟨_, a.heap _ _ hp, trivial⟩) (fun w2 a _ _ => a) (fun w2 a _ _ => a)) ?_
    intro ok w2 hm2
    cases ok with
    | true =>
      refine dp_seq (R := fun cur w3 => Mono w2 w3 ∧ SnapD w3 cur) (dp_consolidateNode (h.cur.mono (hm.trans hm2)) fun w3 s' a b _ => ⟨a, b⟩) ?_
      rintro cur w3 ⟨hm3, hc⟩
      refine Opt.some ⟨hc, ?_⟩
      rintro s' e
      cases e
      exact (hm2.trans hm3).heap _ _ hp
    | false => exact Opt.none

theorem dp_postInnerDelete {ctx : Ctx K V} (h : CtxD w ctx) (item prev next : K × NodeId) (loc : Nat) :
    dp (postInnerDelete ctx item prev next loc) (Opt CtxD) w := by
  unfold postInnerDelete
  refine dp_seq (R := fun _ w1 => w1 = w) (dp_parent fun s _ => rfl) ?_
  rintro s _ rfl
  cases hn : s.node with
  | leaf c => trivial
  | inner c =>
    refine dp_seq (R := fun p w1 => Mono _ w1 ∧ w1.mem.heap p = some (.inner (.del item prev next loc c))) (dp_allocate fun w1 p hm _ hp => ⟨hm, hp⟩) ?_
    rintro p w1 ⟨hm, hp⟩
    refine dp_seq (R := fun ok w2 => Mono w1 w2) (dp_replace (fun w2 a _ _ => ⟨_, a.heap _ _ hp, trivial⟩) (fun w2 a _ _ => a) (fun w2 a _ _ => a)) ?_
    intro ok w2 hm2
    cases ok with
    | true =>
      refine dp_seq (R := fun _ w3 => Mono w2 w3) (dp_getNode fun w3 _ _ a _ _ => a) ?_
      intro g w3 hm3
      split
      · refine dp_seq (R := fun _ w4 => Mono w3 w4) (dp_addGarbage fun w4 a _ => a) ?_
        intro _ w4 hm4
        refine dp_seq (R := fun cur w5 => Mono w4 w5 ∧ SnapD w5 cur)
          (dp_consolidateNode (h.cur.mono ((hm.trans hm2).trans (hm3.trans hm4))) fun w3 s' a b _ => ⟨a, b⟩) ?_
        rintro cur w5 ⟨hm5, hc⟩
        refine Opt.some ⟨hc, ?_⟩
        rintro s' e
        cases e
        exact (((hm2.trans hm3).trans hm4).trans hm5).heap _ _ hp
      · trivial
    | false => exact Opt.none

theorem dp_findLeftSibling (k : K) {par : Snap K V} (h : w.mem.heap par.ptr = some par.node) :
    dp (findLeftSibling k par) (fun x w' => Mono w w' ∧ w'.mem.heap x.2.ptr = some x.2.node) w := by
  unfold findLeftSibling
  cases hn : par.node with
  | leaf c => trivial
  | inner c =>
    simp only
    cases hl : c.leftStart k with
    | none => trivial
    | some x =>
      cases x with
      | found id => exact ⟨Mono.refl w, h⟩
      | sawMerge =>
        simp only
        cases hc : c.consolidate (c.depth + 1) with
        | none => trivial
        | some b =>
          simp only
          refine dp_seq (R := fun p w1 => Mono w w1 ∧ w1.mem.heap p = some (.inner b)) (dp_allocate fun w1 p hm _ hp => ⟨hm, hp⟩) ?_
          rintro p w1 ⟨hm, hp⟩
          refine dp_seq (R := fun ok w2 => Mono w1 w2) (dp_replace (fun w2 a _ _ => ⟨_, a.heap _ _ hp, trivial⟩) (fun w2 a _ _ => a) (fun w2 a _ _ => a)) ?_
          intro ok w2 hm2
          refine dp_seq (R := fun par' w3 => Mono w2 w3 ∧ w3.mem.heap par'.ptr = some par'.node) ?_ ?_
          · cases ok with
            | true =>
              refine dp_seq (R := fun _ w3 => Mono w2 w3) (dp_addGarbage fun w3 a _ => a) ?_
              intro _ w3 hm3
              exact ⟨hm3, (hm2.trans hm3).heap _ _ hp⟩
            | false =>
              refine dp_seq (R := fun _ w3 => Mono w2 w3) (dp_addGarbage fun w3 a _ => a) ?_
              intro _ w3 hm3
              exact ⟨hm3, ((hm.trans hm2).trans hm3).heap _ _ h⟩
          · rintro par' w3 ⟨hm3, hp'⟩
            split
            · exact ⟨(hm.trans hm2).trans hm3, hp'⟩
            · trivial

theorem dp_finishSplitNonRoot {ctx : Ctx K V} (h : CtxD w ctx) (item next : K × NodeId) : dp (finishSplitNonRoot ctx item next) (Opt CtxD) w := by
  unfold finishSplitNonRoot
  refine dp_seq (R := fun _ w1 => w1 = w) (dp_parent fun s _ => rfl) ?_
  rintro s _ rfl
  split
  · exact Opt.some h
  · split
    · trivial
    · split
      · trivial
      · split
        · refine dp_seq (R := fun _ _ => True) (dp_getNode fun _ _ _ _ _ _ => trivial) ?_
          intro g w1 _
          split
          · exact Opt.none
          · trivial
        · exact Opt.some h
      · exact dp_postInnerInsert h _ _ _

theorem dp_finishSplitRoot {ctx : Ctx K V} (item : K × NodeId) : dp (finishSplitRoot ctx item) (Opt CtxD) w := by
  unfold finishSplitRoot
  refine dp_seq (R := fun _ _ => True) (dp_nextNodeId fun _ _ _ _ => trivial) ?_
  intro newRoot w1 _
  refine dp_seq (R := fun p w2 => FlatAt w2 p) (dp_allocate fun w2 p _ _ hp => ⟨_, hp, trivial⟩) ?_
  intro p w2 hp
  refine dp_seq (R := fun _ _ => True) (dp_installNew hp fun _ _ _ => trivial) ?_
  intro _ w3 _
  refine dp_seq (R := fun _ _ => True) (dp_installRoot fun _ _ _ _ => trivial) ?_
  intro ok w4 _
  cases ok with
  | true => exact Opt.none
  | false =>
    refine dp_seq (R := fun _ _ => True) (dp_allocate fun _ _ _ _ _ => trivial) ?_
    intro _ w5 _
    refine dp_seq (R := fun _ _ => True) (dp_addGarbage fun _ _ _ => trivial) ?_
    intro _ w6 _
    refine dp_seq (R := fun _ _ => True) (dp_addGarbage fun _ _ _ => trivial) ?_
    intro _ w7 _
    exact Opt.none

theorem dp_finishSplit {ctx : Ctx K V} (h : CtxD w ctx) (item next : K × NodeId) : dp (finishSplit ctx item next) (Opt CtxD) w := by
  unfold finishSplit
  refine dp_seq (R := fun _ w1 => w1 = w) (dp_onRoot fun _ => rfl) ?_
  rintro r _ rfl
  split
  · exact dp_finishSplitRoot _
  · exact dp_finishSplitNonRoot h _ _

theorem dp_finishMerge {ctx : Ctx K V} (h : CtxD w ctx) (item high : K × NodeId) : dp (finishMerge ctx item high) (Opt CtxD) w := by
  unfold finishMerge
  refine dp_seq (R := fun _ w1 => w1 = w) (dp_parent fun s _ => rfl) ?_
  rintro s _ rfl
  refine dp_seq (R := fun _ w1 => Mono _ w1) (dp_getNode fun _ _ _ a _ _ => a) ?_
  intro g w1 hm
  split
  · exact Opt.none
  · split
    · trivial
    · split
      · trivial
      · exact Opt.some (h.mono hm)
      · split
        · trivial
        · exact dp_postInnerDelete (h.mono hm) _ _ _ _

theorem dp_tryConsolidate {ctx : Ctx K V} (h : CtxD w ctx) : dp (tryConsolidate ctx) (fun c w' => SetD w' c) w := by
  unfold tryConsolidate
  split
  · rename_i hd
    refine ⟨h, fun c hc => Or.inl ?_⟩
    rw [hc] at hd
    cases c <;> first | (cases hd; done) | exact Nat.zero_lt_succ 7
  · by_cases hd : ctx.cur.node.depth < (if ctx.cur.node.isLeaf then LEAF_CHAIN else INNER_CHAIN)
    · rw [if_pos hd]
      refine ⟨h, fun c hc => Or.inl ?_⟩
      rw [hc] at hd
      exact hd
    · rw [if_neg hd]
      refine dp_seq (R := fun s w1 => Mono w w1 ∧ SnapD w1 s ∧ Room w1 s) (dp_consolidateNode h.cur fun w1 s a b c => ⟨a, b, c⟩) ?_
      rintro s w1 ⟨hm, h1, h2⟩
      exact ⟨⟨h1, fun s' e => hm.heap _ _ (h.par s' e)⟩, h2⟩

theorem dp_removeNode {ctx : Ctx K V} (h : CtxD w ctx) {removed : Node K V} (hr : removed.shallow) : dp (removeNode ctx removed) (Opt SetD) w := by
  unfold removeNode
  refine dp_seq (R := fun s w1 => w1 = w ∧ w.mem.heap s.ptr = some s.node) (dp_parent fun s e => ⟨rfl, h.par s e⟩) ?_
  rintro s _ ⟨rfl, hs⟩
  cases hn : s.node with
  | leaf c => trivial
  | inner c =>
    rw [hn] at hs
    refine dp_seq (R := fun p w1 => Mono _ w1 ∧ FlatAt w1 p) (dp_allocate fun w1 p hm _ hp => ⟨hm, _, hp, trivial⟩) ?_
    rintro a w1 ⟨hm, ha⟩
    refine dp_seq (R := fun ok w2 => Mono w1 w2) (dp_replace (fun w2 a' _ _ => ha.mono a') (fun w2 a _ _ => a) (fun w2 a _ _ => a)) ?_
    intro ok w2 hm2
    cases ok with
    | true =>
      refine dp_seq (R := fun p w3 => Mono w2 w3 ∧ FlatAt w3 p) (dp_allocate fun w3 p hm _ hp => ⟨hm, _, hp, hr⟩) ?_
      rintro p w3 ⟨hm3, hp⟩
      refine dp_seq (R := fun _ w4 => Mono w3 w4) (dp_replace (fun w4 a' _ _ => hp.mono a') (fun _ a _ _ => a) (fun _ a _ _ => a)) ?_
      intro _ w4 hm4
      refine dp_seq (R := fun _ _ => True) (dp_replace (fun w5 a' _ _ => ⟨_, ((((hm.trans hm2).trans hm3).trans hm4).trans a').heap _ _ hs, trivial⟩)
        (fun _ _ _ _ => trivial) (fun _ _ _ _ => trivial)) ?_
      intro back w5 _
      cases back with
      | true =>
        refine dp_seq (R := fun _ _ => True) (dp_addGarbage fun _ _ _ => trivial) ?_
        intro _ _ _
        exact Opt.none
      | false => trivial
    | false => exact Opt.none

theorem dp_installSplit {ctx : Ctx K V} (h : SetD w ctx) (newId : NodeId) {sib delta fake : Node K V} (h1 : sib.shallow) (h2 : delta.shallow) :
    dp (installSplit ctx newId sib delta fake) (Opt SetD) w := by
  unfold installSplit
  refine dp_seq (R := fun p w1 => Mono w w1 ∧ FlatAt w1 p) (dp_allocate fun w1 p hm _ hp => ⟨hm, _, hp, h1⟩) ?_
  rintro s w1 ⟨hm1, hs⟩
  refine dp_seq (R := fun p w2 => Mono w1 w2 ∧ FlatAt w2 p) (dp_allocate fun w1 p hm _ hp => ⟨hm, _, hp, h2⟩) ?_
  rintro d w2 ⟨hm2, hd⟩
  refine dp_seq (R := fun _ w3 => Mono w2 w3) (dp_installNew (hs.mono hm2) fun _ a _ => a) ?_
  intro _ w3 hm3
  refine dp_seq (R := fun _ w4 => Mono w3 w4) (dp_replace (fun _ a _ _ => hd.mono (hm3.trans a)) (fun _ a _ _ => a) (fun _ a _ _ => a)) ?_
  intro ok w4 hm4
  cases ok with
  | true => exact Opt.none
  | false =>
    refine dp_seq (R := fun _ w5 => Mono w4 w5) (dp_allocate fun _ _ a _ _ => a) ?_
    intro _ w5 hm5
    refine dp_seq (R := fun _ w6 => Mono w5 w6) (dp_addGarbage fun _ a _ => a) ?_
    intro _ w6 hm6
    refine dp_seq (R := fun _ w7 => Mono w6 w7) (dp_addGarbage fun _ a _ => a) ?_
    intro _ w7 hm7
    exact Opt.some (h.mono ((((((hm1.trans hm2).trans hm3).trans hm4).trans hm5).trans hm6).trans hm7))

theorem base_depth {c : LeafChain K V} (h : ¬ c.isDelta = true) : c.depth = 0 := by
  cases c <;> first | rfl | exact absurd rfl h

theorem dp_adjustSize {ctx : Ctx K V} (h : SetD w ctx) : dp (adjustSize ctx) (Opt SetD) w := by
  unfold adjustSize
  split
  · rename_i c hc
    split
    · exact Opt.some h
    · rename_i hd
      have hb := base_depth hd
      split
      · split
        · trivial
        · exact Opt.some h
        · split
          · refine dp_seq (R := fun _ w1 => Mono w w1 ∧ Inv w1) (dp_nextNodeId fun _ _ a i => ⟨a, i⟩) ?_
            rintro id w1 ⟨hm, hi1⟩
            refine dp_installSplit (h.mono hm) _ (Nat.zero_le _) ?_
            show c.depth ≤ _
            rw [hb]
            exact Nat.zero_le _
          · trivial
      · split
        · refine dp_seq (R := fun _ w1 => w1 = w) (dp_parent fun s _ => rfl) ?_
          rintro s _ rfl
          split
          · exact Opt.some h
          · exact dp_removeNode h.base hb
        · exact Opt.some h
  · rename_i c hc
    split
    · exact Opt.some h
    · split
      · split
        · trivial
        · refine dp_seq (R := fun _ w1 => Mono w w1 ∧ Inv w1) (dp_getNode fun _ _ _ a i _ => ⟨a, i⟩) ?_
          rintro g w1 ⟨hm, hi1⟩
          split
          · refine dp_seq (R := fun _ w2 => Mono w1 w2 ∧ Inv w2) (dp_allocate fun _ _ a i _ => ⟨a, i⟩) ?_
            rintro s w2 ⟨hm2, hi2⟩
            refine dp_seq (R := fun _ w3 => Mono w2 w3) (dp_addGarbage fun _ a _ => a) ?_
            intro _ w3 hm3
            exact Opt.some (h.mono ((hm.trans hm2).trans hm3))
          · refine dp_seq (R := fun _ w2 => Mono w1 w2 ∧ Inv w2) (dp_nextNodeId fun _ _ a i => ⟨a, i⟩) ?_
            rintro id w2 ⟨hm2, hi2⟩
            exact dp_installSplit (h.mono (hm.trans hm2)) _ trivial trivial
      · split
        · refine dp_seq (R := fun _ w1 => w1 = w) (dp_onRoot fun _ => rfl) ?_
          rintro r _ rfl
          split
          · exact Opt.some h
          · refine dp_seq (R := fun _ w1 => w1 = _) (dp_parent fun s _ => rfl) ?_
            rintro s _ rfl
            split
            · exact Opt.some h
            · exact dp_removeNode h.base trivial
        · exact Opt.some h

/-- What a version of FinishPartialSMO satisfies. -/
def FinishD (finish : Ctx K V → Prog K V (Option (Ctx K V))) : Prop := ∀ w ctx, CtxD w ctx → dp (finish ctx) (Opt CtxD) w

theorem dp_settle {finish : Ctx K V → Prog K V (Option (Ctx K V))} (hf : FinishD finish) {ctx : Ctx K V} (h : CtxD w ctx) :
    dp (settle finish ctx) (Opt SetD) w := by
  unfold settle
  refine dp_seq (hf w ctx h) ?_
  intro r w1 hr
  cases r with
  | none => exact Opt.none
  | some c => exact dp_seq (dp_tryConsolidate (hr c rfl)) fun c' w2 hc => dp_adjustSize hc

theorem dp_jump {finish : Ctx K V → Prog K V (Option (Ctx K V))} (hf : FinishD finish) (id : NodeId) {ctx : Ctx K V} (h : ParD w ctx) :
    dp (jump finish id ctx) (Opt SetD) w := by
  unfold jump
  refine dp_seq (R := fun g w1 => Mono w w1 ∧ SnapD w1 ⟨id, g.1, g.2⟩) (dp_getNode fun w1 p n a _ b => ⟨a, b⟩) ?_
  rintro g w1 ⟨hm, hg⟩
  split
  · trivial
  · split
    · trivial
    · exact dp_settle hf ⟨hg, fun s e => hm.heap _ _ (h s e)⟩

theorem dp_jumpLeft {finish : Ctx K V → Prog K V (Option (Ctx K V))} (hf : FinishD finish) {ctx : Ctx K V} (h : ParD w ctx) :
    dp (jumpLeft finish ctx) (Opt SetD) w := by
  unfold jumpLeft
  refine dp_seq (R := fun s w1 => w1 = w ∧ w.mem.heap s.ptr = some s.node) (dp_parent fun s e => ⟨rfl, h s e⟩) ?_
  rintro s _ ⟨rfl, hs⟩
  split
  · exact Opt.none
  · refine dp_seq (R := fun _ w1 => Mono _ w1) (dp_getNode fun _ _ _ a _ _ => a) ?_
    intro g w1 hm
    split
    · exact Opt.none
    · refine dp_seq (dp_findLeftSibling _ (hm.heap _ _ hs)) ?_
      rintro x w2 ⟨hm2, hx⟩
      refine dp_seq (dp_jump hf _ (ctx := { ctx with par := .snap x.2 }) fun s e => by cases e; exact hx) ?_
      intro r w3 hr
      cases r with
      | none => exact Opt.none
      | some c =>
        simp only
        split
        · exact Opt.none
        · exact Opt.some (hr c rfl)

theorem dp_finishRemove {finish : Ctx K V → Prog K V (Option (Ctx K V))} (hf : FinishD finish) {ctx : Ctx K V} (h : ParD w ctx) {right : Node K V}
    (hr : ∀ c, right = .leaf c → c.depth = 0) : dp (finishRemove finish ctx right) (Opt CtxD) w := by
  unfold finishRemove
  refine dp_seq (dp_jumpLeft hf h) ?_
  intro r w1 hl
  cases r with
  | none => exact Opt.none
  | some left =>
    simp only
    cases hm : mergeNode ctx.cur.id left.cur.node right with
    | none => trivial
    | some m =>
      simp only
      have hl := hl left rfl
      have key : ∀ w2, Mono w1 w2 → w2.mem.table left.cur.id = some left.cur.ptr → m.shallow := by
        intro w2 hm2 he
        have hu : ∀ c, left.cur.node = .leaf c → c.depth < LEAF_CHAIN := fun c hc => (hl.room.mono hm2).use hc he
        cases hn : left.cur.node with
        | inner c =>
          rw [hn] at hm
          cases right with
          | leaf c' => cases hm
          | inner c' => cases hm; trivial
        | leaf c =>
          have := hu c hn
          rw [hn] at hm
          cases right with
          | inner c' => cases hm
          | leaf c' =>
            have e := hr c' rfl
            cases hm
            show c.depth + c'.depth ≤ _
            omega
      refine dp_seq (R := fun p w2 => Mono w1 w2 ∧ w2.mem.heap p = some m) (dp_allocate fun w2 p a _ hp => ⟨a, hp⟩) ?_
      rintro p w2 ⟨hm2, hp⟩
      refine dp_seq (R := fun ok w3 => ok = true → Mono w2 w3 ∧ Inv w3 ∧ w3.pub left.cur.id p ∧ m.shallow) ?_ ?_
      · refine dp_replace' (fun w3 a _ he => ⟨m, a.heap _ _ hp, key w3 (hm2.trans a) he⟩) (fun w3 a i hq hfl => ?_) (fun _ _ _ _ => fun h => by cases h)
        intro _
        obtain ⟨m', e1, e2⟩ := hfl
        rw [a.heap _ _ hp] at e1
        cases e1
        exact ⟨a, i, hq, e2⟩
      · intro ok w3 h3
        cases ok with
        | false => exact Opt.none
        | true =>
          obtain ⟨hm3, hi3, hq, hs⟩ := h3 rfl
          exact dp_finishMerge (ctx := { left with cur := ⟨left.cur.id, p, m⟩ }) ⟨(⟨⟨w3, hi3, Mono.refl w3, hq, hm3.heap _ _ hp⟩, hs⟩ : SnapD w3 ⟨left.cur.id, p, m⟩), fun s e => (hm2.trans hm3).heap _ _ (hl.base.par s e)⟩ _ _

theorem dp_finishSMO : ∀ fuel, FinishD (finishSMO (K := K) (V := V) fuel)
  | 0 => fun _ _ _ => trivial
  | fuel + 1 => by
    intro w ctx h
    unfold finishSMO
    split
    · rename_i p c hc
      exact dp_finishSMO fuel w _ ⟨h.cur.unabort hc, h.par⟩
    · exact dp_finishRemove (dp_finishSMO fuel) h.par fun c e => by cases e
    · rename_i i c hc
      refine dp_finishRemove (dp_finishSMO fuel) h.par fun c' e => ?_
      cases e
      have := h.cur.flat
      rw [hc] at this
      exact this
    · exact dp_finishMerge h _ _
    · exact dp_finishMerge h _ _
    · exact dp_finishSplit h _ _
    · exact dp_finishSplit h _ _
    · exact Opt.some h

/-! ### Traversal -/

theorem dp_loadChild (fuel : Nat) (id : NodeId) {ctx : Ctx K V} (h : CtxD w ctx) : dp (loadChild fuel id ctx) (Opt SetD) w := by
  unfold loadChild
  refine dp_seq (R := fun g w1 => Mono w w1 ∧ SnapD w1 ⟨id, g.1, g.2⟩) (dp_getNode fun w1 p n a _ b => ⟨a, b⟩) ?_
  rintro g w1 ⟨hm, hg⟩
  exact dp_settle (dp_finishSMO fuel) ⟨hg, fun s e => by cases e; exact hm.heap _ _ h.cur.ok.heap⟩

theorem dp_loadRootNode (fuel : Nat) (id : NodeId) : dp (loadRootNode (K := K) (V := V) fuel id) (Opt SetD) w := by
  unfold loadRootNode
  refine dp_seq (R := fun g w1 => SnapD w1 ⟨id, g.1, g.2⟩) (dp_getNode fun w1 p n a _ b => b) ?_
  intro g w1 hg
  exact dp_settle (dp_finishSMO fuel) ⟨hg, fun s e => by cases e⟩

theorem dp_loadRO (fuel : Nat) (id : NodeId) (level : Nat) : dp (loadRO (K := K) (V := V) fuel id level) (Opt CtxD) w := by
  unfold loadRO
  refine dp_seq (R := fun g w1 => SnapD w1 ⟨id, g.1, g.2⟩) (dp_getNode fun w1 p n a _ b => b) ?_
  intro g w1 hg
  have : ∀ n (s : Snap K V), SnapD w1 s → dp (finishRO s n) (fun r w' => ∀ s', r = some s' → SnapD w' s') w1 := by
    intro n
    induction n with
    | zero => exact fun _ _ => trivial
    | succ n ih =>
      intro s hs
      unfold finishRO
      split
      · rename_i p c hc
        exact ih _ (hs.unabort hc)
      · exact fun _ e => by cases e
      · exact fun _ e => by cases e
      · exact fun _ e => by cases e; exact hs
  refine dp_seq (this fuel _ hg) ?_
  intro r w2 hr
  cases r with
  | none => exact Opt.none
  | some s => exact Opt.some ⟨hr s rfl, fun s e => by cases e⟩

section
variable {P : World K V → Ctx K V → Prop} (hP : ∀ w c, SetD w c → P w c) (hP' : ∀ w c, P w c → CtxD w c)
include hP hP'

theorem dp_navSibling (fuel : Nat) (k : K) : ∀ (n : Nat) {w : World K V} {ctx : Ctx K V}, P w ctx → dp (navSibling fuel k n ctx) (Opt P) w
  | 0, _, _, _ => trivial
  | n + 1, w, ctx, h => by
    unfold navSibling
    split
    · refine dp_seq (dp_jump (dp_finishSMO fuel) _ (hP' _ _ h).par) ?_
      intro r w1 hr
      cases r with
      | none => exact Opt.none
      | some c => exact dp_navSibling fuel k n (hP _ _ (hr c rfl))
    · exact Opt.some h

theorem dp_navInner (fuel : Nat) (k : K) {ctx : Ctx K V} (h : P w ctx) :
    dp (navInner fuel k ctx) (fun r w' => ∀ x, r = some x → P w' x.1) w := by
  unfold navInner
  refine dp_seq (dp_navSibling hP hP' fuel k fuel h) ?_
  intro r w1 hr
  cases r with
  | none => exact fun _ e => by cases e
  | some c =>
    simp only
    split
    · trivial
    · split
      · trivial
      · exact fun _ e => by cases e; exact hr c rfl

end

theorem dp_descend (fuel : Nat) (k : K) : ∀ (n : Nat) {w : World K V} {ctx : Ctx K V}, SetD w ctx → dp (descend fuel k n ctx) (Opt SetD) w
  | 0, _, _, _ => trivial
  | n + 1, w, ctx, h => by
    unfold descend
    refine dp_seq (dp_navInner (P := SetD) (fun _ _ h => h) (fun _ _ h => h.base) fuel k h) ?_
    intro r w1 hr
    cases r with
    | none => exact Opt.none
    | some x =>
      refine dp_seq (dp_loadChild fuel _ (hr x rfl).base) ?_
      intro r w2 hr2
      cases r with
      | none => exact Opt.none
      | some c =>
        simp only
        split
        · exact dp_navSibling (P := SetD) (fun _ _ h => h) (fun _ _ h => h.base) fuel k fuel (hr2 c rfl)
        · exact dp_descend fuel k n (hr2 c rfl)

theorem dp_tryTraverse (fuel : Nat) (k : K) : dp (tryTraverse (V := V) fuel k) (Opt SetD) w := by
  unfold tryTraverse
  refine dp_seq (R := fun _ _ => True) (dp_readRoot fun _ _ _ _ => trivial) ?_
  intro root w1 _
  refine dp_seq (dp_loadRootNode fuel root) ?_
  intro r w2 hr
  cases r with
  | none => exact Opt.none
  | some c => exact dp_descend fuel k fuel (hr c rfl)

theorem dp_traverse (fuel : Nat) (k : K) : ∀ (n : Nat) {w : World K V}, dp (traverse (V := V) fuel k n) (fun c w' => SetD w' c) w
  | 0, _ => trivial
  | n + 1, w => by
    unfold traverse
    refine dp_seq (dp_tryTraverse fuel k) ?_
    intro r w1 hr
    cases r with
    | none => exact dp_traverse fuel k n
    | some c => exact hr c rfl

theorem dp_navSiblingBI (fuel : Nat) (k : K) : ∀ (n : Nat) {w : World K V} {ctx : Ctx K V}, SetD w ctx → dp (navSiblingBI fuel k n ctx) (Opt SetD) w
  | 0, _, _, _ => trivial
  | n + 1, w, ctx, h => by
    unfold navSiblingBI
    split
    · refine dp_seq (dp_jump (dp_finishSMO fuel) _ h.base.par) ?_
      intro r w1 hr
      cases r with
      | none => exact Opt.none
      | some c => exact dp_navSiblingBI fuel k n (hr c rfl)
    · exact Opt.some h

theorem dp_navInnerBI (fuel : Nat) (k : K) {ctx : Ctx K V} (h : SetD w ctx) :
    dp (navInnerBI fuel k ctx) (fun r w' => ∀ x, r = some x → SetD w' x.1) w := by
  unfold navInnerBI
  refine dp_seq (dp_navSiblingBI fuel k fuel h) ?_
  intro r w1 hr
  cases r with
  | none => exact fun _ e => by cases e
  | some c =>
    simp only
    split
    · trivial
    · split
      · trivial
      · exact fun _ e => by cases e; exact hr c rfl

theorem dp_descendBI (fuel : Nat) (k : K) : ∀ (n : Nat) {w : World K V} {ctx : Ctx K V}, SetD w ctx → dp (descendBI fuel k n ctx) (Opt SetD) w
  | 0, _, _, _ => trivial
  | n + 1, w, ctx, h => by
    unfold descendBI
    refine dp_seq (dp_navInnerBI fuel k h) ?_
    intro r w1 hr
    cases r with
    | none => exact Opt.none
    | some x =>
      refine dp_seq (dp_loadChild fuel _ (hr x rfl).base) ?_
      intro r w2 hr2
      cases r with
      | none => exact Opt.none
      | some c =>
        simp only
        split
        · exact dp_navSiblingBI fuel k fuel (hr2 c rfl)
        · exact dp_descendBI fuel k n (hr2 c rfl)

theorem dp_tryTraverseBI (fuel : Nat) (k : K) : dp (tryTraverseBI (V := V) fuel k) (Opt SetD) w := by
  unfold tryTraverseBI
  refine dp_seq (R := fun _ _ => True) (dp_readRoot fun _ _ _ _ => trivial) ?_
  intro root w1 _
  refine dp_seq (dp_loadRootNode fuel root) ?_
  intro r w2 hr
  cases r with
  | none => exact Opt.none
  | some c => exact dp_descendBI fuel k fuel (hr c rfl)

theorem dp_traverseBI (fuel : Nat) (k : K) : ∀ (n : Nat) {w : World K V}, dp (traverseBI (V := V) fuel k n) (fun c w' => SetD w' c) w
  | 0, _ => trivial
  | n + 1, w => by
    unfold traverseBI
    refine dp_seq (dp_tryTraverseBI fuel k) ?_
    intro r w1 hr
    cases r with
    | none => exact dp_traverseBI fuel k n
    | some c => exact hr c rfl

theorem dp_descendRO (fuel : Nat) (k : K) : ∀ (n : Nat) {w : World K V} {ctx : Ctx K V}, CtxD w ctx → dp (descendRO fuel k n ctx) (fun _ _ => True) w
  | 0, _, _, _ => trivial
  | n + 1, w, ctx, h => by
    unfold descendRO
    refine dp_seq (dp_navInner (P := CtxD) (fun _ _ h => h.base) (fun _ _ h => h) fuel k h) ?_
    intro r w1 hr
    cases r with
    | none => trivial
    | some x =>
      refine dp_seq (dp_loadRO fuel _ _) ?_
      intro r w2 hr2
      cases r with
      | none => trivial
      | some c =>
        simp only
        split
        · exact dp_mono (fun _ _ _ => trivial) (dp_navSibling (P := CtxD) (fun _ _ h => h.base) (fun _ _ h => h) fuel k fuel (hr2 c rfl))
        · exact dp_descendRO fuel k n (hr2 c rfl)

theorem dp_getValue (fuel : Nat) (k : K) : ∀ (n : Nat) {w : World K V}, dp (getValue (V := V) fuel k n) (fun _ _ => True) w
  | 0, _ => trivial
  | n + 1, w => by
    unfold getValue
    refine dp_seq (R := fun _ _ => True) (dp_readRoot fun _ _ _ _ => trivial) ?_
    intro root w1 _
    refine dp_seq (dp_loadRO fuel root 0) ?_
    intro r w2 hr
    cases r with
    | none => exact dp_getValue fuel k n
    | some c =>
      refine dp_seq (dp_descendRO fuel k fuel (hr c rfl)) ?_
      intro r w3 _
      cases r with
      | none => exact dp_getValue fuel k n
      | some c =>
        simp only
        split
        · trivial
        · split <;> trivial

/-- The last step of an update. -/
theorem dp_put {ctx : Ctx K V} (h : SetD w ctx) {c d : LeafChain K V} (hc : ctx.cur.node = .leaf c) (hd : d.depth = c.depth + 1)
    (hs : ∀ i x, d ≠ .remove i x) {ks : List Ptr} {next : Prog K V Bool} (hn : ∀ w', dp next (fun _ _ => True) w') :
    dp (do
      let p ← allocate (.leaf d) ks
      let ok ← replace ctx.cur.id p ctx.cur.ptr
      if ok then return true else next) (fun _ _ => True) w := by
  refine dp_seq (R := fun p w1 => Mono w w1 ∧ w1.mem.heap p = some (.leaf d)) (dp_allocate fun w1 p a _ hp => ⟨a, hp⟩) ?_
  rintro p w1 ⟨hm, hp⟩
  refine dp_seq (R := fun _ _ => True) (dp_replace (fun w2 a _ he => ⟨_, a.heap _ _ hp, ?_⟩) (fun _ _ _ _ => trivial) (fun _ _ _ _ => trivial)) ?_
  · have : c.depth < LEAF_CHAIN := (h.room.mono (hm.trans a)).use hc he
    cases d <;> first | exact absurd rfl (hs _ _) | (show _ ≤ _; omega)
  · intro ok w2 _
    cases ok with
    | true => trivial
    | false => exact hn w2

theorem dp_insert (fuel : Nat) (k : K) (v : V) : ∀ (n : Nat) {w : World K V}, dp (insert fuel k v n) (fun _ _ => True) w
  | 0, _ => trivial
  | n + 1, w => by
    unfold insert
    refine dp_seq (dp_traverse fuel k fuel) ?_
    intro ctx w1 h
    split
    · trivial
    · rename_i c hc
      split
      · trivial
      · trivial
      · exact dp_put h hc rfl (fun _ _ e => by cases e) fun w' => dp_insert fuel k v n

theorem dp_delete (fuel : Nat) (k : K) (v : V) : ∀ (n : Nat) {w : World K V}, dp (delete fuel k v n) (fun _ _ => True) w
  | 0, _ => trivial
  | n + 1, w => by
    unfold delete
    refine dp_seq (dp_traverse fuel k fuel) ?_
    intro ctx w1 h
    split
    · trivial
    · rename_i c hc
      split
      · trivial
      · trivial
      · exact dp_put h hc rfl (fun _ _ e => by cases e) fun w' => dp_delete fuel k v n

theorem dp_readPage (n : Node K V) : dp (readPage n) (fun _ _ => True) w := by
  unfold readPage
  split
  · trivial
  · split <;> trivial

theorem dp_prog (fuel : Nat) (op : Call K V) : dp (prog fuel op) (fun _ _ => True) w := by
  cases op with
  | api op =>
    cases op with
    | insert k v => exact dp_seq (dp_insert fuel k v fuel) fun _ _ _ => trivial
    | delete k v => exact dp_seq (dp_delete fuel k v fuel) fun _ _ _ => trivial
    | get k => exact dp_seq (dp_getValue fuel k fuel) fun _ _ _ => trivial
  | page k => exact dp_seq (dp_traverse fuel k fuel) fun _ _ _ => dp_readPage _
  | first => exact dp_seq (R := fun _ _ => True) (dp_getNode fun _ _ _ _ _ _ => trivial) fun _ _ _ => dp_readPage _
  | back k =>
    refine dp_seq (dp_traverseBI fuel k fuel) fun ctx _ _ => ?_
    show dp (if _ then _ else _) _ _
    split
    · exact dp_readPage _
    · trivial

/-! ### Executions -/

theorem flat_init : Flat (initWorld : World K V) := by
  intro id p h
  simp only [initWorld, initMem] at h
  split at h
  · cases h; exact ⟨_, rfl, trivial⟩
  · split at h
    · cases h; exact ⟨_, rfl, Nat.zero_le _⟩
    · cases h

theorem flat_of_reach {c : Conf K V} (h : Reach c) : ∃ w, Good c w ∧ Flat w ∧ ∀ t p, c.thr t = some p → ∃ w0, Mono w0 w ∧ dp p (fun _ _ => True) w0 := by
  induction h with
  | init => exact ⟨_, good_init, flat_init, fun t p h => by cases h⟩
  | step _ hs ih =>
    obtain ⟨w, hw, hf, hd⟩ := ih
    obtain ⟨w', hw', _, _, hm⟩ := good_step hw hs
    have same : w'.mem = w.mem → Flat w' := fun e id p h => (hf id p (e ▸ h)).mono hm
    cases hs with
    | call t fuel op hidle =>
      refine ⟨w', hw', same (hw'.mem.trans hw.mem.symm), fun u p hu => ?_⟩
      by_cases hut : u = t
      · subst hut
        simp only [setThr_self, Option.some.injEq] at hu
        subst hu
        exact ⟨w', Mono.refl _, dp_prog fuel op⟩
      · simp only [setThr_ne _ _ hut] at hu
        obtain ⟨w0, h1, h2⟩ := hd u p hu
        exact ⟨w0, h1.trans hm, h2⟩
    | step t p p' m' hp hst =>
      obtain ⟨w0, h1, h2⟩ := hd t p hp
      obtain ⟨op, v0, _, _, g2, g3⟩ := hw.run t p hp
      have hm1 : w'.mem = m' := hw'.mem
      rw [← hw.mem, ← hm1] at hst
      obtain ⟨hf', w1, h3, h4⟩ := dp_step h2 h1 hw.inv hf (known1 g3 g2 hw.inv) hst hm hw'.inv
      refine ⟨w', hw', hf', fun u q hu => ?_⟩
      by_cases hut : u = t
      · subst hut
        simp only [setThr_self, Option.some.injEq] at hu
        subst hu
        exact ⟨w1, h3, h4⟩
      · simp only [setThr_ne _ _ hut] at hu
        obtain ⟨w0, h1, h2⟩ := hd u q hu
        exact ⟨w0, h1.trans hm, h2⟩
    | ret t a hp =>
      refine ⟨w', hw', same (hw'.mem.trans hw.mem.symm), fun u q hu => ?_⟩
      by_cases hut : u = t
      · subst hut
        simp only [setThr_self] at hu
        cases hu
      · simp only [setThr_ne _ _ hut] at hu
        obtain ⟨w0, h1, h2⟩ := hd u q hu
        exact ⟨w0, h1.trans hm, h2⟩

end Tree
end BwTree
