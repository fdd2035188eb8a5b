import Verif.Proofs.SeqInv

/-! Changes of the tree that keep its sequential shape: replacing a node, splitting, removing, merging, a new root. -/

namespace BwTree
namespace Tree

open Prog

set_option linter.unusedSectionVars false

variable {K V : Type} [LinearOrder K] [DecidableEq V] [Inhabited K] {w w' : World K V}

/-! ### Progress -/

/-- Live and not removed. -/
def Up (w : World K V) (x : NodeId) : Prop := ∃ n nd, Nd w n x nd ∧ nd.isRemove = false

/-- The root, or a node with a parent. -/
def Placed (w : World K V) (x : NodeId) : Prop := x = w.mem.root ∨ ∃ n, HasPar w n x

open Classical in
/-- How much can still happen to a NodeID: become part of the tree, get a parent, be removed. -/
noncomputable def wt (w : World K V) (x : NodeId) : Nat :=
  if w.info x = none then 3 else if Up w x then (if Placed w x then 1 else 2) else 0

def Le (w w' : World K V) : Prop := ∀ x, wt w' x ≤ wt w x

def Lt (w w' : World K V) : Prop := Le w w' ∧ ∃ x, x < TABLE_SIZE ∧ wt w' x < wt w x

theorem Le.refl (w : World K V) : Le w w := fun _ => Nat.le_refl _

theorem Le.trans {a b c : World K V} (h1 : Le a b) (h2 : Le b c) : Le a c := fun x => Nat.le_trans (h2 x) (h1 x)

theorem Le.lt {a b c : World K V} (h1 : Le a b) (h2 : Lt b c) : Lt a c := by
  obtain ⟨h2, x, hx, hlt⟩ := h2
  exact ⟨h1.trans h2, x, hx, Nat.lt_of_lt_of_le hlt (h1 x)⟩

theorem Lt.le {a b c : World K V} (h1 : Lt a b) (h2 : Le b c) : Lt a c := by
  obtain ⟨h1, x, hx, hlt⟩ := h1
  exact ⟨h1.trans h2, x, hx, Nat.lt_of_le_of_lt (h2 x) hlt⟩

theorem wt_le_three (x : NodeId) : wt w x ≤ 3 := by
  unfold wt
  split
  · exact Nat.le_refl _
  · split
    · split <;> decide
    · decide

theorem le_of (hinfo : ∀ x, w.info x ≠ none → w'.info x ≠ none) (hup : ∀ x, w.info x ≠ none → Up w' x → Up w x)
    (hpl : ∀ x, w.info x ≠ none → Up w' x → Placed w x → Placed w' x) : Le w w' := by
  intro x
  by_cases h : w.info x = none
  · have : wt w x = 3 := by unfold wt; rw [if_pos h]
    rw [this]
    exact wt_le_three x
  · have h' := hinfo x h
    unfold wt
    rw [if_neg h, if_neg h']
    by_cases hu : Up w' x
    · rw [if_pos hu, if_pos (hup x h hu)]
      by_cases hp : Placed w x
      · rw [if_pos hp, if_pos (hpl x h hu hp)]
      · rw [if_neg hp]
        split <;> decide
    · rw [if_neg hu]
      exact Nat.zero_le _

theorem lt_new (hle : Le w w') {x : NodeId} (hx : x < TABLE_SIZE) (h1 : w.info x = none) (h2 : w'.info x ≠ none) : Lt w w' := by
  refine ⟨hle, x, hx, ?_⟩
  unfold wt
  rw [if_pos h1, if_neg h2]
  split
  · split <;> decide
  · decide

theorem lt_placed (hle : Le w w') {x : NodeId} (hx : x < TABLE_SIZE) (h1 : w.info x ≠ none) (h2 : w'.info x ≠ none) (hu : Up w x)
    (hp : ¬ Placed w x) (hp' : Placed w' x) : Lt w w' := by
  refine ⟨hle, x, hx, ?_⟩
  unfold wt
  rw [if_neg h1, if_neg h2, if_pos hu, if_neg hp, if_pos hp']
  split <;> decide

theorem lt_removed (hle : Le w w') {x : NodeId} (hx : x < TABLE_SIZE) (h1 : w.info x ≠ none) (h2 : w'.info x ≠ none) (hu : Up w x)
    (hu' : ¬ Up w' x) : Lt w w' := by
  refine ⟨hle, x, hx, ?_⟩
  unfold wt
  rw [if_neg h1, if_neg h2, if_pos hu, if_neg hu']
  split <;> decide

/-- Sum of `f` below `n`. -/
def sumTo (f : Nat → Nat) : Nat → Nat
  | 0 => 0
  | n + 1 => sumTo f n + f n

theorem sumTo_le {f g : Nat → Nat} (h : ∀ x, f x ≤ g x) : ∀ n, sumTo f n ≤ sumTo g n
  | 0 => Nat.le_refl _
  | n + 1 => Nat.add_le_add (sumTo_le h n) (h n)

theorem sumTo_lt {f g : Nat → Nat} (h : ∀ x, f x ≤ g x) {x : Nat} (hx : f x < g x) : ∀ n, x < n → sumTo f n < sumTo g n
  | 0, hn => absurd hn (Nat.not_lt_zero _)
  | n + 1, hn => by
    rcases Nat.lt_succ_iff_lt_or_eq.mp hn with h1 | h1
    · exact Nat.add_lt_add_of_lt_of_le (sumTo_lt h hx n h1) (h n)
    · subst h1
      exact Nat.add_lt_add_of_le_of_lt (sumTo_le h x) hx

theorem sumTo_bound {f : Nat → Nat} {b : Nat} (h : ∀ x, f x ≤ b) : ∀ n, sumTo f n ≤ b * n
  | 0 => Nat.zero_le _
  | n + 1 => Nat.add_le_add (sumTo_bound h n) (h n)

/-- How much can still happen to the tree. -/
noncomputable def work (w : World K V) : Nat := sumTo (wt w) TABLE_SIZE

theorem Le.work (h : Le w w') : work w' ≤ work w := sumTo_le h _

theorem Lt.work (h : Lt w w') : work w' < work w := by
  obtain ⟨h1, x, hx, h2⟩ := h
  exact sumTo_lt h1 h2 _ hx

theorem work_le : work w ≤ 3 * TABLE_SIZE := sumTo_bound wt_le_three _

attribute [irreducible] work

/-! ### Unchanged tree -/

theorem Calm.live (h : Calm w w') {n : Nat} {x : NodeId} : Live w' n x ↔ Live w n x := by
  unfold Live
  rw [h.info, h.dead]

theorem Calm.nd (h : Calm w w') (hi : Inv w) : Nd w' = Nd w := by
  funext n x node
  apply propext
  unfold Nd
  rw [h.live]
  constructor
  · rintro ⟨h1, p, ha⟩
    obtain ⟨l, e⟩ := h1.1
    exact ⟨h1, p, (h.at_ hi e).mp ha⟩
  · rintro ⟨h1, p, ha⟩
    obtain ⟨l, e⟩ := h1.1
    exact ⟨h1, p, (h.at_ hi e).mpr ha⟩

theorem hasPar_congr (h : Nd w' = Nd w) : HasPar w' = HasPar w := by unfold HasPar; rw [h]
theorem hasSep_congr (h : Nd w' = Nd w) : HasSep w' = HasSep w := by unfold HasSep; rw [h]
theorem fresh_congr (h : Nd w' = Nd w) : Fresh w' = Fresh w := by unfold Fresh; rw [h]
theorem rm_congr (h : Nd w' = Nd w) : Rm w' = Rm w := by unfold Rm; rw [h]
theorem up_congr (h : Nd w' = Nd w) : Up w' = Up w := by unfold Up; rw [h]

theorem Calm.sinv (h : Calm w w') (hi : Inv w) (hs : SInv w) : SInv w' := by
  have e := h.nd hi
  constructor
  · rw [e]; exact hs.shape
  · rw [e]; exact hs.base
  · intro n x node i h1 h2
    rw [e] at h1
    exact h.live.mpr (hs.kid n x node i h1 h2)
  · intro n y hy
    rw [h.root, hasPar_congr e, fresh_congr e]
    exact hs.par n y (h.live.mp hy)
  · rw [e, hasPar_congr e, fresh_congr e]; exact hs.spl
  · rw [e, hasSep_congr e]; exact hs.rm
  · rw [h.info]
    intro x l n hx
    exact ⟨Nat.lt_of_lt_of_le (hs.lvl x l n hx).1 h.nextId, (hs.lvl x l n hx).2⟩
  · exact hs.keep_gone h.mono (fun r l n e => Or.inl (by rw [← h.info]; exact e)) (fun n r g => Or.inl (h.live.mpr g))

theorem Calm.line (h : Calm w w') (hi : Inv w) {k : K} (hl : Line w k) : Line w' k := by
  have e := h.nd hi
  unfold Line
  rw [e, rm_congr e, h.info]
  exact hl

theorem Calm.le (h : Calm w w') (hi : Inv w) : Le w w' := by
  intro x
  have e := h.nd hi
  unfold wt Placed
  rw [h.info, up_congr e, hasPar_congr e, h.root]

/-- The state after some progress from `w0`. -/
structure Ok (k : K) (w0 w : World K V) : Prop where
  inv : Inv w
  mono : Mono w0 w
  sinv : SInv w
  line : Line w k
  le : Le w0 w

theorem Ok.refl {k : K} (hi : Inv w) (hs : SInv w) (hl : Line w k) : Ok k w w := ⟨hi, Mono.refl w, hs, hl, Le.refl w⟩

theorem Ok.trans {k : K} {a b c : World K V} (h1 : Ok k a b) (h2 : Ok k b c) : Ok k a c :=
  ⟨h2.inv, h1.mono.trans h2.mono, h2.sinv, h2.line, h1.le.trans h2.le⟩

theorem Ok.calm {k : K} {w0 : World K V} (h : Ok k w0 w) (hc : Calm w w') (hi' : Inv w') : Ok k w0 w' :=
  ⟨hi', h.mono.trans hc.mono, hc.sinv h.inv h.sinv, hc.line h.inv h.line, h.le.trans (hc.le h.inv)⟩

/-! ### Replacing a node -/

/-- The node of `id` is replaced by `new`; nothing else changes. -/
structure Swap (w w' : World K V) (m : Nat) (id : NodeId) (new : Node K V) : Prop where
  mono : Mono w w'
  root : w'.mem.root = w.mem.root
  info : w'.info = w.info
  dead : w'.dead = w.dead
  nextId : w.mem.nextId ≤ w'.mem.nextId
  live : Live w m id
  self : ∃ p, w'.At id p new
  other : ∀ x y p nd, w.info x = some y → x ≠ id → (w'.At x p nd ↔ w.At x p nd)

theorem Swap.lv {m : Nat} {id : NodeId} {new : Node K V} (h : Swap w w' m id new) {n : Nat} {x : NodeId} : Live w' n x ↔ Live w n x := by
  unfold Live
  rw [h.info, h.dead]

theorem Swap.nd {m : Nat} {id : NodeId} {new : Node K V} (h : Swap w w' m id new) {n : Nat} {x : NodeId} {nd : Node K V} :
    Nd w' n x nd ↔ (x = id ∧ n = m ∧ nd = new) ∨ (x ≠ id ∧ Nd w n x nd) := by
  obtain ⟨p, hp⟩ := h.self
  constructor
  · rintro ⟨h1, q, ha⟩
    rw [h.lv] at h1
    by_cases hx : x = id
    · subst hx
      obtain ⟨l1, e1⟩ := h1.1
      obtain ⟨l2, e2⟩ := h.live.1
      rw [e1] at e2
      cases e2
      exact Or.inl ⟨rfl, rfl, (At.unique ha hp).2⟩
    · exact Or.inr ⟨hx, h1, q, (h.other _ _ _ _ h1.1.choose_spec hx).mp ha⟩
  · rintro (⟨rfl, rfl, rfl⟩ | ⟨hx, h1, q, ha⟩)
    · exact ⟨h.lv.mpr h.live, p, hp⟩
    · exact ⟨h.lv.mpr h1, q, (h.other _ _ _ _ h1.1.choose_spec hx).mpr ha⟩

theorem Swap.here {m : Nat} {id : NodeId} {new : Node K V} (h : Swap w w' m id new) : Nd w' m id new := h.nd.mpr (Or.inl ⟨rfl, rfl, rfl⟩)

theorem Swap.there {m : Nat} {id : NodeId} {new : Node K V} (h : Swap w w' m id new) {n : Nat} {x : NodeId} {nd : Node K V} (hx : x ≠ id)
    (hd : Nd w n x nd) : Nd w' n x nd := h.nd.mpr (Or.inr ⟨hx, hd⟩)

/-- Replacement by a node with no fewer children. -/
structure PutSeq (w w' : World K V) (m : Nat) (id : NodeId) (old new : Node K V) : Prop where
  swap : Swap w w' m id new
  was : Nd w m id old
  shape : new.noMerge ∧ new.isAbort = false ∧ new.Exact
  rmOld : old.isRemove = false
  rmNew : new.isRemove = false
  kid : ∀ n i, m = n + 1 → i ∈ new.eff → Live w n i
  eff : ∀ i, i ∈ old.eff → i ∈ new.eff
  seps : ∀ x, x ∈ old.seps → x ∈ new.seps
  posted : ∀ y, old.splits = some y → HasPar w m y
  splits : new.splits = none
  placed : id = w.mem.root ∨ HasPar w m id

section PutSeq

variable {m : Nat} {id : NodeId} {old new : Node K V}

theorem PutSeq.hasPar (h : PutSeq w w' m id old new) {n : Nat} {y : NodeId} (hp : HasPar w n y) : HasPar w' n y := by
  obtain ⟨q, nq, d, hy⟩ := hp
  by_cases hq : q = id
  · subst hq
    obtain ⟨rfl, rfl⟩ := d.unique h.was
    exact ⟨q, new, h.swap.here, h.eff y hy⟩
  · exact ⟨q, nq, h.swap.there hq d, hy⟩

theorem PutSeq.hasSep (h : PutSeq w w' m id old new) {n : Nat} {y : NodeId} (hp : HasSep w n y) : HasSep w' n y := by
  obtain ⟨q, nq, k, d, hy⟩ := hp
  by_cases hq : q = id
  · subst hq
    obtain ⟨rfl, rfl⟩ := d.unique h.was
    exact ⟨q, new, k, h.swap.here, h.seps _ hy⟩
  · exact ⟨q, nq, k, h.swap.there hq d, hy⟩

theorem PutSeq.rm (h : PutSeq w w' m id old new) {n : Nat} {y : NodeId} : Rm w' n y ↔ Rm w n y := by
  constructor
  · rintro ⟨nd, d, hr⟩
    rcases h.swap.nd.mp d with ⟨rfl, rfl, rfl⟩ | ⟨hx, d'⟩
    · rw [h.rmNew] at hr; cases hr
    · exact ⟨nd, d', hr⟩
  · rintro ⟨nd, d, hr⟩
    by_cases hx : y = id
    · subst hx
      obtain ⟨_, rfl⟩ := d.unique h.was
      rw [h.rmOld] at hr; cases hr
    · exact ⟨nd, h.swap.there hx d, hr⟩

theorem PutSeq.line (h : PutSeq w w' m id old new) {k : K} (hl : Line w k) : Line w' k := by
  intro n x nd lk d hr hx
  rcases h.swap.nd.mp d with ⟨rfl, rfl, rfl⟩ | ⟨hne, d'⟩
  · rw [h.rmNew] at hr; cases hr
  · rw [h.swap.info] at hx
    exact (hl n x nd lk d' hr hx).imp (fun g => g) (fun g => h.rm.mpr g)

/-- The split of a node with a parent is not unfinished. -/
theorem fresh_ne (hi : Inv w) {n : Nat} {x y : NodeId} (h : Fresh w n x y) (hid : y = w.mem.root) : False := by
  obtain ⟨_, _, _, _, _, _, _, _, _, _, _, _, ey, _⟩ := h.range hi
  obtain ⟨r, e, _⟩ := hi.root
  rw [hid, e] at ey
  cases ey

theorem PutSeq.fresh (h : PutSeq w w' m id old new) (hi : Inv w) {n : Nat} {x y : NodeId} (hf : Fresh w n x y) : HasPar w' n y ∨ Fresh w' n x y := by
  by_cases hp : HasPar w n y
  · exact Or.inl (h.hasPar hp)
  · have hf0 := hf
    obtain ⟨node, sib, g1, g2, g3, g4, g5, g6⟩ := hf0
    have hx : x ≠ id := by
      rintro rfl
      obtain ⟨rfl, rfl⟩ := g1.unique h.was
      exact hp (h.posted y g2)
    have hy : y ≠ id := by
      rintro rfl
      obtain ⟨rfl, _⟩ := g3.unique h.was
      rcases h.placed with h' | h'
      · exact fresh_ne hi hf h'
      · exact hp h'
    exact Or.inr ⟨node, sib, h.swap.there hx g1, g2, h.swap.there hy g3, g4, g5, g6⟩

theorem PutSeq.sinv (h : PutSeq w w' m id old new) (hi : Inv w) (hs : SInv w) : SInv w' := by
  constructor
  · intro n x nd d
    rcases h.swap.nd.mp d with ⟨rfl, rfl, rfl⟩ | ⟨hne, d'⟩
    · exact h.shape
    · exact hs.shape n x nd d'
  · intro n x nd d hr
    rcases h.swap.nd.mp d with ⟨rfl, rfl, rfl⟩ | ⟨hne, d'⟩
    · rw [h.rmNew] at hr; cases hr
    · exact hs.base n x nd d' hr
  · intro n x nd i d hii
    rw [h.swap.lv]
    rcases h.swap.nd.mp d with ⟨rfl, rfl, rfl⟩ | ⟨hne, d'⟩
    · exact h.kid n i rfl hii
    · exact hs.kid n x nd i d' hii
  · intro n y hy
    rw [h.swap.lv] at hy
    rcases hs.par n y hy with g | g | ⟨x, g⟩
    · exact Or.inl (g.trans h.swap.root.symm)
    · exact Or.inr (Or.inl (h.hasPar g))
    · exact Or.inr ((h.fresh hi g).imp (fun g => g) (fun g => ⟨x, g⟩))
  · intro n x nd y d hsp
    rcases h.swap.nd.mp d with ⟨rfl, rfl, rfl⟩ | ⟨hne, d'⟩
    · rw [h.splits] at hsp; cases hsp
    · obtain ⟨g1, g2⟩ := hs.spl n x nd y d' hsp
      refine ⟨g1, ?_⟩
      rcases g2 with g2 | g2
      · exact Or.inl (h.hasPar g2)
      · exact h.fresh hi g2
  · intro n x nd d hr
    rcases h.swap.nd.mp d with ⟨rfl, rfl, rfl⟩ | ⟨hne, d'⟩
    · rw [h.rmNew] at hr; cases hr
    · exact h.hasSep (hs.rm n x nd d' hr)
  · intro x l n hx
    rw [h.swap.info] at hx
    exact ⟨Nat.lt_of_lt_of_le (hs.lvl x l n hx).1 h.swap.nextId, (hs.lvl x l n hx).2⟩
  · exact hs.keep_gone h.swap.mono (fun r l n e => Or.inl (by rw [← h.swap.info]; exact e)) (fun n r g => Or.inl (h.swap.lv.mpr g))

theorem PutSeq.placed' (h : PutSeq w w' m id old new) {x : NodeId} (hp : Placed w x) : Placed w' x := by
  rcases hp with g | ⟨n, g⟩
  · exact Or.inl (g.trans h.swap.root.symm)
  · exact Or.inr ⟨n, h.hasPar g⟩

theorem PutSeq.up (h : PutSeq w w' m id old new) {x : NodeId} : Up w' x ↔ Up w x := by
  constructor
  · rintro ⟨n, nd, d, hr⟩
    rcases h.swap.nd.mp d with ⟨rfl, rfl, rfl⟩ | ⟨hne, d'⟩
    · exact ⟨n, old, h.was, h.rmOld⟩
    · exact ⟨n, nd, d', hr⟩
  · rintro ⟨n, nd, d, hr⟩
    by_cases hx : x = id
    · subst hx
      exact ⟨m, new, h.swap.here, h.rmNew⟩
    · exact ⟨n, nd, h.swap.there hx d, hr⟩

theorem PutSeq.le (h : PutSeq w w' m id old new) : Le w w' :=
  le_of (fun x hx => by rw [h.swap.info]; exact hx) (fun x _ hu => h.up.mp hu) (fun x _ _ hp => h.placed' hp)

theorem PutSeq.ok (h : PutSeq w w' m id old new) {k : K} {w0 : World K V} (ho : Ok k w0 w) (hi' : Inv w') : Ok k w0 w' :=
  ⟨hi', ho.mono.trans h.swap.mono, h.sinv ho.inv ho.sinv, h.line ho.line, ho.le.trans h.le⟩

end PutSeq

/-! ### Splitting a node -/

/-- A base node is split. -/
structure SplitSeq (w w' : World K V) (m : Nat) (id : NodeId) (old new : Node K V) (y : NodeId) (sib : Node K V) : Prop where
  mono : Mono w w'
  root : w'.mem.root = w.mem.root
  infoY : ∃ sk, w'.info y = some (some sk, m)
  info : ∀ x, x ≠ y → w'.info x = w.info x
  none : w.info y = none
  lt : y < TABLE_SIZE
  nextId : w.mem.nextId ≤ w'.mem.nextId
  lv : ∀ n x, Live w' n x ↔ Live w n x ∨ (x = y ∧ n = m)
  nd : ∀ n x nd, Nd w' n x nd ↔ (x = id ∧ n = m ∧ nd = new) ∨ (x = y ∧ n = m ∧ nd = sib) ∨ (x ≠ id ∧ Nd w n x nd)
  was : Nd w m id old
  base : old.isBase = true
  shape : new.noMerge ∧ new.isAbort = false ∧ new.Exact
  shapeS : sib.noMerge ∧ sib.isAbort = false ∧ sib.Exact
  rmOld : old.isRemove = false
  rmNew : new.isRemove = false
  rmSib : sib.isRemove = false
  effN : ∀ i, i ∈ new.eff → i ∈ old.eff
  effS : ∀ i, i ∈ sib.eff → i ∈ old.eff
  eff : ∀ i, i ∈ old.eff → i ∈ new.eff ∨ i ∈ sib.eff
  seps : ∀ x, x ∈ old.seps → x ∈ new.seps ∨ x ∈ sib.seps ∨ x.2 = sib.low.2
  low : ∀ n, m = n + 1 → ¬ Rm w n sib.low.2
  splits : new.splits = some y
  baseS : sib.isBase = true
  ext : sib.high = new.ext
  countN : new.lower < new.count
  countS : sib.lower < sib.count
  placed : id = w.mem.root ∨ HasPar w m id

section SplitSeq

variable {m : Nat} {id y : NodeId} {old new sib : Node K V}

theorem SplitSeq.ne (h : SplitSeq w w' m id old new y sib) {n : Nat} {x : NodeId} {nd : Node K V} (hd : Nd w n x nd) : x ≠ y := by
  rintro rfl
  obtain ⟨⟨⟨l, e⟩, _⟩, _⟩ := hd
  rw [h.none] at e
  cases e

theorem SplitSeq.here (h : SplitSeq w w' m id old new y sib) : Nd w' m id new := (h.nd _ _ _).mpr (Or.inl ⟨rfl, rfl, rfl⟩)

theorem SplitSeq.hereS (h : SplitSeq w w' m id old new y sib) : Nd w' m y sib := (h.nd _ _ _).mpr (Or.inr (Or.inl ⟨rfl, rfl, rfl⟩))

theorem SplitSeq.there (h : SplitSeq w w' m id old new y sib) {n : Nat} {x : NodeId} {nd : Node K V} (hx : x ≠ id) (hd : Nd w n x nd) :
    Nd w' n x nd := (h.nd _ _ _).mpr (Or.inr (Or.inr ⟨hx, hd⟩))

theorem SplitSeq.hasPar (h : SplitSeq w w' m id old new y sib) {n : Nat} {z : NodeId} (hp : HasPar w n z) : HasPar w' n z := by
  obtain ⟨q, nq, d, hy⟩ := hp
  by_cases hq : q = id
  · subst hq
    obtain ⟨rfl, rfl⟩ := d.unique h.was
    rcases h.eff z hy with g | g
    · exact ⟨q, new, h.here, g⟩
    · exact ⟨y, sib, h.hereS, g⟩
  · exact ⟨q, nq, h.there hq d, hy⟩

theorem SplitSeq.rm (h : SplitSeq w w' m id old new y sib) {n : Nat} {z : NodeId} : Rm w' n z ↔ Rm w n z := by
  constructor
  · rintro ⟨nd, d, hr⟩
    rcases (h.nd _ _ _).mp d with ⟨rfl, rfl, rfl⟩ | ⟨rfl, rfl, rfl⟩ | ⟨hx, d'⟩
    · rw [h.rmNew] at hr; cases hr
    · rw [h.rmSib] at hr; cases hr
    · exact ⟨nd, d', hr⟩
  · rintro ⟨nd, d, hr⟩
    by_cases hx : z = id
    · subst hx
      obtain ⟨_, rfl⟩ := d.unique h.was
      rw [h.rmOld] at hr; cases hr
    · exact ⟨nd, h.there hx d, hr⟩

theorem SplitSeq.hasSep (h : SplitSeq w w' m id old new y sib) {n : Nat} {z : NodeId} (hr : Rm w n z) (hp : HasSep w n z) : HasSep w' n z := by
  obtain ⟨q, nq, k, d, hy⟩ := hp
  by_cases hq : q = id
  · subst hq
    obtain ⟨e, rfl⟩ := d.unique h.was
    subst e
    rcases h.seps _ hy with g | g | g
    · exact ⟨q, new, k, h.here, g⟩
    · exact ⟨y, sib, k, h.hereS, g⟩
    · exact absurd (show Rm w n sib.low.2 by rw [← g]; exact hr) (h.low n rfl)
  · exact ⟨q, nq, k, h.there hq d, hy⟩

theorem SplitSeq.line (h : SplitSeq w w' m id old new y sib) {k : K} (hl : Line w k) : Line w' k := by
  intro n x nd lk d hr hx
  rcases (h.nd _ _ _).mp d with ⟨rfl, rfl, rfl⟩ | ⟨rfl, rfl, rfl⟩ | ⟨hne, d'⟩
  · rw [h.rmNew] at hr; cases hr
  · rw [h.rmSib] at hr; cases hr
  · rw [h.info x (h.ne d')] at hx
    exact (hl n x nd lk d' hr hx).imp (fun g => g) (fun g => h.rm.mpr g)

theorem SplitSeq.fresh (h : SplitSeq w w' m id old new y sib) (hi : Inv w) {n : Nat} {x z : NodeId} (hf : Fresh w n x z) :
    HasPar w' n z ∨ Fresh w' n x z := by
  by_cases hp : HasPar w n z
  · exact Or.inl (h.hasPar hp)
  · have hf0 := hf
    obtain ⟨node, s, g1, g2, g3, g4, g5, g6⟩ := hf0
    have hx : x ≠ id := by
      rintro rfl
      obtain ⟨rfl, rfl⟩ := g1.unique h.was
      rw [Node.splits_of_base h.base] at g2
      cases g2
    have hy : z ≠ id := by
      rintro rfl
      obtain ⟨rfl, _⟩ := g3.unique h.was
      rcases h.placed with h' | h'
      · exact fresh_ne hi hf h'
      · exact hp h'
    exact Or.inr ⟨node, s, h.there hx g1, g2, h.there hy g3, g4, g5, g6⟩

theorem SplitSeq.sinv (h : SplitSeq w w' m id old new y sib) (hi : Inv w) (hs : SInv w) : SInv w' := by
  constructor
  · intro n x nd d
    rcases (h.nd _ _ _).mp d with ⟨rfl, rfl, rfl⟩ | ⟨rfl, rfl, rfl⟩ | ⟨hne, d'⟩
    · exact h.shape
    · exact h.shapeS
    · exact hs.shape n x nd d'
  · intro n x nd d hr
    rcases (h.nd _ _ _).mp d with ⟨rfl, rfl, rfl⟩ | ⟨rfl, rfl, rfl⟩ | ⟨hne, d'⟩
    · rw [h.rmNew] at hr; cases hr
    · rw [h.rmSib] at hr; cases hr
    · exact hs.base n x nd d' hr
  · intro n x nd i d hii
    refine (h.lv n i).mpr (Or.inl ?_)
    rcases (h.nd _ _ _).mp d with ⟨rfl, rfl, rfl⟩ | ⟨rfl, rfl, rfl⟩ | ⟨hne, d'⟩
    · exact hs.kid n x old i h.was (h.effN i hii)
    · exact hs.kid n id old i h.was (h.effS i hii)
    · exact hs.kid n x nd i d' hii
  · intro n z hz
    rcases (h.lv n z).mp hz with hz | ⟨rfl, rfl⟩
    · rcases hs.par n z hz with g | g | ⟨x, g⟩
      · exact Or.inl (g.trans h.root.symm)
      · exact Or.inr (Or.inl (h.hasPar g))
      · exact Or.inr ((h.fresh hi g).imp (fun g => g) (fun g => ⟨x, g⟩))
    · exact Or.inr (Or.inr ⟨id, new, sib, h.here, h.splits, h.hereS, h.baseS, h.ext, h.countS⟩)
  · intro n x nd z d hsp
    rcases (h.nd _ _ _).mp d with ⟨rfl, rfl, rfl⟩ | ⟨rfl, rfl, rfl⟩ | ⟨hne, d'⟩
    · rw [h.splits] at hsp
      cases hsp
      exact ⟨h.countN, Or.inr ⟨nd, sib, h.here, h.splits, h.hereS, h.baseS, h.ext, h.countS⟩⟩
    · rw [Node.splits_of_base h.baseS] at hsp; cases hsp
    · obtain ⟨g1, g2⟩ := hs.spl n x nd z d' hsp
      refine ⟨g1, ?_⟩
      rcases g2 with g2 | g2
      · exact Or.inl (h.hasPar g2)
      · exact h.fresh hi g2
  · intro n x nd d hr
    have hrm : Rm w n x := h.rm.mp ⟨nd, d, hr⟩
    have hrm0 := hrm
    obtain ⟨nd', d', hr'⟩ := hrm0
    exact h.hasSep hrm (hs.rm n x nd' d' hr')
  · intro x l n hx
    by_cases hy : x = y
    · subst hy
      obtain ⟨sk, e⟩ := h.infoY
      rw [e] at hx
      cases hx
      obtain ⟨⟨⟨l', e'⟩, _⟩, _⟩ := h.was
      exact ⟨Nat.lt_of_lt_of_le (hs.lvl id l' m e').1 h.nextId, (hs.lvl id l' m e').2⟩
    · rw [h.info x hy] at hx
      exact ⟨Nat.lt_of_lt_of_le (hs.lvl x l n hx).1 h.nextId, (hs.lvl x l n hx).2⟩
  · refine hs.keep_gone h.mono (fun r l n e => ?_) (fun n r g => Or.inl ((h.lv n r).mpr (Or.inl g)))
    by_cases hy : r = y
    · subst hy
      obtain ⟨sk, e'⟩ := h.infoY
      rw [e'] at e
      cases e
      exact Or.inr ((h.lv _ _).mpr (Or.inr ⟨rfl, rfl⟩))
    · rw [h.info r hy] at e
      exact Or.inl e

theorem SplitSeq.le (h : SplitSeq w w' m id old new y sib) : Le w w' := by
  have hne : ∀ x, w.info x ≠ Option.none → x ≠ y := fun x hx hxy => hx (by rw [hxy]; exact h.none)
  refine le_of (fun x hx => by rw [h.info x (hne x hx)]; exact hx) (fun x hx hu => ?_) (fun x _ _ hp => ?_)
  · obtain ⟨n, nd, d, hr⟩ := hu
    rcases (h.nd _ _ _).mp d with ⟨rfl, rfl, rfl⟩ | ⟨rfl, rfl, rfl⟩ | ⟨_, d'⟩
    · exact ⟨n, old, h.was, h.rmOld⟩
    · exact absurd rfl (hne _ hx)
    · exact ⟨n, nd, d', hr⟩
  · rcases hp with g | ⟨n, g⟩
    · exact Or.inl (g.trans h.root.symm)
    · exact Or.inr ⟨n, h.hasPar g⟩

theorem SplitSeq.lt' (h : SplitSeq w w' m id old new y sib) : Lt w w' := by
  obtain ⟨sk, e⟩ := h.infoY
  exact lt_new h.le h.lt h.none (by rw [e]; exact fun g => by cases g)

theorem SplitSeq.ok (h : SplitSeq w w' m id old new y sib) {k : K} {w0 : World K V} (ho : Ok k w0 w) (hi' : Inv w') : Ok k w0 w' :=
  ⟨hi', ho.mono.trans h.mono, h.sinv ho.inv ho.sinv, h.line ho.line, ho.le.trans h.le⟩

end SplitSeq

/-! ### Removing a node -/

/-- A base node gets a remove record. -/
structure RemSeq (w w' : World K V) (m : Nat) (id : NodeId) (old new : Node K V) (k : K) : Prop where
  swap : Swap w w' m id new
  was : Nd w m id old
  base : old.isBase = true
  shape : new.noMerge ∧ new.isAbort = false ∧ new.Exact
  rmOld : old.isRemove = false
  rmNew : new.isRemove = true
  strip : new.strip = old
  sep : HasSep w m id
  line : ∀ lk, w.info id = some (lk, m) → (AtLeast lk k ∧ Below old.high k) ∨ Rm w m old.high.2

section RemSeq

variable {m : Nat} {id : NodeId} {old new : Node K V} {k : K}

theorem RemSeq.eff (h : RemSeq w w' m id old new k) : new.eff = old.eff := by rw [← h.strip, Node.strip_eff]
theorem RemSeq.seps (h : RemSeq w w' m id old new k) : new.seps = old.seps := by rw [← h.strip, Node.strip_seps]
theorem RemSeq.high (h : RemSeq w w' m id old new k) : new.high = old.high := by rw [← h.strip, Node.strip_high]

theorem RemSeq.hasPar (h : RemSeq w w' m id old new k) {n : Nat} {z : NodeId} (hp : HasPar w n z) : HasPar w' n z := by
  obtain ⟨q, nq, d, hy⟩ := hp
  by_cases hq : q = id
  · subst hq
    obtain ⟨rfl, rfl⟩ := d.unique h.was
    exact ⟨q, new, h.swap.here, by rw [h.eff]; exact hy⟩
  · exact ⟨q, nq, h.swap.there hq d, hy⟩

theorem RemSeq.hasSep (h : RemSeq w w' m id old new k) {n : Nat} {z : NodeId} (hp : HasSep w n z) : HasSep w' n z := by
  obtain ⟨q, nq, k, d, hy⟩ := hp
  by_cases hq : q = id
  · subst hq
    obtain ⟨rfl, rfl⟩ := d.unique h.was
    exact ⟨q, new, k, h.swap.here, by rw [h.seps]; exact hy⟩
  · exact ⟨q, nq, k, h.swap.there hq d, hy⟩

theorem RemSeq.rm (h : RemSeq w w' m id old new k) {n : Nat} {z : NodeId} (hr : Rm w n z) : Rm w' n z := by
  obtain ⟨nd, d, hr⟩ := hr
  by_cases hx : z = id
  · subst hx
    obtain ⟨_, rfl⟩ := d.unique h.was
    rw [h.rmOld] at hr; cases hr
  · exact ⟨nd, h.swap.there hx d, hr⟩

theorem RemSeq.line' (h : RemSeq w w' m id old new k) (hl : Line w k) : Line w' k := by
  intro n x nd lk d hr hx
  rw [h.swap.info] at hx
  rcases h.swap.nd.mp d with ⟨rfl, rfl, rfl⟩ | ⟨hne, d'⟩
  · rw [h.high]
    exact (h.line lk hx).imp (fun g => g) (fun g => h.rm g)
  · exact (hl n x nd lk d' hr hx).imp (fun g => g) (fun g => h.rm g)

theorem RemSeq.fresh (h : RemSeq w w' m id old new k) {n : Nat} {x z : NodeId} (hf : Fresh w n x z) :
    HasPar w' n z ∨ Fresh w' n x z := by
  by_cases hp : HasPar w n z
  · exact Or.inl (h.hasPar hp)
  · obtain ⟨node, s, g1, g2, g3, g4, g5, g6⟩ := hf
    have hx : x ≠ id := by
      rintro rfl
      obtain ⟨rfl, rfl⟩ := g1.unique h.was
      rw [Node.splits_of_base h.base] at g2
      cases g2
    have hy : z ≠ id := by
      rintro rfl
      obtain ⟨rfl, _⟩ := g3.unique h.was
      exact hp h.sep.hasPar
    exact Or.inr ⟨node, s, h.swap.there hx g1, g2, h.swap.there hy g3, g4, g5, g6⟩

theorem RemSeq.sinv (h : RemSeq w w' m id old new k) (hs : SInv w) : SInv w' := by
  constructor
  · intro n x nd d
    rcases h.swap.nd.mp d with ⟨rfl, rfl, rfl⟩ | ⟨hne, d'⟩
    · exact h.shape
    · exact hs.shape n x nd d'
  · intro n x nd d hr
    rcases h.swap.nd.mp d with ⟨rfl, rfl, rfl⟩ | ⟨hne, d'⟩
    · rw [h.strip]; exact h.base
    · exact hs.base n x nd d' hr
  · intro n x nd i d hii
    rw [h.swap.lv]
    rcases h.swap.nd.mp d with ⟨rfl, rfl, rfl⟩ | ⟨hne, d'⟩
    · exact hs.kid n x old i h.was (by rw [← h.eff]; exact hii)
    · exact hs.kid n x nd i d' hii
  · intro n y hy
    rw [h.swap.lv] at hy
    rcases hs.par n y hy with g | g | ⟨x, g⟩
    · exact Or.inl (g.trans h.swap.root.symm)
    · exact Or.inr (Or.inl (h.hasPar g))
    · exact Or.inr ((h.fresh g).imp (fun g => g) (fun g => ⟨x, g⟩))
  · intro n x nd y d hsp
    rcases h.swap.nd.mp d with ⟨rfl, rfl, rfl⟩ | ⟨hne, d'⟩
    · rw [Node.splits_of_remove h.rmNew] at hsp; cases hsp
    · obtain ⟨g1, g2⟩ := hs.spl n x nd y d' hsp
      refine ⟨g1, ?_⟩
      rcases g2 with g2 | g2
      · exact Or.inl (h.hasPar g2)
      · exact h.fresh g2
  · intro n x nd d hr
    rcases h.swap.nd.mp d with ⟨rfl, rfl, rfl⟩ | ⟨hne, d'⟩
    · exact h.hasSep h.sep
    · exact h.hasSep (hs.rm n x nd d' hr)
  · intro x l n hx
    rw [h.swap.info] at hx
    exact ⟨Nat.lt_of_lt_of_le (hs.lvl x l n hx).1 h.swap.nextId, (hs.lvl x l n hx).2⟩
  · exact hs.keep_gone h.swap.mono (fun r l n e => Or.inl (by rw [← h.swap.info]; exact e)) (fun n r g => Or.inl (h.swap.lv.mpr g))

theorem RemSeq.le (h : RemSeq w w' m id old new k) : Le w w' := by
  refine le_of (fun x hx => by rw [h.swap.info]; exact hx) (fun x _ hu => ?_) (fun x _ _ hp => ?_)
  · obtain ⟨n, nd, d, hr⟩ := hu
    rcases h.swap.nd.mp d with ⟨rfl, rfl, rfl⟩ | ⟨_, d'⟩
    · rw [h.rmNew] at hr; cases hr
    · exact ⟨n, nd, d', hr⟩
  · rcases hp with g | ⟨n, g⟩
    · exact Or.inl (g.trans h.swap.root.symm)
    · exact Or.inr ⟨n, h.hasPar g⟩

theorem RemSeq.lt (h : RemSeq w w' m id old new k) (hi : Inv w) : Lt w w' := by
  obtain ⟨lk, e, _⟩ := h.was.ok hi
  refine lt_removed h.le (hi.ids _ _ e).2.1 (by rw [e]; exact fun g => by cases g) (by rw [h.swap.info, e]; exact fun g => by cases g)
    ⟨m, old, h.was, h.rmOld⟩ ?_
  rintro ⟨n, nd, d, hr⟩
  rcases h.swap.nd.mp d with ⟨_, _, rfl⟩ | ⟨g, _⟩
  · rw [h.rmNew] at hr; cases hr
  · exact g rfl

theorem RemSeq.ok (h : RemSeq w w' m id old new k) {w0 : World K V} (ho : Ok k w0 w) (hi' : Inv w') : Ok k w0 w' :=
  ⟨hi', ho.mono.trans h.swap.mono, h.sinv ho.sinv, h.line' ho.line, ho.le.trans h.le⟩

end RemSeq

/-! ### Merging a node into its left neighbour -/

/-- The removed node `x` is merged into `l`, its separator deleted from `q`, and `l` consolidated. -/
structure MergeSeq (w w' : World K V) (n : Nat) (l x q : NodeId) (oldL oldX new oldQ newQ : Node K V) : Prop where
  mono : Mono w w'
  root : w'.mem.root = w.mem.root
  info : w'.info = w.info
  nextId : w.mem.nextId ≤ w'.mem.nextId
  lv : ∀ m i, Live w' m i ↔ Live w m i ∧ i ≠ x
  nd : ∀ m i nd, Nd w' m i nd ↔ (i = l ∧ m = n ∧ nd = new) ∨ (i = q ∧ m = n + 1 ∧ nd = newQ) ∨ (i ≠ l ∧ i ≠ q ∧ i ≠ x ∧ Nd w m i nd)
  wasL : Nd w n l oldL
  wasX : Nd w n x oldX
  wasQ : Nd w (n + 1) q oldQ
  rmL : oldL.isRemove = false
  rmX : oldX.isRemove = true
  rmQ : oldQ.isRemove = false
  rmN : new.isRemove = false
  rmNQ : newQ.isRemove = false
  shape : new.noMerge ∧ new.isAbort = false ∧ new.Exact
  shapeQ : newQ.noMerge ∧ newQ.isAbort = false ∧ newQ.Exact
  splits : new.splits = none
  splitsQ : newQ.splits = none
  high : oldL.high.2 = x
  eff : ∀ i, i ∈ new.eff ↔ i ∈ oldL.eff ∨ i ∈ oldX.eff
  seps : ∀ a, a ∈ oldL.seps ∨ a ∈ oldX.seps → a ∈ new.seps
  effQ : ∀ i, i ∈ newQ.eff ↔ i ∈ oldQ.eff ∧ i ≠ x
  sepsQ : ∀ a, a ∈ oldQ.seps → a.2 ≠ x → a ∈ newQ.seps
  inL : l ∈ oldQ.eff
  inX : x ∈ oldQ.eff
  postedL : ∀ y, oldL.splits = some y → HasPar w n y
  postedQ : ∀ y, oldQ.splits = some y → HasPar w (n + 1) y
  placedQ : q = w.mem.root ∨ HasPar w (n + 1) q
  del : w'.del x

section MergeSeq

variable {n : Nat} {l x q : NodeId} {oldL oldX new oldQ newQ : Node K V}

theorem MergeSeq.hereL (h : MergeSeq w w' n l x q oldL oldX new oldQ newQ) : Nd w' n l new := (h.nd _ _ _).mpr (Or.inl ⟨rfl, rfl, rfl⟩)

theorem MergeSeq.hereQ (h : MergeSeq w w' n l x q oldL oldX new oldQ newQ) : Nd w' (n + 1) q newQ :=
  (h.nd _ _ _).mpr (Or.inr (Or.inl ⟨rfl, rfl, rfl⟩))

theorem MergeSeq.there (h : MergeSeq w w' n l x q oldL oldX new oldQ newQ) {m : Nat} {i : NodeId} {nd : Node K V} (h1 : i ≠ l) (h2 : i ≠ q)
    (h3 : i ≠ x) (hd : Nd w m i nd) : Nd w' m i nd := (h.nd _ _ _).mpr (Or.inr (Or.inr ⟨h1, h2, h3, hd⟩))

theorem MergeSeq.hasPar (h : MergeSeq w w' n l x q oldL oldX new oldQ newQ) {m : Nat} {z : NodeId} (hz : z ≠ x) (hp : HasPar w m z) :
    HasPar w' m z := by
  obtain ⟨r, nr, d, hy⟩ := hp
  by_cases h1 : r = l
  · subst h1
    obtain ⟨rfl, rfl⟩ := d.unique h.wasL
    exact ⟨r, new, h.hereL, (h.eff z).mpr (Or.inl hy)⟩
  · by_cases h2 : r = q
    · subst h2
      obtain ⟨e, rfl⟩ := d.unique h.wasQ
      cases e
      exact ⟨r, newQ, h.hereQ, (h.effQ z).mpr ⟨hy, hz⟩⟩
    · by_cases h3 : r = x
      · subst h3
        obtain ⟨rfl, rfl⟩ := d.unique h.wasX
        exact ⟨l, new, h.hereL, (h.eff z).mpr (Or.inr hy)⟩
      · exact ⟨r, nr, h.there h1 h2 h3 d, hy⟩

theorem MergeSeq.hasSep (h : MergeSeq w w' n l x q oldL oldX new oldQ newQ) {m : Nat} {z : NodeId} (hz : z ≠ x) (hp : HasSep w m z) :
    HasSep w' m z := by
  obtain ⟨r, nr, k, d, hy⟩ := hp
  by_cases h1 : r = l
  · subst h1
    obtain ⟨rfl, rfl⟩ := d.unique h.wasL
    exact ⟨r, new, k, h.hereL, h.seps _ (Or.inl hy)⟩
  · by_cases h2 : r = q
    · subst h2
      obtain ⟨e, rfl⟩ := d.unique h.wasQ
      cases e
      exact ⟨r, newQ, k, h.hereQ, h.sepsQ _ hy hz⟩
    · by_cases h3 : r = x
      · subst h3
        obtain ⟨rfl, rfl⟩ := d.unique h.wasX
        exact ⟨l, new, k, h.hereL, h.seps _ (Or.inr hy)⟩
      · exact ⟨r, nr, k, h.there h1 h2 h3 d, hy⟩

theorem MergeSeq.cases (h : MergeSeq w w' n l x q oldL oldX new oldQ newQ) {m : Nat} {i : NodeId} {nd : Node K V} (hd : Nd w' m i nd)
    (hr : nd.isRemove = true) : i ≠ l ∧ i ≠ q ∧ i ≠ x ∧ Nd w m i nd := by
  rcases (h.nd _ _ _).mp hd with ⟨_, _, rfl⟩ | ⟨_, _, rfl⟩ | g
  · rw [h.rmN] at hr; cases hr
  · rw [h.rmNQ] at hr; cases hr
  · exact g

theorem MergeSeq.rm (h : MergeSeq w w' n l x q oldL oldX new oldQ newQ) {m : Nat} {z : NodeId} (hz : z ≠ x) (hr : Rm w m z) : Rm w' m z := by
  obtain ⟨nd, d, hr⟩ := hr
  refine ⟨nd, h.there ?_ ?_ hz d, hr⟩
  · rintro rfl
    obtain ⟨_, rfl⟩ := d.unique h.wasL
    rw [h.rmL] at hr; cases hr
  · rintro rfl
    obtain ⟨_, rfl⟩ := d.unique h.wasQ
    rw [h.rmQ] at hr; cases hr

/-- Only `l` has `x` as right neighbour. -/
theorem MergeSeq.left (h : MergeSeq w w' n l x q oldL oldX new oldQ newQ) (hi : Inv w) {m : Nat} {i : NodeId} {nd : Node K V}
    (hd : Nd w m i nd) (hh : nd.high.2 = x) : i = l := by
  obtain ⟨li, ei, oi⟩ := hd.ok hi
  obtain ⟨lx, ex, ox⟩ := h.wasX.ok hi
  have hne : x ≠ INVALID := (hi.ids _ _ ex).1
  have := oi.high.resolve_left (by rw [hh]; exact hne)
  rw [hh, ex] at this
  have hm : n = m := by cases this; rfl
  subst hm
  exact left_unique hi hd h.wasL (hh.trans h.high.symm) (by rw [hh]; exact hne)

theorem MergeSeq.line (h : MergeSeq w w' n l x q oldL oldX new oldQ newQ) (hi : Inv w) {k : K} (hl : Line w k) : Line w' k := by
  intro m i nd lk d hr hx
  rw [h.info] at hx
  obtain ⟨h1, h2, h3, d'⟩ := h.cases d hr
  refine (hl m i nd lk d' hr hx).imp (fun g => g) (fun g => h.rm (fun e => h1 (h.left hi d' e)) g)

theorem MergeSeq.fresh (h : MergeSeq w w' n l x q oldL oldX new oldQ newQ) (hi : Inv w) {m : Nat} {a z : NodeId} (hf : Fresh w m a z)
    (hz : z ≠ x) : HasPar w' m z ∨ Fresh w' m a z := by
  by_cases hp : HasPar w m z
  · exact Or.inl (h.hasPar hz hp)
  · have hf0 := hf
    obtain ⟨node, s, g1, g2, g3, g4, g5, g6⟩ := hf0
    refine Or.inr ⟨node, s, h.there ?_ ?_ ?_ g1, g2, h.there ?_ ?_ hz g3, g4, g5, g6⟩
    · rintro rfl
      obtain ⟨rfl, rfl⟩ := g1.unique h.wasL
      exact hp (h.postedL z g2)
    · rintro rfl
      obtain ⟨rfl, rfl⟩ := g1.unique h.wasQ
      exact hp (h.postedQ z g2)
    · rintro rfl
      obtain ⟨rfl, rfl⟩ := g1.unique h.wasX
      rw [Node.splits_of_remove h.rmX] at g2; cases g2
    · rintro rfl
      obtain ⟨rfl, _⟩ := g3.unique h.wasL
      exact hp ⟨q, oldQ, h.wasQ, h.inL⟩
    · rintro rfl
      obtain ⟨rfl, _⟩ := g3.unique h.wasQ
      rcases h.placedQ with h' | h'
      · exact fresh_ne hi hf h'
      · exact hp h'

theorem MergeSeq.sinv (h : MergeSeq w w' n l x q oldL oldX new oldQ newQ) (hi : Inv w) (hs : SInv w) : SInv w' := by
  have hlvl : ∀ m i, Live w m i → n = m + 1 → i ≠ x := by
    rintro m i ⟨⟨li, ei⟩, _⟩ hm rfl
    obtain ⟨lx, ex, _⟩ := h.wasX.ok hi
    rw [ex] at ei
    cases ei
    exact absurd hm.symm (Nat.succ_ne_self n)
  constructor
  · intro m i nd d
    rcases (h.nd _ _ _).mp d with ⟨_, _, rfl⟩ | ⟨_, _, rfl⟩ | ⟨_, _, _, d'⟩
    · exact h.shape
    · exact h.shapeQ
    · exact hs.shape m i nd d'
  · intro m i nd d hr
    obtain ⟨_, _, _, d'⟩ := h.cases d hr
    exact hs.base m i nd d' hr
  · intro m i nd j d hj
    rw [h.lv]
    rcases (h.nd _ _ _).mp d with ⟨rfl, e, rfl⟩ | ⟨rfl, e, rfl⟩ | ⟨_, h2, _, d'⟩
    · have wl := h.wasL
      have wx := h.wasX
      rw [← e] at wl wx
      rcases (h.eff j).mp hj with g | g
      · exact ⟨hs.kid m i oldL j wl g, hlvl m j (hs.kid m i oldL j wl g) e.symm⟩
      · exact ⟨hs.kid m x oldX j wx g, hlvl m j (hs.kid m x oldX j wx g) e.symm⟩
    · cases e
      obtain ⟨g1, g2⟩ := (h.effQ j).mp hj
      exact ⟨hs.kid _ i oldQ j h.wasQ g1, g2⟩
    · refine ⟨hs.kid m i nd j d' hj, ?_⟩
      rintro rfl
      have hlx := hs.kid m i nd j d' hj
      obtain ⟨l1, e1⟩ := hlx.1
      obtain ⟨l2, e2, _⟩ := h.wasX.ok hi
      rw [e2] at e1
      cases e1
      exact h2 (par_unique hi d' hj h.wasQ h.inX)
  · intro m z hz
    obtain ⟨hz, hne⟩ := (h.lv m z).mp hz
    rcases hs.par m z hz with g | g | ⟨a, g⟩
    · exact Or.inl (g.trans h.root.symm)
    · exact Or.inr (Or.inl (h.hasPar hne g))
    · exact Or.inr ((h.fresh hi g hne).imp (fun g => g) (fun g => ⟨a, g⟩))
  · intro m i nd y d hsp
    rcases (h.nd _ _ _).mp d with ⟨_, _, rfl⟩ | ⟨_, _, rfl⟩ | ⟨h1, h2, h3, d'⟩
    · rw [h.splits] at hsp; cases hsp
    · rw [h.splitsQ] at hsp; cases hsp
    · have hy : y ≠ x := by
        rintro rfl
        exact h1 (h.left hi d' (Node.splits_high hsp))
      obtain ⟨g1, g2⟩ := hs.spl m i nd y d' hsp
      refine ⟨g1, ?_⟩
      rcases g2 with g2 | g2
      · exact Or.inl (h.hasPar hy g2)
      · exact h.fresh hi g2 hy
  · intro m i nd d hr
    obtain ⟨_, _, h3, d'⟩ := h.cases d hr
    exact h.hasSep h3 (hs.rm m i nd d' hr)
  · intro i l' m hx
    rw [h.info] at hx
    exact ⟨Nat.lt_of_lt_of_le (hs.lvl i l' m hx).1 h.nextId, (hs.lvl i l' m hx).2⟩
  · refine hs.keep_gone h.mono (fun r l n e => Or.inl (by rw [← h.info]; exact e)) (fun n r g => ?_)
    by_cases hr : r = x
    · rw [hr]; exact Or.inr h.del
    · exact Or.inl ((h.lv n r).mpr ⟨g, hr⟩)

theorem MergeSeq.le (h : MergeSeq w w' n l x q oldL oldX new oldQ newQ) : Le w w' := by
  refine le_of (fun i hx => by rw [h.info]; exact hx) (fun i _ hu => ?_) (fun i _ hu hp => ?_)
  · obtain ⟨m, nd, d, hr⟩ := hu
    rcases (h.nd _ _ _).mp d with ⟨rfl, rfl, rfl⟩ | ⟨rfl, rfl, rfl⟩ | ⟨_, _, _, d'⟩
    · exact ⟨_, oldL, h.wasL, h.rmL⟩
    · exact ⟨_, oldQ, h.wasQ, h.rmQ⟩
    · exact ⟨m, nd, d', hr⟩
  · obtain ⟨m, nd, d, hr⟩ := hu
    rcases hp with g | ⟨m', g⟩
    · exact Or.inl (g.trans h.root.symm)
    · exact Or.inr ⟨m', h.hasPar ((h.lv m i).mp d.1).2 g⟩

theorem MergeSeq.ok (h : MergeSeq w w' n l x q oldL oldX new oldQ newQ) {k : K} {w0 : World K V} (ho : Ok k w0 w) (hi' : Inv w') : Ok k w0 w' :=
  ⟨hi', ho.mono.trans h.mono, h.sinv ho.inv ho.sinv, h.line ho.inv ho.line, ho.le.trans h.le⟩

end MergeSeq

/-! ### A new root -/

/-- The split of the root `r` into `r` and `y` is finished by a new root `g`. -/
structure RootSeq (w w' : World K V) (n : Nat) (r y g : NodeId) (nr new : Node K V) : Prop where
  mono : Mono w w'
  root : w.mem.root = r
  root' : w'.mem.root = g
  noneG : w.info g = none
  infoG : w'.info g = some (none, n + 1)
  info : ∀ x, x ≠ g → w'.info x = w.info x
  nextId : w.mem.nextId ≤ w'.mem.nextId
  lvl : n + 1 < w'.mem.nextId ∧ n + 1 < TABLE_SIZE
  lv : ∀ m i, Live w' m i ↔ Live w m i ∨ (i = g ∧ m = n + 1)
  nd : ∀ m i nd, Nd w' m i nd ↔ Nd w m i nd ∨ (i = g ∧ m = n + 1 ∧ nd = new)
  was : Nd w n r nr
  splits : nr.splits = some y
  shape : new.noMerge ∧ new.isAbort = false ∧ new.Exact
  rm : new.isRemove = false
  splitsN : new.splits = none
  eff : ∀ i, i ∈ new.eff ↔ i = r ∨ i = y

section RootSeq

variable {n : Nat} {r y g : NodeId} {nr new : Node K V}

theorem RootSeq.here (h : RootSeq w w' n r y g nr new) : Nd w' (n + 1) g new := (h.nd _ _ _).mpr (Or.inr ⟨rfl, rfl, rfl⟩)

theorem RootSeq.there (h : RootSeq w w' n r y g nr new) {m : Nat} {i : NodeId} {nd : Node K V} (hd : Nd w m i nd) : Nd w' m i nd :=
  (h.nd _ _ _).mpr (Or.inl hd)

theorem RootSeq.ne (h : RootSeq w w' n r y g nr new) {x : NodeId} (hx : w.info x ≠ none) : x ≠ g := by
  rintro rfl
  exact hx h.noneG

theorem RootSeq.hasPar (h : RootSeq w w' n r y g nr new) {m : Nat} {z : NodeId} (hp : HasPar w m z) : HasPar w' m z := by
  obtain ⟨a, na, d, hy⟩ := hp
  exact ⟨a, na, h.there d, hy⟩

theorem RootSeq.fresh (h : RootSeq w w' n r y g nr new) {m : Nat} {a z : NodeId} (hf : Fresh w m a z) : Fresh w' m a z := by
  obtain ⟨node, s, g1, g2, g3, g4, g5, g6⟩ := hf
  exact ⟨node, s, h.there g1, g2, h.there g3, g4, g5, g6⟩

theorem RootSeq.rmIff (h : RootSeq w w' n r y g nr new) {m : Nat} {z : NodeId} : Rm w' m z ↔ Rm w m z := by
  constructor
  · rintro ⟨nd, d, hr⟩
    rcases (h.nd _ _ _).mp d with d | ⟨_, _, rfl⟩
    · exact ⟨nd, d, hr⟩
    · rw [h.rm] at hr; cases hr
  · rintro ⟨nd, d, hr⟩
    exact ⟨nd, h.there d, hr⟩

theorem RootSeq.live_y (h : RootSeq w w' n r y g nr new) (hi : Inv w) (hs : SInv w) : Fresh w n r y ∧ ∀ m, ¬ HasPar w m y := by
  obtain ⟨lr, er, or_⟩ := h.was.ok hi
  obtain ⟨m0, hr1, hr2⟩ := hi.root
  rw [h.root, er] at hr1
  cases hr1
  have hyl : ∀ m, HasPar w m y → False := by
    rintro m ⟨a, na, d, hy⟩
    obtain ⟨la, ea, _⟩ := d.ok hi
    obtain ⟨ly, ey⟩ : ∃ l, w.info y = some (l, m) := by
      rcases d.child hi hy ea with ⟨_, e⟩ | ⟨_, _, e, _⟩
      · exact ⟨_, e⟩
      · exact ⟨_, e⟩
    have hh : nr.high.2 = y := Node.splits_high h.splits
    have := or_.high.resolve_left (by rw [hh]; exact (hi.ids _ _ ey).1)
    rw [hh, ey] at this
    cases this
    have := hr2 a la _ ea
    exact absurd this (Nat.not_succ_le_self _)
  exact ⟨((hs.spl _ r nr y h.was h.splits).2).resolve_left (hyl _), hyl⟩

theorem RootSeq.sinv (h : RootSeq w w' n r y g nr new) (hi : Inv w) (hs : SInv w) : SInv w' := by
  obtain ⟨hfr, _⟩ := h.live_y hi hs
  obtain ⟨_, sib, _, _, dy, _⟩ := id hfr
  constructor
  · intro m i nd d
    rcases (h.nd _ _ _).mp d with d | ⟨_, _, rfl⟩
    · exact hs.shape m i nd d
    · exact h.shape
  · intro m i nd d hr
    rcases (h.nd _ _ _).mp d with d | ⟨_, _, rfl⟩
    · exact hs.base m i nd d hr
    · rw [h.rm] at hr; cases hr
  · intro m i nd j d hj
    refine (h.lv m j).mpr (Or.inl ?_)
    rcases (h.nd _ _ _).mp d with d | ⟨_, e, rfl⟩
    · exact hs.kid m i nd j d hj
    · cases e
      rcases (h.eff j).mp hj with rfl | rfl
      · exact h.was.1
      · exact dy.1
  · intro m z hz
    rcases (h.lv m z).mp hz with hz | ⟨rfl, rfl⟩
    · rcases hs.par m z hz with e | e | ⟨a, e⟩
      · rw [h.root] at e
        subst e
        have : m = n := by
          obtain ⟨nd, d⟩ := hz.nd hi
          exact (d.unique h.was).1
        subst this
        exact Or.inr (Or.inl ⟨g, new, h.here, (h.eff z).mpr (Or.inl rfl)⟩)
      · exact Or.inr (Or.inl (h.hasPar e))
      · exact Or.inr (Or.inr ⟨a, h.fresh e⟩)
    · exact Or.inl h.root'.symm
  · intro m i nd z d hsp
    rcases (h.nd _ _ _).mp d with d | ⟨_, _, rfl⟩
    · obtain ⟨g1, g2⟩ := hs.spl m i nd z d hsp
      exact ⟨g1, g2.imp h.hasPar h.fresh⟩
    · rw [h.splitsN] at hsp; cases hsp
  · intro m i nd d hr
    rcases (h.nd _ _ _).mp d with d | ⟨_, _, rfl⟩
    · obtain ⟨a, na, k, d2, hk⟩ := hs.rm m i nd d hr
      exact ⟨a, na, k, h.there d2, hk⟩
    · rw [h.rm] at hr; cases hr
  · intro x l m hx
    by_cases hg : x = g
    · subst hg
      rw [h.infoG] at hx
      cases hx
      exact h.lvl
    · rw [h.info x hg] at hx
      exact ⟨Nat.lt_of_lt_of_le (hs.lvl x l m hx).1 h.nextId, (hs.lvl x l m hx).2⟩
  · refine hs.keep_gone h.mono (fun r l m e => ?_) (fun n r g => Or.inl ((h.lv n r).mpr (Or.inl g)))
    by_cases hg : r = g
    · subst hg
      rw [h.infoG] at e
      cases e
      exact Or.inr ((h.lv _ _).mpr (Or.inr ⟨rfl, rfl⟩))
    · rw [h.info r hg] at e
      exact Or.inl e

theorem RootSeq.line (h : RootSeq w w' n r y g nr new) {k : K} (hl : Line w k) : Line w' k := by
  intro m i nd lk d hr hx
  rcases (h.nd _ _ _).mp d with d | ⟨_, _, rfl⟩
  · obtain ⟨⟨⟨li, ei⟩, _⟩, _⟩ := id d
    rw [h.info i (h.ne (by rw [ei]; exact fun e => by cases e))] at hx
    exact (hl m i nd lk d hr hx).imp (fun g => g) (fun g => h.rmIff.mpr g)
  · rw [h.rm] at hr; cases hr

theorem RootSeq.le (h : RootSeq w w' n r y g nr new) (_hi : Inv w) : Le w w' := by
  refine le_of (fun x hx => by rw [h.info x (h.ne hx)]; exact hx) (fun x hx hu => ?_) (fun x hx hu hp => ?_)
  · obtain ⟨m, nd, d, hr⟩ := hu
    rcases (h.nd _ _ _).mp d with d | ⟨e, _, rfl⟩
    · exact ⟨m, nd, d, hr⟩
    · exact absurd e (h.ne hx)
  · rcases hp with e | ⟨m, e⟩
    · rw [h.root] at e
      exact Or.inr ⟨n, g, new, h.here, (h.eff x).mpr (Or.inl e)⟩
    · exact Or.inr ⟨m, h.hasPar e⟩

theorem RootSeq.lt (h : RootSeq w w' n r y g nr new) (hi : Inv w) (hs : SInv w) : Lt w w' := by
  obtain ⟨hfr, hno⟩ := h.live_y hi hs
  obtain ⟨_, sib, _, _, dy, hb, _⟩ := id hfr
  obtain ⟨ly, ey, _⟩ := dy.ok hi
  have hyn : w.info y ≠ none := by rw [ey]; exact fun e => by cases e
  refine lt_placed (h.le hi) (hi.ids _ _ ey).2.1 hyn (by rw [h.info y (h.ne hyn)]; exact hyn) ⟨n, sib, dy, ?_⟩ ?_
    (Or.inr ⟨n, g, new, h.here, (h.eff y).mpr (Or.inr rfl)⟩)
  · cases sib with
    | leaf c => cases c <;> first | rfl | cases hb
    | inner c => cases c <;> first | rfl | cases hb
  · rintro (e | ⟨m, e⟩)
    · exact fresh_ne hi hfr e
    · exact hno m e

theorem RootSeq.ok (h : RootSeq w w' n r y g nr new) {k : K} {w0 : World K V} (ho : Ok k w0 w) (hi' : Inv w') : Ok k w0 w' :=
  ⟨hi', ho.mono.trans h.mono, h.sinv ho.inv ho.sinv, h.line ho.line, ho.le.trans (h.le ho.inv)⟩

end RootSeq

end Tree
end BwTree
