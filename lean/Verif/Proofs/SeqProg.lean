import Verif.Proofs.SeqPut

/-! The help-along functions when one call runs alone: contexts, consolidation, completing splits. -/

namespace BwTree
namespace Tree

open Prog

set_option linter.unusedSectionVars false

variable {K V : Type} [LinearOrder K] [DecidableEq V] [Inhabited K] {w w' : World K V} {t : Tid} {α : Type}

/-! ### Base nodes and consolidation -/

theorem Node.base_shape {n : Node K V} (h : n.isBase = true) : (n.noMerge ∧ n.isAbort = false ∧ n.Exact) ∧ n.isRemove = false ∧
    n.splits = none ∧ n.merged = none ∧ n.strip = n ∧ n.clean = true ∧ n.isDelta = false := by
  cases n with
  | leaf c => cases c <;> first | exact ⟨⟨trivial, rfl, trivial⟩, rfl, rfl, rfl, rfl, rfl, rfl⟩ | cases h
  | inner c => cases c <;> first | exact ⟨⟨trivial, rfl, trivial⟩, rfl, rfl, rfl, rfl, rfl, rfl⟩ | cases h

theorem Node.clean_of {n : Node K V} (h1 : n.isRemove = false) (h2 : n.isAbort = false) : n.clean = true := by
  cases n with
  | leaf c => cases c <;> first | rfl | cases h1
  | inner c => cases c <;> first | rfl | (cases h1; done) | (cases h2; done)

/-- `b` is the consolidation of `node`. -/
structure Cons (node b : Node K V) : Prop where
  base : b.isBase = true
  low : b.low = node.low
  high : b.high = node.high
  leaf : b.isLeaf = node.isLeaf
  eff : b.eff = node.eff
  seps : b.seps = node.seps
  count : b.count = node.count

theorem Node.lower_of {a b : Node K V} (h : a.isLeaf = b.isLeaf) : a.lower = b.lower := by
  cases a <;> cases b <;> first | rfl | (cases h; done)

theorem consolidated_cons (hi : Inv w) {id : NodeId} {lk : Option K} {n : Nat} {node : Node K V} (ho : NodeOK w id lk n node)
    (hc : node.clean = true) : ∃ b, consolidated node = some b ∧ Cons node b := by
  have hb := ho.1
  rw [Node.strip_of_clean hc] at hb
  obtain ⟨_, _, _, b4⟩ := hb
  cases node with
  | leaf c =>
    obtain ⟨l, h1, h2, h3⟩ := LeafChain.consolidate_wf b4.2.1
    refine ⟨.leaf (.base c.low c.high l), by simp [consolidated, h1], ⟨rfl, rfl, rfl, rfl, rfl, rfl, ?_⟩⟩
    unfold LeafChain.consolidate at h1
    cases hcol : c.collect with
    | none => rw [hcol] at h1; cases h1
    | some items =>
      rw [hcol] at h1
      cases h1
      unfold LeafChain.collect at hcol
      split at hcol
      · cases hcol
      · split at hcol
        · cases hcol; assumption
        · cases hcol
  | inner c =>
    obtain ⟨m, c1, c2, c3⟩ := b4
    refine ⟨.inner (.base c.low c.high 0 (c.low :: c.seps)), ?_, ⟨rfl, rfl, rfl, rfl, rfl, rfl, ?_⟩⟩
    · simp [consolidated, InnerChain.consolidate_spec hi.lo_invalid c2]
    · have := InnerChain.WF.seps_length c2
      show ((c.low :: c.seps).length : Int) = c.itemCount
      simp only [List.length_cons]
      omega

/-! ### Replacing a node -/

/-- The snapshot is the current node of a live NodeID of level `n`. -/
def Here (w : World K V) (n : Nat) (s : Snap K V) : Prop := Live w n s.id ∧ w.At s.id s.ptr s.node

theorem Here.nd {n : Nat} {s : Snap K V} (h : Here w n s) : Nd w n s.id s.node := ⟨h.1, s.ptr, h.2⟩

theorem Here.calm {n : Nat} {s : Snap K V} (h : Here w n s) (hc : Calm w w') (hi : Inv w) : Here w' n s :=
  ⟨hc.live.mpr h.1, (hc.at_ hi h.1.1.choose_spec).mpr h.2⟩

theorem Swap.calm {m : Nat} {id : NodeId} {new : Node K V} {a b c : World K V} (h : Swap a b m id new) (hc : Calm b c) (hi : Inv b) :
    Swap a c m id new where
  mono := h.mono.trans hc.mono
  root := hc.root.trans h.root
  info := hc.info.trans h.info
  dead := hc.dead.trans h.dead
  nextId := Nat.le_trans h.nextId hc.nextId
  live := h.live
  self := by
    obtain ⟨p, hp⟩ := h.self
    obtain ⟨lk, e⟩ := (h.lv.mpr h.live).1
    exact ⟨p, (hc.at_ hi e).mpr hp⟩
  other x y p nd hy hx := (hc.at_ hi (by rw [h.info]; exact hy)).trans (h.other x y p nd hy hx)

theorem Calm.swap {m : Nat} {id : NodeId} {new : Node K V} {a b c : World K V} (hc : Calm a b) (h : Swap b c m id new) (hi : Inv a) :
    Swap a c m id new where
  mono := hc.mono.trans h.mono
  root := h.root.trans hc.root
  info := h.info.trans hc.info
  dead := h.dead.trans hc.dead
  nextId := Nat.le_trans hc.nextId h.nextId
  live := hc.live.mp h.live
  self := h.self
  other x y p nd hy hx := (h.other x y p nd (by rw [hc.info]; exact hy) hx).trans (hc.at_ hi hy)

/-- The current node is replaced by a new one with the same upper end. -/
theorem tw_put' (hi : Inv w) {n : Nat} {s : Snap K V} (hh : Here w n s) {new : Node K V} {ks : List Ptr} (hhigh : new.high = s.node.high)
    (hm : new.merged = none) {f : Ptr → Bool → Prog K V α} {Q : α → World K V → Prop}
    (H : ∀ w' p, Inv w' → Swap w w' n s.id new → w'.mem.garbage = w.mem.garbage → w'.At s.id p new → tw t (f p true) Q w') :
    tw t (allocate new ks >>= fun p => replace s.id p s.ptr >>= f p) Q w := by
  refine tw_seq (tw_allocate' hi (Q := fun p w1 => Inv w1 ∧ Calm w w1 ∧ w1.mem.garbage = w.mem.garbage ∧ w1.mem.heap p = some new) fun w1 p h1 h2 h3 h4 => ⟨h1, h2, h3, h4⟩) ?_
  rintro p w1 ⟨hi1, hc1, hg1, hp⟩
  have hh1 := hh.calm hc1 hi
  obtain ⟨lk, e⟩ := hh1.1.1
  refine tw_seq (tw_replace hi1 e hh1.1.2 hh1.2.1 (Q := fun ok w2 => ok = true ∧ Inv w2 ∧ Put w1 w2 s.id p) fun w2 h1 h2 => ⟨rfl, h1, h2⟩) ?_
  rintro ok w2 ⟨rfl, hi2, hput⟩
  obtain ⟨g1, g2⟩ := hput.same hi1 hi2 e hh1.2 hp hhigh hm
  have hat : w2.At s.id p new := (hput.self hp).mpr ⟨rfl, rfl⟩
  refine H w2 p hi2 (hc1.swap ⟨hput.mono, hput.root, g1, g2, Nat.le_of_eq hput.nextId.symm, hh1.1, ⟨p, hat⟩, fun x y q nd _ hx => hput.ne hx⟩ hi) (hput.garbage.trans hg1) hat

/-- The current node is replaced by a new one with the same upper end. -/
theorem tw_put (hi : Inv w) {n : Nat} {s : Snap K V} (hh : Here w n s) {new : Node K V} {ks : List Ptr} (hhigh : new.high = s.node.high)
    (hm : new.merged = none) {f : Ptr → Bool → Prog K V α} {Q : α → World K V → Prop}
    (H : ∀ w' p, Inv w' → Swap w w' n s.id new → w'.At s.id p new → tw t (f p true) Q w') :
    tw t (allocate new ks >>= fun p => replace s.id p s.ptr >>= f p) Q w :=
  tw_put' hi hh hhigh hm fun w' p h1 h2 _ h3 => H w' p h1 h2 h3

/-- Ranges are the same after a replacement with the same upper end. -/
theorem Swap.covers {m : Nat} {id : NodeId} {old new : Node K V} (h : Swap w w' m id new) (ho : Nd w m id old) (hh : new.high = old.high)
    {n : Nat} {x : NodeId} {k : K} (hc : Covers w n x k) : Covers w' n x k := by
  obtain ⟨lk, node, e1, e2, e3, e4⟩ := hc.nd
  by_cases hx : x = id
  · subst hx
    obtain ⟨rfl, rfl⟩ := e2.unique ho
    exact h.here.covers (by rw [h.info]; exact e1) e3 (by rw [hh]; exact e4)
  · exact (h.there hx e2).covers (by rw [h.info]; exact e1) e3 e4

theorem Swap.stay {m : Nat} {id : NodeId} {new : Node K V} (h : Swap w w' m id new) {n : Nat} {s : Snap K V} (hs : Here w n s) (hne : s.id ≠ id) :
    Here w' n s := ⟨h.lv.mpr hs.1, (h.other _ _ _ _ hs.1.1.choose_spec hne).mpr hs.2⟩

theorem tw_consolidateNode (hi : Inv w) {n : Nat} {s : Snap K V} (hh : Here w n s) (hc : s.node.clean = true) {Q : Snap K V → World K V → Prop}
    (H : ∀ w' p b, Inv w' → Swap w w' n s.id b → w'.At s.id p b → Cons s.node b → Q ⟨s.id, p, b⟩ w') : tw t (consolidateNode s) Q w := by
  obtain ⟨lk, e, ok⟩ := hh.nd.ok hi
  obtain ⟨b, hb, hcons⟩ := consolidated_cons hi ok hc
  unfold consolidateNode
  rw [hb]
  refine tw_put hi hh hcons.high (Node.base_shape hcons.base).2.2.2.1 ?_
  intro w1 p hi1 hsw hat
  rw [if_pos rfl]
  refine tw_seq (tw_addGarbage hi1 (Q := fun _ w2 => Inv w2 ∧ Calm w1 w2) fun w2 h1 h2 => ⟨h1, h2⟩) ?_
  rintro _ w2 ⟨hi2, hc2⟩
  exact H w2 p b hi2 (hsw.calm hc2 hi1) ((hc2.at_ hi1 (hsw.lv.mpr hsw.live).1.choose_spec).mpr hat) hcons

/-! ### Contexts -/

/-- The separator of a split off node is in the level above. -/
def Posted (w : World K V) (n : Nat) (node : Node K V) : Prop := ∀ y, node.splits = some y → HasPar w n y

/-- The root, or a child of a node of the next level. -/
def Placed1 (w : World K V) (n : Nat) (id : NodeId) : Prop := id = w.mem.root ∨ HasPar w n id

/-- Parents stay parents. -/
structure Keeps (w w' : World K V) : Prop where
  root : w'.mem.root = w.mem.root
  par : ∀ n y, HasPar w n y → HasPar w' n y

theorem Keeps.refl (w : World K V) : Keeps w w := ⟨rfl, fun _ _ h => h⟩
theorem Keeps.trans {a b c : World K V} (h1 : Keeps a b) (h2 : Keeps b c) : Keeps a c :=
  ⟨h2.root.trans h1.root, fun n y h => h2.par n y (h1.par n y h)⟩
theorem Calm.keeps (h : Calm w w') (hi : Inv w) : Keeps w w' := ⟨h.root, fun n y hp => by rw [hasPar_congr (h.nd hi)]; exact hp⟩
theorem PutSeq.keeps {m : Nat} {id : NodeId} {old new : Node K V} (h : PutSeq w w' m id old new) : Keeps w w' := ⟨h.swap.root, fun _ _ hp => h.hasPar hp⟩

theorem Keeps.posted (h : Keeps w w') {n : Nat} {node : Node K V} (hp : Posted w n node) : Posted w' n node := fun y hy => h.par _ _ (hp y hy)
theorem Keeps.placed (h : Keeps w w') {n : Nat} {id : NodeId} (hp : Placed1 w n id) : Placed1 w' n id :=
  hp.imp (fun e => e.trans h.root.symm) (h.par _ _)

theorem Posted.none {n : Nat} {node : Node K V} (h : node.splits = none) : Posted w n node := fun y hy => by rw [h] at hy; cases hy

/-- `s` is a snapshot of the parent of `id`. -/
structure ParS (w : World K V) (n : Nat) (s : Snap K V) (id : NodeId) : Prop where
  here : Here w (n + 1) s
  rm : s.node.isRemove = false
  post : Posted w (n + 1) s.node
  placed : Placed1 w (n + 1) s.id
  kid : id ∈ s.node.eff

/-- The parent snapshot is right. -/
def ParC (w : World K V) (n : Nat) (par : Par K V) (level : Nat) (id : NodeId) : Prop :=
  (par = .root ∧ id = w.mem.root) ∨ ∃ s, par = .snap s ∧ level ≠ 0 ∧ ParS w n s id

theorem ParS.move {n : Nat} {s : Snap K V} {id : NodeId} (h : ParS w n s id) (hk : Keeps w w') (hh : Here w' (n + 1) s) : ParS w' n s id :=
  ⟨hh, h.rm, hk.posted h.post, hk.placed h.placed, h.kid⟩

theorem ParS.placed1 {n : Nat} {s : Snap K V} {id : NodeId} (h : ParS w n s id) : HasPar w n id := ⟨s.id, s.node, h.here.nd, h.kid⟩

theorem ParC.placed {n : Nat} {par : Par K V} {level : Nat} {id : NodeId} (h : ParC w n par level id) : Placed1 w n id := by
  rcases h with ⟨_, h⟩ | ⟨s, _, _, h⟩
  · exact Or.inl h
  · exact Or.inr h.placed1

theorem ParC.calm {n : Nat} {par : Par K V} {level : Nat} {id : NodeId} (h : ParC w n par level id) (hc : Calm w w') (hi : Inv w) :
    ParC w' n par level id := by
  rcases h with ⟨h1, h2⟩ | ⟨s, h1, h2, h3⟩
  · exact Or.inl ⟨h1, h2.trans hc.root.symm⟩
  · exact Or.inr ⟨s, h1, h2, h3.move (hc.keeps hi) (h3.here.calm hc hi)⟩

/-- The parent of a node is another node. -/
theorem ParS.ne {n : Nat} {s : Snap K V} {id : NodeId} (h : ParS w n s id) {x : NodeId} (hx : Live w n x) : s.id ≠ x := by
  rintro rfl
  obtain ⟨l1, e1⟩ := h.here.1.1
  obtain ⟨l2, e2⟩ := hx.1
  rw [e1] at e2
  simp at e2

/-- Replacing a node of level `n`. -/
theorem ParC.put {n : Nat} {par : Par K V} {level : Nat} {id x : NodeId} {old new : Node K V} (h : ParC w n par level id)
    (hp : PutSeq w w' n x old new) : ParC w' n par level id := by
  rcases h with ⟨h1, h2⟩ | ⟨s, h1, h2, h3⟩
  · exact Or.inl ⟨h1, h2.trans hp.swap.root.symm⟩
  · exact Or.inr ⟨s, h1, h2, h3.move hp.keeps (hp.swap.stay h3.here (h3.ne hp.was.1))⟩

/-- Consolidating a node. -/
theorem Cons.putSeq {n : Nat} {id : NodeId} {node b : Node K V} (hc : Cons node b) (hs : SInv w) (hn : Nd w n id node) (hr : node.isRemove = false)
    (hp : Posted w n node) (hpl : Placed1 w n id) (hsw : Swap w w' n id b) : PutSeq w w' n id node b := by
  obtain ⟨b1, b2, b3, _⟩ := Node.base_shape hc.base
  exact ⟨hsw, hn, b1, hr, b2, fun m i e hi => by subst e; rw [hc.eff] at hi; exact hs.kid m id node i hn hi,
    fun i hi => by rw [hc.eff]; exact hi, fun x hx => by rw [hc.seps]; exact hx, hp, b3, hpl⟩

end Tree
end BwTree
