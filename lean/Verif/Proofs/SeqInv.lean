import Verif.Proofs.SeqLogic
import Verif.Proofs.TreePath

/-!
  The shape of the tree between two calls when calls run one at a time: what the concurrent invariant leaves open (children of live nodes
  are live, every node has its separator unless its split is unfinished, neighbours recorded in inner records are exact).
-/

namespace BwTree
namespace Tree

open Prog

set_option linter.unusedSectionVars false

variable {K V : Type} [LinearOrder K] [DecidableEq V] [Inhabited K]

/-! ### Nodes -/

/-- Separators of the logical node. -/
def Node.seps : Node K V → List (K × NodeId)
  | .leaf _ => []
  | .inner c => c.seps

/-- The node and its records contain no merge record. -/
def Node.noMerge : Node K V → Prop
  | .leaf c => LeafChain.NoDataAboveMerge.noMerge c
  | .inner c => c.noMerge

/-- The neighbours recorded in insert and delete records are the actual ones. -/
def Node.Exact : Node K V → Prop
  | .leaf _ => True
  | .inner c => c.Exact

/-- Number of entries the node has room for before it is merged. -/
def Node.lower : Node K V → Int
  | .leaf _ => LEAF_LOWER
  | .inner _ => INNER_LOWER

/-- `GetItemCount`. -/
def Node.count : Node K V → Int
  | .leaf c => c.itemCount
  | .inner c => c.itemCount

/-- Upper end of the range, disregarding a split record on top. -/
def Node.ext : Node K V → K × NodeId
  | .leaf (.split _ _ _ c) => c.high
  | .inner (.split _ _ c) => c.high
  | n => n.high

theorem Node.strip_seps (n : Node K V) : n.strip.seps = n.seps := by
  cases n with
  | leaf c => cases c <;> rfl
  | inner c => cases c <;> rfl

theorem Node.strip_eff (n : Node K V) : n.strip.eff = n.eff := by
  cases n with
  | leaf c => cases c <;> rfl
  | inner c => cases c <;> rfl

theorem Node.ext_of_splits {n : Node K V} (h : n.splits = none) : n.ext = n.high := by
  cases n with
  | leaf c => cases c <;> first | rfl | cases h
  | inner c => cases c <;> first | rfl | cases h

theorem Node.splits_of_base {n : Node K V} (h : n.isBase = true) : n.splits = none := by
  cases n with
  | leaf c => cases c <;> first | rfl | cases h
  | inner c => cases c <;> first | rfl | cases h

theorem Node.splits_of_remove {n : Node K V} (h : n.isRemove = true) : n.splits = none := by
  cases n with
  | leaf c => cases c <;> first | rfl | cases h
  | inner c => cases c <;> first | rfl | cases h

theorem Node.mem_eff {n : Node K V} {i : NodeId} (h : i ∈ n.eff) : n.isLeaf = false ∧ (i = n.low.2 ∨ ∃ k, (k, i) ∈ n.seps) := by
  cases n with
  | leaf c => cases h
  | inner c =>
    refine ⟨rfl, ?_⟩
    simp only [Node.eff, List.map_cons, List.mem_cons, List.mem_map] at h
    rcases h with h | ⟨x, h1, h2⟩
    · exact Or.inl h
    · exact Or.inr ⟨x.1, by subst h2; exact h1⟩

theorem Node.seps_eff {n : Node K V} {k : K} {i : NodeId} (h : (k, i) ∈ n.seps) : i ∈ n.eff := by
  cases n with
  | leaf c => cases h
  | inner c => exact List.mem_map.mpr ⟨(k, i), List.mem_cons_of_mem _ h, rfl⟩

theorem Node.low_eff {n : Node K V} (h : n.isLeaf = false) : n.low.2 ∈ n.eff := by
  cases n with
  | leaf c => cases h
  | inner c => simp [Node.eff, Node.low]

/-- The node of a live NodeID. -/
def Nd (w : World K V) (n : Nat) (x : NodeId) (node : Node K V) : Prop := Live w n x ∧ ∃ p, w.At x p node

variable {w w' : World K V}

theorem Nd.unique {n m : Nat} {x : NodeId} {a b : Node K V} (h1 : Nd w n x a) (h2 : Nd w m x b) : n = m ∧ a = b := by
  obtain ⟨⟨⟨l1, e1⟩, _⟩, p, g1⟩ := h1
  obtain ⟨⟨⟨l2, e2⟩, _⟩, q, g2⟩ := h2
  have := Option.some.inj (e1.symm.trans e2)
  exact ⟨congrArg (·.2) this, (At.unique g1 g2).2⟩

theorem Live.nd (hi : Inv w) {n : Nat} {x : NodeId} (h : Live w n x) : ∃ node, Nd w n x node := by
  obtain ⟨lk, e⟩ := h.1
  obtain ⟨p, node, ha, _⟩ := hi.at e
  exact ⟨node, h, p, ha⟩

theorem Nd.ok (hi : Inv w) {n : Nat} {x : NodeId} {node : Node K V} (h : Nd w n x node) :
    ∃ lk, w.info x = some (lk, n) ∧ NodeOK w x lk n node := by
  obtain ⟨⟨⟨lk, e⟩, _⟩, p, ha⟩ := h
  exact ⟨lk, e, (hi.at_ok e ha).2⟩

theorem Nd.covers {n : Nat} {x : NodeId} {node : Node K V} (h : Nd w n x node) {lk : Option K} (hx : w.info x = some (lk, n)) {k : K}
    (h1 : AtLeast lk k) (h2 : Below node.high k) : Covers w n x k := by
  obtain ⟨⟨_, h3⟩, p, ha⟩ := h
  exact ⟨lk, p, node, hx, h3, ha, h1, h2⟩

theorem Covers.nd {n : Nat} {x : NodeId} {k : K} (h : Covers w n x k) :
    ∃ lk node, w.info x = some (lk, n) ∧ Nd w n x node ∧ AtLeast lk k ∧ Below node.high k := by
  obtain ⟨lk, p, node, h1, h2, h3, h4, h5⟩ := h
  exact ⟨lk, node, h1, ⟨⟨⟨lk, h1⟩, h2⟩, p, h3⟩, h4, h5⟩

theorem AtLeast.self (k : K) : AtLeast (some k) k := fun l hl => by cases hl; exact le_refl _

theorem Nd.cov_low (hi : Inv w) {n : Nat} {x : NodeId} {node : Node K V} (h : Nd w n x node) {k : K} (hx : w.info x = some (some k, n)) :
    Covers w n x k := by
  obtain ⟨lk, e, ok⟩ := h.ok hi
  rw [hx] at e
  cases e
  exact h.covers hx (AtLeast.self k) (ok.below k rfl)

/-- Nodes of the same level with ranges that share a key are the same. -/
theorem Nd.same (hi : Inv w) {n : Nat} {x y : NodeId} {a : Node K V} {k : K} {lk : Option K} (h : Nd w n x a) (hx : w.info x = some (lk, n))
    (h1 : AtLeast lk k) (h2 : Below a.high k) (hy : Covers w n y k) : x = y := hi.disj n x y k (h.covers hx h1 h2) hy

/-- The chain of an inner node. -/
theorem Nd.inner (hi : Inv w) {n : Nat} {x : NodeId} {node : Node K V} (h : Nd w (n + 1) x node) :
    ∃ c lk, node.strip = .inner c ∧ w.info x = some (lk, n + 1) ∧ c.WF w.lo lk ∧ node.seps = c.seps ∧ node.low = c.low ∧
      node.high = c.high ∧ node.isLeaf = false ∧ ∀ id ∈ c.childIds, ∃ l, w.info id = some (l, n) := by
  obtain ⟨lk, e, ok⟩ := h.ok hi
  obtain ⟨_, _, _, b4⟩ := ok.1
  cases hs : node.strip with
  | leaf c => rw [hs] at b4; exact absurd b4.1 (Nat.succ_ne_zero n)
  | inner c =>
    rw [hs] at b4
    obtain ⟨m, h1, h2, h3⟩ := b4
    cases h1
    refine ⟨c, lk, rfl, e, h2, ?_, ?_, ?_, ?_, h3⟩
    · rw [← Node.strip_seps, hs]; rfl
    · rw [← Node.strip_low, hs]; rfl
    · rw [← Node.strip_high, hs]; rfl
    · rw [← Node.strip_isLeaf, hs]; rfl

/-- The level of a node tells whether it is a leaf. -/
theorem Nd.leaf (hi : Inv w) {x : NodeId} {node : Node K V} (h : Nd w 0 x node) :
    ∃ c lk, node.strip = .leaf c ∧ w.info x = some (lk, 0) ∧ c.WF ∧ node.isLeaf = true ∧
      (lk = none → c.low.2 = INVALID) ∧ ∀ k, lk = some k → c.low.2 ≠ INVALID ∧ c.low.1 = k := by
  obtain ⟨lk, e, ok⟩ := h.ok hi
  obtain ⟨_, _, _, b4⟩ := ok.1
  cases hs : node.strip with
  | leaf c =>
    rw [hs] at b4
    exact ⟨c, lk, rfl, e, b4.2.1, by rw [← Node.strip_isLeaf, hs]; rfl, b4.2.2⟩
  | inner c =>
    rw [hs] at b4
    obtain ⟨m, h1, _⟩ := b4
    exact absurd h1.symm (Nat.succ_ne_zero m)

theorem lo_info {i : NodeId} {l : Option K} (h : w.lo i = some l) {m : Nat} (hm : ∃ l', w.info i = some (l', m)) : w.info i = some (l, m) := by
  obtain ⟨l', e⟩ := hm
  simp only [World.lo, e, Option.map_some, Option.some.injEq] at h
  rw [e, h]

/-- Where the range of a child begins. -/
theorem Nd.sep (hi : Inv w) {n : Nat} {q : NodeId} {node : Node K V} (h : Nd w (n + 1) q node) {k : K} {i : NodeId} (hs : (k, i) ∈ node.seps) :
    w.info i = some (some k, n) ∧ ∃ lq, w.info q = some (lq, n + 1) ∧ Above lq k ∧ Below node.high k := by
  obtain ⟨c, lk, e1, e2, e3, e4, e5, e6, _, e8⟩ := h.inner hi
  rw [e4] at hs
  obtain ⟨s1, s2, s3⟩ := (InnerChain.WF.seps_spec e3).2 _ hs
  refine ⟨lo_info s1 (e8 _ (InnerChain.seps_mem_childIds e3 _ hs)), lk, e2, s2, by rw [e6]; exact s3⟩

theorem Nd.low (hi : Inv w) {n : Nat} {q : NodeId} {node : Node K V} (h : Nd w (n + 1) q node) {lq : Option K} (hq : w.info q = some (lq, n + 1)) :
    w.info node.low.2 = some (lq, n) := by
  obtain ⟨c, lk, e1, e2, e3, e4, e5, e6, _, e8⟩ := h.inner hi
  rw [hq] at e2
  cases e2
  rw [e5]
  exact lo_info (InnerChain.WF.low_spec e3).1 (e8 _ (InnerChain.low_mem_childIds e3))

theorem Nd.sep_covers (hi : Inv w) {n : Nat} {q : NodeId} {node : Node K V} (h : Nd w (n + 1) q node) {k : K} {i : NodeId}
    (hs : (k, i) ∈ node.seps) : Covers w (n + 1) q k := by
  obtain ⟨_, lq, h1, h2, h3⟩ := h.sep hi hs
  exact h.covers h1 (fun l hl => le_of_lt (h2 l hl)) h3

/-- A child of a node. -/
theorem Nd.child (hi : Inv w) {n : Nat} {q : NodeId} {node : Node K V} (h : Nd w (n + 1) q node) {i : NodeId} (hs : i ∈ node.eff)
    {lq : Option K} (hq : w.info q = some (lq, n + 1)) :
    (i = node.low.2 ∧ w.info i = some (lq, n)) ∨
    ∃ k, (k, i) ∈ node.seps ∧ w.info i = some (some k, n) ∧ Above lq k ∧ Below node.high k := by
  rcases (Node.mem_eff hs).2 with e | ⟨k, e⟩
  · exact Or.inl ⟨e, by rw [e]; exact h.low hi hq⟩
  · obtain ⟨h1, l, h2, h3, h4⟩ := h.sep hi e
    rw [hq] at h2
    cases h2
    exact Or.inr ⟨k, e, h1, h3, h4⟩

/-- The range of a child begins inside the range of the parent. -/
theorem Nd.child_covers (hi : Inv w) {n : Nat} {q : NodeId} {node : Node K V} (h : Nd w (n + 1) q node) {i : NodeId} (hs : i ∈ node.eff)
    {k : K} (hk : w.info i = some (some k, n)) : Covers w (n + 1) q k := by
  obtain ⟨lq, hq, ok⟩ := h.ok hi
  rcases h.child hi hs hq with ⟨_, e⟩ | ⟨k', e, e2, _, _⟩
  · rw [hk] at e
    cases e
    exact h.cov_low hi hq
  · rw [hk] at e2
    cases e2
    exact h.sep_covers hi e

/-! ### The invariant -/

/-- A live node one level up has `y` as a child. -/
def HasPar (w : World K V) (n : Nat) (y : NodeId) : Prop := ∃ q node, Nd w (n + 1) q node ∧ y ∈ node.eff

/-- A live node one level up has `y` as a child, not its leftmost one. -/
def HasSep (w : World K V) (n : Nat) (y : NodeId) : Prop := ∃ q node k, Nd w (n + 1) q node ∧ (k, y) ∈ node.seps

/-- The node `y` was split off `x` and neither of them has changed since. -/
def Fresh (w : World K V) (n : Nat) (x y : NodeId) : Prop :=
  ∃ node sib, Nd w n x node ∧ node.splits = some y ∧ Nd w n y sib ∧ sib.isBase = true ∧ sib.high = node.ext ∧ sib.lower < sib.count

structure SInv (w : World K V) : Prop where
  shape : ∀ n x node, Nd w n x node → node.noMerge ∧ node.isAbort = false ∧ node.Exact
  base : ∀ n x node, Nd w n x node → node.isRemove = true → node.strip.isBase = true
  kid : ∀ n x node i, Nd w (n + 1) x node → i ∈ node.eff → Live w n i
  par : ∀ n y, Live w n y → y = w.mem.root ∨ HasPar w n y ∨ ∃ x, Fresh w n x y
  spl : ∀ n x node y, Nd w n x node → node.splits = some y → node.lower < node.count ∧ (HasPar w n y ∨ Fresh w n x y)
  rm : ∀ n x node, Nd w n x node → node.isRemove = true → HasSep w n x
  lvl : ∀ x l n, w.info x = some (l, n) → n < w.mem.nextId ∧ n < TABLE_SIZE
  gone : ∀ r x, w.info r = some x → w.dead r → w.del r

/-- Nodes merged away stay without a separator if no other node dies. -/
theorem SInv.keep_gone (hs : SInv w) (hm : Mono w w') (hx : ∀ r l n, w'.info r = some (l, n) → w.info r = some (l, n) ∨ Live w' n r)
    (hl : ∀ n r, Live w n r → Live w' n r ∨ w'.del r) : ∀ r x, w'.info r = some x → w'.dead r → w'.del r := by
  rintro r ⟨l, n⟩ e hd
  rcases hx r l n e with h | h
  · by_cases hd0 : w.dead r
    · exact hm.gh.del r (hs.gone r _ h hd0)
    · rcases hl n r ⟨⟨l, h⟩, hd0⟩ with g | g
      · exact absurd hd g.2
      · exact g
  · exact absurd hd h.2

/-- Live and removed. -/
def Rm (w : World K V) (n : Nat) (x : NodeId) : Prop := ∃ node, Nd w n x node ∧ node.isRemove = true

/-- Every removed node is on the path to `k`, or left of a removed node. -/
def Line (w : World K V) (k : K) : Prop :=
  ∀ n x node lk, Nd w n x node → node.isRemove = true → w.info x = some (lk, n) →
    (AtLeast lk k ∧ Below node.high k) ∨ Rm w n node.high.2

theorem HasSep.hasPar {n : Nat} {y : NodeId} (h : HasSep w n y) : HasPar w n y := by
  obtain ⟨q, node, k, h1, h2⟩ := h
  exact ⟨q, node, h1, Node.seps_eff h2⟩

/-- A node has at most one parent. -/
theorem par_unique (hi : Inv w) {n : Nat} {q q' y : NodeId} {a b : Node K V} (h1 : Nd w (n + 1) q a) (h2 : y ∈ a.eff)
    (h3 : Nd w (n + 1) q' b) (h4 : y ∈ b.eff) : q = q' := by
  obtain ⟨l1, e1, _⟩ := h1.ok hi
  obtain ⟨l2, e2, _⟩ := h3.ok hi
  cases hy : w.info y with
  | none =>
    rcases h1.child hi h2 e1 with ⟨_, e⟩ | ⟨_, _, e, _⟩ <;> · rw [hy] at e; cases e
  | some z =>
    obtain ⟨ly, m⟩ := z
    have hm : m = n := by
      rcases h1.child hi h2 e1 with ⟨_, e⟩ | ⟨_, _, e, _⟩ <;> · rw [hy] at e; cases e; rfl
    subst hm
    cases ly with
    | some k => exact hi.disj _ _ _ _ (h1.child_covers hi h2 hy) (h3.child_covers hi h4 hy)
    | none =>
      have g1 : l1 = none := by
        rcases h1.child hi h2 e1 with ⟨_, e⟩ | ⟨_, _, e, _⟩
        · rw [hy] at e; cases e; rfl
        · rw [hy] at e; cases e
      have g2 : l2 = none := by
        rcases h3.child hi h4 e2 with ⟨_, e⟩ | ⟨_, _, e, _⟩
        · rw [hy] at e; cases e; rfl
        · rw [hy] at e; cases e
      subst g1 g2
      exact hi.lowU _ _ _ e1 e2

/-- A node has at most one left neighbour. -/
theorem left_unique (hi : Inv w) {n : Nat} {x x' : NodeId} {a b : Node K V} (h1 : Nd w n x a) (h2 : Nd w n x' b) (h3 : a.high.2 = b.high.2)
    (h4 : a.high.2 ≠ INVALID) : x = x' := by
  obtain ⟨l1, e1, o1⟩ := h1.ok hi
  obtain ⟨l2, e2, o2⟩ := h2.ok hi
  have g1 := o1.high.resolve_left h4
  have g2 := o2.high.resolve_left (h3 ▸ h4)
  rw [h3, g2] at g1
  have hk : b.high.1 = a.high.1 := by simpa using g1
  have b1 : ∀ l, l1 = some l → l < a.high.1 := fun l hl => (o1.below l hl).resolve_left h4
  have b2 : ∀ l, l2 = some l → l < a.high.1 := fun l hl => by rw [← hk]; exact (o2.below l hl).resolve_left (h3 ▸ h4)
  cases hl1 : l1 with
  | none =>
    cases hl2 : l2 with
    | none => subst hl1 hl2; exact hi.lowU _ _ _ e1 e2
    | some b =>
      subst hl1 hl2
      exact h1.same hi e1 (fun l hl => by cases hl) (Or.inr (b2 b rfl)) (h2.cov_low hi e2)
  | some a' =>
    cases hl2 : l2 with
    | none =>
      subst hl1 hl2
      exact (h2.same hi e2 (fun l hl => by cases hl) (Or.inr (by rw [hk]; exact b1 a' rfl)) (h1.cov_low hi e1)).symm
    | some b' =>
      subst hl1 hl2
      rcases le_total a' b' with h | h
      · exact h1.same hi e1 (fun l hl => by cases hl; exact h) (Or.inr (b2 b' rfl)) (h2.cov_low hi e2)
      · exact (h2.same hi e2 (fun l hl => by cases hl; exact h) (Or.inr (by rw [hk]; exact b1 a' rfl)) (h1.cov_low hi e1)).symm

/-- The range of a node begins below its upper end, disregarding a split record. -/
theorem Fresh.range (hi : Inv w) {n : Nat} {x y : NodeId} (h : Fresh w n x y) : ∃ node sib lx ky, Nd w n x node ∧ node.splits = some y ∧
    node.high = (ky, y) ∧ Nd w n y sib ∧ sib.isBase = true ∧ sib.high = node.ext ∧ sib.lower < sib.count ∧ w.info x = some (lx, n) ∧
    w.info y = some (some ky, n) ∧ Above lx ky := by
  obtain ⟨node, sib, h1, h2, h3, h4, h5, h6⟩ := h
  obtain ⟨lx, e1, o1⟩ := h1.ok hi
  obtain ⟨ly, e2, o2⟩ := h3.ok hi
  have hy : node.high.2 = y := Node.splits_high h2
  have hne : y ≠ INVALID := (hi.ids _ _ e2).1
  have hz := o1.high.resolve_left (by rw [hy]; exact hne)
  rw [hy] at hz
  refine ⟨node, sib, lx, node.high.1, h1, h2, by rw [← hy], h3, h4, h5, h6, e1, hz, ?_⟩
  intro l hl
  exact (o1.below l hl).resolve_left (by rw [hy]; exact hne)

/-- Among the children of `q`, the last one beginning in a down-closed set `U` of keys is the node `v` that no other child shares the rest of
`U` with. -/
theorem last_child_aux (hi : Inv w) (hs : SInv w) {n : Nat} {q i v : NodeId} {nq : Node K V} {lq li lv : Option K} (U : K → Prop)
    (hq : Nd w (n + 1) q nq) (eq : w.info q = some (lq, n + 1)) (hqU : ∀ κ, AtLeast lq κ → U κ → Covers w (n + 1) q κ)
    (hlq : ∀ l, lq = some l → U l)
    (hii : i ∈ nq.eff) (ei : w.info i = some (li, n)) (hiU : ∀ l, li = some l → U l)
    (hmax : ∀ κ j, (κ, j) ∈ nq.seps → U κ → ∃ l, li = some l ∧ κ ≤ l)
    (hp : HasPar w n v) (ev : w.info v = some (lv, n)) (hvU : ∀ l, lv = some l → U l)
    (hv : ∀ κ j, j ∈ nq.eff → AtLeast lv κ → U κ → Covers w n j κ → j = v) : v = i := by
  obtain ⟨_, _, _, _, _, _, _, _, hleaf, _⟩ := hq.inner hi
  have lowinfo : w.info nq.low.2 = some (lq, n) := hq.low hi eq
  have lowchild : ∀ l, lq = some l → Covers w n nq.low.2 l := fun l hl => by
    obtain ⟨nl, dl⟩ := (hs.kid n q nq _ hq (Node.low_eff hleaf)).nd hi
    exact dl.cov_low hi (by rw [← hl]; exact lowinfo)
  obtain ⟨ni, di⟩ := (hs.kid n q nq i hq hii).nd hi
  have hveff : v ∈ nq.eff := by
    obtain ⟨q', nq', dq', hv'⟩ := hp
    suffices h : q = q' by subst h; rw [(hq.unique dq').2]; exact hv'
    obtain ⟨lq', eq', _⟩ := dq'.ok hi
    by_cases hat : ∀ l, lv = some l → AtLeast lq l
    · cases hlv : lv with
      | some l => subst hlv; exact hi.disj _ _ _ _ (hqU l (hat l rfl) (hvU l rfl)) (dq'.child_covers hi hv' ev)
      | none =>
        subst hlv
        have g2 : lq' = none := by
          rcases dq'.child hi hv' eq' with ⟨_, e⟩ | ⟨_, _, e, _⟩
          · rw [ev] at e; cases e; rfl
          · rw [ev] at e; cases e
        subst g2
        cases hlq' : lq with
        | none => subst hlq'; exact hi.lowU _ _ _ eq eq'
        | some m =>
          have := hv m _ (Node.low_eff hleaf) (fun l hl => by cases hl) (hlq m hlq') (lowchild m hlq')
          rw [this, ev, hlq'] at lowinfo
          cases lowinfo
    · exfalso
      apply hat
      intro l hl m hm
      refine le_of_not_gt fun hlm => ?_
      have := hv m _ (Node.low_eff hleaf) (fun a ha => by rw [hl] at ha; cases ha; exact le_of_lt hlm) (hlq m hm) (lowchild m hm)
      rw [this, ev, hl, hm] at lowinfo
      cases lowinfo
      exact lt_irrefl _ hlm
  cases hli : li with
  | some l' =>
    subst hli
    refine (hv l' i hii ?_ (hiU l' rfl) (di.cov_low hi ei)).symm
    intro l hl
    rcases hq.child hi hveff eq with ⟨_, e⟩ | ⟨κ, e, e2, _, _⟩
    · rw [ev] at e
      cases e
      rcases hq.child hi hii eq with ⟨_, e'⟩ | ⟨κ', _, e', h5, _⟩
      · rw [ei, hl] at e'
        cases e'
        exact le_refl _
      · rw [ei] at e'
        cases e'
        exact le_of_lt (h5 l hl)
    · rw [ev, hl] at e2
      cases e2
      obtain ⟨l2, g1, g2⟩ := hmax _ v e (hvU _ hl)
      cases g1
      exact g2
  | none =>
    subst hli
    cases hlv : lv with
    | none => subst hlv; exact hi.lowU _ _ _ ev ei
    | some l =>
      subst hlv
      have hlqn : lq = none := by
        rcases hq.child hi hii eq with ⟨_, e'⟩ | ⟨κ', _, e', h5, _⟩
        · rw [ei] at e'; cases e'; rfl
        · rw [ei] at e'; cases e'
      rcases hq.child hi hveff eq with ⟨_, e⟩ | ⟨κ, e, e2, _, _⟩
      · rw [ev, hlqn] at e; cases e
      · rw [ev] at e2
        cases e2
        obtain ⟨l2, g1, _⟩ := hmax _ v e (hvU _ rfl)
        cases g1

theorem not_root_below (hi : Inv w) {n : Nat} {q v : NodeId} {lq lv : Option K} (eq : w.info q = some (lq, n + 1)) (ev : w.info v = some (lv, n)) :
    v ≠ w.mem.root := by
  rintro rfl
  obtain ⟨m, hr1, hr2⟩ := hi.root
  rw [hr1] at ev
  cases ev
  exact absurd (hr2 q _ _ eq) (Nat.not_succ_le_self _)

/-- A node with a split record on top is not itself fresh. -/
theorem Fresh.left_par (hi : Inv w) (hs : SInv w) {n : Nat} {x y : NodeId} (h : Fresh w n x y) : x = w.mem.root ∨ HasPar w n x := by
  obtain ⟨nx, _, dx, hsp, _⟩ := h
  rcases hs.par n x dx.1 with h | h | ⟨x', hfr'⟩
  · exact Or.inl h
  · exact Or.inr h
  · exfalso
    obtain ⟨_, sib', _, _, ds', hb', _⟩ := hfr'
    rw [(ds'.unique dx).2] at hb'
    rw [Node.splits_of_base hb'] at hsp
    cases hsp

/-- Among the children of `q`, the last one beginning in a down-closed set `U` of keys contains the node `z` that reaches to the end of
`U`, up to an unfinished split. -/
theorem last_child (hi : Inv w) (hs : SInv w) {n : Nat} {q i z : NodeId} {nq : Node K V} {lq li lz : Option K} (U : K → Prop)
    (hU : ∀ a b, a < b → U b → U a)
    (hq : Nd w (n + 1) q nq) (eq : w.info q = some (lq, n + 1)) (hqU : ∀ κ, AtLeast lq κ → U κ → Covers w (n + 1) q κ)
    (hlq : ∀ l, lq = some l → U l)
    (hii : i ∈ nq.eff) (ei : w.info i = some (li, n)) (hiU : ∀ l, li = some l → U l)
    (hmax : ∀ κ j, (κ, j) ∈ nq.seps → U κ → ∃ l, li = some l ∧ κ ≤ l)
    (hz : Live w n z) (ez : w.info z = some (lz, n)) (hzU : ∀ l, lz = some l → U l)
    (hzc : ∀ κ, AtLeast lz κ → U κ → Covers w n z κ) : z = i ∨ (Fresh w n i z ∧ ¬ HasPar w n z) := by
  by_cases hpz : HasPar w n z
  · exact Or.inl (last_child_aux hi hs U hq eq hqU hlq hii ei hiU hmax hpz ez hzU
      (fun κ j _ h1 h2 h3 => (hi.disj _ _ _ _ (hzc κ h1 h2) h3).symm))
  · rcases hs.par n z hz with h | h | ⟨x, hfr⟩
    · exact absurd h (not_root_below hi eq ez)
    · exact absurd h hpz
    · obtain ⟨nx, sib, lx, kz, dx, hsp, hh, ds, hb, hh2, hc, ex, ez', hab⟩ := hfr.range hi
      rw [ez] at ez'
      cases ez'
      have hpx : HasPar w n x := (hfr.left_par hi hs).resolve_left (not_root_below hi eq ex)
      have := last_child_aux hi hs U hq eq hqU hlq hii ei hiU hmax hpx ex
        (fun l hl => hU l kz (hab l hl) (hzU kz rfl)) (fun κ j hj h1 h2 h3 => by
          rcases lt_or_ge κ kz with h | h
          · exact (dx.same hi ex h1 (Or.inr (by rw [hh]; exact h)) h3).symm
          · have := hi.disj _ _ _ _ (hzc κ (fun l hl => by cases hl; exact h) h2) h3
            exact absurd ⟨q, nq, hq, by rw [this]; exact hj⟩ hpz)
      subst this
      exact Or.inr ⟨hfr, hpz⟩

/-! ### Ranges of neighbours -/

theorem Below.ext {node : Node K V} {n : Nat} {x : NodeId} (hi : Inv w) (h : Nd w n x node) {k : K} (hk : Below node.high k) : Below node.ext k := by
  obtain ⟨lk, e, ok⟩ := h.ok hi
  cases hsp : node.splits with
  | none => rw [Node.ext_of_splits hsp]; exact hk
  | some y =>
    have hb := ok.1
    cases node with
    | leaf c =>
      cases c with
      | split sk id sib c =>
        obtain ⟨_, _, _, _, hwf, _⟩ := hb
        rcases hk with hk | hk
        · exact absurd hk hwf.2.2.1
        · rcases hwf.2.2.2.2 with h' | h'
          · exact Or.inl h'
          · exact Or.inr (lt_trans hk h')
      | _ => cases hsp
    | inner c =>
      cases c with
      | split item sib c =>
        obtain ⟨_, _, _, m, _, hwf, _⟩ := hb
        rcases hk with hk | hk
        · exfalso
          have : w.lo item.2 = some (some item.1) := hwf.2.2.1
          have hk' : item.2 = INVALID := hk
          rw [hk', hi.lo_invalid] at this
          cases this
        · rcases hwf.2.2.2.2 with h' | h'
          · exact Or.inl h'
          · exact Or.inr (lt_trans hk h')
      | _ => cases hsp

/-- Walking right from a node at or below `k` reaches the node that covers `k`. -/
theorem cover_from (hi : Inv w) (n : Nat) (k : K) : ∀ (m : Nat) (id : NodeId) (l : Option K), w.info id = some (l, n) → ¬ w.dead id →
    AtLeast l k → rank w n (fun x => ∃ y, x = some y ∧ Above l y) ≤ m → ∃ id, Covers w n id k := by
  intro m
  induction m with
  | zero =>
    intro id l h1 h2 h3 hm
    obtain ⟨p, nd, e2, _, ok⟩ := hi.at h1
    by_cases hb : Below nd.high k
    · exact ⟨id, l, p, _, h1, h2, e2, h3, hb⟩
    · exfalso
      have hne : nd.high.2 ≠ INVALID := fun h => hb (Or.inl h)
      have hx := ok.high.resolve_left hne
      have hlt : Above l nd.high.1 := fun y hy => (ok.below y hy).resolve_left hne
      have := rank_lt (n := n) hi (f := fun _ => False) (g := fun x => ∃ y, x = some y ∧ Above l y) (fun _ h => h.elim) hx
        ⟨_, rfl, hlt⟩ (fun h => h)
      omega
  | succ m ih =>
    intro id l h1 h2 h3 hm
    obtain ⟨p, nd, e2, _, ok⟩ := hi.at h1
    by_cases hb : Below nd.high k
    · exact ⟨id, l, p, _, h1, h2, e2, h3, hb⟩
    · have hne : nd.high.2 ≠ INVALID := fun h => hb (Or.inl h)
      have hx := ok.high.resolve_left hne
      have hlt : Above l nd.high.1 := fun y hy => (ok.below y hy).resolve_left hne
      have hle : nd.high.1 ≤ k := le_of_not_gt fun h => hb (Or.inr h)
      have hlive := (hi.next n id p _ ⟨⟨l, h1⟩, h2⟩ e2).resolve_left hne
      apply ih _ _ hx hlive.2 (fun y hy => by cases hy; exact hle)
      have := rank_lt (n := n) hi (f := fun x => ∃ y, x = some y ∧ Above (some nd.high.1) y) (g := fun x => ∃ y, x = some y ∧ Above l y)
        (fun u hu => by
          obtain ⟨y, g1, g2⟩ := hu
          exact ⟨y, g1, fun z hz => lt_trans (hlt z hz) (g2 _ rfl)⟩) hx
        ⟨_, rfl, hlt⟩ (fun h => by
          obtain ⟨y, g1, g2⟩ := h
          cases g1
          exact lt_irrefl _ (g2 _ rfl))
      show rank w n (fun x => ∃ y, x = some y ∧ Above (some nd.high.1) y) ≤ m
      omega

/-- The child to descend to contains the key, up to an unfinished split. -/
theorem target_near (hi : Inv w) (hs : SInv w) {n : Nat} {q i : NodeId} {c : InnerChain K} {lq : Option K} {k : K}
    (hq : Nd w (n + 1) q (.inner c)) (eq : w.info q = some (lq, n + 1)) (hk : AtLeast lq k) (hb : Below c.high k) (ht : c.IsTarget k i) :
    ∃ li ni, w.info i = some (li, n) ∧ Nd w n i ni ∧ i ∈ (Node.inner c : Node K V).eff ∧ AtLeast li k ∧
      (Below ni.high k ∨ ∃ z, Fresh w n i z ∧ ¬ HasPar w n z ∧ Covers w n z k) := by
  have hii : i ∈ (Node.inner c : Node K V).eff := by
    rcases ht with ⟨x, h1, h2, _⟩ | ⟨h1, _⟩
    · exact List.mem_map.mpr ⟨x, List.mem_cons_of_mem _ h1, h2⟩
    · rw [h1]; exact Node.low_eff (n := .inner c) rfl
  obtain ⟨ni, di⟩ := (hs.kid n q _ i hq hii).nd hi
  obtain ⟨li, ei, oi⟩ := di.ok hi
  have hli : AtLeast li k := by
    rcases hq.child hi hii eq with ⟨_, e⟩ | ⟨κ, h1, h2, h3, h4⟩
    · rw [ei] at e; cases e; exact hk
    · rw [ei] at h2
      cases h2
      intro l hl
      cases hl
      rcases ht with ⟨x, g1, g2, g3, _⟩ | ⟨g1, _⟩
      · have := (hq.sep hi (k := x.1) (i := i) (by rw [← g2]; exact g1)).1
        rw [ei] at this
        cases this
        exact g3
      · exfalso
        have hl := hq.low hi eq
        have g1' : i = (Node.inner c : Node K V).low.2 := g1
        rw [← g1', ei] at hl
        cases hl
        exact lt_irrefl _ (h3 _ rfl)
  refine ⟨li, ni, ei, di, hii, hli, ?_⟩
  obtain ⟨z, hz⟩ := cover_from hi n k _ i li ei di.1.2 hli (Nat.le_refl _)
  obtain ⟨lz, nz, ez, dz, z1, z2⟩ := hz.nd
  have hmax : ∀ κ j, (κ, j) ∈ (Node.inner c : Node K V).seps → κ ≤ k → ∃ l, li = some l ∧ κ ≤ l := by
    intro κ j hj hκ
    rcases ht with ⟨x, g1, g2, g3, g4⟩ | ⟨_, g2⟩
    · have := (hq.sep hi (k := x.1) (i := i) (by rw [← g2]; exact g1)).1
      rw [ei] at this
      cases this
      exact ⟨_, rfl, g4 (κ, j) hj hκ⟩
    · exact absurd (g2 (κ, j) hj) (not_lt_of_ge hκ)
  rcases last_child hi hs (· ≤ k) (fun a b h1 h2 => le_trans (le_of_lt h1) h2) hq eq
    (fun κ h1 h2 => hq.covers eq h1 (show Below c.high κ from Below.trans hb h2)) hk hii ei hli hmax dz.1 ez z1
    (fun κ h1 h2 => dz.covers ez h1 (Below.trans z2 h2)) with h | ⟨h, h'⟩
  · subst h
    rw [(dz.unique di).2] at z2
    exact Or.inl z2
  · exact Or.inr ⟨z, h, h', hz⟩

/-- The left neighbour found through the parent ends at the node, up to an unfinished split. -/
theorem left_near (hi : Inv w) (hs : SInv w) {n : Nat} {q i x : NodeId} {c : InnerChain K} {lq : Option K} {k : K}
    (hq : Nd w (n + 1) q (.inner c)) (eq : w.info q = some (lq, n + 1)) (hx : (k, x) ∈ c.seps) (hl : c.IsLeftOf k i) :
    ∃ li ni, w.info i = some (li, n) ∧ Nd w n i ni ∧ i ∈ (Node.inner c : Node K V).eff ∧ Above li k ∧
      (ni.high.2 = x ∨ ∃ z, Fresh w n i z ∧ ¬ HasPar w n z) := by
  have hii : i ∈ (Node.inner c : Node K V).eff := by
    rcases hl with ⟨x, h1, h2, _⟩ | ⟨h1, _⟩
    · exact List.mem_map.mpr ⟨x, List.mem_cons_of_mem _ h1, h2⟩
    · rw [h1]; exact Node.low_eff (n := .inner c) rfl
  obtain ⟨ex, lq', eq', abq, blq⟩ := hq.sep hi (k := k) (i := x) hx
  rw [eq] at eq'
  cases eq'
  obtain ⟨ni, di⟩ := (hs.kid n q _ i hq hii).nd hi
  obtain ⟨li, ei, oi⟩ := di.ok hi
  have hli : Above li k := by
    rcases hq.child hi hii eq with ⟨_, e⟩ | ⟨κ, h1, h2, h3, h4⟩
    · rw [ei] at e; cases e; exact abq
    · rw [ei] at h2
      cases h2
      intro l hl'
      cases hl'
      rcases hl with ⟨x, g1, g2, g3, _⟩ | ⟨g1, _⟩
      · have := (hq.sep hi (k := x.1) (i := i) (by rw [← g2]; exact g1)).1
        rw [ei] at this
        cases this
        exact g3
      · exfalso
        have hl := hq.low hi eq
        have g1' : i = (Node.inner c : Node K V).low.2 := g1
        rw [← g1', ei] at hl
        cases hl
        exact lt_irrefl _ (h3 _ rfl)
  refine ⟨li, ni, ei, di, hii, hli, ?_⟩
  obtain ⟨z, p, nz, hz1, hz2, hz3⟩ := hi.pred n x k ex (hs.kid n q _ x hq (Node.seps_eff hx)).2
  have dz : Nd w n z nz := ⟨hz1, p, hz2⟩
  obtain ⟨lz, ez, oz⟩ := dz.ok hi
  have hxv : x ≠ INVALID := (hi.ids _ _ ex).1
  have hlz : Above lz k := fun l hl => by
    have := (oz.below l hl).resolve_left (by rw [hz3]; exact hxv)
    rw [hz3] at this
    exact this
  have hmax : ∀ κ j, (κ, j) ∈ (Node.inner c : Node K V).seps → κ < k → ∃ l, li = some l ∧ κ ≤ l := by
    intro κ j hj hκ
    rcases hl with ⟨x, g1, g2, g3, g4⟩ | ⟨_, g2⟩
    · have := (hq.sep hi (k := x.1) (i := i) (by rw [← g2]; exact g1)).1
      rw [ei] at this
      cases this
      exact ⟨_, rfl, g4 (κ, j) hj hκ⟩
    · exact absurd hκ (not_lt_of_ge (g2 (κ, j) hj))
  rcases last_child hi hs (· < k) (fun a b h1 h2 => lt_trans h1 h2) hq eq
    (fun κ h1 h2 => hq.covers eq h1 (show Below c.high κ from Below.trans blq (le_of_lt h2))) abq hii ei hli hmax hz1 ez hlz
    (fun κ h1 h2 => dz.covers ez h1 (Or.inr (by rw [hz3]; exact h2))) with h | ⟨h, _⟩
  · subst h
    left
    rw [(di.unique dz).2, hz3]
  · exact Or.inr ⟨z, h, by assumption⟩

/-- The right neighbour of a child is a child too if the parent reaches to it. -/
theorem right_child (hi : Inv w) (hs : SInv w) {n : Nat} {q x y : NodeId} {nq nx : Node K V} {k : K} (hq : Nd w (n + 1) q nq)
    (hx : Nd w n x nx) (hh : nx.high = (k, y)) (hy : y ≠ INVALID) (hpost : nx.splits = some y → HasPar w n y) (hc : Covers w (n + 1) q k) :
    (k, y) ∈ nq.seps ∨ (y = nq.low.2 ∧ w.info q = some (some k, n + 1)) := by
  obtain ⟨lx, ex, ox⟩ := hx.ok hi
  have ey : w.info y = some (some k, n) := by
    have := ox.high.resolve_left (by rw [hh]; exact hy)
    rwa [hh] at this
  obtain ⟨lq, eq, _⟩ := hq.ok hi
  obtain ⟨_, p, ha⟩ := id hx
  have ly : Live w n y := by
    have := (hi.next n x p nx hx.1 ha).resolve_left (by rw [hh]; exact hy)
    rwa [hh] at this
  have hp : HasPar w n y := by
    rcases hs.par n y ly with h | h | ⟨x', hf⟩
    · exact absurd h (not_root_below hi eq ey)
    · exact h
    · obtain ⟨node, sib, g1, g2, g3, g4, g5, g6⟩ := hf
      have : x = x' := left_unique hi hx g1 (by rw [hh, Node.splits_high g2]) (by rw [hh]; exact hy)
      subst this
      rw [(g1.unique hx).2] at g2
      exact hpost g2
  obtain ⟨q', nq', dq', hy'⟩ := hp
  have : q = q' := hi.disj _ _ _ _ hc (dq'.child_covers hi hy' ey)
  subst this
  rw [← (hq.unique dq').2] at hy'
  rcases hq.child hi hy' eq with ⟨h1, h2⟩ | ⟨κ, h1, h2, _⟩
  · rw [ey] at h2
    cases h2
    exact Or.inr ⟨h1, eq⟩
  · rw [ey] at h2
    cases h2
    exact Or.inl h1

/-- The upper end of a node inside the parent's range is the next separator. -/
theorem isNext_of (hi : Inv w) (hs : SInv w) {n : Nat} {q y : NodeId} {c : InnerChain K} {ny : Node K V} {sk : K} {lq : Option K}
    (hq : Nd w (n + 1) q (.inner c)) (eq : w.info q = some (lq, n + 1)) (habove : AtLeast lq sk) (hbelow : Below c.high sk)
    (hy : Nd w n y ny) (ey : w.info y = some (some sk, n)) (hsp : ny.splits = none) : c.IsNext sk ny.high := by
  have hsep : ∀ κ j, (κ, j) ∈ c.seps → sk < κ → ¬ Below ny.high κ := by
    intro κ j hj hlt hb
    have ej := (hq.sep hi (k := κ) (i := j) hj).1
    obtain ⟨nj, dj⟩ := (hs.kid n q _ j hq (Node.seps_eff hj)).nd hi
    have := hy.same hi ey (fun l hl => by cases hl; exact le_of_lt hlt) hb (dj.cov_low hi ej)
    subst this
    rw [ey] at ej
    cases ej
    exact lt_irrefl _ hlt
  -- the node right of the parent
  have hright : c.high.2 ≠ INVALID → ∃ q2 n2, Nd w (n + 1) q2 n2 ∧ w.info q2 = some (some c.high.1, n + 1) ∧
      w.info n2.low.2 = some (some c.high.1, n) ∧ Covers w n n2.low.2 c.high.1 := by
    intro hne
    obtain ⟨_, p, ha⟩ := id hq
    obtain ⟨_, e, oq⟩ := hq.ok hi
    have e2 : w.info c.high.2 = some (some c.high.1, n + 1) := oq.high.resolve_left hne
    obtain ⟨n2, d2⟩ := ((hi.next _ _ _ _ hq.1 ha).resolve_left hne).nd hi
    have d2' : Nd w (n + 1) c.high.2 n2 := d2
    have l2 := d2'.low hi e2
    obtain ⟨_, _, _, _, _, _, _, _, hleaf, _⟩ := d2'.inner hi
    obtain ⟨nl, dl⟩ := (hs.kid n _ _ _ d2' (Node.low_eff hleaf)).nd hi
    exact ⟨_, n2, d2', e2, l2, dl.cov_low hi l2⟩
  have hH : ∀ (hne : c.high.2 ≠ INVALID), ¬ Below ny.high c.high.1 := by
    intro hne hb
    obtain ⟨q2, n2, _, _, l2, hc⟩ := hright hne
    have hlt : sk < c.high.1 := hbelow.resolve_left hne
    have := hy.same hi ey (fun l hl => by cases hl; exact le_of_lt hlt) hb hc
    rw [← this, ey] at l2
    cases l2
    exact lt_irrefl _ hlt
  by_cases hinv : ny.high.2 = INVALID
  · refine Or.inr ⟨⟨fun _ => ?_, fun _ => hinv⟩, fun h => absurd hinv h, fun x hx => le_of_not_gt fun hlt => hsep x.1 x.2 hx hlt (Or.inl hinv)⟩
    by_contra hne
    exact hH hne (Or.inl hinv)
  · obtain ⟨_, e, oy⟩ := hy.ok hi
    rw [ey] at e
    cases e
    have hlt : sk < ny.high.1 := (oy.below sk rfl).resolve_left hinv
    by_cases hb : Below c.high ny.high.1
    · rcases right_child hi hs hq hy (k := ny.high.1) (y := ny.high.2) rfl hinv (fun h => by rw [hsp] at h; cases h)
        (hq.covers eq (fun l hl => le_of_lt (lt_of_le_of_lt (habove l hl) hlt)) hb) with h | ⟨_, h⟩
      · exact Or.inl ⟨hinv, (ny.high.1, ny.high.2), h, rfl, hlt, fun x hx hlt' => le_of_not_gt fun hg => hsep x.1 x.2 hx hlt' (Or.inr hg)⟩
      · rw [eq] at h
        cases h
        exact absurd hlt (not_lt_of_ge (habove _ rfl))
    · have hne : c.high.2 ≠ INVALID := fun h => hb (Or.inl h)
      have h1 : c.high.1 ≤ ny.high.1 := le_of_not_gt fun h => hb (Or.inr h)
      have h2 : ny.high.1 ≤ c.high.1 := le_of_not_gt fun h => hH hne (Or.inr h)
      refine Or.inr ⟨⟨fun h => absurd h hinv, fun h => absurd h hne⟩, fun _ => le_antisymm h2 h1, fun x hx => le_of_not_gt fun hlt' => ?_⟩
      have hxb := (hq.sep hi (k := x.1) (i := x.2) hx).2
      obtain ⟨_, _, _, hxb⟩ := hxb
      have hxb' : x.1 < c.high.1 := hxb.resolve_left hne
      exact hsep x.1 x.2 hx hlt' (Or.inr (lt_of_lt_of_le hxb' h1))

/-- The left neighbour among the children is the previous separator. -/
theorem isPrev_of (hi : Inv w) (hs : SInv w) {n : Nat} {q i : NodeId} {c : InnerChain K} {ni : Node K V} {k : K} {x : NodeId}
    {li : Option K} (hq : Nd w (n + 1) q (.inner c)) (hii : i ∈ (Node.inner c : Node K V).eff) (hi' : Nd w n i ni)
    (ei : w.info i = some (li, n)) (hlow : ∀ l, li = some l → ni.low.1 = l) (hh : ni.high = (k, x)) (hxv : x ≠ INVALID) :
    c.IsPrev k (ni.low.1, i) := by
  obtain ⟨lq, eq, _⟩ := hq.ok hi
  have hlt : Above li k := fun l hl => by
    obtain ⟨_, e, o⟩ := hi'.ok hi
    rw [ei] at e
    cases e
    have := (o.below l hl).resolve_left (by rw [hh]; exact hxv)
    rw [hh] at this
    exact this
  -- separators right of `i`
  have hsep : ∀ κ j, (κ, j) ∈ c.seps → Above li κ → k ≤ κ := by
    intro κ j hj hab
    refine le_of_not_gt fun hκ => ?_
    have ej := (hq.sep hi (k := κ) (i := j) hj).1
    obtain ⟨nj, dj⟩ := (hs.kid n q _ j hq (Node.seps_eff hj)).nd hi
    have := hi'.same hi ei (fun l hl => le_of_lt (hab l hl)) (Or.inr (by rw [hh]; exact hκ)) (dj.cov_low hi ej)
    subst this
    rw [ei] at ej
    cases ej
    exact lt_irrefl _ (hab κ rfl)
  rcases hq.child hi hii eq with ⟨h1, h2⟩ | ⟨κ, h1, h2, h3, h4⟩
  · rw [ei] at h2
    cases h2
    refine Or.inr ⟨h1, fun y hy => hsep y.1 y.2 hy ?_⟩
    obtain ⟨_, lq', e', ab, _⟩ := hq.sep hi (k := y.1) (i := y.2) hy
    rw [eq] at e'
    cases e'
    exact ab
  · rw [ei] at h2
    cases h2
    have hl := hlow κ rfl
    refine Or.inl ⟨by rw [hl]; exact h1, by show ni.low.1 < k; rw [hl]; exact hlt κ rfl, fun y hy hyk => ?_⟩
    show y.1 ≤ ni.low.1
    rw [hl]
    exact le_of_not_gt fun hg => absurd hyk (not_lt_of_ge (hsep y.1 y.2 hy (fun l hl => by cases hl; exact hg)))

end Tree
end BwTree
