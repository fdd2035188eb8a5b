import Verif.Proofs.SeqTrav

/-!
  GetValue when one call runs alone. Its traversal never sets the parent snapshot, so it stops with a failure if it has to complete a split
  of a right neighbour that is not yet in the parent. That happens exactly when it split that neighbour itself, in its previous attempt.
-/

namespace BwTree
namespace Tree

open Prog

set_option linter.unusedSectionVars false

variable {K V : Type} [LinearOrder K] [DecidableEq V] [Inhabited K] {w w' : World K V} {t : Tid} {α : Type} {k : K} {n : Nat}

/-- Like `Bad`, but allowing the use of the unset parent snapshot. -/
def BadG (f : Fail) (w : World K V) : Prop := Bad f w ∧ f ≠ .uninit

theorem not_badG {f : Fail} {w : World K V} (h : f ∉ [Fail.noParent, .leftSibling, .mergeRange, .mergeSep, .uninit, .search, .tableFull]) : ¬ BadG f w :=
  fun hb => not_bad h hb.1

/-- Total correctness, excluding the failures of `BadG`. -/
abbrev tg {α : Type} (t : Tid) (p : Prog K V α) (Q : α → World K V → Prop) (w : World K V) : Prop := twb BadG t p Q w

theorem tw.tg {p : Prog K V α} {Q : α → World K V → Prop} (h : tw t p Q w) : tg t p Q w :=
  twb_weaken (fun _ _ hf => hf.1) h

/-- The size of the node is left alone when it is visited. -/
def Quiet : Node K V → Prop
  | .leaf c => (LEAF_UPPER : Int) ≤ c.itemCount → c.splitSibling = some none
  | .inner c => ¬ (INNER_UPPER : Int) ≤ c.itemCount

/-- The nodes of `w` are seen unchanged in `wc`, except that `y` has been split. -/
structure View (w wc : World K V) (y : Option NodeId) : Prop where
  inv : Inv wc
  mono : Mono w wc
  root : wc.mem.root = w.mem.root
  dead : wc.dead = w.dead
  see : ∀ i x p nd, w.info i = some x → y ≠ some i → (wc.At i p nd ↔ w.At i p nd)
  hit : ∀ i, y = some i → ∃ p nd, wc.At i p nd ∧ nd.splits ≠ none
  calm : y = none → Calm w wc

theorem View.refl (hi : Inv w) : View w w none :=
  ⟨hi, Mono.refl w, rfl, rfl, fun _ _ _ _ _ _ => Iff.rfl, (fun _ e => by cases e), fun _ => Calm.refl w⟩

theorem View.of_calm {wc : World K V} (hi : Inv w) (hc : Calm w wc) (hi' : Inv wc) : View w wc none :=
  ⟨hi', hc.mono, hc.root, hc.dead, fun _ _ _ _ hx _ => hc.at_ hi hx, (fun _ e => by cases e), fun _ => hc⟩

theorem View.trans {a b : World K V} {y : Option NodeId} (h : View w a y) (hc : Calm a b) (hi : Inv b)
    (hy : ∀ i, y = some i → ∃ x, w.info i = some x) : View w b y where
  inv := hi
  mono := h.mono.trans hc.mono
  root := hc.root.trans h.root
  dead := hc.dead.trans h.dead
  see i x p nd hx hne := (hc.at_ h.inv (h.mono.info _ _ hx)).trans (h.see i x p nd hx hne)
  hit i e := by
    obtain ⟨p, nd, h1, h2⟩ := h.hit i e
    obtain ⟨x, hx⟩ := hy i e
    exact ⟨p, nd, (hc.at_ h.inv (h.mono.info _ _ hx)).mpr h1, h2⟩
  calm e := (h.calm e).trans hc

/-- Where a second attempt ends: the node `y` is where the search for `k` goes on level `n`, it has no parent, and nothing above it changes. -/
structure Doom (w : World K V) (k : K) (n : Nat) (y : NodeId) : Prop where
  cov : Covers w n y k
  par : ¬ Placed1 w n y
  up : ∀ m z nd, n < m → Covers w m z k → Nd w m z nd → Placed1 w m z ∨ Quiet nd

/-- A context of the read-only descent. -/
structure RPos (k : K) (w : World K V) (n : Nat) (ctx : Ctx K V) : Prop where
  here : Here w n ctx.cur
  par : ctx.par = .uninit
  low : ∃ lk, w.info ctx.cur.id = some (lk, n) ∧ AtLeast lk k
  placed : Placed1 w n ctx.cur.id
  near : Below ctx.cur.node.high k ∨ ∃ z, Fresh w n ctx.cur.id z ∧ ¬ HasPar w n z ∧ Covers w n z k
  up : ∀ m z nd, n < m → Covers w m z k → Nd w m z nd → Placed1 w m z ∨ Quiet nd

/-- A context of the read-only descent whose node covers `k`. -/
structure RCov (k : K) (w : World K V) (n : Nat) (ctx : Ctx K V) : Prop where
  here : Here w n ctx.cur
  par : ctx.par = .uninit
  low : ∃ lk, w.info ctx.cur.id = some (lk, n) ∧ AtLeast lk k
  below : Below ctx.cur.node.high k
  up : ∀ m z nd, n ≤ m → Covers w m z k → Nd w m z nd → Placed1 w m z ∨ Quiet nd

theorem RPos.cov {ctx : Ctx K V} (hi : Inv w) (h : RPos k w n ctx) (hb : Below ctx.cur.node.high k) : RCov k w n ctx := by
  refine ⟨h.here, h.par, h.low, hb, fun m z nd hm hz hd => ?_⟩
  rcases Nat.lt_or_ge n m with h1 | h1
  · exact h.up m z nd h1 hz hd
  · have : m = n := by omega
    subst this
    obtain ⟨lk, e, hl⟩ := h.low
    rw [← h.here.nd.same hi e hl hb hz]
    exact Or.inl h.placed

/-- A fresh node is not the root. -/
theorem Fresh.not_root (hi : Inv w) {x y : NodeId} (h : Fresh w n x y) : y ≠ w.mem.root := by
  rintro rfl
  obtain ⟨_, _, _, ky, _, _, _, _, _, _, _, _, e, _⟩ := h.range hi
  obtain ⟨m, e', _⟩ := hi.root
  rw [e] at e'
  cases e'

/-- What the search finds so far: `y = none` in the first attempt, the split node in the second. -/
def Known (w : World K V) (k : K) (y : Option NodeId) (n : Nat) : Prop := ∀ i, y = some i → ∃ m, m ≤ n ∧ Doom w k m i

/-- The end of an attempt: a context, or the node is split. -/
def RQ (w : World K V) (k : K) (y : Option NodeId) (P : Ctx K V → Prop) (r : Option (Ctx K V)) (wc : World K V) : Prop :=
  (∃ c, r = some c ∧ View w wc y ∧ P c) ∨ (r = none ∧ y = none ∧ ∃ i m, View w wc (some i) ∧ Doom w k m i)

theorem Doom.info {y : NodeId} (h : Doom w k n y) : ∃ x, w.info y = some x := by
  obtain ⟨lk, _, _, e, _⟩ := h.cov
  exact ⟨_, e⟩

theorem Known.info {y : Option NodeId} (h : Known w k y n) : ∀ i, y = some i → ∃ x, w.info i = some x :=
  fun i e => by obtain ⟨_, _, d⟩ := h i e; exact d.info

theorem tg_getNode {wc : World K V} {y : Option NodeId} (hv : View w wc y) (hy : ∀ i, y = some i → ∃ x, w.info i = some x)
    {id : NodeId} {x : Option K × Nat} (hx : w.info id = some x) (hd : ¬ w.dead id) :
    tg t (getNode id) (fun g w1 => View w w1 y ∧ (y ≠ some id → w.At id g.1 g.2) ∧ (y = some id → g.2.splits ≠ none)) wc := by
  refine (tw_getNode hv.inv (hv.mono.info _ _ hx) (by rw [hv.dead]; exact hd) fun w1 p nd h1 h2 h3 => ⟨hv.trans h2 h1 hy, fun hne => (hv.see id x p nd hx hne).mp h3, fun e => ?_⟩).tg
  obtain ⟨p', nd', h4, h5⟩ := hv.hit id e
  obtain ⟨-, rfl⟩ := At.unique h3 h4
  exact h5

/-- Installing a split on a node. -/
theorem tg_installSplit {wc : World K V} (hi : Inv w) (hv : View w wc none) {ctx : Ctx K V} (hh : Here w n ctx.cur) {y : NodeId}
    (hy : wc.info y = none) (hyl : y < wc.mem.nextId) {sib delta fake : Node K V} {sp : NodeId} (hsp : delta.splits = some sp) :
    tg t (installSplit ctx y sib delta fake) (fun r w' => r = none ∧ View w w' (some ctx.cur.id)) wc := by
  refine tw.tg ?_
  unfold installSplit
  refine tw_seq (tw_allocate hv.inv (Q := fun p w1 => Inv w1 ∧ Calm wc w1) fun w1 p h1 h2 h3 => ⟨h1, h2⟩) ?_
  rintro sp w1 ⟨hi1, hc1⟩
  refine tw_seq (tw_allocate hi1 (Q := fun p w2 => Inv w2 ∧ Calm w1 w2 ∧ w2.mem.heap p = some delta) fun w2 p h1 h2 h3 => ⟨h1, h2, h3⟩) ?_
  rintro dp w2 ⟨hi2, hc2, hdp2⟩
  refine tw_seq (tw_installNew hi2 (id := y) (by rw [hc2.info, hc1.info]; exact hy)
    (Nat.lt_of_lt_of_le hyl (Nat.le_trans hc1.nextId hc2.nextId))
    (Q := fun _ w3 => Inv w3 ∧ Calm w2 w3) fun w3 h1 h2 h3 h4 => ⟨h1, h2⟩) ?_
  rintro _ w3 ⟨hi3, hc3⟩
  have hc := (hv.calm rfl).trans (hc1.trans (hc2.trans hc3))
  have hh3 := hh.calm hc hi
  obtain ⟨lk, e3⟩ := hh3.1.1
  refine tw_seq (tw_replace hi3 e3 hh3.1.2 hh3.2.1 (Q := fun ok w4 => ok = true ∧ Inv w4 ∧ Put w3 w4 ctx.cur.id dp) fun w4 h1 h2 => ⟨rfl, h1, h2⟩) ?_
  rintro ok w4 ⟨rfl, hi4, hput⟩
  rw [if_pos rfl]
  refine ⟨rfl, hi4, hc.mono.trans hput.mono, hput.root.trans hc.root,
    (hput.dead (hc3.heap _ _ hdp2) (by cases delta with
      | leaf c => cases c <;> first | rfl | cases hsp
      | inner c => cases c <;> first | rfl | cases hsp)).trans hc.dead, ?_, ?_, (fun e => by cases e)⟩
  · intro i x p nd hx hne
    rw [hput.ne (fun e => hne (by rw [e]))]
    exact hc.at_ hi hx
  · intro i e
    cases e
    exact ⟨dp, delta, (hput.self (hc3.heap _ _ hdp2)).mpr ⟨rfl, rfl⟩, by rw [hsp]; exact Option.some_ne_none _⟩

/-- `AdjustNodeSize` of a right neighbour: nothing to do, or it is split. -/
theorem tg_adjustSize {wc : World K V} (hi : Inv w) (hs : SInv w) (hn : NoRm w) {ctx : Ctx K V} {y : Option NodeId} (hv : View w wc y)
    (hh : Here w n ctx.cur) (hb : ctx.cur.node.isBase = true) (hc : ctx.cur.node.lower < ctx.cur.node.count)
    (hq : y ≠ none → Quiet ctx.cur.node) :
    tg t (adjustSize ctx) (fun r w' => (r = some ctx ∧ View w w' y ∧ Quiet ctx.cur.node) ∨ (r = none ∧ y = none ∧ View w w' (some ctx.cur.id))) wc := by
  obtain ⟨lk, e, ho⟩ := hh.nd.ok hi
  unfold adjustSize
  cases hnd : ctx.cur.node with
  | leaf c =>
    rw [hnd] at ho hb hc hq
    cases c with
    | base low high items =>
      have hwf : (LeafChain.base low high items).WF := ho.1.2.2.2.2.1
      show tg t (if (LEAF_UPPER : Int) ≤ (LeafChain.base low high items).itemCount then _ else _) _ wc
      by_cases hup : (LEAF_UPPER : Int) ≤ (LeafChain.base low high items).itemCount
      · rw [if_pos hup]
        rcases leaf_splitSibling hwf hup with h | ⟨p, x, h1, h2, h3⟩
        · rw [h]; exact Or.inl ⟨rfl, hv, fun _ => h⟩
        · rw [h1]
          cases y with
          | some y =>
            have := hq (by simp) hup
            rw [h1] at this
            cases this
          | none =>
          have hwit : ∀ {α : Type} (f : K × V → Prog K V α) (g : Prog K V α),
              (match (LeafChain.base (x.1, NOT_INVALID) high (items.drop p) : LeafChain K V) with
                | .base _ _ (x :: _) => f x
                | _ => g) = f x := by
            intro α f g
            rw [h2]
          show tg t (match (LeafChain.base (x.1, NOT_INVALID) high (items.drop p) : LeafChain K V) with
                | .base _ _ (x :: _) => _
                | _ => _) _ wc
          rw [hwit]
          refine tw_seq (tw_nextNodeId hv.inv (Q := fun id w1 => Inv w1 ∧ Calm wc w1 ∧ w1.info id = none ∧ id < w1.mem.nextId)
            fun w1 id h1 h2 h3 h4 h5 => ⟨h1, h2, by rw [h2.info]; exact h3, by rw [h5]; exact Nat.lt_succ_self id⟩).tg ?_
          rintro id w1 ⟨hi1, hc1, hid, hidl⟩
          refine tw_mono ?_ (tg_installSplit hi (hv.trans hc1 hi1 (fun _ e => by cases e)) hh hid hidl (sp := id) rfl)
          rintro r w2 ⟨rfl, h4⟩
          exact Or.inr ⟨rfl, rfl, h4⟩
      · rw [if_neg hup]
        have hlo : ¬ (LeafChain.base low high items).itemCount ≤ (LEAF_LOWER : Int) := not_le_of_gt hc
        rw [if_neg hlo]
        exact Or.inl ⟨rfl, hv, fun h => absurd h hup⟩
    | _ => cases hb
  | inner c =>
    rw [hnd] at ho hb hc hq
    cases c with
    | base low high d items =>
      show tg t (if (INNER_UPPER : Int) ≤ (InnerChain.base low high d items).itemCount then _ else _) _ wc
      by_cases hup : (INNER_UPPER : Int) ≤ (InnerChain.base low high d items).itemCount
      · rw [if_pos hup]
        cases y with
        | some y => exact absurd hup (hq (by simp))
        | none =>
        have hlen : INNER_UPPER ≤ items.length := by
          simp only [InnerChain.itemCount] at hup; omega
        have hlen2 : 2 ≤ items.length := by simp only [INNER_UPPER] at hlen; omega
        obtain ⟨m, hm, hwf, _⟩ := ho.1.2.2.2
        obtain ⟨x, _, _, hsp, _⟩ := InnerChain.splitSibling_spec hwf hlen2
        rw [hsp]
        have hsn := innerSplitN (V := V) hwf hlen hsp 1
        have hkid : Live w m x.2 := by
          have hd := hh.nd
          rw [hnd, hm] at hd
          exact hs.kid m _ _ _ hd (hsn.effS _ (Node.low_eff rfl))
        obtain ⟨lx, ex⟩ := id hkid.1
        show tg t (getNode x.2 >>= _) _ wc
        refine tw_seq (tg_getNode hv (fun _ e => by cases e) ex hkid.2) ?_
        rintro ⟨gp, gn⟩ w1 ⟨hv1, hat, _⟩
        have hrm : gn.isRemove = false := by
          cases hr : gn.isRemove with
          | false => rfl
          | true => exact absurd ⟨gn, ⟨hkid, gp, hat (by simp)⟩, hr⟩ (hn m x.2)
        show tg t (if gn.isRemove = true then _ else _) _ w1
        rw [hrm, if_neg (by simp)]
        refine tw_seq (tw_nextNodeId hv1.inv (Q := fun id w2 => Inv w2 ∧ Calm w1 w2 ∧ w2.info id = none ∧ id < w2.mem.nextId)
          fun w1 id h1 h2 h3 h4 h5 => ⟨h1, h2, by rw [h2.info]; exact h3, by rw [h5]; exact Nat.lt_succ_self id⟩).tg ?_
        rintro id w2 ⟨hi2, hc2, hid, hidl⟩
        refine tw_mono ?_ (tg_installSplit hi (hv1.trans hc2 hi2 (fun _ e => by cases e)) hh hid hidl (sp := id)
          (innerSplitN (V := V) hwf hlen hsp id).splits)
        rintro r w3 ⟨rfl, h4⟩
        exact Or.inr ⟨rfl, rfl, h4⟩
      · rw [if_neg hup]
        have hlo : ¬ (InnerChain.base low high d items).itemCount ≤ (INNER_LOWER : Int) := not_le_of_gt hc
        rw [if_neg hlo]
        exact Or.inl ⟨rfl, hv, hup⟩
    | _ => cases hb

/-- Moving to the right neighbour without a parent snapshot. -/
theorem tg_jumpRight {wc : World K V} {fuel : Nat} (hf : 0 < fuel) (hi : Inv w) (hs : SInv w) (hn : NoRm w) {ctx : Ctx K V} {y : Option NodeId}
    (hv : View w wc y) (hy : Known w k y n) (h : RPos k w n ctx) (hb : ¬ Below ctx.cur.node.high k) :
    tg t (jump (finishSMO fuel) ctx.cur.node.high.2 ctx) (RQ w k y fun c => RCov k w n c ∧ Known w k y (n - 1) ∧ (y ≠ none → 0 < n)) wc := by
  obtain ⟨fuel, rfl⟩ : ∃ m', fuel = m' + 1 := ⟨fuel - 1, by omega⟩
  obtain ⟨z, hz, hnp, hcov⟩ := h.near.resolve_left hb
  obtain ⟨nx, nz, g1, g2, dz, gb, _, gc⟩ := id hz
  obtain ⟨lz, nz', ez, dz', z1, z2⟩ := hcov.nd
  have := (dz.unique dz').2
  subst this
  have hnx := (g1.unique h.here.nd).2
  subst hnx
  rw [Node.splits_high g2]
  have hpl : ¬ Placed1 w n z := by
    rintro (e | e)
    · exact hz.not_root hi e
    · exact hnp e
  unfold jump
  refine tw_seq (tg_getNode hv hy.info ez dz.1.2) ?_
  rintro ⟨p, nd⟩ w1 ⟨hv1, hat, hhit⟩
  show tg t (if nd.isLeaf ≠ ctx.cur.node.isLeaf then .fail .kind else if ctx.cur.id = z then .fail .sameId else
    settle (finishSMO (fuel + 1)) { ctx with cur := ⟨z, p, nd⟩ }) _ w1
  split
  · exact not_badG (by decide)
  split
  · exact not_badG (by decide)
  by_cases hyz : y = some z
  · have hsp : nd.splits ≠ none := hhit hyz
    have hfin : ∀ item next, tg t (finishSplit { ctx with cur := ⟨z, p, nd⟩ } item next >>= fun r =>
        match r with | none => .ret none | some ctx => tryConsolidate ctx >>= adjustSize) (RQ w k y fun c => RCov k w n c ∧ Known w k y (n - 1) ∧ (y ≠ none → 0 < n)) w1 := by
      intro item next
      unfold finishSplit onRoot
      rw [h.par]
      exact fun hb => hb.2 rfl
    unfold settle finishSMO
    cases nd with
    | leaf c => cases c <;> first | exact absurd rfl hsp | exact hfin _ _
    | inner c => cases c <;> first | exact absurd rfl hsp | exact hfin _ _
  · have hat := hat hyz
    have : nz = nd := (dz.unique ⟨dz.1, p, hat⟩).2
    subst this
    have hset : settle (finishSMO (fuel + 1)) { ctx with cur := ⟨z, p, nz⟩ } = (adjustSize { ctx with cur := ⟨z, p, nz⟩ } : Prog K V _) := by
      unfold settle finishSMO tryConsolidate
      cases nz with
      | leaf c => cases c <;> first | rfl | cases gb
      | inner c => cases c <;> first | rfl | cases gb
    rw [hset]
    have hk : y ≠ none → ∃ i m, y = some i ∧ m < n ∧ Doom w k m i := by
      intro e
      obtain ⟨i, hi'⟩ := Option.ne_none_iff_exists'.mp e
      obtain ⟨m, hm, d⟩ := hy i hi'
      refine ⟨i, m, hi', ?_, d⟩
      rcases Nat.lt_or_ge m n with h1 | h1
      · exact h1
      · have : m = n := by omega
        subst this
        rw [dz.same hi ez z1 z2 d.cov] at hyz
        exact absurd hi' hyz
    refine tw_mono ?_ (tg_adjustSize hi hs hn (n := n) hv1 (ctx := { ctx with cur := ⟨z, p, nz⟩ }) ⟨dz.1, hat⟩ gb gc ?_)
    · rintro r w2 (⟨rfl, h1, h2⟩ | ⟨rfl, h1, h2⟩)
      · refine Or.inl ⟨_, rfl, h1, ⟨⟨dz.1, hat⟩, h.par, ⟨lz, ez, z1⟩, z2, ?_⟩, ?_, ?_⟩
        · intro m x nd hm hx hd
          rcases Nat.lt_or_ge n m with h3 | h3
          · exact h.up m x nd h3 hx hd
          · have : m = n := by omega
            subst this
            have := dz.same hi ez z1 z2 hx
            subst this
            rw [← (dz.unique hd).2]
            exact Or.inr h2
        · intro i e
          obtain ⟨i', m, e', hm, d⟩ := hk (by rw [e]; simp)
          rw [e] at e'
          cases e'
          exact ⟨m, by omega, d⟩
        · intro e
          obtain ⟨i', m, e', hm, d⟩ := hk e
          omega
      · exact Or.inr ⟨rfl, h1, z, n, h2, hcov, hpl, h.up⟩
    · intro e
      obtain ⟨i', m, e', hm, d⟩ := hk e
      exact (d.up n z nz hm hcov dz).resolve_left hpl

/-- `NavigateSiblingChain` without a parent snapshot. -/
theorem tg_navSibling {wc : World K V} {fuel : Nat} (hf : 0 < fuel) (hi : Inv w) (hs : SInv w) (hn : NoRm w) {ctx : Ctx K V} {y : Option NodeId}
    (hv : View w wc y) (hy : Known w k y n) (h : RPos k w n ctx) {m : Nat} (hm : 2 ≤ m) :
    tg t (navSibling fuel k m ctx) (RQ w k y fun c => RCov k w n c ∧ Known w k y (n - 1) ∧ (y ≠ none → 0 < n)) wc := by
  have hstop : ∀ (m : Nat) {wc : World K V} {ctx : Ctx K V}, View w wc y → RCov k w n ctx → Known w k y (n - 1) → (y ≠ none → 0 < n) → 1 ≤ m →
      tg t (navSibling fuel k m ctx) (RQ w k y fun c => RCov k w n c ∧ Known w k y (n - 1) ∧ (y ≠ none → 0 < n)) wc := by
    intro m wc ctx hv h hk hp hm
    obtain ⟨m', rfl⟩ : ∃ m', m = m' + 1 := ⟨m - 1, by omega⟩
    unfold navSibling
    rw [if_neg (fun hc => h.below.elim (fun e => hc.1 e) (fun e => absurd hc.2 (not_le_of_gt e)))]
    exact Or.inl ⟨ctx, rfl, hv, h, hk, hp⟩
  by_cases hb : Below ctx.cur.node.high k
  · have hk : ∀ i, y = some i → ∃ m, m < n ∧ Doom w k m i := by
      intro i e
      obtain ⟨m, hm, d⟩ := hy i e
      refine ⟨m, ?_, d⟩
      rcases Nat.lt_or_ge m n with h1 | h1
      · exact h1
      · have : m = n := by omega
        subst this
        obtain ⟨lk, e, hl⟩ := h.low
        have := h.here.nd.same hi e hl hb d.cov
        rw [← this] at d
        exact absurd h.placed d.par
    refine hstop m hv (h.cov hi hb) ?_ ?_ (by omega)
    · intro i e
      obtain ⟨m, hm, d⟩ := hk i e
      exact ⟨m, by omega, d⟩
    · intro e
      obtain ⟨i, e⟩ := Option.ne_none_iff_exists'.mp e
      obtain ⟨m, hm, d⟩ := hk i e
      omega
  obtain ⟨m', rfl⟩ : ∃ m', m = m' + 1 := ⟨m - 1, by omega⟩
  unfold navSibling
  rw [if_pos ⟨fun e => hb (Or.inl e), le_of_not_gt fun e => hb (Or.inr e)⟩]
  refine tw_seq (tg_jumpRight hf hi hs hn hv hy h hb) ?_
  rintro r w1 (⟨c', rfl, h1, h2, h3, h4⟩ | ⟨rfl, h1, h2⟩)
  · exact hstop m' h1 h2 h3 h4 (by omega)
  · exact Or.inr ⟨rfl, h1, h2⟩

/-- `FinishPartialSMOReadOptimized` without a removed node. -/
theorem finishRO_eq {s : Snap K V} (h1 : s.node.isRemove = false) (h2 : s.node.isAbort = false) {fuel : Nat} (hf : 0 < fuel) :
    finishRO s fuel = .ret (some s) := by
  obtain ⟨fuel, rfl⟩ : ∃ m', fuel = m' + 1 := ⟨fuel - 1, by omega⟩
  unfold finishRO
  cases hs : s.node with
  | leaf c => rw [hs] at h1 h2; cases c <;> first | rfl | cases h1
  | inner c => rw [hs] at h1 h2; cases c <;> first | rfl | (cases h1; done) | (cases h2; done)

/-- `LoadNodeIDReadOptimized`. -/
theorem tg_loadRO {wc : World K V} {fuel : Nat} (hf : 0 < fuel) (hs : SInv w) (hn : NoRm w) {y : Option NodeId} (hv : View w wc y)
    (hy : ∀ i, y = some i → ∃ x, w.info i = some x) {i : NodeId} {ni : Node K V} (hd : Nd w n i ni) (hne : y ≠ some i) (level : Nat) :
    tg t (loadRO fuel i level) (fun r w1 => View w w1 y ∧ ∃ p, w.At i p ni ∧ r = some { cur := ⟨i, p, ni⟩, par := .uninit, level := level }) wc := by
  obtain ⟨lx, ex⟩ := id hd.1.1
  unfold loadRO
  refine tw_seq (tg_getNode hv hy ex hd.1.2) ?_
  rintro ⟨p, nd⟩ w1 ⟨hv1, hat, _⟩
  have hat := hat hne
  have : ni = nd := (hd.unique ⟨hd.1, p, hat⟩).2
  subst this
  have hr : ni.isRemove = false := by
    cases hr : ni.isRemove with
    | false => rfl
    | true => exact absurd ⟨ni, hd, hr⟩ (hn n i)
  show tg t (finishRO ⟨i, p, ni⟩ fuel >>= _) _ w1
  rw [finishRO_eq hr (hs.shape _ _ _ hd).2.1 hf]
  exact ⟨hv1, p, hat, rfl⟩

/-- A child of the read-only descent. -/
theorem tg_step {wc : World K V} {fuel : Nat} (hf : 2 ≤ fuel) (hi : Inv w) (hs : SInv w) (hn : NoRm w) {ctx : Ctx K V} {y : Option NodeId}
    (hv : View w wc y) (hy : Known w k y (n + 1)) (h : RPos k w (n + 1) ctx) {f : Option (Ctx K V × NodeId) → Prog K V (Option (Ctx K V))} {P : Ctx K V → Prop} (h0 : f none = .ret none)
    (H : ∀ w1 c' i, View w w1 y → Known w k y n → (∀ level, tg t (loadRO fuel i level) (fun r w2 => View w w2 y ∧ ∃ c, r = some c ∧ RPos k w n c) w1) →
      tg t (f (some (c', i))) (RQ w k y P) w1) :
    tg t (navInner fuel k ctx >>= f) (RQ w k y P) wc := by
  refine tw_seq (R := fun r w1 => (r = none ∧ y = none ∧ ∃ i m, View w w1 (some i) ∧ Doom w k m i) ∨
    ∃ c' c i, r = some (c', i) ∧ View w w1 y ∧ Known w k y n ∧ RCov k w (n + 1) c' ∧ c'.cur.node = .inner c ∧ c.IsTarget k i) ?_ ?_
  · unfold navInner
    refine tw_seq (tg_navSibling (by omega) hi hs hn hv hy h hf) ?_
    rintro r w1 (⟨c', rfl, h1, h2, h3, _⟩ | ⟨rfl, h1, h2⟩)
    · obtain ⟨c, lq, g1, g2, g3, _⟩ := h2.here.nd.inner hi
      obtain ⟨s1, s2, s3⟩ := hs.shape _ _ _ h2.here.nd
      have hr : c'.cur.node.isRemove = false := by
        cases hr : c'.cur.node.isRemove with
        | false => rfl
        | true => exact absurd ⟨_, h2.here.nd, hr⟩ (hn _ _)
      rw [Node.strip_of_clean (Node.clean_of hr s2)] at g1
      rw [g1] at s3
      obtain ⟨l, e, g4⟩ := h2.low
      rw [g2] at e
      cases e
      have hb : Below c.high k := by have := h2.below; rw [g1] at this; exact this
      obtain ⟨id, n1, n2⟩ := InnerChain.nav_exact hi.lo_invalid k c lq _ _ g3 s3 (InnerChain.range_start c k (InnerChain.WF.low_spec g3).2.2) g4 hb
      have n1' : c.navigate k = some id := n1
      show tg t (match c'.cur.node with | .leaf _ => .fail .kind | .inner c => match c.navigate k with | none => .fail .navigate | some id => .ret (some (c', id))) _ w1
      rw [g1]
      show tg t (match c.navigate k with | none => .fail .navigate | some id => .ret (some (c', id))) _ w1
      rw [n1']
      exact Or.inr ⟨c', c, id, rfl, h1, h3, h2, g1, n2⟩
    · exact Or.inl ⟨rfl, h1, h2⟩
  · rintro r w1 (⟨rfl, h1, h2⟩ | ⟨c', c, i, rfl, hv1, hk1, h2, h3, h4⟩)
    · rw [h0]; exact Or.inr ⟨rfl, h1, h2⟩
    refine H w1 c' i hv1 hk1 fun level => ?_
    obtain ⟨lq, eq, hlq⟩ := h2.low
    have hq : Nd w (n + 1) c'.cur.id (.inner c) := by rw [← h3]; exact h2.here.nd
    have hb := h2.below
    rw [h3] at hb
    obtain ⟨li, ni, ei, di, hii, hli, hnear⟩ := target_near hi hs hq eq hlq hb h4
    have hpar : HasPar w n i := ⟨_, _, hq, hii⟩
    have hne : y ≠ some i := by
      intro e
      obtain ⟨m, hm, d⟩ := hk1 i e
      obtain ⟨_, _, _, e1, _⟩ := d.cov
      rw [ei] at e1
      cases e1
      exact d.par (Or.inr hpar)
    refine tw_mono ?_ (tg_loadRO (by omega) hs hn hv1 hk1.info di hne level)
    rintro r w2 ⟨hv2, p, hat, rfl⟩
    exact ⟨hv2, _, rfl, ⟨di.1, hat⟩, rfl, ⟨li, ei, hli⟩, Or.inr hpar, hnear, fun m z nd hm => h2.up m z nd hm⟩

/-- The descent of `TraverseReadOptimized`. -/
theorem tg_descendRO {fuel : Nat} (hf : 2 ≤ fuel) (hi : Inv w) (hs : SInv w) (hn : NoRm w) {y : Option NodeId} :
    ∀ (n : Nat) (m : Nat) {wc : World K V} {ctx : Ctx K V}, View w wc y → Known w k y (n + 1) → RPos k w (n + 1) ctx → n < m →
      tg t (descendRO fuel k m ctx) (RQ w k y fun c => RCov k w 0 c ∧ y = none) wc := by
  intro n
  induction n with
  | zero =>
    intro m wc ctx hv hk h hm
    obtain ⟨m, rfl⟩ : ∃ m', m = m' + 1 := ⟨m - 1, by omega⟩
    unfold descendRO
    refine tg_step hf hi hs hn hv hk h rfl fun w1 c' i hv1 hk1 hl => ?_
    refine tw_seq (hl _) ?_
    rintro r w2 ⟨hv2, c2, rfl, h2⟩
    show tg t (if c2.cur.node.isLeaf = true then _ else _) _ w2
    rw [if_pos ((h2.here.isLeaf hi).mpr rfl)]
    refine tw_mono ?_ (tg_navSibling (by omega) hi hs hn hv2 hk1 h2 hf)
    rintro r w3 (⟨c3, rfl, g1, g2, _, g3⟩ | g)
    · refine Or.inl ⟨c3, rfl, g1, g2, ?_⟩
      by_contra hne
      exact absurd (g3 hne) (Nat.lt_irrefl 0)
    · exact Or.inr g
  | succ n ih =>
    intro m wc ctx hv hk h hm
    obtain ⟨m, rfl⟩ : ∃ m', m = m' + 1 := ⟨m - 1, by omega⟩
    unfold descendRO
    refine tg_step hf hi hs hn hv hk h rfl fun w1 c' i hv1 hk1 hl => ?_
    refine tw_seq (hl _) ?_
    rintro r w2 ⟨hv2, c2, rfl, h2⟩
    show tg t (if c2.cur.node.isLeaf = true then _ else _) _ w2
    rw [if_neg (fun e => by have := (h2.here.isLeaf hi).mp e; omega)]
    exact ih m hv2 hk1 h2 (by omega)

/-- Where the search for any key begins. -/
theorem root_near (hi : Inv w) (hs : SInv w) {nd : Node K V} (hd : Nd w n w.mem.root nd) (k : K) :
    Below nd.high k ∨ ∃ z, Fresh w n w.mem.root z ∧ ¬ HasPar w n z ∧ Covers w n z k := by
  obtain ⟨l, e, ok⟩ := hd.ok hi
  by_cases hb : Below nd.high k
  · exact Or.inl hb
  right
  have hnp : ∀ y, ¬ HasPar w n y := fun y => no_par_root hi e
  cases hsp : nd.splits with
  | none =>
    exact absurd (Or.inl (root_top hi hs hd (by intro y hy; rw [hsp] at hy; cases hy))) hb
  | some z =>
    have hz := (hs.spl n _ nd z hd hsp).2.resolve_left (hnp z)
    refine ⟨z, hz, hnp z, ?_⟩
    obtain ⟨nx, nz, lx, ky, g1, g2, g3, g4, g5, g6, _, g8, g9, _⟩ := hz.range hi
    have := (g1.unique hd).2
    subst this
    refine g4.covers g9 (fun l hl => ?_) (Or.inl ?_)
    · cases hl
      rw [g3] at hb
      exact le_of_not_gt fun h => hb (Or.inr h)
    · by_contra hne
      obtain ⟨_, p, ha⟩ := id g4
      have hy := (hi.next n _ p nz g4.1 ha).resolve_left hne
      obtain ⟨_, _, okz⟩ := g4.ok hi
      have ey := okz.high.resolve_left hne
      rcases hs.par n _ hy with h | h | ⟨x, h⟩
      · obtain ⟨r, e', _⟩ := hi.root
        rw [h, e'] at ey
        cases ey
      · exact hnp _ h
      · obtain ⟨nx', _, h1, h2, _⟩ := id h
        have hh : nx'.high.2 = nz.high.2 := Node.splits_high h2
        have := left_unique hi h1 g4 hh (by rw [hh]; exact hne)
        subst this
        rw [(h1.unique g4).2, Node.splits_of_base g5] at h2
        cases h2

/-- One attempt of GetValue. -/
theorem tg_attempt {wc : World K V} {fuel : Nat} (hf : TABLE_SIZE < fuel) (h : Rest w) {y : Option NodeId} (hv : View w wc y)
    (hy : ∀ i, y = some i → ∃ m, Doom w k m i) {f g : Option (Ctx K V) → Prog K V α}
    (hg : ∀ ctx, g (some ctx) = (descendRO fuel k fuel ctx >>= f)) {Q : α → World K V → Prop}
    (H : ∀ r w1, RQ w k y (fun c => RCov k w 0 c ∧ y = none) r w1 → tg t (f r) Q w1) :
    tg t (readRoot >>= fun root => loadRO fuel root 0 >>= g) Q wc := by
  obtain ⟨hi, hs, hn⟩ := h
  have hf2 : 2 ≤ fuel := Nat.le_trans (by decide) (Nat.le_of_lt hf)
  have hinfo : ∀ i, y = some i → ∃ x, w.info i = some x := fun i e => by obtain ⟨_, d⟩ := hy i e; exact d.info
  obtain ⟨r, er, hr⟩ := hi.root
  have hlive : Live w (r + 1) w.mem.root := ⟨⟨_, er⟩, fun hd => hi.keep _ _ er (hi.dead _ hd)⟩
  obtain ⟨nr, dr⟩ := hlive.nd hi
  have hkn : Known w k y (r + 1) := by
    intro i e
    obtain ⟨m, d⟩ := hy i e
    obtain ⟨_, _, _, e1, _⟩ := d.cov
    exact ⟨m, hr _ _ _ e1, d⟩
  have hne : y ≠ some w.mem.root := by
    intro e
    obtain ⟨m, d⟩ := hy _ e
    exact d.par (Or.inl rfl)
  refine tw_seq (tw_readRoot hv.inv (Q := fun i w1 => i = w.mem.root ∧ View w w1 y) fun w1 h1 h2 => ⟨hv.root, hv.trans h2 h1 hinfo⟩).tg ?_
  rintro _ w1 ⟨rfl, hv1⟩
  refine tw_seq (tg_loadRO (by omega) hs hn hv1 hinfo dr hne 0) ?_
  rintro _ w2 ⟨hv2, p, hat, rfl⟩
  have hpos : RPos k w (r + 1) { cur := ⟨w.mem.root, p, nr⟩, par := .uninit, level := 0 } := by
    refine ⟨⟨hlive, hat⟩, rfl, ⟨none, er, (fun l hl => by cases hl)⟩, Or.inl rfl, root_near hi hs dr k, ?_⟩
    intro m z nd hm hz hd
    obtain ⟨_, _, _, e1, _⟩ := hz
    exact absurd (hr _ _ _ e1) (by omega)
  have hlt : r + 1 < TABLE_SIZE := (hs.lvl _ _ _ er).2
  rw [hg]
  exact tw_seq (tg_descendRO hf2 hi hs hn r fuel hv2 hkn hpos (by omega)) H

theorem _root_.BwTree.LeafChain.noDataAboveMerge_of : ∀ {c : LeafChain K V}, LeafChain.NoDataAboveMerge.noMerge c → c.NoDataAboveMerge
  | .base _ _ _, _ => trivial
  | .ins _ _ _ _ _, h => h
  | .del _ _ _ _ _, h => h
  | .split _ _ _ c, h => LeafChain.noDataAboveMerge_of (c := c) h
  | .merge _ _ _ _, h => h.elim
  | .remove _ c, h => LeafChain.noDataAboveMerge_of (c := c) h

/-- The leaf of the read-only descent. -/
theorem RCov.chain (h : Rest w) {ctx : Ctx K V} (hc : RCov k w 0 ctx) : ∃ c l, ctx.cur.node = .leaf c ∧ c.lookupStep k = some l ∧ c.NoDataAboveMerge := by
  obtain ⟨c, lk, h1, h2, h3, _, h5, h6⟩ := hc.here.nd.leaf h.1
  obtain ⟨s1, s2, s3⟩ := h.2.1.shape _ _ _ hc.here.nd
  have hr : ctx.cur.node.isRemove = false := by
    cases hr : ctx.cur.node.isRemove with
    | false => rfl
    | true => exact absurd ⟨_, hc.here.nd, hr⟩ (h.2.2 _ _)
  rw [Node.strip_of_clean (Node.clean_of hr s2)] at h1
  rw [h1] at s1
  have hnd : c.NoDataAboveMerge := LeafChain.noDataAboveMerge_of s1
  obtain ⟨l, e, hl⟩ := hc.low
  rw [h2] at e
  cases e
  have hb := hc.below
  rw [h1] at hb
  have hkr : InRange c.low c.high k := by
    refine ⟨?_, hb⟩
    cases lk with
    | none => exact Or.inl (h5 rfl)
    | some a => exact Or.inr (by rw [(h6 a rfl).2]; exact hl a rfl)
  obtain ⟨out, ho, _⟩ := LeafChain.lookupStep_spec h3 hnd hkr
  exact ⟨c, out, h1, ho, hnd⟩

/-- `GetValue`: returns, or stops at the unset parent snapshot. -/
theorem tg_getValue {fuel : Nat} (hf : TABLE_SIZE < fuel) (h : Rest w) {m : Nat} (hm : 2 ≤ m) :
    tg t (getValue fuel k m) (fun a w' => Rest w' ∧ a.2.NoDataAboveMerge) w := by
  have hrest : ∀ {wc : World K V}, View w wc none → Rest wc := fun hv =>
    ⟨hv.inv, (hv.calm rfl).sinv h.1 h.2.1, h.2.2.calm (hv.calm rfl) h.1⟩
  obtain ⟨m, rfl⟩ : ∃ m', m = m' + 1 := ⟨m - 1, by omega⟩
  unfold getValue
  refine tg_attempt (k := k) hf h (View.refl h.1) (fun i e => by cases e) (fun ctx => rfl) ?_
  rintro r w1 (⟨c, rfl, hv, hc, _⟩ | ⟨rfl, _, i, n, hv, hd⟩)
  · obtain ⟨c', l, h1, h2, h3⟩ := hc.chain h
    show tg t (match c.cur.node with
        | .inner _ => .fail .kind
        | .leaf c => match c.lookupStep k with
          | none => .fail .search
          | some l => .ret (l, c)) _ w1
    rw [h1]
    show tg t (match c'.lookupStep k with | none => .fail .search | some l => .ret (l, c')) _ w1
    rw [h2]
    exact ⟨hrest hv, h3⟩
  · show tg t (getValue fuel k m) _ w1
    obtain ⟨m, rfl⟩ : ∃ m', m = m' + 1 := ⟨m - 1, by omega⟩
    unfold getValue
    refine tg_attempt (k := k) hf h hv (fun j e => by cases e; exact ⟨n, hd⟩) (fun ctx => rfl) ?_
    rintro r w2 (⟨c, _, _, _, e⟩ | ⟨_, e, _⟩) <;> cases e

end Tree
end BwTree
