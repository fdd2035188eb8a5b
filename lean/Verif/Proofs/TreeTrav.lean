import Verif.Proofs.TreeSettle
import Verif.Props.Inner

/-! Traversal and the API calls. -/

namespace BwTree
namespace Tree

open Prog

set_option linter.unusedSectionVars false

variable {K V : Type} [LinearOrder K] [DecidableEq V] [Inhabited K]
variable {t : Tid} {allow : Fail → Prop} {w : World K V} {start : Nat}

/-- A settled context on level `n` whose node begins at or before the search key. -/
structure Nav (allow : Fail → Prop) (start : Nat) (k : K) (n : Nat) (w : World K V) (ctx : Ctx K V) : Prop where
  settled : Settled allow start w ctx
  lo : ∃ l, w.info ctx.cur.id = some (l, n) ∧ AtLeast l k

theorem Nav.mono {k : K} {n : Nat} {w w' : World K V} (h : Mono w w') {ctx : Ctx K V} (hn : Nav allow start k n w ctx) :
    Nav allow start k n w' ctx :=
  ⟨hn.settled.mono h, hn.lo.imp fun _ hl => ⟨h.info _ _ hl.1, hl.2⟩⟩

theorem Nav.ok (hi : Inv w) {k : K} {n : Nat} {ctx : Ctx K V} (hn : Nav allow start k n w ctx) :
    ∃ l, w.info ctx.cur.id = some (l, n) ∧ AtLeast l k ∧ Body w l n ctx.cur.node ∧ NodeOK w ctx.cur.id l n ctx.cur.node := by
  obtain ⟨l, h1, h2⟩ := hn.lo
  obtain ⟨l', n', e1, e2⟩ := hn.settled.snap.ok hi
  rw [h1] at e1
  cases e1
  have := e2.1
  rw [Node.strip_of_clean hn.settled.clean] at this
  exact ⟨l, h1, h2, this, e2⟩

theorem nav_of_res {k : K} {n : Nat} {id : NodeId} {l : Option K} (hx : w.info id = some (l, n)) (hk : AtLeast l k) {ctx : Ctx K V}
    {r : Option (Ctx K V)} (hr : Res allow start id r w) (he : r = some ctx) : Nav allow start k n w ctx := by
  obtain ⟨h1, h2⟩ := hr ctx he
  obtain ⟨l', h3, h4⟩ := h2 l n hx
  exact ⟨h1, l', h3, h4.atLeast hk⟩

theorem wp_navSibling (A : Allowed allow) (fuel : Nat) (k : K) {n : Nat} : ∀ (f : Nat) {w : World K V} (_ : Inv w) {ctx : Ctx K V}
    (_ : Nav allow start k n w ctx) {Q : Option (Ctx K V) → World K V → Prop}
    (_ : ∀ w' r, Inv w' → Ext t w w' → (∀ ctx', r = some ctx' → Nav allow start k n w' ctx' ∧ Below ctx'.cur.node.high k) → Q r w'),
    wp t allow (navSibling fuel k f ctx) Q w
  | 0, _, _, _, _, _, _ => trivial
  | f + 1, w, hi, ctx, hn, Q, H => by
    unfold navSibling
    by_cases hk : ctx.cur.node.high.2 ≠ INVALID ∧ ctx.cur.node.high.1 ≤ k
    · rw [if_pos hk]
      obtain ⟨l, h1, h2, h3, h4⟩ := hn.ok hi
      have hx := h4.high.resolve_left hk.1
      have hlt : ∀ y, l = some y → y < ctx.cur.node.high.1 := fun y hy => (h4.below y hy).resolve_left hk.1
      apply wp_seq
      refine wp_jump A (wp_finishSMO A fuel) hi hn.settled.snap hn.settled.st h1 hx ?_ ?_ ?_
      · intro e
        rw [← e, h1] at hx
        cases hx
        exact lt_irrefl _ (hlt _ rfl)
      · cases hpar : ctx.par with
        | uninit =>
          have := hn.settled.par
          rw [hpar] at this
          cases this with | uninit h => exact .uninit h
        | root =>
          have := hn.settled.par
          rw [hpar] at this
          generalize ctx.level = lv at this
          cases this
          exact .root
        | snap s =>
          have := hn.settled.par
          rw [hpar] at this
          cases this with
          | snap g1 g2 =>
            have e := g2.cinfo
            rw [h1] at e
            cases e
            exact .snap g1 ⟨g2.node, g2.clean, g2.snap, g2.info, hx, Or.inr ⟨_, rfl, g2.lo_le hi _ hlt⟩⟩
      · intro w1 r hi1 he1 hr
        cases r with
        | none => exact H w1 _ hi1 he1 (fun _ h => by cases h)
        | some ctx1 =>
          have hn1 : Nav allow start k n w1 ctx1 :=
            nav_of_res (he1.mono.info _ _ hx) (fun y hy => by cases hy; exact hk.2) hr rfl
          show wp t allow (navSibling fuel k f ctx1) Q w1
          apply wp_navSibling A fuel k f hi1 hn1
          intro w2 r hi2 he2 hr2
          exact H w2 r hi2 (he1.trans he2) hr2
    · rw [if_neg hk]
      refine H w _ hi (Ext.refl t w) ?_
      intro ctx' e
      cases e
      refine ⟨hn, ?_⟩
      by_cases h : ctx.cur.node.high.2 = INVALID
      · exact Or.inl h
      · exact Or.inr (lt_of_not_ge fun hge => hk ⟨h, hge⟩)

theorem wp_navInner (A : Allowed allow) (fuel : Nat) (k : K) {m : Nat} (hi : Inv w) {ctx : Ctx K V}
    (hn : Nav allow start k (m + 1) w ctx) {Q : Option (Ctx K V × NodeId) → World K V → Prop}
    (H0 : ∀ w', Inv w' → Ext t w w' → Q none w')
    (H : ∀ w' ctx' id c lp l, Inv w' → Ext t w w' → Nav allow start k (m + 1) w' ctx' → ParSnap w' id ctx'.cur c lp l m →
      AtLeast l k → Q (some (ctx', id)) w') :
    wp t allow (navInner fuel k ctx) Q w := by
  unfold navInner
  apply wp_seq
  apply wp_navSibling A fuel k fuel hi hn
  intro w1 r hi1 he1 hr
  cases r with
  | none => exact H0 w1 hi1 he1
  | some ctx1 =>
    obtain ⟨hn1, _⟩ := hr ctx1 rfl
    obtain ⟨l, h1, h2, h3, h4⟩ := hn1.ok hi1
    show wp t allow (match ctx1.cur.node with | .leaf _ => .fail .kind | .inner c => _) Q w1
    cases hc : ctx1.cur.node with
    | leaf c =>
      rw [hc] at h3
      have := h3.2.2.2.1
      omega
    | inner c =>
      rw [hc] at h3
      obtain ⟨m', e1, e2, e3⟩ := h3.2.2.2
      have : m' = m := by omega
      subst this
      obtain ⟨id, g1, g2⟩ := InnerChain.nav_weak k c l _ _ e2 (InnerChain.range_start c k (InnerChain.WF.low_spec e2).2.2)
      have g1' : c.navigate k = some id := g1
      show wp t allow (match c.navigate k with | none => .fail .navigate | some id => _) Q w1
      rw [g1']
      obtain ⟨lc, hx⟩ := e3 id (InnerChain.nav_mem k c _ _ g1)
      have hcl := hn1.settled.clean
      refine H w1 ctx1 id c l lc hi1 he1 hn1 ⟨hc, hcl, hn1.settled.snap, h1, hx, ?_⟩ ?_
      · rcases g2 with h | ⟨key, k1, k2, k3⟩
        · exact Or.inl h
        · right
          refine ⟨key, ?_, k2⟩
          simpa [World.lo, hx] using k1
      · rcases g2 with h | ⟨key, k1, k2, k3⟩
        · have := (InnerChain.WF.low_spec e2).1
          rw [← h] at this
          simp only [World.lo, hx, Option.map_some, Option.some.injEq] at this
          rw [this]; exact h2
        · have : lc = some key := by simpa [World.lo, hx] using k1
          rw [this]
          intro y hy; cases hy; exact k3

theorem wp_loadChild (A : Allowed allow) (fuel : Nat) (k : K) {m : Nat} (hi : Inv w) {ctx : Ctx K V}
    (hn : Nav allow start k (m + 1) w ctx) {id : NodeId} {c : InnerChain K} {lp l : Option K} (hps : ParSnap w id ctx.cur c lp l m)
    (hk : AtLeast l k) {Q : Option (Ctx K V) → World K V → Prop}
    (H : ∀ w' r, Inv w' → Ext t w w' → (∀ ctx', r = some ctx' → Nav allow start k m w' ctx') → Q r w') :
    wp t allow (loadChild fuel id ctx) Q w := by
  unfold loadChild
  apply wp_seq
  apply wp_getNode hi hps.cinfo
  intro w1 p nd hi1 hr1 hat
  have hps1 := hps.mono hr1.1
  apply wp_settle A (wp_finishSMO A fuel) hi1
    (loaded_of_at hi1 (st_mono hr1.1 hn.settled.st) hps1.cinfo hat (ParOK.snap (level := ctx.level + 1) (Nat.succ_ne_zero _) hps1))
  intro w2 r hi2 he2 hr2
  refine H w2 r hi2 (hr1.ext.trans he2) ?_
  intro ctx' e
  exact nav_of_res (he2.mono.info _ _ hps1.cinfo) hk hr2 e

theorem wp_loadRootNode (A : Allowed allow) (fuel : Nat) (k : K) (hi : Inv w) (hst : start < w.sets.length) {id : NodeId} {n : Nat}
    (hx : w.info id = some (none, n)) {Q : Option (Ctx K V) → World K V → Prop}
    (H : ∀ w' r, Inv w' → Ext t w w' → (∀ ctx', r = some ctx' → Nav allow start k n w' ctx') → Q r w') :
    wp t allow (loadRootNode fuel id) Q w := by
  unfold loadRootNode
  apply wp_seq
  apply wp_getNode hi hx
  intro w1 p nd hi1 hr1 hat
  apply wp_settle A (wp_finishSMO A fuel) hi1 (loaded_of_at hi1 (st_mono hr1.1 hst) (hr1.1.info _ _ hx) hat ParOK.root)
  intro w2 r hi2 he2 hr2
  refine H w2 r hi2 (hr1.ext.trans he2) ?_
  intro ctx' e
  exact nav_of_res (he2.mono.info _ _ (hr1.1.info _ _ hx)) (fun y hy => by cases hy) hr2 e

/-- The leaf for key `k`. -/
def AtLeaf (allow : Fail → Prop) (start : Nat) (k : K) (w : World K V) (ctx : Ctx K V) : Prop :=
  Nav allow start k 0 w ctx ∧ Below ctx.cur.node.high k

theorem Nav.isLeaf (hi : Inv w) {k : K} {n : Nat} {ctx : Ctx K V} (hn : Nav allow start k n w ctx) :
    ctx.cur.node.isLeaf = true ↔ n = 0 := by
  obtain ⟨_, _, _, _, h⟩ := hn.ok hi
  exact h.leaf_iff

theorem wp_descend (A : Allowed allow) (fuel : Nat) (k : K) : ∀ (f : Nat) {m : Nat} {w : World K V} (_ : Inv w) {ctx : Ctx K V}
    (_ : Nav allow start k (m + 1) w ctx) {Q : Option (Ctx K V) → World K V → Prop}
    (_ : ∀ w' r, Inv w' → Ext t w w' → (∀ ctx', r = some ctx' → AtLeaf allow start k w' ctx') → Q r w'),
    wp t allow (descend fuel k f ctx) Q w
  | 0, _, _, _, _, _, _, _ => trivial
  | f + 1, m, w, hi, ctx, hn, Q, H => by
    have hnone : ∀ w', Inv w' → Ext t w w' → Q none w' := fun w' hi' he => H w' _ hi' he (fun _ h => by cases h)
    unfold descend
    apply wp_seq
    apply wp_navInner A fuel k hi hn
    · exact hnone
    intro w1 ctx1 id c lp l hi1 he1 hn1 hps hk
    show wp t allow (loadChild fuel id ctx1 >>= _) Q w1
    apply wp_seq
    apply wp_loadChild A fuel k hi1 hn1 hps hk
    intro w2 r hi2 he2 hr2
    cases r with
    | none => exact hnone w2 hi2 (he1.trans he2)
    | some ctx2 =>
      have hn2 := hr2 ctx2 rfl
      show wp t allow (if ctx2.cur.node.isLeaf = true then _ else _) Q w2
      have hle := hn2.isLeaf hi2
      by_cases hm : m = 0
      · subst hm
        rw [if_pos (hle.mpr rfl)]
        apply wp_navSibling A fuel k fuel hi2 hn2
        intro w3 r hi3 he3 hr3
        exact H w3 r hi3 (he1.trans (he2.trans he3)) hr3
      · rw [if_neg (fun h => hm (hle.mp h))]
        obtain ⟨m', rfl⟩ : ∃ m', m = m' + 1 := ⟨m - 1, by omega⟩
        apply wp_descend A fuel k f hi2 hn2
        intro w3 r hi3 he3 hr3
        exact H w3 r hi3 (he1.trans (he2.trans he3)) hr3

theorem wp_tryTraverse (A : Allowed allow) (fuel : Nat) (k : K) (hst : start < w.sets.length) {Q : Option (Ctx K V) → World K V → Prop}
    (H : ∀ w' r, Inv w' → Ext t w w' → (∀ ctx', r = some ctx' → AtLeaf allow start k w' ctx') → Q r w') :
    wp t allow (tryTraverse fuel k) Q w := by
  unfold tryTraverse
  apply wp_seq
  apply wp_readRoot
  intro w1 hi1 hr1
  obtain ⟨n, hroot, _⟩ := hi1.root
  apply wp_seq
  apply wp_loadRootNode A fuel k hi1 (st_mono hr1.1 hst) hroot
  intro w2 r hi2 he2 hr2
  cases r with
  | none => exact H w2 _ hi2 (hr1.ext.trans he2) (fun _ h => by cases h)
  | some ctx =>
    show wp t allow (descend fuel k fuel ctx) Q w2
    apply wp_descend A fuel k fuel hi2 (hr2 ctx rfl)
    intro w3 r hi3 he3 hr3
    exact H w3 r hi3 (hr1.ext.trans (he2.trans he3)) hr3

theorem wp_traverse (A : Allowed allow) (fuel : Nat) (k : K) : ∀ (f : Nat) {w : World K V} (_ : start < w.sets.length)
    {Q : Ctx K V → World K V → Prop}
    (_ : ∀ w' ctx', Inv w' → Ext t w w' → AtLeaf allow start k w' ctx' → Q ctx' w'),
    wp t allow (traverse fuel k f) Q w
  | 0, _, _, _, _ => trivial
  | f + 1, w, hst, Q, H => by
    unfold traverse
    apply wp_seq
    apply wp_tryTraverse A fuel k hst
    intro w1 r hi1 he1 hr1
    cases r with
    | none =>
      apply wp_traverse A fuel k f (st_mono he1.mono hst)
      intro w2 ctx hi2 he2 h2
      exact H w2 ctx hi2 (he1.trans he2) h2
    | some ctx => exact H w1 ctx hi1 he1 (hr1 ctx rfl)

/-- What a leaf reached for `k` satisfies. -/
theorem AtLeaf.leaf (hi : Inv w) {k : K} {ctx : Ctx K V} (h : AtLeaf allow start k w ctx) :
    ∃ c l, ctx.cur.node = .leaf c ∧ w.info ctx.cur.id = some (l, 0) ∧ AtLeast l k ∧ c.WF ∧ InRange c.low c.high k ∧
      NodeOK w ctx.cur.id l 0 (.leaf c) ∧
      ∃ i S, start ≤ i ∧ w.sets[i]? = some S ∧ ∀ k v, InRange c.low c.high k → (S k v ↔ c.Has k v) := by
  obtain ⟨hn, hb⟩ := h
  obtain ⟨l, h1, h2, h3, h4⟩ := hn.ok hi
  cases hc : ctx.cur.node with
  | inner c =>
    rw [hc] at h3
    obtain ⟨m, e, _⟩ := h3.2.2.2
    omega
  | leaf c =>
    rw [hc] at h3 h4 hb
    exact ⟨c, l, rfl, h1, h2, h3.2.2.2.2.1, h3.range_leaf h2 hb, h4, hn.settled.valid c hc⟩

/-- What holds when a call returns `a`. -/
def Fin (t : Tid) (a : Ans K V) (w : World K V) : Prop :=
  match w.tok t with
  | .idle => False
  | .pending op _ start => ∃ i S, start ≤ i ∧ w.sets[i]? = some S ∧ tstep S op a S
  | .done _ _ r => a = r

/-- The thread owes no record to the garbage and holds no node locked. -/
def Clear (t : Tid) (w : World K V) : Prop := (∀ p, w.ow p ≠ .owed t) ∧ ∀ id, w.lock id ≠ some t

theorem Clear.ext {w w' : World K V} (h : Clear t w) (he : Ext t w w') : Clear t w' :=
  ⟨fun p hp => h.1 p (he.owB p hp), fun i hi => h.2 i (he.lockB i hi)⟩

/-- What holds when a call returns. -/
def Done (t : Tid) (a : Ans K V) (w : World K V) : Prop := Fin t a w ∧ Clear t w

theorem Fin.stable {a : Ans K V} {w w' : World K V} (h : Rely t w w') (hf : Fin t a w) : Fin t a w' := by
  unfold Fin at *
  rw [h.2.tok]
  cases ht : w.tok t with
  | idle => rw [ht] at hf; exact hf
  | done op pos r => rw [ht] at hf; exact hf
  | pending op pos start =>
    rw [ht] at hf
    obtain ⟨i, S, h1, h2, h3⟩ := hf
    exact ⟨i, S, h1, getElem?_sets h.1 h2, h3⟩

/-- Contents of the tree after replacing a live leaf. -/
theorem abs_put (hi : Inv w) {id : NodeId} {lk : Option K} {o n : Ptr} {old new : Node K V} {lock : NodeId → Option Tid} {g : Gst}
    (h : PutOK w id lk 0 o old n new) (hnr : ∀ k v, new.Has k v → AtLeast lk k ∧ Below old.high k) (k : K) (v : V) :
    abs (w.put id n lock g) k v ↔ new.Has k v ∨ (abs w k v ∧ ¬ (AtLeast lk k ∧ Below old.high k)) := by
  have hnd := hi.not_dead h.at_ h.notRemoved
  constructor
  · rw [abs_iff]
    rintro ⟨i, l', q, nd, e1, e2, e3, e4⟩
    by_cases hx : i = id
    · subst hx
      rw [World.put_at] at e3
      obtain ⟨rfl, e3⟩ := e3
      rw [h.heap] at e3
      cases e3
      exact Or.inl e4
    · right
      have e3' := (World.put_at_ne hx).mp e3
      refine ⟨abs_iff.mpr ⟨i, l', q, nd, e1, e2, e3', e4⟩, fun hr => hx ?_⟩
      have e1' : w.info i = some (l', 0) := e1
      obtain ⟨r1, r2⟩ := (hi.at_ok e1' e3').2.has_range e4
      exact hi.disj 0 i id k ⟨l', q, nd, e1, e2, e3', r1, r2⟩ ⟨lk, o, old, h.info, hnd, h.at_, hr.1, hr.2⟩
  · rintro (hk | ⟨ha, hr⟩)
    · exact abs_iff.mpr ⟨id, lk, n, new, h.info, hnd, World.put_at.mpr ⟨rfl, h.heap⟩, hk⟩
    · obtain ⟨i, l', q, nd, e1, e2, e3, e4⟩ := abs_iff.mp ha
      have hx : i ≠ id := by
        rintro rfl
        have e := At.unique e3 h.at_
        rw [e.2] at e4
        apply hr
        exact (hi.at_ok h.info h.at_).2.has_range e4
      exact abs_iff.mpr ⟨i, l', q, nd, e1, e2, (World.put_at_ne hx).mpr e3, e4⟩

/-- CAS of a data record onto a leaf. -/
theorem wp_update (hi : Inv w) {k : K} {ctx : Ctx K V} (hal : AtLeaf allow start k w ctx) {op : Call K V} {pos : Nat}
    (htok : w.tok t = .pending op pos start) {c c' : LeafChain K V} (hc : ctx.cur.node = .leaf c) (hwf : c'.WF)
    (hlow : c'.low = c.low) (hhigh : c'.high = c.high) (hmd : (Node.leaf c' : Node K V).merged = none) {r : Ans K V} {p : Ptr}
    (hp : w.mem.heap p = some (.leaf c')) (hop : w.ow p = .mine t) (hkp : w.mem.kids p = [ctx.cur.ptr]) (hmg : (Node.leaf c' : Node K V).isMerge = false)
    (hstep : ∀ S S' : Spec.PairSet K V, (∀ v, S k v ↔ c.Has k v) → (∀ k' v, (InRange c.low c.high k' → (S' k' v ↔ c'.Has k' v)) ∧ (¬ InRange c.low c.high k' → (S' k' v ↔ S k' v))) →
      (∀ k' v, InRange c.low c.high k' → (S k' v ↔ c.Has k' v)) → tstep S op r S')
    {Q : Bool → World K V → Prop}
    (H1 : ∀ w', Inv w' → w'.tok t = .done op pos r → (Clear t w → Clear t w') → Q true w')
    (H0 : ∀ w', Inv w' → Ext t w w' → Q false w') : wp t allow (replace ctx.cur.id p ctx.cur.ptr) Q w := by
  obtain ⟨c0, l, e0, hx, hk, hwfc, hkr, ho, _⟩ := hal.leaf hi
  rw [hc] at e0
  cases e0
  apply wp_replace hi hx
  · intro w1 hi1 hr1 htab
    have hat := (hal.1.settled.snap.mono hr1.1).at htab
    rw [hc] at hat
    have hx1 := hr1.1.info _ _ hx
    have ho1 := ho.mono hr1.1
    have hcl : (Node.leaf c : Node K V).clean = true := by
      have := hal.1.settled.clean
      rwa [hc] at this
    have hcl' : (Node.leaf c' : Node K V).clean = true := by
      cases c' <;> first | rfl | exact hwf.elim
    have hb := ho1.1
    rw [Node.strip_of_clean hcl] at hb
    have hput : PutOK w1 ctx.cur.id l 0 ctx.cur.ptr (.leaf c) p (.leaf c') := by
      refine ⟨hx1, hat, Node.not_remove_of_clean hcl, hr1.1.heap _ _ hp, ⟨?_, fun q d h => by cases h⟩, hhigh,
        fun h => by rw [Node.not_remove_of_clean hcl'] at h; cases h⟩
      rw [Node.strip_of_clean hcl']
      obtain ⟨b1, b2, b3, b4, b5, b6, b7⟩ := hb
      refine ⟨?_, ?_, fun m hm => ?_, rfl, hwf, ?_, ?_⟩
      · rw [show (Node.leaf c' : Node K V).high = c.high from hhigh]; exact b1
      · rw [show (Node.leaf c' : Node K V).high = c.high from hhigh]; exact b2
      · rw [hmd] at hm; cases hm
      · rw [hlow]; exact b6
      · rw [hlow]; exact b7
    have hrange : ∀ k', InRange c.low c.high k' ↔ AtLeast l k' ∧ Below c.high k' := fun k' =>
      ⟨fun h => hb.leaf_range h, fun h => hb.range_leaf h.1 h.2⟩
    have hnd := hi1.not_dead hat (Node.not_remove_of_clean hcl)
    have habs : ∀ k' v, InRange c.low c.high k' → (abs w1 k' v ↔ c.Has k' v) := fun k' v h =>
      abs_at hi1 hx1 hnd hat ((hrange k').mp h).1 ((hrange k').mp h).2 v
    have hstep' : tstep (abs w1) op r (abs (w1.put ctx.cur.id p w1.lock (owPut w1.ow ctx.cur.id p ctx.cur.ptr (.cell p) [], w1.del))) := by
      refine hstep _ _ (fun v => habs k v hkr) (fun k' v => ?_) habs
      have hin : ∀ k' v, c'.Has k' v → AtLeast l k' ∧ Below c.high k' := by
        intro k' v h
        have := LeafChain.inRange_of_has hwf h
        rw [hlow, hhigh] at this
        exact (hrange k').mp this
      rw [abs_put hi1 (lock := w1.lock) hput (fun k' v h => hin k' v h) k' v]
      refine ⟨fun hr => ?_, fun hr => ?_⟩
      · exact ⟨fun h => h.elim (fun h => h) (fun h => absurd ((hrange k').mp hr) h.2), Or.inl⟩
      · have hr' : ¬ (AtLeast l k' ∧ Below c.high k') := fun h => hr ((hrange k').mpr h)
        exact ⟨fun h => h.elim (fun h => absurd (hin k' v h) hr') (fun h => h.1), fun h => Or.inr ⟨h, hr'⟩⟩
    obtain ⟨g1, g2⟩ := next_commit hi1 hput hcl (fun q d e => by cases e) (hr1.2.tok.trans htok) hstep'
      (gok_delta hi1 hput hcl ((hr1.2.ow _ (by rw [hop]; exact Or.inl rfl)).trans hop) ((hr1.1.gh.kids _ _ hp).trans hkp) hmg (fun q d e => by cases e)
        (fun r hr => by cases hr) rfl (fun r e => by cases c' <;> first | exact hwf.elim | cases e) _)
    exact ⟨_, rfl, g1, g2, H1 _ g2 (Lin.upd_self _ _ _)
      (fun h => ⟨fun q hq => h.1 q (hr1.2.owB q (owPut_owed hq)), fun i hq => h.2 i (hr1.2.lockB i hq)⟩)⟩
  · intro w1 hi1 hr1 _
    exact H0 w1 hi1 hr1.ext

theorem step_insert_false {S : Spec.PairSet K V} {k : K} {v : V} (h : S k v) : tstep S (.api (.insert k v)) (.bool false) S := by
  refine ⟨by simp [h], fun k' v' => ⟨Or.inl, fun hx => hx.elim (fun h => h) (fun e => ?_)⟩⟩
  obtain ⟨rfl, rfl⟩ := e
  exact h

theorem step_delete_false {S : Spec.PairSet K V} {k : K} {v : V} (h : ¬ S k v) : tstep S (.api (.delete k v)) (.bool false) S := by
  refine ⟨by simp [h], fun k' v' => ⟨fun hx => ⟨hx, fun e => ?_⟩, fun hx => hx.1⟩⟩
  obtain ⟨rfl, rfl⟩ := e
  exact h hx

theorem wp_insert (A : Allowed allow) (fuel : Nat) (k : K) (v : V) {pos : Nat} : ∀ (f : Nat) {w : World K V} (_ : start < w.sets.length)
    (_ : w.tok t = .pending (.api (.insert k v)) pos start) (_ : Clear t w),
    wp t allow (insert fuel k v f) (fun b w' => Done t (.bool b) w') w
  | 0, _, _, _, _ => trivial
  | f + 1, w, hst, htok, hclr => by
    unfold insert
    apply wp_seq
    apply wp_traverse A fuel k fuel hst
    intro w1 ctx hi1 he1 hal
    have htok1 := he1.tok.trans htok
    obtain ⟨c, l, hc, hx, hk, hwf, hkr, ho, i, S, hi0, hS, hval⟩ := hal.leaf hi1
    show wp t allow (match ctx.cur.node with | .inner _ => .fail .kind | .leaf c => _) _ w1
    rw [hc]
    show wp t allow (match c.findValue k v with | none => .fail .search | some (true, _, _) => _ | some (false, i, e) => _) _ w1
    rcases LeafChain.findValue_spec hwf hkr v with ⟨h1, i', e, h2, h3⟩ | ⟨h1, i', e, h2, h3⟩
    · rw [h2]
      show Done t (.bool false) w1
      refine ⟨?_, hclr.ext he1⟩
      unfold Fin
      rw [htok1]
      exact ⟨i, S, hi0, hS, step_insert_false ((hval k v hkr).mpr h1)⟩
    · rw [h2]
      show wp t allow (allocate (.leaf (.ins k v i' e c)) [ctx.cur.ptr] >>= _) _ w1
      apply wp_seq
      apply wp_allocate _ _ (by exact ⟨_, rfl, hc ▸ hal.1.settled.snap.heap⟩)
      intro w2 p hi2 hr2 hp hop hkp _
      apply wp_seq
      have hal2 : AtLeaf allow start k w2 ctx := ⟨hal.1.mono hr2.1, hal.2⟩
      apply wp_update hi2 hal2 (hr2.2.tok.trans htok1) hc (c' := .ins k v i' e c) ⟨hwf, hkr, h1, h3⟩ rfl rfl rfl (r := .bool true) hp hop hkp rfl
      · intro S S' hS1 hS2 hS3
        refine ⟨by simp [hS1, h1], fun k' v' => ?_⟩
        by_cases hr : InRange c.low c.high k'
        · rw [(hS2 k' v').1 hr, hS3 k' v' hr]
          exact or_comm
        · rw [(hS2 k' v').2 hr]
          refine ⟨Or.inl, fun h => h.elim (fun h => h) (fun e => ?_)⟩
          rw [e.1] at hr
          exact absurd hkr hr
      · intro w3 hi3 ht3 hc3
        rw [if_pos rfl]
        show Done t (.bool true) w3
        refine ⟨?_, hc3 (hclr.ext (he1.trans hr2.ext))⟩
        unfold Fin
        rw [ht3]
      · intro w3 hi3 he3
        rw [if_neg (by simp)]
        have he := (he1.trans hr2.ext).trans he3
        exact wp_insert A fuel k v f (st_mono he.mono hst) (he.tok.trans htok) (hclr.ext he)

theorem wp_delete (A : Allowed allow) (fuel : Nat) (k : K) (v : V) {pos : Nat} : ∀ (f : Nat) {w : World K V} (_ : start < w.sets.length)
    (_ : w.tok t = .pending (.api (.delete k v)) pos start) (_ : Clear t w),
    wp t allow (delete fuel k v f) (fun b w' => Done t (.bool b) w') w
  | 0, _, _, _, _ => trivial
  | f + 1, w, hst, htok, hclr => by
    unfold delete
    apply wp_seq
    apply wp_traverse A fuel k fuel hst
    intro w1 ctx hi1 he1 hal
    have htok1 := he1.tok.trans htok
    obtain ⟨c, l, hc, hx, hk, hwf, hkr, ho, i, S, hi0, hS, hval⟩ := hal.leaf hi1
    show wp t allow (match ctx.cur.node with | .inner _ => .fail .kind | .leaf c => _) _ w1
    rw [hc]
    show wp t allow (match c.findValue k v with | none => .fail .search | some (false, _, _) => _ | some (true, i, e) => _) _ w1
    rcases LeafChain.findValue_spec hwf hkr v with ⟨h1, i', e, h2, h3⟩ | ⟨h1, i', e, h2, h3⟩
    · rw [h2]
      show wp t allow (allocate (.leaf (.del k v i' e c)) [ctx.cur.ptr] >>= _) _ w1
      apply wp_seq
      apply wp_allocate _ _ (by exact ⟨_, rfl, hc ▸ hal.1.settled.snap.heap⟩)
      intro w2 p hi2 hr2 hp hop hkp _
      apply wp_seq
      have hal2 : AtLeaf allow start k w2 ctx := ⟨hal.1.mono hr2.1, hal.2⟩
      apply wp_update hi2 hal2 (hr2.2.tok.trans htok1) hc (c' := .del k v i' e c) ⟨hwf, hkr, h1, h3⟩ rfl rfl rfl (r := .bool true) hp hop hkp rfl
      · intro S S' hS1 hS2 hS3
        refine ⟨by simp [hS1, h1], fun k' v' => ?_⟩
        by_cases hr : InRange c.low c.high k'
        · rw [(hS2 k' v').1 hr, hS3 k' v' hr]
          exact and_comm
        · rw [(hS2 k' v').2 hr]
          refine ⟨fun h => ⟨h, fun e => ?_⟩, fun h => h.1⟩
          rw [e.1] at hr
          exact absurd hkr hr
      · intro w3 hi3 ht3 hc3
        rw [if_pos rfl]
        show Done t (.bool true) w3
        refine ⟨?_, hc3 (hclr.ext (he1.trans hr2.ext))⟩
        unfold Fin
        rw [ht3]
      · intro w3 hi3 he3
        rw [if_neg (by simp)]
        have he := (he1.trans hr2.ext).trans he3
        exact wp_delete A fuel k v f (st_mono he.mono hst) (he.tok.trans htok) (hclr.ext he)
    · rw [h2]
      show Done t (.bool false) w1
      refine ⟨?_, hclr.ext he1⟩
      unfold Fin
      rw [htok1]
      exact ⟨i, S, hi0, hS, step_delete_false (fun h => h1 ((hval k v hkr).mp h))⟩

/-! ### Read optimized traversal -/

theorem wp_finishRO : ∀ (f : Nat) {w : World K V} (_ : Inv w) {s : Snap K V} (_ : SnapOK w s)
    (_ : s.node.clean = true → Valid start w s.node) {Q : Option (Snap K V) → World K V → Prop}
    (_ : Q none w) (_ : ∀ s', SnapOK w s' → s'.id = s.id → s'.node.clean = true → Valid start w s'.node → Q (some s') w),
    wp t allow (finishRO s f) Q w
  | 0, _, _, _, _, _, _, _, _ => trivial
  | f + 1, w, hi, s, hs, hv, Q, H0, H => by
    obtain ⟨lk, n, hx, ho⟩ := hs.ok hi
    obtain ⟨id, ptr, node⟩ := s
    simp only at ho hv hx H
    have hret : node.clean = true → Q (some ⟨id, ptr, node⟩) w := fun hc => H _ hs rfl hc (hv hc)
    cases node with
    | leaf c =>
      cases c with
      | remove id' c => exact H0
      | _ => exact hret rfl
    | inner c =>
      cases c with
      | remove id' c => exact H0
      | abort q c =>
        obtain ⟨h1, h2⟩ := ho.2 q c rfl
        exact wp_finishRO f (s := ⟨id, q, .inner c⟩) hi ⟨h1, h2⟩ (fun _ c h => by cases h) H0 H
      | _ => exact hret rfl

theorem wp_loadRO (ha : allow .uninit) (fuel : Nat) (k : K) (hi : Inv w) (hst : start < w.sets.length) {id : NodeId} {l : Option K} {n : Nat}
    (hx : w.info id = some (l, n)) (hk : AtLeast l k) (level : Nat) {Q : Option (Ctx K V) → World K V → Prop}
    (H : ∀ w' r, Inv w' → Ext t w w' → (∀ ctx', r = some ctx' → Nav allow start k n w' ctx') → Q r w') :
    wp t allow (loadRO fuel id level) Q w := by
  unfold loadRO
  apply wp_seq
  apply wp_getNode hi hx
  intro w1 p nd hi1 hr1 hat
  have hx1 := hr1.1.info _ _ hx
  apply wp_seq
  apply wp_finishRO (start := start) fuel hi1 (snap_of_at hi1 hx1 hat) (fun hc => valid_of_at hi1 (st_mono hr1.1 hst) hx1 hat hc)
  · exact H w1 _ hi1 hr1.ext (fun _ h => by cases h)
  · intro s' h1 h2 h3 h4
    refine H w1 _ hi1 hr1.ext (fun ctx' e => ?_)
    cases e
    exact ⟨⟨st_mono hr1.1 hst, h1, .uninit ha, h3, h4⟩, l, by rw [h2]; exact hx1, hk⟩

theorem wp_descendRO (A : Allowed allow) (ha : allow .uninit) (fuel : Nat) (k : K) : ∀ (f : Nat) {m : Nat} {w : World K V} (_ : Inv w)
    {ctx : Ctx K V} (_ : Nav allow start k (m + 1) w ctx) {Q : Option (Ctx K V) → World K V → Prop}
    (_ : ∀ w' r, Inv w' → Ext t w w' → (∀ ctx', r = some ctx' → AtLeaf allow start k w' ctx') → Q r w'),
    wp t allow (descendRO fuel k f ctx) Q w
  | 0, _, _, _, _, _, _, _ => trivial
  | f + 1, m, w, hi, ctx, hn, Q, H => by
    have hnone : ∀ w', Inv w' → Ext t w w' → Q none w' := fun w' hi' he => H w' _ hi' he (fun _ h => by cases h)
    unfold descendRO
    apply wp_seq
    apply wp_navInner A fuel k hi hn
    · exact hnone
    intro w1 ctx1 id c lp l hi1 he1 hn1 hps hk
    show wp t allow (loadRO fuel id (ctx1.level + 1) >>= _) Q w1
    apply wp_seq
    apply wp_loadRO ha fuel k hi1 hn1.settled.st hps.cinfo hk
    intro w2 r hi2 he2 hr2
    cases r with
    | none => exact hnone w2 hi2 (he1.trans he2)
    | some ctx2 =>
      have hn2 := hr2 ctx2 rfl
      show wp t allow (if ctx2.cur.node.isLeaf = true then _ else _) Q w2
      have hle := hn2.isLeaf hi2
      by_cases hm : m = 0
      · subst hm
        rw [if_pos (hle.mpr rfl)]
        apply wp_navSibling A fuel k fuel hi2 hn2
        intro w3 r hi3 he3 hr3
        exact H w3 r hi3 (he1.trans (he2.trans he3)) hr3
      · rw [if_neg (fun h => hm (hle.mp h))]
        obtain ⟨m', rfl⟩ : ∃ m', m = m' + 1 := ⟨m - 1, by omega⟩
        apply wp_descendRO A ha fuel k f hi2 hn2
        intro w3 r hi3 he3 hr3
        exact H w3 r hi3 (he1.trans (he2.trans he3)) hr3

theorem wp_getValue (A : Allowed allow) (ha : allow .uninit) (hs : allow .search) (fuel : Nat) (k : K) {pos : Nat} :
    ∀ (f : Nat) {w : World K V} (_ : start < w.sets.length) (_ : w.tok t = .pending (.api (.get k)) pos start) (_ : Clear t w),
    wp t allow (getValue fuel k f) (fun x w' => Done t (.values x.1 x.2) w') w
  | 0, _, _, _, _ => trivial
  | f + 1, w, hst, htok, hclr => by
    unfold getValue
    apply wp_seq
    apply wp_readRoot
    intro w1 hi1 hr1
    obtain ⟨n, hroot, _⟩ := hi1.root
    apply wp_seq
    apply wp_loadRO ha fuel k hi1 (st_mono hr1.1 hst) hroot (fun y hy => by cases hy)
    intro w2 r hi2 he2 hr2
    have he := hr1.ext.trans he2
    cases r with
    | none => exact wp_getValue A ha hs fuel k f (st_mono he.mono hst) (he.tok.trans htok) (hclr.ext he)
    | some ctx =>
      show wp t allow (descendRO fuel k fuel ctx >>= _) _ w2
      apply wp_seq
      apply wp_descendRO A ha fuel k fuel hi2 (hr2 ctx rfl)
      intro w3 r hi3 he3 hr3
      have he' := he.trans he3
      cases r with
      | none => exact wp_getValue A ha hs fuel k f (st_mono he'.mono hst) (he'.tok.trans htok) (hclr.ext he')
      | some ctx3 =>
        obtain ⟨c, l, hc, hx, hk, hwf, hkr, ho, i, S, hi0, hS, hval⟩ := (hr3 ctx3 rfl).leaf hi3
        show wp t allow (match ctx3.cur.node with | .inner _ => .fail .kind | .leaf c => _) _ w3
        rw [hc]
        show wp t allow (match c.lookupStep k with | none => .fail .search | some l => _) _ w3
        cases hl : c.lookupStep k with
        | none => exact hs
        | some vs =>
          show Done t (.values vs c) w3
          refine ⟨?_, hclr.ext he'⟩
          unfold Fin
          rw [he'.tok.trans htok]
          obtain ⟨s1, s2⟩ := LeafChain.lookupStep_sound hwf hkr hl
          refine ⟨i, S, hi0, hS, fun hnd => ?_, rfl, s1, fun v hv => (hval k v hkr).mpr (s2 v hv)⟩
          obtain ⟨l', e1, e2, e3⟩ := LeafChain.lookupStep_spec hwf hnd hkr
          rw [hl] at e1
          cases e1
          exact ⟨e2, fun v => (e3 v).trans (hval k v hkr).symm, fun _ _ => Iff.rfl⟩

/-! ### Page reads -/

theorem wp_readPage {c : LeafChain K V} (hwf : c.WF) {Q : Ans K V → World K V → Prop}
    (H : ∀ items, items.Pairwise (fun a b => a.1 ≤ b.1) → items.Nodup → (∀ x : K × V, x ∈ items ↔ c.Has x.1 x.2) →
      Q (.page c.low c.high items) w) : wp t allow (readPage (.leaf c)) Q w := by
  obtain ⟨items, h1, h2, h3, h4, _⟩ := LeafChain.collect_spec hwf
  show wp t allow (match c.collect with | none => .fail .collect | some items => _) Q w
  rw [h1]
  exact H items h2 h3 h4

theorem pageOk {c : LeafChain K V} (hwf : c.WF) {S : Spec.PairSet K V} (hval : ∀ k v, InRange c.low c.high k → (S k v ↔ c.Has k v))
    {items : List (K × V)} (h1 : items.Pairwise (fun a b => a.1 ≤ b.1)) (h2 : items.Nodup)
    (h3 : ∀ x : K × V, x ∈ items ↔ c.Has x.1 x.2) : PageOk S c.low c.high items :=
  ⟨h1, h2, fun x hx => LeafChain.inRange_of_has hwf ((h3 x).mp hx), fun k v hk => (hval k v hk).trans (h3 (k, v)).symm⟩

theorem wp_page (A : Allowed allow) (fuel : Nat) (k : K) {pos : Nat} (hst : start < w.sets.length)
    (htok : w.tok t = .pending (.page k) pos start) (hclr : Clear t w) : wp t allow (prog fuel (.page k)) (Done t) w := by
  show wp t allow (traverse fuel k fuel >>= _) _ w
  apply wp_seq
  apply wp_traverse A fuel k fuel hst
  intro w1 ctx hi1 he1 hal
  obtain ⟨c, l, hc, hx, hk, hwf, hkr, ho, i, S, hi0, hS, hval⟩ := hal.leaf hi1
  rw [hc]
  apply wp_readPage hwf
  intro items h1 h2 h3
  refine ⟨?_, hclr.ext he1⟩
  unfold Fin
  rw [he1.tok.trans htok]
  exact ⟨i, S, hi0, hS, rfl, hkr, pageOk hwf hval h1 h2 h3⟩

theorem wp_first (fuel : Nat) {pos : Nat} (hi : Inv w) (hst : start < w.sets.length)
    (htok : w.tok t = .pending .first pos start) (hclr : Clear t w) : wp t allow (prog fuel .first) (Done t) w := by
  show wp t allow (getNode FIRST_LEAF >>= _) _ w
  apply wp_seq
  apply wp_getNode hi hi.first
  intro w1 p nd hi1 hr1 hat
  have hx := hi1.first
  have ho := (hi1.at_ok hx hat).2
  have hnr : nd.isRemove = false := by
    cases h : nd.isRemove with
    | false => rfl
    | true => exact absurd ⟨_, _, _, hx, hat, h⟩ (hi1.keep _ _ hx)
  have hleaf : nd.isLeaf = true := ho.leaf_iff.mpr rfl
  cases nd with
  | inner c => cases hleaf
  | leaf c =>
    have hcl : (Node.leaf c : Node K V).clean = true := by
      cases c <;> first | rfl | cases hnr
    have hb := ho.1
    rw [Node.strip_of_clean hcl] at hb
    obtain ⟨i, S, hi0, hS, hval⟩ := valid_of_at hi1 (st_mono hr1.1 hst) hx hat hcl c rfl
    show wp t allow (readPage (.leaf c)) _ w1
    have hwf := hb.2.2.2.2.1
    apply wp_readPage hwf
    intro items h1 h2 h3
    refine ⟨?_, hclr.ext hr1.ext⟩
    unfold Fin
    rw [hr1.2.tok.trans htok]
    exact ⟨i, S, hi0, hS, rfl, hb.2.2.2.2.2.1 rfl, pageOk hwf hval h1 h2 h3⟩

end Tree
end BwTree
