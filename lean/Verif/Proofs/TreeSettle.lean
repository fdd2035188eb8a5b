import Verif.Proofs.TreeSize

/-! FinishPartialSMO and the functions that load a node. -/

namespace BwTree
namespace Tree

open Prog

set_option linter.unusedSectionVars false

variable {K V : Type} [LinearOrder K] [DecidableEq V] [Inhabited K]
variable {t : Tid} {allow : Fail → Prop} {w : World K V} {start : Nat}

theorem Inv.not_remove_inner {lo : NodeId → Option (Option K)} {lv : Option K} {c : InnerChain K} (h : c.WF lo lv) :
    (Node.inner c : Node K V).clean = true := by
  cases c <;> first | rfl | exact h.elim

theorem wp_findLeftSibling (A : Allowed allow) (hi : Inv w) {cur : NodeId} {s : Snap K V} {c : InnerChain K} {lp : Option K} {k : K} {m : Nat}
    (hps : ParSnap w cur s c lp (some k) m) (hne : cur ≠ c.low.2) {Q : NodeId × Snap K V → World K V → Prop}
    (H : ∀ w' id s' c' l', Inv w' → Ext t w w' → ParSnap w' id s' c' lp l' m → LoLe w' cur id → id ≠ cur → Q (id, s') w') :
    wp t allow (findLeftSibling k s) Q w := by
  have habove : Above lp k := by
    rcases hps.child with h | ⟨key, h1, h2⟩
    · exact absurd h hne
    · cases h1; exact h2
  -- the facts about a NodeID that is returned
  have hres : ∀ w' id s' c', Inv w' → Ext t w w' → ParSnap w' cur s' c' lp (some k) m → c'.low = c.low →
      InnerChain.leftSibling k c = some id → Q (id, s') w' := by
    intro w' id s' c' hi' he hps' hlow hl
    have hps1 := hps.mono he.mono
    obtain ⟨hwf, hids, _, _⟩ := hps1.wf hi'
    have hb : Below c.high k := by
      unfold InnerChain.leftSibling InnerChain.leftStart at hl
      apply Classical.byContradiction
      intro hb
      rw [if_neg (show ¬ (c.high.2 = INVALID ∨ k < c.high.1) from hb)] at hl
      cases hl
    obtain ⟨l', hid⟩ := hids _ (InnerChain.leftSibling_mem hi'.lo_invalid hwf hb hl)
    have hcases : (id = c'.low.2 ∧ l' = lp) ∨ ∃ key, l' = some key ∧ Above lp key ∧ key < k := by
      rcases InnerChain.leftSibling_weak hi'.lo_invalid hwf hb hl with h | ⟨key, h1, h2, h3⟩
      · left
        refine ⟨by rw [hlow]; exact h, ?_⟩
        have := (InnerChain.WF.low_spec hwf).1
        rw [← h] at this
        simpa [World.lo, hid] using this
      · right
        refine ⟨key, ?_, h2, h3⟩
        simpa [World.lo, hid] using h1
    refine H w' id s' c' l' hi' he ⟨hps'.node, hps'.clean, hps'.snap, hps'.info, hid, ?_⟩ ?_ ?_
    · rcases hcases with h | ⟨key, h1, h2, _⟩
      · exact Or.inl h.1
      · exact Or.inr ⟨key, h1, h2⟩
    · intro l n hx
      rw [hps1.cinfo] at hx
      cases hx
      refine ⟨l', hid, fun y hy => ⟨k, rfl, ?_⟩⟩
      rcases hcases with ⟨_, rfl⟩ | ⟨key, rfl, _, h3⟩
      · exact le_of_lt (habove y hy)
      · cases hy
        exact le_of_lt h3
    · rintro rfl
      have := hps1.cinfo
      rw [hid] at this
      rcases hcases with ⟨h1, rfl⟩ | ⟨key, rfl, _, h3⟩
      · cases this
        exact lt_irrefl _ (habove _ rfl)
      · cases this
        exact lt_irrefl _ h3
  unfold findLeftSibling
  rw [hps.node]
  show wp t allow (match c.leftStart k with | none => _ | some (.found id) => _ | some .sawMerge => _) Q w
  cases hst : c.leftStart k with
  | none => exact A.leftSibling
  | some r =>
    cases r with
    | found id =>
      exact hres w id s c hi (Ext.refl t w) hps rfl (by simp [InnerChain.leftSibling, hst])
    | sawMerge =>
      obtain ⟨hwf, hids, _, _⟩ := hps.wf hi
      have hcon := InnerChain.consolidate_spec hi.lo_invalid hwf (c.depth + 1)
      show wp t allow (match c.consolidate (c.depth + 1) with | none => _ | some b => _) Q w
      rw [hcon]
      apply wp_seq
      apply wp_allocate _ _ (by exact rfl)
      intro w1 p hi1 hr1 hp hop _ _
      apply wp_seq
      have hop1 : ∀ w2, Rely t w1 w2 → w2.ow p = .mine t := fun w2 hr => (hr.2.ow _ (by rw [hop]; exact Or.inl rfl)).trans hop
      have htail : ∀ w' s' c', Inv w' → Ext t w w' → ParSnap w' cur s' c' lp (some k) m → c'.low = c.low →
          wp t allow (match (InnerChain.base c.low c.high (c.depth + 1) (c.low :: c.seps)).leftRec c.depth k [] with
            | some (.found id) => pure (id, s')
            | _ => .fail .leftSibling : Prog K V (NodeId × Snap K V)) Q w' := by
        intro w' s' c' hi' he hps' hlow
        cases hl : (InnerChain.base c.low c.high (c.depth + 1) (c.low :: c.seps)).leftRec c.depth k [] with
        | none => exact A.leftSibling
        | some r =>
          cases r with
          | sawMerge => exact A.leftSibling
          | found id =>
            refine hres w' id s' c' hi' he hps' hlow ?_
            simp only [InnerChain.leftSibling, hst, hcon, hl]
      refine wp_putParent hi1 (hps.mono hr1.1) hp ((InnerChain.consolidated_wf hwf _).mono hr1.1.lo) ?_ rfl rfl rfl
        (fun w1 => (owPut w1.ow s.id p s.ptr (.owed t) [], w1.del)) ?_ ?_ ?_
      · intro i hmem
        exact (hids i (InnerChain.consolidated_ids hwf _ hmem)).imp fun l hl => hr1.1.info _ _ hl
      · intro w2 hi2 hr2 _ hput
        exact gok_base hi2 hput (hps.node ▸ hps.clean) (hop1 w2 hr2) rfl (fun r hr => Or.inl hr) _
      · intro w2 hi2 hr2 hput hi2' he2 hps2
        simp only [if_true]
        apply wp_seq
        apply wp_seq
        apply wp_addGarbage
        · exact Or.inl (owPut_old (hop1 w2 hr2) (hi2.ow_tab hput.info hput.at_ hput.notRemoved))
        intro w3 hi3 hr3 _ hgone
        have he3 : Ext t w1 w3 := by
          refine (he2.trans hr3.mid).ext (fun q hq => ?_) (fun i hq => hr2.2.lockB i (hr3.lockB i hq))
          exact hr2.2.owB q (owPut_owed' (hr3.owB q hq) (by rintro rfl; rw [hgone] at hq; cases hq))
        exact htail w3 _ _ hi3 (hr1.ext.trans he3) (hps2.mono hr3.mono) rfl
      · intro w2 hi2 hr2
        simp only [Bool.false_eq_true, if_false]
        apply wp_seq
        apply wp_seq
        apply wp_addGarbage _ (Or.inr ⟨hop1 w2 hr2, _, hr2.1.heap _ _ hp, Or.inl rfl⟩)
        intro w3 hi3 hr3 _ _
        have he := hr1.ext.trans (hr2.ext.trans hr3)
        exact htail w3 s c hi3 he (hps.mono he.mono) rfl

/-- Specification of FinishPartialSMO. -/
def FinSpec (t : Tid) (allow : Fail → Prop) (start : Nat) (finish : Ctx K V → Prog K V (Option (Ctx K V))) : Prop :=
  ∀ (w : World K V) (ctx : Ctx K V), Inv w → Loaded allow start w ctx → ∀ (Q : Option (Ctx K V) → World K V → Prop),
    (∀ w' r, Inv w' → Ext t w w' → Res allow start ctx.cur.id r w' → Q r w') → wp t allow (finish ctx) Q w

theorem Res.of_eq {a b : NodeId} {r : Option (Ctx K V)} (h : a = b) (hr : Res allow start a r w) : Res allow start b r w := h ▸ hr

theorem Res.trans {a b : NodeId} {r : Option (Ctx K V)} (h : LoLe w a b) (hr : Res allow start b r w) : Res allow start a r w := by
  intro ctx' e
  obtain ⟨h1, h2⟩ := hr ctx' e
  exact ⟨h1, h.trans h2⟩

theorem wp_settle (A : Allowed allow) {finish : Ctx K V → Prog K V (Option (Ctx K V))} (hf : FinSpec t allow start finish) (hi : Inv w)
    {ctx : Ctx K V} (hl : Loaded allow start w ctx) {Q : Option (Ctx K V) → World K V → Prop}
    (H : ∀ w' r, Inv w' → Ext t w w' → Res allow start ctx.cur.id r w' → Q r w') :
    wp t allow (settle finish ctx) Q w := by
  obtain ⟨lk, n, hx, _⟩ := hl.snap.ok hi
  unfold settle
  apply wp_seq
  apply hf w ctx hi hl
  intro w1 r hi1 he1 hr
  cases r with
  | none => exact H w1 _ hi1 he1 Res.none
  | some ctx1 =>
    obtain ⟨hs1, hle1⟩ := hr ctx1 rfl
    show wp t allow (tryConsolidate ctx1 >>= _) Q w1
    apply wp_seq
    apply wp_tryConsolidate hi1 hs1
    intro w2 ctx2 hi2 he2 hs2 hid
    apply wp_adjustSize A hi2 hs2
    intro w3 r hi3 he3 hr
    refine H w3 r hi3 (he1.trans (he2.trans he3)) (hr.of_eq hid |>.trans ?_)
    exact hle1.mono (he2.trans he3).mono (he1.mono.info _ _ hx)

/-- Leaves are the nodes of level 0. -/
theorem NodeOK.leaf_iff {id : NodeId} {lk : Option K} {n : Nat} {node : Node K V} (h : NodeOK w id lk n node) :
    node.isLeaf = true ↔ n = 0 := by
  have hb := h.1
  rw [← Node.strip_isLeaf]
  cases hst : node.strip with
  | leaf c => rw [hst] at hb; simp [Node.isLeaf, hb.2.2.2.1]
  | inner c =>
    rw [hst] at hb
    obtain ⟨m, h1, _⟩ := hb.2.2.2
    simp [Node.isLeaf, h1]

theorem wp_jump (A : Allowed allow) {finish : Ctx K V → Prog K V (Option (Ctx K V))} (hf : FinSpec t allow start finish) (hi : Inv w)
    {ctx : Ctx K V} (hsn : SnapOK w ctx.cur) (hst : start < w.sets.length) {id : NodeId} {l l' : Option K} {n : Nat}
    (hx : w.info ctx.cur.id = some (l, n)) (hx' : w.info id = some (l', n)) (hne : ctx.cur.id ≠ id)
    (hp : ParOK allow w id ctx.par ctx.level) {Q : Option (Ctx K V) → World K V → Prop}
    (H : ∀ w' r, Inv w' → Ext t w w' → Res allow start id r w' → Q r w') :
    wp t allow (jump finish id ctx) Q w := by
  unfold jump
  apply wp_seq
  apply wp_getNode hi hx'
  intro w1 p nd hi1 hr1 hat
  have hok := (hi1.at_ok (hr1.1.info _ _ hx') hat).2
  obtain ⟨l1, n1, e1, e2⟩ := (hsn.mono hr1.1).ok hi1
  rw [hr1.1.info _ _ hx] at e1
  cases e1
  have hk : nd.isLeaf = ctx.cur.node.isLeaf := by
    rw [Bool.eq_iff_iff, hok.leaf_iff, e2.leaf_iff]
  show wp t allow (if nd.isLeaf ≠ ctx.cur.node.isLeaf then _ else _) Q w1
  rw [if_neg (by simp [hk]), if_neg hne]
  apply wp_settle A hf hi1 (loaded_of_at hi1 (st_mono hr1.1 hst) (hr1.1.info _ _ hx') hat (hp.mono hr1.1))
  intro w' r hi' he hr
  exact H w' r hi' (hr1.ext.trans he) hr

/-- Result of JumpToLeftSibling on the removed node `cur`. -/
theorem wp_jumpLeft (A : Allowed allow) {finish : Ctx K V → Prog K V (Option (Ctx K V))} (hf : FinSpec t allow start finish) (hi : Inv w)
    {ctx : Ctx K V} (hl : Loaded allow start w ctx) (hrem : ctx.cur.node.isRemove = true) {Q : Option (Ctx K V) → World K V → Prop}
    (H : ∀ w' r, Inv w' → Ext t w w' → (∀ ctx', r = some ctx' →
      Settled allow start w' ctx' ∧ LoLe w' ctx.cur.id ctx'.cur.id ∧ ctx'.cur.node.high.2 = ctx.cur.id) → Q r w') :
    wp t allow (jumpLeft finish ctx) Q w := by
  have hnone : ∀ w', Inv w' → Ext t w w' → Q none w' := fun w' hi' he => H w' _ hi' he (fun _ h => by cases h)
  unfold jumpLeft
  apply wp_seq
  apply wp_parent A hl.par
  intro s c lp lc m hpar hlv hps
  by_cases hlow : s.node.low.2 = ctx.cur.id
  · rw [if_pos hlow]; exact hnone w hi (Ext.refl t w)
  rw [if_neg hlow]
  apply wp_seq
  apply wp_getNode hi hps.info
  intro w1 p nd hi1 hr1 hat
  by_cases hp : p ≠ s.ptr
  · rw [if_pos hp]; exact hnone w1 hi1 hr1.ext
  rw [if_neg hp]
  have hps1 := hps.mono hr1.1
  obtain ⟨k, rfl⟩ : ∃ k, lc = some k := by
    cases lc with
    | some k => exact ⟨k, rfl⟩
    | none => exact absurd ⟨_, _, _, hps.cinfo, hl.rem hrem, hrem⟩ (hi.keep _ _ hps.cinfo)
  have hk : ctx.cur.node.low.1 = k := low_of_info hi1 (hl.snap.mono hr1.1) hps1.cinfo
  rw [hk]
  apply wp_seq
  apply wp_findLeftSibling A hi1 hps1 (fun e => hlow (by rw [hps.node]; exact e.symm))
  intro w2 id s' c' l' hi2 he2 hps2 hle hne
  have he := hr1.ext.trans he2
  apply wp_seq
  refine wp_jump A hf hi2 (ctx := { ctx with par := .snap s' }) (hl.snap.mono he.mono) (st_mono he.mono hl.st)
    (he.mono.info _ _ hps.cinfo) hps2.cinfo (fun h => hne h.symm) (ParOK.snap hlv hps2) ?_
  intro w3 r hi3 he3 hr
  cases r with
  | none => exact hnone w3 hi3 (he.trans he3)
  | some ctx' =>
    show wp t allow (if ctx.cur.id ≠ ctx'.cur.node.high.2 then _ else _) Q w3
    by_cases hh : ctx.cur.id ≠ ctx'.cur.node.high.2
    · rw [if_pos hh]; exact hnone w3 hi3 (he.trans he3)
    rw [if_neg hh]
    obtain ⟨h1, h2⟩ := hr ctx' rfl
    refine H w3 _ hi3 (he.trans he3) ?_
    intro ctx'' e
    cases e
    refine ⟨h1, (hle.mono he3.mono (he.mono.info _ _ hps.cinfo)).trans h2, ?_⟩
    exact (Classical.byContradiction fun h => hh (fun e => h e.symm))

/-- The merged node. -/
theorem mergeOK_of (hi : Inv w) {id rid : NodeId} {lk : Option K} {l : Nat} {o n q : Ptr} {old right right' new : Node K V}
    (hx : w.info id = some (lk, l)) (hat : w.At id o old) (hc : old.clean = true) (hn : w.mem.heap n = some new)
    (hrid : w.info rid = some (some old.high.1, l)) (hh : old.high.2 = rid) (hrat : w.At rid q right) (hrem : right.isRemove = true)
    (hst : right.strip = right') (hmerge : mergeNode rid old right' = some new) (hon : w.ow n = .mine t) (hkn : w.mem.kids n = [o, q]) :
    MergeOK t w id lk l o old n new rid q right old.high.1 (owPut w.ow id n o (.cell n) (w.mem.kids q), w.del) ∧ new.clean = true ∧ new.merged = some (old.high.1, rid) := by
  have hro := (hi.at_ok hrid hrat).2
  have hlo := (hi.at_ok hx hat).2
  have hrb := hro.1
  have hlb := hlo.1
  rw [hst] at hrb
  rw [Node.strip_of_clean hc] at hlb
  have hridne := (hi.ids _ _ hrid).1
  have hhe : old.high = (old.high.1, rid) := by rw [← hh]
  have hrh : right.high = right'.high := by rw [← hst, Node.strip_high]
  have hbel : ∀ k, lk = some k → Below right'.high k := by
    intro k hk
    have h1 : k < old.high.1 := (hlb.2.1 k hk).resolve_left (by rw [hh]; exact hridne)
    exact below_of_le (hrb.2.1 _ rfl) (le_of_lt h1)
  have hrr : ∀ k v, right.Has k v ↔ right'.Has k v := fun k v => by rw [← hst, Node.Has_strip]
  have hdr : ¬ w.dead rid := by
    have hnr := Node.not_remove_of_clean hc
    have hnd := hi.not_dead hat hnr
    rcases hi.next l id o old ⟨⟨lk, hx⟩, hnd⟩ hat with h | h
    · rw [hh] at h; exact absurd h hridne
    · rw [hh] at h; exact h.2
  have hgok : new.isMerge = true → (∀ r ∈ new.eff, r ∈ old.eff ∨ r ∈ right'.eff) →
      GOK t w (w.merge id n rid (owPut w.ow id n o (.cell n) (w.mem.kids q), w.del)) := by
    intro hm heff
    refine gok_merge hi hx hat hc hn hrid hdr hrat hrem hon hkn hm ?_
    rw [← Node.eff_strip right, hst]
    exact heff
  have hdead : (w.merge id n rid (owPut w.ow id n o (.cell n) (w.mem.kids q), w.del)).dead rid := Or.inr rfl
  cases old with
  | leaf a =>
    cases right' with
    | inner b => cases hmerge
    | leaf b =>
      cases hmerge
      refine ⟨⟨hx, hat, hc, hn, hrat, hrem, hhe, hridne, hrh.symm, rfl, ⟨⟨hrb.1, hbel, ?_, hlb.2.2.2.1, ?_, hlb.2.2.2.2.2⟩, ?_⟩, ?_, ?_, fun _ _ h => (by cases h), rfl⟩, rfl, rfl⟩
      · intro m hm
        cases hm
        exact hdead
      · obtain ⟨_, r2, _, r4⟩ := hrb.2.2.2
        exact ⟨hlb.2.2.2.2.1, r2, hhe, hridne, (r4 _ rfl).2, (r4 _ rfl).1⟩
      · intro _ _ h; cases h
      · intro k v
        rw [hrr]
        show (if a.high.1 ≤ k then b.Has k v else a.Has k v) ↔ a.Has k v ∨ b.Has k v
        by_cases hk : a.high.1 ≤ k
        · rw [if_pos hk]
          refine ⟨Or.inr, fun h => h.elim (fun h => ?_) (fun h => h)⟩
          have := (hlo.has_range (v := v) h).2
          have := this.resolve_left (by rw [hh]; exact hridne)
          exact absurd this (not_lt.mpr hk)
        · rw [if_neg hk]
          refine ⟨Or.inl, fun h => h.elim (fun h => h) (fun h => ?_)⟩
          have := (hro.has_range (v := v) ((hrr k v).mpr h)).1 _ rfl
          exact absurd this hk
      · exact hgok rfl (fun r hr => by cases hr)
  | inner a =>
    cases right' with
    | leaf b => cases hmerge
    | inner b =>
      cases hmerge
      refine ⟨⟨hx, hat, hc, hn, hrat, hrem, hhe, hridne, hrh.symm, rfl, ⟨⟨hrb.1, hbel, ?_, ?_⟩, ?_⟩, ?_, ?_, fun _ _ h => (by cases h), rfl⟩, rfl, rfl⟩
      · intro m hm
        cases hm
        exact hdead
      · obtain ⟨m, h1, h2, h3⟩ := hlb.2.2.2
        obtain ⟨m', r1, r2, r3⟩ := hrb.2.2.2
        have : m' = m := by omega
        subst this
        refine ⟨m', h1, ⟨h2, r2, hhe, hridne⟩, ?_⟩
        intro i hmem
        rcases List.mem_append.mp hmem with h | h
        · exact r3 i h
        · exact h3 i h
      · intro _ _ h; cases h
      · intro k v
        rw [hrr]
        exact ⟨fun h => h.elim, fun h => h.elim (fun h => h) (fun h => h)⟩
      · refine hgok rfl fun r hr => ?_
        obtain ⟨y, y1, rfl⟩ := List.mem_map.mp hr
        rcases List.mem_cons.mp y1 with rfl | y1
        · exact Or.inl List.mem_cons_self
        · rcases List.mem_append.mp y1 with y1 | y1
          · exact Or.inl (List.mem_map.mpr ⟨y, List.mem_cons_of_mem _ y1, rfl⟩)
          · rcases List.mem_cons.mp y1 with rfl | y1
            · exact Or.inr List.mem_cons_self
            · exact Or.inr (List.mem_map.mpr ⟨y, List.mem_cons_of_mem _ y1, rfl⟩)

theorem merge_children {heap : Ptr → Option (Node K V)} {id : NodeId} {a b r m : Node K V} {o q : Ptr} (hm : mergeNode id a r = some m)
    (hr : b.isRemove = true) (hst : b.strip = r) (ha : heap o = some a) (hb : heap q = some b) : ChildrenOk heap [o, q] m := by
  subst hst
  cases b with
  | leaf d =>
    cases d with
    | remove i d =>
      cases a with
      | leaf c => cases hm; exact ⟨o, q, i, rfl, ha, hb⟩
      | inner c => cases hm
    | _ => cases hr
  | inner d =>
    cases d with
    | remove i d =>
      cases a with
      | inner c => cases hm; exact ⟨o, q, i, rfl, ha, hb⟩
      | leaf c => cases hm
    | _ => cases hr

theorem wp_finishRemove (A : Allowed allow) {finish : Ctx K V → Prog K V (Option (Ctx K V))} (hf : FinSpec t allow start finish) (hi : Inv w)
    {ctx : Ctx K V} (hl : Loaded allow start w ctx) (hrem : ctx.cur.node.isRemove = true) {right : Node K V}
    (hright : ctx.cur.node.strip = right) {Q : Option (Ctx K V) → World K V → Prop}
    (H : ∀ w' r, Inv w' → Ext t w w' → Res allow start ctx.cur.id r w' → Q r w') :
    wp t allow (finishRemove finish ctx right) Q w := by
  obtain ⟨lr, nr, hxr, _⟩ := hl.snap.ok hi
  unfold finishRemove
  apply wp_seq
  apply wp_jumpLeft A hf hi hl hrem
  intro w1 r hi1 he1 hr
  cases r with
  | none => exact H w1 _ hi1 he1 Res.none
  | some left =>
    obtain ⟨hs1, hle1, hh1⟩ := hr left rfl
    have hxr1 := he1.mono.info _ _ hxr
    have hrid : ctx.cur.id ≠ INVALID := (hi1.ids _ _ hxr1).1
    obtain ⟨ll, n, hxl, hol⟩ := hs1.snap.ok hi1
    have hxh := hol.high.resolve_left (by rw [hh1]; exact hrid)
    rw [hh1, hxr1] at hxh
    cases hxh
    have hor := (hi1.at_ok hxr1 (he1.mono.removedAt hxr (hl.rem hrem) hrem)).2
    show wp t allow (match mergeNode ctx.cur.id left.cur.node right with | none => .fail .kind | some m => _) Q w1
    cases hm : mergeNode ctx.cur.id left.cur.node right with
    | none =>
      exfalso
      have h1 := hol.leaf_iff
      have h2 := hor.leaf_iff
      rw [← Node.strip_isLeaf, hright] at h2
      cases hln : left.cur.node with
      | leaf a =>
        cases right with
        | leaf b => rw [hln] at hm; cases hm
        | inner b =>
          rw [hln] at h1
          have := h2.mpr (h1.mp rfl)
          cases this
      | inner a =>
        cases right with
        | leaf b =>
          rw [hln] at h1
          have := h1.mpr (h2.mp rfl)
          cases this
        | inner b => rw [hln] at hm; cases hm
    | some m =>
      apply wp_seq
      apply wp_allocate _ _ (merge_children hm hrem hright hs1.snap.heap (he1.mono.heap _ _ hl.snap.heap))
      intro w2 p hi2 hr2 hp2 hop hkp _
      apply wp_seq
      apply wp_replace hi2 (hr2.1.info _ _ hxl)
      · intro w3 hi3 hr3 htab
        have he3 := hr2.trans hr3
        have hs3 := hs1.mono he3.1
        have hat := hs3.snap.at htab
        obtain ⟨hok, hc, hmm⟩ := mergeOK_of hi3 (he3.1.info _ _ hxl) hat hs1.clean (hr3.1.heap _ _ hp2) (he3.1.info _ _ hxr1) hh1
          ((he1.mono.trans he3.1).removedAt hxr (hl.rem hrem) hrem) hrem hright hm
          ((hr3.2.ow _ (by rw [hop]; exact Or.inl rfl)).trans hop) ((hr3.1.gh.kids _ _ hp2).trans hkp)
        obtain ⟨g1, g2⟩ := next_merge (t := t) hi3 hok
        refine ⟨_, rfl, g1, g2, ?_⟩
        rw [if_pos rfl]
        generalize hw4 : w3.merge left.cur.id p ctx.cur.id _ = w4 at g1 g2 hok
        have he4 : Ext t w1 w4 := he3.ext.trans ⟨g1.1, by rw [← hw4]; rfl, fun q hq => by rw [← hw4] at hq; exact owPut_owed hq, fun i hq => by rw [← hw4] at hq; exact hq⟩
        have hs4 : Settled allow start w4 { left with cur := ⟨left.cur.id, p, m⟩ } := by
          have hat4 : w4.At left.cur.id p m := hw4 ▸ hok.atId.mpr ⟨rfl, rfl⟩
          have hx4 := he4.mono.info _ _ hxl
          have hst4 := st_mono he4.mono hs1.st
          exact ⟨hst4, snap_of_at g2 hx4 hat4, hs1.par.mono he4.mono, hc, valid_of_at g2 hst4 hx4 hat4 hc⟩
        apply wp_finishMerge A g2 hs4 hmm
        intro w5 r hi5 he5 hr5
        refine H w5 r hi5 (he1.trans (he4.trans he5)) (Res.trans ?_ hr5)
        exact hle1.mono (he4.trans he5).mono hxr1
      · intro w3 hi3 hr3 _
        rw [if_neg (by simp)]
        exact H w3 _ hi3 (he1.trans (hr2.trans hr3).ext) Res.none

theorem Loaded.settled {ctx : Ctx K V} (hl : Loaded allow start w ctx) (hc : ctx.cur.node.clean = true) : Settled allow start w ctx :=
  ⟨hl.st, hl.snap, hl.par, hc, hl.valid hc⟩

theorem wp_finishSMO (A : Allowed allow) : ∀ fuel, FinSpec (K := K) (V := V) t allow start (finishSMO fuel)
  | 0 => fun _ _ _ _ _ _ => trivial
  | fuel + 1 => by
    intro w ctx hi hl Q H
    have ih := wp_finishSMO A fuel
    obtain ⟨lk, n, hx, ho⟩ := hl.snap.ok hi
    have hret : ctx.cur.node.clean = true → Q (some ctx) w := fun hc =>
      H w _ hi (Ext.refl t w) (Res.some (ctx := ctx) (hl.settled hc) (LoLe.refl _ _))
    obtain ⟨⟨id, ptr, node⟩, par, level⟩ := ctx
    simp only at ho hx hret H
    cases node with
    | leaf c =>
      cases c with
      | base low high items => exact hret rfl
      | ins k v i e c => exact hret rfl
      | del k v i e c => exact hret rfl
      | split k id' sib c =>
        have hwf : (LeafChain.split k id' sib c).WF := ho.1.2.2.2.2.1
        exact wp_finishSplit A hi (hl.settled rfl) hl.uniq rfl hwf.2.2.1 (hl.live rfl hwf.2.2.1) _ H
      | merge k id' r c => exact wp_finishMerge A hi (hl.settled rfl) rfl _ H
      | remove id' c => exact wp_finishRemove A ih hi hl rfl rfl H
    | inner c =>
      cases c with
      | base low high d items => exact hret rfl
      | ins item next loc c => exact hret rfl
      | del item prev next loc c => exact hret rfl
      | split item sib c =>
        obtain ⟨m, _, hwf, _⟩ := ho.1.2.2.2
        have hne : item.2 ≠ INVALID := ?_
        · exact wp_finishSplit A hi (hl.settled rfl) hl.uniq rfl hne (hl.live rfl hne) _ H
        intro e
        have : w.lo item.2 = some (some item.1) := hwf.2.2.1
        have e : item.2 = INVALID := e
        rw [e, hi.lo_invalid] at this
        cases this
      | merge k id' r c => exact wp_finishMerge A hi (hl.settled rfl) rfl _ H
      | remove id' c => exact wp_finishRemove A ih hi hl rfl rfl H
      | abort q c =>
        obtain ⟨h1, h2⟩ := ho.2 q c rfl
        obtain ⟨m, _, hwf, _⟩ := ho.1.2.2.2
        have hcl : (Node.inner c : Node K V).clean = true := Inv.not_remove_inner hwf
        apply ih w ⟨⟨id, q, .inner c⟩, par, level⟩ hi _ Q H
        refine ⟨hl.st, ⟨h1, h2⟩, hl.par, fun _ c h => (by cases h), fun h => ?_, fun _ => hl.uniq rfl, fun _ => hl.live rfl⟩
        rw [Node.not_remove_of_clean hcl] at h; cases h

end Tree
end BwTree
