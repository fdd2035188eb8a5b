import Verif.Proofs.TreeCtx

/-! The help-along functions. -/

namespace BwTree
namespace Tree

open Prog

set_option linter.unusedSectionVars false

variable {K V : Type} [LinearOrder K] [DecidableEq V] [Inhabited K]
variable {t : Tid} {allow : Fail → Prop} {w : World K V} {start : Nat}

/-- Result of a help-along function started on `ctx`: aborted, or a settled context on the same level. -/
def Res (allow : Fail → Prop) (start : Nat) (cur : NodeId) (r : Option (Ctx K V)) (w' : World K V) : Prop :=
  ∀ ctx', r = some ctx' → Settled allow start w' ctx' ∧ LoLe w' cur ctx'.cur.id

theorem Res.none {cur : NodeId} : Res allow start cur (none : Option (Ctx K V)) w := fun _ h => by cases h
theorem Res.some {ctx ctx' : Ctx K V} (h : Settled allow start w ctx') (h2 : LoLe w ctx.cur.id ctx'.cur.id) :
    Res allow start ctx.cur.id (some ctx') w := fun _ e => by cases e; exact ⟨h, h2⟩

/-- CAS of a new node onto the parent. `g` are the owners and the deleted separators afterwards. -/
theorem wp_putParent (hi : Inv w) {cur : NodeId} {s : Snap K V} {c : InnerChain K} {lp lc : Option K} {m : Nat}
    (hps : ParSnap w cur s c lp lc m) {p : Ptr} {c' : InnerChain K} (hp : w.mem.heap p = some (.inner c')) (hwf : c'.WF w.lo lp)
    (hids : ∀ i ∈ c'.childIds, ∃ l, w.info i = some (l, m)) (hh : c'.high = c.high) (hlow : c'.low = c.low)
    (hm : (Node.inner c' : Node K V).merged = none) (g : World K V → Gst)
    (hg : ∀ w1, Inv w1 → Rely t w w1 → ParSnap w1 cur s c lp lc m → PutOK w1 s.id lp (m + 1) s.ptr (.inner c) p (.inner c') →
      GOK t w1 (w1.put s.id p w1.lock (g w1))) {Q : Bool → World K V → Prop}
    (H1 : ∀ w1, Inv w1 → Rely t w w1 → PutOK w1 s.id lp (m + 1) s.ptr (.inner c) p (.inner c') → Inv (w1.put s.id p w1.lock (g w1)) →
      Mid t w (w1.put s.id p w1.lock (g w1)) → ParSnap (w1.put s.id p w1.lock (g w1)) cur ⟨s.id, p, .inner c'⟩ c' lp lc m →
      Q true (w1.put s.id p w1.lock (g w1)))
    (H0 : ∀ w', Inv w' → Rely t w w' → Q false w') : wp t allow (replace s.id p s.ptr) Q w := by
  have hcl : (Node.inner c' : Node K V).clean = true := by
    cases c' <;> first | rfl | exact hwf.elim
  apply wp_replace hi hps.info
  · intro w1 hi1 hr htab
    have hps1 := hps.mono hr.1
    obtain ⟨_, _, _, ho⟩ := hps1.wf hi1
    have hcc := hps.clean
    rw [hps.node] at ho hcc
    have hat := hps1.snap.at htab
    rw [hps.node] at hat
    have hput : PutOK w1 s.id lp (m + 1) s.ptr (.inner c) p (.inner c') :=
      ⟨hps1.info, hat, Node.not_remove_of_clean hcc, hr.1.heap _ _ hp,
        innerOK ho hcc (hwf.mono hr.1.lo) (fun i hmem => (hids i hmem).imp fun l hl => hr.1.info _ _ hl) hh hm, hh,
        fun h => by rw [Node.not_remove_of_clean hcl] at h; cases h⟩
    obtain ⟨g1, g2⟩ := next_same (t := t) hi1 hput hcc (fun q d e => by rw [e] at hcl; cases hcl) (fun _ _ => Iff.rfl) (hg w1 hi1 hr hps1 hput)
    refine ⟨_, rfl, g1, g2, H1 w1 hi1 hr hput g2 (hr.ext.mid.trans ⟨g1.1, rfl⟩) ?_⟩
    exact ⟨rfl, hcl, ⟨Or.inr ⟨rfl, rfl⟩, hput.heap⟩, hps1.info, hps1.cinfo, hlow ▸ hps.child⟩
  · intro w1 hi1 hr _
    exact H0 w1 hi1 hr

/-- After the parent is replaced: consolidate the current node and return. -/
theorem wp_consolidateCur (hi : Inv w) {ctx : Ctx K V} (hs : Settled allow start w ctx) {par : Par K V}
    (hpar : ParOK allow w ctx.cur.id par ctx.level) {Q : Option (Ctx K V) → World K V → Prop}
    (H : ∀ w' r, Inv w' → Ext t w w' → Res allow start ctx.cur.id r w' → Q r w') :
    wp t allow (consolidateNode ctx.cur >>= fun cur => (pure (some { ctx with par := par, cur := cur }) : Prog K V (Option (Ctx K V)))) Q w := by
  apply wp_seq
  apply wp_consolidateNode hi hs.snap hs.clean
  intro w' s' hi' he hsn hid hcl hsame
  apply wp_pure
  refine H w' _ hi' he ?_
  intro ctx' e
  cases e
  refine ⟨⟨st_mono he.mono hs.st, hsn, ?_, hcl, (hs.valid.mono he.mono).same hsame⟩, ?_⟩
  · show ParOK allow w' s'.id par ctx.level
    rw [hid]
    exact hpar.mono he.mono
  · show LoLe w' ctx.cur.id s'.id
    rw [hid]
    exact LoLe.refl _ _

theorem wp_postInnerInsert (hi : Inv w) {ctx : Ctx K V} (hs : Settled allow start w ctx) (hl : ctx.level ≠ 0)
    {s : Snap K V} (hpar : ctx.par = .snap s) {c : InnerChain K} {lp lc : Option K} {m : Nat} (hps : ParSnap w ctx.cur.id s c lp lc m)
    {item next : K × NodeId} {loc : Nat} (h1 : w.info item.2 = some (some item.1, m)) (h2 : Above lp item.1) (h3 : Below c.high item.1)
    (h4 : ¬ c.HasKey item.1) (h5 : c.LocOk item.1 loc) (h6 : ¬ w.del item.2) {Q : Option (Ctx K V) → World K V → Prop}
    (H : ∀ w' r, Inv w' → Ext t w w' → Res allow start ctx.cur.id r w' → Q r w') :
    wp t allow (postInnerInsert ctx item next loc) Q w := by
  unfold postInnerInsert
  apply wp_seq
  unfold parent
  rw [if_neg hl, hpar]
  show wp t allow (match s.node with | .leaf _ => .fail .kind | .inner c => _) Q w
  rw [hps.node]
  obtain ⟨hwf, hids, _, _⟩ := hps.wf hi
  apply wp_seq
  apply wp_allocate _ _ (by exact ⟨_, rfl, hps.node ▸ hps.snap.heap⟩)
  intro w1 p hi1 hr1 hp hop hkp _
  apply wp_seq
  have hlo : w1.lo item.2 = some (some item.1) := by simp [World.lo, hr1.1.info _ _ h1]
  refine wp_putParent hi1 (hps.mono hr1.1) hp ⟨hwf.mono hr1.1.lo, hlo, h2, h3, h4, h5⟩ ?_ rfl rfl rfl
    (fun w => (owPut w.ow s.id p s.ptr (.cell p) [], w.del)) ?_ ?_ ?_
  · intro i hi
    rcases List.mem_cons.mp hi with rfl | hi
    · exact ⟨_, hr1.1.info _ _ h1⟩
    · exact (hids i hi).imp fun l hl => hr1.1.info _ _ hl
  · intro w2 hi2 hr2 hps2 hput
    refine gok_delta hi2 hput (hps.node ▸ hps.clean) ((hr2.2.ow p (Or.inl hop)).trans hop) ((hr2.1.gh.kids _ _ hp).trans hkp) rfl (fun q c e => by cases e) ?_ rfl (fun r e => by cases e) _
    intro r hr
    simp only [Node.eff, InnerChain.seps, InnerChain.low, List.map_cons, List.map_append, List.mem_cons, List.mem_append, List.mem_map,
      List.mem_filter] at hr ⊢
    rcases hr with hr | ⟨x, ⟨hx, _⟩, hx2⟩ | hr | ⟨x, ⟨hx, _⟩, hx2⟩
    · exact Or.inl (Or.inl hr)
    · exact Or.inl (Or.inr ⟨x, hx, hx2⟩)
    · right
      subst hr
      intro hd
      rcases (hr1.1.trans hr2.1).gh.delNew _ _ _ h1 hd with h0 | h0
      · exact h6 h0
      · have hcc := hps.clean
        have hhp := hps.snap.heap
        rw [hps.node] at hcc hhp
        exact h0 s.id lp s.ptr c hps.info hps.snap.pub hhp hcc h2 h3 (Or.inl hput.at_.1)
    · exact Or.inl (Or.inr ⟨x, hx, hx2⟩)
  · intro w1' _ hr2 _ hi2 he2 hps2
    rw [if_pos rfl]
    have he := hr1.ext.trans (he2.ext (fun q hq => hr2.2.owB q (owPut_owed hq)) (fun i hq => hr2.2.lockB i hq))
    apply wp_consolidateCur hi2 (hs.mono he.mono) (ParOK.snap hl hps2)
    intro w' r hi' he' hr
    exact H w' r hi' (he.trans he') hr
  · intro w2 hi2 hr2
    rw [if_neg (by simp)]
    exact H w2 _ hi2 (hr1.trans hr2).ext Res.none

theorem wp_postInnerDelete (hi : Inv w) {ctx : Ctx K V} (hs : Settled allow start w ctx) (hl : ctx.level ≠ 0)
    {s : Snap K V} (hpar : ctx.par = .snap s) {c : InnerChain K} {lp lc : Option K} {m : Nat} (hps : ParSnap w ctx.cur.id s c lp lc m)
    {item prev next : K × NodeId} {loc : Nat} (h1 : item ∈ c.seps) (h2 : prev.2 = ctx.cur.id)
    (h2' : ∀ k, lc = some k → prev.1 = k) (h3 : c.LocOk item.1 loc) (h4 : w.dead item.2) {Q : Option (Ctx K V) → World K V → Prop}
    (H : ∀ w' r, Inv w' → Ext t w w' → Res allow start ctx.cur.id r w' → Q r w') :
    wp t allow (postInnerDelete ctx item prev next loc) Q w := by
  unfold postInnerDelete
  apply wp_seq
  unfold parent
  rw [if_neg hl, hpar]
  show wp t allow (match s.node with | .leaf _ => .fail .kind | .inner c => _) Q w
  rw [hps.node]
  obtain ⟨hwf, hids, _, _⟩ := hps.wf hi
  obtain ⟨x4, q4, nd4, hx4, hat4, hrm4⟩ := hi.dead _ h4
  obtain ⟨hst, hsp⟩ := InnerChain.WF.seps_spec hwf
  obtain ⟨hsep, hab, hbl⟩ := hsp item h1
  have hinfo : w.info item.2 = some (some item.1, m) := by
    obtain ⟨l, hl⟩ := hids _ (InnerChain.seps_mem_childIds hwf item h1)
    simp only [SepOk, World.lo, hl, Option.map_some, Option.some.injEq] at hsep
    rw [hl, hsep]
  apply wp_seq
  apply wp_allocate _ _ (by exact ⟨_, rfl, hps.node ▸ hps.snap.heap⟩)
  intro w1 p hi1 hr1 hp hop hkp _
  apply wp_seq
  have hlo : prev.2 = c.low.2 ∨ (SepOk w1.lo prev ∧ Above lp prev.1) := by
    rcases hps.child with hc | ⟨key, hk1, hk2⟩
    · exact Or.inl (h2.trans hc)
    · right
      rw [h2' key hk1]
      refine ⟨?_, hk2⟩
      simp only [SepOk, World.lo, h2, hr1.1.info _ _ hps.cinfo, Option.map_some, hk1, h2' key hk1]
  have hq4 : ∀ {w'}, Mono w w' → w'.mem.table item.2 = some q4 := fun hm => hm.removed _ _ _ _ hx4 hat4 hrm4
  have hown : ∀ {w2}, Inv w2 → Rely t w1 w2 → PutOK w2 s.id lp (m + 1) s.ptr (.inner c) p (.inner (.del item prev next loc c)) →
      w2.ow p = .mine t := fun _ hr2 _ => (hr2.2.ow p (Or.inl hop)).trans hop
  refine wp_putParent hi1 (hps.mono hr1.1) hp ⟨hwf.mono hr1.1.lo, ⟨item, h1, rfl⟩, hlo, h3⟩ ?_ rfl rfl rfl
    (fun w => (Lin.upd (owPut w.ow s.id p s.ptr (.cell p) []) q4 (.owed t), fun i => w.del i ∨ i = item.2)) ?_ ?_ ?_
  · intro i hi
    rcases List.mem_cons.mp hi with rfl | hi
    · exact ⟨lc, by rw [h2]; exact hr1.1.info _ _ hps.cinfo⟩
    · exact (hids i hi).imp fun l hl => hr1.1.info _ _ hl
  · intro w2 hi2 hr2 hps2 hput
    have hr := hr1.trans hr2
    have hcc := hps.clean
    rw [hps.node] at hcc
    refine gok_del hi2 hput hcc (hown hi2 hr2 hput) ((hr2.1.gh.kids _ _ hp).trans hkp) rfl (fun q c e => by cases e)
      (hr.1.info _ _ hinfo) (hr.1.dead _ h4) (hq4 hr.1) ?_ ?_ ?_ rfl hab hbl _
    · intro r hr
      simp only [Node.eff, InnerChain.seps, InnerChain.low, List.map_cons, List.mem_cons, List.mem_map, List.mem_filter] at hr ⊢
      rcases hr with hr | ⟨x, ⟨hx, _⟩, hx2⟩
      · exact Or.inl hr
      · exact Or.inr ⟨x, hx, hx2⟩
    · simp only [Node.eff, List.map_cons, List.mem_cons, List.mem_map]
      exact Or.inr ⟨item, h1, rfl⟩
    · simp only [Node.eff, InnerChain.seps, InnerChain.low, List.map_cons, List.mem_cons, List.mem_map, List.mem_filter, not_or]
      refine ⟨fun e => ?_, ?_⟩
      · have := (InnerChain.WF.low_spec hwf).1
        rw [← e] at this
        simp only [World.lo, hinfo, Option.map_some, Option.some.injEq] at this
        exact lt_irrefl _ (hab item.1 this.symm)
      · rintro ⟨x, ⟨hx, hne⟩, hx2⟩
        have := (hsp x hx).1
        simp only [SepOk, World.lo, hx2, hinfo, Option.map_some, Option.some.injEq] at this
        simp [this] at hne
  · intro w2 hi2 hr2 hput hi2' he2 hps2
    rw [if_pos rfl]
    have he := hr1.ext.mid.trans he2
    apply wp_seq
    apply wp_getNode hi2' (he.mono.info _ _ hx4)
    intro w3 q3 nd3 hi3 hr3 hat3
    have he3 := he.trans hr3.ext.mid
    have hrem : nd3.isRemove = true := removed_at (he3.mono.rem (hi.dead _ h4)) hat3
    have hq3 : q3 = q4 := by
      have := hq4 he3.mono
      rw [hat3.1] at this
      exact Option.some.inj this
    subst hq3
    have hoq : w3.ow q3 = .owed t := by
      have : (w2.put s.id p w2.lock (Lin.upd (owPut w2.ow s.id p s.ptr (.cell p) []) q3 (.owed t), fun i => w2.del i ∨ i = item.2)).ow q3 = .owed t :=
        Lin.upd_self _ _ _
      exact (hr3.2.ow q3 (Or.inr this)).trans this
    simp only [hrem, if_true]
    apply wp_seq
    apply wp_addGarbage _ (Or.inl hoq)
    intro w4 hi4 hr4 _ hgone
    have he4 : Ext t w w4 := by
      refine (he3.trans hr4.mid).ext (fun q hq => ?_) (fun i hq => (hr1.trans hr2).2.lockB i (hr3.2.lockB i (hr4.lockB i hq)))
      have h1 : Lin.upd (owPut w2.ow s.id p s.ptr (.cell p) []) q3 (.owed t) q = .owed t := hr3.2.owB q (hr4.owB q hq)
      rw [Lin.upd_ne _ _ (by rintro rfl; rw [hgone] at hq; cases hq)] at h1
      exact (hr1.trans hr2).2.owB q (owPut_owed h1)
    apply wp_consolidateCur hi4 (hs.mono he4.mono) (ParOK.snap hl (hps2.mono (hr3.1.trans hr4.mono)))
    intro w' r hi' he' hr
    exact H w' r hi' (he4.trans he') hr
  · intro w2 hi2 hr2
    rw [if_neg (by simp)]
    exact H w2 _ hi2 (hr1.trans hr2).ext Res.none

/-- The low key of a node below a parent. -/
theorem low_of_info (hi : Inv w) {s : Snap K V} (hs : SnapOK w s) {k : K} {n : Nat} (hx : w.info s.id = some (some k, n)) :
    s.node.low.1 = k := by
  obtain ⟨lk, n', e1, e2⟩ := hs.ok hi
  rw [hx] at e1
  cases e1
  have hb := e2.1
  rw [← Node.strip_low]
  cases hst : s.node.strip with
  | leaf c => rw [hst] at hb; exact (hb.2.2.2.2.2.2 k rfl).2
  | inner c =>
    rw [hst] at hb
    obtain ⟨m, _, hwf, _⟩ := hb.2.2.2
    exact (InnerChain.WF.low_spec hwf).2.1 k rfl

theorem wp_finishMerge (A : Allowed allow) (hi : Inv w) {ctx : Ctx K V} (hs : Settled allow start w ctx) {item : K × NodeId}
    (hm : ctx.cur.node.merged = some item) (high : K × NodeId) {Q : Option (Ctx K V) → World K V → Prop}
    (H : ∀ w' r, Inv w' → Ext t w w' → Res allow start ctx.cur.id r w' → Q r w') :
    wp t allow (finishMerge ctx item high) Q w := by
  unfold finishMerge
  apply wp_seq
  apply wp_parent A hs.par
  intro s c lp lc m hpar hl hps
  apply wp_seq
  apply wp_getNode hi hps.info
  intro w1 p n hi1 hr1 hat
  by_cases hp : p ≠ s.ptr
  · rw [if_pos hp]; exact H w1 _ hi1 hr1.ext Res.none
  rw [if_neg hp, hps.node]
  have hs1 := hs.mono hr1.1
  have hps1 := hps.mono hr1.1
  show wp t allow (match c.findSep item.1 with | none => _ | some (none, _) => _ | some (some found, loc) => _) Q w1
  -- the merged node is removed; its key is above the lower end of the current node
  obtain ⟨lk, n', hx, hok⟩ := hs1.snap.ok hi1
  rw [hps1.cinfo] at hx
  cases hx
  have hb := hok.1
  rw [Node.strip_of_clean hs.clean] at hb
  have hrem : w1.dead item.2 := hb.2.2.1 item hm
  have habove : ∀ l, lc = some l → l < item.1 := by
    intro l hl
    cases hnode : ctx.cur.node with
    | leaf d =>
      rw [hnode] at hb hm
      cases d with
      | merge k id r d =>
        cases hm
        obtain ⟨_, _, _, _, hwf, _, h5⟩ := hb
        obtain ⟨e1, e2⟩ := h5 l hl
        have hne := LeafChain.rangeNE hwf.1
        obtain ⟨w1, w2, w3, w4, w5, w6⟩ := hwf
        rcases hne with hne | hne | hne
        · exact absurd hne e1
        · rw [w3] at hne; exact absurd hne w4
        · rw [w3] at hne
          have e2' : d.low.1 = l := e2
          rw [e2'] at hne; exact hne
      | _ => cases hm
    | inner d =>
      rw [hnode] at hb hm
      cases d with
      | merge k id r d =>
        cases hm
        obtain ⟨_, _, _, m', _, hwf, _⟩ := hb
        exact InnerChain.WF.above_mk hwf l hl
      | _ => cases hm
  cases hf : c.findSep item.1 with
  | none => exact A.mergeRange
  | some x =>
    obtain ⟨r, loc⟩ := x
    cases r with
    | none =>
      refine H w1 _ hi1 hr1.ext (Res.some (ctx := ctx) hs1 (LoLe.refl _ _))
    | some found =>
      show wp t allow (if found.2 ≠ item.2 then _ else _) Q w1
      by_cases hne : found.2 ≠ item.2
      · rw [if_pos hne]; exact A.mergeSep
      rw [if_neg hne]
      have hbelow : Below c.high item.1 := by
        apply Classical.byContradiction
        intro hb
        unfold InnerChain.findSep at hf
        rw [if_neg (show ¬ (c.high.2 = INVALID ∨ item.1 < c.high.1) from hb)] at hf
        cases hf
      obtain ⟨r', loc', f1, f2, f3, f4⟩ := InnerChain.findSep_spec hi1.lo_invalid (hps1.wf hi1).1 (hps1.lo_le hi1 _ habove) hbelow
      rw [hf] at f1
      cases f1
      obtain ⟨g1, g2⟩ := f2 found rfl
      have hfi : found = item := Prod.ext g2 (Classical.byContradiction hne)
      rw [hfi] at g1
      apply wp_postInnerDelete hi1 hs1 hl hpar hps1 g1 rfl ?_ f4 hrem
      · intro w' r hi' he' hr
        exact H w' r hi' (hr1.ext.trans he') hr
      · intro k hk
        subst hk
        exact low_of_info hi1 hs1.snap hps1.cinfo

theorem wp_finishSplitNonRoot (A : Allowed allow) (hi : Inv w) {ctx : Ctx K V} (hs : Settled allow start w ctx) (hu : NextUniq w ctx)
    {item : K × NodeId} (hitem : ctx.cur.node.high = item) (hinv : item.2 ≠ INVALID) (hlive : ¬ w.del item.2) (next : K × NodeId)
    {Q : Option (Ctx K V) → World K V → Prop}
    (H : ∀ w' r, Inv w' → Ext t w w' → Res allow start ctx.cur.id r w' → Q r w') :
    wp t allow (finishSplitNonRoot ctx item next) Q w := by
  unfold finishSplitNonRoot
  apply wp_seq
  apply wp_parent A hs.par
  intro s c lp lc m hpar hl hps
  have hdone : Q (some ctx) w := H w _ hi (Ext.refl t w) (Res.some (ctx := ctx) hs (LoLe.refl _ _))
  split
  · exact hdone
  rename_i hge
  have hbelow : Below c.high item.1 := by
    rw [hps.node] at hge
    apply Classical.byContradiction
    intro hb
    apply hge
    simp only [Below, not_or, not_lt] at hb
    exact hb
  rw [hps.node]
  show wp t allow (match c.findSep item.1 with | none => _ | some (some found, _) => _ | some (none, loc) => _) Q w
  obtain ⟨lk, n', hx, hok⟩ := hs.snap.ok hi
  rw [hps.cinfo] at hx
  cases hx
  have hhigh := hok.high
  rw [hitem] at hhigh
  have hinfo := hhigh.resolve_left hinv
  have habove : ∀ l, lc = some l → l < item.1 := by
    intro l hl
    have := hok.below l hl
    rw [hitem] at this
    exact this.resolve_left hinv
  have hab := hps.lo_le hi _ habove
  obtain ⟨hwf, hids, _, _⟩ := hps.wf hi
  obtain ⟨r, loc, f1, f2, f3, f4⟩ := InnerChain.findSep_spec hi.lo_invalid hwf hab hbelow
  rw [f1]
  cases r with
  | none =>
    show wp t allow (postInnerInsert ctx item next loc) Q w
    exact wp_postInnerInsert hi hs hl hpar hps hinfo hab hbelow (f3 rfl) f4 hlive H
  | some found =>
    show wp t allow (if found.2 ≠ item.2 then _ else _) Q w
    by_cases hne : found.2 ≠ item.2
    · rw [if_pos hne]
      obtain ⟨g1, g2⟩ := f2 found rfl
      have hmem := InnerChain.seps_mem_childIds hwf found g1
      obtain ⟨l, hfi⟩ := hids _ hmem
      have hsep := ((InnerChain.WF.seps_spec hwf).2 found g1).1
      simp only [SepOk, World.lo, hfi, Option.map_some, Option.some.injEq] at hsep
      subst hsep
      rw [g2] at hfi
      have hrem : w.Removed found.2 := by
        refine hu (Node.not_remove_of_clean hs.clean) s c hpar hps.node found.2 hmem _ hfi ?_ ?_
        · rw [hitem]; exact hinfo
        · rw [hitem]; exact hne
      apply wp_seq
      apply wp_getNode hi hfi
      intro w1 p n hi1 hr1 hat
      have : n.isRemove = true := removed_at (hr1.1.rem hrem) hat
      simp only [this, if_true]
      exact H w1 _ hi1 hr1.ext Res.none
    · rw [if_neg hne]; exact hdone

theorem wp_finishSplitRoot (A : Allowed allow) (hi : Inv w) {ctx : Ctx K V} (hs : Settled allow start w ctx)
    {item : K × NodeId} (hitem : ctx.cur.node.high = item) (hinv : item.2 ≠ INVALID)
    {Q : Option (Ctx K V) → World K V → Prop}
    (H : ∀ w' r, Inv w' → Ext t w w' → Res allow start ctx.cur.id r w' → Q r w') :
    wp t allow (finishSplitRoot ctx item) Q w := by
  unfold finishSplitRoot
  apply wp_seq
  apply wp_nextNodeId
  intro w1 id hi1 hr1 hown1
  apply wp_seq
  apply wp_allocate _ _ (by exact rfl)
  intro w2 p hi2 hr2 hp2 hop2 _ _
  apply wp_seq
  apply wp_installNew (hr2.2.own id hown1).1 A.tableFull
  intro w3 hi3 he3 hown3 htab3 hlt hof3
  have hop3 : w3.ow p = .mine t := (hof3 p (Or.inl hop2)).trans hop2
  have he : Ext t w w3 := (hr1.trans hr2).ext.trans he3
  have hp3 := he3.mono.heap _ _ hp2
  apply wp_seq
  apply wp_installRoot
  · intro w4 hi4 hr4 hroot
    have hm4 := he.mono.trans hr4.1
    obtain ⟨n, hrt, hmax⟩ := hi4.root
    have ho4 := hr4.2.own id hown3
    have hrt' := hrt
    rw [hroot] at hrt'
    -- the split item is a node of the old root's level
    obtain ⟨lk, n', hx, hok⟩ := (hs.snap.mono hm4).ok hi4
    rw [hrt'] at hx
    cases hx
    have hhigh := hok.high
    rw [hitem] at hhigh
    have hinfo := hhigh.resolve_left hinv
    have hat : w4.At id p (.inner (.base (default, ctx.cur.id) (default, INVALID) 0 [(default, ctx.cur.id), item])) :=
      ⟨ho4.2.trans htab3, hr4.1.heap _ _ hp3⟩
    have hne : ∀ {i x}, w4.info i = some x → i ≠ id := by
      rintro i x hx rfl
      rw [(hi4.own _ _ ho4.1).1] at hx; cases hx
    have hlo : ∀ {i x}, w4.info i = some x → (w4.newRoot id p (n + 1 + 1) (Lin.upd w4.ow p (.tab id), w4.del)).info i = some x := by
      intro i x hx
      exact (Lin.upd_ne _ _ (hne hx)).trans hx
    have hnd : ∀ {i l}, w4.info i = some (l, n + 1) → ¬ w4.del i := by
      intro i l hil hd
      obtain ⟨a, b, q, d, e1, e2⟩ := hi4.dl.top i hd
      rw [hil] at e1
      cases e1
      exact absurd (hmax _ _ _ e2) (by omega)
    have hgok : GOK t w4 (w4.newRoot id p (n + 1 + 1) (Lin.upd w4.ow p (.tab id), w4.del)) := by
      refine gok_root hi4 ho4.1 hat rfl ((hr4.2.ow p (Or.inl hop3)).trans hop3) ?_
      intro r hr
      simp only [Node.eff, InnerChain.seps, InnerChain.low, List.map_cons, List.map_nil, List.tail_cons, List.mem_cons, List.not_mem_nil, or_false] at hr
      rcases hr with rfl | rfl
      · exact hnd hrt'
      · exact hnd hinfo
    have hok : RootOK t w4 id p (.inner (.base (default, ctx.cur.id) (default, INVALID) 0 [(default, ctx.cur.id), item])) (n + 1)
        (Lin.upd w4.ow p (.tab id), w4.del) := by
      refine ⟨ho4.1, hat, hlt, hrt, ⟨?_, fun q c h => by cases h⟩, rfl, rfl, hgok, fun q c h => by cases h⟩
      refine ⟨Or.inl rfl, fun k hk => (by cases hk), fun m hm => (by cases hm), n + 1, rfl, ?_, ?_⟩
      · refine ⟨?_, fun k hk => (by cases hk), rfl, by simp, ?_, Or.inl rfl, fun k hk => by cases hk⟩
        · simp only [World.lo, hlo hrt', Option.map_some]
        · intro x hx
          simp only [List.tail_cons, List.mem_singleton] at hx
          subst hx
          refine ⟨?_, fun l hl => (by cases hl), Or.inl rfl⟩
          simp only [SepOk, World.lo, hlo hinfo, Option.map_some]
      · intro i hi
        simp only [InnerChain.childIds, List.map_cons, List.map_nil, List.mem_cons, List.not_mem_nil, or_false] at hi
        rcases hi with rfl | rfl
        · exact ⟨none, hlo hrt'⟩
        · exact ⟨_, hlo hinfo⟩
    obtain ⟨g1, g2⟩ := next_root (t := t) hi4 hok
    refine ⟨_, rfl, g1, g2, ?_⟩
    rw [if_pos rfl]
    refine H _ _ g2 (he.trans (hr4.ext.trans ⟨g1.1, rfl, fun q hq => ?_, fun i hq => hq⟩)) Res.none
    by_cases hqp : q = p
    · have h1 : Lin.upd w4.ow p (.tab id) q = .owed t := hq
      rw [hqp, Lin.upd_self] at h1
      cases h1
    · exact (Lin.upd_ne _ _ hqp).symm.trans hq
  · intro w4 hi4 hr4
    rw [if_neg (by simp)]
    apply wp_seq
    apply wp_allocate _ _ (by exact ⟨_, rfl, hr4.1.heap _ _ hp3⟩)
    intro w5 f hi5 hr5 hf5 hof5 _ hfr5
    have hop5 : w5.ow p = .mine t := ((hr4.trans hr5).2.ow p (Or.inl hop3)).trans hop3
    have hpf : p ≠ f := by rintro rfl; exact hfr5 _ (hr4.1.heap _ _ hp3)
    apply wp_seq
    apply wp_addGarbage _ (Or.inr ⟨hof5, _, hf5, Or.inr ⟨_, rfl, (hr5.2.own _ (hr4.2.own _ hown3).1).1⟩⟩)
    intro w6 hi6 he6 hof6 _
    apply wp_seq
    have hp6 := he6.mono.heap _ _ ((hr4.trans hr5).1.heap _ _ hp3)
    apply wp_addGarbage _ (Or.inr ⟨(hof6 p hpf (Or.inl hop5)).trans hop5, _, hp6, Or.inl rfl⟩)
    intro w7 hi7 he7 _ _
    exact H w7 _ hi7 (he.trans ((hr4.trans hr5).ext.trans (he6.trans he7))) Res.none

theorem wp_finishSplit (A : Allowed allow) (hi : Inv w) {ctx : Ctx K V} (hs : Settled allow start w ctx) (hu : NextUniq w ctx)
    {item : K × NodeId} (hitem : ctx.cur.node.high = item) (hinv : item.2 ≠ INVALID) (hlive : ¬ w.del item.2) (next : K × NodeId)
    {Q : Option (Ctx K V) → World K V → Prop}
    (H : ∀ w' r, Inv w' → Ext t w w' → Res allow start ctx.cur.id r w' → Q r w') :
    wp t allow (finishSplit ctx item next) Q w := by
  unfold finishSplit
  apply wp_seq
  apply wp_onRoot hs.par
  · intro _
    rw [if_pos rfl]
    exact wp_finishSplitRoot A hi hs hitem hinv H
  · intro s _
    rw [if_neg (by simp)]
    exact wp_finishSplitNonRoot A hi hs hu hitem hinv hlive next H

theorem wp_tryConsolidate (hi : Inv w) {ctx : Ctx K V} (hs : Settled allow start w ctx) {Q : Ctx K V → World K V → Prop}
    (H : ∀ w' ctx', Inv w' → Ext t w w' → Settled allow start w' ctx' → ctx'.cur.id = ctx.cur.id → Q ctx' w') :
    wp t allow (tryConsolidate ctx) Q w := by
  unfold tryConsolidate
  split
  · exact H w ctx hi (Ext.refl t w) hs rfl
  · generalize (if ctx.cur.node.isLeaf = true then LEAF_CHAIN else INNER_CHAIN) = th
    split
    · exact H w ctx hi (Ext.refl t w) hs rfl
    · apply wp_seq
      apply wp_consolidateNode hi hs.snap hs.clean
      intro w' s' hi' he hsn hid hcl hsame
      refine H w' _ hi' he ⟨st_mono he.mono hs.st, hsn, ?_, hcl, (hs.valid.mono he.mono).same hsame⟩ hid
      show ParOK allow w' s'.id ctx.par ctx.level
      rw [hid]
      exact hs.par.mono he.mono

end Tree
end BwTree
