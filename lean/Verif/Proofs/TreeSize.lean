import Verif.Proofs.TreeHelp

/-! Size adjustment: removal of underflown nodes and installation of splits. -/

namespace BwTree
namespace Tree

open Prog

set_option linter.unusedSectionVars false

variable {K V : Type} [LinearOrder K] [DecidableEq V] [Inhabited K]
variable {t : Tid} {allow : Fail → Prop} {w : World K V} {start : Nat}

theorem wp_removeNode (A : Allowed allow) (hi : Inv w) {ctx : Ctx K V} (hs : Settled allow start w ctx)
    (hlow : ∀ s, ctx.par = .snap s → s.node.low.2 ≠ ctx.cur.id) {removed : Node K V} (hst : removed.strip = ctx.cur.node)
    (hab : ∀ q d, removed ≠ .inner (.abort q d)) (hmg : removed.isMerge = false) (hdl : removed.deletes = none) (hrid : removed.removedId = some ctx.cur.id) (heff : removed.eff = ctx.cur.node.eff)
    (hch : ∀ (heap : Ptr → Option (Node K V)) p, heap p = some ctx.cur.node → ChildrenOk heap [p] removed)
    (hhas : ∀ k v, removed.Has k v ↔ ctx.cur.node.Has k v)
    {Q : Option (Ctx K V) → World K V → Prop}
    (H : ∀ w' r, Inv w' → Ext t w w' → Res allow start ctx.cur.id r w' → Q r w') :
    wp t allow (removeNode ctx removed) Q w := by
  unfold removeNode
  apply wp_seq
  apply wp_parent A hs.par
  intro s c lp lc m hpar hl hps
  rw [hps.node]
  have hlc : lc ≠ none := by
    rcases hps.child with h | ⟨key, h, _⟩
    · have := hlow s hpar
      rw [hps.node] at this
      exact absurd h.symm this
    · rw [h]; simp
  show wp t allow (allocate (.inner (.abort s.ptr c)) [s.ptr] >>= _) Q w
  apply wp_seq
  apply wp_allocate _ _ (by exact ⟨rfl, hps.node ▸ hps.snap.heap⟩)
  intro w1 a hi1 hr1 ha hoa hka _
  apply wp_seq
  apply wp_replace hi1 (hr1.1.info _ _ hps.info)
  · intro w2 hi2 hr2 htab
    have hr := hr1.trans hr2
    have hps2 := hps.mono hr.1
    obtain ⟨_, _, _, ho⟩ := hps2.wf hi2
    have hcc := hps.clean
    rw [hps.node] at ho hcc
    have hat := hps2.snap.at htab
    rw [hps.node] at hat
    have hput : PutOK w2 s.id lp (m + 1) s.ptr (.inner c) a (.inner (.abort s.ptr c)) := by
      refine ⟨hps2.info, hat, Node.not_remove_of_clean hcc, hr2.1.heap _ _ ha, ⟨?_, ?_⟩, rfl, fun h => by cases h⟩
      · have := ho.1
        rw [Node.strip_of_clean hcc] at this
        exact this
      · intro q d hq
        cases hq
        exact ⟨hps2.snap.pub, hat.2⟩
    have hoa2 : w2.ow a = .mine t := (hr2.2.ow _ (by rw [hoa]; exact Or.inl rfl)).trans hoa
    have hka2 : w2.mem.kids a = [s.ptr] := (hr2.1.gh.kids _ _ ha).trans hka
    obtain ⟨g1, g2⟩ := next_lock (t := t) hi2 hput hcc (gok_delta hi2 hput hcc hoa2 hka2 rfl (fun q d e => by cases e; rfl) (fun _ h => Or.inl h) rfl (fun r e => by cases e) _)
    refine ⟨_, rfl, g1, g2, ?_⟩
    rw [if_pos rfl]
    have he2 : Held t s.id w (w2.put s.id a (Lin.upd w2.lock s.id (some t)) (owPut w2.ow s.id a s.ptr (.cell a) [], w2.del)) :=
      ⟨hr.1.trans g1.1, hr.ext.tok, fun q hq => hr.2.owB q (owPut_owed hq),
        fun i hn hq => hr.2.lockB i ((Lin.upd_ne _ _ hn).symm.trans hq)⟩
    have hlk2 : (w2.put s.id a (Lin.upd w2.lock s.id (some t)) (owPut w2.ow s.id a s.ptr (.cell a) [], w2.del)).lock s.id = some t := Lin.upd_self _ _ _
    have hta2 : (w2.put s.id a (Lin.upd w2.lock s.id (some t)) (owPut w2.ow s.id a s.ptr (.cell a) [], w2.del)).mem.table s.id = some a := by simp [World.put]
    generalize w2.put s.id a (Lin.upd w2.lock s.id (some t)) (owPut w2.ow s.id a s.ptr (.cell a) [], w2.del) = w3 at g1 g2 he2 hlk2 hta2
    have ha3 : w3.mem.heap a = some (.inner (.abort s.ptr c)) := g1.1.heap _ _ hput.heap
    clear hput g1
    apply wp_seq
    apply wp_allocate _ _ (hch _ _ (he2.mono.heap _ _ hs.snap.heap))
    intro w4 p hi4 hr4 hp4 hop hkp _
    have he4 := he2.trans hr4.ext
    obtain ⟨hlk4, hta4⟩ := hr4.2.lock _ hlk2
    rw [hta2] at hta4
    apply wp_seq
    -- what is left to do after the node is, or is not, replaced
    have hrest : ∀ w5, Inv w5 → Held t s.id w w5 → w5.lock s.id = some t → w5.mem.table s.id = some a →
        w5.mem.heap a = some (.inner (.abort s.ptr c)) →
        wp t allow (replace s.id s.ptr a >>= fun back => if back then (addGarbage a >>= fun _ => (pure none : Prog K V (Option (Ctx K V))))
          else .fail .abortLost) Q w5 := by
      intro w5 hi5 he5 hlk5 hta5 ha5
      apply wp_seq
      apply wp_replace hi5 (he5.mono.info _ _ hps.info)
      · intro w6 hi6 hr6 htab6
        have he6 := he5.trans hr6.ext
        have hps6 := hps.mono he6.mono
        obtain ⟨_, _, _, ho6⟩ := hps6.wf hi6
        rw [hps.node] at ho6
        have hput6 : PutOK w6 s.id lp (m + 1) a (.inner (.abort s.ptr c)) s.ptr (.inner c) := by
          refine ⟨hps6.info, ⟨htab6, hr6.1.heap _ _ ha5⟩, rfl, ?_, ho6, rfl, fun h => ?_⟩
          · have := hps6.snap.heap
            rw [hps.node] at this
            exact this
          · rw [Node.not_remove_of_clean hcc] at h; cases h
        obtain ⟨g5, g6⟩ := next_unlock (t := t) hi6 hput6 (hr6.2.lock _ hlk5).1 hcc (gok_unlock hi6 hput6 hcc _)
        have hne6 : a ≠ s.ptr := by
          rintro rfl
          have := Option.some.inj (hput6.at_.2.symm.trans hput6.heap)
          injection this with this
          have := congrArg sizeOf this
          simp at this
        refine ⟨_, rfl, g5, g6, ?_⟩
        rw [if_pos rfl]
        apply wp_seq
        apply wp_addGarbage
        · left
          show Lin.upd (Lin.upd w6.ow a (.owed t)) s.ptr (.tab s.id) a = _
          rw [Lin.upd_ne _ _ hne6]; exact Lin.upd_self _ _ _
        intro w7 hi7 hr7 _ hgone
        refine H w7 _ hi7 ⟨(he6.mono.trans g5.1).trans hr7.mono, hr7.tok.trans he6.tok, fun q hq => ?_, fun i hq => ?_⟩ Res.none
        · have h1 : Lin.upd (Lin.upd w6.ow a (.owed t)) s.ptr (.tab s.id) q = .owed t := hr7.owB q hq
          by_cases hqs : q = s.ptr
          · rw [hqs, Lin.upd_self] at h1; cases h1
          · rw [Lin.upd_ne _ _ hqs, Lin.upd_ne _ _ (by rintro rfl; rw [hgone] at hq; cases hq)] at h1
            exact he6.owB q h1
        · have h1 : Lin.upd w6.lock s.id none i = some t := hr7.lockB i hq
          by_cases his : i = s.id
          · rw [his, Lin.upd_self] at h1; cases h1
          · rw [Lin.upd_ne _ _ his] at h1
            exact he6.lockB i his h1
      · intro w6 hi6 hr6 hne
        exact absurd ((hr6.2.lock _ hlk5).2.trans hta5) hne
    apply wp_replace hi4 (he4.mono.info _ _ hps.cinfo)
    · intro w5 hi5 hr5 htab5
      have he5 := he4.trans hr5.ext
      have hs5 := hs.mono he5.mono
      have hat5 := hs5.snap.at htab5
      have hx5 := he5.mono.info _ _ hps.cinfo
      have ho5 := (hi5.at_ok hx5 hat5).2
      have hb5 := ho5.1
      rw [Node.strip_of_clean hs.clean] at hb5
      have hput5 : PutOK w5 ctx.cur.id lc m ctx.cur.ptr ctx.cur.node p removed := by
        refine ⟨hx5, hat5, Node.not_remove_of_clean hs.clean, hr5.1.heap _ _ hp4, ⟨?_, fun q d h => absurd h (hab q d)⟩, ?_, fun _ => hlc⟩
        · rw [hst]; exact hb5
        · rw [← Node.strip_high, hst]
      have hop5 : w5.ow p = .mine t := (hr5.2.ow _ (by rw [hop]; exact Or.inl rfl)).trans hop
      have hkp5 : w5.mem.kids p = [ctx.cur.ptr] := (hr5.1.gh.kids _ _ hp4).trans hkp
      obtain ⟨g3, g4⟩ := next_same (t := t) hi5 hput5 hs.clean hab hhas
        (gok_delta hi5 hput5 hs.clean hop5 hkp5 hmg (fun q d e => absurd e (hab q d)) (fun r hr => Or.inl (heff ▸ hr)) hdl (fun r e => Option.some.inj (e.symm.trans hrid)) _)
      refine ⟨_, rfl, g3, g4, ?_⟩
      obtain ⟨hlk5, hta5⟩ := hr5.2.lock _ hlk4
      rw [hta4] at hta5
      have hne : s.id ≠ ctx.cur.id := by
        intro e
        have := he5.mono.info _ _ hps.info
        rw [e, hx5] at this
        have h' := (Prod.mk.inj (Option.some.inj this)).2
        omega
      refine hrest _ g4 (he5.trans ⟨g3.1, rfl, fun q hq => owPut_owed hq, fun i hq => hq⟩) hlk5 ?_ ?_
      · simp only [World.put, hne, if_false]; exact hta5
      · exact g3.1.heap _ _ (hr5.1.heap _ _ (hr4.1.heap _ _ ha3))
    · intro w5 hi5 hr5 _
      obtain ⟨hlk5, hta5⟩ := hr5.2.lock _ hlk4
      rw [hta4] at hta5
      exact hrest w5 hi5 (he4.trans hr5.ext) hlk5 hta5 (hr5.1.heap _ _ (hr4.1.heap _ _ ha3))
  · intro w2 hi2 hr2 _
    rw [if_neg (by simp)]
    exact H w2 _ hi2 (hr1.trans hr2).ext Res.none

theorem split_mono (hi : Inv w) {id newId : NodeId} {o n s : Ptr} {old : Node K V} {sk : K} {l : Nat} (hat : w.At id o old)
    (hc : old.clean = true) (hown : w.own newId = some t) {g : Gst} (gh : GMono w (w.split id n newId s sk l g)) :
    Mono w (w.split id n newId s sk l g) where
  info i x hx := by
    have : i ≠ newId := by rintro rfl; rw [(hi.own _ _ hown).1] at hx; cases hx
    exact (Lin.upd_ne _ _ this).trans hx
  heap _ _ hx := hx
  pub _ _ hx := Or.inl hx
  removed i x p nd hx ha hr := by
    have : i ≠ id := by
      rintro rfl
      rw [(At.unique ha hat).2, Node.not_remove_of_clean hc] at hr; cases hr
    simp only [World.split, this, if_false]; exact ha.1
  dead _ hx := hx
  sets := ⟨[], by simp [World.split]⟩
  gh := gh

/-- What the halves of a split must satisfy. -/
structure Halves (w : World K V) (id newId : NodeId) (lk : Option K) (l : Nat) (old new sib : Node K V) (sk : K) : Prop where
  ok : ∀ w', Mono w w' → w'.info newId = some (some sk, l) → NodeOK w' id lk l new ∧ NodeOK w' newId (some sk) l sib
  high : new.high = (sk, newId)
  sibHigh : sib.high = old.high
  above : Above lk sk
  below : Below old.high sk
  has : ∀ k v, new.Has k v ↔ old.Has k v ∧ k < sk
  sibHas : ∀ k v, sib.Has k v ↔ old.Has k v ∧ sk ≤ k
  notRemoved : new.isRemove = false
  sibNotRemoved : sib.isRemove = false
  sibBase : sib.isBase = true
  notMerge : new.isMerge = false
  notDel : new.deletes = none
  notAbort : ∀ q c, new ≠ .inner (.abort q c)
  eff : ∀ r ∈ new.eff, r ∈ old.eff
  sibEff : ∀ r ∈ sib.eff, r ∈ old.eff
  children : ∀ (heap : Ptr → Option (Node K V)) p, heap p = some old → ChildrenOk heap [p] new

theorem wp_installSplit (A : Allowed allow) (hi : Inv w) {ctx : Ctx K V} (hs : Settled allow start w ctx) {newId : NodeId}
    (hown : w.own newId = some t) {lk : Option K} {l : Nat} (hx : w.info ctx.cur.id = some (lk, l)) {sib delta fake : Node K V} {sk : K}
    (hh : Halves w ctx.cur.id newId lk l ctx.cur.node delta sib sk) (hfake : fake.removedId = some newId)
    (hfc : ∀ (heap : Ptr → Option (Node K V)) p, heap p = some sib → ChildrenOk heap [p] fake) {Q : Option (Ctx K V) → World K V → Prop}
    (H : ∀ w' r, Inv w' → Ext t w w' → Res allow start ctx.cur.id r w' → Q r w') :
    wp t allow (installSplit ctx newId sib delta fake) Q w := by
  unfold installSplit
  apply wp_seq
  apply wp_allocate _ _ (ChildrenOk.of_base hh.sibBase)
  intro w1 s hi1 hr1 hs1 hos _ _
  apply wp_seq
  apply wp_allocate _ _ (hh.children _ _ (hr1.1.heap _ _ hs.snap.heap))
  intro w2 d hi2 hr2 hd2 hod hkd hfresh
  have hds : d ≠ s := by rintro rfl; exact hfresh _ hs1
  have hos2 : w2.ow s = .mine t := (hr2.2.ow _ (by rw [hos]; exact Or.inl rfl)).trans hos
  have hr := hr1.trans hr2
  apply wp_seq
  apply wp_installNew (hr.2.own _ hown).1 A.tableFull
  intro w3 hi3 he3 hown3 htab3 hlt how3
  have hos3 : w3.ow s = .mine t := (how3 _ (by rw [hos2]; exact Or.inl rfl)).trans hos2
  have hod3 : w3.ow d = .mine t := (how3 _ (by rw [hod]; exact Or.inl rfl)).trans hod
  have he := hr.ext.trans he3
  apply wp_seq
  apply wp_replace hi3 (he.mono.info _ _ hx)
  · intro w4 hi4 hr4 htab
    have he4 := he.trans hr4.ext
    have hs4 := hs.mono he4.mono
    have hat := hs4.snap.at htab
    obtain ⟨ho4, ht4⟩ := hr4.2.own _ hown3
    rw [htab3] at ht4
    have hos4 : w4.ow s = .mine t := (hr4.2.ow _ (by rw [hos3]; exact Or.inl rfl)).trans hos3
    have hod4 : w4.ow d = .mine t := (hr4.2.ow _ (by rw [hod3]; exact Or.inl rfl)).trans hod3
    have hd4 := hr4.1.heap _ _ (he3.mono.heap _ _ hd2)
    have hkd4 : w4.mem.kids d = [ctx.cur.ptr] :=
      ((he3.mono.trans hr4.1).gh.kids _ _ hd2).trans hkd
    have hsat : w4.At newId s sib := ⟨ht4, hr4.1.heap _ _ (he3.mono.heap _ _ (hr2.1.heap _ _ hs1))⟩
    have hgok := gok_split (sk := sk) hi4 (he4.mono.info _ _ hx) hat hs.clean hd4 ho4 hsat hh.sibBase hod4 hos4 hds hkd4
      hh.notMerge hh.notRemoved hh.notAbort hh.eff hh.sibEff hh.notDel hh.high
    have hm := split_mono (t := t) (n := d) (s := s) (sk := sk) (l := l) hi4 hat hs.clean ho4 hgok.gh
    obtain ⟨k1, k2⟩ := hh.ok _ (he4.mono.trans hm) (Lin.upd_self _ _ _)
    have hok : SplitOK t w4 ctx.cur.id lk l ctx.cur.ptr ctx.cur.node d delta newId s sib sk _ :=
      ⟨he4.mono.info _ _ hx, hat, hs.clean, hd4, ho4, hsat, hlt, k1, k2, hh.high, hh.sibHigh, hh.above, hh.below, hh.has,
        hh.sibHas, hh.notRemoved, hh.sibNotRemoved, hgok, hh.notAbort, fun q c e => by have := hh.sibBase; rw [e] at this; cases this⟩
    obtain ⟨g1, g2⟩ := next_split hi4 hok
    refine ⟨_, rfl, g1, g2, ?_⟩
    rw [if_pos rfl]
    refine H _ _ g2 (he4.trans ⟨g1.1, rfl, fun q hq => ?_, fun i hq => hq⟩) Res.none
    have h1 : Lin.upd w4.ow s (.tab newId) q = .owed t := owPut_owed hq
    by_cases hqs : q = s
    · rw [hqs, Lin.upd_self] at h1; cases h1
    · rwa [Lin.upd_ne _ _ hqs] at h1
  · intro w4 hi4 hr4 _
    rw [if_neg (by simp)]
    have hos4 : w4.ow s = .mine t := (hr4.2.ow _ (by rw [hos3]; exact Or.inl rfl)).trans hos3
    have hs4 : w4.mem.heap s = some sib := hr4.1.heap _ _ (he3.mono.heap _ _ (hr2.1.heap _ _ hs1))
    apply wp_seq
    apply wp_allocate _ _ (hfc _ _ hs4)
    intro w5 f hi5 hr5 hf5 hof _ hfresh5
    have hfs : s ≠ f := by rintro rfl; exact hfresh5 _ hs4
    have hos5 : w5.ow s = .mine t := (hr5.2.ow _ (by rw [hos4]; exact Or.inl rfl)).trans hos4
    apply wp_seq
    apply wp_addGarbage _ (Or.inr ⟨hof, _, hf5, Or.inr ⟨_, hfake, (hr5.2.own _ (hr4.2.own _ hown3).1).1⟩⟩)
    intro w6 hi6 hr6 how6 _
    have hos6 : w6.ow s = .mine t := (how6 _ hfs (by rw [hos5]; exact Or.inl rfl)).trans hos5
    apply wp_seq
    apply wp_addGarbage _ (Or.inr ⟨hos6, _, hr6.mono.heap _ _ (hr5.1.heap _ _ hs4), Or.inl hh.sibBase⟩)
    intro w7 hi7 hr7 _ _
    have he7 := he.trans ((hr4.trans hr5).ext.trans (hr6.trans hr7))
    exact H w7 _ hi7 he7 (Res.some (ctx := ctx) (hs.mono he7.mono) (LoLe.refl _ _))

/-- Splitting a leaf. -/
theorem leafHalves {id newId : NodeId} {lk : Option K} {l : Nat} {low high : K × NodeId} {items : List (K × V)} {p : Nat} {y : K × V}
    (ho : NodeOK w id lk l (.leaf (.base low high items))) (hid : newId ≠ INVALID) (hgood : LeafChain.GoodSplit items p)
    (hy : items[p]? = some y) (hwf : (LeafChain.split y.1 newId ((items.drop p).length : Int) (.base low high items)).WF)
    (hsib : (LeafChain.base (y.1, NOT_INVALID) high (items.drop p)).WF) :
    Halves w id newId lk l (.leaf (.base low high items)) (.leaf (.split y.1 newId ((items.drop p).length : Int) (.base low high items)))
      (.leaf (.base (y.1, NOT_INVALID) high (items.drop p))) y.1 := by
  obtain ⟨b1, b2, b3, b4, b5, b6, b7⟩ := ho.1
  have hp0 : 0 < p := by have := hgood.1; omega
  obtain ⟨hb1, hb2⟩ := LeafChain.boundary_take b5.1 hp0 hy hgood.2.2
  obtain ⟨w1, w2, w3, w4, w5⟩ := hwf
  have habove : Above lk y.1 := by
    intro k hk
    obtain ⟨e1, e2⟩ := b7 k hk
    have := w4.resolve_left e1
    rw [e2] at this; exact this
  refine ⟨fun w' hm hn => ?_, rfl, rfl, habove, w5, ?_, ?_, rfl, rfl, rfl, rfl, rfl, fun q c h => (by cases h), fun r h => (by cases h), fun r h => (by cases h), fun _ p h => ⟨p, rfl, h⟩⟩
  · refine ⟨⟨⟨Or.inr hn, ?_, fun m hm => (by cases hm), b4, ⟨w1, w2, w3, w4, w5⟩, b6, b7⟩, fun q c h => by cases h⟩,
      ⟨⟨?_, ?_, fun m hm => (by cases hm), b4, hsib, fun h => (by cases h), ?_⟩, fun q c h => by cases h⟩⟩
    · intro k hk
      exact Or.inr (habove k hk)
    · exact b1.imp _root_.id (fun h => hm.info _ _ h)
    · intro k hk
      cases hk
      exact w5
    · intro k hk
      cases hk
      exact ⟨(by decide : NOT_INVALID ≠ INVALID), rfl⟩
  · intro k v
    exact and_comm
  · intro k v
    show (k, v) ∈ items.drop p ↔ (k, v) ∈ items ∧ y.1 ≤ k
    have hmem : (k, v) ∈ items ↔ (k, v) ∈ items.take p ∨ (k, v) ∈ items.drop p := by
      rw [← List.mem_append, List.take_append_drop]
    constructor
    · intro h
      exact ⟨hmem.mpr (Or.inr h), hb2 _ h⟩
    · rintro ⟨h1, h2⟩
      rcases hmem.mp h1 with h | h
      · exact absurd (hb1 _ h) (not_lt.mpr h2)
      · exact h

/-- Splitting an inner node. -/
theorem innerHalves {id newId : NodeId} {lk : Option K} {l : Nat} {low high : K × NodeId} {d : Nat} {items : List (K × NodeId)}
    (ho : NodeOK w id lk l (.inner (.base low high d items))) (h2 : 2 ≤ items.length) {sib : InnerChain K}
    (hsib : InnerChain.splitSibling (.base low high d items) = some sib) :
    (∃ x, w.info sib.low.2 = some x) ∧ (w.own newId = some t → newId ≠ INVALID →
    Halves w id newId lk l (.inner (.base low high d items)) (.inner (InnerChain.splitDelta newId sib (.base low high d items)))
      (.inner sib) sib.low.1) := by
  obtain ⟨b1, b2, b3, m, b4, b5, b6⟩ := ho.1
  obtain ⟨x, x1, x2, x3, x4, x5, x6, x7, x8⟩ := InnerChain.splitSibling_spec b5 h2
  rw [hsib] at x3
  cases x3
  refine ⟨(b6 _ (List.mem_map.mpr ⟨x, List.mem_of_mem_tail x2, rfl⟩)).imp' (fun l => (l, m)) (fun _ h => h), fun _ hid => ?_⟩
  refine ⟨fun w' hm hn => ?_, rfl, rfl, x5, x6, fun k v => ?_, fun k v => ?_, rfl, rfl, rfl, rfl, rfl, fun q c h => (by cases h), ?_, ?_, fun _ p h => ⟨p, rfl, h⟩⟩
  · refine ⟨⟨⟨Or.inr hn, ?_, fun m hm => (by cases hm), m, b4, ⟨b5.mono hm.lo, ⟨low, high, d, items, rfl, x7⟩, ?_, x5, x6⟩, ?_⟩, fun q c h => by cases h⟩,
      ⟨⟨?_, ?_, fun m hm => (by cases hm), m, b4, x4.mono hm.lo, ?_⟩, fun q c h => by cases h⟩⟩
    · intro k hk
      exact Or.inr (x5 k hk)
    · show w'.lo newId = some (some x.1)
      simp only [World.lo, hn, Option.map_some]; rfl
    · intro i hmem
      exact (b6 i hmem).imp fun _ h => hm.info _ _ h
    · exact b1.imp _root_.id (fun h => hm.info _ _ h)
    · intro k hk
      cases hk
      exact x6
    · intro i hmem
      obtain ⟨y, y1, y2⟩ := List.mem_map.mp hmem
      exact (b6 i (List.mem_map.mpr ⟨y, List.mem_of_mem_drop y1, y2⟩)).imp fun _ h => hm.info _ _ h
  · exact ⟨fun h => h.elim, fun h => h.1.elim⟩
  · exact ⟨fun h => h.elim, fun h => h.1.elim⟩
  · intro r hr
    rcases List.mem_map.mp hr with ⟨y, y1, rfl⟩
    rcases List.mem_cons.mp y1 with rfl | y1
    · exact List.mem_cons_self
    · exact List.mem_map.mpr ⟨y, List.mem_cons_of_mem _ (List.mem_filter.mp y1).1, rfl⟩
  · intro r hr
    rcases List.mem_map.mp hr with ⟨y, y1, rfl⟩
    rcases List.mem_cons.mp y1 with rfl | y1
    · exact List.mem_map.mpr ⟨_, List.mem_cons_of_mem _ x2, rfl⟩
    · refine List.mem_map.mpr ⟨y, List.mem_cons_of_mem _ ?_, rfl⟩
      show y ∈ items.tail
      rw [← x8]
      exact List.mem_append_right _ (List.mem_of_mem_tail y1)

theorem wp_adjustSize (A : Allowed allow) (hi : Inv w) {ctx : Ctx K V} (hs : Settled allow start w ctx)
    {Q : Option (Ctx K V) → World K V → Prop}
    (H : ∀ w' r, Inv w' → Ext t w w' → Res allow start ctx.cur.id r w' → Q r w') :
    wp t allow (adjustSize ctx) Q w := by
  have hdone : ∀ w', Inv w' → Ext t w w' → Q (some ctx) w' := fun w' hi' he =>
    H w' _ hi' he (Res.some (ctx := ctx) (hs.mono he.mono) (LoLe.refl _ _))
  have hdone0 := hdone w hi (Ext.refl t w)
  obtain ⟨lk, l, hx, ho⟩ := hs.snap.ok hi
  unfold adjustSize
  cases hn : ctx.cur.node with
  | leaf c =>
    rw [hn] at ho
    show wp t allow (if c.isDelta = true then _ else _) Q w
    by_cases hd : c.isDelta = true
    · rw [if_pos hd]; exact hdone0
    rw [if_neg hd]
    cases c with
    | base low high items =>
      have hwf : (LeafChain.base low high items).WF := ho.1.2.2.2.2.1
      by_cases hup : (LEAF_UPPER : Int) ≤ (LeafChain.base low high items).itemCount
      · rw [if_pos hup]
        have hspec := fun (id : NodeId) (hid : id ≠ INVALID) => LeafChain.trySplit_spec hwf hid
        have hkey : LeafChain.splitSibling (LeafChain.base low high items) = some none ∨
            ∃ p y, LeafChain.splitSibling (LeafChain.base low high items) = some (some (.base (y.1, NOT_INVALID) high (items.drop p))) ∧
              items.drop p = y :: items.drop (p + 1) ∧ LeafChain.GoodSplit items p ∧ items[p]? = some y ∧
              (∀ id, id ≠ INVALID → (LeafChain.split y.1 id ((items.drop p).length : Int) (.base low high items)).WF) ∧
              (LeafChain.base (y.1, NOT_INVALID) high (items.drop p)).WF := by
          rcases hspec 1 (by decide) with h | ⟨sk, sib, low', high', items', p, e1, e2, e3, e4, ⟨y, e5, e6⟩, e7, e8⟩
          · left
            unfold LeafChain.trySplit at h
            rw [if_neg hd, if_neg (by omega)] at h
            cases hsp : LeafChain.splitSibling (LeafChain.base low high items) with
            | none => rw [hsp] at h; cases h
            | some o =>
              cases o with
              | none => rfl
              | some sib =>
                rw [hsp] at h
                simp only at h
                split at h <;> cases h
          · cases e1
            subst e6 e3
            have hplt := (List.getElem?_eq_some_iff.mp e5)
            obtain ⟨hplt, hget⟩ := hplt
            have hdrop : items.drop p = y :: items.drop (p + 1) := by rw [List.drop_eq_getElem_cons hplt, hget]
            right
            refine ⟨p, y, ?_, hdrop, e4, e5, ?_, e8⟩
            · unfold LeafChain.trySplit at e2
              rw [if_neg hd, if_neg (by omega)] at e2
              cases hsp : LeafChain.splitSibling (LeafChain.base low high items) with
              | none => rw [hsp] at e2; cases e2
              | some o =>
                cases o with
                | none => rw [hsp] at e2; cases e2
                | some sib =>
                  rw [hsp] at e2
                  simp only at e2
                  split at e2
                  · simp only [Option.some.injEq, Prod.mk.injEq] at e2
                    rw [e2.2]
                  · cases e2
            · intro id hid
              obtain ⟨q1, q2, q3, q4, q5⟩ := e7
              exact ⟨q1, q2, hid, q4, q5⟩
        rcases hkey with h | ⟨p, y, h1, h2, h3, h4, h5, h6⟩
        · rw [h]; exact hdone0
        · rw [h1]
          have hwit : ∀ {α : Type} (f : K × V → Prog K V α) (g : Prog K V α),
              (match (LeafChain.base (y.1, NOT_INVALID) high (items.drop p) : LeafChain K V) with
                | .base _ _ (x :: _) => f x
                | _ => g) = f y := by
            intro α f g
            rw [h2]
          show wp t allow (match (LeafChain.base (y.1, NOT_INVALID) high (items.drop p) : LeafChain K V) with
                | .base _ _ (x :: _) => _
                | _ => _) Q w
          rw [hwit]
          apply wp_seq
          apply wp_nextNodeId
          intro w1 id hi1 hr1 hown
          have hid := (hi1.own _ _ hown).2.1
          have hh := leafHalves (ho.mono hr1.1) hid h3 h4 (h5 id hid) h6
          rw [← hn] at hh
          exact wp_installSplit A hi1 (hs.mono hr1.1) hown (hr1.1.info _ _ hx) (sk := y.1) hh rfl (by exact fun _ p h => ⟨p, rfl, h⟩)
            (fun w' r hi' he hr => H w' r hi' (hr1.ext.trans he) hr)
      · rw [if_neg hup]
        by_cases hlo : (LeafChain.base low high items).itemCount ≤ (LEAF_LOWER : Int)
        · rw [if_pos hlo]
          apply wp_seq
          apply wp_parent A hs.par
          intro s c lp lc m hpar hl hps
          by_cases hlm : s.node.low.2 = ctx.cur.id
          · rw [if_pos hlm]; exact hdone0
          · rw [if_neg hlm]
            apply wp_removeNode A hi hs ?_ ?_ ?_ ?_ rfl rfl ?_ ?_ ?_ H
            · intro s' hs'
              rw [hpar] at hs'
              cases hs'
              exact hlm
            · rw [hn]; rfl
            · intro q d h; cases h
            · rfl
            · rw [hn]; rfl
            · rw [hn]; exact fun _ p h => ⟨p, rfl, h⟩
            · intro k v; rw [hn]; exact Iff.rfl
        · rw [if_neg hlo]; exact hdone0
    | _ => exact absurd rfl hd
  | inner c =>
    rw [hn] at ho
    show wp t allow (if c.isDelta = true then _ else _) Q w
    by_cases hd : c.isDelta = true
    · rw [if_pos hd]; exact hdone0
    rw [if_neg hd]
    cases c with
    | base low high d items =>
      by_cases hup : (INNER_UPPER : Int) ≤ (InnerChain.base low high d items).itemCount
      · rw [if_pos hup]
        have hlen : 2 ≤ items.length := by
          simp only [InnerChain.itemCount, INNER_UPPER] at hup; omega
        obtain ⟨m, _, hwf, _⟩ := ho.1.2.2.2
        obtain ⟨x, _, _, hsp, _⟩ := InnerChain.splitSibling_spec hwf hlen
        rw [hsp]
        obtain ⟨⟨z, hz⟩, _⟩ := innerHalves (t := t) (newId := 1) ho hlen hsp
        show wp t allow (getNode x.2 >>= _) Q w
        apply wp_seq
        apply wp_getNode hi hz
        intro w1 p n hi1 hr1 hat
        by_cases hrem : n.isRemove = true
        · simp only [hrem, if_true]
          apply wp_seq
          apply wp_allocate _ _ (by exact rfl)
          intro w2 q hi2 hr2 hq2 hoq _ _
          apply wp_seq
          apply wp_addGarbage _ (Or.inr ⟨hoq, _, hq2, Or.inl rfl⟩)
          intro w3 hi3 hr3 _ _
          exact hdone w3 hi3 ((hr1.trans hr2).ext.trans hr3)
        · simp only [hrem]
          apply wp_seq
          apply wp_nextNodeId
          intro w2 id hi2 hr2 hown
          have hr := hr1.trans hr2
          have hid := (hi2.own _ _ hown).2.1
          obtain ⟨_, hh⟩ := innerHalves (t := t) (newId := id) (ho.mono hr.1) hlen hsp
          apply wp_installSplit A hi2 (hs.mono hr.1) hown (hr.1.info _ _ hx)
          · rw [hn]; exact hh hown hid
          · rfl
          · exact fun _ p h => ⟨p, rfl, h⟩
          · intro w' r hi' he hr'
            exact H w' r hi' (hr.ext.trans he) hr'
      · rw [if_neg hup]
        by_cases hlo : (InnerChain.base low high d items).itemCount ≤ (INNER_LOWER : Int)
        · rw [if_pos hlo]
          apply wp_seq
          apply wp_onRoot hs.par
          · intro _
            rw [if_pos rfl]; exact hdone0
          · intro s0 hs0
            rw [if_neg (by simp)]
            apply wp_seq
            apply wp_parent A hs.par
            intro s c lp lc m hpar hl hps
            by_cases hlm : s.node.low.2 = ctx.cur.id
            · rw [if_pos hlm]; exact hdone0
            · rw [if_neg hlm]
              apply wp_removeNode A hi hs ?_ ?_ ?_ ?_ rfl rfl ?_ ?_ ?_ H
              · intro s' hs'
                rw [hpar] at hs'
                cases hs'
                exact hlm
              · rw [hn]; rfl
              · intro q d h; cases h
              · rfl
              · rw [hn]; rfl
              · rw [hn]; exact fun _ p h => ⟨p, rfl, h⟩
              · intro k v; rw [hn]; exact Iff.rfl
        · rw [if_neg hlo]; exact hdone0
    | _ => exact absurd rfl hd

end Tree
end BwTree
