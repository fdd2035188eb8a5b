import Verif.Proofs.SeqMerge

/-! Size adjustment and `FinishPartialSMO` when one call runs alone. -/

namespace BwTree
namespace Tree

open Prog

set_option linter.unusedSectionVars false

variable {K V : Type} [LinearOrder K] [DecidableEq V] [Inhabited K] {w w' : World K V} {t : Tid} {α : Type} {k : K} {n : Nat}

/-- Removal of a node that is too small: one node of the tree changes. -/
theorem tw_removeNode (hi : Inv w) {ctx : Ctx K V} (hh : Here w n ctx.cur) {s : Snap K V} (hpar : ctx.par = .snap s) (hlev : ctx.level ≠ 0)
    (hps : ParS w n s ctx.cur.id) {removed : Node K V} (hhi : removed.high = ctx.cur.node.high) (hm : removed.merged = none) (hsm : s.node.merged = none) :
    tw t (removeNode ctx removed) (fun r w' => r = none ∧ Inv w' ∧ Swap w w' n ctx.cur.id removed) w := by
  have hne : s.id ≠ ctx.cur.id := hps.ne hh.1
  unfold removeNode
  rw [parent_snap hpar hlev]
  show tw t (match s.node with | .leaf _ => .fail .kind | .inner c => _) _ w
  cases hc : s.node with
  | leaf c => exact (not_bad (by decide))
  | inner c =>
  refine tw_put hi hps.here (by rw [hc]; rfl) rfl ?_
  intro w1 a hi1 hsw1 hata
  rw [if_pos rfl]
  refine tw_put hi1 (hsw1.stay hh (Ne.symm hne)) hhi hm ?_
  intro w2 p hi2 hsw2 hatp
  obtain ⟨lq, eq⟩ := hps.here.1.1
  have eq2 : w2.info s.id = some (lq, n + 1) := by rw [hsw2.info, hsw1.info]; exact eq
  have hata2 : w2.At s.id a (.inner (.abort s.ptr c)) := (hsw2.other _ _ _ _ (by rw [hsw1.info]; exact eq) hne).mpr hata
  refine tw_seq (tw_replace hi2 eq2 (by rw [hsw2.dead, hsw1.dead]; exact hps.here.1.2) hata2.1 (Q := fun ok w3 => ok = true ∧ Inv w3 ∧ Put w2 w3 s.id s.ptr) fun w3 h1 h2 => ⟨rfl, h1, h2⟩) ?_
  rintro ok w3 ⟨rfl, hi3, hput⟩
  rw [if_pos rfl]
  have hhp : w2.mem.heap s.ptr = some s.node := (hsw1.mono.trans hsw2.mono).heap _ _ hps.here.2.2
  obtain ⟨g1, g2⟩ := hput.same hi2 hi3 eq2 hata2 hhp (by rw [hc]; rfl) hsm
  have hatp3 : w3.At ctx.cur.id p removed := (hput.ne (Ne.symm hne)).mpr hatp
  have hsw : Swap w w3 n ctx.cur.id removed := {
    mono := hsw1.mono.trans (hsw2.mono.trans hput.mono)
    root := hput.root.trans (hsw2.root.trans hsw1.root)
    info := g1.trans (hsw2.info.trans hsw1.info)
    dead := g2.trans (hsw2.dead.trans hsw1.dead)
    nextId := Nat.le_trans hsw1.nextId (Nat.le_trans hsw2.nextId (Nat.le_of_eq hput.nextId.symm))
    live := hh.1
    self := ⟨p, hatp3⟩
    other := fun x y q nd hx hxc => by
      by_cases hxs : x = s.id
      · subst hxs
        constructor
        · intro h
          obtain ⟨rfl, rfl⟩ := (hput.self hhp).mp h
          exact hps.here.2
        · intro h
          obtain ⟨rfl, rfl⟩ := At.unique h hps.here.2
          exact (hput.self hhp).mpr ⟨rfl, rfl⟩
      · have hx1 : w1.info x = some y := by rw [hsw1.info]; exact hx
        exact (hput.ne hxs).trans ((hsw2.other x y q nd hx1 hxc).trans (hsw1.other x y q nd hx hxs)) }
  refine tw_seq (tw_addGarbage hi3 (Q := fun _ w4 => Inv w4 ∧ Calm w3 w4) fun w4 h1 h2 => ⟨h1, h2⟩) ?_
  rintro _ w4 ⟨hi4, hc4⟩
  exact ⟨rfl, hi4, hsw.calm hc4 hi3⟩

/-- The two halves of a split. -/
structure SplitN (old new sib : Node K V) (y : NodeId) (sk : K) : Prop where
  base : old.isBase = true
  shape : new.noMerge ∧ new.isAbort = false ∧ new.Exact
  rmNew : new.isRemove = false
  effN : ∀ i, i ∈ new.eff → i ∈ old.eff
  effS : ∀ i, i ∈ sib.eff → i ∈ old.eff
  eff : ∀ i, i ∈ old.eff → i ∈ new.eff ∨ i ∈ sib.eff
  seps : ∀ x, x ∈ old.seps → x ∈ new.seps ∨ x ∈ sib.seps ∨ x.2 = sib.low.2
  splits : new.splits = some y
  baseS : sib.isBase = true
  ext : sib.high = new.ext
  countN : new.lower < new.count
  countS : sib.lower < sib.count
  high : new.high = (sk, y)
  merged : new.merged = none

theorem tw_installSplit (hi : Inv w) (hs : SInv w) (hl : Line w k) {ctx : Ctx K V} (hh : Here w n ctx.cur) (hpl : Placed1 w n ctx.cur.id)
    {y : NodeId} (hyv : y ≠ INVALID ∧ y < w.mem.nextId) (hy : w.info y = none) {sib delta fake : Node K V} {sk : K} (hn : SplitN ctx.cur.node delta sib y sk)
    (hlow : ∀ m, n = m + 1 → ¬ Rm w m sib.low.2) :
    tw t (installSplit ctx y sib delta fake) (fun r w' => r = none ∧ Ok k w w' ∧ Lt w w') w := by
  obtain ⟨hyv, hyl⟩ := hyv
  unfold installSplit
  refine tw_seq (tw_allocate hi (Q := fun p w1 => Inv w1 ∧ Calm w w1 ∧ w1.mem.heap p = some sib) fun w1 p h1 h2 h3 => ⟨h1, h2, h3⟩) ?_
  rintro sp w1 ⟨hi1, hc1, hsp1⟩
  refine tw_seq (tw_allocate hi1 (Q := fun p w2 => Inv w2 ∧ Calm w1 w2 ∧ w2.mem.heap p = some delta) fun w2 p h1 h2 h3 => ⟨h1, h2, h3⟩) ?_
  rintro dp w2 ⟨hi2, hc2, hdp2⟩
  refine tw_seq (tw_installNew hi2 (id := y) (by rw [hc2.info, hc1.info]; exact hy)
    (Nat.lt_of_lt_of_le hyl (Nat.le_trans hc1.nextId hc2.nextId))
    (Q := fun _ w3 => Inv w3 ∧ Calm w2 w3 ∧ w3.mem.table y = some sp ∧ y < TABLE_SIZE) fun w3 h1 h2 h3 h4 => ⟨h1, h2, h3, h4⟩) ?_
  rintro _ w3 ⟨hi3, hc3, hty, hlt⟩
  have hc := hc1.trans (hc2.trans hc3)
  have hh3 := hh.calm hc hi
  obtain ⟨lk, e3⟩ := hh3.1.1
  refine tw_seq (tw_replace hi3 e3 hh3.1.2 hh3.2.1 (Q := fun ok w4 => ok = true ∧ Inv w4 ∧ Put w3 w4 ctx.cur.id dp) fun w4 h1 h2 => ⟨rfl, h1, h2⟩) ?_
  rintro ok w4 ⟨rfl, hi4, hput⟩
  rw [if_pos rfl]
  have hdp3 : w3.mem.heap dp = some delta := hc3.heap _ _ hdp2
  have hsp3 : w3.mem.heap sp = some sib := hc3.heap _ _ (hc2.heap _ _ hsp1)
  have hatd : w4.At ctx.cur.id dp delta := (hput.self hdp3).mpr ⟨rfl, rfl⟩
  have e4 := hput.mono.info _ _ e3
  have eY : w4.info y = some (some sk, n) := by
    have := (hi4.at_ok e4 hatd).2.high
    rw [hn.high] at this
    exact this.resolve_left hyv
  have e : w.info ctx.cur.id = some (lk, n) := by rw [← hc.info]; exact e3
  have hyc : y ≠ ctx.cur.id := by
    rintro rfl
    rw [e] at hy
    cases hy
  have hinfo : ∀ x, x ≠ y → w4.info x = w.info x := by
    intro i hiy
    rw [← hc.info]
    cases hx' : w4.info i with
    | none =>
      cases hy : w3.info i with
      | none => rfl
      | some z => rw [hput.mono.info _ _ hy] at hx'; cases hx'
    | some z =>
      rcases hput.gstep.info i z hx' with e | ⟨h1, h2⟩ | ⟨q, z', p', n', h1, h2, h3, h4⟩
      · exact e.symm
      · exact absurd (hput.root.symm.trans h1) h2
      · by_cases hq : q = ctx.cur.id
        · subst hq
          obtain ⟨rfl, rfl⟩ := (hput.self hdp3).mp h2
          rw [hn.high] at h3
          exact absurd h3.symm hiy
        · exact absurd ((hput.ne hq).mp h2) h4
  have hdead : ∀ x, w4.dead x ↔ w.dead x := by
    intro i
    rw [← hc.dead]
    refine ⟨fun hd => ?_, hput.mono.dead i⟩
    rcases hput.gstep.dead i hd with e | ⟨q, z, p', n', κ, h1, h2, h3, h4⟩
    · exact e
    · by_cases hq : q = ctx.cur.id
      · subst hq
        obtain ⟨rfl, rfl⟩ := (hput.self hdp3).mp h2
        rw [hn.merged] at h3
        cases h3
      · exact absurd ((hput.ne hq).mp h2) h4
  have hlY : Live w4 n y := by
    refine ⟨⟨_, eY⟩, fun hd => ?_⟩
    rw [hdead] at hd
    obtain ⟨x, _, _, h1, _⟩ := hi.dead y hd
    rw [hy] at h1
    cases h1
  have hatY : w4.At y sp sib := (hput.ne hyc).mpr ⟨hty, hsp3⟩
  have hlv : ∀ m x, Live w4 m x ↔ Live w m x ∨ (x = y ∧ m = n) := by
    intro m x
    by_cases hxy : x = y
    · subst hxy
      constructor
      · rintro ⟨⟨l, h1⟩, _⟩
        rw [eY] at h1
        cases h1
        exact Or.inr ⟨rfl, rfl⟩
      · rintro (⟨⟨l, h1⟩, _⟩ | ⟨_, rfl⟩)
        · rw [hy] at h1; cases h1
        · exact hlY
    · unfold Live
      rw [hinfo x hxy, hdead]
      exact ⟨Or.inl, fun h => h.resolve_right fun h => hxy h.1⟩
  have hnd : ∀ m x nd, Nd w4 m x nd ↔ (x = ctx.cur.id ∧ m = n ∧ nd = delta) ∨ (x = y ∧ m = n ∧ nd = sib) ∨ (x ≠ ctx.cur.id ∧ Nd w m x nd) := by
    intro m x nd
    constructor
    · rintro ⟨h1, q, ha⟩
      by_cases hxc : x = ctx.cur.id
      · subst hxc
        obtain ⟨l, h2⟩ := h1.1
        rw [e4] at h2
        cases h2
        exact Or.inl ⟨rfl, rfl, (At.unique ha hatd).2⟩
      rcases (hlv m x).mp h1 with h2 | ⟨rfl, rfl⟩
      · exact Or.inr (Or.inr ⟨hxc, h2, q, (hc.at_ hi h2.1.choose_spec).mp ((hput.ne hxc).mp ha)⟩)
      · exact Or.inr (Or.inl ⟨rfl, rfl, (At.unique ha hatY).2⟩)
    · rintro (⟨rfl, rfl, rfl⟩ | ⟨rfl, rfl, rfl⟩ | ⟨h1, h2, q, ha⟩)
      · exact ⟨(hlv _ _).mpr (Or.inl hh.1), dp, hatd⟩
      · exact ⟨hlY, sp, hatY⟩
      · exact ⟨(hlv _ _).mpr (Or.inl h2), q, (hput.ne h1).mpr ((hc.at_ hi h2.1.choose_spec).mpr ha)⟩
  have hss : SplitSeq w w4 n ctx.cur.id ctx.cur.node delta y sib := {
    mono := hc.mono.trans hput.mono
    root := hput.root.trans hc.root
    infoY := ⟨sk, eY⟩
    info := hinfo
    none := hy
    lt := hlt
    nextId := Nat.le_trans hc.nextId (Nat.le_of_eq hput.nextId.symm)
    lv := hlv
    nd := hnd
    was := hh.nd
    base := hn.base
    shape := hn.shape
    shapeS := (Node.base_shape hn.baseS).1
    rmOld := (Node.base_shape hn.base).2.1
    rmNew := hn.rmNew
    rmSib := (Node.base_shape hn.baseS).2.1
    effN := hn.effN
    effS := hn.effS
    eff := hn.eff
    seps := hn.seps
    low := hlow
    splits := hn.splits
    baseS := hn.baseS
    ext := hn.ext
    countN := hn.countN
    countS := hn.countS
    placed := hpl }
  exact ⟨rfl, hss.ok (Ok.refl hi hs hl) hi4, hss.lt'⟩

/-- The two cases of splitting a leaf of the maximal size. -/
theorem leaf_splitSibling {low high : K × NodeId} {items : List (K × V)} (hwf : (LeafChain.base low high items).WF)
    (hup : (LEAF_UPPER : Int) ≤ (LeafChain.base low high items).itemCount) :
    LeafChain.splitSibling (LeafChain.base low high items) = some none ∨
      ∃ p y, LeafChain.splitSibling (LeafChain.base low high items) = some (some (.base (y.1, NOT_INVALID) high (items.drop p))) ∧
        items.drop p = y :: items.drop (p + 1) ∧ LeafChain.GoodSplit items p := by
  have hd : ¬ (LeafChain.base low high items).isDelta = true := Bool.false_ne_true
  rcases LeafChain.trySplit_spec hwf (newId := 1) (by decide) with h | ⟨sk, sib, low', high', items', p, e1, e2, e3, e4, ⟨y, e5, e6⟩, e7, e8⟩
  · left
    unfold LeafChain.trySplit at h
    rw [if_neg hd, if_neg (by omega)] at h
    cases hsp : LeafChain.splitSibling (LeafChain.base low high items) with
    | none => rw [hsp] at h; cases h
    | some o =>
      cases o with
      | none => rfl
      | some sib =>
        rw [hsp] at h
        simp only at h
        split at h <;> cases h
  · cases e1
    subst e6 e3
    obtain ⟨hplt, hget⟩ := List.getElem?_eq_some_iff.mp e5
    have hdrop : items.drop p = y :: items.drop (p + 1) := by rw [List.drop_eq_getElem_cons hplt, hget]
    right
    refine ⟨p, y, ?_, hdrop, e4⟩
    unfold LeafChain.trySplit at e2
    rw [if_neg hd, if_neg (by omega)] at e2
    cases hsp : LeafChain.splitSibling (LeafChain.base low high items) with
    | none => rw [hsp] at e2; cases e2
    | some o =>
      cases o with
      | none => rw [hsp] at e2; cases e2
      | some sib =>
        rw [hsp] at e2
        simp only at e2
        split at e2
        · simp only [Option.some.injEq, Prod.mk.injEq] at e2
          rw [e2.2]
        · cases e2

theorem leafSplitN {low high : K × NodeId} {items : List (K × V)} {p : Nat} {x : K × V} (hg : LeafChain.GoodSplit items p) (y : NodeId) :
    SplitN (.leaf (.base low high items)) (.leaf (.split x.1 y (LeafChain.base (x.1, NOT_INVALID) high (items.drop p)).itemCount (.base low high items)))
      (.leaf (.base (x.1, NOT_INVALID) high (items.drop p))) y x.1 where
  base := rfl
  shape := ⟨trivial, rfl, trivial⟩
  rmNew := rfl
  effN _ h := by cases h
  effS _ h := by cases h
  eff _ h := by cases h
  seps _ h := by cases h
  splits := rfl
  baseS := rfl
  ext := rfl
  countN := by
    show (LEAF_LOWER : Int) < (items.length : Int) - ((items.drop p).length : Int)
    have h1 := hg.1
    have h2 := hg.2.1
    rw [List.length_drop]
    omega
  countS := by
    show (LEAF_LOWER : Int) < ((items.drop p).length : Int)
    have h2 := hg.2.1
    rw [List.length_drop]
    omega
  high := rfl
  merged := rfl

theorem innerSplitN {lo : NodeId → Option (Option K)} {lv : Option K} {low high : K × NodeId} {d : Nat} {items : List (K × NodeId)}
    (hwf : (InnerChain.base low high d items).WF lo lv) (hlen : INNER_UPPER ≤ items.length) {sib : InnerChain K}
    (hsib : InnerChain.splitSibling (.base low high d items) = some sib) (y : NodeId) :
    SplitN (.inner (.base low high d items) : Node K V) (.inner (InnerChain.splitDelta y sib (.base low high d items))) (.inner sib) y sib.low.1 := by
  have h2 : 2 ≤ items.length := by simp only [INNER_UPPER] at hlen; omega
  obtain ⟨x, x1, x2, x3, x4, x5, x6, x7, x8⟩ := InnerChain.splitSibling_spec hwf h2
  rw [hsib] at x3
  cases x3
  have hlen' : items.length - items.length / 2 = (items.drop (items.length / 2)).length := by rw [List.length_drop]
  have hdrop : items.drop (items.length / 2) = x :: (items.drop (items.length / 2)).tail := by
    obtain ⟨hp, hg⟩ := List.getElem?_eq_some_iff.mp x1
    rw [List.drop_eq_getElem_cons hp, hg]
    rfl
  refine ⟨rfl, ⟨trivial, rfl, trivial⟩, rfl, ?_, ?_, ?_, ?_, rfl, rfl, rfl, ?_, ?_, rfl, rfl⟩
  · intro r hr
    rcases List.mem_map.mp hr with ⟨y, y1, rfl⟩
    rcases List.mem_cons.mp y1 with rfl | y1
    · exact List.mem_cons_self
    · exact List.mem_map.mpr ⟨y, List.mem_cons_of_mem _ (List.mem_filter.mp y1).1, rfl⟩
  · intro r hr
    rcases List.mem_map.mp hr with ⟨y, y1, rfl⟩
    rcases List.mem_cons.mp y1 with rfl | y1
    · exact List.mem_map.mpr ⟨_, List.mem_cons_of_mem _ x2, rfl⟩
    · refine List.mem_map.mpr ⟨y, List.mem_cons_of_mem _ ?_, rfl⟩
      show y ∈ items.tail
      rw [← x8]
      exact List.mem_append_right _ (List.mem_of_mem_tail y1)
  · intro r hr
    rcases List.mem_map.mp hr with ⟨z, z1, rfl⟩
    rcases List.mem_cons.mp z1 with rfl | z1
    · exact Or.inl List.mem_cons_self
    · have z1 : z ∈ items.tail := z1
      rw [← x8] at z1
      rcases List.mem_append.mp z1 with h | h
      · exact Or.inl (List.mem_map.mpr ⟨z, List.mem_cons_of_mem _ h, rfl⟩)
      · right
        rw [hdrop] at h
        rcases List.mem_cons.mp h with rfl | h
        · exact List.mem_cons_self
        · exact List.mem_map.mpr ⟨z, List.mem_cons_of_mem _ h, rfl⟩
  · intro z z1
    have z1 : z ∈ items.tail := z1
    rw [← x8] at z1
    rcases List.mem_append.mp z1 with h | h
    · exact Or.inl h
    · rw [hdrop] at h
      rcases List.mem_cons.mp h with rfl | h
      · exact Or.inr (Or.inr rfl)
      · exact Or.inr (Or.inl h)
  · show (INNER_LOWER : Int) < (items.length : Int) - ((items.drop (items.length / 2)).length : Int)
    simp only [INNER_UPPER, INNER_LOWER] at hlen ⊢
    omega
  · show (INNER_LOWER : Int) < ((items.drop (items.length / 2)).length : Int)
    simp only [INNER_UPPER, INNER_LOWER] at hlen ⊢
    omega

/-- `AdjustNodeSize` changes the tree and aborts, or leaves it as it is. -/
theorem tw_adjustSize (hi : Inv w) (hs : SInv w) (hl : Line w k) {ctx : Ctx K V} (hh : Here w n ctx.cur) (hr : ctx.cur.node.isRemove = false)
    (hpar : ParC w n ctx.par ctx.level ctx.cur.id) (hslot : Slot k w n ctx.cur) :
    tw t (adjustSize ctx) (fun r w' => (r = none ∧ Ok k w w' ∧ Lt w w') ∨ (r = some ctx ∧ Inv w' ∧ Calm w w')) w := by
  have hdone : ((some ctx = none ∧ Ok k w w ∧ Lt w w) ∨ (some ctx = some ctx ∧ Inv w ∧ Calm w w)) := Or.inr ⟨rfl, hi, Calm.refl w⟩
  obtain ⟨lk, e, ho⟩ := hh.nd.ok hi
  have hrem : ∀ removed : Node K V, ctx.cur.node.isBase = true → removed.high = ctx.cur.node.high → removed.merged = none → (removed.noMerge ∧ removed.isAbort = false ∧ removed.Exact) →
      removed.isRemove = true → removed.strip = ctx.cur.node → ctx.cur.node.count ≤ ctx.cur.node.lower → ∀ s, ctx.par = .snap s → ctx.level ≠ 0 → ParS w n s ctx.cur.id →
      s.node.low.2 ≠ ctx.cur.id → tw t (removeNode ctx removed) (fun r w' => (r = none ∧ Ok k w w' ∧ Lt w w') ∨ (r = some ctx ∧ Inv w' ∧ Calm w w')) w := by
    intro removed hb h1 h2 h3 h4 h5 h6 s h7 h8 h9 h10
    obtain ⟨ci, lq, hc, _, _, hnm, _, _⟩ := h9.inner hi hs
    refine tw_mono ?_ (tw_removeNode hi hh h7 h8 h9 h1 h2 ?_)
    · rintro r w' ⟨rfl, hi', hsw⟩
      have hrs : RemSeq w w' n ctx.cur.id ctx.cur.node removed k := {
        swap := hsw
        was := hh.nd
        base := hb
        shape := h3
        rmOld := hr
        rmNew := h4
        strip := h5
        sep := by
          rcases (Node.mem_eff h9.kid).2 with h | ⟨κ, h⟩
          · exact absurd h.symm h10
          · exact ⟨s.id, s.node, κ, h9.here.nd, h⟩
        line := by
          intro l hl
          rcases hslot with h | ⟨l', h11, h12⟩
          · omega
          · rw [hl] at h11
            cases h11
            exact h12 }
      exact Or.inl ⟨rfl, hrs.ok (Ok.refl hi hs hl) hi', hrs.lt hi⟩
    · rw [hc]
      cases ci with
      | merge _ _ _ _ => exact hnm.elim
      | _ => rfl
  unfold adjustSize
  cases hn : ctx.cur.node with
  | leaf c =>
    show tw t (if c.isDelta = true then _ else _) _ w
    by_cases hd : c.isDelta = true
    · rw [if_pos hd]; exact hdone
    rw [if_neg hd]
    rw [hn] at ho
    have hn0 : n = 0 := ho.leaf_iff.mp rfl
    cases c with
    | base low high items =>
      have hwf : (LeafChain.base low high items).WF := ho.1.2.2.2.2.1
      by_cases hup : (LEAF_UPPER : Int) ≤ (LeafChain.base low high items).itemCount
      · rw [if_pos hup]
        rcases leaf_splitSibling hwf hup with h | ⟨p, y, h1, h2, h3⟩
        · rw [h]; exact hdone
        · rw [h1]
          have hwit : ∀ {α : Type} (f : K × V → Prog K V α) (g : Prog K V α),
              (match (LeafChain.base (y.1, NOT_INVALID) high (items.drop p) : LeafChain K V) with
                | .base _ _ (x :: _) => f x
                | _ => g) = f y := by
            intro α f g
            rw [h2]
          show tw t (match (LeafChain.base (y.1, NOT_INVALID) high (items.drop p) : LeafChain K V) with
                | .base _ _ (x :: _) => _
                | _ => _) _ w
          rw [hwit]
          refine tw_seq (tw_nextNodeId hi (Q := fun id w1 => Inv w1 ∧ Calm w w1 ∧ w.info id = none ∧ id ≠ INVALID ∧ id < w1.mem.nextId)
            fun w1 id h1 h2 h3 h4 h5 => ⟨h1, h2, h3, by rw [h4]; exact Nat.pos_iff_ne_zero.mp hi.nextId, by rw [h5]; exact Nat.lt_succ_self id⟩) ?_
          rintro id w1 ⟨hi1, hc1, hid, hidv⟩
          refine tw_mono ?_ (tw_installSplit hi1 (hc1.sinv hi hs) (hc1.line hi hl) (hh.calm hc1 hi) ((hc1.keeps hi).placed hpar.placed) hidv
            (by rw [hc1.info]; exact hid) (by rw [hn]; exact leafSplitN h3 id) (by intro m hm; omega))
          rintro r w2 ⟨rfl, h4, h5⟩
          exact Or.inl ⟨rfl, ((Ok.refl hi hs hl).calm hc1 hi1).trans h4, hc1.lt_left hi h5⟩
      · rw [if_neg hup]
        by_cases hlo : (LeafChain.base low high items).itemCount ≤ (LEAF_LOWER : Int)
        · rw [if_pos hlo]
          rcases hpar with ⟨-, hroot⟩ | ⟨s, hpar, hlev, hps⟩
          · exfalso
            obtain ⟨m, hm, _⟩ := hi.root
            rw [← hroot, e, hn0] at hm
            cases hm
          · rw [parent_snap hpar hlev]
            show tw t (if s.node.low.2 = ctx.cur.id then _ else _) _ w
            by_cases hlm : s.node.low.2 = ctx.cur.id
            · rw [if_pos hlm]; exact hdone
            · rw [if_neg hlm]
              exact hrem _ (by rw [hn]; rfl) (by rw [hn]; rfl) rfl ⟨trivial, rfl, trivial⟩ rfl (by rw [hn]; rfl) (by rw [hn]; exact hlo) s hpar hlev hps hlm
        · rw [if_neg hlo]; exact hdone
    | _ => exact absurd rfl hd
  | inner c =>
    show tw t (if c.isDelta = true then _ else _) _ w
    by_cases hd : c.isDelta = true
    · rw [if_pos hd]; exact hdone
    rw [if_neg hd]
    rw [hn] at ho
    cases c with
    | base low high d items =>
      by_cases hup : (INNER_UPPER : Int) ≤ (InnerChain.base low high d items).itemCount
      · rw [if_pos hup]
        have hlen : INNER_UPPER ≤ items.length := by
          simp only [InnerChain.itemCount] at hup; omega
        have hlen2 : 2 ≤ items.length := by simp only [INNER_UPPER] at hlen; omega
        obtain ⟨m, hm, hwf, _⟩ := ho.1.2.2.2
        obtain ⟨x, _, _, hsp, _⟩ := InnerChain.splitSibling_spec hwf hlen2
        rw [hsp]
        obtain ⟨⟨z, hz⟩, _⟩ := innerHalves (t := t) (newId := 1) ho hlen2 hsp
        have hkid : Live w m x.2 := by
          have hd := hh.nd
          rw [hn, hm] at hd
          exact hs.kid m _ _ _ hd ((innerSplitN (V := V) hwf hlen hsp 1).effS _ (Node.low_eff rfl))
        show tw t (getNode x.2 >>= _) _ w
        refine tw_seq (tw_getNode hi hz hkid.2 (Q := fun g w1 => Inv w1 ∧ Calm w w1 ∧ w.At x.2 g.1 g.2) fun w1 p nd h1 h2 h3 => ⟨h1, h2, h3⟩) ?_
        rintro ⟨gp, gn⟩ w1 ⟨hi1, hc1, hat⟩
        by_cases hrm : gn.isRemove = true
        · simp only [hrm, if_true]
          refine tw_seq (tw_allocate hi1 (Q := fun p w2 => Inv w2 ∧ Calm w1 w2) fun w2 p h1 h2 _ => ⟨h1, h2⟩) ?_
          rintro p w2 ⟨hi2, hc2⟩
          refine tw_seq (tw_addGarbage hi2 (Q := fun _ w3 => Inv w3 ∧ Calm w2 w3) fun w3 h1 h2 => ⟨h1, h2⟩) ?_
          rintro _ w3 ⟨hi3, hc3⟩
          exact Or.inr ⟨rfl, hi3, hc1.trans (hc2.trans hc3)⟩
        · simp only [hrm]
          refine tw_seq (tw_nextNodeId hi1 (Q := fun id w2 => Inv w2 ∧ Calm w1 w2 ∧ w1.info id = none ∧ id ≠ INVALID ∧ id < w2.mem.nextId)
            fun w1 id h1 h2 h3 h4 h5 => ⟨h1, h2, h3, by rw [h4]; exact Nat.pos_iff_ne_zero.mp hi1.nextId, by rw [h5]; exact Nat.lt_succ_self id⟩) ?_
          rintro id w2 ⟨hi2, hc2, hid, hidv⟩
          have hcc := hc1.trans hc2
          refine tw_mono ?_ (tw_installSplit hi2 (hcc.sinv hi hs) (hcc.line hi hl) (hh.calm hcc hi) ((hcc.keeps hi).placed hpar.placed) hidv
            (by rw [hc2.info]; exact hid) (by rw [hn]; exact innerSplitN hwf hlen hsp id) ?_)
          · rintro r w3 ⟨rfl, h4, h5⟩
            exact Or.inl ⟨rfl, ((Ok.refl hi hs hl).calm hcc hi2).trans h4, hcc.lt_left hi h5⟩
          · rintro m' hm' ⟨nd, h1, h2⟩
            rw [hcc.nd hi] at h1
            obtain ⟨q, hq⟩ := h1.2
            obtain ⟨-, rfl⟩ := At.unique hq hat
            exact hrm h2
      · rw [if_neg hup]
        by_cases hlo : (InnerChain.base low high d items).itemCount ≤ (INNER_LOWER : Int)
        · rw [if_pos hlo]
          rcases hpar with ⟨hpar, hroot⟩ | ⟨s, hpar, hlev, hps⟩
          · unfold onRoot
            rw [hpar]
            exact hdone
          · unfold onRoot
            rw [hpar]
            show tw t (parent ctx >>= _) _ w
            rw [parent_snap hpar hlev]
            show tw t (if s.node.low.2 = ctx.cur.id then _ else _) _ w
            by_cases hlm : s.node.low.2 = ctx.cur.id
            · rw [if_pos hlm]; exact hdone
            · rw [if_neg hlm]
              exact hrem _ (by rw [hn]; rfl) (by rw [hn]; rfl) rfl ⟨trivial, rfl, trivial⟩ rfl (by rw [hn]; rfl) (by rw [hn]; exact hlo) s hpar hlev hps hlm
        · rw [if_neg hlo]; exact hdone
    | _ => exact absurd rfl hd

/-- `TryConsolidateNode`, `AdjustNodeSize` after `FinishPartialSMO`. -/
theorem tw_settle {finish : Ctx K V → Prog K V (Option (Ctx K V))} {ctx : Ctx K V}
    (h : tw t (finish ctx) (FinQ k n w ctx (fun w' c' => Slot k w' n c'.cur)) w) :
    tw t (settle finish ctx) (FinQ k n w ctx fun _ _ => True) w := by
  unfold settle
  refine tw_seq h ?_
  rintro r w1 (⟨rfl, h1, h2⟩ | ⟨c', rfl, h1, h2⟩)
  · exact Or.inl ⟨rfl, h1, h2⟩
  show tw t (tryConsolidate c' >>= adjustSize) _ w1
  refine tw_seq (R := fun c w2 => SRes k w n ctx w2 c ∧ Slot k w2 n c.cur) ?_ ?_
  · unfold tryConsolidate
    by_cases hd : c'.cur.node.isDelta = false
    · rw [if_pos hd]; exact ⟨h1, h2⟩
    rw [if_neg hd]
    by_cases hd2 : c'.cur.node.depth < (if c'.cur.node.isLeaf then LEAF_CHAIN else INNER_CHAIN)
    · rw [if_pos hd2]; exact ⟨h1, h2⟩
    rw [if_neg hd2]
    refine tw_seq (tw_consolidateNode h1.ok.inv h1.here (Node.clean_of h1.rm (h1.ok.sinv.shape _ _ _ h1.here.nd).2.1)
      (Q := fun s w2 => SRes k w n ctx w2 { c' with cur := s } ∧ Slot k w2 n s) fun w2 p b h3 h4 h5 h6 => ⟨h1.cons h3 h4 h5 h6, ?_⟩) ?_
    · exact (h2.put (h6.putSeq h1.ok.sinv h1.here.nd h1.rm h1.post h1.par.placed h4)).cons h6
    · rintro s w2 h3
      exact h3
  · rintro c w2 ⟨h3, h4⟩
    refine tw_mono ?_ (tw_adjustSize h3.ok.inv h3.ok.sinv h3.ok.line h3.here h3.rm h3.par h4)
    rintro r w3 (⟨rfl, h5, h6⟩ | ⟨rfl, h5, h6⟩)
    · exact Or.inl ⟨rfl, h3.ok.trans h5, h3.ok.le.lt h6⟩
    · exact Or.inr ⟨c, rfl, h3.calm h6 h5, trivial⟩

open Classical in
/-- Number of nodes of the level that begin below `lk`. -/
noncomputable def lowRank (w : World K V) (n : Nat) (lk : Option K) : Nat :=
  (List.range TABLE_SIZE).countP (fun id => decide (∃ x κ, w.info id = some (x, n) ∧ lk = some κ ∧ Above x κ))

theorem lowRank_le (w : World K V) (n : Nat) (lk : Option K) : lowRank w n lk ≤ TABLE_SIZE :=
  Nat.le_trans List.countP_le_length (Nat.le_of_eq List.length_range)

theorem lowRank_lt (hi : Inv w) {id : NodeId} {li : Option K} {κ : K} (hx : w.info id = some (li, n)) (h : Above li κ) :
    lowRank w n li < lowRank w n (some κ) := by
  refine countP_lt (x := id) ?_ _ (List.mem_range.mpr (hi.ids _ _ hx).2.1) ?_ ?_
  · intro a ha
    simp only [decide_eq_true_eq] at ha ⊢
    obtain ⟨x, κ', h1, rfl, h2⟩ := ha
    exact ⟨x, κ, h1, rfl, fun a ha => lt_trans (h2 a ha) (h κ' rfl)⟩
  · simp only [decide_eq_true_eq]
    exact ⟨li, κ, hx, rfl, h⟩
  · simp only [decide_eq_false_iff_not]
    rintro ⟨x, κ', h1, rfl, h2⟩
    rw [hx] at h1
    cases h1
    exact lt_irrefl _ (h2 κ' rfl)

theorem lowRank_congr (h : w'.info = w.info) (lk : Option K) : lowRank w' n lk = lowRank w n lk := by unfold lowRank; rw [h]

attribute [irreducible] lowRank

/-- `FinishPartialSMO` ends, within one recursion per node to the left. -/
theorem tw_finishSMO : ∀ (fuel : Nat) {w : World K V} {ctx : Ctx K V} {lk : Option K}, Inv w → SInv w → Line w k → FPre k w n ctx →
    w.info ctx.cur.id = some (lk, n) → lowRank w n lk < fuel →
    tw t (finishSMO fuel ctx) (FinQ k n w ctx (fun w' c' => Slot k w' n c'.cur)) w
  | 0, w, ctx, lk, _, _, _, _, _, hf => absurd hf (Nat.not_lt_zero _)
  | fuel + 1, w, ctx, lk, hi, hs, hl, ⟨hh, hpar, hin⟩, e, hf => by
    have hrec : ∀ w1 c li κ, Calm w w1 → Inv w1 → SInv w1 → Line w1 k → FPre k w1 n c → w1.info c.cur.id = some (li, n) →
        w.info ctx.cur.id = some (some κ, n) → Above li κ → tw t (settle (finishSMO fuel) c) (FinQ k n w1 c fun _ _ => True) w1 := by
      intro w1 c li κ hc hi1 hs1 hl1 hp1 e1 e2 hab
      refine tw_settle (tw_finishSMO fuel hi1 hs1 hl1 hp1 e1 ?_)
      rw [e] at e2
      cases e2
      have h1 := lowRank_lt hi (by rw [← hc.info]; exact e1) hab
      have h2 : lowRank w1 n li = lowRank w n li := lowRank_congr hc.info li
      omega
    have hrm : ctx.cur.node.isRemove = true → ∀ right, ctx.cur.node.strip = right →
        tw t (finishRemove (finishSMO fuel) ctx right) (FinQ k n w ctx (fun w' c' => Slot k w' n c'.cur)) w :=
      fun h1 right h2 => tw_finishRemove hi hs hl hh h1 hpar h2 hrec
    have hother : ctx.cur.node.isRemove = false → ctx.cur.node.splits = none →
        tw t (.ret (some ctx) : Prog K V (Option (Ctx K V))) (FinQ k n w ctx (fun w' c' => Slot k w' n c'.cur)) w :=
      fun h1 h2 => Or.inr ⟨ctx, rfl, SRes.self hi hs hl hh h1 (Posted.none h2) hpar, Or.inr (hin h2 h1)⟩
    obtain ⟨sh1, sh2, sh3⟩ := hs.shape _ _ _ hh.nd
    have hsplit : ∀ sk y, ctx.cur.node.splits = some y → ctx.cur.node.high = (sk, y) → ctx.cur.node.isRemove = false →
        tw t (finishSplit ctx (sk, y) ctx.cur.node.ext) (FinQ k n w ctx (fun w' c' => Slot k w' n c'.cur)) w :=
      fun sk y h1 h2 h3 => tw_finishSplit hi hs hl hh h3 hpar h1 h2
    unfold finishSMO
    cases hn : ctx.cur.node with
    | leaf c =>
      rw [hn] at hrm hother hsplit sh1 sh2
      cases c with
      | base _ _ _ => exact hother rfl rfl
      | ins _ _ _ _ _ => exact hother rfl rfl
      | del _ _ _ _ _ => exact hother rfl rfl
      | split sk y sib c => exact hsplit sk y rfl rfl rfl
      | merge _ _ _ _ => exact sh1.elim
      | remove _ c => exact hrm rfl _ rfl
    | inner c =>
      rw [hn] at hrm hother hsplit sh1 sh2
      cases c with
      | base _ _ _ _ => exact hother rfl rfl
      | ins _ _ _ _ => exact hother rfl rfl
      | del _ _ _ _ _ => exact hother rfl rfl
      | split item sib c => exact hsplit item.1 item.2 rfl rfl rfl
      | merge _ _ _ _ => exact sh1.elim
      | remove _ c => exact hrm rfl _ rfl
      | abort _ _ => cases sh2

end Tree
end BwTree
