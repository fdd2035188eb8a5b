import Verif.Proofs.SeqSplit

/-! Completing the removal of a node when one call runs alone: jump to the left sibling, merge, delete the separator. -/

namespace BwTree
namespace Tree

open Prog

set_option linter.unusedSectionVars false

variable {K V : Type} [LinearOrder K] [DecidableEq V] [Inhabited K] {w w' : World K V} {t : Tid} {α : Type} {k : K} {n : Nat}

theorem merge_facts {id : NodeId} {l r m : Node K V} (h : mergeNode id l r = some m) : m.high = r.high ∧ m.low = l.low ∧
    m.merged = some (l.high.1, id) ∧ m.isLeaf = l.isLeaf ∧ m.clean = true ∧ m.strip = m ∧ (∀ i, i ∈ m.eff ↔ i ∈ l.eff ∨ i ∈ r.eff) ∧
    ∀ a, a ∈ l.seps ∨ a ∈ r.seps → a ∈ m.seps := by
  unfold mergeNode at h
  cases l with
  | leaf l =>
    cases r with
    | leaf r =>
      cases h
      exact ⟨rfl, rfl, rfl, rfl, rfl, rfl, fun i => ⟨fun h => (by cases h), fun h => (by rcases h with h | h <;> cases h)⟩,
        fun a h => (by rcases h with h | h <;> cases h)⟩
    | inner r => cases h
  | inner l =>
    cases r with
    | leaf r => cases h
    | inner r =>
      cases h
      refine ⟨rfl, rfl, rfl, rfl, rfl, rfl, fun i => ?_, fun a h => ?_⟩
      · simp only [Node.eff, InnerChain.seps, InnerChain.low, List.map_cons, List.map_append, List.mem_cons, List.mem_append]
        constructor
        · rintro (h | h | h | h)
          · exact Or.inl (Or.inl h)
          · exact Or.inl (Or.inr h)
          · exact Or.inr (Or.inl h)
          · exact Or.inr (Or.inr h)
        · rintro ((h | h) | h | h)
          · exact Or.inl h
          · exact Or.inr (Or.inl h)
          · exact Or.inr (Or.inr (Or.inl h))
          · exact Or.inr (Or.inr (Or.inr h))
      · show a ∈ l.seps ++ (l.high.1, r.low.2) :: r.seps
        simp only [List.mem_append, List.mem_cons]
        rcases h with h | h
        · exact Or.inl h
        · exact Or.inr (Or.inr h)

/-- Installing a merge record. -/
theorem Put.merge {l x : NodeId} {p : Ptr} (h : Put w w' l p) (hi : Inv w) (hi' : Inv w') {ll : Option K} {nx node : Node K V} {κ : K}
    (hl : w.info l = some (ll, n)) (hx : Nd w n x nx) (hp : w.mem.heap p = some node) (hh : node.high = nx.high) (hst : node.strip = node)
    (hm : node.merged = some (κ, x)) : w'.info = w.info ∧ ∀ i, w'.dead i ↔ w.dead i ∨ i = x := by
  have hat : w'.At l p node := (h.self hp).mpr ⟨rfl, rfl⟩
  constructor
  · funext i
    cases hx' : w'.info i with
    | none =>
      cases hy : w.info i with
      | none => rfl
      | some y => rw [h.mono.info _ _ hy] at hx'; cases hx'
    | some y =>
      rcases h.gstep.info i y hx' with e | ⟨h1, h2⟩ | ⟨q, z, p', n', h1, h2, h3, h4⟩
      · exact e.symm
      · exact absurd (h.root.symm.trans h1) h2
      · by_cases hq : q = l
        · subst hq
          obtain ⟨rfl, rfl⟩ := (h.self hp).mp h2
          obtain ⟨lx, ex, ox⟩ := hx.ok hi
          have hb := ox.high
          rw [← hh, h3] at hb
          rcases hb with hb | hb
          · exact absurd hb (hi'.ids _ _ hx').1
          · exact (hx'.symm.trans (h.mono.info _ _ hb)).trans hb.symm
        · exact absurd ((h.ne hq).mp h2) h4
  · intro i
    constructor
    · intro hd
      rcases h.gstep.dead i hd with e | ⟨q, z, p', n', κ', h1, h2, h3, h4⟩
      · exact Or.inl e
      · by_cases hq : q = l
        · subst hq
          obtain ⟨rfl, rfl⟩ := (h.self hp).mp h2
          rw [hm] at h3
          cases h3
          exact Or.inr rfl
        · exact absurd ((h.ne hq).mp h2) h4
    · rintro (hd | rfl)
      · exact h.mono.dead i hd
      · have ok := (hi'.at_ok (h.mono.info _ _ hl) hat).2.1
        rw [hst] at ok
        exact ok.2.2.1 _ hm

/-- A removed right neighbour is merged and its separator deleted. -/
theorem tw_mergeInto (hi : Inv w) (hs : SInv w) {c : Ctx K V} (hh : Here w n c.cur) (hr : c.cur.node.isRemove = false)
    (hpost : Posted w n c.cur.node) {s : Snap K V} (hpar : c.par = .snap s) (hlev : c.level ≠ 0) (hps : ParS w n s c.cur.id) {x : NodeId}
    {nx right m : Node K V} {κ : K} (hx : Nd w n x nx) (hrx : nx.isRemove = true) (hhi : c.cur.node.high = (κ, x)) (hsep : (κ, x) ∈ s.node.seps)
    (hright : nx.strip = right) (hmn : mergeNode x c.cur.node right = some m) (ks : List Ptr) :
    tw t (allocate m ks >>= fun p => replace c.cur.id p c.cur.ptr >>= fun ok =>
        if ok then finishMerge { c with cur := ⟨c.cur.id, p, m⟩ } (c.cur.node.high.1, x) right.high else pure none)
      (fun r w' => ∃ p b p2 newQ, r = some { c with cur := ⟨c.cur.id, p, b⟩, par := .snap ⟨s.id, p2, newQ⟩ } ∧ Inv w' ∧
        MergeSeq w w' n c.cur.id x s.id c.cur.node nx b s.node newQ ∧ w'.At c.cur.id p b ∧ w'.At s.id p2 newQ ∧
        b.high = nx.high ∧ newQ.high = s.node.high) w := by
  obtain ⟨m1, m2, m3, m4, m5, m6, m7, m8⟩ := merge_facts hmn
  have hrh : right.high = nx.high := by rw [← hright, Node.strip_high]
  have hxv : x ≠ INVALID := (hi.ids _ _ hx.1.1.choose_spec).1
  obtain ⟨ci, lq, hc, eq, hwf, hnm, hex, hids⟩ := hps.inner hi hs
  have hq : Nd w (n + 1) s.id (.inner ci) := by rw [← hc]; exact hps.here.nd
  rw [hc] at hsep
  have hsep : (κ, x) ∈ ci.seps := hsep
  obtain ⟨ex, _, eq', hab, hbl⟩ := hq.sep hi hsep
  rw [eq] at eq'
  cases eq'
  obtain ⟨ll, el, ol⟩ := hh.nd.ok hi
  have hxl : x ≠ c.cur.id := by
    rintro rfl
    rw [(hx.unique hh.nd).2, hr] at hrx
    cases hrx
  have hql : s.id ≠ c.cur.id := hps.ne hh.1
  have hqx : s.id ≠ x := hps.ne hx.1
  -- the merge record
  refine tw_seq (tw_allocate' hi (Q := fun p w1 => Inv w1 ∧ Calm w w1 ∧ w1.mem.garbage = w.mem.garbage ∧ w1.mem.heap p = some m)
    fun w1 p h1 h2 h3 h4 => ⟨h1, h2, h3, h4⟩) ?_
  rintro p w1 ⟨hi1, hc1, hgb1, hp⟩
  have hh1 := hh.calm hc1 hi
  obtain ⟨l1, e1⟩ := hh1.1.1
  refine tw_seq (tw_replace hi1 e1 hh1.1.2 hh1.2.1 (Q := fun ok w2 => ok = true ∧ Inv w2 ∧ Put w1 w2 c.cur.id p) fun w2 h1 h2 => ⟨rfl, h1, h2⟩) ?_
  rintro ok w2 ⟨rfl, hi2, hput⟩
  rw [if_pos rfl]
  have hnd1 : Nd w1 = Nd w := hc1.nd hi
  obtain ⟨g1, g2⟩ := hput.merge hi1 hi2 e1 (by rw [hnd1]; exact hx) hp (m1.trans hrh) m6 m3
  have hat2 : w2.At c.cur.id p m := (hput.self hp).mpr ⟨rfl, rfl⟩
  have hlv2 : ∀ j i, Live w2 j i ↔ Live w j i ∧ i ≠ x := by
    intro j i
    unfold Live
    rw [g1, g2, hc1.info, hc1.dead]
    simp only [not_or, and_assoc]
  have hother2 : ∀ i y q nd, w.info i = some y → i ≠ c.cur.id → (w2.At i q nd ↔ w.At i q nd) := fun i y q nd hy hne =>
    (hput.ne hne).trans (hc1.at_ hi hy)
  have hnd2 : ∀ j i nd, Nd w2 j i nd ↔ (i = c.cur.id ∧ j = n ∧ nd = m) ∨ (i ≠ c.cur.id ∧ i ≠ x ∧ Nd w j i nd) := by
    intro j i nd
    constructor
    · rintro ⟨h1, q, ha⟩
      rw [hlv2] at h1
      by_cases hil : i = c.cur.id
      · subst hil
        obtain ⟨l2, e2⟩ := h1.1.1
        rw [el] at e2
        cases e2
        exact Or.inl ⟨rfl, rfl, (At.unique ha hat2).2⟩
      · exact Or.inr ⟨hil, h1.2, h1.1, q, (hother2 _ _ _ _ h1.1.1.choose_spec hil).mp ha⟩
    · rintro (⟨rfl, rfl, rfl⟩ | ⟨h1, h2, h3, q, ha⟩)
      · exact ⟨(hlv2 _ _).mpr ⟨hh.1, Ne.symm hxl⟩, p, hat2⟩
      · exact ⟨(hlv2 _ _).mpr ⟨h3, h2⟩, q, (hother2 _ _ _ _ h3.1.choose_spec h1).mpr ha⟩
  have hq2 : Here w2 (n + 1) s := ⟨(hlv2 _ _).mpr ⟨hps.here.1, hqx⟩, (hother2 _ _ _ _ eq hql).mpr hps.here.2⟩
  have heq2 : w2.info s.id = some (lq, n + 1) := by rw [g1, hc1.info]; exact eq
  -- the parent
  unfold finishMerge
  rw [parent_snap (ctx := { c with cur := ⟨c.cur.id, p, m⟩ }) hpar hlev]
  refine tw_seq (p := getNode s.id) (tw_getNode' hi2 (seen_live heq2 hq2.1.2) (Q := fun g w3 => g.1 = s.ptr ∧ Inv w3 ∧ Calm w2 w3 ∧ w3.mem = w2.mem) fun w3 p3 nd h1 h2 h3 h4 =>
    ⟨(At.unique h4 hq2.2).1, h1, h2, h3⟩) ?_
  rintro g w3 ⟨hg, hi3, hc3, hm3⟩
  rw [if_neg (by rw [hg]; exact fun h => h rfl), hc]
  show tw t (match ci.findSep c.cur.node.high.1 with | none => _ | some (none, _) => _ | some (some found, loc) => _) _ w3
  obtain ⟨r, loc, f1, f2, f3, f4⟩ := InnerChain.findSep_spec hi.lo_invalid hwf hab hbl
  have hκ : c.cur.node.high.1 = κ := by rw [hhi]
  rw [hκ, f1]
  cases r with
  | none => exact absurd ⟨_, hsep, rfl⟩ (f3 rfl)
  | some found =>
  obtain ⟨f5, f6⟩ := f2 found rfl
  have hf : x = found.2 := same_low hi hx.1 (hs.kid n _ _ _ hq (Node.seps_eff (k := found.1) (i := found.2) f5)) ex
    (by rw [← f6]; exact (hq.sep hi (k := found.1) (i := found.2) f5).1)
  show tw t (if found.2 ≠ x then _ else _) _ w3
  rw [if_neg (by rw [← hf]; exact fun h => h rfl)]
  show tw t (postInnerDelete { c with cur := ⟨c.cur.id, p, m⟩ } (κ, x) (m.low.1, c.cur.id) right.high loc) _ w3
  unfold postInnerDelete
  rw [parent_snap (ctx := { c with cur := ⟨c.cur.id, p, m⟩ }) hpar hlev]
  show tw t (match s.node with | .leaf _ => .fail .kind | .inner c => _) _ w3
  rw [hc]
  have hq3 := hq2.calm hc3 hi2
  refine tw_put' hi3 hq3 (by rw [hc]; rfl) rfl ?_
  intro w4 p4 hi4 hsw4 hgb4 hat4
  rw [if_pos rfl]
  have hex4 : w4.info x = some (some κ, n) := by rw [hsw4.info, hc3.info, g1, hc1.info]; exact ex
  have hseen : Lookable w4 x := by
    refine ⟨⟨_, hex4⟩, fun _ p' hp' => ?_⟩
    obtain ⟨p0, ha0⟩ := hx.2
    have ha4 : w4.At x p0 nx := (hsw4.other _ _ _ _ (by rw [hc3.info, g1, hc1.info]; exact ex) (Ne.symm hqx)).mpr
      ((hc3.at_ hi2 (by rw [g1, hc1.info]; exact ex)).mpr ((hother2 _ _ _ _ ex hxl).mpr ha0))
    rw [ha4.1] at hp'
    cases hp'
    rw [hgb4, hm3, hput.garbage, hgb1]
    exact hi.not_garbage ex hx.1.2 ha0.1
  refine tw_seq (tw_getNode' hi4 hseen (Q := fun _ w5 => Inv w5 ∧ Calm w4 w5) fun w5 _ _ h1 h2 _ _ => ⟨h1, h2⟩) ?_
  rintro g5 w5 ⟨hi5, hc5⟩
  by_cases hg5 : g5.2.isRemove = true
  swap
  · rw [if_neg hg5]
    exact (not_bad (by decide))
  rw [if_pos hg5]
  refine tw_seq (tw_addGarbage hi5 (Q := fun _ w6 => Inv w6 ∧ Calm w5 w6) fun w6 h1 h2 => ⟨h1, h2⟩) ?_
  rintro _ w6 ⟨hi6, hc6⟩
  have hsw6 := ((hc3.swap hsw4 hi2).calm hc5 hi4).calm hc6 hi5
  have hh6 : Here w6 n ⟨c.cur.id, p, m⟩ := hsw6.stay ⟨(hlv2 _ _).mpr ⟨hh.1, Ne.symm hxl⟩, hat2⟩ (fun e => hql e.symm)
  have hat6 : w6.At s.id p4 (.inner (.del (κ, x) (m.low.1, c.cur.id) right.high loc ci)) :=
    ((hc5.trans hc6).at_ hi4 (by rw [hsw4.info, hc3.info]; exact heq2)).mpr hat4
  refine tw_seq (tw_consolidateNode hi6 hh6 m5 (Q := fun s' w7 => ∃ p b, s' = ⟨c.cur.id, p, b⟩ ∧ Inv w7 ∧ Swap w6 w7 n c.cur.id b ∧ w7.At c.cur.id p b ∧ Cons m b)
    fun w2 p b h1 h2 h3 h4 => ⟨p, b, rfl, h1, h2, h3, h4⟩) ?_
  rintro _ w7 ⟨p7, b, rfl, hi7, hsw7, hat7, hcons⟩
  obtain ⟨b1, b2, b3, b4, _⟩ := Node.base_shape hcons.base
  refine ⟨p7, b, p4, _, rfl, hi7, ?_, hat7, (hsw7.other _ _ _ _ (by rw [hsw6.info]; exact heq2) hql).mpr hat6, hcons.high.trans (m1.trans hrh), rfl⟩
  obtain ⟨s1, s2, s3⟩ := hs.shape _ _ _ hh.nd
  obtain ⟨x1, x2, x3⟩ := hs.shape _ _ _ hx
  have hreff : right.eff = nx.eff := by rw [← hright, Node.strip_eff]
  have hrseps : right.seps = nx.seps := by rw [← hright, Node.strip_seps]
  have hmono : Mono w w7 := hc1.mono.trans (hput.mono.trans (hsw6.mono.trans hsw7.mono))
  have hxnosplit : nx.splits = none := Node.splits_of_remove hrx
  have hprev : ci.IsPrev κ (m.low.1, c.cur.id) := by
    rw [m2]
    refine isPrev_of hi hs hq (by rw [← hc]; exact hps.kid) hh.nd el (fun l hl => ?_) hhi hxv
    subst hl
    exact low_of_info hi (snap_of_at hi el hh.2) el
  have hnext : ci.IsNext κ right.high := by
    rw [hrh]
    exact isNext_of hi hs hq eq (fun l hl => le_of_lt (hab l hl)) hbl hx ex hxnosplit
  have hlow : ∀ i, i = ci.low.2 → i ≠ x := by
    rintro i rfl e
    have hl : w.info ci.low.2 = some (lq, n) := hq.low hi eq
    rw [e, ex] at hl
    cases hl
    exact lt_irrefl _ (hab _ rfl)
  have hkey : ∀ a : K × NodeId, a ∈ ci.seps → (a.1 ≠ κ ↔ a.2 ≠ x) := by
    intro a ha
    refine ⟨fun h1 h2 => h1 ?_, fun h1 h2 => h1 ?_⟩
    · have := (hq.sep hi (k := a.1) (i := a.2) ha).1
      rw [h2, ex] at this
      cases this
      rfl
    · exact same_low hi (hs.kid n _ _ _ hq (Node.seps_eff (k := a.1) (i := a.2) ha)) hx.1
        (by rw [← h2]; exact (hq.sep hi (k := a.1) (i := a.2) ha).1) ex
  exact {
    mono := hmono
    root := by rw [hsw7.root, hsw6.root, hput.root, hc1.root]
    info := by rw [hsw7.info, hsw6.info, g1, hc1.info]
    nextId := Nat.le_trans hc1.nextId (Nat.le_trans (Nat.le_of_eq hput.nextId.symm) (Nat.le_trans hsw6.nextId hsw7.nextId))
    lv := fun j i => by rw [hsw7.lv, hsw6.lv, hlv2]
    nd := fun j i nd => by
      rw [hsw7.nd, hsw6.nd, hnd2]
      constructor
      · rintro (h | ⟨h1, h | ⟨h2, h | h⟩⟩)
        · exact Or.inl h
        · exact Or.inr (Or.inl h)
        · exact absurd h.1 h1
        · exact Or.inr (Or.inr ⟨h1, h2, h.2.1, h.2.2⟩)
      · rintro (h | h | ⟨h1, h2, h3, h4⟩)
        · exact Or.inl h
        · exact Or.inr ⟨by rw [h.1]; exact hql, Or.inl h⟩
        · exact Or.inr ⟨h1, Or.inr ⟨h2, Or.inr ⟨h1, h3, h4⟩⟩⟩
    wasL := hh.nd
    wasX := hx
    wasQ := hq
    rmL := hr
    rmX := hrx
    rmQ := by rw [← hc]; exact hps.rm
    rmN := b2
    rmNQ := rfl
    shape := b1
    shapeQ := ⟨hnm, rfl, hex, hprev, hnext⟩
    splits := b3
    splitsQ := rfl
    high := by rw [hhi]
    eff := fun i => by rw [hcons.eff, m7, hreff]
    seps := fun a ha => by rw [hcons.seps]; exact m8 a (by rw [hrseps]; exact ha)
    effQ := fun i => by
      constructor
      · intro h
        rcases (Node.mem_eff h).2 with h | ⟨κ', h⟩
        · have h : i = ci.low.2 := h
          exact ⟨by rw [h]; exact Node.low_eff (n := .inner ci) rfl, hlow i h⟩
        · have h : (κ', i) ∈ ci.seps.filter (fun a => decide (a.1 ≠ κ)) := h
          obtain ⟨h1, h2⟩ := List.mem_filter.mp h
          exact ⟨Node.seps_eff (k := κ') h1, (hkey _ h1).mp (of_decide_eq_true h2)⟩
      · rintro ⟨h, hne⟩
        rcases (Node.mem_eff h).2 with h | ⟨κ', h⟩
        · rw [h]; exact Node.low_eff (n := .inner (.del (κ, x) (m.low.1, c.cur.id) right.high loc ci)) rfl
        · refine Node.seps_eff (k := κ') ?_
          show (κ', i) ∈ ci.seps.filter (fun a => decide (a.1 ≠ κ))
          exact List.mem_filter.mpr ⟨h, decide_eq_true ((hkey (κ', i) h).mpr hne)⟩
    sepsQ := fun a ha hne => by
      show a ∈ ci.seps.filter (fun a => decide (a.1 ≠ κ))
      exact List.mem_filter.mpr ⟨ha, decide_eq_true ((hkey a ha).mpr hne)⟩
    inL := by rw [← hc]; exact hps.kid
    inX := by exact Node.seps_eff hsep
    postedL := hpost
    postedQ := by rw [← hc]; exact hps.post
    placedQ := hps.placed
    del := by
      have e7 : w7.info s.id = some (lq, n + 1) := by rw [hsw7.info, hsw6.info]; exact heq2
      have hat := (hsw7.other _ _ _ _ (by rw [hsw6.info]; exact heq2) hql).mpr hat6
      obtain ⟨q, h1, h2⟩ := hi7.cur _ _ e7
      have hq7 : q = p4 := Option.some.inj (h1.symm.trans hat.1)
      rw [hq7] at h2
      exact hi7.dl.recs p4 _ _ hat.2 (hi7.ow.pub _ _ h2) rfl }

/-- The left sibling found through a parent without merge records. -/
theorem leftStart_found (hinv : lo INVALID = none) {c : InnerChain K} {lv : Option K} (h : c.WF lo lv) {κ : K} (hb : Below c.high κ)
    (hk : InnerChain.HasKey c κ) (hm : c.noMerge) : ∃ id, c.leftStart κ = some (.found id) ∧ c.IsLeftOf κ id := by
  obtain ⟨id, h1, h2⟩ := InnerChain.leftSibling_exact hinv h hb hk
  refine ⟨id, ?_, h2⟩
  have hstart : c.leftStart κ = c.leftRec c.depth κ [] := by unfold InnerChain.leftStart; exact if_pos hb
  obtain ⟨L, l1, l2, l3⟩ := InnerChain.leftRec_spec hinv c.depth κ c lv [] h (by simp [InnerChain.SDesc]) (by simp) (by simp) hm hb
  unfold InnerChain.leftSibling at h1
  rw [hstart, l3] at h1
  rw [hstart, l3]
  cases hx : (L ++ [c.low])[1]? with
  | none => rw [hx] at h1; cases h1
  | some a => rw [hx] at h1; cases h1; rfl

/-- What `FinishPartialSMO` is called with. -/
def FPre (k : K) (w : World K V) (n : Nat) (ctx : Ctx K V) : Prop :=
  Here w n ctx.cur ∧ ParC w n ctx.par ctx.level ctx.cur.id ∧
  (ctx.cur.node.splits = none → ctx.cur.node.isRemove = false → InLine k w n ctx.cur.id ctx.cur.node)

theorem Calm.lt_left {w0 : World K V} (hc : Calm w w') (hi : Inv w) (h : Lt w' w0) : Lt w w0 := (hc.le hi).lt h

/-- Result of jumping to the left sibling of the removed node `x`. -/
structure LeftQ (k : K) (w : World K V) (n : Nat) (ctx : Ctx K V) (s : Snap K V) (w' : World K V) (c' : Ctx K V) : Prop where
  ok : Ok k w w'
  here : Here w' n c'.cur
  rm : c'.cur.node.isRemove = false
  post : Posted w' n c'.cur.node
  par : ParC w' n c'.par c'.level c'.cur.id
  snap : ∃ s', c'.par = .snap s' ∧ s'.id = s.id ∧ s'.node.high = s.node.high
  level : c'.level = ctx.level
  high : c'.cur.node.high.2 = ctx.cur.id
  rmB : ∀ m i, Rm w' m i → Rm w m i
  low : ∃ lk, w'.info c'.cur.id = some (lk, n) ∧ ∀ κ, w.info ctx.cur.id = some (some κ, n) → AtLeast lk κ

theorem tw_jumpLeft (hi : Inv w) (hs : SInv w) (hl : Line w k) {finish : Ctx K V → Prog K V (Option (Ctx K V))} {ctx : Ctx K V}
    (hh : Here w n ctx.cur) (hr : ctx.cur.node.isRemove = true) {s : Snap K V} (hpar : ctx.par = .snap s) (hlev : ctx.level ≠ 0)
    (hps : ParS w n s ctx.cur.id) {κ : K} (hx : w.info ctx.cur.id = some (some κ, n)) (hsep : (κ, ctx.cur.id) ∈ s.node.seps)
    (hfin : ∀ w1 c li, Calm w w1 → Inv w1 → SInv w1 → Line w1 k → FPre k w1 n c → w1.info c.cur.id = some (li, n) → Above li κ →
      tw t (settle finish c) (FinQ k n w1 c fun _ _ => True) w1) :
    tw t (jumpLeft finish ctx) (fun r w' => (r = none ∧ Ok k w w' ∧ Lt w w') ∨ ∃ c', r = some c' ∧ LeftQ k w n ctx s w' c') w := by
  obtain ⟨ci, lq, hc, eq, hwf, hnm, hex, hids⟩ := hps.inner hi hs
  have hq : Nd w (n + 1) s.id (.inner ci) := by rw [← hc]; exact hps.here.nd
  rw [hc] at hsep
  have hsep : (κ, ctx.cur.id) ∈ ci.seps := hsep
  obtain ⟨_, _, eq', hab, hbl⟩ := hq.sep hi hsep
  rw [eq] at eq'
  cases eq'
  unfold jumpLeft
  rw [parent_snap hpar hlev]
  show tw t (if s.node.low.2 = ctx.cur.id then _ else _) _ w
  rw [if_neg (by
    intro e
    rw [hc] at e
    have h2 : w.info ci.low.2 = some (lq, n) := hq.low hi eq
    have e : ci.low.2 = ctx.cur.id := e
    rw [e, hx] at h2
    cases h2
    exact lt_irrefl _ (hab _ rfl))]
  refine tw_seq (p := getNode s.id) (tw_getNode hi eq hq.1.2 (Q := fun g w1 => g.1 = s.ptr ∧ Inv w1 ∧ Calm w w1) fun w1 p1 nd h1 h2 h3 =>
    ⟨(At.unique h3 hps.here.2).1, h1, h2⟩) ?_
  rintro g w1 ⟨hg, hi1, hc1⟩
  rw [if_neg (by rw [hg]; exact fun h => h rfl)]
  have hκ : ctx.cur.node.low.1 = κ := low_of_info hi (snap_of_at hi hx hh.2) hx
  obtain ⟨i, f1, f2⟩ := leftStart_found hi.lo_invalid hwf hbl ⟨_, hsep, rfl⟩ hnm
  unfold findLeftSibling
  rw [hκ, hc]
  show tw t ((match ci.leftStart κ with | none => .fail .leftSibling | some (.found id) => .ret (id, s) | some .sawMerge => _) >>= fun x => _) _ w1
  rw [f1]
  show tw t (jump finish i { ctx with par := .snap s } >>= _) _ w1
  have hs1 := hc1.sinv hi hs
  have hl1 := hc1.line hi hl
  have hps1 : ParS w1 n s ctx.cur.id := hps.move (hc1.keeps hi) (hps.here.calm hc1 hi)
  have hq1 : Nd w1 (n + 1) s.id (.inner ci) := by rw [← hc]; exact hps1.here.nd
  obtain ⟨li, ni, ei, hni, hmem, habi, hnear⟩ := left_near hi1 hs1 hq1 (by rw [hc1.info]; exact eq) hsep f2
  have hil : i ≠ ctx.cur.id := by
    rintro rfl
    rw [hc1.info, hx] at ei
    cases ei
    exact lt_irrefl _ (habi _ rfl)
  unfold jump
  refine tw_seq (R := fun r w' => FinQ k n w1 { ctx with par := .snap s, cur := ⟨i, (w1.mem.table i).getD 0, ni⟩ } (fun _ _ => True) r w') ?_ ?_
  · refine tw_seq (tw_getNode hi1 ei hni.1.2 (Q := fun g w2 => g.2 = ni ∧ g.1 = (w1.mem.table i).getD 0 ∧ Inv w2 ∧ Calm w1 w2 ∧ w2.At i g.1 g.2)
      fun w2 p2 nd h1 h2 h3 => ?_) ?_
    · obtain ⟨q0, hq0⟩ := hni.2
      have hu := At.unique h3 hq0
      refine ⟨hu.2, ?_, h1, h2, (h2.at_ hi1 ei).mpr h3⟩
      show p2 = _
      rw [hu.1, hq0.1]
      rfl
    rintro ⟨p2, nd2⟩ w2 ⟨hnd2, hp2, hi2, hc2, hat2⟩
    obtain rfl : nd2 = ni := hnd2
    obtain rfl : p2 = (w1.mem.table i).getD 0 := hp2
    show tw t (if nd2.isLeaf ≠ ctx.cur.node.isLeaf then _ else if ctx.cur.id = i then _ else _) _ w2
    by_cases hk : nd2.isLeaf ≠ ctx.cur.node.isLeaf
    · rw [if_pos hk]
      exact (not_bad (by decide))
    rw [if_neg hk, if_neg (Ne.symm hil)]
    have hcc := hc1.trans hc2
    have hxn : Rm w2 n ctx.cur.id := ⟨_, (hh.calm hcc hi).nd, hr⟩
    refine tw_mono ?_ (hfin w2 _ li hcc hi2 (hcc.sinv hi hs) (hcc.line hi hl) ⟨⟨hc2.live.mpr hni.1, hat2⟩, Or.inr ⟨s, rfl, hlev, ?_⟩, ?_⟩
      (by rw [hc2.info]; exact ei) habi)
    · rintro r w3 (⟨rfl, h1, h2⟩ | ⟨c', rfl, h1, -⟩)
      · exact Or.inl ⟨rfl, ((Ok.refl hi1 hs1 hl1).calm hc2 hi2).trans h1, hc2.lt_left hi1 h2⟩
      · refine Or.inr ⟨c', rfl, ?_, trivial⟩
        exact {
          ok := ((Ok.refl hi1 hs1 hl1).calm hc2 hi2).trans h1.ok
          here := h1.here
          rm := h1.rm
          post := h1.post
          par := h1.par
          root := h1.root
          snap := h1.snap
          level := h1.level
          high := h1.high
          low := fun lk e => h1.low lk (by rw [hc2.info]; exact e)
          rmB := fun m i h => by rw [← rm_congr (hc2.nd hi1)]; exact h1.rmB m i h
          fresh := fun y h3 h4 => hc2.lt_left hi1 (h1.fresh y (by rw [fresh_congr (hc2.nd hi1)]; exact h3) (by rw [hasPar_congr (hc2.nd hi1)]; exact h4))
          tgt := fun y h3 h4 => h1.tgt y (by rw [fresh_congr (hc2.nd hi1)]; exact h3) (hc2.covers hi1 h4) }
    · have := hps.move (hcc.keeps hi) (hps.here.calm hcc hi)
      exact ⟨this.here, this.rm, this.post, this.placed, by rw [hc]; exact hmem⟩
    · intro h1 h2
      refine ⟨li, by rw [hc2.info]; exact ei, Or.inr ?_⟩
      rcases hnear with e | ⟨z, ⟨nd, _, hz1, hz2, _⟩, _⟩
      · show Rm w2 n nd2.high.2
        rw [e]
        exact hxn
      · rw [← (hni.unique hz1).2] at hz2
        have h1 : nd2.splits = none := h1
        rw [h1] at hz2
        cases hz2
  · have hok1 : Ok k w w1 := (Ok.refl hi hs hl).calm hc1 hi1
    rintro r w3 (⟨rfl, h1, h2⟩ | ⟨c', rfl, h1, -⟩)
    · exact Or.inl ⟨rfl, hok1.trans h1, hc1.lt_left hi h2⟩
    · show tw t (if ctx.cur.id ≠ c'.cur.node.high.2 then _ else _) _ w3
      by_cases hne : ctx.cur.id ≠ c'.cur.node.high.2
      · rw [if_pos hne]
        refine Or.inl ⟨rfl, hok1.trans h1.ok, hc1.lt_left hi ?_⟩
        rcases hnear with e | ⟨z, hz1, hz2⟩
        · exact absurd (by rw [h1.high]; exact e.symm) hne
        · exact h1.fresh z hz1 hz2
      · rw [if_neg hne]
        refine Or.inr ⟨c', rfl, ?_⟩
        obtain ⟨lk', e1, e2⟩ := h1.low li ei
        exact {
          ok := hok1.trans h1.ok
          here := h1.here
          rm := h1.rm
          post := h1.post
          par := h1.par
          snap := h1.snap s rfl
          level := h1.level
          high := (not_not.mp hne).symm
          rmB := fun m i h => by rw [← rm_congr (hc1.nd hi)]; exact h1.rmB m i h
          low := ⟨lk', e1, fun κ' h => by
            rw [hx] at h
            cases h
            exact e2 _ fun l hl => le_of_lt (habi l hl)⟩ }

/-- The removal of a node is completed, or the call aborts after a change. -/
theorem tw_finishRemove (hi : Inv w) (hs : SInv w) (hl : Line w k) {finish : Ctx K V → Prog K V (Option (Ctx K V))} {ctx : Ctx K V}
    (hh : Here w n ctx.cur) (hr : ctx.cur.node.isRemove = true) (hpar : ParC w n ctx.par ctx.level ctx.cur.id) {right : Node K V}
    (hright : ctx.cur.node.strip = right)
    (hfin : ∀ w1 c li κ, Calm w w1 → Inv w1 → SInv w1 → Line w1 k → FPre k w1 n c → w1.info c.cur.id = some (li, n) →
      w.info ctx.cur.id = some (some κ, n) → Above li κ → tw t (settle finish c) (FinQ k n w1 c fun _ _ => True) w1) :
    tw t (finishRemove finish ctx right) (FinQ k n w ctx (fun w' c' => Slot k w' n c'.cur)) w := by
  obtain ⟨q, nq, κ, hq, hsep⟩ := hs.rm _ _ _ hh.nd hr
  obtain ⟨ex, lq, eq, hab, hbl⟩ := hq.sep hi hsep
  rcases hpar with ⟨-, hroot⟩ | ⟨s, hpar, hlev, hps⟩
  · obtain ⟨m, hm, _⟩ := hi.root
    rw [← hroot, ex] at hm
    cases hm
  obtain rfl : q = s.id := par_unique hi hq (Node.seps_eff hsep) hps.here.nd hps.kid
  have hnq := (hq.unique hps.here.nd).2
  subst hnq
  unfold finishRemove
  refine tw_seq (tw_jumpLeft hi hs hl hh hr hpar hlev hps ex hsep fun w1 c li h1 h2 h3 h4 h5 h6 h7 => hfin w1 c li κ h1 h2 h3 h4 h5 h6 ex h7) ?_
  rintro r w1 (⟨rfl, h1, h2⟩ | ⟨c', rfl, h1⟩)
  · exact Or.inl ⟨rfl, h1, h2⟩
  show tw t (match mergeNode ctx.cur.id c'.cur.node right with | none => .fail .kind | some m => _) _ w1
  cases hm : mergeNode ctx.cur.id c'.cur.node right with
  | none => exact (not_bad (by decide))
  | some m =>
  have hi1 := h1.ok.inv
  have hs1 := h1.ok.sinv
  have hxv : ctx.cur.id ≠ INVALID := (hi.ids _ _ ex).1
  have hlx : Live w1 n ctx.cur.id := by
    rcases hi1.next _ _ _ _ h1.here.1 h1.here.2 with e | e
    · exact absurd (h1.high.symm.trans e) hxv
    · rwa [h1.high] at e
  have hx1 : Nd w1 n ctx.cur.id ctx.cur.node := ⟨hlx, _, h1.ok.mono.removedAt ex hh.2 hr⟩
  obtain ⟨s', hpar', hid', hhigh'⟩ := h1.snap
  obtain ⟨lev', ps'⟩ : c'.level ≠ 0 ∧ ParS w1 n s' c'.cur.id := by
    rcases h1.par with ⟨h2, -⟩ | ⟨s2, h2, h3, h4⟩
    · rw [hpar'] at h2; cases h2
    · rw [hpar'] at h2; cases h2; exact ⟨h3, h4⟩
  obtain ⟨lL, eL, oL⟩ := h1.here.nd.ok hi1
  have ex1 := h1.ok.mono.info _ _ ex
  have hhi : c'.cur.node.high = (κ, ctx.cur.id) := by
    have := oL.high.resolve_left (by rw [h1.high]; exact hxv)
    rw [h1.high, ex1] at this
    rw [← h1.high]
    injection this with this
    injection this with this _
    injection this with this
    rw [this]
  have eq1 : w1.info s'.id = some (lq, n + 1) := by rw [hid']; exact h1.ok.mono.info _ _ eq
  have hsep1 : (κ, ctx.cur.id) ∈ s'.node.seps := by
    rcases right_child hi1 hs1 ps'.here.nd h1.here.nd hhi hxv (fun h => h1.post _ h)
      (ps'.here.nd.covers eq1 (fun l h => le_of_lt (hab l h)) (by rw [hhigh']; exact hbl)) with h | ⟨_, h⟩
    · exact h
    · rw [eq1] at h
      cases h
      exact absurd (hab _ rfl) (lt_irrefl _)
  show tw t (allocate m [c'.cur.ptr, ctx.cur.ptr] >>= fun p => replace c'.cur.id p c'.cur.ptr >>= fun ok =>
        if ok then finishMerge { c' with cur := ⟨c'.cur.id, p, m⟩ } (c'.cur.node.high.1, ctx.cur.id) right.high else pure none) _ w1
  refine tw_mono ?_ (tw_mergeInto hi1 hs1 h1.here h1.rm h1.post hpar' lev' ps' hx1 hr hhi hsep1 hright hm _)
  rintro r w2 ⟨p, b, p2, newQ, rfl, hi2, hmg, hat, hatQ, hbh, hqh⟩
  have hxl : c'.cur.id ≠ ctx.cur.id := by
    intro e
    have := (h1.here.nd.unique (by rw [e]; exact hx1)).2
    rw [← this, h1.rm] at hr
    cases hr
  have hns : ctx.cur.node.splits = none := Node.splits_of_remove hr
  obtain ⟨lk, el1, el2⟩ := h1.low
  rw [eL] at el1
  cases el1
  refine Or.inr ⟨_, rfl, ?_, Or.inr ?_⟩
  · exact {
      ok := hmg.ok h1.ok hi2
      here := ⟨hmg.hereL.1, hat⟩
      rm := hmg.rmN
      post := Posted.none hmg.splits
      par := Or.inr ⟨_, rfl, lev', ⟨hmg.hereQ.1, hatQ⟩, hmg.rmNQ, Posted.none hmg.splitsQ, (by
        rcases hmg.placedQ with h | h
        · exact Or.inl (h.trans hmg.root.symm)
        · exact Or.inr (hmg.hasPar (ps'.ne hlx) h)), (hmg.effQ _).mpr ⟨hmg.inL, hxl⟩⟩
      root := fun h => by rw [hpar] at h; cases h
      snap := fun s0 h => by
        rw [hpar] at h
        cases h
        exact ⟨_, rfl, hid', hqh.trans hhigh'⟩
      level := h1.level
      high := hbh
      low := fun lk' e => by
        rw [ex] at e
        cases e
        refine ⟨lL, by rw [hmg.info]; exact eL, fun κ' h l hl => ?_⟩
        exact le_trans (el2 κ ex l hl) (h κ rfl)
      rmB := fun m i h => by
        obtain ⟨nd, h2, h3⟩ := h
        exact h1.rmB m i ⟨nd, (hmg.cases h2 h3).2.2.2, h3⟩
      fresh := fun y h _ => by
        obtain ⟨nd, _, h2, h3, _⟩ := h
        rw [← (hh.nd.unique h2).2, hns] at h3
        cases h3
      tgt := fun y h _ => by
        obtain ⟨nd, _, h2, h3, _⟩ := h
        rw [← (hh.nd.unique h2).2, hns] at h3
        cases h3 }
  · refine ⟨lL, by rw [hmg.info]; exact eL, ?_⟩
    show (AtLeast lL k ∧ Below b.high k) ∨ Rm w2 n b.high.2
    rw [hbh]
    rcases h1.ok.line _ _ _ _ hx1 hr ex1 with ⟨h2, h3⟩ | h2
    · exact Or.inl ⟨fun l hl => le_trans (el2 κ ex l hl) (h2 κ rfl), h3⟩
    · refine Or.inr (hmg.rm (fun e => ?_) h2)
      obtain ⟨_, ex2, ox⟩ := hx1.ok hi1
      rw [ex1] at ex2
      cases ex2
      have h4 := ox.high.resolve_left (by rw [e]; exact hxv)
      rw [e, ex1] at h4
      injection h4 with h4
      injection h4 with h4 _
      injection h4 with h4
      have h5 := (ox.below κ rfl).resolve_left (by rw [e]; exact hxv)
      rw [← h4] at h5
      exact lt_irrefl _ h5

end Tree
end BwTree
