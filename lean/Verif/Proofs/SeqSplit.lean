import Verif.Proofs.SeqProg

/-! Completing a split when one call runs alone. -/

namespace BwTree
namespace Tree

open Prog

set_option linter.unusedSectionVars false

variable {K V : Type} [LinearOrder K] [DecidableEq V] [Inhabited K] {w w' : World K V} {t : Tid} {α : Type} {k : K} {n : Nat}

/-- The node contains `k`, or its right neighbour is removed. -/
def InLine (k : K) (w : World K V) (n : Nat) (id : NodeId) (node : Node K V) : Prop :=
  ∃ lk, w.info id = some (lk, n) ∧ ((AtLeast lk k ∧ Below node.high k) ∨ Rm w n node.high.2)

/-- The node may be removed if it is too small. -/
def Slot (k : K) (w : World K V) (n : Nat) (s : Snap K V) : Prop := s.node.lower < s.node.count ∨ InLine k w n s.id s.node

/-- `c'` in `w'` is what the help-along functions make of `ctx` in `w`. -/
structure SRes (k : K) (w : World K V) (n : Nat) (ctx : Ctx K V) (w' : World K V) (c' : Ctx K V) : Prop where
  ok : Ok k w w'
  here : Here w' n c'.cur
  rm : c'.cur.node.isRemove = false
  post : Posted w' n c'.cur.node
  par : ParC w' n c'.par c'.level c'.cur.id
  root : ctx.par = .root → c'.par = .root
  snap : ∀ s, ctx.par = .snap s → ∃ s', c'.par = .snap s' ∧ s'.id = s.id ∧ s'.node.high = s.node.high
  level : c'.level = ctx.level
  high : c'.cur.node.high = ctx.cur.node.high
  low : ∀ lk, w.info ctx.cur.id = some (lk, n) → ∃ lk', w'.info c'.cur.id = some (lk', n) ∧ ∀ κ, AtLeast lk κ → AtLeast lk' κ
  rmB : ∀ m i, Rm w' m i → Rm w m i
  fresh : ∀ y, Fresh w n ctx.cur.id y → ¬ HasPar w n y → Lt w w'
  tgt : ∀ y, Fresh w n ctx.cur.id y → Covers w n y k → Covers w' n y k

/-- Result of the help-along functions: abort with progress, or a settled context. -/
def FinQ (k : K) (n : Nat) (w : World K V) (ctx : Ctx K V) (P : World K V → Ctx K V → Prop) (r : Option (Ctx K V)) (w' : World K V) : Prop :=
  (r = none ∧ Ok k w w' ∧ Lt w w') ∨ ∃ c', r = some c' ∧ SRes k w n ctx w' c' ∧ P w' c'

theorem Fresh.posted {x y : NodeId} {node : Node K V} (h : Fresh w n x y) (hn : Nd w n x node) (hp : Posted w n node) : HasPar w n y := by
  obtain ⟨nd, sib, h1, h2, _⟩ := h
  rw [(h1.unique hn).2] at h2
  exact hp y h2

theorem SRes.self {ctx : Ctx K V} (hi : Inv w) (hs : SInv w) (hl : Line w k) (hh : Here w n ctx.cur) (hr : ctx.cur.node.isRemove = false)
    (hp : Posted w n ctx.cur.node) (hpar : ParC w n ctx.par ctx.level ctx.cur.id) : SRes k w n ctx w ctx where
  ok := Ok.refl hi hs hl
  here := hh
  rm := hr
  post := hp
  par := hpar
  root h := h
  snap s h := ⟨s, h, rfl, rfl⟩
  level := rfl
  high := rfl
  low lk h := ⟨lk, h, fun _ h => h⟩
  rmB _ _ h := h
  fresh y h1 h2 := absurd (h1.posted hh.nd hp) h2
  tgt _ _ h := h

theorem Calm.covers (hc : Calm w w') (hi : Inv w) {m : Nat} {x : NodeId} {κ : K} (h : Covers w m x κ) : Covers w' m x κ := by
  obtain ⟨lk, p, nd, h1, h2, h3, h4, h5⟩ := h
  exact ⟨lk, p, nd, by rw [hc.info]; exact h1, by rw [hc.dead]; exact h2, (hc.at_ hi h1).mpr h3, h4, h5⟩

theorem SRes.calm {ctx c' : Ctx K V} {w2 : World K V} (h : SRes k w n ctx w' c') (hc : Calm w' w2) (hi2 : Inv w2) : SRes k w n ctx w2 c' where
  ok := h.ok.calm hc hi2
  here := h.here.calm hc h.ok.inv
  rm := h.rm
  post := (hc.keeps h.ok.inv).posted h.post
  par := h.par.calm hc h.ok.inv
  root := h.root
  snap := h.snap
  level := h.level
  high := h.high
  low lk e := by rw [hc.info]; exact h.low lk e
  rmB m i hr := h.rmB m i (by rw [rm_congr (hc.nd h.ok.inv)] at hr; exact hr)
  fresh y h1 h2 := (h.fresh y h1 h2).le (hc.le h.ok.inv)
  tgt y h1 h2 := hc.covers h.ok.inv (h.tgt y h1 h2)

theorem InLine.calm {id : NodeId} {node : Node K V} (h : InLine k w n id node) (hc : Calm w w') (hi : Inv w) : InLine k w' n id node := by
  obtain ⟨lk, h1, h2⟩ := h
  exact ⟨lk, by rw [hc.info]; exact h1, by rw [rm_congr (hc.nd hi)]; exact h2⟩

theorem Slot.calm {s : Snap K V} (h : Slot k w n s) (hc : Calm w w') (hi : Inv w) : Slot k w' n s := h.imp id (fun h => h.calm hc hi)

theorem Slot.put {s : Snap K V} {m : Nat} {x : NodeId} {old new : Node K V} (h : Slot k w n s) (hp : PutSeq w w' m x old new) : Slot k w' n s := by
  refine h.imp id ?_
  rintro ⟨lk, h1, h2⟩
  exact ⟨lk, by rw [hp.swap.info]; exact h1, h2.imp id (fun h => hp.rm.mpr h)⟩

theorem Slot.cons {s : Snap K V} {p : Ptr} {b : Node K V} (h : Slot k w n s) (hc : Cons s.node b) : Slot k w n ⟨s.id, p, b⟩ := by
  rcases h with h | h
  · left
    show b.lower < b.count
    rw [Node.lower_of hc.leaf, hc.count]
    exact h
  · right
    obtain ⟨lk, h1, h2⟩ := h
    exact ⟨lk, h1, by rw [hc.high]; exact h2⟩

/-- The current node of a result is consolidated. -/
theorem SRes.cons {ctx c' : Ctx K V} {w2 : World K V} {p : Ptr} {b : Node K V} (h : SRes k w n ctx w' c') (hi2 : Inv w2)
    (hsw : Swap w' w2 n c'.cur.id b) (hat : w2.At c'.cur.id p b) (hc : Cons c'.cur.node b) :
    SRes k w n ctx w2 { c' with cur := ⟨c'.cur.id, p, b⟩ } := by
  have hp : PutSeq w' w2 n c'.cur.id c'.cur.node b := hc.putSeq h.ok.sinv h.here.nd h.rm h.post h.par.placed hsw
  obtain ⟨_, b2, b3, _⟩ := Node.base_shape hc.base
  exact {
    ok := hp.ok h.ok hi2
    here := ⟨hsw.lv.mpr h.here.1, hat⟩
    rm := b2
    post := Posted.none b3
    par := h.par.put hp
    root := h.root
    snap := h.snap
    level := h.level
    high := hc.high.trans h.high
    low := fun lk e => by rw [hsw.info]; exact h.low lk e
    rmB := fun m i hr => h.rmB m i (hp.rm.mp hr)
    fresh := fun y h1 h2 => (h.fresh y h1 h2).le hp.le
    tgt := fun y h1 h2 => hsw.covers h.here.nd hc.high (h.tgt y h1 h2) }

theorem ParS.inner (hi : Inv w) (hs : SInv w) {s : Snap K V} {id : NodeId} (h : ParS w n s id) :
    ∃ c lq, s.node = .inner c ∧ w.info s.id = some (lq, n + 1) ∧ c.WF w.lo lq ∧ c.noMerge ∧ c.Exact ∧
      ∀ i ∈ c.childIds, ∃ l, w.info i = some (l, n) := by
  obtain ⟨c, lq, h1, h2, h3, _, _, _, _, h8⟩ := h.here.nd.inner hi
  obtain ⟨s1, s2, s3⟩ := hs.shape _ _ _ h.here.nd
  have hc := Node.clean_of h.rm s2
  rw [Node.strip_of_clean hc] at h1
  rw [h1] at s1 s3
  exact ⟨c, lq, h1, h2, h3, s1, s3, h8⟩

theorem HasPar.level (hi : Inv w) {m : Nat} {y : NodeId} {l : Option K} (h : HasPar w m y) (e : w.info y = some (l, n)) : m = n := by
  obtain ⟨q, nq, h1, h2⟩ := h
  obtain ⟨lq, eq, _⟩ := h1.ok hi
  rcases h1.child hi h2 eq with ⟨_, g⟩ | ⟨_, _, g, _⟩ <;> · rw [e] at g; cases g; rfl

/-- The lower end of a child is not below the lower end of the parent, and below its upper end. -/
theorem ParS.range (hi : Inv w) {s : Snap K V} {id : NodeId} (h : ParS w n s id) {lq : Option K} (eq : w.info s.id = some (lq, n + 1)) :
    ∃ lx, w.info id = some (lx, n) ∧ (∀ κ, AtLeast lx κ → AtLeast lq κ) ∧ (∀ κ, Above lx κ → Above lq κ) ∧ ∀ l, lx = some l → Below s.node.high l := by
  obtain ⟨_, e', ok⟩ := h.here.nd.ok hi
  rw [eq] at e'
  cases e'
  rcases h.here.nd.child hi h.kid eq with ⟨_, e⟩ | ⟨κ, _, e, h1, h2⟩
  · exact ⟨lq, e, fun _ h => h, fun _ h => h, fun l hl => ok.below l hl⟩
  · exact ⟨some κ, e, fun κ' h l hl => le_trans (le_of_lt (h1 l hl)) (h κ rfl), fun κ' h l hl => lt_trans (h1 l hl) (h κ rfl),
      fun l hl => by cases hl; exact h2⟩

theorem parent_snap {ctx : Ctx K V} {s : Snap K V} (h : ctx.par = .snap s) (hl : ctx.level ≠ 0) : parent ctx = .ret s := by
  unfold parent
  rw [if_neg hl, h]

/-- Two children beginning at the same key are the same. -/
theorem same_low (hi : Inv w) {x y : NodeId} {κ : K} (hx : Live w n x) (hy : Live w n y) (ex : w.info x = some (some κ, n))
    (ey : w.info y = some (some κ, n)) : x = y := by
  obtain ⟨a, da⟩ := hx.nd hi
  obtain ⟨b, db⟩ := hy.nd hi
  exact hi.disj _ _ _ _ (da.cov_low hi ex) (db.cov_low hi ey)

theorem split_facts {node : Node K V} {y : NodeId} (h : node.splits = some y) :
    (∃ sk sib c, node = .leaf (.split sk y sib c)) ∨ ∃ sk sib c, node = .inner (.split (sk, y) sib c) := by
  cases node with
  | leaf c =>
    cases c with
    | split sk id sib c => cases h; exact Or.inl ⟨_, _, _, rfl⟩
    | _ => cases h
  | inner c =>
    cases c with
    | split item sib c => cases h; exact Or.inr ⟨item.1, _, _, rfl⟩
    | _ => cases h

/-- The separator of a split off node is missing. -/
theorem tw_postInnerInsert (hi : Inv w) (hs : SInv w) (hl : Line w k) {ctx : Ctx K V} (hh : Here w n ctx.cur) (hr : ctx.cur.node.isRemove = false)
    {s : Snap K V} (hpar : ctx.par = .snap s) (hlev : ctx.level ≠ 0) (hps : ParS w n s ctx.cur.id) {c : InnerChain K} (hc : s.node = .inner c)
    {lq : Option K} (eq : w.info s.id = some (lq, n + 1)) {y : NodeId} {sk : K} (hsp : ctx.cur.node.splits = some y) (hhi : ctx.cur.node.high = (sk, y))
    (habove : AtLeast lq sk) (hbelow : Below c.high sk) (hno : ¬ HasPar w n y) (loc : Nat) :
    tw t (postInnerInsert ctx (sk, y) ctx.cur.node.ext loc) (FinQ k n w ctx (fun w' c' => Slot k w' n c'.cur)) w := by
  obtain ⟨hcount, hfr⟩ := hs.spl n _ _ y hh.nd hsp
  have hfr := hfr.resolve_left hno
  obtain ⟨node, sib, g1, g2, g3, g4, g5, g6⟩ := id hfr
  have hnode : node = ctx.cur.node := (g1.unique hh.nd).2
  subst hnode
  have hrange := hfr.range hi
  obtain ⟨_, _, lx, ky, r1, r2, r3, _, _, _, _, r8, r9, r10⟩ := hrange
  rw [(r1.unique hh.nd).2, hhi] at r3
  cases r3
  have hq : Nd w (n + 1) s.id (.inner c) := by rw [← hc]; exact hps.here.nd
  have hnext : c.IsNext sk ctx.cur.node.ext := by
    rw [← g5]
    exact isNext_of hi hs hq eq habove hbelow g3 r9 (Node.splits_of_base g4)
  obtain ⟨s1, s2, s3⟩ := hs.shape _ _ _ hq
  unfold postInnerInsert
  rw [parent_snap hpar hlev]
  show tw t (match s.node with | .leaf _ => .fail .kind | .inner c => _) _ w
  rw [hc]
  refine tw_put hi hps.here (by rw [hc]; rfl) rfl ?_
  intro w1 p hi1 hsw hat
  rw [if_pos rfl]
  have hmem : ∀ x, x ∈ c.seps → x ∈ (InnerChain.ins (sk, y) ctx.cur.node.ext loc c).seps := by
    intro x hx
    simp only [InnerChain.seps, List.mem_append, List.mem_cons, List.mem_filter, decide_eq_true_eq]
    rcases lt_trichotomy x.1 sk with h | h | h
    · exact Or.inl ⟨hx, h⟩
    · exfalso
      apply hno
      refine ⟨s.id, _, hq, ?_⟩
      have : y = x.2 := same_low hi g3.1 (hs.kid n _ _ _ hq (Node.seps_eff (k := x.1) (i := x.2) hx)) r9
        (by rw [← h]; exact (hq.sep hi (k := x.1) (i := x.2) hx).1)
      rw [this]
      exact Node.seps_eff (k := x.1) (i := x.2) hx
    · exact Or.inr (Or.inr ⟨hx, h⟩)
  have hput : PutSeq w w1 (n + 1) s.id s.node (.inner (.ins (sk, y) ctx.cur.node.ext loc c)) := by
    refine ⟨hsw, hps.here.nd, ⟨s1, rfl, s3, hnext⟩, hps.rm, rfl, ?_, ?_, ?_, hps.post, rfl, hps.placed⟩
    · intro m i e hii
      cases e
      rcases (Node.mem_eff hii).2 with e | ⟨κ, e⟩
      · exact hs.kid n _ _ _ hq (by rw [e]; exact Node.low_eff (n := .inner c) rfl)
      · have e' : (κ, i) ∈ (InnerChain.ins (sk, y) ctx.cur.node.ext loc c).seps := e
        simp only [InnerChain.seps, List.mem_append, List.mem_cons, List.mem_filter] at e'
        rcases e' with h | h | h
        · exact hs.kid n _ _ _ hq (Node.seps_eff (k := κ) h.1)
        · cases h; exact g3.1
        · exact hs.kid n _ _ _ hq (Node.seps_eff (k := κ) h.1)
    · intro i hii
      rw [hc] at hii
      rcases (Node.mem_eff hii).2 with e | ⟨κ, e⟩
      · rw [e]; exact Node.low_eff (n := .inner (.ins (sk, y) ctx.cur.node.ext loc c)) rfl
      · exact Node.seps_eff (k := κ) (hmem _ e)
    · intro x hx
      rw [hc] at hx
      exact hmem x hx
  have hy1 : HasPar w1 n y := by
    refine ⟨s.id, _, hsw.here, Node.seps_eff (k := sk) ?_⟩
    show (sk, y) ∈ (InnerChain.ins (sk, y) ctx.cur.node.ext loc c).seps
    simp [InnerChain.seps]
  have hlt : Lt w w1 := by
    refine lt_placed hput.le (hi.ids _ _ r9).2.1 (by rw [r9]; simp) (by rw [hsw.info, r9]; simp) ⟨n, sib, g3, (Node.base_shape g4).2.1⟩ ?_ (Or.inr ⟨n, hy1⟩)
    rintro (h | ⟨m, h⟩)
    · exact not_root_below hi eq r9 h
    · have := h.level hi r9
      subst this
      exact hno h
  have hh1 : Here w1 n ctx.cur := hsw.stay hh (fun e => hps.ne hh.1 e.symm)
  have hps1 : ParS w1 n ⟨s.id, p, .inner (.ins (sk, y) ctx.cur.node.ext loc c)⟩ ctx.cur.id :=
    ⟨⟨hsw.lv.mpr hps.here.1, hat⟩, rfl, Posted.none rfl, hput.keeps.placed hps.placed, hput.eff _ hps.kid⟩
  have hpost : Posted w1 n ctx.cur.node := fun z hz => by rw [hsp] at hz; cases hz; exact hy1
  have hres : SRes k w n ctx w1 { ctx with par := .snap ⟨s.id, p, .inner (.ins (sk, y) ctx.cur.node.ext loc c)⟩ } := {
    ok := hput.ok (Ok.refl hi hs hl) hi1
    here := hh1
    rm := hr
    post := hpost
    par := Or.inr ⟨_, rfl, hlev, hps1⟩
    root := fun h => by rw [hpar] at h; cases h
    snap := fun s' h => by rw [hpar] at h; cases h; exact ⟨_, rfl, rfl, by rw [hc]; rfl⟩
    level := rfl
    high := rfl
    low := fun lk e => ⟨lk, by rw [hsw.info]; exact e, fun _ h => h⟩
    rmB := fun m i h => hput.rm.mp h
    fresh := fun _ _ _ => hlt
    tgt := fun z _ h2 => hsw.covers hps.here.nd (by rw [hc]; rfl) h2 }
  have hcl : ctx.cur.node.clean = true := Node.clean_of hr (hs.shape _ _ _ hh.nd).2.1
  refine tw_seq (tw_consolidateNode hi1 hh1 hcl (Q := fun s' w2 => ∃ p b, s' = ⟨ctx.cur.id, p, b⟩ ∧ Inv w2 ∧ Swap w1 w2 n ctx.cur.id b ∧ w2.At ctx.cur.id p b ∧ Cons ctx.cur.node b)
    fun w2 p b h1 h2 h3 h4 => ⟨p, b, rfl, h1, h2, h3, h4⟩) ?_
  rintro _ w2 ⟨p2, b, rfl, hi2, hsw2, hat2, hcons⟩
  have hslot : Slot k w2 n ctx.cur := Or.inl hcount
  exact Or.inr ⟨_, rfl, hres.cons hi2 hsw2 hat2 hcons, hslot.cons hcons⟩

/-- A split record beyond the end of the parent: the new node is the first child of the next parent. -/
theorem posted_beyond (hi : Inv w) (hs : SInv w) {s : Snap K V} {x y : NodeId} {nx : Node K V} {sk : K} (hps : ParS w n s x) (hx : Nd w n x nx)
    (hhi : nx.high = (sk, y)) (hy : y ≠ INVALID) (hne : s.node.high.2 ≠ INVALID) (hle : s.node.high.1 ≤ sk) : HasPar w n y := by
  obtain ⟨lq, eq, oq⟩ := hps.here.nd.ok hi
  obtain ⟨lx, ex, hx1, _, hx3⟩ := hps.range hi eq
  have e2 : w.info s.node.high.2 = some (some s.node.high.1, n + 1) := oq.high.resolve_left hne
  obtain ⟨n2, d2⟩ := ((hi.next _ _ _ _ hps.here.1 hps.here.2).resolve_left hne).nd hi
  have l2 := d2.low hi e2
  obtain ⟨_, _, _, _, _, _, _, _, hleaf, _⟩ := d2.inner hi
  have heff := Node.low_eff hleaf
  have hlive := hs.kid n _ _ _ d2 heff
  obtain ⟨nl, dl⟩ := hlive.nd hi
  obtain ⟨_, ex', ox⟩ := hx.ok hi
  rw [ex] at ex'
  cases ex'
  have ey : w.info y = some (some sk, n) := by
    have := ox.high.resolve_left (by rw [hhi]; exact hy)
    rwa [hhi] at this
  have hyl : Live w n y := by
    obtain ⟨_, p, ha⟩ := id hx
    have := (hi.next n x p nx hx.1 ha).resolve_left (by rw [hhi]; exact hy)
    rwa [hhi] at this
  have hlt : ∀ l, lx = some l → l < s.node.high.1 := fun l hl => (hx3 l hl).resolve_left hne
  have hsk : sk = s.node.high.1 := by
    refine le_antisymm (le_of_not_gt fun hg => ?_) hle
    have hcov := hx.same hi ex (fun l hl => le_of_lt (hlt l hl)) (Or.inr (by rw [hhi]; exact hg)) (dl.cov_low hi l2)
    rw [← hcov, ex] at l2
    cases l2
    exact lt_irrefl _ (hlt _ rfl)
  rw [hsk] at ey
  have := same_low hi hyl hlive ey l2
  exact ⟨_, n2, d2, by rw [this]; exact heff⟩

theorem tw_finishSplitNonRoot (hi : Inv w) (hs : SInv w) (hl : Line w k) {ctx : Ctx K V} (hh : Here w n ctx.cur) (hr : ctx.cur.node.isRemove = false)
    {s : Snap K V} (hpar : ctx.par = .snap s) (hlev : ctx.level ≠ 0) (hps : ParS w n s ctx.cur.id) {y : NodeId} {sk : K}
    (hsp : ctx.cur.node.splits = some y) (hhi : ctx.cur.node.high = (sk, y)) :
    tw t (finishSplitNonRoot ctx (sk, y) ctx.cur.node.ext) (FinQ k n w ctx (fun w' c' => Slot k w' n c'.cur)) w := by
  obtain ⟨hcount, hfr⟩ := hs.spl n _ _ y hh.nd hsp
  obtain ⟨c, lq, hc, eq, hwf, hnm, hex, hids⟩ := hps.inner hi hs
  obtain ⟨lx, ex, _, hab, _⟩ := hps.range hi eq
  have hq : Nd w (n + 1) s.id (.inner c) := by rw [← hc]; exact hps.here.nd
  obtain ⟨_, ex', ox⟩ := hh.nd.ok hi
  rw [ex] at ex'
  cases ex'
  -- the new node
  have hyp : Live w n y ∧ y ≠ INVALID := by
    rcases hfr with h | h
    · obtain ⟨q, nq, h1, h2⟩ := h
      have := hs.kid n q nq y h1 h2
      exact ⟨this, (hi.ids _ _ this.1.choose_spec).1⟩
    · obtain ⟨_, sib, _, _, h3, _⟩ := h
      exact ⟨h3.1, (hi.ids _ _ h3.1.1.choose_spec).1⟩
  have ey : w.info y = some (some sk, n) := by
    have := ox.high.resolve_left (by rw [hhi]; exact hyp.2)
    rwa [hhi] at this
  have habx : Above lx sk := fun l hl => by
    have := (ox.below l hl).resolve_left (by rw [hhi]; exact hyp.2)
    rwa [hhi] at this
  have habq : Above lq sk := hab sk habx
  have hdone : HasPar w n y → FinQ k n w ctx (fun w' c' => Slot k w' n c'.cur) (some ctx) w := fun hp =>
    Or.inr ⟨ctx, rfl, SRes.self hi hs hl hh hr (fun z hz => by rw [hsp] at hz; cases hz; exact hp) (Or.inr ⟨s, hpar, hlev, hps⟩), Or.inl hcount⟩
  unfold finishSplitNonRoot
  rw [parent_snap hpar hlev]
  show tw t (if s.node.high.2 ≠ INVALID ∧ s.node.high.1 ≤ sk then _ else _) _ w
  by_cases hb : s.node.high.2 ≠ INVALID ∧ s.node.high.1 ≤ sk
  · rw [if_pos hb]
    exact hdone (posted_beyond hi hs hps hh.nd hhi hyp.2 hb.1 hb.2)
  rw [if_neg hb]
  have hbelow : Below c.high sk := by
    have e : s.node.high = c.high := by rw [hc]; rfl
    rw [e] at hb
    by_cases h1 : c.high.2 = INVALID
    · exact Or.inl h1
    · exact Or.inr (lt_of_not_ge fun h => hb ⟨h1, h⟩)
  rw [hc]
  show tw t (match c.findSep sk with | none => _ | some (some found, _) => _ | some (none, loc) => _) _ w
  obtain ⟨r, loc, f1, f2, f3, _⟩ := InnerChain.findSep_spec hi.lo_invalid hwf habq hbelow
  rw [f1]
  cases r with
  | some found =>
    obtain ⟨f4, f5⟩ := f2 found rfl
    have hf : y = found.2 := same_low hi hyp.1 (hs.kid n _ _ _ hq (Node.seps_eff (k := found.1) (i := found.2) f4)) ey
      (by rw [← f5]; exact (hq.sep hi (k := found.1) (i := found.2) f4).1)
    show tw t (if found.2 ≠ y then _ else _) _ w
    rw [if_neg (by rw [hf]; exact fun h => h rfl)]
    exact hdone ⟨s.id, _, hq, by rw [hf]; exact Node.seps_eff (k := found.1) (i := found.2) f4⟩
  | none =>
    refine tw_postInnerInsert hi hs hl hh hr hpar hlev hps hc eq hsp hhi (fun l hl => le_of_lt (habq l hl)) hbelow ?_ loc
    rintro ⟨q', nq', d', hy'⟩
    have hqq : s.id = q' := hi.disj _ _ _ _ (hq.covers eq (fun l hl => le_of_lt (habq l hl)) hbelow) (d'.child_covers hi hy' ey)
    subst hqq
    rw [(d'.unique hq).2] at hy'
    rcases hq.child hi hy' eq with ⟨_, e⟩ | ⟨κ, h1, h2, _⟩
    · rw [ey] at e
      cases e
      exact lt_irrefl _ (habq _ rfl)
    · rw [ey] at h2
      cases h2
      exact f3 rfl ⟨_, h1, rfl⟩

theorem tw_finishSplitRoot (hi : Inv w) (hs : SInv w) (hl : Line w k) {ctx : Ctx K V} (hh : Here w n ctx.cur) (hroot : ctx.cur.id = w.mem.root)
    {y : NodeId} {sk : K} (hsp : ctx.cur.node.splits = some y) (P : World K V → Ctx K V → Prop) :
    tw t (finishSplitRoot ctx (sk, y)) (FinQ k n w ctx P) w := by
  unfold finishSplitRoot
  refine tw_seq (tw_nextNodeId hi (Q := fun g w1 => Inv w1 ∧ Calm w w1 ∧ w.info g = none ∧ g = w.mem.nextId ∧ w1.mem.nextId = g + 1)
    fun w1 g h1 h2 h3 h4 h5 => ⟨h1, h2, h3, h4, h5⟩) ?_
  rintro g w1 ⟨hi1, hc1, hg, hgn, hn1⟩
  refine tw_seq (tw_allocate hi1 (Q := fun p w2 => Inv w2 ∧ Calm w1 w2 ∧
    w2.mem.heap p = some (.inner (.base (default, ctx.cur.id) (default, INVALID) 0 [(default, ctx.cur.id), (sk, y)]))) fun w2 p h1 h2 h3 => ⟨h1, h2, h3⟩) ?_
  rintro p w2 ⟨hi2, hc2, hp⟩
  have hc02 := hc1.trans hc2
  refine tw_seq (tw_installNew hi2 (by rw [hc02.info]; exact hg) (Nat.lt_of_lt_of_le (by rw [hn1]; exact Nat.lt_succ_self g) hc2.nextId) (Q := fun _ w3 => Inv w3 ∧ Calm w2 w3 ∧ w3.mem.table g = some p ∧ g < TABLE_SIZE)
    fun w3 h1 h2 h3 h4 => ⟨h1, h2, h3, h4⟩) ?_
  rintro _ w3 ⟨hi3, hc3, ht3, hgt⟩
  have hc := hc02.trans hc3
  have hnext3 : g + 1 ≤ w3.mem.nextId := by
    have := Nat.le_trans hc2.nextId hc3.nextId
    rw [hn1] at this
    exact this
  refine tw_seq (tw_installRoot hi3 (by rw [hc.root]; exact hroot.symm) (Q := fun ok w4 => ok = true ∧ Inv w4 ∧ Mono w3 w4 ∧ GStep w3 w4 ∧ w4.mem = { w3.mem with root := g })
    fun w4 h1 h2 h3 h4 => ⟨rfl, h1, h2, h3, h4⟩) ?_
  rintro _ w4 ⟨rfl, hi4, hm4, hg4, he4⟩
  rw [if_pos rfl]
  refine Or.inl ⟨rfl, ?_⟩
  -- memory of the nodes
  have hat4 : ∀ x q nd, w4.At x q nd ↔ w3.At x q nd := fun x q nd => by simp [World.At, he4]
  have hroot4 : w4.mem.root = g := by rw [he4]
  have hgat : w4.At g p (.inner (.base (default, ctx.cur.id) (default, INVALID) 0 [(default, ctx.cur.id), (sk, y)])) :=
    (hat4 _ _ _).mpr ⟨ht3, hc3.heap _ _ hp⟩
  obtain ⟨m, hr1, hr2⟩ := hi4.root
  rw [hroot4] at hr1
  have hdl : w4.dead = w.dead := by
    funext x
    apply propext
    rw [← hc.dead]
    refine ⟨fun h => ?_, hm4.dead x⟩
    rcases hg4.dead x h with h | ⟨q, z, p', nd, κ, h1, h2, h3, h4⟩
    · exact h
    · exact absurd ((hat4 _ _ _).mp h2) h4
  have hinfo : ∀ x, x ≠ g → w4.info x = w.info x := by
    intro x hx
    rw [← hc.info]
    cases hx' : w4.info x with
    | none =>
      cases hy : w3.info x with
      | none => rfl
      | some z => rw [hm4.info _ _ hy] at hx'; cases hx'
    | some z =>
      rcases hg4.info x z hx' with e | ⟨h1, _⟩ | ⟨q, z, p', nd, h1, h2, h3, h4⟩
      · exact e.symm
      · exact absurd (h1.symm.trans hroot4) hx
      · exact absurd ((hat4 _ _ _).mp h2) h4
  obtain ⟨lx, ex⟩ := hh.1.1
  have hxg : ctx.cur.id ≠ g := by rintro e; rw [← e, ex] at hg; cases hg
  have hmn : m = n := by
    have ok := (hi4.at_ok hr1 hgat).2.1
    obtain ⟨_, _, _, m', e1, _, e3⟩ := ok
    obtain ⟨l, e⟩ := e3 ctx.cur.id (by simp [InnerChain.childIds])
    rw [hinfo _ hxg, ex] at e
    cases e
    exact Nat.succ.inj e1
  subst hmn
  have hgd : ¬ w4.dead g := fun hd => by
    rw [hdl] at hd
    obtain ⟨x, _, _, e, _⟩ := hi.dead _ hd
    rw [hg] at e
    cases e
  have hlvl := hs.lvl _ _ _ ex
  have hlv : ∀ j i, Live w4 j i ↔ Live w j i ∨ (i = g ∧ j = m + 1) := by
    intro j i
    by_cases hig : i = g
    · subst hig
      constructor
      · rintro ⟨⟨l, e⟩, _⟩
        rw [hr1] at e
        cases e
        exact Or.inr ⟨rfl, rfl⟩
      · rintro (⟨⟨l, e⟩, _⟩ | ⟨_, rfl⟩)
        · rw [hg] at e; cases e
        · exact ⟨⟨_, hr1⟩, hgd⟩
    · unfold Live
      rw [hinfo i hig, hdl]
      exact ⟨Or.inl, fun h => h.resolve_right fun h => hig h.1⟩
  have hseq : RootSeq w w4 m ctx.cur.id y g ctx.cur.node (.inner (.base (default, ctx.cur.id) (default, INVALID) 0 [(default, ctx.cur.id), (sk, y)])) := by
    refine ⟨hc.mono.trans hm4, hroot.symm, hroot4, hg, hr1, hinfo, ?_, ?_, hlv, ?_, hh.nd, hsp, ⟨trivial, rfl, trivial⟩, rfl, rfl, ?_⟩
    · rw [he4]; exact hc.nextId
    · rw [he4]
      refine ⟨?_, ?_⟩
      · show m + 1 < w3.mem.nextId
        have h1 : m < g := by rw [hgn]; exact hlvl.1
        exact Nat.lt_of_lt_of_le (Nat.succ_lt_succ h1) hnext3
      · have h1 : m < g := by rw [hgn]; exact hlvl.1
        exact Nat.lt_of_le_of_lt h1 hgt
    · intro j i nd
      unfold Nd
      rw [hlv]
      by_cases hig : i = g
      · subst hig
        constructor
        · rintro ⟨(⟨⟨l, e⟩, _⟩ | ⟨_, rfl⟩), q, ha⟩
          · rw [hg] at e; cases e
          · exact Or.inr ⟨rfl, rfl, (At.unique ha hgat).2⟩
        · rintro (⟨⟨⟨l, e⟩, _⟩, _⟩ | ⟨_, rfl, rfl⟩)
          · rw [hg] at e; cases e
          · exact ⟨Or.inr ⟨rfl, rfl⟩, p, hgat⟩
      · constructor
        · rintro ⟨h1, q, ha⟩
          have h1 := h1.resolve_right fun h => hig h.1
          obtain ⟨l, e⟩ := id h1.1
          exact Or.inl ⟨h1, q, (hc.at_ hi e).mp ((hat4 _ _ _).mp ha)⟩
        · rintro (⟨h1, q, ha⟩ | h)
          · obtain ⟨l, e⟩ := id h1.1
            exact ⟨Or.inl h1, q, (hat4 _ _ _).mpr ((hc.at_ hi e).mpr ha)⟩
          · exact absurd h.1 hig
    · intro i
      simp [Node.eff, InnerChain.seps, InnerChain.low]
  exact ⟨hseq.ok (Ok.refl hi hs hl) hi4, hseq.lt hi hs⟩

theorem tw_finishSplit (hi : Inv w) (hs : SInv w) (hl : Line w k) {ctx : Ctx K V} (hh : Here w n ctx.cur) (hr : ctx.cur.node.isRemove = false)
    (hpar : ParC w n ctx.par ctx.level ctx.cur.id) {y : NodeId} {sk : K} (hsp : ctx.cur.node.splits = some y) (hhi : ctx.cur.node.high = (sk, y)) :
    tw t (finishSplit ctx (sk, y) ctx.cur.node.ext) (FinQ k n w ctx (fun w' c' => Slot k w' n c'.cur)) w := by
  unfold finishSplit onRoot
  rcases hpar with ⟨h1, h2⟩ | ⟨s, h1, h2, h3⟩
  · rw [h1]
    exact tw_finishSplitRoot hi hs hl hh h2 hsp _
  · rw [h1]
    exact tw_finishSplitNonRoot hi hs hl hh hr h1 h2 h3 hsp hhi

end Tree
end BwTree
