import Verif.Proofs.SeqSize

/-! Traversal when one call runs alone. -/

namespace BwTree
namespace Tree

open Prog

set_option linter.unusedSectionVars false

variable {K V : Type} [LinearOrder K] [DecidableEq V] [Inhabited K] {w w' : World K V} {t : Tid} {α : Type} {k : K} {n : Nat}

/-- Levels above the root are empty. -/
theorem no_par_root (hi : Inv w) {n : Nat} {l : Option K} (e : w.info w.mem.root = some (l, n)) {y : NodeId} : ¬ HasPar w n y := by
  rintro ⟨q, nq, d, _⟩
  obtain ⟨lq, eq, _⟩ := d.ok hi
  obtain ⟨r, e', hr⟩ := hi.root
  rw [e] at e'
  cases e'
  exact absurd (hr q lq _ eq) (Nat.not_succ_le_self _)

/-- The root has no right neighbour unless its split is unfinished. -/
theorem root_top (hi : Inv w) (hs : SInv w) {nd : Node K V} (hd : Nd w n w.mem.root nd) (hp : Posted w n nd) : nd.high.2 = INVALID := by
  by_contra hne
  obtain ⟨l, e, ok⟩ := hd.ok hi
  obtain ⟨_, p, ha⟩ := id hd
  have hy := (hi.next n _ p nd hd.1 ha).resolve_left hne
  have ey := ok.high.resolve_left hne
  rcases hs.par n _ hy with h | h | ⟨x, h⟩
  · obtain ⟨r, e', _⟩ := hi.root
    rw [h, e'] at ey
    cases ey
  · exact no_par_root hi e h
  · obtain ⟨nx, _, h1, h2, _⟩ := id h
    have hh : nx.high.2 = nd.high.2 := Node.splits_high h2
    have := left_unique hi h1 hd hh (by rw [hh]; exact hne)
    subst this
    rw [(h1.unique hd).2] at h2
    exact no_par_root hi e (hp _ h2)

/-- A settled context on the way to `k`. -/
structure Pos (k : K) (w : World K V) (n : Nat) (ctx : Ctx K V) : Prop where
  inv : Inv w
  sinv : SInv w
  line : Line w k
  here : Here w n ctx.cur
  rm : ctx.cur.node.isRemove = false
  post : Posted w n ctx.cur.node
  par : ParC w n ctx.par ctx.level ctx.cur.id
  low : ∃ lk, w.info ctx.cur.id = some (lk, n) ∧ AtLeast lk k
  parK : ∀ s, ctx.par = .snap s → Covers w (n + 1) s.id k
  near : Below ctx.cur.node.high k ∨ Covers w n ctx.cur.node.high.2 k
  norm : ∀ m i, n < m → ¬ Rm w m i

theorem Here.same {s : Snap K V} {nd : Node K V} {m : Nat} (h : Here w n s) (hd : Nd w m s.id nd) : nd = s.node := (hd.unique h.nd).2

/-- Where a context is after it was settled. -/
theorem SRes.pos {ctx c' : Ctx K V} (h : SRes k w n ctx w' c') (hpar : ParC w n ctx.par ctx.level ctx.cur.id)
    (hlow : ∃ lk, w.info ctx.cur.id = some (lk, n) ∧ AtLeast lk k) (hpk : ∀ s, ctx.par = .snap s → Covers w (n + 1) s.id k)
    (hnear : Below ctx.cur.node.high k ∨ Covers w' n ctx.cur.node.high.2 k) (hno : ∀ m i, n < m → ¬ Rm w m i) : Pos k w' n c' where
  inv := h.ok.inv
  sinv := h.ok.sinv
  line := h.ok.line
  here := h.here
  rm := h.rm
  post := h.post
  par := h.par
  low := by
    obtain ⟨lk, e, hk⟩ := hlow
    obtain ⟨lk', e', hk'⟩ := h.low lk e
    exact ⟨lk', e', hk' _ hk⟩
  parK := by
    intro s' hs'
    rcases hpar with ⟨h1, _⟩ | ⟨s, h1, _, h3⟩
    · rw [h.root h1] at hs'; cases hs'
    · obtain ⟨s1, g1, g2, g3⟩ := h.snap s h1
      rw [hs'] at g1
      cases g1
      obtain ⟨lk, nd, e1, e2, e3, e4⟩ := (hpk s h1).nd
      rw [h3.here.same e2, ← g3] at e4
      rcases h.par with ⟨f1, _⟩ | ⟨s2, f1, _, f3⟩
      · rw [hs'] at f1; cases f1
      · rw [hs'] at f1
        cases f1
        exact f3.here.nd.covers (by rw [g2]; exact h.ok.mono.info _ _ e1) e3 e4
  near := by rw [h.high]; exact hnear
  norm m i hm hr := hno m i hm (h.rmB m i hr)

/-- No node of the level is removed. -/
theorem Pos.no_rm {ctx : Ctx K V} (h : Pos k w n ctx) (hb : Below ctx.cur.node.high k) : ∀ i, ¬ Rm w n i := by
  obtain ⟨lc, ec, hc⟩ := h.low
  have key : ∀ (m : Nat) (id : NodeId) (l : Option K), w.info id = some (l, n) → rank w n (fun x => ∃ y, x = some y ∧ Above l y) ≤ m → ¬ Rm w n id := by
    intro m
    induction m with
    | zero =>
      rintro id l e hm ⟨nd, d, hr⟩
      rcases h.line n id nd l d hr e with ⟨g1, g2⟩ | ⟨nd', d', hr'⟩
      · have := d.same h.inv e g1 g2 (h.here.nd.covers ec hc hb)
        subst this
        rw [h.here.same d, h.rm] at hr
        cases hr
      · obtain ⟨l', e', _⟩ := d'.ok h.inv
        have hne : nd.high.2 ≠ INVALID := (h.inv.ids _ _ e').1
        obtain ⟨_, e2, ok⟩ := d.ok h.inv
        rw [e] at e2
        cases e2
        have hx := ok.high.resolve_left hne
        have hlt : Above l nd.high.1 := fun y hy => (ok.below y hy).resolve_left hne
        have := rank_lt (n := n) h.inv (f := fun _ => False) (g := fun x => ∃ y, x = some y ∧ Above l y) (fun _ h => h.elim) hx
          ⟨_, rfl, hlt⟩ (fun h => h)
        omega
    | succ m ih =>
      rintro id l e hm ⟨nd, d, hr⟩
      rcases h.line n id nd l d hr e with ⟨g1, g2⟩ | hr'
      · have := d.same h.inv e g1 g2 (h.here.nd.covers ec hc hb)
        subst this
        rw [h.here.same d, h.rm] at hr
        cases hr
      · obtain ⟨nd', d', _⟩ := _root_.id hr'
        obtain ⟨l', e', _⟩ := d'.ok h.inv
        have hne : nd.high.2 ≠ INVALID := (h.inv.ids _ _ e').1
        obtain ⟨_, e2, ok⟩ := d.ok h.inv
        rw [e] at e2
        cases e2
        have hx := ok.high.resolve_left hne
        have hlt : Above l nd.high.1 := fun y hy => (ok.below y hy).resolve_left hne
        refine ih _ _ hx ?_ hr'
        have := rank_lt (n := n) h.inv (f := fun x => ∃ y, x = some y ∧ Above (some nd.high.1) y) (g := fun x => ∃ y, x = some y ∧ Above l y)
          (fun u hu => by
            obtain ⟨y, g1, g2⟩ := hu
            exact ⟨y, g1, fun z hz => lt_trans (hlt z hz) (g2 _ rfl)⟩) hx
          ⟨_, rfl, hlt⟩ (fun h => by
            obtain ⟨y, g1, g2⟩ := h
            cases g1
            exact lt_irrefl _ (g2 _ rfl))
        show rank w n (fun x => ∃ y, x = some y ∧ Above (some nd.high.1) y) ≤ m
        omega
  intro i hr
  obtain ⟨nd, d, _⟩ := id hr
  obtain ⟨l, e, _⟩ := d.ok h.inv
  exact key _ i l e (Nat.le_refl _) hr

/-- Settling a context: abort with progress, or a context on the way to `k`. -/
def PosQ (k : K) (w : World K V) (P : World K V → Ctx K V → Prop) (r : Option (Ctx K V)) (w' : World K V) : Prop :=
  (r = none ∧ Ok k w w' ∧ Lt w w') ∨ ∃ c', r = some c' ∧ Ok k w w' ∧ P w' c'

theorem PosQ.after {w0 : World K V} {P : World K V → Ctx K V → Prop} {r : Option (Ctx K V)} (h : PosQ k w P r w') (h0 : Ok k w0 w) : PosQ k w0 P r w' := by
  rcases h with ⟨h1, h2, h3⟩ | ⟨c, h1, h2, h3⟩
  · exact Or.inl ⟨h1, h0.trans h2, h0.le.lt h3⟩
  · exact Or.inr ⟨c, h1, h0.trans h2, h3⟩

/-- Moving to the right neighbour. -/
theorem tw_jumpRight {fuel : Nat} (hf : TABLE_SIZE < fuel) {ctx : Ctx K V} (h : Pos k w n ctx) (hb : ¬ Below ctx.cur.node.high k) :
    tw t (jump (finishSMO fuel) ctx.cur.node.high.2 ctx) (PosQ k w fun w' c' => Pos k w' n c' ∧ Below c'.cur.node.high k) w := by
  have hcov := h.near.resolve_left hb
  have hne : ctx.cur.node.high.2 ≠ INVALID := fun e => hb (Or.inl e)
  have hle : ctx.cur.node.high.1 ≤ k := le_of_not_gt fun e => hb (Or.inr e)
  obtain ⟨lz, nz, ez, dz, z1, z2⟩ := hcov.nd
  obtain ⟨lc, ec, hc⟩ := h.low
  obtain ⟨_, ec', oc⟩ := h.here.nd.ok h.inv
  rw [ec] at ec'
  cases ec'
  have hlt : Above lc ctx.cur.node.high.1 := fun y hy => (oc.below y hy).resolve_left hne
  unfold jump
  refine tw_seq (tw_getNode h.inv ez dz.1.2 (Q := fun g w1 => Inv w1 ∧ Calm w w1 ∧ w.At ctx.cur.node.high.2 g.1 g.2) fun w1 p nd h1 h2 h3 => ⟨h1, h2, h3⟩) ?_
  rintro ⟨p, nd⟩ w1 ⟨hi1, hc1, hat⟩
  have hnd : nz = nd := (dz.unique ⟨dz.1, p, hat⟩).2
  subst hnd
  have ho1 : Ok k w w1 := (Ok.refl h.inv h.sinv h.line).calm hc1 hi1
  show tw t (if nz.isLeaf ≠ ctx.cur.node.isLeaf then .fail .kind else if ctx.cur.id = ctx.cur.node.high.2 then .fail .sameId else
    settle (finishSMO fuel) { ctx with cur := ⟨ctx.cur.node.high.2, p, nz⟩ }) _ w1
  split
  · exact (not_bad (by decide))
  split
  · exact (not_bad (by decide))
  have hpar : ParC w n ctx.par ctx.level ctx.cur.node.high.2 := by
    rcases h.par with ⟨_, g⟩ | ⟨s, g1, g2, g3⟩
    · have hd := h.here.nd
      rw [g] at hd
      exact absurd (root_top h.inv h.sinv hd h.post) hne
    · refine Or.inr ⟨s, g1, g2, g3.here, g3.rm, g3.post, g3.placed, ?_⟩
      obtain ⟨lq, nq, eq, dq, q1, q2⟩ := (h.parK s g1).nd
      rw [g3.here.same dq] at q2
      obtain ⟨lx, ex, hx1, hx2, hx3⟩ := g3.range h.inv eq
      rw [ec] at ex
      cases ex
      have hcv : Covers w (n + 1) s.id ctx.cur.node.high.1 :=
        g3.here.nd.covers eq (hx1 _ fun l hl => le_of_lt (hlt l hl)) (Below.trans q2 hle)
      rcases right_child h.inv h.sinv g3.here.nd h.here.nd (k := ctx.cur.node.high.1) (y := ctx.cur.node.high.2) rfl hne (fun e => h.post _ e) hcv with e | ⟨e, _⟩
      · exact Node.seps_eff e
      · rw [e]
        obtain ⟨_, _, _, _, _, _, _, _, hleaf, _⟩ := g3.here.nd.inner h.inv
        exact Node.low_eff hleaf
  have hpre : FPre k w1 n { ctx with cur := ⟨ctx.cur.node.high.2, p, nz⟩ } := by
    refine ⟨⟨hc1.live.mpr dz.1, (hc1.at_ h.inv ez).mpr hat⟩, hpar.calm hc1 h.inv, fun _ _ => ⟨lz, by rw [hc1.info]; exact ez, Or.inl ⟨z1, z2⟩⟩⟩
  have ez1 : w1.info ctx.cur.node.high.2 = some (lz, n) := by rw [hc1.info]; exact ez
  refine tw_mono ?_ (tw_settle (tw_finishSMO fuel hi1 ho1.sinv ho1.line hpre ez1 (Nat.lt_of_le_of_lt (lowRank_le _ _ _) hf)))
  rintro r w2 (⟨rfl, h2, h3⟩ | ⟨c', rfl, h2, _⟩)
  · exact Or.inl ⟨rfl, ho1.trans h2, ho1.le.lt h3⟩
  · refine Or.inr ⟨c', rfl, ho1.trans h2.ok, h2.pos hpre.2.1 ⟨lz, ez1, z1⟩ (fun s e => hc1.covers h.inv (h.parK s e)) (Or.inl z2) ?_, ?_⟩
    · intro m i hm hr
      rw [rm_congr (hc1.nd h.inv)] at hr
      exact h.norm m i hm hr
    · rw [h2.high]; exact z2

/-- `NavigateSiblingChain`: at most one step. -/
theorem tw_navSibling {fuel : Nat} (hf : TABLE_SIZE < fuel) {ctx : Ctx K V} (h : Pos k w n ctx) {m : Nat} (hm : 2 ≤ m) :
    tw t (navSibling fuel k m ctx) (PosQ k w fun w' c' => Pos k w' n c' ∧ Below c'.cur.node.high k) w := by
  have hstop : ∀ (m : Nat) {w : World K V} {ctx : Ctx K V}, Pos k w n ctx → Below ctx.cur.node.high k → 1 ≤ m →
      tw t (navSibling fuel k m ctx) (PosQ k w fun w' c' => Pos k w' n c' ∧ Below c'.cur.node.high k) w := by
    intro m w ctx h hb hm
    obtain ⟨m', rfl⟩ : ∃ m', m = m' + 1 := ⟨m - 1, by omega⟩
    unfold navSibling
    rw [if_neg (fun hc => hb.elim (fun e => hc.1 e) (fun e => absurd hc.2 (not_le_of_gt e)))]
    exact Or.inr ⟨ctx, rfl, Ok.refl h.inv h.sinv h.line, h, hb⟩
  by_cases hb : Below ctx.cur.node.high k
  · exact hstop m h hb (by omega)
  obtain ⟨m', rfl⟩ : ∃ m', m = m' + 1 := ⟨m - 1, by omega⟩
  unfold navSibling
  rw [if_pos ⟨fun e => hb (Or.inl e), le_of_not_gt fun e => hb (Or.inr e)⟩]
  refine tw_seq (tw_jumpRight hf h hb) ?_
  rintro r w1 (⟨rfl, h1, h2⟩ | ⟨c', rfl, h1, h2, h3⟩)
  · exact Or.inl ⟨rfl, h1, h2⟩
  · exact tw_mono (fun r w2 hq => hq.after h1) (hstop m' h2 h3 (by omega))

/-- Loading the child for `k`. -/
theorem tw_loadChild {fuel : Nat} (hf : TABLE_SIZE < fuel) {ctx : Ctx K V} (h : Pos k w (n + 1) ctx) (hb : Below ctx.cur.node.high k) {c : InnerChain K}
    (hc : ctx.cur.node = .inner c) {i : NodeId} (ht : c.IsTarget k i) : tw t (loadChild fuel i ctx) (PosQ k w fun w' c' => Pos k w' n c') w := by
  obtain ⟨lq, eq, hlq⟩ := h.low
  have hq : Nd w (n + 1) ctx.cur.id (.inner c) := by rw [← hc]; exact h.here.nd
  obtain ⟨li, ni, ei, di, hii, hli, hnear⟩ := target_near h.inv h.sinv hq eq hlq (by rw [hc] at hb; exact hb) ht
  unfold loadChild
  refine tw_seq (tw_getNode h.inv ei di.1.2 (Q := fun g w1 => Inv w1 ∧ Calm w w1 ∧ w.At i g.1 g.2) fun w1 p nd h1 h2 h3 => ⟨h1, h2, h3⟩) ?_
  rintro ⟨p, nd⟩ w1 ⟨hi1, hc1, hat⟩
  have hnd : ni = nd := (di.unique ⟨di.1, p, hat⟩).2
  subst hnd
  have ho1 : Ok k w w1 := (Ok.refl h.inv h.sinv h.line).calm hc1 hi1
  have ei1 : w1.info i = some (li, n) := by rw [hc1.info]; exact ei
  have hps : ParS w n ctx.cur i := ⟨h.here, h.rm, h.post, h.par.placed, by rw [hc]; exact hii⟩
  have hpre : FPre k w1 n { cur := ⟨i, p, ni⟩, par := .snap ctx.cur, level := ctx.level + 1 } := by
    refine ⟨⟨hc1.live.mpr di.1, (hc1.at_ h.inv ei).mpr hat⟩, (show ParC w n _ _ _ from Or.inr ⟨ctx.cur, rfl, Nat.succ_ne_zero _, hps⟩).calm hc1 h.inv, fun hsp _ => ?_⟩
    rcases hnear with hb | ⟨z, hz, _⟩
    · exact ⟨li, ei1, Or.inl ⟨hli, hb⟩⟩
    · obtain ⟨nx, _, g1, g2, _⟩ := hz
      rw [(g1.unique di).2] at g2
      have hsp' : ni.splits = none := hsp
      rw [hsp'] at g2
      cases g2
  refine tw_mono ?_ (tw_settle (tw_finishSMO fuel hi1 ho1.sinv ho1.line hpre ei1 (Nat.lt_of_le_of_lt (lowRank_le _ _ _) hf)))
  rintro r w2 (⟨rfl, h2, h3⟩ | ⟨c', rfl, h2, _⟩)
  · exact Or.inl ⟨rfl, ho1.trans h2, ho1.le.lt h3⟩
  · refine Or.inr ⟨c', rfl, ho1.trans h2.ok, h2.pos hpre.2.1 ⟨li, ei1, hli⟩ ?_ ?_ ?_⟩
    · intro s e
      cases e
      exact hc1.covers h.inv (h.here.nd.covers eq hlq hb)
    · rcases hnear with hb | ⟨z, hz, _, hzk⟩
      · exact Or.inl hb
      · right
        obtain ⟨nx, _, g1, g2, _⟩ := id hz
        rw [(g1.unique di).2] at g2
        show Covers w2 n ni.high.2 k
        rw [Node.splits_high g2]
        exact h2.tgt z (by rw [fresh_congr (hc1.nd h.inv)]; exact hz) (hc1.covers h.inv hzk)
    · intro m i hm hr
      rw [rm_congr (hc1.nd h.inv)] at hr
      rcases Nat.lt_or_ge (n + 1) m with h1 | h1
      · exact h.norm m i h1 hr
      · have : m = n + 1 := by omega
        subst this
        exact h.no_rm hb i hr

/-- The inner node of a context. -/
theorem Pos.inner {ctx : Ctx K V} (h : Pos k w (n + 1) ctx) : ∃ c lq, ctx.cur.node = .inner c ∧ w.info ctx.cur.id = some (lq, n + 1) ∧ c.WF w.lo lq ∧
    AtLeast lq k ∧ c.Exact := by
  obtain ⟨c, lq, h1, h2, h3, _⟩ := h.here.nd.inner h.inv
  obtain ⟨s1, s2, s3⟩ := h.sinv.shape _ _ _ h.here.nd
  rw [Node.strip_of_clean (Node.clean_of h.rm s2)] at h1
  rw [h1] at s3
  obtain ⟨l, e, hl⟩ := h.low
  rw [h2] at e
  cases e
  exact ⟨c, lq, h1, h2, h3, hl, s3⟩

/-- `NavigateInnerNode`. -/
theorem tw_navInner {fuel : Nat} (hf : TABLE_SIZE < fuel) {ctx : Ctx K V} (h : Pos k w (n + 1) ctx) :
    tw t (navInner fuel k ctx) (fun r w1 => (r = none ∧ Ok k w w1 ∧ Lt w w1) ∨ ∃ c' c i, r = some (c', i) ∧ Ok k w w1 ∧ Pos k w1 (n + 1) c' ∧
      Below c'.cur.node.high k ∧ c'.cur.node = .inner c ∧ c.IsTarget k i) w := by
  have hf2 : 2 ≤ fuel := Nat.le_trans (by decide) (Nat.le_of_lt hf)
  unfold navInner
  refine tw_seq (tw_navSibling hf h hf2) ?_
  rintro r w1 (⟨rfl, h1, h2⟩ | ⟨c', rfl, h1, h2, h3⟩)
  · exact Or.inl ⟨rfl, h1, h2⟩
  · obtain ⟨c, lq, g1, g2, g3, g4, g5⟩ := h2.inner
    have hb : Below c.high k := by rw [g1] at h3; exact h3
    obtain ⟨id, n1, n2⟩ := InnerChain.nav_exact h2.inv.lo_invalid k c lq _ _ g3 g5 (InnerChain.range_start c k (InnerChain.WF.low_spec g3).2.2) g4 hb
    have n1' : c.navigate k = some id := n1
    show tw t (match c'.cur.node with | .leaf _ => .fail .kind | .inner c => match c.navigate k with | none => .fail .navigate | some id => .ret (some (c', id))) _ w1
    rw [g1]
    show tw t (match c.navigate k with | none => .fail .navigate | some id => .ret (some (c', id))) _ w1
    rw [n1']
    exact Or.inr ⟨c', c, id, rfl, h1, h2, h3, g1, n2⟩

/-- The level of a node tells whether it is a leaf. -/
theorem Here.isLeaf (hi : Inv w) {s : Snap K V} (h : Here w n s) : s.node.isLeaf = true ↔ n = 0 := by
  cases n with
  | zero =>
    obtain ⟨_, _, _, _, _, hl, _⟩ := h.nd.leaf hi
    exact ⟨fun _ => rfl, fun _ => hl⟩
  | succ n =>
    obtain ⟨_, _, _, _, _, _, _, _, hl, _⟩ := h.nd.inner hi
    rw [hl]
    exact ⟨(fun e => by cases e), (fun e => by cases e)⟩

/-- The descent of `Traverse`. -/
theorem tw_descend {fuel : Nat} (hf : TABLE_SIZE < fuel) : ∀ (n : Nat) (m : Nat) {w : World K V} {ctx : Ctx K V}, Pos k w (n + 1) ctx → n < m →
    tw t (descend fuel k m ctx) (PosQ k w fun w' c' => Pos k w' 0 c' ∧ Below c'.cur.node.high k) w := by
  have hf2 : 2 ≤ fuel := Nat.le_trans (by decide) (Nat.le_of_lt hf)
  intro n
  induction n with
  | zero =>
    intro m w ctx h hm
    obtain ⟨m, rfl⟩ : ∃ m', m = m' + 1 := ⟨m - 1, by omega⟩
    unfold descend
    refine tw_seq (tw_navInner hf h) ?_
    rintro r w1 (⟨rfl, h1, h2⟩ | ⟨c1, c, i, rfl, h1, h2, h3, h4, h5⟩)
    · exact Or.inl ⟨rfl, h1, h2⟩
    refine tw_mono (fun r w3 hq => PosQ.after hq h1) ?_
    refine tw_seq (tw_loadChild hf h2 h3 h4 h5) ?_
    rintro r w2 (⟨rfl, g1, g2⟩ | ⟨c2, rfl, g1, g2⟩)
    · exact Or.inl ⟨rfl, g1, g2⟩
    show tw t (if c2.cur.node.isLeaf = true then _ else _) _ w2
    rw [if_pos ((g2.here.isLeaf g2.inv).mpr rfl)]
    exact tw_mono (fun r w3 hq => PosQ.after hq g1) (tw_navSibling hf g2 hf2)
  | succ n ih =>
    intro m w ctx h hm
    obtain ⟨m, rfl⟩ : ∃ m', m = m' + 1 := ⟨m - 1, by omega⟩
    unfold descend
    refine tw_seq (tw_navInner hf h) ?_
    rintro r w1 (⟨rfl, h1, h2⟩ | ⟨c1, c, i, rfl, h1, h2, h3, h4, h5⟩)
    · exact Or.inl ⟨rfl, h1, h2⟩
    refine tw_mono (fun r w3 hq => PosQ.after hq h1) ?_
    refine tw_seq (tw_loadChild hf h2 h3 h4 h5) ?_
    rintro r w2 (⟨rfl, g1, g2⟩ | ⟨c2, rfl, g1, g2⟩)
    · exact Or.inl ⟨rfl, g1, g2⟩
    show tw t (if c2.cur.node.isLeaf = true then _ else _) _ w2
    rw [if_neg (fun e => by have := (g2.here.isLeaf g2.inv).mp e; cases this)]
    exact tw_mono (fun r w3 hq => PosQ.after hq g1) (ih m g2 (by omega))

/-- No node is removed. -/
def NoRm (w : World K V) : Prop := ∀ m i, ¬ Rm w m i

theorem NoRm.line (h : NoRm w) (k : K) : Line w k := fun n x node _ d hr _ => absurd ⟨node, d, hr⟩ (h n x)

theorem NoRm.calm (h : NoRm w) (hc : Calm w w') (hi : Inv w) : NoRm w' := fun m i hr => h m i (by rw [rm_congr (hc.nd hi)] at hr; exact hr)

/-- The leaf for `k`, with nothing left to be merged. -/
structure Leaf (k : K) (w : World K V) (ctx : Ctx K V) : Prop where
  pos : Pos k w 0 ctx
  below : Below ctx.cur.node.high k
  norm : NoRm w

/-- One attempt of `Traverse`. -/
theorem tw_tryTraverse {fuel : Nat} (hf : TABLE_SIZE < fuel) (hi : Inv w) (hs : SInv w) (hl : Line w k) :
    tw t (tryTraverse fuel k) (PosQ k w (Leaf k)) w := by
  unfold tryTraverse
  refine tw_seq (tw_readRoot hi (Q := fun r w1 => Inv w1 ∧ Calm w w1 ∧ r = w1.mem.root) fun w1 h1 h2 => ⟨h1, h2, h2.root.symm⟩) ?_
  rintro root w1 ⟨hi1, hc1, rfl⟩
  have ho1 : Ok k w w1 := (Ok.refl hi hs hl).calm hc1 hi1
  obtain ⟨r, er, hr⟩ := hi1.root
  have hlive : Live w1 (r + 1) w1.mem.root := ⟨⟨none, er⟩, fun hd => hi1.keep _ _ er (hi1.dead _ hd)⟩
  obtain ⟨nr, dr⟩ := hlive.nd hi1
  have hrm : nr.isRemove = false := by
    cases h : nr.isRemove with
    | false => rfl
    | true => exact absurd (ho1.sinv.rm _ _ _ dr h).hasPar (no_par_root hi1 er)
  have hno : ∀ m i, r + 1 < m → ∀ w2 : World K V, w2.info = w1.info → Inv w2 → ¬ Rm w2 m i := by
    rintro m i hm w2 e2 hi2 ⟨nd, d, _⟩
    obtain ⟨l, e, _⟩ := d.ok hi2
    rw [e2] at e
    exact absurd (hr i l m e) (by omega)
  unfold loadRootNode
  refine tw_seq (R := PosQ k w fun w' c' => Pos k w' (r + 1) c') ?_ ?_
  · refine tw_seq (tw_getNode hi1 er hlive.2 (Q := fun g w2 => Inv w2 ∧ Calm w1 w2 ∧ w1.At w1.mem.root g.1 g.2) fun w2 p nd h1 h2 h3 => ⟨h1, h2, h3⟩) ?_
    rintro ⟨p, nd⟩ w2 ⟨hi2, hc2, hat⟩
    have hnd : nr = nd := (dr.unique ⟨dr.1, p, hat⟩).2
    subst hnd
    have ho2 : Ok k w w2 := ho1.calm hc2 hi2
    have er2 : w2.info w1.mem.root = some (none, r + 1) := by rw [hc2.info]; exact er
    have hpre : FPre k w2 (r + 1) { cur := ⟨w1.mem.root, p, nr⟩, par := .root, level := 0 } := by
      refine ⟨⟨hc2.live.mpr dr.1, (hc2.at_ hi1 er).mpr hat⟩, Or.inl ⟨rfl, hc2.root.symm⟩, fun hsp _ => ?_⟩
      have hsp' : nr.splits = none := hsp
      exact ⟨none, er2, Or.inl ⟨(fun l hl => by cases hl), Or.inl (root_top hi1 ho1.sinv dr (Posted.none hsp'))⟩⟩
    refine tw_mono ?_ (tw_settle (tw_finishSMO fuel hi2 ho2.sinv ho2.line hpre er2 (Nat.lt_of_le_of_lt (lowRank_le _ _ _) hf)))
    rintro q w3 (⟨rfl, h2, h3⟩ | ⟨c', rfl, h2, _⟩)
    · exact Or.inl ⟨rfl, ho2.trans h2, ho2.le.lt h3⟩
    · have htop : c'.cur.node.high.2 = INVALID := by
        have hd := h2.here.nd
        rcases h2.par with ⟨_, g⟩ | ⟨s, g, _⟩
        · rw [g] at hd
          exact root_top h2.ok.inv h2.ok.sinv hd h2.post
        · rw [h2.root rfl] at g; cases g
      refine Or.inr ⟨c', rfl, ho2.trans h2.ok, h2.pos hpre.2.1 ⟨none, er2, fun l hl => by cases hl⟩ (fun s e => by cases e) (Or.inl (Or.inl ?_)) ?_⟩
      · rw [← h2.high]; exact htop
      · intro m i hm hrm
        exact hno m i hm w2 hc2.info hi2 hrm
  · rintro q w2 (⟨rfl, h2, h3⟩ | ⟨c', rfl, h2, h3⟩)
    · exact Or.inl ⟨rfl, h2, h3⟩
    · have hlt : r + 1 < TABLE_SIZE := (ho1.sinv.lvl _ _ _ er).2
      refine tw_mono (fun q w3 hq => ?_) (tw_descend hf r fuel h3 (by omega))
      rcases hq with ⟨e, g1, g2⟩ | ⟨c2, e, g1, g2, g3⟩
      · exact Or.inl ⟨e, h2.trans g1, h2.le.lt g2⟩
      · refine Or.inr ⟨c2, e, h2.trans g1, g2, g3, fun m i hrm => ?_⟩
        rcases Nat.eq_zero_or_pos m with rfl | hm
        · exact g2.no_rm g3 i hrm
        · exact g2.norm m i hm hrm

/-- `Traverse` retries only after progress. -/
theorem tw_traverse {fuel : Nat} (hf : TABLE_SIZE < fuel) : ∀ (m : Nat) {w : World K V}, Inv w → SInv w → Line w k → work w < m →
    tw t (traverse fuel k m) (fun c' w' => Ok k w w' ∧ Leaf k w' c') w
  | 0, _, _, _, _, h => absurd h (Nat.not_lt_zero _)
  | m + 1, w, hi, hs, hl, h => by
    unfold traverse
    refine tw_seq (tw_tryTraverse hf hi hs hl) ?_
    rintro q w1 (⟨rfl, h2, h3⟩ | ⟨c', rfl, h2, h3⟩)
    · refine tw_mono (fun c w2 hq => ⟨h2.trans hq.1, hq.2⟩) (tw_traverse hf m h2.inv h2.sinv h2.line ?_)
      have := h3.work
      omega
    · exact ⟨h2, h3⟩

/-! ### The calls -/

/-- The tree between two calls: nothing is removed but not merged. -/
def Rest (w : World K V) : Prop := Inv w ∧ SInv w ∧ NoRm w

/-- The chain of a leaf. -/
theorem Leaf.chain {ctx : Ctx K V} (h : Leaf k w ctx) : ∃ c, ctx.cur.node = .leaf c ∧ c.WF ∧ InRange c.low c.high k ∧ LeafChain.NoDataAboveMerge.noMerge c := by
  obtain ⟨c, lk, h1, h2, h3, _, h5, h6⟩ := h.pos.here.nd.leaf h.pos.inv
  obtain ⟨s1, s2, s3⟩ := h.pos.sinv.shape _ _ _ h.pos.here.nd
  rw [Node.strip_of_clean (Node.clean_of h.pos.rm s2)] at h1
  rw [h1] at s1
  obtain ⟨l, e, hl⟩ := h.pos.low
  rw [h2] at e
  cases e
  have hb := h.below
  rw [h1] at hb
  refine ⟨c, h1, h3, ⟨?_, hb⟩, s1⟩
  cases lk with
  | none => exact Or.inl (h5 rfl)
  | some a => exact Or.inr (by rw [(h6 a rfl).2]; exact hl a rfl)

/-- A data record on a leaf. -/
theorem tw_update {ctx : Ctx K V} (h : Leaf k w ctx) {c c' : LeafChain K V} (hc : ctx.cur.node = .leaf c) (hh : c'.high = c.high)
    (hm : (Node.leaf c' : Node K V).merged = none) (hn : LeafChain.NoDataAboveMerge.noMerge c') (hr : (Node.leaf c' : Node K V).isRemove = false)
    (hsp : (Node.leaf c' : Node K V).splits = none) {ks : List Ptr} {f : Ptr → Bool → Prog K V α} {Q : α → World K V → Prop}
    (H : ∀ w' p, Rest w' → tw t (f p true) Q w') :
    tw t (allocate (.leaf c') ks >>= fun p => replace ctx.cur.id p ctx.cur.ptr >>= f p) Q w := by
  refine tw_put h.pos.inv h.pos.here (by rw [hc]; exact hh) hm ?_
  intro w1 p hi1 hsw hat
  have hput : PutSeq w w1 0 ctx.cur.id ctx.cur.node (.leaf c') := by
    refine ⟨hsw, h.pos.here.nd, ⟨hn, rfl, trivial⟩, h.pos.rm, hr, (fun n i e => by cases e), ?_, ?_, h.pos.post, hsp, h.pos.par.placed⟩
    · intro i hi; rw [hc] at hi; cases hi
    · intro i hi; rw [hc] at hi; cases hi
  exact H w1 p ⟨hi1, hput.sinv h.pos.inv h.pos.sinv, fun m i hr => h.norm m i (hput.rm.mp hr)⟩

theorem Leaf.rest {ctx : Ctx K V} (h : Leaf k w ctx) : Rest w := ⟨h.pos.inv, h.pos.sinv, h.norm⟩

/-- `Insert`. -/
theorem tw_insert {fuel : Nat} (hf : 3 * TABLE_SIZE < fuel) (h : Rest w) (v : V) {m : Nat} (hm : 0 < m) :
    tw t (insert fuel k v m) (fun _ w' => Rest w') w := by
  obtain ⟨m, rfl⟩ : ∃ m', m = m' + 1 := ⟨m - 1, by omega⟩
  unfold insert
  refine tw_seq (tw_traverse (Nat.lt_of_le_of_lt (by omega) hf) fuel h.1 h.2.1 (h.2.2.line k) (Nat.lt_of_le_of_lt work_le hf)) ?_
  rintro ctx w1 ⟨ho, hl⟩
  obtain ⟨c, hc, hwf, hkr, hnm⟩ := hl.chain
  show tw t (match ctx.cur.node with | .inner _ => .fail .kind | .leaf c => _) _ w1
  rw [hc]
  show tw t (match c.findValue k v with | none => .fail .search | some (true, _, _) => _ | some (false, i, e) => _) _ w1
  rcases LeafChain.findValue_spec hwf hkr v with ⟨h1, i', e, h2, h3⟩ | ⟨h1, i', e, h2, h3⟩
  · rw [h2]
    exact hl.rest
  · rw [h2]
    refine tw_update hl hc (c' := .ins k v i' e c) rfl rfl hnm rfl rfl ?_
    intro w2 p hr
    rw [if_pos rfl]
    exact hr

/-- `Delete`. -/
theorem tw_delete {fuel : Nat} (hf : 3 * TABLE_SIZE < fuel) (h : Rest w) (v : V) {m : Nat} (hm : 0 < m) :
    tw t (delete fuel k v m) (fun _ w' => Rest w') w := by
  obtain ⟨m, rfl⟩ : ∃ m', m = m' + 1 := ⟨m - 1, by omega⟩
  unfold delete
  refine tw_seq (tw_traverse (Nat.lt_of_le_of_lt (by omega) hf) fuel h.1 h.2.1 (h.2.2.line k) (Nat.lt_of_le_of_lt work_le hf)) ?_
  rintro ctx w1 ⟨ho, hl⟩
  obtain ⟨c, hc, hwf, hkr, hnm⟩ := hl.chain
  show tw t (match ctx.cur.node with | .inner _ => .fail .kind | .leaf c => _) _ w1
  rw [hc]
  show tw t (match c.findValue k v with | none => .fail .search | some (false, _, _) => _ | some (true, i, e) => _) _ w1
  rcases LeafChain.findValue_spec hwf hkr v with ⟨h1, i', e, h2, h3⟩ | ⟨h1, i', e, h2, h3⟩
  · rw [h2]
    refine tw_update hl hc (c' := .del k v i' e c) rfl rfl hnm rfl rfl ?_
    intro w2 p hr
    rw [if_pos rfl]
    exact hr
  · rw [h2]
    exact hl.rest

/-- The page of an iterator names the next leaf, which begins where the page ends. -/
def NextOk (w : World K V) (a : Ans K V) : Prop :=
  ∀ lo hi l, a = .page lo hi l → hi.2 = INVALID ∨ w.info hi.2 = some (some hi.1, 0)

theorem tw_readPage {nd : Node K V} (h : Rest w) (hn : nd.high.2 = INVALID ∨ w.info nd.high.2 = some (some nd.high.1, 0)) :
    tw t (readPage nd) (fun a w' => Rest w' ∧ NextOk w' a) w := by
  unfold readPage
  cases nd with
  | inner _ => exact (not_bad (by decide))
  | leaf c =>
    show tw t (match c.collect with | none => .fail .collect | some items => _) _ w
    cases c.collect with
    | none => exact (not_bad (by decide))
    | some items => exact ⟨h, fun lo hi l e => by cases e; exact hn⟩

theorem Nd.next (hi : Inv w) {n : Nat} {x : NodeId} {node : Node K V} (h : Nd w n x node) :
    node.high.2 = INVALID ∨ w.info node.high.2 = some (some node.high.1, n) := by
  obtain ⟨lk, _, ok⟩ := h.ok hi
  rw [← Node.strip_high]
  exact ok.1.1

/-- An iterator positioned with a key. -/
theorem tw_page {fuel : Nat} (hf : 3 * TABLE_SIZE < fuel) (h : Rest w) : tw t (prog fuel (.page k)) (fun a w' => Rest w' ∧ NextOk w' a) w := by
  refine tw_seq (tw_traverse (Nat.lt_of_le_of_lt (by omega) hf) fuel h.1 h.2.1 (h.2.2.line k) (Nat.lt_of_le_of_lt work_le hf)) ?_
  rintro ctx w1 ⟨ho, hl⟩
  exact tw_readPage hl.rest (hl.pos.here.nd.next hl.pos.inv)

/-- An iterator at the beginning. -/
theorem tw_first {fuel : Nat} (h : Rest w) : tw t (prog fuel .first) (fun a w' => Rest w' ∧ NextOk w' a) w := by
  refine tw_seq (tw_getNode h.1 h.1.first h.1.first_live (Q := fun g w1 => Rest w1 ∧ Nd w1 0 FIRST_LEAF g.2) fun w1 p nd h1 h2 ha =>
    ⟨⟨h1, h2.sinv h.1 h.2.1, h.2.2.calm h2 h.1⟩, ?_⟩) ?_
  · rw [h2.nd h.1]
    exact ⟨⟨⟨_, h.1.first⟩, h.1.first_live⟩, p, ha⟩
  · rintro g w1 ⟨h1, h2⟩
    exact tw_readPage h1 (h2.next h1.1)

end Tree
end BwTree
