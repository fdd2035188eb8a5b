import Verif.Proofs.TreeInv

/-! Structure modifications keep the invariant: split, merge, new root. -/

namespace BwTree
namespace Tree

open Prog

set_option linter.unusedSectionVars false

variable {K V : Type} [LinearOrder K] [DecidableEq V] [Inhabited K]

theorem below_of_le {h : K × NodeId} {a b : K} (hb : Below h b) (hab : a ≤ b) : Below h a :=
  hb.imp id (fun x => lt_of_le_of_lt hab x)

/-- The world after a split of `id` at `sk` with the new node `newId`. -/
def World.split (w : World K V) (id : NodeId) (n : Ptr) (newId : NodeId) (s : Ptr) (sk : K) (l : Nat)
    (g : Gst) : World K V :=
  { w with ow := g.1, del := g.2, mem := w.mem.set id n, pub := fun i p => w.pub i p ∨ (i = id ∧ p = n) ∨ (i = newId ∧ p = s),
           info := Lin.upd w.info newId (some (some sk, l)), own := Lin.upd w.own newId none }

/-- Premises of a split. -/
structure SplitOK (t : Tid) (w : World K V) (id : NodeId) (lk : Option K) (l : Nat) (o : Ptr) (old : Node K V) (n : Ptr) (new : Node K V)
    (newId : NodeId) (s : Ptr) (sib : Node K V) (sk : K) (g : Gst) : Prop where
  info : w.info id = some (lk, l)
  at_ : w.At id o old
  clean : old.clean = true
  heap : w.mem.heap n = some new
  own : w.own newId = some t
  sibAt : w.At newId s sib
  idLt : newId < TABLE_SIZE
  ok : NodeOK (w.split id n newId s sk l g) id lk l new
  sibOk : NodeOK (w.split id n newId s sk l g) newId (some sk) l sib
  high : new.high = (sk, newId)
  sibHigh : sib.high = old.high
  above : Above lk sk
  below : Below old.high sk
  has : ∀ k v, new.Has k v ↔ old.Has k v ∧ k < sk
  sibHas : ∀ k v, sib.Has k v ↔ old.Has k v ∧ sk ≤ k
  notRemoved : new.isRemove = false
  sibNotRemoved : sib.isRemove = false
  gok : GOK t w (w.split id n newId s sk l g)
  notAbort : ∀ q c, new ≠ .inner (.abort q c)
  sibNotAbort : ∀ q c, sib ≠ .inner (.abort q c)

section
variable {t : Tid} {w : World K V} {id : NodeId} {lk : Option K} {l : Nat} {o : Ptr} {old : Node K V} {n : Ptr} {new : Node K V}
  {newId : NodeId} {s : Ptr} {sib : Node K V} {sk : K} {g : Gst}

theorem SplitOK.ne (hi : Inv w) (h : SplitOK t w id lk l o old n new newId s sib sk g) : newId ≠ id := by
  rintro rfl
  have := h.info
  rw [(hi.own _ _ h.own).1] at this
  cases this

theorem SplitOK.info_ne (_ : SplitOK t w id lk l o old n new newId s sib sk g) {i : NodeId} (hn : i ≠ newId) :
    (w.split id n newId s sk l g).info i = w.info i := Lin.upd_ne _ _ hn

theorem SplitOK.mono (hi : Inv w) (h : SplitOK t w id lk l o old n new newId s sib sk g) : Mono w (w.split id n newId s sk l g) where
  info i x hx := by
    have : i ≠ newId := by rintro rfl; rw [(hi.own _ _ h.own).1] at hx; cases hx
    rw [h.info_ne this]; exact hx
  heap _ _ hx := hx
  pub _ _ hx := Or.inl hx
  removed i x p nd hx ha hr := by
    have : i ≠ id := by
      rintro rfl
      rw [(At.unique ha h.at_).2, Node.not_remove_of_clean h.clean] at hr; cases hr
    simp only [World.split, this, if_false]; exact ha.1
  dead _ hx := hx
  sets := ⟨[], by simp [World.split]⟩
  gh := h.gok.gh

theorem SplitOK.atNe (_ : SplitOK t w id lk l o old n new newId s sib sk g) {i : NodeId} {p : Ptr} {nd : Node K V} (hne : i ≠ id) :
    (w.split id n newId s sk l g).At i p nd ↔ w.At i p nd := by
  simp [World.split, World.At, hne]

theorem SplitOK.atId (h : SplitOK t w id lk l o old n new newId s sib sk g) {p : Ptr} {nd : Node K V} :
    (w.split id n newId s sk l g).At id p nd ↔ p = n ∧ nd = new := by
  have h1 : (w.split id n newId s sk l g).At id n new := ⟨by simp [World.split], h.heap⟩
  constructor
  · intro h2
    obtain ⟨e1, e2⟩ := At.unique h2 h1
    exact ⟨e1, e2⟩
  · rintro ⟨rfl, rfl⟩; exact h1

theorem SplitOK.atNew (hi : Inv w) (h : SplitOK t w id lk l o old n new newId s sib sk g) {p : Ptr} {nd : Node K V} :
    (w.split id n newId s sk l g).At newId p nd ↔ p = s ∧ nd = sib := by
  rw [h.atNe (h.ne hi)]
  constructor
  · intro h2; exact At.unique h2 h.sibAt
  · rintro ⟨rfl, rfl⟩; exact h.sibAt

/-- A live node after the split covers what it covered before, or is the new one. -/
theorem SplitOK.covers (hi : Inv w) (h : SplitOK t w id lk l o old n new newId s sib sk g) {m : Nat} {x : NodeId} {k : K}
    (hc : Covers (w.split id n newId s sk l g) m x k) :
    (x ≠ newId ∧ Covers w m x k ∧ (x = id → k < sk)) ∨ (x = newId ∧ Covers w m id k ∧ sk ≤ k) := by
  obtain ⟨lk', p, node, h1, h2, h3, h4, h5⟩ := hc
  by_cases hx : x = newId
  · subst hx
    obtain ⟨rfl, rfl⟩ := (h.atNew hi).mp h3
    have : (w.split id n x p sk l g).info x = some (some sk, l) := Lin.upd_self _ _ _
    rw [this] at h1
    cases h1
    have hsk : sk ≤ k := h4 sk rfl
    refine Or.inr ⟨rfl, ⟨lk, o, old, h.info, hi.not_dead h.at_ (Node.not_remove_of_clean h.clean), h.at_, ?_, h.sibHigh ▸ h5⟩, hsk⟩
    intro y hy
    exact le_trans (le_of_lt (h.above y hy)) hsk
  · rw [h.info_ne hx] at h1
    refine Or.inl ⟨hx, ?_⟩
    by_cases hx' : x = id
    · subst hx'
      obtain ⟨rfl, rfl⟩ := h.atId.mp h3
      rw [h.high] at h5
      have hk : k < sk := h5.resolve_left (hi.own _ _ h.own).2.1
      rw [h.info] at h1
      cases h1
      exact ⟨⟨_, o, old, h.info, h2, h.at_, h4, below_of_le h.below (le_of_lt hk)⟩, fun _ => hk⟩
    · exact ⟨⟨lk', p, node, h1, h2, (h.atNe hx').mp h3, h4, h5⟩, fun e => absurd e hx'⟩

theorem SplitOK.abs_same (hi : Inv w) (h : SplitOK t w id lk l o old n new newId s sib sk g) : abs (w.split id n newId s sk l g) = abs w := by
  funext k v
  apply propext
  rw [abs_iff, abs_iff]
  have hnd := hi.not_dead h.at_ (Node.not_remove_of_clean h.clean)
  constructor
  · rintro ⟨i, lk', p, node, h1, h2, h3, h4⟩
    by_cases hx : i = newId
    · subst hx
      obtain ⟨rfl, rfl⟩ := (h.atNew hi).mp h3
      have : (w.split id n i p sk l g).info i = some (some sk, l) := Lin.upd_self _ _ _
      rw [this] at h1
      cases h1
      exact ⟨id, lk, o, old, h.info, hnd, h.at_, ((h.sibHas k v).mp h4).1⟩
    · rw [h.info_ne hx] at h1
      by_cases hx' : i = id
      · subst hx'
        obtain ⟨rfl, rfl⟩ := h.atId.mp h3
        exact ⟨i, lk', o, old, h1, h2, h.at_, ((h.has k v).mp h4).1⟩
      · exact ⟨i, lk', p, node, h1, h2, (h.atNe hx').mp h3, h4⟩
  · rintro ⟨i, lk', p, node, h1, h2, h3, h4⟩
    have hx : i ≠ newId := by rintro rfl; rw [(hi.own _ _ h.own).1] at h1; cases h1
    by_cases hx' : i = id
    · subst hx'
      rw [(At.unique h3 h.at_).2] at h4
      rcases lt_or_ge k sk with hk | hk
      · exact ⟨i, lk', n, new, (h.info_ne hx).trans h1, h2, h.atId.mpr ⟨rfl, rfl⟩, (h.has k v).mpr ⟨h4, hk⟩⟩
      · rw [h.info] at h1
        cases h1
        refine ⟨newId, some sk, s, sib, Lin.upd_self _ _ _, ?_, (h.atNew hi).mpr ⟨rfl, rfl⟩, (h.sibHas k v).mpr ⟨h4, hk⟩⟩
        intro hd
        obtain ⟨x, _, _, hx, _⟩ := hi.dead newId hd
        rw [(hi.own _ _ h.own).1] at hx; cases hx
    · exact ⟨i, lk', p, node, (h.info_ne hx).trans h1, h2, (h.atNe hx').mpr h3, h4⟩

theorem SplitOK.gstep (hi : Inv w) (h : SplitOK t w id lk l o old n new newId s sib sk g) : GStep w (w.split id n newId s sk l g) := by
  refine ⟨fun i x hx => ?_, fun _ hx => Or.inl hx⟩
  by_cases hn : i = newId
  · subst hn
    refine Or.inr (Or.inr ⟨id, _, n, new, h.info, h.atId.mpr ⟨rfl, rfl⟩, by rw [h.high], fun ha => ?_⟩)
    obtain ⟨o1, o2, _⟩ := hi.own _ _ h.own
    have e := (At.unique ha h.at_).2
    have hb := hi.next l id o old ⟨⟨lk, h.info⟩, hi.not_dead h.at_ (Node.not_remove_of_clean h.clean)⟩ h.at_
    rw [← e, h.high] at hb
    rcases hb with hb | ⟨⟨_, hb⟩, _⟩
    · exact o2 hb
    · have hb' : w.info i = _ := hb
      rw [o1] at hb'; cases hb'
  · rw [h.info_ne hn] at hx; exact Or.inl hx

theorem next_split (hi : Inv w) (h : SplitOK t w id lk l o old n new newId s sib sk g) :
    Guar t w (w.split id n newId s sk l g) ∧ Inv (w.split id n newId s sk l g) := by
  have hm := h.mono hi
  have hlk := hi.lock_none h.at_ h.clean
  obtain ⟨o1, o2, o3⟩ := hi.own _ _ h.own
  have hlive : Live w l id := ⟨⟨lk, h.info⟩, hi.not_dead h.at_ (Node.not_remove_of_clean h.clean)⟩
  have hnd : ¬ w.dead newId := by
    intro hd
    obtain ⟨x, _, _, hx, _⟩ := hi.dead newId hd
    rw [o1] at hx; cases hx
  have hself : (w.split id n newId s sk l g).info newId = some (some sk, l) := Lin.upd_self _ _ _
  have hlive' : ∀ {m i}, Live w m i → Live (w.split id n newId s sk l g) m i := by
    rintro m i ⟨⟨x, hx⟩, hd⟩
    exact ⟨⟨x, hm.info _ _ hx⟩, hd⟩
  refine ⟨⟨hm, fun u hu => ⟨fun i hx => ⟨?_, ?_⟩, fun i hx => ⟨hx, ?_⟩, rfl, h.gok.priv u hu, h.gok.privB u hu, fun _ h => h⟩, Or.inl ⟨rfl, rfl⟩, h.gstep hi⟩, ?_⟩
  · have : i ≠ newId := by rintro rfl; rw [h.own] at hx; exact hu (Option.some.inj hx).symm
    simpa [World.split, Lin.upd, this] using hx
  · have : i ≠ id := by rintro rfl; rw [hi.own_none h.info] at hx; cases hx
    simp [World.split, this]
  · have : i ≠ id := by rintro rfl; rw [hlk] at hx; cases hx
    simp [World.split, this]
  · constructor
    · intro i x hx
      by_cases hne : i = newId
      · subst hne; exact ⟨o2, h.idLt, o3⟩
      · rw [h.info_ne hne] at hx; exact hi.ids i x hx
    · intro i u hx
      have hne : i ≠ newId := by rintro rfl; simp [World.split, Lin.upd] at hx
      have hx' : w.own i = some u := by simpa [World.split, Lin.upd, hne] using hx
      rw [h.info_ne hne]
      exact hi.own i u hx'
    · exact hi.nextId
    · exact hi.heapLt
    · intro i x hx
      by_cases hne : i = newId
      · subst hne
        exact ⟨s, ((h.atNew hi).mpr ⟨rfl, rfl⟩).1, Or.inr (Or.inr ⟨rfl, rfl⟩)⟩
      · rw [h.info_ne hne] at hx
        by_cases hne' : i = id
        · subst hne'
          exact ⟨n, (h.atId.mpr ⟨rfl, rfl⟩).1, Or.inr (Or.inl ⟨rfl, rfl⟩)⟩
        · obtain ⟨p, h1, h2⟩ := hi.cur i x hx
          exact ⟨p, by simpa [World.split, hne'] using h1, Or.inl h2⟩
    · rintro i p (hp | ⟨rfl, rfl⟩ | ⟨rfl, rfl⟩)
      · obtain ⟨lk', m, node, e1, e2, e3⟩ := hi.ok i p hp
        exact ⟨lk', m, node, hm.info _ _ e1, e2, e3.mono hm⟩
      · exact ⟨lk, l, new, hm.info _ _ h.info, h.heap, h.ok⟩
      · exact ⟨some sk, l, sib, hself, h.sibAt.2, h.sibOk⟩
    · intro i u hx
      have hne : i ≠ id := by
        rintro rfl
        have : w.lock i = some u := hx
        rw [hlk] at this; cases this
      obtain ⟨x, p, q, c, hx, hq⟩ := hi.lock i u hx
      exact ⟨x, p, q, c, hm.info _ _ hx, (h.atNe hne).mpr hq⟩
    · obtain ⟨m, h1, h2⟩ := hi.root
      refine ⟨m, hm.info _ _ h1, ?_⟩
      intro i lk' m' hx
      by_cases hne : i = newId
      · subst hne
        rw [hself] at hx
        cases hx
        exact h2 id lk l h.info
      · rw [h.info_ne hne] at hx
        exact h2 i lk' m' hx
    · intro i hd
      exact hm.rem (hi.dead i hd)
    · rintro i m hx ⟨x, p, nd, h1, h2, h3⟩
      have hne : i ≠ newId := by rintro rfl; rw [hself] at hx; cases hx
      rw [h.info_ne hne] at hx
      by_cases hne' : i = id
      · subst hne'
        obtain ⟨_, rfl⟩ := h.atId.mp h2
        rw [h.notRemoved] at h3; cases h3
      · exact hi.keep i m hx ⟨(none, m), p, nd, hx, (h.atNe hne').mp h2, h3⟩
    · intro m i p nd hl ha
      by_cases hne : i = newId
      · subst hne
        obtain ⟨_, rfl⟩ := (h.atNew hi).mp ha
        obtain ⟨⟨lk', hl1⟩, _⟩ := hl
        rw [hself] at hl1
        cases hl1
        rw [h.sibHigh]
        exact (hi.next _ id o old hlive h.at_).imp (fun e => e) hlive'
      · obtain ⟨⟨lk', hl1⟩, hl2⟩ := hl
        rw [h.info_ne hne] at hl1
        by_cases hne' : i = id
        · subst hne'
          obtain ⟨_, rfl⟩ := h.atId.mp ha
          rw [h.info] at hl1
          cases hl1
          rw [h.high]
          exact Or.inr ⟨⟨_, hself⟩, hnd⟩
        · exact (hi.next m i p nd ⟨⟨lk', hl1⟩, hl2⟩ ((h.atNe hne').mp ha)).imp (fun e => e) hlive'
    · intro m x y k hx hy
      rcases h.covers hi hx with ⟨a1, a2, a3⟩ | ⟨a1, a2, a3⟩ <;> rcases h.covers hi hy with ⟨b1, b2, b3⟩ | ⟨b1, b2, b3⟩
      · exact hi.disj m x y k a2 b2
      · exact absurd (a3 (hi.disj m x id k a2 b2)) (not_lt.mpr b3)
      · exact absurd (b3 (hi.disj m y id k b2 a2)) (not_lt.mpr a3)
      · rw [a1, b1]
    · intro m x y hx hy
      have hxn : x ≠ newId := by rintro rfl; rw [hself] at hx; cases hx
      have hyn : y ≠ newId := by rintro rfl; rw [hself] at hy; cases hy
      rw [h.info_ne hxn] at hx
      rw [h.info_ne hyn] at hy
      exact hi.lowU m x y hx hy
    · intro m i k hx hd
      by_cases hne : i = newId
      · subst hne
        rw [hself] at hx
        cases hx
        exact ⟨id, n, new, hlive' hlive, h.atId.mpr ⟨rfl, rfl⟩, h.high⟩
      · rw [h.info_ne hne] at hx
        obtain ⟨x, p, nd, h1, h2, h3⟩ := hi.pred m i k hx hd
        by_cases hne' : x = id
        · subst hne'
          obtain ⟨⟨lk', hl1⟩, hl2⟩ := h1
          rw [h.info] at hl1
          cases hl1
          exact ⟨newId, s, sib, ⟨⟨_, hself⟩, hnd⟩, (h.atNew hi).mpr ⟨rfl, rfl⟩, by rw [h.sibHigh, ← (At.unique h2 h.at_).2, h3]⟩
        · exact ⟨x, p, nd, hlive' h1, (h.atNe hne').mpr h2, h3⟩
    · exact hm.info _ _ hi.first
    · rw [h.abs_same hi]; exact hi.sets
    · exact h.gok.ow
    · exact h.gok.dl
    · intro i x p q c hx ha
      by_cases h1 : i = newId
      · subst h1
        exact absurd ((h.atNew hi).mp ha).2 (fun e => h.sibNotAbort q c e.symm)
      · by_cases h2 : i = id
        · subst h2
          exact absurd (h.atId.mp ha).2 (fun e => h.notAbort q c e.symm)
        · rw [h.info_ne h1] at hx
          exact hi.abort i x p q c hx ((h.atNe h2).mp ha)

end

/-- The world after the removed node `rid` is merged into `id`. -/
def World.merge (w : World K V) (id : NodeId) (n : Ptr) (rid : NodeId) (g : Gst) : World K V :=
  { w with ow := g.1, del := g.2, mem := w.mem.set id n, pub := fun i p => w.pub i p ∨ (i = id ∧ p = n), dead := fun i => w.dead i ∨ i = rid }

/-- Premises of a merge. -/
structure MergeOK (t : Tid) (w : World K V) (id : NodeId) (lk : Option K) (l : Nat) (o : Ptr) (old : Node K V) (n : Ptr) (new : Node K V)
    (rid : NodeId) (q : Ptr) (right : Node K V) (mk : K) (g : Gst) : Prop where
  info : w.info id = some (lk, l)
  at_ : w.At id o old
  clean : old.clean = true
  heap : w.mem.heap n = some new
  rAt : w.At rid q right
  rRemoved : right.isRemove = true
  oldHigh : old.high = (mk, rid)
  ridOk : rid ≠ INVALID
  high : new.high = right.high
  notRemoved : new.isRemove = false
  ok : NodeOK (w.merge id n rid g) id lk l new
  has : ∀ k v, new.Has k v ↔ old.Has k v ∨ right.Has k v
  gok : GOK t w (w.merge id n rid g)
  notAbort : ∀ q c, new ≠ .inner (.abort q c)
  merged : new.merged = some (mk, rid)

section
variable {t : Tid} {w : World K V} {id : NodeId} {lk : Option K} {l : Nat} {o : Ptr} {old : Node K V} {n : Ptr} {new : Node K V}
  {rid : NodeId} {q : Ptr} {right : Node K V} {mk : K} {g : Gst}

theorem MergeOK.live (hi : Inv w) (h : MergeOK t w id lk l o old n new rid q right mk g) : Live w l id :=
  ⟨⟨lk, h.info⟩, hi.not_dead h.at_ (Node.not_remove_of_clean h.clean)⟩

/-- The merged node is still alive, with a range that begins at the merge key. -/
theorem MergeOK.rInfo (hi : Inv w) (h : MergeOK t w id lk l o old n new rid q right mk g) :
    w.info rid = some (some mk, l) ∧ ¬ w.dead rid := by
  have hl := h.live hi
  rcases hi.next l id o old hl h.at_ with h1 | h1
  · rw [h.oldHigh] at h1; exact absurd h1 h.ridOk
  · rw [h.oldHigh] at h1
    refine ⟨?_, h1.2⟩
    have hb := (hi.at_ok h.info h.at_).2.1.1
    rw [Node.strip_high, h.oldHigh] at hb
    exact hb.resolve_left h.ridOk

theorem MergeOK.ne (h : MergeOK t w id lk l o old n new rid q right mk g) : rid ≠ id := by
  rintro rfl
  have := h.rRemoved
  rw [(At.unique h.rAt h.at_).2, Node.not_remove_of_clean h.clean] at this; cases this

theorem MergeOK.mono (h : MergeOK t w id lk l o old n new rid q right mk g) : Mono w (w.merge id n rid g) where
  info _ _ hx := hx
  heap _ _ hx := hx
  pub _ _ hx := Or.inl hx
  removed i x p nd hx ha hr := by
    have : i ≠ id := by
      rintro rfl
      rw [(At.unique ha h.at_).2, Node.not_remove_of_clean h.clean] at hr; cases hr
    simp only [World.merge, this, if_false]; exact ha.1
  dead _ hx := Or.inl hx
  sets := ⟨[], by simp [World.merge]⟩
  gh := h.gok.gh

theorem MergeOK.atNe (_ : MergeOK t w id lk l o old n new rid q right mk g) {i : NodeId} {p : Ptr} {nd : Node K V} (hne : i ≠ id) :
    (w.merge id n rid g).At i p nd ↔ w.At i p nd := by
  simp [World.merge, World.At, hne]

theorem MergeOK.atId (h : MergeOK t w id lk l o old n new rid q right mk g) {p : Ptr} {nd : Node K V} :
    (w.merge id n rid g).At id p nd ↔ p = n ∧ nd = new := by
  have h1 : (w.merge id n rid g).At id n new := ⟨by simp [World.merge], h.heap⟩
  constructor
  · intro h2
    exact At.unique h2 h1
  · rintro ⟨rfl, rfl⟩; exact h1

theorem MergeOK.lt (hi : Inv w) (h : MergeOK t w id lk l o old n new rid q right mk g) : ∀ x, lk = some x → x < mk := by
  intro x hx
  have hb := (hi.at_ok h.info h.at_).2.1.2.1 x hx
  rw [Node.strip_high, h.oldHigh] at hb
  exact hb.resolve_left h.ridOk

theorem MergeOK.covers (hi : Inv w) (h : MergeOK t w id lk l o old n new rid q right mk g) {m : Nat} {x : NodeId} {k : K}
    (hc : Covers (w.merge id n rid g) m x k) : x ≠ rid ∧ (Covers w m x k ∨ (x = id ∧ Covers w m rid k)) := by
  obtain ⟨lk', p, node, h1, h2, h3, h4, h5⟩ := hc
  have hxr : x ≠ rid := fun e => h2 (Or.inr e)
  have hxd : ¬ w.dead x := fun e => h2 (Or.inl e)
  refine ⟨hxr, ?_⟩
  by_cases hx : x = id
  · subst hx
    obtain ⟨rfl, rfl⟩ := h.atId.mp h3
    have h1' : w.info x = some (lk', m) := h1
    rw [h.info] at h1'
    cases h1'
    rcases lt_or_ge k mk with hk | hk
    · exact Or.inl ⟨lk, o, old, h1, hxd, h.at_, h4, by rw [h.oldHigh]; exact Or.inr hk⟩
    · refine Or.inr ⟨rfl, some mk, q, right, (h.rInfo hi).1, (h.rInfo hi).2, h.rAt, ?_, h.high ▸ h5⟩
      intro y hy; cases hy; exact hk
  · exact Or.inl ⟨lk', p, node, h1, hxd, (h.atNe hx).mp h3, h4, h5⟩

theorem MergeOK.abs_same (hi : Inv w) (h : MergeOK t w id lk l o old n new rid q right mk g) : abs (w.merge id n rid g) = abs w := by
  funext k v
  apply propext
  rw [abs_iff, abs_iff]
  have hlive := h.live hi
  obtain ⟨r1, r2⟩ := h.rInfo hi
  constructor
  · rintro ⟨i, lk', p, node, h1, h2, h3, h4⟩
    by_cases hx : i = id
    · subst hx
      obtain ⟨rfl, rfl⟩ := h.atId.mp h3
      have h1' : w.info i = some (lk', 0) := h1
      rw [h.info] at h1'
      cases h1'
      rcases (h.has k v).mp h4 with h5 | h5
      · exact ⟨i, lk, o, old, h1, fun e => h2 (Or.inl e), h.at_, h5⟩
      · exact ⟨rid, some mk, q, right, r1, r2, h.rAt, h5⟩
    · exact ⟨i, lk', p, node, h1, fun e => h2 (Or.inl e), (h.atNe hx).mp h3, h4⟩
  · rintro ⟨i, lk', p, node, h1, h2, h3, h4⟩
    by_cases hx : i = id
    · subst hx
      rw [(At.unique h3 h.at_).2] at h4
      exact ⟨i, lk', n, new, h1, fun e => e.elim h2 (fun e => h.ne e.symm), h.atId.mpr ⟨rfl, rfl⟩, (h.has k v).mpr (Or.inl h4)⟩
    · by_cases hr : i = rid
      · subst hr
        rw [(At.unique h3 h.rAt).2] at h4
        rw [r1] at h1
        cases h1
        exact ⟨id, lk, n, new, h.info, fun e => e.elim hlive.2 (fun e => h.ne e.symm), h.atId.mpr ⟨rfl, rfl⟩,
          (h.has k v).mpr (Or.inr h4)⟩
      · exact ⟨i, lk', p, node, h1, fun e => e.elim h2 hr, (h.atNe hx).mpr h3, h4⟩

theorem MergeOK.gstep (hi : Inv w) (h : MergeOK t w id lk l o old n new rid q right mk g) : GStep w (w.merge id n rid g) := by
  refine ⟨fun i x hx => Or.inl hx, fun i hx => ?_⟩
  rcases hx with hx | hx
  · exact Or.inl hx
  · subst hx
    refine Or.inr ⟨id, _, n, new, mk, h.info, h.atId.mpr ⟨rfl, rfl⟩, h.merged, fun ha => ?_⟩
    have e := (At.unique ha h.at_).2
    have h1 : right.high = (mk, i) := by rw [← h.high, e, h.oldHigh]
    obtain ⟨r1, _⟩ := h.rInfo hi
    have hb := (hi.at_ok r1 h.rAt).2.1.2.1 mk rfl
    rw [Node.strip_high, h1] at hb
    rcases hb with hb | hb
    · exact h.ridOk hb
    · exact absurd hb (lt_irrefl _)

theorem next_merge (hi : Inv w) (h : MergeOK t w id lk l o old n new rid q right mk g) :
    Guar t w (w.merge id n rid g) ∧ Inv (w.merge id n rid g) := by
  have hm := h.mono
  have hlk := hi.lock_none h.at_ h.clean
  have hlive := h.live hi
  obtain ⟨r1, r2⟩ := h.rInfo hi
  refine ⟨⟨hm, fun u hu => ⟨fun i hx => ⟨hx, ?_⟩, fun i hx => ⟨hx, ?_⟩, rfl, h.gok.priv u hu, h.gok.privB u hu, fun _ h => h⟩, Or.inl ⟨rfl, rfl⟩, h.gstep hi⟩, ?_⟩
  · have : i ≠ id := by rintro rfl; rw [hi.own_none h.info] at hx; cases hx
    simp [World.merge, this]
  · have : i ≠ id := by rintro rfl; rw [hlk] at hx; cases hx
    simp [World.merge, this]
  · constructor
    · exact hi.ids
    · exact hi.own
    · exact hi.nextId
    · exact hi.heapLt
    · intro i x hx
      by_cases hne : i = id
      · subst hne
        exact ⟨n, (h.atId.mpr ⟨rfl, rfl⟩).1, Or.inr ⟨rfl, rfl⟩⟩
      · obtain ⟨p, h1, h2⟩ := hi.cur i x hx
        exact ⟨p, by simpa [World.merge, hne] using h1, Or.inl h2⟩
    · rintro i p (hp | ⟨rfl, rfl⟩)
      · obtain ⟨lk', m, node, e1, e2, e3⟩ := hi.ok i p hp
        exact ⟨lk', m, node, e1, e2, e3.mono hm⟩
      · exact ⟨lk, l, new, h.info, h.heap, h.ok⟩
    · intro i u hx
      have hne : i ≠ id := by
        rintro rfl
        have : w.lock i = some u := hx
        rw [hlk] at this; cases this
      obtain ⟨x, p, q, c, hx, hq⟩ := hi.lock i u hx
      exact ⟨x, p, q, c, hm.info _ _ hx, (h.atNe hne).mpr hq⟩
    · exact hi.root
    · rintro i (hd | rfl)
      · exact hm.rem (hi.dead i hd)
      · exact hm.rem ⟨_, q, right, r1, h.rAt, h.rRemoved⟩
    · rintro i m hx ⟨x, p, nd, h1, h2, h3⟩
      by_cases hne : i = id
      · subst hne
        obtain ⟨_, rfl⟩ := h.atId.mp h2
        rw [h.notRemoved] at h3; cases h3
      · exact hi.keep i m hx ⟨x, p, nd, h1, (h.atNe hne).mp h2, h3⟩
    · rintro m i p nd ⟨⟨lk', hl1⟩, hl2⟩ ha
      have hid : ¬ w.dead i := fun e => hl2 (Or.inl e)
      have hir : i ≠ rid := fun e => hl2 (Or.inr e)
      -- a live successor stays alive: it is not `rid`, whose only predecessor is `id`
      by_cases hne : i = id
      · subst hne
        obtain ⟨_, rfl⟩ := h.atId.mp ha
        have hl1' : w.info i = some (lk', m) := hl1
        rw [h.info] at hl1'
        cases hl1'
        rw [h.high]
        rcases hi.next _ rid q right ⟨⟨_, r1⟩, r2⟩ h.rAt with hx | hx
        · exact Or.inl hx
        · by_cases hv : right.high.2 = INVALID
          · exact Or.inl hv
          · refine Or.inr ⟨hx.1, fun e => e.elim hx.2 ?_⟩
            intro e
            have hb := (hi.at_ok r1 h.rAt).2
            have h1 := hb.high.resolve_left hv
            have h2 := hb.below mk rfl
            rw [e] at h1
            rw [r1] at h1
            simp only [Option.some.injEq, Prod.mk.injEq] at h1
            have h3 := h2.resolve_left hv
            rw [← h1.1] at h3
            exact absurd h3 (lt_irrefl _)
      · have hA := (h.atNe hne).mp ha
        rcases hi.next m i p nd ⟨⟨lk', hl1⟩, hid⟩ hA with hx | hx
        · exact Or.inl hx
        · by_cases hv : nd.high.2 = INVALID
          · exact Or.inl hv
          · refine Or.inr ⟨hx.1, fun e => e.elim hx.2 ?_⟩
            intro e
            -- both `i` and `id` end at the merge key: they overlap
            have hb := (hi.at_ok hl1 hA).2
            have h1 := hb.high.resolve_left hv
            rw [e] at h1
            rw [r1] at h1
            simp only [Option.some.injEq, Prod.mk.injEq] at h1
            obtain ⟨h1, h1'⟩ := h1
            have hli : ∀ x, lk' = some x → x < mk := fun x hx => by
              have := (hb.below x hx).resolve_left hv
              rwa [h1]
            have hcov : ∀ k, AtLeast lk' k → k < mk → Covers w l i k := fun k hk1 hk2 =>
              ⟨lk', p, nd, h1' ▸ hl1, hid, hA, hk1, Or.inr (by rw [← h1]; exact hk2)⟩
            have hcov' : ∀ k, AtLeast lk k → k < mk → Covers w l id k := fun k hk1 hk2 =>
              ⟨lk, o, old, h.info, hlive.2, h.at_, hk1, by rw [h.oldHigh]; exact Or.inr hk2⟩
            cases hlk' : lk' with
            | none =>
              cases hlk0 : lk with
              | none =>
                apply hne
                exact hi.lowU l i id (hlk' ▸ h1' ▸ hl1) (by rw [h.info, hlk0])
              | some b =>
                apply hne
                refine hi.disj l i id b (hcov b ?_ (h.lt hi b hlk0)) (hcov' b ?_ (h.lt hi b hlk0))
                · rw [hlk']; intro y hy; cases hy
                · rw [hlk0]; intro y hy; cases hy; exact le_refl _
            | some a =>
              cases hlk0 : lk with
              | none =>
                apply hne
                refine hi.disj l i id a (hcov a ?_ (hli a hlk')) (hcov' a ?_ (hli a hlk'))
                · rw [hlk']; intro y hy; cases hy; exact le_refl _
                · rw [hlk0]; intro y hy; cases hy
              | some b =>
                apply hne
                refine hi.disj l i id (max a b) (hcov _ ?_ (max_lt (hli a hlk') (h.lt hi b hlk0)))
                  (hcov' _ ?_ (max_lt (hli a hlk') (h.lt hi b hlk0)))
                · rw [hlk']; intro y hy; cases hy; exact le_max_left _ _
                · rw [hlk0]; intro y hy; cases hy; exact le_max_right _ _
    · intro m x y k hx hy
      obtain ⟨a0, a⟩ := h.covers hi hx
      obtain ⟨b0, b⟩ := h.covers hi hy
      rcases a with a | ⟨a1, a2⟩ <;> rcases b with b | ⟨b1, b2⟩
      · exact hi.disj m x y k a b
      · exact absurd (hi.disj m x rid k a b2) a0
      · exact absurd (hi.disj m y rid k b a2) b0
      · rw [a1, b1]
    · exact hi.lowU
    · intro m i k hx hd
      have hid : ¬ w.dead i := fun e => hd (Or.inl e)
      have hir : i ≠ rid := fun e => hd (Or.inr e)
      obtain ⟨x, p, nd, ⟨h1, h1d⟩, h2, h3⟩ := hi.pred m i k hx hid
      by_cases hne : x = id
      · subst hne
        have : nd = old := (At.unique h2 h.at_).2
        rw [this, h.oldHigh] at h3
        cases h3
        exact absurd rfl hir
      · by_cases hxr : x = rid
        · subst hxr
          have : nd = right := (At.unique h2 h.rAt).2
          subst this
          obtain ⟨lk', h1⟩ := h1
          rw [r1] at h1
          cases h1
          exact ⟨id, n, new, ⟨hlive.1, fun e => e.elim hlive.2 (fun e => h.ne e.symm)⟩, h.atId.mpr ⟨rfl, rfl⟩, by rw [h.high, h3]⟩
        · exact ⟨x, p, nd, ⟨h1, fun e => e.elim h1d hxr⟩, (h.atNe hne).mpr h2, h3⟩
    · exact hi.first
    · rw [h.abs_same hi]; exact hi.sets
    · exact h.gok.ow
    · exact h.gok.dl
    · intro i x p a c hx ha
      by_cases h2 : i = id
      · subst h2
        exact absurd (h.atId.mp ha).2 (fun e => h.notAbort a c e.symm)
      · exact hi.abort i x p a c hx ((h.atNe h2).mp ha)

end

/-- The world after `id` becomes the root. -/
def World.newRoot (w : World K V) (id : NodeId) (p : Ptr) (l : Nat) (g : Gst) : World K V :=
  { w with ow := g.1, del := g.2, mem := { w.mem with root := id }, pub := fun i q => w.pub i q ∨ (i = id ∧ q = p),
           info := Lin.upd w.info id (some (none, l)), own := Lin.upd w.own id none }

/-- Premises of installing a root above the old one. -/
structure RootOK (t : Tid) (w : World K V) (id : NodeId) (p : Ptr) (new : Node K V) (l : Nat) (g : Gst) : Prop where
  own : w.own id = some t
  at_ : w.At id p new
  idLt : id < TABLE_SIZE
  root : w.info w.mem.root = some (none, l)
  ok : NodeOK (w.newRoot id p (l + 1) g) id none (l + 1) new
  high : new.high.2 = INVALID
  notRemoved : new.isRemove = false
  gok : GOK t w (w.newRoot id p (l + 1) g)
  notAbort : ∀ q c, new ≠ .inner (.abort q c)

theorem next_root {t : Tid} {w : World K V} {id : NodeId} {p : Ptr} {new : Node K V} {l : Nat} {g : Gst} (hi : Inv w) (h : RootOK t w id p new l g) :
    Guar t w (w.newRoot id p (l + 1) g) ∧ Inv (w.newRoot id p (l + 1) g) := by
  obtain ⟨o1, o2, o3⟩ := hi.own _ _ h.own
  have hself : (w.newRoot id p (l + 1) g).info id = some (none, l + 1) := Lin.upd_self _ _ _
  have hin : ∀ {i}, i ≠ id → (w.newRoot id p (l + 1) g).info i = w.info i := fun hn => Lin.upd_ne _ _ hn
  have hne : ∀ {i x}, w.info i = some x → i ≠ id := by
    rintro i x hx rfl
    rw [o1] at hx; cases hx
  have hm : Mono w (w.newRoot id p (l + 1) g) := by
    refine ⟨fun i x hx => ?_, fun _ _ hx => hx, fun _ _ hx => Or.inl hx, fun _ _ _ _ _ ha _ => ha.1, fun _ hx => hx, ⟨[], ?_⟩, h.gok.gh⟩
    · rw [hin (hne hx)]; exact hx
    · simp [World.newRoot]
  have hat : ∀ {i q nd}, (w.newRoot id p (l + 1) g).At i q nd ↔ w.At i q nd := Iff.rfl
  obtain ⟨m0, hr1, hr2⟩ := hi.root
  rw [h.root] at hr1
  have hlm : l = m0 + 1 := by simpa using hr1
  have hlev : ∀ {i lk}, w.info i = some (lk, l + 1) → False := by
    intro i lk hx
    have := hr2 i lk _ hx
    omega
  refine ⟨⟨hm, fun u hu => ⟨fun i hx => ⟨?_, rfl⟩, fun i hx => ⟨hx, rfl⟩, rfl, h.gok.priv u hu, h.gok.privB u hu, fun _ h => h⟩, Or.inl ⟨rfl, rfl⟩,
    ⟨fun i x hx => (by
      by_cases hn : i = id
      · subst hn
        exact Or.inr (Or.inl ⟨rfl, fun e => hne h.root e⟩)
      · rw [hin hn] at hx; exact Or.inl hx), fun _ hx => Or.inl hx⟩⟩, ?_⟩
  · have : i ≠ id := by rintro rfl; rw [h.own] at hx; exact hu (Option.some.inj hx).symm
    simpa [World.newRoot, Lin.upd, this] using hx
  · constructor
    · intro i x hx
      by_cases hx' : i = id
      · subst hx'; exact ⟨o2, h.idLt, o3⟩
      · rw [hin hx'] at hx; exact hi.ids i x hx
    · intro i u hx
      have hx' : i ≠ id := by rintro rfl; simp [World.newRoot, Lin.upd] at hx
      have hx2 : w.own i = some u := by simpa [World.newRoot, Lin.upd, hx'] using hx
      rw [hin hx']
      exact hi.own i u hx2
    · exact hi.nextId
    · exact hi.heapLt
    · intro i x hx
      by_cases hx' : i = id
      · subst hx'; exact ⟨p, h.at_.1, Or.inr ⟨rfl, rfl⟩⟩
      · rw [hin hx'] at hx
        obtain ⟨q, h1, h2⟩ := hi.cur i x hx
        exact ⟨q, h1, Or.inl h2⟩
    · rintro i q (hp | ⟨rfl, rfl⟩)
      · obtain ⟨lk', m, node, e1, e2, e3⟩ := hi.ok i q hp
        exact ⟨lk', m, node, hm.info _ _ e1, e2, e3.mono hm⟩
      · exact ⟨none, l + 1, new, hself, h.at_.2, h.ok⟩
    · intro i u hx
      obtain ⟨x, p, q, c, hx, hq⟩ := hi.lock i u hx
      exact ⟨x, p, q, c, hm.info _ _ hx, hq⟩
    · refine ⟨l, hself, ?_⟩
      intro i lk m hx
      by_cases hx' : i = id
      · subst hx'; rw [hself] at hx; cases hx; omega
      · rw [hin hx'] at hx
        have := hr2 i lk m hx
        omega
    · intro i hd
      exact hm.rem (hi.dead i hd)
    · rintro i m hx ⟨x, q, nd, h1, h2, h3⟩
      by_cases hx' : i = id
      · subst hx'
        rw [(At.unique (hat.mp h2) h.at_).2, h.notRemoved] at h3; cases h3
      · rw [hin hx'] at hx
        exact hi.keep i m hx ⟨_, q, nd, hx, h2, h3⟩
    · rintro m i q nd ⟨⟨lk', hl1⟩, hl2⟩ ha
      by_cases hx' : i = id
      · subst hx'
        rw [(At.unique (hat.mp ha) h.at_).2]
        exact Or.inl h.high
      · rw [hin hx'] at hl1
        rcases hi.next m i q nd ⟨⟨lk', hl1⟩, hl2⟩ ha with hx | ⟨⟨y, hy⟩, hd⟩
        · exact Or.inl hx
        · exact Or.inr ⟨⟨y, hm.info _ _ hy⟩, hd⟩
    · rintro m x y k ⟨lx, px, nx, x1, x2, x3, x4, x5⟩ ⟨ly, py, ny, y1, y2, y3, y4, y5⟩
      by_cases hx : x = id <;> by_cases hy : y = id
      · rw [hx, hy]
      · subst hx
        rw [hself] at x1
        cases x1
        rw [hin hy] at y1
        exact (hlev y1).elim
      · subst hy
        rw [hself] at y1
        cases y1
        rw [hin hx] at x1
        exact (hlev x1).elim
      · rw [hin hx] at x1
        rw [hin hy] at y1
        exact hi.disj m x y k ⟨lx, px, nx, x1, x2, x3, x4, x5⟩ ⟨ly, py, ny, y1, y2, y3, y4, y5⟩
    · intro m x y x1 y1
      by_cases hx : x = id <;> by_cases hy : y = id
      · rw [hx, hy]
      · subst hx
        rw [hself] at x1
        cases x1
        rw [hin hy] at y1
        exact (hlev y1).elim
      · subst hy
        rw [hself] at y1
        cases y1
        rw [hin hx] at x1
        exact (hlev x1).elim
      · rw [hin hx] at x1
        rw [hin hy] at y1
        exact hi.lowU m x y x1 y1
    · intro m i k hx hd
      have hx' : i ≠ id := by rintro rfl; rw [hself] at hx; cases hx
      rw [hin hx'] at hx
      obtain ⟨x, q, nd, ⟨⟨y, hy⟩, h1⟩, h2, h3⟩ := hi.pred m i k hx hd
      exact ⟨x, q, nd, ⟨⟨y, hm.info _ _ hy⟩, h1⟩, h2, h3⟩
    · exact hm.info _ _ hi.first
    · have : abs (w.newRoot id p (l + 1) g) = abs w := by
        funext k v
        apply propext
        constructor
        · rintro ⟨i, lk', q, c, h1, h2, h3, h4⟩
          have hx' : i ≠ id := by rintro rfl; rw [hself] at h1; cases h1
          rw [hin hx'] at h1
          exact ⟨i, lk', q, c, h1, h2, h3, h4⟩
        · rintro ⟨i, lk', q, c, h1, h2, h3, h4⟩
          exact ⟨i, lk', q, c, hm.info _ _ h1, h2, h3, h4⟩
      rw [this]; exact hi.sets
    · exact h.gok.ow
    · exact h.gok.dl
    · intro i x a q c hx ha
      by_cases h1 : i = id
      · subst h1
        exact absurd (At.unique (hat.mp ha) h.at_).2 (fun e => h.notAbort q c e.symm)
      · rw [hin h1] at hx
        exact hi.abort i x a q c hx (hat.mp ha)

end Tree
end BwTree
