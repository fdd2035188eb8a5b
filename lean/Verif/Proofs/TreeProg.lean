import Verif.Proofs.TreeOwn

/-! Rules of the logic for the atomic steps. -/

namespace BwTree
namespace Tree

open Prog

set_option linter.unusedSectionVars false

variable {K V : Type} [LinearOrder K] [DecidableEq V] [Inhabited K]

/-- What every later world of the same call satisfies, until the call commits its update. -/
structure Ext (t : Tid) (w w' : World K V) : Prop where
  mono : Mono w w'
  tok : w'.tok t = w.tok t
  owB : ∀ p, w'.ow p = .owed t → w.ow p = .owed t
  lockB : ∀ id, w'.lock id = some t → w.lock id = some t

theorem Ext.refl (t : Tid) (w : World K V) : Ext t w w := ⟨Mono.refl w, rfl, fun _ h => h, fun _ h => h⟩
theorem Ext.trans {t : Tid} {a b c : World K V} (h1 : Ext t a b) (h2 : Ext t b c) : Ext t a c :=
  ⟨h1.mono.trans h2.mono, h2.tok.trans h1.tok, fun p h => h1.owB p (h2.owB p h), fun i h => h1.lockB i (h2.lockB i h)⟩
theorem Rely.ext {t : Tid} {w w' : World K V} (h : Rely t w w') : Ext t w w' := ⟨h.1, h.2.tok, h.2.owB, h.2.lockB⟩

/-- Without the promise that nothing is left to be retired. -/
structure Mid (t : Tid) (w w' : World K V) : Prop where
  mono : Mono w w'
  tok : w'.tok t = w.tok t

theorem Ext.mid {t : Tid} {w w' : World K V} (h : Ext t w w') : Mid t w w' := ⟨h.mono, h.tok⟩
theorem Mid.trans {t : Tid} {a b c : World K V} (h1 : Mid t a b) (h2 : Mid t b c) : Mid t a c :=
  ⟨h1.mono.trans h2.mono, h2.tok.trans h1.tok⟩
theorem Mid.ext {t : Tid} {w w' : World K V} (h : Mid t w w') (h1 : ∀ p, w'.ow p = .owed t → w.ow p = .owed t)
    (h2 : ∀ id, w'.lock id = some t → w.lock id = some t) : Ext t w w' := ⟨h.mono, h.tok, h1, h2⟩

/-- With the lock of one node in hand. -/
structure Held (t : Tid) (i : NodeId) (w w' : World K V) : Prop where
  mono : Mono w w'
  tok : w'.tok t = w.tok t
  owB : ∀ p, w'.ow p = .owed t → w.ow p = .owed t
  lockB : ∀ id, id ≠ i → w'.lock id = some t → w.lock id = some t

theorem Held.trans {t : Tid} {i : NodeId} {a b c : World K V} (h1 : Held t i a b) (h2 : Ext t b c) : Held t i a c :=
  ⟨h1.mono.trans h2.mono, h2.tok.trans h1.tok, fun p h => h1.owB p (h2.owB p h), fun id hn h => h1.lockB id hn (h2.lockB id h)⟩

theorem Guar.refl (t : Tid) (w : World K V) : Guar t w w := ⟨Mono.refl w, fun u _ => Priv.refl u w, Or.inl ⟨rfl, rfl⟩, GStep.same rfl rfl⟩

variable {t : Tid} {allow : Fail → Prop} {α : Type} {w : World K V}

theorem wp_getNode (hi : Inv w) {id : NodeId} {x : Option K × Nat} (hx : w.info id = some x) {Q : Ptr × Node K V → World K V → Prop}
    (H : ∀ w' p n, Inv w' → Rely t w w' → w'.At id p n → Q (p, n) w') : wp t allow (getNode id) Q w := by
  obtain ⟨h1, h2, _⟩ := hi.ids id x hx
  unfold getNode
  rw [if_neg (by intro h; rcases h with h | h; exact h1 h; exact absurd h2 (Nat.not_lt.mpr h))]
  intro w1 hr hi1
  refine ⟨fun p n ha => ⟨w1, rfl, Guar.refl t w1, hi1, H w1 p n hi1 hr ha⟩, fun hno => ?_, x, hr.1.info _ _ hx⟩
  obtain ⟨p, n, ha, _⟩ := hi1.at (hr.1.info _ _ hx)
  exact absurd ha (hno p n)

theorem wp_replace (hi : Inv w) {id : NodeId} {x : Option K × Nat} (hx : w.info id = some x) {o n : Ptr} {Q : Bool → World K V → Prop}
    (H1 : ∀ w1, Inv w1 → Rely t w w1 → w1.mem.table id = some o → Next t w1 (w1.mem.set id n) (Q true))
    (H0 : ∀ w1, Inv w1 → Rely t w w1 → w1.mem.table id ≠ some o → Q false w1) : wp t allow (replace id n o) Q w := by
  obtain ⟨h1, h2, _⟩ := hi.ids id x hx
  unfold replace
  rw [if_neg (by intro h; rcases h with h | h; exact h1 h; exact absurd h2 (Nat.not_lt.mpr h))]
  intro w1 hr hi1
  exact ⟨fun h => H1 w1 hi1 hr h, fun h => ⟨w1, rfl, Guar.refl t w1, hi1, H0 w1 hi1 hr h⟩, x, hr.1.info _ _ hx⟩

theorem wp_readRoot {Q : NodeId → World K V → Prop} (H : ∀ w', Inv w' → Rely t w w' → Q w'.mem.root w') :
    wp t allow readRoot Q w :=
  fun w1 hr hi1 => ⟨w1, rfl, Guar.refl t w1, hi1, H w1 hi1 hr⟩

/-- The world after an allocation, a retirement, drawing a NodeID, or a write to an own NodeID. -/
theorem inv_mem {w w' : World K V} (hi : Inv w) (hroot : w'.mem.root = w.mem.root) (hinfo : w'.info = w.info)
    (hat : ∀ id x, w.info id = some x → w'.mem.table id = w.mem.table id)
    (hheap : ∀ p n, w.mem.heap p = some n → w'.mem.heap p = some n) (hlt : ∀ p n, w'.mem.heap p = some n → p < w'.mem.nextPtr)
    (hnext : w.mem.nextId ≤ w'.mem.nextId)
    (hpub : w'.pub = w.pub) (hown : ∀ id u, w'.own id = some u → w.own id = some u ∨ (w.mem.nextId = id ∧ id < w'.mem.nextId))
    (hlock : w'.lock = w.lock) (hdead : w'.dead = w.dead) (hsets : w'.sets = w.sets)
    (hkids : ∀ p n, w.mem.heap p = some n → w'.mem.kids p = w.mem.kids p) (hdel : w'.del = w.del) (how : OwInv w')
    (hvis : ∀ p, ¬ (w.ow p).Hidden → ¬ (w'.ow p).Hidden) (hvis' : ∀ p, ¬ (w'.ow p).Hidden → ¬ (w.ow p).Hidden ∨ ∀ n, w'.mem.heap p = some n → n.deletes = none ∧ n.splits = none ∧
      (∀ i x, w.info i = some x → w.mem.table i ≠ some p) ∧ ∀ r, n.removedId = some r → w.info r = none ∧ w'.own r = none ∧ r < w'.mem.nextId)
    (hgone : ∀ p, (w.ow p).Gone → (w'.ow p).Gone) : Mono w w' ∧ Inv w' := by
  obtain ⟨mem', info', pub', own', lock', dead', del', ow', sets', tok'⟩ := w'
  simp only at hroot hinfo hat hheap hlt hpub hown hlock hdead hsets hnext hkids hdel
  subst hinfo hpub hlock hdead hsets hdel
  have at' : ∀ {id x p n}, w.info id = some x →
      ((World.mk mem' w.info w.pub own' w.lock w.dead w.del ow' w.sets tok').At id p n ↔ w.At id p n) := by
    intro id x p n hx
    constructor
    · intro ⟨a1, a2⟩
      obtain ⟨q, m, ⟨b1, b2⟩, _⟩ := hi.at hx
      have a1' : mem'.table id = some p := a1
      rw [hat id x hx, b1] at a1'
      have e := Option.some.inj a1'
      subst e
      have a2' : mem'.heap q = some n := a2
      rw [hheap _ _ b2] at a2'
      have e := Option.some.inj a2'
      subst e
      exact ⟨b1, b2⟩
    · intro ⟨a1, a2⟩
      exact ⟨(hat id x hx).trans a1, hheap _ _ a2⟩
  have hm : Mono w ⟨mem', w.info, w.pub, own', w.lock, w.dead, w.del, ow', w.sets, tok'⟩ := by
    refine ⟨fun _ _ h => h, hheap, fun _ _ h => h, fun id x p n hx ha _ => (hat id x hx).trans ha.1, fun _ h => h, ⟨[], by simp⟩,
      hkids, fun id p hp hc => ?_, fun _ h => h, fun _ _ _ _ h => Or.inl h, hvis⟩
    obtain ⟨lk, n, node, e1, _⟩ := hi.ok id p hp
    rcases hc with hc | ⟨a, c, hc⟩
    · exact Or.inl ((hat id _ e1).symm.trans hc)
    · exact Or.inr ⟨a, c, (at' e1).mp hc⟩
  have hcov : ∀ {m x k}, Covers (World.mk mem' w.info w.pub own' w.lock w.dead w.del ow' w.sets tok') m x k → Covers w m x k := by
    rintro m x k ⟨lk, p, n, h1, h2, h3, h4, h5⟩
    exact ⟨lk, p, n, h1, h2, (at' h1).mp h3, h4, h5⟩
  refine ⟨hm, ?_⟩
  constructor
  · intro id x hx
    have := hi.ids id x hx
    exact ⟨this.1, this.2.1, Nat.lt_of_lt_of_le this.2.2 hnext⟩
  · intro id u hu
    rcases hown id u hu with h | ⟨h1, h2⟩
    · have := hi.own id u h
      exact ⟨this.1, this.2.1, Nat.lt_of_lt_of_le this.2.2 hnext⟩
    · subst h1
      refine ⟨?_, ?_, h2⟩
      · cases hx : w.info w.mem.nextId with
        | none => rfl
        | some x => exact absurd (hi.ids _ _ hx).2.2 (Nat.lt_irrefl _)
      · have := hi.nextId
        intro h
        rw [h] at this
        exact absurd this (by decide)
  · exact Nat.lt_of_lt_of_le hi.nextId hnext
  · exact hlt
  · intro id x hx
    obtain ⟨p, h1, h2⟩ := hi.cur id x hx
    exact ⟨p, (hat id x hx).trans h1, h2⟩
  · intro id p hp
    obtain ⟨lk, n, node, e1, e2, e3⟩ := hi.ok id p hp
    exact ⟨lk, n, node, e1, hheap _ _ e2, e3.mono hm⟩
  · intro id u hu
    obtain ⟨x, p, q, c, hx, hq⟩ := hi.lock id u hu
    exact ⟨x, p, q, c, hx, (at' hx).mpr hq⟩
  · obtain ⟨n, h1, h2⟩ := hi.root
    exact ⟨n, by simp only [hroot]; exact h1, h2⟩
  · intro id hd
    exact hm.rem (hi.dead id hd)
  · rintro id n hx ⟨x, p, nd, h1, h2, h3⟩
    exact hi.keep id n hx ⟨x, p, nd, h1, (at' hx).mp h2, h3⟩
  · rintro n id p nd ⟨⟨lk, h1⟩, h2⟩ ha
    exact hi.next n id p nd ⟨⟨lk, h1⟩, h2⟩ ((at' h1).mp ha)
  · exact fun n x y k hx hy => hi.disj n x y k (hcov hx) (hcov hy)
  · exact hi.lowU
  · intro n id k hx hd
    obtain ⟨x, p, nd, h1, h2, h3⟩ := hi.pred n id k hx hd
    obtain ⟨lk, hl⟩ := h1.1
    exact ⟨x, p, nd, h1, (at' hl).mpr h2, h3⟩
  · exact hi.first
  · have : abs (World.mk mem' w.info w.pub own' w.lock w.dead w.del ow' w.sets tok') = abs w := by
      funext k v
      apply propext
      constructor
      · rintro ⟨i, lk', q, c, h1, h2, h3, h4⟩
        exact ⟨i, lk', q, c, h1, h2, (at' h1).mp h3, h4⟩
      · rintro ⟨i, lk', q, c, h1, h2, h3, h4⟩
        exact ⟨i, lk', q, c, h1, h2, (at' h1).mpr h3, h4⟩
    rw [this]; exact hi.sets
  · exact how
  · refine ⟨hi.dl.dead, hi.dl.top, fun r hr n i p node hl ha => ?_, fun p n r hp hv hr => ?_, fun r p hd hp => ?_, fun p n r hp hv hr => ?_, fun p n r hp hv hr => ?_⟩
    rotate_left
    · rcases hvis' p hv with hv' | hv'
      rotate_left
      · rw [(hv' n hp).1] at hr; cases hr
      cases hw : w.mem.heap p with
      | none => exact absurd (by rw [(hi.ow.free p).mpr hw]; trivial) hv'
      | some m =>
        have e := hheap _ _ hw
        rw [show mem'.heap p = some n from hp] at e
        cases e
        exact hi.dl.recs p n r hw hv' hr
    · obtain ⟨l, n, q, l', h1, _⟩ := hi.dl.top r hd
      exact hgone p (hi.dl.gone r p hd ((hat r _ h1).symm.trans hp))
    · rcases hvis' p hv with hv' | hv'
      rotate_left
      · exact ⟨fun i x hx hi' => absurd ((hat i x hx).symm.trans hi') ((hv' n hp).2.2.1 i x hx), Or.inr ((hv' n hp).2.2.2 r hr)⟩
      cases hw : w.mem.heap p with
      | none => exact absurd (by rw [(hi.ow.free p).mpr hw]; trivial) hv'
      | some m =>
        have e := hheap _ _ hw
        rw [show mem'.heap p = some n from hp] at e
        cases e
        obtain ⟨h3, h0⟩ := hi.dl.rmv p n r hw hv' hr
        refine ⟨fun i y hy hi' => h3 i y hy ((hat i y hy).symm.trans hi'), ?_⟩
        rcases h0 with ⟨⟨x, h1⟩, h2⟩ | ⟨h1, h2, h3⟩
        · exact Or.inl ⟨⟨x, h1⟩, (hat r x h1).trans h2⟩
        · refine Or.inr ⟨h1, ?_, Nat.lt_of_lt_of_le h3 hnext⟩
          cases ho : own' r with
          | none => exact ho
          | some u =>
            rcases hown r u ho with h4 | ⟨h4, _⟩
            · rw [h2] at h4; cases h4
            · rw [h4] at h3; exact absurd h3 (Nat.lt_irrefl _)
    · rcases hvis' p hv with hv' | hv'
      rotate_left
      · rw [(hv' n hp).2.1] at hr; cases hr
      cases hw : w.mem.heap p with
      | none => exact absurd (by rw [(hi.ow.free p).mpr hw]; trivial) hv'
      | some m =>
        have e := hheap _ _ hw
        rw [show mem'.heap p = some n from hp] at e
        cases e
        exact hi.dl.spl p n r hw hv' hr
    obtain ⟨⟨lk, h1⟩, h2⟩ := hl
    exact hi.dl.sep r hr n i p node ⟨⟨lk, h1⟩, h2⟩ ((at' h1).mp ha)
  · intro id x p q c hx ha
    exact hi.abort id x p q c hx ((at' hx).mp ha)

theorem wp_allocate (n : Node K V) (ks : List Ptr) (hks : ChildrenOk w.mem.heap ks n) {Q : Ptr → World K V → Prop}
    (H : ∀ w' p, Inv w' → Rely t w w' → w'.mem.heap p = some n → w'.ow p = .mine t → w'.mem.kids p = ks → (∀ m, w.mem.heap p ≠ some m) → Q p w') :
    wp t allow (allocate n ks) Q w := by
  intro w1 hr hi1
  have hfresh : w1.mem.heap w1.mem.nextPtr = none := by
    cases h : w1.mem.heap w1.mem.nextPtr with
    | none => rfl
    | some x => exact absurd (hi1.heapLt _ _ h) (Nat.lt_irrefl _)
  have hne : ∀ {p m}, w1.mem.heap p = some m → p ≠ w1.mem.nextPtr := by
    rintro p m hp rfl; rw [hfresh] at hp; cases hp
  have hof : ∀ {u p}, (w1.ow p).Of u → p ≠ w1.mem.nextPtr := by
    rintro u p hp rfl
    rw [(hi1.ow.free _).mpr hfresh] at hp
    rcases hp with hp | hp <;> cases hp
  have hm := inv_mem (w := w1) (w' := { w1 with
      mem := { w1.mem with
        heap := fun p => if p = w1.mem.nextPtr then some n else w1.mem.heap p
        kids := fun p => if p = w1.mem.nextPtr then ks else w1.mem.kids p
        nextPtr := w1.mem.nextPtr + 1 }
      ow := Lin.upd w1.ow w1.mem.nextPtr (.mine t) }) hi1
    rfl rfl (fun _ _ _ => rfl)
    (fun p m hp => by simp [hne hp, hp])
    (fun p m hp => by
      by_cases h : p = w1.mem.nextPtr
      · subst h; exact Nat.lt_succ_self _
      · simp only [h, if_false] at hp
        exact Nat.lt_succ_of_lt (hi1.heapLt _ _ hp))
    (Nat.le_refl _) rfl (fun _ _ h => Or.inl h) rfl rfl rfl (fun p m hp => by simp [hne hp]) rfl
    (ow_alloc hi1.ow hfresh hi1.heapLt (hks.mono hr.1.heap)
      (fun i x q hx hq => by
        obtain ⟨q', m, ⟨e1, e2⟩, _⟩ := hi1.at hx
        rw [hq] at e1
        cases e1
        exact ⟨m, e2⟩) rfl rfl rfl rfl rfl rfl rfl rfl rfl)
    (fun p hp => by
      show ¬ (Lin.upd w1.ow w1.mem.nextPtr (.mine t) p).Hidden
      rw [Lin.upd_ne _ _ (by rintro rfl; rw [(hi1.ow.free _).mpr hfresh] at hp; exact hp trivial)]
      exact hp)
    (fun p hp => by
      have hp' : ¬ (Lin.upd w1.ow w1.mem.nextPtr (.mine t) p).Hidden := hp
      by_cases e : p = w1.mem.nextPtr
      · subst e; rw [Lin.upd_self] at hp'; exact absurd trivial hp'
      · left; rwa [Lin.upd_ne _ _ e] at hp')
    (fun p hp => by
      show (Lin.upd w1.ow w1.mem.nextPtr (.mine t) p).Gone
      rw [Lin.upd_ne _ _ (by
        rintro rfl
        rw [(hi1.ow.free _).mpr hfresh] at hp
        rcases hp with hp | ⟨_, hp⟩ <;> cases hp)]
      exact hp)
  have hpriv : ∀ u, Priv u w1 { w1 with
      mem := { w1.mem with
        heap := fun p => if p = w1.mem.nextPtr then some n else w1.mem.heap p
        kids := fun p => if p = w1.mem.nextPtr then ks else w1.mem.kids p
        nextPtr := w1.mem.nextPtr + 1 }
      ow := Lin.upd w1.ow w1.mem.nextPtr (.mine t) } := fun u =>
    ⟨fun _ h => ⟨h, rfl⟩, fun _ h => ⟨h, rfl⟩, rfl, fun p hp => Lin.upd_ne _ _ (hof hp), fun p hp => by
      by_cases h1 : p = w1.mem.nextPtr
      · subst h1
        have hp' : Lin.upd w1.ow w1.mem.nextPtr (.mine t) w1.mem.nextPtr = .owed u := hp
        rw [Lin.upd_self] at hp'
        cases hp'
      · have hp' : Lin.upd w1.ow w1.mem.nextPtr (.mine t) p = .owed u := hp
        rwa [Lin.upd_ne _ _ h1] at hp', fun _ h => h⟩
  refine ⟨_, rfl, ⟨hm.1, fun u _ => hpriv u, Or.inl ⟨rfl, rfl⟩, GStep.same rfl rfl⟩, hm.2, H _ _ hm.2 (hr.trans ⟨hm.1, hpriv t⟩) ?_ ?_ ?_ ?_⟩
  · simp
  · exact Lin.upd_self _ _ _
  · simp
  · intro m hm'
    rw [hr.1.heap _ _ hm'] at hfresh; cases hfresh

theorem wp_addGarbage (p : Ptr) (hp : w.ow p = .owed t ∨ (w.ow p = .mine t ∧ ∃ n, w.mem.heap p = some n ∧
      (n.isBase = true ∨ ∃ r, n.removedId = some r ∧ w.own r = some t)))
    {Q : Unit → World K V → Prop}
    (H : ∀ w', Inv w' → Ext t w w' → (∀ q, q ≠ p → (w.ow q).Of t → w'.ow q = w.ow q) → w'.ow p = .trash → Q () w') :
    wp t allow (addGarbage p) Q w := by
  intro w1 hr hi1
  have ho : w1.ow p = .owed t ∨ (w1.ow p = .mine t ∧ w1.mem.follow p = []) := by
    rcases hp with hp | ⟨hp, n, h1, h2⟩
    · left; rw [hr.2.ow p (Or.inr hp)]; exact hp
    · right
      refine ⟨by rw [hr.2.ow p (Or.inl hp)]; exact hp, ?_⟩
      rcases h2 with h2 | h2
      · exact follow_base (hr.1.heap _ _ h1) h2
      · obtain ⟨r, h2, _⟩ := h2
        exact follow_remove (hr.1.heap _ _ h1) (Node.remove_of_id h2)
  have hof : ∀ {u q}, u ≠ t → (w1.ow q).Of u → q ≠ p := by
    rintro u q hu hq rfl
    rcases ho with ho | ⟨ho, _⟩ <;> rw [ho] at hq <;> rcases hq with hq | hq <;> cases hq <;> exact hu rfl
  -- the NodeID named by a remove record that was never mapped is given up
  obtain ⟨own', hfake, hsub, hkeep⟩ : ∃ own' : NodeId → Option Tid,
      (w1.ow p = .mine t → ∀ n r, w1.mem.heap p = some n → n.removedId = some r → w1.info r = none ∧ own' r = none ∧ r < w1.mem.nextId) ∧
      (∀ i u, own' i = some u → w1.own i = some u) ∧ ∀ i u, u ≠ t → w1.own i = some u → own' i = some u := by
    rcases hp with h0 | ⟨h0, n, h1, h2⟩
    · refine ⟨w1.own, fun h => ?_, fun _ _ h => h, fun _ _ _ h => h⟩
      rw [hr.2.ow p (Or.inr h0), h0] at h
      cases h
    · rcases h2 with h2 | ⟨r, h2, h3⟩
      · refine ⟨w1.own, fun _ m r hm hr' => ?_, fun _ _ h => h, fun _ _ _ h => h⟩
        rw [hr.1.heap _ _ h1] at hm
        cases hm
        rw [Node.no_id (Node.base_facts h2).1] at hr'
        cases hr'
      · have h4 := (hr.2.own r h3).1
        refine ⟨Lin.upd w1.own r none, fun _ m r' hm hr' => ?_, fun i u hu => ?_, fun i u hne hu => ?_⟩
        · rw [hr.1.heap _ _ h1] at hm
          cases hm
          have e := Option.some.inj (hr'.symm.trans h2)
          subst e
          have h5 := hi1.own r' t h4
          exact ⟨h5.1, Lin.upd_self _ _ _, h5.2.2⟩
        · by_cases e : i = r
          · subst e; rw [Lin.upd_self] at hu; cases hu
          · rwa [Lin.upd_ne _ _ e] at hu
        · rw [Lin.upd_ne _ _ (by rintro rfl; rw [h4] at hu; cases hu; exact hne rfl)]
          exact hu
  have hm := inv_mem (w := w1) (w' := { w1 with
      mem := { w1.mem with garbage := p :: w1.mem.garbage }
      own := own'
      ow := Lin.upd w1.ow p .trash }) hi1
    rfl rfl (fun _ _ _ => rfl) (fun _ _ h => h) hi1.heapLt (Nat.le_refl _) rfl (fun i u h => Or.inl (hsub i u h)) rfl rfl rfl (fun _ _ _ => rfl) rfl
    (ow_retire hi1.ow ho rfl rfl rfl rfl rfl rfl) (vis_upd (fun h => h))
    (fun q hq => by
      by_cases e : q = p
      · subst e
        rcases hp with h0 | ⟨h0, n, h1, h2⟩
        · left; rw [hr.2.ow q (Or.inr h0), h0]; exact fun h => h
        · right
          intro m hm
          have hm' : w1.mem.heap q = some m := hm
          have h0' : w1.ow q = .mine t := by rw [hr.2.ow q (Or.inl h0)]; exact h0
          have hf := hfake h0' m
          rw [hr.1.heap _ _ h1] at hm'
          cases hm'
          refine ⟨?_, ?_, fun i x hx ht => ?_, fun r hr' => hf r (hr.1.heap _ _ h1) hr'⟩
          rotate_left
          rotate_left
          · rcases hi1.ow.tab i x q hx ht with h3 | h3
            · rw [h0'] at h3; cases h3
            · have := hi1.dl.gone i q h3 ht
              rw [h0'] at this
              rcases this with h | ⟨_, h⟩ <;> cases h
          · rcases h2 with h2 | ⟨r, h2, _⟩
            · exact Node.base_deletes h2
            · cases n with
              | leaf c => rfl
              | inner c => cases c <;> first | rfl | cases h2
          · rcases h2 with h2 | ⟨r, h2, _⟩
            · exact Node.base_splits h2
            · cases n with
              | leaf c => cases c <;> first | rfl | cases h2
              | inner c => cases c <;> first | rfl | cases h2
      · have hq' : ¬ (Lin.upd w1.ow p .trash q).Hidden := hq
        left; rwa [Lin.upd_ne _ _ e] at hq')
    (fun q hq => by
      show (Lin.upd w1.ow p .trash q).Gone
      by_cases e : q = p
      · subst e; rw [Lin.upd_self]; exact Or.inl rfl
      · rwa [Lin.upd_ne _ _ e])
  have hback : ∀ u q, Lin.upd w1.ow p .trash q = .owed u → w1.ow q = .owed u := by
    intro u q hq
    by_cases h1 : q = p
    · subst h1; rw [Lin.upd_self] at hq; cases hq
    · rwa [Lin.upd_ne _ _ h1] at hq
  refine ⟨_, rfl, ⟨hm.1, fun u hu => ⟨fun i h => ⟨hkeep i u hu h, rfl⟩, fun _ h => ⟨h, rfl⟩, rfl, fun q hq => Lin.upd_ne _ _ (hof hu hq),
    fun q hq => hback u q hq, fun _ h => h⟩,
    Or.inl ⟨rfl, rfl⟩, GStep.same rfl rfl⟩, hm.2, H _ hm.2 (hr.ext.trans ⟨hm.1, rfl, fun q hq => hback t q hq, fun _ h => h⟩) ?_
      (Lin.upd_self _ _ _)⟩
  intro q hq hq'
  exact (Lin.upd_ne _ _ hq).trans (hr.2.ow q hq')

theorem wp_nextNodeId {Q : NodeId → World K V → Prop} (H : ∀ w' id, Inv w' → Rely t w w' → w'.own id = some t → Q id w') :
    wp t allow nextNodeId Q w := by
  intro w1 hr hi1
  have hfresh : w1.own w1.mem.nextId = none := by
    cases h : w1.own w1.mem.nextId with
    | none => rfl
    | some x => exact absurd (hi1.own _ _ h).2.2 (Nat.lt_irrefl _)
  have hkeep : ∀ {u i}, w1.own i = some u → Lin.upd w1.own w1.mem.nextId (some t) i = some u := by
    intro u i h
    have : i ≠ w1.mem.nextId := by rintro rfl; rw [hfresh] at h; cases h
    rw [Lin.upd_ne _ _ this, h]
  have hm := inv_mem (w := w1) (w' := { w1 with
      mem := { w1.mem with nextId := w1.mem.nextId + 1 }
      own := Lin.upd w1.own w1.mem.nextId (some t) }) hi1
    rfl rfl (fun _ _ _ => rfl) (fun _ _ h => h) hi1.heapLt (Nat.le_succ _) rfl
    (fun i u h => by
      by_cases hx : i = w1.mem.nextId
      · subst hx; exact Or.inr ⟨rfl, Nat.lt_succ_self _⟩
      · left
        simpa [Lin.upd, hx] using h) rfl rfl rfl (fun _ _ _ => rfl) rfl
    (ow_same hi1.ow rfl rfl rfl (fun _ _ _ => rfl) rfl rfl rfl rfl rfl) (fun _ h => h) (fun _ h => Or.inl h) (fun _ h => h)
  refine ⟨_, rfl, ⟨hm.1, fun u _ => ⟨fun _ h => ⟨hkeep h, rfl⟩, fun _ h => ⟨h, rfl⟩, rfl, fun _ _ => rfl, fun _ h => h, fun _ h => h⟩, Or.inl ⟨rfl, rfl⟩, GStep.same rfl rfl⟩, hm.2, H _ _ hm.2 ?_ ?_⟩
  · exact hr.trans ⟨hm.1, ⟨fun _ h => ⟨hkeep h, rfl⟩, fun _ h => ⟨h, rfl⟩, rfl, fun _ _ => rfl, fun _ h => h, fun _ h => h⟩⟩
  · exact Lin.upd_self _ _ _

theorem wp_installNew {id : NodeId} {p : Ptr} (hown : w.own id = some t) (ha : allow .tableFull) {Q : Unit → World K V → Prop}
    (H : ∀ w', Inv w' → Ext t w w' → w'.own id = some t → w'.mem.table id = some p → id < TABLE_SIZE →
      (∀ q, (w.ow q).Of t → w'.ow q = w.ow q) → Q () w') :
    wp t allow (installNew id p) Q w := by
  unfold installNew
  by_cases hid : TABLE_SIZE ≤ id
  · rw [if_pos hid]; exact ha
  rw [if_neg hid]
  intro w1 hr hi1
  have ho := hr.2.own id hown
  have hne : ∀ {i x}, w1.info i = some x → i ≠ id := by
    rintro i x hx rfl
    rw [(hi1.own _ _ ho.1).1] at hx; cases hx
  have hm := inv_mem (w := w1) (w' := { w1 with mem := { w1.mem with table := fun i => if i = id then some p else w1.mem.table i } }) hi1
    rfl rfl (fun i x hx => by simp [hne hx]) (fun _ _ h => h) hi1.heapLt (Nat.le_refl _) rfl (fun _ _ h => Or.inl h) rfl rfl rfl
    (fun _ _ _ => rfl) rfl (ow_same hi1.ow rfl rfl rfl (fun i x hx => by simp [hne hx]) rfl rfl rfl rfl rfl) (fun _ h => h) (fun _ h => Or.inl h) (fun _ h => h)
  refine ⟨⟨_, rfl, ⟨hm.1, fun u hu => ⟨fun i h => ⟨h, ?_⟩, fun i h => ⟨h, ?_⟩, rfl, fun _ _ => rfl, fun _ h => h, fun _ h => h⟩, Or.inl ⟨rfl, rfl⟩, GStep.same rfl rfl⟩, hm.2,
    H _ hm.2 ?_ ho.1 (by simp) (Nat.lt_of_not_le hid) (fun q hq => hr.2.ow q hq)⟩, ho.1⟩
  · have : i ≠ id := by rintro rfl; rw [ho.1] at h; exact hu (Option.some.inj h).symm
    simp [this]
  · obtain ⟨x, _, _, _, hx, _⟩ := hi1.lock i u h
    simp [hne hx]
  · exact hr.ext.trans ⟨hm.1, rfl, fun _ h => h, fun _ h => h⟩

theorem wp_installRoot {o n : NodeId} {Q : Bool → World K V → Prop}
    (H1 : ∀ w1, Inv w1 → Rely t w w1 → w1.mem.root = o → Next t w1 { w1.mem with root := n } (Q true))
    (H0 : ∀ w1, Inv w1 → Rely t w w1 → Q false w1) : wp t allow (installRoot o n) Q w := by
  intro w1 hr hi1
  exact ⟨fun h => H1 w1 hi1 hr h, fun _ => ⟨w1, rfl, Guar.refl t w1, hi1, H0 w1 hi1 hr⟩⟩

/-- Sequencing. -/
theorem wp_seq {β : Type} {p : Prog K V α} {f : α → Prog K V β} {Q : β → World K V → Prop}
    (h : wp t allow p (fun a w' => wp t allow (f a) Q w') w) : wp t allow (p >>= f) Q w := wp_bind h

theorem wp_pure {a : α} {Q : α → World K V → Prop} (h : Q a w) : wp t allow (pure a : Prog K V α) Q w := h

/-! ### Snapshots -/

/-- The snapshot was the current node of its NodeID at some time. -/
structure SnapOK (w : World K V) (s : Snap K V) : Prop where
  pub : w.pub s.id s.ptr
  heap : w.mem.heap s.ptr = some s.node

theorem SnapOK.mono {w w' : World K V} (h : Mono w w') {s : Snap K V} (hs : SnapOK w s) : SnapOK w' s :=
  ⟨h.pub _ _ hs.1, h.heap _ _ hs.2⟩

theorem SnapOK.ok {s : Snap K V} (hi : Inv w) (hs : SnapOK w s) :
    ∃ lk n, w.info s.id = some (lk, n) ∧ NodeOK w s.id lk n s.node := by
  obtain ⟨lk, n, node, h1, h2, h3⟩ := hi.ok _ _ hs.1
  rw [hs.2] at h2
  cases h2
  exact ⟨lk, n, h1, h3⟩

theorem SnapOK.at {s : Snap K V} (hs : SnapOK w s) (h : w.mem.table s.id = some s.ptr) : w.At s.id s.ptr s.node := ⟨h, hs.2⟩

theorem snap_of_at (hi : Inv w) {id : NodeId} {x : Option K × Nat} (hx : w.info id = some x) {p : Ptr} {n : Node K V}
    (ha : w.At id p n) : SnapOK w ⟨id, p, n⟩ := ⟨(hi.at_ok hx ha).1, ha.2⟩

/-- Same logical node: same range and same contents. -/
structure Same (a b : Node K V) : Prop where
  low : b.low = a.low
  high : b.high = a.high
  leaf : b.isLeaf = a.isLeaf
  has : ∀ k v, b.Has k v ↔ a.Has k v

theorem Same.refl (a : Node K V) : Same a a := ⟨rfl, rfl, rfl, fun _ _ => Iff.rfl⟩

/-- The node built by consolidation. -/
theorem consolidated_spec (hi : Inv w) {id : NodeId} {lk : Option K} {n : Nat} {node : Node K V} (ho : NodeOK w id lk n node)
    (hc : node.clean = true) :
    ∃ b, consolidated node = some b ∧ NodeOK w id lk n b ∧ b.clean = true ∧ b.merged = none ∧ Same node b ∧ b.isBase = true ∧ b.eff = node.eff := by
  have hb := ho.1
  rw [Node.strip_of_clean hc] at hb
  obtain ⟨b1, b2, b3, b4⟩ := hb
  cases node with
  | leaf c =>
    obtain ⟨c1, c2, c3, c4⟩ := b4
    obtain ⟨l, h1, h2, h3⟩ := LeafChain.consolidate_wf c2
    refine ⟨.leaf (.base c.low c.high l), by simp [consolidated, h1], ⟨?_, fun q c h => by cases h⟩, rfl, rfl,
      ⟨rfl, rfl, rfl, fun k v => ?_⟩, rfl, rfl⟩
    · exact ⟨b1, b2, fun m hm => (by cases hm), c1, h2, c3, c4⟩
    · exact h3 (k, v)
  | inner c =>
    obtain ⟨m, c1, c2, c3⟩ := b4
    refine ⟨.inner (.base c.low c.high 0 (c.low :: c.seps)), ?_, ⟨?_, fun q c h => by cases h⟩, rfl, rfl,
      ⟨rfl, rfl, rfl, fun k v => Iff.rfl⟩, rfl, rfl⟩
    · simp [consolidated, InnerChain.consolidate_spec hi.lo_invalid c2]
    · exact ⟨b1, b2, fun m hm => (by cases hm), m, c1, InnerChain.consolidated_wf c2 0,
        fun id hid => c3 id (InnerChain.consolidated_ids c2 0 hid)⟩

theorem wp_consolidateNode (hi : Inv w) {s : Snap K V} (hs : SnapOK w s) (hc : s.node.clean = true) {Q : Snap K V → World K V → Prop}
    (H : ∀ w' s', Inv w' → Ext t w w' → SnapOK w' s' → s'.id = s.id → s'.node.clean = true → Same s.node s'.node → Q s' w') :
    wp t allow (consolidateNode s) Q w := by
  obtain ⟨lk, n, h1, h2⟩ := hs.ok hi
  obtain ⟨b, e1, _, e3, e4, e5, e6, e7⟩ := consolidated_spec hi h2 hc
  unfold consolidateNode
  rw [e1]
  apply wp_seq
  apply wp_allocate _ _ (ChildrenOk.of_base e6)
  intro w1 p hi1 hr1 hp hop _ _
  apply wp_seq
  apply wp_replace hi1 (hr1.1.info _ _ h1)
  · intro w2 hi2 hr2 htab
    have hr := hr1.trans hr2
    have hs2 := hs.mono hr.1
    obtain ⟨b', e1', e2', _⟩ := consolidated_spec hi2 (h2.mono hr.1) hc
    have : b' = b := Option.some.inj (e1'.symm.trans e1)
    subst this
    have hop2 : w2.ow p = .mine t := (hr2.2.ow p (Or.inl hop)).trans hop
    have hput : PutOK w2 s.id lk n s.ptr s.node p b' :=
      ⟨hr.1.info _ _ h1, hs2.at htab, Node.not_remove_of_clean hc, hr2.1.heap _ _ hp, e2', e5.high,
        fun h => by rw [Node.not_remove_of_clean e3] at h; cases h⟩
    have ho2 := hi2.ow_tab hput.info hput.at_ hput.notRemoved
    obtain ⟨g1, g2⟩ := next_same (t := t) hi2 hput hc (Node.base_facts e6).2 e5.has (gok_base hi2 hput hc hop2 e6 (fun r hr => Or.inl (e7 ▸ hr)) w2.lock)
    refine ⟨_, rfl, g1, g2, ?_⟩
    rw [if_pos rfl]
    apply wp_seq
    apply wp_addGarbage _ (Or.inl (owPut_old hop2 ho2))
    intro w3 hi3 he3 _ hgone
    apply wp_pure
    refine H w3 _ hi3 ?_ ?_ rfl e3 e5
    · refine hr.ext.trans ⟨g1.1.trans he3.mono, he3.tok, fun q hq => ?_, fun i h => he3.lockB i h⟩
      exact owPut_owed' (he3.owB q hq) (by rintro rfl; rw [hgone] at hq; cases hq)
    · exact (⟨Or.inr ⟨rfl, rfl⟩, hput.heap⟩ : SnapOK (w2.put s.id p w2.lock _) ⟨s.id, p, b'⟩).mono he3.mono
  · intro w2 hi2 hr2 _
    have hr := hr1.trans hr2
    rw [if_neg (by simp)]
    apply wp_seq
    apply wp_addGarbage _ (Or.inr ⟨(hr2.2.ow p (Or.inl hop)).trans hop, b, hr2.1.heap _ _ hp, Or.inl e6⟩)
    intro w3 hi3 he3 _ _
    apply wp_pure
    have he := hr.ext.trans he3
    exact H w3 s hi3 he (hs.mono he.mono) rfl hc (Same.refl _)

end Tree
end BwTree
