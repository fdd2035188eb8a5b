import Verif.Proofs.TreeSmo

/-! How the owners of addresses and the set of deleted separators change, and that they stay right. -/

namespace BwTree
namespace Tree

open Prog

set_option linter.unusedSectionVars false

variable {K V : Type} [LinearOrder K] [DecidableEq V] [Inhabited K]
variable {t : Tid} {w w' : World K V}

/-! ### Following addresses -/

theorem follow_base {m : Mem K V} {p : Ptr} {n : Node K V} (hp : m.heap p = some n) (hb : n.isBase = true) : m.follow p = [] := by
  simp [Mem.follow, hp, hb]

theorem follow_remove {m : Mem K V} {p : Ptr} {n : Node K V} (hp : m.heap p = some n) (hb : n.isRemove = true) : m.follow p = [] := by
  simp [Mem.follow, hp, hb]

theorem follow_abort {m : Mem K V} {p q : Ptr} {c : InnerChain K} (hp : m.heap p = some (.inner (.abort q c))) : m.follow p = [] := by
  simp [Mem.follow, hp, Node.isAbort]

theorem follow_delta {m : Mem K V} {p o : Ptr} {n : Node K V} (hp : m.heap p = some n) (hm : n.isMerge = false) (hk : m.kids p = [o]) :
    m.follow p = [] ∨ m.follow p = [o] := by
  simp only [Mem.follow, hp, hm, hk]
  split
  · exact Or.inl rfl
  · exact Or.inr rfl

theorem follow_merge {m : Mem K V} {p o r x : Ptr} {n : Node K V} (hp : m.heap p = some n) (hm : n.isMerge = true) (hk : m.kids p = [o, r])
    (hr : m.kids r = [x]) : m.follow p = [o, x] := by
  have : (n.isBase || n.isRemove || n.isAbort) = false := by
    cases n with
    | leaf c => cases c <;> first | rfl | cases hm
    | inner c => cases c <;> first | rfl | cases hm
  simp [Mem.follow, hp, this, hm, hk, hr]

/-- What is followed from a node stays the same. -/
theorem follow_mono {m m' : Mem K V} (hh : ∀ p n, m.heap p = some n → m'.heap p = some n)
    (hk : ∀ p n, m.heap p = some n → m'.kids p = m.kids p) (hkid : ∀ p n, m.heap p = some n → ∀ c ∈ m.kids p, ∃ x, m.heap c = some x)
    {p : Ptr} {n : Node K V} (hp : m.heap p = some n) : m'.follow p = m.follow p := by
  simp only [Mem.follow, hp, hh p n hp, hk p n hp]
  split
  · rfl
  · split
    · have := hkid p n hp
      split
      · rename_i l r heq
        rw [heq] at this
        obtain ⟨x, hx⟩ := this r (by simp)
        rw [hk r x hx]
      · rfl
    · rfl

/-! ### Owners -/

/-- The owners after mapping `n` at `id` instead of `o`, which goes to `d`; the addresses `xs` move below `n`. -/
def owPut (ow : Ptr → Owner) (id : NodeId) (n o : Ptr) (d : Owner) (xs : List Ptr) : Ptr → Owner :=
  fun p => if p = n then .tab id else if p = o then d else if p ∈ xs then .cell n else ow p

theorem ow_put (h : OwInv w) {id : NodeId} {x : Option K × Nat} {o n : Ptr} {new : Node K V} {xs : List Ptr} {d : Owner}
    (hx : w.info id = some x) (hn : w.ow n = .mine t) (ho : w.ow o = .tab id) (hh : w.mem.heap n = some new)
    (hd : d = .cell n ∨ d = .owed t) (hf : ∀ c ∈ w.mem.follow n, (c = o ∧ d = .cell n) ∨ c ∈ xs) (hnd : (w.mem.follow n).Nodup)
    (hxs : ∀ x ∈ xs, ∃ q nd, w.ow x = .cell q ∧ w.mem.heap q = some nd ∧ nd.isRemove = true ∧
      ∀ r y, w.info r = some y → w.mem.table r = some q → w'.dead r)
    (hab : ∀ q c, new = .inner (.abort q c) → q = o ∧ d = .cell n) (hrem : new.isRemove = true → w.mem.kids n = [o] ∧ d = .cell n)
    (hoc : ∀ nd, w.mem.heap o = some nd → nd.isAbort = false ∧ nd.isRemove = false)
    (hfo : d = .cell n → o ∈ w.mem.follow n ∨ (o ∈ w.mem.kids n ∧ (new.isAbort = true ∨ (new.isRemove = true ∧ ¬ w'.dead id))))
    (hfx : ∀ x ∈ xs, x ∈ w.mem.follow n)
    (hdn : ∀ i q, w'.dead i → w.mem.table i = some q → w.dead i ∨ ∀ c ∈ w.mem.kids q, c ∈ xs)
    (em : w'.mem = w.mem.set id n) (ei : w'.info = w.info) (ep : ∀ i p, w'.pub i p → w.pub i p ∨ (i = id ∧ p = n))
    (ed : ∀ i, w.dead i → w'.dead i) (el : w'.del = w.del) (eo : w'.ow = owPut w.ow id n o d xs) : OwInv w' := by
  have hno : n ≠ o := by rintro rfl; rw [hn] at ho; cases ho
  have on : w'.ow n = .tab id := by simp [eo, owPut]
  have oo : w'.ow o = d := by simp [eo, owPut, hno.symm]
  have ox : ∀ y ∈ xs, w'.ow y = .cell n := by
    intro y hy
    obtain ⟨q, nd, e1, _⟩ := hxs y hy
    have h1 : y ≠ n := by rintro rfl; rw [hn] at e1; cases e1
    have h2 : y ≠ o := by rintro rfl; rw [ho] at e1; cases e1
    simp [eo, owPut, h1, h2, hy]
  have orest : ∀ y, y ≠ n → y ≠ o → y ∉ xs → w'.ow y = w.ow y := by
    intro y h1 h2 h3; simp [eo, owPut, h1, h2, h3]
  have eh : w'.mem.heap = w.mem.heap := by rw [em]
  have ek : w'.mem.kids = w.mem.kids := by rw [em]
  have eg : w'.mem.garbage = w.mem.garbage := by rw [em]
  have ef : ∀ p, w'.mem.follow p = w.mem.follow p := by intro p; rw [em]; rfl
  have ht : ∀ i, i ≠ id → w'.mem.table i = w.mem.table i := by intro i hi; rw [em]; simp [hi]
  have hti : w'.mem.table id = some n := by rw [em]; simp
  have hhid : ∀ p, p ≠ n → ¬ (w'.ow p).Hidden → ¬ (w.ow p).Hidden := by
    intro p hp hq
    by_cases h2 : p = o
    · subst h2; rw [ho]; simp [Owner.Hidden]
    · by_cases h3 : p ∈ xs
      · obtain ⟨q, nd, e1, _⟩ := hxs p h3
        rw [e1]; simp [Owner.Hidden]
      · rwa [orest p hp h2 h3] at hq
  -- an address owned by a record that is not a remove record stays there
  have hcell : ∀ c p nd, w.ow c = .cell p → w.mem.heap p = some nd → nd.isRemove = false → w'.ow c = .cell p := by
    intro c p nd hc hp hr
    have h1 : c ≠ n := by rintro rfl; rw [hn] at hc; cases hc
    have h2 : c ≠ o := by rintro rfl; rw [ho] at hc; cases hc
    have h3 : c ∉ xs := by
      intro h3
      obtain ⟨q, nd', e1, e2, e3, _⟩ := hxs c h3
      rw [hc] at e1
      cases e1
      rw [hp] at e2
      cases e2
      rw [hr] at e3; cases e3
    rw [orest c h1 h2 h3]; exact hc
  constructor
  · intro p
    rw [eh]
    by_cases h1 : p = n
    · subst h1; rw [on, hh]; simp
    · by_cases h2 : p = o
      · subst h2
        have := (h.free p)
        rw [ho] at this
        rw [oo]
        rcases hd with rfl | rfl <;> simpa using this
      · by_cases h3 : p ∈ xs
        · obtain ⟨q, nd, e1, _⟩ := hxs p h3
          have := (h.free p)
          rw [e1] at this
          rw [ox p h3]
          simpa using this
        · rw [orest p h1 h2 h3]; exact h.free p
  · rw [eh, ek]; exact h.klt
  · intro i p hp
    rcases ep i p hp with hp | ⟨rfl, rfl⟩
    · have := h.pub i p hp
      by_cases h1 : p = n
      · subst h1; rw [on]; simp [Owner.Hidden]
      · by_cases h2 : p = o
        · subst h2; rw [oo]; rcases hd with rfl | rfl <;> simp [Owner.Hidden]
        · by_cases h3 : p ∈ xs
          · rw [ox p h3]; simp [Owner.Hidden]
          · rw [orest p h1 h2 h3]; exact this
    · rw [on]; simp [Owner.Hidden]
  · intro i y p hy hp
    rw [ei] at hy
    rw [el]
    by_cases hi : i = id
    · subst hi
      rw [hti] at hp
      cases hp
      exact Or.inl on
    · rw [ht i hi] at hp
      rcases h.tab i y p hy hp with h0 | h0
      · left
        have h1 : p ≠ n := by rintro rfl; rw [hn] at h0; cases h0
        have h2 : p ≠ o := by rintro rfl; rw [ho] at h0; cases h0; exact hi rfl
        have h3 : p ∉ xs := by
          intro h3
          obtain ⟨q, nd, e1, _⟩ := hxs p h3
          rw [h0] at e1; cases e1
        rw [orest p h1 h2 h3]; exact h0
      · exact Or.inr h0
  · intro p hp
    rw [ef]
    by_cases h1 : p = n
    · subst h1; exact hnd
    · exact h.nd p (hhid p h1 hp)
  · intro p hp c hc
    rw [ef] at hc
    by_cases h1 : p = n
    · subst h1
      rcases hf c hc with ⟨rfl, hd'⟩ | h3
      · rw [oo, hd']
      · exact ox c h3
    · have h0 := h.kid p (hhid p h1 hp) c hc
      cases hhp : w.mem.heap p with
      | none => simp [Mem.follow, hhp] at hc
      | some nd =>
        have : nd.isRemove = false := by
          cases hr : nd.isRemove with
          | false => rfl
          | true => rw [follow_remove hhp hr] at hc; cases hc
        exact hcell c p nd h0 hhp this
  · intro i y a q c hy ha
    rw [ei] at hy
    obtain ⟨a1, a2⟩ := ha
    rw [eh] at a2
    by_cases hi : i = id
    · subst hi
      rw [hti] at a1
      cases a1
      rw [hh] at a2
      obtain ⟨rfl, e⟩ := hab q c (Option.some.inj a2)
      rw [oo, e]
    · rw [ht i hi] at a1
      exact hcell q a _ (h.abort i y a q c hy ⟨a1, a2⟩) a2 rfl
  · intro r y p nd hy ha hr hdead
    rw [ei] at hy
    obtain ⟨a1, a2⟩ := ha
    rw [eh] at a2
    rw [ek]
    by_cases hi : r = id
    · subst hi
      rw [hti] at a1
      cases a1
      rw [hh] at a2
      cases a2
      obtain ⟨e1, e2⟩ := hrem hr
      exact ⟨o, e1, by rw [oo, e2]⟩
    · rw [ht r hi] at a1
      obtain ⟨z, z1, z2⟩ := h.rem r y p nd hy ⟨a1, a2⟩ hr (fun hd' => hdead (ed r hd'))
      refine ⟨z, z1, ?_⟩
      have h1 : z ≠ n := by rintro rfl; rw [hn] at z2; cases z2
      have h2 : z ≠ o := by rintro rfl; rw [ho] at z2; cases z2
      have h3 : z ∉ xs := by
        intro h3
        obtain ⟨q, nd', e1, e2, e3, e4⟩ := hxs z h3
        rw [z2] at e1
        cases e1
        exact hdead (e4 r y hy a1)
      rw [orest z h1 h2 h3]; exact z2
  · intro p
    rw [eg]
    by_cases h1 : p = n
    · subst h1
      have := h.trash p
      rw [hn] at this
      rw [on]
      simpa using this
    · by_cases h2 : p = o
      · subst h2
        have := h.trash p
        rw [ho] at this
        rw [oo]
        rcases hd with rfl | rfl <;> simpa using this
      · by_cases h3 : p ∈ xs
        · obtain ⟨q, nd, e1, _⟩ := hxs p h3
          have := h.trash p
          rw [e1] at this
          rw [ox p h3]
          simpa using this
        · rw [orest p h1 h2 h3]; exact h.trash p
  · rw [eg]; exact h.nodup
  · intro y i hy
    rw [ei]
    by_cases h1 : y = n
    · subst h1
      rw [on] at hy
      cases hy
      exact ⟨hti, x, hx⟩
    · by_cases h2 : y = o
      · subst h2
        rw [oo] at hy
        rcases hd with rfl | rfl <;> cases hy
      · by_cases h3 : y ∈ xs
        · rw [ox y h3] at hy; cases hy
        · rw [orest y h1 h2 h3] at hy
          obtain ⟨b1, b2⟩ := h.btab y i hy
          have hne : i ≠ id := by
            rintro rfl
            rw [(h.btab o i ho).1] at b1
            exact h2 (Option.some.inj b1).symm
          exact ⟨by rw [ht i hne]; exact b1, b2⟩
  · intro c p hc
    by_cases h1 : c = n
    · subst h1; rw [on] at hc; cases hc
    · by_cases h2 : c = o
      · subst h2
        rw [oo] at hc
        have hp : p = n := by
          rcases hd with e | e
          · rw [e] at hc; cases hc; rfl
          · rw [e] at hc; cases hc
        subst hp
        refine ⟨by rw [on]; simp [Owner.Hidden], ?_⟩
        rw [ef, ek, eh]
        rcases hfo hc with h4 | ⟨h4, h5⟩
        · exact Or.inl h4
        · exact Or.inr ⟨id, new, on, hh, h4, h5⟩
      · by_cases h3 : c ∈ xs
        · rw [ox c h3] at hc
          cases hc
          exact ⟨by rw [on]; simp [Owner.Hidden], Or.inl (by rw [ef]; exact hfx c h3)⟩
        · rw [orest c h1 h2 h3] at hc
          obtain ⟨b1, b2⟩ := h.bcell c p hc
          have hpn : p ≠ n := by rintro rfl; rw [hn] at b1; exact b1 trivial
          refine ⟨?_, ?_⟩
          · by_cases h4 : p = o
            · subst h4; rw [oo]; rcases hd with rfl | rfl <;> simp [Owner.Hidden]
            · by_cases h5 : p ∈ xs
              · rw [ox p h5]; simp [Owner.Hidden]
              · rw [orest p hpn h4 h5]; exact b1
          · rw [ef, ek, eh]
            rcases b2 with b2 | ⟨i, nd, c1, c2, c3, c4⟩
            · exact Or.inl b2
            · right
              have h4 : p ≠ o := by
                rintro rfl
                obtain ⟨z1, z2⟩ := hoc nd c2
                rcases c4 with c4 | ⟨c4, _⟩
                · rw [z1] at c4; cases c4
                · rw [z2] at c4; cases c4
              have h5 : p ∉ xs := by
                intro h5
                obtain ⟨q, nd', e1, _⟩ := hxs p h5
                rw [c1] at e1; cases e1
              refine ⟨i, nd, by rw [orest p hpn h4 h5]; exact c1, c2, c3, c4.imp (fun z => z) fun z => ⟨z.1, fun hd' => ?_⟩⟩
              rcases hdn i p hd' (h.btab p i c1).1 with h6 | h6
              · exact z.2 h6
              · exact h3 (h6 c c3)

/-- A NodeID becomes part of the tree. -/
theorem ow_publish (h : OwInv w) {id : NodeId} {s : Ptr} {sib : Node K V} (hinfo : w.info id = none) (hs : w.ow s = .mine t)
    (hat : w.At id s sib) (hb : sib.isBase = true) (hpubd : ∃ x, w'.info id = some x)
    (et : w'.mem.table = w.mem.table) (eh : w'.mem.heap = w.mem.heap) (ek : w'.mem.kids = w.mem.kids)
    (eg : w'.mem.garbage = w.mem.garbage) (ei : ∀ i, i ≠ id → w'.info i = w.info i) (ep : ∀ i p, w'.pub i p → w.pub i p ∨ (i = id ∧ p = s))
    (ed : w'.dead = w.dead) (el : w'.del = w.del) (eo : w'.ow = Lin.upd w.ow s (.tab id)) : OwInv w' := by
  have os : w'.ow s = .tab id := by rw [eo]; exact Lin.upd_self _ _ _
  have orest : ∀ y, y ≠ s → w'.ow y = w.ow y := by intro y hy; rw [eo]; exact Lin.upd_ne _ _ hy
  have ef : ∀ p, w'.mem.follow p = w.mem.follow p := by intro p; simp only [Mem.follow, eh, ek]
  have hcell : ∀ c q, w.ow c = .cell q → w'.ow c = .cell q := by
    intro c q hc
    rw [orest c (by rintro rfl; rw [hs] at hc; cases hc)]; exact hc
  have hhid : ∀ p, p ≠ s → ¬ (w'.ow p).Hidden → ¬ (w.ow p).Hidden := by
    intro p hp hq; rwa [orest p hp] at hq
  have hnr : sib.isRemove = false := by
    cases sib with
    | leaf c => cases c <;> first | rfl | cases hb
    | inner c => cases c <;> first | rfl | cases hb
  have hna : ∀ q c, sib ≠ .inner (.abort q c) := by
    rintro q c rfl; cases hb
  constructor
  · intro p
    rw [eh]
    by_cases h1 : p = s
    · subst h1; rw [os, hat.2]; simp
    · rw [orest p h1]; exact h.free p
  · rw [eh, ek]; exact h.klt
  · intro i p hp
    by_cases h1 : p = s
    · subst h1; rw [os]; simp [Owner.Hidden]
    · rw [orest p h1]
      rcases ep i p hp with hp | ⟨_, e⟩
      · exact h.pub i p hp
      · exact absurd e h1
  · intro i y p hy hp
    rw [et] at hp
    rw [el]
    by_cases hi : i = id
    · subst hi
      rw [hat.1] at hp
      cases hp
      exact Or.inl os
    · rw [ei i hi] at hy
      rcases h.tab i y p hy hp with h0 | h0
      · left
        rw [orest p (by rintro rfl; rw [hs] at h0; cases h0)]; exact h0
      · exact Or.inr h0
  · intro p hp
    rw [ef]
    by_cases h1 : p = s
    · subst h1; rw [follow_base hat.2 hb]; exact List.nodup_nil
    · exact h.nd p (hhid p h1 hp)
  · intro p hp c hc
    rw [ef] at hc
    by_cases h1 : p = s
    · subst h1; rw [follow_base hat.2 hb] at hc; cases hc
    · exact hcell c p (h.kid p (hhid p h1 hp) c hc)
  · intro i y a q c hy ha
    have ha' : w.At i a (.inner (.abort q c)) := ⟨by rw [← et]; exact ha.1, by rw [← eh]; exact ha.2⟩
    by_cases hi : i = id
    · subst hi
      exact absurd (At.unique hat ha').2 (hna q c)
    · rw [ei i hi] at hy
      exact hcell q a (h.abort i y a q c hy ha')
  · intro r y p nd hy ha hr hd
    have ha' : w.At r p nd := ⟨by rw [← et]; exact ha.1, by rw [← eh]; exact ha.2⟩
    by_cases hi : r = id
    · subst hi
      rw [(At.unique ha' hat).2, hnr] at hr; cases hr
    · rw [ei r hi] at hy
      rw [ed] at hd
      obtain ⟨z, z1, z2⟩ := h.rem r y p nd hy ha' hr hd
      exact ⟨z, by rw [ek]; exact z1, hcell z p z2⟩
  · intro p
    rw [eg]
    by_cases h1 : p = s
    · subst h1
      have := h.trash p
      rw [hs] at this
      rw [os]; simpa using this
    · rw [orest p h1]; exact h.trash p
  · rw [eg]; exact h.nodup
  · intro y i hy
    by_cases h1 : y = s
    · subst h1
      rw [os] at hy
      cases hy
      exact ⟨by rw [et]; exact hat.1, hpubd⟩
    · rw [orest y h1] at hy
      obtain ⟨b1, x, b2⟩ := h.btab y i hy
      have hne : i ≠ id := by rintro rfl; rw [hinfo] at b2; cases b2
      exact ⟨by rw [et]; exact b1, x, by rw [ei i hne]; exact b2⟩
  · intro c p hc
    have h1 : c ≠ s := by rintro rfl; rw [os] at hc; cases hc
    rw [orest c h1] at hc
    obtain ⟨b1, b2⟩ := h.bcell c p hc
    have h2 : p ≠ s := by rintro rfl; rw [hs] at b1; exact b1 trivial
    rw [orest p h2, ef, ek, eh, ed]
    exact ⟨b1, b2⟩

/-- The abort record `a` is taken away. -/
theorem ow_unlock (h : OwInv w) (hrm : ∀ i, w.del i → w.Removed i) {id : NodeId} {x : Option K × Nat} {o a : Ptr} {c : InnerChain K} (hx : w.info id = some x)
    (hat : w.At id a (.inner (.abort o c))) (ha : w.ow a = .tab id) (ho : w.mem.heap o = some (.inner c))
    (hc : (Node.inner c : Node K V).clean = true)
    (em : w'.mem = w.mem.set id o) (ei : w'.info = w.info) (ep : ∀ i p, w'.pub i p → w.pub i p ∨ (i = id ∧ p = o))
    (ed : w'.dead = w.dead) (el : w'.del = w.del) (eo : w'.ow = Lin.upd (Lin.upd w.ow a (.owed t)) o (.tab id)) : OwInv w' := by
  have hoc := h.abort id x a o c hx hat
  have hoa : o ≠ a := by rintro rfl; rw [ha] at hoc; cases hoc
  have oo : w'.ow o = .tab id := by rw [eo]; exact Lin.upd_self _ _ _
  have oa : w'.ow a = .owed t := by rw [eo, Lin.upd_ne _ _ hoa.symm]; exact Lin.upd_self _ _ _
  have orest : ∀ y, y ≠ a → y ≠ o → w'.ow y = w.ow y := by
    intro y h1 h2; rw [eo, Lin.upd_ne _ _ h2, Lin.upd_ne _ _ h1]
  have eh : w'.mem.heap = w.mem.heap := by rw [em]
  have ek : w'.mem.kids = w.mem.kids := by rw [em]
  have eg : w'.mem.garbage = w.mem.garbage := by rw [em]
  have ef : ∀ p, w'.mem.follow p = w.mem.follow p := by intro p; rw [em]; rfl
  have ht : ∀ i, i ≠ id → w'.mem.table i = w.mem.table i := by intro i hi; rw [em]; simp [hi]
  have hti : w'.mem.table id = some o := by rw [em]; simp
  have hcell : ∀ y q, w.ow y = .cell q → q ≠ a → w'.ow y = .cell q := by
    intro y q hy hq
    have h1 : y ≠ a := by rintro rfl; rw [ha] at hy; cases hy
    have h2 : y ≠ o := by rintro rfl; rw [hoc] at hy; cases hy; exact hq rfl
    rw [orest y h1 h2]; exact hy
  have hhid : ∀ p, ¬ (w'.ow p).Hidden → ¬ (w.ow p).Hidden := by
    intro p hp
    by_cases h1 : p = a
    · subst h1; rw [ha]; simp [Owner.Hidden]
    · by_cases h2 : p = o
      · subst h2; rw [hoc]; simp [Owner.Hidden]
      · rwa [orest p h1 h2] at hp
  have hhid' : ∀ p, ¬ (w.ow p).Hidden → ¬ (w'.ow p).Hidden := by
    intro p hp
    by_cases h1 : p = a
    · subst h1; rw [oa]; simp [Owner.Hidden]
    · by_cases h2 : p = o
      · subst h2; rw [oo]; simp [Owner.Hidden]
      · rwa [orest p h1 h2]
  constructor
  · intro p
    rw [eh]
    by_cases h1 : p = a
    · subst h1; rw [oa, hat.2]; simp
    · by_cases h2 : p = o
      · subst h2; rw [oo, ho]; simp
      · rw [orest p h1 h2]; exact h.free p
  · rw [eh, ek]; exact h.klt
  · intro i p hp
    rcases ep i p hp with hp | ⟨_, rfl⟩
    · exact hhid' p (h.pub i p hp)
    · rw [oo]; simp [Owner.Hidden]
  · intro i y p hy hp
    rw [ei] at hy
    rw [el]
    by_cases hi : i = id
    · subst hi
      rw [hti] at hp
      cases hp
      exact Or.inl oo
    · rw [ht i hi] at hp
      rcases h.tab i y p hy hp with h0 | h0
      · left
        have h1 : p ≠ a := by rintro rfl; rw [ha] at h0; cases h0; exact hi rfl
        have h2 : p ≠ o := by rintro rfl; rw [hoc] at h0; cases h0
        rw [orest p h1 h2]; exact h0
      · exact Or.inr h0
  · intro p hp
    rw [ef]
    exact h.nd p (hhid p hp)
  · intro p hp y hy
    rw [ef] at hy
    refine hcell y p (h.kid p (hhid p hp) y hy) ?_
    rintro rfl
    rw [follow_abort hat.2] at hy; cases hy
  · intro i y b q d hy hb
    rw [ei] at hy
    obtain ⟨b1, b2⟩ := hb
    rw [eh] at b2
    by_cases hi : i = id
    · subst hi
      rw [hti] at b1
      cases b1
      rw [ho] at b2
      cases b2
      cases hc
    · rw [ht i hi] at b1
      refine hcell q b (h.abort i y b q d hy ⟨b1, b2⟩) ?_
      rintro rfl
      rcases h.tab i y b hy b1 with h0 | h0
      · rw [ha] at h0; cases h0; exact hi rfl
      · obtain ⟨_, p', n', _, hp', hr'⟩ := hrm i h0
        rw [(At.unique hp' ⟨b1, b2⟩).2] at hr'; cases hr'
  · intro r y p nd hy hp hr hd
    rw [ei] at hy
    rw [ed] at hd
    obtain ⟨b1, b2⟩ := hp
    rw [eh] at b2
    rw [ek]
    by_cases hi : r = id
    · subst hi
      rw [hti] at b1
      cases b1
      rw [ho] at b2
      cases b2
      rw [Node.not_remove_of_clean hc] at hr; cases hr
    · rw [ht r hi] at b1
      obtain ⟨z, z1, z2⟩ := h.rem r y p nd hy ⟨b1, b2⟩ hr hd
      refine ⟨z, z1, hcell z p z2 ?_⟩
      rintro rfl
      rw [hat.2] at b2
      cases b2
      cases hr
  · intro p
    rw [eg]
    by_cases h1 : p = a
    · subst h1
      have := h.trash p
      rw [ha] at this
      rw [oa]; simpa using this
    · by_cases h2 : p = o
      · subst h2
        have := h.trash p
        rw [hoc] at this
        rw [oo]; simpa using this
      · rw [orest p h1 h2]; exact h.trash p
  · rw [eg]; exact h.nodup
  · intro y i hy
    rw [ei]
    by_cases h1 : y = a
    · subst h1; rw [oa] at hy; cases hy
    · by_cases h2 : y = o
      · subst h2
        rw [oo] at hy
        cases hy
        exact ⟨hti, x, hx⟩
      · rw [orest y h1 h2] at hy
        obtain ⟨b1, b2⟩ := h.btab y i hy
        have hne : i ≠ id := by
          rintro rfl
          rw [hat.1] at b1
          exact h1 (Option.some.inj b1).symm
        exact ⟨by rw [ht i hne]; exact b1, b2⟩
  · intro y p hy
    have h1 : y ≠ a := by rintro rfl; rw [oa] at hy; cases hy
    have h2 : y ≠ o := by rintro rfl; rw [oo] at hy; cases hy
    rw [orest y h1 h2] at hy
    obtain ⟨b1, b2⟩ := h.bcell y p hy
    have hka : w.mem.kids a = [o] := (h.klt a _ hat.2).1.1
    have h3 : p ≠ a := by
      rintro rfl
      rcases b2 with b2 | ⟨_, _, _, _, b2, _⟩
      · rw [follow_abort hat.2] at b2; cases b2
      · rw [hka] at b2
        exact h2 (List.mem_singleton.mp b2)
    refine ⟨hhid' p b1, ?_⟩
    rw [ef, ek, eh, ed]
    refine b2.imp (fun z => z) ?_
    rintro ⟨i, nd, c1, c2⟩
    have h4 : p ≠ o := by rintro rfl; rw [hoc] at c1; cases c1
    exact ⟨i, nd, by rw [orest p h3 h4]; exact c1, c2⟩

/-- The separator of `r` is gone from the parent, and its remove record is to be retired. -/
theorem ow_del (h : OwInv w) {r : NodeId} {p : Ptr} (hd : w.dead r) (ho : w.ow p = .tab r) (htab : w.mem.table r = some p)
    {nd0 : Node K V} (hp : w.mem.heap p = some nd0) (hrem : nd0.isRemove = true)
    (em : w'.mem = w.mem) (ei : w'.info = w.info) (ep : w'.pub = w.pub) (ed : w'.dead = w.dead)
    (el : ∀ i, w'.del i ↔ w.del i ∨ i = r) (eo : w'.ow = Lin.upd w.ow p (.owed t)) : OwInv w' := by
  have op : w'.ow p = .owed t := by rw [eo]; exact Lin.upd_self _ _ _
  have orest : ∀ y, y ≠ p → w'.ow y = w.ow y := by intro y hy; rw [eo]; exact Lin.upd_ne _ _ hy
  have hcell : ∀ c q, w.ow c = .cell q → w'.ow c = .cell q := by
    intro c q hc
    rw [orest c (by rintro rfl; rw [ho] at hc; cases hc)]; exact hc
  have hhid : ∀ q, (w'.ow q).Hidden ↔ (w.ow q).Hidden := by
    intro q
    by_cases h1 : q = p
    · subst h1; rw [op, ho]; simp [Owner.Hidden]
    · rw [orest q h1]
  have hat : ∀ {i q nd}, w'.At i q nd → w.At i q nd := by intro i q nd hq; unfold World.At at hq ⊢; rwa [em] at hq
  constructor
  · intro q
    rw [em]
    by_cases h1 : q = p
    · subst h1
      have := h.free q
      rw [ho] at this
      rw [op]; simpa using this
    · rw [orest q h1]; exact h.free q
  · rw [em]; exact h.klt
  · intro i q hq
    rw [hhid]; rw [ep] at hq; exact h.pub i q hq
  · intro i y q hy hq
    rw [ei] at hy
    rw [em] at hq
    rw [el]
    rcases h.tab i y q hy hq with h0 | h0
    · by_cases h1 : q = p
      · subst h1
        rw [ho] at h0
        cases h0
        exact Or.inr (Or.inr rfl)
      · exact Or.inl (by rw [orest q h1]; exact h0)
    · exact Or.inr (Or.inl h0)
  · intro q hq
    rw [hhid] at hq
    rw [em]; exact h.nd q hq
  · intro q hq c hc
    rw [hhid] at hq
    rw [em] at hc
    exact hcell c q (h.kid q hq c hc)
  · intro i y a q c hy ha
    rw [ei] at hy
    exact hcell q a (h.abort i y a q c hy (hat ha))
  · intro i y q nd hy hq hr hdead
    rw [ei] at hy
    rw [ed] at hdead
    obtain ⟨z, z1, z2⟩ := h.rem i y q nd hy (hat hq) hr hdead
    exact ⟨z, by rw [em]; exact z1, hcell z q z2⟩
  · intro q
    rw [em]
    by_cases h1 : q = p
    · subst h1
      have := h.trash q
      rw [ho] at this
      rw [op]; simpa using this
    · rw [orest q h1]; exact h.trash q
  · rw [em]; exact h.nodup
  · intro y i hy
    have h1 : y ≠ p := by rintro rfl; rw [op] at hy; cases hy
    rw [orest y h1] at hy
    rw [em, ei]
    exact h.btab y i hy
  · intro c q hc
    have h1 : c ≠ p := by rintro rfl; rw [op] at hc; cases hc
    rw [orest c h1] at hc
    obtain ⟨b1, b2⟩ := h.bcell c q hc
    refine ⟨by rw [hhid]; exact b1, ?_⟩
    rw [em, ed]
    refine b2.imp (fun z => z) ?_
    rintro ⟨i, nd, c1, c2, c3, c4⟩
    have h2 : q ≠ p := by
      rintro rfl
      rw [hp] at c2
      cases c2
      rw [ho] at c1
      cases c1
      rcases c4 with c4 | c4
      · cases nd0 with
        | leaf c => cases c4
        | inner c => cases c <;> first | cases hrem; done | cases c4; done
      · exact c4.2 hd
    exact ⟨i, nd, by rw [orest q h2]; exact c1, c2, c3, c4⟩

theorem ChildrenOk.exists {heap : Ptr → Option (Node K V)} {ks : List Ptr} {n : Node K V} (h : ChildrenOk heap ks n) :
    ∀ c ∈ ks, ∃ m, heap c = some m := by
  intro x hx
  cases n with
  | leaf c =>
    cases c with
    | base => cases h; cases hx
    | merge =>
      obtain ⟨o, q, _, rfl, h1, h2⟩ := h
      rcases List.mem_cons.mp hx with rfl | hx
      · exact ⟨_, h1⟩
      · rw [List.mem_singleton.mp hx]; exact ⟨_, h2⟩
    | _ =>
      obtain ⟨o, rfl, h1⟩ := h
      rw [List.mem_singleton.mp hx]; exact ⟨_, h1⟩
  | inner c =>
    cases c with
    | base => cases h; cases hx
    | merge =>
      obtain ⟨o, q, _, rfl, h1, h2⟩ := h
      rcases List.mem_cons.mp hx with rfl | hx
      · exact ⟨_, h1⟩
      · rw [List.mem_singleton.mp hx]; exact ⟨_, h2⟩
    | abort =>
      obtain ⟨rfl, h1⟩ := h
      rw [List.mem_singleton.mp hx]; exact ⟨_, h1⟩
    | _ =>
      obtain ⟨o, rfl, h1⟩ := h
      rw [List.mem_singleton.mp hx]; exact ⟨_, h1⟩

theorem ChildrenOk.of_base {heap : Ptr → Option (Node K V)} {n : Node K V} (h : n.isBase = true) : ChildrenOk heap [] n := by
  cases n with
  | leaf c => cases c <;> first | rfl | cases h
  | inner c => cases c <;> first | rfl | cases h

theorem ChildrenOk.mono {heap heap' : Ptr → Option (Node K V)} {ks : List Ptr} {n : Node K V} (h : ChildrenOk heap ks n)
    (hh : ∀ p m, heap p = some m → heap' p = some m) : ChildrenOk heap' ks n := by
  cases n with
  | leaf c =>
    cases c with
    | base => exact h
    | merge =>
      obtain ⟨o, q, i, e, h1, h2⟩ := h
      exact ⟨o, q, i, e, hh _ _ h1, hh _ _ h2⟩
    | _ =>
      obtain ⟨o, e, h1⟩ := h
      exact ⟨o, e, hh _ _ h1⟩
  | inner c =>
    cases c with
    | base => exact h
    | merge =>
      obtain ⟨o, q, i, e, h1, h2⟩ := h
      exact ⟨o, q, i, e, hh _ _ h1, hh _ _ h2⟩
    | abort => exact ⟨h.1, hh _ _ h.2⟩
    | _ =>
      obtain ⟨o, e, h1⟩ := h
      exact ⟨o, e, hh _ _ h1⟩

/-- Allocation. -/
theorem ow_alloc (h : OwInv w) {p : Ptr} {n : Node K V} {ks : List Ptr} (hp : w.mem.heap p = none)
    (hlt : ∀ q m, w.mem.heap q = some m → q < p) (hks : ChildrenOk w.mem.heap ks n)
    (htab : ∀ i x q, w.info i = some x → w.mem.table i = some q → ∃ m, w.mem.heap q = some m)
    (et : w'.mem.table = w.mem.table) (eh : w'.mem.heap = fun q => if q = p then some n else w.mem.heap q)
    (ek : w'.mem.kids = fun q => if q = p then ks else w.mem.kids q)
    (eg : w'.mem.garbage = w.mem.garbage) (ei : w'.info = w.info) (ep : w'.pub = w.pub)
    (ed : w'.dead = w.dead) (el : w'.del = w.del) (eo : w'.ow = Lin.upd w.ow p (.mine t)) : OwInv w' := by
  have op : w'.ow p = .mine t := by rw [eo]; exact Lin.upd_self _ _ _
  have orest : ∀ y, y ≠ p → w'.ow y = w.ow y := by intro y hy; rw [eo]; exact Lin.upd_ne _ _ hy
  have hfree : w.ow p = .free := (h.free p).mpr hp
  have hhe : ∀ q m, w.mem.heap q = some m → w'.mem.heap q = some m := by
    intro q m hq
    rw [eh]
    have : q ≠ p := by rintro rfl; rw [hp] at hq; cases hq
    simp [this, hq]
  have hki : ∀ q m, w.mem.heap q = some m → w'.mem.kids q = w.mem.kids q := by
    intro q m hq
    rw [ek]
    have : q ≠ p := by rintro rfl; rw [hp] at hq; cases hq
    simp [this]
  have hcell : ∀ c q, w.ow c = .cell q → w'.ow c = .cell q := by
    intro c q hc
    rw [orest c (by rintro rfl; rw [hfree] at hc; cases hc)]; exact hc
  have hhid : ∀ q, (w'.ow q).Hidden ↔ (w.ow q).Hidden := by
    intro q
    by_cases h1 : q = p
    · subst h1; rw [op, hfree]; simp [Owner.Hidden]
    · rw [orest q h1]
  have hf : ∀ q, ¬ (w.ow q).Hidden → w'.mem.follow q = w.mem.follow q := by
    intro q hq
    cases hm : w.mem.heap q with
    | none => rw [(h.free q).mpr hm] at hq; exact absurd trivial hq
    | some m => exact follow_mono hhe hki (fun a b hab c hc => ((h.klt a b hab).2 c hc).2) hm
  have hat : ∀ {i y q nd}, w.info i = some y → w'.At i q nd → w.At i q nd := by
    intro i y q nd hy hq
    obtain ⟨q1, q2⟩ := hq
    rw [et] at q1
    obtain ⟨m, hm⟩ := htab i y q hy q1
    rw [hhe q m hm] at q2
    exact ⟨q1, hm.trans q2⟩
  constructor
  · intro q
    by_cases h1 : q = p
    · subst h1; rw [op, eh]; simp
    · rw [orest q h1, eh]; simp only [h1, if_false]; exact h.free q
  · intro q m hq
    by_cases h1 : q = p
    · subst h1
      have hm : m = n := by rw [eh] at hq; simpa using hq.symm
      subst hm
      have hk : w'.mem.kids q = ks := by rw [ek]; simp
      rw [hk]
      refine ⟨hks.mono hhe, fun c hc => ?_⟩
      obtain ⟨m', hm'⟩ := hks.exists c hc
      exact ⟨hlt c m' hm', m', hhe c m' hm'⟩
    · rw [eh] at hq
      simp only [h1, if_false] at hq
      rw [hki q m hq]
      refine ⟨(h.klt q m hq).1.mono hhe, fun c hc => ?_⟩
      obtain ⟨a, m', b⟩ := (h.klt q m hq).2 c hc
      exact ⟨a, m', hhe c m' b⟩
  · intro i q hq
    rw [hhid]; rw [ep] at hq; exact h.pub i q hq
  · intro i y q hy hq
    rw [ei] at hy
    rw [et] at hq
    rw [el]
    rcases h.tab i y q hy hq with h0 | h0
    · exact Or.inl (by rw [orest q (by rintro rfl; rw [hfree] at h0; cases h0)]; exact h0)
    · exact Or.inr h0
  · intro q hq
    rw [hhid] at hq
    rw [hf q hq]; exact h.nd q hq
  · intro q hq c hc
    rw [hhid] at hq
    rw [hf q hq] at hc
    exact hcell c q (h.kid q hq c hc)
  · intro i y a q c hy ha
    rw [ei] at hy
    exact hcell q a (h.abort i y a q c hy (hat hy ha))
  · intro i y q nd hy hq hr hdead
    rw [ei] at hy
    rw [ed] at hdead
    have hq' := hat hy hq
    obtain ⟨z, z1, z2⟩ := h.rem i y q nd hy hq' hr hdead
    exact ⟨z, by rw [hki q nd hq'.2]; exact z1, hcell z q z2⟩
  · intro q
    rw [eg]
    by_cases h1 : q = p
    · subst h1
      have := h.trash q
      rw [hfree] at this
      rw [op]; simpa using this
    · rw [orest q h1]; exact h.trash q
  · rw [eg]; exact h.nodup
  · intro y i hy
    have h1 : y ≠ p := by rintro rfl; rw [op] at hy; cases hy
    rw [orest y h1] at hy
    rw [et, ei]
    exact h.btab y i hy
  · intro c q hc
    have h1 : c ≠ p := by rintro rfl; rw [op] at hc; cases hc
    rw [orest c h1] at hc
    obtain ⟨b1, b2⟩ := h.bcell c q hc
    have h2 : q ≠ p := by rintro rfl; rw [hfree] at b1; exact b1 trivial
    rw [orest q h2, hf q b1, ed]
    refine ⟨b1, b2.imp (fun z => z) ?_⟩
    rintro ⟨i, nd, c1, c2, c3, c4⟩
    exact ⟨i, nd, c1, hhe q nd c2, by rw [hki q nd c2]; exact c3, c4⟩

/-- Hand-over of an address to the epoch manager. -/
theorem ow_retire (h : OwInv w) {p : Ptr} (ho : w.ow p = .owed t ∨ (w.ow p = .mine t ∧ w.mem.follow p = []))
    (em : w'.mem = { w.mem with garbage := p :: w.mem.garbage }) (ei : w'.info = w.info) (ep : w'.pub = w.pub)
    (ed : w'.dead = w.dead) (el : w'.del = w.del) (eo : w'.ow = Lin.upd w.ow p .trash) : OwInv w' := by
  have op : w'.ow p = .trash := by rw [eo]; exact Lin.upd_self _ _ _
  have orest : ∀ y, y ≠ p → w'.ow y = w.ow y := by intro y hy; rw [eo]; exact Lin.upd_ne _ _ hy
  have hnc : ∀ q, w.ow p ≠ .cell q := by intro q e; rw [e] at ho; rcases ho with ho | ⟨ho, _⟩ <;> cases ho
  have hnt : ∀ q, w.ow p ≠ .tab q := by intro q e; rw [e] at ho; rcases ho with ho | ⟨ho, _⟩ <;> cases ho
  have hcell : ∀ c q, w.ow c = .cell q → w'.ow c = .cell q := by
    intro c q hc
    rw [orest c (by rintro rfl; exact hnc q hc)]; exact hc
  have hf : ∀ q, w'.mem.follow q = w.mem.follow q := by intro q; rw [em]; rfl
  have hat : ∀ {i q nd}, w'.At i q nd → w.At i q nd := by intro i q nd hq; unfold World.At at hq ⊢; rwa [em] at hq
  have hfp : ¬ (w.ow p).Hidden ∨ w.mem.follow p = [] := by
    rcases ho with ho | ⟨_, ho⟩
    · left; rw [ho]; simp [Owner.Hidden]
    · exact Or.inr ho
  constructor
  · intro q
    rw [em]
    by_cases h1 : q = p
    · subst h1
      have := h.free q
      rw [op]
      rcases ho with ho | ⟨ho, _⟩ <;> rw [ho] at this <;> simpa using this
    · rw [orest q h1]; exact h.free q
  · rw [em]; exact h.klt
  · intro i q hq
    rw [ep] at hq
    by_cases h1 : q = p
    · subst h1; rw [op]; simp [Owner.Hidden]
    · rw [orest q h1]; exact h.pub i q hq
  · intro i y q hy hq
    rw [ei] at hy
    rw [em] at hq
    rw [el]
    rcases h.tab i y q hy hq with h0 | h0
    · exact Or.inl (by rw [orest q (by rintro rfl; exact hnt i h0)]; exact h0)
    · exact Or.inr h0
  · intro q hq
    rw [hf]
    by_cases h1 : q = p
    · subst h1
      rcases hfp with h2 | h2
      · exact h.nd q h2
      · rw [h2]; exact List.nodup_nil
    · rw [orest q h1] at hq; exact h.nd q hq
  · intro q hq c hc
    rw [hf] at hc
    by_cases h1 : q = p
    · subst h1
      rcases hfp with h2 | h2
      · exact hcell c q (h.kid q h2 c hc)
      · rw [h2] at hc; cases hc
    · rw [orest q h1] at hq
      exact hcell c q (h.kid q hq c hc)
  · intro i y a q c hy ha
    rw [ei] at hy
    exact hcell q a (h.abort i y a q c hy (hat ha))
  · intro i y q nd hy hq hr hdead
    rw [ei] at hy
    rw [ed] at hdead
    obtain ⟨z, z1, z2⟩ := h.rem i y q nd hy (hat hq) hr hdead
    exact ⟨z, by rw [em]; exact z1, hcell z q z2⟩
  · intro q
    rw [em]
    by_cases h1 : q = p
    · subst h1; rw [op]; simp
    · rw [orest q h1]
      have := h.trash q
      simp only [List.mem_cons, h1, false_or]; exact this
  · rw [em]
    refine List.nodup_cons.mpr ⟨fun hp => ?_, h.nodup⟩
    have := (h.trash p).mpr hp
    rw [this] at ho
    rcases ho with ho | ⟨ho, _⟩ <;> cases ho
  · intro y i hy
    have h1 : y ≠ p := by rintro rfl; rw [op] at hy; cases hy
    rw [orest y h1] at hy
    rw [em, ei]
    exact h.btab y i hy
  · intro c q hc
    have h1 : c ≠ p := by rintro rfl; rw [op] at hc; cases hc
    rw [orest c h1] at hc
    obtain ⟨b1, b2⟩ := h.bcell c q hc
    refine ⟨?_, ?_⟩
    · by_cases h2 : q = p
      · subst h2; rw [op]; simp [Owner.Hidden]
      · rw [orest q h2]; exact b1
    · rw [em, ed]
      refine b2.imp (fun z => z) ?_
      rintro ⟨i, nd, c1, c2⟩
      have h2 : q ≠ p := by rintro rfl; exact hnt i c1
      exact ⟨i, nd, by rw [orest q h2]; exact c1, c2⟩

/-- Nothing the owners depend on changes. -/
theorem ow_same (h : OwInv w) (eh : w'.mem.heap = w.mem.heap) (ek : w'.mem.kids = w.mem.kids) (eg : w'.mem.garbage = w.mem.garbage)
    (et : ∀ i x, w.info i = some x → w'.mem.table i = w.mem.table i) (ei : w'.info = w.info) (ep : w'.pub = w.pub)
    (ed : w'.dead = w.dead) (el : w'.del = w.del) (eo : w'.ow = w.ow) : OwInv w' := by
  have hf : ∀ q, w'.mem.follow q = w.mem.follow q := by intro q; simp only [Mem.follow, eh, ek]
  have hat : ∀ {i y q nd}, w.info i = some y → w'.At i q nd → w.At i q nd := by
    intro i y q nd hy hq; unfold World.At at hq ⊢; rwa [et i y hy, eh] at hq
  constructor
  · rw [eo, eh]; exact h.free
  · rw [eh, ek]; exact h.klt
  · rw [eo, ep]; exact h.pub
  · intro i y q hy hq
    rw [ei] at hy
    rw [et i y hy] at hq
    rw [eo, el]; exact h.tab i y q hy hq
  · intro q hq; rw [hf]; rw [eo] at hq; exact h.nd q hq
  · intro q hq c hc; rw [hf] at hc; rw [eo] at hq ⊢; exact h.kid q hq c hc
  · intro i y a q c hy ha
    rw [ei] at hy
    rw [eo]; exact h.abort i y a q c hy (hat hy ha)
  · intro i y q nd hy hq hr hd
    rw [ei] at hy
    rw [ed] at hd
    rw [ek, eo]; exact h.rem i y q nd hy (hat hy hq) hr hd
  · rw [eo, eg]; exact h.trash
  · rw [eg]; exact h.nodup
  · intro y i hy
    rw [eo] at hy
    obtain ⟨b1, x, b2⟩ := h.btab y i hy
    exact ⟨by rw [et i x b2]; exact b1, x, by rw [ei]; exact b2⟩
  · intro c q hc
    rw [eo] at hc ⊢
    rw [hf, ek, eh, ed]
    exact h.bcell c q hc

/-! ### Current nodes -/

theorem Inv.not_del (hi : Inv w) {id : NodeId} {p : Ptr} {n : Node K V} (ha : w.At id p n) (hr : n.isRemove = false) : ¬ w.del id :=
  fun hd => hi.not_dead ha hr (hi.dl.dead id hd)

/-- A node that is not removed is owned by its NodeID. -/
theorem Inv.ow_tab (hi : Inv w) {id : NodeId} {x : Option K × Nat} (hx : w.info id = some x) {p : Ptr} {n : Node K V} (ha : w.At id p n)
    (hr : n.isRemove = false) : w.ow p = .tab id :=
  (hi.ow.tab id x p hx ha.1).resolve_right (hi.not_del ha hr)

theorem Node.eff_strip (n : Node K V) : n.strip.eff = n.eff := by
  cases n with
  | leaf c => cases c <;> rfl
  | inner c => cases c <;> rfl

/-- Where a child of a node lies. -/
theorem eff_covers (hi : Inv w) {n : Nat} {i : NodeId} {lk : Option K} (hx : w.info i = some (lk, n)) (hd : ¬ w.dead i) {p : Ptr} {node : Node K V}
    (ha : w.At i p node) {r : NodeId} (hr : r ∈ node.eff) {k : K} {m : Nat} (hk : w.info r = some (some k, m)) :
    n = m + 1 ∧ Covers w n i k := by
  have hb := (hi.at_ok hx ha).2.1
  rw [← Node.eff_strip] at hr
  have hh := Node.strip_high node
  cases hs : node.strip with
  | leaf c => rw [hs] at hr; cases hr
  | inner c =>
    rw [hs] at hb hr hh
    obtain ⟨_, _, _, m', e1, e2, e3⟩ := hb
    simp only at e1 e2 e3
    subst e1
    have hh' : c.high = node.high := hh
    simp only [Node.eff, List.map_cons, List.mem_cons, List.mem_map] at hr
    have key : m' = m ∧ AtLeast lk k ∧ Below c.high k := by
      rcases hr with rfl | ⟨x, hxs, rfl⟩
      · obtain ⟨l, hl⟩ := e3 _ (InnerChain.low_mem_childIds e2)
        have h1 := (InnerChain.WF.low_spec e2).1
        rw [hk] at hl
        cases hl
        simp only [World.lo, hk, Option.map_some, Option.some.injEq] at h1
        subst h1
        exact ⟨rfl, fun l hl => by cases hl; exact le_refl _, InnerChain.WF.lv_below e2 k rfl⟩
      · obtain ⟨l, hl⟩ := e3 _ (InnerChain.seps_mem_childIds e2 x hxs)
        obtain ⟨h1, h2, h3⟩ := (InnerChain.WF.seps_spec e2).2 x hxs
        rw [hk] at hl
        cases hl
        simp only [SepOk, World.lo, hk, Option.map_some, Option.some.injEq] at h1
        subst h1
        exact ⟨rfl, h2.atLeast, h3⟩
    obtain ⟨rfl, k2, k3⟩ := key
    exact ⟨rfl, lk, p, node, hx, hd, ha, k2, hh' ▸ k3⟩

/-! ### Steps -/

section
variable {id : NodeId} {lk : Option K} {l : Nat} {o : Ptr} {old : Node K V} {n : Ptr} {new : Node K V}

/-- An address replaced by a fresh one does not come back. -/
theorem cur_put (hi : Inv w) (hat : w.At id o old) (hn : w.ow n = .mine t) (hh : w.mem.heap n = some new)
    (hab : ∀ q c, new = .inner (.abort q c) → q = o) (em : w'.mem = w.mem.set id n) :
    ∀ i p, w.pub i p → w'.Cur i p → w.Cur i p := by
  intro i p hp hc
  by_cases hne : i = id
  · subst hne
    rcases hc with hc | ⟨a, c, h1, h2⟩
    · rw [em] at hc
      simp only [if_true, Option.some.injEq] at hc
      subst hc
      have := hi.ow.pub i n hp
      rw [hn] at this
      exact absurd trivial this
    · rw [em] at h1 h2
      simp only [if_true, Option.some.injEq] at h1
      subst h1
      have h2' : w.mem.heap n = some (.inner (.abort p c)) := h2
      rw [hh] at h2'
      rw [hab p c (Option.some.inj h2')]
      exact Or.inl hat.1
  · rcases hc with hc | ⟨a, c, h1, h2⟩
    · rw [em] at hc
      simp only [hne, if_false] at hc
      exact Or.inl hc
    · rw [em] at h1 h2
      simp only [hne, if_false] at h1
      exact Or.inr ⟨a, c, h1, h2⟩

theorem privB_put {d : Owner} {xs : List Ptr} (hd : d = .cell n ∨ d = .owed t) (eo : w'.ow = owPut w.ow id n o d xs) :
    ∀ u, u ≠ t → ∀ p, w'.ow p = .owed u → w.ow p = .owed u := by
  intro u hu p hp
  rw [eo] at hp
  unfold owPut at hp
  split at hp
  · cases hp
  · split at hp
    · rcases hd with rfl | rfl <;> cases hp
      exact absurd rfl hu
    · split at hp
      · cases hp
      · exact hp

theorem vis_upd {ow : Ptr → Owner} {q : Ptr} {d : Owner} (hd : ¬ d.Hidden) : ∀ p, ¬ (ow p).Hidden → ¬ (Lin.upd ow q d p).Hidden := by
  intro p hp
  by_cases h : p = q
  · rw [h, Lin.upd_self]; exact hd
  · rw [Lin.upd_ne _ _ h]; exact hp

/-- Putting a record hides nothing. -/
theorem vis_put {ow : Ptr → Owner} {d : Owner} {xs : List Ptr} (hd : ¬ d.Hidden) : ∀ p, ¬ (ow p).Hidden → ¬ (owPut ow id n o d xs p).Hidden := by
  intro p hp
  unfold owPut
  split
  · exact fun h => h
  · split
    · exact hd
    · split
      · exact fun h => h
      · exact hp

/-- Putting a record on top leaves nothing to be retired. -/
theorem owPut_owed {ow : Ptr → Owner} {xs : List Ptr} {u : Tid} {p : Ptr} (hp : owPut ow id n o (.cell n) xs p = .owed u) : ow p = .owed u := by
  unfold owPut at hp
  split at hp
  · cases hp
  · split at hp
    · cases hp
    · split at hp
      · cases hp
      · exact hp

/-- Replacing a node leaves only the old one to be retired. -/
theorem owPut_owed' {ow : Ptr → Owner} {xs : List Ptr} {u v : Tid} {p : Ptr} (hp : owPut ow id n o (.owed v) xs p = .owed u) (hne : p ≠ o) :
    ow p = .owed u := by
  unfold owPut at hp
  split at hp
  · cases hp
  · split at hp
    · cases hp
    · exact hp

theorem Node.clean_facts {n : Node K V} (h : n.clean = true) : n.isAbort = false ∧ n.isRemove = false := by
  cases n with
  | leaf c => cases c <;> first | exact ⟨rfl, rfl⟩ | cases h
  | inner c => cases c <;> first | exact ⟨rfl, rfl⟩ | cases h

theorem priv_put (hn : w.ow n = .mine t) (ho : w.ow o = .tab id) {d : Owner} {xs : List Ptr} (hxs : ∀ x ∈ xs, ∃ q, w.ow x = .cell q)
    (eo : w'.ow = owPut w.ow id n o d xs) : ∀ u, u ≠ t → ∀ p, (w.ow p).Of u → w'.ow p = w.ow p := by
  intro u hu p hp
  have h1 : p ≠ n := by
    rintro rfl
    rw [hn] at hp
    rcases hp with hp | hp <;> cases hp
    exact hu rfl
  have h2 : p ≠ o := by
    rintro rfl
    rw [ho] at hp
    rcases hp with hp | hp <;> cases hp
  have h3 : p ∉ xs := by
    intro h3
    obtain ⟨q, hq⟩ := hxs p h3
    rw [hq] at hp
    rcases hp with hp | hp <;> cases hp
  simp [eo, owPut, h1, h2, h3]

/-- What is gone stays gone when a node is replaced. -/
theorem owPut_gone (hn : w.ow n = .mine t) (ho : w.ow o = .tab id) {d : Owner} {xs : List Ptr} (hxs : ∀ x ∈ xs, ∃ q, w.ow x = .cell q) {p : Ptr}
    (hp : (w.ow p).Gone) : (owPut w.ow id n o d xs p).Gone := by
  have h1 : p ≠ n := by
    rintro rfl
    rw [hn] at hp
    rcases hp with hp | ⟨_, hp⟩ <;> cases hp
  have h2 : p ≠ o := by
    rintro rfl
    rw [ho] at hp
    rcases hp with hp | ⟨_, hp⟩ <;> cases hp
  have h3 : p ∉ xs := by
    intro h3
    obtain ⟨q, hq⟩ := hxs p h3
    rw [hq] at hp
    rcases hp with hp | ⟨_, hp⟩ <;> cases hp
  have : owPut w.ow id n o d xs p = w.ow p := by simp [owPut, h1, h2, h3]
  rwa [this]

/-- Only the new node becomes visible when a node is replaced. -/
theorem owPut_vis (ho : w.ow o = .tab id) {d : Owner} {xs : List Ptr} (hxs : ∀ x ∈ xs, ∃ q, w.ow x = .cell q) {p : Ptr} (hp : p ≠ n)
    (hv : ¬ (owPut w.ow id n o d xs p).Hidden) : ¬ (w.ow p).Hidden := by
  by_cases h2 : p = o
  · subst h2; rw [ho]; exact fun h => h
  · by_cases h3 : p ∈ xs
    · obtain ⟨q, hq⟩ := hxs p h3
      rw [hq]; exact fun h => h
    · have : owPut w.ow id n o d xs p = w.ow p := by simp [owPut, hp, h2, h3]
      rwa [this] at hv

/-- Replacing a node, without what concerns delete records. -/
theorem put_core (hi : Inv w) (h : PutOK w id lk l o old n new) (hcl : old.clean = true) (hn : w.ow n = .mine t) {d : Owner} (hd : d = .cell n ∨ d = .owed t)
    (hf : ∀ c ∈ w.mem.follow n, c = o ∧ d = .cell n) (hnd : (w.mem.follow n).Nodup)
    (hab : ∀ q c, new = .inner (.abort q c) → q = o ∧ d = .cell n) (hrem : new.isRemove = true → w.mem.kids n = [o] ∧ d = .cell n)
    (hfo : d = .cell n → o ∈ w.mem.follow n ∨ (o ∈ w.mem.kids n ∧ (new.isAbort = true ∨ new.isRemove = true)))
    (heff : ∀ r ∈ new.eff, r ∈ old.eff ∨ ¬ w.del r) (lock : NodeId → Option Tid) {w' : World K V}
    (ew : w' = w.put id n lock (owPut w.ow id n o d [], w.del)) :
    OwInv w' ∧ (∀ r, w.del r → ∀ n id p node, Live w' n id → w'.At id p node → r ∉ node.eff) ∧ GMono w w' ∧
    (∀ u, u ≠ t → ∀ p, (w.ow p).Of u → w'.ow p = w.ow p) ∧ ∀ u, u ≠ t → ∀ p, w'.ow p = .owed u → w.ow p = .owed u := by
  subst ew
  have ho := hi.ow_tab h.info h.at_ h.notRemoved
  have hold := Node.clean_facts hcl
  refine ⟨?_, ?_, ⟨fun _ _ _ => rfl, ?_, fun _ h => h, fun _ _ _ _ h => Or.inl h,
    vis_put (by rcases hd with rfl | rfl <;> exact fun h => h)⟩, ?_, privB_put hd rfl⟩
  · exact ow_put hi.ow h.info hn ho h.heap hd (fun c hc => Or.inl (hf c hc)) hnd (fun x hx => by cases hx) hab hrem
      (fun nd e => by rw [h.at_.2] at e; cases e; exact hold)
      (fun e => (hfo e).imp (fun z => z) fun z => ⟨z.1, z.2.imp (fun z => z) fun z => ⟨z, hi.not_dead h.at_ h.notRemoved⟩⟩)
      (fun x hx => by cases hx) (fun _ _ e _ => Or.inl e) rfl rfl
      (fun _ _ h => h) (fun _ h => h) rfl rfl
  · intro r hr m i p node hl ha hmem
    by_cases hne : i = id
    · subst hne
      obtain ⟨_, e⟩ := World.put_at.mp ha
      rw [h.heap] at e
      cases e
      rcases heff r hmem with h1 | h1
      · exact hi.dl.sep r hr m i o old hl h.at_ h1
      · exact h1 hr
    · exact hi.dl.sep r hr m i p node hl ((World.put_at_ne hne).mp ha) hmem
  · exact cur_put hi h.at_ hn h.heap (fun q c e => (hab q c e).1) rfl
  · exact priv_put hn ho (fun x hx => by cases hx) rfl

theorem NodeOK.splits {id : NodeId} {lk : Option K} {n : Nat} {node : Node K V} (h : NodeOK w id lk n node) {r : NodeId} (hs : node.splits = some r) :
    ∃ x, w.info r = some x := by
  cases node with
  | leaf c =>
    cases c with
    | split sk i sib d =>
      cases hs
      obtain ⟨h1, _, _, _, h2, _⟩ := h.1
      rcases h1 with h1 | h1
      · exact absurd h1 h2.2.2.1
      · exact ⟨_, h1⟩
    | _ => cases hs
  | inner c =>
    cases c with
    | split item sib d =>
      cases hs
      obtain ⟨_, _, _, m, _, h2, _⟩ := h.1
      have h3 : w.lo item.2 = some (some item.1) := h2.2.2.1
      unfold World.lo at h3
      cases h4 : w.info item.2 with
      | none => rw [h4] at h3; cases h3
      | some x => exact ⟨x, rfl⟩
    | _ => cases hs

theorem Node.remove_of_id {n : Node K V} {r : NodeId} (h : n.removedId = some r) : n.isRemove = true := by
  cases n with
  | leaf c => cases c <;> first | rfl | cases h
  | inner c => cases c <;> first | rfl | cases h

theorem Node.no_id {n : Node K V} (h : n.isRemove = false) : n.removedId = none := by
  cases e : n.removedId with
  | none => rfl
  | some r => rw [Node.remove_of_id e] at h; cases h

/-- Mapping another record at a node that is not removed. -/
theorem Rmv.put {w' : World K V} {p : Ptr} {r : NodeId} {nd : Node K V} (h : Rmv w p r) (hp : w.mem.heap p = some nd) (hr : nd.removedId = some r)
    (hat : w.At id o old) (hn : old.isRemove = false) (hne : p ≠ n) (hinfo : w'.info = w.info) (hmem : w'.mem = w.mem.set id n)
    (hown : w'.own = w.own) : Rmv w' p r := by
  obtain ⟨h3, h⟩ := h
  refine ⟨fun i x hx hi => ?_, ?_⟩
  · rw [hinfo] at hx
    rw [hmem] at hi
    by_cases e : i = id
    · subst e
      have : n = p := by simpa [Mem.set] using hi
      exact absurd this.symm hne
    · exact h3 i x hx (by simpa [Mem.set, e] using hi)
  rcases h with ⟨h1, h2⟩ | h
  · have hri : r ≠ id := by
      rintro rfl
      obtain ⟨_, e⟩ := At.unique hat ⟨h2, hp⟩
      rw [e, Node.remove_of_id hr] at hn
      cases hn
    left
    rw [hinfo, hmem]
    exact ⟨h1, by simpa [Mem.set, hri] using h2⟩
  · right
    rw [hinfo, hmem, hown]
    exact h

/-- The new record marks the node removed. -/
theorem Rmv.fresh (hi : Inv w) {w' : World K V} (hx : w.info id = some (lk, l)) (hn : w.ow n = .mine t) (hinfo : w'.info = w.info)
    (hmem : w'.mem = w.mem.set id n) : Rmv w' n id := by
  refine ⟨fun i x hx hi' => ?_, Or.inl ⟨⟨_, by rw [hinfo]; exact hx⟩, by rw [hmem]; simp [Mem.set]⟩⟩
  rw [hinfo] at hx
  rw [hmem] at hi'
  by_cases e : i = id
  · exact e
  · have hi'' : w.mem.table i = some n := by simpa [Mem.set, e] using hi'
    rcases hi.ow.tab i x n hx hi'' with h1 | h1
    · rw [hn] at h1; cases h1
    · have := hi.dl.gone i n h1 hi''
      rw [hn] at this
      rcases this with h | ⟨_, h⟩ <;> cases h

theorem Node.splits_high {n : Node K V} {r : NodeId} (hs : n.splits = some r) : n.high.2 = r := by
  cases n with
  | leaf c => cases c <;> first | (cases hs; rfl) | cases hs
  | inner c => cases c <;> first | (cases hs; rfl) | cases hs

theorem Node.base_splits {n : Node K V} (hb : n.isBase = true) : n.splits = none := by
  cases n with
  | leaf c => cases c <;> first | rfl | cases hb
  | inner c => cases c <;> first | rfl | cases hb

theorem Node.merge_splits {n : Node K V} (hb : n.isMerge = true) : n.splits = none := by
  cases n with
  | leaf c => cases c <;> first | rfl | cases hb
  | inner c => cases c <;> first | rfl | cases hb

/-- Replacing a node. -/
theorem gok_put (hi : Inv w) (h : PutOK w id lk l o old n new) (hcl : old.clean = true) (hn : w.ow n = .mine t) {d : Owner} (hd : d = .cell n ∨ d = .owed t)
    (hf : ∀ c ∈ w.mem.follow n, c = o ∧ d = .cell n) (hnd : (w.mem.follow n).Nodup)
    (hab : ∀ q c, new = .inner (.abort q c) → q = o ∧ d = .cell n) (hrem : new.isRemove = true → w.mem.kids n = [o] ∧ d = .cell n)
    (hfo : d = .cell n → o ∈ w.mem.follow n ∨ (o ∈ w.mem.kids n ∧ (new.isAbort = true ∨ new.isRemove = true)))
    (heff : ∀ r ∈ new.eff, r ∈ old.eff ∨ ¬ w.del r) (hdl : new.deletes = none) (hrm : ∀ r, new.removedId = some r → r = id) (lock : NodeId → Option Tid) :
    GOK t w (w.put id n lock (owPut w.ow id n o d [], w.del)) := by
  obtain ⟨h1, h2, h3, h4, h5⟩ := put_core hi h hcl hn hd hf hnd hab hrem hfo heff lock rfl
  have ho := hi.ow_tab h.info h.at_ h.notRemoved
  refine ⟨h1, ⟨hi.dl.dead, hi.dl.top, h2, ?_, ?_, ?_, ?_⟩, h3, h4, h5⟩
  · intro p nd r hp hv hr
    by_cases e : p = n
    · subst e
      have hp' : w.mem.heap p = some nd := hp
      rw [h.heap] at hp'
      cases hp'
      rw [hdl] at hr
      cases hr
    · exact hi.dl.recs p nd r hp (owPut_vis ho (fun x hx => by cases hx) e hv) hr
  · intro r p hr hp
    have hne : r ≠ id := by rintro rfl; exact hi.not_dead h.at_ h.notRemoved (hi.dl.dead _ hr)
    exact owPut_gone hn ho (fun x hx => by cases hx) (hi.dl.gone r p hr (by simpa [World.put, hne] using hp))
  · intro p nd r hp hv hr
    by_cases e : p = n
    · subst e
      have hp' : w.mem.heap p = some nd := hp
      rw [h.heap] at hp'
      cases hp'
      rw [hrm r hr]
      exact Rmv.fresh hi h.info hn rfl rfl
    · exact (hi.dl.rmv p nd r hp (owPut_vis ho (fun x hx => by cases hx) e hv) hr).put hp hr h.at_ h.notRemoved e rfl rfl rfl
  · intro p nd r hp hv hr
    by_cases e : p = n
    · subst e
      have hp' : w.mem.heap p = some nd := hp
      rw [h.heap] at hp'
      cases hp'
      exact h.ok.splits hr
    · exact hi.dl.spl p nd r hp (owPut_vis ho (fun x hx => by cases hx) e hv) hr

/-- What is below a delta record. -/
theorem delta_below (h : OwInv w) (hp : w.mem.heap n = some new) (hm : new.isMerge = false) (hk : w.mem.kids n = [o]) :
    o ∈ w.mem.follow n ∨ (o ∈ w.mem.kids n ∧ (new.isAbort = true ∨ new.isRemove = true)) := by
  cases hb : (new.isBase || new.isRemove || new.isAbort) with
  | false => left; simp [Mem.follow, hp, hb, hm, hk]
  | true =>
    right
    refine ⟨by rw [hk]; simp, ?_⟩
    simp only [Bool.or_eq_true] at hb
    rcases hb with (hb | hb) | hb
    · have := (h.klt n new hp).1
      rw [hk] at this
      cases new with
      | leaf c => cases c <;> first | (cases this; done) | cases hb
      | inner c => cases c <;> first | (cases this; done) | cases hb
    · exact Or.inr hb
    · exact Or.inl hb

/-- A delta record on top, without what concerns delete records. -/
theorem delta_core (hi : Inv w) (h : PutOK w id lk l o old n new) (hcl : old.clean = true) (hn : w.ow n = .mine t) (hk : w.mem.kids n = [o]) (hm : new.isMerge = false)
    (hab : ∀ q c, new = .inner (.abort q c) → q = o) (heff : ∀ r ∈ new.eff, r ∈ old.eff ∨ ¬ w.del r) (lock : NodeId → Option Tid) {w' : World K V}
    (ew : w' = w.put id n lock (owPut w.ow id n o (.cell n) [], w.del)) :
    OwInv w' ∧ (∀ r, w.del r → ∀ n id p node, Live w' n id → w'.At id p node → r ∉ node.eff) ∧ GMono w w' ∧
    (∀ u, u ≠ t → ∀ p, (w.ow p).Of u → w'.ow p = w.ow p) ∧ ∀ u, u ≠ t → ∀ p, w'.ow p = .owed u → w.ow p = .owed u := by
  refine put_core hi h hcl hn (Or.inl rfl) ?_ ?_ (fun q c e => ⟨hab q c e, rfl⟩) (fun _ => ⟨hk, rfl⟩) (fun _ => delta_below hi.ow h.heap hm hk) heff lock ew
  · intro c hc
    rcases follow_delta h.heap hm hk with e | e
    · rw [e] at hc; cases hc
    · rw [e] at hc; exact ⟨List.mem_singleton.mp hc, rfl⟩
  · rcases follow_delta h.heap hm hk with e | e <;> rw [e] <;> simp

/-- A delta record on top. -/
theorem gok_delta (hi : Inv w) (h : PutOK w id lk l o old n new) (hcl : old.clean = true) (hn : w.ow n = .mine t) (hk : w.mem.kids n = [o]) (hm : new.isMerge = false)
    (hab : ∀ q c, new = .inner (.abort q c) → q = o) (heff : ∀ r ∈ new.eff, r ∈ old.eff ∨ ¬ w.del r) (hdl : new.deletes = none) (hrm : ∀ r, new.removedId = some r → r = id) (lock : NodeId → Option Tid) :
    GOK t w (w.put id n lock (owPut w.ow id n o (.cell n) [], w.del)) := by
  refine gok_put hi h hcl hn (Or.inl rfl) ?_ ?_ (fun q c e => ⟨hab q c e, rfl⟩) (fun _ => ⟨hk, rfl⟩) (fun _ => delta_below hi.ow h.heap hm hk) heff hdl hrm lock
  · intro c hc
    rcases follow_delta h.heap hm hk with e | e
    · rw [e] at hc; cases hc
    · rw [e] at hc; exact ⟨List.mem_singleton.mp hc, rfl⟩
  · rcases follow_delta h.heap hm hk with e | e <;> rw [e] <;> simp

theorem Node.base_deletes {n : Node K V} (hb : n.isBase = true) : n.deletes = none := by
  cases n with
  | leaf c => rfl
  | inner c => cases c <;> first | rfl | cases hb

theorem Node.merge_deletes {n : Node K V} (hb : n.isMerge = true) : n.deletes = none := by
  cases n with
  | leaf c => rfl
  | inner c => cases c <;> first | rfl | cases hb

theorem Node.base_facts {n : Node K V} (hb : n.isBase = true) : n.isRemove = false ∧ ∀ q c, n ≠ .inner (.abort q c) := by
  constructor
  · cases n with
    | leaf c => cases c <;> first | rfl | cases hb
    | inner c => cases c <;> first | rfl | cases hb
  · rintro q c rfl; cases hb

/-- A new base node. -/
theorem gok_base (hi : Inv w) (h : PutOK w id lk l o old n new) (hcl : old.clean = true) (hn : w.ow n = .mine t) (hb : new.isBase = true)
    (heff : ∀ r ∈ new.eff, r ∈ old.eff ∨ ¬ w.del r) (lock : NodeId → Option Tid) :
    GOK t w (w.put id n lock (owPut w.ow id n o (.owed t) [], w.del)) := by
  obtain ⟨b1, b2⟩ := Node.base_facts hb
  refine gok_put hi h hcl hn (Or.inr rfl) ?_ ?_ (fun q c e => absurd e (b2 q c)) (fun e => by rw [b1] at e; cases e) (fun e => by cases e) heff (Node.base_deletes hb) (fun r e => by rw [Node.no_id b1] at e; cases e) lock
  · intro c hc; rw [follow_base h.heap hb] at hc; cases hc
  · rw [follow_base h.heap hb]; exact List.nodup_nil

/-- The owner of the replaced address afterwards. -/
theorem owPut_old {ow : Ptr → Owner} {d : Owner} {xs : List Ptr} (hn : ow n = .mine t) (ho : ow o = .tab id) : owPut ow id n o d xs o = d := by
  have : o ≠ n := by rintro rfl; rw [hn] at ho; cases ho
  simp [owPut, this]

/-- Taking away an abort record. -/
theorem gok_unlock {a : Ptr} {c : InnerChain K} (hi : Inv w) (h : PutOK w id lk l a (.inner (.abort o c)) o (.inner c))
    (hc : (Node.inner c : Node K V).clean = true) (lock : NodeId → Option Tid) :
    GOK t w (w.put id o lock (Lin.upd (Lin.upd w.ow a (.owed t)) o (.tab id), w.del)) := by
  have ha := hi.ow_tab h.info h.at_ rfl
  have ho := hi.ow.abort _ _ _ _ _ h.info h.at_
  refine ⟨?_, ⟨hi.dl.dead, hi.dl.top, ?_, ?_, ?_, ?_, ?_⟩, ⟨fun _ _ _ => rfl, ?_, fun _ h => h, fun _ _ _ _ h => Or.inl h,
    fun p hp => vis_upd (by exact fun h => h) p (vis_upd (by exact fun h => h) p hp)⟩, ?_, ?_⟩
  · exact ow_unlock hi.ow (fun i hd => hi.dead i (hi.dl.dead i hd)) h.info h.at_ ha h.heap hc rfl rfl (fun _ _ h => h) rfl rfl rfl
  · intro r hr m i p node hl hat hmem
    by_cases hne : i = id
    · subst hne
      obtain ⟨_, e⟩ := World.put_at.mp hat
      rw [h.heap] at e
      cases e
      exact hi.dl.sep r hr m i a _ hl h.at_ hmem
    · exact hi.dl.sep r hr m i p node hl ((World.put_at_ne hne).mp hat) hmem
  · intro p nd r hp hv hr
    have hv' : ¬ (Lin.upd (Lin.upd w.ow a (.owed t)) o (.tab id) p).Hidden := hv
    refine hi.dl.recs p nd r hp ?_ hr
    by_cases h2 : p = o
    · subst h2; rw [ho]; exact fun h => h
    · by_cases h1 : p = a
      · subst h1; rw [ha]; exact fun h => h
      · rwa [Lin.upd_ne _ _ h2, Lin.upd_ne _ _ h1] at hv'
  · intro r p hr hp
    have hne : r ≠ id := by rintro rfl; exact hi.not_dead h.at_ rfl (hi.dl.dead _ hr)
    have hg := hi.dl.gone r p hr (by simpa [World.put, hne] using hp)
    have h1 : p ≠ a := by
      rintro rfl
      rw [ha] at hg
      rcases hg with hg | ⟨_, hg⟩ <;> cases hg
    have h2 : p ≠ o := by
      rintro rfl
      rw [ho] at hg
      rcases hg with hg | ⟨_, hg⟩ <;> cases hg
    show (Lin.upd (Lin.upd w.ow a (.owed t)) o (.tab id) p).Gone
    rwa [Lin.upd_ne _ _ h2, Lin.upd_ne _ _ h1]
  · intro p nd r hp hv hr
    have hv' : ¬ (Lin.upd (Lin.upd w.ow a (.owed t)) o (.tab id) p).Hidden := hv
    have hp' : w.mem.heap p = some nd := hp
    by_cases h2 : p = o
    · subst h2
      rw [h.heap] at hp'
      cases hp'
      rw [Node.no_id (Node.not_remove_of_clean hc)] at hr
      cases hr
    · refine (hi.dl.rmv p nd r hp ?_ hr).put hp hr h.at_ h.notRemoved h2 rfl rfl rfl
      by_cases h1 : p = a
      · subst h1; rw [ha]; exact fun h => h
      · rwa [Lin.upd_ne _ _ h2, Lin.upd_ne _ _ h1] at hv'
  · intro p nd r hp hv hr
    have hv' : ¬ (Lin.upd (Lin.upd w.ow a (.owed t)) o (.tab id) p).Hidden := hv
    refine hi.dl.spl p nd r hp ?_ hr
    by_cases h2 : p = o
    · subst h2; rw [ho]; exact fun h => h
    · by_cases h1 : p = a
      · subst h1; rw [ha]; exact fun h => h
      · rwa [Lin.upd_ne _ _ h2, Lin.upd_ne _ _ h1] at hv'
  · intro i p hp hcur
    by_cases hne : i = id
    · subst hne
      rcases hcur with hcur | ⟨b, d, hb⟩
      · have : o = p := by simpa [World.put] using hcur
        subst this
        exact Or.inr ⟨a, c, h.at_⟩
      · obtain ⟨rfl, e⟩ := World.put_at.mp hb
        rw [h.heap] at e
        cases e
        cases hc
    · rcases hcur with hcur | ⟨b, d, hb⟩
      · exact Or.inl (by simpa [World.put, hne] using hcur)
      · exact Or.inr ⟨b, d, (World.put_at_ne hne).mp hb⟩
  · intro u hu p hp
    have h1 : p ≠ a := by
      rintro rfl
      rw [ha] at hp
      rcases hp with hp | hp <;> cases hp
    have h2 : p ≠ o := by
      rintro rfl
      rw [ho] at hp
      rcases hp with hp | hp <;> cases hp
    show Lin.upd (Lin.upd w.ow a (.owed t)) o (.tab id) p = w.ow p
    rw [Lin.upd_ne _ _ h2, Lin.upd_ne _ _ h1]
  · intro u hu p hp
    have hp' : Lin.upd (Lin.upd w.ow a (.owed t)) o (.tab id) p = .owed u := hp
    by_cases h2 : p = o
    · subst h2; rw [Lin.upd_self] at hp'; cases hp'
    · rw [Lin.upd_ne _ _ h2] at hp'
      by_cases h1 : p = a
      · subst h1; rw [Lin.upd_self] at hp'; cases hp'; exact absurd rfl hu
      · rwa [Lin.upd_ne _ _ h1] at hp'

/-- Deleting the separator of the merged node `r`. -/
theorem gok_del (hi : Inv w) (h : PutOK w id lk (l + 1) o old n new) (hc : old.clean = true) (hn : w.ow n = .mine t) (hk : w.mem.kids n = [o])
    (hm : new.isMerge = false) (hab : ∀ q c, new ≠ .inner (.abort q c)) {r : NodeId} {k : K} {p : Ptr} (hr : w.info r = some (some k, l)) (hdead : w.dead r)
    (htab : w.mem.table r = some p) (hsub : ∀ i ∈ new.eff, i ∈ old.eff) (hold : r ∈ old.eff) (hnew : r ∉ new.eff) (hdl : new.deletes = some r)
    (hab2 : Above lk k) (hbl : Below old.high k) (lock : NodeId → Option Tid) :
    GOK t w (w.put id n lock (Lin.upd (owPut w.ow id n o (.cell n) []) p (.owed t), fun i => w.del i ∨ i = r)) := by
  obtain ⟨g1, g2, g3, g4, g5⟩ := delta_core hi h hc hn hk hm (fun q c e => absurd e (hab q c)) (fun i hm => Or.inl (hsub i hm)) lock rfl
  have ho := hi.ow_tab h.info h.at_ h.notRemoved
  have hnd : ¬ w.dead id := hi.not_dead h.at_ h.notRemoved
  have hnr : ¬ w.del r := fun hd => hi.dl.sep r hd _ id o old ⟨⟨lk, h.info⟩, hnd⟩ h.at_ hold
  have hp : w.ow p = .tab r := (hi.ow.tab r _ p hr htab).resolve_right hnr
  have hne : r ≠ id := by rintro rfl; exact hnd hdead
  have hpn : p ≠ n := by rintro rfl; rw [hn] at hp; cases hp
  have hpo : p ≠ o := by rintro rfl; rw [ho] at hp; cases hp; exact hne rfl
  have hp' : owPut w.ow id n o (.cell n) [] p = .tab r := by simp [owPut, hpn, hpo, hp]
  have hcov : Covers w (l + 1) id k := ⟨lk, o, old, h.info, hnd, h.at_, hab2.atLeast, hbl⟩
  obtain ⟨_, rp, rn, _, hrat, hrr⟩ := hi.dead r hdead
  have erp : rp = p := Option.some.inj (hrat.1.symm.trans htab)
  subst erp
  have hnid : new.removedId = none := by
    cases new with
    | leaf c => cases hdl
    | inner c => cases c <;> first | rfl | cases hdl
  refine ⟨?_, ⟨?_, ?_, ?_, ?_, ?_, ?_, ?_⟩, ⟨fun _ _ _ => rfl, g3.cur, fun _ h => Or.inl h, ?_,
    fun p hp => vis_upd (by exact fun h => h) p (vis_put (by exact fun h => h) p hp)⟩, ?_, ?_⟩
  · exact ow_del g1 (r := r) (p := rp) (t := t) hdead hp' (by simpa [World.put, hne] using htab) (nd0 := rn) hrat.2 hrr rfl rfl rfl rfl (fun _ => Iff.rfl) rfl
  · rintro i (hd | rfl)
    · exact hi.dl.dead i hd
    · exact hdead
  · rintro i (hd | rfl)
    · exact hi.dl.top i hd
    · exact ⟨_, _, id, lk, hr, h.info⟩
  · rintro i (hd | rfl) m j q node hl ha hmem
    · exact g2 i hd m j q node hl ha hmem
    · by_cases hj : j = id
      · subst hj
        obtain ⟨_, e⟩ := World.put_at.mp ha
        rw [h.heap] at e
        cases e
        exact hnew hmem
      · obtain ⟨⟨lj, hlj⟩, hdj⟩ := hl
        obtain ⟨e, hcj⟩ := eff_covers hi hlj hdj ((World.put_at_ne hj).mp ha) hmem hr
        subst e
        exact hj (hi.disj _ _ _ k hcj hcov)
  · intro q nd i hq hv hdi
    have hv' : ¬ (Lin.upd (owPut w.ow id n o (.cell n) []) rp (.owed t) q).Hidden := hv
    by_cases e : q = n
    · subst e
      have hq' : w.mem.heap q = some nd := hq
      rw [h.heap] at hq'
      cases hq'
      exact Or.inr (Option.some.inj (hdi.symm.trans hdl))
    · left
      refine hi.dl.recs q nd i hq ?_ hdi
      by_cases e1 : q = rp
      · subst e1; rw [hp]; exact fun h => h
      · rw [Lin.upd_ne _ _ e1] at hv'
        exact owPut_vis ho (fun x hx => by cases hx) e hv'
  · rintro i q (hd | rfl) hq
    · have hni : i ≠ id := by rintro rfl; exact hnd (hi.dl.dead _ hd)
      have hgn := hi.dl.gone i q hd (by simpa [World.put, hni] using hq)
      have e1 : q ≠ rp := by
        rintro rfl
        rw [hp] at hgn
        rcases hgn with hgn | ⟨_, hgn⟩ <;> cases hgn
      show (Lin.upd (owPut w.ow id n o (.cell n) []) rp (.owed t) q).Gone
      rw [Lin.upd_ne _ _ e1]
      exact owPut_gone hn ho (fun x hx => by cases hx) hgn
    · have : q = rp := Option.some.inj ((by simpa [World.put, hne] using hq : w.mem.table i = some q).symm.trans htab)
      subst this
      show (Lin.upd (owPut w.ow id n o (.cell n) []) q (.owed t) q).Gone
      rw [Lin.upd_self]
      exact Or.inr ⟨t, rfl⟩
  · intro q nd i hq hv hsi
    have hv' : ¬ (Lin.upd (owPut w.ow id n o (.cell n) []) rp (.owed t) q).Hidden := hv
    by_cases e : q = n
    · subst e
      have hq' : w.mem.heap q = some nd := hq
      rw [h.heap] at hq'
      cases hq'
      rw [hnid] at hsi
      cases hsi
    · refine (hi.dl.rmv q nd i hq ?_ hsi).put hq hsi h.at_ h.notRemoved e rfl rfl rfl
      by_cases e1 : q = rp
      · subst e1; rw [hp]; exact fun h => h
      · rw [Lin.upd_ne _ _ e1] at hv'
        exact owPut_vis ho (fun x hx => by cases hx) e hv'
  · intro q nd i hq hv hsi
    have hv' : ¬ (Lin.upd (owPut w.ow id n o (.cell n) []) rp (.owed t) q).Hidden := hv
    by_cases e : q = n
    · subst e
      have hq' : w.mem.heap q = some nd := hq
      rw [h.heap] at hq'
      cases hq'
      exact h.ok.splits hsi
    · refine hi.dl.spl q nd i hq ?_ hsi
      by_cases e1 : q = rp
      · subst e1; rw [hp]; exact fun h => h
      · rw [Lin.upd_ne _ _ e1] at hv'
        exact owPut_vis ho (fun x hx => by cases hx) e hv'
  · intro i k' m hi' hd
    rcases hd with hd | rfl
    · exact Or.inl hd
    right
    rw [hr] at hi'
    cases hi'
    intro j lj q c hj hpub hq hcl hab' hbl' hcur
    have hcur' := g3.cur j q hpub hcur
    have hcj : Covers w (l + 1) j k := by
      rcases hcur' with hcur' | ⟨a, d, hcur'⟩
      · exact ⟨lj, q, _, hj, hi.not_dead ⟨hcur', hq⟩ (Node.not_remove_of_clean hcl), ⟨hcur', hq⟩, hab'.atLeast, hbl'⟩
      · have := ((hi.at_ok hj hcur').2.2 q d rfl).2
        rw [hq] at this
        cases this
        exact ⟨lj, a, _, hj, hi.not_dead hcur' rfl, hcur', hab'.atLeast, hbl'⟩
    have := hi.disj _ _ _ k hcj hcov
    subst this
    rcases hcur with hcur | ⟨a, d, hcur⟩
    · have : n = q := by simpa [World.put] using hcur
      subst this
      have := hi.ow.pub j n hpub
      rw [hn] at this
      exact this trivial
    · obtain ⟨_, e⟩ := World.put_at.mp hcur
      rw [h.heap] at e
      exact hab q d (Option.some.inj e)
  · intro u hu q hq
    have h1 : q ≠ rp := by
      rintro rfl
      rw [hp] at hq
      rcases hq with hq | hq <;> cases hq
    show Lin.upd (owPut w.ow id n o (.cell n) []) rp (.owed t) q = w.ow q
    rw [Lin.upd_ne _ _ h1]
    exact g4 u hu q hq
  · intro u hu q hq
    have hq' : Lin.upd (owPut w.ow id n o (.cell n) []) rp (.owed t) q = .owed u := hq
    by_cases h1 : q = rp
    · subst h1; rw [Lin.upd_self] at hq'; cases hq'; exact absurd rfl hu
    · rw [Lin.upd_ne _ _ h1] at hq'
      exact owPut_owed hq'

/-- A split. -/
theorem gok_split (hi : Inv w) {newId : NodeId} {s : Ptr} {sib : Node K V} {sk : K} (hx : w.info id = some (lk, l)) (hat : w.At id o old)
    (hcl : old.clean = true) (hh : w.mem.heap n = some new) (hown : w.own newId = some t) (hs : w.At newId s sib) (hsb : sib.isBase = true)
    (hn : w.ow n = .mine t) (hos : w.ow s = .mine t) (hns : n ≠ s) (hk : w.mem.kids n = [o]) (hm : new.isMerge = false) (hnr : new.isRemove = false)
    (hab : ∀ q c, new ≠ .inner (.abort q c)) (h1 : ∀ r ∈ new.eff, r ∈ old.eff) (h2 : ∀ r ∈ sib.eff, r ∈ old.eff)
    (hdl : new.deletes = none) (hhi : new.high = (sk, newId)) :
    GOK t w (w.split id n newId s sk l (owPut (Lin.upd w.ow s (.tab newId)) id n o (.cell n) [], w.del)) := by
  have hr := Node.not_remove_of_clean hcl
  have ho := hi.ow_tab hx hat hr
  have hinfo := (hi.own _ _ hown).1
  have hne : id ≠ newId := by rintro rfl; rw [hinfo] at hx; cases hx
  have hso : o ≠ s := by rintro rfl; rw [hos] at ho; cases ho
  have hpub : OwInv { w with ow := Lin.upd w.ow s (.tab newId), info := Lin.upd w.info newId (some (some sk, l)), pub := fun i p => w.pub i p ∨ (i = newId ∧ p = s) } :=
    ow_publish hi.ow (id := newId) (s := s) hinfo hos hs hsb ⟨_, Lin.upd_self _ _ _⟩ rfl rfl rfl rfl (fun i hi => Lin.upd_ne _ _ hi) (fun _ _ h => h) rfl rfl rfl
  have hn' : Lin.upd w.ow s (.tab newId) n = .mine t := by rw [Lin.upd_ne _ _ hns]; exact hn
  have ho' : Lin.upd w.ow s (.tab newId) o = .tab id := by rw [Lin.upd_ne _ _ hso]; exact ho
  have hlive : ∀ {m i}, i ≠ newId → Live (w.split id n newId s sk l (owPut (Lin.upd w.ow s (.tab newId)) id n o (.cell n) [], w.del)) m i → Live w m i := by
    rintro m i hi ⟨⟨x, hx⟩, hd⟩
    have hx' : Lin.upd w.info newId (some (some sk, l)) i = some (x, m) := hx
    rw [Lin.upd_ne _ _ hi] at hx'
    exact ⟨⟨x, hx'⟩, hd⟩
  have hl0 : Live w l id := ⟨⟨lk, hx⟩, hi.not_dead hat hr⟩
  refine ⟨?_, ⟨hi.dl.dead, ?_, ?_, ?_, ?_, ?_, ?_⟩, ⟨fun _ _ _ => rfl, ?_, fun _ h => h, fun _ _ _ _ h => Or.inl h,
    fun p hp => vis_put (by exact fun h => h) p (vis_upd (by exact fun h => h) p hp)⟩, ?_, ?_⟩
  · refine ow_put (t := t) (id := id) (o := o) (n := n) (new := new) (xs := []) (d := .cell n) (x := (lk, l)) hpub ?_ hn' ho' hh (Or.inl rfl) ?_ ?_ (fun x hx => by cases hx)
      (fun q c e => absurd e (hab q c)) (fun e => by rw [hnr] at e; cases e)
      (fun nd e => by rw [show w.mem.heap o = some old from hat.2] at e; cases e; exact Node.clean_facts hcl) (fun _ => ?_)
      (fun x hx => by cases hx) (fun _ _ e _ => Or.inl e) rfl rfl ?_ (fun _ h => h) rfl rfl
    · exact (Lin.upd_ne _ _ hne).trans hx
    · intro c hc
      rcases follow_delta hh hm hk with e | e
      · have hc' : c ∈ w.mem.follow n := hc
        rw [e] at hc'; cases hc'
      · have hc' : c ∈ w.mem.follow n := hc
        rw [e] at hc'; exact Or.inl ⟨List.mem_singleton.mp hc', rfl⟩
    · show (w.mem.follow n).Nodup
      rcases follow_delta hh hm hk with e | e <;> rw [e] <;> simp
    · rcases delta_below hi.ow hh hm hk with e | ⟨_, e | e⟩
      · exact Or.inl e
      · cases new with
        | leaf c => cases e
        | inner c => cases c <;> first | exact absurd rfl (hab _ _) | cases e
      · rw [hnr] at e; cases e
    · rintro i p (hp | hp | hp)
      · exact Or.inl (Or.inl hp)
      · exact Or.inr hp
      · exact Or.inl (Or.inr hp)
  · intro r hd
    obtain ⟨a, b, c, d, e1, e2⟩ := hi.dl.top r hd
    have hn : ∀ {i x}, w.info i = some x → Lin.upd w.info newId (some (some sk, l)) i = some x := by
      intro i x hx
      rw [Lin.upd_ne _ _ (by rintro rfl; rw [hinfo] at hx; cases hx)]; exact hx
    exact ⟨a, b, c, d, hn e1, hn e2⟩
  · intro r hd m i p node hl ha hmem
    by_cases hi' : i = newId
    · subst hi'
      have ha' : w.At i p node := by
        obtain ⟨a1, a2⟩ := ha
        refine ⟨?_, a2⟩
        simpa [World.split, hne.symm] using a1
      obtain ⟨_, rfl⟩ := At.unique ha' hs
      exact hi.dl.sep r hd l id o old hl0 hat (h2 r hmem)
    · by_cases hi2 : i = id
      · subst hi2
        obtain ⟨a1, a2⟩ := ha
        have e : n = p := by simpa [World.split] using a1
        subst e
        have a2' : w.mem.heap n = some node := a2
        rw [hh] at a2'
        cases a2'
        exact hi.dl.sep r hd l i o old hl0 hat (h1 r hmem)
      · have ha' : w.At i p node := by
          obtain ⟨a1, a2⟩ := ha
          refine ⟨?_, a2⟩
          simpa [World.split, hi2] using a1
        exact hi.dl.sep r hd m i p node (hlive hi' hl) ha' hmem
  · intro p nd r hp hv hr
    have hp' : w.mem.heap p = some nd := hp
    by_cases e : p = n
    · subst e
      rw [hh] at hp'
      cases hp'
      rw [hdl] at hr
      cases hr
    · by_cases e1 : p = s
      · subst e1
        rw [hs.2] at hp'
        cases hp'
        rw [Node.base_deletes hsb] at hr
        cases hr
      · have hv' := owPut_vis (w := { w with ow := Lin.upd w.ow s (.tab newId) }) ho' (fun x hx => by cases hx) e hv
        refine hi.dl.recs p nd r hp' ?_ hr
        have hv2 : ¬ (Lin.upd w.ow s (.tab newId) p).Hidden := hv'
        rwa [Lin.upd_ne _ _ e1] at hv2
  · intro r p hd hp
    have hni : r ≠ id := by rintro rfl; exact hl0.2 (hi.dl.dead _ hd)
    have hgn := hi.dl.gone r p hd (by simpa [World.split, hni] using hp)
    refine owPut_gone (w := { w with ow := Lin.upd w.ow s (.tab newId) }) hn' ho' (fun x hx => by cases hx) ?_
    have e1 : p ≠ s := by
      rintro rfl
      rw [hos] at hgn
      rcases hgn with hgn | ⟨_, hgn⟩ <;> cases hgn
    show (Lin.upd w.ow s (.tab newId) p).Gone
    rwa [Lin.upd_ne _ _ e1]
  · intro p nd r hp hv hr'
    have hp' : w.mem.heap p = some nd := hp
    by_cases e : p = n
    · subst e
      rw [hh] at hp'
      cases hp'
      rw [Node.no_id hnr] at hr'
      cases hr'
    · by_cases e1 : p = s
      · subst e1
        rw [hs.2] at hp'
        cases hp'
        rw [Node.no_id (Node.base_facts hsb).1] at hr'
        cases hr'
      · have hv' := owPut_vis (w := { w with ow := Lin.upd w.ow s (.tab newId) }) ho' (fun x hx => by cases hx) e hv
        have hv2 : ¬ (Lin.upd w.ow s (.tab newId) p).Hidden := hv'
        rw [Lin.upd_ne _ _ e1] at hv2
        have h0 := hi.dl.rmv p nd r hp' hv2 hr'
        have hrn : r ≠ newId := by
          rintro rfl
          rcases h0.2 with ⟨⟨x, h0⟩, _⟩ | ⟨_, h0, _⟩
          · rw [hinfo] at h0; cases h0
          · rw [hown] at h0; cases h0
        obtain ⟨h3, h0⟩ := h0.put (w' := { w with mem := w.mem.set id n }) hp' hr' hat hr e rfl rfl rfl
        refine ⟨fun i x hx hi' => ?_, ?_⟩
        · · have hx' : Lin.upd w.info newId (some (some sk, l)) i = some x := hx
            by_cases e2 : i = newId
            · subst e2
              have hi2 : (w.mem.set id n).table i = some p := hi'
              have : w.mem.table i = some p := by simpa [Mem.set, hne.symm] using hi2
              exact absurd (Option.some.inj (this.symm.trans hs.1)) e1
            · rw [Lin.upd_ne _ _ e2] at hx'
              exact h3 i x hx' hi'
        rcases h0 with ⟨h1, h2⟩ | ⟨h1, h2, h3⟩
        · left
          refine ⟨?_, h2⟩
          show ∃ x, Lin.upd w.info newId (some (some sk, l)) r = some x
          rw [Lin.upd_ne _ _ hrn]
          exact h1
        · right
          refine ⟨(Lin.upd_ne _ _ hrn).trans h1, (Lin.upd_ne _ _ hrn).trans h2, h3⟩
  · intro p nd r hp hv hr
    have hp' : w.mem.heap p = some nd := hp
    show ∃ x, Lin.upd w.info newId (some (some sk, l)) r = some x
    by_cases er : r = newId
    · subst er; exact ⟨_, Lin.upd_self _ _ _⟩
    rw [Lin.upd_ne _ _ er]
    by_cases e : p = n
    · subst e
      rw [hh] at hp'
      cases hp'
      have := Node.splits_high hr
      rw [hhi] at this
      exact absurd this.symm er
    · by_cases e1 : p = s
      · subst e1
        rw [hs.2] at hp'
        cases hp'
        rw [Node.base_splits hsb] at hr
        cases hr
      · have hv' := owPut_vis (w := { w with ow := Lin.upd w.ow s (.tab newId) }) ho' (fun x hx => by cases hx) e hv
        refine hi.dl.spl p nd r hp' ?_ hr
        have hv2 : ¬ (Lin.upd w.ow s (.tab newId) p).Hidden := hv'
        rwa [Lin.upd_ne _ _ e1] at hv2
  · exact cur_put hi hat hn hh (fun q c e => absurd e (hab q c)) rfl
  · intro u hu p hp
    have hps : p ≠ s := by
      rintro rfl
      rw [hos] at hp
      rcases hp with hp | hp <;> cases hp
      exact hu rfl
    have e0 : Lin.upd w.ow s (.tab newId) p = w.ow p := Lin.upd_ne _ _ hps
    have := priv_put (w := { w with ow := Lin.upd w.ow s (.tab newId) }) (w' := w.split id n newId s sk l (owPut (Lin.upd w.ow s (.tab newId)) id n o (.cell n) [], w.del))
      (t := t) hn' ho' (d := .cell n) (xs := []) (fun x hx => by cases hx) rfl u hu p (by show (Lin.upd w.ow s (.tab newId) p).Of u; rw [e0]; exact hp)
    exact this.trans e0
  · intro u hu p hp
    have hp' : Lin.upd w.ow s (.tab newId) p = .owed u := owPut_owed hp
    by_cases h1 : p = s
    · subst h1; rw [Lin.upd_self] at hp'; cases hp'
    · rwa [Lin.upd_ne _ _ h1] at hp'

/-- A merge. -/
theorem gok_merge (hi : Inv w) {rid : NodeId} {q : Ptr} {right : Node K V} {rl : Option K} (hx : w.info id = some (lk, l)) (hat : w.At id o old)
    (hcl : old.clean = true) (hh : w.mem.heap n = some new) (hrx : w.info rid = some (rl, l)) (hrd : ¬ w.dead rid) (hrat : w.At rid q right)
    (hrr : right.isRemove = true) (hn : w.ow n = .mine t) (hk : w.mem.kids n = [o, q]) (hm : new.isMerge = true)
    (heff : ∀ r ∈ new.eff, r ∈ old.eff ∨ r ∈ right.eff) :
    GOK t w (w.merge id n rid (owPut w.ow id n o (.cell n) (w.mem.kids q), w.del)) := by
  have hr := Node.not_remove_of_clean hcl
  have ho := hi.ow_tab hx hat hr
  obtain ⟨x, hx1, hx2⟩ := hi.ow.rem rid _ q right hrx hrat hrr hrd
  have hq : w.ow q = .tab rid := (hi.ow.tab rid _ q hrx hrat.1).resolve_right (fun hd => hrd (hi.dl.dead _ hd))
  have hfol := follow_merge hh hm hk hx1
  have hab : ∀ a c, new ≠ .inner (.abort a c) := by rintro a c rfl; cases hm
  have hnr : new.isRemove = false := by
    cases new with
    | leaf c => cases c <;> first | rfl | cases hm
    | inner c => cases c <;> first | rfl | cases hm
  have hxs : ∀ y ∈ w.mem.kids q, w.ow y = .cell q := by
    intro y hy
    rw [hx1] at hy
    rw [List.mem_singleton.mp hy]; exact hx2
  have hnd := hi.not_dead hat hr
  refine ⟨?_, ⟨fun i h => Or.inl (hi.dl.dead i h), hi.dl.top, ?_, ?_, ?_, ?_, ?_⟩, ⟨fun _ _ _ => rfl, ?_, fun _ h => h, fun _ _ _ _ h => Or.inl h,
    vis_put (fun h => h)⟩, ?_, privB_put (Or.inl rfl) rfl⟩
  · refine ow_put (t := t) (id := id) (o := o) (n := n) (new := new) (d := .cell n) hi.ow hx hn ho hh (Or.inl rfl) ?_ ?_ ?_ (fun a c e => absurd e (hab a c))
      (fun e => by rw [hnr] at e; cases e)
      (fun nd e => by rw [hat.2] at e; cases e; exact Node.clean_facts hcl) (fun _ => Or.inl (by rw [hfol]; simp))
      (fun y hy => by rw [hx1] at hy; rw [hfol, List.mem_singleton.mp hy]; simp) ?_ rfl rfl (fun _ _ h => h) (fun _ h => Or.inl h) rfl rfl
    · intro c hc
      rw [hfol] at hc
      rcases List.mem_cons.mp hc with rfl | hc
      · exact Or.inl ⟨rfl, rfl⟩
      · exact Or.inr (by rw [hx1]; exact hc)
    · rw [hfol]
      have : o ≠ x := by rintro rfl; rw [ho] at hx2; cases hx2
      simp [this]
    · intro y hy
      refine ⟨q, right, hxs y hy, hrat.2, hrr, fun r z hz htab => ?_⟩
      rcases hi.ow.tab r z q hz htab with h0 | h0
      · rw [hq] at h0
        cases h0
        exact Or.inr rfl
      · exact Or.inl (hi.dl.dead _ h0)
    · rintro i z (hd | rfl) htab
      · exact Or.inl hd
      · right
        have : z = q := Option.some.inj (htab.symm.trans hrat.1)
        subst this
        exact fun c hc => hc
  · intro r hd m i p node hl ha hmem
    have hl' : Live w m i := ⟨hl.1, fun h => hl.2 (Or.inl h)⟩
    by_cases hne : i = id
    · subst hne
      obtain ⟨a1, a2⟩ := ha
      have e : n = p := by simpa [World.merge] using a1
      subst e
      have a2' : w.mem.heap n = some node := a2
      rw [hh] at a2'
      cases a2'
      rcases heff r hmem with h1 | h1
      · exact hi.dl.sep r hd m i o old hl' hat h1
      · exact hi.dl.sep r hd l rid q right ⟨⟨rl, hrx⟩, hrd⟩ hrat h1
    · have ha' : w.At i p node := by
        obtain ⟨a1, a2⟩ := ha
        refine ⟨?_, a2⟩
        simpa [World.merge, hne] using a1
      exact hi.dl.sep r hd m i p node hl' ha' hmem
  · intro p nd r hp hv hr
    by_cases e : p = n
    · subst e
      have hp' : w.mem.heap p = some nd := hp
      rw [hh] at hp'
      cases hp'
      rw [Node.merge_deletes hm] at hr
      cases hr
    · exact hi.dl.recs p nd r hp (owPut_vis ho (fun x hx => ⟨q, hxs x hx⟩) e hv) hr
  · intro r p hd hp
    have hni : r ≠ id := by rintro rfl; exact hnd (hi.dl.dead _ hd)
    exact owPut_gone hn ho (fun x hx => ⟨q, hxs x hx⟩) (hi.dl.gone r p hd (by simpa [World.merge, hni] using hp))
  · intro p nd r hp hv hr
    by_cases e : p = n
    · subst e
      have hp' : w.mem.heap p = some nd := hp
      rw [hh] at hp'
      cases hp'
      have : new.removedId = none := by
        cases new with
        | leaf c => cases c <;> first | rfl | cases hm
        | inner c => cases c <;> first | rfl | cases hm
      rw [this] at hr
      cases hr
    · exact (hi.dl.rmv p nd r hp (owPut_vis ho (fun x hx => ⟨q, hxs x hx⟩) e hv) hr).put hp hr hat (Node.not_remove_of_clean hcl) e rfl rfl rfl
  · intro p nd r hp hv hr
    by_cases e : p = n
    · subst e
      have hp' : w.mem.heap p = some nd := hp
      rw [hh] at hp'
      cases hp'
      rw [Node.merge_splits hm] at hr
      cases hr
    · exact hi.dl.spl p nd r hp (owPut_vis ho (fun x hx => ⟨q, hxs x hx⟩) e hv) hr
  · exact cur_put hi hat hn hh (fun a c e => absurd e (hab a c)) rfl
  · exact priv_put hn ho (fun x hx => ⟨q, hxs x hx⟩) rfl

/-- A new root. -/
theorem gok_root (hi : Inv w) {p : Ptr} {new : Node K V} {l : Nat} (hown : w.own id = some t) (hat : w.At id p new) (hb : new.isBase = true)
    (hp : w.ow p = .mine t) (heff : ∀ r ∈ new.eff, ¬ w.del r) : GOK t w (w.newRoot id p l (Lin.upd w.ow p (.tab id), w.del)) := by
  have hinfo := (hi.own _ _ hown).1
  have hlift : ∀ {i x}, w.info i = some x → Lin.upd w.info id (some (none, l)) i = some x := by
    intro i x hx
    rw [Lin.upd_ne _ _ (by rintro rfl; rw [hinfo] at hx; cases hx)]; exact hx
  refine ⟨?_, ⟨hi.dl.dead, ?_, ?_, ?_, ?_, ?_, ?_⟩, ⟨fun _ _ _ => rfl, fun _ _ _ h => h, fun _ h => h, fun _ _ _ _ h => Or.inl h, vis_upd (fun h => h)⟩, ?_, ?_⟩
  · exact ow_publish hi.ow (id := id) (s := p) hinfo hp hat hb ⟨_, Lin.upd_self _ _ _⟩ rfl rfl rfl rfl (fun i hi => Lin.upd_ne _ _ hi) (fun _ _ h => h) rfl rfl rfl
  · intro r hd
    obtain ⟨a, b, c, d, e1, e2⟩ := hi.dl.top r hd
    exact ⟨a, b, c, d, hlift e1, hlift e2⟩
  · intro r hd m i q node hl ha hmem
    by_cases hne : i = id
    · subst hne
      have ha' : w.At i q node := ha
      obtain ⟨_, rfl⟩ := At.unique ha' hat
      exact heff r hmem hd
    · obtain ⟨⟨x, hx⟩, hnd⟩ := hl
      have hx' : Lin.upd w.info id (some (none, l)) i = some (x, m) := hx
      rw [Lin.upd_ne _ _ hne] at hx'
      exact hi.dl.sep r hd m i q node ⟨⟨x, hx'⟩, hnd⟩ ha hmem
  · intro q nd r hq hv hr
    by_cases e : q = p
    · subst e
      have hq' : w.mem.heap q = some nd := hq
      rw [hat.2] at hq'
      cases hq'
      rw [Node.base_deletes hb] at hr
      cases hr
    · have hv' : ¬ (Lin.upd w.ow p (.tab id) q).Hidden := hv
      rw [Lin.upd_ne _ _ e] at hv'
      exact hi.dl.recs q nd r hq hv' hr
  · intro r q hd hq
    have hgn := hi.dl.gone r q hd hq
    have e : q ≠ p := by
      rintro rfl
      rw [hp] at hgn
      rcases hgn with hgn | ⟨_, hgn⟩ <;> cases hgn
    show (Lin.upd w.ow p (.tab id) q).Gone
    rwa [Lin.upd_ne _ _ e]
  · intro q nd r hq hv hr
    by_cases e : q = p
    · subst e
      have hq' : w.mem.heap q = some nd := hq
      rw [hat.2] at hq'
      cases hq'
      rw [Node.no_id (Node.base_facts hb).1] at hr
      cases hr
    · have hv' : ¬ (Lin.upd w.ow p (.tab id) q).Hidden := hv
      rw [Lin.upd_ne _ _ e] at hv'
      have h0 := hi.dl.rmv q nd r hq hv' hr
      have hrn : r ≠ id := by
        rintro rfl
        rcases h0.2 with ⟨⟨x, h0⟩, _⟩ | ⟨_, h0, _⟩
        · rw [hinfo] at h0; cases h0
        · rw [hown] at h0; cases h0
      obtain ⟨h3, h0⟩ := h0
      refine ⟨fun i y hy hi' => ?_, ?_⟩
      · have hy' : Lin.upd w.info id (some (none, l)) i = some y := hy
        by_cases e2 : i = id
        · subst e2
          exact absurd (Option.some.inj (Eq.symm (hi'.symm.trans hat.1).symm)) e
        · rw [Lin.upd_ne _ _ e2] at hy'
          exact h3 i y hy' hi'
      rcases h0 with ⟨⟨x, h1⟩, h2⟩ | ⟨h1, h2, h3⟩
      · exact Or.inl ⟨⟨x, hlift h1⟩, h2⟩
      · right
        exact ⟨(Lin.upd_ne _ _ hrn).trans h1, (Lin.upd_ne _ _ hrn).trans h2, h3⟩
  · intro q nd r hq hv hr
    by_cases e : q = p
    · subst e
      have hq' : w.mem.heap q = some nd := hq
      rw [hat.2] at hq'
      cases hq'
      rw [Node.base_splits hb] at hr
      cases hr
    · have hv' : ¬ (Lin.upd w.ow p (.tab id) q).Hidden := hv
      rw [Lin.upd_ne _ _ e] at hv'
      obtain ⟨x, hx⟩ := hi.dl.spl q nd r hq hv' hr
      exact ⟨x, hlift hx⟩
  · intro u hu q hq
    have : q ≠ p := by
      rintro rfl
      rw [hp] at hq
      rcases hq with hq | hq <;> cases hq
      exact hu rfl
    exact Lin.upd_ne _ _ this
  · intro u hu q hq
    have hq' : Lin.upd w.ow p (.tab id) q = .owed u := hq
    by_cases h1 : q = p
    · subst h1; rw [Lin.upd_self] at hq'; cases hq'
    · rwa [Lin.upd_ne _ _ h1] at hq'

end

end Tree
end BwTree
