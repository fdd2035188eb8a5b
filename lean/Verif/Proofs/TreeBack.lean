import Verif.Proofs.TreeTrav

/-! Backward traversal, and all calls together. -/

namespace BwTree

namespace InnerChain

variable {K : Type} [LinearOrder K] {lo : NodeId → Option (Option K)}

theorem navBI_mem (k : K) : ∀ (c : InnerChain K) {id : NodeId}, navBI k c = some id → id ∈ c.childIds
  | base _ _ _ items, id, h => by
    simp only [navBI, locateBI] at h
    split at h
    · cases h
    · split at h
      · cases h
      · cases h
      · split at h
        · cases h
        · rename_i x hx
          split at h
          · split at h
            · cases h
            · split at h
              · cases h
              · rename_i y hy
                simp only [Option.some.injEq] at h
                exact List.mem_map.mpr ⟨y, List.mem_of_getElem? hy, h⟩
          · simp only [Option.some.injEq] at h
            exact List.mem_map.mpr ⟨x, List.mem_of_getElem? hx, h⟩
  | ins item next loc c, id, h => by
    simp only [navBI] at h
    split at h
    · simp only [Option.some.injEq] at h; simp [childIds, h]
    · exact List.mem_cons_of_mem _ (navBI_mem k c h)
  | del item prev next loc c, id, h => by
    simp only [navBI] at h
    split at h
    · simp only [Option.some.injEq] at h; simp [childIds, h]
    · exact List.mem_cons_of_mem _ (navBI_mem k c h)
  | split _ _ c, id, h => navBI_mem k c h
  | merge mk _ r c, id, h => by
    simp only [navBI] at h
    split at h
    · exact List.mem_append_left _ (navBI_mem k r h)
    · exact List.mem_append_right _ (navBI_mem k c h)
  | remove _ _, _, h => by cases h
  | abort _ _, _, h => by cases h

/-- The child returned is the leftmost one or one whose range begins below `k`. -/
theorem navBI_weak {k : K} : ∀ {c : InnerChain K} {lv : Option K}, WF lo lv c → ∀ {id : NodeId}, navBI k c = some id →
    id = c.low.2 ∨ ∃ key, lo id = some (some key) ∧ Above lv key ∧ key < k
  | base low high d items, lv, h, id, hn => by
    cases items with
    | nil => have := h.2.2.1; simp at this
    | cons a t =>
      have hal : a = low := by simpa using h.2.2.1
      subst hal
      have hst : StrictKeys t := h.2.2.2.1
      have hub := ubIdx_le t k
      simp only [navBI, locateBI, List.length_cons, Nat.add_one_ne_zero, if_false] at hn
      rw [upperBound_tail hst.sorted (by omega) (by omega) (by omega) (by omega), Nat.add_comm 1] at hn
      simp only at hn
      cases hu : ubIdx t k with
      | zero =>
        rw [hu] at hn
        simp only [List.getElem?_cons_zero] at hn
        split at hn
        · cases hn
        · simp only [Option.some.injEq] at hn; exact Or.inl hn.symm
      | succ n =>
        rw [hu] at hn
        have hlt : n < t.length := by omega
        have hx : t[n]? = some t[n] := List.getElem?_eq_getElem hlt
        simp only [List.getElem?_cons_succ, hx] at hn
        have hle : t[n].1 ≤ k := lt_ubIdx hst.sorted (by omega) hx
        have hmem := h.2.2.2.2.1 t[n] (List.getElem_mem hlt)
        by_cases he : t[n].1 = k
        · rw [if_pos he] at hn
          cases n with
          | zero =>
            simp only [List.getElem?_cons_zero, Option.some.injEq] at hn
            exact Or.inl hn.symm
          | succ n =>
            have hlt' : n < t.length := by omega
            have hy : t[n]? = some t[n] := List.getElem?_eq_getElem hlt'
            simp only [List.getElem?_cons_succ, hy, Option.some.injEq] at hn
            have hmem' := h.2.2.2.2.1 t[n] (List.getElem_mem hlt')
            have := List.pairwise_iff_getElem.mp hst n (n + 1) hlt' hlt (by omega)
            right
            exact ⟨t[n].1, by rw [← hn]; exact hmem'.1, hmem'.2.1, by rw [← he]; exact this⟩
        · rw [if_neg he] at hn
          simp only [Option.some.injEq] at hn
          right
          exact ⟨t[n].1, by rw [← hn]; exact hmem.1, hmem.2.1, lt_of_le_of_ne hle he⟩
  | ins item next loc c, lv, h, id, hn => by
    simp only [navBI] at hn
    split at hn
    · rename_i hc
      simp only [Option.some.injEq] at hn
      subst hn
      exact Or.inr ⟨item.1, h.2.1, h.2.2.1, hc.2⟩
    · exact navBI_weak (c := c) h.1 hn
  | del item prev next loc c, lv, h, id, hn => by
    simp only [navBI] at hn
    split at hn
    · rename_i hc
      simp only [Option.some.injEq] at hn
      subst hn
      rcases hc.1 with h1 | h1
      · exact Or.inl h1.symm
      · rcases h.2.2.1 with h2 | h2
        · exact Or.inl h2
        · exact Or.inr ⟨prev.1, h2.1, h2.2, h1⟩
    · exact navBI_weak (c := c) h.1 hn
  | split item sib c, lv, h, id, hn => navBI_weak (c := c) h.1 hn
  | merge mk rid r c, lv, h, id, hn => by
    simp only [navBI] at hn
    have hmk : Above lv mk := WF.above_mk h
    split at hn
    · rename_i hlt
      rcases navBI_weak (c := r) h.2.1 hn with h1 | ⟨key, h1, h2, h3⟩
      · right
        refine ⟨mk, ?_, hmk, hlt⟩
        rw [h1]
        exact (WF.low_spec h.2.1).1
      · exact Or.inr ⟨key, h1, fun l hl => lt_trans (hmk l hl) (h2 mk rfl), h3⟩
    · exact navBI_weak (c := c) h.1 hn
  | remove _ _, _, h, _, _ => h.elim
  | abort _ _, _, h, _, _ => h.elim

end InnerChain

namespace Tree

open Prog

set_option linter.unusedSectionVars false

variable {K V : Type} [LinearOrder K] [DecidableEq V] [Inhabited K]
variable {t : Tid} {allow : Fail → Prop} {w : World K V} {start : Nat}



/-- A settled context on level `n` whose node begins below the search key. -/
structure NavB (allow : Fail → Prop) (start : Nat) (k : K) (n : Nat) (w : World K V) (ctx : Ctx K V) : Prop where
  settled : Settled allow start w ctx
  lo : ∃ l, w.info ctx.cur.id = some (l, n) ∧ Above l k

theorem Above.atLeast {l : Option K} {k : K} (h : Above l k) : AtLeast l k := fun y hy => le_of_lt (h y hy)

theorem NavB.nav {k : K} {n : Nat} {ctx : Ctx K V} (h : NavB allow start k n w ctx) : Nav allow start k n w ctx :=
  ⟨h.settled, h.lo.imp fun _ hl => ⟨hl.1, hl.2.atLeast⟩⟩

theorem NavB.ok (hi : Inv w) {k : K} {n : Nat} {ctx : Ctx K V} (hn : NavB allow start k n w ctx) :
    ∃ l, w.info ctx.cur.id = some (l, n) ∧ Above l k ∧ Body w l n ctx.cur.node ∧ NodeOK w ctx.cur.id l n ctx.cur.node := by
  obtain ⟨l, h1, _, h3, h4⟩ := hn.nav.ok hi
  obtain ⟨l', h5, h6⟩ := hn.lo
  rw [h1] at h5
  cases h5
  exact ⟨l, h1, h6, h3, h4⟩

theorem navB_of_res {k : K} {n : Nat} {id : NodeId} {l : Option K} (hx : w.info id = some (l, n)) (hk : Above l k) {ctx : Ctx K V}
    {r : Option (Ctx K V)} (hr : Res allow start id r w) (he : r = some ctx) : NavB allow start k n w ctx := by
  obtain ⟨h1, h2⟩ := hr ctx he
  obtain ⟨l', h3, h4⟩ := h2 l n hx
  exact ⟨h1, l', h3, h4.above hk⟩

theorem wp_navSiblingBI (A : Allowed allow) (fuel : Nat) (k : K) {n : Nat} : ∀ (f : Nat) {w : World K V} (_ : Inv w) {ctx : Ctx K V}
    (_ : NavB allow start k n w ctx) {Q : Option (Ctx K V) → World K V → Prop}
    (_ : ∀ w' r, Inv w' → Ext t w w' → (∀ ctx', r = some ctx' → NavB allow start k n w' ctx' ∧ (ctx'.cur.node.high.2 = INVALID ∨ k ≤ ctx'.cur.node.high.1)) → Q r w'),
    wp t allow (navSiblingBI fuel k f ctx) Q w
  | 0, _, _, _, _, _, _ => trivial
  | f + 1, w, hi, ctx, hn, Q, H => by
    unfold navSiblingBI
    by_cases hk : ctx.cur.node.high.2 ≠ INVALID ∧ ctx.cur.node.high.1 < k
    · rw [if_pos hk]
      obtain ⟨l, h1, h2, h3, h4⟩ := hn.ok hi
      have hx := h4.high.resolve_left hk.1
      have hlt : ∀ y, l = some y → y < ctx.cur.node.high.1 := fun y hy => (h4.below y hy).resolve_left hk.1
      apply wp_seq
      refine wp_jump A (wp_finishSMO A fuel) hi hn.settled.snap hn.settled.st h1 hx ?_ ?_ ?_
      · intro e
        rw [← e, h1] at hx
        cases hx
        exact lt_irrefl _ (hlt _ rfl)
      · cases hpar : ctx.par with
        | uninit =>
          have := hn.settled.par
          rw [hpar] at this
          cases this with | uninit h => exact .uninit h
        | root =>
          have := hn.settled.par
          rw [hpar] at this
          generalize ctx.level = lv at this
          cases this
          exact .root
        | snap s =>
          have := hn.settled.par
          rw [hpar] at this
          cases this with
          | snap g1 g2 =>
            have e := g2.cinfo
            rw [h1] at e
            cases e
            exact .snap g1 ⟨g2.node, g2.clean, g2.snap, g2.info, hx, Or.inr ⟨_, rfl, g2.lo_le hi _ hlt⟩⟩
      · intro w1 r hi1 he1 hr
        cases r with
        | none => exact H w1 _ hi1 he1 (fun _ h => by cases h)
        | some ctx1 =>
          have hn1 : NavB allow start k n w1 ctx1 :=
            navB_of_res (he1.mono.info _ _ hx) (fun y hy => by cases hy; exact hk.2) hr rfl
          show wp t allow (navSiblingBI fuel k f ctx1) Q w1
          apply wp_navSiblingBI A fuel k f hi1 hn1
          intro w2 r hi2 he2 hr2
          exact H w2 r hi2 (he1.trans he2) hr2
    · rw [if_neg hk]
      refine H w _ hi (Ext.refl t w) ?_
      intro ctx' e
      cases e
      refine ⟨hn, ?_⟩
      by_cases h : ctx.cur.node.high.2 = INVALID
      · exact Or.inl h
      · exact Or.inr (le_of_not_gt fun hge => hk ⟨h, hge⟩)

theorem wp_navInnerBI (A : Allowed allow) (hnav : allow .navigate) (fuel : Nat) (k : K) {m : Nat} (hi : Inv w) {ctx : Ctx K V}
    (hn : NavB allow start k (m + 1) w ctx) {Q : Option (Ctx K V × NodeId) → World K V → Prop}
    (H0 : ∀ w', Inv w' → Ext t w w' → Q none w')
    (H : ∀ w' ctx' id c lp l, Inv w' → Ext t w w' → NavB allow start k (m + 1) w' ctx' → ParSnap w' id ctx'.cur c lp l m →
      Above l k → Q (some (ctx', id)) w') :
    wp t allow (navInnerBI fuel k ctx) Q w := by
  unfold navInnerBI
  apply wp_seq
  apply wp_navSiblingBI A fuel k fuel hi hn
  intro w1 r hi1 he1 hr
  cases r with
  | none => exact H0 w1 hi1 he1
  | some ctx1 =>
    obtain ⟨hn1, _⟩ := hr ctx1 rfl
    obtain ⟨l, h1, h2, h3, h4⟩ := hn1.ok hi1
    show wp t allow (match ctx1.cur.node with | .leaf _ => .fail .kind | .inner c => _) Q w1
    cases hc : ctx1.cur.node with
    | leaf c =>
      rw [hc] at h3
      have := h3.2.2.2.1
      omega
    | inner c =>
      rw [hc] at h3
      obtain ⟨m', e1, e2, e3⟩ := h3.2.2.2
      have : m' = m := by omega
      subst this
      show wp t allow (match c.navBI k with | none => .fail .navigate | some id => _) Q w1
      cases g1 : c.navBI k with
      | none => exact hnav
      | some id =>
        obtain ⟨lc, hx⟩ := e3 id (InnerChain.navBI_mem k c g1)
        have g2 := InnerChain.navBI_weak e2 g1
        have hcl := hn1.settled.clean
        refine H w1 ctx1 id c l lc hi1 he1 hn1 ⟨hc, hcl, hn1.settled.snap, h1, hx, ?_⟩ ?_
        · rcases g2 with h | ⟨key, k1, k2, k3⟩
          · exact Or.inl h
          · right
            refine ⟨key, ?_, k2⟩
            simpa [World.lo, hx] using k1
        · rcases g2 with h | ⟨key, k1, k2, k3⟩
          · have := (InnerChain.WF.low_spec e2).1
            rw [← h] at this
            simp only [World.lo, hx, Option.map_some, Option.some.injEq] at this
            rw [this]; exact h2
          · have : lc = some key := by simpa [World.lo, hx] using k1
            rw [this]
            intro y hy; cases hy; exact k3

theorem wp_loadChildBI (A : Allowed allow) (fuel : Nat) (k : K) {m : Nat} (hi : Inv w) {ctx : Ctx K V}
    (hn : NavB allow start k (m + 1) w ctx) {id : NodeId} {c : InnerChain K} {lp l : Option K} (hps : ParSnap w id ctx.cur c lp l m)
    (hk : Above l k) {Q : Option (Ctx K V) → World K V → Prop}
    (H : ∀ w' r, Inv w' → Ext t w w' → (∀ ctx', r = some ctx' → NavB allow start k m w' ctx') → Q r w') :
    wp t allow (loadChild fuel id ctx) Q w := by
  unfold loadChild
  apply wp_seq
  apply wp_getNode hi hps.cinfo
  intro w1 p nd hi1 hr1 hat
  have hps1 := hps.mono hr1.1
  apply wp_settle A (wp_finishSMO A fuel) hi1
    (loaded_of_at hi1 (st_mono hr1.1 hn.settled.st) hps1.cinfo hat (ParOK.snap (level := ctx.level + 1) (Nat.succ_ne_zero _) hps1))
  intro w2 r hi2 he2 hr2
  refine H w2 r hi2 (hr1.ext.trans he2) ?_
  intro ctx' e
  exact navB_of_res (he2.mono.info _ _ hps1.cinfo) hk hr2 e

theorem wp_loadRootNodeBI (A : Allowed allow) (fuel : Nat) (k : K) (hi : Inv w) (hst : start < w.sets.length) {id : NodeId} {n : Nat}
    (hx : w.info id = some (none, n)) {Q : Option (Ctx K V) → World K V → Prop}
    (H : ∀ w' r, Inv w' → Ext t w w' → (∀ ctx', r = some ctx' → NavB allow start k n w' ctx') → Q r w') :
    wp t allow (loadRootNode fuel id) Q w := by
  unfold loadRootNode
  apply wp_seq
  apply wp_getNode hi hx
  intro w1 p nd hi1 hr1 hat
  apply wp_settle A (wp_finishSMO A fuel) hi1 (loaded_of_at hi1 (st_mono hr1.1 hst) (hr1.1.info _ _ hx) hat ParOK.root)
  intro w2 r hi2 he2 hr2
  refine H w2 r hi2 (hr1.ext.trans he2) ?_
  intro ctx' e
  exact navB_of_res (he2.mono.info _ _ (hr1.1.info _ _ hx)) (fun y hy => by cases hy) hr2 e

/-- A leaf that begins below `k` and does not end below it. -/
def AtLeafB (allow : Fail → Prop) (start : Nat) (k : K) (w : World K V) (ctx : Ctx K V) : Prop :=
  NavB allow start k 0 w ctx ∧ (ctx.cur.node.high.2 = INVALID ∨ k ≤ ctx.cur.node.high.1)

theorem wp_descendBI (A : Allowed allow) (hnav : allow .navigate) (fuel : Nat) (k : K) : ∀ (f : Nat) {m : Nat} {w : World K V} (_ : Inv w)
    {ctx : Ctx K V} (_ : NavB allow start k (m + 1) w ctx) {Q : Option (Ctx K V) → World K V → Prop}
    (_ : ∀ w' r, Inv w' → Ext t w w' → (∀ ctx', r = some ctx' → AtLeafB allow start k w' ctx') → Q r w'),
    wp t allow (descendBI fuel k f ctx) Q w
  | 0, _, _, _, _, _, _, _ => trivial
  | f + 1, m, w, hi, ctx, hn, Q, H => by
    have hnone : ∀ w', Inv w' → Ext t w w' → Q none w' := fun w' hi' he => H w' _ hi' he (fun _ h => by cases h)
    unfold descendBI
    apply wp_seq
    apply wp_navInnerBI A hnav fuel k hi hn
    · exact hnone
    intro w1 ctx1 id c lp l hi1 he1 hn1 hps hk
    show wp t allow (loadChild fuel id ctx1 >>= _) Q w1
    apply wp_seq
    apply wp_loadChildBI A fuel k hi1 hn1 hps hk
    intro w2 r hi2 he2 hr2
    cases r with
    | none => exact hnone w2 hi2 (he1.trans he2)
    | some ctx2 =>
      have hn2 := hr2 ctx2 rfl
      show wp t allow (if ctx2.cur.node.isLeaf = true then _ else _) Q w2
      have hle := hn2.nav.isLeaf hi2
      by_cases hm : m = 0
      · subst hm
        rw [if_pos (hle.mpr rfl)]
        apply wp_navSiblingBI A fuel k fuel hi2 hn2
        intro w3 r hi3 he3 hr3
        exact H w3 r hi3 (he1.trans (he2.trans he3)) hr3
      · rw [if_neg (fun h => hm (hle.mp h))]
        obtain ⟨m', rfl⟩ : ∃ m', m = m' + 1 := ⟨m - 1, by omega⟩
        apply wp_descendBI A hnav fuel k f hi2 hn2
        intro w3 r hi3 he3 hr3
        exact H w3 r hi3 (he1.trans (he2.trans he3)) hr3

theorem wp_tryTraverseBI (A : Allowed allow) (hnav : allow .navigate) (fuel : Nat) (k : K) (hst : start < w.sets.length)
    {Q : Option (Ctx K V) → World K V → Prop}
    (H : ∀ w' r, Inv w' → Ext t w w' → (∀ ctx', r = some ctx' → AtLeafB allow start k w' ctx') → Q r w') :
    wp t allow (tryTraverseBI fuel k) Q w := by
  unfold tryTraverseBI
  apply wp_seq
  apply wp_readRoot
  intro w1 hi1 hr1
  obtain ⟨n, hroot, _⟩ := hi1.root
  apply wp_seq
  apply wp_loadRootNodeBI A fuel k hi1 (st_mono hr1.1 hst) hroot
  intro w2 r hi2 he2 hr2
  cases r with
  | none => exact H w2 _ hi2 (hr1.ext.trans he2) (fun _ h => by cases h)
  | some ctx =>
    show wp t allow (descendBI fuel k fuel ctx) Q w2
    apply wp_descendBI A hnav fuel k fuel hi2 (hr2 ctx rfl)
    intro w3 r hi3 he3 hr3
    exact H w3 r hi3 (hr1.ext.trans (he2.trans he3)) hr3

theorem wp_traverseBI (A : Allowed allow) (hnav : allow .navigate) (fuel : Nat) (k : K) : ∀ (f : Nat) {w : World K V}
    (_ : start < w.sets.length) {Q : Ctx K V → World K V → Prop}
    (_ : ∀ w' ctx', Inv w' → Ext t w w' → AtLeafB allow start k w' ctx' → Q ctx' w'),
    wp t allow (traverseBI fuel k f) Q w
  | 0, _, _, _, _ => trivial
  | f + 1, w, hst, Q, H => by
    unfold traverseBI
    apply wp_seq
    apply wp_tryTraverseBI A hnav fuel k hst
    intro w1 r hi1 he1 hr1
    cases r with
    | none =>
      apply wp_traverseBI A hnav fuel k f (st_mono he1.mono hst)
      intro w2 ctx hi2 he2 h2
      exact H w2 ctx hi2 (he1.trans he2) h2
    | some ctx => exact H w1 ctx hi1 he1 (hr1 ctx rfl)

theorem wp_back (A : Allowed allow) (hnav : allow .navigate) (fuel : Nat) (k : K) {pos : Nat} (hst : start < w.sets.length)
    (htok : w.tok t = .pending (.back k) pos start) (hclr : Clear t w) : wp t allow (prog fuel (.back k)) (Done t) w := by
  show wp t allow (traverseBI fuel k fuel >>= _) _ w
  apply wp_seq
  apply wp_traverseBI A hnav fuel k fuel hst
  intro w1 ctx hi1 he1 hal
  obtain ⟨hn, hb⟩ := hal
  obtain ⟨l, h1, h2, h3, h4⟩ := hn.ok hi1
  cases hc : ctx.cur.node with
  | inner c =>
    rw [hc] at h3
    obtain ⟨m, e, _⟩ := h3.2.2.2
    omega
  | leaf c =>
    rw [hc] at h3 h4 hb
    obtain ⟨i, S, hi0, hS, hval⟩ := hn.settled.valid c hc
    have hwf : c.WF := h3.2.2.2.2.1
    have hlow : c.low.2 = INVALID ∨ c.low.1 < k := by
      cases l with
      | none => exact Or.inl (h3.2.2.2.2.2.1 rfl)
      | some y =>
        have := h3.2.2.2.2.2.2 y rfl
        exact Or.inr (by rw [this.2]; exact h2 y rfl)
    show wp t allow (if c.low.2 = INVALID ∨ c.low.1 < k then readPage (.leaf c) else .fail .backLow) (Done t) w1
    rw [if_pos hlow]
    apply wp_readPage hwf
    intro items g1 g2 g3
    refine ⟨?_, hclr.ext he1⟩
    unfold Fin
    rw [he1.tok.trans htok]
    exact ⟨i, S, hi0, hS, rfl, hlow, hb, pageOk hwf hval g1 g2 g3⟩

/-- Ways a call may fail (see DESIGN.md). -/
def allowed : Call K V → Fail → Prop
  | .first, _ => False
  | .api (.get _), f => f ∈ [.noParent, .leftSibling, .mergeRange, .mergeSep, .tableFull, .uninit, .search]
  | .back _, f => f ∈ [.noParent, .leftSibling, .mergeRange, .mergeSep, .tableFull, .navigate]
  | _, f => f ∈ [.noParent, .leftSibling, .mergeRange, .mergeSep, .tableFull]

theorem wp_prog (fuel : Nat) (hi : Inv w) (hst : start < w.sets.length) {op : Call K V} {pos : Nat} (htok : w.tok t = .pending op pos start)
    (hclr : Clear t w) : wp t (allowed op) (prog fuel op) (Done t) w := by
  cases op with
  | api o =>
    cases o with
    | insert k v =>
      show wp t _ (insert fuel k v fuel >>= _) _ w
      apply wp_seq
      exact wp_insert ⟨by simp [allowed], by simp [allowed], by simp [allowed], by simp [allowed], by simp [allowed]⟩ fuel k v fuel hst htok hclr
    | delete k v =>
      show wp t _ (delete fuel k v fuel >>= _) _ w
      apply wp_seq
      exact wp_delete ⟨by simp [allowed], by simp [allowed], by simp [allowed], by simp [allowed], by simp [allowed]⟩ fuel k v fuel hst htok hclr
    | get k =>
      show wp t _ (getValue fuel k fuel >>= _) _ w
      apply wp_seq
      exact wp_getValue ⟨by simp [allowed], by simp [allowed], by simp [allowed], by simp [allowed], by simp [allowed]⟩
        (by simp [allowed]) (by simp [allowed]) fuel k fuel hst htok hclr
  | page k =>
    exact wp_page ⟨by simp [allowed], by simp [allowed], by simp [allowed], by simp [allowed], by simp [allowed]⟩ fuel k hst htok hclr
  | first => exact wp_first fuel hi hst htok hclr
  | back k =>
    exact wp_back ⟨by simp [allowed], by simp [allowed], by simp [allowed], by simp [allowed], by simp [allowed]⟩
      (by simp [allowed]) fuel k hst htok hclr

end Tree
end BwTree
