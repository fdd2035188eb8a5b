import Verif.Proofs.TreeLeak
import Verif.Model.Destroy
import Mathlib.Data.List.Nodup

/-! The destructor: every address it frees is freed once. -/

namespace BwTree
namespace Tree

set_option linter.unusedSectionVars false

variable {K V : Type} [LinearOrder K] [DecidableEq V] [Inhabited K]
variable {w : World K V}

/-- The record belongs to the node `id`. -/
def Under (w : World K V) (e : Ptr) (id : NodeId) : Prop := ∃ p, w.ow p = .tab id ∧ Anc w.ow p e

theorem Under.unique {e : Ptr} {i j : NodeId} (h1 : Under w e i) (h2 : Under w e j) : i = j := by
  obtain ⟨p, h1, h3⟩ := h1
  obtain ⟨q, h2, h4⟩ := h2
  have := anc_top (fun x hx => by rw [h1] at hx; cases hx) (fun x hx => by rw [h2] at hx; cases hx) h3 h4
  subst this
  rw [h1] at h2
  cases h2
  rfl

theorem Anc.trans {ow : Ptr → Owner} {p q e : Ptr} (h1 : Anc ow p q) (h2 : Anc ow q e) : Anc ow p e := by
  induction h2 with
  | refl => exact h1
  | step _ he ih => exact .step ih he

theorem Under.anc {p e : Ptr} {id : NodeId} (h : Under w p id) (ha : Anc w.ow p e) : Under w e id := by
  obtain ⟨q, h1, h2⟩ := h
  exact ⟨q, h1, h2.trans ha⟩

theorem anc_le (h : OwInv w) {p e : Ptr} (he : Anc w.ow p e) : e ≤ p := by
  induction he with
  | refl => exact Nat.le_refl _
  | step _ hx ih => exact Nat.le_trans (Nat.le_of_lt (cell_lt h hx)) ih

theorem anc_sib (h : OwInv w) {p c d e : Ptr} (hc : w.ow c = .cell p) (hd : w.ow d = .cell p) (h1 : Anc w.ow c e) (h2 : Anc w.ow d e) : c = d := by
  induction h1 with
  | refl =>
    cases h2 with
    | refl => rfl
    | step h2 h' =>
      rw [hc] at h'
      cases h'
      exact absurd (anc_le h h2) (Nat.not_le.mpr (cell_lt h hd))
  | step h1 h3 ih =>
    cases h2 with
    | refl =>
      rw [hd] at h3
      cases h3
      exact absurd (anc_le h h1) (Nat.not_le.mpr (cell_lt h hc))
    | step h2 h' =>
      rw [h3] at h'
      cases h'
      exact ih h2

/-- A well-formed chain whose children are nodes of the tree. -/
def Chain (w : World K V) (p : Ptr) : Prop :=
  (∃ c, w.mem.heap p = some (.leaf c) ∧ c.WF) ∨
  ∃ c lv, w.mem.heap p = some (.inner c) ∧ c.WF w.lo lv ∧ ∀ r ∈ c.childIds, ∃ x, w.info r = some x

theorem chain_follow (h : OwInv w) {p q : Ptr} (hp : Chain w p) (hq : q ∈ w.mem.follow p) : Chain w q := by
  rcases hp with ⟨c, hp, hwf⟩ | ⟨c, lv, hp, hwf, hids⟩
  · have hk := (h.klt p _ hp).1
    cases c with
    | base l hi items => simp [Mem.follow, hp, Node.isBase] at hq
    | ins k v i e c =>
      obtain ⟨o, e1, e2⟩ := hk
      have : q = o := by simpa [Mem.follow, hp, Node.isBase, Node.isRemove, LeafChain.isRemove, Node.isAbort, Node.isMerge, e1] using hq
      exact Or.inl ⟨c, this ▸ e2, hwf.1⟩
    | del k v i e c =>
      obtain ⟨o, e1, e2⟩ := hk
      have : q = o := by simpa [Mem.follow, hp, Node.isBase, Node.isRemove, LeafChain.isRemove, Node.isAbort, Node.isMerge, e1] using hq
      exact Or.inl ⟨c, this ▸ e2, hwf.1⟩
    | split k i s c =>
      obtain ⟨o, e1, e2⟩ := hk
      have : q = o := by simpa [Mem.follow, hp, Node.isBase, Node.isRemove, LeafChain.isRemove, Node.isAbort, Node.isMerge, e1] using hq
      exact Or.inl ⟨c, this ▸ e2, hwf.1⟩
    | merge k i r c =>
      obtain ⟨o, q', id, e1, e2, e3⟩ := hk
      obtain ⟨o', e4, e5⟩ := (h.klt q' _ e3).1
      have : q = o ∨ q = o' := by simpa [Mem.follow, hp, Node.isBase, Node.isRemove, LeafChain.isRemove, Node.isAbort, Node.isMerge, e1, e4] using hq
      rcases this with rfl | rfl
      · exact Or.inl ⟨c, e2, hwf.1⟩
      · exact Or.inl ⟨r, e5, hwf.2.1⟩
    | remove i c => exact hwf.elim
  · have hk := (h.klt p _ hp).1
    cases c with
    | base l hi d items => simp [Mem.follow, hp, Node.isBase] at hq
    | ins item nx loc c =>
      obtain ⟨o, e1, e2⟩ := hk
      have : q = o := by simpa [Mem.follow, hp, Node.isBase, Node.isRemove, InnerChain.isRemove, Node.isAbort, Node.isMerge, e1] using hq
      exact Or.inr ⟨c, lv, this ▸ e2, hwf.1, fun r hr => hids r (by simp [InnerChain.childIds, hr])⟩
    | del item pr nx loc c =>
      obtain ⟨o, e1, e2⟩ := hk
      have : q = o := by simpa [Mem.follow, hp, Node.isBase, Node.isRemove, InnerChain.isRemove, Node.isAbort, Node.isMerge, e1] using hq
      exact Or.inr ⟨c, lv, this ▸ e2, hwf.1, fun r hr => hids r (by simp [InnerChain.childIds, hr])⟩
    | split item s c =>
      obtain ⟨o, e1, e2⟩ := hk
      have : q = o := by simpa [Mem.follow, hp, Node.isBase, Node.isRemove, InnerChain.isRemove, Node.isAbort, Node.isMerge, e1] using hq
      exact Or.inr ⟨c, lv, this ▸ e2, hwf.1, fun r hr => hids r (by simp [InnerChain.childIds, hr])⟩
    | merge k i r c =>
      obtain ⟨o, q', id, e1, e2, e3⟩ := hk
      obtain ⟨o', e4, e5⟩ := (h.klt q' _ e3).1
      have : q = o ∨ q = o' := by simpa [Mem.follow, hp, Node.isBase, Node.isRemove, InnerChain.isRemove, Node.isAbort, Node.isMerge, e1, e4] using hq
      rcases this with rfl | rfl
      · exact Or.inr ⟨c, lv, e2, hwf.1, fun r hr => hids r (by simp [InnerChain.childIds, hr])⟩
      · exact Or.inr ⟨r, _, e5, hwf.2.1, fun x hx => hids x (by simp [InnerChain.childIds, hx])⟩
    | remove i c => exact hwf.elim
    | abort i c => exact hwf.elim

theorem Chain.plain {p : Ptr} (h : Chain w p) : ∃ n, w.mem.heap p = some n ∧ n.isRemove = false ∧ n.isAbort = false := by
  rcases h with ⟨c, h1, h2⟩ | ⟨c, lv, h1, h2, _⟩
  · refine ⟨_, h1, ?_, rfl⟩
    cases c <;> first | rfl | exact h2.elim
  · refine ⟨_, h1, ?_, ?_⟩ <;> cases c <;> first | rfl | exact h2.elim

/-- The NodeIDs freed at a record of the tree are nodes of the tree. -/
theorem Chain.frees (hi : Inv w) {p : Ptr} (h : Chain w p) (hv : ¬ (w.ow p).Hidden) {n : Node K V} (hn : w.mem.heap p = some n) :
    ∀ r ∈ n.frees, ∃ x, w.info r = some x := by
  intro r hr
  rcases h with ⟨c, h1, h2⟩ | ⟨c, lv, h1, h2, h3⟩
  · rw [hn] at h1
    cases h1
    cases c <;> first | (cases hr; done) | skip
    rename_i k i s c
    have : r = i := List.mem_singleton.mp hr
    exact hi.dl.spl p _ r hn hv (by rw [this]; rfl)
  · rw [hn] at h1
    cases h1
    cases c <;> first | (cases hr; done) | skip
    · exact h3 r hr
    · exact h3 r (by rw [List.mem_singleton.mp hr]; simp [InnerChain.childIds])
    · exact hi.dl.spl p _ r hn hv (by rw [List.mem_singleton.mp hr]; rfl)

/-- Mapping table and freed addresses fit together. -/
structure DInv (w : World K V) (s : DState) : Prop where
  tab : ∀ id x p, w.info id = some x → s.table id = some p → w.ow p = .tab id
  alive : ∀ id x e, w.info id = some x → s.table id ≠ none → Under w e id → e ∉ s.freed
  nodup : s.freed.Nodup
  heap : ∀ e ∈ s.freed, ∃ n, w.mem.heap e = some n

/-- What happens between two states: addresses in `P` are freed and those of nodes whose mapping is cleared. -/
structure DRel (w : World K V) (P : Ptr → Prop) (s s' : DState) : Prop where
  tab : ∀ id, s'.table id = s.table id ∨ s'.table id = none
  mono : ∀ e ∈ s.freed, e ∈ s'.freed
  fresh : ∀ e ∈ s'.freed, e ∈ s.freed ∨ P e ∨ ∃ id x, w.info id = some x ∧ s.table id ≠ none ∧ s'.table id = none ∧ Under w e id
  clos : ∀ e ∈ s'.freed, e ∈ s.freed ∨ ∀ n, w.mem.heap e = some n → n.isRemove = false ∧ (∀ i ∈ n.frees, s'.table i = none) ∧ ∀ q ∈ w.mem.follow e, q ∈ s'.freed
  done : ∀ id x p, w.info id = some x → s.table id = some p → s'.table id = none → p ∈ s'.freed

theorem DRel.none {P : Ptr → Prop} {s s' : DState} (h : DRel w P s s') {id : NodeId} (hn : s.table id = none) : s'.table id = none := by
  rcases h.tab id with e | e
  · rw [e, hn]
  · exact e

theorem DRel.refl (P : Ptr → Prop) (s : DState) : DRel w P s s :=
  ⟨fun _ => Or.inl rfl, fun _ h => h, fun _ h => Or.inl h, fun _ h => Or.inl h, fun _ _ _ _ h1 h2 => by rw [h1] at h2; cases h2⟩

theorem DRel.trans {P P' : Ptr → Prop} {a b c : DState} (h1 : DRel w P a b) (h2 : DRel w P' b c) : DRel w (fun e => P e ∨ P' e) a c where
  tab id := by
    rcases h2.tab id with e | e
    · rcases h1.tab id with e' | e'
      · exact Or.inl (e.trans e')
      · exact Or.inr (e.trans e')
    · exact Or.inr e
  mono e h := h2.mono e (h1.mono e h)
  fresh e h := by
    rcases h2.fresh e h with h | h | ⟨id, x, hx, hb, hc, hu⟩
    · rcases h1.fresh e h with h | h | ⟨id, x, hx, hb, hc, hu⟩
      · exact Or.inl h
      · exact Or.inr (Or.inl (Or.inl h))
      · exact Or.inr (Or.inr ⟨id, x, hx, hb, h2.none hc, hu⟩)
    · exact Or.inr (Or.inl (Or.inr h))
    · exact Or.inr (Or.inr ⟨id, x, hx, fun ha => hb (h1.none ha), hc, hu⟩)
  clos e h := by
    rcases h2.clos e h with h | h
    · rcases h1.clos e h with h | h
      · exact Or.inl h
      · exact Or.inr fun n hn => ⟨(h n hn).1, fun i hi => h2.none ((h n hn).2.1 i hi), fun q hq => h2.mono q ((h n hn).2.2 q hq)⟩
    · exact Or.inr h
  done id x p hx ha hc := by
    rcases h1.tab id with e | e
    · exact h2.done id x p hx (e.trans ha) hc
    · exact h2.mono p (h1.done id x p hx ha e)

theorem DRel.weak {P P' : Ptr → Prop} {a b : DState} (h : DRel w P a b) (hp : ∀ e, P e → P' e) : DRel w P' a b :=
  { h with fresh := fun e he => (h.fresh e he).imp id (Or.imp_left (hp e)) }

/-- A removal was left unfinished. -/
def Stuck (w : World K V) : Prop := ∃ id x p n, w.info id = some x ∧ w.At id p n ∧ n.isRemove = true ∧ w.ow p = .tab id

/-- Outcome of part of the destructor. -/
def DGood (w : World K V) (P : Ptr → Prop) (G : DState → Prop) (s : DState) : Except DFail DState → Prop
  | .ok s' => DInv w s' ∧ DRel w P s s' ∧ G s'
  | .error e => e = .unknownType ∧ Stuck w

theorem DGood.bind {P P' : Ptr → Prop} {G G' : DState → Prop} {s : DState} {r : Except DFail DState} {k : DState → Except DFail DState} (h : DGood w P G s r)
    (hk : ∀ s', DInv w s' → DRel w P s s' → G s' → DGood w P' G' s' (k s')) : DGood w (fun e => P e ∨ P' e) G' s (r >>= k) := by
  cases r with
  | error e => exact h
  | ok s' =>
    have h2 := hk s' h.1 h.2.1 h.2.2
    show DGood w _ G' s (k s')
    cases hr : k s' with
    | error e => rw [hr] at h2; exact h2
    | ok s'' =>
      rw [hr] at h2
      exact ⟨h2.1, h.2.1.trans h2.2.1, h2.2.2⟩

theorem DGood.weak {P P' : Ptr → Prop} {G G' : DState → Prop} {s : DState} {r : Except DFail DState} (h : DGood w P G s r) (hp : ∀ e, P e → P' e)
    (hg : ∀ s', DRel w P s s' → G s' → G' s') : DGood w P' G' s r := by
  cases r with
  | error e => exact h
  | ok s' => exact ⟨h.1, h.2.1.weak hp, hg s' h.2.1 h.2.2⟩

open Classical in
/-- The node is still mapped. -/
noncomputable def isMapped (w : World K V) (s : DState) (id : NodeId) : Bool := decide ((∃ x, w.info id = some x) ∧ s.table id ≠ none)

theorem isMapped_iff {s : DState} {id : NodeId} : isMapped w s id = true ↔ (∃ x, w.info id = some x) ∧ s.table id ≠ none := by
  classical
  unfold isMapped
  rw [decide_eq_true_eq]

/-- Number of nodes of the tree that are still mapped. -/
noncomputable def mapped (w : World K V) (s : DState) : Nat := ((List.range w.mem.nextId).filter (isMapped w s)).length

theorem DRel.mapped {P : Ptr → Prop} {s s' : DState} (h : DRel w P s s') : mapped w s' ≤ mapped w s := by
  unfold Tree.mapped
  apply List.Sublist.length_le
  apply List.monotone_filter_right
  intro id hd
  rw [isMapped_iff] at hd ⊢
  exact ⟨hd.1, fun hn => hd.2 (h.none hn)⟩

theorem clear_table {s : DState} {id i : NodeId} : (s.clear id).table i = if i = id then none else s.table i := rfl

theorem mapped_clear (hi : Inv w) {s : DState} {id : NodeId} {x : Option K × Nat} {p : Ptr} (hx : w.info id = some x) (hs : s.table id = some p) :
    mapped w (s.clear id) < mapped w s := by
  unfold mapped
  have hsub : List.Sublist ((List.range w.mem.nextId).filter (isMapped w (s.clear id))) ((List.range w.mem.nextId).filter (isMapped w s)) := by
    apply List.monotone_filter_right
    intro i hd
    rw [isMapped_iff] at hd ⊢
    refine ⟨hd.1, fun hn => hd.2 ?_⟩
    rw [clear_table]
    split
    · rfl
    · exact hn
  rcases Nat.lt_or_ge ((List.range w.mem.nextId).filter (isMapped w (s.clear id))).length ((List.range w.mem.nextId).filter (isMapped w s)).length with h | h
  · exact h
  · have he := hsub.eq_of_length_le h
    have hm : id ∈ (List.range w.mem.nextId).filter (isMapped w s) := by
      rw [List.mem_filter]
      refine ⟨List.mem_range.mpr (hi.ids id x hx).2.2, ?_⟩
      rw [isMapped_iff]
      exact ⟨⟨x, hx⟩, by rw [hs]; simp⟩
    rw [← he, List.mem_filter] at hm
    have := (isMapped_iff.mp hm.2).2
    simp [clear_table] at this

theorem DInv.clear {s : DState} (h : DInv w s) (id : NodeId) : DInv w (s.clear id) where
  tab i x p hx hp := by
    rw [clear_table] at hp
    split at hp
    · cases hp
    · exact h.tab i x p hx hp
  alive i x e hx hp := by
    rw [clear_table] at hp
    split at hp
    · exact absurd rfl hp
    · exact h.alive i x e hx hp
  nodup := h.nodup
  heap := h.heap

/-- What must hold when the destructor arrives at the record `p`. -/
structure Pre (w : World K V) (s : DState) (p : Ptr) : Prop where
  inv : DInv w s
  chain : Chain w p
  under : ∃ id, Under w p id ∧ s.table id = none
  unfreed : ∀ e, Anc w.ow p e → e ∉ s.freed

theorem Under.visible (h : OwInv w) {p : Ptr} {id : NodeId} (hu : Under w p id) : ¬ (w.ow p).Hidden := by
  obtain ⟨q, h1, h2⟩ := hu
  exact anc_visible h (by rw [h1]; exact fun h => h) h2

theorem Pre.visible (h : OwInv w) {s : DState} {p : Ptr} (hp : Pre w s p) : ¬ (w.ow p).Hidden := by
  obtain ⟨_, hu, _⟩ := hp.under
  exact hu.visible h

/-- Addresses that belong to a node whose mapping is cleared are not touched by what is freed elsewhere. -/
theorem Pre.keep {s s' : DState} {p : Ptr} {P : Ptr → Prop} (hp : Pre w s p) (hi' : DInv w s') (hr : DRel w P s s') (hd : ∀ e, P e → ¬ Anc w.ow p e) :
    Pre w s' p := by
  obtain ⟨id, hu, hn⟩ := hp.under
  refine ⟨hi', hp.chain, ⟨id, hu, hr.none hn⟩, fun e he hf => ?_⟩
  rcases hr.fresh e hf with h | h | ⟨j, x, hx, ha, _, hj⟩
  · exact hp.unfreed e he h
  · exact hd e h he
  · rw [(hu.anc he).unique hj] at hn
    exact ha hn

theorem DInv.free {s : DState} {p : Ptr} (hp : Pre w s p) : DInv w (s.free p) where
  tab := hp.inv.tab
  alive id x e hx hs hu hf := by
    rcases List.mem_cons.mp hf with rfl | hf
    · obtain ⟨j, hj, hn⟩ := hp.under
      rw [hj.unique hu] at hn
      exact hs hn
    · exact hp.inv.alive id x e hx hs hu hf
  nodup := List.nodup_cons.mpr ⟨hp.unfreed p .refl, hp.inv.nodup⟩
  heap e he := by
    rcases List.mem_cons.mp he with rfl | he
    · obtain ⟨n, hn, _⟩ := hp.chain.plain
      exact ⟨n, hn⟩
    · exact hp.inv.heap e he

/-- Enough fuel at a record. -/
def Enough (w : World K V) (s : DState) (p : Ptr) (f : Nat) : Prop := mapped w s * (w.mem.nextPtr + 1) + p < f

theorem Enough.le {s s' : DState} {p q : Ptr} {f : Nat} (h : Enough w s p (f + 1)) (hm : mapped w s' ≤ mapped w s) (hq : q < p) : Enough w s' q f := by
  have h1 := Nat.mul_le_mul_right (w.mem.nextPtr + 1) hm
  exact Nat.lt_of_lt_of_le (Nat.add_lt_add_of_le_of_lt h1 hq) (Nat.le_of_lt_succ h)

theorem Enough.lt {s s' : DState} {p q : Ptr} {f : Nat} (h : Enough w s p (f + 1)) (hm : mapped w s' < mapped w s) (hq : q < w.mem.nextPtr) : Enough w s' q f := by
  have h1 := Nat.mul_le_mul_right (w.mem.nextPtr + 1) hm
  rw [Nat.succ_mul] at h1
  have h2 : mapped w s' * (w.mem.nextPtr + 1) + q < mapped w s' * (w.mem.nextPtr + 1) + (w.mem.nextPtr + 1) :=
    Nat.add_lt_add_left (Nat.lt_succ_of_lt hq) _
  exact Nat.lt_of_lt_of_le h2 (Nat.le_trans h1 (Nat.le_trans (Nat.le_add_right _ _) (Nat.le_of_lt_succ h)))

/-- Freeing a list of nodes. -/
theorem freeIds_good (hi : Inv w) (hlk : ∀ id, w.lock id = none) {f : Nat} {s0 : DState} {p0 : Ptr} (he : Enough w s0 p0 (f + 1))
    (IH : ∀ p s, Pre w s p → Enough w s p f → DGood w (Anc w.ow p) (fun s' => p ∈ s'.freed) s (freePtr w.mem f p s)) :
    ∀ (ids : List NodeId) (s : DState), (∀ r ∈ ids, ∃ x, w.info r = some x) → DInv w s → mapped w s ≤ mapped w s0 →
      DGood w (fun _ => False) (fun s' => ∀ r ∈ ids, s'.table r = none) s (ids.foldlM (freeId (freePtr w.mem f)) s)
  | [], s, _, hs, _ => ⟨hs, DRel.refl _ s, fun r hr => by cases hr⟩
  | id :: ids, s, hids, hs, hm => by
    rw [List.foldlM_cons]
    obtain ⟨x, hx⟩ := hids id (by simp)
    have hid := hi.ids id x hx
    have hone : DGood w (fun _ => False) (fun s' => s'.table id = none) s (freeId (freePtr w.mem f) s id) := by
      unfold freeId
      rw [if_neg (by rintro (h | h); exacts [hid.1 h, absurd hid.2.1 (Nat.not_lt.mpr h)])]
      cases hst : s.table id with
      | none => exact ⟨hs, DRel.refl _ s, hst⟩
      | some p =>
        have ho := hs.tab id x p hx hst
        have hu : Under w p id := ⟨p, ho, .refl⟩
        have ht := (hi.ow.btab p id ho).1
        obtain ⟨n, hh⟩ : ∃ n, w.mem.heap p = some n := by
          cases hh : w.mem.heap p with
          | none =>
            have := (hi.ow.free p).mpr hh
            rw [ho] at this
            cases this
          | some n => exact ⟨n, rfl⟩
        have hok := (hi.at_ok hx ⟨ht, hh⟩).2
        have hclear : mapped w (s.clear id) < mapped w s := mapped_clear hi hx hst
        cases hrm : n.isRemove with
        | true =>
          have hf : f ≠ 0 := by
            rintro rfl
            have := he.lt (s' := s.clear id) (Nat.lt_of_lt_of_le hclear hm) (hi.heapLt _ _ hh)
            exact absurd this (Nat.not_lt_zero _)
          obtain ⟨f', rfl⟩ := Nat.exists_eq_succ_of_ne_zero hf
          have : freePtr w.mem (f' + 1) p (s.clear id) = .error .unknownType := by
            have hnf : p ∉ (s.clear id).freed := hs.alive id x p hx (by rw [hst]; simp) hu
            rw [freePtr, if_neg hnf, hh]
            simp [hrm]
          show DGood w _ _ s (freePtr w.mem (f' + 1) p (s.clear id))
          rw [this]
          exact ⟨rfl, id, x, p, n, hx, ⟨ht, hh⟩, hrm, ho⟩
        | false =>
          have hab : n.isAbort = false := by
            cases hab : n.isAbort with
            | false => rfl
            | true =>
              cases n with
              | leaf c => cases hab
              | inner c =>
                cases c with
                | abort q c =>
                  obtain ⟨t, h⟩ := hi.abort id x p q c hx ⟨ht, hh⟩
                  rw [hlk] at h
                  cases h
                | _ => cases hab
          have hcl : n.clean = true := by
            cases n with
            | leaf c => cases c <;> first | rfl | cases hrm
            | inner c => cases c <;> first | rfl | (cases hrm; done) | cases hab
          have hb := hok.1
          rw [Node.strip_of_clean hcl] at hb
          have hch : Chain w p := by
            obtain ⟨_, _, _, hb⟩ := hb
            cases n with
            | leaf c => exact Or.inl ⟨c, hh, hb.2.1⟩
            | inner c =>
              obtain ⟨m, _, h2, h3⟩ := hb
              exact Or.inr ⟨c, _, hh, h2, fun r hr => (h3 r hr).elim fun l hl => ⟨_, hl⟩⟩
          have hpre : Pre w (s.clear id) p := by
            refine ⟨hs.clear id, hch, ⟨id, hu, by simp [clear_table]⟩, fun e hae => ?_⟩
            exact hs.alive id x e hx (by rw [hst]; simp) (hu.anc hae)
          have hg := IH p (s.clear id) hpre (he.lt (Nat.lt_of_lt_of_le hclear hm) (hi.heapLt _ _ hh))
          show DGood w _ _ s (freePtr w.mem f p (s.clear id))
          cases hr : freePtr w.mem f p (s.clear id) with
          | error e => rw [hr] at hg; exact hg
          | ok s' =>
            rw [hr] at hg
            obtain ⟨g1, g2, g3⟩ := hg
            have hn : s'.table id = none := g2.none (by simp [clear_table])
            refine ⟨g1, ⟨fun i => ?_, g2.mono, fun e hf => ?_, g2.clos, fun i y q hy hq hn' => ?_⟩, hn⟩
            · rcases g2.tab i with e | e
              · rw [clear_table] at e
                split at e
                · exact Or.inr e
                · exact Or.inl e
              · exact Or.inr e
            · rcases g2.fresh e hf with h | h | ⟨i, y, hy, ha, hb, hc⟩
              · exact Or.inl h
              · exact Or.inr (Or.inr ⟨id, x, hx, by rw [hst]; simp, hn, hu.anc h⟩)
              · refine Or.inr (Or.inr ⟨i, y, hy, fun h => ha ?_, hb, hc⟩)
                rw [clear_table, h]
                split <;> rfl
            · by_cases e : i = id
              · subst e
                rw [hst] at hq
                cases hq
                exact g3
              · exact g2.done i y q hy (by rw [clear_table, if_neg e]; exact hq) hn'
    refine (DGood.bind hone (P' := fun _ => False) (G' := fun s' => ∀ r ∈ id :: ids, s'.table r = none) fun s1 h1 h2 h3 => ?_).weak
      (fun e h => h.elim (fun h => h) (fun h => h)) (fun _ _ h => h)
    refine (freeIds_good hi hlk he IH ids s1 (fun r hr => hids r (List.mem_cons_of_mem _ hr)) h1 (Nat.le_trans h2.mapped hm)).weak (fun _ h => h) ?_
    intro s2 h4 h5 r hr
    rcases List.mem_cons.mp hr with rfl | hr
    · exact h4.none h3
    · exact h5 r hr

/-- Freeing what is below a record. -/
theorem freeKids_good (hi : Inv w) {f : Nat} {s0 : DState} {p : Ptr} (he : Enough w s0 p (f + 1))
    (IH : ∀ p s, Pre w s p → Enough w s p f → DGood w (Anc w.ow p) (fun s' => p ∈ s'.freed) s (freePtr w.mem f p s)) :
    ∀ (l : List Ptr) (s : DState), l.Nodup → (∀ q ∈ l, w.ow q = .cell p ∧ Pre w s q) → DInv w s → mapped w s ≤ mapped w s0 →
      DGood w (fun e => ∃ q ∈ l, Anc w.ow q e) (fun s' => ∀ q ∈ l, q ∈ s'.freed) s (l.foldlM (fun s q => freePtr w.mem f q s) s)
  | [], s, _, _, hs, _ => ⟨hs, DRel.refl _ s, fun q hq => by cases hq⟩
  | q :: l, s, hnd, hl, hs, hm => by
    rw [List.foldlM_cons]
    obtain ⟨hnd1, hnd2⟩ := List.nodup_cons.mp hnd
    obtain ⟨hq1, hq2⟩ := hl q (by simp)
    refine (DGood.bind (IH q s hq2 (he.le hm (cell_lt hi.ow hq1))) (P' := fun e => ∃ q ∈ l, Anc w.ow q e) (G' := fun s' => ∀ q' ∈ q :: l, q' ∈ s'.freed)
      fun s1 h1 h2 h3 => ?_).weak ?_ (fun _ _ h => h)
    · refine (freeKids_good hi he IH l s1 hnd2 (fun q' hq' => ?_) h1 (Nat.le_trans h2.mapped hm)).weak (fun _ h => h) ?_
      · obtain ⟨a1, a2⟩ := hl q' (List.mem_cons_of_mem _ hq')
        refine ⟨a1, a2.keep h1 h2 fun e b1 b2 => ?_⟩
        have := anc_sib hi.ow hq1 a1 b1 b2
        subst this
        exact hnd1 hq'
      · intro s2 h4 h5 r hr
        rcases List.mem_cons.mp hr with rfl | hr
        · exact h4.mono _ h3
        · exact h5 r hr
    · rintro e (h | ⟨q', h1, h2⟩)
      · exact ⟨q, by simp, h⟩
      · exact ⟨q', List.mem_cons_of_mem _ h1, h2⟩

theorem freePtr_good (hi : Inv w) (hlk : ∀ id, w.lock id = none) (hdel : ∀ s id, DInv w s → w.del id → s.table id = none) : ∀ (f : Nat) (p : Ptr) (s : DState),
    Pre w s p → Enough w s p f → DGood w (Anc w.ow p) (fun s' => p ∈ s'.freed) s (freePtr w.mem f p s)
  | 0, p, s, _, he => absurd he (Nat.not_lt_zero _)
  | f + 1, p, s, hp, he => by
    have IH := freePtr_good hi hlk hdel f
    obtain ⟨n, hn, hrm, hab⟩ := hp.chain.plain
    have hv := hp.visible hi.ow
    rw [freePtr, if_neg (hp.unfreed p .refl), hn]
    simp only [hrm, hab, Bool.or_self, Bool.false_eq_true, if_false]
    have hids := freeIds_good hi hlk he IH n.frees s (hp.chain.frees hi hv hn) hp.inv (Nat.le_refl _)
    refine (DGood.bind hids (P' := Anc w.ow p) (G' := fun s' => p ∈ s'.freed) fun s1 h1 h2 h3 => ?_).weak (fun e h => h.elim (fun h => h.elim) (fun h => h)) (fun _ _ h => h)
    -- the mapping of a deleted child is cleared already
    have hs2 : s1.unmap n.unmaps = s1 := by
      cases hu : n.unmaps with
      | none => rfl
      | some id =>
        have hd : w.del id := by
          refine hi.dl.recs p n id hn hv ?_
          cases n with
          | leaf c => cases hu
          | inner c => cases c <;> first | (cases hu; done) | exact hu
        have ht := hdel s1 id h1 hd
        show s1.clear id = s1
        obtain ⟨t, fr⟩ := s1
        unfold DState.clear
        simp only [DState.mk.injEq, and_true]
        funext i
        split
        · rename_i e; rw [e]; exact ht.symm
        · rfl
    have hpre1 : Pre w s1 p := hp.keep h1 h2 (fun _ h => h.elim)
    have hm1 : mapped w s1 ≤ mapped w s := h2.mapped
    rw [hs2]
    have hkid : ∀ q ∈ w.mem.follow p, w.ow q = .cell p := hi.ow.kid p hv
    have hpreq : ∀ q ∈ w.mem.follow p, Pre w s1 q := by
      intro q hq
      obtain ⟨id, hu, hnone⟩ := hpre1.under
      have ha : Anc w.ow p q := .step .refl (hkid q hq)
      exact ⟨h1, chain_follow hi.ow hp.chain hq, ⟨id, hu.anc ha, hnone⟩, fun e he => hpre1.unfreed e (ha.trans he)⟩
    -- when all is done
    have hfin : ∀ s' : DState, DInv w s' → (∀ id, s'.table id = s1.table id ∨ s'.table id = none) → (∀ e ∈ s1.freed, e ∈ s'.freed) → p ∈ s'.freed →
        (∀ q ∈ w.mem.follow p, q ∈ s'.freed) →
        (∀ e ∈ s'.freed, e ∈ s1.freed ∨ Anc w.ow p e ∨ ∃ id x, w.info id = some x ∧ s1.table id ≠ none ∧ s'.table id = none ∧ Under w e id) →
        (∀ e ∈ s'.freed, e ∈ s1.freed ∨ e = p ∨ ∀ n, w.mem.heap e = some n → n.isRemove = false ∧ (∀ i ∈ n.frees, s'.table i = none) ∧ ∀ q ∈ w.mem.follow e, q ∈ s'.freed) →
        (∀ id x p, w.info id = some x → s1.table id = some p → s'.table id = none → p ∈ s'.freed) →
        DRel w (Anc w.ow p) s1 s' := by
      intro s' a1 a2 a3 a4 a5 a6 a7 a8
      refine ⟨a2, a3, a6, fun e hf => ?_, a8⟩
      rcases a7 e hf with h | rfl | h
      · exact Or.inl h
      · refine Or.inr fun n' hn' => ?_
        rw [hn] at hn'
        cases hn'
        refine ⟨hrm, fun i hi' => ?_, a5⟩
        rcases a2 i with h | h
        · rw [h]; exact h3 i hi'
        · exact h
      · exact Or.inr h
    cases hbs : n.isBase with
    | true =>
      rw [if_pos rfl]
      refine ⟨DInv.free hpre1, hfin _ (DInv.free hpre1) (fun _ => Or.inl rfl) (fun e h => List.mem_cons_of_mem _ h) List.mem_cons_self ?_ ?_ ?_ ?_, List.mem_cons_self⟩
      · intro q hq
        rw [follow_base hn hbs] at hq
        cases hq
      · intro e he'
        rcases List.mem_cons.mp he' with rfl | h
        · exact Or.inr (Or.inl .refl)
        · exact Or.inl h
      · intro e he'
        rcases List.mem_cons.mp he' with rfl | h
        · exact Or.inr (Or.inl rfl)
        · exact Or.inl h
      · intro id x q hx h1 h2
        have h2' : s1.table id = none := h2
        rw [h1] at h2'
        cases h2'
    | false =>
      simp only [Bool.false_eq_true, if_false]
      cases hmg : n.isMerge with
      | true =>
        rw [if_pos rfl]
        have hk := freeKids_good hi he IH (w.mem.follow p) s1 (hi.ow.nd p hv) (fun q hq => ⟨hkid q hq, hpreq q hq⟩) h1 hm1
        cases hr : (w.mem.follow p).foldlM (fun s q => freePtr w.mem f q s) s1 with
        | error e => rw [hr] at hk; exact hk
        | ok s2 =>
          rw [hr] at hk
          obtain ⟨k1, k2, k3⟩ := hk
          have hpre2 : Pre w s2 p ∨ p ∉ s2.freed := by
            right
            intro hf
            rcases k2.fresh p hf with h | ⟨q, hq, h⟩ | ⟨id, x, hx, ha, _, hu⟩
            · exact hpre1.unfreed p .refl h
            · exact absurd (anc_le hi.ow h) (Nat.not_le.mpr (cell_lt hi.ow (hkid q hq)))
            · obtain ⟨j, hj, hnone⟩ := hpre1.under
              rw [hj.unique hu] at hnone
              exact ha hnone
          have hpf : p ∉ s2.freed := hpre2.elim (fun h => h.unfreed p .refl) (fun h => h)
          have hinv : DInv w (s2.free p) := by
            refine ⟨k1.tab, fun id x e hx hs hu hf => ?_, List.nodup_cons.mpr ⟨hpf, k1.nodup⟩, fun e he' => ?_⟩
            · rcases List.mem_cons.mp hf with rfl | hf
              · obtain ⟨j, hj, hnone⟩ := hpre1.under
                rw [hj.unique hu] at hnone
                exact hs (k2.none hnone)
              · exact k1.alive id x e hx hs hu hf
            · rcases List.mem_cons.mp he' with rfl | he'
              · exact ⟨n, hn⟩
              · exact k1.heap e he'
          show DGood w _ _ s1 (.ok (s2.free p))
          refine ⟨hinv, hfin _ hinv k2.tab (fun e h => List.mem_cons_of_mem _ (k2.mono e h)) List.mem_cons_self (fun q hq => List.mem_cons_of_mem _ (k3 q hq)) ?_ ?_ ?_, List.mem_cons_self⟩
          · intro e he'
            rcases List.mem_cons.mp he' with rfl | h
            · exact Or.inr (Or.inl .refl)
            · rcases k2.fresh e h with h | ⟨q, hq, h⟩ | h
              · exact Or.inl h
              · exact Or.inr (Or.inl (h.head (hkid q hq)))
              · exact Or.inr (Or.inr h)
          · intro e he'
            rcases List.mem_cons.mp he' with rfl | h
            · exact Or.inr (Or.inl rfl)
            · rcases k2.clos e h with h | h
              · exact Or.inl h
              · exact Or.inr (Or.inr fun n' hn' => ⟨(h n' hn').1, (h n' hn').2.1, fun q hq => List.mem_cons_of_mem _ ((h n' hn').2.2 q hq)⟩)
          · intro id x q hx h1 h2
            exact List.mem_cons_of_mem _ (k2.done id x q hx h1 h2)
      | false =>
        simp only [Bool.false_eq_true, if_false]
        have hfree := DInv.free hpre1
        have hk := freeKids_good hi he IH (w.mem.follow p) (s1.free p) (hi.ow.nd p hv) (fun q hq => ⟨hkid q hq, ?_⟩) hfree hm1
        rotate_left
        · refine ⟨hfree, (hpreq q hq).chain, (hpreq q hq).under, fun e he' hf => ?_⟩
          rcases List.mem_cons.mp hf with rfl | hf
          · exact absurd (anc_le hi.ow he') (Nat.not_le.mpr (cell_lt hi.ow (hkid q hq)))
          · exact (hpreq q hq).unfreed e he' hf
        cases hr : (w.mem.follow p).foldlM (fun s q => freePtr w.mem f q s) (s1.free p) with
        | error e => rw [hr] at hk; exact hk
        | ok s2 =>
          rw [hr] at hk
          obtain ⟨k1, k2, k3⟩ := hk
          have hpm : p ∈ s2.freed := k2.mono p List.mem_cons_self
          refine ⟨k1, hfin _ k1 k2.tab (fun e h => k2.mono e (List.mem_cons_of_mem _ h)) hpm k3 ?_ ?_ ?_, hpm⟩
          · intro e he'
            rcases k2.fresh e he' with h | ⟨q, hq, h⟩ | h
            · rcases List.mem_cons.mp h with rfl | h
              · exact Or.inr (Or.inl .refl)
              · exact Or.inl h
            · exact Or.inr (Or.inl (h.head (hkid q hq)))
            · exact Or.inr (Or.inr h)
          · intro e he'
            rcases k2.clos e he' with h | h
            · rcases List.mem_cons.mp h with rfl | h
              · exact Or.inr (Or.inl rfl)
              · exact Or.inl h
            · exact Or.inr (Or.inr h)
          · intro id x q hx h1 h2
            exact k2.done id x q hx h1 h2

theorem gc_fold (m : Mem K V) : ∀ (L : List Ptr) (s : DState), (L.foldl (gcFree m) s).freed = L.reverse ++ s.freed ∧
    (∀ id, (∃ p ∈ L, (m.heap p).bind Node.removedId = some id) → (L.foldl (gcFree m) s).table id = none) ∧
    ∀ id, (L.foldl (gcFree m) s).table id = s.table id ∨ ∃ p ∈ L, (m.heap p).bind Node.removedId = some id
  | [], s => ⟨rfl, fun id h => (by obtain ⟨p, h, _⟩ := h; cases h), fun id => Or.inl rfl⟩
  | p :: L, s => by
    obtain ⟨h1, h2, h3⟩ := gc_fold m L (gcFree m s p)
    rw [List.foldl_cons]
    have hf : (gcFree m s p).freed = p :: s.freed := by unfold gcFree; split <;> rfl
    have ht : ∀ id, (gcFree m s p).table id = if (m.heap p).bind Node.removedId = some id then none else s.table id := by
      intro id
      unfold gcFree
      cases h : (m.heap p).bind Node.removedId with
      | none => simp [DState.free]
      | some j =>
        simp only [DState.free, clear_table, Option.some.injEq]
        by_cases e : id = j
        · simp [e]
        · simp [e, Ne.symm e]
    have hkeep : ∀ id, (gcFree m s p).table id = none → (L.foldl (gcFree m) (gcFree m s p)).table id = none := by
      intro id hn
      rcases h3 id with h | h
      · rw [h, hn]
      · exact h2 id h
    refine ⟨by rw [h1, hf]; simp, ?_, ?_⟩
    · rintro id ⟨q, hq, hr⟩
      rcases List.mem_cons.mp hq with rfl | hq
      · exact hkeep id (by rw [ht, if_pos hr])
      · exact h2 id ⟨q, hq, hr⟩
    · intro id
      rcases h3 id with h | ⟨q, hq, hr⟩
      · rw [h, ht]
        split
        · rename_i hr
          exact Or.inr ⟨p, List.mem_cons_self, hr⟩
        · exact Or.inl rfl
      · exact Or.inr ⟨q, List.mem_cons_of_mem _ hq, hr⟩

theorem Path.cases_head {m : Mem K V} {p e : Ptr} (h : Path m p e) : e = p ∨ ∃ c ∈ m.follow p, Path m c e := by
  induction h with
  | refl => exact Or.inl rfl
  | step _ hc ih =>
    rcases ih with rfl | ⟨c, h1, h2⟩
    · exact Or.inr ⟨_, hc, .refl⟩
    · exact Or.inr ⟨c, h1, h2.step hc⟩

theorem path_cells (h : OwInv w) : ∀ (f : Nat) {p e : Ptr}, p < f → Path w.mem p e → e ∈ w.mem.cells f p
  | 0, p, e, hf, _ => absurd hf (Nat.not_lt_zero _)
  | f + 1, p, e, hf, hp => by
    rcases hp.cases_head with rfl | ⟨c, h1, h2⟩
    · exact List.mem_cons_self
    · exact List.mem_cons_of_mem _ (List.mem_flatMap.mpr ⟨c, h1, path_cells h f (Nat.lt_of_lt_of_le (follow_lt h h1) (Nat.le_of_lt_succ hf)) h2⟩)

theorem visible_heap (h : OwInv w) {p : Ptr} (hv : ¬ (w.ow p).Hidden) : ∃ n, w.mem.heap p = some n := by
  cases hh : w.mem.heap p with
  | none => rw [(h.free p).mpr hh] at hv; exact absurd trivial hv
  | some n => exact ⟨n, rfl⟩

theorem retired_freed (hi : Inv w) {e : Ptr} (h : Retired w.mem e) : e ∈ (clearGarbage w.mem).freed := by
  obtain ⟨f, g, hg, hc⟩ := h
  unfold clearGarbage
  rw [(gc_fold w.mem _ _).1, List.mem_append, List.mem_reverse]
  refine Or.inl (List.mem_flatMap.mpr ⟨g, hg, ?_⟩)
  have hv : ¬ (w.ow g).Hidden := by rw [(hi.ow.trash g).mpr hg]; exact fun h => h
  obtain ⟨n, hn⟩ := visible_heap hi.ow hv
  exact path_cells hi.ow _ (hi.heapLt g n hn) (path_of_cells hc)

theorem freed_retired {e : Ptr} (h : e ∈ (clearGarbage w.mem).freed) : Retired w.mem e := by
  unfold clearGarbage at h
  rw [(gc_fold w.mem _ _).1, List.mem_append, List.mem_reverse] at h
  rcases h with h | h
  · obtain ⟨g, h1, h2⟩ := List.mem_flatMap.mp h
    exact ⟨_, g, h1, h2⟩
  · cases h

theorem retired_visible (hi : Inv w) {e : Ptr} (h : Retired w.mem e) : ¬ (w.ow e).Hidden := by
  obtain ⟨f, g, hg, hc⟩ := h
  exact path_visible hi.ow (by rw [(hi.ow.trash g).mpr hg]; exact fun h => h) (path_of_cells hc)

/-- The epoch manager clears the entries of deleted nodes only. -/
theorem clear_live (hi : Inv w) {id : NodeId} {x : Option K × Nat} (hx : w.info id = some x) (hd : ¬ w.del id) :
    (clearGarbage w.mem).table id = w.mem.table id := by
  rcases (gc_fold w.mem (w.mem.garbage.flatMap fun g => w.mem.cells w.mem.nextPtr g) ⟨w.mem.table, []⟩).2.2 id with h | ⟨p, hp, hr⟩
  · exact h
  · exfalso
    obtain ⟨g, h1, h2⟩ := List.mem_flatMap.mp hp
    have hv := retired_visible hi ⟨_, g, h1, h2⟩
    obtain ⟨n, hn⟩ := visible_heap hi.ow hv
    rw [hn] at hr
    rcases (hi.dl.rmv p n id hn hv hr).2 with ⟨_, ht⟩ | ⟨h, _⟩
    · have ho := (hi.ow.tab id x p hx ht).resolve_right hd
      exact tab_alive hi.ow ho .refl _ hp
    · rw [h] at hx
      cases hx

theorem clear_del (hi : Inv w) (hno : ∀ p t, w.ow p ≠ .owed t) {id : NodeId} (hd : w.del id) : (clearGarbage w.mem).table id = none := by
  obtain ⟨x, p, n, hx, ⟨ht, hh⟩, hr⟩ := hi.dead id (hi.dl.dead id hd)
  have htr : w.ow p = .trash := by
    rcases hi.dl.gone id p hd ht with h | ⟨t, h⟩
    · exact h
    · exact absurd h (hno p t)
  have hv : ¬ (w.ow p).Hidden := by rw [htr]; exact fun h => h
  have hrid : ∃ r, n.removedId = some r := by
    cases n with
    | leaf c => cases c <;> first | (cases hr; done) | exact ⟨_, rfl⟩
    | inner c => cases c <;> first | (cases hr; done) | exact ⟨_, rfl⟩
  obtain ⟨r, hrid⟩ := hrid
  have : id = r := (hi.dl.rmv p n r hh hv hrid).1 id x hx ht
  subst this
  refine (gc_fold w.mem _ _).2.1 id ⟨p, List.mem_flatMap.mpr ⟨p, (hi.ow.trash p).mp htr, ?_⟩, by rw [hh]; exact hrid⟩
  exact path_cells hi.ow _ (hi.heapLt p n hh) .refl

theorem clearGarbage_inv (hi : Inv w) (hno : ∀ p t, w.ow p ≠ .owed t) : DInv w (clearGarbage w.mem) where
  tab id x p hx hp := by
    by_cases hd : w.del id
    · rw [clear_del hi hno hd] at hp; cases hp
    · rw [clear_live hi hx hd] at hp
      exact (hi.ow.tab id x p hx hp).resolve_right hd
  alive id x e hx hs hu hf := by
    obtain ⟨p, ho, ha⟩ := hu
    obtain ⟨f, g, h1, h2⟩ := freed_retired hf
    exact tab_alive hi.ow ho ha f (List.mem_flatMap.mpr ⟨g, h1, h2⟩)
  nodup := by
    unfold clearGarbage
    rw [(gc_fold w.mem _ _).1, List.append_nil, List.nodup_reverse]
    exact garbage_nodup hi.ow _
  heap e he := visible_heap hi.ow (retired_visible hi (freed_retired he))

theorem DInv.del (hi : Inv w) {s : DState} {id : NodeId} (h : DInv w s) (hd : w.del id) : s.table id = none := by
  obtain ⟨l, n, _, _, hx, _⟩ := hi.dl.top id hd
  cases hs : s.table id with
  | none => rfl
  | some p =>
    exfalso
    have ho := h.tab id _ p hx hs
    rcases hi.dl.gone id p hd (hi.ow.btab p id ho).1 with h' | ⟨t, h'⟩
    · rw [ho] at h'; cases h'
    · rw [ho] at h'; cases h'

/-- The whole destructor. -/
theorem destroy_good (hi : Inv w) (hno : ∀ p t, w.ow p ≠ .owed t) (hlk : ∀ id, w.lock id = none) {f : Nat} (hf : w.mem.nextId * (w.mem.nextPtr + 1) ≤ f) :
    DGood w (fun _ => False) (fun s' => s'.table w.mem.root = none) (clearGarbage w.mem) (destroy w.mem f) := by
  obtain ⟨n, hr, _⟩ := hi.root
  have hm : mapped w (clearGarbage w.mem) ≤ w.mem.nextId := by
    unfold mapped
    exact Nat.le_trans (List.length_filter_le _ _) (by rw [List.length_range])
  have he : Enough w (clearGarbage w.mem) 0 (f + 1) := Nat.lt_succ_of_le (Nat.le_trans (Nat.mul_le_mul_right _ hm) hf)
  have := freeIds_good hi hlk he (freePtr_good hi hlk (fun s id h hd => h.del hi hd) f) [w.mem.root] (clearGarbage w.mem)
    (fun r h => ⟨(none, n + 1), by rw [List.mem_singleton.mp h]; exact hr⟩) (clearGarbage_inv hi hno) (Nat.le_refl _)
  rw [List.foldlM_cons] at this
  unfold destroy
  cases h : freeId (freePtr w.mem f) (clearGarbage w.mem) w.mem.root with
  | error e => rw [h] at this; exact this
  | ok s' =>
    rw [h] at this
    exact ⟨this.1, this.2.1, this.2.2 _ List.mem_cons_self⟩

/-- A node whose mapping the destructor cleared is freed with all its records, and so are its children. -/
theorem freed_all (hi : Inv w) {s s' : DState} (h : DInv w s) (hr : DRel w (fun _ => False) s s') {id : NodeId} {x : Option K × Nat} {p e : Ptr}
    (hx : w.info id = some x) (hs : s.table id = some p) (hn : s'.table id = none) (hp : Path w.mem p e) :
    e ∈ s'.freed ∧ ∀ n, w.mem.heap e = some n → n.isRemove = false ∧ ∀ i ∈ n.frees, s'.table i = none := by
  have ho := h.tab id x p hx hs
  have hv : ¬ (w.ow p).Hidden := by rw [ho]; exact fun h => h
  have hall : ∀ e, Path w.mem p e → e ∈ s'.freed → ∀ n, w.mem.heap e = some n → n.isRemove = false ∧ (∀ i ∈ n.frees, s'.table i = none) ∧ ∀ q ∈ w.mem.follow e, q ∈ s'.freed := by
    intro e hp he
    exact (hr.clos e he).resolve_left (h.alive id x e hx (by rw [hs]; simp) ⟨p, ho, path_anc hi.ow hv hp⟩)
  have hin : e ∈ s'.freed := by
    induction hp with
    | refl => exact hr.done id x p hx hs hn
    | step hp hc ih =>
      obtain ⟨n, hh⟩ := visible_heap hi.ow (path_visible hi.ow hv hp)
      exact (hall _ hp ih n hh).2.2 _ hc
  exact ⟨hin, fun n hh => ⟨(hall e hp hin n hh).1, (hall e hp hin n hh).2.1⟩⟩

/-- Every child of a node is named by one of its records. -/
theorem child_named (h : OwInv w) {lo : NodeId → Option (Option K)} : ∀ (c : InnerChain K) {p : Ptr} {lv : Option K}, c.WF lo lv → w.mem.heap p = some (.inner c) →
    ∀ i ∈ (Node.inner c : Node K V).children, ∃ e n, Path w.mem p e ∧ w.mem.heap e = some n ∧ i ∈ n.frees := by
  have hsub : ∀ {c' c : InnerChain K} {p : Ptr} {o : Ptr}, o ∈ w.mem.follow p →
      (∀ i ∈ (Node.inner c : Node K V).children, ∃ e n, Path w.mem o e ∧ w.mem.heap e = some n ∧ i ∈ n.frees) → c'.low = c.low →
      (∀ x ∈ c'.seps, x ∈ c.seps ∨ ∃ n, w.mem.heap p = some n ∧ x.2 ∈ n.frees) →
      ∀ i ∈ (Node.inner c' : Node K V).children, ∃ e n, Path w.mem p e ∧ w.mem.heap e = some n ∧ i ∈ n.frees := by
    intro c' c p o ho ih hlow hseps i hi
    have key : i ∈ (Node.inner c : Node K V).children → ∃ e n, Path w.mem p e ∧ w.mem.heap e = some n ∧ i ∈ n.frees := by
      intro hi
      obtain ⟨e, n, h1, h2⟩ := ih i hi
      exact ⟨e, n, h1.head ho, h2⟩
    rcases List.mem_cons.mp hi with rfl | hi
    · exact key (by rw [hlow]; exact List.mem_cons_self)
    · obtain ⟨x, hx, rfl⟩ := List.mem_map.mp hi
      rcases hseps x hx with h | ⟨n, h1, h2⟩
      · exact key (List.mem_cons_of_mem _ (List.mem_map.mpr ⟨x, h, rfl⟩))
      · exact ⟨p, n, .refl, h1, h2⟩
  intro c
  induction c with
  | base l hi d items =>
    intro p lv hwf hp i hi'
    refine ⟨p, _, .refl, hp, ?_⟩
    obtain ⟨_, _, hh, _⟩ := hwf
    cases items with
    | nil => cases hh
    | cons a items =>
      cases hh
      exact hi'
  | ins item nx loc c ih =>
    intro p lv hwf hp
    obtain ⟨o, e1, e2⟩ := (h.klt p _ hp).1
    refine hsub (o := o) ?_ (ih hwf.1 e2) rfl fun x hx => ?_
    · simp [Mem.follow, hp, Node.isBase, Node.isRemove, InnerChain.isRemove, Node.isAbort, Node.isMerge, e1]
    · rcases List.mem_append.mp hx with hx | hx
      · exact Or.inl (List.mem_filter.mp hx).1
      · rcases List.mem_cons.mp hx with rfl | hx
        · exact Or.inr ⟨_, hp, List.mem_cons_self⟩
        · exact Or.inl (List.mem_filter.mp hx).1
  | del item pr nx loc c ih =>
    intro p lv hwf hp
    obtain ⟨o, e1, e2⟩ := (h.klt p _ hp).1
    refine hsub (o := o) ?_ (ih hwf.1 e2) rfl fun x hx => Or.inl (List.mem_filter.mp hx).1
    simp [Mem.follow, hp, Node.isBase, Node.isRemove, InnerChain.isRemove, Node.isAbort, Node.isMerge, e1]
  | split item sb c ih =>
    intro p lv hwf hp
    obtain ⟨o, e1, e2⟩ := (h.klt p _ hp).1
    refine hsub (o := o) ?_ (ih hwf.1 e2) rfl fun x hx => Or.inl (List.mem_filter.mp hx).1
    simp [Mem.follow, hp, Node.isBase, Node.isRemove, InnerChain.isRemove, Node.isAbort, Node.isMerge, e1]
  | merge mk id r c ihr ihc =>
    intro p lv hwf hp i hi
    obtain ⟨o, q', id', e1, e2, e3⟩ := (h.klt p _ hp).1
    obtain ⟨o', e4, e5⟩ := (h.klt q' _ e3).1
    have hf : w.mem.follow p = [o, o'] := by simp [Mem.follow, hp, Node.isBase, Node.isRemove, InnerChain.isRemove, Node.isAbort, Node.isMerge, e1, e4]
    have hl : i ∈ (Node.inner c : Node K V).children → ∃ e n, Path w.mem p e ∧ w.mem.heap e = some n ∧ i ∈ n.frees := by
      intro hi
      obtain ⟨e, n, h1, h2⟩ := ihc hwf.1 e2 i hi
      exact ⟨e, n, h1.head (by simp [hf]), h2⟩
    have hr : i ∈ (Node.inner r : Node K V).children → ∃ e n, Path w.mem p e ∧ w.mem.heap e = some n ∧ i ∈ n.frees := by
      intro hi
      obtain ⟨e, n, h1, h2⟩ := ihr hwf.2.1 e5 i hi
      exact ⟨e, n, h1.head (by simp [hf]), h2⟩
    rcases List.mem_cons.mp hi with rfl | hi
    · exact hl List.mem_cons_self
    · obtain ⟨x, hx, rfl⟩ := List.mem_map.mp hi
      rcases List.mem_append.mp hx with hx | hx
      · exact hl (List.mem_cons_of_mem _ (List.mem_map.mpr ⟨x, hx, rfl⟩))
      · rcases List.mem_cons.mp hx with rfl | hx
        · exact hr List.mem_cons_self
        · exact hr (List.mem_cons_of_mem _ (List.mem_map.mpr ⟨x, hx, rfl⟩))
  | remove id c ih => intro p lv hwf; exact hwf.elim
  | abort id c ih => intro p lv hwf; exact hwf.elim

theorem not_dead (hi : Inv w) {id : NodeId} {p : Ptr} {n : Node K V} (hat : w.At id p n) (hrm : n.isRemove = false) : ¬ w.dead id := by
  intro hdd
  obtain ⟨_, p', n', _, hat', hr'⟩ := hi.dead id hdd
  have e1 := Option.some.inj (hat.1.symm.trans hat'.1)
  subst e1
  have e2 := Option.some.inj (hat.2.symm.trans hat'.2)
  subst e2
  rw [hrm] at hr'
  cases hr'

/-- The mapping of every node that hangs below the root was cleared. -/
theorem attached_cleared (hi : Inv w) (hlk : ∀ id, w.lock id = none) {s : DState} (hno : ∀ p t, w.ow p ≠ .owed t)
    (hr : DRel w (fun _ => False) (clearGarbage w.mem) s) (hroot : s.table w.mem.root = none) {id : NodeId} (h : Attached w.mem id) :
    (∃ x, w.info id = some x) ∧ s.table id = none := by
  have hs0 := clearGarbage_inv hi hno
  induction h with
  | root => obtain ⟨n, h, _⟩ := hi.root; exact ⟨⟨_, h⟩, hroot⟩
  | sibling h htb hh hrm hc hn hsp ih =>
    rename_i id i n nd p e f
    obtain ⟨⟨x, hx⟩, ht⟩ := ih
    have hd : ¬ w.del id := fun hd => not_dead hi ⟨htb, hh⟩ hrm (hi.dl.dead id hd)
    have hs := clear_live hi hx hd
    rw [htb] at hs
    have hp := path_of_cells hc
    have hv : ¬ (w.ow e).Hidden := path_visible hi.ow (by rw [hs0.tab id x p hx hs]; exact fun h => h) hp
    have hfr := ((freed_all hi hs0 hr hx hs ht hp).2 nd hn).2 i
    rcases hsp with ⟨k, sb, c, rfl⟩ | ⟨k, sb, c, rfl⟩
    · exact ⟨hi.dl.spl e _ i hn hv rfl, hfr List.mem_cons_self⟩
    · exact ⟨hi.dl.spl e _ i hn hv rfl, hfr List.mem_cons_self⟩
  | child h hn hrm hc ih =>
    rename_i id i n
    obtain ⟨⟨⟨l, m⟩, hx⟩, ht⟩ := ih
    obtain ⟨p, hat⟩ := at_of_node hn
    have hok := (hi.at_ok hx hat).2
    have hd : ¬ w.del id := fun hd => not_dead hi hat hrm (hi.dl.dead id hd)
    have hab : n.isAbort = false := by
      cases hab : n.isAbort with
      | false => rfl
      | true =>
        cases n with
        | leaf c => cases hab
        | inner c =>
          cases c with
          | abort q c =>
            obtain ⟨t, h⟩ := hi.abort id _ p q c hx hat
            rw [hlk] at h
            cases h
          | _ => cases hab
    have hcl : n.clean = true := by
      cases n with
      | leaf c => cases c <;> first | rfl | cases hrm
      | inner c => cases c <;> first | rfl | (cases hrm; done) | cases hab
    have hb := hok.1
    rw [Node.strip_of_clean hcl] at hb
    cases n with
    | leaf c => cases hc
    | inner c =>
      obtain ⟨_, _, _, m', rfl, h2, h3⟩ := hb
      have hinfo : ∃ x, w.info i = some x := by
        have he : i ∈ c.childIds := by
          rcases List.mem_cons.mp hc with rfl | hc
          · exact InnerChain.low_mem_childIds h2
          · obtain ⟨x, hx, rfl⟩ := List.mem_map.mp hc
            exact InnerChain.seps_mem_childIds h2 x hx
        obtain ⟨l', h'⟩ := h3 i he
        exact ⟨_, h'⟩
      refine ⟨hinfo, ?_⟩
      have hs := clear_live hi hx hd
      rw [hat.1] at hs
      obtain ⟨e, nd, h4, h5, h6⟩ := child_named hi.ow c h2 hat.2 i hc
      exact ((freed_all hi hs0 hr hx hs ht h4).2 nd h5).2 i h6

end Tree
end BwTree
