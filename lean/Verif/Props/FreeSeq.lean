import Verif.Props.FreeDestroy
import Verif.Props.SeqDestroy

/-!
  C40 and C43 with the memory that the records of a chain share: without merge records the destructor of the tree uses no memory it gave back.
-/

namespace BwTree
namespace Tree

set_option linter.unusedSectionVars false

variable {K V : Type} [LinearOrder K] [DecidableEq V] [Inhabited K] {m : Mem K V}
/-- A merge record and its left branch. -/
theorem merge_kids (hk : Kids m) {p l y : Nat} {n : Node K V} (hp : m.heap p = some n) (hm : n.isMerge = true) (hf : m.follow p = [l, y]) :
    n.isBase = false ∧ ∃ r, m.kids p = [l, r] := by
  obtain ⟨hc, hl⟩ := hk p n hp
  have two : ∀ o q : Nat, m.kids p = [o, q] → n.isBase = false → n.isRemove = false → n.isAbort = false → n.isBase = false ∧ ∃ r, m.kids p = [l, r] := by
    intro o q k1 k2 k3 k4
    have : m.follow p = o :: m.kids q := by simp [Mem.follow, hp, k2, hm, k3, k4, k1]
    rw [hf] at this
    exact ⟨k2, q, by rw [k1, (List.cons.inj this).1]⟩
  cases n with
  | leaf c =>
    cases c with
    | merge k i r c => obtain ⟨o, q, j, h1, _, _⟩ := hc; exact two o q h1 rfl rfl rfl
    | _ => cases hm
  | inner c =>
    cases c with
    | merge k i r c => obtain ⟨o, q, j, h1, _, _⟩ := hc; exact two o q h1 rfl rfl rfl
    | _ => cases hm

theorem grow_fold {α : Type} {g : DState → α → Except DFail DState} (hg : ∀ s x s', g s x = .ok s' → s.freed <:+ s'.freed) : ∀ {l : List α} {s s' : DState},
    l.foldlM g s = .ok s' → s.freed <:+ s'.freed
  | [], s, s', h => by cases h; exact List.suffix_refl _
  | x :: l, s, s', h => by
    rw [List.foldlM_cons] at h
    cases hx : g s x with
    | error e => rw [hx] at h; cases h
    | ok s1 =>
      rw [hx] at h
      exact (hg s x s1 hx).trans (grow_fold hg h)

theorem grow_id {rec : Ptr → DState → Except DFail DState} (hr : ∀ p s s', rec p s = .ok s' → s.freed <:+ s'.freed) {s s' : DState} {id : NodeId}
    (h : freeId rec s id = .ok s') : s.freed <:+ s'.freed := by
  unfold freeId at h
  split at h
  · cases h
  · split at h
    · cases h; exact List.suffix_refl _
    · exact hr _ (s.clear id) _ h

/-- Where the destructor gets through (each record having memory of its own), the base node found through the low key pointer is destroyed, and was not before. -/
theorem free_home (hk : Kids m) : ∀ (f : Nat) (p : Nat) (s s' : DState), freePtr m f p s = .ok s' →
    s.freed <:+ s'.freed ∧ p ∈ s'.freed ∧ ∃ b, m.home p = some b ∧ b ∉ s.freed
  | 0, _, _, _, h => by cases h
  | f + 1, p, s, s', h => by
    unfold freePtr at h
    split at h
    · cases h
    · rename_i hns
      cases hp : m.heap p with
      | none => rw [hp] at h; cases h
      | some n =>
        simp only [hp] at h
        split at h
        · cases h
        · rename_i hra
          simp only [Bool.or_eq_true, not_or, Bool.not_eq_true] at hra
          cases hx : n.frees.foldlM (freeId (freePtr m f)) s with
          | error e => rw [hx] at h; cases h
          | ok s1 =>
            rw [hx] at h
            simp only [bind, Except.bind] at h
            have g1 : s.freed <:+ (s1.unmap n.unmaps).freed := by
              rw [unmap_freed]
              exact grow_fold (fun s x s' h => grow_id (fun p s s' h => (free_home hk f p s s' h).1) h) hx
            generalize s1.unmap n.unmaps = s2 at h g1
            rcases kids_view hk hp hra.1 hra.2 with hb | ⟨q, hb, hm, h3, h4⟩ | ⟨l, y, hb, hm, h4⟩
            · simp only [hb, if_true] at h
              cases h
              exact ⟨g1.trans (List.suffix_cons _ _), List.mem_cons_self, p, home_base hp hb, hns⟩
            · simp only [hb, hm, h4, Bool.false_eq_true, if_false, List.foldlM_cons, List.foldlM_nil] at h
              cases hq : freePtr m f q (s2.free p) with
              | error e => rw [hq] at h; cases h
              | ok s3 =>
                rw [hq] at h
                cases h
                obtain ⟨a, _, b, b1, b2⟩ := free_home hk f q _ _ hq
                exact ⟨(g1.trans (List.suffix_cons _ _)).trans a, a.subset List.mem_cons_self, b, by rw [home_kid hk hp hb h3]; exact b1,
                  fun hb' => b2 (List.mem_cons_of_mem _ (g1.subset hb'))⟩
            · obtain ⟨_, r, hr⟩ := merge_kids hk hp hm h4
              simp only [hb, hm, h4, Bool.false_eq_true, if_false, if_true, List.foldlM_cons, List.foldlM_nil, bind, Except.bind, pure, Except.pure] at h
              cases hl : freePtr m f l s2 with
              | error e => rw [hl] at h; cases h
              | ok s3 =>
                rw [hl] at h
                simp only at h
                cases hy : freePtr m f y s3 with
                | error e => rw [hy] at h; cases h
                | ok s4 =>
                  rw [hy] at h
                  cases h
                  obtain ⟨a, _, b, b1, b2⟩ := free_home hk f l _ _ hl
                  have a' := (free_home hk f y _ _ hy).1
                  exact ⟨((g1.trans a).trans a').trans (List.suffix_cons _ _), List.mem_cons_self, b, by rw [home_kid hk hp hb hr]; exact b1,
                    fun hb' => b2 (g1.subset hb')⟩

/-- `y` does what `x` does where `x` succeeds, frees nothing twice and destroys no merge record. -/
def SameBut (m : Mem K V) (s : DState) (x y : Except DFail DState) : Prop := ∀ a, x = .ok a → a.freed.Nodup → (∀ e ∈ a.freed, e ∈ s.freed ∨ ¬ MergeAt m e) → y = .ok a

theorem same_fold {α : Type} {g h : DState → α → Except DFail DState} (hg : ∀ s x, SameBut m s (g s x) (h s x))
    (hs : ∀ s x s', g s x = .ok s' → s.freed <:+ s'.freed) : ∀ (l : List α) (s : DState), SameBut m s (l.foldlM g s) (l.foldlM h s)
  | [], s => fun a ha _ _ => ha
  | x :: l, s => fun a ha hd hm => by
    rw [List.foldlM_cons] at ha ⊢
    cases hx : g s x with
    | error e => rw [hx] at ha; cases ha
    | ok s1 =>
      rw [hx] at ha
      have h1 := grow_fold hs ha
      rw [hg s x s1 hx (hd.sublist h1.sublist) (fun e he => hm e (h1.subset he))]
      exact same_fold hg hs l s1 a ha hd (fun e he => (hm e he).imp (fun h => (hs s x s1 hx).subset h) id)

theorem same_id {g h : Ptr → DState → Except DFail DState} (hg : ∀ p s, SameBut m s (g p s) (h p s)) (s : DState) (id : NodeId) :
    SameBut m s (freeId g s id) (freeId h s id) := fun a ha hd hm => by
  unfold freeId at ha ⊢
  split at ha
  · cases ha
  · rename_i hid
    rw [if_neg hid]
    split at ha
    · exact ha
    · exact hg _ _ a ha hd hm

theorem usable_home {gone : List Ptr} {p b : Nat} (h : m.block p = some b) (hb : b ∉ gone) : m.usable gone p = true := by
  simp [Mem.usable, h, hb]

theorem same_ptr (hk : Kids m) : ∀ (f : Nat) (p : Nat) (s : DState), SameBut m s (freePtr m f p s) (freePtrIn m f p s)
  | 0, _, _ => fun a ha _ _ => by cases ha
  | f + 1, p, s => fun a ha hd hm => by
    obtain ⟨_, hpa, b, b1, b2⟩ := free_home hk _ p s a ha
    unfold freePtr at ha
    unfold freePtrIn
    split at ha
    · cases ha
    · rename_i hns
      cases hp : m.heap p with
      | none => rw [hp] at ha; cases ha
      | some n =>
        simp only [hp] at ha ⊢
        split at ha
        · cases ha
        · rename_i hra
          have hra' := hra
          simp only [Bool.or_eq_true, not_or, Bool.not_eq_true] at hra'
          have hnm : n.isMerge = false := by
            cases h : n.isMerge with
            | false => rfl
            | true => exact absurd ⟨n, hp, h⟩ ((hm p hpa).resolve_left hns)
          have hbl : m.block p = some b := by rw [block_home hp hnm hra'.1 hra'.2]; exact b1
          rw [if_neg (fun h => h.elim hns (fun h => by rw [usable_home hbl b2] at h; cases h)), if_neg hra]
          cases hx : n.frees.foldlM (freeId (freePtr m f)) s with
          | error e => rw [hx] at ha; cases ha
          | ok s1 =>
            rw [hx] at ha
            simp only [bind, Except.bind] at ha
            have g0 : s.freed <:+ s1.freed := grow_fold (fun s x s' h => grow_id (fun p s s' h => (free_home hk f p s s' h).1) h) hx
            have g1 : s1.freed = (s1.unmap n.unmaps).freed := (unmap_freed _ _).symm
            have ids : (s1.freed <:+ a.freed) → n.frees.foldlM (freeId (freePtrIn m f)) s = .ok s1 := fun hsuf =>
              same_fold (fun s x => same_id (fun p s => same_ptr hk f p s) s x) (fun s x s' h => grow_id (fun p s s' h => (free_home hk f p s s' h).1) h)
                n.frees s s1 hx (hd.sublist hsuf.sublist) (fun e he => hm e (hsuf.subset he))
            obtain ⟨s2, hs2⟩ : ∃ s2, s1.unmap n.unmaps = s2 := ⟨_, rfl⟩
            rw [hs2] at ha g1
            rcases kids_view hk hp hra'.1 hra'.2 with hb | ⟨q, hb, _, h3, h4⟩ | ⟨l, y, hb, hm', h4⟩
            · simp only [hb, if_true] at ha
              cases ha
              have hsuf : s1.freed <:+ (s2.free p).freed := by rw [g1]; exact List.suffix_cons _ _
              rw [home_base hp hb] at b1
              cases b1
              have hp2 : p ∉ s2.freed := (List.nodup_cons.mp hd).1
              rw [ids hsuf]
              simp only [bind, Except.bind, hs2, usable_home hbl hp2, hb, Bool.true_eq_false, if_true, if_false]
            · simp only [hb, hnm, h4, Bool.false_eq_true, if_false, List.foldlM_cons, List.foldlM_nil] at ha
              cases hq : freePtr m f q (s2.free p) with
              | error e => rw [hq] at ha; cases ha
              | ok s3 =>
                rw [hq] at ha
                cases ha
                obtain ⟨a1, _, b', b3, b4⟩ := free_home hk f q _ _ hq
                rw [home_kid hk hp hb h3, b3] at b1
                cases b1
                have hsuf : s1.freed <:+ a.freed := by rw [g1]; exact (List.suffix_cons _ _).trans a1
                have hp2 : b ∉ s2.freed := fun h => b4 (List.mem_cons_of_mem _ h)
                rw [ids hsuf]
                simp only [bind, Except.bind, hs2, usable_home hbl hp2, hb, hnm, h4, Bool.true_eq_false, Bool.false_eq_true, if_false, List.foldlM_cons, List.foldlM_nil]
                rw [same_ptr hk f q _ _ hq hd (fun e he => (hm e he).imp (fun h => List.mem_cons_of_mem _ (by rw [← g1]; exact g0.subset h)) id)]
                rfl
            · rw [hnm] at hm'; cases hm'

/-- **The destructor of the tree without merge records.** When no call is running and no node of the tree has a merge record, the destructor uses no memory it gave
back: with the memory that the records of a chain share it destroys what it would destroy if each record had memory of its own. -/
theorem C40_shared_memory {c : Conf K V} (h : Reach c) (hq : ∀ t, c.thr t = none) {fuel : Nat} (hf : c.mem.depth ≤ fuel) {s : DState}
    (hs : destroy c.mem fuel = .ok s) (hm : ∀ e, PartOf c.mem e → ¬ MergeAt c.mem e) : destroyIn c.mem fuel = .ok s := by
  obtain ⟨w, hw, hmem, hi, hno, hlk⟩ := quiet_world h hq
  rw [← hmem] at hf hs hm ⊢
  have hg := destroy_good hi hno hlk hf
  rw [hs] at hg
  obtain ⟨hinv, hrel, _⟩ := hg
  refine same_id (fun p s => same_ptr hi.ow.klt fuel p s) _ _ s hs hinv.nodup fun e he => ?_
  rcases hrel.fresh e he with h1 | h1 | ⟨id, x, _, _, _, hu⟩
  · exact .inl h1
  · exact h1.elim
  · rcases classify hi (hu.visible hi.ow) with h1 | h1 | ⟨⟨_, n, _, _, _, hn, hr⟩, _⟩ | ⟨t, p, f, ho, _⟩
    · exact .inr (hm e h1)
    · exact .inl (retired_freed hi h1)
    · refine .inr ?_
      rintro ⟨n', hn', hm'⟩
      rw [hn] at hn'; cases hn'
      cases n with
      | leaf c => cases c <;> first | (cases hm'; done) | (cases hr; done)
      | inner c => cases c <;> first | (cases hm'; done) | (cases hr; done)
    · exact absurd ho (hno p t)

/-- A chain without merge records has none. -/
theorem noMerge_cells (hk : Kids m) : ∀ (f p : Nat) (n : Node K V), m.heap p = some n → n.noMerge → ∀ e ∈ m.cells f p, ¬ MergeAt m e
  | 0, _, _, _, _, _, he => by cases he
  | f + 1, p, n, hp, hn, e, he => by
    have hm : n.isMerge = false := by
      cases n with
      | leaf c => cases c <;> first | rfl | exact hn.elim
      | inner c => cases c <;> first | rfl | exact hn.elim
    rcases List.mem_cons.mp he with rfl | he
    · rintro ⟨n', h1, h2⟩
      rw [hp] at h1; cases h1
      rw [hm] at h2; cases h2
    · obtain ⟨q, hq, he⟩ := List.mem_flatMap.mp he
      obtain ⟨hc, _⟩ := hk p n hp
      have one : ∀ (o : Nat) (n' : Node K V), m.kids p = [o] → m.heap o = some n' → n'.noMerge → q ∈ m.follow p → ¬ MergeAt m e := by
        intro o n' k1 k2 k3 hq
        have : q = o := by
          unfold Mem.follow at hq
          rw [hp] at hq
          simp only [hm, k1] at hq
          split at hq
          · cases hq
          · simpa using hq
        subst this
        exact noMerge_cells hk f q n' k2 k3 e he
      have nil : m.follow p = [] → ¬ MergeAt m e := fun h => by rw [h] at hq; cases hq
      cases n with
      | leaf c =>
        cases c with
        | base => exact nil (by simp [Mem.follow, hp, Node.isBase])
        | ins k v i e c => obtain ⟨o, h1, h2⟩ := hc; exact one o _ h1 h2 hn hq
        | del k v i e c => obtain ⟨o, h1, h2⟩ := hc; exact one o _ h1 h2 hn hq
        | split k i s c => obtain ⟨o, h1, h2⟩ := hc; exact one o _ h1 h2 hn hq
        | merge k i r c => cases hm
        | remove i c => exact nil (follow_remove hp rfl)
      | inner c =>
        cases c with
        | base => exact nil (by simp [Mem.follow, hp, Node.isBase])
        | ins item next loc c => obtain ⟨o, h1, h2⟩ := hc; exact one o _ h1 h2 hn hq
        | del item prev next loc c => obtain ⟨o, h1, h2⟩ := hc; exact one o _ h1 h2 hn hq
        | split item s c => obtain ⟨o, h1, h2⟩ := hc; exact one o _ h1 h2 hn hq
        | merge k i r c => cases hm
        | remove i c => exact nil (follow_remove hp rfl)
        | abort q c => exact nil (by simp [Mem.follow, hp, Node.isBase, Node.isRemove, Node.isAbort])

/-- **C43 with the memory the records share.** After calls that do not overlap no node of the tree has a merge record, so the destructor of the tree runs to its end without
using memory it gave back. -/
theorem C43_shared_memory {c : Conf K V} (h : SeqReach c) {fuel : Nat} (hf : c.mem.depth ≤ fuel) :
    (∀ e, PartOf c.mem e → ¬ MergeAt c.mem e) ∧
    ∃ s, destroyIn c.mem fuel = .ok s ∧ s.freed.Nodup ∧ (∀ e ∈ s.freed, c.mem.heap e ≠ none) ∧ ∀ e, Seen e c → s.freed.count e = 1 := by
  obtain ⟨w, hw⟩ := h.calls
  have hm : ∀ e, PartOf c.mem e → ¬ MergeAt c.mem e := by
    rintro e ⟨id, p, h1, h2, h3⟩
    rw [← hw.mem] at h1 h2 h3 ⊢
    have hi := hw.rest.1
    obtain ⟨n, hl⟩ := onLevel_live hi h1
    obtain ⟨q, hq, hpub⟩ := hi.cur id _ hl.1.choose_spec
    rw [h2] at hq; cases hq
    obtain ⟨_, _, node, _, hnode, _⟩ := hi.ok id p hpub
    have hnd : Nd w n id node := ⟨hl, p, h2, hnode⟩
    obtain ⟨s1, s2, _⟩ := hw.rest.2.1.shape n id node hnd
    have s3 : node.isRemove = false := by
      cases hr : node.isRemove with
      | false => rfl
      | true => exact absurd ⟨node, hnd, hr⟩ (hw.rest.2.2 n id)
    cases h3 with
    | chain hc => exact noMerge_cells hi.ow.klt _ p node hnode s1 e hc
    | below hh hk _ _ =>
      rw [hnode] at hh; cases hh
      rcases hk with hk | hk
      · rw [s3] at hk; cases hk
      · rw [s2] at hk; cases hk
  obtain ⟨s, h1, h2⟩ := C43_destroy h hf
  exact ⟨hm, s, C40_shared_memory h.reach hw.thr hf h1 hm, h2⟩

/-- The run with a split and a merge: a merge record was made in it, and is retired. -/
example : ∃ c : Conf Nat Nat, SeqReach c ∧ (∃ e, MergeAt c.mem e ∧ Retired c.mem e) ∧ Seen 1 c ∧ ∃ s, destroyIn c.mem c.mem.depth = .ok s ∧ s.freed.count 1 = 1 := by
  have h : ((seqRun 1000 initConf merge175).map fun c => (List.range c.mem.nextPtr).any fun e => ((c.mem.heap e).map Node.isMerge == some true) &&
      c.mem.garbage.any fun g => (c.mem.cells 100 g).contains e) = some true := by decide +kernel
  cases hc : seqRun 1000 initConf merge175 with
  | none => rw [hc] at h; cases h
  | some c =>
    rw [hc] at h
    have hop : ∀ op ∈ merge175, op.forward = true := by
      intro op ho
      rcases List.mem_append.mp ho with ho | ho
      · obtain ⟨i, _, rfl⟩ := List.mem_map.mp ho; rfl
      · obtain ⟨i, _, rfl⟩ := List.mem_map.mp ho; rfl
    have hs : SeqReach c := seqRun_reach .init hop hc
    have hseen : Seen 1 c := seqRun_seen (.now .init ⟨FIRST_LEAF, 1, .first (.down .root (by rfl) (by rfl)), by rfl, .chain (fuel := 1) (by decide)⟩) hop hc
    obtain ⟨e, _, he⟩ := List.any_eq_true.mp (Option.some.inj h)
    simp only [Bool.and_eq_true, beq_iff_eq] at he
    obtain ⟨n, hn, hm⟩ := Option.map_eq_some_iff.mp he.1
    obtain ⟨g, hg, hge⟩ := List.any_eq_true.mp he.2
    obtain ⟨_, s, h1, _, _, h4⟩ := C43_shared_memory hs (Nat.le_refl c.mem.depth)
    exact ⟨c, hs, ⟨e, ⟨n, hn, hm⟩, _, g, hg, List.contains_iff_mem.mp hge⟩, hseen, s, h1, h4 1 hseen⟩

end Tree
end BwTree
