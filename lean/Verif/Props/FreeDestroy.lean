import Verif.Props.FreeOrder

/-!
  C40 and the memory of merge records: `FreeNodeByPointer` runs their destructors in memory it gave back.
-/

namespace BwTree
namespace Tree

variable {K V : Type} [LinearOrder K] [DecidableEq V] [Inhabited K] {m : Mem K V}

theorem kids_view (hk : Kids m) {p : Nat} {n : Node K V} (hp : m.heap p = some n) (hr : n.isRemove = false) (ha : n.isAbort = false) :
    n.isBase = true ∨ (∃ q : Nat, n.isBase = false ∧ n.isMerge = false ∧ m.kids p = [q] ∧ m.follow p = [q]) ∨
    ∃ (l y : Nat), n.isBase = false ∧ n.isMerge = true ∧ m.follow p = [l, y] := by
  obtain ⟨hc, hl⟩ := hk p n hp
  have one : ∀ o : Nat, m.kids p = [o] → n.isBase = false → n.isMerge = false →
      ∃ q : Nat, n.isBase = false ∧ n.isMerge = false ∧ m.kids p = [q] ∧ m.follow p = [q] := by
    intro o k3 k6 k7
    exact ⟨o, k6, k7, k3, by rw [follow_one hp k6 hr ha k7]; exact k3⟩
  have two : ∀ o q : Nat, m.kids p = [o, q] → (∃ y : Nat, m.kids q = [y]) → n.isBase = false → n.isMerge = true →
      ∃ (l y : Nat), n.isBase = false ∧ n.isMerge = true ∧ m.follow p = [l, y] := by
    rintro o q k1 ⟨y, y1⟩ k8 k9
    exact ⟨o, y, k8, k9, by simp [Mem.follow, hp, k8, k9, hr, ha, k1, y1]⟩
  cases n with
  | leaf c =>
    cases c with
    | base => exact .inl rfl
    | ins k v i e c => obtain ⟨o, h1, _⟩ := hc; exact .inr (.inl (one o h1 rfl rfl))
    | del k v i e c => obtain ⟨o, h1, _⟩ := hc; exact .inr (.inl (one o h1 rfl rfl))
    | split k i s c => obtain ⟨o, h1, _⟩ := hc; exact .inr (.inl (one o h1 rfl rfl))
    | merge k i r c =>
      obtain ⟨o, q, j, h1, _, h3⟩ := hc
      obtain ⟨y, y1, _⟩ := (hk q _ h3).1
      exact .inr (.inr (two o q h1 ⟨y, y1⟩ rfl rfl))
    | remove i c => cases hr
  | inner c =>
    cases c with
    | base => exact .inl rfl
    | ins item next loc c => obtain ⟨o, h1, _⟩ := hc; exact .inr (.inl (one o h1 rfl rfl))
    | del item prev next loc c => obtain ⟨o, h1, _⟩ := hc; exact .inr (.inl (one o h1 rfl rfl))
    | split item s c => obtain ⟨o, h1, _⟩ := hc; exact .inr (.inl (one o h1 rfl rfl))
    | merge k i r c =>
      obtain ⟨o, q, j, h1, _, h3⟩ := hc
      obtain ⟨y, y1, _⟩ := (hk q _ h3).1
      exact .inr (.inr (two o q h1 ⟨y, y1⟩ rfl rfl))
    | remove i c => cases hr
    | abort q c => cases ha

/-- Nothing but records that are not merge records were destroyed from `s` to `s'`. -/
def NoMerge (m : Mem K V) (s s' : DState) : Prop := (∀ e ∈ s.freed, e ∈ s'.freed) ∧ ∀ e ∈ s'.freed, e ∈ s.freed ∨ ¬ MergeAt m e

theorem NoMerge.refl (s : DState) : NoMerge m s s := ⟨fun _ h => h, fun _ h => .inl h⟩

theorem NoMerge.of {s s' : DState} (h : s'.freed = s.freed) : NoMerge m s s' := by
  unfold NoMerge
  rw [h]
  exact NoMerge.refl s

theorem NoMerge.trans {s1 s2 s3 : DState} (h : NoMerge m s1 s2) (h' : NoMerge m s2 s3) : NoMerge m s1 s3 :=
  ⟨fun e he => h'.1 e (h.1 e he), fun e he => (h'.2 e he).elim (fun h3 => h.2 e h3) .inr⟩

theorem NoMerge.free {s : DState} {p : Ptr} {n : Node K V} (hp : m.heap p = some n) (h : n.isMerge = false) : NoMerge m s (s.free p) := by
  refine ⟨fun e he => List.mem_cons_of_mem _ he, fun e he => ?_⟩
  rcases List.mem_cons.mp he with rfl | he
  · refine .inr ?_
    rintro ⟨x, hx, hm⟩
    rw [hp] at hx; cases hx
    rw [h] at hm; cases hm
  · exact .inl he

theorem noMerge_fold {α : Type} {g : DState → α → Except DFail DState} (hg : ∀ s x s', g s x = .ok s' → NoMerge m s s') : ∀ {l : List α} {s s' : DState},
    l.foldlM g s = .ok s' → NoMerge m s s'
  | [], s, s', h => by cases h; exact .refl s
  | x :: l, s, s', h => by
    rw [List.foldlM_cons] at h
    cases hx : g s x with
    | error e => rw [hx] at h; cases h
    | ok s1 =>
      rw [hx] at h
      exact (hg s x s1 hx).trans (noMerge_fold hg h)

theorem noMerge_id {rec : Ptr → DState → Except DFail DState} (hr : ∀ p s s', rec p s = .ok s' → NoMerge m s s') {s s' : DState} {id : NodeId}
    (h : freeId rec s id = .ok s') : NoMerge m s s' := by
  unfold freeId at h
  split at h
  · cases h
  · split at h
    · cases h; exact .refl _
    · exact (NoMerge.of (s' := s.clear id) rfl).trans (hr _ _ _ h)

theorem unmap_freed (s : DState) : ∀ o, (s.unmap o).freed = s.freed
  | some _ => rfl
  | none => rfl

/-- Where `FreeNodeByPointer` gets through, it has met no merge record, and the base node found through the low key pointer is destroyed. -/
theorem freeIn_spec (hk : Kids m) : ∀ (f : Nat) (p : Nat) (s s' : DState), freePtrIn m f p s = .ok s' → NoMerge m s s' ∧ ∀ b, m.home p = some b → b ∈ s'.freed
  | 0, _, _, _, h => by cases h
  | f + 1, p, s, s', h => by
    unfold freePtrIn at h
    split at h
    · cases h
    · cases hp : m.heap p with
      | none => rw [hp] at h; cases h
      | some n =>
        simp only [hp] at h
        split at h
        · cases h
        · rename_i _ hra
          simp only [Bool.or_eq_true, not_or, Bool.not_eq_true] at hra
          cases hx : n.frees.foldlM (freeId (freePtrIn m f)) s with
          | error e => rw [hx] at h; cases h
          | ok s1 =>
            rw [hx] at h
            simp only [bind, Except.bind] at h
            have n1 : NoMerge m s (s1.unmap n.unmaps) :=
              (noMerge_fold (fun s x s' h => noMerge_id (fun p s s' h => (freeIn_spec hk f p s s' h).1) h) hx).trans (.of (unmap_freed _ _))
            generalize s1.unmap n.unmaps = s2 at h n1
            split at h
            · cases h
            · rcases kids_view hk hp hra.1 hra.2 with hb | ⟨q, hb, hm, h3, h4⟩ | ⟨l, y, hb, hm, h4⟩
              · simp only [hb, if_true] at h
                cases h
                have hm : n.isMerge = false := by
                  cases n with
                  | leaf c => cases c <;> first | rfl | cases hb
                  | inner c => cases c <;> first | rfl | cases hb
                refine ⟨n1.trans (.free hp hm), fun b h => ?_⟩
                rw [home_base hp hb] at h; cases h
                exact List.mem_cons_self
              · simp only [hb, hm, h4, Bool.false_eq_true, if_false, List.foldlM_cons, List.foldlM_nil] at h
                cases hq : freePtrIn m f q (s2.free p) with
                | error e => rw [hq] at h; cases h
                | ok s3 =>
                  rw [hq] at h
                  cases h
                  obtain ⟨a, b⟩ := freeIn_spec hk f q _ _ hq
                  exact ⟨(n1.trans (.free hp hm)).trans a, fun x hx => b x (by rw [← home_kid hk hp hb h3]; exact hx)⟩
              · simp only [hb, hm, h4, Bool.false_eq_true, if_false, if_true] at h
                cases hl : freePtrIn m f l s2 with
                | error e => rw [hl] at h; cases h
                | ok s3 =>
                  rw [hl] at h
                  simp only at h
                  split at h
                  · cases h
                  · cases hy : freePtrIn m f y s3 with
                    | error e => rw [hy] at h; cases h
                    | ok s4 =>
                      rw [hy] at h
                      simp only at h
                      have hb' := (freeIn_spec hk f y _ _ hy).2
                      have : m.usable s4.freed p = false := by
                        unfold Mem.usable
                        rw [block_merge hp hm hra.1 hra.2 h4]
                        cases ho : m.home y with
                        | none => rfl
                        | some b => simp [hb' b ho]
                      rw [this] at h
                      cases h

/-- `h` does what `g` does where `g` succeeds, or stops at memory that was given back. -/
def Follows {α : Type} (x y : Except DFail α) : Prop := ∀ a, x = .ok a → y = .ok a ∨ y = .error .dangling

theorem follows_fold {α : Type} {g h : DState → α → Except DFail DState} (hg : ∀ s x, Follows (g s x) (h s x)) : ∀ (l : List α) (s : DState),
    Follows (l.foldlM g s) (l.foldlM h s)
  | [], s => fun a ha => .inl ha
  | x :: l, s => fun a ha => by
    rw [List.foldlM_cons] at ha ⊢
    cases hx : g s x with
    | error e => rw [hx] at ha; cases ha
    | ok s1 =>
      rw [hx] at ha
      rcases hg s x s1 hx with h1 | h1 <;> rw [h1]
      · exact follows_fold hg l s1 a ha
      · exact .inr rfl

theorem follows_id {g h : Ptr → DState → Except DFail DState} (hg : ∀ p s, Follows (g p s) (h p s)) (s : DState) (id : NodeId) :
    Follows (freeId g s id) (freeId h s id) := fun a ha => by
  unfold freeId at ha ⊢
  split at ha
  · cases ha
  · rename_i hid
    rw [if_neg hid]
    split at ha
    · exact .inl ha
    · exact hg _ _ a ha

theorem follows_ptr : ∀ (f : Nat) (p : Ptr) (s : DState), Follows (freePtr m f p s) (freePtrIn m f p s)
  | 0, _, _ => fun a ha => by cases ha
  | f + 1, p, s => fun a ha => by
    unfold freePtr at ha
    unfold freePtrIn
    split at ha
    · cases ha
    · rename_i hns
      by_cases hu : m.usable s.freed p = false
      · rw [if_pos (.inr hu)]; exact .inr rfl
      · rw [if_neg (fun h => h.elim hns hu)]
        cases hp : m.heap p with
        | none => exact .inr rfl
        | some n =>
          simp only [hp] at ha ⊢
          split at ha
          · cases ha
          · rename_i hra
            rw [if_neg hra]
            cases hx : n.frees.foldlM (freeId (freePtr m f)) s with
            | error e => rw [hx] at ha; cases ha
            | ok s1 =>
              rw [hx] at ha
              simp only [bind, Except.bind] at ha
              rcases follows_fold (fun s x => follows_id (fun p s => follows_ptr f p s) s x) n.frees s s1 hx with h1 | h1 <;> rw [h1]
              · simp only [bind, Except.bind]
                generalize s1.unmap n.unmaps = s2 at ha
                split
                · exact .inr rfl
                · split at ha
                  · rename_i hb
                    rw [if_pos hb]; exact .inl ha
                  · rename_i hb
                    rw [if_neg hb]
                    split at ha
                    · rename_i hm
                      rw [if_pos hm]
                      split
                      · rename_i l r hf
                        rw [hf] at ha
                        simp only [List.foldlM_cons, List.foldlM_nil, bind, Except.bind, pure, Except.pure] at ha
                        cases hl : freePtr m f l s2 with
                        | error e => rw [hl] at ha; cases ha
                        | ok s3 =>
                          rw [hl] at ha
                          simp only at ha
                          rcases follows_ptr f l s2 s3 hl with h2 | h2 <;> rw [h2]
                          · simp only
                            split
                            · exact .inr rfl
                            · cases hr : freePtr m f r s3 with
                              | error e => rw [hr] at ha; cases ha
                              | ok s4 =>
                                rw [hr] at ha
                                simp only at ha
                                rcases follows_ptr f r s3 s4 hr with h3 | h3 <;> rw [h3]
                                · simp only
                                  split
                                  · exact .inr rfl
                                  · exact .inl ha
                                · exact .inr rfl
                          · exact .inr rfl
                      · exact .inr rfl
                    · rename_i hm
                      rw [if_neg hm]
                      exact follows_fold (fun s q => follows_ptr f q s) _ _ a ha
              · exact .inr rfl

theorem gcFree_freed {s : DState} {l : List Ptr} : ∀ {e : Ptr}, e ∈ (l.foldl (gcFree m) s).freed → e ∈ s.freed ∨ e ∈ l := by
  induction l generalizing s with
  | nil => exact fun h => .inl h
  | cons x l ih =>
    intro e h
    rcases ih h with h | h
    · have : (gcFree m s x).freed = x :: s.freed := by
        unfold gcFree
        split <;> rfl
      rw [this] at h
      rcases List.mem_cons.mp h with rfl | h
      · exact .inr List.mem_cons_self
      · exact .inl h
    · exact .inr (List.mem_cons_of_mem _ h)

/-- **The destructor of the tree after a merge.** When no call is running and a node that hangs below the root has a merge record which was not consolidated, the
destructor of the tree, where nothing else stops it, runs the destructor of such a record in memory it gave back. -/
theorem C40_merge_destructor {c : Conf K V} (h : Reach c) (hq : ∀ t, c.thr t = none) {fuel : Nat} (hf : c.mem.depth ≤ fuel) {s : DState}
    (hs : destroy c.mem fuel = .ok s) {id : NodeId} {p e : Ptr} (hl : OnLevel c.mem id) (ha : Attached c.mem id) (hp : c.mem.table id = some p)
    (hu : Uses c.mem p e) (hm : MergeAt c.mem e) : destroyIn c.mem fuel = .error .dangling := by
  rcases follows_id (fun p s => follows_ptr (m := c.mem) fuel p s) (clearGarbage c.mem) c.mem.root s hs with h1 | h1
  · exfalso
    have hk : Kids c.mem := by
      obtain ⟨w, hw⟩ := good_of_reach h
      rw [← hw.mem]
      exact hw.inv.ow.klt
    have he := C40_frees_partial h hq hf hs (e := e) (.inr ⟨id, p, hl, ha, hp, hu⟩)
    rcases (noMerge_id (fun p s s' h => (freeIn_spec hk fuel p s s' h).1) h1).2 e he with h2 | h2
    · rcases gcFree_freed h2 with h3 | h3
      · cases h3
      · obtain ⟨g, hg, hc⟩ := List.mem_flatMap.mp h3
        exact C37_tree_not_retired h ⟨id, p, hl, hp, hu⟩ ⟨_, g, hg, hc⟩
    · exact h2 hm
  · exact h1

/-! After the merge record and the delete of the separator were posted, thread 0 is about to consolidate the leaf; thread 1 inserts into it first, so that thread 0
fails and the merge record stays. -/

def mergeLeftRun : List (Act Nat Nat) :=
  (insR 0 129 ++ delR 64 103) ++ ([.call 0 200 (.api (.delete 103 103)), .run 0 23] ++ (whole 1 (.api (.insert 5 999)) ++ [.run 0 1000, .ret 0]))

def mergeLeft : Conf Nat Nat := exec mergeLeftRun

/-- Leaf 2 is the first child of the root, at 202, and has the merge record 197; the destructor gets to its end if each record has memory of its own. -/
def mergeLeftFacts (c : Conf Nat Nat) : Bool :=
  (c.thr 0).isNone && (c.thr 1).isNone && ((c.mem.node c.mem.root).map fun n => (n.children.head?, n.children, n.isRemove)) == some (some 2, [2], false) &&
  c.mem.table 2 == some 202 && (c.mem.cells 20 202).contains 197 && ((c.mem.heap 197).map fun n => n.isMerge) == some true &&
  (match destroy c.mem c.mem.depth with | .ok _ => true | .error _ => false)

theorem mergeLeft_facts : mergeLeftFacts mergeLeft = true := by decide +kernel

theorem mergeLeft_idle (h0 : (mergeLeft.thr 0).isNone = true) (h1 : (mergeLeft.thr 1).isNone = true) : ∀ u, mergeLeft.thr u = none := by
  unfold mergeLeft at *
  intro u
  by_cases hu : u = 0
  · subst hu; exact Option.isNone_iff_eq_none.mp h0
  by_cases hu' : u = 1
  · subst hu'; exact Option.isNone_iff_eq_none.mp h1
  have : ∀ x ∈ mergeLeftRun, x.tid = 0 ∨ x.tid = 1 := by
    intro x hx
    rcases List.mem_append.mp hx with hx | hx
    · exact .inl ((List.mem_append.mp hx).elim (Iterator.insR_tid x) (Iterator.delR_tid x))
    · have hx := List.mem_append.mp hx
      rw [List.mem_append] at hx
      simp only [whole, List.mem_cons, List.not_mem_nil, or_false] at hx
      rcases hx with (rfl | rfl) | (rfl | rfl | rfl) | rfl | rfl
      · exact .inl rfl
      · exact .inl rfl
      · exact .inr rfl
      · exact .inr rfl
      · exact .inr rfl
      · exact .inl rfl
      · exact .inl rfl
  generalize mergeLeftRun = l at this
  exact acts_thr l (fun x hx e => (this x hx).elim (fun h => hu (e.symm.trans h)) (fun h => hu' (e.symm.trans h))) initConf

/-- **C40 fails after this run**: Insert and Delete have returned, and the destructor of the tree uses memory it gave back. -/
theorem C40_merge_destructor_witness : ∃ c : Conf Nat Nat, Reach c ∧ (∀ t, c.thr t = none) ∧ (∃ s, destroy c.mem c.mem.depth = .ok s) ∧
    (∃ (id : NodeId) (p e : Ptr), OnLevel c.mem id ∧ Attached c.mem id ∧ c.mem.table id = some p ∧ Uses c.mem p e ∧ MergeAt c.mem e) ∧
    destroyIn c.mem c.mem.depth = .error .dangling := by
  have h := mergeLeft_facts
  have hid := mergeLeft_idle
  have hr : Reach mergeLeft := reach_exec _
  generalize mergeLeft = c at h hid hr
  simp only [mergeLeftFacts, Bool.and_eq_true, beq_iff_eq] at h
  obtain ⟨⟨⟨⟨⟨⟨h0, h1⟩, h2⟩, h3⟩, h4⟩, h5⟩, h6⟩ := h
  obtain ⟨n, hn, h2⟩ := Option.map_eq_some_iff.mp h2
  simp only [Prod.mk.injEq] at h2
  obtain ⟨n', hn', h5⟩ := Option.map_eq_some_iff.mp h5
  have hl : OnLevel c.mem 2 := .first (.down .root hn h2.1)
  have ha : Attached c.mem 2 := .child .root hn h2.2.2 (by rw [h2.2.1]; exact List.mem_cons_self)
  have hu : Uses c.mem 202 197 := .chain (List.contains_iff_mem.mp h4)
  cases hs : destroy c.mem c.mem.depth with
  | error e => rw [hs] at h6; cases h6
  | ok s =>
    exact ⟨c, hr, hid h0 h1, ⟨s, hs⟩, ⟨2, 202, 197, hl, ha, h3, hu, n', hn', h5⟩,
      C40_merge_destructor hr (hid h0 h1) (Nat.le_refl _) hs hl ha h3 hu ⟨n', hn', h5⟩⟩

/-- The hypotheses of C49 and `C34_tree_chain` are met: the leaf of this tree has a merge record, its low and its high key lie in different base nodes. -/
theorem mergeLeft_refs : (mergeLeft.mem.table 2 == some 202 && ((mergeLeft.mem.heap 202).map fun n => n.isRemove || n.isAbort) == some false &&
    mergeLeft.mem.lowRef 203 202 == some (149, .low) && mergeLeft.mem.highRef 203 202 == some (194, .high) && mergeLeft.mem.block 197 == some 194) = true := by
  decide +kernel

example : ∃ (c : Conf Nat Nat) (id : NodeId) (p e e' : Ptr) (n : Node Nat Nat), Reach c ∧ Named c.mem id ∧ OnLevel c.mem id ∧ c.mem.table id = some p ∧
    c.mem.heap p = some n ∧ n.isRemove = false ∧ n.isAbort = false ∧ c.mem.lowRef (p + 1) p = some (e, .low) ∧ c.mem.highRef (p + 1) p = some (e', .high) ∧ e ≠ e' := by
  have h := mergeLeft_refs
  have hr : Reach mergeLeft := reach_exec _
  generalize mergeLeft = c at h hr
  simp only [Bool.and_eq_true, beq_iff_eq] at h
  obtain ⟨⟨⟨⟨h1, h2⟩, h3⟩, h4⟩, _⟩ := h
  obtain ⟨n, hn, h2⟩ := Option.map_eq_some_iff.mp h2
  simp only [Bool.or_eq_false_iff] at h2
  have hl : OnLevel c.mem FIRST_LEAF := by
    obtain ⟨w, hw⟩ := good_of_reach hr
    rw [← hw.mem]
    exact (onLevel_iff hw.inv).mpr ⟨0, ⟨_, hw.inv.first⟩, fun hd => hw.inv.keep _ _ hw.inv.first (hw.inv.dead _ hd)⟩
  exact ⟨c, 2, 202, 149, 194, n, hr, .inr (.inl rfl), hl, h1, hn, h2.1, h2.2, h3, h4, by decide⟩

/-- A chain without merge record: that of the first leaf of the empty tree. -/
example : (initConf : Conf Nat Nat).mem.table FIRST_LEAF = some 1 ∧ (initConf : Conf Nat Nat).mem.freeEpoch 2 1 [] = .ok [1] := by decide

end Tree
end BwTree
