import Verif.Proofs.TreeDestroy

/-! The destructor leaves alone the nodes it is not led to. -/

namespace BwTree
namespace Tree

set_option linter.unusedSectionVars false

variable {K V : Type} [LinearOrder K] [DecidableEq V] [Inhabited K]

/-- The NodeIDs a chain names as children or new siblings, in any of its records. -/
def leafNames : LeafChain K V → List NodeId
  | .base _ _ _ => []
  | .ins _ _ _ _ c => leafNames c
  | .del _ _ _ _ c => leafNames c
  | .split _ id _ c => id :: leafNames c
  | .merge _ _ r c => leafNames c ++ leafNames r
  | .remove _ _ => []

def innerNames : InnerChain K → List NodeId
  | .base _ _ _ items => items.map (·.2)
  | .ins item _ _ c => item.2 :: innerNames c
  | .del item _ _ _ c => item.2 :: innerNames c
  | .split item _ c => item.2 :: innerNames c
  | .merge _ _ r c => innerNames c ++ innerNames r
  | .remove _ _ => []
  | .abort _ _ => []

def Node.names : Node K V → List NodeId
  | .leaf c => leafNames c
  | .inner c => innerNames c

theorem names_frees (n : Node K V) : ∀ i ∈ n.frees, i ∈ n.names := by
  intro i hi
  rcases n with c | c <;> cases c <;> simp_all [Node.frees, Node.names, leafNames, innerNames]

theorem names_unmaps {n : Node K V} {i : NodeId} (h : n.unmaps = some i) : i ∈ n.names := by
  rcases n with c | c <;> cases c <;> simp_all [Node.unmaps, Node.names, innerNames]

/-- All that `p` names is in `S`. -/
def Within (m : Mem K V) (S : NodeId → Prop) (p : Ptr) : Prop := ∃ n, m.heap p = some n ∧ ∀ i ∈ n.names, S i

variable {w : World K V} {S : NodeId → Prop}

theorem within_follow (h : OwInv w) {p q : Ptr} {n : Node K V} (hn : w.mem.heap p = some n) (hr : n.isRemove = false) (ha : n.isAbort = false)
    (hs : ∀ i ∈ n.names, S i) (hq : q ∈ w.mem.follow p) : Within w.mem S q := by
  have hk := (h.klt p _ hn).1
  rcases n with c | c
  · cases c with
    | base l hi items => simp [Mem.follow, hn, Node.isBase] at hq
    | ins k v i e c | del k v i e c =>
      obtain ⟨o, e1, e2⟩ := hk
      have : q = o := by simpa [Mem.follow, hn, Node.isBase, Node.isRemove, LeafChain.isRemove, Node.isAbort, Node.isMerge, e1] using hq
      exact ⟨.leaf c, this ▸ e2, fun i hi => hs i hi⟩
    | split k i s c =>
      obtain ⟨o, e1, e2⟩ := hk
      have : q = o := by simpa [Mem.follow, hn, Node.isBase, Node.isRemove, LeafChain.isRemove, Node.isAbort, Node.isMerge, e1] using hq
      exact ⟨.leaf c, this ▸ e2, fun i hi => hs i (List.mem_cons_of_mem _ hi)⟩
    | merge k i r c =>
      obtain ⟨o, q', id, e1, e2, e3⟩ := hk
      obtain ⟨o', e4, e5⟩ := (h.klt q' _ e3).1
      have : q = o ∨ q = o' := by simpa [Mem.follow, hn, Node.isBase, Node.isRemove, LeafChain.isRemove, Node.isAbort, Node.isMerge, e1, e4] using hq
      rcases this with rfl | rfl
      · exact ⟨.leaf c, e2, fun i hi => hs i (List.mem_append_left _ hi)⟩
      · exact ⟨.leaf r, e5, fun i hi => hs i (List.mem_append_right _ hi)⟩
    | remove i c => cases hr
  · cases c with
    | base l hi d items => simp [Mem.follow, hn, Node.isBase] at hq
    | ins item nx loc c | split item nx c =>
      obtain ⟨o, e1, e2⟩ := hk
      have : q = o := by simpa [Mem.follow, hn, Node.isBase, Node.isRemove, InnerChain.isRemove, Node.isAbort, Node.isMerge, e1] using hq
      exact ⟨.inner c, this ▸ e2, fun i hi => hs i (List.mem_cons_of_mem _ hi)⟩
    | del item pr nx loc c =>
      obtain ⟨o, e1, e2⟩ := hk
      have : q = o := by simpa [Mem.follow, hn, Node.isBase, Node.isRemove, InnerChain.isRemove, Node.isAbort, Node.isMerge, e1] using hq
      exact ⟨.inner c, this ▸ e2, fun i hi => hs i (List.mem_cons_of_mem _ hi)⟩
    | merge k i r c =>
      obtain ⟨o, q', id, e1, e2, e3⟩ := hk
      obtain ⟨o', e4, e5⟩ := (h.klt q' _ e3).1
      have : q = o ∨ q = o' := by simpa [Mem.follow, hn, Node.isBase, Node.isRemove, InnerChain.isRemove, Node.isAbort, Node.isMerge, e1, e4] using hq
      rcases this with rfl | rfl
      · exact ⟨.inner c, e2, fun i hi => hs i (List.mem_append_left _ hi)⟩
      · exact ⟨.inner r, e5, fun i hi => hs i (List.mem_append_right _ hi)⟩
    | remove i c => cases hr
    | abort i c => cases ha

/-- Entries outside `S` keep their value; the others keep it or are cleared. -/
structure Kept (m : Mem K V) (S : NodeId → Prop) (s s' : DState) : Prop where
  out : ∀ id, ¬ S id → s'.table id = s.table id
  old : (∀ id p, s.table id = some p → m.table id = some p) → ∀ id p, s'.table id = some p → m.table id = some p

theorem Kept.refl (m : Mem K V) (S : NodeId → Prop) (s : DState) : Kept m S s s := ⟨fun _ _ => rfl, fun h => h⟩

theorem Kept.trans {m : Mem K V} {a b c : DState} (h1 : Kept m S a b) (h2 : Kept m S b c) : Kept m S a c :=
  ⟨fun id hid => (h2.out id hid).trans (h1.out id hid), fun h => h2.old (h1.old h)⟩

theorem Kept.clear (m : Mem K V) {s : DState} {id : NodeId} (h : S id) : Kept m S s (s.clear id) := by
  refine ⟨fun i hi => ?_, fun ho i p hp => ?_⟩
  · rw [clear_table, if_neg (fun e : i = id => hi (by rw [e]; exact h))]
  · rw [clear_table] at hp
    split at hp
    · cases hp
    · exact ho i p hp

theorem kept_fold {α : Type} {m : Mem K V} {g : DState → α → Except DFail DState} : ∀ (l : List α) {s s' : DState},
    (∀ x ∈ l, ∀ s s', (∀ id p, s.table id = some p → m.table id = some p) → g s x = .ok s' → Kept m S s s') →
    (∀ id p, s.table id = some p → m.table id = some p) → l.foldlM g s = .ok s' → Kept m S s s'
  | [], s, s', _, _, h => by cases h; exact .refl m S s
  | x :: l, s, s', hg, ho, h => by
    rw [List.foldlM_cons] at h
    cases e : g s x with
    | error e' => rw [e] at h; cases h
    | ok s1 =>
      rw [e] at h
      have k1 := hg x List.mem_cons_self s s1 ho e
      exact k1.trans (kept_fold l (fun y hy => hg y (List.mem_cons_of_mem _ hy)) (k1.old ho) h)

/-- If the nodes in `S` name only nodes in `S`, the destructor does not leave `S`. -/
theorem freePtr_kept (h : OwInv w) (hS : ∀ id p, S id → w.mem.table id = some p → Within w.mem S p) : ∀ (f : Nat) {p : Ptr} {s s' : DState},
    Within w.mem S p → (∀ id p, s.table id = some p → w.mem.table id = some p) → freePtr w.mem f p s = .ok s' → Kept w.mem S s s'
  | 0, p, s, s', _, _, h => by cases h
  | f + 1, p, s, s', ⟨n, hn, hs⟩, ho, hf => by
    have IH := fun {p : Ptr} {s s' : DState} => freePtr_kept h hS f (p := p) (s := s) (s' := s')
    rw [freePtr] at hf
    split at hf
    · cases hf
    rw [hn] at hf
    simp only at hf
    split at hf
    · cases hf
    rename_i hra
    obtain ⟨hr, ha⟩ : n.isRemove = false ∧ n.isAbort = false := by simpa using hra
    cases e1 : n.frees.foldlM (freeId (freePtr w.mem f)) s with
    | error e => rw [e1] at hf; cases hf
    | ok s1 =>
      rw [e1] at hf
      have k1 : Kept w.mem S s s1 := by
        refine kept_fold n.frees (fun i hi a b hab hg => ?_) ho e1
        have hi' := hs i (names_frees n i hi)
        unfold freeId at hg
        split at hg
        · cases hg
        · split at hg
          · cases hg; exact .refl _ _ _
          · rename_i q hq
            have hc := Kept.clear w.mem (s := a) hi'
            exact hc.trans (IH (hS i q hi' (hab i q hq)) (hc.old hab) hg)
      have k2 : Kept w.mem S s1 (s1.unmap n.unmaps) := by
        cases hu : n.unmaps with
        | none => exact .refl _ _ _
        | some i => exact .clear _ (hs i (names_unmaps hu))
      have k12 := k1.trans k2
      have kids : ∀ {a b : DState}, (∀ id p, a.table id = some p → w.mem.table id = some p) →
          (w.mem.follow p).foldlM (fun s q => freePtr w.mem f q s) a = .ok b → Kept w.mem S a b := fun {a b} hab hg =>
        kept_fold _ (fun q hq s s' hs' hg' => IH (within_follow h hn hr ha hs hq) hs' hg') hab hg
      have hf : (if n.isBase then Except.ok ((s1.unmap n.unmaps).free p) else if n.isMerge then (do
            let s ← (w.mem.follow p).foldlM (fun s q => freePtr w.mem f q s) (s1.unmap n.unmaps)
            Except.ok (s.free p))
          else (w.mem.follow p).foldlM (fun s q => freePtr w.mem f q s) ((s1.unmap n.unmaps).free p)) = Except.ok s' := hf
      split at hf
      · cases hf; exact ⟨k12.out, k12.old⟩
      · split at hf
        · cases e2 : (w.mem.follow p).foldlM (fun s q => freePtr w.mem f q s) (s1.unmap n.unmaps) with
          | error e => rw [e2] at hf; cases hf
          | ok s2 =>
            rw [e2] at hf
            cases hf
            have := k12.trans (kids (k12.old ho) e2)
            exact ⟨this.out, this.old⟩
        · have k3 := kids (a := (s1.unmap n.unmaps).free p) (k12.old ho) hf
          exact k12.trans ⟨k3.out, k3.old⟩

theorem clearGarbage_old (m : Mem K V) : ∀ id p, (clearGarbage m).table id = some p → m.table id = some p := by
  intro id p hp
  obtain ⟨_, h2, h3⟩ := gc_fold m (m.garbage.flatMap fun g => m.cells m.nextPtr g) ⟨m.table, []⟩
  rcases h3 id with h | h
  · rw [clearGarbage, h] at hp; exact hp
  · rw [clearGarbage, h2 id h] at hp; cases hp

theorem destroy_kept (h : OwInv w) (hS : ∀ id p, S id → w.mem.table id = some p → Within w.mem S p) (hr : S w.mem.root) {f : Nat} {s : DState}
    (hd : destroy w.mem f = .ok s) : Kept w.mem S (clearGarbage w.mem) s := by
  unfold destroy freeId at hd
  split at hd
  · cases hd
  · split at hd
    · cases hd; exact .refl _ _ _
    · rename_i q hq
      have hc := Kept.clear w.mem (s := clearGarbage w.mem) hr
      exact hc.trans (freePtr_kept h hS f (hS _ q hr (clearGarbage_old _ _ _ hq)) (hc.old (clearGarbage_old _)) hd)

end Tree
end BwTree
