import Verif.Props.SeqCollect
import Verif.Props.SeqDestroy

/-!
  C43 when the collector has destroyed part of the retired memory before the destructor runs: what the collector destroyed is not touched again, the rest is
  freed once.
-/

set_option Elab.async false

namespace BwTree
namespace Tree

open Prog

set_option linter.unusedSectionVars false

variable {K V : Type} [LinearOrder K] [DecidableEq V] [Inhabited K]

/-! ## The destructor on a memory with holes -/

/-- Two memories that agree on the records outside `A`, and two states of the destructor that have freed the same records besides `A` and `B`. -/
structure Agree (m m' : Mem K V) (A B : List Ptr) : Prop where
  sub : ∀ e ∈ B, e ∈ A
  heap : ∀ p, p ∉ A → m'.heap p = m.heap p
  kids : m'.kids = m.kids

/-- Result of the destructor on the memory with holes. -/
def Match (A B : List Ptr) (r r' : Except DFail DState) : Prop :=
  ∀ s, r = .ok s → ∃ T X, s = ⟨T, X ++ A⟩ ∧ r' = .ok ⟨T, X ++ B⟩

theorem match_fold {α : Type} {A B : List Ptr} {g g' : DState → α → Except DFail DState} :
    ∀ {L : List α} {T : NodeId → Option Ptr} {X : List Ptr}, (∀ a ∈ L, ∀ T X, Match A B (g ⟨T, X ++ A⟩ a) (g' ⟨T, X ++ B⟩ a)) →
      Match A B (L.foldlM g ⟨T, X ++ A⟩) (L.foldlM g' ⟨T, X ++ B⟩)
  | [], T, X, _ => fun s h => by cases h; exact ⟨T, X, rfl, rfl⟩
  | a :: L, T, X, h => fun s hs => by
    rw [List.foldlM_cons] at hs ⊢
    cases e : g ⟨T, X ++ A⟩ a with
    | error x => rw [e] at hs; cases hs
    | ok s1 =>
      rw [e] at hs
      obtain ⟨T1, X1, rfl, e'⟩ := h a List.mem_cons_self T X s1 e
      rw [e']
      exact match_fold (fun b hb => h b (List.mem_cons_of_mem _ hb)) s hs

theorem match_freeId {A B : List Ptr} {rec rec' : Ptr → DState → Except DFail DState} (h : ∀ p T X, Match A B (rec p ⟨T, X ++ A⟩) (rec' p ⟨T, X ++ B⟩)) (id : NodeId)
    (T : NodeId → Option Ptr) (X : List Ptr) : Match A B (freeId rec ⟨T, X ++ A⟩ id) (freeId rec' ⟨T, X ++ B⟩ id) := by
  intro s hs
  unfold freeId at hs ⊢
  split at hs
  · cases hs
  · rename_i hid
    rw [if_neg hid]
    simp only at hs ⊢
    cases ht : T id with
    | none => rw [ht] at hs; cases hs; exact ⟨T, X, rfl, rfl⟩
    | some p => rw [ht] at hs; exact h p _ X s hs

theorem match_freePtr {m m' : Mem K V} {A B : List Ptr} (h : Agree m m' A B) : ∀ (f : Nat) (p : Ptr) (T : NodeId → Option Ptr) (X : List Ptr),
    Match A B (freePtr m f p ⟨T, X ++ A⟩) (freePtr m' f p ⟨T, X ++ B⟩)
  | 0, p, T, X => fun s hs => by cases hs
  | f + 1, p, T, X => fun s hs => by
    have IH := match_freePtr h f
    rw [freePtr] at hs ⊢
    split at hs
    · cases hs
    · rename_i hp
      have hp : p ∉ X ++ A := hp
      have hpA : p ∉ A := fun e => hp (List.mem_append_right _ e)
      have hpB : ¬ p ∈ (⟨T, X ++ B⟩ : DState).freed := by
        intro e
        rcases List.mem_append.mp e with e | e
        · exact hp (List.mem_append_left _ e)
        · exact hpA (h.sub p e)
      have hfo : m'.follow p = m.follow p := by unfold Mem.follow; rw [h.heap p hpA, h.kids]
      rw [if_neg hpB, h.heap p hpA, hfo]
      cases hn : m.heap p with
      | none => rw [hn] at hs; cases hs
      | some n =>
        rw [hn] at hs
        simp only at hs ⊢
        split at hs
        · cases hs
        · rename_i hrm
          rw [if_neg hrm]
          cases h1 : n.frees.foldlM (freeId (freePtr m f)) ⟨T, X ++ A⟩ with
          | error x => rw [h1] at hs; cases hs
          | ok s1 =>
            rw [h1] at hs
            obtain ⟨T1, X1, rfl, e1⟩ := match_fold (fun id _ T X => match_freeId (fun p T X => IH p T X) id T X) s1 h1
            rw [e1]
            have hu : ∀ C : List Ptr, (⟨T1, X1 ++ C⟩ : DState).unmap n.unmaps = ⟨((⟨T1, []⟩ : DState).unmap n.unmaps).table, X1 ++ C⟩ := by
              intro C
              cases n.unmaps <;> rfl
            generalize ((⟨T1, []⟩ : DState).unmap n.unmaps).table = T2 at hu
            simp only [Bind.bind, Except.bind, hu] at hs ⊢
            split at hs
            · rename_i hb
              rw [if_pos hb]
              cases hs
              exact ⟨T2, p :: X1, rfl, rfl⟩
            · rename_i hb
              rw [if_neg hb]
              split at hs
              · rename_i hm
                rw [if_pos hm]
                cases h2 : (m.follow p).foldlM (fun s q => freePtr m f q s) ⟨T2, X1 ++ A⟩ with
                | error x => rw [h2] at hs; cases hs
                | ok s2 =>
                  rw [h2] at hs
                  obtain ⟨T3, X3, rfl, e3⟩ := match_fold (g' := fun s q => freePtr m' f q s) (fun q _ T X => IH q T X) s2 h2
                  rw [e3]
                  cases hs
                  exact ⟨T3, p :: X3, rfl, rfl⟩
              · rename_i hm
                rw [if_neg hm]
                exact match_fold (X := p :: X1) (g' := fun s q => freePtr m' f q s) (fun q _ T X => IH q T X) s hs

/-! ## The records the collector left -/

/-- What was part of the tree is part of it in the memory that keeps everything. -/
theorem Coll.partOf {w : World K V} {m' : Mem K V} (h : Coll w.mem m') (hi : Inv w) {e : Ptr} (he : PartOf m' e) : PartOf w.mem e := by
  have hlm : ∀ {id}, Leftmost m' id → Leftmost w.mem id := by
    intro id hl
    induction hl with
    | root => rw [h.root]; exact .root
    | down _ h1 h2 ih =>
      obtain ⟨n, hl⟩ := onLevel_live hi (.first ih)
      exact .down ih ((h.node hi hl).symm.trans h1) h2
  have hon : ∀ {id}, OnLevel m' id → OnLevel w.mem id := by
    intro id hl
    induction hl with
    | first h1 => exact .first (hlm h1)
    | right _ h1 h2 ih =>
      obtain ⟨n, hl⟩ := onLevel_live hi ih
      exact .right ih ((h.node hi hl).symm.trans h1) h2
  obtain ⟨id, p, h1, h2, h3⟩ := he
  obtain ⟨n, ⟨lk, hx⟩, hd⟩ := onLevel_live hi (hon h1)
  refine ⟨id, p, hon h1, (h.look hi (seen_live hx hd)).1.symm.trans h2, ?_⟩
  cases h3 with
  | chain he => exact .chain (h.cells he)
  | below q1 q2 q3 q4 => exact .below (h.rec_of q1) q2 (by rw [← h.kids]; exact q3) (h.cells q4)

theorem CSeen.sim {c : Conf K V} {e : Ptr} (h : CSeen e c) : ∃ m, SeqReach ⟨m, c.thr, c.hist⟩ ∧ Coll m c.mem ∧ Gone m c.mem ∧ Seen e ⟨m, c.thr, c.hist⟩ := by
  induction h with
  | now h he =>
    obtain ⟨m, h1, h2, h3⟩ := h.sim
    obtain ⟨w, hw⟩ := h1.calls
    have e : w.mem = m := hw.mem
    subst e
    exact ⟨w.mem, h1, h2, h3, .now h1 (h2.partOf hw.rest.1 he)⟩
  | during t h hf hop hs he hs' =>
    obtain ⟨m, h1, h2, h3⟩ := h.sim
    have hG : ∀ g ∈ _, g ∈ m.garbage := fun g hg => h2.garbage ▸ hg
    obtain ⟨m1, g1, g2, _, _⟩ := hs.sim h1 hf hop h2 h3 hG
    obtain ⟨m2, k1, k2, k3, _⟩ := (hs.trans hs').sim h1 hf hop h2 h3 hG
    obtain ⟨w, hw⟩ := h1.calls
    obtain ⟨wm, rfl, hi, _⟩ := hw.looks hf hop (iter_steps g1)
    exact ⟨m2, .call t h1 hf hop (iter_steps k1), k2, k3, .during t h1 hf hop (iter_steps g1) (g2.partOf hi he) (iter_steps k1)⟩
  | later t _ hf hop hs ih =>
    obtain ⟨m, h1, h2, h3, h4⟩ := ih
    obtain ⟨m1, g1, g2, g3, _⟩ := hs.sim h1 hf hop h2 h3 (fun g hg => h2.garbage ▸ hg)
    exact ⟨m1, .call t h1 hf hop (iter_steps g1), g2, g3, .later t h4 hf hop (iter_steps g1)⟩
  | collect _ hg ih =>
    obtain ⟨m, h1, h2, h3, h4⟩ := ih
    obtain ⟨w, hw⟩ := h1.calls
    have e : w.mem = m := hw.mem
    subst e
    exact ⟨w.mem, h1, h2.destroy (h2.garbage ▸ hg), h3.destroy hw.rest.1 h2 (h2.garbage ▸ hg), h4⟩

theorem sublist_flatMap {α β : Type} (f : α → List β) {l l' : List α} (h : l.Sublist l') : (l.flatMap f).Sublist (l'.flatMap f) := by
  induction h with
  | slnil => exact List.Sublist.refl _
  | cons a _ ih => rw [List.flatMap_cons]; exact ih.trans (List.sublist_append_right _ _)
  | cons_cons a _ ih => rw [List.flatMap_cons, List.flatMap_cons]; exact (List.Sublist.refl _).append ih

/-- What the epoch manager destroys for the destructor. -/
def leftOver (m m' : Mem K V) : List Ptr := (m.garbage.filter fun g => (m'.heap g).isSome).flatMap fun g => m.cells m.nextPtr g

theorem pending_cells {w : World K V} {m' : Mem K V} (hc : Coll w.mem m') (hg : Gone w.mem m') :
    (m'.pending.garbage.flatMap fun g => m'.pending.cells m'.pending.nextPtr g) = leftOver w.mem m' := by
  have hcell : ∀ f p, m'.pending.cells f p = m'.cells f p := by
    intro f
    induction f with
    | zero => intro p; rfl
    | succ f ih => intro p; exact congrArg (p :: ·) (List.flatMap_congr fun c _ => ih c)
  unfold leftOver
  show (m'.garbage.filter _).flatMap _ = _
  rw [hc.garbage]
  apply List.flatMap_congr
  intro g h
  obtain ⟨h1, h2⟩ := List.mem_filter.mp h
  rw [hcell]
  show m'.cells m'.nextPtr g = _
  rw [hc.nextPtr]
  refine cells_intact hc.kids _ ((hg.whole g h1).resolve_left fun hd => ?_)
  rw [hd 1 g List.mem_cons_self] at h2
  cases h2

/-- The collector and the destructor together: the destructor finds the same entries, and has freed what the collector left. -/
theorem pending_clear {w : World K V} {m' : Mem K V} (hi : Inv w) (hc : Coll w.mem m') (hg : Gone w.mem m') :
    clearGarbage m'.pending = ⟨(clearGarbage w.mem).table, (leftOver w.mem m').reverse⟩ := by
  have hL := pending_cells hc hg
  obtain ⟨a1, a2, a3⟩ := gc_fold m'.pending (leftOver w.mem m') ⟨m'.pending.table, []⟩
  obtain ⟨b1, b2, b3⟩ := gc_fold w.mem (w.mem.garbage.flatMap fun g => w.mem.cells w.mem.nextPtr g) ⟨w.mem.table, []⟩
  have e : clearGarbage m'.pending = (leftOver w.mem m').foldl (gcFree m'.pending) ⟨m'.pending.table, []⟩ := by rw [← hL]; rfl
  have ext : ∀ {s s' : DState}, s.table = s'.table → s.freed = s'.freed → s = s' := by rintro ⟨_, _⟩ ⟨_, _⟩ rfl rfl; rfl
  rw [e]
  refine ext ?_ (by rw [a1, List.append_nil])
  funext i
  -- records the collector left in a retired chain
  have hleft : ∀ {p n}, Retired w.mem p → m'.heap p = some n → p ∈ leftOver w.mem m' := by
    rintro p n ⟨f, g, h1, h2⟩ hp
    have hin := (hg.whole g h1).resolve_left fun hd => by rw [hd f p h2] at hp; cases hp
    obtain ⟨ng, hng⟩ := visible_heap hi.ow (retired_visible hi ⟨1, g, h1, List.mem_cons_self⟩)
    refine List.mem_flatMap.mpr ⟨g, List.mem_filter.mpr ⟨h1, ?_⟩, path_cells hi.ow _ (hi.heapLt g ng hng) (path_of_cells h2)⟩
    rw [hin 1 g List.mem_cons_self, hng]
    rfl
  have hret : ∀ {p}, p ∈ leftOver w.mem m' → Retired w.mem p := fun hp => by
    obtain ⟨g, h1, h2⟩ := List.mem_flatMap.mp hp
    exact ⟨_, g, (List.mem_filter.mp h1).1, h2⟩
  by_cases hn : ∃ p n, Retired w.mem p ∧ w.mem.heap p = some n ∧ n.removedId = some i
  · obtain ⟨p, n, h1, h2, h3⟩ := hn
    have e2 : (clearGarbage w.mem).table i = none := by
      obtain ⟨f, g, g1, g2⟩ := h1
      obtain ⟨ng, hng⟩ := visible_heap hi.ow (retired_visible hi ⟨1, g, g1, List.mem_cons_self⟩)
      exact b2 i ⟨p, List.mem_flatMap.mpr ⟨g, g1, path_cells hi.ow _ (hi.heapLt g ng hng) (path_of_cells g2)⟩, by rw [h2]; exact h3⟩
    rw [e2]
    cases hp : m'.heap p with
    | some n' =>
      have : n' = n := Option.some.inj ((hc.rec_of hp).symm.trans h2)
      subst this
      exact a2 i ⟨p, hleft h1 hp, by show (m'.heap p).bind _ = _; rw [hp]; exact h3⟩
    | none =>
      have ht := hg.clear p n i h1 h2 h3 hp
      rcases a3 i with h | ⟨q, hq, hr⟩
      · exact h.trans ht
      · exact a2 i ⟨q, hq, hr⟩
  · have e1 : m'.table i = w.mem.table i := (hc.table i).resolve_right fun ⟨_, p, n, h1, h2, h3⟩ => hn ⟨p, n, h1, h2, h3⟩
    have e2 : (clearGarbage w.mem).table i = w.mem.table i := (b3 i).resolve_right fun ⟨p, hp, hr⟩ => by
      obtain ⟨g, h1, h2⟩ := List.mem_flatMap.mp hp
      obtain ⟨n, h3, h4⟩ := Option.bind_eq_some_iff.mp hr
      exact hn ⟨p, n, ⟨_, g, h1, h2⟩, h3, h4⟩
    rw [e2, ← e1]
    refine (a3 i).resolve_right fun ⟨p, hp, hr⟩ => ?_
    obtain ⟨n, h3, h4⟩ := Option.bind_eq_some_iff.mp hr
    exact hn ⟨p, n, hret hp, hc.rec_of h3, h4⟩

/-- After calls that do not overlap, during and between which the collector destroyed any part of what was retired, the destructor runs to its end, frees
nothing twice and nothing that the collector has destroyed, and frees everything that was part of the tree at any moment and still exists. -/
theorem C43_collected {c : Conf K V} (h : SeqCollect c) {fuel : Nat} (hf : c.mem.depth ≤ fuel) :
    ∃ s, destroy c.mem.pending fuel = .ok s ∧ s.freed.Nodup ∧ (∀ e ∈ s.freed, c.mem.heap e ≠ none) ∧
      ∀ e, CSeen e c → c.mem.heap e ≠ none → s.freed.count e = 1 := by
  have main : ∀ {m : Mem K V}, SeqReach ⟨m, c.thr, c.hist⟩ → Coll m c.mem → Gone m c.mem →
      ∃ s, destroy c.mem.pending fuel = .ok s ∧ s.freed.Nodup ∧ (∀ e ∈ s.freed, c.mem.heap e ≠ none) ∧
        ∀ e, Seen e ⟨m, c.thr, c.hist⟩ → c.mem.heap e ≠ none → s.freed.count e = 1 := by
    intro m h1 h2 h3
    obtain ⟨w, hw⟩ := h1.calls
    have e : w.mem = m := hw.mem
    subst e
    have hi := hw.rest.1
    have hdep : w.mem.depth ≤ fuel := by
      have : c.mem.depth = w.mem.depth := by unfold Mem.depth; rw [h2.nextId, h2.nextPtr]
      exact this ▸ hf
    obtain ⟨s, g1, g2, g3, g4⟩ := C43_destroy h1 hdep
    have hA : (clearGarbage w.mem).freed = (w.mem.garbage.flatMap fun g => w.mem.cells w.mem.nextPtr g).reverse := by
      unfold clearGarbage
      rw [(gc_fold w.mem _ _).1, List.append_nil]
    have hsub : (leftOver w.mem c.mem).Sublist (w.mem.garbage.flatMap fun g => w.mem.cells w.mem.nextPtr g) := sublist_flatMap _ List.filter_sublist
    have hsame : Agree w.mem c.mem (clearGarbage w.mem).freed (leftOver w.mem c.mem).reverse := by
      refine ⟨fun e he => ?_, fun p hp => ?_, h2.kids⟩
      · rw [hA]
        exact List.mem_reverse.mpr (hsub.subset (List.mem_reverse.mp he))
      · exact (h2.heap p).resolve_right fun ⟨_, hr⟩ => hp (retired_freed hi hr)
    have hsame' : Agree w.mem c.mem.pending (clearGarbage w.mem).freed (leftOver w.mem c.mem).reverse := ⟨hsame.sub, hsame.heap, hsame.kids⟩
    have hm := match_freeId (fun p T X => match_freePtr hsame' fuel p T X) w.mem.root (clearGarbage w.mem).table [] s g1
    obtain ⟨T, X, rfl, e1⟩ := hm
    have e2 : destroy c.mem.pending fuel = .ok ⟨T, X ++ (leftOver w.mem c.mem).reverse⟩ := by
      unfold destroy
      rw [pending_clear hi h2 h3]
      show freeId _ _ c.mem.root = _
      rw [h2.root]
      exact e1
    have g2 : (X ++ (clearGarbage w.mem).freed).Nodup := g2
    have hsl : (X ++ (leftOver w.mem c.mem).reverse).Sublist (X ++ (clearGarbage w.mem).freed) := by
      rw [hA]
      exact List.Sublist.append (List.Sublist.refl _) hsub.reverse
    refine ⟨_, e2, g2.sublist hsl, fun e he => ?_, fun e he hne => List.count_eq_one_of_mem (g2.sublist hsl) ?_⟩
    · have hex := g3 e (hsl.subset he)
      rcases List.mem_append.mp he with hx | hx
      · have : e ∉ (clearGarbage w.mem).freed := fun h' => (List.nodup_append.mp g2).2.2 e hx e h' rfl
        rw [hsame.heap e this]
        exact hex
      · obtain ⟨g, k1, k2⟩ := List.mem_flatMap.mp (List.mem_reverse.mp hx)
        obtain ⟨k3, k4⟩ := List.mem_filter.mp k1
        have hin := (h3.whole g k3).resolve_left fun hd => by rw [hd 1 g List.mem_cons_self] at k4; cases k4
        rw [hin _ e k2]
        exact hex
    · have hmem : e ∈ X ++ (clearGarbage w.mem).freed := List.count_pos_iff.mp (by have : List.count e (X ++ (clearGarbage w.mem).freed) = 1 := g4 e he
                                                                                   omega)
      rcases List.mem_append.mp hmem with hx | hx
      · exact List.mem_append_left _ hx
      · refine List.mem_append_right _ (List.mem_reverse.mpr ?_)
        obtain ⟨f, g, k1, k2⟩ := freed_retired hx
        have hin := (h3.whole g k1).resolve_left fun hd => hne (hd f e k2)
        obtain ⟨ng, hng⟩ := visible_heap hi.ow (retired_visible hi ⟨1, g, k1, List.mem_cons_self⟩)
        refine List.mem_flatMap.mpr ⟨g, List.mem_filter.mpr ⟨k1, ?_⟩, path_cells hi.ow _ (hi.heapLt g ng hng) (path_of_cells k2)⟩
        rw [hin 1 g List.mem_cons_self, hng]
        rfl
  obtain ⟨m, h1, h2, h3⟩ := h.sim
  obtain ⟨s, k1, k2, k3, _⟩ := main h1 h2 h3
  refine ⟨s, k1, k2, k3, fun e he hne => ?_⟩
  obtain ⟨m', g1, g2, g3, g4⟩ := he.sim
  obtain ⟨s', k1', _, _, k4⟩ := main g1 g2 g3
  rw [k1] at k1'
  cases k1'
  exact k4 e g4 hne

/-! ## A tree of which the collector has destroyed a part -/

theorem iter_split {α : Type} {m m1 : Mem K V} {p p1 : Prog K V α} {n : Nat} (h : iter n m p = some (m1, p1)) :
    ∀ {d : Nat} {m2 : Mem K V} {p2 : Prog K V α}, iter (n + d) m p = some (m2, p2) → Steps m1 p1 m2 p2
  | 0, m2, p2, h' => by
    have h' : iter n m p = some (m2, p2) := h'
    rw [h] at h'
    cases h'
    exact .refl _ _
  | d + 1, m2, p2, h' => by
    obtain ⟨⟨m3, p3⟩, h1, h2⟩ := Option.bind_eq_some_iff.mp (show (iter (n + d) m p).bind _ = _ from h')
    exact (iter_split h h1).snoc h2

theorem Seen.collected {c : Conf K V} {e : Ptr} (h : Seen e c) : CSeen e c := by
  induction h with
  | now h he => exact .now h.collected he
  | later t _ hf hop hs ih =>
    obtain ⟨n, hn⟩ := hs.csteps _
    exact .later t ih hf hop hn
  | during t h hf hop hs he hs' =>
    obtain ⟨n1, k1⟩ := hs.iter
    obtain ⟨n2, k2⟩ := hs'.iter
    have hle := iter_le k2 (fun _ => rfl) k1
    obtain ⟨d, rfl⟩ : ∃ d, n2 = n1 + d := ⟨n2 - n1, by omega⟩
    obtain ⟨a, ha⟩ := hs.csteps _
    obtain ⟨b, hb⟩ := (iter_split k1 k2).csteps _
    exact .during t h.collected hf hop ha he hb

/-- Chain 271 and the first base node of the leaf, at 1, are retired. -/
def partGone (c : Conf Nat Nat) : Bool :=
  c.mem.garbage.contains 271 && (c.mem.heap 271).isSome && ((c.mem.destroy 271).heap 271).isNone && ((c.mem.destroy 271).heap 1).isSome &&
  ((c.mem.destroy 271).garbage.any fun g => ((c.mem.destroy 271).cells 300 g).contains 1)

theorem afterLast_partGone : (afterLast.map partGone) = some true := by decide +kernel

/-- The hypotheses of the theorem are met: the collector has destroyed the remove record of node 3, while the first base node of the tree is retired and still
exists. -/
example : ∃ c : Conf Nat Nat, SeqCollect c ∧ 271 ∈ c.mem.garbage ∧ c.mem.heap 271 = none ∧ CSeen 1 c ∧ c.mem.heap 1 ≠ none ∧ Retired c.mem 1 := by
  have h := afterLast_partGone
  cases hc : afterLast with
  | none => rw [hc] at h; cases h
  | some c =>
    rw [hc] at h
    have h : partGone c = true := Option.some.inj h
    have hr : SeqReach c := seqRun_reach .init insDel_forward hc
    simp only [partGone, Bool.and_eq_true, List.contains_iff_mem] at h
    obtain ⟨⟨⟨⟨h1, h2⟩, h3⟩, h4⟩, h5⟩ := h
    obtain ⟨g, h6, h7⟩ := List.any_eq_true.mp h5
    have hs : Seen 1 c := seqRun_seen (.now .init ⟨2, 1, .first (.down (n := .inner (.base _ _ _ _)) .root rfl rfl), rfl, .chain (fuel := 1) List.mem_cons_self⟩)
      insDel_forward hc
    exact ⟨{ c with mem := c.mem.destroy 271 }, hr.collected.collect h1, h1, Option.isNone_iff_eq_none.mp h3, hs.collected.collect h1,
      Option.isSome_iff_ne_none.mp h4, 300, g, h6, List.contains_iff_mem.mp h7⟩

end Tree
end BwTree
