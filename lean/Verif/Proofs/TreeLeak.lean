import Verif.Proofs.TreeCells
import Verif.Proofs.TreePath

/-! Where the records that were once visible are now. -/

namespace BwTree
namespace Tree

set_option linter.unusedSectionVars false

variable {K V : Type} [LinearOrder K] [DecidableEq V] [Inhabited K]
variable {w : World K V}

theorem children_eff (n : Node K V) : n.children = n.eff := by cases n <;> rfl

theorem lowest_live (hi : Inv w) {id : NodeId} {n : Nat} (h : w.info id = some (none, n)) : Live w n id :=
  ⟨⟨_, h⟩, fun hd => hi.keep _ _ h (hi.dead _ hd)⟩

/-- The leftmost child of the leftmost node. -/
theorem lowest_down (hi : Inv w) {id : NodeId} {m : Nat} (h : w.info id = some (none, m)) {nd : Node K V} (hn : w.mem.node id = some nd) {i : NodeId}
    (hc : nd.children.head? = some i) : ∃ k, m = k + 1 ∧ w.info i = some (none, k) := by
  obtain ⟨p, ha⟩ := at_of_node hn
  have hb := (hi.at_ok h ha).2.1
  rw [children_eff, ← Node.eff_strip] at hc
  cases hs : nd.strip with
  | leaf c => rw [hs] at hc; cases hc
  | inner c =>
    rw [hs] at hb hc
    obtain ⟨_, _, _, k, e1, e2, e3⟩ := hb
    have hc' : c.low.2 = i := Option.some.inj hc
    refine ⟨k, e1, ?_⟩
    obtain ⟨l, hl⟩ := e3 _ (InnerChain.low_mem_childIds e2)
    have := (InnerChain.WF.low_spec e2).1
    simp only [World.lo, hl, Option.map_some, Option.some.injEq] at this
    rw [← hc', hl, this]

theorem leftmost_info (hi : Inv w) {id : NodeId} (h : Leftmost w.mem id) : ∃ n, w.info id = some (none, n) := by
  induction h with
  | root => obtain ⟨n, hr, _⟩ := hi.root; exact ⟨_, hr⟩
  | down _ hn hc ih =>
    obtain ⟨n, hx⟩ := ih
    obtain ⟨k, _, h⟩ := lowest_down hi hx hn hc
    exact ⟨k, h⟩

theorem onLevel_live (hi : Inv w) {id : NodeId} (h : OnLevel w.mem id) : ∃ n, Live w n id := by
  induction h with
  | first h => obtain ⟨n, hx⟩ := leftmost_info hi h; exact ⟨n, lowest_live hi hx⟩
  | right _ hn hne ih =>
    obtain ⟨n, hl⟩ := ih
    obtain ⟨p, ha⟩ := at_of_node hn
    exact ⟨n, (hi.next _ _ _ _ hl ha).resolve_left hne⟩

/-- Every level has a leftmost node. -/
theorem leftmost_of_level (hi : Inv w) {n : Nat} (hr : w.info w.mem.root = some (none, n)) : ∀ d, d ≤ n →
    ∃ id, Leftmost w.mem id ∧ w.info id = some (none, n - d)
  | 0, _ => ⟨_, .root, hr⟩
  | d + 1, h => by
    obtain ⟨id, h1, h2⟩ := leftmost_of_level hi hr d (by omega)
    obtain ⟨p, nd, ha, _⟩ := hi.at h2
    have hb := (hi.at_ok h2 ha).2.1
    cases hs : nd.strip with
    | leaf c =>
      rw [hs] at hb
      have := hb.2.2.2.1
      omega
    | inner c =>
      have hc : nd.children.head? = some c.low.2 := by rw [children_eff, ← Node.eff_strip, hs]; rfl
      obtain ⟨k, e1, e2⟩ := lowest_down hi h2 (node_of_at ha) hc
      refine ⟨_, .down h1 (node_of_at ha) hc, ?_⟩
      rw [e2, show n - (d + 1) = k by omega]

theorem live_onLevel (hi : Inv w) {n : Nat} : ∀ (m : Nat) (id : NodeId) (l : Option K),
    w.info id = some (l, n) → ¬ w.dead id → rank w n (fun x => ∀ k, l = some k → ∀ y, x = some y → y < k) ≤ m → OnLevel w.mem id := by
  obtain ⟨n0, hroot, hmax⟩ := hi.root
  have hlow : ∀ {id}, w.info id = some (none, n) → OnLevel w.mem id := by
    intro id hx
    have hle := hmax _ _ _ hx
    obtain ⟨i, h1, h2⟩ := leftmost_of_level hi hroot (n0 + 1 - n) (by omega)
    rw [show n0 + 1 - (n0 + 1 - n) = n by omega] at h2
    rw [hi.lowU n _ _ hx h2]
    exact .first h1
  intro m
  induction m with
  | zero =>
    intro id l h1 h2 hm
    cases l with
    | none => exact hlow h1
    | some k =>
      exfalso
      have hle := hmax _ _ _ h1
      obtain ⟨i, _, hf⟩ := leftmost_of_level hi hroot (n0 + 1 - n) (by omega)
      rw [show n0 + 1 - (n0 + 1 - n) = n by omega] at hf
      have := rank_lt (n := n) hi (f := fun _ => False) (g := fun x => ∀ k', some k = some k' → ∀ y, x = some y → y < k')
        (fun _ h => h.elim) hf (fun k' _ y hy => by cases hy) (fun h => h)
      omega
  | succ m ih =>
    intro id l h1 h2 hm
    cases l with
    | none => exact hlow h1
    | some k =>
      obtain ⟨x, q, nd, ⟨⟨l', e1⟩, e2⟩, g2, g3⟩ := hi.pred n id k h1 h2
      have hid := (hi.ids id _ h1).1
      have hlt : ∀ y, l' = some y → y < k := by
        intro y hy
        have := ((hi.at_ok e1 g2).2.below y hy)
        rw [g3] at this
        exact this.resolve_left hid
      have hp : OnLevel w.mem x := by
        cases l' with
        | none => exact hlow e1
        | some y =>
          apply ih x _ e1 e2
          have := rank_lt (n := n) hi (f := fun x => ∀ k', some y = some k' → ∀ z, x = some z → z < k')
            (g := fun x => ∀ k', some k = some k' → ∀ z, x = some z → z < k')
            (fun u hu k' hk' z hz => by
              cases hk'
              exact lt_trans (hu y rfl z hz) (hlt y rfl)) e1
            (fun k' hk' z hz => by cases hk'; cases hz; exact hlt y rfl) (fun h => lt_irrefl _ (h y rfl y rfl))
          omega
      have := OnLevel.right hp (node_of_at g2) (by rw [g3]; exact hid)
      rwa [g3] at this

/-- The nodes of the levels are the live ones. -/
theorem onLevel_iff (hi : Inv w) {id : NodeId} : OnLevel w.mem id ↔ ∃ n, Live w n id :=
  ⟨onLevel_live hi, fun ⟨_, ⟨_, h1⟩, h2⟩ => live_onLevel hi _ id _ h1 h2 (Nat.le_refl _)⟩

theorem cells_mono {m : Mem K V} : ∀ {f g : Nat} {p e : Ptr}, f ≤ g → e ∈ m.cells f p → e ∈ m.cells g p
  | 0, _, _, _, _, h => by cases h
  | f + 1, 0, _, _, hfg, _ => by omega
  | f + 1, g + 1, p, e, hfg, h => by
    rcases List.mem_cons.mp h with rfl | h
    · exact List.mem_cons_self
    · obtain ⟨c, h1, h2⟩ := List.mem_flatMap.mp h
      exact List.mem_cons_of_mem _ (List.mem_flatMap.mpr ⟨c, h1, cells_mono (by omega) h2⟩)

theorem cells_trans {m : Mem K V} : ∀ {f g : Nat} {p q e : Ptr}, q ∈ m.cells f p → e ∈ m.cells g q → ∃ h, e ∈ m.cells h p
  | 0, _, _, _, _, h, _ => by cases h
  | f + 1, g, p, q, e, h, he => by
    rcases List.mem_cons.mp h with rfl | h
    · exact ⟨g, he⟩
    · obtain ⟨c, h1, h2⟩ := List.mem_flatMap.mp h
      obtain ⟨h', h3⟩ := cells_trans h2 he
      exact ⟨h' + 1, List.mem_cons_of_mem _ (List.mem_flatMap.mpr ⟨c, h1, h3⟩)⟩

theorem cells_of_path {m : Mem K V} {p e : Ptr} (h : Path m p e) : ∃ f, e ∈ m.cells f p := by
  induction h with
  | refl => exact ⟨1, List.mem_cons_self⟩
  | step _ hc ih =>
    obtain ⟨f, hf⟩ := ih
    refine cells_trans hf (g := 2) (List.mem_cons_of_mem _ (List.mem_flatMap.mpr ⟨_, hc, List.mem_cons_self⟩))

/-- From a visible record upwards to the one that is mapped, owed or retired. -/
inductive Top (w : World K V) (e : Ptr) : Prop where
  | top {p : Ptr} : (∀ q, w.ow p ≠ .cell q) → ¬ (w.ow p).Hidden → Path w.mem p e → Top w e
  | below {p q : Ptr} {id : NodeId} {n : Node K V} : w.ow p = .tab id → w.mem.heap p = some n → q ∈ w.mem.kids p →
      (n.isAbort = true ∨ (n.isRemove = true ∧ ¬ w.dead id)) → Path w.mem q e → Top w e

theorem cell_lt (h : OwInv w) {c p : Ptr} (hc : w.ow c = .cell p) : c < p := by
  rcases (h.bcell c p hc).2 with h1 | ⟨id, n, _, h2, h3, _⟩
  · exact follow_lt h h1
  · exact ((h.klt p n h2).2 c h3).1

theorem top_of_visible (hi : Inv w) : ∀ (f : Nat) {x e : Ptr}, w.mem.nextPtr ≤ x + f → ¬ (w.ow x).Hidden → Path w.mem x e → Top w e
  | f, x, e, hf, hv, hp => by
    have hlt : x < w.mem.nextPtr := by
      cases hh : w.mem.heap x with
      | none => rw [(hi.ow.free x).mpr hh] at hv; exact absurd trivial hv
      | some n => exact hi.heapLt _ _ hh
    by_cases hc : ∃ p, w.ow x = .cell p
    · obtain ⟨p, hc⟩ := hc
      have hlt' := cell_lt hi.ow hc
      obtain ⟨hvp, h1 | ⟨id, n, h2, h3, h4, h5⟩⟩ := hi.ow.bcell x p hc
      · cases f with
        | zero =>
          have h1 : w.mem.nextPtr ≤ x := hf
          exact absurd hlt (Nat.not_lt.mpr h1)
        | succ f =>
          refine top_of_visible hi f (x := p) ?_ hvp (hp.head h1)
          have h1 : w.mem.nextPtr ≤ x + (f + 1) := hf
          have h2 : x + 1 ≤ p := hlt'
          show w.mem.nextPtr ≤ p + f
          exact Nat.le_trans h1 (by rw [Nat.add_comm f 1, ← Nat.add_assoc]; exact Nat.add_le_add_right h2 f)
      · exact .below h2 h3 h4 h5 hp
    · exact .top (fun q h => hc ⟨q, h⟩) hv hp

/-- Every visible record is part of the tree, retired, the marker of a merged node, or owed by a thread. -/
theorem classify (hi : Inv w) {e : Ptr} (he : ¬ (w.ow e).Hidden) :
    PartOf w.mem e ∨ Retired w.mem e ∨ (Marker w.mem e ∧ ∃ id, w.ow e = .tab id ∧ w.dead id) ∨ ∃ t p f, w.ow p = .owed t ∧ e ∈ w.mem.cells f p := by
  have htab : ∀ {p id}, w.ow p = .tab id → ¬ w.dead id → OnLevel w.mem id ∧ w.mem.table id = some p := by
    intro p id h hd
    obtain ⟨h1, ⟨l, n⟩, hx⟩ := hi.ow.btab p id h
    exact ⟨(onLevel_iff hi).mpr ⟨n, ⟨l, hx⟩, hd⟩, h1⟩
  cases top_of_visible hi w.mem.nextPtr (Nat.le_add_left _ _) he .refl with
  | top hc hv hp =>
    rename_i p
    obtain ⟨f, hf⟩ := cells_of_path hp
    cases ho : w.ow p with
    | free => rw [ho] at hv; exact absurd trivial hv
    | mine t => rw [ho] at hv; exact absurd trivial hv
    | cell q => exact absurd ho (hc q)
    | owed t => exact Or.inr (Or.inr (Or.inr ⟨t, p, f, ho, hf⟩))
    | trash => exact Or.inr (Or.inl ⟨f, p, (hi.ow.trash p).mp ho, hf⟩)
    | tab id =>
      by_cases hd : w.dead id
      · obtain ⟨h1, x, hx⟩ := hi.ow.btab p id ho
        obtain ⟨y, q, n, _, ha, hr⟩ := hi.dead id hd
        have hq := ha.1
        rw [h1] at hq
        cases hq
        have hfol : w.mem.follow p = [] := follow_remove ha.2 hr
        have he' : e = p := by
          have : ∀ e, Path w.mem p e → e = p := by
            intro e hp
            induction hp with
            | refl => rfl
            | step _ hx ih => rw [ih, hfol] at hx; cases hx
          exact this e hp
        subst he'
        refine Or.inr (Or.inr (Or.inl ⟨⟨id, n, (hi.ids id x hx).2.2, ?_, h1, ha.2, hr⟩, id, ho, hd⟩))
        intro hl
        obtain ⟨m, hl⟩ := onLevel_live hi hl
        exact hl.2 hd
      · obtain ⟨h1, h2⟩ := htab ho hd
        exact Or.inl ⟨id, p, h1, h2, .chain hf⟩
  | below ho hh hk hn hp =>
    rename_i p q id n
    obtain ⟨f, hf⟩ := cells_of_path hp
    have hd : ¬ w.dead id := by
      rcases hn with hn | hn
      · intro hd
        obtain ⟨h1, x, hx⟩ := hi.ow.btab p id ho
        obtain ⟨y, q', n', _, ha, hr⟩ := hi.dead id hd
        have hq := ha.1
        rw [h1] at hq
        cases hq
        have hn' := Option.some.inj (hh.symm.trans ha.2)
        subst hn'
        cases n with
        | leaf c => cases hn
        | inner c => cases c <;> first | (cases hn; done) | (cases hr; done)
      · exact hn.2
    obtain ⟨h1, h2⟩ := htab ho hd
    exact Or.inl ⟨id, p, h1, h2, .below hh (hn.elim Or.inr fun h => Or.inl h.1) hk hf⟩

/-- What the tree uses belongs to a NodeID. -/
theorem uses_anc (hi : Inv w) {id : NodeId} {p e : Ptr} (hl : OnLevel w.mem id) (ht : w.mem.table id = some p) (hu : Uses w.mem p e) :
    w.ow p = .tab id ∧ Anc w.ow p e := by
  obtain ⟨n, ⟨l, hx⟩, hd⟩ := onLevel_live hi hl
  have ho : w.ow p = .tab id := (hi.ow.tab id _ p hx ht).resolve_right (fun h => hd (hi.dl.dead _ h))
  have hv : ¬ (w.ow p).Hidden := by rw [ho]; simp [Owner.Hidden]
  refine ⟨ho, ?_⟩
  cases hu with
  | chain hc => exact path_anc hi.ow hv (path_of_cells hc)
  | below hh hk hq hc =>
    rename_i q f nd
    have hoc : w.ow q = .cell p := by
      rcases hk with hr | hab
      · obtain ⟨y, y1, y2⟩ := hi.ow.rem _ _ p nd hx ⟨ht, hh⟩ hr hd
        rw [y1] at hq
        rwa [List.mem_singleton.mp hq]
      · cases nd with
        | leaf d => cases hab
        | inner d =>
          cases d with
          | abort o d =>
            obtain ⟨e1, e2⟩ := (hi.ow.klt p _ hh).1
            rw [e1] at hq
            rw [List.mem_singleton.mp hq]
            exact hi.ow.abort id _ p o d hx ⟨ht, hh⟩
          | _ => cases hab
    exact (path_anc hi.ow (by rw [hoc]; simp [Owner.Hidden]) (path_of_cells hc)).head hoc

theorem anc_visible (h : OwInv w) {p e : Ptr} (hp : ¬ (w.ow p).Hidden) (he : Anc w.ow p e) : ¬ (w.ow e).Hidden := by
  cases he with
  | refl => exact hp
  | step _ hx => rw [hx]; simp [Owner.Hidden]

theorem partOf_visible (hi : Inv w) {e : Ptr} (h : PartOf w.mem e) : ¬ (w.ow e).Hidden := by
  obtain ⟨id, p, hl, ht, hu⟩ := h
  obtain ⟨ho, ha⟩ := uses_anc hi hl ht hu
  exact anc_visible hi.ow (by rw [ho]; simp [Owner.Hidden]) ha

theorem visible_later {c c' : Conf K V} (h : Later c c') {w : World K V} (hw : Good c w) :
    ∃ w', Good c' w' ∧ (∀ p, ¬ (w.ow p).Hidden → ¬ (w'.ow p).Hidden) ∧ ∀ r, w.del r → w'.del r := by
  induction h with
  | refl => exact ⟨w, hw, fun _ h => h, fun _ h => h⟩
  | step _ hs ih =>
    obtain ⟨w1, h1, h2, h2'⟩ := ih
    obtain ⟨w2, h3, h4, _⟩ := good_step h1 hs
    rcases h4 with ⟨_, _, _, h5, h6⟩ | ⟨t, h5⟩
    · exact ⟨w2, h3, fun p hp => by rw [h5]; exact h2 p hp, fun r hr => by rw [h6]; exact h2' r hr⟩
    · exact ⟨w2, h3, fun p hp => h5.1.gh.vis p (h2 p hp), fun r hr => h5.1.gh.del r (h2' r hr)⟩

end Tree
end BwTree
