import Verif.Proofs.TreeRun

/-! The sibling path of the leaves. -/

namespace BwTree
namespace Tree

open Prog Classical

set_option linter.unusedSectionVars false

variable {K V : Type} [LinearOrder K] [DecidableEq V] [Inhabited K]

theorem countP_lt {α : Type} {P Q : α → Bool} (h : ∀ a, P a = true → Q a = true) : ∀ (l : List α) (x : α), x ∈ l → Q x = true →
    P x = false → l.countP P < l.countP Q
  | a :: l, x, hx, hq, hp => by
    have hle : l.countP P ≤ l.countP Q := List.countP_mono_left (fun a _ => h a)
    rcases List.mem_cons.mp hx with rfl | hx
    · rw [List.countP_cons, List.countP_cons, hq, hp]
      simp only [if_true, Bool.false_eq_true, if_false]
      omega
    · have := countP_lt h l x hx hq hp
      rw [List.countP_cons, List.countP_cons]
      cases hP : P a with
      | true => rw [h a hP]; simp only [if_true]; omega
      | false =>
        simp only [Bool.false_eq_true, if_false]
        omega

/-- NodeIDs of level `n` satisfying `f` on the lower end. -/
noncomputable def rank (w : World K V) (n : Nat) (f : Option K → Prop) : Nat :=
  (List.range w.mem.nextId).countP (fun id => decide (∃ l, w.info id = some (l, n) ∧ f l))

theorem rank_lt {w : World K V} (hi : Inv w) {n : Nat} {f g : Option K → Prop} (h : ∀ l, f l → g l) {id : NodeId} {l : Option K}
    (hx : w.info id = some (l, n)) (hg : g l) (hf : ¬ f l) : rank w n f < rank w n g := by
  apply countP_lt (x := id)
  · intro a ha
    simp only [decide_eq_true_eq] at ha ⊢
    exact ha.imp fun l h' => ⟨h'.1, h l h'.2⟩
  · exact List.mem_range.mpr (hi.ids id _ hx).2.2
  · simp only [decide_eq_true_eq]
    exact ⟨l, hx, hg⟩
  · simp only [decide_eq_false_iff_not]
    rintro ⟨l', h1, h2⟩
    rw [hx] at h1
    cases h1
    exact hf h2

theorem node_of_at {w : World K V} {id : NodeId} {p : Ptr} {n : Node K V} (h : w.At id p n) : w.mem.node id = some n := by
  simp [Mem.node, h.1, h.2]

theorem at_of_node {w : World K V} {id : NodeId} {n : Node K V} (h : w.mem.node id = some n) : ∃ p, w.At id p n := by
  obtain ⟨p, h1, h2⟩ := Option.bind_eq_some_iff.mp h
  exact ⟨p, h1, h2⟩

theorem live_leaf {w : World K V} (hi : Inv w) {id : NodeId} (h : Live w 0 id) : ∃ l p c, w.info id = some (l, 0) ∧ w.At id p (.leaf c) := by
  obtain ⟨l, hx⟩ := h.1
  obtain ⟨p, nd, ha, _, ho⟩ := hi.at hx
  have : nd.isLeaf = true := ho.leaf_iff.mpr rfl
  cases nd with
  | inner c => cases this
  | leaf c => exact ⟨l, p, c, hx, ha⟩

theorem onPath_live {w : World K V} (hi : Inv w) {id : NodeId} {c : LeafChain K V} (h : OnPath w.mem id c) :
    Live w 0 id ∧ ∃ p, w.At id p (.leaf c) := by
  induction h with
  | first h => exact ⟨⟨⟨_, hi.first⟩, fun hd => hi.keep _ _ hi.first (hi.dead _ hd)⟩, at_of_node h⟩
  | next h1 h2 h3 ih =>
    obtain ⟨g1, p, g2⟩ := ih
    exact ⟨(hi.next 0 _ _ _ g1 g2).resolve_left h2, at_of_node h3⟩

theorem live_onPath {w : World K V} (hi : Inv w) : ∀ (m : Nat) (id : NodeId) (l : Option K) (p : Ptr) (c : LeafChain K V),
    w.info id = some (l, 0) → ¬ w.dead id → w.At id p (.leaf c) → rank w 0 (fun x => ∀ k, l = some k → ∀ y, x = some y → y < k) ≤ m →
    OnPath w.mem id c := by
  intro m
  induction m with
  | zero =>
    intro id l p c h1 h2 h3 hm
    cases l with
    | none =>
      have := hi.lowU 0 _ _ h1 hi.first
      subst this
      exact .first (node_of_at h3)
    | some k =>
      obtain ⟨x, q, nd, g1, g2, g3⟩ := hi.pred 0 id k h1 h2
      exfalso
      have hf := hi.first
      have := rank_lt (n := 0) hi (f := fun _ => False) (g := fun x => ∀ k', some k = some k' → ∀ y, x = some y → y < k')
        (fun _ h => h.elim) hf (fun k' _ y hy => by cases hy) (fun h => h)
      omega
  | succ m ih =>
    intro id l p c h1 h2 h3 hm
    cases l with
    | none =>
      have := hi.lowU 0 _ _ h1 hi.first
      subst this
      exact .first (node_of_at h3)
    | some k =>
      obtain ⟨x, q, nd, g1, g2, g3⟩ := hi.pred 0 id k h1 h2
      obtain ⟨l', q', c', e1, e2⟩ := live_leaf hi g1
      have e := At.unique g2 e2
      rw [e.2] at g3
      have hid := (hi.ids id _ h1).1
      have hlt : ∀ y, l' = some y → y < k := by
        intro y hy
        have := ((hi.at_ok e1 e2).2.below y hy)
        rw [g3] at this
        exact this.resolve_left hid
      have hp : OnPath w.mem x c' := by
        cases l' with
        | none =>
          have hx := hi.lowU 0 _ _ e1 hi.first
          subst hx
          exact .first (node_of_at e2)
        | some y =>
          apply ih x _ q' c' e1 g1.2 e2
          have := rank_lt (n := 0) hi (f := fun x => ∀ k', some y = some k' → ∀ z, x = some z → z < k')
            (g := fun x => ∀ k', some k = some k' → ∀ z, x = some z → z < k')
            (fun u hu k' hk' z hz => by
              cases hk'
              exact lt_trans (hu y rfl z hz) (hlt y rfl)) e1
            (fun k' hk' z hz => by cases hk'; cases hz; exact hlt y rfl) (fun h => lt_irrefl _ (h y rfl y rfl))
          omega
      have hh : c'.high = (k, id) := g3
      have := OnPath.next hp (by rw [hh]; exact hid) (c' := c) (by rw [hh]; exact node_of_at h3)
      rwa [hh] at this

theorem onPath_iff {w : World K V} (hi : Inv w) {id : NodeId} {c : LeafChain K V} :
    OnPath w.mem id c ↔ Live w 0 id ∧ ∃ p, w.At id p (.leaf c) :=
  ⟨onPath_live hi, fun ⟨⟨⟨l, h1⟩, h2⟩, p, h3⟩ => live_onPath hi _ id l p c h1 h2 h3 (Nat.le_refl _)⟩

theorem stored_eq_abs {w : World K V} (hi : Inv w) (k : K) (v : V) : Stored w.mem k v ↔ abs w k v := by
  constructor
  · rintro ⟨id, c, h1, h2⟩
    obtain ⟨⟨⟨l, g1⟩, g2⟩, p, g3⟩ := (onPath_iff hi).mp h1
    exact ⟨id, l, p, c, g1, g2, g3, h2⟩
  · rintro ⟨id, l, p, c, g1, g2, g3, h2⟩
    exact ⟨id, c, (onPath_iff hi).mpr ⟨⟨⟨l, g1⟩, g2⟩, p, g3⟩, h2⟩

/-- Range of a leaf on the path in terms of the world. -/
theorem inRange_iff {w : World K V} (hi : Inv w) {id : NodeId} {l : Option K} (hx : w.info id = some (l, 0)) {p : Ptr} {c : LeafChain K V}
    (ha : w.At id p (.leaf c)) (k : K) : InRange c.low c.high k ↔ AtLeast l k ∧ Below c.high k := by
  have hb := (hi.at_ok hx ha).2.1
  have key : ∀ d : LeafChain K V, Body w l 0 (.leaf d) → (InRange d.low d.high k ↔ AtLeast l k ∧ Below d.high k) := fun d h =>
    ⟨fun g => h.leaf_range g, fun g => h.range_leaf g.1 g.2⟩
  cases c with
  | remove i d => exact key d hb
  | _ => exact key _ hb

theorem cover {w : World K V} (hi : Inv w) (k : K) : ∀ (m : Nat) (id : NodeId) (l : Option K), w.info id = some (l, 0) → ¬ w.dead id →
    AtLeast l k → rank w 0 (fun x => ∃ y, x = some y ∧ Above l y) ≤ m → ∃ id, Covers w 0 id k := by
  intro m
  induction m with
  | zero =>
    intro id l h1 h2 h3 hm
    obtain ⟨l', p, c, e1, e2⟩ := live_leaf hi ⟨⟨l, h1⟩, h2⟩
    rw [h1] at e1
    cases e1
    by_cases hb : Below c.high k
    · exact ⟨id, l, p, _, h1, h2, e2, h3, hb⟩
    · exfalso
      have hne : c.high.2 ≠ INVALID := fun h => hb (Or.inl h)
      have hx := (hi.at_ok h1 e2).2.high.resolve_left hne
      have hlt : Above l c.high.1 := fun y hy => ((hi.at_ok h1 e2).2.below y hy).resolve_left hne
      have := rank_lt (n := 0) hi (f := fun _ => False) (g := fun x => ∃ y, x = some y ∧ Above l y) (fun _ h => h.elim) hx
        ⟨_, rfl, hlt⟩ (fun h => h)
      omega
  | succ m ih =>
    intro id l h1 h2 h3 hm
    obtain ⟨l', p, c, e1, e2⟩ := live_leaf hi ⟨⟨l, h1⟩, h2⟩
    rw [h1] at e1
    cases e1
    by_cases hb : Below c.high k
    · exact ⟨id, l, p, _, h1, h2, e2, h3, hb⟩
    · have hne : c.high.2 ≠ INVALID := fun h => hb (Or.inl h)
      have hx := (hi.at_ok h1 e2).2.high.resolve_left hne
      have hlt : Above l c.high.1 := fun y hy => ((hi.at_ok h1 e2).2.below y hy).resolve_left hne
      have hle : c.high.1 ≤ k := le_of_not_gt fun h => hb (Or.inr h)
      have hlive := (hi.next 0 id p _ ⟨⟨l, h1⟩, h2⟩ e2).resolve_left hne
      apply ih _ _ hx hlive.2 (fun y hy => by cases hy; exact hle)
      have := rank_lt (n := 0) hi (f := fun x => ∃ y, x = some y ∧ Above (some c.high.1) y) (g := fun x => ∃ y, x = some y ∧ Above l y)
        (fun u hu => by
          obtain ⟨y, g1, g2⟩ := hu
          exact ⟨y, g1, fun z hz => lt_trans (hlt z hz) (g2 _ rfl)⟩) hx
        ⟨_, rfl, hlt⟩ (fun h => by
          obtain ⟨y, g1, g2⟩ := h
          cases g1
          exact lt_irrefl _ (g2 _ rfl))
      show rank w 0 (fun x => ∃ y, x = some y ∧ Above (some c.high.1) y) ≤ m
      omega

theorem cover_path {w : World K V} (hi : Inv w) (k : K) : ∃ id c, OnPath w.mem id c ∧ InRange c.low c.high k ∧
    ∀ id' c', OnPath w.mem id' c' → InRange c'.low c'.high k → id' = id ∧ c' = c := by
  obtain ⟨id, hc⟩ := cover hi k _ FIRST_LEAF none hi.first (fun hd => hi.keep _ _ hi.first (hi.dead _ hd)) (fun y hy => by cases hy)
    (Nat.le_refl _)
  obtain ⟨l, p, nd, h1, h2, h3, h4, h5⟩ := (show Covers w 0 id k from hc)
  obtain ⟨l', p', c, e1, e2⟩ := live_leaf hi ⟨⟨l, h1⟩, h2⟩
  have e := At.unique h3 e2
  obtain ⟨rfl, rfl⟩ := e
  refine ⟨_, c, (onPath_iff hi).mpr ⟨⟨⟨l, h1⟩, h2⟩, p, h3⟩, (inRange_iff hi h1 h3 k).mpr ⟨h4, h5⟩, ?_⟩
  intro id' c' g1 g2
  obtain ⟨⟨⟨l2, f1⟩, f2⟩, p2, f3⟩ := (onPath_iff hi).mp g1
  obtain ⟨r1, r2⟩ := (inRange_iff hi f1 f3 k).mp g2
  have := hi.disj 0 _ _ k ⟨l2, p2, _, f1, f2, f3, r1, r2⟩ hc
  subst this
  have := (At.unique f3 h3).2
  cases this
  exact ⟨rfl, rfl⟩

end Tree
end BwTree
