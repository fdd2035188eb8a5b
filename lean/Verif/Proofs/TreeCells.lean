import Verif.Proofs.TreeRun
import Mathlib.Data.List.Nodup

/-! What the garbage collector destroys: disjointness from owners. -/

namespace BwTree
namespace Tree

set_option linter.unusedSectionVars false

variable {K V : Type} [LinearOrder K] [DecidableEq V] [Inhabited K]
variable {w : World K V}

/-- `e` is met when following records down from `p`. -/
inductive Path (m : Mem K V) (p : Ptr) : Ptr → Prop where
  | refl : Path m p p
  | step {x e : Ptr} : Path m p x → e ∈ m.follow x → Path m p e

theorem Path.head {m : Mem K V} {p c e : Ptr} (hc : c ∈ m.follow p) (h : Path m c e) : Path m p e := by
  induction h with
  | refl => exact .step .refl hc
  | step _ he ih => exact .step ih he

theorem path_of_cells {m : Mem K V} : ∀ {f : Nat} {p e : Ptr}, e ∈ m.cells f p → Path m p e
  | 0, _, _, h => by cases h
  | f + 1, p, e, h => by
    rcases List.mem_cons.mp h with rfl | h
    · exact .refl
    · obtain ⟨c, h1, h2⟩ := List.mem_flatMap.mp h
      exact (path_of_cells h2).head h1

theorem path_visible (h : OwInv w) {p e : Ptr} (hp : ¬ (w.ow p).Hidden) (he : Path w.mem p e) : ¬ (w.ow e).Hidden := by
  induction he with
  | refl => exact hp
  | step _ hx ih => rw [h.kid _ ih _ hx]; simp [Owner.Hidden]

theorem follow_lt (h : OwInv w) {p c : Ptr} (hc : c ∈ w.mem.follow p) : c < p := by
  unfold Mem.follow at hc
  split at hc
  · cases hc
  · rename_i n hn
    split at hc
    · cases hc
    · split at hc
      · split at hc
        · rename_i l r hk
          have hl := (h.klt p n hn).2
          rw [hk] at hl
          obtain ⟨r1, x, r2⟩ := hl r (by simp)
          rcases List.mem_cons.mp hc with rfl | hc
          · exact (hl c (by simp)).1
          · exact Nat.lt_trans ((h.klt r x r2).2 c hc).1 r1
        · cases hc
      · exact ((h.klt p n hn).2 c hc).1

theorem path_le (h : OwInv w) {p e : Ptr} (he : Path w.mem p e) : e ≤ p := by
  induction he with
  | refl => exact Nat.le_refl _
  | step _ hx ih => exact Nat.le_trans (Nat.le_of_lt (follow_lt h hx)) ih

/-- `e` belongs to the record at `p`, directly or indirectly. -/
inductive Anc (ow : Ptr → Owner) (p : Ptr) : Ptr → Prop where
  | refl : Anc ow p p
  | step {x e : Ptr} : Anc ow p x → ow e = .cell x → Anc ow p e

theorem Anc.head {ow : Ptr → Owner} {p c e : Ptr} (hc : ow c = .cell p) (h : Anc ow c e) : Anc ow p e := by
  induction h with
  | refl => exact .step .refl hc
  | step _ he ih => exact .step ih he

theorem path_anc (h : OwInv w) {p e : Ptr} (hp : ¬ (w.ow p).Hidden) (he : Path w.mem p e) : Anc w.ow p e := by
  induction he with
  | refl => exact .refl
  | step hx hy ih => exact .step ih (h.kid _ (path_visible h hp hx) _ hy)

/-- Nothing belongs to two owners. -/
theorem anc_top {ow : Ptr → Owner} {p q e : Ptr} (hp : ∀ x, ow p ≠ .cell x) (hq : ∀ x, ow q ≠ .cell x) (h1 : Anc ow p e) (h2 : Anc ow q e) :
    p = q := by
  induction h1 with
  | refl =>
    cases h2 with
    | refl => rfl
    | step _ h => exact absurd h (hp _)
  | step _ h ih =>
    cases h2 with
    | refl => exact absurd h (hq _)
    | step h2 h' =>
      rw [h] at h'
      cases h'
      exact ih h2

/-- Two branches of a record are disjoint. -/
theorem path_sib (h : OwInv w) {p c d e : Ptr} (hc : w.ow c = .cell p) (hd : w.ow d = .cell p) (lc : c < p) (ld : d < p)
    (h1 : Path w.mem c e) (h2 : Path w.mem d e) : c = d := by
  have vc : ¬ (w.ow c).Hidden := by rw [hc]; simp [Owner.Hidden]
  have vd : ¬ (w.ow d).Hidden := by rw [hd]; simp [Owner.Hidden]
  induction h1 with
  | refl =>
    cases h2 with
    | refl => rfl
    | step h2 h' =>
      have := h.kid _ (path_visible h vd h2) _ h'
      rw [hc] at this
      cases this
      exact absurd (path_le h h2) (Nat.not_le.mpr ld)
  | step h1 h3 ih =>
    cases h2 with
    | refl =>
      have := h.kid _ (path_visible h vc h1) _ h3
      rw [hd] at this
      cases this
      exact absurd (path_le h h1) (Nat.not_le.mpr lc)
    | step h2 h' =>
      have e1 := h.kid _ (path_visible h vc h1) _ h3
      have e2 := h.kid _ (path_visible h vd h2) _ h'
      rw [e1] at e2
      cases e2
      exact ih h2

theorem cells_nodup (h : OwInv w) : ∀ (f : Nat) {p : Ptr}, ¬ (w.ow p).Hidden → (w.mem.cells f p).Nodup
  | 0, _, _ => List.nodup_nil
  | f + 1, p, hp => by
    have hk := h.kid p hp
    refine List.nodup_cons.mpr ⟨fun hm => ?_, ?_⟩
    · obtain ⟨c, h1, h2⟩ := List.mem_flatMap.mp hm
      have := path_le h (path_of_cells h2)
      exact absurd this (Nat.not_le.mpr (follow_lt h h1))
    · refine List.nodup_flatMap.mpr ⟨fun c hc => cells_nodup h f (by rw [hk c hc]; simp [Owner.Hidden]), ?_⟩
      refine List.Pairwise.imp_of_mem ?_ (h.nd p hp)
      intro c d hc hd hne e h1 h2
      exact hne (path_sib h (hk c hc) (hk d hd) (follow_lt h hc) (follow_lt h hd) (path_of_cells h1) (path_of_cells h2))

theorem trash_anc (h : OwInv w) {g e : Ptr} (hg : g ∈ w.mem.garbage) (he : Path w.mem g e) :
    (∀ x, w.ow g ≠ .cell x) ∧ Anc w.ow g e := by
  have ho := (h.trash g).mpr hg
  exact ⟨fun x hx => (by rw [ho] at hx; cases hx), path_anc h (by rw [ho]; simp [Owner.Hidden]) he⟩

theorem garbage_nodup (h : OwInv w) (f : Nat) : (w.mem.garbage.flatMap (w.mem.cells f)).Nodup := by
  refine List.nodup_flatMap.mpr ⟨fun p hp => cells_nodup h f (by rw [(h.trash p).mpr hp]; simp [Owner.Hidden]), ?_⟩
  refine List.Pairwise.imp_of_mem ?_ h.nodup
  intro c d hc hd hne e h1 h2
  obtain ⟨a1, a2⟩ := trash_anc h hc (path_of_cells h1)
  obtain ⟨b1, b2⟩ := trash_anc h hd (path_of_cells h2)
  exact hne (anc_top a1 b1 a2 b2)

/-- What belongs to a NodeID is not retired. -/
theorem tab_alive (h : OwInv w) {id : NodeId} {p e : Ptr} (hp : w.ow p = .tab id) (he : Anc w.ow p e) (f : Nat) :
    e ∉ w.mem.garbage.flatMap (w.mem.cells f) := by
  intro hm
  obtain ⟨g, h1, h2⟩ := List.mem_flatMap.mp hm
  obtain ⟨b1, b2⟩ := trash_anc h h1 (path_of_cells h2)
  have := anc_top (fun x hx => by rw [hp] at hx; cases hx) b1 he b2
  subst this
  have := (h.trash p).mpr h1
  rw [hp] at this
  cases this

end Tree
end BwTree
