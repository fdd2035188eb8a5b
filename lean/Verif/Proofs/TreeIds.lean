import Verif.Model.Tree
import Verif.Proofs.InnerFind

/-! Which NodeIDs the inner node searches can return; monotonicity of the invariant. -/

namespace BwTree
namespace InnerChain

variable {K : Type} [LinearOrder K] {lo : NodeId → Option (Option K)}

/-- Every child NodeID occurring in a chain. -/
def childIds : InnerChain K → List NodeId
  | base _ _ _ items => items.map (·.2)
  | ins item _ _ c => item.2 :: c.childIds
  | del _ prev _ _ c => prev.2 :: c.childIds
  | split _ _ c => c.childIds
  | merge _ _ r c => r.childIds ++ c.childIds
  | remove _ c => c.childIds
  | abort _ c => c.childIds

theorem low_mem_childIds : ∀ {c : InnerChain K} {lv : Option K}, WF lo lv c → c.low.2 ∈ c.childIds
  | base _ _ _ items, _, h => by
    have := h.2.2.1
    exact List.mem_map.mpr ⟨_, List.mem_of_head? this, rfl⟩
  | ins _ _ _ c, _, h => List.mem_cons_of_mem _ (low_mem_childIds (c := c) h.1)
  | del _ _ _ _ c, _, h => List.mem_cons_of_mem _ (low_mem_childIds (c := c) h.1)
  | split _ _ c, _, h => low_mem_childIds (c := c) h.1
  | merge _ _ _ c, _, h => List.mem_append_right _ (low_mem_childIds (c := c) h.1)
  | remove _ _, _, h => h.elim
  | abort _ _, _, h => h.elim

theorem seps_mem_childIds : ∀ {c : InnerChain K} {lv : Option K}, WF lo lv c → ∀ x ∈ c.seps, x.2 ∈ c.childIds
  | base _ _ _ items, _, _, x, hx => List.mem_map.mpr ⟨x, List.mem_of_mem_tail hx, rfl⟩
  | ins item _ _ c, _, h, x, hx => by
    simp only [seps, List.mem_append, List.mem_cons, List.mem_filter] at hx
    simp only [childIds, List.mem_cons]
    rcases hx with hx | rfl | hx
    · exact Or.inr (seps_mem_childIds (c := c) h.1 x hx.1)
    · exact Or.inl rfl
    · exact Or.inr (seps_mem_childIds (c := c) h.1 x hx.1)
  | del _ _ _ _ c, _, h, x, hx => List.mem_cons_of_mem _ (seps_mem_childIds (c := c) h.1 x (List.mem_filter.mp hx).1)
  | split _ _ c, _, h, x, hx => seps_mem_childIds (c := c) h.1 x (List.mem_filter.mp hx).1
  | merge _ _ r c, _, h, x, hx => by
    simp only [seps, List.mem_append, List.mem_cons] at hx
    rcases hx with hx | rfl | hx
    · exact List.mem_append_right _ (seps_mem_childIds (c := c) h.1 x hx)
    · exact List.mem_append_left _ (low_mem_childIds (c := r) h.2.1)
    · exact List.mem_append_left _ (seps_mem_childIds (c := r) h.2.1 x hx)
  | remove _ _, _, h, _, _ => h.elim
  | abort _ _, _, h, _, _ => h.elim

theorem nav_mem (k : K) : ∀ (c : InnerChain K) (s e : Nat) {id : NodeId}, nav k c s e = some id → id ∈ c.childIds
  | base _ _ _ items, s, e, id, h => by
    simp only [nav, locate] at h
    split at h
    · cases h
    · split at h
      · cases h
      · cases h
      · split at h
        · cases h
        · rename_i x hx
          simp only [Option.some.injEq] at h
          exact List.mem_map.mpr ⟨x, List.mem_of_getElem? hx, h⟩
  | ins item next loc c, s, e, id, h => by
    simp only [nav] at h
    split at h
    · split at h
      · simp only [Option.some.injEq] at h; simp [childIds, h]
      · exact List.mem_cons_of_mem _ (nav_mem k c _ _ h)
    · exact List.mem_cons_of_mem _ (nav_mem k c _ _ h)
  | del item prev next loc c, s, e, id, h => by
    simp only [nav] at h
    split at h
    · simp only [Option.some.injEq] at h; simp [childIds, h]
    · split at h
      · exact List.mem_cons_of_mem _ (nav_mem k c _ _ h)
      · exact List.mem_cons_of_mem _ (nav_mem k c _ _ h)
  | split _ _ c, s, e, id, h => nav_mem k c s e h
  | merge mk _ r c, s, e, id, h => by
    simp only [nav] at h
    split at h
    · exact List.mem_append_left _ (nav_mem k r _ _ h)
    · exact List.mem_append_right _ (nav_mem k c _ _ h)
  | remove _ _, _, _, _, h => by cases h
  | abort _ _, _, _, _, h => by cases h

theorem leftSibling_mem (hinv : lo INVALID = none) {c : InnerChain K} {lv : Option K} (h : WF lo lv c) {k : K}
    (hb : Below c.high k) {id : NodeId} (hl : leftSibling k c = some id) : id ∈ c.childIds := by
  obtain ⟨L, l1, l2, l3⟩ := leftSibling_eq hinv h hb
  rw [l3] at hl
  cases hx : (L ++ [c.low])[1]? with
  | none => rw [hx] at hl; cases hl
  | some x =>
    rw [hx] at hl
    simp only [Option.map_some, Option.some.injEq] at hl
    have := List.mem_of_getElem? hx
    rw [List.mem_append, List.mem_singleton] at this
    rw [← hl]
    rcases this with hm | rfl
    · exact seps_mem_childIds h x ((l2 x).mp hm).1
    · exact low_mem_childIds h

theorem consolidated_ids {c : InnerChain K} {lv : Option K} (h : WF lo lv c) (d : Nat) {id : NodeId}
    (hm : id ∈ (base c.low c.high d (c.low :: c.seps)).childIds) : id ∈ c.childIds := by
  simp only [childIds, List.map_cons, List.mem_cons, List.mem_map] at hm
  rcases hm with rfl | ⟨x, hx, rfl⟩
  · exact low_mem_childIds h
  · exact seps_mem_childIds h x hx

/-- The invariant only depends on what is known about lower ends; more knowledge keeps it. -/
theorem WF.mono {lo' : NodeId → Option (Option K)} (hm : ∀ i x, lo i = some x → lo' i = some x) :
    ∀ {c : InnerChain K} {lv : Option K}, WF lo lv c → WF lo' lv c
  | base _ _ _ _, _, ⟨q1, q2, q3, q4, q5, q6, q7⟩ =>
    ⟨hm _ _ q1, q2, q3, q4, fun y hy => ⟨hm _ _ (q5 y hy).1, (q5 y hy).2⟩, q6.imp id (fun q => hm _ _ q), q7⟩
  | ins _ _ _ c, _, ⟨q1, q2, q3⟩ => ⟨WF.mono (c := c) hm q1, hm _ _ q2, q3⟩
  | del _ _ _ _ c, _, ⟨q1, q2, q3, q4⟩ => ⟨WF.mono (c := c) hm q1, q2, q3.imp id (fun q => ⟨hm _ _ q.1, q.2⟩), q4⟩
  | split _ _ c, _, ⟨q1, q2, q3, q4⟩ => ⟨WF.mono (c := c) hm q1, q2, hm _ _ q3, q4⟩
  | merge _ _ r c, _, ⟨q1, q2, q3⟩ => ⟨WF.mono (c := c) hm q1, WF.mono (c := r) hm q2, q3⟩
  | remove _ _, _, h => h.elim
  | abort _ _, _, h => h.elim

end InnerChain
end BwTree
