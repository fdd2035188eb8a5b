import Verif.Spec.Tree
import Verif.Proofs.LinMap

/-! A criterion for histories that are not linearizable. -/

namespace BwTree
namespace Tree

set_option linter.unusedSectionVars false

theorem run_keeps {K V : Type} {k : K} {v : V} : ∀ (l : List (Option (Spec.Op K V) × Option (Spec.Res V))) {s s' : Spec.PairSet K V},
    Lin.Run apiStep s l s' → s k v → (∀ x ∈ l, x.1 ≠ some (.delete k v)) → s' k v
  | [], _, _, h, hs, _ => by cases h; exact hs
  | (op, r) :: l, s, s', h, hs, hd => by
    cases h with
    | cons ha hb =>
      refine run_keeps l hb ?_ (fun x hx => hd x (List.mem_cons_of_mem _ hx))
      cases op with
      | none =>
        cases r with
        | none => have : _ = s := ha; rw [this]; exact hs
        | some r => exact ha.elim
      | some op =>
        cases r with
        | none => exact ha.elim
        | some r =>
          cases op with
          | insert k' v' =>
            cases r with
            | bool b => exact (ha.2 k v).mpr (Or.inl hs)
            | values l => exact ha.elim
          | delete k' v' =>
            cases r with
            | bool b =>
              refine (ha.2 k v).mpr ⟨hs, ?_⟩
              rintro ⟨rfl, rfl⟩
              exact hd _ List.mem_cons_self rfl
            | values l => exact ha.elim
          | get k' =>
            cases r with
            | bool b => exact ha.elim
            | values l => exact (ha.2.2 k v).mpr hs

/-- A history in which a completed insertion of `(k, v)` is followed by a lookup of `k` that misses `v`, and nobody ever deletes `(k, v)`, is
not linearizable. -/
theorem not_linearizable_of_lost {K V : Type} {k : K} {v : V} {H : List (Lin.Event (Option (Spec.Op K V)) (Option (Spec.Res V)))} {i j g g' t t' : Nat}
    {r : Option (Spec.Res V)} {l : List V} (h1 : H[i]? = some (.call t (some (.insert k v)))) (h2 : Lin.Returns H i j r) (h3 : j < g)
    (h4 : H[g]? = some (.call t' (some (.get k)))) (h5 : Lin.Returns H g g' (some (.values l))) (h6 : v ∉ l)
    (h7 : ∀ e ∈ H, ∀ t, e ≠ .call t (some (.delete k v))) : ¬ Lin.Linearizable apiStep (fun _ _ => False) H := by
  rintro ⟨lin, a1, a2, a3, a4, s', a5⟩
  obtain ⟨op1, m1⟩ := a3 i j r h2
  obtain ⟨op2, m2⟩ := a3 g g' _ h5
  have e1 : op1 = some (.insert k v) := by
    obtain ⟨u, hu⟩ := a2 _ m1
    rw [h1] at hu
    cases hu
    rfl
  have e2 : op2 = some (.get k) := by
    obtain ⟨u, hu⟩ := a2 _ m2
    rw [h4] at hu
    cases hu
    rfl
  subst e1 e2
  obtain ⟨A, B, hAB⟩ := List.append_of_mem m1
  subst hAB
  have hB : (g, some (Spec.Op.get k), some (Spec.Res.values l)) ∈ B := by
    rcases List.mem_append.mp m2 with h | h
    · exact absurd ⟨j, r, h2, h3⟩ ((List.pairwise_append.mp a4).2.2 _ h _ List.mem_cons_self)
    · rcases List.mem_cons.mp h with h | h
      · cases h
      · exact h
  obtain ⟨C, D, hCD⟩ := List.append_of_mem hB
  subst hCD
  simp only [List.map_append, List.map_cons] at a5
  obtain ⟨sA, _, r2⟩ := Lin.run_append _ a5
  cases r2 with
  | cons hs r3 =>
    obtain ⟨sC, r4, r5⟩ := Lin.run_append _ r3
    cases r5 with
    | cons hg _ =>
      cases r with
      | none => exact hs.elim
      | some r =>
      cases r with
      | values l => exact hs.elim
      | bool b =>
        have hk := (hs.2 k v).mpr (Or.inr ⟨rfl, rfl⟩)
        have := run_keeps _ r4 hk (by
          intro x hx e
          obtain ⟨y, hy, rfl⟩ := List.mem_map.mp hx
          obtain ⟨u, hu⟩ := a2 y (by simp [hy])
          have := List.mem_of_getElem? hu
          exact h7 _ this u (by rw [e]))
        exact h6 ((hg.2.1 v).mpr this)

/-- A return right after the call. -/
theorem returns_adj {Op Res : Type} {H : List (Lin.Event Op Res)} {i t : Nat} {op : Op} {r : Res} (h1 : H[i]? = some (.call t op))
    (h2 : H[i + 1]? = some (.ret t r)) : Lin.Returns H i (i + 1) r :=
  ⟨Nat.lt_succ_self i, t, op, h1, h2, fun m _ a b _ => by omega⟩

end Tree
end BwTree
