import Verif.Proofs.Lin
import Verif.Spec.Set

/-! Linearizability under a change of specification, and a criterion for histories that are not linearizable. -/

namespace BwTree
namespace Lin

variable {S Op Res Op' Res' : Type}

theorem Event.map_tid (f : Op → Op') (g : Res → Res') (e : Event Op Res) : (e.map f g).tid = e.tid := by
  cases e <;> rfl

theorem map_call {f : Op → Op'} {g : Res → Res'} {H : List (Event Op Res)} {i t : Nat} {op : Op}
    (h : H[i]? = some (.call t op)) : (H.map (Event.map f g))[i]? = some (.call t (f op)) := by
  rw [List.getElem?_map, h]; rfl

theorem returns_of_map {f : Op → Op'} {g : Res → Res'} {H : List (Event Op Res)} {i j : Nat} {r' : Res'}
    (h : Returns (H.map (Event.map f g)) i j r') : ∃ r, g r = r' ∧ Returns H i j r := by
  obtain ⟨h1, t, op', h2, h3, h4⟩ := h
  rw [List.getElem?_map] at h2 h3
  cases hi : H[i]? with
  | none => rw [hi] at h2; cases h2
  | some e =>
    rw [hi] at h2
    cases hj : H[j]? with
    | none => rw [hj] at h3; cases h3
    | some e' =>
      rw [hj] at h3
      cases e with
      | ret t r => cases h2
      | call t op =>
        cases e' with
        | call t op => cases h3
        | ret t r =>
          cases h2
          cases h3
          refine ⟨r, rfl, h1, _, op, hi, hj, ?_⟩
          intro m e g1 g2 g3
          have := h4 m (e.map f g) g1 g2 (by rw [List.getElem?_map, g3]; rfl)
          rwa [Event.map_tid] at this

theorem run_filter {step : S → Op → Res → S → Prop} {step' : S → Op' → Res' → S → Prop} {f : Op → Op'} {g : Res → Res'}
    (P : Nat × Op × Res → Prop) [DecidablePred P]
    (h1 : ∀ s i op r s', P (i, op, r) → step s op r s' → step' s (f op) (g r) s')
    (h2 : ∀ s i op r s', ¬ P (i, op, r) → step s op r s' → s' = s) :
    ∀ (lin : List (Nat × Op × Res)) (s s' : S), Run step s (lin.map (·.2)) s' →
      Run step' s (((lin.filter (fun x => decide (P x))).map (fun x => (x.1, f x.2.1, g x.2.2))).map (·.2)) s'
  | [], s, s', h => by cases h; exact .nil _
  | (i, op, r) :: lin, s, s', h => by
    simp only [List.map_cons] at h
    cases h with
    | cons ha hb =>
      rename_i s1
      by_cases hp : P (i, op, r)
      · rw [List.filter_cons_of_pos (by simpa using hp)]
        simp only [List.map_cons]
        exact .cons (h1 _ i op r _ hp ha) (run_filter P h1 h2 lin _ _ hb)
      · rw [List.filter_cons_of_neg (by simpa using hp)]
        have := h2 _ i op r _ hp ha
        subst this
        exact run_filter P h1 h2 lin _ _ hb

/-- If the steps of `step` are steps of `step'` or change nothing and did not return, linearizability carries over. -/
theorem Linearizable.map {step : S → Op → Res → S → Prop} {step' : S → Op' → Res' → S → Prop} {s0 : S} {H : List (Event Op Res)}
    (f : Op → Op') (g : Res → Res') (P : Op → Res → Prop)
    (h1 : ∀ s op r s', P op r → step s op r s' → step' s (f op) (g r) s')
    (h2 : ∀ s op r s', ¬ P op r → step s op r s' → s' = s)
    (h3 : ∀ i j r t op, Returns H i j r → H[i]? = some (.call t op) → P op r)
    (h : Linearizable step s0 H) : Linearizable step' s0 (H.map (Event.map f g)) := by
  classical
  obtain ⟨lin, a1, a2, a3, a4, s', a5⟩ := h
  refine ⟨(lin.filter (fun x => decide (P x.2.1 x.2.2))).map (fun x => (x.1, f x.2.1, g x.2.2)), ?_, ?_, ?_, ?_, s', ?_⟩
  · rw [List.map_map]
    exact a1.sublist (List.filter_sublist.map _)
  · intro x hx
    obtain ⟨y, hy, rfl⟩ := List.mem_map.mp hx
    obtain ⟨t, ht⟩ := a2 y ((List.mem_filter.mp hy).1)
    exact ⟨t, map_call ht⟩
  · intro i j r' hr
    obtain ⟨r, rfl, hr'⟩ := returns_of_map hr
    obtain ⟨op, ho⟩ := a3 i j r hr'
    obtain ⟨t, ht⟩ := a2 _ ho
    refine ⟨f op, List.mem_map.mpr ⟨(i, op, r), List.mem_filter.mpr ⟨ho, ?_⟩, rfl⟩⟩
    simpa using h3 i j r t op hr' ht
  · rw [List.pairwise_map]
    apply (a4.sublist List.filter_sublist).imp
    rintro x y hxy ⟨j, r', hr, hj⟩
    obtain ⟨r, rfl, hr'⟩ := returns_of_map hr
    exact hxy ⟨j, r, hr', hj⟩
  · exact run_filter (fun x => P x.2.1 x.2.2) (fun s i op r s' => h1 s op r s') (fun s i op r s' => h2 s op r s') lin s0 s' a5

theorem run_append {step : S → Op → Res → S → Prop} : ∀ (l1 : List (Op × Res)) {l2 : List (Op × Res)} {s s' : S},
    Run step s (l1 ++ l2) s' → ∃ m, Run step s l1 m ∧ Run step m l2 s'
  | [], _, s, _, h => ⟨s, .nil _, h⟩
  | x :: l1, l2, s, s', h => by
    cases h with
    | cons ha hb =>
      obtain ⟨m, g1, g2⟩ := run_append l1 hb
      exact ⟨m, .cons ha g1, g2⟩

end Lin
end BwTree
