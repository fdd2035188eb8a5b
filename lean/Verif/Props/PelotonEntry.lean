import Verif.Model.Peloton
import Verif.Props.Leaf

/-!
  C52: insertions through the Peloton adapter, on any leaf the code can build.
-/

namespace BwTree
namespace Peloton

open LeafChain

variable {K V : Type} [LinearOrder K] [DecidableEq V]

/-- `InsertEntry` succeeds exactly if the entry is not there; then it is added, and the object allocated for it is kept. Otherwise nothing changes
and the object is deleted. -/
theorem C52_insert_entry {c : LeafChain K V} (hc : LeafReach c) {k : K} (hk : InRange c.low c.high k) (v : V) :
    ∃ ret kept c', insertEntry k v c = some (.done ret kept c') ∧ (ret = true ↔ ¬ Has c k v) ∧ kept = ret ∧
      (∀ k' v', Has c' k' v' ↔ (Has c k' v' ∨ (k' = k ∧ v' = v))) := by
  obtain ⟨b, c', h1, ⟨h2, h3⟩, _⟩ := C02_insert hc hk v
  exact ⟨b, b, c', by unfold insertEntry; rw [h1], h2, rfl, h3⟩

/-- `CondInsertEntry` of an entry that is not there: it succeeds exactly if the predicate fails for all values of the key; then the entry is added, and
its object is kept. Otherwise nothing changes and the object is deleted. -/
theorem C52_cond_insert_partial {c : LeafChain K V} (hc : LeafReach c) {k : K} (hk : InRange c.low c.high k) {v : V} (hv : ¬ Has c k v) (p : V → Bool) :
    ∃ ret kept c', condInsertEntry k v p c = some (.done ret kept c') ∧ (ret = true ↔ ∀ w, Has c k w → p w = false) ∧ kept = ret ∧
      (ret = true → ∀ k' v', Has c' k' v' ↔ (Has c k' v' ∨ (k' = k ∧ v' = v))) ∧ (ret = false → c' = c) := by
  obtain ⟨r, e, h⟩ := predSearch_spec c.depth k v p c hc.wf hk.2 [] [] (by simp) (by simp)
  cases r with
  | satisfied =>
    obtain ⟨w, _, _, hw, hp⟩ := h
    refine ⟨false, false, c, by simp [condInsertEntry, condInsertStep, e], ?_, rfl, by simp, fun _ => rfl⟩
    simp only [Bool.false_eq_true, false_iff]
    intro h
    rw [h w hw] at hp
    cases hp
  | existing => exact absurd h.2.2 hv
  | insertAt i ex =>
    refine ⟨true, true, ins k v i ex c, by simp [condInsertEntry, condInsertStep, e], ?_, rfl, fun _ k' v' => ?_, by simp⟩
    · simp only [true_iff]
      exact fun w hw => (h.2.2 w (by simp) (by simp) hw).1
    · simp only [Has]
      exact or_comm

/-- `CondInsertEntry` of an entry that is there already, with a predicate that no value of the key satisfies: an assert fails. -/
theorem C52_cond_insert_aborts {c : LeafChain K V} (hc : LeafReach c) {k : K} (hk : InRange c.low c.high k) {v : V} (hv : Has c k v) {p : V → Bool}
    (hp : ∀ w, Has c k w → p w = false) : condInsertEntry k v p c = some .abort := by
  obtain ⟨b, sat, c', h1, h2, h3, _⟩ := C05_result hc hk v p
  have hb : b = false := by
    cases b with
    | false => rfl
    | true => exact absurd hv (h2.mp rfl).1
  have hs : sat = false := by
    cases sat with
    | false => rfl
    | true =>
      obtain ⟨w, h4, h5⟩ := h3 rfl
      rw [hp w h4] at h5
      cases h5
  subst hb hs
  unfold condInsertEntry
  rw [h1]
  rfl

/-- A leaf with one entry that an insertion has added. -/
theorem one_reach : LeafReach (ins 5 1 0 false (base ((0 : Nat), INVALID) (0, INVALID) ([] : List (Nat × Nat)))) :=
  .insert (c := base (0, INVALID) (0, INVALID) []) (k := 5) (v := 1) (b := true) (.init _ _ (Or.inl rfl)) ⟨Or.inl rfl, Or.inl rfl⟩ (by decide)

/-- All outcomes occur, on a leaf with the entry (5, 1). -/
example : let c := ins 5 1 0 false (base ((0 : Nat), INVALID) (0, INVALID) ([] : List (Nat × Nat)))
    LeafReach c ∧ InRange c.low c.high 5 ∧
    insertEntry 5 2 c = some (.done true true (ins 5 2 0 false c)) ∧ insertEntry 5 1 c = some (.done false false c) ∧
    condInsertEntry 5 2 (fun w => w == 9) c = some (.done true true (ins 5 2 0 false c)) ∧
    condInsertEntry 5 2 (fun w => w == 1) c = some (.done false false c) ∧ condInsertEntry 5 1 (fun w => w == 9) c = some .abort :=
  ⟨one_reach, ⟨Or.inl rfl, Or.inl rfl⟩, by decide, by decide, by decide, by decide, by decide⟩

end Peloton
end BwTree
