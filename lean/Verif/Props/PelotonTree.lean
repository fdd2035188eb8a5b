import Verif.Props.TreeCond

/-!
  C52 on whole trees: insertions through the Peloton adapter after any history of calls that do not overlap.
-/

namespace BwTree
namespace Tree

open Prog

set_option linter.unusedSectionVars false

variable {K V : Type} [LinearOrder K] [DecidableEq V] [Inhabited K]

theorem final_of_stuck {α : Type} {m : Mem K V} {p : Prog K V α} (h : p.step m = none) : (∃ a, p = .ret a) ∨ (∃ f, p = .fail f) ∨ p = .spin := by
  cases p with
  | ret a => exact Or.inl ⟨a, rfl⟩
  | fail f => exact Or.inr (Or.inl ⟨f, rfl⟩)
  | spin => exact Or.inr (Or.inr rfl)
  | casRoot o n k => simp only [Prog.step] at h; split at h <;> cases h
  | cas i o n k => simp only [Prog.step] at h; split at h <;> cases h
  | _ => cases h

/-- A finished run of two programs in sequence, the second of which takes no steps. -/
theorem Steps.unseq {α β : Type} {g : α → β} {m m' : Mem K V} {q r : Prog K V β} (h : Steps m q m' r) (hr : ∀ m, r.step m = none) :
    ∀ p : Prog K V α, q = p.bind (fun a => .ret (g a)) →
    (∃ f, Steps m p m' (.fail f) ∧ r = .fail f) ∨ (∃ a, Steps m p m' (.ret a) ∧ r = .ret (g a)) ∨ r = .spin := by
  induction h with
  | refl m q =>
    rintro p rfl
    cases hp : p.step m with
    | none =>
      rcases final_of_stuck hp with ⟨a, rfl⟩ | ⟨f, rfl⟩ | rfl
      · exact Or.inr (Or.inl ⟨a, .refl _ _, rfl⟩)
      · exact Or.inl ⟨f, .refl _ _, rfl⟩
      · exact Or.inr (Or.inr rfl)
    | some x =>
      have := Prog.step_bind (fun a => Prog.ret (g a)) hp
      rw [hr m] at this
      cases this
  | @step m m1 m2 q q1 q2 hs _ ih =>
    rintro p rfl
    cases hp : p.step m with
    | none =>
      rcases final_of_stuck hp with ⟨a, rfl⟩ | ⟨f, rfl⟩ | rfl <;> cases hs
    | some x =>
      have := Prog.step_bind (fun a => Prog.ret (g a)) hp
      rw [hs] at this
      cases this
      rcases ih hr x.2 rfl with ⟨f, g1, g2⟩ | ⟨a, g1, g2⟩ | g1
      · exact Or.inl ⟨f, .step hp g1, g2⟩
      · exact Or.inr (Or.inl ⟨a, .step hp g1, g2⟩)
      · exact Or.inr (Or.inr g1)

/-- The run of Insert. -/
theorem insert_run {c : Conf K V} (h : SeqReach c) {fuel : Nat} (hf : Ample fuel) (k : K) (v : V) :
    (∃ m, Steps c.mem (insert fuel k v fuel) m (.fail .tableFull) ∧ TABLE_SIZE < m.nextId) ∨
    ∃ m b, Steps c.mem (insert fuel k v fuel) m (.ret b) ∧ (b = true ↔ ¬ Stored c.mem k v) ∧
      ∀ k' v', Stored m k' v' ↔ Stored c.mem k' v' ∨ (k' = k ∧ v' = v) := by
  obtain ⟨m, ⟨a, h1⟩ | ⟨h1, h2⟩⟩ := C41_returns h hf (op := .api (.insert k v)) rfl (fun _ e => by cases e)
  · have hx := C42_exact h hf (op := .api (.insert k v)) rfl h1
    rcases Steps.unseq (g := Ans.bool) h1 (fun _ => rfl) (insert fuel k v fuel) rfl with ⟨f, _, e⟩ | ⟨b, g1, e⟩ | e
    · cases e
    · cases e
      exact Or.inr ⟨m, b, g1, hx.1, hx.2⟩
    · cases e
  · rcases Steps.unseq (g := Ans.bool) h1 (fun _ => rfl) (insert fuel k v fuel) rfl with ⟨f, g1, e⟩ | ⟨b, _, e⟩ | e
    · cases e
      exact Or.inl ⟨m, g1, h2⟩
    · cases e
    · cases e

/-- `InsertEntry` returns (unless the node IDs are used up). It returns true exactly if the entry is not stored; then it is added, and the object
allocated for it is kept. Otherwise nothing changes and the object is deleted. -/
theorem C52_tree_insert {c : Conf K V} (h : SeqReach c) {fuel : Nat} (hf : Ample fuel) (k : K) (v : V) :
    (∃ m, Steps c.mem (insertEntry fuel k v) m (.fail .tableFull) ∧ TABLE_SIZE < m.nextId) ∨
    ∃ m ret kept, Steps c.mem (insertEntry fuel k v) m (.ret (ret, kept)) ∧ (ret = true ↔ ¬ Stored c.mem k v) ∧ kept = ret ∧
      ∀ k' v', Stored m k' v' ↔ Stored c.mem k' v' ∨ (k' = k ∧ v' = v) := by
  rcases insert_run h hf k v with ⟨m, h1, h2⟩ | ⟨m, b, h1, h2, h3⟩
  · exact Or.inl ⟨m, Steps.seq (fun b => .ret (b, b)) h1, h2⟩
  · exact Or.inr ⟨m, b, b, Steps.seq (fun b => .ret (b, b)) h1, h2, rfl, h3⟩

/-- `CondInsertEntry` of an entry that is not stored returns (unless the node IDs are used up). It returns true exactly if the predicate fails for
all values stored under the key; then the entry is added, and its object is kept. Otherwise nothing changes and the object is deleted.
Missing: entries that are stored, for which an assert may fail (`C52_tree_cond_aborts`). -/
theorem C52_tree_cond_partial {c : Conf K V} (h : SeqReach c) {fuel : Nat} (hf : Ample fuel) {k : K} {v : V} (hv : ¬ Stored c.mem k v) (p : V → Bool) :
    (∃ m, Steps c.mem (condInsertEntry fuel k v p) m (.fail .tableFull) ∧ TABLE_SIZE < m.nextId) ∨
    ∃ m ret kept, Steps c.mem (condInsertEntry fuel k v p) m (.ret (some (ret, kept))) ∧ (ret = true ↔ ∀ u, Stored c.mem k u → p u = false) ∧
      kept = ret ∧ ∀ k' v', Stored m k' v' ↔ Stored c.mem k' v' ∨ (ret = true ∧ k' = k ∧ v' = v) := by
  rcases C05_tree h hf k v p with ⟨m, h1, h2⟩ | ⟨m, b, sat, h1, h2, h3, h4, h5⟩
  · exact Or.inl ⟨m, Steps.seq _ h1, h2⟩
  · have hb : b = true ↔ ∀ u, Stored c.mem k u → p u = false := h2.trans ⟨fun g => g.2, fun g => ⟨hv, g⟩⟩
    refine Or.inr ⟨m, b, b, ?_, hb, rfl, h5⟩
    refine (Steps.seq _ h1).trans' ?_
    cases b with
    | true =>
      have : sat = false := by
        cases sat with
        | false => rfl
        | true =>
          obtain ⟨u, g1, g2⟩ := h3 rfl
          rw [hb.mp rfl u g1] at g2
          cases g2
      subst this
      exact .refl _ _
    | false =>
      have : sat = true := by
        by_contra g
        have : ∀ u, Stored c.mem k u → p u = false := fun u gu => by
          cases e : p u with
          | false => rfl
          | true => exact absurd (h4 hv ⟨u, gu, e⟩) g
        have := hb.mpr this
        cases this
      subst this
      exact .refl _ _

/-- `CondInsertEntry` of an entry that is stored, with a predicate that no value of the key satisfies: an assert fails. -/
theorem C52_tree_cond_aborts {c : Conf K V} (h : SeqReach c) {fuel : Nat} (hf : Ample fuel) {k : K} {v : V} (hv : Stored c.mem k v) {p : V → Bool}
    (hp : ∀ u, Stored c.mem k u → p u = false) :
    ∃ m, (Steps c.mem (condInsertEntry fuel k v p) m (.fail .tableFull) ∧ TABLE_SIZE < m.nextId) ∨
      Steps c.mem (condInsertEntry fuel k v p) m (.ret none) := by
  rcases C05_tree h hf k v p with ⟨m, h1, h2⟩ | ⟨m, b, sat, h1, h2, h3, _⟩
  · exact ⟨m, Or.inl ⟨Steps.seq _ h1, h2⟩⟩
  · refine ⟨m, Or.inr ((Steps.seq _ h1).trans' ?_)⟩
    have hb : b = false := by
      cases b with
      | false => rfl
      | true => exact absurd hv (h2.mp rfl).1
    have hs : sat = false := by
      cases sat with
      | false => rfl
      | true =>
        obtain ⟨u, g1, g2⟩ := h3 rfl
        rw [hp u g1] at g2
        cases g2
    subst hb hs
    exact .refl _ _

/-- Outcome of a program that returns. -/
def outcome {α : Type} : Prog Nat Nat α → Option α
  | .ret r => some r
  | _ => none

/-- Outcome on a tree with two leaves (`ins129`: 0 … 128 inserted, the leaf split). -/
def on129 {α : Type} (p : Prog Nat Nat α) : Option α := (seqRun 1000 initConf ins129).bind fun c => outcome (runN 1000 c.mem p).2

/-- All outcomes occur. -/
example : on129 (insertEntry (3 * TABLE_SIZE + 1) 100 7) = some (true, true) ∧ on129 (insertEntry (3 * TABLE_SIZE + 1) 3 3) = some (false, false) :=
  ⟨by decide +kernel, by decide +kernel⟩

example : on129 (condInsertEntry (3 * TABLE_SIZE + 1) 100 7 (fun u => u == 9)) = some (some (true, true)) ∧
    on129 (condInsertEntry (3 * TABLE_SIZE + 1) 100 7 (fun u => u == 100)) = some (some (false, false)) ∧
    on129 (condInsertEntry (3 * TABLE_SIZE + 1) 3 3 (fun u => u == 9)) = some none := ⟨by decide +kernel, by decide +kernel, by decide +kernel⟩

end Tree
end BwTree
