import Verif.Proofs.SeqRun

/-!
  C41, C42: calls that do not overlap end, and each does what its documentation says.
-/

namespace BwTree
namespace Tree

open Prog

set_option linter.unusedSectionVars false

variable {K V : Type} [LinearOrder K] [DecidableEq V] [Inhabited K]

/-- The run of a call that is alone is determined by the tree it starts on. -/
theorem C41_deterministic {c : Conf K V} {fuel : Nat} {op : Call K V} {m1 m2 : Mem K V} {r1 r2 : Prog K V (Ans K V)}
    (h1 : Steps c.mem (prog fuel op) m1 r1) (h2 : Steps c.mem (prog fuel op) m2 r2)
    (e1 : (∃ a, r1 = .ret a) ∨ ∃ f, r1 = .fail f) (e2 : (∃ a, r2 = .ret a) ∨ ∃ f, r2 = .fail f) : m1 = m2 ∧ r1 = r2 :=
  h1.det h2 (by rcases e1 with ⟨a, rfl⟩ | ⟨f, rfl⟩ <;> exact fun _ => rfl) (by rcases e2 with ⟨a, rfl⟩ | ⟨f, rfl⟩ <;> exact fun _ => rfl)

/-- After any history of calls that do not overlap, Insert, Delete, and Begin(k), Begin() and stepping forward of an iterator return, unless
more node IDs are needed than the mapping table holds. -/
theorem C41_returns {c : Conf K V} (h : SeqReach c) {fuel : Nat} (hf : Ample fuel) {op : Call K V} (hop : op.forward = true)
    (hg : ∀ k, op ≠ .api (.get k)) :
    ∃ m, (∃ a, Steps c.mem (prog fuel op) m (.ret a)) ∨ (Steps c.mem (prog fuel op) m (.fail .tableFull) ∧ TABLE_SIZE < m.nextId) := by
  obtain ⟨w, hw⟩ := h.calls
  rcases hw.run 0 hf hop with ⟨w1, f, h1, h2⟩ | ⟨a, w1, h1, _, _⟩
  · unfold mayFail at h2
    split at h2
    · exact absurd rfl (hg _)
    · obtain ⟨rfl, h3⟩ := h2
      exact ⟨_, Or.inr ⟨h1, h3⟩⟩
  · exact ⟨_, Or.inl ⟨a, h1⟩⟩

/-- The same for GetValue. Partial: it may also read the parent snapshot it has not set (`uninit`). -/
theorem C41_get_partial {c : Conf K V} (h : SeqReach c) {fuel : Nat} (hf : Ample fuel) (k : K) :
    ∃ m, (∃ a, Steps c.mem (prog fuel (.api (.get k))) m (.ret a)) ∨ Steps c.mem (prog fuel (.api (.get k))) m (.fail .uninit) ∨
      (Steps c.mem (prog fuel (.api (.get k))) m (.fail .tableFull) ∧ TABLE_SIZE < m.nextId) := by
  obtain ⟨w, hw⟩ := h.calls
  rcases hw.run 0 hf (op := .api (.get k)) rfl with ⟨w1, f, h1, h2⟩ | ⟨a, w1, h1, _, _⟩
  · rcases h2 with rfl | ⟨rfl, h3⟩
    · exact ⟨_, Or.inr (Or.inl h1)⟩
    · exact ⟨_, Or.inr (Or.inr ⟨h1, h3⟩)⟩
  · exact ⟨_, Or.inl ⟨a, h1⟩⟩

/-- What a call returns after a history of calls that do not overlap, and the set of pairs it leaves, are those of the specification;
GetValue returns exactly the values stored under the key. -/
theorem C42_exact {c : Conf K V} (h : SeqReach c) {fuel : Nat} (hf : Ample fuel) {op : Call K V} (hop : op.forward = true) {m : Mem K V}
    {a : Ans K V} (hs : Steps c.mem (prog fuel op) m (.ret a)) : seqStep (Stored c.mem) op a (Stored m) := by
  obtain ⟨w, hw⟩ := h.calls
  obtain ⟨σ, n, h1, h2, h3, h4, h5⟩ := hs.exec h.reach hw.thr 0
  have hstep : tstep (Stored (σ 0).mem) op a (Stored (σ n).mem) := Iterator.alone_call h1 (Nat.le_refl n) h4 h5
  rw [h2, h3] at hstep
  rcases hw.run 0 hf hop with ⟨w1, f, h6, _⟩ | ⟨a', w1, h6, _, h7, _⟩
  · have := (h6.det hs (fun _ => rfl) (fun _ => rfl)).2
    cases this
  · obtain ⟨_, e⟩ := h6.det hs (fun _ => rfl) (fun _ => rfl)
    cases e
    unfold seqStep
    split
    · exact hstep.1 (h7 ⟨_, rfl⟩ _ _ rfl)
    · exact hstep

/-- Inserts of (0, 0) … (128, 128): the leaf is split. -/
def ins129 : List (Call Nat Nat) := (List.range 129).map fun i => .api (.insert i i)

/-- Result of a call, as far as it is a Boolean or values. -/
def plain : Prog Nat Nat (Ans Nat Nat) → Option (Option Bool × List Nat)
  | .ret (.bool b) => some (some b, [])
  | .ret (.values l _) => some (none, l)
  | _ => none

/-- Result of a call after `ins129`, and the number of node IDs used by them. -/
def after129 (op : Call Nat Nat) : Option (Nat × Option (Option Bool × List Nat)) :=
  (seqRun 1000 initConf ins129).map fun c => (c.mem.nextId, plain (runN 1000 c.mem (prog (3 * TABLE_SIZE + 1) op)).2)

/-- A history with a split, after which the calls return, with either result; the hypotheses of `C42_exact` are met. -/
example : after129 (.api (.get 100)) = some (4, some (none, [100])) ∧ after129 (.api (.insert 7 7)) = some (4, some (some false, [])) ∧
    after129 (.api (.insert 7 8)) = some (4, some (some true, [])) ∧ after129 (.api (.delete 128 128)) = some (4, some (some true, [])) :=
  ⟨by decide +kernel, by decide +kernel, by decide +kernel, by decide +kernel⟩

theorem C42_example : ∃ (c : Conf Nat Nat) (m : Mem Nat Nat), SeqReach c ∧ c.mem.nextId = 4 ∧ Ample (3 * TABLE_SIZE + 1) ∧
    ∃ leaf, Steps c.mem (prog (3 * TABLE_SIZE + 1) (.api (.get 100))) m (.ret (.values [100] leaf)) := by
  have h : after129 (.api (.get 100)) = some (4, some (none, [100])) := by decide +kernel
  unfold after129 at h
  cases hc : seqRun 1000 initConf ins129 with
  | none => rw [hc] at h; cases h
  | some c =>
    rw [hc] at h
    injection h with h
    injection h with h1 h2
    have hs := runN_steps 1000 c.mem (prog (3 * TABLE_SIZE + 1) (.api (.get 100)))
    have hr : SeqReach c := seqRun_reach .init (by simp [ins129, Call.forward]) hc
    generalize runN 1000 c.mem (prog (3 * TABLE_SIZE + 1) (.api (.get 100))) = r at h2 hs
    obtain ⟨m, p⟩ := r
    refine ⟨c, m, hr, h1, Nat.lt_succ_self _, ?_⟩
    unfold plain at h2
    split at h2
    · cases h2
    · rename_i l leaf e
      injection h2 with h2
      injection h2 with _ h2
      subst h2
      cases e
      exact ⟨leaf, hs⟩
    · cases h2

end Tree
end BwTree
