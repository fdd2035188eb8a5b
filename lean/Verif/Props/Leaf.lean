import Verif.Spec.LeafReach
import Verif.Proofs.LeafSteps
import Mathlib.Data.Nat.Basic

/-!
  Properties of leaf nodes: C02-C07, C09, C11 and the leaf level part of C30.
-/

namespace BwTree

open LeafChain

variable {K V : Type} [LinearOrder K] [DecidableEq V]

/-- Chains the code builds satisfy the invariant. -/
theorem LeafReach.wf {c : LeafChain K V} (h : LeafReach c) : WF c := by
  induction h with
  | init low high hr => exact ⟨List.Pairwise.nil, List.nodup_nil, by simp, hr⟩
  | insert _ hk he ih =>
    rename_i c c' k v b _
    rcases insertStep_spec ih hk v with ⟨_, h⟩ | ⟨_, i, e, h, hw⟩
    · rw [h] at he; injection he with he; injection he with _ he; rw [← he]; exact ih
    · rw [h] at he; injection he with he; injection he with _ he; rw [← he]; exact hw
  | delete _ hk he ih =>
    rename_i c c' k v b _
    rcases deleteStep_spec ih hk v with ⟨_, h⟩ | ⟨_, i, e, h, hw⟩
    · rw [h] at he; injection he with he; injection he with _ he; rw [← he]; exact ih
    · rw [h] at he; injection he with he; injection he with _ he; rw [← he]; exact hw
  | consolidate _ he ih =>
    obtain ⟨l, h, hw, _⟩ := consolidate_wf ih
    rw [h] at he; injection he with he; rw [← he]; exact hw
  | splitLeft _ hid he ih =>
    rcases trySplit_spec ih hid with h | ⟨sk, sib, low, high, items, p, _, h, _, _, _, hw, _⟩
    · rw [h] at he; cases he
    · rw [h] at he; injection he with he; injection he with he; injection he with he _; rw [← he]; exact hw
  | splitRight _ hid he ih =>
    rcases trySplit_spec ih hid with h | ⟨sk, sib, low, high, items, p, _, h, _, _, _, _, hw⟩
    · rw [h] at he; cases he
    · rw [h] at he; injection he with he; injection he with he; injection he with _ he; rw [← he]; exact hw
  | merge _ _ h1 h2 h3 h4 ihl ihr => exact merge_wf ihl ihr h1 h2 h3 h4

/-! ### C02, C03 – Insert and Delete are set insertion and deletion -/

/-- Insert into any leaf chain the code can build: no undefined behaviour, the result is that of set insertion, the new
chain stores exactly the set after insertion, and the key range is unchanged. -/
theorem C02_insert {c : LeafChain K V} (hc : LeafReach c) {k : K} (hk : InRange c.low c.high k) (v : V) :
    ∃ b c', insertStep k v c = some (b, c') ∧ Spec.step (Has c) (.insert k v) (.bool b) (Has c') ∧
      c'.low = c.low ∧ c'.high = c.high := by
  rcases insertStep_spec hc.wf hk v with ⟨h1, h2⟩ | ⟨h1, i, e, h2, h3⟩
  · refine ⟨false, c, h2, ⟨by simp [h1], ?_⟩, rfl, rfl⟩
    intro k' v'
    constructor
    · exact Or.inl
    · rintro (h | ⟨rfl, rfl⟩)
      · exact h
      · exact h1
  · refine ⟨true, _, h2, ⟨by simp [h1], ?_⟩, rfl, rfl⟩
    intro k' v'
    simp only [Has]
    exact or_comm

theorem C03_delete {c : LeafChain K V} (hc : LeafReach c) {k : K} (hk : InRange c.low c.high k) (v : V) :
    ∃ b c', deleteStep k v c = some (b, c') ∧ Spec.step (Has c) (.delete k v) (.bool b) (Has c') ∧
      c'.low = c.low ∧ c'.high = c.high := by
  rcases deleteStep_spec hc.wf hk v with ⟨h1, h2⟩ | ⟨h1, i, e, h2, h3⟩
  · refine ⟨false, c, h2, ⟨by simp [h1], ?_⟩, rfl, rfl⟩
    intro k' v'
    constructor
    · intro h; refine ⟨h, ?_⟩
      rintro ⟨rfl, rfl⟩; exact h1 h
    · exact fun h => h.1
  · refine ⟨true, _, h2, ⟨by simp [h1], ?_⟩, rfl, rfl⟩
    intro k' v'
    simp only [Has]
    exact and_comm

/-! ### C04 – GetValue -/

/-- GetValue on a leaf chain returns exactly the stored values, each once, as long as no insert/delete record lies above
a merge record. Missing: the remaining chains, on which the code is wrong (`C30_getValue_wrong`). -/
theorem C04_lookup_partial {c : LeafChain K V} (hc : LeafReach c) (hn : NoDataAboveMerge c) {k : K}
    (hk : InRange c.low c.high k) :
    ∃ l, lookupStep k c = some l ∧ Spec.step (Has c) (.get k) (.values l) (Has c) := by
  obtain ⟨l, e, h1, h2⟩ := lookupStep_spec hc.wf hn hk
  exact ⟨l, e, h1, h2, fun _ _ => Iff.rfl⟩

/-- On every leaf chain: whatever GetValue returns is stored under the key, and nothing is returned twice. -/
theorem C04_lookup_sound {c : LeafChain K V} (hc : LeafReach c) {k : K} (hk : InRange c.low c.high k) {l : List V}
    (h : lookupStep k c = some l) : l.Nodup ∧ ∀ v ∈ l, Has c k v :=
  lookupStep_sound hc.wf hk h

/-- A leaf chain without merge records, as built by one leaf's own history. -/
theorem noMerge_run : ∀ (acts : List (LeafAct K V)) (c : LeafChain K V), WF c → NoDataAboveMerge.noMerge c →
    (∀ op, LeafAct.api op ∈ acts → InRange c.low c.high op.key) →
    ∃ tr c', leafRun acts c = some (tr, c') ∧ WF c' ∧ Spec.Run (Has c) tr (Has c') ∧
      tr.map Prod.fst = acts.filterMap (fun a => match a with | .api op => some op | .consolidate => none) := by
  intro acts
  induction acts with
  | nil => intro c h _ _; exact ⟨[], c, rfl, h, .nil _, rfl⟩
  | cons a acts ih =>
    intro c h hn hk
    have hk' : ∀ op, LeafAct.api op ∈ acts → InRange c.low c.high op.key := fun op ho => hk op (by simp [ho])
    match a with
    | .consolidate =>
      obtain ⟨l, e, hw, hm⟩ := consolidate_wf h
      obtain ⟨tr, c', e1, h1, h2, h3⟩ := ih _ hw trivial hk'
      refine ⟨tr, c', by simp only [leafRun, e, e1], h1, ?_, by simpa using h3⟩
      have : Has (base c.low c.high l) = Has c := by
        funext k v; exact propext (hm (k, v))
      rw [← this]; exact h2
    | .api (.insert k v) =>
      have hr : InRange c.low c.high k := hk (.insert k v) (by simp)
      rcases insertStep_spec h hr v with ⟨a1, a2⟩ | ⟨a1, i, e, a2, a3⟩
      · obtain ⟨tr, c', e1, h1, h2, h3⟩ := ih c h hn hk'
        refine ⟨(.insert k v, .bool false) :: tr, c', by simp only [leafRun, a2, e1], h1, .cons (S' := Has c) (And.intro (by simp [a1]) ?_) h2, by simpa using h3⟩
        intro k' v'
        exact ⟨Or.inl, fun hh => hh.elim id (fun hh => by rw [hh.1, hh.2]; exact a1)⟩
      · obtain ⟨tr, c', e1, h1, h2, h3⟩ := ih (ins k v i e c) a3 hn hk'
        refine ⟨(.insert k v, .bool true) :: tr, c', by simp only [leafRun, a2, e1], h1, .cons (S' := Has (ins k v i e c)) (And.intro (by simp [a1]) ?_) h2, by simpa using h3⟩
        intro k' v'; simp only [Has]; exact or_comm
    | .api (.delete k v) =>
      have hr : InRange c.low c.high k := hk (.delete k v) (by simp)
      rcases deleteStep_spec h hr v with ⟨a1, a2⟩ | ⟨a1, i, e, a2, a3⟩
      · obtain ⟨tr, c', e1, h1, h2, h3⟩ := ih c h hn hk'
        refine ⟨(.delete k v, .bool false) :: tr, c', by simp only [leafRun, a2, e1], h1, .cons (S' := Has c) (And.intro (by simp [a1]) ?_) h2, by simpa using h3⟩
        intro k' v'
        refine ⟨fun hh => ⟨hh, ?_⟩, fun hh => hh.1⟩
        rintro ⟨rfl, rfl⟩; exact a1 hh
      · obtain ⟨tr, c', e1, h1, h2, h3⟩ := ih (del k v i e c) a3 hn hk'
        refine ⟨(.delete k v, .bool true) :: tr, c', by simp only [leafRun, a2, e1], h1, .cons (S' := Has (del k v i e c)) (And.intro (by simp [a1]) ?_) h2, by simpa using h3⟩
        intro k' v'; simp only [Has]; exact and_comm
    | .api (.get k) =>
      have hr : InRange c.low c.high k := hk (.get k) (by simp)
      have hn' : NoDataAboveMerge c := by
        clear ih hk hk' hr h
        induction c with
        | base => trivial
        | ins => exact hn
        | del => exact hn
        | split _ _ _ _ ih => exact ih hn
        | merge => exact absurd hn (by simp [NoDataAboveMerge.noMerge])
        | remove _ _ ih => exact ih hn
      obtain ⟨l, e, n1, n2⟩ := lookupStep_spec h hn' hr
      obtain ⟨tr, c', e1, h1, h2, h3⟩ := ih c h hn hk'
      exact ⟨(.get k, .values l) :: tr, c', by simp only [leafRun, e, e1], h1, .cons (S' := Has c) ⟨n1, n2, fun _ _ => Iff.rfl⟩ h2, by simpa using h3⟩

/-- C02, C03, C04 over whole histories of a leaf: any sequence of Insert, Delete, GetValue on the leaf's keys, with
consolidations anywhere in between, runs without undefined behaviour and returns what a set would return. -/
theorem C04_history (low high : K × NodeId) (hr : RangeNE low high) (acts : List (LeafAct K V))
    (hk : ∀ op, LeafAct.api op ∈ acts → InRange low high op.key) :
    ∃ tr c', leafRun acts (base low high []) = some (tr, c') ∧ Spec.Run (fun _ _ => False) tr (Has c') ∧
      tr.map Prod.fst = acts.filterMap (fun a => match a with | .api op => some op | .consolidate => none) := by
  have hw : WF (base low high ([] : List (K × V))) := ⟨List.Pairwise.nil, List.nodup_nil, by simp, hr⟩
  obtain ⟨tr, c', e, _, h2, h3⟩ := noMerge_run acts _ hw trivial hk
  refine ⟨tr, c', e, ?_, h3⟩
  have : Has (base low high ([] : List (K × V))) = fun _ _ => False := by funext k v; simp [Has]
  rw [← this]; exact h2

/-- Non-trivial instance: duplicates, re-insertion after delete across a consolidation. -/
example : leafRun [.api (.insert 5 1), .api (.insert 5 2), .consolidate, .api (.delete 5 1), .api (.insert 5 1),
      .api (.delete 5 2), .api (.get 5), .consolidate, .api (.get 5), .api (.insert 5 1)]
      (base ((0 : Nat), INVALID) (0, INVALID) ([] : List (Nat × Nat))) =
    some ([(.insert 5 1, .bool true), (.insert 5 2, .bool true), (.delete 5 1, .bool true), (.insert 5 1, .bool true),
      (.delete 5 2, .bool true), (.get 5, .values [1]), (.get 5, .values [1]), (.insert 5 1, .bool false)],
      base (0, INVALID) (0, INVALID) [(5, 1)]) := by decide

/-! ### C30 (leaf level) – GetValue is wrong when an insert or delete record lies above a merge record -/

/-- Left leaf `[0,10)` with keys 3 and 5, right leaf `[10,∞)` empty, merged, then key 12 inserted above the merge. -/
def c30Chain : LeafChain Nat Nat :=
  ins 12 1 0 false (merge 10 3 (base (10, NOT_INVALID) (0, INVALID) [])
    (base (0, INVALID) (10, 3) [(3, 1), (5, 7)]))

theorem c30Chain_reach : LeafReach c30Chain := by
  refine .insert (c := merge 10 3 (base (10, NOT_INVALID) (0, INVALID) []) (base (0, INVALID) (10, 3) [(3, 1), (5, 7)]))
    (k := 12) (v := 1) (b := true) (.merge ?_ ?_ rfl (by decide) rfl (by decide)) ?_ (by decide)
  · exact .consolidate (c := ins 3 1 0 false (ins 5 7 0 false (base (0, INVALID) (10, 3) [])))
      (.insert (c := ins 5 7 0 false (base (0, INVALID) (10, 3) [])) (k := 3) (v := 1) (b := true)
        (.insert (c := base (0, INVALID) (10, 3) []) (k := 5) (v := 7) (b := true)
          (.init _ _ (Or.inl rfl)) ⟨Or.inl rfl, Or.inr (by decide)⟩ (by decide))
        ⟨Or.inl rfl, Or.inr (by decide)⟩ (by decide)) (by decide)
  · exact .init _ _ (Or.inr (Or.inl rfl))
  · exact ⟨Or.inl rfl, Or.inl rfl⟩

/-- The value 7 is stored under key 5, but GetValue(5) returns nothing: the index bound recorded by the insert record refers
to the right base node and is applied to the left one. -/
theorem C30_getValue_wrong :
    ∃ c : LeafChain Nat Nat, LeafReach c ∧ InRange c.low c.high 5 ∧ Has c 5 7 ∧ lookupStep 5 c = some [] := by
  refine ⟨c30Chain, c30Chain_reach, ⟨Or.inl rfl, Or.inl rfl⟩, ?_, by decide⟩
  simp [c30Chain, Has]

/-- On the same chain other lookups return stored values (hypotheses of `C04_lookup_sound` with a data record above a merge record). -/
example : lookupStep 12 c30Chain = some [1] ∧ InRange c30Chain.low c30Chain.high 12 := ⟨by decide, Or.inl rfl, Or.inl rfl⟩

/-! ### C05 – ConditionalInsert -/

/-- Return values, predicate flag and stored set of ConditionalInsert on any leaf chain the code can build. -/
theorem C05_result {c : LeafChain K V} (hc : LeafReach c) {k : K} (hk : InRange c.low c.high k) (v : V)
    (p : V → Bool) :
    ∃ b sat c', condInsertStep k v p c = some (b, sat, c') ∧
      (b = true ↔ (¬ Has c k v ∧ ∀ w, Has c k w → p w = false)) ∧
      (sat = true → ∃ w, Has c k w ∧ p w = true) ∧
      (b = true → ∀ k' v', Has c' k' v' ↔ (Has c k' v' ∨ (k' = k ∧ v' = v))) ∧
      (b = false → c' = c) := by
  obtain ⟨r, e, h⟩ := predSearch_spec c.depth k v p c hc.wf hk.2 [] [] (by simp) (by simp)
  cases r with
  | satisfied =>
    obtain ⟨w, _, _, hw, hp⟩ := h
    refine ⟨false, true, c, by simp [condInsertStep, e], ?_, fun _ => ⟨w, hw, hp⟩, by simp, by simp⟩
    simp only [Bool.false_eq_true, false_iff]
    rintro ⟨_, h⟩; rw [h w hw] at hp; cases hp
  | existing =>
    refine ⟨false, false, c, by simp [condInsertStep, e], ?_, by simp, by simp, by simp⟩
    simp only [Bool.false_eq_true, false_iff]
    rintro ⟨h', _⟩; exact h' h.2.2
  | insertAt i ex =>
    refine ⟨true, false, ins k v i ex c, by simp [condInsertStep, e], ?_, by simp, ?_, by simp⟩
    · simp only [true_iff]
      refine ⟨fun hh => (h.2.2 v (by simp) (by simp) hh).2 rfl, fun w hw => (h.2.2 w (by simp) (by simp) hw).1⟩
    · intro _ k' v'; simp only [Has]; exact or_comm

/-- The chain ConditionalInsert leaves behind is again a good one if the pair is not physically present in the base node.
Missing: the case of a pair deleted since the last consolidation, where the code is wrong (`C05_consolidation_breaks`). -/
theorem C05_chain_partial {c : LeafChain K V} (hc : LeafReach c) {k : K} (hk : InRange c.low c.high k) (v : V)
    (p : V → Bool) (hb : (k, v) ∉ baseFor c k) {b sat : Bool} {c' : LeafChain K V}
    (h : condInsertStep k v p c = some (b, sat, c')) :
    WF c' ∧ (∃ l, collect c' = some l ∧ l.Nodup ∧ ∀ x, x ∈ l ↔ Has c' x.1 x.2) := by
  obtain ⟨r, e, h'⟩ := predSearch_spec c.depth k v p c hc.wf hk.2 [] [] (by simp) (by simp)
  have hw : WF c' := by
    cases r with
    | satisfied => simp [condInsertStep, e] at h; rw [← h.2.2]; exact hc.wf
    | existing => simp [condInsertStep, e] at h; rw [← h.2.2]; exact hc.wf
    | insertAt i ex =>
      simp [condInsertStep, e] at h; rw [← h.2.2]
      refine ⟨hc.wf, hk, fun hh => (h'.2.2 v (by simp) (by simp) hh).2 rfl, ?_⟩
      rw [h'.1, h'.2.1]
      simp only [IdxOk, Bool.false_eq_true, if_false]
      exact ⟨hb, trivial⟩
  obtain ⟨l, e1, _, h2, h3, _⟩ := collect_spec hw
  exact ⟨hw, l, e1, h2, h3⟩

example : condInsertStep 5 3 (fun w => w == 9) (ins 5 1 0 false (base ((0 : Nat), INVALID) (0, INVALID) [])) =
    some (true, false, ins 5 3 0 false (ins 5 1 0 false (base (0, INVALID) (0, INVALID) []))) := by decide

/-- Insert, consolidate, Delete, ConditionalInsert of the same pair: the next consolidation pushes the pair twice into a
node sized for one (undefined behaviour / failed assert 4905). -/
theorem C05_consolidation_breaks :
    ∃ c c' : LeafChain Nat Nat, LeafReach c ∧ InRange c.low c.high 5 ∧
      condInsertStep 5 1 (fun _ => false) c = some (true, false, c') ∧ consolidate c' = none := by
  refine ⟨del 5 1 0 true (base (0, INVALID) (0, INVALID) [(5, 1)]), _, ?_, ⟨Or.inl rfl, Or.inl rfl⟩, rfl, by decide⟩
  refine .delete (c := base (0, INVALID) (0, INVALID) [(5, 1)]) (k := 5) (v := 1) (b := true) ?_ ⟨Or.inl rfl, Or.inl rfl⟩ (by decide)
  exact .consolidate (c := ins 5 1 0 false (base (0, INVALID) (0, INVALID) []))
    (.insert (c := base (0, INVALID) (0, INVALID) []) (k := 5) (v := 1) (b := true)
      (.init _ _ (Or.inl rfl)) ⟨Or.inl rfl, Or.inl rfl⟩ (by decide)) (by decide)

/-! ### C06 – consolidation is invisible -/

theorem C06_consolidate {c : LeafChain K V} (hc : LeafReach c) :
    ∃ l, consolidate c = some (base c.low c.high l) ∧
      l.Pairwise (fun a b => a.1 ≤ b.1) ∧ l.Nodup ∧
      (∀ k v, Has (base c.low c.high l) k v ↔ Has c k v) ∧
      (∀ k, InRange c.low c.high k → ∀ v, (insertStep k v (base c.low c.high l)).map (·.1) = (insertStep k v c).map (·.1) ∧
        (deleteStep k v (base c.low c.high l)).map (·.1) = (deleteStep k v c).map (·.1)) := by
  obtain ⟨l, e, hw, hm⟩ := consolidate_wf hc.wf
  have hiff : ∀ k v, Has (base c.low c.high l) k v ↔ Has c k v := fun k v => hm (k, v)
  refine ⟨l, e, hw.1, hw.2.1, hiff, ?_⟩
  intro k hk v
  constructor
  · rcases insertStep_spec hc.wf hk v with ⟨h1, h2⟩ | ⟨h1, i, e, h2, h3⟩ <;>
    rcases insertStep_spec hw (k := k) hk v with ⟨g1, g2⟩ | ⟨g1, i', e', g2, g3⟩ <;> rw [h2, g2]
    · rfl
    · exact absurd ((hiff k v).mpr h1) g1
    · exact absurd ((hiff k v).mp g1) h1
    · rfl
  · rcases deleteStep_spec hc.wf hk v with ⟨h1, h2⟩ | ⟨h1, i, e, h2, h3⟩ <;>
    rcases deleteStep_spec hw (k := k) hk v with ⟨g1, g2⟩ | ⟨g1, i', e', g2, g3⟩ <;> rw [h2, g2]
    · rfl
    · exact absurd ((hiff k v).mp g1) h1
    · exact absurd ((hiff k v).mpr h1) g1
    · rfl

/-- The merged chain above consolidates to the three expected parts. -/
example : consolidate c30Chain = some (base (0, INVALID) (0, INVALID) [(3, 1), (5, 7), (12, 1)]) := by decide

/-! ### C07 – item counts are exact, so consolidation fills its buffer exactly -/

/-- The item count recorded by the node constructors is the number of stored pairs, and `collect`, which fails on any
out of bounds copy, on a stack array overflow and on a wrong number of items, succeeds. -/
theorem C07_item_count {c : LeafChain K V} (hc : LeafReach c) :
    ∃ l, collect c = some l ∧ (l.length : Int) = c.itemCount ∧ l.Nodup ∧ ∀ x, x ∈ l ↔ Has c x.1 x.2 := by
  obtain ⟨l, e, _, h2, h3, h4⟩ := collect_spec hc.wf
  exact ⟨l, e, h4, h2, h3⟩

/-- Consolidation, when it is defined, never puts more records into its two stack arrays than they hold. -/
theorem C07_scratch_fits (cap : Nat) : ∀ (c : LeafChain K V) (hi : K × NodeId) (st st' : CollectState K V), st.seen.length ≤ cap →
    collectRec cap c hi st = some st' → st'.seen.length ≤ cap := by
  intro c
  induction c with
  | base low high items =>
    intro hi st st' h e
    simp only [collectRec, collectBase] at e
    split at e
    · cases e
    · split at e
      · cases e
      · cases e; exact h
  | ins k v i x c ih =>
    intro hi st st' h e
    simp only [collectRec] at e
    split at e
    · exact ih _ _ _ h e
    · split at e
      · split at e
        · cases e
        · refine ih _ _ _ ?_ e
          simp only [List.length_append, List.length_singleton]
          omega
      · cases e
  | del k v i x c ih =>
    intro hi st st' h e
    simp only [collectRec] at e
    split at e
    · exact ih _ _ _ h e
    · split at e
      · split at e
        · cases e
        · refine ih _ _ _ ?_ e
          simp only [List.length_append, List.length_singleton]
          omega
      · cases e
  | remove _ _ => intro hi st st' h e; cases e
  | split _ _ _ c ih => intro hi st st' h e; simp only [collectRec] at e; exact ih _ _ _ h e
  | merge _ _ r c ihr ihc =>
    intro hi st st' h e
    simp only [collectRec] at e
    split at e
    · cases e
    · rename_i st1 e1
      exact ihr _ _ _ (ihc _ _ _ h e1) e

omit [LinearOrder K] [DecidableEq V] in
/-- A binary search, when it is defined, is over a range inside the array and its result is in that range. -/
theorem C07_search_in_range {α : Type} (p : α → Bool) (l : List α) {first last b : Nat} (h : bsearch p l first last = some b) :
    first ≤ b ∧ b ≤ last ∧ last ≤ l.length := by
  unfold bsearch at h
  split at h
  · rename_i hr
    obtain ⟨b', e, h1, h2⟩ := bsearchLoop_bounds p l (last - first) first (last - first) (Nat.le_refl _) (by omega)
    have : b = b' := Option.some.inj (h.symm.trans e)
    omega
  · cases h

example : c30Chain.itemCount = 3 ∧ collect c30Chain = some [(3, 1), (5, 7), (12, 1)] := by decide

/-! ### C09 – leaf split -/

theorem notInvalid_ne : NOT_INVALID ≠ INVALID := by decide

/-- Splitting a leaf: pairs are distributed over old leaf and sibling by the split key, nothing is lost or duplicated, no key is
on both sides, both halves hold more than LEAF_LOWER items, the sibling takes over the right end of the range. -/
theorem C09_split {c l r : LeafChain K V} (hc : LeafReach c) {id : NodeId} (hid : id ≠ INVALID)
    (h : trySplit id c = some (some (l, r))) :
    ∃ sk, l.high = (sk, id) ∧ l.low = c.low ∧ r.low.1 = sk ∧ r.low.2 ≠ INVALID ∧ r.high = c.high ∧
      InRange c.low c.high sk ∧
      (∀ k v, Has c k v ↔ (Has l k v ∨ Has r k v)) ∧
      (∀ k v, Has l k v → k < sk) ∧ (∀ k v, Has r k v → sk ≤ k) ∧
      (LEAF_LOWER : Int) < l.itemCount ∧ (LEAF_LOWER : Int) < r.itemCount ∧ l.itemCount + r.itemCount = c.itemCount := by
  rcases trySplit_spec hc.wf hid with h' | ⟨sk, sib, low, high, items, p, hcb, h', hsib, hgood, ⟨y, hy, hysk⟩, hwl, hwr⟩
  · rw [h'] at h; cases h
  · rw [h'] at h; injection h with h; injection h with h; injection h with e1 e2
    subst e1 e2 hcb
    have hs : SortedKeys items := hc.wf.1
    have hp0 : 0 < p := by have := hgood.1; omega
    have hplt := (List.getElem?_eq_some_iff.mp hy).1
    obtain ⟨hb1, hb2⟩ := boundary_take hs hp0 hy hgood.2.2
    rw [hysk] at hb1 hb2
    have hmem : ∀ x, x ∈ items ↔ x ∈ items.take p ∨ x ∈ items.drop p := by
      intro x; rw [← List.mem_append, List.take_append_drop]
    subst hsib
    have hymem : y ∈ items := List.mem_of_getElem? hy
    refine ⟨sk, rfl, rfl, rfl, notInvalid_ne, rfl, by rw [← hysk]; exact hc.wf.2.2.1 y hymem, ?_, ?_, ?_, ?_, ?_, ?_⟩
    · intro k v
      simp only [Has]
      constructor
      · intro hm
        rcases (hmem _).mp hm with h | h
        · exact Or.inl ⟨hb1 _ h, hm⟩
        · exact Or.inr h
      · rintro (h | h)
        · exact h.2
        · exact List.mem_of_mem_drop h
    · intro k v h; exact h.1
    · intro k v h; exact hb2 _ h
    · simp only [itemCount, List.length_drop]; have := hgood.1; omega
    · simp only [itemCount, List.length_drop]; have := hgood.2.1; omega
    · simp only [itemCount, List.length_drop]; omega

/-- A base leaf of at least LEAF_UPPER items is split unless no key boundary leaves more than LEAF_LOWER items on both sides;
smaller leaves are left alone. -/
theorem C09_split_iff {low high : K × NodeId} {items : List (K × V)} (hc : LeafReach (base low high items))
    {id : NodeId} :
    (trySplit id (base low high items) = some none ∧
      (items.length < LEAF_UPPER ∨ ∀ p x y, LEAF_LOWER < p → LEAF_LOWER < items.length - p →
        items[p - 1]? = some x → items[p]? = some y → x.1 = y.1)) ∨
    (∃ l r, trySplit id (base low high items) = some (some (l, r)) ∧ LEAF_UPPER ≤ items.length) := by
  unfold trySplit
  simp only [isDelta, Bool.false_eq_true, if_false]
  by_cases hlt : (base low high items).itemCount < (LEAF_UPPER : Int)
  · left; rw [if_pos hlt]
    exact ⟨rfl, Or.inl (by simp only [itemCount] at hlt; omega)⟩
  · rw [if_neg hlt]
    have hge : LEAF_UPPER ≤ items.length := by simp only [itemCount] at hlt; omega
    rcases findSplitPoint_spec hc.wf.1 hge with ⟨p, hp, hgood⟩ | ⟨hp, hno⟩
    · right
      have hplt : p < items.length := by have := hgood.2.1; omega
      have hg := List.getElem?_eq_getElem hplt
      have hdrop : items.drop p = items[p] :: items.drop (p + 1) := List.drop_eq_getElem_cons hplt
      refine ⟨split items[p].1 id (base (items[p].1, NOT_INVALID) high (items.drop p)).itemCount (base low high items),
        base (items[p].1, NOT_INVALID) high (items.drop p), ?_, hge⟩
      simp only [splitSibling, hp, hg]
      rw [hdrop]
    · left
      refine ⟨by simp only [splitSibling, hp], Or.inr ?_⟩
      intro p x y h1 h2 hx hy
      have hle := sorted_get hc.wf.1 (i := p - 1) (j := p) (by omega) hx hy
      by_contra hne
      apply hno p
      refine ⟨h1, h2, ?_⟩
      intro x' y' hx' hy'
      rw [hx] at hx'; rw [hy] at hy'
      injection hx' with hx'; injection hy' with hy'
      rw [← hx', ← hy']
      exact lt_of_le_of_ne hle hne

/-- 130 keys 0..129: splits at the middle. -/
example : (trySplit 7 (base ((0 : Nat), INVALID) (0, INVALID) ((List.range 130).map (fun i => (i, i))))).map
    (fun o => o.map (fun lr => (lr.1.high, lr.1.itemCount, lr.2.itemCount))) = some (some ((65, 7), 65, 65)) := by
  decide +kernel

/-- One key with 130 values: no split point, the leaf is left alone. -/
example : trySplit 7 (base ((0 : Nat), INVALID) (0, INVALID) ((List.range 130).map (fun i => (4, i)))) = some none := by
  decide +kernel

/-! ### C11 – merging two leaves is lossless -/

theorem C11_merge {l r : LeafChain K V} (hl : LeafReach l) (hr : LeafReach r) {mk : K} {id : NodeId}
    (h1 : l.high = (mk, id)) (h2 : id ≠ INVALID) (h3 : r.low.1 = mk) (h4 : r.low.2 ≠ INVALID) :
    let m := merge mk id r l
    m.low = l.low ∧ m.high = r.high ∧
    (∀ k, InRange m.low m.high k ↔ (InRange l.low l.high k ∨ InRange r.low r.high k)) ∧
    (∀ k v, Has m k v ↔ (Has l k v ∨ Has r k v)) ∧
    (∀ k, ¬ (InRange l.low l.high k ∧ InRange r.low r.high k)) ∧
    (∃ its, consolidate m = some (base l.low r.high its) ∧ ∀ k v, (k, v) ∈ its ↔ (Has l k v ∨ Has r k v)) := by
  intro m
  have hw : WF m := merge_wf hl.wf hr.wf h1 h2 h3 h4
  have hL : ∀ k v, Has l k v → k < mk := by
    intro k v h
    rcases (inRange_of_has hl.wf h).2 with a | a
    · rw [h1] at a; exact absurd a h2
    · rw [h1] at a; exact a
  have hR : ∀ k v, Has r k v → mk ≤ k := by
    intro k v h
    rcases (inRange_of_has hr.wf h).1 with a | a
    · exact absurd a h4
    · rw [h3] at a; exact a
  have hhas : ∀ k v, Has m k v ↔ (Has l k v ∨ Has r k v) := by
    intro k v
    simp only [m, Has]
    split
    · rename_i hle
      exact ⟨Or.inr, fun h => h.elim (fun h => absurd (hL k v h) (not_lt_of_ge hle)) (fun h => h)⟩
    · rename_i hle
      exact ⟨Or.inl, fun h => h.elim (fun h => h) (fun h => absurd (hR k v h) hle)⟩
  refine ⟨rfl, rfl, ?_, hhas, ?_, ?_⟩
  · intro k
    constructor
    · intro h
      by_cases hk : mk ≤ k
      · exact Or.inr ⟨Or.inr (by rw [h3]; exact hk), h.2⟩
      · exact Or.inl ⟨h.1, Or.inr (by rw [h1]; exact lt_of_not_ge hk)⟩
    · rintro (h | h)
      · exact inRange_merge_left hw h
      · exact inRange_merge_right hw h
  · rintro k ⟨⟨_, a⟩, ⟨b, _⟩⟩
    rw [h1] at a
    rcases a with a | a
    · exact h2 a
    · rcases b with b | b
      · exact h4 b
      · rw [h3] at b; exact absurd a (not_lt_of_ge b)
  · obtain ⟨its, e, _, hm⟩ := consolidate_wf hw
    exact ⟨its, e, fun k v => (hm (k, v)).trans (hhas k v)⟩

end BwTree
