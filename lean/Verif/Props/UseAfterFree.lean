import Verif.Props.Unfinished
import Verif.Props.SeqBack
import Verif.Props.TreeUse

/-!
  C44 fails: a call can be sent to a node that was merged away and retired before the call began. Two ways are shown, one without any overlap of calls.

  The records of a separator insert or delete name the neighbours of the separator, and the search for a child uses them as shortcuts. A neighbour named in
  an older record may since have been merged away; the newer record that says so does not cover the whole range of the older one if a separator in between
  was not posted. (The search to the left of a key does not even need that: see `C17_backward_search_wrong`.)
-/

set_option Elab.async false

namespace BwTree
namespace Tree

open Prog
open Iterator (Exec)

namespace Long

/-- Leaf 65 was merged into leaf 64 and its separator deleted, while the separator of leaf 133 was never posted. -/
def wideNow : NodeId × Ptr × Node Nat Nat :=
  (1, 11650, .inner (.del (4032, 65) (3968, 64) (4099, 133) 63 (.del (sep 66) (sep 65) (sep 67) 64 (.base (0, 2) (0, INVALID) 0 (seps 64 ++ kids 5)))))

def razed : Rows Nat Nat where
  root := 132
  nextId := 134
  nextPtr := 11653
  rows := [rootRow, wideNow, fullLeaf 63,
    (65, 11648, .leaf (.remove 65 (.base (4032, NOT_INVALID) (4099, 133) (own 4071 19 ++ [(4090, 4090), (4090, 7)] ++ own 4091 5 ++ late 4096 3))))]

theorem lead_razed : leads delFront 40 40 apart razed = true := by decide +kernel

theorem reach_razed : ∃ c : Conf Nat Nat, Reach c ∧ (∀ t, c.thr t = none) ∧ HasRows razed c.mem := by
  obtain ⟨c9, h9, idle, r9⟩ := reach_apart
  obtain ⟨c10, o10, r10⟩ := leads_of (t := 0) lead_razed c9 (idle 0) r9
  exact ⟨c10, o10.reach h9, fun t => by rw [o10.thr]; exact idle t, r10⟩

/-- The record of leaf 65 is retired. -/
theorem razed_retired {c : Conf Nat Nat} (hr : Reach c) (hq : ∀ t, c.thr t = none) (h : HasRows razed c.mem) :
    c.mem.table 65 = some 11648 ∧ Retired c.mem 11648 := by
  have ht : c.mem.table 65 = some 11648 := (h.rows (65, 11648, _) (by right; right; right; exact List.mem_cons_self)).1
  have l0 : Leftmost c.mem 132 := by have := Leftmost.root (m := c.mem); rwa [h.root] at this
  have l1 : Leftmost c.mem 1 := .down l0 (row_node h (x := rootRow) List.mem_cons_self) (by decide +kernel)
  obtain ⟨h1, h2⟩ := h.rows wideNow (by right; exact List.mem_cons_self)
  exact ⟨ht, C38_marker_retired hr .refl hq (p := 11650) (id := 65) ⟨1, 11650, .first l1, h1, .chain (fuel := 1) List.mem_cons_self⟩
    ⟨_, _, _, _, _, h2, rfl⟩ ht⟩

/-- Three steps lead a call with key 4139 to leaf 65. -/
def finds (f : Nat) (op : Call Nat Nat) : Bool :=
  match runP 3 razed.mem (prog (f + 20) op) with
  | (s, .load i _) => decide (i = 65) && razed.holds s
  | _ => false

theorem finds_get (f : Nat) : finds f (.api (.get 4139)) = true := by rfl
theorem finds_insert (f v : Nat) : finds f (.api (.insert 4139 v)) = true := by rfl
theorem finds_delete (f v : Nat) : finds f (.api (.delete 4139 v)) = true := by rfl
theorem finds_page (f : Nat) : finds f (.page 4139) = true := by rfl

theorem finds_spec {f : Nat} {op : Call Nat Nat} (h : finds f op = true) {m : Mem Nat Nat} (hm : HasRows razed m) :
    ∃ m' k, Steps m (prog (f + 20) op) m' (.load 65 k) ∧ m'.table 65 = some 11648 := by
  obtain ⟨m', h1, h2⟩ := runP_steps 3 (prog (f + 20) op) hm.knows
  unfold finds at h
  split at h
  · rename_i s i k e
    rw [e] at h1 h2
    rw [Bool.and_eq_true] at h
    rw [of_decide_eq_true h.1] at h1
    exact ⟨m', k, h1, ((Rows.holds_spec h.2 h2).rows (65, 11648, _) (by right; right; right; exact List.mem_cons_self)).1⟩
  · cases h

/-- One attempt of GetValue. -/
theorem get_again (f n : Nat) : (runP 4 razed.mem (getValue (f + 20) 4139 (n + 1))) = (razed.mem, getValue (f + 20) 4139 n) := by rfl

theorem gets (f : Nat) : ∀ (n : Nat) {m : Mem Nat Nat}, Knows razed.mem m → ∃ m', Steps m (getValue (f + 20) 4139 n) m' .spin
  | 0, m, _ => ⟨m, .refl _ _⟩
  | n + 1, m, hm => by
    obtain ⟨m1, h1, k1⟩ := runP_steps 4 (getValue (V := Nat) (f + 20) 4139 (n + 1)) hm
    rw [get_again] at h1 k1
    obtain ⟨m2, h2⟩ := gets f n k1
    exact ⟨m2, h1.trans' h2⟩

/-- One attempt of the other calls. -/
theorem try_again (f : Nat) : (runP 6 razed.mem (tryTraverse (V := Nat) (f + 20) 4139)) = (razed.mem, .ret none) := by rfl

theorem tries (f : Nat) : ∀ (n : Nat) {m : Mem Nat Nat}, Knows razed.mem m → ∃ m', Steps m (traverse (f + 20) 4139 n) m' .spin
  | 0, m, _ => ⟨m, .refl _ _⟩
  | n + 1, m, hm => by
    obtain ⟨m1, h1, k1⟩ := runP_steps 6 (tryTraverse (V := Nat) (f + 20) 4139) hm
    rw [try_again] at h1 k1
    obtain ⟨m2, h2⟩ := tries f n k1
    exact ⟨m2, (h1.seq _).trans' h2⟩

end Long

/-- Steps of one thread as part of an execution. -/
theorem exec_steps {t : Tid} {m m' : Mem Nat Nat} {p p' : Prog Nat Nat (Ans Nat Nat)} (h : Steps m p m' p') : ∀ {σ : Nat → Conf Nat Nat} {n : Nat}, Exec σ n →
    Busy σ t 0 n → (σ n).thr t = some p → (σ n).mem = m →
    ∃ σ' n', (∀ i ≤ n, σ' i = σ i) ∧ Exec σ' n' ∧ Busy σ' t 0 n' ∧ (σ' n').thr t = some p' ∧ (σ' n').mem = m' := by
  induction h with
  | refl m p => exact fun he hb h1 h2 => ⟨_, _, fun _ _ => rfl, he, hb, h1, h2⟩
  | @step m m1 m2 p p1 p2 hs _ ih =>
    intro σ n he hb h1 h2
    subst h2
    have hn : ¬ n + 1 ≤ n := by omega
    obtain ⟨σ', n', e0, he', hb', e1, e2⟩ := ih
      (σ := fun i => if i ≤ n then σ i else { σ n with mem := m1, thr := setThr (σ n).thr t (some p1) }) (n := n + 1)
      ⟨by simpa using he.start, fun i hi => by
        by_cases hin : i < n
        · simp only [Nat.le_of_lt hin, Nat.succ_le_of_lt hin, if_true]
          exact he.step i hin
        · have : i = n := by omega
          subst this
          simp only [Nat.le_refl, if_true, hn, if_false]
          exact .step (σ i) t p p1 m1 h1 hs⟩
      ⟨by simpa using hb.1, by omega, fun i h0 hi => by
        by_cases hin : i ≤ n
        · simp only [hin, if_true]
          exact hb.2.2 i h0 hin
        · simp only [hin, if_false, setThr]
          simp⟩
      (by simp only [hn, if_false, setThr]; simp) (by simp only [hn, if_false])
    exact ⟨σ', n', fun i hi => by rw [e0 i (by omega)]; simp only [hi, if_true], he', hb', e1, e2⟩

/-- A call that runs alone, as part of an execution. -/
theorem exec_alone {t : Tid} {c : Conf Nat Nat} (hr : Reach c) (hi : c.thr t = none) {fuel : Nat} {op : Call Nat Nat} {m' : Mem Nat Nat}
    {p' : Prog Nat Nat (Ans Nat Nat)} (h : Steps c.mem (prog fuel op) m' p') :
    ∃ σ n, σ 0 = c ∧ (σ 1).hist = c.hist ++ [.call t op] ∧ Exec σ n ∧ Busy σ t 0 n ∧ (σ n).thr t = some p' ∧ (σ n).mem = m' := by
  obtain ⟨σ, n, h0, h1, h2, h3, h4⟩ := exec_steps (t := t) h
    (σ := fun i => if i = 0 then c else { c with thr := setThr c.thr t (some (prog fuel op)), hist := c.hist ++ [.call t op] }) (n := 1)
    ⟨hr, fun i hi' => by
      have : i = 0 := by omega
      subst this
      exact .call c t fuel op hi⟩
    ⟨hi, by omega, fun i h0 hi' => by
      have : i = 1 := by omega
      subst this
      simp [setThr]⟩ (by simp [setThr]) rfl
  exact ⟨σ, n, by rw [h0 0 (by omega)]; rfl, by rw [h0 1 (by omega)]; rfl, h1, h2, h3, h4⟩

/-- What was retired may be destroyed when no call is running. -/
theorem collector_start {σ : Nat → Conf K V} [LinearOrder K] [DecidableEq V] [Inhabited K] : Collector σ (fun _ e => Retired (σ 0).mem e) :=
  fun _ _ h => ⟨0, Nat.zero_le _, h, fun _ _ hb => absurd hb.2.1 (Nat.not_lt_zero _)⟩

/-- In some execution that begins in `c`, with a collector as required, the call `op` is about to read the entry of a NodeID and to look at the node it finds
there, which the collector has destroyed. -/
def UsesFreed (c : Conf Nat Nat) (op : Call Nat Nat) : Prop :=
  ∃ (σ : Nat → Conf Nat Nat) (n : Nat) (F : Nat → Ptr → Prop) (t : Tid) (id : NodeId) (p : Ptr) (k : Option (Ptr × Node Nat Nat) → Prog Nat Nat (Ans Nat Nat)),
    Exec σ n ∧ Collector σ F ∧ σ 0 = c ∧ (σ 1).hist = c.hist ++ [.call t op] ∧ Busy σ t 0 n ∧
    (σ n).thr t = some (.load id k) ∧ (σ n).mem.table id = some p ∧ F n p

theorem usesFreed {c : Conf Nat Nat} (hr : Reach c) (hi : c.thr 0 = none) {fuel : Nat} {op : Call Nat Nat} {m' : Mem Nat Nat} {id : NodeId} {p : Ptr}
    {k : Option (Ptr × Node Nat Nat) → Prog Nat Nat (Ans Nat Nat)} (h : Steps c.mem (prog fuel op) m' (.load id k)) (ht : m'.table id = some p)
    (hp : Retired c.mem p) : UsesFreed c op := by
  obtain ⟨σ, n, h0, h1, h2, h3, h4, h5⟩ := exec_alone hr hi h
  exact ⟨σ, n, _, 0, id, p, k, h2, collector_start, h0, h1, h3, h4, by rw [h5]; exact ht, by rw [h0]; exact hp⟩

/-- C44 fails for GetValue, Insert, Delete and Begin: in some state that is reached when all calls have returned, each of them with key 4139 looks at a node
that was retired before. -/
theorem C44_use_after_free : ∃ c : Conf Nat Nat, Reach c ∧ (∀ t, c.thr t = none) ∧
    ∀ op : Call Nat Nat, op = .api (.get 4139) ∨ op.seeks 4139 → UsesFreed c op := by
  obtain ⟨c, hr, hq, hc⟩ := Long.reach_razed
  obtain ⟨ht, hp⟩ := Long.razed_retired hr hq hc
  refine ⟨c, hr, hq, fun op hop => ?_⟩
  have hf : Long.finds 0 op = true := by
    rcases hop with rfl | hop
    · exact Long.finds_get 0
    · cases op with
      | api o =>
        cases o with
        | insert k v => cases hop; exact Long.finds_insert 0 v
        | delete k v => cases hop; exact Long.finds_delete 0 v
        | get k => cases hop
      | page k => cases hop; exact Long.finds_page 0
      | first => cases hop
      | back k => cases hop
  obtain ⟨m', k, h, h'⟩ := Long.finds_spec hf hc
  exact usesFreed hr (hq 0) h h' hp

/-- C45 fails for GetValue as well (and in that state for Insert, Delete and Begin), even if nothing is ever destroyed: it is sent to the merged node again and
again. -/
theorem C45_get_never_returns : ∃ c : Conf Nat Nat, Reach c ∧ (∀ t, c.thr t = none) ∧ ∀ op : Call Nat Nat, op = .api (.get 4139) ∨ op.seeks 4139 →
    ∀ fuel, 20 ≤ fuel → (∃ m, Steps c.mem (prog fuel op) m .spin) ∧ ∀ m a, ¬ Steps c.mem (prog fuel op) m (.ret a) := by
  obtain ⟨c, hr, hq, hc⟩ := Long.reach_razed
  refine ⟨c, hr, hq, fun op hop fuel hf => ?_⟩
  have hs : ∃ m, Steps c.mem (prog fuel op) m .spin := by
    obtain ⟨f, rfl⟩ := Nat.exists_eq_add_of_le' hf
    rcases hop with rfl | hop
    · obtain ⟨m, h⟩ := Long.gets f (f + 20) hc.knows
      exact ⟨m, h.seq _⟩
    · obtain ⟨m, h⟩ := Long.tries f (f + 20) hc.knows
      cases op with
      | api o =>
        cases o with
        | insert k v => cases hop; exact ⟨m, (h.seq _).seq _⟩
        | delete k v => cases hop; exact ⟨m, (h.seq _).seq _⟩
        | get k => cases hop
      | page k => cases hop; exact ⟨m, h.seq _⟩
      | first => cases hop
      | back k => cases hop
  refine ⟨hs, fun m a ha => ?_⟩
  obtain ⟨m', h'⟩ := hs
  have := (h'.det ha (fun _ => rfl) (fun _ => rfl)).2
  cases this

/-- The record of the merged leaf is retired. -/
theorem mergedSecond_retired : (mergedSecond.map fun c => (c.mem.table 4).map fun p => c.mem.garbage.contains p) = some (some true) := by decide +kernel

/-- C44 fails even if no two calls ever overlap: after 270 inserts and 42 deletes by one thread, stepping an iterator back from `Begin(192)` looks at the leaf
that was merged away, whose record was retired. -/
theorem C44_back_use_after_free : ∃ c : Conf Nat Nat, SeqReach c ∧ stepsBack c 192 = true ∧ UsesFreed c (.back 192) := by
  have h := mergedSecond_view
  have h' := mergedSecond_steps
  have hr := mergedSecond_retired
  cases hc : mergedSecond with
  | none => rw [hc] at h; cases h
  | some c =>
    rw [hc] at h h' hr
    have hs := seqRun_reach .init insDel_forward hc
    refine ⟨c, hs, Option.some.inj h', ?_⟩
    have h := Option.some.inj h
    simp only [viewNow, Bool.and_eq_true, decide_eq_true_eq] at h
    obtain ⟨⟨⟨h0, h1⟩, _⟩, _⟩ := h
    obtain ⟨p1, t1, e1⟩ := mem_node h1
    obtain ⟨p4, t4, hp⟩ := Option.map_eq_some_iff.mp (Option.some.inj hr)
    have hk : ∃ k, (settle (finishSMO 3) ({ cur := ⟨1, p1, .inner rootNow⟩, par := .root, level := 0 } : Ctx Nat Nat) >>= fun r => match r with
        | none => pure none
        | some ctx => descendBI 3 192 3 ctx) = .load 4 k := ⟨_, rfl⟩
    obtain ⟨k, hk⟩ := hk
    have hl : Steps c.mem (tryTraverseBI 3 192) c.mem (.load 4 k) := by
      refine .step (m1 := c.mem) rfl ?_
      show Steps c.mem (Prog.bind (loadRootNode 3 c.mem.root) _) c.mem _
      rw [h0, ← hk]
      exact .step (load_step _ t1 e1) (.refl _ _)
    obtain ⟨_, hw⟩ := hs.calls
    exact usesFreed hs.reach (hw.thr 0) (fuel := 3) ((hl.seq _).seq _) t4 ⟨1, p4, List.contains_iff_mem.mp hp, List.mem_cons_self⟩

end Tree
end BwTree
