import Verif.Proofs.StuckRun
import Verif.Props.SeqTotal
import Verif.Props.TreeDestroy
import Verif.Proofs.DestroyReach

/-!
  C45 fails: after some calls overlapped and all of them returned, a call that runs alone can retry for ever. C31 fails for every kind of call that goes down
  from the root: it can stop at the assertion that a node it finds under change is not the root (5156, 5202).
-/

namespace BwTree
namespace Tree

open Prog

namespace Long

theorem init_rows : HasRows rowsInit (initConf : Conf Nat Nat).mem := by
  refine ⟨rfl, rfl, rfl, fun x hx => ?_⟩
  simp only [rowsInit, List.mem_cons, List.not_mem_nil, or_false] at hx
  rcases hx with rfl | rfl <;> exact ⟨rfl, rfl⟩

/-- Calls of thread `t` lead from one written-down state to another. -/
def Leads (t : Tid) (r r' : Rows Nat Nat) : Prop :=
  ∀ c : Conf Nat Nat, c.thr t = none → HasRows r c.mem → ∃ c', Onward t c c' ∧ HasRows r' c'.mem

theorem leads_of {t : Tid} {f : Nat → Call Nat Nat} {b n : Nat} {r r' : Rows Nat Nat} (h : leads f b n r r' = true) : Leads t r r' :=
  fun _ hi hr => leads_onward h hi hr

theorem Leads.trans {t : Tid} {r1 r2 r3 : Rows Nat Nat} (h1 : Leads t r1 r2) (h2 : Leads t r2 r3) : Leads t r1 r3 := by
  intro c hi hr
  obtain ⟨c', o, h'⟩ := h1 c hi hr
  obtain ⟨c'', o', h''⟩ := h2 c' (by rw [o.thr]; exact hi) h'
  exact ⟨c'', o.trans o', h''⟩

theorem leads_tall {t : Tid} : Leads t rowsInit tall :=
  (leads_of lead_init).trans <| (leads_of lead_0).trans <| (leads_of lead_1).trans <| (leads_of lead_2).trans <| (leads_of lead_3).trans <|
  (leads_of lead_4).trans <| (leads_of lead_5).trans <| (leads_of lead_6).trans <| (leads_of lead_7).trans <| (leads_of lead_8).trans <|
  (leads_of lead_9).trans <| (leads_of lead_10).trans <| (leads_of lead_11).trans <| (leads_of lead_12).trans <| (leads_of lead_13).trans <|
  (leads_of lead_14).trans <| leads_of lead_tall

theorem leads_shrunk {t : Tid} : Leads t tall (shrunk 4) :=
  (leads_of lead_s).trans <| (leads_of lead_s0).trans <| (leads_of lead_s1).trans <| (leads_of lead_s2).trans <| leads_of lead_s3

/-- A thread makes a call and takes some steps of it. -/
theorem start {t : Tid} {c : Conf Nat Nat} (hr : Reach c) (hi : c.thr t = none) {s : PMem Nat Nat} (hk : Knows s c.mem) (n fuel : Nat) (op : Call Nat Nat) :
    ∃ c', Reach c' ∧ c'.thr = setThr c.thr t (some (runP n s (prog fuel op)).2) ∧ Knows (runP n s (prog fuel op)).1 c'.mem ∧
      c'.hist = c.hist ++ [.call t op] := by
  obtain ⟨m', h1, h2⟩ := runP_steps n (prog fuel op) hk
  exact ⟨_, h1.reach _ _ (hr.step (.call c t fuel op hi)), rfl, h2, rfl⟩

/-- A thread in a call takes further steps. -/
theorem resume {t : Tid} {c : Conf Nat Nat} (hr : Reach c) {p : Prog Nat Nat (Ans Nat Nat)} (hp : c.thr t = some p) {s : PMem Nat Nat} (hk : Knows s c.mem)
    (n : Nat) : ∃ c', Reach c' ∧ c'.thr = setThr c.thr t (some (runP n s p).2) ∧ Knows (runP n s p).1 c'.mem ∧ c'.hist = c.hist := by
  obtain ⟨m', h1, h2⟩ := runP_steps n p hk
  have e : setThr c.thr t (some p) = c.thr := setThr_same hp
  exact ⟨_, h1.reach c.thr c.hist (by rw [e]; exact hr), rfl, h2, rfl⟩

theorem back {t : Tid} {c : Conf Nat Nat} (hr : Reach c) {a : Ans Nat Nat} (hp : c.thr t = some (.ret a)) :
    ∃ c', Reach c' ∧ c'.thr = setThr c.thr t none ∧ c'.mem = c.mem :=
  ⟨_, hr.step (.ret c t a hp), rfl, rfl⟩

/-- Leaf 65 is about to split, and thread 1 holds an old snapshot of node 1. -/
theorem reach_full {s : PMem Nat Nat} (hs : callsP insLate 39 39 joined.mem = some s) :
    ∃ c : Conf Nat Nat, Reach c ∧ c.thr = setThr (fun _ => none) 1 (some waiting) ∧ Knows s c.mem := by
  obtain ⟨c1, o1, r1⟩ := leads_tall (t := 0) initConf rfl init_rows
  have i1 : c1.thr = fun _ => none := o1.thr
  obtain ⟨c2, h2, i2, k2, _⟩ := start (t := 1) (o1.reach .init) (by rw [i1]) r1.knows 3 100 (.api (.insert 4090 7))
  have r2 : HasRows tall c2.mem := Rows.holds_spec waiting_tall k2
  obtain ⟨c3, o3, r3⟩ := (leads_shrunk.trans (leads_of lead_joined)) c2 (show c2.thr 0 = none by rw [i2, i1]; rfl) r2
  obtain ⟨c4, o4, k4⟩ := callsP_onward (t := 0) (show c3.thr 0 = none by rw [o3.thr, i2, i1]; rfl) r3.knows hs
  exact ⟨c4, o4.reach (o3.reach h2), by rw [o4.thr, o3.thr, i2, i1]; rfl, k4⟩

/-- All threads are idle and leaf 133 is not known to its parent. -/
theorem reach_apart : ∃ c : Conf Nat Nat, Reach c ∧ (∀ t, c.thr t = none) ∧ HasRows apart c.mem := by
  have hp := parts_true
  unfold parts at hp
  split at hp
  · cases hp
  rename_i s hs
  obtain ⟨c4, h4, i4, k4⟩ := reach_full hs
  obtain ⟨c5, h5, i5, k5, _⟩ := start (t := 0) h4 (by rw [i4]; rfl) k4 12 100 (insLate 39)
  obtain ⟨c6, h6, i6, k6, _⟩ := resume (t := 1) h5 (p := waiting) (by rw [i5, i4]; rfl) k5 20
  split at hp
  case h_2 => cases hp
  rename_i s1 a1 e1
  rw [e1] at i6 k6
  obtain ⟨c7, h7, i7, m7⟩ := back (t := 1) h6 (a := a1) (by rw [i6]; rfl)
  rw [← m7] at k6
  obtain ⟨c8, h8, i8, k8, _⟩ := resume (t := 0) h7 (p := (runP 12 s (prog 100 (insLate 39))).2) (by rw [i7, i6, i5]; rfl) k6 100
  split at hp
  case h_2 => cases hp
  rename_i s2 a2 e2
  rw [e2] at i8 k8
  obtain ⟨c9, h9, i9, m9⟩ := back (t := 0) h8 (a := a2) (by rw [i8]; rfl)
  rw [← m9] at k8
  have r9 : HasRows apart c9.mem := Rows.holds_spec hp k8
  have idle : ∀ t, c9.thr t = none := by
    intro t
    rw [i9, i8, i7, i6, i5, i4]
    simp only [setThr]
    split
    · rfl
    · split <;> rfl
  exact ⟨c9, h9, idle, r9⟩

/-- Leaf 133 is about to be emptied. -/
theorem reach_worn : ∃ c : Conf Nat Nat, Reach c ∧ (∀ t, c.thr t = none) ∧ HasRows worn c.mem := by
  obtain ⟨c9, h9, idle, r9⟩ := reach_apart
  obtain ⟨c10, o10, r10⟩ := leads_of (t := 0) lead_worn c9 (idle 0) r9
  exact ⟨c10, o10.reach h9, fun t => by rw [o10.thr]; exact idle t, r10⟩

/-- Leaf 65 is consolidated. -/
theorem reach_cut : ∃ c : Conf Nat Nat, Reach c ∧ (∀ t, c.thr t = none) ∧ HasRows cut c.mem := by
  obtain ⟨c9, h9, idle, r9⟩ := reach_apart
  obtain ⟨c10, o10, r10⟩ := leads_of (t := 0) lead_cut c9 (idle 0) r9
  exact ⟨c10, o10.reach h9, fun t => by rw [o10.thr]; exact idle t, r10⟩

/-- Each attempt to reach the leaf of 4139 aborts. -/
theorem attempt_spec {n : Nat} {r r' : Rows Nat Nat} {f : Nat} (h : attempt n r r' f = true) {m : Mem Nat Nat} (hm : HasRows r m) :
    ∃ m', Steps m (tryTraverse (f + 20) 4139) m' (.ret none) ∧ HasRows r' m' := by
  unfold attempt at h
  obtain ⟨m', h1, h2⟩ := runP_steps n (tryTraverse (V := Nat) (f + 20) 4139) hm.knows
  split at h
  · rename_i s e
    rw [e] at h1 h2
    exact ⟨m', h1, Rows.holds_spec h h2⟩
  · cases h

theorem traverse_again (f : Nat) : ∀ (n : Nat) {m : Mem Nat Nat}, HasRows gone m → ∃ m', Steps m (traverse (f + 20) 4139 n) m' .spin
  | 0, m, _ => ⟨m, .refl _ _⟩
  | n + 1, m, hm => by
    obtain ⟨m1, h1, r1⟩ := attempt_spec (attempt_again f) hm
    obtain ⟨m2, h2⟩ := traverse_again f n r1
    exact ⟨m2, (h1.seq _).trans' h2⟩

theorem traverse_worn (f n : Nat) {m : Mem Nat Nat} (hm : HasRows worn m) : ∃ m', Steps m (traverse (f + 20) 4139 (n + 1)) m' .spin := by
  obtain ⟨m1, h1, r1⟩ := attempt_spec (attempt_first f) hm
  obtain ⟨m2, h2⟩ := traverse_again f n r1
  exact ⟨m2, (h1.seq _).trans' h2⟩

end Long

/-- Insert, Delete or Begin with this key. -/
def Call.seeks (k : Nat) : Call Nat Nat → Prop
  | .api (.insert k' _) => k' = k
  | .api (.delete k' _) => k' = k
  | .page k' => k' = k
  | _ => False

/-- C45 fails: in some state that is reached when all calls have returned, Insert, Delete and Begin with key 4139 never return, though no other thread
runs: they use up any number of retries. -/
theorem C45_alone_never_returns : ∃ c : Conf Nat Nat, Reach c ∧ (∀ t, c.thr t = none) ∧ ∀ op : Call Nat Nat, op.seeks 4139 → ∀ fuel, 20 ≤ fuel →
    (∃ m, Steps c.mem (prog fuel op) m .spin) ∧ ∀ m a, ¬ Steps c.mem (prog fuel op) m (.ret a) := by
  obtain ⟨c, hr, hi, hw⟩ := Long.reach_worn
  refine ⟨c, hr, hi, fun op hop fuel hf => ?_⟩
  have hs : ∃ m, Steps c.mem (prog fuel op) m .spin := by
    obtain ⟨f, rfl⟩ := Nat.exists_eq_add_of_le' hf
    obtain ⟨m, h⟩ := Long.traverse_worn f (f + 19) hw
    cases op with
    | api o =>
      cases o with
      | insert k v => cases hop; exact ⟨m, (h.seq _).seq _⟩
      | delete k v => cases hop; exact ⟨m, (h.seq _).seq _⟩
      | get k => cases hop
    | page k => cases hop; exact ⟨m, h.seq _⟩
    | first => cases hop
    | back k => cases hop
  refine ⟨hs, fun m a ha => ?_⟩
  obtain ⟨m', h'⟩ := hs
  have := (h'.det ha (fun _ => rfl) (fun _ => rfl)).2
  cases this

namespace Long

/-- No node of `cut` but 133 names 133, and all named nodes are among those written down. -/
def closedNames : Bool := cut.rows.all fun x => decide (x.1 = 133) || x.2.2.names.all fun i => decide (i ≠ 133) && cut.rows.any fun y => decide (y.1 = i)

theorem closed_true : closedNames = true := by decide +kernel

theorem cut_leaves : ∀ j < 62, fullLeaf (3 + j) ∈ cut.rows := by decide +kernel

theorem row_node {r : Rows Nat Nat} {m : Mem Nat Nat} (h : HasRows r m) {x : NodeId × Ptr × Node Nat Nat} (hx : x ∈ r.rows) : m.node x.1 = some x.2.2 := by
  obtain ⟨h1, h2⟩ := h.rows x hx
  simp only [Mem.node, h1, h2, Option.bind_some]

theorem cut_root : (132, 11511, Node.inner (.del (4096, 131) (0, 1) (0, INVALID) 1 (.base (0, 1) (0, INVALID) 0 [(0, 1), (4096, 131)]))) ∈ cut.rows :=
  List.mem_cons_self

theorem cut_wide : wideRow ∈ cut.rows := List.mem_cons_of_mem _ List.mem_cons_self

theorem cut_first : firstLeaf ∈ cut.rows := by decide +kernel

theorem cut_level {m : Mem Nat Nat} (h : HasRows cut m) : OnLevel m 133 := by
  have l0 : Leftmost m 132 := by have := Leftmost.root (m := m); rwa [h.root] at this
  have l1 : Leftmost m 1 := .down l0 (row_node h cut_root) (by decide +kernel)
  have l2 : Leftmost m 2 := .down l1 (row_node h cut_wide) (by decide +kernel)
  have o3 : OnLevel m 3 := .right (.first l2) (row_node h cut_first) (by decide)
  have o : ∀ j : Nat, j ≤ 62 → OnLevel m (3 + j) := by
    intro j
    induction j with
    | zero => exact fun _ => o3
    | succ j ih =>
      intro hj
      exact .right (ih (by omega)) (row_node h (cut_leaves j (by omega))) (by show (3 + j + 1 : Nat) ≠ 0; omega)
  exact .right (o 62 (Nat.le_refl _)) (row_node h (x := (65, 11612, .leaf _)) (by right; right; right; exact List.mem_cons_self)) (by decide)

theorem cut_record {m : Mem Nat Nat} (h : HasRows cut m) : m.table 133 = some 11602 :=
  (h.rows newRow (by right; right; right; right; exact List.mem_cons_self)).1

/-- An early thread fails. -/
theorem reach_fail {n : Nat} {op : Call Nat Nat} (hb : breaks n op = true) (he : rowsInit.holds (runP 1 rowsInit.mem (prog 100 op)).1 = true) :
    ∃ c : Conf Nat Nat, Reach c ∧ Running c.hist 1 op ∧ c.thr 1 = some (.fail .noParent) := by
  obtain ⟨c1, h1, i1, k1, e1⟩ := start (t := 1) .init rfl init_rows.knows 1 100 op
  obtain ⟨c2, o2, r2⟩ := (leads_tall.trans leads_shrunk) c1 (show c1.thr 0 = none by rw [i1]; rfl) (Rows.holds_spec he k1)
  obtain ⟨c3, h3, i3, k3, e3⟩ := start (t := 0) (o2.reach h1) (by rw [o2.thr, i1]; rfl) r2.knows n 100 (delOwn 4096)
  obtain ⟨c4, h4, i4, k4, e4⟩ := resume (t := 1) h3 (p := early op) (by rw [i3, o2.thr, i1]; rfl) k3 30
  unfold breaks at hb
  split at hb
  case h_2 => cases hb
  rename_i s f e
  rw [e, of_decide_eq_true hb] at i4
  obtain ⟨l, e2, hl⟩ := o2.hist
  refine ⟨c4, h4, ⟨[], l ++ [.call 0 (delOwn 4096)], by rw [e4, e3, e2, e1]; simp [initConf], fun e he => ?_⟩, by rw [i4]; rfl⟩
  rcases List.mem_append.mp he with he | he
  · rw [hl e he]; decide
  · rw [List.mem_singleton.mp he]; decide

end Long

/-- C40 fails: in some state that is reached when all calls have returned, a leaf of the tree is not freed by the destructor, however it runs (it hangs on
its left neighbour's right link only, which the destructor does not follow). -/
theorem C40_leaks : ∃ (c : Conf Nat Nat) (e : Ptr), Reach c ∧ (∀ t, c.thr t = none) ∧ PartOf c.mem e ∧ ¬ Retired c.mem e ∧
    ∀ fuel s, c.mem.depth ≤ fuel → destroy c.mem fuel = .ok s → e ∉ s.freed := by
  obtain ⟨c, hr, hq, hc⟩ := Long.reach_cut
  have hol := Long.cut_level hc
  have ht := Long.cut_record hc
  obtain ⟨w, hw, hm, hi, hno, hlk⟩ := quiet_world hr hq
  rw [← hm] at hol ht hc
  have hpo : PartOf c.mem 11602 := ⟨133, 11602, hm ▸ hol, hm ▸ ht, .chain (fuel := 1) List.mem_cons_self⟩
  obtain ⟨how, _⟩ := uses_anc hi hol ht (.chain (fuel := 1) List.mem_cons_self)
  have hnr := C37_tree_not_retired hr hpo
  refine ⟨c, 11602, hr, hq, hpo, hnr, fun fuel s hf hs he => ?_⟩
  rw [← hm] at hf hs
  have hg := destroy_good hi hno hlk hf
  rw [hs] at hg
  obtain ⟨_, hrel, _⟩ := hg
  have hk := destroy_kept (S := fun i => i ≠ 133 ∧ ∃ y ∈ Long.cut.rows, y.1 = i) hi.ow (fun id p hS hp => by
    obtain ⟨hne, y, hy, rfl⟩ := hS
    obtain ⟨h1, h2⟩ := hc.rows y hy
    have hcl := List.all_eq_true.mp Long.closed_true y hy
    rw [h1] at hp
    cases hp
    refine ⟨_, h2, fun i hin => ?_⟩
    rcases Bool.or_eq_true _ _ ▸ hcl with hcl | hcl
    · exact absurd (of_decide_eq_true hcl) hne
    · have := List.all_eq_true.mp hcl i hin
      rw [Bool.and_eq_true] at this
      obtain ⟨z, hz, hzi⟩ := List.any_eq_true.mp this.2
      exact ⟨of_decide_eq_true this.1, z, hz, of_decide_eq_true hzi⟩) (by
    rw [hc.root]
    exact ⟨by decide, _, Long.cut_root, rfl⟩) hs
  rcases hrel.fresh _ he with h | h | ⟨id, y, hy, h1, h2, h3⟩
  · exact hnr (hm ▸ freed_retired h)
  · exact h
  · have : id = 133 := h3.unique ⟨11602, how, .refl⟩
    subst this
    rw [hk.out 133 (fun h => h.1 rfl)] at h2
    exact h1 h2

/-- C31 fails for every call that goes down from the root: a thread that read the NodeID of the root before the tree grew finds the node that was the
root under a merge, and stops at the assertion that such a node has a parent. -/
theorem C31_stale_root_assertion : ∀ op : Call Nat Nat, op = .api (.insert 5000 5000) ∨ op = .api (.delete 5000 5000) ∨ op = .page 5000 ∨ op = .back 5000 ∨
    op = .api (.get 5000) → ∃ c : Conf Nat Nat, Reach c ∧ Running c.hist 1 op ∧ c.thr 1 = some (.fail .noParent) := by
  intro op h
  have he := Long.early_rows op h
  rcases h with rfl | rfl | rfl | rfl | rfl
  · exact Long.reach_fail Long.breaks_insert he
  · exact Long.reach_fail Long.breaks_delete he
  · exact Long.reach_fail Long.breaks_page he
  · exact Long.reach_fail Long.breaks_back he
  · exact Long.reach_fail Long.breaks_get he

end Tree
end BwTree
