import Verif.Proofs.Toggle
import Verif.Props.TreeGC
import Verif.Props.UseAfterFree

/-!
  When retired memory is destroyed (C21), for the epoch manager alone and for the tree, and what follows for C44: memory that calls are still led to really
  is destroyed.
-/

set_option Elab.async false

namespace BwTree
namespace GC

theorem owes_run {n t D : Nat} (ht : t < n) (hD : D < UMAX) {s s' : State} {as : List Act} (h : RunC n s as s') : ∀ {k : Nat}, Inv n s → Past n D s →
    Owes n t D k s → Owes n t D (k + (retiredBy n t s as).length) s' := by
  induction h with
  | nil => exact fun _ _ h => h
  | @cons s s1 s2 a as hc hs _ ih =>
    intro k hi hp ho
    have h1 := ih (inv_step hi hc hs) (past_step hD hi hc hs hp) (owes_step ht hi hp hs ho)
    have h2 : (if a = .addLink t then k + 1 else k) + (retiredBy n t s1 as).length = k + (retiredBy n t s (a :: as)).length := by
      by_cases ha : a = .addLink t
      · subst ha
        cases hpc : s.pc t with
        | adding o d =>
          simp only [retiredBy, hs, hpc, if_true, List.length_cons]
          omega
        | _ => simp [step, step', hpc] at hs
      · rw [if_neg ha]
        congr 2
        simp only [retiredBy, hs]
        split
        · rename_i u o d _
          rw [if_neg (fun e => ha (by rw [e]))]
        · rfl
    rw [← h2]
    exact h1

/-- **C21 (bounded delay).** Suppose the epoch has advanced past `D` and every thread has refreshed its record since (`Past`). Once thread `t` has retired more
than `GC_NODE_COUNT_THREADHOLD` further nodes, whatever the other threads do meanwhile, everything it retired in epoch `D` or earlier has been freed, as
soon as it is not in the middle of a collection. -/
theorem C21_bounded_delay (n D t : Nat) (ht : t < n) (hD : D < UMAX) (pre as : List Act) {s s' : State} (hpre : RunC n init pre s) (hpast : Past n D s)
    (hrun : RunC n s as s') (hmany : THRESHOLD < (retiredBy n t s as).length) (hend : s'.pc t = .active ∨ s'.pc t = .idle) :
    ∀ o d, (o, d) ∈ s.garb t → d ≤ D → o ∈ s'.freed := by
  intro o d ho hd
  have h1 := owes_run ht hD hrun (k := 0) (inv_run hpre (inv_init n)) hpast (.inr (.inr (.inr (.inl rfl))))
  rw [Nat.zero_add] at h1
  rcases garb_run hrun (.inl ho) with h2 | h2
  · exfalso
    rcases h1 with ⟨h1, _⟩ | ⟨i, m, h1, _⟩ | ⟨m, h1, _⟩ | h1 | ⟨h1, h4, _⟩
    · exact absurd (h1 _ h2) (by show ¬ D < d; omega)
    · rcases hend with e | e <;> (rw [h1] at e; cases e)
    · rcases hend with e | e <;> (rw [h1] at e; cases e)
    · omega
    · omega
  · exact h2

theorem RunC.trans {n : Nat} {s s1 s2 : State} {as bs : List Act} (h : RunC n s as s1) (h' : RunC n s1 bs s2) : RunC n s (as ++ bs) s2 := by
  induction h with
  | nil => exact h'
  | cons hc hs _ ih => exact .cons hc hs (ih h')

theorem retiredBy_append {n t : Nat} {s s1 : State} {as bs : List Act} (h : RunC n s as s1) : retiredBy n t s (as ++ bs) = retiredBy n t s as ++ retiredBy n t s1 bs := by
  induction h with
  | nil => rfl
  | cons hc hs _ ih =>
    simp only [List.cons_append, retiredBy, hs, ih]
    split
    · split <;> rfl
    · rfl

/-- Objects are left. -/
def Room (s : State) : Prop := ∃ B, ∀ o, B ≤ o → s.st o = .fresh

theorem room_step {n : Nat} {s s' : State} {a : Act} (hs : step n s a = some s') (h : Room s) : Room s' := by
  obtain ⟨B, hB⟩ := h
  have key : ∀ (o : Nat) (x : Status), Room { s with st := upd s.st o x } := fun o x => ⟨max B (o + 1), fun o' h' => by
    have h1 : B ≤ o' := Nat.le_trans (Nat.le_max_left _ _) h'
    have h2 : o + 1 ≤ o' := Nat.le_trans (Nat.le_max_right _ _) h'
    show upd s.st o x o' = _
    simp only [upd, show o' ≠ o by omega, if_false]
    exact hB o' h1⟩
  cases a <;> simp only [step, step'] at hs <;> (try split at hs) <;> (try split at hs) <;> (try split at hs) <;>
    first
    | (obtain rfl := Option.some.inj hs; exact ⟨B, hB⟩)
    | (obtain rfl := Option.some.inj hs; exact key _ _)
    | cases hs

/-- A thread that is alone can go on retiring nodes. -/
theorem retire_more : ∀ (k : Nat) {s : State}, s.pc 0 = .active → Room s → ∃ as s', RunC 1 s as s' ∧ s'.pc 0 = .active ∧ k ≤ (retiredBy 1 0 s as).length
  | 0, s, h, _ => ⟨[], s, .nil s, h, Nat.zero_le _⟩
  | k + 1, s, h, hB => by
    have free : ∀ (l : List (Nat × Nat)) {m : Nat} {s : State}, s.pc 0 = .freeing m → s.garb 0 = l → Room s → ∃ as s', RunC 1 s as s' ∧ s'.pc 0 = .active ∧ Room s' := by
      intro l
      induction l with
      | nil =>
        intro m s hp hg hB
        obtain ⟨s1, e1, p1⟩ : ∃ s1, step 1 s (.gcFree 0) = some s1 ∧ s1.pc 0 = .active := by simp [step, step', hp, hg, upd]
        exact ⟨[_], s1, .cons (a := .gcFree 0) trivial e1 (.nil _), p1, room_step e1 hB⟩
      | cons x l ih =>
        intro m s hp hg hB
        by_cases hd : x.2 < m
        · obtain ⟨s1, e1, p1, g1⟩ : ∃ s1, step 1 s (.gcFree 0) = some s1 ∧ s1.pc = s.pc ∧ s1.garb 0 = l := by simp [step, step', hp, hg, hd, upd]
          obtain ⟨as, s2, a1, a2, a3⟩ := ih (by rw [p1, hp]) g1 (room_step e1 hB)
          exact ⟨_, s2, .cons (a := .gcFree 0) trivial e1 a1, a2, a3⟩
        · obtain ⟨s1, e1, p1⟩ : ∃ s1, step 1 s (.gcFree 0) = some s1 ∧ s1.pc 0 = .active := by simp [step, step', hp, hg, hd, upd]
          exact ⟨[_], s1, .cons (a := .gcFree 0) trivial e1 (.nil _), p1, room_step e1 hB⟩
    have one : ∃ as s', RunC 1 s as s' ∧ s'.pc 0 = .active ∧ Room s' ∧ 1 ≤ (retiredBy 1 0 s as).length := by
      obtain ⟨B, hB⟩ := hB
      have hf := hB B (Nat.le_refl _)
      obtain ⟨s1, e1, p1, t1⟩ : ∃ s1, step 1 s (.make 0 B) = some s1 ∧ s1.pc = s.pc ∧ s1.st B = .owned 0 := by simp [step, step', h, hf, upd]
      obtain ⟨s2, e2, p2⟩ : ∃ s2, step 1 s1 (.addRead 0 B) = some s2 ∧ s2.pc 0 = .adding B s1.epoch := by simp [step, step', p1, h, t1, upd]
      obtain ⟨s3, e3, p3⟩ : ∃ s3, step 1 s2 (.addLink 0) = some s3 ∧ s3.pc 0 = if THRESHOLD < s2.cnt 0 + 1 then .summing 0 0 else .active := by
        simp [step, step', p2, upd]
      have r3 := room_step e3 (room_step e2 (room_step e1 ⟨B, hB⟩))
      have run3 : ∀ {as s'}, RunC 1 s3 as s' → RunC 1 s (.make 0 B :: .addRead 0 B :: .addLink 0 :: as) s' ∧
          1 ≤ (retiredBy 1 0 s (.make 0 B :: .addRead 0 B :: .addLink 0 :: as)).length := fun hr =>
        ⟨.cons (a := .make 0 B) trivial e1 (.cons (a := .addRead 0 B) trivial e2 (.cons (a := .addLink 0) trivial e3 hr)), by
          simp [retiredBy, e1, e2, e3, p2]⟩
      by_cases hc : THRESHOLD < s2.cnt 0 + 1
      · rw [if_pos hc] at p3
        obtain ⟨s4, e4, p4⟩ : ∃ s4, step 1 s3 (.gcRead 0) = some s4 ∧ s4.pc 0 = .freeing (s3.lae 0) := by simp [step, step', p3, upd]
        obtain ⟨as, s5, a1, a2, a3⟩ := free _ p4 rfl (room_step e4 r3)
        obtain ⟨b1, b2⟩ := run3 (.cons (a := .gcRead 0) trivial e4 a1)
        exact ⟨_, s5, b1, a2, a3, b2⟩
      · rw [if_neg hc] at p3
        obtain ⟨b1, b2⟩ := run3 (.nil s3)
        exact ⟨_, s3, b1, p3, r3, b2⟩
    obtain ⟨as, s1, a1, a2, a3, a4⟩ := one
    obtain ⟨bs, s2, b1, b2, b3⟩ := retire_more k a2 a3
    exact ⟨as ++ bs, s2, a1.trans b1, b2, by rw [retiredBy_append a1, List.length_append]; omega⟩

/-- The hypotheses are met: one thread retires object 0 in epoch 0, the epoch advances, the thread begins its next operation and retires more nodes than the
threshold; then object 0 has been freed. -/
example : ∃ pre as s s', RunC 1 init pre s ∧ Past 1 0 s ∧ RunC 1 s as s' ∧ THRESHOLD < (retiredBy 1 0 s as).length ∧ s'.pc 0 = .active ∧ (0, 0) ∈ s.garb 0 ∧
    0 ∈ s'.freed := by
  obtain ⟨s, r, p, h1, h2, h3, hg⟩ : ∃ s, run 1 init [.joinRead 0, .joinStore 0, .make 0 0, .addRead 0 0, .addLink 0, .leaveRead 0, .leaveStore 0, .tickRead 0,
      .tickWrite 0, .joinRead 0, .joinStore 0] = some s ∧ s.pc 0 = .active ∧ s.epoch = 1 ∧ s.lae 0 = 1 ∧ (∀ i, i ≠ 0 → s.pc i = .idle) ∧ s.garb 0 = [(0, 0)] := by
    refine ⟨_, rfl, rfl, rfl, rfl, ?_, rfl⟩
    intro i hi
    simp [init, upd, hi]
  have hp : Past 1 0 s := by
    have h4 : ∀ i, s.pc i = .active ∨ s.pc i = .idle := fun i => by
      by_cases e : i = 0
      · subst e; exact .inl p
      · exact .inr (h3 i e)
    refine ⟨by omega, fun i hi => ?_, fun i e h => ?_, fun i e h => ?_⟩
    · obtain rfl : i = 0 := by omega
      omega
    · rcases h4 i with e | e <;> (rw [h] at e; cases e)
    · rcases h4 i with e | e <;> (rw [h] at e; cases e)
  have r := runC_of_run (by simp [EasyAct]) r
  have hg : (0, 0) ∈ s.garb 0 := by rw [hg]; exact List.mem_cons_self
  have hR : Room s := by
    have key : ∀ {as : List Act} {s s' : State}, RunC 1 s as s' → Room s → Room s' := by
      intro as s s' h
      induction h with
      | nil => exact fun h => h
      | cons _ hs _ ih => exact fun h => ih (room_step hs h)
    exact key r ⟨0, fun _ _ => rfl⟩
  obtain ⟨as, s', a1, a2, a3⟩ := retire_more (THRESHOLD + 1) p hR
  exact ⟨_, as, s, s', r, hp, a1, a3, a2, hg, C21_bounded_delay 1 0 0 Nat.zero_lt_one (by decide) _ as r hp a1 a3 (.inl a2) 0 0 hg (Nat.le_refl _)⟩

end GC

namespace Tree

open Prog

variable {K V : Type} [LinearOrder K] [DecidableEq V] [Inhabited K]

/-- Everything handed to the collector can be destroyed: when no call is running there is a thread such that any calls of this thread which hand over more than
`GC_NODE_COUNT_THREADHOLD` nodes make the collector destroy it, if the epoch advances and every thread passes through an operation before. -/
theorem C21_tree_reclaims {n : Nat} {s : Sys K V} (hn : 0 < n) (hr : SysReach n s) (hi : ∀ t, s.gc.pc t = .idle) (hq : ∀ t, s.tree.thr t = none)
    (he : s.gc.epoch < GC.UMAX) {e : Ptr} (hg : Retired s.tree.mem e) : ∃ t : Nat, t < n ∧ ∀ c, CallsOf t s.tree c →
      s.tree.mem.garbage.length + GC.THRESHOLD < c.mem.garbage.length →
      ∃ s', SysLater n s s' ∧ s'.tree = c ∧ (∀ t, s'.gc.pc t = .idle) ∧ Freed s' e := by
  obtain ⟨f, g, hg, hf⟩ := hg
  have fin : ∀ {s'}, SysLater n s s' → g ∈ s'.gc.freed → Freed s' e := fun hl h => ⟨g, h, f, by rw [cells_later hr.tree hl.tree hg]; exact hf⟩
  rcases hr.held hi hg with hf | ⟨t, ht, d, hd⟩
  · refine ⟨0, hn, fun c hc _ => ?_⟩
    obtain ⟨s', h1, h2, h3⟩ := solo_calls hn hc rfl hr hi hq
    exact ⟨s', h1.later, h2, h3, fin h1.later (h1.freed hf)⟩
  · refine ⟨t, ht, fun c hc hm => ?_⟩
    obtain ⟨g1, a1, a2, a3, a4, a5⟩ := advance hr hi hq
    obtain ⟨s', h1, h2, h3⟩ := solo_calls ht hc (s := ⟨s.tree, g1⟩) rfl (a1.reach hr) a2 hq
    have hl := a1.trans h1.later
    exact ⟨s', hl, h2, h3, fin hl (path_frees ht he (a1.reach hr) a3 h1 (h3 t) (by rw [h2]; exact hm) (d := d) (by rw [a4]; exact hd)
      (hr.inv.garbE t g d hd))⟩

/-- In state `s` of tree and collector the call `op` of a thread comes to the point where it reads the entry of a NodeID and looks at the node found there,
which the collector had destroyed before the call began. -/
def UsesDestroyed (n : Nat) (s : Sys Nat Nat) (op : Call Nat Nat) : Prop :=
  ∃ (s' : Sys Nat Nat) (t : Tid) (id : NodeId) (p : Ptr) (k : Option (Ptr × Node Nat Nat) → Prog Nat Nat (Ans Nat Nat)), SysLater n s s' ∧
    s'.tree.hist = s.tree.hist ++ [.call t op] ∧ s'.tree.thr t = some (.load id k) ∧ s'.tree.mem.table id = some p ∧ Freed s p ∧ Freed s' p

theorem usesDestroyed {n : Nat} (hn : 0 < n) {s : Sys Nat Nat} (hr : SysReach n s) (hi : ∀ t, s.gc.pc t = .idle) (hq : ∀ t, s.tree.thr t = none) {fuel : Nat}
    {op : Call Nat Nat} {m' : Mem Nat Nat} {id : NodeId} {p : Ptr} {k : Option (Ptr × Node Nat Nat) → Prog Nat Nat (Ans Nat Nat)}
    (h : Steps s.tree.mem (prog fuel op) m' (.load id k)) (ht : m'.table id = some p) (hf : Freed s p) : UsesDestroyed n s op := by
  obtain ⟨g, j1, j2, _⟩ := join_run (n := n) (P := Solo 0) (s := s) (fun u _ => hq u) hn (hi 0)
  have c1 : SysLater n s ⟨⟨s.tree.mem, setThr s.tree.thr 0 (some (prog fuel op)), s.tree.hist ++ [.call 0 op]⟩, g⟩ := .step j1.later (.call _ 0 fuel op j2 (hq 0))
  obtain ⟨s', k1, k2, _⟩ := solo_steps (n := n) (t := 0) h (c1.reach hr) (fun u hu => by show setThr s.tree.thr 0 _ u = none; simp [setThr, hu, hq u]) rfl
    (by show setThr s.tree.thr 0 _ 0 = _; simp [setThr]) j2
  have hl := c1.trans k1.later
  exact ⟨s', 0, id, p, k, hl, by rw [k2], by rw [k2]; simp [setThr], by rw [k2]; exact ht, hf, hf.later hr hl⟩

/-- After enough inserts and deletes in one leaf the collector has destroyed `e`. -/
theorem destroys {c : Conf Nat Nat} (hr : Reach c) (hq : ∀ t, c.thr t = none) {r : Rows Nat Nat} {id : NodeId} {k : Nat} (hR : Routes r id k) {s0 : PMem Nat Nat} {p0 : Ptr}
    {c0 c1 : LeafChain Nat Nat} (hS : Scene r id s0 p0 c0) (hk : Knows s0 c.mem) {l : List (Bool × Nat)} {i j : Nat} (h0 : opsEffect k l c0 = some (i, c1))
    (h1 : opsEffect k l c1 = some (j + 1, c1)) {e : Ptr} (he : Retired c.mem e) : ∃ n s, 0 < n ∧ SysReach n s ∧ (∀ t, s.gc.pc t = .idle) ∧
      (∀ t, s.tree.thr t = none) ∧ Freed s e ∧ (∃ x, HasRows { r with nextPtr := x } s.tree.mem) ∧ (SeqReach c → SeqReach s.tree) := by
  obtain ⟨n0, hn⟩ := C44_epochs_complete hr
  obtain ⟨s, r1, rfl, r3, r4⟩ := hn (n0 + 1) (by omega)
  have hi : ∀ t, s.gc.pc t = .idle := fun t => by rw [r3, hq]; rfl
  obtain ⟨t, ht, h⟩ := C21_tree_reclaims (by omega) r1 hi hq (by rw [r4]; decide) he
  obtain ⟨C1, s1, p1, a1, a2, a3, a4, a5⟩ := ops_view hR (t := t) hS hk h0
  obtain ⟨C2, s2, p2, b1, b2, b3, b4, b5⟩ := ops_repeat hR (t := t) h1 (GC.THRESHOLD + 1) a2 a3
  obtain ⟨s', d1, d2, d3, d4⟩ := h C2 (a1.trans b1) (by
    have : GC.THRESHOLD + 1 ≤ (GC.THRESHOLD + 1) * (j + 1) := Nat.le_mul_of_pos_right _ (by omega)
    omega)
  exact ⟨n0 + 1, s', by omega, d1.reach r1, d3, fun t => by rw [d2, (a1.trans b1).thr]; exact hq t, d4, ⟨s2.nextPtr, by rw [d2]; exact b2.rest b3⟩,
    fun h => by rw [d2]; exact b5 (a5 h)⟩

namespace Long

/-- The nodes of `razed` that the calls below leave as they are. -/
def razedRest : Rows Nat Nat := { razed with rows := [rootRow, wideNow,
  (65, 11648, .leaf (.remove 65 (.base (4032, NOT_INVALID) (4099, 133) (own 4071 19 ++ [(4090, 4090), (4090, 7)] ++ own 4091 5 ++ late 4096 3))))] }

/-- Eight calls: (3910, 1) is inserted and deleted again, four times. -/
def togs (v : Nat) : List (Bool × Nat) := [(true, v), (false, v), (true, v), (false, v), (true, v), (false, v), (true, v), (false, v)]

def turn (k v i : Nat) (c : LeafChain Nat Nat) : LeafChain Nat Nat := .del k v i false (.ins k v i false c)

/-- Leaf 63 after eight calls. -/
def full63 : LeafChain Nat Nat :=
  turn 3910 1 7 (turn 3910 1 7 (turn 3910 1 7 (turn 3910 1 7 (.base (3904, NOT_INVALID) (3968, 64) (own 3904 64)))))

theorem togs_first : opsEffect 3910 (togs 1) (.base (3904, NOT_INVALID) (3968, 64) (own 3904 64)) = some (0, full63) := by decide +kernel

theorem togs_again : opsEffect 3910 (togs 1) full63 = some (1, full63) := by decide +kernel

theorem razed_routes : Routes razedRest 63 3910 := by
  intro s p c h
  have h0 : look s s.root = some rootRow.2 := by
    rw [h.root]
    exact h.look (x := rootRow) List.mem_cons_self (by decide)
  have h1 : look s 1 = some wideNow.2 := h.look (x := wideNow) (by right; exact List.mem_cons_self) (by decide)
  refine (walkRoot_at h0 (by decide +kernel)).trans ?_
  refine (walk_down (p := wideNow.2.1) (id := 1) (by decide +kernel) h1 (by decide +kernel)).trans ?_
  exact walk_child (by decide +kernel) (h.lookLeaf (by decide))

/-- Three steps lead a call with key 4139 to leaf 65. -/
def findsAt (f : Nat) (op : Call Nat Nat) : Bool :=
  match readP 3 razedRest.mem (prog (f + 20) op) with
  | .load i _ => decide (i = 65)
  | _ => false

theorem findsAt_get (f : Nat) : findsAt f (.api (.get 4139)) = true := by rfl
theorem findsAt_insert (f v : Nat) : findsAt f (.api (.insert 4139 v)) = true := by rfl
theorem findsAt_delete (f v : Nat) : findsAt f (.api (.delete 4139 v)) = true := by rfl
theorem findsAt_page (f : Nat) : findsAt f (.page 4139) = true := by rfl

theorem findsAt_spec {x f : Nat} {op : Call Nat Nat} (h : findsAt f op = true) {m : Mem Nat Nat} (hm : HasRows { razedRest with nextPtr := x } m) :
    ∃ k, Steps m (prog (f + 20) op) m (.load 65 k) := by
  have h1 := readP_steps hm 3 (prog (f + 20) op)
  unfold findsAt at h
  split at h
  · rename_i i k e
    rw [e, of_decide_eq_true h] at h1
    exact ⟨k, h1⟩
  · cases h

end Long

/-- C44 fails also with the collector of the code: in some state of tree and collector, reached when all calls have returned, GetValue, Insert, Delete and
Begin with key 4139 look at a node that the collector has already destroyed. -/
theorem C44_epochs_use_after_free : ∃ n s, SysReach n s ∧ (∀ t, s.tree.thr t = none) ∧ (∀ t, s.gc.pc t = .idle) ∧
    ∀ op : Call Nat Nat, op = .api (.get 4139) ∨ op.seeks 4139 → UsesDestroyed n s op := by
  obtain ⟨c, hr, hq, hc⟩ := Long.reach_razed
  obtain ⟨_, hp⟩ := Long.razed_retired hr hq hc
  have hS : Scene Long.razedRest 63 Long.razed.mem (Long.leafPtr 63) (.base (3904, NOT_INVALID) (3968, 64) (Long.own 3904 64)) :=
    ⟨rfl, rfl, by decide +kernel, by decide +kernel, by decide +kernel⟩
  obtain ⟨n, s, h1, h2, h3, h4, h5, ⟨x, h6⟩, _⟩ := destroys hr hq Long.razed_routes hS hc.knows Long.togs_first Long.togs_again hp
  refine ⟨n, s, h2, h4, h3, fun op hop => ?_⟩
  have hf : Long.findsAt 0 op = true := by
    rcases hop with rfl | hop
    · exact Long.findsAt_get 0
    · cases op with
      | api o =>
        cases o with
        | insert k v => cases hop; exact Long.findsAt_insert 0 v
        | delete k v => cases hop; exact Long.findsAt_delete 0 v
        | get k => cases hop
      | page k => cases hop; exact Long.findsAt_page 0
      | first => cases hop
      | back k => cases hop
  obtain ⟨k, h⟩ := Long.findsAt_spec hf h6
  exact usesDestroyed h1 h2 h3 h4 h (h6.rows (65, 11648, _) (by right; right; exact List.mem_cons_self)).1 h5

/-- The nodes of `mergedSecond` that the calls below leave as they are, and the leaf they change. -/
def secondRest : Rows Nat Nat where
  root := 1
  nextId := 6
  nextPtr := 369
  rows := [(1, 356, .inner rootNow), (4, 354, .leaf mergedNow),
    (5, 316, .leaf (.ins 269 269 72 false (.ins 268 268 72 false (.ins 267 267 72 false (.ins 266 266 72 false (.ins 265 265 72 false
      (.ins 264 264 72 false (.base (192, NOT_INVALID) (default, INVALID) ((List.range 72).map fun i => (192 + i, 192 + i))))))))))]

def second : Rows Nat Nat := { secondRest with rows := (2, 149, .leaf leftNow) :: secondRest.rows }

def full2 : LeafChain Nat Nat := Long.turn 10 999 11 (Long.turn 10 999 11 (Long.turn 10 999 11 (Long.turn 10 999 11 leftNow)))

theorem togs2_first : opsEffect 10 (Long.togs 999) leftNow = some (0, full2) := by decide +kernel

theorem togs2_again : opsEffect 10 (Long.togs 999) full2 = some (1, full2) := by decide +kernel

theorem second_routes : Routes secondRest 2 10 := by
  intro s p c h
  have h0 : look s s.root = some (356, .inner rootNow) := by
    rw [h.root]
    exact h.look (x := (1, 356, .inner rootNow)) List.mem_cons_self (by decide)
  exact (walkRoot_at h0 (by decide +kernel)).trans (walk_child (by decide +kernel) (h.lookLeaf (by decide)))

def inMem (r : Rows Nat Nat) (m : Mem Nat Nat) : Bool :=
  decide (m.root = r.root) && decide (m.nextId = r.nextId) && decide (m.nextPtr = r.nextPtr) &&
    r.rows.all fun x => decide (m.table x.1 = some x.2.1) && decide (m.heap x.2.1 = some x.2.2)

theorem inMem_spec {r : Rows Nat Nat} {m : Mem Nat Nat} (h : inMem r m = true) : HasRows r m := by
  simp only [inMem, Bool.and_eq_true, decide_eq_true_eq, List.all_eq_true] at h
  exact ⟨h.1.1.1, h.1.1.2, h.1.2, h.2⟩

theorem mergedSecond_rows : (mergedSecond.map fun c => inMem second c.mem) = some true := by decide +kernel

/-- Begin(192) is given the page of leaf 5. -/
def begins : Bool :=
  match readP 10 secondRest.mem (prog (3 * TABLE_SIZE + 1) (.page 192)) with
  | .ret (.page low high items) => asksBack 192 low high items
  | _ => false

theorem begins_page : begins = true := by decide +kernel

/-- Two steps lead the search for the page left of 192 to leaf 4. -/
def findsBack (f : Nat) : Bool :=
  match readP 2 secondRest.mem (prog (f + 20) (.back 192)) with
  | .load i _ => decide (i = 4)
  | _ => false

theorem finds_back (f : Nat) : findsBack f = true := by rfl

/-- C44 fails with the collector of the code even if no two calls ever overlap: after some inserts and deletes, one after the other, `Begin(192)` returns an
iterator at (192, 192), and stepping it back looks at a node that the collector has already destroyed. -/
theorem C44_epochs_back_use_after_free : ∃ n s, SysReach n s ∧ SeqReach s.tree ∧ (∀ t, s.gc.pc t = .idle) ∧
    (∃ low high items, Steps s.tree.mem (prog (3 * TABLE_SIZE + 1) (.page 192)) s.tree.mem (.ret (.page low high items)) ∧
      asksBack 192 low high items = true) ∧ UsesDestroyed n s (.back 192) := by
  have h := mergedSecond_rows
  have hr := mergedSecond_retired
  cases hc : mergedSecond with
  | none => rw [hc] at h; cases h
  | some c =>
    rw [hc] at h hr
    have hs := seqRun_reach .init insDel_forward hc
    have hm := inMem_spec (Option.some.inj h)
    obtain ⟨p4, t4, hp⟩ := Option.map_eq_some_iff.mp (Option.some.inj hr)
    obtain rfl : p4 = 354 := by
      have := (hm.rows (4, 354, .leaf mergedNow) (by right; right; exact List.mem_cons_self)).1
      exact Option.some.inj (t4.symm.trans this)
    have hq : ∀ t, c.thr t = none := by obtain ⟨_, hw⟩ := hs.calls; exact hw.thr
    have hS : Scene secondRest 2 second.mem 149 leftNow := ⟨rfl, rfl, by decide +kernel, by decide +kernel, by decide +kernel⟩
    obtain ⟨n, s, h1, h2, h3, h4, h5, ⟨x, h6⟩, h7⟩ := destroys hs.reach hq second_routes hS hm.knows togs2_first togs2_again
      (e := 354) ⟨1, 354, List.contains_iff_mem.mp hp, List.mem_cons_self⟩
    refine ⟨n, s, h2, h7 hs, h3, ?_, ?_⟩
    · have a1 := readP_steps h6 10 (prog (3 * TABLE_SIZE + 1) (.page 192))
      have a2 := begins_page
      unfold begins at a2
      split at a2
      · rename_i low high items e
        rw [e] at a1
        exact ⟨low, high, items, a1, a2⟩
      · cases a2
    · have a1 := readP_steps h6 2 (prog (0 + 20) (.back 192))
      have a2 := finds_back 0
      unfold findsBack at a2
      split at a2
      · rename_i i k e
        rw [e, of_decide_eq_true a2] at a1
        exact usesDestroyed h1 h2 h3 h4 a1 (h6.rows (4, 354, .leaf mergedNow) (by right; exact List.mem_cons_self)).1 h5
      · cases a2

end Tree
end BwTree
