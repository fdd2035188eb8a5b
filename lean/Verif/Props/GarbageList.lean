import Verif.Proofs.GarbageLife
import Verif.Props.EpochGC
import Verif.Model.ThreadLocal

/-!
  ### C47 – the lists of retired memory, and changing the number of threads
  ### C48 – registration of threads

  `Exec (create n) es s`: a tree is created for `n` threads, then the events `es` happen (steps of operations, epoch ticks, UpdateThreadLocal
  while no operation runs), in any interleaving and any number.
-/

namespace BwTree
namespace GC
namespace Rec

/-- What every state of a tree satisfies. -/
def Good (s : State) : Prop := ∃ g, Abs s g ∧ Inv s.threadNum g

theorem Abs.rest {s : State} {g : GC.State} (h : Abs s g) (hi : Inv s.threadNum g) (hq : Quiet s) :
    Rest s g.lae g.garb (fun _ => False) := by
  obtain ⟨l, A, hl⟩ := h.lists
  refine ⟨hq, ?_, l, A, hl.weaken ?_⟩
  · have : g.cnt = fun u => (g.garb u).length := funext hi.cnt
    rw [← this, ← h.eq]
    exact hi
  · rintro i ⟨m, hm⟩
    rw [hq i] at hm
    cases hm

theorem Rest.good {s : State} {lae : Nat → Nat} {garb : Nat → List (Nat × Nat)} (h : Rest s lae garb (fun _ => False)) : Good s := by
  obtain ⟨l, A, hl⟩ := h.lists
  refine ⟨view s lae garb (fun u => (garb u).length), ⟨rfl, ?_, l, A, hl.weaken (fun _ hf => hf.elim)⟩, h.inv⟩
  intro t i m hm
  rw [h.quiet t] at hm
  cases hm

theorem abs_create (n : Nat) : Abs (create n) GC.init := by
  refine ⟨rfl, fun t i m hm => (by exact nomatch hm), List.replicate n Slot.new, fun _ => [], ?_⟩
  have hget : ∀ (i : Nat) (x : Slot), (List.replicate n Slot.new)[i]? = some x → x = Slot.new :=
    fun i x hx => List.eq_of_mem_replicate (List.mem_of_getElem? hx)
  constructor
  · rfl
  · exact List.length_replicate
  · intro i x hx; rw [hget i x hx]; rfl
  · intro i x hx; rw [hget i x hx]; rfl
  · intro i x hx; rw [hget i x hx]; trivial
  · intro i x b _ hb; cases hb
  · intro i x hx _; rw [hget i x hx]; exact Or.inl rfl
  · intro i; exact List.nodup_nil
  · intro i j a hi; cases hi
  · intro i _; exact ⟨rfl, rfl⟩
  · intro a ha; exact absurd rfl ha
  · intro i a hi; cases hi

theorem good_create (n : Nat) : Good (create n) := ⟨GC.init, abs_create n, inv_init n⟩

/-- A step that happens is a step of `Model/EpochGC`. -/
theorem act_sim {s s' : State} {g : GC.State} (h : Abs s g) (hi : Inv s.threadNum g) {a : Nat} {x : Act} (ha : Allowed s (.act a x))
    (hs : step a s x = .ok (some s')) :
    ∃ g', Contract g x ∧ GC.step s.threadNum g x = some g' ∧ s'.threadNum = s.threadNum ∧ Abs s' g' := by
  have hb : ¬ BadId s x := by
    intro hb
    rw [bad_step hb] at hs
    cases hs
  have hpc : s.pc = g.pc := by rw [h.eq]; rfl
  have hc : Contract g x := by
    have := ha.2
    cases x <;> first | exact trivial | exact this | (rw [hpc] at this; exact this)
  rcases sim_step h hi ha.1 hb with ⟨_, he⟩ | ⟨s2, g', hg, he, hn, hA⟩
  · rw [he] at hs; cases hs
  · rw [he] at hs
    cases hs
    exact ⟨g', hc, hg, hn, hA⟩

theorem update_sim {s s' : State} (h : Good s) (hq : Quiet s) (he : s.epoch < UMAX) {n : Nat} (hs : updateThreadLocal n s = .ok s') :
    ∃ s1, Swept s s1 ∧ s' = { s1 with threadNum := n, arr := some (List.replicate n Slot.new) } ∧ (∀ a, s1.heap a = none) ∧
      Rest s' (fun _ => 0) (fun _ => []) (fun _ => False) := by
  obtain ⟨g, hA, hi⟩ := h
  obtain ⟨s1, hsw, hu, _, hh, hr⟩ := update_spec (hA.rest hi hq) he n
  rw [hu] at hs
  cases hs
  exact ⟨s1, hsw, rfl, hh, hr⟩

theorem good_happen {s s' : State} {e : Ev} (h : Good s) (ha : Allowed s e) (hs : happen s e = .ok (some s')) : Good s' := by
  cases e with
  | act a x =>
    obtain ⟨g, hA, hi⟩ := h
    obtain ⟨g', hc, hg, hn, hA'⟩ := act_sim hA hi ha hs
    exact ⟨g', hA', by rw [hn]; exact inv_step hi hc hg⟩
  | update n =>
    have hs' : updateThreadLocal n s = .ok s' := by
      simp only [happen] at hs
      cases hu : updateThreadLocal n s with
      | error f => rw [hu] at hs; cases hs
      | ok s2 => rw [hu] at hs; cases hs; rfl
    obtain ⟨s1, _, _, _, hr⟩ := update_sim h ha.1 ha.2 hs'
    exact hr.good

theorem good_exec {s s' : State} {es : List Ev} (h : Exec s es s') : Good s → Good s' := by
  induction h with
  | nil s => exact id
  | cons ha hs _ ih => exact fun hg => ih (good_happen hg ha hs)

theorem Exec.append {s s' : State} : ∀ {es fs : List Ev}, Exec s (es ++ fs) s' → ∃ s1, Exec s es s1 ∧ Exec s1 fs s'
  | [], _, h => ⟨s, .nil s, h⟩
  | e :: es, fs, h => by
    rw [List.cons_append] at h
    cases h with
    | cons ha hs ht =>
      obtain ⟨s1, h1, h2⟩ := Exec.append ht
      exact ⟨s1, .cons ha hs h1, h2⟩

/-- **C47 (no fault).** Whatever happened before, a step of a thread whose id is below the number of threads does not touch a deleted
record, does not leave the metadata array and does not fail an assertion. -/
theorem C47_no_fault (n : Nat) (es : List Ev) {s : State} (h : Exec (create n) es s) (a : Nat) (x : Act) (ha : Allowed s (.act a x))
    (hid : ∀ t, x = .joinRead t ∨ x = .unregister t → t < s.threadNum) : ∃ r, step a s x = .ok r := by
  obtain ⟨g, hA, hi⟩ := good_exec h (good_create n)
  have hb : ¬ BadId s x := by
    rintro ⟨t, ht, ⟨e, _⟩ | e⟩
    · exact ht (hid t (Or.inl e))
    · exact ht (hid t (Or.inr e))
  rcases sim_step hA hi ha.1 hb with ⟨_, he⟩ | ⟨s2, g', _, he, _, _⟩
  · exact ⟨_, he⟩
  · exact ⟨_, he⟩

/-- **C47 (the lists).** The record lists of the threads are well formed: from the header of thread `t` the pointers lead through the
records at `addr t` to nullptr, and `node_count` is their number. They are disjoint, every record that exists is in one of them, and
together they hold exactly the objects that were handed over and not destroyed, each once. -/
theorem C47_lists (n : Nat) (es : List Ev) {s : State} (h : Exec (create n) es s) :
    ∃ (addr : Nat → List Nat) (objs : Nat → List (Nat × Nat)),
      (∀ t, t < s.threadNum → ∃ x, getSlot s t = .ok x ∧ Seg s.heap x.head (addr t) (objs t) ∧ x.count = (objs t).length) ∧
      (∀ t, (addr t).Nodup) ∧ (∀ t u a, a ∈ addr t → a ∈ addr u → t = u) ∧
      (∀ a, s.heap a ≠ none ↔ ∃ t, t < s.threadNum ∧ a ∈ addr t) ∧
      (∀ o, s.st o = .retired ↔ ∃ t, t < s.threadNum ∧ ∃ d, (o, d) ∈ objs t) ∧
      (∀ t, ((objs t).map Prod.fst).Nodup) ∧ (∀ t u o d d', (o, d) ∈ objs t → (o, d') ∈ objs u → t = u) := by
  obtain ⟨g, hA, hi⟩ := good_exec h (good_create n)
  obtain ⟨l, A, hl⟩ := hA.lists
  have hst : s.st = g.st := by rw [hA.eq]; rfl
  have hin : ∀ t a, a ∈ A t → t < s.threadNum := by
    intro t a ha
    refine Decidable.byContradiction (fun hn => ?_)
    rw [(hl.out t (by omega)).1] at ha
    cases ha
  refine ⟨A, g.garb, ?_, hl.nodup, hl.disj, ?_, ?_, ?_, hi.garbDisj⟩
  · intro t ht
    obtain ⟨x, hg, hx⟩ := hl.get ht
    exact ⟨x, hg, hl.seg t x hx, hl.cnt t x hx⟩
  · intro a
    constructor
    · intro ha
      obtain ⟨t, ht⟩ := hl.cover a ha
      exact ⟨t, hin t a ht, ht⟩
    · rintro ⟨t, _, ht⟩
      exact hl.live t a ht
  · intro o
    rw [hst]
    constructor
    · intro ho
      obtain ⟨t, d, hd⟩ := hi.garbAll o ho
      refine ⟨t, Decidable.byContradiction (fun hn => ?_), d, hd⟩
      rw [(hl.out t (by omega)).2] at hd
      cases hd
    · rintro ⟨t, _, d, hd⟩
      exact hi.garbS t o d hd
  · intro t
    exact List.pairwise_map.2 (hi.garbND t)

/-- **C47 (changing the number of threads).** UpdateThreadLocal, called while no operation runs, succeeds; everything that was retired
has then been destroyed, exactly once, nothing else has; no record is left; the new metadata is that of a new tree; the epoch and all
objects in use are as before. -/
theorem C47_update (n : Nat) (es : List Ev) {s : State} (h : Exec (create n) es s) (hq : Quiet s) (he : s.epoch < UMAX) (n' : Nat) :
    ∃ s', updateThreadLocal n' s = .ok s' ∧ s'.threadNum = n' ∧ s'.arr = some (List.replicate n' Slot.new) ∧ (∀ a, s'.heap a = none) ∧
      (∀ o, s'.st o = if s.st o = .retired then .freed else s.st o) ∧ (∀ o, o ∈ s'.freed ↔ o ∈ s.freed ∨ s.st o = .retired) ∧
      s'.freed.Nodup ∧ s'.epoch = s.epoch ∧ Quiet s' := by
  obtain ⟨g, hA, hi⟩ := good_exec h (good_create n)
  obtain ⟨s1, hsw, hu, _, hh, hr⟩ := update_spec (hA.rest hi hq) he n'
  have hst : ∀ o, s1.st o = if s.st o = .retired then .freed else s.st o := by
    intro o
    have hnr : s1.st o ≠ .retired := by
      intro e
      obtain ⟨_, _, hd⟩ := hr.inv.garbAll o e
      cases hd
    rcases hsw.st o with e | ⟨e1, e2⟩
    · rw [e] at hnr
      rw [if_neg hnr, e]
    · rw [if_pos e1, e2]
  refine ⟨_, hu, rfl, rfl, hh, hst, ?_, hr.inv.freedND, hsw.epoch, hr.quiet⟩
  intro o
  have h1 := hr.inv.freedS o
  have h2 := hi.freedS o
  have ef : g.freed = s.freed := by rw [hA.eq]; rfl
  have est : g.st = s.st := by rw [hA.eq]; rfl
  rw [ef, est] at h2
  refine (show _ ↔ _ from h1).trans ?_
  show s1.st o = .freed ↔ _
  rw [hst o, h2]
  by_cases e : s.st o = .retired
  · simp [e]
  · simp [e]

/-- **C47 (destruction).** The destructors, called while no operation runs, destroy everything that was retired, exactly once, and leave
no record and no metadata. -/
theorem C47_tearDown (n : Nat) (es : List Ev) {s : State} (h : Exec (create n) es s) (hq : Quiet s) (he : s.epoch < UMAX) :
    ∃ s', tearDown s = .ok s' ∧ s'.arr = none ∧ (∀ a, s'.heap a = none) ∧ (∀ o, o ∈ s'.freed ↔ o ∈ s.freed ∨ s.st o = .retired) ∧
      s'.freed.Nodup := by
  obtain ⟨g, hA, hi⟩ := good_exec h (good_create n)
  obtain ⟨s1, _, hu, ht, hh, _⟩ := update_spec (hA.rest hi hq) he 0
  obtain ⟨s2, hu2, _, _, _, _, hf, hnd, _⟩ := C47_update n es h hq he 0
  rw [hu] at hu2
  cases hu2
  exact ⟨_, ht, rfl, hh, hf, hnd⟩

/-- **C47 (at most once).** No object is destroyed twice, also not across changes of the number of threads. -/
theorem C47_freed_once (n : Nat) (es : List Ev) {s : State} (h : Exec (create n) es s) : s.freed.Nodup := by
  obtain ⟨g, hA, hi⟩ := good_exec h (good_create n)
  have ef : g.freed = s.freed := by rw [hA.eq]; rfl
  rw [← ef]
  exact hi.freedND

/-- Thread `t` is inside an operation. -/
def InOp (s : State) (t : Nat) : Prop :=
  s.pc t = .active ∨ (∃ o d, s.pc t = .adding o d) ∨ (∃ i m, s.pc t = .summing i m) ∨ (∃ m, s.pc t = .freeing m)

/-- A relation that one step of `Model/EpochGC` preserves is preserved while `t` stays in its operation. -/
theorem keep_exec {s s' : State} {es : List Ev} {t : Nat} (h : Exec s es s') (hg : Good s)
    (hstay : ∀ a, Ev.act a (.leaveRead t) ∉ es) (hin : InOp s t) :
    InOp s' t ∧ s'.joinT t = s.joinT t ∧ s.clock ≤ s'.clock ∧
      ∀ o, s.st o ≠ .fresh → s.st o ≠ .linked → s'.st o ≠ .fresh ∧ s'.st o ≠ .linked ∧ s'.outT o = s.outT o := by
  induction h with
  | nil s => exact ⟨hin, rfl, Nat.le_refl _, fun o h1 h2 => ⟨h1, h2, rfl⟩⟩
  | @cons s s1 s2 e es ha hs _ ih =>
    have hg1 := good_happen hg ha hs
    have key : InOp s1 t ∧ s1.joinT t = s.joinT t ∧ s.clock ≤ s1.clock ∧
        ∀ o, s.st o ≠ .fresh → s.st o ≠ .linked → s1.st o ≠ .fresh ∧ s1.st o ≠ .linked ∧ s1.outT o = s.outT o := by
      cases e with
      | act a x =>
        obtain ⟨g, hA, hi⟩ := hg
        obtain ⟨g', hc, hst, _, hA'⟩ := act_sim hA hi ha hs
        have hpc : ∀ {s : State} {g : GC.State}, Abs s g → g.pc = s.pc ∧ g.joinT = s.joinT ∧ g.clock = s.clock ∧ g.st = s.st ∧ g.outT = s.outT :=
          fun {s g} h => by rw [h.eq]; exact ⟨rfl, rfl, rfl, rfl, rfl⟩
        obtain ⟨e1, e2, e3, e4, e5⟩ := hpc hA
        obtain ⟨f1, f2, f3, f4, f5⟩ := hpc hA'
        have hne : x ≠ .leaveRead t := fun e => hstay a (by rw [e]; simp)
        have hr : Running g t := by unfold Running; rw [e1]; exact hin
        obtain ⟨hr', hj⟩ := running_step hst hr hne
        refine ⟨?_, ?_, ?_, ?_⟩
        · unfold Running at hr'; rw [f1] at hr'; exact hr'
        · rw [← f2, ← e2]; exact hj
        · rw [← f3, ← e3, clock_step hst]; omega
        · intro o h1 h2
          obtain ⟨ho, hoT⟩ := out_step (o := o) hi hst ⟨by rw [e4]; exact h1, by rw [e4]; exact h2⟩
          rw [← f4, ← f5, ← e5]
          exact ⟨ho.1, ho.2, hoT⟩
      | update n =>
        have := ha.1 t
        rcases hin with h | ⟨_, _, h⟩ | ⟨_, _, h⟩ | ⟨_, h⟩ <;> (rw [this] at h; cases h)
    obtain ⟨k1, k2, k3, k4⟩ := key
    obtain ⟨r1, r2, r3, r4⟩ := ih hg1 (fun a hm => hstay a (List.mem_cons_of_mem _ hm)) k1
    refine ⟨r1, r2.trans k2, Nat.le_trans k3 r3, ?_⟩
    intro o h1 h2
    obtain ⟨a1, a2, a3⟩ := k4 o h1 h2
    obtain ⟨b1, b2, b3⟩ := r4 o a1 a2
    exact ⟨b1, b2, b3.trans a3⟩

/-- **C47, C20.** Memory safety holds over the whole life of the tree, through any number of changes of the number of threads: if an
operation of thread `t` has started, later some thread made `o` unreachable, and `t` is still in its operation, then `o` has not been
destroyed. -/
theorem C47_no_early_free (n t u o a1 a2 : Nat) (pre mid post : List Ev) {s : State}
    (h : Exec (create n) (pre ++ .act a1 (.joinStore t) :: mid ++ .act a2 (.unlink u o) :: post) s)
    (hstay : ∀ a, Ev.act a (.leaveRead t) ∉ mid ++ post) : o ∉ s.freed := by
  rw [List.append_assoc, List.cons_append] at h
  obtain ⟨s0, h0, h⟩ := h.append
  cases h with
  | cons ha hs h =>
    rename_i s1
    have hg0 := good_exec h0 (good_create n)
    have hg1 := good_happen hg0 ha hs
    -- the operation starts
    have hin : InOp s1 t ∧ s1.joinT t ≤ s1.clock := by
      obtain ⟨g, hA, hi⟩ := hg0
      obtain ⟨g', hc, hst, _, hA'⟩ := act_sim hA hi ha hs
      have hj : Running g' t := by
        unfold GC.step GC.step' at hst
        simp only at hst
        split at hst
        · cases hst; exact Or.inl (upd_same _ _ _)
        · cases hst
      have hi' := inv_step hi hc hst
      have e1 : g'.pc = s1.pc := by rw [hA'.eq]; rfl
      have e2 : g'.joinT = s1.joinT := by rw [hA'.eq]; rfl
      have e3 : g'.clock = s1.clock := by rw [hA'.eq]; rfl
      refine ⟨?_, ?_⟩
      · unfold Running at hj; rw [e1] at hj; exact hj
      · rw [← e2, ← e3]; exact hi'.joinC t
    obtain ⟨s2, h2, h3⟩ := h.append
    obtain ⟨k1, k2, k3, _⟩ := keep_exec h2 hg1 (fun a hm => hstay a (List.mem_append_left _ hm)) hin.1
    have hg2 := good_exec h2 hg1
    cases h3 with
    | cons ha' hs' h3 =>
      rename_i s3
      have hg3 := good_happen hg2 ha' hs'
      -- the object becomes unreachable
      have hout : InOp s3 t ∧ s3.joinT t = s2.joinT t ∧ s3.st o ≠ .fresh ∧ s3.st o ≠ .linked ∧ s2.clock < s3.outT o := by
        obtain ⟨g, hA, hi⟩ := hg2
        obtain ⟨g', hc, hst, _, hA'⟩ := act_sim hA hi ha' hs'
        have e1 : g.pc = s2.pc := by rw [hA.eq]; rfl
        have e2 : g.joinT = s2.joinT := by rw [hA.eq]; rfl
        have e3 : g.clock = s2.clock := by rw [hA.eq]; rfl
        have f1 : g'.pc = s3.pc := by rw [hA'.eq]; rfl
        have f2 : g'.joinT = s3.joinT := by rw [hA'.eq]; rfl
        have f4 : g'.st = s3.st := by rw [hA'.eq]; rfl
        have f5 : g'.outT = s3.outT := by rw [hA'.eq]; rfl
        have hr : Running g t := by unfold Running; rw [e1]; exact k1
        obtain ⟨hr', hj⟩ := running_step hst hr (by intro e; cases e)
        have hu : g'.st o = .owned u ∧ g'.outT o = g.clock + 1 := by
          unfold GC.step GC.step' at hst
          simp only at hst
          split at hst
          · cases hst; exact ⟨upd_same _ _ _, upd_same _ _ _⟩
          · cases hst
        refine ⟨?_, ?_, ?_, ?_, ?_⟩
        · unfold Running at hr'; rw [f1] at hr'; exact hr'
        · rw [← f2, ← e2]; exact hj
        · rw [← f4, hu.1]; intro e; cases e
        · rw [← f4, hu.1]; intro e; cases e
        · rw [← f5, hu.2, e3]; omega
      obtain ⟨o1, o2, o3, o4, o5⟩ := hout
      obtain ⟨r1, r2, _, r4⟩ := keep_exec h3 hg3 (fun a hm => hstay a (List.mem_append_right _ hm)) o1
      obtain ⟨q1, q2, q3⟩ := r4 o o3 o4
      obtain ⟨g, hA, hi⟩ := good_exec h3 hg3
      have e1 : g.pc = s.pc := by rw [hA.eq]; rfl
      have e2 : g.joinT = s.joinT := by rw [hA.eq]; rfl
      have e4 : g.st = s.st := by rw [hA.eq]; rfl
      have e5 : g.outT = s.outT := by rw [hA.eq]; rfl
      have e6 : g.freed = s.freed := by rw [hA.eq]; rfl
      have hsafe := hi.safe t o (by unfold Running; rw [e1]; exact r1) ⟨by rw [e4]; exact q1, by rw [e4]; exact q2⟩
        (by rw [e2, e5, r2, q3, o2, k2]; omega)
      intro hf
      rw [← e6] at hf
      exact hsafe ((hi.freedS o).1 hf)

/-- Steps on the linked lists are steps of `Model/EpochGC`. -/
theorem exec_sim {n : Nat} {s : State} : ∀ (es : List (Nat × Act)) {s0 : State} {g0 : GC.State}, Abs s0 g0 → Inv s0.threadNum g0 →
    s0.threadNum = n → Exec s0 (es.map (fun p => .act p.1 p.2)) s →
    ∃ g, RunC n g0 (es.map Prod.snd) g ∧ Abs s g ∧ s.threadNum = n
  | [], s0, g0, hA, _, hn, h => by
    cases h
    exact ⟨g0, .nil g0, hA, hn⟩
  | p :: es, s0, g0, hA, hi, hn, h => by
    rw [List.map_cons] at h
    cases h with
    | cons ha hs ht =>
      obtain ⟨g1, hc, hg, hn1, hA1⟩ := act_sim hA hi ha hs
      obtain ⟨g, hr, hrest⟩ := exec_sim es hA1 (by rw [hn1]; exact inv_step hi hc hg) (hn1.trans hn) ht
      exact ⟨g, .cons hc (by rw [← hn]; exact hg) hr, hrest⟩

/-- **C47 (refinement).** Between two changes of the number of threads the linked lists do what the lists of `Model/EpochGC` do, so that
C20 and C21 hold of them. -/
theorem C47_refines (n : Nat) (es : List (Nat × Act)) {s : State} (h : Exec (create n) (es.map (fun p => .act p.1 p.2)) s) :
    ∃ g, RunC n GC.init (es.map Prod.snd) g ∧ g.freed = s.freed ∧ g.st = s.st ∧ g.pc = s.pc ∧ g.epoch = s.epoch := by
  obtain ⟨g, hr, hA, _⟩ := exec_sim es (abs_create n) (inv_init n) rfl h
  refine ⟨g, hr, ?_, ?_, ?_, ?_⟩ <;> (rw [hA.eq]; rfl)

/-- There is always an address for a new record. -/
theorem fresh_address {s : State} (h : Good s) : ∃ a, s.heap a = none := by
  obtain ⟨g, hA, _⟩ := h
  obtain ⟨l, A, hl⟩ := hA.lists
  have hb : ∀ L : List Nat, ∃ a, ∀ b ∈ L, b < a := by
    intro L
    induction L with
    | nil => exact ⟨0, fun _ hb => by cases hb⟩
    | cons x L ih =>
      obtain ⟨a, ha⟩ := ih
      refine ⟨max a (x + 1), fun b hb => ?_⟩
      rcases List.mem_cons.1 hb with rfl | hb
      · omega
      · have := ha b hb; omega
  obtain ⟨a, ha⟩ := hb ((List.range s.threadNum).flatMap A)
  refine ⟨a, ?_⟩
  cases hc : s.heap a with
  | none => rfl
  | some x =>
    obtain ⟨i, hi⟩ := hl.cover a (by rw [hc]; intro e; cases e)
    have hin : i < s.threadNum := by
      refine Decidable.byContradiction (fun hn => ?_)
      rw [(hl.out i (by omega)).1] at hi
      cases hi
    have := ha a (List.mem_flatMap.2 ⟨i, List.mem_range.2 hin, hi⟩)
    omega

/-- **C47 (completeness).** Every execution of `Model/EpochGC` is one of the linked lists, with suitable addresses. -/
theorem C47_covers (n : Nat) (xs : List Act) {g : GC.State} (h : RunC n GC.init xs g) :
    ∃ (es : List (Nat × Act)) (s : State), Exec (create n) (es.map (fun p => Ev.act p.1 p.2)) s ∧ es.map Prod.snd = xs ∧ s.freed = g.freed ∧ s.st = g.st ∧
      s.pc = g.pc ∧ s.epoch = g.epoch := by
  suffices H : ∀ (xs : List Act) (s0 : State) (g0 : GC.State), Abs s0 g0 → Inv n g0 → s0.threadNum = n → RunC n g0 xs g →
      ∃ (es : List (Nat × Act)) (s : State), Exec s0 (es.map (fun p => Ev.act p.1 p.2)) s ∧ es.map Prod.snd = xs ∧ s.freed = g.freed ∧ s.st = g.st ∧
        s.pc = g.pc ∧ s.epoch = g.epoch by
    exact H xs (create n) GC.init (abs_create n) (inv_init n) rfl h
  intro xs
  induction xs with
  | nil =>
    intro s0 g0 hA _ _ h
    cases h
    have e := hA.eq
    refine ⟨[], s0, .nil s0, rfl, ?_, ?_, ?_, ?_⟩ <;> (rw [e]; rfl)
  | cons x xs ih =>
    intro s0 g0 hA hi hn h
    cases h with
    | cons hc hs ht =>
      rename_i g1
      have hi0 : Inv s0.threadNum g0 := by rw [hn]; exact hi
      obtain ⟨a, ha⟩ := fresh_address ⟨g0, hA, hi0⟩
      have hpc : g0.pc = s0.pc := by rw [hA.eq]; rfl
      have hb : ¬ BadId s0 x := by
        rintro ⟨t, htn, ⟨e, _⟩ | e⟩
        · subst e
          rw [hn] at htn
          simp [GC.step, GC.step', htn] at hs
        · subst e
          rw [hn] at htn
          simp [GC.step, GC.step', htn] at hs
      have hal : Allowed s0 (.act a x) := by
        refine ⟨ha, ?_⟩
        cases x <;> first | exact trivial | exact hc | (show s0.pc _ = _; rw [← hpc]; exact hc)
      rcases sim_step hA hi0 ha hb with ⟨he, _⟩ | ⟨s1, g1', hg1, he, hn1, hA1⟩
      · rw [hn, hs] at he; cases he
      · rw [hn, hs] at hg1
        cases hg1
        obtain ⟨es, s, hex, hmap, hrest⟩ := ih s1 g1 hA1 (inv_step hi hc hs) (hn1.trans hn) ht
        exact ⟨(a, x) :: es, s, .cons hal he hex, by rw [List.map_cons, hmap], hrest⟩

/-- **C47, C48 (wrong id).** A thread whose id is not below the number of threads of the tree cannot start an operation: the assertion in
GetGCMetaData fails (with assertions switched off it would write beyond the array). -/
theorem C48_bad_id (s : State) (a t : Nat) (ht : s.threadNum ≤ t) (hi : s.pc t = .idle) : step a s (.joinRead t) = .error .gcId :=
  bad_step ⟨t, by omega, Or.inl ⟨rfl, hi⟩⟩

/-! Nonvacuity: thread 1 of two retires objects 7 and 8 (the record of 8 is linked behind that of 7); the number of threads becomes 3; thread
2 retires object 9; the tree is destroyed. Everything was destroyed, in this order. -/

def demo : List Ev :=
  [.act 0 (.joinRead 1), .act 0 (.joinStore 1), .act 0 (.make 1 7), .act 0 (.addRead 1 7), .act 5 (.addLink 1),
   .act 0 (.make 1 8), .act 0 (.addRead 1 8), .act 6 (.addLink 1), .act 0 (.leaveRead 1), .act 0 (.leaveStore 1),
   .update 3,
   .act 0 (.joinRead 2), .act 0 (.joinStore 2), .act 0 (.make 2 9), .act 0 (.addRead 2 9), .act 5 (.addLink 2),
   .act 0 (.leaveRead 2), .act 0 (.leaveStore 2)]

/-- The state after some events, if nothing fails. -/
def play : State → List Ev → Option State
  | s, [] => some s
  | s, e :: es =>
    match happen s e with
    | .ok (some s') => play s' es
    | _ => none

example : ((play (create 2) demo).map (fun s => (s.freed, s.st 9, s.threadNum, s.heap 5))) =
    some ([8, 7], .retired, 3, some ⟨0, 9, none⟩) := by decide +kernel

example : ((play (create 2) (demo.take 10)).map (fun s => (s.freed, s.heap 5, s.heap 6))) =
    some ([], some ⟨0, 7, some 6⟩, some ⟨0, 8, none⟩) := by decide +kernel

theorem demo_exec : ∃ s, Exec (create 2) demo s ∧ Quiet s ∧ s.epoch < UMAX ∧ s.st 9 = .retired := by
  refine ⟨_, .cons ⟨rfl, trivial⟩ rfl <| .cons ⟨rfl, trivial⟩ rfl <| .cons ⟨rfl, trivial⟩ rfl <| .cons ⟨rfl, trivial⟩ rfl <|
    .cons ⟨rfl, trivial⟩ rfl <| .cons ⟨rfl, trivial⟩ rfl <| .cons ⟨rfl, trivial⟩ rfl <| .cons ⟨rfl, trivial⟩ rfl <|
    .cons ⟨rfl, trivial⟩ rfl <| .cons ⟨rfl, trivial⟩ rfl <| .cons ⟨?_, ?_⟩ rfl <| .cons ⟨rfl, trivial⟩ rfl <|
    .cons ⟨rfl, trivial⟩ rfl <| .cons ⟨rfl, trivial⟩ rfl <| .cons ⟨rfl, trivial⟩ rfl <| .cons ⟨rfl, trivial⟩ rfl <|
    .cons ⟨rfl, trivial⟩ rfl <| .cons ⟨rfl, trivial⟩ rfl <| .nil _, ?_, ?_, ?_⟩
  · intro t
    by_cases h : t = 1
    · subst h; rfl
    · simp [upd, h, create, prepareThreadLocal, setSlot]
  · decide
  · intro t
    by_cases h : t = 2
    · subst h; rfl
    · by_cases h1 : t = 1
      · subst h1; rfl
      · simp [upd, h, h1, create, prepareThreadLocal, setSlot, setThreadNum]
  · decide
  · rfl

end Rec
end GC
end BwTree
