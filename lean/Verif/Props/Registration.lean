import Mathlib.Data.List.Induction
import Verif.Props.GarbageList

/-!
  ### C48 – registration of threads, and threads that do not use the tree
-/

namespace BwTree
namespace GC

/-- Thread `t` is idle with epoch 0, so that no collection finds anything old enough. `F`: what was destroyed before. -/
structure Silent (t : Nat) (F : List Nat) (s : State) : Prop where
  lae : s.lae t = 0
  pc : s.pc t = .idle
  sum : ∀ u i m, s.pc u = .summing i m → t < i → m = 0
  free : ∀ u m, s.pc u = .freeing m → m = 0
  freed : s.freed = F

theorem silent_step {n t : Nat} {F : List Nat} {s s' : State} {a : Act} (ht : t < n) (h : Silent t F s) (hs : step n s a = some s')
    (h1 : a ≠ .joinRead t) (h2 : a ≠ .unregister t) : Silent t F s' := by
  obtain ⟨ha, hb, hc, hd, he⟩ := h
  cases a <;> simp only [step, step'] at hs <;> (try split at hs) <;> (try split at hs) <;> (try split at hs) <;>
    first
    | (obtain rfl := Option.some.inj hs
       refine ⟨?_, ?_, ?_, ?_, ?_⟩ <;> simp only [upd] at * <;> grind)
    | cases hs

theorem silent_run {n t : Nat} {F : List Nat} {s s' : State} {as : List Act} (ht : t < n) (h : RunC n s as s') (hs : Silent t F s)
    (h1 : Act.joinRead t ∉ as) (h2 : Act.unregister t ∉ as) : Silent t F s' := by
  induction h with
  | nil => exact hs
  | cons hc hst _ ih =>
    simp only [List.mem_cons, not_or] at h1 h2
    exact ih (silent_step ht hs hst (fun e => h1.1 e.symm) (fun e => h2.1 e.symm)) h1.2 h2.2

namespace Rec

/-- **C48 (a thread that never uses the tree).** As long as some thread below the number of threads of the tree has neither started an
operation nor been unregistered since the tree was created (or since UpdateThreadLocal), no collection of any thread destroys anything,
whatever the other threads do and however far the epoch advances. -/
theorem C48_silent_thread (n t : Nat) (pre : List Ev) (es : List (Nat × Act)) {s0 s : State} (h0 : Exec (create n) pre s0) (hq : Quiet s0)
    {x : Slot} (hx : getSlot s0 t = .ok x) (hl : x.lae = 0) (h : Exec s0 (es.map (fun p => .act p.1 p.2)) s)
    (h1 : ∀ a, (a, Act.joinRead t) ∉ es) (h2 : ∀ a, (a, Act.unregister t) ∉ es) : s.freed = s0.freed := by
  obtain ⟨g0, hA, hi⟩ := good_exec h0 (good_create n)
  have ht : t < s0.threadNum := by
    refine Decidable.byContradiction (fun hn => ?_)
    rw [getSlot_big hn] at hx
    cases hx
  have hpc : g0.pc = s0.pc := by rw [hA.eq]; rfl
  have hf : g0.freed = s0.freed := by rw [hA.eq]; rfl
  have hs0 : Silent t s0.freed g0 := by
    obtain ⟨l, A, hL⟩ := hA.lists
    obtain ⟨y, hy, hly⟩ := hL.get ht
    rw [hx] at hy
    cases hy
    refine ⟨(hL.lae t x hly).symm.trans hl, by rw [hpc]; exact hq t, ?_, ?_, hf⟩
    · intro u i m hm
      rw [hpc, hq u] at hm
      cases hm
    · intro u m hm
      rw [hpc, hq u] at hm
      cases hm
  obtain ⟨g, hr, hA', _⟩ := exec_sim es hA hi rfl h
  have := silent_run ht hr hs0 (by
    intro hm
    obtain ⟨p, hp, he⟩ := List.mem_map.1 hm
    exact h1 p.1 (by rw [← he]; exact hp)) (by
    intro hm
    obtain ⟨p, hp, he⟩ := List.mem_map.1 hm
    exact h2 p.1 (by rw [← he]; exact hp))
  rw [← this.freed, hA'.eq]
  rfl

/-- Nonvacuity: right after its creation, and right after UpdateThreadLocal, every thread of a tree has epoch 0. -/
example (n t : Nat) (ht : t < n) : ∃ x, getSlot (create n) t = .ok x ∧ x.lae = 0 := by
  refine ⟨Slot.new, ?_, rfl⟩
  simp [getSlot, create, prepareThreadLocal, ht]
  rfl

/-! #### Ids -/

/-- The registry after some actions. -/
def registry (as : List RegAct) : Registry := as.foldl Registry.step Registry.init

/-- RegisterThread calls among the actions. -/
def regs (as : List RegAct) : Nat := as.countP (fun a => match a with | .register _ => true | _ => false)

/-- No thread calls AssignGCID. -/
def NoAssign (as : List RegAct) : Prop := ∀ t id, RegAct.assign t id ∉ as

theorem registry_snoc (as : List RegAct) (a : RegAct) : registry (as ++ [a]) = (registry as).step a := by
  simp [registry, List.foldl_append]

theorem registry_spec (as : List RegAct) : NoAssign as →
    (registry as).total = regs as ∧ (∀ t, RegAct.register t ∉ as → (registry as).gcId t = -1) ∧
    (∀ t, RegAct.register t ∈ as → 0 ≤ (registry as).gcId t ∧ (registry as).gcId t < regs as) ∧
    (∀ t u, t ≠ u → RegAct.register t ∈ as → RegAct.register u ∈ as → (registry as).gcId t ≠ (registry as).gcId u) := by
  induction as using List.reverseRecOn with
  | nil => intro _; exact ⟨rfl, fun _ _ => rfl, fun _ h => (by cases h), fun _ _ _ h => (by cases h)⟩
  | append_singleton as a ih =>
    intro hna
    obtain ⟨i1, i2, i3, i4⟩ := ih (fun t id h => hna t id (List.mem_append_left _ h))
    rw [registry_snoc]
    cases a with
    | assign t id => exact absurd (by simp) (hna t id)
    | create =>
      have e : regs (as ++ [.create]) = regs as := by simp [regs, List.countP_append]
      rw [e]
      refine ⟨i1, ?_, ?_, ?_⟩
      · intro t ht; exact i2 t (fun h => ht (by simp [h]))
      · intro t ht; exact i3 t (by simpa using ht)
      · intro t u hne ht hu; exact i4 t u hne (by simpa using ht) (by simpa using hu)
    | register v =>
      have e : regs (as ++ [.register v]) = regs as + 1 := by simp [regs, List.countP_append]
      rw [e]
      have hg : ∀ t, ((registry as).step (.register v)).gcId t = if t = v then ((regs as : Nat) : Int) else (registry as).gcId t := by
        intro t
        show upd (registry as).gcId v ((registry as).total : Int) t = _
        rw [i1]
        rfl
      refine ⟨by show (registry as).total + 1 = _; rw [i1], ?_, ?_, ?_⟩
      · intro t ht
        have hne : t ≠ v := fun e => ht (by simp [e])
        rw [hg, if_neg hne]
        exact i2 t (fun h => ht (by simp [h]))
      · intro t ht
        rw [hg]
        by_cases hv : t = v
        · rw [if_pos hv]; omega
        · rw [if_neg hv]
          have hm : RegAct.register t ∈ as := by
            rcases List.mem_append.1 ht with h | h
            · exact h
            · simp only [List.mem_singleton, RegAct.register.injEq] at h; exact absurd h hv
          have := i3 t hm
          omega
      · intro t u hne ht hu
        rw [hg, hg]
        have hm : ∀ w, w ≠ v → RegAct.register w ∈ as ++ [.register v] → RegAct.register w ∈ as := by
          intro w hw h
          rcases List.mem_append.1 h with h | h
          · exact h
          · simp only [List.mem_singleton, RegAct.register.injEq] at h; exact absurd h hw
        by_cases hv : t = v
        · have huv : u ≠ v := fun e => hne (hv.trans e.symm)
          rw [if_pos hv, if_neg huv]
          have := i3 u (hm u huv hu)
          omega
        · rw [if_neg hv]
          by_cases huv : u = v
          · rw [if_pos huv]
            have := i3 t (hm t hv ht)
            omega
          · rw [if_neg huv]
            exact i4 t u hne (hm t hv ht) (hm u huv hu)

/-- **C48 (ids).** Threads that called RegisterThread have different ids, whatever the order of the calls and however often each thread
calls it; a thread that did not has the id -1. -/
theorem C48_ids (as : List RegAct) (h : NoAssign as) :
    (∀ t, 0 ≤ (registry as).gcId t ↔ RegAct.register t ∈ as) ∧
    (∀ t u, t ≠ u → RegAct.register t ∈ as → RegAct.register u ∈ as → (registry as).gcId t ≠ (registry as).gcId u) := by
  obtain ⟨_, i2, i3, i4⟩ := registry_spec as h
  refine ⟨fun t => ⟨fun h0 => ?_, fun ht => (i3 t ht).1⟩, i4⟩
  refine Decidable.byContradiction (fun hn => ?_)
  rw [i2 t hn] at h0
  omega

theorem later_id (post : List RegAct) : ∀ (r : Registry), NoAssign post →
    (∀ t, RegAct.register t ∉ post → (post.foldl Registry.step r).gcId t = r.gcId t) ∧
    (∀ t, RegAct.register t ∈ post → (r.total : Int) ≤ (post.foldl Registry.step r).gcId t) := by
  induction post with
  | nil => intro r _; exact ⟨fun _ _ => rfl, fun _ h => (by cases h)⟩
  | cons a post ih =>
    intro r hna
    obtain ⟨j1, j2⟩ := ih (r.step a) (fun t id h => hna t id (List.mem_cons_of_mem _ h))
    simp only [List.foldl_cons]
    cases a with
    | assign t id => exact absurd (by simp) (hna t id)
    | create =>
      refine ⟨fun t ht => ?_, fun t ht => ?_⟩
      · rw [j1 t (fun h => ht (List.mem_cons_of_mem _ h))]; rfl
      · exact j2 t (by simpa using ht)
    | register v =>
      have hg : ∀ t, (r.step (.register v)).gcId t = if t = v then (r.total : Int) else r.gcId t := fun _ => rfl
      refine ⟨fun t ht => ?_, fun t ht => ?_⟩
      · rw [j1 t (fun h => ht (List.mem_cons_of_mem _ h)), hg, if_neg (fun e => ht (by simp [e]))]
      · by_cases hp : RegAct.register t ∈ post
        · have := j2 t hp
          have e : (r.step (.register v)).total = r.total + 1 := rfl
          rw [e] at this
          omega
        · have htv : t = v := by
            rcases List.mem_cons.1 ht with h | h
            · simpa using h
            · exact absurd h hp
          rw [j1 t hp, hg, if_pos htv]
          omega

/-- **C48 (which threads may use a tree).** A tree is created after the actions `pre`; `post` happen afterwards. The tree has metadata for a
thread exactly if the thread registered before the tree was created and has not registered again since. -/
theorem C48_usable (pre post : List RegAct) (h : NoAssign (pre ++ .create :: post)) (original : BitVec 64) (t : Nat) :
    ((registry (pre ++ [.create])).trees.head? = some (regs pre)) ∧
    ((TL.getGCMetaData original (regs pre) ((registry (pre ++ .create :: post)).gcId t)).isSome ↔
      RegAct.register t ∈ pre ∧ RegAct.register t ∉ post) := by
  have hpre : NoAssign pre := fun t id hm => h t id (List.mem_append_left _ hm)
  have hpost : NoAssign post := fun t id hm => h t id (List.mem_append_right _ (List.mem_cons_of_mem _ hm))
  obtain ⟨i1, i2, i3, _⟩ := registry_spec pre hpre
  have e : registry (pre ++ .create :: post) = post.foldl Registry.step ((registry pre).step .create) := by
    simp [registry, List.foldl_append]
  obtain ⟨j1, j2⟩ := later_id post ((registry pre).step .create) hpost
  refine ⟨?_, ?_⟩
  · rw [registry_snoc]
    show some (registry pre).total = _
    rw [i1]
  · rw [e]
    have hsome : ∀ id : Int, (TL.getGCMetaData original (regs pre) id).isSome ↔ 0 ≤ id ∧ id < regs pre := by
      intro id
      unfold TL.getGCMetaData
      split
      · simp; assumption
      · simp; omega
    rw [hsome]
    by_cases hp : RegAct.register t ∈ post
    · have := j2 t hp
      have e : ((registry pre).step .create).total = regs pre := i1
      rw [e] at this
      constructor
      · intro hh; omega
      · intro hh; exact absurd hp hh.2
    · rw [j1 t hp]
      show (0 ≤ (registry pre).gcId t ∧ (registry pre).gcId t < regs pre) ↔ _
      by_cases hr : RegAct.register t ∈ pre
      · exact ⟨fun _ => ⟨hr, hp⟩, fun _ => i3 t hr⟩
      · rw [i2 t hr]
        constructor
        · intro hh; omega
        · intro hh; exact absurd hh.1 hr

/-- Nonvacuity: threads 3 and 5 register, a tree is created, thread 7 registers. -/
example : (registry [.register 3, .register 5, .create, .register 7]).trees = [2] ∧
    (registry [.register 3, .register 5, .create, .register 7]).gcId 3 = 0 ∧
    (registry [.register 3, .register 5, .create, .register 7]).gcId 5 = 1 ∧
    (registry [.register 3, .register 5, .create, .register 7]).gcId 7 = 2 ∧
    (registry [.register 3, .register 5, .create, .register 7]).gcId 4 = -1 := by decide

end Rec
end GC
end BwTree
