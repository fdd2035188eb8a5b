import Verif.Model.NodeId

/-! ### C23 – node IDs are unique -/

namespace BwTree
namespace NodeId

/-- `[n, n-1, …, 1]` -/
def downTo : Nat → List Nat
  | 0 => []
  | n + 1 => (n + 1) :: downTo n

theorem mem_downTo {n x : Nat} : x ∈ downTo n ↔ 1 ≤ x ∧ x ≤ n := by
  induction n with
  | zero => simp [downTo]; omega
  | succ n ih => simp [downTo, ih]; omega

theorem nodup_downTo (n : Nat) : (downTo n).Nodup := by
  induction n with
  | zero => simp [downTo]
  | succ n ih =>
    simp only [downTo, List.nodup_cons]
    exact ⟨fun h => by have := (mem_downTo.mp h).2; omega, ih⟩

structure Inv (s : State) : Prop where
  top : s.stk.top = ⟨some 0, 0⟩
  cons : ∀ t, s.stk.cons t = .idle ∨ s.stk.cons t = .loaded ⟨some 0, 0⟩
  pos : 1 ≤ s.next
  out : s.out.map Prod.snd = downTo (s.next - 1)

theorem inv_step {s s' : State} {a : Act} (h : Inv s) (hs : step s a = some s') : Inv s' := by
  obtain ⟨h1, h2, h3, h4⟩ := h
  cases a with
  | popLoad t =>
    simp only [step, popStep] at hs
    split at hs
    · cases hs
    · rcases h2 t with hc | hc
      · simp only [AStack.step, hc] at hs
        obtain rfl := Option.some.inj hs
        refine ⟨h1, ?_, h3, h4⟩
        intro u
        simp only [AStack.setCons]
        split
        · right; rw [h1]
        · exact h2 u
      · simp [AStack.step, hc] at hs
  | popRead t =>
    simp only [step, popStep] at hs
    split at hs
    · cases hs
    · rcases h2 t with hc | hc
      · simp [AStack.step, hc] at hs
      · simp only [AStack.step, hc] at hs
        obtain rfl := Option.some.inj hs
        refine ⟨h1, ?_, h3, h4⟩
        intro u
        simp only [AStack.setCons]
        split
        · left; rfl
        · exact h2 u
  | popCas t =>
    simp only [step, popStep] at hs
    split at hs
    · cases hs
    · rcases h2 t with hc | hc <;> simp [AStack.step, hc] at hs
  | fetchAdd t =>
    simp only [step] at hs
    split at hs
    · obtain rfl := Option.some.inj hs
      refine ⟨h1, h2, by simp only; omega, ?_⟩
      simp only [List.map_cons, h4]
      have : s.next + 1 - 1 = (s.next - 1) + 1 := by omega
      rw [this, downTo]
      have : s.next - 1 + 1 = s.next := by omega
      rw [this]
    · cases hs

theorem inv_run : ∀ {as : List Act} {s s' : State}, Inv s → run s as = some s' → Inv s'
  | [], s, s', h, hr => by simp [run] at hr; subst hr; exact h
  | a :: as, s, s', h, hr => by
    simp only [run] at hr
    cases hs : step s a with
    | none => simp [hs] at hr
    | some s1 =>
      simp only [hs, Option.bind_some] at hr
      exact inv_run (inv_step h hs) hr

theorem inv_init : Inv init := ⟨rfl, fun _ => Or.inl rfl, Nat.le_refl _, rfl⟩

/-- **C23.** For every interleaving of any number of threads: the IDs handed out are pairwise different, none is the invalid ID,
and they are exactly `1, 2, 3, …` in the order of the allocations. -/
theorem C23_unique (as : List Act) {s : State} (hr : run init as = some s) :
    (s.out.map Prod.snd).Nodup ∧ INVALID ∉ s.out.map Prod.snd ∧
      s.out.map Prod.snd = downTo s.out.length := by
  have hi := inv_run inv_init hr
  have hlen : s.out.length = s.next - 1 := by
    have := congrArg List.length hi.out
    rw [List.length_map] at this
    rw [this]
    clear this
    generalize s.next - 1 = k
    induction k with
    | zero => rfl
    | succ k ih => simp [downTo, ih]
  rw [hi.out, hlen]
  refine ⟨nodup_downTo _, ?_, rfl⟩
  intro h
  have := (mem_downTo.mp h).1
  simp [INVALID] at this

/-- The constructor's assumption (InitNodeLayout 3004): the first two IDs are 1 (root) and 2 (FIRST_LEAF_NODE_ID). -/
theorem C23_first_ids (as : List Act) {s : State} (hr : run init as = some s) (hlen : s.out.length = 2) :
    s.out.map Prod.snd = [2, 1] := by
  rw [(C23_unique as hr).2.2, hlen]; rfl

/-- As long as fewer than 2^20 IDs have been handed out, every ID is inside the mapping table, and installing a
node there changes no other entry. -/
theorem C23_in_table_partial (as : List Act) {s : State} (hr : run init as = some s) (hlen : s.out.length < TABLE_SIZE)
    (t id : Nat) (hid : (t, id) ∈ s.out) {N : Type} (table : Nat → N) (node : N) :
    ∃ table', installNewNode table id node = some table' ∧ table' id = node ∧ ∀ i, i ≠ id → table' i = table i := by
  have h1 : id ∈ s.out.map Prod.snd := List.mem_map_of_mem (f := Prod.snd) hid
  rw [(C23_unique as hr).2.2, mem_downTo] at h1
  have : id < TABLE_SIZE := by omega
  exact ⟨_, if_pos this, if_pos rfl, fun i hi => if_neg hi⟩

/-- One allocation by thread 0. -/
def once : List Act := [.popLoad 0, .popRead 0, .fetchAdd 0]

def times : Nat → List Act
  | 0 => []
  | n + 1 => once ++ times n

theorem run_append (as bs : List Act) (s : State) : run s (as ++ bs) = (run s as).bind (fun s' => run s' bs) := by
  induction as generalizing s with
  | nil => rfl
  | cons a as ih =>
    simp only [List.cons_append, run]
    cases step s a with
    | none => rfl
    | some s' => simp [ih]

theorem run_times : ∀ (k : Nat) (s : State), s.stk.top = ⟨some 0, 0⟩ → s.stk.cons 0 = .idle → s.needAdd 0 = false →
    ∃ s', run s (times k) = some s' ∧ s'.next = s.next + k ∧ (0 < k → (0, s.next + k - 1) ∈ s'.out)
  | 0, s, _, _, _ => ⟨s, rfl, rfl, fun h => absurd h (by omega)⟩
  | k + 1, s, h1, h2, h3 => by
    obtain ⟨s1, r1, e1, e2, e3, e4, e5⟩ : ∃ s1, run s once = some s1 ∧ s1.stk.top = ⟨some 0, 0⟩ ∧ s1.stk.cons 0 = .idle ∧
        s1.needAdd 0 = false ∧ s1.next = s.next + 1 ∧ (0, s.next) ∈ s1.out := by
      simp [once, run, step, popStep, h1, h2, h3, AStack.step, AStack.setCons]
    have mono : ∀ (as : List Act) (s s' : State), run s as = some s' → ∀ x ∈ s.out, x ∈ s'.out := by
      intro as
      induction as with
      | nil => intro s s' hr x hx; simp [run] at hr; subst hr; exact hx
      | cons a as ih =>
        intro s s' hr x hx
        simp only [run] at hr
        cases hs : step s a with
        | none => simp [hs] at hr
        | some s1 =>
          simp only [hs, Option.bind_some] at hr
          refine ih s1 s' hr x ?_
          cases a <;> simp only [step, popStep] at hs <;> (split at hs <;> try cases hs) <;>
            first
            | (simp only [List.mem_cons]; exact Or.inr hx)
            | (split at hs <;> first | cases hs | skip) <;>
              first
              | (obtain rfl := Option.some.inj hs; simp [hx])
              | exact hx
              | (simp only [List.mem_cons]; exact Or.inr hx)
    obtain ⟨s', r2, e6, e7⟩ := run_times k s1 e1 e2 e3
    refine ⟨s', ?_, by omega, ?_⟩
    · simp [times, run_append, r1, r2]
    · intro _
      by_cases hk : 0 < k
      · have := e7 hk
        rw [e4] at this
        have e : s.next + 1 + k - 1 = s.next + (k + 1) - 1 := by omega
        rw [← e]; exact this
      · have hk0 : k = 0 := by omega
        subst hk0
        exact mono _ s1 s' r2 _ e5

/-- **C23 fails at the boundary.** The 2^20-th allocation returns an ID outside the mapping table, the allocator does not stop the
program, and `InstallNewNode` writes outside the array. -/
theorem C23_table_overflow : ∃ as s, run init as = some s ∧ s.out.length = TABLE_SIZE ∧
    ∃ t id, (t, id) ∈ s.out ∧ ∀ {N : Type} (table : Nat → N) (node : N), installNewNode table id node = none := by
  obtain ⟨s, h1, h2, h3⟩ := run_times TABLE_SIZE init rfl rfl rfl
  refine ⟨_, s, h1, ?_, 0, TABLE_SIZE, ?_, ?_⟩
  · have := (inv_run inv_init h1).out
    have hl := congrArg List.length this
    rw [List.length_map] at hl
    rw [hl, h2]
    show (downTo (1 + TABLE_SIZE - 1)).length = TABLE_SIZE
    have e : 1 + TABLE_SIZE - 1 = TABLE_SIZE := by omega
    rw [e]
    generalize TABLE_SIZE = k
    induction k with
    | zero => rfl
    | succ k ih => simp [downTo, ih]
  · have := h3 (by decide)
    have e : init.next + TABLE_SIZE - 1 = TABLE_SIZE := by show 1 + TABLE_SIZE - 1 = TABLE_SIZE; omega
    rwa [e] at this
  · intro N table node
    simp [installNewNode]

/-- Non-vacuity: two threads interleaved. -/
example : (run init [.popLoad 0, .popLoad 1, .popRead 1, .popRead 0, .fetchAdd 1, .fetchAdd 0]).map (·.out) =
    some [(0, 2), (1, 1)] := by decide

end NodeId
end BwTree
