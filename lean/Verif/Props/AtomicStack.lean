import Verif.Model.AtomicStack

/-! ### C22 – the free-ID stack hands out each item once -/

namespace BwTree
namespace AStack

variable {T : Type}

/-- Specification: what the events do to an abstract stack (top first). A failed pop may happen at any time here;
`C22_fail_only_if` says when the code fails. -/
def specStep : List T → Event T → List T → Prop
  | st, .pushed items, st' => st' = items.reverse ++ st
  | st, .popped _ v, st' => st = v :: st'
  | st, .failed _, st' => st' = st

inductive SpecRun : List T → List (Event T) → List T → Prop where
  | nil (st : List T) : SpecRun st [] st
  | cons {st st' st'' : List T} {e es} : specStep st e st' → SpecRun st' es st'' → SpecRun st (e :: es) st''

/-- Elements `data[0..n)`, top first. -/
def contents (data : Nat → T) : Nat → List T
  | 0 => []
  | n + 1 => data n :: contents data n

/-- Logical top of the stack: the pointer, or what the producer took from it. -/
def logical (s : State T) : Option (Nat × Nat) :=
  match s.prod with
  | .idle => s.top.ptr.map (fun n => (n, s.top.ver))
  | .writing ⟨some m, ver⟩ todo all _ => some (m + todo.length - all.length, ver)
  | .writing ⟨none, _⟩ _ _ _ => none

theorem contents_congr {d d' : Nat → T} : ∀ {n : Nat}, (∀ i, i < n → d i = d' i) → contents d n = contents d' n
  | 0, _ => rfl
  | n + 1, h => by
    simp only [contents]
    rw [h n (by omega), contents_congr (fun i hi => h i (by omega))]

/-- Invariant: `n` elements with version `ver` are logically on the stack. -/
structure Inv (s : State T) (n ver : Nat) (st : List T) : Prop where
  cont : contents s.data n = st
  prod : (s.prod = .idle ∧ s.top = ⟨some n, ver⟩) ∨
    (∃ todo all b done, s.prod = .writing ⟨some (n + done.length), ver⟩ todo all b ∧ all = done ++ todo ∧
      s.top = ⟨none, 0⟩ ∧ contents s.data (n + done.length) = done.reverse ++ st)
  loaded : ∀ c snap, s.cons c = .loaded snap → ∀ m, snap.ptr = some m → snap.ver ≤ ver ∧ (snap.ver = ver → m = n)
  read : ∀ c snap v, s.cons c = .read snap v → ∃ m, snap.ptr = some (m + 1) ∧ snap.ver ≤ ver ∧
    (snap.ver = ver → m + 1 = n ∧ v = s.data m)

theorem inv_init (d : T) : Inv (init d) 0 0 ([] : List T) :=
  ⟨rfl, Or.inl ⟨rfl, rfl⟩, by intro c snap h; simp [init] at h, by intro c snap v h; simp [init] at h⟩

theorem setCons_cons (s : State T) (c : Nat) (x : Cons T) (i : Nat) :
    (setCons s c x).cons i = if i = c then x else s.cons i := rfl

theorem inv_step {size : Nat} {s s' : State T} {n ver : Nat} {st : List T} {a : Act T} {e : Option (Event T)}
    (h : Inv s n ver st) (hs : step size s a = some (s', e)) :
    ∃ n' ver' st', Inv s' n' ver' st' ∧
      (match e with | none => st' = st | some ev => specStep st ev st') := by
  obtain ⟨h1, h2, h3, h4⟩ := h
  cases a with
  | bufferPush x =>
    simp only [step] at hs
    split at hs
    rotate_left
    · cases hs
    injection hs with hs; injection hs with hs he; subst hs he
    exact ⟨n, ver, st, ⟨h1, h2, h3, h4⟩, rfl⟩
  | pushBegin x =>
    simp only [step] at hs
    split at hs
    rotate_left
    · cases hs
    rename_i hidle
    injection hs with hs; injection hs with hs he; subst hs he
    rcases h2 with ⟨_, ht⟩ | ⟨todo, all, b, done, hp, _⟩
    · exact ⟨n, ver, st, ⟨h1, Or.inr ⟨[x], [x], false, [], by simp [ht], rfl, rfl, by simp [h1]⟩, h3, h4⟩, rfl⟩
    · rw [hp] at hidle; cases hidle
  | commitBegin =>
    simp only [step] at hs
    split at hs
    rotate_left
    · cases hs
    rename_i hidle
    injection hs with hs; injection hs with hs he; subst hs he
    rcases h2 with ⟨_, ht⟩ | ⟨todo, all, b, done, hp, _⟩
    · exact ⟨n, ver, st, ⟨h1, Or.inr ⟨s.buffer, s.buffer, true, [], by simp [ht], rfl, rfl, by simp [h1]⟩, h3, h4⟩, rfl⟩
    · rw [hp] at hidle; cases hidle
  | write =>
    simp only [step] at hs
    split at hs
    rotate_left
    · cases hs
    rename_i m v x rest all b hp
    injection hs with hs; injection hs with hs he; subst hs he
    rcases h2 with ⟨hi, _⟩ | ⟨todo, all', b', done, hp', hall, ht, hc⟩
    · rw [hi] at hp; cases hp
    · rw [hp'] at hp
      injection hp with hp1 hp2 hp3 hp4
      injection hp1 with hp1 hpv
      injection hp1 with hp1
      subst hp1 hpv hp2 hp3 hp4
      refine ⟨n, ver, st, ⟨?_, Or.inr ⟨rest, all', b', done ++ [x], ?_, ?_, ht, ?_⟩, h3, ?_⟩, rfl⟩
      · rw [← h1]; apply contents_congr; intro i hi
        simp only; rw [if_neg (by omega)]
      · simp [Nat.add_assoc]
      · simp [hall]
      · simp only [List.length_append, List.length_singleton, List.reverse_append, List.reverse_singleton]
        rw [show n + (done.length + 1) = (n + done.length) + 1 by omega]
        simp only [contents, if_true]
        rw [show [x] ++ done.reverse ++ st = x :: (done.reverse ++ st) by simp, ← hc]
        congr 1
        apply contents_congr; intro i hi
        rw [if_neg (by omega)]
      · intro c snap v hc'
        obtain ⟨m, e1, e2, e3⟩ := h4 c snap v hc'
        refine ⟨m, e1, e2, fun hv => ⟨(e3 hv).1, ?_⟩⟩
        have := (e3 hv).1
        simp only; rw [if_neg (by omega)]; exact (e3 hv).2
  | store =>
    simp only [step] at hs
    split at hs
    rotate_left
    · cases hs
    rename_i snap all b hp
    injection hs with hs; injection hs with hs he; subst hs he
    rcases h2 with ⟨hi, _⟩ | ⟨todo, all', b', done, hp', hall, ht, hc⟩
    · rw [hi] at hp; cases hp
    · rw [hp'] at hp
      injection hp with hp1 hp2 hp3 hp4
      subst hp1 hp2 hp3 hp4
      simp only [List.append_nil] at hall
      subst hall
      refine ⟨n + all'.length, ver + 1, all'.reverse ++ st, ⟨hc, Or.inl ⟨rfl, rfl⟩, ?_, ?_⟩, rfl⟩
      · intro c snap hc' m hm
        have := h3 c snap hc' m hm
        exact ⟨by omega, fun hv => by omega⟩
      · intro c snap v hc'
        obtain ⟨m, e1, e2, e3⟩ := h4 c snap v hc'
        exact ⟨m, e1, by omega, fun hv => by omega⟩
  | popLoad c =>
    simp only [step] at hs
    split at hs
    rotate_left
    · cases hs
    injection hs with hs; injection hs with hs he; subst hs he
    refine ⟨n, ver, st, ⟨h1, h2, ?_, ?_⟩, rfl⟩
    · intro c' snap hc' m hm
      rw [setCons_cons] at hc'
      split at hc'
      · injection hc' with hc'; subst hc'
        rcases h2 with ⟨_, ht⟩ | ⟨_, _, _, _, _, _, ht, _⟩
        · rw [ht] at hm ⊢; injection hm with hm; exact ⟨Nat.le_refl _, fun _ => hm.symm⟩
        · rw [ht] at hm; cases hm
      · exact h3 c' snap hc' m hm
    · intro c' snap v hc'
      rw [setCons_cons] at hc'
      split at hc'
      · cases hc'
      · exact h4 c' snap v hc'
  | popRead c =>
    simp only [step] at hs
    split at hs
    · injection hs with hs; injection hs with hs he; subst hs he
      refine ⟨n, ver, st, ⟨h1, h2, ?_, ?_⟩, rfl⟩
      · intro c' snap hc' m hm
        rw [setCons_cons] at hc'
        split at hc'
        · cases hc'
        · exact h3 c' snap hc' m hm
      · intro c' snap v hc'
        rw [setCons_cons] at hc'
        split at hc'
        · cases hc'
        · exact h4 c' snap v hc'
    · injection hs with hs; injection hs with hs he; subst hs he
      refine ⟨n, ver, st, ⟨h1, h2, ?_, ?_⟩, rfl⟩
      · intro c' snap hc' m hm
        rw [setCons_cons] at hc'
        split at hc'
        · cases hc'
        · exact h3 c' snap hc' m hm
      · intro c' snap v hc'
        rw [setCons_cons] at hc'
        split at hc'
        · cases hc'
        · exact h4 c' snap v hc'
    · rename_i m v hl
      injection hs with hs; injection hs with hs he; subst hs he
      have hm := h3 c _ hl (m + 1) rfl
      refine ⟨n, ver, st, ⟨h1, h2, ?_, ?_⟩, rfl⟩
      · intro c' snap hc' m hm
        rw [setCons_cons] at hc'
        split at hc'
        · cases hc'
        · exact h3 c' snap hc' m hm
      · intro c' snap w hc'
        rw [setCons_cons] at hc'
        split at hc'
        · injection hc' with hc1 hc2; subst hc1 hc2
          exact ⟨m, rfl, hm.1, fun hv => ⟨hm.2 hv, rfl⟩⟩
        · exact h4 c' snap w hc'
    · cases hs
  | popCas c =>
    simp only [step] at hs
    split at hs
    rotate_left
    · cases hs
    rename_i m v w hr
    split at hs
    · rename_i htop
      injection hs with hs; injection hs with hs he; subst hs he
      obtain ⟨m', e1, e2, e3⟩ := h4 c _ _ hr
      injection e1 with e1
      have e1' : m' = m := by omega
      subst e1'
      rcases h2 with ⟨hi, ht⟩ | ⟨_, _, _, _, _, _, ht, _⟩
      · rw [ht] at htop
        injection htop with ht1 ht2
        injection ht1 with ht1
        subst ht2
        obtain ⟨_, hv⟩ := e3 rfl
        subst ht1
        refine ⟨m', ver + 1, contents s.data m', ⟨rfl, Or.inl ⟨hi, rfl⟩, ?_, ?_⟩, ?_⟩
        · intro c' snap hc' m hm
          simp only [setCons_cons] at hc'
          split at hc'
          · cases hc'
          · have := h3 c' snap hc' m hm
            exact ⟨by omega, fun hv => by omega⟩
        · intro c' snap w' hc'
          simp only [setCons_cons] at hc'
          split at hc'
          · cases hc'
          · obtain ⟨m, e1, e2, e3⟩ := h4 c' snap w' hc'
            exact ⟨m, e1, by omega, fun hv => by omega⟩
        · show st = w :: contents s.data m'
          rw [← h1, hv]; rfl
      · rw [ht] at htop; cases htop
    · injection hs with hs; injection hs with hs he; subst hs he
      refine ⟨n, ver, st, ⟨h1, h2, ?_, ?_⟩, rfl⟩
      · intro c' snap hc' m hm
        rw [setCons_cons] at hc'
        split at hc'
        · injection hc' with hc'; subst hc'
          rcases h2 with ⟨_, ht⟩ | ⟨_, _, _, _, _, _, ht, _⟩
          · rw [ht] at hm ⊢; injection hm with hm; exact ⟨Nat.le_refl _, fun _ => hm.symm⟩
          · rw [ht] at hm; cases hm
        · exact h3 c' snap hc' m hm
      · intro c' snap v hc'
        rw [setCons_cons] at hc'
        split at hc'
        · cases hc'
        · exact h4 c' snap v hc'

theorem inv_run {size : Nat} : ∀ (as : List (Act T)) {s s' : State T} {n ver : Nat} {st : List T} {es : List (Event T)},
    Inv s n ver st → run size s as = some (s', es) →
    ∃ n' ver' st', Inv s' n' ver' st' ∧ SpecRun st es st'
  | [], s, s', n, ver, st, es, h, hr => by
    simp only [run] at hr; injection hr with hr; injection hr with h1 h2; subst h1 h2
    exact ⟨n, ver, st, h, .nil _⟩
  | a :: as, s, s', n, ver, st, es, h, hr => by
    simp only [run] at hr
    split at hr
    · cases hr
    · rename_i s1 e hstep
      split at hr
      · cases hr
      · rename_i s2 es' hrun
        injection hr with hr; injection hr with h1 h2; subst h1 h2
        obtain ⟨n1, v1, st1, hi, hsp⟩ := inv_step h hstep
        obtain ⟨n2, v2, st2, hi2, hsp2⟩ := inv_run as hi hrun
        refine ⟨n2, v2, st2, hi2, ?_⟩
        cases e with
        | none => simp only at hsp; subst hsp; exact hsp2
        | some ev => exact .cons hsp hsp2

/-- Every interleaving of one producer and any number of consumers behaves like an atomic stack: the events, each emitted by a step
inside its own call, form a legal history of a stack, and whenever no push is in progress the array below the top
pointer holds exactly the abstract stack. -/
theorem C22_linearizable (size : Nat) (d : T) (as : List (Act T)) {s : State T} {es : List (Event T)}
    (h : run size (init d) as = some (s, es)) :
    ∃ st, SpecRun [] es st ∧
      (s.prod = .idle → ∃ n ver, s.top = ⟨some n, ver⟩ ∧ contents s.data n = st) := by
  obtain ⟨n, ver, st, hi, hs⟩ := inv_run as (inv_init d) h
  refine ⟨st, hs, ?_⟩
  intro hidle
  rcases hi.prod with ⟨_, ht⟩ | ⟨_, _, _, _, hp, _⟩
  · exact ⟨n, ver, ht, hi.cont⟩
  · rw [hidle] at hp; cases hp

/-- Items pushed / popped by a history. -/
def pushedItems : List (Event T) → List T
  | [] => []
  | .pushed items :: es => items ++ pushedItems es
  | _ :: es => pushedItems es

def poppedItems : List (Event T) → List T
  | [] => []
  | .popped _ v :: es => v :: poppedItems es
  | _ :: es => poppedItems es

theorem perm_of_specRun {st st' : List T} {es : List (Event T)} (h : SpecRun st es st') :
    (st ++ pushedItems es).Perm (poppedItems es ++ st') := by
  induction h with
  | nil st => simp [pushedItems, poppedItems]
  | @cons st st' st'' e es hs _ ih =>
    cases e with
    | pushed items =>
      simp only [specStep] at hs; subst hs
      simp only [pushedItems, poppedItems]
      refine List.Perm.trans ?_ ih
      rw [← List.append_assoc]
      apply List.Perm.append_right
      exact (List.perm_append_comm).trans ((List.reverse_perm items).symm.append_right _)
    | popped c v =>
      simp only [specStep] at hs; subst hs
      simp only [pushedItems, poppedItems, List.cons_append]
      exact List.Perm.cons v ih
    | failed c => simp only [specStep] at hs; subst hs; exact ih

/-- Nothing is lost, duplicated or invented: what was pushed is, with multiplicity, what was popped plus what is on the stack. -/
theorem C22_conservation (size : Nat) (d : T) (as : List (Act T)) {s : State T} {es : List (Event T)}
    (h : run size (init d) as = some (s, es)) (hidle : s.prod = .idle) :
    ∃ n ver, s.top = ⟨some n, ver⟩ ∧ (pushedItems es).Perm (poppedItems es ++ contents s.data n) := by
  obtain ⟨st, hs, ht⟩ := C22_linearizable size d as h
  obtain ⟨n, ver, h1, h2⟩ := ht hidle
  exact ⟨n, ver, h1, by rw [h2]; simpa using perm_of_specRun hs⟩

/-- A pop that reports "empty" loaded the top pointer (in a `popLoad` step or a failed CAS of the same call) when the stack was
empty or a push was in progress. -/
theorem C22_fail_only_if (size : Nat) (d : T) (as : List (Act T)) {s s' : State T} {es : List (Event T)} {a : Act T} {c : Nat}
    {e : Option (Event T)} {snap : VPtr}
    (h : run size (init d) as = some (s, es)) (hstep : step size s a = some (s', e))
    (hload : s'.cons c = .loaded snap) (hnew : s.cons c ≠ .loaded snap)
    (hfail : ∀ m, snap.ptr = some m → m = 0) :
    s.prod ≠ .idle ∨ (∃ ver, s.top = ⟨some 0, ver⟩ ∧ ∀ st, SpecRun [] es st → st = []) := by
  obtain ⟨n, ver, st, hi, hs⟩ := inv_run as (inv_init d) h
  have hsnap : snap = s.top := by
    cases a with
    | bufferPush x => simp only [step] at hstep; split at hstep <;> simp at hstep; rw [← hstep.1] at hload; exact absurd hload hnew
    | pushBegin x => simp only [step] at hstep; split at hstep <;> simp at hstep; rw [← hstep.1] at hload; exact absurd hload hnew
    | commitBegin => simp only [step] at hstep; split at hstep <;> simp at hstep; rw [← hstep.1] at hload; exact absurd hload hnew
    | write => simp only [step] at hstep; split at hstep <;> simp at hstep; rw [← hstep.1] at hload; exact absurd hload hnew
    | store => simp only [step] at hstep; split at hstep <;> simp at hstep; rw [← hstep.1] at hload; exact absurd hload hnew
    | popLoad c' =>
      simp only [step] at hstep; split at hstep <;> simp at hstep; rw [← hstep.1, setCons_cons] at hload
      split at hload
      · injection hload with hload; exact hload.symm
      · exact absurd hload hnew
    | popRead c' =>
      simp only [step] at hstep
      split at hstep <;> simp at hstep <;> rw [← hstep.1, setCons_cons] at hload <;> split at hload <;>
        first | cases hload | exact absurd hload hnew
    | popCas c' =>
      simp only [step] at hstep
      split at hstep
      rotate_left
      · cases hstep
      split at hstep
      · simp at hstep; rw [← hstep.1] at hload
        simp only [setCons_cons] at hload
        split at hload
        · cases hload
        · exact absurd hload hnew
      · simp at hstep; rw [← hstep.1, setCons_cons] at hload
        split at hload
        · injection hload with hload; exact hload.symm
        · exact absurd hload hnew
  subst hsnap
  rcases hi.prod with ⟨_, ht⟩ | ⟨_, _, _, _, hp, _⟩
  · right
    have hn := hfail n (by rw [ht])
    subst hn
    refine ⟨ver, ht, ?_⟩
    intro st' hst'
    -- the abstract stack is determined by the history
    have hdet : ∀ {a b c : List T} {es : List (Event T)}, SpecRun a es b → SpecRun a es c → b = c := by
      intro a b c es h1
      induction h1 generalizing c with
      | nil st => intro h2; cases h2; rfl
      | @cons st st1 st2 e es hs1 _ ih =>
        intro h2
        cases h2 with
        | @cons _ st1' _ _ _ hs1' h2' =>
          have : st1 = st1' := by
            cases e with
            | pushed items => simp only [specStep] at hs1 hs1'; rw [hs1, hs1']
            | popped c v => simp only [specStep] at hs1 hs1'; rw [hs1] at hs1'; injection hs1'
            | failed c => simp only [specStep] at hs1 hs1'; rw [hs1, hs1']
          subst this
          exact ih h2'
    rw [hdet hst' hs, ← hi.cont]; rfl
  · left; rw [hp]; simp

/-- Capacity contract of the caller: when a push starts, the items fit above the current top. -/
def Fits (size : Nat) (s : State T) : Act T → Prop
  | .pushBegin _ => ∀ n, s.top.ptr = some n → n + 1 ≤ size
  | .commitBegin => ∀ n, s.top.ptr = some n → n + s.buffer.length ≤ size
  | _ => True

/-- The contract holds at every step of a run. -/
def FitsRun (size : Nat) : State T → List (Act T) → Prop
  | _, [] => True
  | s, a :: as => Fits size s a ∧ ∀ s' e, step size s a = some (s', e) → FitsRun size s' as

/-- Room for the items of the push in progress. -/
def Room (size : Nat) (s : State T) : Prop :=
  ∀ m ver todo all b, s.prod = .writing ⟨some m, ver⟩ todo all b → m + todo.length ≤ size

theorem room_step {size : Nat} {s s' : State T} {a : Act T} {e : Option (Event T)} (hf : Fits size s a)
    (hs : step size s a = some (s', e)) (hr : Room size s) (hoob : s.oob = false) :
    Room size s' ∧ s'.oob = false := by
  cases a <;> simp only [step] at hs
  case write =>
    split at hs
    rotate_left
    · cases hs
    rename_i m v x rest all b hp
    injection hs with hs; injection hs with hs he; subst hs
    have := hr _ _ _ _ _ hp
    simp only [List.length_cons] at this
    refine ⟨?_, by simp [hoob]; omega⟩
    intro m' ver' todo' all' b' h'
    injection h' with h1 h2 h3 h4
    injection h1 with h1 _; injection h1 with h1
    subst h1 h2; omega
  case pushBegin x =>
    split at hs
    rotate_left
    · cases hs
    injection hs with hs; injection hs with hs he; subst hs
    refine ⟨?_, hoob⟩
    intro m' ver' todo' all' b' h'
    injection h' with h1 h2 h3 h4
    have := hf m' (by rw [h1])
    rw [← h2]; exact this
  case commitBegin =>
    split at hs
    rotate_left
    · cases hs
    injection hs with hs; injection hs with hs he; subst hs
    refine ⟨?_, hoob⟩
    intro m' ver' todo' all' b' h'
    injection h' with h1 h2 h3 h4
    have := hf m' (by rw [h1])
    rw [← h2]; exact this
  case store =>
    split at hs
    rotate_left
    · cases hs
    injection hs with hs; injection hs with hs he; subst hs
    exact ⟨(by intro _ _ _ _ _ h; cases h), hoob⟩
  all_goals
    split at hs
    all_goals first
      | (cases hs; done)
      | (split at hs <;> (injection hs with hs; injection hs with hs he; subst hs; exact ⟨hr, hoob⟩))
      | (injection hs with hs; injection hs with hs he; subst hs; exact ⟨hr, hoob⟩)

theorem in_bounds_run {size : Nat} : ∀ (as : List (Act T)) {s s' : State T} {es : List (Event T)},
    Room size s → s.oob = false → FitsRun size s as → run size s as = some (s', es) → s'.oob = false
  | [], s, s', es, _, ho, _, hr => by
    simp only [run] at hr; injection hr with hr; injection hr with h1 h2; subst h1; exact ho
  | a :: as, s, s', es, h, ho, hf, hr => by
    simp only [run] at hr
    split at hr
    · cases hr
    · rename_i s1 e hstep
      split at hr
      · cases hr
      · rename_i s2 es' hrun
        injection hr with hr; injection hr with h1 h2; subst h1 h2
        obtain ⟨r1, r2⟩ := room_step hf.1 hstep h ho
        exact in_bounds_run as r1 r2 (hf.2 _ _ hstep) hrun

/-- No write goes past the array as long as every push fits when it starts. (The code asserts room for one item only, 213,
also for a batch.) -/
theorem C22_in_bounds (size : Nat) (d : T) (as : List (Act T)) {s : State T} {es : List (Event T)}
    (hf : FitsRun size (init d) as) (h : run size (init d) as = some (s, es)) : s.oob = false :=
  in_bounds_run as (by intro _ _ _ _ _ h; cases h) rfl hf h

/-- Without the contract a batch does overrun the array: the assert in PreparePush (213) passes, the second write does not fit. -/
theorem C22_batch_overrun : ∃ (as : List (Act Nat)) (s : State Nat) (es : List (Event Nat)),
    run 2 (init 0) as = some (s, es) ∧ s.oob = true :=
  ⟨[.bufferPush 1, .bufferPush 2, .bufferPush 3, .commitBegin, .write, .write, .write], _, _, rfl, by decide⟩

/-- A concrete interleaving: consumer 1 loads, reads, is overtaken by consumer 2 and the producer, its CAS fails although the
pointer value is the same again (ABA), and it retries. -/
def demo : List (Act Nat) :=
  [.bufferPush 10, .bufferPush 20, .commitBegin, .write, .write, .store,
   .popLoad 1, .popRead 1, .popLoad 2, .popRead 2, .popCas 2, .pushBegin 30, .write, .popLoad 3, .popRead 3, .store,
   .popCas 1, .popRead 1, .popCas 1]

example : (run 8 (init 0) demo).map (·.2) =
    some [.pushed [10, 20], .popped 2 20, .failed 3, .pushed [30], .popped 1 30] := by decide

end AStack
end BwTree
