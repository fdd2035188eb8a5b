import Verif.Model.EpochTSO
import Verif.Proofs.EpochGC

namespace BwTree
namespace GC

/-- The values in the buffer, after the one in memory, do not decrease. -/
def Up : Nat → List Store → Prop
  | _, [] => True
  | m, (_, v) :: l => m ≤ v ∧ Up v l

theorem look_append (b : Bool) (v : Nat) : ∀ (l : List Store) (m : Nat), look b m (l ++ [(b, v)]) = v
  | [], m => by simp [look]
  | (b', w) :: l, m => look_append b v l _

theorem look_other {b : Bool} : ∀ (l : List Store) (m : Nat), (∀ x ∈ l, x.1 ≠ b) → look b m l = m
  | [], _, _ => rfl
  | (b', w) :: l, m, h => by
    simp only [look]
    rw [if_neg (h (b', w) List.mem_cons_self)]
    exact look_other l m fun x hx => h x (List.mem_cons_of_mem _ hx)

theorem Up.le_look {b : Bool} : ∀ (l : List Store) (m : Nat), (∀ x ∈ l, x.1 = b) → Up m l → m ≤ look b m l
  | [], _, _, _ => Nat.le_refl _
  | (b', w) :: l, m, h, hu => by
    simp only [look]
    rw [if_pos (h (b', w) List.mem_cons_self)]
    exact Nat.le_trans hu.1 (Up.le_look l w (fun x hx => h x (List.mem_cons_of_mem _ hx)) hu.2)

theorem Up.append {b : Bool} : ∀ (l : List Store) (m v : Nat), (∀ x ∈ l, x.1 = b) → Up m l → look b m l ≤ v → Up m (l ++ [(b, v)])
  | [], _, _, _, _, hv => ⟨hv, trivial⟩
  | (b', w) :: l, m, v, h, hu, hv => by
    simp only [look] at hv
    rw [if_pos (h (b', w) List.mem_cons_self)] at hv
    exact ⟨hu.1, Up.append l w v (fun x hx => h x (List.mem_cons_of_mem _ hx)) hu.2 hv⟩

/-- What the buffers contain. -/
structure BInv (n T : Nat) (s : TState) : Prop where
  W : ∀ t, t < n → ∀ x ∈ s.buf t, x.1 = false
  E : ∀ t, ¬ t < n → ∀ x ∈ s.buf t, x.1 = true ∧ t = T
  ES : Up s.g.epoch (s.buf T)
  TK : ∀ e, s.g.tick T = some e → look true s.g.epoch (s.buf T) = e
  LS : ∀ t, t < n → Up (s.g.lae t) (s.buf t)

/-- The last value the thread stored in its `last_active_epoch`. -/
def TState.L (s : TState) (t : Nat) : Nat := look false (s.g.lae t) (s.buf t)

/-- What makes reclamation safe, in terms of these values. The threads in `Z` are unregistered. -/
structure AInv (n : Nat) (Z : Nat → Prop) (g : State) (L : Nat → Nat) : Prop where
  N : ∀ t, g.pc t ≠ .idle → t < n
  NZ : ∀ t, Z t → g.pc t = .idle
  LE : ∀ t, t < n → ¬ Z t → L t ≤ g.epoch
  J : ∀ t e, g.pc t = .joining e → L t ≤ e ∧ e ≤ g.epoch
  V : ∀ t e, g.pc t = .leaving e → L t ≤ e ∧ e ≤ g.epoch
  A : ∀ u o d, g.pc u = .adding o d → Out g o ∧ ∀ t, Running g t → g.joinT t < g.outT o → L t ≤ d
  G : ∀ u o d, (o, d) ∈ g.garb u → Out g o ∧ ∀ t, Running g t → g.joinT t < g.outT o → L t ≤ d
  F : ∀ o, o ∈ g.freed → Out g o ∧ ∀ t, Running g t → g.outT o ≤ g.joinT t
  S : ∀ u i m, g.pc u = .summing i m → ∀ t, t < i → t < n → m ≤ L t
  R : ∀ u m, g.pc u = .freeing m → ∀ t, t < n → m ≤ L t
  C1 : ∀ o, g.outT o ≤ g.clock
  C2 : ∀ t, g.joinT t ≤ g.clock

theorem Running.lt {n : Nat} {Z : Nat → Prop} {g : State} {L : Nat → Nat} (h : AInv n Z g L) {t : Nat} (hr : Running g t) : t < n := by
  refine h.N t fun e => ?_
  simp only [Running, e] at hr
  grind

theorem AInv.tick {n : Nat} {Z : Nat → Prop} {g : State} {L : Nat → Nat} (h : AInv n Z g L) : AInv n Z { g with clock := g.clock + 1 } L :=
  ⟨h.N, h.NZ, h.LE, h.J, h.V, h.A, h.G, h.F, h.S, h.R, fun o => Nat.le_succ_of_le (h.C1 o), fun t => Nat.le_succ_of_le (h.C2 t)⟩

/-- `tick` writes and flushes of the epoch. -/
theorem AInv.epoch {n : Nat} {Z : Nat → Prop} {g : State} {L : Nat → Nat} (h : AInv n Z g L) {e : Nat} (he : g.epoch ≤ e) (tk : Nat → Option Nat) :
    AInv n Z { g with epoch := e, tick := tk } L :=
  ⟨h.N, h.NZ, fun t ht hz => Nat.le_trans (h.LE t ht hz) he, fun t e' x => ⟨(h.J t e' x).1, Nat.le_trans (h.J t e' x).2 he⟩,
    fun t e' x => ⟨(h.V t e' x).1, Nat.le_trans (h.V t e' x).2 he⟩, h.A, h.G, h.F, h.S, h.R, h.C1, h.C2⟩

/-- Only the values of the workers matter. -/
theorem AInv.congr {n : Nat} {Z : Nat → Prop} {g : State} {L L' : Nat → Nat} (h : AInv n Z g L) (hL : ∀ t, t < n → L' t = L t) : AInv n Z g L' := by
  have hlt : ∀ u, Running g u → u < n := fun u => Running.lt h
  refine ⟨h.N, h.NZ, fun t ht hz => by rw [hL t ht]; exact h.LE t ht hz, fun t e x => by rw [hL t (h.N t (by rw [x]; exact fun y => by cases y))]; exact h.J t e x,
    fun t e x => by rw [hL t (h.N t (by rw [x]; exact fun y => by cases y))]; exact h.V t e x,
    fun u o d x => ⟨(h.A u o d x).1, fun t ht => by rw [hL t (hlt t ht)]; exact (h.A u o d x).2 t ht⟩,
    fun u o d x => ⟨(h.G u o d x).1, fun t ht => by rw [hL t (hlt t ht)]; exact (h.G u o d x).2 t ht⟩, h.F,
    fun u i m x t ht hn => by rw [hL t hn]; exact h.S u i m x t ht hn, fun u m x t ht => by rw [hL t ht]; exact h.R u m x t ht, h.C1, h.C2⟩

theorem AInv.of_eq {n : Nat} {Z : Nat → Prop} {g : State} {L L' : Nat → Nat} (e : L' = L) (h : AInv n Z g L) : AInv n Z g L' := e ▸ h

theorem AInv.lae {n : Nat} {Z : Nat → Prop} {g : State} {L : Nat → Nat} (h : AInv n Z g L) (f : Nat → Nat) : AInv n Z { g with lae := f } L :=
  ⟨h.N, h.NZ, h.LE, h.J, h.V, h.A, h.G, h.F, h.S, h.R, h.C1, h.C2⟩

theorem AInv.joinRead {n : Nat} {Z : Nat → Prop} {g : State} {L : Nat → Nat} (h : AInv n Z g L) {t : Nat} (ht : t < n) (hz : ¬ Z t) (hp : g.pc t = .idle) :
    AInv n Z { g with pc := upd g.pc t (.joining g.epoch) } L := by
  obtain ⟨N, NZ, LE, J, V, A, G, F, S, R, C1, C2⟩ := h
  constructor <;> simp only [Running, Out, upd] at * <;> grind

theorem AInv.joinStore {n : Nat} {Z : Nat → Prop} {g : State} {L : Nat → Nat} (h : AInv n Z g L) {t e : Nat} (hp : g.pc t = .joining e) :
    AInv n Z { g with pc := upd g.pc t .active, joinT := upd g.joinT t g.clock } (upd L t e) := by
  obtain ⟨N, NZ, LE, J, V, A, G, F, S, R, C1, C2⟩ := h
  constructor <;> simp only [Running, Out, upd] at * <;> grind

theorem AInv.addRead {n : Nat} {Z : Nat → Prop} {g : State} {L : Nat → Nat} (h : AInv n Z g L) {t o : Nat} (hp : g.pc t = .active) (ho : g.st o = .owned t) :
    AInv n Z { g with pc := upd g.pc t (.adding o g.epoch) } L := by
  have hlt : ∀ u, Running g u → u < n := fun u => Running.lt h
  obtain ⟨N, NZ, LE, J, V, A, G, F, S, R, C1, C2⟩ := h
  constructor <;> simp only [Running, Out, upd] at * <;> grind

theorem AInv.leaveRead {n : Nat} {Z : Nat → Prop} {g : State} {L : Nat → Nat} (h : AInv n Z g L) {t : Nat} (hp : g.pc t = .active) :
    AInv n Z { g with pc := upd g.pc t (.leaving g.epoch) } L := by
  obtain ⟨N, NZ, LE, J, V, A, G, F, S, R, C1, C2⟩ := h
  constructor <;> simp only [Running, Out, upd] at * <;> grind

theorem AInv.leaveStore {n : Nat} {Z : Nat → Prop} {g : State} {L : Nat → Nat} (h : AInv n Z g L) {t e : Nat} (hp : g.pc t = .leaving e) :
    AInv n Z { g with pc := upd g.pc t .idle } (upd L t e) := by
  obtain ⟨N, NZ, LE, J, V, A, G, F, S, R, C1, C2⟩ := h
  constructor <;> simp only [Running, Out, upd] at * <;> grind

theorem AInv.gcRead {n : Nat} {Z : Nat → Prop} {g : State} {L : Nat → Nat} (h : AInv n Z g L) {t i m m' : Nat} (hp : g.pc t = .summing i m)
    (hm : m' ≤ L i) (hm' : i ≠ 0 → m' ≤ m) :
    AInv n Z { g with pc := upd g.pc t (if i + 1 < n then .summing (i + 1) m' else .freeing m') } L := by
  have hS : ∀ u, u < i + 1 → u < n → m' ≤ L u := by
    intro u hu hn
    by_cases e : u = i
    · subst e; exact hm
    · exact Nat.le_trans (hm' (by omega)) (h.S t i m hp u (by omega) hn)
  obtain ⟨N, NZ, LE, J, V, A, G, F, S, R, C1, C2⟩ := h
  constructor <;> simp only [Running, Out, upd] at * <;> grind

theorem AInv.link {n : Nat} {Z : Nat → Prop} {g g' : State} {L : Nat → Nat} (h : AInv n Z g L) {t o : Nat} (hs : step' n g (.link t o) = some g') : AInv n Z g' L := by
  simp only [step'] at hs
  split at hs
  · cases hs
    obtain ⟨N, NZ, LE, J, V, A, G, F, S, R, C1, C2⟩ := h
    constructor <;> simp only [Running, Out, upd] at * <;> grind
  · cases hs

theorem AInv.make {n : Nat} {Z : Nat → Prop} {g g' : State} {L : Nat → Nat} (h : AInv n Z g L) {t o : Nat} (hs : step' n g (.make t o) = some g') : AInv n Z g' L := by
  simp only [step'] at hs
  split at hs
  · cases hs
    obtain ⟨N, NZ, LE, J, V, A, G, F, S, R, C1, C2⟩ := h
    constructor <;> simp only [Running, Out, upd] at * <;> grind
  · cases hs

theorem AInv.unlink {n : Nat} {Z : Nat → Prop} {g g' : State} {L : Nat → Nat} (h : AInv n Z g L) {t o : Nat} (hs : step' n g (.unlink t o) = some g') : AInv n Z g' L := by
  simp only [step'] at hs
  split at hs
  · cases hs
    obtain ⟨N, NZ, LE, J, V, A, G, F, S, R, C1, C2⟩ := h
    constructor <;> simp only [Running, Out, upd] at * <;> grind
  · cases hs

theorem AInv.addLink {n : Nat} {Z : Nat → Prop} {g g' : State} {L : Nat → Nat} (h : AInv n Z g L) {t : Nat} (hs : step' n g (.addLink t) = some g') : AInv n Z g' L := by
  simp only [step'] at hs
  split at hs
  · cases hs
    obtain ⟨N, NZ, LE, J, V, A, G, F, S, R, C1, C2⟩ := h
    constructor <;> simp only [Running, Out, upd] at * <;> grind
  · cases hs

theorem AInv.gcFree {n : Nat} {Z : Nat → Prop} {g g' : State} {L : Nat → Nat} (h : AInv n Z g L) {t : Nat} (hs : step' n g (.gcFree t) = some g') : AInv n Z g' L := by
  have hlt : ∀ u, Running g u → u < n := fun u => Running.lt h
  simp only [step'] at hs
  split at hs
  · next m hp =>
    split at hs
    · cases hs
      obtain ⟨N, NZ, LE, J, V, A, G, F, S, R, C1, C2⟩ := h
      constructor <;> simp only [Running, Out, upd] at * <;> grind
    · next o d rest hg =>
      split at hs
      · next hd =>
        cases hs
        have hsafe : ∀ u, Running g u → g.outT o ≤ g.joinT u := by
          intro u hu
          refine Decidable.byContradiction fun hlt' => ?_
          have h1 := (h.G t o d (by rw [hg]; exact List.mem_cons_self)).2 u hu (by omega)
          have h2 := h.R t m hp u (hlt u hu)
          omega
        have hout := (h.G t o d (by rw [hg]; exact List.mem_cons_self)).1
        obtain ⟨N, NZ, LE, J, V, A, G, F, S, R, C1, C2⟩ := h
        constructor <;> simp only [Running, Out, upd] at * <;> grind
      · cases hs
        obtain ⟨N, NZ, LE, J, V, A, G, F, S, R, C1, C2⟩ := h
        constructor <;> simp only [Running, Out, upd] at * <;> grind
  · cases hs

/-- Pushing a store of a worker. -/
theorem BInv.push {n T : Nat} (hT : n ≤ T) {s : TState} (h : BInv n T s) {t e : Nat} (ht : t < n) (he : s.L t ≤ e) {g : State} (h1 : g.epoch = s.g.epoch)
    (h2 : g.tick = s.g.tick) (h3 : g.lae = s.g.lae) : BInv n T { g := g, buf := upd s.buf t (s.buf t ++ [(false, e)]) } := by
  have hne : T ≠ t := by omega
  refine ⟨fun u hu x hx => ?_, fun u hu x hx => ?_, ?_, fun e' he' => ?_, fun u hu => ?_⟩
  · simp only [upd] at hx
    split at hx
    · next eu =>
      rw [List.mem_append, List.mem_singleton] at hx
      rcases hx with hx | rfl
      · exact h.W t ht x hx
      · rfl
    · exact h.W u hu x hx
  · simp only [upd] at hx
    rw [if_neg (by omega)] at hx
    exact h.E u hu x hx
  · show Up g.epoch (upd s.buf t _ T)
    simp only [upd, if_neg hne, h1]; exact h.ES
  · show look true g.epoch (upd s.buf t _ T) = e'
    simp only [upd, if_neg hne, h1]
    exact h.TK e' (by rw [← h2]; exact he')
  · show Up (g.lae u) (upd s.buf t _ u)
    rw [h3]
    simp only [upd]
    split
    · next eu => subst eu; exact Up.append _ _ _ (h.W u hu) (h.LS u hu) he
    · exact h.LS u hu

theorem L_push {s : TState} {t e : Nat} {g : State} (h : g.lae = s.g.lae) :
    TState.L { g := g, buf := upd s.buf t (s.buf t ++ [(false, e)]) } = upd s.L t e := by
  funext u
  simp only [TState.L, upd, h]
  split
  · next eu => subst eu; exact look_append _ _ _ _
  · rfl

/-- Steps that keep buffers and counters. -/
theorem BInv.same {n T : Nat} {s : TState} (h : BInv n T s) {g : State} (h1 : g.epoch = s.g.epoch) (h2 : g.tick = s.g.tick) (h3 : g.lae = s.g.lae) :
    BInv n T { s with g := g } :=
  ⟨h.W, h.E, by show Up g.epoch _; rw [h1]; exact h.ES, fun e he => by show look true g.epoch _ = e; rw [h1]; exact h.TK e (by rw [← h2]; exact he),
    fun t ht => by show Up (g.lae t) _; rw [h3]; exact h.LS t ht⟩

theorem L_same {s : TState} {g : State} (h : g.lae = s.g.lae) : TState.L { s with g := g } = s.L := by
  funext u; simp only [TState.L, h]

theorem step'_keeps {n : Nat} {g g' : State} {a : Act} (hs : step' n g a = some g')
    (ha : (∃ t o, a = .link t o) ∨ (∃ t o, a = .unlink t o) ∨ (∃ t o, a = .make t o) ∨ (∃ t, a = .addLink t) ∨ ∃ t, a = .gcFree t) :
    g'.epoch = g.epoch ∧ g'.tick = g.tick ∧ g'.lae = g.lae := by
  rcases ha with ⟨t, o, rfl⟩ | ⟨t, o, rfl⟩ | ⟨t, o, rfl⟩ | ⟨t, rfl⟩ | ⟨t, rfl⟩ <;> simp only [step'] at hs <;>
    (repeat' split at hs) <;> cases hs <;> exact ⟨rfl, rfl, rfl⟩

theorem AInv.unregister {n : Nat} {Z : Nat → Prop} {g : State} {L : Nat → Nat} (h : AInv n Z g L) {t v : Nat} (hp : g.pc t = .idle) (hv : L t ≤ v) :
    AInv n (fun u => Z u ∨ u = t) g (upd L t v) := by
  obtain ⟨N, NZ, LE, J, V, A, G, F, S, R, C1, C2⟩ := h
  constructor <;> simp only [Running, Out, upd] at * <;> grind

/-- Both invariants, if the threads in `Z` are unregistered. -/
def TInvZ (n T : Nat) (Z : Nat → Prop) (s : TState) : Prop := BInv n T s ∧ AInv n Z s.g s.L

/-- Both invariants. -/
def TInv (n T : Nat) (s : TState) : Prop := TInvZ n T (fun _ => False) s

theorem tinv_init (n T : Nat) : TInv n T tinit := by
  refine ⟨⟨fun _ _ _ h => (by cases h), fun _ _ _ h => (by cases h), trivial, fun _ h => (by cases h), fun _ _ => trivial⟩, ?_⟩
  constructor <;> simp [tinit, init, TState.L, look]

theorem TInvZ.step {n T : Nat} {Z : Nat → Prop} (hT : n ≤ T) {s0 s' : TState} (h0 : TInvZ n T Z s0) {a : TAct} (hz : ∀ t, a = .act (.joinRead t) → ¬ Z t)
    (hs : tstep n T s0 a = some s') : TInvZ n T Z s' := by
  obtain ⟨s, es, hB, hA⟩ : ∃ s : TState, s = { s0 with g := { s0.g with clock := s0.g.clock + 1 } } ∧ BInv n T s ∧ AInv n Z s.g s.L :=
    ⟨_, rfl, h0.1.same rfl rfl rfl, h0.2.tick⟩
  rw [tstep, ← es] at hs
  clear es h0
  have hlook : ∀ t, t < n → look true s.g.epoch (s.buf t) = s.g.epoch := fun t ht =>
    look_other _ _ fun x hx => by rw [hB.W t ht x hx]; exact Bool.false_ne_true
  have lift : ∀ a, ((∃ t o, a = Act.link t o) ∨ (∃ t o, a = Act.unlink t o) ∨ (∃ t o, a = Act.make t o) ∨ (∃ t, a = Act.addLink t) ∨ ∃ t, a = Act.gcFree t) →
      (∀ g', step' n s.g a = some g' → AInv n Z g' s.L) → ((step' n s.g a).map fun g => { s with g := g }) = some s' → TInvZ n T Z s' := by
    intro a ha hg e
    obtain ⟨g', h1, rfl⟩ := Option.map_eq_some_iff.1 e
    obtain ⟨k1, k2, k3⟩ := step'_keeps h1 ha
    exact ⟨hB.same k1 k2 k3, (hg g' h1).of_eq (L_same k3)⟩
  cases a with
  | flush t =>
    simp only [tstep'] at hs
    split at hs
    · cases hs
    · next v l hl =>
      cases hs
      -- a store to the epoch: the thread is `T`
      have ht : ¬ t < n := fun ht => by have := hB.W t ht (true, v) (by rw [hl]; exact List.mem_cons_self); cases this
      have eT : t = T := (hB.E t ht (true, v) (by rw [hl]; exact List.mem_cons_self)).2
      subst eT
      have hES := hB.ES
      rw [hl] at hES
      refine ⟨⟨fun u hu x hx => ?_, fun u hu x hx => ?_, ?_, fun e he => ?_, fun u hu => ?_⟩, ?_⟩
      · simp only [upd] at hx
        rw [if_neg (by omega)] at hx
        exact hB.W u hu x hx
      · simp only [upd] at hx
        split at hx
        · next eu => subst eu; exact hB.E u hu x (by rw [hl]; exact List.mem_cons_of_mem _ hx)
        · exact hB.E u hu x hx
      · show Up v (upd s.buf t l t)
        simp only [upd, if_true]; exact hES.2
      · show look true v (upd s.buf t l t) = e
        have := hB.TK e he
        rw [hl] at this
        simp only [look, if_true] at this
        simp only [upd, if_true]; exact this
      · show Up (s.g.lae u) (upd s.buf t l u)
        simp only [upd]
        rw [if_neg (by omega)]; exact hB.LS u hu
      · have hL : ∀ u, u < n → TState.L { g := { s.g with epoch := v }, buf := upd s.buf t l } u = s.L u := by
          intro u hu
          simp only [TState.L, upd]
          rw [if_neg (by omega)]
        have h1 := hA.epoch hES.1 s.g.tick
        have hlt : ∀ u, Running s.g u → u < n := fun u => Running.lt hA
        exact h1.congr hL
    · next v l hl =>
      cases hs
      have ht : t < n := Decidable.byContradiction fun ht => by have := (hB.E t ht (false, v) (by rw [hl]; exact List.mem_cons_self)).1; cases this
      have hne : T ≠ t := by omega
      have hLS := hB.LS t ht
      rw [hl] at hLS
      refine ⟨⟨fun u hu x hx => ?_, fun u hu x hx => ?_, ?_, fun e he => ?_, fun u hu => ?_⟩, ?_⟩
      · simp only [upd] at hx
        split at hx
        · next eu => subst eu; exact hB.W u hu x (by rw [hl]; exact List.mem_cons_of_mem _ hx)
        · exact hB.W u hu x hx
      · simp only [upd] at hx
        rw [if_neg (by omega)] at hx
        exact hB.E u hu x hx
      · show Up s.g.epoch (upd s.buf t l T)
        simp only [upd, if_neg hne]; exact hB.ES
      · show look true s.g.epoch (upd s.buf t l T) = e
        simp only [upd, if_neg hne]; exact hB.TK e he
      · show Up (upd s.g.lae t v u) (upd s.buf t l u)
        simp only [upd]
        split
        · exact hLS.2
        · exact hB.LS u hu
      · have hL : TState.L { g := { s.g with lae := upd s.g.lae t v }, buf := upd s.buf t l } = s.L := by
          funext u
          simp only [TState.L, upd]
          split
          · next eu => subst eu; rw [hl]; simp only [look, if_true]
          · rfl
        exact (hA.lae _).of_eq hL
  | act a =>
    cases a with
    | joinRead t =>
      simp only [tstep'] at hs
      split at hs
      · next hc =>
        cases hs
        rw [hlook t hc.1]
        exact ⟨hB.same rfl rfl rfl, hA.joinRead hc.1 (hz t rfl) hc.2⟩
      · cases hs
    | joinStore t =>
      simp only [tstep'] at hs
      split at hs
      · next e hp =>
        cases hs
        exact ⟨hB.push hT (hA.N t (by rw [hp]; exact fun x => by cases x)) (hA.J t e hp).1 rfl rfl rfl, (hA.joinStore hp).of_eq (L_push rfl)⟩
      · cases hs
    | link t o =>
      simp only [tstep'] at hs
      split at hs
      · exact lift _ (.inl ⟨t, o, rfl⟩) (fun g' => hA.link) hs
      · cases hs
    | unlink t o =>
      simp only [tstep'] at hs
      split at hs
      · exact lift _ (.inr (.inl ⟨t, o, rfl⟩)) (fun g' => hA.unlink) hs
      · cases hs
    | make t o => exact lift _ (.inr (.inr (.inl ⟨t, o, rfl⟩))) (fun g' => hA.make) hs
    | addLink t => exact lift _ (.inr (.inr (.inr (.inl ⟨t, rfl⟩)))) (fun g' => hA.addLink) hs
    | gcFree t => exact lift _ (.inr (.inr (.inr (.inr ⟨t, rfl⟩)))) (fun g' => hA.gcFree) hs
    | addRead t o =>
      simp only [tstep'] at hs
      split at hs
      · next hc =>
        cases hs
        rw [hlook t (hA.N t (by rw [hc.1]; exact fun x => by cases x))]
        exact ⟨hB.same rfl rfl rfl, hA.addRead hc.1 hc.2⟩
      · cases hs
    | gcRead t =>
      simp only [tstep'] at hs
      split at hs
      · next i m hp =>
        cases hs
        refine ⟨hB.same rfl rfl rfl, ?_⟩
        have hv : (if i = t then look false (s.g.lae i) (s.buf t) else s.g.lae i) ≤ s.L i := by
          split
          · next e => subst e; exact Nat.le_refl _
          · by_cases hi : i < n
            · exact Up.le_look _ _ (hB.W i hi) (hB.LS i hi)
            · have : s.L i = s.g.lae i := look_other _ _ fun x hx => by rw [(hB.E i hi x hx).1]; exact fun x => by cases x
              omega
        refine hA.gcRead hp ?_ fun hi => ?_
        · split
          · exact hv
          · exact Nat.le_trans (Nat.min_le_left _ _) hv
        · rw [if_neg hi]; exact Nat.min_le_right _ _
      · cases hs
    | leaveRead t =>
      simp only [tstep'] at hs
      split at hs
      · next hc =>
        cases hs
        rw [hlook t (hA.N t (by rw [hc]; exact fun x => by cases x))]
        exact ⟨hB.same rfl rfl rfl, hA.leaveRead hc⟩
      · cases hs
    | leaveStore t =>
      simp only [tstep'] at hs
      split at hs
      · next e hp =>
        cases hs
        exact ⟨hB.push hT (hA.N t (by rw [hp]; exact fun x => by cases x)) (hA.V t e hp).1 rfl rfl rfl, (hA.leaveStore hp).of_eq (L_push rfl)⟩
      · cases hs
    | tickRead k =>
      simp only [tstep'] at hs
      split at hs
      · next hc =>
        cases hs
        obtain ⟨rfl, _⟩ := hc
        refine ⟨⟨hB.W, hB.E, hB.ES, fun e he => ?_, hB.LS⟩, ?_⟩
        · simp only [upd, if_true] at he
          exact Option.some.inj he
        · exact hA.epoch (Nat.le_refl _) _
      · cases hs
    | tickWrite k =>
      simp only [tstep'] at hs
      split at hs
      · next e he =>
        split at hs
        · next hk =>
          cases hs
          subst hk
          have hall : ∀ x ∈ s.buf k, x.1 = true := fun x hx => (hB.E k (by omega) x hx).1
          refine ⟨⟨fun u hu x hx => ?_, fun u hu x hx => ?_, ?_, fun e' he' => ?_, fun u hu => ?_⟩, ?_⟩
          · simp only [upd] at hx
            rw [if_neg (by omega)] at hx
            exact hB.W u hu x hx
          · simp only [upd] at hx
            split at hx
            · next eu =>
              rw [List.mem_append, List.mem_singleton] at hx
              rcases hx with hx | rfl
              · exact ⟨hall x hx, eu⟩
              · exact ⟨rfl, eu⟩
            · exact hB.E u hu x hx
          · show Up s.g.epoch (upd s.buf k _ k)
            simp only [upd, if_true]
            exact Up.append _ _ _ hall hB.ES (by rw [hB.TK e he]; exact Nat.le_succ _)
          · simp only [upd, if_true] at he'
            cases he'
          · show Up (s.g.lae u) (upd s.buf k _ u)
            simp only [upd]
            rw [if_neg (by omega)]; exact hB.LS u hu
          · have hL : ∀ u, u < n → TState.L { g := { s.g with tick := upd s.g.tick k none }, buf := upd s.buf k (s.buf k ++ [(true, e + 1)]) } u = s.L u := by
              intro u hu
              simp only [TState.L, upd]
              rw [if_neg (by omega)]
            have h1 := hA.epoch (Nat.le_refl _) (upd s.g.tick k none)
            exact h1.congr hL
        · cases hs
      · cases hs
    | unregister t => simp only [tstep'] at hs; cases hs

theorem TInv.step {n T : Nat} (hT : n ≤ T) {s s' : TState} (h : TInv n T s) {a : TAct} (hs : tstep n T s a = some s') : TInv n T s' :=
  TInvZ.step hT h (fun _ _ h => h) hs

/-- UnregisterThread. -/
theorem TInvZ.unregister {n T : Nat} {Z : Nat → Prop} (hT : n ≤ T) {s : TState} (h : TInvZ n T Z s) {t : Nat} (ht : t < n) (hp : s.g.pc t = .idle)
    (hv : s.L t ≤ UMAX) : TInvZ n T (fun u => Z u ∨ u = t)
      { g := { s.g with clock := s.g.clock + 1 }, buf := upd s.buf t (s.buf t ++ [(false, UMAX)]) } :=
  ⟨h.1.push hT ht hv rfl rfl rfl, ((h.2.unregister hp hv).tick).of_eq (L_push rfl)⟩

theorem TInv.run {n T : Nat} (hT : n ≤ T) : ∀ {as : List TAct} {s s' : TState}, TInv n T s → trun n T s as = some s' → TInv n T s'
  | [], s, s', h, e => by cases e; exact h
  | a :: as, s, s', h, e => by
    simp only [trun, Option.bind_eq_some_iff] at e
    obtain ⟨s1, h1, h2⟩ := e
    exact TInv.run hT (h.step hT h1) h2

end GC
end BwTree
