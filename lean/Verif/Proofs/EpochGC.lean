import Verif.Model.EpochGC

/-! Invariant of epoch based reclamation (used by Props/EpochGC). -/

set_option linter.unusedSimpArgs false
set_option linter.unusedVariables false

namespace BwTree
namespace GC

/-- The thread is inside an operation (between JoinEpoch and LeaveEpoch). -/
def Running (s : State) (t : Nat) : Prop :=
  s.pc t = .active ∨ (∃ o d, s.pc t = .adding o d) ∨ (∃ i m, s.pc t = .summing i m) ∨ (∃ m, s.pc t = .freeing m)

/-- Usage contract: only one thread calls IncreaseEpoch (the GC thread), and a thread is unregistered only while it is not
inside an operation. -/
def Contract (s : State) : Act → Prop
  | .tickRead k => k = 0
  | .tickWrite k => k = 0
  | .unregister t => s.pc t = .idle
  | _ => True

/-- Executions that respect the contract. -/
inductive RunC (n : Nat) : State → List Act → State → Prop where
  | nil (s : State) : RunC n s [] s
  | cons {s s' s'' : State} {a : Act} {as : List Act} : Contract s a → step n s a = some s' → RunC n s' as s'' →
      RunC n s (a :: as) s''

/-- The object is unreachable for operations that start now. -/
def Out (s : State) (o : Nat) : Prop := s.st o ≠ .fresh ∧ s.st o ≠ .linked

structure Inv (n : Nat) (s : State) : Prop where
  runN : ∀ t, s.pc t ≠ .idle → t < n
  runE : ∀ t, Running s t → s.lae t ≤ s.epoch
  joinE : ∀ t e, s.pc t = .joining e → e ≤ s.epoch
  tickE : ∀ e, s.tick 0 = some e → e = s.epoch
  outC : ∀ o, s.outT o ≤ s.clock
  joinC : ∀ t, s.joinT t ≤ s.clock
  addS : ∀ u o d, s.pc u = .adding o d → s.st o = .owned u ∧ d ≤ s.epoch
  garbS : ∀ u o d, (o, d) ∈ s.garb u → s.st o = .retired
  garbND : ∀ u, (s.garb u).Pairwise (fun a b => a.1 ≠ b.1)
  garbDisj : ∀ u v o d d', (o, d) ∈ s.garb u → (o, d') ∈ s.garb v → u = v
  garbAll : ∀ o, s.st o = .retired → ∃ u d, (o, d) ∈ s.garb u
  sorted : ∀ u, (s.garb u).Pairwise (fun a b => a.2 ≤ b.2)
  garbE : ∀ u o d, (o, d) ∈ s.garb u → d ≤ s.epoch
  addLast : ∀ u o d, s.pc u = .adding o d → ∀ o' d', (o', d') ∈ s.garb u → d' ≤ d
  cnt : ∀ u, s.cnt u = (s.garb u).length
  freedS : ∀ o, o ∈ s.freed ↔ s.st o = .freed
  freedND : s.freed.Nodup
  -- the safety core: `t` may use `o`
  safe : ∀ t o, Running s t → Out s o → s.joinT t < s.outT o → s.st o ≠ .freed
  safeAdd : ∀ t u o d, Running s t → s.joinT t < s.outT o → s.pc u = .adding o d → s.lae t ≤ d
  safeGarb : ∀ t u o d, Running s t → s.joinT t < s.outT o → (o, d) ∈ s.garb u → s.lae t ≤ d
  safeSum : ∀ t u o d i m, Running s t → s.joinT t < s.outT o → (o, d) ∈ s.garb u → s.pc u = .summing i m →
    t < i → m ≤ d
  safeFree : ∀ t u o d m, Running s t → s.joinT t < s.outT o → (o, d) ∈ s.garb u → s.pc u = .freeing m → m ≤ d

theorem inv_init (n : Nat) : Inv n init := by
  constructor <;> simp [init, Running, Out]

theorem upd_same {α : Type} (f : Nat → α) (i : Nat) (x : α) : upd f i x i = x := by simp [upd]

theorem upd_ne {α : Type} (f : Nat → α) {i j : Nat} (x : α) (h : j ≠ i) : upd f i x j = f j := by simp [upd, h]

set_option maxHeartbeats 400000 in
theorem inv_joinRead {n : Nat} {s s' : State} {t : Nat} (h : Inv n s) (hc : Contract s (.joinRead t))
    (hs : step n s (.joinRead t) = some s') : Inv n s' := by
  obtain ⟨runN, runE, joinE, tickE, outC, joinC, addS, garbS, garbND, garbDisj, garbAll, sorted, garbE, addLast, cnt,
    freedS, freedND, safe, safeAdd, safeGarb, safeSum, safeFree⟩ := h
  simp only [Contract] at hc
  simp only [step, step'] at hs
  split at hs
  · rename_i hif
    have e1 := Option.some.inj hs
    clear hs
    have q_epoch : s'.epoch = s.epoch := by rw [← e1]
    have q_lae : s'.lae = s.lae := by rw [← e1]
    have q_pc : s'.pc = upd s.pc t (.joining s.epoch) := by rw [← e1]
    have q_garb : s'.garb = s.garb := by rw [← e1]
    have q_cnt : s'.cnt = s.cnt := by rw [← e1]
    have q_st : s'.st = s.st := by rw [← e1]
    have q_tick : s'.tick = s.tick := by rw [← e1]
    have q_freed : s'.freed = s.freed := by rw [← e1]
    have q_clock : s'.clock = s.clock + 1 := by rw [← e1]
    have q_joinT : s'.joinT = s.joinT := by rw [← e1]
    have q_outT : s'.outT = s.outT := by rw [← e1]
    clear e1
    replace q_lae := fun x => congrFun q_lae x
    replace q_pc := fun x => congrFun q_pc x
    simp only [upd] at q_pc
    replace q_garb := fun x => congrFun q_garb x
    replace q_cnt := fun x => congrFun q_cnt x
    replace q_st := fun x => congrFun q_st x
    replace q_tick := fun x => congrFun q_tick x
    replace q_joinT := fun x => congrFun q_joinT x
    replace q_outT := fun x => congrFun q_outT x
    have hrun : ∀ x, Running s' x → (Running s x ∧ s'.lae x = s.lae x ∧ s'.joinT x = s.joinT x) ∨ (s'.joinT x = s.clock + 1 ∧ s.pc x = .joining (s'.lae x)) := by
      intro x hx
      by_cases hx2 : x = t
      · subst hx2; simp only [Running, q_pc, q_joinT, q_lae] at *; grind
      · left; refine ⟨?_, ?_, ?_⟩
        · simpa only [Running, q_pc, hx2, if_false] using hx
        · simp only [q_lae, hx2, if_false]
        · simp only [q_joinT, hx2, if_false]
    constructor
    case runN => clear runE joinE tickE outC joinC addS garbS garbND garbDisj garbAll sorted garbE addLast cnt freedS freedND safe safeAdd safeGarb safeSum safeFree hrun q_epoch q_lae q_garb q_cnt q_st q_tick q_freed q_clock q_joinT q_outT; grind
    case runE => clear runN outC joinC addS garbS garbND garbDisj garbAll sorted garbE addLast cnt freedS freedND safe safeAdd safeGarb safeSum safeFree q_garb q_cnt q_st q_tick q_freed q_clock q_outT; grind
    case joinE => clear runN runE outC joinC addS garbS garbND garbDisj garbAll sorted garbE addLast cnt freedS freedND safe safeAdd safeGarb safeSum safeFree hrun q_lae q_garb q_cnt q_st q_tick q_freed q_clock q_joinT q_outT; grind
    case tickE => simpa only [q_tick, q_epoch] using tickE
    case outC => clear runN runE joinE tickE joinC addS garbS garbND garbDisj garbAll sorted garbE addLast cnt freedS freedND safe safeAdd safeGarb safeSum safeFree hrun q_epoch q_lae q_pc q_garb q_cnt q_st q_tick q_freed q_joinT; grind
    case joinC => clear runN runE joinE tickE outC addS garbS garbND garbDisj garbAll sorted garbE addLast cnt freedS freedND safe safeAdd safeGarb safeSum safeFree hrun q_epoch q_lae q_pc q_garb q_cnt q_st q_tick q_freed q_outT; grind
    case addS => clear runN runE joinE outC joinC garbND garbDisj garbAll sorted garbE addLast cnt freedS freedND safe safeAdd safeGarb safeSum safeFree hrun q_lae q_garb q_cnt q_tick q_freed q_clock q_joinT q_outT; grind
    case garbS => simpa only [q_garb, q_st] using garbS
    case garbND => simpa only [q_garb, q_st] using garbND
    case garbDisj => simpa only [q_garb, q_st] using garbDisj
    case garbAll => simpa only [q_garb, q_st] using garbAll
    case sorted => simpa only [q_garb] using sorted
    case garbE => simpa only [q_garb, q_epoch] using garbE
    case addLast => clear runN runE joinE tickE outC joinC garbS garbND garbDisj garbAll sorted cnt freedS freedND safe safeAdd safeGarb safeSum safeFree hrun q_lae q_cnt q_st q_tick q_freed q_clock q_joinT q_outT; grind
    case cnt => simpa only [q_cnt, q_garb] using cnt
    case freedS => simpa only [q_freed, q_st] using freedS
    case freedND => simpa only [q_freed, q_st] using freedND
    case safe => clear runN runE joinE tickE garbND garbDisj garbAll sorted garbE addLast cnt freedS freedND safeAdd safeGarb safeSum q_epoch q_lae q_garb q_cnt q_tick q_freed; simp only [Out] at *; grind
    case safeAdd => clear runN joinE tickE garbS garbND garbDisj garbAll sorted garbE addLast cnt freedS freedND safe safeGarb safeSum safeFree q_garb q_cnt q_tick q_freed; grind
    case safeGarb => clear runN runE joinE tickE garbND garbDisj garbAll sorted garbE addLast cnt freedS freedND safe safeSum safeFree q_epoch q_cnt q_tick q_freed; grind
    case safeSum => clear runN runE joinE tickE garbND garbDisj garbAll sorted garbE addLast cnt freedS freedND safe safeAdd safeFree q_epoch q_cnt q_tick q_freed; grind
    case safeFree => clear runE joinE tickE garbND garbDisj garbAll sorted garbE addLast cnt freedS freedND safe safeAdd q_epoch q_cnt q_tick q_freed; grind
  · cases hs

set_option maxHeartbeats 400000 in
theorem inv_joinStore {n : Nat} {s s' : State} {t : Nat} (h : Inv n s) (hc : Contract s (.joinStore t))
    (hs : step n s (.joinStore t) = some s') : Inv n s' := by
  obtain ⟨runN, runE, joinE, tickE, outC, joinC, addS, garbS, garbND, garbDisj, garbAll, sorted, garbE, addLast, cnt,
    freedS, freedND, safe, safeAdd, safeGarb, safeSum, safeFree⟩ := h
  simp only [Contract] at hc
  simp only [step, step'] at hs
  split at hs
  · rename_i e hpc
    have e1 := Option.some.inj hs
    clear hs
    have q_epoch : s'.epoch = s.epoch := by rw [← e1]
    have q_lae : s'.lae = upd s.lae t e := by rw [← e1]
    have q_pc : s'.pc = upd s.pc t .active := by rw [← e1]
    have q_garb : s'.garb = s.garb := by rw [← e1]
    have q_cnt : s'.cnt = s.cnt := by rw [← e1]
    have q_st : s'.st = s.st := by rw [← e1]
    have q_tick : s'.tick = s.tick := by rw [← e1]
    have q_freed : s'.freed = s.freed := by rw [← e1]
    have q_clock : s'.clock = s.clock + 1 := by rw [← e1]
    have q_joinT : s'.joinT = upd s.joinT t (s.clock+1) := by rw [← e1]
    have q_outT : s'.outT = s.outT := by rw [← e1]
    clear e1
    replace q_lae := fun x => congrFun q_lae x
    simp only [upd] at q_lae
    replace q_pc := fun x => congrFun q_pc x
    simp only [upd] at q_pc
    replace q_garb := fun x => congrFun q_garb x
    replace q_cnt := fun x => congrFun q_cnt x
    replace q_st := fun x => congrFun q_st x
    replace q_tick := fun x => congrFun q_tick x
    replace q_joinT := fun x => congrFun q_joinT x
    simp only [upd] at q_joinT
    replace q_outT := fun x => congrFun q_outT x
    have hrun : ∀ x, Running s' x → (Running s x ∧ s'.lae x = s.lae x ∧ s'.joinT x = s.joinT x) ∨ (s'.joinT x = s.clock + 1 ∧ s.pc x = .joining (s'.lae x)) := by
      intro x hx
      by_cases hx2 : x = t
      · subst hx2; simp only [Running, q_pc, q_joinT, q_lae] at *; grind
      · left; refine ⟨?_, ?_, ?_⟩
        · simpa only [Running, q_pc, hx2, if_false] using hx
        · simp only [q_lae, hx2, if_false]
        · simp only [q_joinT, hx2, if_false]
    constructor
    case runN => clear runE joinE tickE outC joinC addS garbS garbND garbDisj garbAll sorted garbE addLast cnt freedS freedND safe safeAdd safeGarb safeSum safeFree hrun q_epoch q_lae q_garb q_cnt q_st q_tick q_freed q_clock q_joinT q_outT; grind
    case runE => clear runN outC joinC addS garbS garbND garbDisj garbAll sorted garbE addLast cnt freedS freedND safe safeAdd safeGarb safeSum safeFree q_garb q_cnt q_st q_tick q_freed q_clock q_outT; grind
    case joinE => clear runN runE outC joinC addS garbS garbND garbDisj garbAll sorted garbE addLast cnt freedS freedND safe safeAdd safeGarb safeSum safeFree hrun q_lae q_garb q_cnt q_st q_tick q_freed q_clock q_joinT q_outT; grind
    case tickE => simpa only [q_tick, q_epoch] using tickE
    case outC => clear runN runE joinE tickE joinC addS garbS garbND garbDisj garbAll sorted garbE addLast cnt freedS freedND safe safeAdd safeGarb safeSum safeFree hrun q_epoch q_lae q_pc q_garb q_cnt q_st q_tick q_freed q_joinT; grind
    case joinC => clear runN runE joinE tickE outC addS garbS garbND garbDisj garbAll sorted garbE addLast cnt freedS freedND safe safeAdd safeGarb safeSum safeFree hrun q_epoch q_lae q_pc q_garb q_cnt q_st q_tick q_freed q_outT; grind
    case addS => clear runN runE joinE outC joinC garbND garbDisj garbAll sorted garbE addLast cnt freedS freedND safe safeAdd safeGarb safeSum safeFree hrun q_lae q_garb q_cnt q_tick q_freed q_clock q_joinT q_outT; grind
    case garbS => simpa only [q_garb, q_st] using garbS
    case garbND => simpa only [q_garb, q_st] using garbND
    case garbDisj => simpa only [q_garb, q_st] using garbDisj
    case garbAll => simpa only [q_garb, q_st] using garbAll
    case sorted => simpa only [q_garb] using sorted
    case garbE => simpa only [q_garb, q_epoch] using garbE
    case addLast => clear runN runE joinE tickE outC joinC garbS garbND garbDisj garbAll sorted cnt freedS freedND safe safeAdd safeGarb safeSum safeFree hrun q_lae q_cnt q_st q_tick q_freed q_clock q_joinT q_outT; grind
    case cnt => simpa only [q_cnt, q_garb] using cnt
    case freedS => simpa only [q_freed, q_st] using freedS
    case freedND => simpa only [q_freed, q_st] using freedND
    case safe => clear runN runE joinE tickE garbND garbDisj garbAll sorted garbE addLast cnt freedS freedND safeAdd safeGarb safeSum q_epoch q_lae q_garb q_cnt q_tick q_freed; simp only [Out] at *; grind
    case safeAdd => clear runN joinE tickE garbS garbND garbDisj garbAll sorted garbE addLast cnt freedS freedND safe safeGarb safeSum safeFree q_garb q_cnt q_tick q_freed; grind
    case safeGarb => clear runN runE joinE tickE garbND garbDisj garbAll sorted garbE addLast cnt freedS freedND safe safeSum safeFree q_epoch q_cnt q_tick q_freed; grind
    case safeSum => clear runN runE joinE tickE garbND garbDisj garbAll sorted garbE addLast cnt freedS freedND safe safeAdd safeFree q_epoch q_cnt q_tick q_freed; grind
    case safeFree => clear runE joinE tickE garbND garbDisj garbAll sorted garbE addLast cnt freedS freedND safe safeAdd q_epoch q_cnt q_tick q_freed; grind
  · cases hs

set_option maxHeartbeats 400000 in
theorem inv_link {n : Nat} {s s' : State} {t o : Nat} (h : Inv n s) (hc : Contract s (.link t o))
    (hs : step n s (.link t o) = some s') : Inv n s' := by
  obtain ⟨runN, runE, joinE, tickE, outC, joinC, addS, garbS, garbND, garbDisj, garbAll, sorted, garbE, addLast, cnt,
    freedS, freedND, safe, safeAdd, safeGarb, safeSum, safeFree⟩ := h
  simp only [Contract] at hc
  simp only [step, step'] at hs
  split at hs
  · rename_i hif
    have e1 := Option.some.inj hs
    clear hs
    have q_epoch : s'.epoch = s.epoch := by rw [← e1]
    have q_lae : s'.lae = s.lae := by rw [← e1]
    have q_pc : s'.pc = s.pc := by rw [← e1]
    have q_garb : s'.garb = s.garb := by rw [← e1]
    have q_cnt : s'.cnt = s.cnt := by rw [← e1]
    have q_st : s'.st = upd s.st o .linked := by rw [← e1]
    have q_tick : s'.tick = s.tick := by rw [← e1]
    have q_freed : s'.freed = s.freed := by rw [← e1]
    have q_clock : s'.clock = s.clock + 1 := by rw [← e1]
    have q_joinT : s'.joinT = s.joinT := by rw [← e1]
    have q_outT : s'.outT = s.outT := by rw [← e1]
    clear e1
    replace q_lae := fun x => congrFun q_lae x
    replace q_pc := fun x => congrFun q_pc x
    replace q_garb := fun x => congrFun q_garb x
    replace q_cnt := fun x => congrFun q_cnt x
    replace q_st := fun x => congrFun q_st x
    simp only [upd] at q_st
    replace q_tick := fun x => congrFun q_tick x
    replace q_joinT := fun x => congrFun q_joinT x
    replace q_outT := fun x => congrFun q_outT x
    have hrun : ∀ x, Running s' x → (Running s x ∧ s'.lae x = s.lae x ∧ s'.joinT x = s.joinT x) ∨ (s'.joinT x = s.clock + 1 ∧ s.pc x = .joining (s'.lae x)) := by
      intro x hx; left; simp only [Running, q_pc, q_lae, q_joinT] at *; grind
    constructor
    case runN => simpa only [q_pc] using runN
    case runE => simpa only [q_pc, q_lae, q_epoch, q_joinT, Running, Out] using runE
    case joinE => simpa only [q_pc, q_epoch] using joinE
    case tickE => simpa only [q_tick, q_epoch] using tickE
    case outC => clear runN runE joinE tickE joinC addS garbS garbND garbDisj garbAll sorted garbE addLast cnt freedS freedND safe safeAdd safeGarb safeSum safeFree hrun q_epoch q_lae q_pc q_garb q_cnt q_st q_tick q_freed q_joinT; grind
    case joinC => clear runN runE joinE tickE outC addS garbS garbND garbDisj garbAll sorted garbE addLast cnt freedS freedND safe safeAdd safeGarb safeSum safeFree hrun q_epoch q_lae q_pc q_garb q_cnt q_st q_tick q_freed q_outT; grind
    case addS => clear runN runE joinE outC joinC garbND garbDisj garbAll sorted garbE addLast cnt freedS freedND safe safeAdd safeGarb safeSum safeFree hrun q_lae q_garb q_cnt q_tick q_freed q_clock q_joinT q_outT; grind
    case garbS => clear runN runE joinE tickE outC joinC garbAll sorted garbE addLast cnt freedS freedND safe safeAdd safeGarb safeSum safeFree hrun q_epoch q_lae q_pc q_cnt q_tick q_freed q_clock q_joinT q_outT; grind
    case garbND => clear runN runE joinE tickE outC joinC garbDisj garbAll sorted garbE addLast cnt freedS freedND safe safeAdd safeGarb safeSum safeFree hrun q_epoch q_lae q_pc q_cnt q_tick q_freed q_clock q_joinT q_outT; grind
    case garbDisj => clear runN runE joinE tickE outC joinC garbND garbAll sorted garbE addLast cnt freedS freedND safe safeAdd safeGarb safeSum safeFree hrun q_epoch q_lae q_pc q_cnt q_tick q_freed q_clock q_joinT q_outT; grind
    case garbAll => clear runN runE joinE tickE outC joinC addS garbS garbND garbDisj sorted garbE addLast cnt freedS freedND safe safeAdd safeGarb safeSum safeFree hrun q_epoch q_lae q_pc q_cnt q_tick q_freed q_clock q_joinT q_outT; grind
    case sorted => simpa only [q_garb] using sorted
    case garbE => simpa only [q_garb, q_epoch] using garbE
    case addLast => simpa only [q_garb, q_pc, q_epoch] using addLast
    case cnt => simpa only [q_cnt, q_garb] using cnt
    case freedS => clear runN runE joinE tickE outC joinC garbND garbDisj garbAll sorted garbE addLast cnt freedND safe safeAdd safeGarb safeSum safeFree hrun q_epoch q_lae q_pc q_garb q_cnt q_tick q_clock q_joinT q_outT; grind
    case freedND => clear runN runE joinE tickE outC joinC addS garbND garbDisj garbAll sorted garbE addLast cnt safe safeAdd safeGarb safeSum safeFree hrun q_epoch q_lae q_pc q_garb q_cnt q_tick q_clock q_joinT q_outT; grind
    case safe => clear runN runE joinE tickE garbND garbDisj garbAll sorted garbE addLast cnt freedS freedND safeAdd safeGarb safeSum q_epoch q_lae q_garb q_cnt q_tick q_freed; simp only [Out] at *; grind
    case safeAdd => clear runN joinE tickE garbS garbND garbDisj garbAll sorted garbE addLast cnt freedS freedND safe safeGarb safeSum safeFree q_garb q_cnt q_tick q_freed; grind
    case safeGarb => clear runN runE joinE tickE garbND garbDisj garbAll sorted garbE addLast cnt freedS freedND safe safeSum safeFree q_epoch q_cnt q_tick q_freed; grind
    case safeSum => clear runN runE joinE tickE garbND garbDisj garbAll sorted garbE addLast cnt freedS freedND safe safeAdd safeFree q_epoch q_cnt q_tick q_freed; grind
    case safeFree => clear runE joinE tickE garbND garbDisj garbAll sorted garbE addLast cnt freedS freedND safe safeAdd q_epoch q_cnt q_tick q_freed; grind
  · cases hs

set_option maxHeartbeats 400000 in
theorem inv_make {n : Nat} {s s' : State} {t o : Nat} (h : Inv n s) (hc : Contract s (.make t o))
    (hs : step n s (.make t o) = some s') : Inv n s' := by
  obtain ⟨runN, runE, joinE, tickE, outC, joinC, addS, garbS, garbND, garbDisj, garbAll, sorted, garbE, addLast, cnt,
    freedS, freedND, safe, safeAdd, safeGarb, safeSum, safeFree⟩ := h
  simp only [Contract] at hc
  simp only [step, step'] at hs
  split at hs
  · rename_i hif
    have e1 := Option.some.inj hs
    clear hs
    have q_epoch : s'.epoch = s.epoch := by rw [← e1]
    have q_lae : s'.lae = s.lae := by rw [← e1]
    have q_pc : s'.pc = s.pc := by rw [← e1]
    have q_garb : s'.garb = s.garb := by rw [← e1]
    have q_cnt : s'.cnt = s.cnt := by rw [← e1]
    have q_st : s'.st = upd s.st o (.owned t) := by rw [← e1]
    have q_tick : s'.tick = s.tick := by rw [← e1]
    have q_freed : s'.freed = s.freed := by rw [← e1]
    have q_clock : s'.clock = s.clock + 1 := by rw [← e1]
    have q_joinT : s'.joinT = s.joinT := by rw [← e1]
    have q_outT : s'.outT = upd s.outT o (s.clock+1) := by rw [← e1]
    clear e1
    replace q_lae := fun x => congrFun q_lae x
    replace q_pc := fun x => congrFun q_pc x
    replace q_garb := fun x => congrFun q_garb x
    replace q_cnt := fun x => congrFun q_cnt x
    replace q_st := fun x => congrFun q_st x
    simp only [upd] at q_st
    replace q_tick := fun x => congrFun q_tick x
    replace q_joinT := fun x => congrFun q_joinT x
    replace q_outT := fun x => congrFun q_outT x
    simp only [upd] at q_outT
    have hrun : ∀ x, Running s' x → (Running s x ∧ s'.lae x = s.lae x ∧ s'.joinT x = s.joinT x) ∨ (s'.joinT x = s.clock + 1 ∧ s.pc x = .joining (s'.lae x)) := by
      intro x hx; left; simp only [Running, q_pc, q_lae, q_joinT] at *; grind
    constructor
    case runN => simpa only [q_pc] using runN
    case runE => simpa only [q_pc, q_lae, q_epoch, q_joinT, Running, Out] using runE
    case joinE => simpa only [q_pc, q_epoch] using joinE
    case tickE => simpa only [q_tick, q_epoch] using tickE
    case outC => clear runN runE joinE tickE joinC addS garbS garbND garbDisj garbAll sorted garbE addLast cnt freedS freedND safe safeAdd safeGarb safeSum safeFree hrun q_epoch q_lae q_pc q_garb q_cnt q_st q_tick q_freed q_joinT; grind
    case joinC => clear runN runE joinE tickE outC addS garbS garbND garbDisj garbAll sorted garbE addLast cnt freedS freedND safe safeAdd safeGarb safeSum safeFree hrun q_epoch q_lae q_pc q_garb q_cnt q_st q_tick q_freed q_outT; grind
    case addS => clear runN runE joinE outC joinC garbND garbDisj garbAll sorted garbE addLast cnt freedS freedND safe safeAdd safeGarb safeSum safeFree hrun q_lae q_garb q_cnt q_tick q_freed q_clock q_joinT q_outT; grind
    case garbS => clear runN runE joinE tickE outC joinC garbAll sorted garbE addLast cnt freedS freedND safe safeAdd safeGarb safeSum safeFree hrun q_epoch q_lae q_pc q_cnt q_tick q_freed q_clock q_joinT q_outT; grind
    case garbND => clear runN runE joinE tickE outC joinC garbDisj garbAll sorted garbE addLast cnt freedS freedND safe safeAdd safeGarb safeSum safeFree hrun q_epoch q_lae q_pc q_cnt q_tick q_freed q_clock q_joinT q_outT; grind
    case garbDisj => clear runN runE joinE tickE outC joinC garbND garbAll sorted garbE addLast cnt freedS freedND safe safeAdd safeGarb safeSum safeFree hrun q_epoch q_lae q_pc q_cnt q_tick q_freed q_clock q_joinT q_outT; grind
    case garbAll => clear runN runE joinE tickE outC joinC addS garbS garbND garbDisj sorted garbE addLast cnt freedS freedND safe safeAdd safeGarb safeSum safeFree hrun q_epoch q_lae q_pc q_cnt q_tick q_freed q_clock q_joinT q_outT; grind
    case sorted => simpa only [q_garb] using sorted
    case garbE => simpa only [q_garb, q_epoch] using garbE
    case addLast => simpa only [q_garb, q_pc, q_epoch] using addLast
    case cnt => simpa only [q_cnt, q_garb] using cnt
    case freedS => clear runN runE joinE tickE outC joinC garbND garbDisj garbAll sorted garbE addLast cnt freedND safe safeAdd safeGarb safeSum safeFree hrun q_epoch q_lae q_pc q_garb q_cnt q_tick q_clock q_joinT q_outT; grind
    case freedND => clear runN runE joinE tickE outC joinC addS garbND garbDisj garbAll sorted garbE addLast cnt safe safeAdd safeGarb safeSum safeFree hrun q_epoch q_lae q_pc q_garb q_cnt q_tick q_clock q_joinT q_outT; grind
    case safe => clear runN runE joinE tickE garbND garbDisj garbAll sorted garbE addLast cnt freedS freedND safeAdd safeGarb safeSum q_epoch q_lae q_garb q_cnt q_tick q_freed; simp only [Out] at *; grind
    case safeAdd => clear runN joinE tickE garbS garbND garbDisj garbAll sorted garbE addLast cnt freedS freedND safe safeGarb safeSum safeFree q_garb q_cnt q_tick q_freed; grind
    case safeGarb => clear runN runE joinE tickE garbND garbDisj garbAll sorted garbE addLast cnt freedS freedND safe safeSum safeFree q_epoch q_cnt q_tick q_freed; grind
    case safeSum => clear runN runE joinE tickE garbND garbDisj garbAll sorted garbE addLast cnt freedS freedND safe safeAdd safeFree q_epoch q_cnt q_tick q_freed; grind
    case safeFree => clear runE joinE tickE garbND garbDisj garbAll sorted garbE addLast cnt freedS freedND safe safeAdd q_epoch q_cnt q_tick q_freed; grind
  · cases hs

set_option maxHeartbeats 400000 in
theorem inv_unlink {n : Nat} {s s' : State} {t o : Nat} (h : Inv n s) (hc : Contract s (.unlink t o))
    (hs : step n s (.unlink t o) = some s') : Inv n s' := by
  obtain ⟨runN, runE, joinE, tickE, outC, joinC, addS, garbS, garbND, garbDisj, garbAll, sorted, garbE, addLast, cnt,
    freedS, freedND, safe, safeAdd, safeGarb, safeSum, safeFree⟩ := h
  simp only [Contract] at hc
  simp only [step, step'] at hs
  split at hs
  · rename_i hif
    have e1 := Option.some.inj hs
    clear hs
    have q_epoch : s'.epoch = s.epoch := by rw [← e1]
    have q_lae : s'.lae = s.lae := by rw [← e1]
    have q_pc : s'.pc = s.pc := by rw [← e1]
    have q_garb : s'.garb = s.garb := by rw [← e1]
    have q_cnt : s'.cnt = s.cnt := by rw [← e1]
    have q_st : s'.st = upd s.st o (.owned t) := by rw [← e1]
    have q_tick : s'.tick = s.tick := by rw [← e1]
    have q_freed : s'.freed = s.freed := by rw [← e1]
    have q_clock : s'.clock = s.clock + 1 := by rw [← e1]
    have q_joinT : s'.joinT = s.joinT := by rw [← e1]
    have q_outT : s'.outT = upd s.outT o (s.clock+1) := by rw [← e1]
    clear e1
    replace q_lae := fun x => congrFun q_lae x
    replace q_pc := fun x => congrFun q_pc x
    replace q_garb := fun x => congrFun q_garb x
    replace q_cnt := fun x => congrFun q_cnt x
    replace q_st := fun x => congrFun q_st x
    simp only [upd] at q_st
    replace q_tick := fun x => congrFun q_tick x
    replace q_joinT := fun x => congrFun q_joinT x
    replace q_outT := fun x => congrFun q_outT x
    simp only [upd] at q_outT
    have hrun : ∀ x, Running s' x → (Running s x ∧ s'.lae x = s.lae x ∧ s'.joinT x = s.joinT x) ∨ (s'.joinT x = s.clock + 1 ∧ s.pc x = .joining (s'.lae x)) := by
      intro x hx; left; simp only [Running, q_pc, q_lae, q_joinT] at *; grind
    constructor
    case runN => simpa only [q_pc] using runN
    case runE => simpa only [q_pc, q_lae, q_epoch, q_joinT, Running, Out] using runE
    case joinE => simpa only [q_pc, q_epoch] using joinE
    case tickE => simpa only [q_tick, q_epoch] using tickE
    case outC => clear runN runE joinE tickE joinC addS garbS garbND garbDisj garbAll sorted garbE addLast cnt freedS freedND safe safeAdd safeGarb safeSum safeFree hrun q_epoch q_lae q_pc q_garb q_cnt q_st q_tick q_freed q_joinT; grind
    case joinC => clear runN runE joinE tickE outC addS garbS garbND garbDisj garbAll sorted garbE addLast cnt freedS freedND safe safeAdd safeGarb safeSum safeFree hrun q_epoch q_lae q_pc q_garb q_cnt q_st q_tick q_freed q_outT; grind
    case addS => clear runN runE joinE outC joinC garbND garbDisj garbAll sorted garbE addLast cnt freedS freedND safe safeAdd safeGarb safeSum safeFree hrun q_lae q_garb q_cnt q_tick q_freed q_clock q_joinT q_outT; grind
    case garbS => clear runN runE joinE tickE outC joinC garbAll sorted garbE addLast cnt freedS freedND safe safeAdd safeGarb safeSum safeFree hrun q_epoch q_lae q_pc q_cnt q_tick q_freed q_clock q_joinT q_outT; grind
    case garbND => clear runN runE joinE tickE outC joinC garbDisj garbAll sorted garbE addLast cnt freedS freedND safe safeAdd safeGarb safeSum safeFree hrun q_epoch q_lae q_pc q_cnt q_tick q_freed q_clock q_joinT q_outT; grind
    case garbDisj => clear runN runE joinE tickE outC joinC garbND garbAll sorted garbE addLast cnt freedS freedND safe safeAdd safeGarb safeSum safeFree hrun q_epoch q_lae q_pc q_cnt q_tick q_freed q_clock q_joinT q_outT; grind
    case garbAll => clear runN runE joinE tickE outC joinC addS garbS garbND garbDisj sorted garbE addLast cnt freedS freedND safe safeAdd safeGarb safeSum safeFree hrun q_epoch q_lae q_pc q_cnt q_tick q_freed q_clock q_joinT q_outT; grind
    case sorted => simpa only [q_garb] using sorted
    case garbE => simpa only [q_garb, q_epoch] using garbE
    case addLast => simpa only [q_garb, q_pc, q_epoch] using addLast
    case cnt => simpa only [q_cnt, q_garb] using cnt
    case freedS => clear runN runE joinE tickE outC joinC garbND garbDisj garbAll sorted garbE addLast cnt freedND safe safeAdd safeGarb safeSum safeFree hrun q_epoch q_lae q_pc q_garb q_cnt q_tick q_clock q_joinT q_outT; grind
    case freedND => clear runN runE joinE tickE outC joinC addS garbND garbDisj garbAll sorted garbE addLast cnt safe safeAdd safeGarb safeSum safeFree hrun q_epoch q_lae q_pc q_garb q_cnt q_tick q_clock q_joinT q_outT; grind
    case safe => clear runN runE joinE tickE garbND garbDisj garbAll sorted garbE addLast cnt freedS freedND safeAdd safeGarb safeSum q_epoch q_lae q_garb q_cnt q_tick q_freed; simp only [Out] at *; grind
    case safeAdd => clear runN joinE tickE garbS garbND garbDisj garbAll sorted garbE addLast cnt freedS freedND safe safeGarb safeSum safeFree q_garb q_cnt q_tick q_freed; grind
    case safeGarb => clear runN runE joinE tickE garbND garbDisj garbAll sorted garbE addLast cnt freedS freedND safe safeSum safeFree q_epoch q_cnt q_tick q_freed; grind
    case safeSum => clear runN runE joinE tickE garbND garbDisj garbAll sorted garbE addLast cnt freedS freedND safe safeAdd safeFree q_epoch q_cnt q_tick q_freed; grind
    case safeFree => clear runE joinE tickE garbND garbDisj garbAll sorted garbE addLast cnt freedS freedND safe safeAdd q_epoch q_cnt q_tick q_freed; grind
  · cases hs

set_option maxHeartbeats 400000 in
theorem inv_addRead {n : Nat} {s s' : State} {t o : Nat} (h : Inv n s) (hc : Contract s (.addRead t o))
    (hs : step n s (.addRead t o) = some s') : Inv n s' := by
  obtain ⟨runN, runE, joinE, tickE, outC, joinC, addS, garbS, garbND, garbDisj, garbAll, sorted, garbE, addLast, cnt,
    freedS, freedND, safe, safeAdd, safeGarb, safeSum, safeFree⟩ := h
  simp only [Contract] at hc
  simp only [step, step'] at hs
  split at hs
  · rename_i hif
    have e1 := Option.some.inj hs
    clear hs
    have q_epoch : s'.epoch = s.epoch := by rw [← e1]
    have q_lae : s'.lae = s.lae := by rw [← e1]
    have q_pc : s'.pc = upd s.pc t (.adding o s.epoch) := by rw [← e1]
    have q_garb : s'.garb = s.garb := by rw [← e1]
    have q_cnt : s'.cnt = s.cnt := by rw [← e1]
    have q_st : s'.st = s.st := by rw [← e1]
    have q_tick : s'.tick = s.tick := by rw [← e1]
    have q_freed : s'.freed = s.freed := by rw [← e1]
    have q_clock : s'.clock = s.clock + 1 := by rw [← e1]
    have q_joinT : s'.joinT = s.joinT := by rw [← e1]
    have q_outT : s'.outT = s.outT := by rw [← e1]
    clear e1
    replace q_lae := fun x => congrFun q_lae x
    replace q_pc := fun x => congrFun q_pc x
    simp only [upd] at q_pc
    replace q_garb := fun x => congrFun q_garb x
    replace q_cnt := fun x => congrFun q_cnt x
    replace q_st := fun x => congrFun q_st x
    replace q_tick := fun x => congrFun q_tick x
    replace q_joinT := fun x => congrFun q_joinT x
    replace q_outT := fun x => congrFun q_outT x
    have hrun : ∀ x, Running s' x → (Running s x ∧ s'.lae x = s.lae x ∧ s'.joinT x = s.joinT x) ∨ (s'.joinT x = s.clock + 1 ∧ s.pc x = .joining (s'.lae x)) := by
      intro x hx
      by_cases hx2 : x = t
      · subst hx2; simp only [Running, q_pc, q_joinT, q_lae] at *; grind
      · left; refine ⟨?_, ?_, ?_⟩
        · simpa only [Running, q_pc, hx2, if_false] using hx
        · simp only [q_lae, hx2, if_false]
        · simp only [q_joinT, hx2, if_false]
    constructor
    case runN => clear runE joinE tickE outC joinC addS garbS garbND garbDisj garbAll sorted garbE addLast cnt freedS freedND safe safeAdd safeGarb safeSum safeFree hrun q_epoch q_lae q_garb q_cnt q_st q_tick q_freed q_clock q_joinT q_outT; grind
    case runE => clear runN outC joinC addS garbS garbND garbDisj garbAll sorted garbE addLast cnt freedS freedND safe safeAdd safeGarb safeSum safeFree q_garb q_cnt q_st q_tick q_freed q_clock q_outT; grind
    case joinE => clear runN runE outC joinC addS garbS garbND garbDisj garbAll sorted garbE addLast cnt freedS freedND safe safeAdd safeGarb safeSum safeFree hrun q_lae q_garb q_cnt q_st q_tick q_freed q_clock q_joinT q_outT; grind
    case tickE => simpa only [q_tick, q_epoch] using tickE
    case outC => clear runN runE joinE tickE joinC addS garbS garbND garbDisj garbAll sorted garbE addLast cnt freedS freedND safe safeAdd safeGarb safeSum safeFree hrun q_epoch q_lae q_pc q_garb q_cnt q_st q_tick q_freed q_joinT; grind
    case joinC => clear runN runE joinE tickE outC addS garbS garbND garbDisj garbAll sorted garbE addLast cnt freedS freedND safe safeAdd safeGarb safeSum safeFree hrun q_epoch q_lae q_pc q_garb q_cnt q_st q_tick q_freed q_outT; grind
    case addS => clear runN runE joinE outC joinC garbND garbDisj garbAll sorted garbE addLast cnt freedS freedND safe safeAdd safeGarb safeSum safeFree hrun q_lae q_garb q_cnt q_tick q_freed q_clock q_joinT q_outT; grind
    case garbS => simpa only [q_garb, q_st] using garbS
    case garbND => simpa only [q_garb, q_st] using garbND
    case garbDisj => simpa only [q_garb, q_st] using garbDisj
    case garbAll => simpa only [q_garb, q_st] using garbAll
    case sorted => simpa only [q_garb] using sorted
    case garbE => simpa only [q_garb, q_epoch] using garbE
    case addLast => clear runN runE joinE tickE outC joinC garbS garbND garbDisj garbAll sorted cnt freedS freedND safe safeAdd safeGarb safeSum safeFree hrun q_lae q_cnt q_st q_tick q_freed q_clock q_joinT q_outT; grind
    case cnt => simpa only [q_cnt, q_garb] using cnt
    case freedS => simpa only [q_freed, q_st] using freedS
    case freedND => simpa only [q_freed, q_st] using freedND
    case safe => clear runN runE joinE tickE garbND garbDisj garbAll sorted garbE addLast cnt freedS freedND safeAdd safeGarb safeSum q_epoch q_lae q_garb q_cnt q_tick q_freed; simp only [Out] at *; grind
    case safeAdd => clear runN joinE tickE garbS garbND garbDisj garbAll sorted garbE addLast cnt freedS freedND safe safeGarb safeSum safeFree q_garb q_cnt q_tick q_freed; grind
    case safeGarb => clear runN runE joinE tickE garbND garbDisj garbAll sorted garbE addLast cnt freedS freedND safe safeSum safeFree q_epoch q_cnt q_tick q_freed; grind
    case safeSum => clear runN runE joinE tickE garbND garbDisj garbAll sorted garbE addLast cnt freedS freedND safe safeAdd safeFree q_epoch q_cnt q_tick q_freed; grind
    case safeFree => clear runE joinE tickE garbND garbDisj garbAll sorted garbE addLast cnt freedS freedND safe safeAdd q_epoch q_cnt q_tick q_freed; grind
  · cases hs

set_option maxHeartbeats 400000 in
theorem inv_addLink {n : Nat} {s s' : State} {t : Nat} (h : Inv n s) (hc : Contract s (.addLink t))
    (hs : step n s (.addLink t) = some s') : Inv n s' := by
  obtain ⟨runN, runE, joinE, tickE, outC, joinC, addS, garbS, garbND, garbDisj, garbAll, sorted, garbE, addLast, cnt,
    freedS, freedND, safe, safeAdd, safeGarb, safeSum, safeFree⟩ := h
  simp only [Contract] at hc
  simp only [step, step'] at hs
  split at hs
  · rename_i o d hpc
    have e1 := Option.some.inj hs
    clear hs
    have q_epoch : s'.epoch = s.epoch := by rw [← e1]
    have q_lae : s'.lae = s.lae := by rw [← e1]
    have q_pc : s'.pc = upd s.pc t (if THRESHOLD < s.cnt t + 1 then .summing 0 0 else .active) := by rw [← e1]
    have q_garb : s'.garb = upd s.garb t (s.garb t ++ [(o, d)]) := by rw [← e1]
    have q_cnt : s'.cnt = upd s.cnt t (s.cnt t + 1) := by rw [← e1]
    have q_st : s'.st = upd s.st o .retired := by rw [← e1]
    have q_tick : s'.tick = s.tick := by rw [← e1]
    have q_freed : s'.freed = s.freed := by rw [← e1]
    have q_clock : s'.clock = s.clock + 1 := by rw [← e1]
    have q_joinT : s'.joinT = s.joinT := by rw [← e1]
    have q_outT : s'.outT = s.outT := by rw [← e1]
    clear e1
    replace q_lae := fun x => congrFun q_lae x
    replace q_pc := fun x => congrFun q_pc x
    simp only [upd] at q_pc
    replace q_garb := fun x => congrFun q_garb x
    simp only [upd] at q_garb
    replace q_cnt := fun x => congrFun q_cnt x
    simp only [upd] at q_cnt
    replace q_st := fun x => congrFun q_st x
    simp only [upd] at q_st
    replace q_tick := fun x => congrFun q_tick x
    replace q_joinT := fun x => congrFun q_joinT x
    replace q_outT := fun x => congrFun q_outT x
    have hrun : ∀ x, Running s' x → (Running s x ∧ s'.lae x = s.lae x ∧ s'.joinT x = s.joinT x) ∨ (s'.joinT x = s.clock + 1 ∧ s.pc x = .joining (s'.lae x)) := by
      intro x hx
      by_cases hx2 : x = t
      · subst hx2; simp only [Running, q_pc, q_joinT, q_lae] at *; grind
      · left; refine ⟨?_, ?_, ?_⟩
        · simpa only [Running, q_pc, hx2, if_false] using hx
        · simp only [q_lae, hx2, if_false]
        · simp only [q_joinT, hx2, if_false]
    constructor
    case runN => clear runE joinE tickE outC joinC addS garbS garbND garbDisj garbAll sorted garbE addLast cnt freedS freedND safe safeAdd safeGarb safeSum safeFree hrun q_epoch q_lae q_garb q_cnt q_st q_tick q_freed q_clock q_joinT q_outT; grind
    case runE => clear runN outC joinC addS garbS garbND garbDisj garbAll sorted garbE addLast cnt freedS freedND safe safeAdd safeGarb safeSum safeFree q_garb q_cnt q_st q_tick q_freed q_clock q_outT; grind
    case joinE => clear runN runE outC joinC addS garbS garbND garbDisj garbAll sorted garbE addLast cnt freedS freedND safe safeAdd safeGarb safeSum safeFree hrun q_lae q_garb q_cnt q_st q_tick q_freed q_clock q_joinT q_outT; grind
    case tickE => simpa only [q_tick, q_epoch] using tickE
    case outC => clear runN runE joinE tickE joinC addS garbS garbND garbDisj garbAll sorted garbE addLast cnt freedS freedND safe safeAdd safeGarb safeSum safeFree hrun q_epoch q_lae q_pc q_garb q_cnt q_st q_tick q_freed q_joinT; grind
    case joinC => clear runN runE joinE tickE outC addS garbS garbND garbDisj garbAll sorted garbE addLast cnt freedS freedND safe safeAdd safeGarb safeSum safeFree hrun q_epoch q_lae q_pc q_garb q_cnt q_st q_tick q_freed q_outT; grind
    case addS => clear runN runE joinE outC joinC garbND garbDisj garbAll sorted garbE addLast cnt freedS freedND safe safeAdd safeGarb safeSum safeFree hrun q_lae q_garb q_cnt q_tick q_freed q_clock q_joinT q_outT; grind
    case garbS => clear runN runE joinE tickE outC joinC garbAll sorted garbE addLast cnt freedS freedND safe safeAdd safeGarb safeSum safeFree hrun q_epoch q_lae q_pc q_cnt q_tick q_freed q_clock q_joinT q_outT; grind
    case garbND => clear runN runE joinE tickE outC joinC garbDisj garbAll sorted garbE addLast cnt freedS freedND safe safeAdd safeGarb safeSum safeFree hrun q_epoch q_lae q_pc q_cnt q_tick q_freed q_clock q_joinT q_outT; grind
    case garbDisj => clear runN runE joinE tickE outC joinC garbND garbAll sorted garbE addLast cnt freedS freedND safe safeAdd safeGarb safeSum safeFree hrun q_epoch q_lae q_pc q_cnt q_tick q_freed q_clock q_joinT q_outT; grind
    case garbAll =>
      intro x hx
      by_cases hxo : x = o
      · refine ⟨t, d, ?_⟩
        rw [q_garb]; simp [hxo]
      · rw [q_st, if_neg hxo] at hx
        obtain ⟨u, d', hu⟩ := garbAll x hx
        refine ⟨u, d', ?_⟩
        rw [q_garb]
        by_cases hut : u = t
        · subst hut; simp [hu]
        · simp [hut, hu]
    case sorted => clear runN runE joinE tickE outC joinC addS garbS garbND garbDisj garbAll garbE cnt freedS freedND safe safeAdd safeGarb safeSum safeFree hrun q_epoch q_lae q_pc q_cnt q_st q_tick q_freed q_clock q_joinT q_outT; grind
    case garbE => clear runN runE joinE outC joinC garbS garbND garbDisj garbAll sorted addLast cnt freedS freedND safe safeAdd safeGarb safeSum safeFree hrun q_lae q_pc q_cnt q_st q_tick q_freed q_clock q_joinT q_outT; grind
    case addLast => clear runN runE joinE tickE outC joinC garbS garbND garbDisj garbAll sorted cnt freedS freedND safe safeAdd safeGarb safeSum safeFree hrun q_lae q_cnt q_st q_tick q_freed q_clock q_joinT q_outT; grind
    case cnt => clear runN runE joinE tickE outC joinC addS garbS garbND garbDisj garbAll sorted garbE addLast freedS freedND safe safeAdd safeGarb safeSum safeFree hrun q_epoch q_lae q_pc q_st q_tick q_freed q_clock q_joinT q_outT; grind
    case freedS => clear runN runE joinE tickE outC joinC garbND garbDisj garbAll sorted garbE addLast cnt freedND safe safeAdd safeGarb safeSum safeFree hrun q_epoch q_lae q_pc q_garb q_cnt q_tick q_clock q_joinT q_outT; grind
    case freedND => clear runN runE joinE tickE outC joinC addS garbND garbDisj garbAll sorted garbE addLast cnt safe safeAdd safeGarb safeSum safeFree hrun q_epoch q_lae q_pc q_garb q_cnt q_tick q_clock q_joinT q_outT; grind
    case safe => clear runN runE joinE tickE garbND garbDisj garbAll sorted garbE addLast cnt freedS freedND safeAdd safeGarb safeSum q_epoch q_lae q_garb q_cnt q_tick q_freed; simp only [Out] at *; grind
    case safeAdd => clear runN joinE tickE garbS garbND garbDisj garbAll sorted garbE addLast cnt freedS freedND safe safeGarb safeSum safeFree q_garb q_cnt q_tick q_freed; grind
    case safeGarb => clear runN runE joinE tickE garbND garbDisj garbAll sorted garbE addLast cnt freedS freedND safe safeSum safeFree q_epoch q_cnt q_tick q_freed; grind
    case safeSum => clear runN runE joinE tickE garbND garbDisj garbAll sorted garbE addLast cnt freedS freedND safe safeAdd safeFree q_epoch q_cnt q_tick q_freed; grind
    case safeFree => clear runE joinE tickE garbND garbDisj garbAll sorted garbE addLast cnt freedS freedND safe safeAdd q_epoch q_cnt q_tick q_freed; grind
  · cases hs

set_option maxHeartbeats 400000 in
theorem inv_gcRead {n : Nat} {s s' : State} {t : Nat} (h : Inv n s) (hc : Contract s (.gcRead t))
    (hs : step n s (.gcRead t) = some s') : Inv n s' := by
  obtain ⟨runN, runE, joinE, tickE, outC, joinC, addS, garbS, garbND, garbDisj, garbAll, sorted, garbE, addLast, cnt,
    freedS, freedND, safe, safeAdd, safeGarb, safeSum, safeFree⟩ := h
  simp only [Contract] at hc
  simp only [step, step'] at hs
  split at hs
  · rename_i i m hpc
    have e1 := Option.some.inj hs
    clear hs
    have q_epoch : s'.epoch = s.epoch := by rw [← e1]
    have q_lae : s'.lae = s.lae := by rw [← e1]
    have q_pc : s'.pc = upd s.pc t (if i + 1 < n then .summing (i + 1) (if i = 0 then s.lae 0 else min (s.lae i) m) else .freeing (if i = 0 then s.lae 0 else min (s.lae i) m)) := by rw [← e1]
    have q_garb : s'.garb = s.garb := by rw [← e1]
    have q_cnt : s'.cnt = s.cnt := by rw [← e1]
    have q_st : s'.st = s.st := by rw [← e1]
    have q_tick : s'.tick = s.tick := by rw [← e1]
    have q_freed : s'.freed = s.freed := by rw [← e1]
    have q_clock : s'.clock = s.clock + 1 := by rw [← e1]
    have q_joinT : s'.joinT = s.joinT := by rw [← e1]
    have q_outT : s'.outT = s.outT := by rw [← e1]
    clear e1
    replace q_lae := fun x => congrFun q_lae x
    replace q_pc := fun x => congrFun q_pc x
    simp only [upd] at q_pc
    replace q_garb := fun x => congrFun q_garb x
    replace q_cnt := fun x => congrFun q_cnt x
    replace q_st := fun x => congrFun q_st x
    replace q_tick := fun x => congrFun q_tick x
    replace q_joinT := fun x => congrFun q_joinT x
    replace q_outT := fun x => congrFun q_outT x
    have hrun : ∀ x, Running s' x → (Running s x ∧ s'.lae x = s.lae x ∧ s'.joinT x = s.joinT x) ∨ (s'.joinT x = s.clock + 1 ∧ s.pc x = .joining (s'.lae x)) := by
      intro x hx
      by_cases hx2 : x = t
      · subst hx2; simp only [Running, q_pc, q_joinT, q_lae] at *; grind
      · left; refine ⟨?_, ?_, ?_⟩
        · simpa only [Running, q_pc, hx2, if_false] using hx
        · simp only [q_lae, hx2, if_false]
        · simp only [q_joinT, hx2, if_false]
    constructor
    case runN => clear runE joinE tickE outC joinC addS garbS garbND garbDisj garbAll sorted garbE addLast cnt freedS freedND safe safeAdd safeGarb safeSum safeFree hrun q_epoch q_lae q_garb q_cnt q_st q_tick q_freed q_clock q_joinT q_outT; grind
    case runE => clear runN outC joinC addS garbS garbND garbDisj garbAll sorted garbE addLast cnt freedS freedND safe safeAdd safeGarb safeSum safeFree q_garb q_cnt q_st q_tick q_freed q_clock q_outT; grind
    case joinE => clear runN runE outC joinC addS garbS garbND garbDisj garbAll sorted garbE addLast cnt freedS freedND safe safeAdd safeGarb safeSum safeFree hrun q_lae q_garb q_cnt q_st q_tick q_freed q_clock q_joinT q_outT; grind
    case tickE => simpa only [q_tick, q_epoch] using tickE
    case outC => clear runN runE joinE tickE joinC addS garbS garbND garbDisj garbAll sorted garbE addLast cnt freedS freedND safe safeAdd safeGarb safeSum safeFree hrun q_epoch q_lae q_pc q_garb q_cnt q_st q_tick q_freed q_joinT; grind
    case joinC => clear runN runE joinE tickE outC addS garbS garbND garbDisj garbAll sorted garbE addLast cnt freedS freedND safe safeAdd safeGarb safeSum safeFree hrun q_epoch q_lae q_pc q_garb q_cnt q_st q_tick q_freed q_outT; grind
    case addS => clear runN runE joinE outC joinC garbND garbDisj garbAll sorted garbE addLast cnt freedS freedND safe safeAdd safeGarb safeSum safeFree hrun q_lae q_garb q_cnt q_tick q_freed q_clock q_joinT q_outT; grind
    case garbS => simpa only [q_garb, q_st] using garbS
    case garbND => simpa only [q_garb, q_st] using garbND
    case garbDisj => simpa only [q_garb, q_st] using garbDisj
    case garbAll => simpa only [q_garb, q_st] using garbAll
    case sorted => simpa only [q_garb] using sorted
    case garbE => simpa only [q_garb, q_epoch] using garbE
    case addLast => clear runN runE joinE tickE outC joinC garbS garbND garbDisj garbAll sorted cnt freedS freedND safe safeAdd safeGarb safeSum safeFree hrun q_lae q_cnt q_st q_tick q_freed q_clock q_joinT q_outT; grind
    case cnt => simpa only [q_cnt, q_garb] using cnt
    case freedS => simpa only [q_freed, q_st] using freedS
    case freedND => simpa only [q_freed, q_st] using freedND
    case safe => clear runN runE joinE tickE garbND garbDisj garbAll sorted garbE addLast cnt freedS freedND safeAdd safeGarb safeSum q_epoch q_lae q_garb q_cnt q_tick q_freed; simp only [Out] at *; grind
    case safeAdd => clear runN joinE tickE garbS garbND garbDisj garbAll sorted garbE addLast cnt freedS freedND safe safeGarb safeSum safeFree q_garb q_cnt q_tick q_freed; grind
    case safeGarb => clear runN runE joinE tickE garbND garbDisj garbAll sorted garbE addLast cnt freedS freedND safe safeSum safeFree q_epoch q_cnt q_tick q_freed; grind
    case safeSum =>
      intro t' u o d i' m' hr hj hg hp hlt
      rw [q_joinT, q_outT] at hj
      rw [q_garb] at hg
      rcases hrun t' hr with ⟨hr', -, -⟩ | ⟨h1, -⟩
      · by_cases hut : u = t
        · rw [q_pc, if_pos hut] at hp
          split at hp
          · simp only [PC.summing.injEq] at hp
            obtain ⟨h1, h2⟩ := hp
            have hg' := safeGarb t' u o d hr' hj hg
            have hs' := safeSum t' u o d i m hr' hj hg (hut ▸ hpc)
            by_cases hti : t' = i
            · subst hti
              by_cases h0 : t' = 0
              · rw [if_pos h0] at h2; rw [h0] at hg'; omega
              · rw [if_neg h0] at h2
                have := Nat.min_le_left (s.lae t') m
                omega
            · have := hs' (by omega)
              have h0 : i ≠ 0 := by omega
              rw [if_neg h0] at h2
              have := Nat.min_le_right (s.lae i) m
              omega
          · cases hp
        · rw [q_pc, if_neg hut] at hp
          exact safeSum t' u o d i' m' hr' hj hg hp hlt
      · have h2 := q_joinT t'
        have h3 := outC o
        omega
    case safeFree =>
      intro t' u o d m' hr hj hg hp
      rw [q_joinT, q_outT] at hj
      rw [q_garb] at hg
      rcases hrun t' hr with ⟨hr', -, -⟩ | ⟨h1, -⟩
      · by_cases hut : u = t
        · rw [q_pc, if_pos hut] at hp
          split at hp
          · cases hp
          · simp only [PC.freeing.injEq] at hp
            have hn : t' < n := by
              apply runN
              intro h
              simp [Running, h] at hr'
            have hg' := safeGarb t' u o d hr' hj hg
            have hs' := safeSum t' u o d i m hr' hj hg (hut ▸ hpc)
            by_cases hti : t' = i
            · subst hti
              by_cases h0 : t' = 0
              · rw [if_pos h0] at hp; rw [h0] at hg'; omega
              · rw [if_neg h0] at hp
                have := Nat.min_le_left (s.lae t') m
                omega
            · have := hs' (by omega)
              have h0 : i ≠ 0 := by omega
              rw [if_neg h0] at hp
              have := Nat.min_le_right (s.lae i) m
              omega
        · rw [q_pc, if_neg hut] at hp
          exact safeFree t' u o d m' hr' hj hg hp
      · have h2 := q_joinT t'
        have h3 := outC o
        omega
  · cases hs

set_option maxHeartbeats 400000 in
theorem inv_leaveRead {n : Nat} {s s' : State} {t : Nat} (h : Inv n s) (hc : Contract s (.leaveRead t))
    (hs : step n s (.leaveRead t) = some s') : Inv n s' := by
  obtain ⟨runN, runE, joinE, tickE, outC, joinC, addS, garbS, garbND, garbDisj, garbAll, sorted, garbE, addLast, cnt,
    freedS, freedND, safe, safeAdd, safeGarb, safeSum, safeFree⟩ := h
  simp only [Contract] at hc
  simp only [step, step'] at hs
  split at hs
  · rename_i hif
    have e1 := Option.some.inj hs
    clear hs
    have q_epoch : s'.epoch = s.epoch := by rw [← e1]
    have q_lae : s'.lae = s.lae := by rw [← e1]
    have q_pc : s'.pc = upd s.pc t (.leaving s.epoch) := by rw [← e1]
    have q_garb : s'.garb = s.garb := by rw [← e1]
    have q_cnt : s'.cnt = s.cnt := by rw [← e1]
    have q_st : s'.st = s.st := by rw [← e1]
    have q_tick : s'.tick = s.tick := by rw [← e1]
    have q_freed : s'.freed = s.freed := by rw [← e1]
    have q_clock : s'.clock = s.clock + 1 := by rw [← e1]
    have q_joinT : s'.joinT = s.joinT := by rw [← e1]
    have q_outT : s'.outT = s.outT := by rw [← e1]
    clear e1
    replace q_lae := fun x => congrFun q_lae x
    replace q_pc := fun x => congrFun q_pc x
    simp only [upd] at q_pc
    replace q_garb := fun x => congrFun q_garb x
    replace q_cnt := fun x => congrFun q_cnt x
    replace q_st := fun x => congrFun q_st x
    replace q_tick := fun x => congrFun q_tick x
    replace q_joinT := fun x => congrFun q_joinT x
    replace q_outT := fun x => congrFun q_outT x
    have hrun : ∀ x, Running s' x → (Running s x ∧ s'.lae x = s.lae x ∧ s'.joinT x = s.joinT x) ∨ (s'.joinT x = s.clock + 1 ∧ s.pc x = .joining (s'.lae x)) := by
      intro x hx
      by_cases hx2 : x = t
      · subst hx2; simp only [Running, q_pc, q_joinT, q_lae] at *; grind
      · left; refine ⟨?_, ?_, ?_⟩
        · simpa only [Running, q_pc, hx2, if_false] using hx
        · simp only [q_lae, hx2, if_false]
        · simp only [q_joinT, hx2, if_false]
    constructor
    case runN => clear runE joinE tickE outC joinC addS garbS garbND garbDisj garbAll sorted garbE addLast cnt freedS freedND safe safeAdd safeGarb safeSum safeFree hrun q_epoch q_lae q_garb q_cnt q_st q_tick q_freed q_clock q_joinT q_outT; grind
    case runE => clear runN outC joinC addS garbS garbND garbDisj garbAll sorted garbE addLast cnt freedS freedND safe safeAdd safeGarb safeSum safeFree q_garb q_cnt q_st q_tick q_freed q_clock q_outT; grind
    case joinE => clear runN runE outC joinC addS garbS garbND garbDisj garbAll sorted garbE addLast cnt freedS freedND safe safeAdd safeGarb safeSum safeFree hrun q_lae q_garb q_cnt q_st q_tick q_freed q_clock q_joinT q_outT; grind
    case tickE => simpa only [q_tick, q_epoch] using tickE
    case outC => clear runN runE joinE tickE joinC addS garbS garbND garbDisj garbAll sorted garbE addLast cnt freedS freedND safe safeAdd safeGarb safeSum safeFree hrun q_epoch q_lae q_pc q_garb q_cnt q_st q_tick q_freed q_joinT; grind
    case joinC => clear runN runE joinE tickE outC addS garbS garbND garbDisj garbAll sorted garbE addLast cnt freedS freedND safe safeAdd safeGarb safeSum safeFree hrun q_epoch q_lae q_pc q_garb q_cnt q_st q_tick q_freed q_outT; grind
    case addS => clear runN runE joinE outC joinC garbND garbDisj garbAll sorted garbE addLast cnt freedS freedND safe safeAdd safeGarb safeSum safeFree hrun q_lae q_garb q_cnt q_tick q_freed q_clock q_joinT q_outT; grind
    case garbS => simpa only [q_garb, q_st] using garbS
    case garbND => simpa only [q_garb, q_st] using garbND
    case garbDisj => simpa only [q_garb, q_st] using garbDisj
    case garbAll => simpa only [q_garb, q_st] using garbAll
    case sorted => simpa only [q_garb] using sorted
    case garbE => simpa only [q_garb, q_epoch] using garbE
    case addLast => clear runN runE joinE tickE outC joinC garbS garbND garbDisj garbAll sorted cnt freedS freedND safe safeAdd safeGarb safeSum safeFree hrun q_lae q_cnt q_st q_tick q_freed q_clock q_joinT q_outT; grind
    case cnt => simpa only [q_cnt, q_garb] using cnt
    case freedS => simpa only [q_freed, q_st] using freedS
    case freedND => simpa only [q_freed, q_st] using freedND
    case safe => clear runN runE joinE tickE garbND garbDisj garbAll sorted garbE addLast cnt freedS freedND safeAdd safeGarb safeSum q_epoch q_lae q_garb q_cnt q_tick q_freed; simp only [Out] at *; grind
    case safeAdd => clear runN joinE tickE garbS garbND garbDisj garbAll sorted garbE addLast cnt freedS freedND safe safeGarb safeSum safeFree q_garb q_cnt q_tick q_freed; grind
    case safeGarb => clear runN runE joinE tickE garbND garbDisj garbAll sorted garbE addLast cnt freedS freedND safe safeSum safeFree q_epoch q_cnt q_tick q_freed; grind
    case safeSum => clear runN runE joinE tickE garbND garbDisj garbAll sorted garbE addLast cnt freedS freedND safe safeAdd safeFree q_epoch q_cnt q_tick q_freed; grind
    case safeFree => clear runE joinE tickE garbND garbDisj garbAll sorted garbE addLast cnt freedS freedND safe safeAdd q_epoch q_cnt q_tick q_freed; grind
  · cases hs

set_option maxHeartbeats 400000 in
theorem inv_leaveStore {n : Nat} {s s' : State} {t : Nat} (h : Inv n s) (hc : Contract s (.leaveStore t))
    (hs : step n s (.leaveStore t) = some s') : Inv n s' := by
  obtain ⟨runN, runE, joinE, tickE, outC, joinC, addS, garbS, garbND, garbDisj, garbAll, sorted, garbE, addLast, cnt,
    freedS, freedND, safe, safeAdd, safeGarb, safeSum, safeFree⟩ := h
  simp only [Contract] at hc
  simp only [step, step'] at hs
  split at hs
  · rename_i e hpc
    have e1 := Option.some.inj hs
    clear hs
    have q_epoch : s'.epoch = s.epoch := by rw [← e1]
    have q_lae : s'.lae = upd s.lae t e := by rw [← e1]
    have q_pc : s'.pc = upd s.pc t .idle := by rw [← e1]
    have q_garb : s'.garb = s.garb := by rw [← e1]
    have q_cnt : s'.cnt = s.cnt := by rw [← e1]
    have q_st : s'.st = s.st := by rw [← e1]
    have q_tick : s'.tick = s.tick := by rw [← e1]
    have q_freed : s'.freed = s.freed := by rw [← e1]
    have q_clock : s'.clock = s.clock + 1 := by rw [← e1]
    have q_joinT : s'.joinT = s.joinT := by rw [← e1]
    have q_outT : s'.outT = s.outT := by rw [← e1]
    clear e1
    replace q_lae := fun x => congrFun q_lae x
    simp only [upd] at q_lae
    replace q_pc := fun x => congrFun q_pc x
    simp only [upd] at q_pc
    replace q_garb := fun x => congrFun q_garb x
    replace q_cnt := fun x => congrFun q_cnt x
    replace q_st := fun x => congrFun q_st x
    replace q_tick := fun x => congrFun q_tick x
    replace q_joinT := fun x => congrFun q_joinT x
    replace q_outT := fun x => congrFun q_outT x
    have hrun : ∀ x, Running s' x → (Running s x ∧ s'.lae x = s.lae x ∧ s'.joinT x = s.joinT x) ∨ (s'.joinT x = s.clock + 1 ∧ s.pc x = .joining (s'.lae x)) := by
      intro x hx
      by_cases hx2 : x = t
      · subst hx2; simp only [Running, q_pc, q_joinT, q_lae] at *; grind
      · left; refine ⟨?_, ?_, ?_⟩
        · simpa only [Running, q_pc, hx2, if_false] using hx
        · simp only [q_lae, hx2, if_false]
        · simp only [q_joinT, hx2, if_false]
    constructor
    case runN => clear runE joinE tickE outC joinC addS garbS garbND garbDisj garbAll sorted garbE addLast cnt freedS freedND safe safeAdd safeGarb safeSum safeFree hrun q_epoch q_lae q_garb q_cnt q_st q_tick q_freed q_clock q_joinT q_outT; grind
    case runE => clear runN outC joinC addS garbS garbND garbDisj garbAll sorted garbE addLast cnt freedS freedND safe safeAdd safeGarb safeSum safeFree q_garb q_cnt q_st q_tick q_freed q_clock q_outT; grind
    case joinE => clear runN runE outC joinC addS garbS garbND garbDisj garbAll sorted garbE addLast cnt freedS freedND safe safeAdd safeGarb safeSum safeFree hrun q_lae q_garb q_cnt q_st q_tick q_freed q_clock q_joinT q_outT; grind
    case tickE => simpa only [q_tick, q_epoch] using tickE
    case outC => clear runN runE joinE tickE joinC addS garbS garbND garbDisj garbAll sorted garbE addLast cnt freedS freedND safe safeAdd safeGarb safeSum safeFree hrun q_epoch q_lae q_pc q_garb q_cnt q_st q_tick q_freed q_joinT; grind
    case joinC => clear runN runE joinE tickE outC addS garbS garbND garbDisj garbAll sorted garbE addLast cnt freedS freedND safe safeAdd safeGarb safeSum safeFree hrun q_epoch q_lae q_pc q_garb q_cnt q_st q_tick q_freed q_outT; grind
    case addS => clear runN runE joinE outC joinC garbND garbDisj garbAll sorted garbE addLast cnt freedS freedND safe safeAdd safeGarb safeSum safeFree hrun q_lae q_garb q_cnt q_tick q_freed q_clock q_joinT q_outT; grind
    case garbS => simpa only [q_garb, q_st] using garbS
    case garbND => simpa only [q_garb, q_st] using garbND
    case garbDisj => simpa only [q_garb, q_st] using garbDisj
    case garbAll => simpa only [q_garb, q_st] using garbAll
    case sorted => simpa only [q_garb] using sorted
    case garbE => simpa only [q_garb, q_epoch] using garbE
    case addLast => clear runN runE joinE tickE outC joinC garbS garbND garbDisj garbAll sorted cnt freedS freedND safe safeAdd safeGarb safeSum safeFree hrun q_lae q_cnt q_st q_tick q_freed q_clock q_joinT q_outT; grind
    case cnt => simpa only [q_cnt, q_garb] using cnt
    case freedS => simpa only [q_freed, q_st] using freedS
    case freedND => simpa only [q_freed, q_st] using freedND
    case safe => clear runN runE joinE tickE garbND garbDisj garbAll sorted garbE addLast cnt freedS freedND safeAdd safeGarb safeSum q_epoch q_lae q_garb q_cnt q_tick q_freed; simp only [Out] at *; grind
    case safeAdd => clear runN joinE tickE garbS garbND garbDisj garbAll sorted garbE addLast cnt freedS freedND safe safeGarb safeSum safeFree q_garb q_cnt q_tick q_freed; grind
    case safeGarb => clear runN runE joinE tickE garbND garbDisj garbAll sorted garbE addLast cnt freedS freedND safe safeSum safeFree q_epoch q_cnt q_tick q_freed; grind
    case safeSum => clear runN runE joinE tickE garbND garbDisj garbAll sorted garbE addLast cnt freedS freedND safe safeAdd safeFree q_epoch q_cnt q_tick q_freed; grind
    case safeFree => clear runE joinE tickE garbND garbDisj garbAll sorted garbE addLast cnt freedS freedND safe safeAdd q_epoch q_cnt q_tick q_freed; grind
  · cases hs

set_option maxHeartbeats 400000 in
theorem inv_tickRead {n : Nat} {s s' : State} {k : Nat} (h : Inv n s) (hc : Contract s (.tickRead k))
    (hs : step n s (.tickRead k) = some s') : Inv n s' := by
  obtain ⟨runN, runE, joinE, tickE, outC, joinC, addS, garbS, garbND, garbDisj, garbAll, sorted, garbE, addLast, cnt,
    freedS, freedND, safe, safeAdd, safeGarb, safeSum, safeFree⟩ := h
  simp only [Contract] at hc
  simp only [step, step'] at hs
  split at hs
  · rename_i htk
    have e1 := Option.some.inj hs
    clear hs
    have q_epoch : s'.epoch = s.epoch := by rw [← e1]
    have q_lae : s'.lae = s.lae := by rw [← e1]
    have q_pc : s'.pc = s.pc := by rw [← e1]
    have q_garb : s'.garb = s.garb := by rw [← e1]
    have q_cnt : s'.cnt = s.cnt := by rw [← e1]
    have q_st : s'.st = s.st := by rw [← e1]
    have q_tick : s'.tick = upd s.tick k (some s.epoch) := by rw [← e1]
    have q_freed : s'.freed = s.freed := by rw [← e1]
    have q_clock : s'.clock = s.clock + 1 := by rw [← e1]
    have q_joinT : s'.joinT = s.joinT := by rw [← e1]
    have q_outT : s'.outT = s.outT := by rw [← e1]
    clear e1
    replace q_lae := fun x => congrFun q_lae x
    replace q_pc := fun x => congrFun q_pc x
    replace q_garb := fun x => congrFun q_garb x
    replace q_cnt := fun x => congrFun q_cnt x
    replace q_st := fun x => congrFun q_st x
    replace q_tick := fun x => congrFun q_tick x
    simp only [upd] at q_tick
    replace q_joinT := fun x => congrFun q_joinT x
    replace q_outT := fun x => congrFun q_outT x
    have hrun : ∀ x, Running s' x → (Running s x ∧ s'.lae x = s.lae x ∧ s'.joinT x = s.joinT x) ∨ (s'.joinT x = s.clock + 1 ∧ s.pc x = .joining (s'.lae x)) := by
      intro x hx; left; simp only [Running, q_pc, q_lae, q_joinT] at *; grind
    constructor
    case runN => simpa only [q_pc] using runN
    case runE => simpa only [q_pc, q_lae, q_epoch, q_joinT, Running, Out] using runE
    case joinE => simpa only [q_pc, q_epoch] using joinE
    case tickE => clear runN runE joinE outC joinC addS garbS garbND garbDisj garbAll sorted garbE addLast cnt freedS freedND safe safeAdd safeGarb safeSum safeFree hrun q_lae q_pc q_garb q_cnt q_st q_freed q_clock q_joinT q_outT; grind
    case outC => clear runN runE joinE tickE joinC addS garbS garbND garbDisj garbAll sorted garbE addLast cnt freedS freedND safe safeAdd safeGarb safeSum safeFree hrun q_epoch q_lae q_pc q_garb q_cnt q_st q_tick q_freed q_joinT; grind
    case joinC => clear runN runE joinE tickE outC addS garbS garbND garbDisj garbAll sorted garbE addLast cnt freedS freedND safe safeAdd safeGarb safeSum safeFree hrun q_epoch q_lae q_pc q_garb q_cnt q_st q_tick q_freed q_outT; grind
    case addS => simpa only [q_pc, q_st, q_epoch] using addS
    case garbS => simpa only [q_garb, q_st] using garbS
    case garbND => simpa only [q_garb, q_st] using garbND
    case garbDisj => simpa only [q_garb, q_st] using garbDisj
    case garbAll => simpa only [q_garb, q_st] using garbAll
    case sorted => simpa only [q_garb] using sorted
    case garbE => simpa only [q_garb, q_epoch] using garbE
    case addLast => simpa only [q_garb, q_pc, q_epoch] using addLast
    case cnt => simpa only [q_cnt, q_garb] using cnt
    case freedS => simpa only [q_freed, q_st] using freedS
    case freedND => simpa only [q_freed, q_st] using freedND
    case safe => simpa only [q_st, q_outT, q_joinT, q_pc, Running, Out] using safe
    case safeAdd => simpa only [q_st, q_outT, q_joinT, q_pc, q_lae, q_epoch, Running, Out] using safeAdd
    case safeGarb => simpa only [q_st, q_outT, q_joinT, q_garb, q_lae, q_pc, Running, Out] using safeGarb
    case safeSum => simpa only [q_st, q_outT, q_joinT, q_garb, q_lae, q_pc, Running, Out] using safeSum
    case safeFree => simpa only [q_st, q_outT, q_joinT, q_garb, q_lae, q_pc, Running, Out] using safeFree
  · cases hs

set_option maxHeartbeats 400000 in
theorem inv_tickWrite {n : Nat} {s s' : State} {k : Nat} (h : Inv n s) (hc : Contract s (.tickWrite k))
    (hs : step n s (.tickWrite k) = some s') : Inv n s' := by
  obtain ⟨runN, runE, joinE, tickE, outC, joinC, addS, garbS, garbND, garbDisj, garbAll, sorted, garbE, addLast, cnt,
    freedS, freedND, safe, safeAdd, safeGarb, safeSum, safeFree⟩ := h
  simp only [Contract] at hc
  simp only [step, step'] at hs
  split at hs
  · rename_i e htk
    have e1 := Option.some.inj hs
    clear hs
    have q_epoch : s'.epoch = e + 1 := by rw [← e1]
    have q_lae : s'.lae = s.lae := by rw [← e1]
    have q_pc : s'.pc = s.pc := by rw [← e1]
    have q_garb : s'.garb = s.garb := by rw [← e1]
    have q_cnt : s'.cnt = s.cnt := by rw [← e1]
    have q_st : s'.st = s.st := by rw [← e1]
    have q_tick : s'.tick = upd s.tick k none := by rw [← e1]
    have q_freed : s'.freed = s.freed := by rw [← e1]
    have q_clock : s'.clock = s.clock + 1 := by rw [← e1]
    have q_joinT : s'.joinT = s.joinT := by rw [← e1]
    have q_outT : s'.outT = s.outT := by rw [← e1]
    clear e1
    replace q_lae := fun x => congrFun q_lae x
    replace q_pc := fun x => congrFun q_pc x
    replace q_garb := fun x => congrFun q_garb x
    replace q_cnt := fun x => congrFun q_cnt x
    replace q_st := fun x => congrFun q_st x
    replace q_tick := fun x => congrFun q_tick x
    simp only [upd] at q_tick
    replace q_joinT := fun x => congrFun q_joinT x
    replace q_outT := fun x => congrFun q_outT x
    have hrun : ∀ x, Running s' x → (Running s x ∧ s'.lae x = s.lae x ∧ s'.joinT x = s.joinT x) ∨ (s'.joinT x = s.clock + 1 ∧ s.pc x = .joining (s'.lae x)) := by
      intro x hx; left; simp only [Running, q_pc, q_lae, q_joinT] at *; grind
    constructor
    case runN => simpa only [q_pc] using runN
    case runE => clear runN outC joinC addS garbS garbND garbDisj garbAll sorted garbE addLast cnt freedS freedND safe safeAdd safeGarb safeSum safeFree q_garb q_cnt q_st q_tick q_freed q_clock q_outT; grind
    case joinE => clear runN runE outC joinC addS garbS garbND garbDisj garbAll sorted garbE addLast cnt freedS freedND safe safeAdd safeGarb safeSum safeFree hrun q_lae q_garb q_cnt q_st q_tick q_freed q_clock q_joinT q_outT; grind
    case tickE => clear runN runE joinE outC joinC addS garbS garbND garbDisj garbAll sorted garbE addLast cnt freedS freedND safe safeAdd safeGarb safeSum safeFree hrun q_lae q_pc q_garb q_cnt q_st q_freed q_clock q_joinT q_outT; grind
    case outC => clear runN runE joinE tickE joinC addS garbS garbND garbDisj garbAll sorted garbE addLast cnt freedS freedND safe safeAdd safeGarb safeSum safeFree hrun q_epoch q_lae q_pc q_garb q_cnt q_st q_tick q_freed q_joinT; grind
    case joinC => clear runN runE joinE tickE outC addS garbS garbND garbDisj garbAll sorted garbE addLast cnt freedS freedND safe safeAdd safeGarb safeSum safeFree hrun q_epoch q_lae q_pc q_garb q_cnt q_st q_tick q_freed q_outT; grind
    case addS => clear runN runE joinE outC joinC garbND garbDisj garbAll sorted garbE addLast cnt freedS freedND safe safeAdd safeGarb safeSum safeFree hrun q_lae q_garb q_cnt q_tick q_freed q_clock q_joinT q_outT; grind
    case garbS => simpa only [q_garb, q_st] using garbS
    case garbND => simpa only [q_garb, q_st] using garbND
    case garbDisj => simpa only [q_garb, q_st] using garbDisj
    case garbAll => simpa only [q_garb, q_st] using garbAll
    case sorted => simpa only [q_garb] using sorted
    case garbE => clear runN runE joinE outC joinC garbS garbND garbDisj garbAll sorted addLast cnt freedS freedND safe safeAdd safeGarb safeSum safeFree hrun q_lae q_pc q_cnt q_st q_tick q_freed q_clock q_joinT q_outT; grind
    case addLast => clear runN runE joinE tickE outC joinC garbS garbND garbDisj garbAll sorted cnt freedS freedND safe safeAdd safeGarb safeSum safeFree hrun q_lae q_cnt q_st q_tick q_freed q_clock q_joinT q_outT; grind
    case cnt => simpa only [q_cnt, q_garb] using cnt
    case freedS => simpa only [q_freed, q_st] using freedS
    case freedND => simpa only [q_freed, q_st] using freedND
    case safe => simpa only [q_st, q_outT, q_joinT, q_pc, Running, Out] using safe
    case safeAdd => clear runN joinE tickE garbS garbND garbDisj garbAll sorted garbE addLast cnt freedS freedND safe safeGarb safeSum safeFree q_garb q_cnt q_tick q_freed; grind
    case safeGarb => simpa only [q_st, q_outT, q_joinT, q_garb, q_lae, q_pc, Running, Out] using safeGarb
    case safeSum => simpa only [q_st, q_outT, q_joinT, q_garb, q_lae, q_pc, Running, Out] using safeSum
    case safeFree => simpa only [q_st, q_outT, q_joinT, q_garb, q_lae, q_pc, Running, Out] using safeFree
  · cases hs

set_option maxHeartbeats 400000 in
theorem inv_unregister {n : Nat} {s s' : State} {t : Nat} (h : Inv n s) (hc : Contract s (.unregister t))
    (hs : step n s (.unregister t) = some s') : Inv n s' := by
  obtain ⟨runN, runE, joinE, tickE, outC, joinC, addS, garbS, garbND, garbDisj, garbAll, sorted, garbE, addLast, cnt,
    freedS, freedND, safe, safeAdd, safeGarb, safeSum, safeFree⟩ := h
  simp only [Contract] at hc
  simp only [step, step'] at hs
  split at hs
  · rename_i hif
    have e1 := Option.some.inj hs
    clear hs
    have q_epoch : s'.epoch = s.epoch := by rw [← e1]
    have q_lae : s'.lae = upd s.lae t UMAX := by rw [← e1]
    have q_pc : s'.pc = s.pc := by rw [← e1]
    have q_garb : s'.garb = s.garb := by rw [← e1]
    have q_cnt : s'.cnt = s.cnt := by rw [← e1]
    have q_st : s'.st = s.st := by rw [← e1]
    have q_tick : s'.tick = s.tick := by rw [← e1]
    have q_freed : s'.freed = s.freed := by rw [← e1]
    have q_clock : s'.clock = s.clock + 1 := by rw [← e1]
    have q_joinT : s'.joinT = s.joinT := by rw [← e1]
    have q_outT : s'.outT = s.outT := by rw [← e1]
    clear e1
    replace q_lae := fun x => congrFun q_lae x
    simp only [upd] at q_lae
    replace q_pc := fun x => congrFun q_pc x
    replace q_garb := fun x => congrFun q_garb x
    replace q_cnt := fun x => congrFun q_cnt x
    replace q_st := fun x => congrFun q_st x
    replace q_tick := fun x => congrFun q_tick x
    replace q_joinT := fun x => congrFun q_joinT x
    replace q_outT := fun x => congrFun q_outT x
    have hrun : ∀ x, Running s' x → (Running s x ∧ s'.lae x = s.lae x ∧ s'.joinT x = s.joinT x) ∨ (s'.joinT x = s.clock + 1 ∧ s.pc x = .joining (s'.lae x)) := by
      intro x hx; left; simp only [Running, q_pc, q_lae, q_joinT] at *; grind
    constructor
    case runN => simpa only [q_pc] using runN
    case runE => clear runN outC joinC addS garbS garbND garbDisj garbAll sorted garbE addLast cnt freedS freedND safe safeAdd safeGarb safeSum safeFree q_garb q_cnt q_st q_tick q_freed q_clock q_outT; grind
    case joinE => simpa only [q_pc, q_epoch] using joinE
    case tickE => simpa only [q_tick, q_epoch] using tickE
    case outC => clear runN runE joinE tickE joinC addS garbS garbND garbDisj garbAll sorted garbE addLast cnt freedS freedND safe safeAdd safeGarb safeSum safeFree hrun q_epoch q_lae q_pc q_garb q_cnt q_st q_tick q_freed q_joinT; grind
    case joinC => clear runN runE joinE tickE outC addS garbS garbND garbDisj garbAll sorted garbE addLast cnt freedS freedND safe safeAdd safeGarb safeSum safeFree hrun q_epoch q_lae q_pc q_garb q_cnt q_st q_tick q_freed q_outT; grind
    case addS => simpa only [q_pc, q_st, q_epoch] using addS
    case garbS => simpa only [q_garb, q_st] using garbS
    case garbND => simpa only [q_garb, q_st] using garbND
    case garbDisj => simpa only [q_garb, q_st] using garbDisj
    case garbAll => simpa only [q_garb, q_st] using garbAll
    case sorted => simpa only [q_garb] using sorted
    case garbE => simpa only [q_garb, q_epoch] using garbE
    case addLast => simpa only [q_garb, q_pc, q_epoch] using addLast
    case cnt => simpa only [q_cnt, q_garb] using cnt
    case freedS => simpa only [q_freed, q_st] using freedS
    case freedND => simpa only [q_freed, q_st] using freedND
    case safe => simpa only [q_st, q_outT, q_joinT, q_pc, Running, Out] using safe
    case safeAdd => clear runN joinE tickE garbS garbND garbDisj garbAll sorted garbE addLast cnt freedS freedND safe safeGarb safeSum safeFree q_garb q_cnt q_tick q_freed; grind
    case safeGarb => clear runN runE joinE tickE garbND garbDisj garbAll sorted garbE addLast cnt freedS freedND safe safeSum safeFree q_epoch q_cnt q_tick q_freed; grind
    case safeSum => clear runN runE joinE tickE garbND garbDisj garbAll sorted garbE addLast cnt freedS freedND safe safeAdd safeFree q_epoch q_cnt q_tick q_freed; grind
    case safeFree => clear runE joinE tickE garbND garbDisj garbAll sorted garbE addLast cnt freedS freedND safe safeAdd q_epoch q_cnt q_tick q_freed; grind
  · cases hs

set_option maxHeartbeats 400000 in
theorem inv_gcFree {n : Nat} {s s' : State} {t : Nat} (h : Inv n s) (hc : Contract s (.gcFree t))
    (hs : step n s (.gcFree t) = some s') : Inv n s' := by
  obtain ⟨runN, runE, joinE, tickE, outC, joinC, addS, garbS, garbND, garbDisj, garbAll, sorted, garbE, addLast, cnt,
    freedS, freedND, safe, safeAdd, safeGarb, safeSum, safeFree⟩ := h
  simp only [Contract] at hc
  simp only [step, step'] at hs
  split at hs
  · rename_i m hpc
    split at hs
    · rename_i hg
      have e1 := Option.some.inj hs
      clear hs
      have q_epoch : s'.epoch = s.epoch := by rw [← e1]
      have q_lae : s'.lae = s.lae := by rw [← e1]
      have q_pc : s'.pc = upd s.pc t .active := by rw [← e1]
      have q_garb : s'.garb = s.garb := by rw [← e1]
      have q_cnt : s'.cnt = s.cnt := by rw [← e1]
      have q_st : s'.st = s.st := by rw [← e1]
      have q_tick : s'.tick = s.tick := by rw [← e1]
      have q_freed : s'.freed = s.freed := by rw [← e1]
      have q_clock : s'.clock = s.clock + 1 := by rw [← e1]
      have q_joinT : s'.joinT = s.joinT := by rw [← e1]
      have q_outT : s'.outT = s.outT := by rw [← e1]
      clear e1
      replace q_lae := fun x => congrFun q_lae x
      replace q_pc := fun x => congrFun q_pc x
      simp only [upd] at q_pc
      replace q_garb := fun x => congrFun q_garb x
      replace q_cnt := fun x => congrFun q_cnt x
      replace q_st := fun x => congrFun q_st x
      replace q_tick := fun x => congrFun q_tick x
      replace q_joinT := fun x => congrFun q_joinT x
      replace q_outT := fun x => congrFun q_outT x
      have hrun : ∀ x, Running s' x → (Running s x ∧ s'.lae x = s.lae x ∧ s'.joinT x = s.joinT x) ∨ (s'.joinT x = s.clock + 1 ∧ s.pc x = .joining (s'.lae x)) := by
        intro x hx
        by_cases hx2 : x = t
        · subst hx2; simp only [Running, q_pc, q_joinT, q_lae] at *; grind
        · left; refine ⟨?_, ?_, ?_⟩
          · simpa only [Running, q_pc, hx2, if_false] using hx
          · simp only [q_lae, hx2, if_false]
          · simp only [q_joinT, hx2, if_false]
      constructor
      case runN => clear runE joinE tickE outC joinC addS garbS garbND garbDisj garbAll sorted garbE addLast cnt freedS freedND safe safeAdd safeGarb safeSum safeFree hrun q_epoch q_lae q_garb q_cnt q_st q_tick q_freed q_clock q_joinT q_outT; grind
      case runE => clear runN outC joinC addS garbS garbND garbDisj garbAll sorted garbE addLast cnt freedS freedND safe safeAdd safeGarb safeSum safeFree q_garb q_cnt q_st q_tick q_freed q_clock q_outT; grind
      case joinE => clear runN runE outC joinC addS garbS garbND garbDisj garbAll sorted garbE addLast cnt freedS freedND safe safeAdd safeGarb safeSum safeFree hrun q_lae q_garb q_cnt q_st q_tick q_freed q_clock q_joinT q_outT; grind
      case tickE => simpa only [q_tick, q_epoch] using tickE
      case outC => clear runN runE joinE tickE joinC addS garbS garbND garbDisj garbAll sorted garbE addLast cnt freedS freedND safe safeAdd safeGarb safeSum safeFree hrun q_epoch q_lae q_pc q_garb q_cnt q_st q_tick q_freed q_joinT; grind
      case joinC => clear runN runE joinE tickE outC addS garbS garbND garbDisj garbAll sorted garbE addLast cnt freedS freedND safe safeAdd safeGarb safeSum safeFree hrun q_epoch q_lae q_pc q_garb q_cnt q_st q_tick q_freed q_outT; grind
      case addS => clear runN runE joinE outC joinC garbND garbDisj garbAll sorted garbE addLast cnt freedS freedND safe safeAdd safeGarb safeSum safeFree hrun q_lae q_garb q_cnt q_tick q_freed q_clock q_joinT q_outT; grind
      case garbS => simpa only [q_garb, q_st] using garbS
      case garbND => simpa only [q_garb, q_st] using garbND
      case garbDisj => simpa only [q_garb, q_st] using garbDisj
      case garbAll => simpa only [q_garb, q_st] using garbAll
      case sorted => simpa only [q_garb] using sorted
      case garbE => simpa only [q_garb, q_epoch] using garbE
      case addLast => clear runN runE joinE tickE outC joinC garbS garbND garbDisj garbAll sorted cnt freedS freedND safe safeAdd safeGarb safeSum safeFree hrun q_lae q_cnt q_st q_tick q_freed q_clock q_joinT q_outT; grind
      case cnt => simpa only [q_cnt, q_garb] using cnt
      case freedS => simpa only [q_freed, q_st] using freedS
      case freedND => simpa only [q_freed, q_st] using freedND
      case safe => clear runN runE joinE tickE garbND garbDisj garbAll sorted garbE addLast cnt freedS freedND safeAdd safeGarb safeSum q_epoch q_lae q_garb q_cnt q_tick q_freed; simp only [Out] at *; grind
      case safeAdd => clear runN joinE tickE garbS garbND garbDisj garbAll sorted garbE addLast cnt freedS freedND safe safeGarb safeSum safeFree q_garb q_cnt q_tick q_freed; grind
      case safeGarb => clear runN runE joinE tickE garbND garbDisj garbAll sorted garbE addLast cnt freedS freedND safe safeSum safeFree q_epoch q_cnt q_tick q_freed; grind
      case safeSum => clear runN runE joinE tickE garbND garbDisj garbAll sorted garbE addLast cnt freedS freedND safe safeAdd safeFree q_epoch q_cnt q_tick q_freed; grind
      case safeFree => clear runE joinE tickE garbND garbDisj garbAll sorted garbE addLast cnt freedS freedND safe safeAdd q_epoch q_cnt q_tick q_freed; grind
    · rename_i o d rest hg
      split at hs
      · rename_i hlt
        have hmem : (o, d) ∈ s.garb t := by rw [hg]; simp
        have hso := garbS t o d hmem
        have hrest : ∀ o' d', (o', d') ∈ rest → o' ≠ o := by
          intro o' d' hin heq
          have := garbND t
          rw [hg, List.pairwise_cons] at this
          exact this.1 _ hin heq.symm
        have e1 := Option.some.inj hs
        clear hs
        have q_epoch : s'.epoch = s.epoch := by rw [← e1]
        have q_lae : s'.lae = s.lae := by rw [← e1]
        have q_pc : s'.pc = s.pc := by rw [← e1]
        have q_garb : s'.garb = upd s.garb t rest := by rw [← e1]
        have q_cnt : s'.cnt = upd s.cnt t (s.cnt t - 1) := by rw [← e1]
        have q_st : s'.st = upd s.st o .freed := by rw [← e1]
        have q_tick : s'.tick = s.tick := by rw [← e1]
        have q_freed : s'.freed = o :: s.freed := by rw [← e1]
        have q_clock : s'.clock = s.clock + 1 := by rw [← e1]
        have q_joinT : s'.joinT = s.joinT := by rw [← e1]
        have q_outT : s'.outT = s.outT := by rw [← e1]
        clear e1
        replace q_lae := fun x => congrFun q_lae x
        replace q_pc := fun x => congrFun q_pc x
        replace q_garb := fun x => congrFun q_garb x
        simp only [upd] at q_garb
        replace q_cnt := fun x => congrFun q_cnt x
        simp only [upd] at q_cnt
        replace q_st := fun x => congrFun q_st x
        simp only [upd] at q_st
        replace q_tick := fun x => congrFun q_tick x
        replace q_joinT := fun x => congrFun q_joinT x
        replace q_outT := fun x => congrFun q_outT x
        have hrun : ∀ x, Running s' x → (Running s x ∧ s'.lae x = s.lae x ∧ s'.joinT x = s.joinT x) ∨ (s'.joinT x = s.clock + 1 ∧ s.pc x = .joining (s'.lae x)) := by
          intro x hx; left; simp only [Running, q_pc, q_lae, q_joinT] at *; grind
        constructor
        case runN => simpa only [q_pc] using runN
        case runE => simpa only [q_pc, q_lae, q_epoch, q_joinT, Running, Out] using runE
        case joinE => simpa only [q_pc, q_epoch] using joinE
        case tickE => simpa only [q_tick, q_epoch] using tickE
        case outC => clear runN runE joinE tickE joinC addS garbS garbND garbDisj garbAll sorted garbE addLast cnt freedS freedND safe safeAdd safeGarb safeSum safeFree hrun q_epoch q_lae q_pc q_garb q_cnt q_st q_tick q_freed q_joinT; grind
        case joinC => clear runN runE joinE tickE outC addS garbS garbND garbDisj garbAll sorted garbE addLast cnt freedS freedND safe safeAdd safeGarb safeSum safeFree hrun q_epoch q_lae q_pc q_garb q_cnt q_st q_tick q_freed q_outT; grind
        case addS => clear runN runE joinE outC joinC garbND garbDisj garbAll sorted garbE addLast cnt freedS freedND safe safeAdd safeGarb safeSum safeFree hrun q_lae q_garb q_cnt q_tick q_freed q_clock q_joinT q_outT; grind
        case garbS => clear runN runE joinE tickE outC joinC garbAll sorted garbE addLast cnt freedS freedND safe safeAdd safeGarb safeSum safeFree hrun q_epoch q_lae q_pc q_cnt q_tick q_freed q_clock q_joinT q_outT; grind
        case garbND => clear runN runE joinE tickE outC joinC garbDisj garbAll sorted garbE addLast cnt freedS freedND safe safeAdd safeGarb safeSum safeFree hrun q_epoch q_lae q_pc q_cnt q_tick q_freed q_clock q_joinT q_outT; grind
        case garbDisj => clear runN runE joinE tickE outC joinC garbND garbAll sorted garbE addLast cnt freedS freedND safe safeAdd safeGarb safeSum safeFree hrun q_epoch q_lae q_pc q_cnt q_tick q_freed q_clock q_joinT q_outT; grind
        case garbAll => clear runN runE joinE tickE outC joinC addS garbS garbND garbDisj sorted garbE addLast cnt freedS freedND safe safeAdd safeGarb safeSum safeFree hrun q_epoch q_lae q_pc q_cnt q_tick q_freed q_clock q_joinT q_outT; grind
        case sorted => clear runN runE joinE tickE outC joinC addS garbS garbND garbDisj garbAll garbE cnt freedS freedND safe safeAdd safeGarb safeSum safeFree hrun q_epoch q_lae q_pc q_cnt q_st q_tick q_freed q_clock q_joinT q_outT; grind
        case garbE => clear runN runE joinE outC joinC garbS garbND garbDisj garbAll sorted addLast cnt freedS freedND safe safeAdd safeGarb safeSum safeFree hrun q_lae q_pc q_cnt q_st q_tick q_freed q_clock q_joinT q_outT; grind
        case addLast => clear runN runE joinE tickE outC joinC garbS garbND garbDisj garbAll sorted cnt freedS freedND safe safeAdd safeGarb safeSum safeFree hrun q_lae q_cnt q_st q_tick q_freed q_clock q_joinT q_outT; grind
        case cnt => clear runN runE joinE tickE outC joinC addS garbS garbND garbDisj garbAll sorted garbE addLast freedS freedND safe safeAdd safeGarb safeSum safeFree hrun q_epoch q_lae q_pc q_st q_tick q_freed q_clock q_joinT q_outT; grind
        case freedS => clear runN runE joinE tickE outC joinC garbND garbDisj garbAll sorted garbE addLast cnt freedND safe safeAdd safeGarb safeSum safeFree hrun q_epoch q_lae q_pc q_garb q_cnt q_tick q_clock q_joinT q_outT; grind
        case freedND => clear runN runE joinE tickE outC joinC addS garbND garbDisj garbAll sorted garbE addLast cnt safe safeAdd safeGarb safeSum safeFree hrun q_epoch q_lae q_pc q_garb q_cnt q_tick q_clock q_joinT q_outT; grind
        case safe => clear runN runE joinE tickE garbND garbDisj garbAll sorted garbE addLast cnt freedS freedND safeAdd safeGarb safeSum q_epoch q_lae q_garb q_cnt q_tick q_freed; simp only [Out] at *; grind
        case safeAdd => clear runN joinE tickE garbS garbND garbDisj garbAll sorted garbE addLast cnt freedS freedND safe safeGarb safeSum safeFree q_garb q_cnt q_tick q_freed; grind
        case safeGarb => clear runN runE joinE tickE garbND garbDisj garbAll sorted garbE addLast cnt freedS freedND safe safeSum safeFree q_epoch q_cnt q_tick q_freed; grind
        case safeSum => clear runN runE joinE tickE garbND garbDisj garbAll sorted garbE addLast cnt freedS freedND safe safeAdd safeFree q_epoch q_cnt q_tick q_freed; grind
        case safeFree => clear runE joinE tickE garbND garbDisj garbAll sorted garbE addLast cnt freedS freedND safe safeAdd q_epoch q_cnt q_tick q_freed; grind
      · rename_i hlt
        have e1 := Option.some.inj hs
        clear hs
        have q_epoch : s'.epoch = s.epoch := by rw [← e1]
        have q_lae : s'.lae = s.lae := by rw [← e1]
        have q_pc : s'.pc = upd s.pc t .active := by rw [← e1]
        have q_garb : s'.garb = s.garb := by rw [← e1]
        have q_cnt : s'.cnt = s.cnt := by rw [← e1]
        have q_st : s'.st = s.st := by rw [← e1]
        have q_tick : s'.tick = s.tick := by rw [← e1]
        have q_freed : s'.freed = s.freed := by rw [← e1]
        have q_clock : s'.clock = s.clock + 1 := by rw [← e1]
        have q_joinT : s'.joinT = s.joinT := by rw [← e1]
        have q_outT : s'.outT = s.outT := by rw [← e1]
        clear e1
        replace q_lae := fun x => congrFun q_lae x
        replace q_pc := fun x => congrFun q_pc x
        simp only [upd] at q_pc
        replace q_garb := fun x => congrFun q_garb x
        replace q_cnt := fun x => congrFun q_cnt x
        replace q_st := fun x => congrFun q_st x
        replace q_tick := fun x => congrFun q_tick x
        replace q_joinT := fun x => congrFun q_joinT x
        replace q_outT := fun x => congrFun q_outT x
        have hrun : ∀ x, Running s' x → (Running s x ∧ s'.lae x = s.lae x ∧ s'.joinT x = s.joinT x) ∨ (s'.joinT x = s.clock + 1 ∧ s.pc x = .joining (s'.lae x)) := by
          intro x hx
          by_cases hx2 : x = t
          · subst hx2; simp only [Running, q_pc, q_joinT, q_lae] at *; grind
          · left; refine ⟨?_, ?_, ?_⟩
            · simpa only [Running, q_pc, hx2, if_false] using hx
            · simp only [q_lae, hx2, if_false]
            · simp only [q_joinT, hx2, if_false]
        constructor
        case runN => clear runE joinE tickE outC joinC addS garbS garbND garbDisj garbAll sorted garbE addLast cnt freedS freedND safe safeAdd safeGarb safeSum safeFree hrun q_epoch q_lae q_garb q_cnt q_st q_tick q_freed q_clock q_joinT q_outT; grind
        case runE => clear runN outC joinC addS garbS garbND garbDisj garbAll sorted garbE addLast cnt freedS freedND safe safeAdd safeGarb safeSum safeFree q_garb q_cnt q_st q_tick q_freed q_clock q_outT; grind
        case joinE => clear runN runE outC joinC addS garbS garbND garbDisj garbAll sorted garbE addLast cnt freedS freedND safe safeAdd safeGarb safeSum safeFree hrun q_lae q_garb q_cnt q_st q_tick q_freed q_clock q_joinT q_outT; grind
        case tickE => simpa only [q_tick, q_epoch] using tickE
        case outC => clear runN runE joinE tickE joinC addS garbS garbND garbDisj garbAll sorted garbE addLast cnt freedS freedND safe safeAdd safeGarb safeSum safeFree hrun q_epoch q_lae q_pc q_garb q_cnt q_st q_tick q_freed q_joinT; grind
        case joinC => clear runN runE joinE tickE outC addS garbS garbND garbDisj garbAll sorted garbE addLast cnt freedS freedND safe safeAdd safeGarb safeSum safeFree hrun q_epoch q_lae q_pc q_garb q_cnt q_st q_tick q_freed q_outT; grind
        case addS => clear runN runE joinE outC joinC garbND garbDisj garbAll sorted garbE addLast cnt freedS freedND safe safeAdd safeGarb safeSum safeFree hrun q_lae q_garb q_cnt q_tick q_freed q_clock q_joinT q_outT; grind
        case garbS => simpa only [q_garb, q_st] using garbS
        case garbND => simpa only [q_garb, q_st] using garbND
        case garbDisj => simpa only [q_garb, q_st] using garbDisj
        case garbAll => simpa only [q_garb, q_st] using garbAll
        case sorted => simpa only [q_garb] using sorted
        case garbE => simpa only [q_garb, q_epoch] using garbE
        case addLast => clear runN runE joinE tickE outC joinC garbS garbND garbDisj garbAll sorted cnt freedS freedND safe safeAdd safeGarb safeSum safeFree hrun q_lae q_cnt q_st q_tick q_freed q_clock q_joinT q_outT; grind
        case cnt => simpa only [q_cnt, q_garb] using cnt
        case freedS => simpa only [q_freed, q_st] using freedS
        case freedND => simpa only [q_freed, q_st] using freedND
        case safe => clear runN runE joinE tickE garbND garbDisj garbAll sorted garbE addLast cnt freedS freedND safeAdd safeGarb safeSum q_epoch q_lae q_garb q_cnt q_tick q_freed; simp only [Out] at *; grind
        case safeAdd => clear runN joinE tickE garbS garbND garbDisj garbAll sorted garbE addLast cnt freedS freedND safe safeGarb safeSum safeFree q_garb q_cnt q_tick q_freed; grind
        case safeGarb => clear runN runE joinE tickE garbND garbDisj garbAll sorted garbE addLast cnt freedS freedND safe safeSum safeFree q_epoch q_cnt q_tick q_freed; grind
        case safeSum => clear runN runE joinE tickE garbND garbDisj garbAll sorted garbE addLast cnt freedS freedND safe safeAdd safeFree q_epoch q_cnt q_tick q_freed; grind
        case safeFree => clear runE joinE tickE garbND garbDisj garbAll sorted garbE addLast cnt freedS freedND safe safeAdd q_epoch q_cnt q_tick q_freed; grind
  · cases hs

theorem inv_step {n : Nat} {s s' : State} {a : Act} (h : Inv n s) (hc : Contract s a) (hs : step n s a = some s') :
    Inv n s' := by
  cases a with
  | joinRead t => exact inv_joinRead h hc hs
  | joinStore t => exact inv_joinStore h hc hs
  | link t o => exact inv_link h hc hs
  | make t o => exact inv_make h hc hs
  | unlink t o => exact inv_unlink h hc hs
  | addRead t o => exact inv_addRead h hc hs
  | addLink t => exact inv_addLink h hc hs
  | gcRead t => exact inv_gcRead h hc hs
  | gcFree t => exact inv_gcFree h hc hs
  | leaveRead t => exact inv_leaveRead h hc hs
  | leaveStore t => exact inv_leaveStore h hc hs
  | tickRead k => exact inv_tickRead h hc hs
  | tickWrite k => exact inv_tickWrite h hc hs
  | unregister t => exact inv_unregister h hc hs

theorem inv_run {n : Nat} {s s' : State} {as : List Act} (hr : RunC n s as s') (h : Inv n s) : Inv n s' := by
  induction hr with
  | nil => exact h
  | cons hc hs _ ih => exact ih (inv_step h hc hs)

end GC
end BwTree
