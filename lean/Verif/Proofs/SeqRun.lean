import Verif.Proofs.SeqGet
import Verif.Proofs.TreeAlone

/-! Histories of calls that do not overlap. -/

namespace BwTree
namespace Tree

open Prog

set_option linter.unusedSectionVars false

variable {K V : Type} [LinearOrder K] [DecidableEq V] [Inhabited K] {w w' : World K V} {t : Tid} {α : Type}

/-! ### Runs -/

/-- The outcome of a program that runs alone is determined. -/
theorem Steps.det {m m1 m2 : Mem K V} {p p1 p2 : Prog K V α} (h1 : Steps m p m1 p1) (h2 : Steps m p m2 p2) (e1 : ∀ m, p1.step m = none)
    (e2 : ∀ m, p2.step m = none) : m1 = m2 ∧ p1 = p2 := by
  induction h1 with
  | refl m p =>
    cases h2 with
    | refl => exact ⟨rfl, rfl⟩
    | step h _ => rw [e1] at h; cases h
  | step h _ ih =>
    cases h2 with
    | refl => rw [e2] at h; cases h
    | step h' hs =>
      rw [h] at h'
      cases h'
      exact ih hs e1

theorem Steps.run {m m' : Mem K V} {p p' : Prog K V (Ans K V)} (h : Steps m p m' p') (thr : Tid → Option (Prog K V (Ans K V)))
    (hist : List (Lin.Event (Call K V) (Ans K V))) : ∃ n, steps t thr hist n m p = ⟨m', setThr thr t (some p'), hist⟩ := by
  induction h with
  | refl m p => exact ⟨0, rfl⟩
  | step h _ ih =>
    obtain ⟨n, e⟩ := ih
    exact ⟨n + 1, by simp only [steps, h]; exact e⟩

theorem Steps.act {c : Conf K V} (hidle : ∀ u, c.thr u = none) {m : Mem K V} {fuel : Nat} {op : Call K V} {p : Prog K V (Ans K V)}
    (h : Steps c.mem (prog fuel op) m p) : ∃ N, act (act c (.call t fuel op)) (.run t N) = ⟨m, setThr c.thr t (some p), c.hist ++ [.call t op]⟩ := by
  obtain ⟨N, e⟩ := h.run (t := t) (setThr c.thr t (some (prog fuel op))) (c.hist ++ [.call t op])
  refine ⟨N, ?_⟩
  rw [setThr_setThr] at e
  rw [← e]
  simp only [Tree.act, hidle t, setThr, if_true]

/-! ### The invariant between calls -/

theorem init_sinv : SInv (initWorld : World K V) where
  shape n x node h := by
    obtain ⟨_, p, ha⟩ := h
    rcases init_at ha with ⟨_, _, rfl⟩ | ⟨_, _, rfl⟩ <;> exact ⟨trivial, rfl, trivial⟩
  base n x node h hr := by
    obtain ⟨_, p, ha⟩ := h
    rcases init_at ha with ⟨_, _, rfl⟩ | ⟨_, _, rfl⟩ <;> cases hr
  kid n x node i h hi := by
    obtain ⟨⟨⟨lk, hl⟩, _⟩, p, ha⟩ := h
    rcases init_at ha with ⟨rfl, _, rfl⟩ | ⟨_, _, rfl⟩
    · cases hl
      have hi : i ∈ [2] := hi
      rw [List.mem_singleton] at hi
      subst hi
      exact ⟨⟨none, rfl⟩, fun h => h⟩
    · cases hi
  par n y h := by
    obtain ⟨⟨lk, hl⟩, _⟩ := h
    rcases init_info hl with ⟨rfl, _⟩ | ⟨rfl, e⟩
    · exact Or.inl rfl
    · cases e
      exact Or.inr (Or.inl ⟨1, _, ⟨⟨⟨none, rfl⟩, fun h => h⟩, 0, rfl, rfl⟩, by show (2 : NodeId) ∈ [2]; exact List.mem_singleton.mpr rfl⟩)
  spl n x node y h hs := by
    obtain ⟨_, p, ha⟩ := h
    rcases init_at ha with ⟨_, _, rfl⟩ | ⟨_, _, rfl⟩ <;> cases hs
  rm n x node h hr := by
    obtain ⟨_, p, ha⟩ := h
    rcases init_at ha with ⟨_, _, rfl⟩ | ⟨_, _, rfl⟩ <;> cases hr
  lvl x l n h := by
    rcases init_info h with ⟨_, e⟩ | ⟨_, e⟩ <;> cases e <;> exact ⟨by show _ < 3; decide, by decide⟩
  gone r x h hd := hd.elim

theorem init_rest : Rest (initWorld : World K V) := by
  refine ⟨init_inv, init_sinv, ?_⟩
  rintro m i ⟨node, ⟨_, p, ha⟩, hr⟩
  rcases init_at ha with ⟨_, _, rfl⟩ | ⟨_, _, rfl⟩ <;> cases hr

theorem Rest.tok (h : Rest w) (x : Lin.Tok (Call K V) (Ans K V)) : Rest { w with tok := Lin.upd w.tok t x } :=
  ⟨tok_inv h.1 x, ⟨h.2.1.shape, h.2.1.base, h.2.1.kid, h.2.1.par, h.2.1.spl, h.2.1.rm, h.2.1.lvl, h.2.1.gone⟩, h.2.2⟩

theorem Mono.tok {x y : Tid → Lin.Tok (Call K V) (Ans K V)} (h : Mono { w with tok := x } w') : Mono w { w' with tok := y } :=
  ⟨h.info, h.heap, h.pub, h.removed, h.dead, h.sets, ⟨h.gh.kids, h.gh.cur, h.gh.del, h.gh.delNew, h.gh.vis⟩⟩

/-- Between two calls. -/
structure Calls (c : Conf K V) (w : World K V) : Prop where
  mem : w.mem = c.mem
  thr : ∀ u, c.thr u = none
  rest : Rest w
  clear : ∀ u, Clear u w
  tok : ∀ u, w.tok u = .idle

/-- Calls other than GetValue on a tree at rest. -/
theorem tw_prog {fuel : Nat} (hf : Ample fuel) (h : Rest w) {op : Call K V} (hop : op.forward = true) (hg : ∀ k, op ≠ .api (.get k)) :
    tw t (prog fuel op) (fun a w' => Rest w' ∧ NextOk w' a) w := by
  have hf' : 3 * TABLE_SIZE < fuel := hf
  have hfp : 0 < fuel := Nat.lt_of_le_of_lt (Nat.zero_le _) hf'
  cases op with
  | api o =>
    cases o with
    | insert k v => exact tw_seq (tw_insert hf h v hfp) fun b w1 hr => ⟨hr, fun _ _ _ e => by cases e⟩
    | delete k v => exact tw_seq (tw_delete hf h v hfp) fun b w1 hr => ⟨hr, fun _ _ _ e => by cases e⟩
    | get k => exact absurd rfl (hg k)
  | page k => exact tw_page hf h
  | first => exact tw_first h
  | back k => cases hop

/-- GetValue on a tree at rest. -/
theorem tg_prog {fuel : Nat} (hf : Ample fuel) (h : Rest w) (k : K) :
    tg t (prog fuel (.api (.get k))) (fun a w' => Rest w' ∧ ∀ l c, a = .values l c → c.NoDataAboveMerge) w := by
  have hf' : 3 * TABLE_SIZE < fuel := hf
  refine tw_seq (tg_getValue (k := k) (Nat.lt_of_le_of_lt (by decide) hf') h (Nat.le_trans (by decide) (Nat.le_of_lt hf'))) fun x w1 hr => ?_
  exact ⟨hr.1, fun l c e => by cases e; exact hr.2⟩

/-- Failures that may end a call. -/
def mayFail : Call K V → Fail → World K V → Prop
  | .api (.get _), f, w => f = .uninit ∨ (f = .tableFull ∧ TABLE_SIZE < w.mem.nextId)
  | _, f, w => f = .tableFull ∧ TABLE_SIZE < w.mem.nextId

theorem mayFail_of {op : Call K V} (hop : op.forward = true) (hg : ∀ k, op ≠ .api (.get k)) {f : Fail} (ha : allowed op f) (hb : ¬ Bad f w) :
    f = .tableFull ∧ TABLE_SIZE < w.mem.nextId := by
  have hb1 : f ∉ [Fail.noParent, .leftSibling, .mergeRange, .mergeSep, .uninit, .search] := fun h => hb (Or.inl h)
  have : f = .tableFull := by
    cases op with
    | api o =>
      cases o with
      | get k => exact absurd rfl (hg k)
      | insert k v => simp only [allowed, List.mem_cons, List.not_mem_nil, or_false] at ha; rcases ha with rfl | rfl | rfl | rfl | rfl <;> first | rfl | exact absurd (by simp) hb1
      | delete k v => simp only [allowed, List.mem_cons, List.not_mem_nil, or_false] at ha; rcases ha with rfl | rfl | rfl | rfl | rfl <;> first | rfl | exact absurd (by simp) hb1
    | page k => simp only [allowed, List.mem_cons, List.not_mem_nil, or_false] at ha; rcases ha with rfl | rfl | rfl | rfl | rfl <;> first | rfl | exact absurd (by simp) hb1
    | first => exact ha.elim
    | back k => cases hop
  subst this
  exact ⟨rfl, Nat.lt_of_not_le fun h => hb (Or.inr ⟨rfl, h⟩)⟩

theorem mayFail_get {k : K} {f : Fail} (ha : allowed (.api (.get k) : Call K V) f) (hb : ¬ BadG f w) :
    f = .uninit ∨ (f = .tableFull ∧ TABLE_SIZE < w.mem.nextId) := by
  by_cases hu : f = .uninit
  · exact Or.inl hu
  · have hb' : ¬ Bad f w := fun h => hb ⟨h, hu⟩
    have hb1 : f ∉ [Fail.noParent, .leftSibling, .mergeRange, .mergeSep, .uninit, .search] := fun h => hb' (Or.inl h)
    simp only [allowed, List.mem_cons, List.not_mem_nil, or_false] at ha
    rcases ha with rfl | rfl | rfl | rfl | rfl | rfl | rfl <;>
      first | exact Or.inr ⟨rfl, Nat.lt_of_not_le fun h => hb' (Or.inr ⟨rfl, h⟩)⟩ | exact absurd (by simp) hb1

/-- One call between two others: it ends, and if it returns the tree is at rest again. -/
theorem Calls.run {c : Conf K V} (h : Calls c w) (t : Tid) {fuel : Nat} (hf : Ample fuel) {op : Call K V} (hop : op.forward = true) :
    (∃ (w1 : World K V) (f : Fail), Steps c.mem (prog fuel op) w1.mem (.fail f) ∧ mayFail op f w1) ∨
    ∃ a w1, Steps c.mem (prog fuel op) w1.mem (.ret a) ∧ Calls ⟨w1.mem, c.thr, c.hist ++ [.call t op, .ret t a]⟩ w1 ∧
      ((∃ k, op = .api (.get k)) → ∀ l c, a = .values l c → c.NoDataAboveMerge) ∧
      Mono w w1 ∧ (∀ m p, Steps c.mem (prog fuel op) m p → ∃ wm : World K V, wm.mem = m ∧ Inv wm ∧ Mono wm w1) ∧
      ((∀ k, op ≠ .api (.get k)) → NextOk w1 a) := by
  have hne : 0 < w.sets.length := by
    have := h.rest.1.sets
    rcases hs : w.sets with _ | ⟨x, l⟩
    · rw [hs] at this; exact absurd this (by simp)
    · simp
  have hr := h.rest.tok (t := t) (.pending op 0 0)
  have hcl : Clear t { w with tok := Lin.upd w.tok t (.pending op 0 0) } := h.clear t
  have hwp := wp_prog (t := t) fuel hr.1 (op := op) (pos := 0) (start := 0) hne (by show Lin.upd w.tok t _ t = _; simp [Lin.upd]) hcl
  have fin : ∀ {a : Ans K V} {w1 : World K V}, Rest w1 → Done t a w1 →
      (∀ u, u ≠ t → Priv u { w with tok := Lin.upd w.tok t (.pending op 0 0) } w1) →
      Calls ⟨w1.mem, c.thr, c.hist ++ [.call t op, .ret t a]⟩ { w1 with tok := Lin.upd w1.tok t .idle } := by
    intro a w1 h1 h2 h3
    refine ⟨rfl, h.thr, h1.tok .idle, fun u => ?_, fun u => ?_⟩
    · by_cases hu : u = t
      · subst hu; exact h2.2
      · exact ⟨fun p hp => (h.clear u).1 p ((h3 u hu).owB p hp), fun i hi => (h.clear u).2 i ((h3 u hu).lockB i hi)⟩
    · show Lin.upd w1.tok t _ u = _
      by_cases hu : u = t
      · subst hu; simp [Lin.upd]
      · have := (h3 u hu).tok
        simp only [Lin.upd, if_neg hu] at this ⊢
        rw [this]; exact h.tok u
  have through : ∀ {w1 : World K V}, Through { w with tok := Lin.upd w.tok t (.pending op 0 0) } (prog fuel op) w1 →
      Mono w { w1 with tok := Lin.upd w1.tok t .idle } ∧
      ∀ m p, Steps c.mem (prog fuel op) m p → ∃ wm : World K V, wm.mem = m ∧ Inv wm ∧ Mono wm { w1 with tok := Lin.upd w1.tok t .idle } := by
    rintro w1 ⟨h1, h2⟩
    refine ⟨h1.tok, fun m p hs => ?_⟩
    obtain ⟨wm, g1, g2, g3⟩ := h2 m p (by show Steps w.mem _ _ _; rw [h.mem]; exact hs)
    exact ⟨wm, g1, g2, g3.tok⟩
  by_cases hg : ∃ k, op = .api (.get k)
  · obtain ⟨k, rfl⟩ := hg
    rcases tw_run (tg_prog hf hr k) hwp hr.1 with ⟨w1, f, h1, h2, h3⟩ | ⟨a, w1, h1, _, h3, h4, h5, h6⟩
    · exact Or.inl ⟨w1, f, h.mem ▸ h1, mayFail_get h2 h3⟩
    · exact Or.inr ⟨a, { w1 with tok := Lin.upd w1.tok t .idle }, h.mem ▸ h1, fin h3.1 h4 h5, fun _ => h3.2, (through h6).1, (through h6).2,
        fun hg => absurd rfl (hg k)⟩
  · have hg' : ∀ k, op ≠ .api (.get k) := fun k e => hg ⟨k, e⟩
    rcases tw_run (tw_prog hf hr hop hg') hwp hr.1 with ⟨w1, f, h1, h2, h3⟩ | ⟨a, w1, h1, _, h3, h4, h5, h6⟩
    · refine Or.inl ⟨w1, f, h.mem ▸ h1, ?_⟩
      have := mayFail_of hop hg' h2 h3
      unfold mayFail
      split
      · exact Or.inr this
      · exact this
    · exact Or.inr ⟨a, { w1 with tok := Lin.upd w1.tok t .idle }, h.mem ▸ h1, fin h3.1 h4 h5, fun h => absurd h hg, (through h6).1, (through h6).2,
        fun _ => h3.2⟩

/-- What a call between two others looks at and which entries it fills, at every moment up to its end. -/
theorem Calls.looks {c : Conf K V} (h : Calls c w) {fuel : Nat} (hf : Ample fuel) {op : Call K V} (hop : op.forward = true) {m : Mem K V}
    {p : Prog K V (Ans K V)} (hs : Steps c.mem (prog fuel op) m p) :
    ∃ wm : World K V, wm.mem = m ∧ Inv wm ∧ (∀ id, p.touches id → Lookable wm id) ∧ ∀ id, p.stores id → wm.own id = some 0 := by
  have hne : 0 < w.sets.length := by
    have := h.rest.1.sets
    rcases hs : w.sets with _ | ⟨x, l⟩
    · rw [hs] at this; exact absurd this (by simp)
    · simp
  have hr := h.rest.tok (t := 0) (.pending op 0 0)
  have hcl : Clear 0 { w with tok := Lin.upd w.tok 0 (.pending op 0 0) } := h.clear 0
  have hwp := wp_prog (t := 0) fuel hr.1 (op := op) (pos := 0) (start := 0) hne (by show Lin.upd w.tok 0 _ 0 = _; simp [Lin.upd]) hcl
  have hs' : Steps { w with tok := Lin.upd w.tok 0 (.pending op 0 0) }.mem (prog fuel op) m p := by
    show Steps w.mem _ _ _; rw [h.mem]; exact hs
  by_cases hg : ∃ k, op = .api (.get k)
  · obtain ⟨k, rfl⟩ := hg
    exact tw_looks (tg_prog hf hr k) hwp hr.1 _ _ hs'
  · exact tw_looks (tw_prog hf hr hop fun k e => hg ⟨k, e⟩) hwp hr.1 _ _ hs'

theorem init_clear (u : Tid) : Clear u (initWorld : World K V) := by
  refine ⟨fun p hp => ?_, fun i hi => ?_⟩
  · simp only [initWorld] at hp
    split at hp
    · cases hp
    · split at hp <;> cases hp
  · cases hi

theorem SeqReach.calls {c : Conf K V} (h : SeqReach c) : ∃ w, Calls c w := by
  induction h with
  | init => exact ⟨initWorld, rfl, fun _ => rfl, init_rest, init_clear, fun _ => rfl⟩
  | call t _ hf hop hs ih =>
    obtain ⟨w, hw⟩ := ih
    rcases hw.run t hf hop with ⟨w1, f, h1, _⟩ | ⟨a, w1, h1, h2, _⟩
    · have := (h1.det hs (fun _ => rfl) (fun _ => rfl)).2
      cases this
    · obtain ⟨e1, e2⟩ := h1.det hs (fun _ => rfl) (fun _ => rfl)
      cases e2
      rw [e1] at h2
      exact ⟨w1, h2⟩

/-- A call between two others as part of an execution. -/
theorem Steps.exec {c : Conf K V} (h : Reach c) (hidle : ∀ u, c.thr u = none) (t : Tid) {fuel : Nat} {op : Call K V} {m : Mem K V}
    {a : Ans K V} (hs : Steps c.mem (prog fuel op) m (.ret a)) :
    ∃ (σ : Nat → Conf K V) (n : Nat), Iterator.Exec σ n ∧ σ 0 = c ∧ (σ n).mem = m ∧ Iterator.CallAt σ t op a 0 n ∧ Iterator.Alone σ t 0 n := by
  obtain ⟨N, e⟩ := hs.act (t := t) hidle
  obtain ⟨σ, n, h1, h2, h3, h4⟩ := Iterator.solo_call (t := t) (fuel := fuel) (N := N) (op := op) (ans := a) h hidle (by rw [e]; simp [setThr])
  rw [e] at h3
  exact ⟨σ, n, h1, h2, h3, h4⟩

theorem SeqReach.reach {c : Conf K V} (h : SeqReach c) : Reach c := by
  induction h with
  | init => exact .init
  | @call c m fuel op a t hc hf hop hs ih =>
    obtain ⟨w, hw⟩ := hc.calls
    obtain ⟨N, e⟩ := hs.act (t := t) hw.thr
    have h1 := reach_acts ih [.call t fuel op, .run t N, .ret t]
    have e2 : acts c [.call t fuel op, .run t N, .ret t] = ⟨m, c.thr, c.hist ++ [.call t op, .ret t a]⟩ := by
      simp only [acts, e]
      simp only [act, setThr, if_true, List.append_assoc, List.singleton_append]
      congr 1
      funext u
      by_cases hu : u = t <;> simp [setThr, hu, hw.thr]
    rw [e2] at h1
    exact h1

/-! ### Concrete histories -/

/-- Up to `n` steps. -/
def runN : Nat → Mem K V → Prog K V α → Mem K V × Prog K V α
  | 0, m, p => (m, p)
  | n + 1, m, p => match p.step m with
    | none => (m, p)
    | some x => runN n x.1 x.2

theorem runN_steps : ∀ (n : Nat) (m : Mem K V) (p : Prog K V α), Steps m p (runN n m p).1 (runN n m p).2
  | 0, m, p => .refl m p
  | n + 1, m, p => by
    unfold runN
    cases h : p.step m with
    | none => exact .refl m p
    | some x => exact .step h (runN_steps n x.1 x.2)

/-- Calls of thread 0 one after the other, each with `3 * TABLE_SIZE + 1` retries and up to `n` steps. -/
def seqRun (n : Nat) : Conf K V → List (Call K V) → Option (Conf K V)
  | c, [] => some c
  | c, op :: l => match runN n c.mem (prog (3 * TABLE_SIZE + 1) op) with
    | (m, .ret a) => seqRun n ⟨m, c.thr, c.hist ++ [.call 0 op, .ret 0 a]⟩ l
    | _ => none

theorem seqRun_reach {n : Nat} : ∀ {l : List (Call K V)} {c c' : Conf K V}, SeqReach c → (∀ op ∈ l, op.forward = true) →
    seqRun n c l = some c' → SeqReach c'
  | [], c, c', h, _, e => by cases e; exact h
  | op :: l, c, c', h, hop, e => by
    unfold seqRun at e
    have hs := runN_steps n c.mem (prog (3 * TABLE_SIZE + 1) op)
    split at e
    · rename_i m a hx
      rw [hx] at hs
      exact seqRun_reach (.call 0 h (Nat.lt_succ_self _) (hop op List.mem_cons_self) hs) (fun o ho => hop o (List.mem_cons_of_mem _ ho)) e
    · cases e

end Tree
end BwTree
