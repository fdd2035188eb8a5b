import Verif.Proofs.IterTree
import Verif.Proofs.TreeExec

/-! Executions in which one thread uses an iterator while the others are idle, to exhibit runs of iterator programs. -/

namespace BwTree
namespace Iterator

open Tree

set_option linter.unusedSectionVars false

variable {K V : Type} [LinearOrder K] [DecidableEq V] [Inhabited K]
variable {t : Tid}

/-- A thread with a call in progress is not idle. -/
theorem running_thr {c : Conf K V} (h : Reach c) {op : Call K V} (hr : Running c.hist t op) : c.thr t ≠ none := by
  induction h generalizing t op with
  | init =>
    obtain ⟨pre, post, e, _⟩ := hr
    have := congrArg List.length e
    simp [initConf] at this
  | step hc hs ih =>
    rename_i c c'
    have key : ∀ (H : List (Lin.Event (Call K V) (Ans K V))) (e : Lin.Event (Call K V) (Ans K V)), e.tid ≠ t →
        Running (H ++ [e]) t op → Running H t op := by
      rintro H e he ⟨pre, post, h1, h2⟩
      rcases List.eq_nil_or_concat post with rfl | ⟨post', e', rfl⟩
      · have := List.append_inj_right' h1 rfl
        simp only [List.cons.injEq, and_true] at this
        rw [this] at he
        exact absurd rfl he
      · rw [List.concat_eq_append, ← List.cons_append, ← List.append_assoc] at h1
        have h3 := List.append_inj_left' h1 rfl
        exact ⟨pre, post', h3, fun x hx => h2 x (by simp [hx])⟩
    cases hs with
    | call t' fuel op' hi =>
      by_cases hut : t = t'
      · subst hut; simp [setThr]
      · simp only [setThr, if_neg hut]
        exact ih (key _ (.call t' op') (fun e => hut e.symm) hr)
    | step t' p p' m' h1 h2 =>
      by_cases hut : t = t'
      · subst hut; simp [setThr]
      · simp only [setThr, if_neg hut]
        exact ih hr
    | ret t' a h1 =>
      by_cases hut : t = t'
      · subst hut
        obtain ⟨pre, post, h1, h2⟩ := hr
        rcases List.eq_nil_or_concat post with rfl | ⟨post', e', rfl⟩
        · have := List.append_inj_right' h1 rfl
          simp at this
        · rw [List.concat_eq_append, ← List.cons_append, ← List.append_assoc] at h1
          have h3 := List.append_inj_right' h1 rfl
          simp only [List.cons.injEq, and_true] at h3
          exact absurd rfl (h2 (.ret t a) (by simp [h3]))
      · simp only [setThr, if_neg hut]
        exact ih (key _ (.ret t' a) (fun e => hut e.symm) hr)

/-- `σ'` up to `n'` continues `σ` up to `n`. -/
def Extends (σ : Nat → Conf K V) (n : Nat) (σ' : Nat → Conf K V) (n' : Nat) : Prop := n ≤ n' ∧ ∀ i, i ≤ n → σ' i = σ i

theorem Extends.trans {σ σ' σ'' : Nat → Conf K V} {n n' n'' : Nat} (h : Extends σ n σ' n') (h' : Extends σ' n' σ'' n'') :
    Extends σ n σ'' n'' :=
  ⟨Nat.le_trans h.1 h'.1, fun i hi => (h'.2 i (Nat.le_trans hi h.1)).trans (h.2 i hi)⟩

theorem exec_snoc {σ : Nat → Conf K V} {n : Nat} {c' : Conf K V} (h : Exec σ n) (hs : Step (σ n) c') :
    ∃ σ', Extends σ n σ' (n + 1) ∧ Exec σ' (n + 1) ∧ σ' (n + 1) = c' := by
  refine ⟨fun i => if i ≤ n then σ i else c', ⟨Nat.le_succ _, fun i hi => if_pos hi⟩, ⟨?_, ?_⟩, ?_⟩
  · show Reach (if 0 ≤ n then σ 0 else c')
    rw [if_pos (Nat.zero_le _)]; exact h.start
  · intro i hi
    show Step (if i ≤ n then σ i else c') (if i + 1 ≤ n then σ (i + 1) else c')
    rw [if_pos (by omega)]
    by_cases hin : i = n
    · subst hin
      rw [if_neg (by omega)]
      exact hs
    · rw [if_pos (by omega)]
      exact h.step i (by omega)
  · show (if n + 1 ≤ n then σ (n + 1) else c') = c'
    rw [if_neg (by omega)]

theorem exec_steps {thr : Tid → Option (Prog K V (Ans K V))} {hist : List (Lin.Event (Call K V) (Ans K V))} :
    ∀ (k : Nat) {σ : Nat → Conf K V} {n : Nat} {m : Mem K V} {p : Prog K V (Ans K V)}, Exec σ n → σ n = ⟨m, setThr thr t (some p), hist⟩ →
      ∃ σ' n', Extends σ n σ' n' ∧ Exec σ' n' ∧ σ' n' = steps t thr hist k m p ∧
        ∀ i, n ≤ i → i ≤ n' → (σ' i).hist = hist ∧ ∀ u, u ≠ t → (σ' i).thr u = thr u
  | 0, σ, n, m, p, h, e => ⟨σ, n, ⟨Nat.le_refl _, fun _ _ => rfl⟩, h, e, fun i h1 h2 => by
      rw [show i = n by omega, e]
      exact ⟨rfl, fun u hu => by simp [setThr, hu]⟩⟩
  | k + 1, σ, n, m, p, h, e => by
    cases hs : p.step m with
    | none =>
      refine ⟨σ, n, ⟨Nat.le_refl _, fun _ _ => rfl⟩, h, ?_, fun i h1 h2 => ?_⟩
      · rw [e]; simp only [steps, hs]
      · rw [show i = n by omega, e]
        exact ⟨rfl, fun u hu => by simp [setThr, hu]⟩
    | some x =>
      obtain ⟨m', p'⟩ := x
      have hst : Step (σ n) ⟨m', setThr thr t (some p'), hist⟩ := by
        have := Step.step (σ n) t p p' m' (by rw [e]; simp [setThr]) (by rw [e]; exact hs)
        rw [e] at this ⊢
        simpa [setThr_setThr] using this
      obtain ⟨σ1, x1, h1, e1⟩ := exec_snoc h hst
      obtain ⟨σ2, n2, x2, h2, e2, e3⟩ := exec_steps k h1 e1
      refine ⟨σ2, n2, x1.trans x2, h2, ?_, fun i hi1 hi2 => ?_⟩
      · rw [e2]; simp only [steps, hs]
      · by_cases hin : i = n
        · subst hin
          rw [(x1.trans x2).2 i (Nat.le_refl _), e]
          exact ⟨rfl, fun u hu => by simp [setThr, hu]⟩
        · exact e3 i (by omega) hi2

/-- Run an iterator program by thread `t`, each page read as one uninterrupted call. -/
def solo (t : Tid) {α : Type} : IProg K V α → Conf K V → Option (Conf K V × Option α)
  | .ret x, c => some (c, some x)
  | .ub, c => some (c, none)
  | .spin, _ => none
  | .ask q k, c =>
    let c2 := act (act c (.call t 50 q.toCall)) (.run t 1000)
    match c2.thr t with
    | some (.ret (.page low high items)) => solo t (k ⟨low, high, items⟩) (act c2 (.ret t))
    | _ => none

theorem asked_extends {σ σ' : Nat → Conf K V} {n n' : Nat} (h : Extends σ n σ' n') {q : Query K} {pg : Page K V} {a b : Nat}
    (ha : Asked σ n t q pg a b) : Asked σ' n' t q pg a b := by
  obtain ⟨hb, post, h1, h2, h3, h4, h5⟩ := ha
  refine ⟨Nat.le_trans hb h.1, post, h1, ?_, ?_, h4, ?_⟩
  · rw [h.2 _ (by omega), h.2 _ (by omega)]; exact h2
  · rw [h.2 _ (by omega), h.2 _ (by omega)]; exact h3
  · rw [h.2 _ (by omega), h.2 _ (by omega)]; exact h5

/-- A solo run is a run in an execution, during which only `t` does anything, namely page reads. -/
theorem solo_run {α : Type} (p : IProg K V α) {σ : Nat → Conf K V} {n : Nat} {c' : Conf K V} {out : Option α} (h : Exec σ n)
    (hidle : ∀ u, (σ n).thr u = none) (hp : solo t p (σ n) = some (c', out)) :
    ∃ σ' n', Extends σ n σ' n' ∧ Exec σ' n' ∧ σ' n' = c' ∧ (∀ u, (σ' n').thr u = none) ∧ Run (Asked σ' n' t) n p n' out ∧
      ∀ i, n ≤ i → i ≤ n' → ∀ u op, Running (σ' i).hist u op → ∃ q : Query K, op = q.toCall := by
  have hno : ∀ {σ : Nat → Conf K V} {n : Nat}, Exec σ n → (∀ u, (σ n).thr u = none) → ∀ u op, ¬ Running (σ n).hist u op :=
    fun h hi u op hr => running_thr (exec_reach h (Nat.le_refl _)) hr (hi u)
  induction p generalizing σ n with
  | ret x =>
    simp only [solo, Option.some.injEq, Prod.mk.injEq] at hp
    obtain ⟨rfl, rfl⟩ := hp
    refine ⟨σ, n, ⟨Nat.le_refl _, fun _ _ => rfl⟩, h, rfl, hidle, .ret _ _, fun i h1 h2 u op hr => ?_⟩
    rw [show i = n by omega] at hr
    exact absurd hr (hno h hidle u op)
  | ub =>
    simp only [solo, Option.some.injEq, Prod.mk.injEq] at hp
    obtain ⟨rfl, rfl⟩ := hp
    refine ⟨σ, n, ⟨Nat.le_refl _, fun _ _ => rfl⟩, h, rfl, hidle, .ub _, fun i h1 h2 u op hr => ?_⟩
    rw [show i = n by omega] at hr
    exact absurd hr (hno h hidle u op)
  | spin => cases hp
  | ask q k ih =>
    -- the call
    obtain ⟨σ1, x1, h1, e1⟩ := exec_snoc h (.call (σ n) t 50 q.toCall (hidle t))
    -- its steps
    obtain ⟨σ2, n2, x2, h2, e2, e2'⟩ := exec_steps 1000 h1 e1
    have hact1 : act (σ n) (.call t 50 q.toCall) = ⟨(σ n).mem, setThr (σ n).thr t (some (prog 50 q.toCall)), (σ n).hist ++ [.call t q.toCall]⟩ := by
      simp only [act, hidle t]
    have hact2 : act (act (σ n) (.call t 50 q.toCall)) (.run t 1000) = σ2 n2 := by
      rw [hact1, e2]
      simp only [act, setThr, if_true]
      have : ∀ k m p, steps t (setThr (σ n).thr t (some (prog 50 q.toCall))) ((σ n).hist ++ [.call t q.toCall]) k m p =
          steps t (σ n).thr ((σ n).hist ++ [.call t q.toCall]) k m p := by
        intro k
        induction k with
        | zero => intro m p; simp only [steps, setThr_setThr]
        | succ k ihk =>
          intro m p
          simp only [steps]
          split
          · simp only [setThr_setThr]
          · exact ihk _ _
      exact this _ _ _
    simp only [solo, hact2] at hp
    split at hp
    · rename_i low high items hret
      -- the return
      obtain ⟨σ3, x3, h3, e3⟩ := exec_snoc h2 (.ret (σ2 n2) t _ hret)
      have hact3 : act (σ2 n2) (.ret t) = σ3 (n2 + 1) := by
        rw [e3]; simp only [act, hret]
      rw [hact3] at hp
      have hidle3 : ∀ u, (σ3 (n2 + 1)).thr u = none := by
        intro u
        rw [e3]
        by_cases hut : u = t
        · simp [setThr, hut]
        · simp only [setThr, if_neg hut]
          rw [(e2' n2 x2.1 (Nat.le_refl _)).2 u hut]
          exact hidle u
      obtain ⟨σ4, n4, x4, h4, e4, hi4, r4, q4⟩ := ih _ h3 hidle3 hp
      have x34 := (x3.trans x4)
      have x14 := x2.trans x34
      refine ⟨σ4, n4, x1.trans x14, h4, e4, hi4, .ask (Nat.le_refl n) (asked_extends x4 (a := n) (b := n2 + 1) ⟨Nat.le_refl _, [], ?_⟩) r4, ?_⟩
      · have hn2 : n + 1 ≤ n2 := x2.1
        have g0 : σ3 n = σ n := (x3.2 n (by omega)).trans ((x2.2 n (by omega)).trans (x1.2 n (Nat.le_refl _)))
        have g1 : (σ3 (n + 1)).hist = (σ n).hist ++ [.call t q.toCall] := by
          rw [x3.2 _ hn2]; exact (e2' _ (Nat.le_refl _) hn2).1
        have g2 : (σ3 n2).hist = (σ n).hist ++ [.call t q.toCall] := by
          rw [x3.2 _ (Nat.le_refl _)]; exact (e2' _ hn2 (Nat.le_refl _)).1
        refine ⟨by omega, ?_, ?_, fun e he => by simp at he, ?_⟩
        · rw [g0]; exact g1
        · rw [g0, Nat.add_sub_cancel]; exact g2
        · rw [Nat.add_sub_cancel, e3, x3.2 _ (Nat.le_refl _)]
      · intro i hi1 hi2 u op hr
        rcases Nat.lt_or_ge n2 i with hgt | hle
        · exact q4 i hgt hi2 u op hr
        · rw [x34.2 i hle] at hr
          by_cases hin : i = n
          · subst hin
            rw [x2.2 i (by omega), x1.2 i (Nat.le_refl _)] at hr
            exact absurd hr (hno h hidle u op)
          · rw [(e2' i (by omega) hle).1] at hr
            obtain ⟨pre, post, g1, g2⟩ := hr
            rcases List.eq_nil_or_concat post with rfl | ⟨post', e', rfl⟩
            · have := List.append_inj_right' g1 rfl
              simp only [List.cons.injEq, Lin.Event.call.injEq, and_true] at this
              exact ⟨q, this.2.symm⟩
            · rw [List.concat_eq_append, ← List.cons_append, ← List.append_assoc] at g1
              have h3 := List.append_inj_left' g1 rfl
              have h4 := List.append_inj_right' g1 rfl
              by_cases hut : u = t
              · subst hut
                simp only [List.cons.injEq, and_true] at h4
                exact absurd rfl (g2 (.call u q.toCall) (by simp [h4]))
              · exact absurd ⟨pre, post', h3, fun x hx => g2 x (by simp [hx])⟩ (hno h hidle u op)
    · cases hp

end Iterator
end BwTree
