import Verif.Proofs.TreeBack

/-! Every reachable configuration satisfies the invariant. -/

namespace BwTree
namespace Tree

open Prog

set_option linter.unusedSectionVars false

variable {K V : Type} [LinearOrder K] [DecidableEq V] [Inhabited K]
variable {t : Tid} {allow : Fail → Prop}

theorem wp_step {α : Type} {Q : α → World K V → Prop} {p p' : Prog K V α} {w0 w : World K V} {m' : Mem K V} (h : wp t allow p Q w0)
    (hr : Rely t w0 w) (hi : Inv w) (hs : p.step w.mem = some (m', p')) : Next t w m' (wp t allow p' Q) := by
  cases p with
  | ret a => cases hs
  | fail f => cases hs
  | spin => cases hs
  | loadRoot k => cases hs; exact h w hr hi
  | casRoot o n k =>
    by_cases hc : w.mem.root = o
    · simp only [Prog.step, if_pos hc, Option.some.injEq, Prod.mk.injEq] at hs
      obtain ⟨rfl, rfl⟩ := hs
      exact (h w hr hi).1 hc
    · simp only [Prog.step, if_neg hc, Option.some.injEq, Prod.mk.injEq] at hs
      obtain ⟨rfl, rfl⟩ := hs
      exact (h w hr hi).2 hc
  | load id k =>
    simp only [Prog.step, Option.some.injEq, Prod.mk.injEq] at hs
    obtain ⟨rfl, rfl⟩ := hs
    cases ht : w.mem.table id with
    | none => exact (h w hr hi).2.1 (fun p n ha => by rw [ha.1] at ht; cases ht)
    | some p =>
      simp only
      cases hh : w.mem.heap p with
      | none =>
        refine (h w hr hi).2.1 (fun q n ha => ?_)
        rw [ha.1] at ht
        cases ht
        rw [ha.2] at hh
        cases hh
      | some n => exact (h w hr hi).1 p n ⟨ht, hh⟩
  | cas id o n k =>
    by_cases hc : w.mem.table id = some o
    · simp only [Prog.step, if_pos hc, Option.some.injEq, Prod.mk.injEq] at hs
      obtain ⟨rfl, rfl⟩ := hs
      exact (h w hr hi).1 hc
    · simp only [Prog.step, if_neg hc, Option.some.injEq, Prod.mk.injEq] at hs
      obtain ⟨rfl, rfl⟩ := hs
      exact (h w hr hi).2.1 hc
  | store id p k => cases hs; exact (h w hr hi).1
  | alloc n k => cases hs; exact h w hr hi
  | newId k => cases hs; exact h w hr hi
  | retire p k => cases hs; exact h w hr hi

theorem Running.append {H : List (Lin.Event (Call K V) (Ans K V))} {op : Call K V} {e : Lin.Event (Call K V) (Ans K V)}
    (h : Running H t op) (he : e.tid ≠ t) : Running (H ++ [e]) t op := by
  obtain ⟨pre, post, rfl, h2⟩ := h
  refine ⟨pre, post ++ [e], by simp, ?_⟩
  intro x hx
  rcases List.mem_append.mp hx with hx | hx
  · exact h2 x hx
  · rw [List.mem_singleton.mp hx]; exact he

/-- The operation of a token. -/
def TokOf : Lin.Tok (Call K V) (Ans K V) → Call K V → Prop
  | .idle, _ => False
  | .pending op _ _, op' => op = op'
  | .done op _ _, op' => op = op'

/-- The proof invariant of a configuration. -/
structure Good (c : Conf K V) (w : World K V) : Prop where
  mem : w.mem = c.mem
  inv : Inv w
  lin : Lin.LinRun tstep (fun _ _ => False) c.hist w.sets w.tok
  idle : ∀ t, c.thr t = none → w.tok t = .idle
  run : ∀ t p, c.thr t = some p → ∃ op w0, Running c.hist t op ∧ TokOf (w.tok t) op ∧ Rely t w0 w ∧ wp t (allowed op) p (Done t) w0
  clear : ∀ t, c.thr t = none → Clear t w

/-- World of the initial configuration. -/
def initWorld : World K V where
  mem := initMem
  info := fun i => if i = 1 then some (none, 1) else if i = 2 then some (none, 0) else none
  pub := fun i p => (i = 1 ∧ p = 0) ∨ (i = 2 ∧ p = 1)
  own := fun _ => none
  lock := fun _ => none
  dead := fun _ => False
  del := fun _ => False
  ow := fun p => if p = 0 then .tab 1 else if p = 1 then .tab 2 else .free
  sets := [fun _ _ => False]
  tok := fun _ => .idle

theorem init_info {i : NodeId} {x : Option K × Nat} (h : (initWorld : World K V).info i = some x) :
    (i = 1 ∧ x = (none, 1)) ∨ (i = 2 ∧ x = (none, 0)) := by
  simp only [initWorld] at h
  split at h
  · cases h; exact Or.inl ⟨by assumption, rfl⟩
  · split at h
    · cases h; exact Or.inr ⟨by assumption, rfl⟩
    · cases h

theorem init_at {i : NodeId} {p : Ptr} {n : Node K V} (h : (initWorld : World K V).At i p n) :
    (i = 1 ∧ p = 0 ∧ n = .inner (.base (default, 2) (default, INVALID) 0 [(default, 2)])) ∨
    (i = 2 ∧ p = 1 ∧ n = .leaf (.base (default, INVALID) (default, INVALID) [])) := by
  obtain ⟨h1, h2⟩ := h
  simp only [initWorld, initMem] at h1 h2
  split at h1
  · cases h1
    simp at h2
    exact Or.inl ⟨by assumption, rfl, h2.symm⟩
  · split at h1
    · cases h1
      simp at h2
      exact Or.inr ⟨by assumption, rfl, h2.symm⟩
    · cases h1

theorem init_ow : OwInv (initWorld : World K V) := by
  have hat : ∀ {i p} {n : Node K V}, (initWorld : World K V).At i p n → n.isBase = true := by
    intro i p n h
    rcases init_at h with ⟨_, _, rfl⟩ | ⟨_, _, rfl⟩ <;> rfl
  have hf : ∀ p, (initWorld : World K V).mem.follow p = [] := by
    intro p
    simp only [Mem.follow, initWorld, initMem]
    split
    · rfl
    · rename_i n hn
      split at hn
      · cases hn; rfl
      · split at hn
        · cases hn; rfl
        · cases hn
  constructor
  · intro p
    simp only [initWorld, initMem]
    by_cases h0 : p = 0
    · subst h0; simp
    · by_cases h1 : p = 1
      · subst h1; simp
      · simp [h0, h1]
  · intro p n hp
    refine ⟨?_, fun c hc => by cases hc⟩
    simp only [initWorld, initMem] at hp
    split at hp
    · cases hp; rfl
    · split at hp
      · cases hp; rfl
      · cases hp
  · rintro id p (⟨_, rfl⟩ | ⟨_, rfl⟩) <;> exact fun h => h
  · intro id x p h hp
    left
    rcases init_info h with ⟨rfl, _⟩ | ⟨rfl, _⟩ <;> cases hp <;> rfl
  · intro p _; rw [hf]; exact List.nodup_nil
  · intro p _ c hc; rw [hf] at hc; cases hc
  · intro id x a o c _ h
    have := hat h
    cases this
  · intro r x p n _ h hr
    have := (Node.base_facts (hat h)).1
    rw [hr] at this; cases this
  · intro p
    simp only [initWorld, initMem]
    by_cases h0 : p = 0
    · subst h0; simp
    · by_cases h1 : p = 1
      · subst h1; simp
      · simp [h0, h1]
  · exact List.nodup_nil
  · intro p id h
    simp only [initWorld] at h
    split at h
    · cases h; subst_vars; exact ⟨rfl, _, rfl⟩
    · split at h
      · cases h; subst_vars; exact ⟨rfl, _, rfl⟩
      · cases h
  · intro c p h
    simp only [initWorld] at h
    split at h
    · cases h
    · split at h <;> cases h

theorem init_inv : Inv (initWorld : World K V) := by
  have hat : ∀ {i p} {n : Node K V}, (initWorld : World K V).At i p n → n.isRemove = false ∧ n.high.2 = INVALID := by
    intro i p n h
    rcases init_at h with ⟨_, _, rfl⟩ | ⟨_, _, rfl⟩ <;> exact ⟨rfl, rfl⟩
  have hrec : ∀ p n r, (initWorld : World K V).mem.heap p = some n → ¬ ((initWorld : World K V).ow p).Hidden → n.deletes = some r →
      (initWorld : World K V).del r := by
    intro p n r hp _ hr
    simp only [initWorld, initMem] at hp
    split at hp
    · cases hp; cases hr
    · split at hp
      · cases hp; cases hr
      · cases hp
  have hrmv : ∀ p n r, (initWorld : World K V).mem.heap p = some n → ¬ ((initWorld : World K V).ow p).Hidden → n.removedId = some r →
      Rmv (initWorld : World K V) p r := by
    intro p n r hp _ hr
    simp only [initWorld, initMem] at hp
    split at hp
    · cases hp; cases hr
    · split at hp
      · cases hp; cases hr
      · cases hp
  have hspl : ∀ p n r, (initWorld : World K V).mem.heap p = some n → ¬ ((initWorld : World K V).ow p).Hidden → n.splits = some r →
      ∃ x, (initWorld : World K V).info r = some x := by
    intro p n r hp _ hr
    simp only [initWorld, initMem] at hp
    split at hp
    · cases hp; cases hr
    · split at hp
      · cases hp; cases hr
      · cases hp
  refine ⟨?_, ?_, ?_, ?_, ?_, ?_, ?_, ?_, ?_, ?_, ?_, ?_, ?_, ?_, ?_, ?_, init_ow, ⟨fun r h => h.elim, fun r h => h.elim, fun r h => h.elim, hrec, fun r _ h => h.elim, hrmv, hspl⟩, ?_⟩
  · intro id x h
    rcases init_info h with ⟨rfl, _⟩ | ⟨rfl, _⟩ 
    · exact ⟨by decide, by decide, show (1 : Nat) < 3 by decide⟩
    · exact ⟨by decide, by decide, show (2 : Nat) < 3 by decide⟩
  · intro id t h; cases h
  · exact (show (0 : Nat) < 3 by decide)
  · intro p n h
    simp only [initWorld, initMem] at h ⊢
    split at h
    · subst_vars; decide
    · split at h
      · subst_vars; decide
      · cases h
  · intro id x h
    rcases init_info h with ⟨rfl, _⟩ | ⟨rfl, _⟩
    · exact ⟨0, rfl, Or.inl ⟨rfl, rfl⟩⟩
    · exact ⟨1, rfl, Or.inr ⟨rfl, rfl⟩⟩
  · intro id p h
    rcases h with ⟨rfl, rfl⟩ | ⟨rfl, rfl⟩
    · refine ⟨none, 1, _, rfl, rfl, ⟨Or.inl rfl, fun k h => (by cases h), fun m h => (by cases h), 0, rfl, ?_, ?_⟩, fun q c h => by cases h⟩
      · refine ⟨rfl, fun k h => (by cases h), rfl, List.Pairwise.nil, fun x h => (by cases h), Or.inl rfl, fun k h => (by cases h)⟩
      · intro id h
        simp [InnerChain.childIds] at h
        subst h
        exact ⟨none, rfl⟩
    · refine ⟨none, 0, _, rfl, rfl, ⟨Or.inl rfl, fun k h => (by cases h), fun m h => (by cases h), rfl, ?_, fun _ => rfl, fun k h => (by cases h)⟩,
        fun q c h => by cases h⟩
      exact ⟨List.Pairwise.nil, List.nodup_nil, fun x h => (by cases h), Or.inl rfl⟩
  · intro id t h; cases h
  · refine ⟨0, rfl, fun id lk m h => ?_⟩
    rcases init_info h with ⟨_, h⟩ | ⟨_, h⟩ <;> cases h <;> decide
  · intro id h; exact h.elim
  · rintro id n _ ⟨x, p, nd, _, h1, h2⟩
    rw [(hat h1).1] at h2
    cases h2
  · intro n id p node _ h
    exact Or.inl (hat h).2
  · rintro n x y k ⟨lk, p, nd, h1, _⟩ ⟨lk', p', nd', h2, _⟩
    rcases init_info h1 with ⟨rfl, h⟩ | ⟨rfl, h⟩ <;> rcases init_info h2 with ⟨rfl, h'⟩ | ⟨rfl, h'⟩ <;> cases h <;> cases h' <;> rfl
  · intro n x y h1 h2
    rcases init_info h1 with ⟨rfl, h⟩ | ⟨rfl, h⟩ <;> rcases init_info h2 with ⟨rfl, h'⟩ | ⟨rfl, h'⟩ <;> cases h <;> cases h' <;> rfl
  · intro n id k h
    rcases init_info h with ⟨_, h⟩ | ⟨_, h⟩ <;> cases h
  · rfl
  · show some _ = some _
    congr 1
    funext k v
    apply propext
    refine ⟨fun h => h.elim, ?_⟩
    rintro ⟨id, lk, p, c, _, _, h, h'⟩
    rcases init_at h with ⟨_, _, e⟩ | ⟨_, _, e⟩ <;> cases e
    cases h'
  · intro id x p q c _ h
    rcases init_at h with ⟨_, _, e⟩ | ⟨_, _, e⟩ <;> cases e

theorem good_init : Good (initConf : Conf K V) initWorld :=
  ⟨rfl, init_inv, .init, fun _ _ => rfl, fun t p h => (by cases h), fun t _ => ⟨fun p hp => (by
    simp only [initWorld] at hp
    split at hp
    · cases hp
    · split at hp <;> cases hp), fun id h => by cases h⟩⟩

/-- Only the token of `t` changes. -/
theorem tok_rely {w : World K V} {u : Tid} (hu : u ≠ t) (x : Lin.Tok (Call K V) (Ans K V)) :
    Rely u w { w with tok := Lin.upd w.tok t x } :=
  ⟨⟨fun _ _ h => h, fun _ _ h => h, fun _ _ h => h, fun _ _ _ _ _ h _ => h.1, fun _ h => h, ⟨[], by simp⟩,
      ⟨fun _ _ _ => rfl, fun _ _ _ h => h, fun _ h => h, fun _ _ _ _ h => Or.inl h, fun _ h => h⟩⟩,
    ⟨fun _ h => ⟨h, rfl⟩, fun _ h => ⟨h, rfl⟩, Lin.upd_ne _ _ hu, fun _ _ => rfl, fun _ h => h, fun _ h => h⟩⟩

theorem tok_inv {w : World K V} (hi : Inv w) (x : Lin.Tok (Call K V) (Ans K V)) : Inv { w with tok := Lin.upd w.tok t x } :=
  ⟨hi.ids, hi.own, hi.nextId, hi.heapLt, hi.cur, hi.ok, hi.lock, hi.root, hi.dead, hi.keep, hi.next, hi.disj, hi.lowU, hi.pred, hi.first,
    hi.sets, ⟨hi.ow.free, hi.ow.klt, hi.ow.pub, hi.ow.tab, hi.ow.nd, hi.ow.kid, hi.ow.abort, hi.ow.rem, hi.ow.trash, hi.ow.nodup, hi.ow.btab, hi.ow.bcell⟩,
    ⟨hi.dl.dead, hi.dl.top, hi.dl.sep, hi.dl.recs, hi.dl.gone, hi.dl.rmv, hi.dl.spl⟩, hi.abort⟩

theorem setThr_self (f : Tid → Option (Prog K V (Ans K V))) (t : Tid) (p : Option (Prog K V (Ans K V))) : setThr f t p t = p := by
  simp [setThr]

theorem setThr_ne (f : Tid → Option (Prog K V (Ans K V))) {t u : Tid} (p : Option (Prog K V (Ans K V))) (h : u ≠ t) :
    setThr f t p u = f u := by
  simp [setThr, h]

/-- How the tokens and the list of sets may change in one step. -/
structure TokStep (w w' : World K V) : Prop where
  pend : ∀ u op pos start, w'.tok u = .pending op pos start →
    w.tok u = .pending op pos start ∨ (w.tok u = .idle ∧ start + 1 = w'.sets.length ∧ w'.sets = w.sets)
  done : ∀ u op pos r, w'.tok u = .done op pos r → w.tok u = .done op pos r ∨
    ∃ start S S', w.tok u = .pending op pos start ∧ w.sets.getLast? = some S ∧ tstep S op r S' ∧ w'.sets = w.sets ++ [S']
  sets : w'.sets = w.sets ∨ ∃ S', w'.sets = w.sets ++ [S']
  com : w'.sets = w.sets ∨ ∃ u op pos start r S S', w.tok u = .pending op pos start ∧ w'.tok u = .done op pos r ∧
    w.sets.getLast? = some S ∧ tstep S op r S' ∧ w'.sets = w.sets ++ [S']

theorem TokStep.idle {w : World K V} (t : Tid) : TokStep w { w with tok := Lin.upd w.tok t .idle } := by
  have h : ∀ u x, x ≠ Lin.Tok.idle → Lin.upd w.tok t .idle u = x → w.tok u = x := by
    intro u x hx h
    by_cases hut : u = t
    · subst hut; rw [Lin.upd_self] at h; exact absurd h.symm hx
    · rwa [Lin.upd_ne _ _ hut] at h
  exact ⟨fun u op pos start e => Or.inl (h u _ (by simp) e), fun u op pos r e => Or.inl (h u _ (by simp) e), Or.inl rfl, Or.inl rfl⟩

theorem LinStep.tokStep {w w' : World K V} (h : LinStep t w w') (ho : ∀ u, u ≠ t → w'.tok u = w.tok u) : TokStep w w' := by
  rcases h with ⟨g1, g2⟩ | ⟨op', pos', start', r', S, S', g1, g2, g3, g4, g5⟩
  · exact ⟨fun u op pos start e => Or.inl (by rw [← g2]; exact e), fun u op pos r e => Or.inl (by rw [← g2]; exact e), Or.inl g1, Or.inl g1⟩
  · refine ⟨fun u op pos start e => ?_, fun u op pos r e => ?_, Or.inr ⟨_, g4⟩,
      Or.inr ⟨t, op', pos', start', r', S, S', g1, by rw [g5, Lin.upd_self], g2, g3, g4⟩⟩
    · by_cases hut : u = t
      · subst hut; rw [g5, Lin.upd_self] at e; cases e
      · exact Or.inl ((ho u hut) ▸ e)
    · by_cases hut : u = t
      · subst hut
        rw [g5, Lin.upd_self] at e
        cases e
        exact Or.inr ⟨_, S, S', g1, g2, g3, g4⟩
      · exact Or.inl ((ho u hut) ▸ e)

theorem good_step {c c' : Conf K V} {w : World K V} (h : Good c w) (hs : Step c c') : ∃ w', Good c' w' ∧
    ((w'.info = w.info ∧ w'.sets = w.sets ∧ w'.mem = w.mem ∧ w'.ow = w.ow ∧ w'.del = w.del) ∨ ∃ t, Guar t w w') ∧ TokStep w w' ∧ Mono w w' := by
  cases hs with
  | call t fuel op hidle =>
    have htok := h.idle t hidle
    refine ⟨{ w with tok := Lin.upd w.tok t (.pending op c.hist.length (w.sets.length - 1)) },
      ⟨h.mem, tok_inv h.inv _, .call h.lin htok, ?_, ?_, ?_⟩, Or.inl ⟨rfl, rfl, rfl, rfl, rfl⟩, ?_, (tok_rely (u := t + 1) (Nat.succ_ne_self t) _).1⟩
    · intro u hu
      by_cases hut : u = t
      · subst hut; simp only [setThr_self] at hu; cases hu
      · simp only [setThr_ne _ _ hut] at hu
        exact (Lin.upd_ne _ _ hut).trans (h.idle u hu)
    · intro u p hu
      by_cases hut : u = t
      · subst hut
        simp only [setThr_self, Option.some.injEq] at hu
        subst hu
        refine ⟨op, _, ⟨c.hist, [], rfl, fun e he => by cases he⟩, ?_, Rely.refl _ _, ?_⟩
        · simp only [Lin.upd_self]; rfl
        have hne : w.sets ≠ [] := by
          intro e
          have := h.inv.sets
          rw [e] at this
          cases this
        have : 0 < w.sets.length := List.length_pos_iff.mpr hne
        exact wp_prog fuel (tok_inv h.inv _) (start := w.sets.length - 1) (by show _ < w.sets.length; omega) (Lin.upd_self _ _ _) (h.clear u hidle)
      · simp only [setThr_ne _ _ hut] at hu
        obtain ⟨op', w0, h1, h4, h2, h3⟩ := h.run u p hu
        refine ⟨op', w0, h1.append (fun e => hut e.symm), ?_, h2.trans (tok_rely hut _), h3⟩
        simp only [Lin.upd_ne _ _ hut]; exact h4
    · intro u hu
      by_cases hut : u = t
      · subst hut; simp only [setThr_self] at hu; cases hu
      · simp only [setThr_ne _ _ hut] at hu
        exact h.clear u hu
    · have hne : 0 < w.sets.length := by
        apply List.length_pos_iff.mpr
        intro e
        have := h.inv.sets
        rw [e] at this
        cases this
      refine ⟨fun u op' pos start e => ?_, fun u op' pos r e => ?_, Or.inl rfl, Or.inl rfl⟩
      · by_cases hut : u = t
        · subst hut
          simp only [Lin.upd_self] at e
          cases e
          exact Or.inr ⟨htok, by show w.sets.length - 1 + 1 = w.sets.length; omega, rfl⟩
        · simp only [Lin.upd_ne _ _ hut] at e
          exact Or.inl e
      · by_cases hut : u = t
        · subst hut
          simp only [Lin.upd_self] at e
          cases e
        · simp only [Lin.upd_ne _ _ hut] at e
          exact Or.inl e
  | step t p p' m' hp hst =>
    obtain ⟨op, w0, h1, h0, h2, h3⟩ := h.run t p hp
    rw [← h.mem] at hst
    obtain ⟨w', e1, e2, e3, e4⟩ := wp_step h3 h2 h.inv hst
    refine ⟨w', ⟨e1, e3, ?_, ?_, ?_, ?_⟩, Or.inr ⟨t, e2⟩, e2.2.2.1.tokStep (fun u hu => (e2.2.1 u hu).tok), e2.1⟩
    · rcases e2.2.2.1 with ⟨g1, g2⟩ | ⟨op', pos, start, r, S, S', g1, g2, g3, g4, g5⟩
      · rw [g1, g2]; exact h.lin
      · rw [g4, g5]; exact .commit h.lin g1 g2 g3
    · intro u hu
      by_cases hut : u = t
      · subst hut; simp only [setThr_self] at hu; cases hu
      · simp only [setThr_ne _ _ hut] at hu
        exact (e2.2.1 u hut).tok.trans (h.idle u hu)
    · intro u q hu
      by_cases hut : u = t
      · subst hut
        simp only [setThr_self, Option.some.injEq] at hu
        subst hu
        refine ⟨op, w', h1, ?_, Rely.refl _ _, e4⟩
        rcases e2.2.2.1 with ⟨_, g2⟩ | ⟨op', pos, start, r, S, S', g1, g2, g3, g4, g5⟩
        · rw [g2]; exact h0
        · rw [g5, Lin.upd_self]
          rw [g1] at h0
          exact h0
      · simp only [setThr_ne _ _ hut] at hu
        obtain ⟨op', w1, g1, g4, g2, g3⟩ := h.run u q hu
        exact ⟨op', w1, g1, (by rw [(e2.2.1 u hut).tok]; exact g4), g2.trans (e2.rely hut), g3⟩
    · intro u hu
      by_cases hut : u = t
      · subst hut; simp only [setThr_self] at hu; cases hu
      · simp only [setThr_ne _ _ hut] at hu
        obtain ⟨c1, c2⟩ := h.clear u hu
        exact ⟨fun p hp => c1 p ((e2.2.1 u hut).owB p hp), fun i hl => c2 i ((e2.2.1 u hut).lockB i hl)⟩
  | ret t a hp =>
    obtain ⟨op, w0, h1, h0, h2, h3⟩ := h.run t _ hp
    have hf : Fin t a w := Fin.stable h2 h3.1
    refine ⟨{ w with tok := Lin.upd w.tok t .idle }, ⟨h.mem, tok_inv h.inv _, ?_, ?_, ?_, ?_⟩, Or.inl ⟨rfl, rfl, rfl, rfl, rfl⟩, TokStep.idle t, (tok_rely (u := t + 1) (Nat.succ_ne_self t) _).1⟩
    · unfold Fin at hf
      cases ht : w.tok t with
      | idle => rw [ht] at hf; exact hf.elim
      | pending op pos start =>
        rw [ht] at hf
        obtain ⟨i, S, g1, g2, g3⟩ := hf
        exact .retRead h.lin ht g1 g2 g3
      | done op pos r =>
        rw [ht] at hf
        subst hf
        exact .retDone h.lin ht
    · intro u hu
      by_cases hut : u = t
      · subst hut; exact Lin.upd_self _ _ _
      · simp only [setThr_ne _ _ hut] at hu
        exact (Lin.upd_ne _ _ hut).trans (h.idle u hu)
    · intro u q hu
      by_cases hut : u = t
      · subst hut; simp only [setThr_self] at hu; cases hu
      · simp only [setThr_ne _ _ hut] at hu
        obtain ⟨op', w1, g1, g4, g2, g3⟩ := h.run u q hu
        refine ⟨op', w1, g1.append (fun e => hut e.symm), ?_, g2.trans (tok_rely hut _), g3⟩
        simp only [Lin.upd_ne _ _ hut]; exact g4
    · intro u hu
      by_cases hut : u = t
      · subst hut; exact (h3.2.ext h2.ext : Clear u w)
      · simp only [setThr_ne _ _ hut] at hu
        exact h.clear u hu

theorem good_of_reach {c : Conf K V} (h : Reach c) : ∃ w, Good c w := by
  induction h with
  | init => exact ⟨_, good_init⟩
  | step _ hs ih =>
    obtain ⟨w, hw⟩ := ih
    obtain ⟨w', hw', _⟩ := good_step hw hs
    exact ⟨w', hw'⟩

end Tree
end BwTree
