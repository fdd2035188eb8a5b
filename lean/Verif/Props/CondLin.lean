import Verif.Proofs.CondRun

/-!
  C05 in concurrent executions.
-/

namespace BwTree
namespace Tree

open Prog

set_option linter.unusedSectionVars false

variable {K V : Type} [LinearOrder K] [DecidableEq V] [Inhabited K] {D : K → V → Prop}

/-- Every history of Insert, Delete, GetValue, iterator page reads and ConditionalInsert is linearizable: ConditionalInsert tests the stored values and
adds the pair in one atomic step. Partial: ConditionalInsert is only called for pairs for which Delete is not called (`D` are the pairs that
may be deleted); otherwise the code is wrong, see `C05_tree_breaks`. -/
theorem C05_linearizable_partial {c : CConf K V} (h : CReach D c) : Lin.Linearizable cstep (fun _ _ => False) c.hist := by
  obtain ⟨w, tok, hw⟩ := cgood_of_reach h
  exact Lin.linearizable (0, .plain .first, .plain (.bool true)) hw.lin

/-- In these executions no call runs into the wrong index of a record, or any other undefined behaviour than those listed for the other calls (see
C31): consolidation and iterators always succeed. -/
theorem C05_failures {c : CConf K V} (h : CReach D c) {t : Tid} {f : Fail} (hf : c.thr t = some (.fail f)) :
    f ∈ [Fail.noParent, .leftSibling, .mergeRange, .mergeSep, .tableFull, .uninit, .search, .navigate] := by
  obtain ⟨w, tok, hw⟩ := cgood_of_reach h
  have hrun := hw.run t _ hf
  generalize hq : (Prog.fail f : Prog K V (CAns K V)) = q at hrun
  cases hrun with
  | @plain op p w0 h1 h2 h3 =>
    cases p with
    | fail g =>
      cases hq
      have h3 : allowed op f := h3
      cases op with
      | api o => cases o <;> simp only [allowed, List.mem_cons, List.not_mem_nil, or_false] at h3 ⊢ <;> tauto
      | page k => simp only [allowed, List.mem_cons, List.not_mem_nil, or_false] at h3 ⊢; tauto
      | first => exact h3.elim
      | back k => simp only [allowed, List.mem_cons, List.not_mem_nil, or_false] at h3 ⊢; tauto
    | _ => cases hq
  | @prep fuel n k v p pos start r w0 h1 h2 h3 h4 h5 =>
    cases r with
    | fail g =>
      cases hq
      have h5 : allowC f := h5
      simp only [allowC, List.mem_cons, List.not_mem_nil, or_false] at h5 ⊢
      tauto
    | ret x =>
      rcases x with r | ⟨id, x, o⟩
      · cases hq
      · obtain ⟨hi0, _, _, ctx, ch, i, e, rfl, _, hal, _⟩ := h5
        obtain ⟨_, l, _, hx, _⟩ := hal.leaf hi0
        have := hi0.ids _ _ hx
        have hq : Prog.fail f = (replace ctx.cur.id x o).bind _ := hq
        unfold replace at hq
        split at hq
        · rename_i g
          rcases g with g | g
          · exact absurd g this.1
          · exact absurd this.2.1 (Nat.not_lt.mpr g)
        · cases hq
    | _ => cases hq
  | done _ _ _ => cases hq

/-! ### Conditional insertions that exclude each other -/

theorem CReach.within {c : CConf K V} (h : CReach D c) : ∀ t op, Lin.Event.call t op ∈ c.hist → op.Within D := by
  induction h with
  | init => intro t op h; cases h
  | step _ hs ih =>
    cases hs with
    | call u fuel op hidle hw =>
      intro t op' g
      rcases List.mem_append.mp g with g | g
      · exact ih t op' g
      · cases List.mem_singleton.mp g
        exact hw
    | step => exact ih
    | ret u a hp =>
      intro t op' g
      rcases List.mem_append.mp g with g | g
      · exact ih t op' g
      · cases List.mem_singleton.mp g

theorem cstep_keeps {S S' : Spec.PairSet K V} {op : CCall K V} {r : CAns K V} {k : K} {v : V} (h : cstep S op r S')
    (hd : op ≠ .plain (.api (.delete k v))) (hS : S k v) : S' k v := by
  cases op with
  | cond k' v' p =>
    cases r with
    | plain a => exact h.elim
    | cond b sat => exact (h.2.2.2 k v).mpr (Or.inl hS)
  | plain op =>
    cases r with
    | cond b sat => cases op <;> exact h.elim
    | plain a =>
      cases op with
      | api o =>
        cases o with
        | insert k' v' => cases a <;> first | exact h.elim | exact (h.2 k v).mpr (Or.inl hS)
        | delete k' v' =>
          cases a <;> first | exact h.elim | skip
          refine (h.2 k v).mpr ⟨hS, ?_⟩
          rintro ⟨rfl, rfl⟩
          exact hd rfl
        | get k' =>
          cases a with
          | bool b => exact h.elim
          | values l leaf =>
            have := h.2.1
            subst this
            exact hS
          | page => exact h.elim
      | page k' => cases a <;> first | exact h.elim | (obtain ⟨rfl, _⟩ := h; exact hS)
      | first => cases a <;> first | exact h.elim | (obtain ⟨rfl, _⟩ := h; exact hS)
      | back k' => cases a <;> first | exact h.elim | (obtain ⟨rfl, _⟩ := h; exact hS)

theorem crun_keeps {k : K} {v : V} {S S' : Spec.PairSet K V} {l : List (CCall K V × CAns K V)} (h : Lin.Run cstep S l S')
    (hd : ∀ x ∈ l, x.1 ≠ .plain (.api (.delete k v))) (hS : S k v) : S' k v := by
  induction h with
  | nil => exact hS
  | cons h1 _ ih => exact ih (fun x hx => hd x (List.mem_cons_of_mem _ hx)) (cstep_keeps h1 (hd _ (List.mem_cons_self ..)) hS)

theorem crun_split {S' : Spec.PairSet K V} : ∀ {a : List (CCall K V × CAns K V)} {x : CCall K V × CAns K V} {b : List (CCall K V × CAns K V)} {S : Spec.PairSet K V},
    Lin.Run cstep S (a ++ x :: b) S' → ∃ S1 S2, Lin.Run cstep S a S1 ∧ cstep S1 x.1 x.2 S2 ∧ Lin.Run cstep S2 b S'
  | [], x, b, S, h => by
    cases h with
    | cons h1 h2 => exact ⟨_, _, .nil _, h1, h2⟩
  | y :: a, x, b, S, h => by
    cases h with
    | cons h1 h2 =>
      obtain ⟨S1, S2, g1, g2, g3⟩ := crun_split h2
      exact ⟨S1, S2, .cons h1 g1, g2, g3⟩

/-- Two conditional insertions under the same key, each with a predicate that the value of the other one satisfies, do not both return true, however
they and other calls overlap. With a predicate that is always true this is what keeps the keys of a unique index unique. Partial as
`C05_linearizable_partial`. -/
theorem C53_exclusive_partial {c : CConf K V} (h : CReach D c) {t1 t2 : Tid} {k : K} {v1 v2 : V} {p1 p2 : V → Bool} (h1 : p1 v2 = true) (h2 : p2 v1 = true)
    {i1 i2 j1 j2 : Nat} {b1 b2 s1 s2 : Bool} (hne : i1 ≠ i2) (hc1 : c.hist[i1]? = some (.call t1 (.cond k v1 p1))) (hc2 : c.hist[i2]? = some (.call t2 (.cond k v2 p2)))
    (hr1 : Lin.Returns c.hist i1 j1 (.cond b1 s1)) (hr2 : Lin.Returns c.hist i2 j2 (.cond b2 s2)) : ¬ (b1 = true ∧ b2 = true) := by
  rintro ⟨rfl, rfl⟩
  obtain ⟨lin, _, hcall, hret, _, S', hrun⟩ := C05_linearizable_partial h
  obtain ⟨op1, hm1⟩ := hret _ _ _ hr1
  obtain ⟨op2, hm2⟩ := hret _ _ _ hr2
  have e1 : op1 = .cond k v1 p1 := by
    obtain ⟨t, g⟩ := hcall _ hm1
    rw [hc1] at g
    cases g
    rfl
  have e2 : op2 = .cond k v2 p2 := by
    obtain ⟨t, g⟩ := hcall _ hm2
    rw [hc2] at g
    cases g
    rfl
  subst e1 e2
  have hw1 : ¬ D k v1 := h.within t1 _ (List.mem_of_getElem? hc1)
  have hw2 : ¬ D k v2 := h.within t2 _ (List.mem_of_getElem? hc2)
  -- the first of the two in the order of the linearization excludes the other
  have key : ∀ {va vb : V} {pa pb : V → Bool} {sa sb : Bool} {a b d : List (CCall K V × CAns K V)}, ¬ D k va → pb va = true →
      (∀ x ∈ b, x.1.Within D) → ∀ {S : Spec.PairSet K V}, Lin.Run cstep S (a ++ (.cond k va pa, .cond true sa) :: (b ++ (.cond k vb pb, .cond true sb) :: d)) S' → False := by
    intro va vb pa pb sa sb a b d hD hp hb S hr
    obtain ⟨S1, S2, _, g1, g2⟩ := crun_split hr
    obtain ⟨S3, S4, g3, g4, _⟩ := crun_split g2
    have hin : S2 k va := (g1.2.2.2 k va).mpr (Or.inr ⟨rfl, rfl, rfl⟩)
    have := crun_keeps g3 (fun x hx e => hD (by have := hb x hx; rw [e] at this; exact this)) hin
    have := (g4.1.mp rfl).2 va this
    rw [hp] at this
    cases this
  have hall : ∀ x ∈ lin, x.2.1.Within D := by
    intro x hx
    obtain ⟨t, g⟩ := hcall x hx
    exact h.within t _ (List.mem_of_getElem? g)
  obtain ⟨a, b, rfl⟩ := List.append_of_mem hm1
  rcases List.mem_append.mp hm2 with g | g
  · obtain ⟨a', b', rfl⟩ := List.append_of_mem g
    simp only [List.map_append, List.map_cons, List.append_assoc, List.cons_append] at hrun
    refine key hw2 h1 (fun x hx => ?_) hrun
    obtain ⟨y, hy, rfl⟩ := List.mem_map.mp hx
    exact hall y (by simp [hy])
  · rcases List.mem_cons.mp g with g | g
    · cases g
      exact hne rfl
    · obtain ⟨a', b', rfl⟩ := List.append_of_mem g
      simp only [List.map_append, List.map_cons] at hrun
      refine key hw1 h2 (fun x hx => ?_) hrun
      obtain ⟨y, hy, rfl⟩ := List.mem_map.mp hx
      exact hall y (by simp [hy])

/-! ### The asserts of `CondInsertEntry` (C52) -/

/-- The call inserts (k, v), if it succeeds. -/
def CCall.Adds (k : K) (v : V) : CCall K V → Prop
  | .plain (.api (.insert k' v')) => k' = k ∧ v' = v
  | .cond k' v' _ => k' = k ∧ v' = v
  | _ => False

theorem cstep_adds {S S' : Spec.PairSet K V} {op : CCall K V} {r : CAns K V} {k : K} {v : V} (h : cstep S op r S') (hS : S' k v) : S k v ∨ op.Adds k v := by
  cases op with
  | cond k' v' p =>
    cases r with
    | plain a => exact h.elim
    | cond b sat => exact ((h.2.2.2 k v).mp hS).imp (fun g => g) (fun g => ⟨g.2.1.symm, g.2.2.symm⟩)
  | plain op =>
    cases r with
    | cond b sat => cases op <;> exact h.elim
    | plain a =>
      cases op with
      | api o =>
        cases o with
        | insert k' v' => cases a <;> first | exact h.elim | exact ((h.2 k v).mp hS).imp (fun g => g) (fun g => ⟨g.1.symm, g.2.symm⟩)
        | delete k' v' => cases a <;> first | exact h.elim | exact Or.inl ((h.2 k v).mp hS).1
        | get k' =>
          cases a with
          | bool b => exact h.elim
          | values l leaf =>
            have := h.2.1
            subst this
            exact Or.inl hS
          | page => exact h.elim
      | page k' => cases a <;> first | exact h.elim | (obtain ⟨rfl, _⟩ := h; exact Or.inl hS)
      | first => cases a <;> first | exact h.elim | (obtain ⟨rfl, _⟩ := h; exact Or.inl hS)
      | back k' => cases a <;> first | exact h.elim | (obtain ⟨rfl, _⟩ := h; exact Or.inl hS)

theorem crun_adds {k : K} {v : V} {S S' : Spec.PairSet K V} {l : List (CCall K V × CAns K V)} (h : Lin.Run cstep S l S') (hS : S' k v) :
    S k v ∨ ∃ x ∈ l, x.1.Adds k v := by
  induction h with
  | nil => exact Or.inl hS
  | cons h1 _ ih =>
    rcases ih hS with g | ⟨x, g1, g2⟩
    · exact (cstep_adds h1 g).imp (fun g => g) (fun g => ⟨_, List.mem_cons_self .., g⟩)
    · exact Or.inr ⟨x, List.mem_cons_of_mem _ g1, g2⟩

/-- However calls overlap: ConditionalInsert never returns true with the flag set, and it returns false with the flag unset only if another call
inserts the same pair. These are the two results for which an assert of `CondInsertEntry` fails, so none does if no two calls insert the same
entry. Partial: the second result is possible otherwise (`C52_tree_cond_aborts`), and as `C05_linearizable_partial`. -/
theorem C52_concurrent_partial {c : CConf K V} (h : CReach D c) {t : Tid} {k : K} {v : V} {p : V → Bool} {i j : Nat} {b sat : Bool}
    (hc : c.hist[i]? = some (.call t (.cond k v p))) (hr : Lin.Returns c.hist i j (.cond b sat)) : ¬ (b = true ∧ sat = true) ∧
    (b = false → sat = false → ∃ i' t' op, i' ≠ i ∧ c.hist[i']? = some (.call t' op) ∧ op.Adds k v) := by
  obtain ⟨lin, hnd, hcall, hret, _, S', hrun⟩ := C05_linearizable_partial h
  obtain ⟨op, hm⟩ := hret _ _ _ hr
  have e : op = .cond k v p := by
    obtain ⟨t', g⟩ := hcall _ hm
    rw [hc] at g
    cases g
    rfl
  subst e
  obtain ⟨l1, l2, rfl⟩ := List.append_of_mem hm
  simp only [List.map_append, List.map_cons] at hrun hnd
  obtain ⟨S1, S2, g1, g2, _⟩ := crun_split hrun
  have g2 : condStep S1 k v p b sat S2 := g2
  refine ⟨?_, ?_⟩
  · rintro ⟨rfl, rfl⟩
    obtain ⟨u, a1, a2⟩ := g2.2.1 rfl
    rw [(g2.1.mp rfl).2 u a1] at a2
    cases a2
  · rintro rfl rfl
    have hS : S1 k v := by
      by_contra hn
      have hx : ¬ ∃ u, S1 k u ∧ p u = true := fun g => by have := g2.2.2.1 hn g; cases this
      have : false = true := g2.1.mpr ⟨hn, fun u hu => by
        cases hp : p u with
        | false => rfl
        | true => exact absurd ⟨u, hu, hp⟩ hx⟩
      cases this
    rcases crun_adds g1 hS with g | ⟨x, g3, g4⟩
    · exact g.elim
    · obtain ⟨y, hy, rfl⟩ := List.mem_map.mp g3
      obtain ⟨t', g5⟩ := hcall y (List.mem_append_left _ hy)
      refine ⟨y.1, t', y.2.1, fun e => ?_, g5, g4⟩
      have := List.nodup_append.mp hnd
      exact this.2.2 y.1 (List.mem_map.mpr ⟨y, hy, rfl⟩) i (List.mem_cons_self ..) e

/-! ### An execution -/

/-- Up to `n` steps of thread `t`. -/
def crun (t : Tid) : Nat → CConf K V → CConf K V
  | 0, c => c
  | n + 1, c => match c.thr t with
    | none => c
    | some p => match p.step c.mem with
      | none => c
      | some (m', p') => crun t n ⟨m', csetThr c.thr t (some p'), c.hist⟩

theorem crun_reach {t : Tid} : ∀ {n : Nat} {c : CConf K V}, CReach D c → CReach D (crun t n c)
  | 0, _, h => h
  | n + 1, c, h => by
    unfold crun
    split
    · exact h
    · rename_i p hp
      split
      · exact h
      · rename_i m' p' hs
        exact crun_reach (h.step (.step c t p p' m' hp hs))

def ccall (t : Tid) (op : CCall K V) (c : CConf K V) : CConf K V := match c.thr t with
  | none => ⟨c.mem, csetThr c.thr t (some (cprog 50 op)), c.hist ++ [.call t op]⟩
  | some _ => c

theorem ccall_reach {t : Tid} {op : CCall K V} {c : CConf K V} (hw : op.Within D) (h : CReach D c) : CReach D (ccall t op c) := by
  unfold ccall
  split
  · exact h.step (.call c t 50 op (by assumption) hw)
  · exact h

def cret (t : Tid) (c : CConf K V) : CConf K V := match c.thr t with
  | some (.ret a) => ⟨c.mem, csetThr c.thr t none, c.hist ++ [.ret t a]⟩
  | _ => c

theorem cret_reach {t : Tid} {c : CConf K V} (h : CReach D c) : CReach D (cret t c) := by
  unfold cret
  split
  · rename_i a ha
    exact h.step (.ret c t a ha)
  · exact h

/-- Threads 1 and 2 conditionally insert different values under the same key, if it has no value yet. Both have searched the leaf and allocated their
record before thread 1 installs its record; thread 2 then fails to install its own, starts again and finds the value. Thread 3 deletes
another pair meanwhile. -/
def race : CConf Nat Nat :=
  cret 2 (crun 2 100 (cret 1 (crun 1 100 (cret 3 (crun 3 100 (ccall 3 (.plain (.api (.delete 8 1)))
    (crun 2 4 (crun 1 4 (ccall 2 (.cond 7 20 fun _ => true) (ccall 1 (.cond 7 10 fun _ => true) ⟨initMem, fun _ => none, []⟩))))))))))

def retOf : Lin.Event (CCall Nat Nat) (CAns Nat Nat) → Option (Tid × Bool × Bool)
  | .ret t (.cond b sat) => some (t, b, sat)
  | _ => none

theorem C53_race : CReach (fun k _ => k = 8) race ∧ race.hist.filterMap retOf = [(1, true, false), (2, false, true)] := by
  refine ⟨?_, by decide +kernel⟩
  exact cret_reach (crun_reach (cret_reach (crun_reach (cret_reach (crun_reach (ccall_reach (show (8 : Nat) = 8 from rfl)
    (crun_reach (crun_reach (ccall_reach (show ¬ (7 : Nat) = 8 by decide) (ccall_reach (show ¬ (7 : Nat) = 8 by decide) .init))))))))))

/-- The hypotheses of `C53_exclusive_partial` and `C52_concurrent_partial` are met in this execution. -/
example : race.hist[0]? = some (.call 1 (.cond 7 10 fun _ => true)) ∧ race.hist[1]? = some (.call 2 (.cond 7 20 fun _ => true)) ∧
    Lin.Returns race.hist 0 4 (.cond true false) ∧ Lin.Returns race.hist 1 5 (.cond false true) := by
  have h : race.hist = [.call 1 (.cond 7 10 fun _ => true), .call 2 (.cond 7 20 fun _ => true), .call 3 (.plain (.api (.delete 8 1))),
      .ret 3 (.plain (.bool false)), .ret 1 (.cond true false), .ret 2 (.cond false true)] := by with_unfolding_all rfl
  rw [h]
  refine ⟨rfl, rfl, ⟨by decide, 1, _, rfl, rfl, ?_⟩, ⟨by decide, 2, _, rfl, rfl, ?_⟩⟩
  · intro m e h1 h2 he
    have : m = 1 ∨ m = 2 ∨ m = 3 := by omega
    rcases this with rfl | rfl | rfl <;> cases he <;> decide
  · intro m e h1 h2 he
    have : m = 2 ∨ m = 3 ∨ m = 4 := by omega
    rcases this with rfl | rfl | rfl <;> cases he <;> decide

/-- After four steps each, both threads are about to install their record. -/
example : [1, 2].map (fun t => match (crun 2 4 (crun 1 4 (ccall 2 (.cond 7 20 fun _ => true) (ccall 1 (.cond 7 10 fun _ => true)
    (⟨initMem, fun _ => none, []⟩ : CConf Nat Nat))))).thr t with | some (.cas id _ _ _) => some id | _ => none) = [some FIRST_LEAF, some FIRST_LEAF] := by decide +kernel

end Tree
end BwTree
