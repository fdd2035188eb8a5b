import Verif.Proofs.TreeLocal
import Verif.Proofs.TreeRun
import Verif.Spec.Cond
import Verif.Props.TreeFresh
import Verif.Props.PelotonTree

/-! Executions with ConditionalInsert satisfy the invariant of the tree. -/

namespace BwTree
namespace Tree

open Prog

set_option linter.unusedSectionVars false

variable {K V : Type} [LinearOrder K] [DecidableEq V] [Inhabited K]
variable {t : Tid} {D : K → V → Prop}

theorem Prog.bind_assoc {α β γ : Type} (f : α → Prog K V β) (g : β → Prog K V γ) : ∀ p : Prog K V α, (p.bind f).bind g = p.bind fun a => (f a).bind g
  | .ret _ => rfl
  | .fail _ => rfl
  | .spin => rfl
  | .loadRoot k => congrArg Prog.loadRoot (funext fun i => Prog.bind_assoc f g (k i))
  | .casRoot o n k => congrArg (Prog.casRoot o n) (funext fun i => Prog.bind_assoc f g (k i))
  | .load id k => congrArg (Prog.load id) (funext fun i => Prog.bind_assoc f g (k i))
  | .cas id o n k => congrArg (Prog.cas id o n) (funext fun i => Prog.bind_assoc f g (k i))
  | .store id p k => congrArg (Prog.store id p) (Prog.bind_assoc f g k)
  | .alloc n ks k => congrArg (Prog.alloc n ks) (funext fun i => Prog.bind_assoc f g (k i))
  | .newId k => congrArg Prog.newId (funext fun i => Prog.bind_assoc f g (k i))
  | .retire p k => congrArg (Prog.retire p) (Prog.bind_assoc f g k)

/-- ConditionalInsert up to the CAS: the result, or NodeID, new and old address for the CAS. -/
def prep (fuel : Nat) (k : K) (v : V) (p : V → Bool) : Prog K V ((Bool × Bool) ⊕ (NodeId × Ptr × Ptr)) :=
  (traverse fuel k fuel).bind fun ctx =>
    match ctx.cur.node with
    | .inner _ => .fail .kind
    | .leaf c =>
      match c.predSearch c.depth k v p [] [] with
      | none => .fail .search
      | some .satisfied => .ret (.inl (false, true))
      | some .existing => .ret (.inl (false, false))
      | some (.insertAt i e) => (allocate (.leaf (.ins k v i e c)) [ctx.cur.ptr]).bind fun q => .ret (.inr (ctx.cur.id, q, ctx.cur.ptr))

/-- The rest of it. -/
def fin (fuel : Nat) (k : K) (v : V) (p : V → Bool) (n : Nat) : (Bool × Bool) ⊕ (NodeId × Ptr × Ptr) → Prog K V (CAns K V)
  | .inl r => .ret (.cond r.1 r.2)
  | .inr (id, q, o) => (replace id q o).bind fun ok =>
      if ok then .ret (.cond true false) else (condInsert fuel k v p n).bind fun r => .ret (.cond r.1 r.2)

theorem cond_split (fuel : Nat) (k : K) (v : V) (p : V → Bool) (n : Nat) :
    (condInsert fuel k v p (n + 1)).bind (fun r => .ret (CAns.cond r.1 r.2)) = (prep fuel k v p).bind (fin fuel k v p n) := by
  have hp : condInsert fuel k v p (n + 1) = (traverse fuel k fuel).bind fun ctx =>
    match ctx.cur.node with
    | .inner _ => .fail .kind
    | .leaf c =>
      match c.predSearch c.depth k v p [] [] with
      | none => .fail .search
      | some .satisfied => .ret (false, true)
      | some .existing => .ret (false, false)
      | some (.insertAt i e) => (allocate (.leaf (.ins k v i e c)) [ctx.cur.ptr]).bind fun q =>
          (replace ctx.cur.id q ctx.cur.ptr).bind fun ok => if ok then .ret (true, false) else condInsert fuel k v p n := rfl
  rw [hp, prep, Prog.bind_assoc, Prog.bind_assoc]
  congr 1
  funext ctx
  cases ctx.cur.node with
  | inner _ => rfl
  | leaf c =>
    simp only
    cases c.predSearch c.depth k v p [] [] with
    | none => rfl
    | some r =>
      cases r with
      | satisfied => rfl
      | existing => rfl
      | insertAt i e =>
        simp only [Prog.bind_assoc]
        congr 1
        funext q
        show _ = fin fuel k v p n (.inr (ctx.cur.id, q, ctx.cur.ptr))
        unfold fin
        congr 1
        funext ok
        cases ok <;> rfl

/-! ### Delete records -/

theorem lp_condInsert {H : LeafChain K V → Prop} (hk : KeepsLeaf H) (fuel : Nat) (k : K) (v : V) (p : V → Bool) (hi : ∀ i e c, H c → H (.ins k v i e c)) :
    ∀ n, lp H (condInsert fuel k v p n) (fun _ => True)
  | 0 => trivial
  | n + 1 => by
    unfold condInsert
    refine lp_seq (lp_traverse hk fuel k fuel) fun ctx h => ?_
    split
    · trivial
    · rename_i c e
      rw [e] at h
      split
      · trivial
      · trivial
      · trivial
      · refine lp_seq (lp_allocate (n := .leaf _) (hi _ _ _ h)) fun _ _ => lp_seq lp_replace fun ok _ => ?_
        cases ok
        · exact lp_condInsert hk fuel k v p hi n
        · trivial

/-- Pairs outside `D` are not deleted by any record. -/
theorem CReach.noDel {c : CConf K V} (h : CReach D c) {k : K} {v : V} (hd : ¬ D k v) :
    AllGood (LeafChain.NoDel k v) c.mem ∧ ∀ t q, c.thr t = some q → lp (LeafChain.NoDel k v) q (fun _ => True) := by
  induction h with
  | init =>
    refine ⟨fun p n e => ?_, fun t q e => by cases e⟩
    have e : (if p = 0 then _ else if p = 1 then _ else none) = some n := e
    split at e
    · cases e; trivial
    · split at e
      · cases e; trivial
      · cases e
  | @step c c' _ hs ih =>
    obtain ⟨ih1, ih2⟩ := ih
    cases hs with
    | call t fuel op hidle hw =>
      refine ⟨ih1, fun u q hu => ?_⟩
      by_cases hut : u = t
      · subst hut
        simp only [csetThr, if_true, Option.some.injEq] at hu
        subst hu
        cases op with
        | plain op =>
          refine lp_seq (lp_prog (noDel_keeps k v) fuel op (fun _ _ _ _ _ _ g => g) ?_) fun _ _ => trivial
          rintro k' v' rfl i e ch g
          refine ⟨?_, g⟩
          rintro ⟨rfl, rfl⟩
          exact hd hw
        | cond k' v' p => exact lp_seq (lp_condInsert (noDel_keeps k v) fuel k' v' p (fun _ _ _ g => g) fuel) fun _ _ => trivial
      · simp only [csetThr, if_neg hut] at hu
        exact ih2 u q hu
    | step t p p' m' hp hst =>
      obtain ⟨g1, g2⟩ := lp_step (ih2 t p hp) ih1 hst
      refine ⟨g1, fun u q hu => ?_⟩
      by_cases hut : u = t
      · subst hut
        simp only [csetThr, if_true, Option.some.injEq] at hu
        subst hu
        exact g2
      · simp only [csetThr, if_neg hut] at hu
        exact ih2 u q hu
    | ret t a hp =>
      refine ⟨ih1, fun u q hu => ?_⟩
      by_cases hut : u = t
      · subst hut
        simp only [csetThr, if_true] at hu
        cases hu
      · simp only [csetThr, if_neg hut] at hu
        exact ih2 u q hu

/-! ### Before the CAS -/

/-- Ways ConditionalInsert may fail, the same as for Insert. -/
def allowC (f : Fail) : Prop := f ∈ [Fail.noParent, .leftSibling, .mergeRange, .mergeSep, .tableFull]

/-- What holds before the CAS, or when the call returns without one. -/
def PrepQ (t : Tid) (k : K) (v : V) (p : V → Bool) (start : Nat) : (Bool × Bool) ⊕ (NodeId × Ptr × Ptr) → World K V → Prop
  | .inl r, w => Inv w ∧ start < w.sets.length ∧ Clear t w ∧ ∃ i S, start ≤ i ∧ w.sets[i]? = some S ∧ condStep S k v p r.1 r.2 S
  | .inr (id, q, o), w => Inv w ∧ start < w.sets.length ∧ Clear t w ∧ ∃ ctx c i e, ctx.cur.id = id ∧ ctx.cur.ptr = o ∧ AtLeaf allowC start k w ctx ∧
      ctx.cur.node = .leaf c ∧ w.mem.heap q = some (.leaf (.ins k v i e c)) ∧ w.ow q = .mine t ∧ w.mem.kids q = [o] ∧
      (∀ u, c.Has k u → p u = false) ∧ ¬ c.Has k v ∧ ((k, v) ∉ c.baseFor k → (LeafChain.ins k v i e c).WF)

theorem wp_prep (fuel : Nat) (k : K) (v : V) (p : V → Bool) {start : Nat} {w : World K V} (hst : start < w.sets.length) (hclr : Clear t w) :
    wp t allowC (prep fuel k v p) (PrepQ t k v p start) w := by
  have A : Allowed allowC := ⟨by simp [allowC], by simp [allowC], by simp [allowC], by simp [allowC], by simp [allowC]⟩
  unfold prep
  apply wp_bind
  apply wp_traverse A fuel k fuel hst
  intro w1 ctx hi1 he1 hal
  obtain ⟨c, l, hc, hx, hk, hwf, hkr, ho, i, S, hi0, hS, hval⟩ := hal.leaf hi1
  obtain ⟨r, er, hr⟩ := LeafChain.predSearch_spec c.depth k v p c hwf hkr.2 [] [] (by simp) (by simp)
  simp only [hc, er]
  have hst1 := st_mono he1.mono hst
  have hhas : ∀ u, S k u ↔ c.Has k u := fun u => hval k u hkr
  cases r with
  | satisfied =>
    obtain ⟨u, _, _, hu, hpu⟩ := hr
    refine ⟨hi1, hst1, hclr.ext he1, i, S, hi0, hS, ?_, fun _ => ⟨u, (hhas u).mpr hu, hpu⟩, fun _ _ => rfl, fun k' v' => by simp⟩
    simp only [Bool.false_eq_true, false_iff]
    rintro ⟨_, g⟩
    rw [g u ((hhas u).mpr hu)] at hpu
    cases hpu
  | existing =>
    have hv := (hhas v).mpr hr.2.2
    exact ⟨hi1, hst1, hclr.ext he1, i, S, hi0, hS, ⟨fun g => (by cases g), fun g => absurd hv g.1⟩, fun g => (by cases g), fun g => absurd hv g,
      fun k' v' => by simp⟩
  | insertAt j ex =>
    apply wp_bind
    apply wp_allocate _ _ (by exact ⟨_, rfl, hc ▸ hal.1.settled.snap.heap⟩)
    intro w2 q hi2 hr2 hq hoq hkq _
    have hno : ¬ c.Has k v := fun g => (hr.2.2 v (by simp) (by simp) g).2 rfl
    refine ⟨hi2, st_mono hr2.1 hst1, hclr.ext (he1.trans hr2.ext), ctx, c, j, ex, rfl, rfl, ⟨hal.1.mono hr2.1, hal.2⟩, hc, hq, hoq, hkq,
      fun u g => (hr.2.2 u (by simp) (by simp) g).1, hno, fun hb => ?_⟩
    rcases LeafChain.findValue_spec hwf hkr v with ⟨g, _⟩ | ⟨_, i', e', _, hidx⟩
    · exact absurd g hno
    · have he : e' = ex := by
        rw [hr.1]
        cases e' with
        | false => rfl
        | true => exact absurd (List.mem_of_getElem? (by simpa [LeafChain.IdxOk] using hidx)) hb
      have hii : i' = j := by
        rw [he, hr.1] at hidx
        rw [hr.2.1]
        simpa [LeafChain.IdxOk, hb] using hidx
      subst he hii
      exact ⟨hwf, hkr, hno, hidx⟩

/-! ### The CAS -/

/-- The same token for `t` on both sides. -/
theorem tok_same {w0 w : World K V} (h : Rely t w0 w) (x : Lin.Tok (Call K V) (Ans K V)) :
    Rely t { w0 with tok := Lin.upd w0.tok t x } { w with tok := Lin.upd w.tok t x } := by
  obtain ⟨h, g⟩ := h
  exact ⟨⟨h.info, h.heap, h.pub, h.removed, h.dead, h.sets, ⟨h.gh.kids, h.gh.cur, h.gh.del, h.gh.delNew, h.gh.vis⟩⟩,
    ⟨g.own, g.lock, by simp only [Lin.upd_self], g.ow, g.owB, g.lockB⟩⟩

theorem tok_mono (w : World K V) (t : Tid) (x : Lin.Tok (Call K V) (Ans K V)) : Mono w { w with tok := Lin.upd w.tok t x } :=
  (tok_rely (u := t + 1) (Nat.succ_ne_self t) x).1

/-- The CAS succeeds: the pair is added to a set in which it may be. -/
theorem cond_commit {k : K} {v : V} {p : V → Bool} {start : Nat} {id : NodeId} {q o : Ptr} {w0 w : World K V}
    (h : PrepQ t k v p start (.inr (id, q, o)) w0) (hr : Rely t w0 w) (hi : Inv w) (hn : AllGood (LeafChain.NoDel k v) w.mem) (hidle : w.tok t = .idle)
    (ht : w.mem.table id = some o) :
    ∃ w' S S', w'.mem = { w.mem with table := fun i => if i = id then some q else w.mem.table i } ∧ Inv w' ∧ (∀ u, u ≠ t → Rely u w w') ∧
      Clear t w' ∧ w'.tok = w.tok ∧ w.sets.getLast? = some S ∧ w'.sets = w.sets ++ [S'] ∧ condStep S k v p true false S' := by
  obtain ⟨hi0, hst, hclr, ctx, c, i, e, rfl, rfl, hal, hc, hq, hoq, hkq, hp, hno, hwf⟩ := h
  obtain ⟨c0, l, e0, hx, hk, hwfc, hkr, ho, _⟩ := hal.leaf hi0
  rw [hc] at e0
  cases e0
  have hsn := hal.1.settled.snap.mono hr.1
  have hcold : w.mem.heap ctx.cur.ptr = some (.leaf c) := hc ▸ hsn.heap
  have hnd : LeafChain.NoDel k v c := hn _ _ hcold
  have hwf' := hwf fun hb => hno (hnd.has hwfc hkr.2 hb)
  have hat : w.At ctx.cur.id ctx.cur.ptr (.leaf c) := ⟨ht, hcold⟩
  have hx1 := hr.1.info _ _ hx
  have hcl : (Node.leaf c : Node K V).clean = true := by
    have := hal.1.settled.clean
    rwa [hc] at this
  have hnd1 := hi.not_dead hat (Node.not_remove_of_clean hcl)
  have hb : Below (Node.leaf c : Node K V).high k := by
    have := hal.2
    rwa [hc] at this
  have habs : ∀ u, abs w k u ↔ c.Has k u := fun u => abs_at hi hx1 hnd1 hat hk hb u
  have hup := wp_update (t := t) (allow := allowC) (tok_inv (t := t) hi0 (.pending (.api (.insert k v)) 0 start))
    (⟨hal.1.mono (tok_mono _ _ _), hal.2⟩) (op := .api (.insert k v)) (pos := 0) (start := start) (Lin.upd_self _ _ _) hc (c' := .ins k v i e c) hwf' rfl rfl rfl
    (r := .bool true) (p := q) hq hoq hkq rfl (by
      intro S S' hS1 hS2 hS3
      refine ⟨by simp [hS1, hno], fun k' v' => ?_⟩
      by_cases hr : InRange c.low c.high k'
      · rw [(hS2 k' v').1 hr, hS3 k' v' hr]
        exact or_comm
      · rw [(hS2 k' v').2 hr]
        refine ⟨Or.inl, fun h => h.elim (fun h => h) (fun e => ?_)⟩
        rw [e.1] at hr
        exact absurd hkr hr)
    (Q := fun b w' => b = true → w'.tok t = .done (.api (.insert k v)) 0 (.bool true) ∧ Clear t w')
    (fun w' _ g1 g2 _ => ⟨g1, g2 hclr⟩) (fun _ _ _ g => by cases g)
  have hids := hi.ids _ _ hx1
  have hrep : (replace ctx.cur.id q ctx.cur.ptr : Prog K V Bool) = .cas ctx.cur.id ctx.cur.ptr q .ret := by
    unfold replace
    rw [if_neg]
    rintro (g | g)
    · exact hids.1 g
    · exact absurd hids.2.1 (Nat.not_lt.mpr g)
  rw [hrep] at hup
  obtain ⟨w', g1, g2, g3, g4⟩ := (hup _ (tok_same hr _) (tok_inv hi _)).1 ht
  obtain ⟨g4, g5⟩ := g4 rfl
  rcases g2.2.2.1 with ⟨_, g⟩ | ⟨op, pos, st, r, S, S', f1, f2, f3, f4, f5⟩
  · rw [g] at g4
    simp only [Lin.upd_self] at g4
    cases g4
  · simp only [Lin.upd_self] at f1
    cases f1
    rw [f5, Lin.upd_self] at g4
    cases g4
    have hS : S = abs w := by
      have f2 : w.sets.getLast? = some S := f2
      have := hi.sets
      rw [f2] at this
      exact Option.some.inj this
    refine ⟨{ w' with tok := Lin.upd w'.tok t .idle }, S, S', g1, tok_inv g3 _, fun u hu => ?_, g5, ?_, f2, f4, ?_⟩
    · exact ((tok_rely hu _).trans (g2.rely hu)).trans (tok_rely hu _)
    · show Lin.upd w'.tok t .idle = w.tok
      rw [f5]
      funext u
      by_cases hut : u = t
      · subst hut; rw [Lin.upd_self, hidle]
      · rw [Lin.upd_ne _ _ hut, Lin.upd_ne _ _ hut]
        exact Lin.upd_ne _ _ hut
    · subst hS
      refine ⟨⟨fun _ => ⟨fun g => hno ((habs v).mp g), fun u g => hp u ((habs u).mp g)⟩, fun _ => rfl⟩, fun g => (by cases g), ?_, fun k' v' => ?_⟩
      · rintro _ ⟨u, a1, a2⟩
        rw [hp u ((habs u).mp a1)] at a2
        cases a2
      · have := f3.2 k' v'
        rw [this]
        simp

/-! ### All threads -/

/-- The token of a call without conditions. -/
def mapTok : Lin.Tok (Call K V) (Ans K V) → Lin.Tok (CCall K V) (CAns K V)
  | .idle => .idle
  | .pending op pos start => .pending (.plain op) pos start
  | .done op pos r => .done (.plain op) pos (.plain r)

/-- What is known of a running thread. -/
inductive Runs (D : K → V → Prop) (t : Tid) (w : World K V) (tk : Lin.Tok (CCall K V) (CAns K V)) : Prog K V (CAns K V) → Prop where
  | plain {op : Call K V} {p : Prog K V (Ans K V)} {w0 : World K V} : tk = mapTok (w.tok t) → Rely t w0 w → wp t (allowed op) p (Done t) w0 →
      Runs D t w tk (p.bind fun a => .ret (.plain a))
  | prep {fuel n : Nat} {k : K} {v : V} {p : V → Bool} {pos start : Nat} {r : Prog K V ((Bool × Bool) ⊕ (NodeId × Ptr × Ptr))} {w0 : World K V} :
      ¬ D k v → w.tok t = .idle → tk = .pending (.cond k v p) pos start → Rely t w0 w → wp t allowC r (PrepQ t k v p start) w0 →
      Runs D t w tk (r.bind (fin fuel k v p n))
  | done {k : K} {v : V} {p : V → Bool} {pos : Nat} : w.tok t = .idle → tk = .done (.cond k v p) pos (.cond true false) → Clear t w →
      Runs D t w tk (.ret (.cond true false))

theorem Runs.stable {w w' : World K V} {tk : Lin.Tok (CCall K V) (CAns K V)} {q : Prog K V (CAns K V)} (h : Runs D t w tk q) (hr : Rely t w w') :
    Runs D t w' tk q := by
  cases h with
  | plain h1 h2 h3 => exact .plain (by rw [hr.2.tok]; exact h1) (h2.trans hr) h3
  | prep h1 h2 h3 h4 h5 => exact .prep h1 (hr.2.tok.trans h2) h3 (h4.trans hr) h5
  | done h1 h2 h3 => exact .done (hr.2.tok.trans h1) h2 (h3.ext hr.ext)

/-- The proof invariant of a configuration. -/
structure CGood (D : K → V → Prop) (c : CConf K V) (w : World K V) (tok : Tid → Lin.Tok (CCall K V) (CAns K V)) : Prop where
  mem : w.mem = c.mem
  inv : Inv w
  lin : Lin.LinRun cstep (fun _ _ => False) c.hist w.sets tok
  idle : ∀ t, c.thr t = none → w.tok t = .idle ∧ tok t = .idle ∧ Clear t w
  run : ∀ t q, c.thr t = some q → Runs D t w (tok t) q

/-- A step of the first part of a program that is not finished. -/
theorem bind_step {α β : Type} {m m' : Mem K V} {f : α → Prog K V β} {q' : Prog K V β} : ∀ {p : Prog K V α}, (p.bind f).step m = some (m', q') →
    (∃ a, p = .ret a) ∨ ∃ p', p.step m = some (m', p') ∧ q' = p'.bind f := by
  intro p h
  cases hp : p.step m with
  | none =>
    rcases final_of_stuck hp with ⟨a, rfl⟩ | ⟨g, rfl⟩ | rfl
    · exact Or.inl ⟨a, rfl⟩
    · cases h
    · cases h
  | some x =>
    obtain ⟨m1, p1⟩ := x
    have := Prog.step_bind f hp
    rw [h] at this
    cases this
    exact Or.inr ⟨p1, rfl, rfl⟩

theorem csetThr_self (f : Tid → Option (Prog K V (CAns K V))) (t : Tid) (p : Option (Prog K V (CAns K V))) : csetThr f t p t = p := by
  simp [csetThr]

theorem csetThr_ne (f : Tid → Option (Prog K V (CAns K V))) {t u : Tid} (p : Option (Prog K V (CAns K V))) (h : u ≠ t) :
    csetThr f t p u = f u := by
  simp [csetThr, h]

/-- ConditionalInsert at its beginning, or when it starts again. -/
theorem runs_cond {fuel : Nat} {k : K} {v : V} {p : V → Bool} {pos start : Nat} {w : World K V} {tk : Lin.Tok (CCall K V) (CAns K V)} (hd : ¬ D k v)
    (hidle : w.tok t = .idle) (htk : tk = .pending (.cond k v p) pos start) (hst : start < w.sets.length) (hclr : Clear t w) (n : Nat) :
    Runs D t w tk ((condInsert fuel k v p n).bind fun r => .ret (.cond r.1 r.2)) := by
  cases n with
  | zero => exact .prep (fuel := fuel) (n := 0) (r := .spin) hd hidle htk (Rely.refl _ _) trivial
  | succ n =>
    rw [cond_split]
    exact .prep hd hidle htk (Rely.refl _ _) (wp_prep fuel k v p hst hclr)

theorem cgood_step {c c' : CConf K V} {w : World K V} {tok : Tid → Lin.Tok (CCall K V) (CAns K V)} (hc : CReach D c) (h : CGood D c w tok)
    (hs : CStep D c c') : ∃ w' tok', CGood D c' w' tok' := by
  have hne : 0 < w.sets.length := by
    apply List.length_pos_iff.mpr
    intro e
    have := h.inv.sets
    rw [e] at this
    cases this
  have others : ∀ {t : Tid} {w' : World K V} {x : Lin.Tok (CCall K V) (CAns K V)} {q : Option (Prog K V (CAns K V))}, (∀ u, u ≠ t → Rely u w w') → ∀ u, u ≠ t →
      (csetThr c.thr t q u = none → w'.tok u = .idle ∧ Lin.upd tok t x u = .idle ∧ Clear u w') ∧
      (∀ q', csetThr c.thr t q u = some q' → Runs D u w' (Lin.upd tok t x u) q') := by
    intro t w' x q hr u hut
    rw [csetThr_ne _ _ hut, Lin.upd_ne _ _ hut]
    refine ⟨fun hu => ?_, fun q' hu => (h.run u q' hu).stable (hr u hut)⟩
    obtain ⟨g1, g2, g3⟩ := h.idle u hu
    exact ⟨(hr u hut).2.tok.trans g1, g2, g3.ext (hr u hut).ext⟩
  have build : ∀ {t : Tid} {w' : World K V} {x : Lin.Tok (CCall K V) (CAns K V)} {q : Option (Prog K V (CAns K V))} {hist m'}, w'.mem = m' → Inv w' →
      Lin.LinRun cstep (fun _ _ => False) hist w'.sets (Lin.upd tok t x) → (∀ u, u ≠ t → Rely u w w') →
      (q = none → w'.tok t = .idle ∧ x = .idle ∧ Clear t w') → (∀ q', q = some q' → Runs D t w' x q') →
      ∃ w' tok', CGood D ⟨m', csetThr c.thr t q, hist⟩ w' tok' := by
    intro t w' x q hist m' h1 h2 h3 h4 h5 h6
    refine ⟨w', _, h1, h2, h3, fun u hu => ?_, fun u q' hu => ?_⟩
    · by_cases hut : u = t
      · subst hut
        rw [Lin.upd_self]
        exact h5 (by simpa [csetThr] using hu)
      · exact (others h4 u hut).1 hu
    · by_cases hut : u = t
      · subst hut
        rw [Lin.upd_self]
        exact h6 q' (by simpa [csetThr] using hu)
      · exact (others h4 u hut).2 q' hu
  have updSame : ∀ t, Lin.upd tok t (tok t) = tok := by
    intro t
    funext u
    by_cases hut : u = t
    · subst hut; rw [Lin.upd_self]
    · rw [Lin.upd_ne _ _ hut]
  cases hs with
  | call t fuel op hidle hw =>
    obtain ⟨g1, g2, g3⟩ := h.idle t hidle
    cases op with
    | plain op =>
      refine build (w' := { w with tok := Lin.upd w.tok t (.pending op c.hist.length (w.sets.length - 1)) }) h.mem (tok_inv h.inv _) (.call h.lin g2)
        (fun u hu => tok_rely hu _) (fun e => by cases e) ?_
      rintro _ ⟨⟩
      refine .plain (op := op) (p := prog fuel op) (w0 := { w with tok := Lin.upd w.tok t (.pending op c.hist.length (w.sets.length - 1)) }) ?_ (Rely.refl _ _) ?_
      · simp only [Lin.upd_self]; rfl
      · exact wp_prog fuel (tok_inv h.inv _) (start := w.sets.length - 1) (by show _ < w.sets.length; omega) (Lin.upd_self _ _ _) g3
    | cond k v p =>
      refine build (w' := w) h.mem h.inv (.call h.lin g2) (fun u _ => Rely.refl _ _) (fun e => by cases e) ?_
      rintro _ ⟨⟩
      exact runs_cond hw g1 rfl (by omega) g3 fuel
  | step t q q' m' hq hst =>
    rw [← h.mem] at hst
    have hrun := h.run t q hq
    generalize htk : tok t = tk at hrun
    cases hrun with
    | @plain op p w0 h1 h2 h3 =>
      rcases bind_step hst with ⟨a, rfl⟩ | ⟨p', hp', rfl⟩
      · cases hst
      · obtain ⟨w', e1, e2, e3, e4⟩ := wp_step h3 h2 h.inv hp'
        have hrel : ∀ u, u ≠ t → Rely u w w' := fun u hu => e2.rely hu
        rcases e2.2.2.1 with ⟨g1, g2⟩ | ⟨op', pos, start, r, S, S', g1, g2, g3, g4, g5⟩
        · refine build (x := tok t) e1 e3 ?_ hrel (fun e => by cases e) ?_
          · rw [g1, updSame]; exact h.lin
          · rintro _ ⟨⟩
            exact .plain (by rw [htk, h1, g2]) (Rely.refl _ _) e4
        · refine build (x := .done (.plain op') pos (.plain r)) e1 e3 ?_ hrel (fun e => by cases e) ?_
          · rw [g4]
            exact .commit (start := start) h.lin (by rw [htk, h1, g1]; rfl) g2 g3
          · rintro _ ⟨⟩
            exact .plain (by rw [g5, Lin.upd_self]; rfl) (Rely.refl _ _) e4
    | @prep fuel n k v p pos start r w0 h1 h2 h3 h4 h5 =>
      rcases bind_step hst with ⟨a, rfl⟩ | ⟨r', hr', rfl⟩
      · have h5 : PrepQ t k v p start a w0 := h5
        rcases a with r | ⟨id, x, o⟩
        · cases hst
        · have hst : (fin fuel k v p n (.inr (id, x, o)) : Prog K V (CAns K V)).step w.mem = some (m', q') := hst
          have hids : ¬ (id = INVALID ∨ TABLE_SIZE ≤ id) := by
            obtain ⟨hi0, _, _, ctx, ch, i, e, rfl, _, hal, _⟩ := h5
            obtain ⟨_, l, _, hx, _⟩ := hal.leaf hi0
            have := hi0.ids _ _ hx
            rintro (g | g)
            · exact this.1 g
            · exact absurd this.2.1 (Nat.not_lt.mpr g)
          have hrep : (replace id x o : Prog K V Bool) = .cas id o x .ret := by
            unfold replace
            rw [if_neg hids]
          simp only [fin, hrep, Prog.bind, Prog.step] at hst
          split at hst
          · rename_i ht
            simp only [if_true, Option.some.injEq, Prod.mk.injEq] at hst
            obtain ⟨rfl, rfl⟩ := hst
            obtain ⟨w', S, S', g1, g2, g3, g4, g5, g6, g7, g8⟩ := cond_commit h5 h4 h.inv (h.mem ▸ (hc.noDel h1).1) h2 ht
            refine build (x := .done (.cond k v p) pos (.cond true false)) g1 g2 ?_ g3 (fun e => by cases e) ?_
            · rw [g7]
              exact .commit (start := start) h.lin (htk.trans h3) g6 g8
            · rintro _ ⟨⟩
              exact .done (by rw [g5]; exact h2) rfl g4
          · simp only [Bool.false_eq_true, if_false, Option.some.injEq, Prod.mk.injEq] at hst
            obtain ⟨rfl, rfl⟩ := hst
            refine build (x := tok t) (w' := w) rfl h.inv (by rw [updSame]; exact h.lin) (fun _ _ => Rely.refl _ _) (fun e => by cases e) ?_
            rintro _ ⟨⟩
            exact runs_cond h1 h2 (htk.trans h3) (st_mono h4.1 h5.2.1) (h5.2.2.1.ext h4.ext) n
      · obtain ⟨w', e1, e2, e3, e4⟩ := wp_step h5 h4 h.inv hr'
        rcases e2.2.2.1 with ⟨g1, g2⟩ | ⟨op', _, _, _, _, _, g1, _⟩
        · refine build (x := tok t) e1 e3 (by rw [g1, updSame]; exact h.lin) (fun u hu => e2.rely hu) (fun e => by cases e) ?_
          rintro _ ⟨⟩
          exact .prep h1 (by rw [g2]; exact h2) (htk.trans h3) (Rely.refl _ _) e4
        · rw [h2] at g1
          cases g1
    | done h1 h2 h3 => cases hst
  | ret t a hq =>
    have hrun := h.run t _ hq
    generalize htk : tok t = tk at hrun
    generalize hqa : (Prog.ret a : Prog K V (CAns K V)) = q at hrun
    cases hrun with
    | @plain op p w0 h1 h2 h3 =>
      cases p with
      | ret a' =>
        cases hqa
        have hf : Fin t a' w := Fin.stable h2 h3.1
        refine build (x := .idle) (w' := { w with tok := Lin.upd w.tok t .idle }) h.mem (tok_inv h.inv _) ?_ (fun u hu => tok_rely hu _)
          (fun _ => ⟨Lin.upd_self _ _ _, rfl, (h3.2.ext h2.ext : Clear t w)⟩) (fun q e => by cases e)
        unfold Fin at hf
        cases ht : w.tok t with
        | idle => rw [ht] at hf; exact hf.elim
        | pending op pos start =>
          rw [ht] at hf h1
          obtain ⟨i, S, g1, g2, g3⟩ := hf
          exact .retRead h.lin (htk.trans h1) g1 g2 g3
        | done op pos r =>
          rw [ht] at hf h1
          subst hf
          exact .retDone h.lin (htk.trans h1)
      | _ => cases hqa
    | @prep fuel n k v p pos start r w0 h1 h2 h3 h4 h5 =>
      cases r with
      | ret x =>
        rcases x with r | ⟨id, x, o⟩
        · cases hqa
          obtain ⟨_, _, g1, i, S, g2, g3, g4⟩ := h5
          obtain ⟨ext, hext⟩ := h4.1.sets
          refine build (x := .idle) (w' := w) h.mem h.inv ?_ (fun u _ => Rely.refl _ _) (fun _ => ⟨h2, rfl, g1.ext h4.ext⟩) (fun q e => by cases e)
          refine .retRead h.lin (htk.trans h3) g2 (?_ : w.sets[i]? = some S) g4
          rw [hext, List.getElem?_append_left (List.getElem?_eq_some_iff.mp g3).1]
          exact g3
        · have hqa : Prog.ret a = (replace id x o).bind _ := hqa
          unfold replace at hqa
          split at hqa <;> cases hqa
      | _ => cases hqa
    | done h1 h2 h3 =>
      cases hqa
      exact build (x := .idle) (w' := w) h.mem h.inv (.retDone h.lin (htk.trans h2)) (fun u _ => Rely.refl _ _) (fun _ => ⟨h1, rfl, h3⟩) (fun q e => by cases e)

theorem cgood_of_reach {c : CConf K V} (h : CReach D c) : ∃ w tok, CGood D c w tok := by
  induction h with
  | init =>
    exact ⟨initWorld, fun _ => .idle, rfl, init_inv, .init, fun t _ => ⟨rfl, rfl, good_init.clear t rfl⟩, fun t q e => by cases e⟩
  | step hc hs ih =>
    obtain ⟨w, tok, hw⟩ := ih
    exact cgood_step hc hw hs

end Tree
end BwTree
