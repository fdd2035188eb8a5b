import Verif.Model.TreeCond
import Verif.Props.SeqTotal
import Verif.Proofs.FastRun

/-!
  C05 on whole trees: ConditionalInsert after any history of calls that do not overlap.
-/

namespace BwTree
namespace Tree

open Prog

set_option linter.unusedSectionVars false

variable {K V : Type} [LinearOrder K] [DecidableEq V] [Inhabited K]

/-- The way a lookup takes ends at the leaf for the key, and the stored pairs are as before. -/
theorem traverse_run {c : Conf K V} (h : SeqReach c) {fuel : Nat} (hf : Ample fuel) (k : K) :
    (∃ m, Steps c.mem (traverse fuel k fuel) m (.fail .tableFull) ∧ TABLE_SIZE < m.nextId) ∨
    ∃ (w : World K V) (ctx : Ctx K V), Steps c.mem (traverse fuel k fuel) w.mem (.ret ctx) ∧ Inv w ∧ Leaf k w ctx ∧
      (∀ k' v', Stored w.mem k' v' ↔ Stored c.mem k' v') ∧ ∃ a, Steps c.mem (prog fuel (.page k)) w.mem (.ret a) := by
  obtain ⟨w, hw⟩ := h.calls
  have hf' : 3 * TABLE_SIZE < fuel := hf
  have hne : 0 < w.sets.length := by
    have := hw.rest.1.sets
    rcases hs : w.sets with _ | ⟨x, l⟩
    · rw [hs] at this; exact absurd this (by simp)
    · simp
  have hwp : wp 0 (allowed (.page k : Call K V)) (traverse fuel k fuel) (fun _ _ => True) w :=
    wp_traverse (start := 0) ⟨by simp [allowed], by simp [allowed], by simp [allowed], by simp [allowed], by simp [allowed]⟩ fuel k fuel hne
      fun _ _ _ _ _ => trivial
  have htw := tw_traverse (t := 0) (k := k) (Nat.lt_of_le_of_lt (by omega) hf') fuel hw.rest.1 hw.rest.2.1 (hw.rest.2.2.line k)
    (Nat.lt_of_le_of_lt work_le hf')
  rcases tw_run htw hwp hw.rest.1 with ⟨w1, f, h1, h2, h3⟩ | ⟨ctx, w1, h1, h2, h3, _⟩
  · obtain ⟨rfl, h4⟩ := mayFail_of (op := (.page k : Call K V)) rfl (fun _ e => by cases e) h2 h3
    exact Or.inl ⟨_, hw.mem ▸ h1, h4⟩
  · rw [hw.mem] at h1
    refine Or.inr ⟨w1, ctx, h1, h2, h3.2, ?_⟩
    obtain ⟨ch, e, hwf, _, _⟩ := h3.2.chain
    obtain ⟨l, el, _⟩ := LeafChain.collect_spec hwf
    have hs : Steps c.mem (prog fuel (.page k)) w1.mem (.ret (.page ch.low ch.high l)) := by
      have := Steps.seq (fun ctx : Ctx K V => readPage ctx.cur.node) h1
      have e2 : (Prog.ret ctx : Prog K V (Ctx K V)).bind (fun ctx => readPage ctx.cur.node) = .ret (.page ch.low ch.high l) := by
        show readPage ctx.cur.node = _
        rw [e]
        simp only [readPage, el]
      rw [e2] at this
      exact this
    have hx := C42_exact h hf (op := .page k) rfl hs
    exact ⟨fun k' v' => by rw [hx.1], _, hs⟩

/-- The stored pairs after the chain of one leaf has been replaced. -/
theorem stored_replace {w : World K V} (hi : Inv w) {m : Mem K V} {id : NodeId} {c c' : LeafChain K V} (hon : OnPath w.mem id c)
    (hh : c'.high = c.high) (hm : ∀ i x, w.info i = some x → m.node i = if i = id then some (.leaf c') else w.mem.node i)  :
    OnPath m id c' ∧ ∀ k v, Stored m k v ↔ c'.Has k v ∨ ∃ i d, i ≠ id ∧ OnPath w.mem i d ∧ d.Has k v := by
  have info : ∀ {i d}, OnPath w.mem i d → ∃ x, w.info i = some x := fun g => by
    obtain ⟨⟨⟨l, g1⟩, _⟩, _⟩ := (onPath_iff hi).mp g
    exact ⟨_, g1⟩
  have same : ∀ {i d d'}, OnPath w.mem i d → OnPath w.mem i d' → d = d' := fun g g' => by
    obtain ⟨_, p, g1⟩ := (onPath_iff hi).mp g
    obtain ⟨_, p', g2⟩ := (onPath_iff hi).mp g'
    have := (At.unique g1 g2).2
    cases this
    rfl
  have nxt : ∀ {i d}, OnPath w.mem i d → d.high.2 ≠ INVALID → ∃ x, w.info d.high.2 = some x := fun g hne => by
    obtain ⟨hl, p, g1⟩ := (onPath_iff hi).mp g
    obtain ⟨⟨l, e⟩, _⟩ := (hi.next 0 _ p _ hl g1).resolve_left hne
    exact ⟨_, e⟩
  have fwd : ∀ {i d}, OnPath m i d → ∃ d0, OnPath w.mem i d0 ∧ d.high = d0.high ∧ (i = id → d = c') ∧ (i ≠ id → d = d0) := by
    have step : ∀ {i d}, (∃ x, w.info i = some x) → m.node i = some (.leaf d) → (∀ e, w.mem.node i = some (.leaf e) → OnPath w.mem i e) →
        ∃ d0, OnPath w.mem i d0 ∧ d.high = d0.high ∧ (i = id → d = c') ∧ (i ≠ id → d = d0) := by
      rintro i d ⟨x, hx⟩ hn hp
      rw [hm i x hx] at hn
      by_cases hid : i = id
      · rw [if_pos hid] at hn
        cases hn
        subst hid
        exact ⟨c, hon, hh, fun _ => rfl, fun g => absurd rfl g⟩
      · rw [if_neg hid] at hn
        exact ⟨d, hp d hn, rfl, fun g => absurd g hid, fun _ => rfl⟩
    intro i d g
    induction g with
    | first hn => exact step ⟨_, hi.first⟩ hn fun e he => .first he
    | next hp hne hn ih =>
      obtain ⟨d0, g1, g2, _⟩ := ih
      rw [g2] at hn hne ⊢
      exact step (nxt g1 hne) hn fun e he => .next g1 hne he
  have bwd : ∀ {i d}, OnPath w.mem i d → OnPath m i (if i = id then c' else d) := by
    intro i d g
    induction g with
    | first hn =>
      refine .first ?_
      rw [hm _ _ hi.first, hn]
      split <;> rfl
    | @next i d d' hp hne hn ih =>
      obtain ⟨x, hx⟩ := nxt hp hne
      have e : (if i = id then c' else d).high = d.high := by
        split
        · rename_i hid
          subst hid
          rw [hh, same hp hon]
        · rfl
      have := OnPath.next (c' := if d.high.2 = id then c' else d') ih (by rw [e]; exact hne) (by
        rw [e, hm _ _ hx, hn]
        split <;> rfl)
      rwa [e] at this
  refine ⟨by simpa using bwd hon, fun k v => ⟨?_, ?_⟩⟩
  · rintro ⟨i, d, g1, g2⟩
    obtain ⟨d0, h1, _, h2, h3⟩ := fwd g1
    by_cases hid : i = id
    · rw [h2 hid] at g2
      exact Or.inl g2
    · rw [h3 hid] at g2
      exact Or.inr ⟨i, d0, hid, h1, g2⟩
  · rintro (g | ⟨i, d, g1, g2, g3⟩)
    · have := bwd hon
      rw [if_pos rfl] at this
      exact ⟨id, c', this, g⟩
    · have := bwd g2
      rw [if_neg g1] at this
      exact ⟨i, d, this, g3⟩

/-- The run of ConditionalInsert; where it leaves the tree is where another call would have left it. -/
theorem condInsert_run {c : Conf K V} (h : SeqReach c) {fuel : Nat} (hf : Ample fuel) (k : K) (v : V) (p : V → Bool) :
    (∃ m, Steps c.mem (condInsert fuel k v p fuel) m (.fail .tableFull) ∧ TABLE_SIZE < m.nextId) ∨
    ∃ m b sat, Steps c.mem (condInsert fuel k v p fuel) m (.ret (b, sat)) ∧
      ((b = true ↔ ¬ Stored c.mem k v ∧ ∀ u, Stored c.mem k u → p u = false) ∧
      (sat = true → ∃ u, Stored c.mem k u ∧ p u = true) ∧
      (¬ Stored c.mem k v → (∃ u, Stored c.mem k u ∧ p u = true) → sat = true) ∧
      ∀ k' v', Stored m k' v' ↔ Stored c.mem k' v' ∨ (b = true ∧ k' = k ∧ v' = v)) ∧
      (b = false → ∃ a, Steps c.mem (prog fuel (.page k)) m (.ret a)) ∧
      (b = true → ∃ (m1 : Mem K V) (ctx : Ctx K V) (ch : LeafChain K V) (i : Nat) (e : Bool), Steps c.mem (traverse fuel k fuel) m1 (.ret ctx) ∧
        OnPath m1 ctx.cur.id ch ∧ ch.WF ∧ InRange ch.low ch.high k ∧ ¬ ch.Has k v ∧ OnPath m ctx.cur.id (.ins k v i e ch) ∧
        ((k, v) ∉ ch.baseFor k → Steps c.mem (prog fuel (.api (.insert k v))) m (.ret (.bool true)))) := by
  have hf' : 3 * TABLE_SIZE < fuel := hf
  obtain ⟨n, hn⟩ : ∃ n, fuel = n + 1 := ⟨fuel - 1, by omega⟩
  have hp : ∀ n, condInsert fuel k v p (n + 1) = (traverse fuel k fuel).bind fun ctx =>
    match ctx.cur.node with
    | .inner _ => .fail .kind
    | .leaf c =>
      match c.predSearch c.depth k v p [] [] with
      | none => .fail .search
      | some .satisfied => .ret (false, true)
      | some .existing => .ret (false, false)
      | some (.insertAt i e) => (allocate (.leaf (.ins k v i e c)) [ctx.cur.ptr]).bind fun q =>
          (replace ctx.cur.id q ctx.cur.ptr).bind fun ok => if ok then .ret (true, false) else condInsert fuel k v p n := fun _ => rfl
  have hp' : condInsert fuel k v p fuel = _ := (congrArg (condInsert fuel k v p) hn).trans (hp n)
  rcases traverse_run h hf k with ⟨m, h1, h2⟩ | ⟨w, ctx, h1, hi, hl, hst, hpage⟩
  · refine Or.inl ⟨m, ?_, h2⟩
    rw [hp']
    exact Steps.seq _ h1
  · right
    have hseq := Steps.seq (fun ctx : Ctx K V => match ctx.cur.node with
      | .inner _ => .fail .kind
      | .leaf c =>
        match c.predSearch c.depth k v p [] [] with
        | none => .fail .search
        | some .satisfied => .ret (false, true)
        | some .existing => .ret (false, false)
        | some (.insertAt i e) => (allocate (.leaf (.ins k v i e c)) [ctx.cur.ptr]).bind fun q =>
            (replace ctx.cur.id q ctx.cur.ptr).bind fun ok => if ok then .ret (true, false) else condInsert fuel k v p n) h1
    rw [← hp'] at hseq
    obtain ⟨ch, e, hwf, hkr, _⟩ := hl.chain
    have hat : w.At ctx.cur.id ctx.cur.ptr (.leaf ch) := e ▸ hl.pos.here.2
    have hlive := hl.pos.here.1
    have hon : OnPath w.mem ctx.cur.id ch := (onPath_iff hi).mpr ⟨hlive, _, hat⟩
    have hwfp : ∀ {i d k' v'}, OnPath w.mem i d → d.Has k' v' → InRange d.low d.high k' := by
      intro i d k' v' g g'
      obtain ⟨⟨⟨l, g1⟩, _⟩, q, g2⟩ := (onPath_iff hi).mp g
      exact (inRange_iff hi g1 g2 k').mpr ((hi.at_ok g1 g2).2.has_range g')
    have hhas : ∀ u, ch.Has k u ↔ Stored c.mem k u := by
      intro u
      rw [← hst]
      refine ⟨fun g => ⟨_, ch, hon, g⟩, ?_⟩
      rintro ⟨i, d, g1, g2⟩
      obtain ⟨_, _, _, _, huniq⟩ := cover_path hi k
      have e1 := huniq _ _ g1 (hwfp g1 g2)
      have e2 := huniq _ _ hon hkr
      rw [e1.2, ← e2.2] at g2
      exact g2
    obtain ⟨r, er, hr⟩ := LeafChain.predSearch_spec ch.depth k v p ch hwf hkr.2 [] [] (by simp) (by simp)
    have hbind : ∀ f : Ctx K V → Prog K V (Bool × Bool), (Prog.ret ctx : Prog K V (Ctx K V)).bind f = f ctx := fun _ => rfl
    rw [hbind] at hseq
    simp only [e, er] at hseq
    cases r with
    | satisfied =>
      obtain ⟨u, _, _, hu, hpu⟩ := hr
      refine ⟨w.mem, false, true, hseq, ⟨?_, fun _ => ⟨u, (hhas u).mp hu, hpu⟩, fun _ _ => rfl, fun k' v' => by rw [hst]; simp⟩, fun _ => hpage,
        fun g => (by cases g)⟩
      simp only [Bool.false_eq_true, false_iff]
      rintro ⟨_, g⟩
      rw [g u ((hhas u).mp hu)] at hpu
      cases hpu
    | existing =>
      have hv := (hhas v).mp hr.2.2
      exact ⟨w.mem, false, false, hseq, ⟨⟨fun g => (by cases g), fun g => absurd hv g.1⟩, fun g => (by cases g), fun g => absurd hv g,
        fun k' v' => by rw [hst]; simp⟩, fun _ => hpage, fun g => (by cases g)⟩
    | insertAt i ex =>
      obtain ⟨l, hinfo⟩ := hlive.1
      have hids := hi.ids _ _ hinfo
      let m1 : Mem K V := { w.mem with
        heap := fun q => if q = w.mem.nextPtr then some (.leaf (.ins k v i ex ch)) else w.mem.heap q
        kids := fun q => if q = w.mem.nextPtr then [ctx.cur.ptr] else w.mem.kids q
        nextPtr := w.mem.nextPtr + 1 }
      let m2 : Mem K V := { m1 with table := fun j => if j = ctx.cur.id then some w.mem.nextPtr else w.mem.table j }
      have hnone : ∀ u, Stored c.mem k u → p u = false ∧ u ≠ v := fun u hu => hr.2.2 u (by simp) (by simp) ((hhas u).mpr hu)
      have hrun : ∀ {β : Type} (r : β) (x : Prog K V β), Steps w.mem ((allocate (.leaf (.ins k v i ex ch)) [ctx.cur.ptr]).bind fun q =>
          (replace ctx.cur.id q ctx.cur.ptr).bind fun ok => if ok then .ret r else x) m2 (.ret r) := by
        intro β r x
        refine .step (m1 := m1) (p1 := (replace ctx.cur.id w.mem.nextPtr ctx.cur.ptr).bind fun ok => if ok then .ret r else x) rfl ?_
        have hrep : (replace ctx.cur.id w.mem.nextPtr ctx.cur.ptr : Prog K V Bool) = .cas ctx.cur.id ctx.cur.ptr w.mem.nextPtr .ret := by
          unfold replace
          rw [if_neg]
          rintro (g | g)
          · exact hids.1 g
          · exact absurd hids.2.1 (Nat.not_lt.mpr g)
        rw [hrep]
        refine .step (m1 := m2) (p1 := .ret r) ?_ (.refl _ _)
        have ht : m1.table ctx.cur.id = some ctx.cur.ptr := hat.1
        simp only [Prog.bind, Prog.step]
        rw [if_pos ht]
        rfl
      have hm : ∀ j x, w.info j = some x → m2.node j = if j = ctx.cur.id then some (.leaf (.ins k v i ex ch)) else w.mem.node j := by
        intro j x hx
        by_cases hj : j = ctx.cur.id
        · simp [m2, m1, Mem.node, hj]
        · obtain ⟨q, hq, hpub⟩ := hi.cur j x hx
          obtain ⟨_, _, nd, _, hnd, _⟩ := hi.ok _ _ hpub
          have := hi.heapLt _ _ hnd
          have hne : q ≠ w.mem.nextPtr := Nat.ne_of_lt this
          simp [m2, m1, Mem.node, hj, hq, hne]
      obtain ⟨hon2, hst2⟩ := stored_replace hi (c' := .ins k v i ex ch) hon rfl hm
      refine ⟨m2, true, false, hseq.trans' (hrun _ _), ⟨?_, fun g => (by cases g), ?_, ?_⟩, fun g => (by cases g), fun _ => ?_⟩
      · exact ⟨fun _ => ⟨fun g => (hnone v g).2 rfl, fun u g => (hnone u g).1⟩, fun _ => rfl⟩
      · rintro _ ⟨u, g1, g2⟩
        rw [(hnone u g1).1] at g2
        cases g2
      · intro k' v'
        rw [hst2, ← hst]
        constructor
        · rintro ((g | g) | ⟨j, d, g1, g2, g3⟩)
          · exact Or.inr ⟨rfl, g⟩
          · exact Or.inl ⟨_, ch, hon, g⟩
          · exact Or.inl ⟨j, d, g2, g3⟩
        · rintro (⟨j, d, g1, g2⟩ | ⟨_, g⟩)
          · by_cases hj : j = ctx.cur.id
            · subst hj
              obtain ⟨_, q1, a1⟩ := (onPath_iff hi).mp g1
              have := (At.unique a1 hat).2
              cases this
              exact Or.inl (Or.inr g2)
            · exact Or.inr ⟨j, d, hj, g1, g2⟩
          · exact Or.inl (Or.inl g)
      · have hno : ¬ ch.Has k v := fun g => (hr.2.2 v (by simp) (by simp) g).2 rfl
        refine ⟨w.mem, ctx, ch, i, ex, h1, hon, hwf, hkr, hno, hon2, fun hb => ?_⟩
        rcases LeafChain.findValue_spec hwf hkr v with ⟨g, _⟩ | ⟨_, i', e', hfv, hidx⟩
        · exact absurd g hno
        · have he : e' = ex := by
            rw [hr.1]
            cases e' with
            | false => rfl
            | true => exact absurd (List.mem_of_getElem? (by simpa [LeafChain.IdxOk] using hidx)) hb
          have hii : i' = i := by
            rw [he, hr.1] at hidx
            rw [hr.2.1]
            simpa [LeafChain.IdxOk, hb] using hidx
          subst he hii
          have hins : insert fuel k v fuel = (traverse fuel k fuel).bind fun ctx =>
              match ctx.cur.node with
              | .inner _ => .fail .kind
              | .leaf c =>
                match c.findValue k v with
                | none => .fail .search
                | some (true, _, _) => .ret false
                | some (false, i, e) => (allocate (.leaf (.ins k v i e c)) [ctx.cur.ptr]).bind fun q =>
                  (replace ctx.cur.id q ctx.cur.ptr).bind fun ok => if ok then .ret true else insert fuel k v n :=
            (congrArg (insert fuel k v) hn).trans rfl
          have hs2 := Steps.seq (fun ctx : Ctx K V => match ctx.cur.node with
              | .inner _ => .fail .kind
              | .leaf c =>
                match c.findValue k v with
                | none => .fail .search
                | some (true, _, _) => .ret false
                | some (false, i, e) => (allocate (.leaf (.ins k v i e c)) [ctx.cur.ptr]).bind fun q =>
                  (replace ctx.cur.id q ctx.cur.ptr).bind fun ok => if ok then .ret true else insert fuel k v n) h1
          rw [← hins] at hs2
          have hbind : ∀ f : Ctx K V → Prog K V Bool, (Prog.ret ctx : Prog K V (Ctx K V)).bind f = f ctx := fun _ => rfl
          rw [hbind] at hs2
          simp only [e, hfv] at hs2
          exact Steps.seq (fun b => .ret (Ans.bool b)) (hs2.trans' (hrun true _))

/-- After any history of calls that do not overlap, ConditionalInsert returns (unless the node IDs are used up). It returns true exactly when
the pair is not stored and no value stored under the key satisfies the predicate; the flag is set only if some stored value satisfies it, and
whenever one does and the pair is not stored; and the pair is added if and only if true is returned, nothing else changing. -/
theorem C05_tree {c : Conf K V} (h : SeqReach c) {fuel : Nat} (hf : Ample fuel) (k : K) (v : V) (p : V → Bool) :
    (∃ m, Steps c.mem (condInsert fuel k v p fuel) m (.fail .tableFull) ∧ TABLE_SIZE < m.nextId) ∨
    ∃ m b sat, Steps c.mem (condInsert fuel k v p fuel) m (.ret (b, sat)) ∧
      (b = true ↔ ¬ Stored c.mem k v ∧ ∀ u, Stored c.mem k u → p u = false) ∧
      (sat = true → ∃ u, Stored c.mem k u ∧ p u = true) ∧
      (¬ Stored c.mem k v → (∃ u, Stored c.mem k u ∧ p u = true) → sat = true) ∧
      ∀ k' v', Stored m k' v' ↔ Stored c.mem k' v' ∨ (b = true ∧ k' = k ∧ v' = v) := by
  rcases condInsert_run h hf k v p with h1 | ⟨m, b, sat, h1, h2, _⟩
  · exact Or.inl h1
  · exact Or.inr ⟨m, b, sat, h1, h2⟩

/-- After ConditionalInsert the tree is in a state that the other calls reach, so that everything proved for histories of calls that do not
overlap holds for what follows too. Partial: the pair must not be in the base node of its leaf when it is inserted, that is, not have been
deleted since that node was built; otherwise the code is wrong (`C05_tree_breaks`). -/
theorem C05_tree_continues_partial {c : Conf K V} (h : SeqReach c) {fuel : Nat} (hf : Ample fuel) {k : K} {v : V} {p : V → Bool} {m : Mem K V}
    {b sat : Bool} (hs : Steps c.mem (condInsert fuel k v p fuel) m (.ret (b, sat)))
    (hb : b = true → ∀ id ch, OnPath m id ch → (k, v) ∉ ch.baseFor k) : ∃ c', SeqReach c' ∧ c'.mem = m := by
  rcases condInsert_run h hf k v p with ⟨m', h1, _⟩ | ⟨m', b', sat', h1, _, h2, h3⟩
  · have := (h1.det hs (fun _ => rfl) (fun _ => rfl)).2
    cases this
  · obtain ⟨rfl, e⟩ := h1.det hs (fun _ => rfl) (fun _ => rfl)
    cases e
    cases b with
    | false =>
      obtain ⟨a, g⟩ := h2 rfl
      exact ⟨_, .call 0 h hf rfl g, rfl⟩
    | true =>
      obtain ⟨_, _, ch, i, e, _, _, _, _, _, g1, g2⟩ := h3 rfl
      exact ⟨_, .call 0 h hf rfl (g2 (hb rfl _ (.ins k v i e ch) g1)), rfl⟩

/-- Result of a conditional insertion after `ins129` (0 … 128 inserted, the leaf split), if it returns. -/
def cond129 (k v : Nat) (p : Nat → Bool) : Option (Nat × Option (Bool × Bool)) :=
  (seqRun 1000 initConf ins129).map fun c => (c.mem.nextId, match (runN 1000 c.mem (condInsert (3 * TABLE_SIZE + 1) k v p (3 * TABLE_SIZE + 1))).2 with
    | .ret r => some r
    | _ => none)

/-- On a tree with two leaves: inserted, refused because of the predicate, refused because the pair is stored. -/
example : cond129 100 7 (fun u => u == 9) = some (4, some (true, false)) ∧ cond129 100 7 (fun u => u == 100) = some (4, some (false, true)) ∧
    cond129 3 3 (fun u => u == 9) = some (4, some (false, false)) := ⟨by decide +kernel, by decide +kernel, by decide +kernel⟩

/-- `C05_tree` is about such trees. -/
example : ∃ c : Conf Nat Nat, SeqReach c ∧ c.mem.nextId = 4 ∧ Ample (3 * TABLE_SIZE + 1) := by
  obtain ⟨c, _, h1, h2, h3, _⟩ := C42_example
  exact ⟨c, h1, h2, h3⟩

/-- A leaf without right sibling whose base node is empty. -/
def emptyBase : Option (Node Nat Nat) → Bool
  | some (.leaf c) => c.high.2 == INVALID && (c.baseFor 5).isEmpty
  | _ => false

/-- The hypotheses of `C05_tree_continues_partial` with the pair inserted. -/
example : ∃ m : Mem Nat Nat, SeqReach (initConf : Conf Nat Nat) ∧ Ample (3 * TABLE_SIZE + 1) ∧
    Steps (initConf : Conf Nat Nat).mem (condInsert (3 * TABLE_SIZE + 1) 5 1 (fun u => u == 7) (3 * TABLE_SIZE + 1)) m (.ret (true, false)) ∧
    ∀ id ch, OnPath m id ch → (5, 1) ∉ ch.baseFor 5 := by
  have h : (let r := runN 100 (initConf : Conf Nat Nat).mem (condInsert (3 * TABLE_SIZE + 1) 5 1 (fun u => u == 7) (3 * TABLE_SIZE + 1))
    (match r.2 with | .ret r => r == (true, false) | _ => false, emptyBase (r.1.node FIRST_LEAF))) = (true, true) := by decide +kernel
  have hs := runN_steps 100 (initConf : Conf Nat Nat).mem (condInsert (3 * TABLE_SIZE + 1) 5 1 (fun u => u == 7) (3 * TABLE_SIZE + 1))
  generalize runN 100 (initConf : Conf Nat Nat).mem (condInsert (3 * TABLE_SIZE + 1) 5 1 (fun u => u == 7) (3 * TABLE_SIZE + 1)) = r at h hs
  obtain ⟨m, q⟩ := r
  simp only [Prod.mk.injEq] at h
  obtain ⟨h1, h2⟩ := h
  refine ⟨m, .init, Nat.lt_succ_self _, ?_, ?_⟩
  · split at h1
    · rename_i r
      have h1 := eq_of_beq h1
      subst h1
      exact hs
    · cases h1
  · have key : ∀ id ch, OnPath m id ch → ch.high.2 = INVALID ∧ ch.baseFor 5 = [] := by
      intro id ch g
      induction g with
      | first hn =>
        rw [hn] at h2
        simpa [emptyBase] using h2
      | next _ hne _ ih => exact absurd ih.1 hne
    intro id ch g
    rw [(key id ch g).2]
    exact List.not_mem_nil

/-- Calls after which the pair (5, 1) is in the base node of its leaf, and deleted. -/
def gone51 : List (Call Nat Nat) := (List.range 9).map (fun i => .api (.insert (5 + i) 1)) ++ [.page 5, .api (.delete 5 1)]

/-- `gone51`, then the conditional insertion of (5, 1); the result and the memory left. -/
def cond51 : Option (Conf Nat Nat × Mem Nat Nat × Prog Nat Nat (Bool × Bool)) :=
  (seqRun 1000 initConf gone51).map fun c => (c, runN 1000 c.mem (condInsert (3 * TABLE_SIZE + 1) 5 1 (fun _ => false) (3 * TABLE_SIZE + 1)))

def isTrue : Prog Nat Nat (Bool × Bool) → Bool
  | .ret r => r == (true, false)
  | _ => false

def fails {α : Type} : Prog Nat Nat α → Bool
  | .fail .collect => true
  | _ => false

/-- Insert, Delete and ConditionalInsert of the same pair, which returns true: opening an iterator at the key then runs into undefined
behaviour (the pair is pushed twice into a node sized for one, failed assert 4905). -/
theorem C05_tree_breaks : ∃ (c : Conf Nat Nat) (m m' : Mem Nat Nat), SeqReach c ∧ Ample (3 * TABLE_SIZE + 1) ∧
    Steps c.mem (condInsert (3 * TABLE_SIZE + 1) 5 1 (fun _ => false) (3 * TABLE_SIZE + 1)) m (.ret (true, false)) ∧
    Steps m (prog (3 * TABLE_SIZE + 1) (.page 5)) m' (.fail .collect) := by
  have h : (cond51.map fun x => (isTrue x.2.2, fails (runN 1000 x.2.1 (prog (3 * TABLE_SIZE + 1) (.page 5))).2)) = some (true, true) := by
    decide +kernel
  unfold cond51 at h
  cases hc : seqRun 1000 initConf gone51 with
  | none => rw [hc] at h; cases h
  | some c =>
    rw [hc] at h
    have hr : SeqReach c := seqRun_reach .init (by
      simp only [gone51, List.mem_append, List.mem_map, List.mem_cons, List.not_mem_nil, or_false]
      rintro op (⟨_, _, rfl⟩ | rfl | rfl) <;> rfl) hc
    have hs := runN_steps 1000 c.mem (condInsert (3 * TABLE_SIZE + 1) 5 1 (fun _ => false) (3 * TABLE_SIZE + 1))
    simp only [Option.map_some, Option.some.injEq, Prod.mk.injEq] at h
    generalize runN 1000 c.mem (condInsert (3 * TABLE_SIZE + 1) 5 1 (fun _ => false) (3 * TABLE_SIZE + 1)) = r at h hs
    obtain ⟨m, q⟩ := r
    have hs2 := runN_steps 1000 m (prog (3 * TABLE_SIZE + 1) (.page 5))
    obtain ⟨h1, h2⟩ := h
    have h2 : fails (runN 1000 m (prog (3 * TABLE_SIZE + 1) (.page 5))).2 = true := h2
    generalize runN 1000 m (prog (3 * TABLE_SIZE + 1) (.page 5)) = r2 at h2 hs2
    obtain ⟨m2, q2⟩ := r2
    refine ⟨c, m, m2, hr, Nat.lt_succ_self _, ?_, ?_⟩
    · unfold isTrue at h1
      split at h1
      · rename_i r e
        have h1 := eq_of_beq h1
        subst h1
        have e : q = _ := e
        rw [e] at hs
        exact hs
      · cases h1
    · unfold fails at h2
      split at h2
      · rename_i e
        have e : q2 = _ := e
        rw [e] at hs2
        exact hs2
      · cases h2

end Tree
end BwTree
