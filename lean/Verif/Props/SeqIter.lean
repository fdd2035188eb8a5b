import Verif.Proofs.IterBack
import Verif.Proofs.SeqIter

/-!
  C46: when nothing else runs, the loops over a forward iterator end, and visit what they should.
-/

namespace BwTree
namespace Iterator

open Tree

set_option linter.unusedSectionVars false

variable {K V : Type} [LinearOrder K] [DecidableEq V] [Inhabited K] {f fuel : Nat} {c c' : Conf K V}

theorem sweep_const {T : Spec.PairSet K V} {P : K → Prop} {l : List (K × V)} {a b : Nat} (h : Sweep (fun _ => T) P l a b) (x : K) (v : V) :
    (x, v) ∈ l ↔ P x ∧ T x v := by
  obtain ⟨τ, _, _, h⟩ := h
  exact h x v

/-- After any history of calls that do not overlap, `for(it = tree.Begin(k); !it.IsEnd(); ++it)` ends: for all large enough bounds on the number of
rounds it comes to the same end, with every stored pair from `k` on, in key order, each once. Otherwise the mapping table is used up on the way. -/
theorem C46_scanFrom_ends (h : SeqReach c) (hf : Ample f) (hfu : TABLE_SIZE < fuel) (t : Tid) (k : K) :
    (∃ M, ∀ n, M ≤ n → TableFull f t c (scanFrom n fuel k : IProg K V (List (K × V)))) ∨
    ∃ M c' l, (∀ n, M ≤ n → SoloRun f t c (scanFrom n fuel k) c' (some l)) ∧ SeqReach c' ∧ Stored c'.mem = Stored c.mem ∧
      Ascending l ∧ l.Nodup ∧ ∀ x v, (x, v) ∈ l ↔ k ≤ x ∧ Stored c.mem x v := by
  obtain ⟨w, hw⟩ := h.calls
  rcases lowerBoundIt_ends hf t fuel k hw h (by omega) with h1 | ⟨c1, w1, it, h1, h2, h3, _⟩
  · exact Or.inl ⟨0, fun n _ => h1.bind⟩
  · rcases scan_ends hf t hfu (TABLE_SIZE + 1) it.page.items.length h2 (h1.right hf h).1 h3 (fun _ => by omega) (by have := h3.pos; omega)
      with ⟨M, g⟩ | ⟨M, c', l, g⟩
    · exact Or.inl ⟨M, fun n hn => h1.full rfl (g n hn)⟩
    · have hrun : ∀ n, M ≤ n → SoloRun f t c (scanFrom n fuel k) c' (some l) := fun n hn => h1.bind rfl (g n hn)
      obtain ⟨r1, r2, r3⟩ := (hrun M (Nat.le_refl M)).right hf h
      obtain ⟨l', e, s⟩ := scanFrom_spec (right_answers _) r3
      cases e
      refine Or.inr ⟨M, c', l, hrun, r1, r2, s.asc, s.nodup, fun x v => ?_⟩
      rw [sweep_const s.sweep]
      exact ⟨fun h => ⟨h.1 k rfl, h.2⟩, fun h => ⟨fun k' e => by cases e; exact h.1, h.2⟩⟩

/-- The same for `for(it = tree.Begin(); !it.IsEnd(); ++it)`. It ends, but in undefined behaviour if the leftmost leaf is empty and not the only one
(see C15). -/
theorem C46_scanAll_ends_partial (h : SeqReach c) (hf : Ample f) (hfu : TABLE_SIZE < fuel) (t : Tid) :
    (∃ M, ∀ n, M ≤ n → TableFull f t c (scanAll n fuel : IProg K V (List (K × V)))) ∨
    (∃ c' pg, (∀ n, 1 ≤ n → SoloRun f t c (scanAll n fuel : IProg K V (List (K × V))) c' none) ∧
      SoloRun f t c (begin : IProg K V (It K V)) c' (some ⟨pg, 0⟩) ∧ pg.items = [] ∧ pg.high.2 ≠ INVALID) ∨
    ∃ M c' l, (∀ n, M ≤ n → SoloRun f t c (scanAll n fuel) c' (some l)) ∧ SeqReach c' ∧ Stored c'.mem = Stored c.mem ∧
      Ascending l ∧ l.Nodup ∧ ∀ x v, (x, v) ∈ l ↔ Stored c.mem x v := by
  obtain ⟨w, hw⟩ := h.calls
  rcases ask_ends hw hf t (q := .first) rfl h with ⟨m, h1, h2⟩ | ⟨pg, m, w1, h1, h2, _, h4⟩
  · exact Or.inl ⟨0, fun n _ => .now rfl h1 h2⟩
  · have hb : SoloRun f t c (begin : IProg K V (It K V)) (after c t .first m (.page pg.low pg.high pg.items)) (some ⟨pg, 0⟩) := .ask rfl h1 (.ret _ _)
    by_cases he : pg.items = [] ∧ pg.high.2 ≠ INVALID
    · refine Or.inr (Or.inl ⟨_, pg, fun n hn => hb.bind rfl ?_, hb, he⟩)
      obtain ⟨n, rfl⟩ : ∃ n', n = n' + 1 := ⟨n - 1, by omega⟩
      have hne : ¬ isEnd (some (⟨pg, 0⟩ : It K V)) = true := by
        simp only [isEnd, decide_eq_true_eq]
        exact fun h => he.2 h.1
      have : scan (n + 1) fuel (some (⟨pg, 0⟩ : It K V)) = .ub := by
        show (if isEnd (some (⟨pg, 0⟩ : It K V)) then _ else (deref (some (⟨pg, 0⟩ : It K V))).bind _) = _
        rw [if_neg hne]
        simp only [deref, It.item, he.1]
        rfl
      rw [this]
      exact .ub _
    · have ho : OnPage w1 (⟨pg, 0⟩ : It K V) := by
        refine ⟨Int.le_refl 0, ?_, h4⟩
        by_cases h0 : pg.items = []
        · refine Or.inr ?_
          simp only [isEnd, decide_eq_true_eq]
          exact ⟨not_not.mp fun hn => he ⟨h0, hn⟩, by rw [h0]; rfl⟩
        · exact Or.inl (by show (0 : Int) < (pg.items.length : Int); have := List.length_pos_of_ne_nil h0; omega)
      rcases scan_ends hf t hfu (TABLE_SIZE + 1) pg.items.length h2 (hb.right hf h).1 ho (fun _ => by omega) (by show (pg.items.length : Int) ≤ 0 + (pg.items.length : Int); omega)
        with ⟨M, g⟩ | ⟨M, c', l, g⟩
      · exact Or.inl ⟨M, fun n hn => hb.full rfl (g n hn)⟩
      · have hrun : ∀ n, M ≤ n → SoloRun f t c (scanAll n fuel) c' (some l) := fun n hn => hb.bind rfl (g n hn)
        obtain ⟨r1, r2, r3⟩ := (hrun M (Nat.le_refl M)).right hf h
        rcases scanAll_spec (right_answers _) r3 with ⟨l', e, s⟩ | ⟨e, _⟩
        · cases e
          refine Or.inr (Or.inr ⟨M, c', l, hrun, r1, r2, s.asc, s.nodup, fun x v => ?_⟩)
          rw [sweep_const s.sweep]
          exact ⟨fun h => h.2, fun h => ⟨fun k' e => (by cases e), h⟩⟩
        · cases e

/-- Begin(k) ends, after any history of calls that do not overlap: at the end if no stored key is `≥ k`, else at a pair with the smallest such key. -/
theorem C46_begin_ends (h : SeqReach c) (hf : Ample f) (hfu : TABLE_SIZE < fuel) (t : Tid) (k : K) :
    TableFull f t c (beginAt fuel k : IProg K V (It K V)) ∨
    ∃ c' it, SoloRun f t c (beginAt fuel k) c' (some it) ∧ SeqReach c' ∧ Stored c'.mem = Stored c.mem ∧
      ((isEnd (some it) = true ∧ ∀ y w, Stored c.mem y w → y < k) ∨
       (isEnd (some it) = false ∧ ∃ x v, it.item = some (x, v) ∧ k ≤ x ∧ Stored c.mem x v ∧ ∀ y w, Stored c.mem y w → k ≤ y → x ≤ y)) := by
  obtain ⟨w, hw⟩ := h.calls
  rcases lowerBoundIt_ends hf t fuel k hw h (by omega) with h1 | ⟨c1, w1, it, h1, _⟩
  · exact Or.inl h1
  · obtain ⟨r1, r2, r3⟩ := h1.right hf h
    obtain ⟨it', e, s⟩ := beginAt_point (right_answers _) (T := Stored c.mem) (fun _ _ _ => rfl) r3
    cases e
    exact Or.inr ⟨c1, it, h1, r1, r2, s⟩

/-- `++` on an iterator that points to an item ends, whatever calls were made since the iterator was positioned. -/
theorem C46_step_ends (h : SeqReach c) (hf : Ample f) (hfu : TABLE_SIZE < fuel) (t : Tid) {it : It K V} {x : K × V} (hx : it.item = some x) :
    TableFull f t c (next fuel (some it)) ∨ ∃ c' it', SoloRun f t c (next fuel (some it)) c' (some (some it')) ∧ SeqReach c' ∧ Stored c'.mem = Stored c.mem := by
  obtain ⟨w, hw⟩ := h.calls
  have h0 : 0 ≤ it.pos ∧ it.pos < it.page.items.length := by
    unfold It.item at hx
    split at hx
    · rename_i h0
      obtain ⟨h1, _⟩ := List.getElem?_eq_some_iff.mp hx
      exact ⟨h0, by omega⟩
    · cases hx
  have hne : ¬ isEnd (some it) = true := by
    simp only [isEnd, decide_eq_true_eq]
    omega
  have hn : next fuel (some it) = (moveAhead fuel it).bind fun it' => .ret (some it') := by unfold next; rw [if_neg hne]; rfl
  rw [hn]
  have fin : ∀ {c' : Conf K V} {it' : It K V}, SoloRun f t c (moveAhead fuel it) c' (some it') →
      ∃ c' it', SoloRun f t c ((moveAhead fuel it).bind fun it' => .ret (some it')) c' (some (some it')) ∧ SeqReach c' ∧ Stored c'.mem = Stored c.mem :=
    fun h1 => ⟨_, _, h1.bind rfl (.ret _ _), (h1.right hf h).1, (h1.right hf h).2.1⟩
  rcases moveAhead_ends hf t hfu hw h h0.1 h0.2 with h1 | ⟨h1, _⟩ | ⟨_, c1, w1, it1, h1, _⟩
  · exact Or.inl h1.bind
  · exact Or.inr (fin (by rw [h1]; exact .ret _ _))
  · exact Or.inr (fin h1)

/-- What an iterator that is alone does is determined. -/
theorem C46_deterministic {α : Type} {t : Tid} {p : IProg K V α} {c1 c2 : Conf K V} {o1 o2 : Option α} (h1 : SoloRun f t c p c1 o1)
    (h2 : SoloRun f t c p c2 o2) : c1 = c2 ∧ o1 = o2 := by
  induction h1 with
  | ret c x => cases h2; exact ⟨rfl, rfl⟩
  | ub c => cases h2; exact ⟨rfl, rfl⟩
  | @ask c c' q k pg m out _ b _ ih =>
    cases h2 with
    | @ask _ _ _ _ pg' m' _ _ b' h' =>
      obtain ⟨rfl, e⟩ := b.det b' (fun _ => rfl) (fun _ => rfl)
      injection e with e
      have : pg = pg' := by
        obtain ⟨a1, a2, a3⟩ := pg
        obtain ⟨b1, b2, b3⟩ := pg'
        injection e with e1 e2 e3
        subst e1 e2 e3
        rfl
      subst this
      exact ih h'

/-- Runs an iterator program, each page read with up to 2000 steps. -/
def runIt {α : Type} (t : Tid) : IProg K V α → Conf K V → Option (Conf K V × Option α)
  | .ret x, c => some (c, some x)
  | .ub, c => some (c, none)
  | .spin, _ => none
  | .ask q k, c =>
    if (q.toCall : Call K V).forward then
      match runN 2000 c.mem (prog (3 * TABLE_SIZE + 1) q.toCall) with
      | (m, .ret (.page lo hi l)) => runIt t (k ⟨lo, hi, l⟩) (after c t q.toCall m (.page lo hi l))
      | _ => none
    else none

theorem runIt_solo {α : Type} {t : Tid} (p : IProg K V α) : ∀ {c c' : Conf K V} {out : Option α}, runIt t p c = some (c', out) →
    SoloRun (3 * TABLE_SIZE + 1) t c p c' out := by
  induction p with
  | ret x => intro c c' out h; cases h; exact .ret _ _
  | ub => intro c c' out h; cases h; exact .ub _
  | spin => intro c c' out h; cases h
  | ask q k ih =>
    intro c c' out h
    unfold runIt at h
    split at h
    · rename_i hq
      have hs := runN_steps 2000 c.mem (prog (3 * TABLE_SIZE + 1) (q.toCall : Call K V))
      split at h
      · rename_i m lo hi l e
        rw [e] at hs
        exact .ask (pg := ⟨lo, hi, l⟩) hq hs (ih _ h)
      · cases h
    · cases h

/-- Inserts of (0, 0) … (199, 199), then deletes of 70 … 101: the next call that comes by merges a leaf. -/
def thinned : List (Call Nat Nat) :=
  (List.range 200).map (fun i => .api (.insert i i)) ++ (List.range 32).map fun i => .api (.delete (70 + i) (70 + i))

/-- Result of the loop from 60 over the tree left by `thinned`, and the number of retired records before and after it. -/
def thinnedLoop : Option (Option (List (Nat × Nat)) × Nat × Nat) :=
  (seqRun 2000 initConf thinned).bind fun c =>
    (runIt 0 (scanFrom 109 (TABLE_SIZE + 1) 60) c).map fun r => (r.2, c.mem.garbage.length, r.1.mem.garbage.length)

/-- A loop during which leaves are merged. -/
theorem C46_example : ∃ c c' : Conf Nat Nat, SeqReach c ∧ c.mem.garbage.length = 29 ∧ c'.mem.garbage.length = 34 ∧
    Ample (3 * TABLE_SIZE + 1) ∧ SoloRun (3 * TABLE_SIZE + 1) 0 c (scanFrom 109 (TABLE_SIZE + 1) 60) c'
      (some (((List.range 10).map fun i => (60 + i, 60 + i)) ++ (List.range 98).map fun i => (102 + i, 102 + i))) := by
  have h : thinnedLoop = some (some (((List.range 10).map fun i => (60 + i, 60 + i)) ++ (List.range 98).map fun i => (102 + i, 102 + i)), 29, 34) := by
    decide +kernel
  unfold thinnedLoop at h
  cases hc : seqRun 2000 initConf thinned with
  | none => rw [hc] at h; cases h
  | some c =>
    rw [hc] at h
    simp only [Option.bind_some] at h
    cases hr : runIt 0 (scanFrom 109 (TABLE_SIZE + 1) 60) c with
    | none => rw [hr] at h; cases h
    | some r =>
      rw [hr] at h
      obtain ⟨c', out⟩ := r
      injection h with h
      injection h with h1 h2
      injection h2 with h2 h3
      subst h1
      have hop : ∀ op ∈ thinned, op.forward = true := by
        intro op h
        rcases List.mem_append.mp h with h | h <;> (obtain ⟨_, _, rfl⟩ := List.mem_map.mp h; rfl)
      exact ⟨c, c', seqRun_reach .init hop hc, h2, h3, Nat.lt_succ_self _, runIt_solo _ hr⟩

end Iterator
end BwTree
