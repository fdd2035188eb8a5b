import Mathlib.Data.Finset.Card
import Verif.Proofs.Iterator
import Verif.Props.SeqTotal
import Verif.Spec.SoloIter

/-! Iterating forward while no other call runs: the loops end. -/

namespace BwTree
namespace Iterator

open Tree

set_option linter.unusedSectionVars false

variable {K V : Type} [LinearOrder K] [DecidableEq V] [Inhabited K] {α β : Type} {f : Nat} {t : Tid}

theorem SoloRun.bind {c c1 c2 : Conf K V} {p : IProg K V α} {g : α → IProg K V β} {x : α} {out : Option β} {o : Option α} (h : SoloRun f t c p c1 o)
    (ho : o = some x) (h' : SoloRun f t c1 (g x) c2 out) : SoloRun f t c (p.bind g) c2 out := by
  induction h with
  | ret c y => cases ho; exact h'
  | ub c => cases ho
  | ask a b _ ih => exact .ask a b (ih ho h')

theorem TableFull.bind {c : Conf K V} {p : IProg K V α} {g : α → IProg K V β} (h : TableFull f t c p) : TableFull f t c (p.bind g) := by
  induction h with
  | now z a b => exact .now z a b
  | later z a _ ih => exact .later z a ih

theorem SoloRun.full {c c1 : Conf K V} {p : IProg K V α} {g : α → IProg K V β} {x : α} {o : Option α} (h : SoloRun f t c p c1 o)
    (ho : o = some x) (h' : TableFull f t c1 (g x)) : TableFull f t c (p.bind g) := by
  induction h with
  | ret c y => cases ho; exact h'
  | ub c => cases ho
  | ask a b _ ih => exact .later a b (ih ho h')

/-- The answer of the tree to a request, when nothing else runs. -/
theorem page_ok {c : Conf K V} (h : SeqReach c) (hf : Ample f) {q : Query K} (hq : (q.toCall : Call K V).forward = true) {pg : Page K V} {m : Mem K V}
    (hs : Steps c.mem (prog f q.toCall) m (.ret (.page pg.low pg.high pg.items))) :
    QueryOk (Stored c.mem) q pg ∧ Stored m = Stored c.mem := by
  have := C42_exact h hf hq hs
  cases q with
  | first => exact ⟨this.2, this.1⟩
  | page k => exact ⟨this.2, this.1⟩
  | back k => cases hq

/-- Pages that are right for the set `T`. -/
def Right (T : Spec.PairSet K V) (q : Query K) (pg : Page K V) (a b : Nat) : Prop := a = 0 ∧ b = 0 ∧ QueryOk T q pg

theorem right_answers (T : Spec.PairSet K V) : Answers (Right T) (fun _ => T) := by
  rintro q pg a b ⟨rfl, rfl, h⟩
  exact ⟨0, Nat.le_refl _, Nat.le_refl _, h⟩

/-- While only an iterator is used the set does not change, and its pages are right for it. -/
theorem SoloRun.right (hf : Ample f) {c c' : Conf K V} {p : IProg K V α} {out : Option α} (h : SoloRun f t c p c' out) (hc : SeqReach c) :
    SeqReach c' ∧ Stored c'.mem = Stored c.mem ∧ Run (Right (Stored c.mem)) 0 p 0 out := by
  induction h with
  | ret c x => exact ⟨hc, rfl, .ret 0 x⟩
  | ub c => exact ⟨hc, rfl, .ub 0⟩
  | ask a b _ ih =>
    obtain ⟨g1, g2⟩ := page_ok hc hf a b
    obtain ⟨i1, i2, i3⟩ := ih (.call t hc hf a b)
    simp only [after, g2] at i2 i3
    exact ⟨i1, i2, .ask (Nat.le_refl 0) ⟨rfl, rfl, g1⟩ i3⟩

open Classical in
/-- Leaves that begin at `k` or below. Their number is bounded by the size of the mapping table, and a NodeID keeps the key at which its leaf begins. -/
noncomputable def passed (w : World K V) (k : K) : Finset Nat :=
  (Finset.range TABLE_SIZE).filter fun id => ∃ a, w.info id = some (some a, 0) ∧ a ≤ k

open Classical in
theorem passed_card (w : World K V) (k : K) : (passed w k).card ≤ TABLE_SIZE := by
  refine Nat.le_trans (Finset.card_filter_le _ _) ?_
  rw [Finset.card_range]

open Classical in
theorem passed_lt {w w' : World K V} (h : Mono w w') (hi : Inv w') {k kh : K} {z : NodeId} (hk : k < kh) (hz : w'.info z = some (some kh, 0)) :
    (passed w k).card < (passed w' kh).card := by
  refine Finset.card_lt_card ((Finset.ssubset_iff_of_subset ?_).mpr ⟨z, ?_, ?_⟩)
  · intro id hid
    obtain ⟨h1, a, h2, h3⟩ := Finset.mem_filter.mp hid
    exact Finset.mem_filter.mpr ⟨h1, a, h.info _ _ h2, le_trans h3 (le_of_lt hk)⟩
  · exact Finset.mem_filter.mpr ⟨Finset.mem_range.mpr (hi.ids _ _ hz).2.1, kh, hz, le_refl _⟩
  · intro hm
    obtain ⟨_, a, h2, h3⟩ := Finset.mem_filter.mp hm
    have := h.info _ _ h2
    rw [hz] at this
    cases this
    exact absurd hk (not_lt.mpr h3)

/-- A page names the next leaf. -/
def Names (w : World K V) (pg : Page K V) : Prop := pg.high.2 = INVALID ∨ w.info pg.high.2 = some (some pg.high.1, 0)

theorem ask_ends {c : Conf K V} {w : World K V} (h : Calls c w) (hf : Ample f) (t : Tid) {q : Query K} (hq : (q.toCall : Call K V).forward = true)
    (hc : SeqReach c) :
    (∃ m, Steps c.mem (prog f q.toCall) m (.fail .tableFull) ∧ TABLE_SIZE < m.nextId) ∨
    ∃ (pg : Page K V) (m : Mem K V) (w1 : World K V), Steps c.mem (prog f q.toCall) m (.ret (.page pg.low pg.high pg.items)) ∧
      Calls (after c t q.toCall m (.page pg.low pg.high pg.items)) w1 ∧ Mono w w1 ∧ Names w1 pg := by
  have hg : ∀ k, (q.toCall : Call K V) ≠ .api (.get k) := by intro k e; cases q <;> cases e
  rcases h.run t hf hq with ⟨w1, g, h1, h2⟩ | ⟨a, w1, h1, h2, _, h4, _, h6⟩
  · unfold mayFail at h2
    split at h2
    · rename_i e; exact absurd e (hg _)
    · obtain ⟨rfl, h3⟩ := h2
      exact Or.inl ⟨_, h1, h3⟩
  · have hex := C42_exact hc hf hq h1
    have : ∃ lo hi l, a = .page lo hi l := by
      cases q with
      | first => cases a with
        | page lo hi l => exact ⟨lo, hi, l, rfl⟩
        | bool b => exact hex.elim
        | values l c => exact hex.elim
      | page k => cases a with
        | page lo hi l => exact ⟨lo, hi, l, rfl⟩
        | bool b => exact hex.elim
        | values l c => exact hex.elim
      | back k => cases hq
    obtain ⟨lo, hi, l, rfl⟩ := this
    exact Or.inr ⟨⟨lo, hi, l⟩, w1.mem, w1, h1, h2, h4, h6 hg lo hi l rfl⟩

/-- An iterator that points to an item or is at the end, and whose page names the next leaf. -/
structure OnPage (w : World K V) (it : It K V) : Prop where
  pos : 0 ≤ it.pos
  val : it.pos < it.page.items.length ∨ isEnd (some it) = true
  names : Names w it.page

/-- `LowerBound` ends. -/
theorem lowerBoundIt_ends (hf : Ample f) (t : Tid) (fuel : Nat) : ∀ (k : K) {c : Conf K V} {w : World K V}, Calls c w → SeqReach c →
    TABLE_SIZE < (passed w k).card + fuel →
    TableFull f t c (lowerBoundIt fuel k : IProg K V (It K V)) ∨
    ∃ c' w' it, SoloRun f t c (lowerBoundIt fuel k) c' (some it) ∧ Calls c' w' ∧ OnPage w' it ∧
      (it.page.high.2 ≠ INVALID → (passed w k).card < (passed w' it.page.high.1).card) := by
  induction fuel with
  | zero =>
    intro k c w _ _ h
    have := passed_card w k
    omega
  | succ fuel ih =>
    intro k c w hw hc h
    unfold lowerBoundIt
    rcases ask_ends hw hf t (q := .page k) rfl hc with ⟨m, h1, h2⟩ | ⟨pg, m, w1, h1, h2, h3, h4⟩
    · exact Or.inl (.now rfl h1 h2)
    · obtain ⟨⟨g1, g2⟩, g3⟩ := page_ok (q := .page k) hc hf rfl h1
      obtain ⟨p, e1, e2, _, _⟩ := lb_split g2.1 k
      have hlt : pg.high.2 ≠ INVALID → (passed w k).card < (passed w1 pg.high.1).card := by
        intro hn
        refine passed_lt h3 h2.rest.1 ?_ (h4.resolve_left hn)
        exact g1.2.resolve_left hn
      by_cases hp : p ≠ pg.items.length
      · refine Or.inr ⟨_, w1, ⟨pg, p⟩, .ask rfl h1 ?_, h2, ⟨Int.natCast_nonneg _, Or.inl ?_, h4⟩, hlt⟩
        · simp only [e1, if_pos hp]
          exact .ret _ _
        · show (p : Int) < pg.items.length
          omega
      · by_cases he : isEnd (some (⟨pg, p⟩ : It K V)) = true
        · refine Or.inr ⟨_, w1, ⟨pg, p⟩, .ask rfl h1 ?_, h2, ⟨Int.natCast_nonneg _, Or.inr he, h4⟩, hlt⟩
          simp only [e1, if_neg hp, if_pos he]
          exact .ret _ _
        · have hn : pg.high.2 ≠ INVALID := by
            intro hn
            apply he
            simp only [isEnd, decide_eq_true_eq]
            exact ⟨hn, by have := not_not.mp hp; omega⟩
          have hlt' := hlt hn
          rcases ih pg.high.1 h2 (.call t hc hf rfl h1) (by omega) with h5 | ⟨c', w', it, h5, h6, h7, h8⟩
          · refine Or.inl (.later rfl h1 ?_)
            simp only [e1, if_neg hp, if_neg he]
            exact h5
          · refine Or.inr ⟨c', w', it, .ask rfl h1 ?_, h6, h7, fun hh => Nat.lt_trans hlt' (h8 hh)⟩
            simp only [e1, if_neg hp, if_neg he]
            exact h5

theorem scan_end {n fuel : Nat} {it : It K V} (he : isEnd (some it) = true) : scan (n + 1) fuel (some it) = .ret [] := by
  unfold scan
  rw [if_pos he]

theorem scan_cons {n fuel : Nat} {it : It K V} (he : isEnd (some it) ≠ true) {x : K × V} (hx : it.item = some x) :
    scan (n + 1) fuel (some it) = (moveAhead fuel it).bind fun it' => (scan n fuel (some it')).bind fun xs => .ret (x :: xs) := by
  have hb : ∀ {α β γ : Type} (p : IProg K V α) (g : α → IProg K V β) (h : β → IProg K V γ), (p.bind g).bind h = p.bind fun a => (g a).bind h := by
    intro α β γ p g h
    induction p with
    | ret a => rfl
    | ub => rfl
    | spin => rfl
    | ask q k ih => exact congrArg (IProg.ask q) (funext fun pg => ih pg)
  show (if isEnd (some it) then _ else (deref (some it)).bind fun x => (next fuel (some it)).bind fun o' => (scan n fuel o').bind fun xs => .ret (x :: xs)) = _
  rw [if_neg he]
  have h1 : deref (some it) = .ret x := by unfold deref; simp only [hx]
  have h2 : next fuel (some it) = (moveAhead fuel it).bind fun it' => .ret (some it') := by unfold next; rw [if_neg he]; rfl
  rw [h1, h2]
  show ((moveAhead fuel it).bind fun it' => .ret (some it')).bind _ = _
  rw [hb]
  rfl

/-- `++` ends. -/
theorem moveAhead_ends (hf : Ample f) (t : Tid) {fuel : Nat} (hfu : TABLE_SIZE < fuel) {it : It K V} {c : Conf K V} {w : World K V} (hw : Calls c w)
    (hc : SeqReach c) (h0 : 0 ≤ it.pos) (hl : it.pos < it.page.items.length) :
    TableFull f t c (moveAhead fuel it) ∨
    (moveAhead fuel it = .ret ⟨it.page, it.pos + 1⟩ ∧ (it.pos + 1 < it.page.items.length ∨ isEnd (some (⟨it.page, it.pos + 1⟩ : It K V)) = true)) ∨
    (it.page.high.2 ≠ INVALID ∧ ∃ c' w' it', SoloRun f t c (moveAhead fuel it) c' (some it') ∧ Calls c' w' ∧ OnPage w' it' ∧
      (it'.page.high.2 ≠ INVALID → (passed w it.page.high.1).card < (passed w' it'.page.high.1).card)) := by
  have hne : ¬ isEnd (some it) = true := by
    simp only [isEnd, decide_eq_true_eq]
    omega
  unfold moveAhead
  rw [if_neg hne, if_neg (by omega)]
  by_cases h1 : it.pos + 1 = it.page.items.length
  · rw [if_pos h1]
    by_cases h2 : isEnd (some (⟨it.page, it.pos + 1⟩ : It K V)) = true
    · rw [if_pos h2]
      exact Or.inr (Or.inl ⟨rfl, Or.inr h2⟩)
    · rw [if_neg h2]
      have hn : it.page.high.2 ≠ INVALID := by
        intro hn
        apply h2
        simp only [isEnd, decide_eq_true_eq]
        exact ⟨hn, h1⟩
      rcases lowerBoundIt_ends hf t fuel it.page.high.1 hw hc (by omega) with h5 | h5
      · exact Or.inl h5
      · exact Or.inr (Or.inr ⟨hn, h5⟩)
  · rw [if_neg h1]
    exact Or.inr (Or.inl ⟨rfl, Or.inl (by omega)⟩)

/-- The loop over an iterator ends. -/
theorem scan_ends (hf : Ample f) (t : Tid) {fuel : Nat} (hfu : TABLE_SIZE < fuel) : ∀ (N L : Nat) {it : It K V} {c : Conf K V} {w : World K V},
    Calls c w → SeqReach c → OnPage w it → (it.page.high.2 ≠ INVALID → TABLE_SIZE < (passed w it.page.high.1).card + N) →
    it.page.items.length ≤ it.pos + L →
    (∃ M, ∀ n, M ≤ n → TableFull f t c (scan n fuel (some it))) ∨ ∃ M c' l, ∀ n, M ≤ n → SoloRun f t c (scan n fuel (some it)) c' (some l) := by
  intro N
  induction N using Nat.strong_induction_on with
  | _ N ihN =>
    intro L
    induction L with
    | zero =>
      intro it c w hw hc ho _ hL
      have he : isEnd (some it) = true := ho.val.resolve_left (by omega)
      refine Or.inr ⟨1, c, [], fun n hn => ?_⟩
      obtain ⟨n, rfl⟩ : ∃ n', n = n' + 1 := ⟨n - 1, by omega⟩
      rw [scan_end he]
      exact .ret _ _
    | succ L ihL =>
      intro it c w hw hc ho hN hL
      by_cases he : isEnd (some it) = true
      · refine Or.inr ⟨1, c, [], fun n hn => ?_⟩
        obtain ⟨n, rfl⟩ : ∃ n', n = n' + 1 := ⟨n - 1, by omega⟩
        rw [scan_end he]
        exact .ret _ _
      · have hl := ho.val.resolve_right he
        obtain ⟨x, hx, _⟩ := item_valid ho.pos hl
        rcases moveAhead_ends hf t hfu hw hc ho.pos hl with h1 | ⟨h1, h2⟩ | ⟨hn, c1, w1, it1, h1, h2, h3, h4⟩
        · refine Or.inl ⟨1, fun n hn => ?_⟩
          obtain ⟨n, rfl⟩ : ∃ n', n = n' + 1 := ⟨n - 1, by omega⟩
          rw [scan_cons he hx]
          exact h1.bind
        · have hp := ho.pos
          rcases ihL (it := ⟨it.page, it.pos + 1⟩) hw hc ⟨by show 0 ≤ it.pos + 1; omega, h2, ho.names⟩ hN (by show (it.page.items.length : Int) ≤ it.pos + 1 + (L : Int); push_cast at hL; omega)
            with ⟨M, g⟩ | ⟨M, c', l, g⟩
          · refine Or.inl ⟨M + 1, fun n hn => ?_⟩
            obtain ⟨n, rfl⟩ : ∃ n', n = n' + 1 := ⟨n - 1, by omega⟩
            rw [scan_cons he hx, h1]
            exact (g n (by omega)).bind
          · refine Or.inr ⟨M + 1, c', x :: l, fun n hn => ?_⟩
            obtain ⟨n, rfl⟩ : ∃ n', n = n' + 1 := ⟨n - 1, by omega⟩
            rw [scan_cons he hx, h1]
            exact (g n (by omega)).bind rfl (.ret _ _)
        · have hN0 := hN hn
          have hcard := passed_card w it.page.high.1
          have hc1 := (h1.right hf hc).1
          rcases ihN (N - 1) (by omega) (it1.page.items.length) (it := it1) h2 hc1 h3 (fun hh => by have := h4 hh; omega) (by have := h3.pos; omega)
            with ⟨M, g⟩ | ⟨M, c', l, g⟩
          · refine Or.inl ⟨M + 1, fun n hn => ?_⟩
            obtain ⟨n, rfl⟩ : ∃ n', n = n' + 1 := ⟨n - 1, by omega⟩
            rw [scan_cons he hx]
            exact h1.full rfl (g n (by omega)).bind
          · refine Or.inr ⟨M + 1, c', x :: l, fun n hn => ?_⟩
            obtain ⟨n, rfl⟩ : ∃ n', n = n' + 1 := ⟨n - 1, by omega⟩
            rw [scan_cons he hx]
            exact h1.bind rfl ((g n (by omega)).bind rfl (.ret _ _))

end Iterator
end BwTree
