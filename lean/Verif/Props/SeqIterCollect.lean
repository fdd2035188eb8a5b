import Verif.Spec.CollectedIter
import Verif.Props.SeqCollect
import Verif.Props.SeqIter

/-!
  C46 while the collector destroys what was retired.
-/

namespace BwTree
namespace Iterator

open Tree

set_option linter.unusedSectionVars false

variable {K V : Type} [LinearOrder K] [DecidableEq V] [Inhabited K] {α : Type} {f fuel : Nat} {t : Tid}

theorem page_inj {pg pg' : Page K V} (e : (Ans.page pg.low pg.high pg.items : Ans K V) = .page pg'.low pg'.high pg'.items) : pg = pg' := by
  obtain ⟨a1, a2, a3⟩ := pg
  obtain ⟨b1, b2, b3⟩ := pg'
  injection e with e1 e2 e3
  subst e1 e2 e3
  rfl

/-- The run of an iterator program that is alone and without collector: after at most that many pages it is in `E`. -/
inductive Track (f : Nat) (t : Tid) (E : Conf K V → IProg K V α → Prop) : Nat → Conf K V → IProg K V α → Prop where
  | stop {c : Conf K V} {p : IProg K V α} : E c p → Track f t E 0 c p
  | ask {L : Nat} {c : Conf K V} {q : Query K} {k : Page K V → IProg K V α} {pg : Page K V} {m : Mem K V} :
      (q.toCall : Call K V).forward = true → Steps c.mem (prog f q.toCall) m (.ret (.page pg.low pg.high pg.items)) →
      Track f t E L (after c t q.toCall m (.page pg.low pg.high pg.items)) (k pg) → Track f t E (L + 1) c (.ask q k)

theorem SoloRun.track {c c' : Conf K V} {p : IProg K V α} {x : α} {o : Option α} (h : SoloRun f t c p c' o) (ho : o = some x) :
    ∃ L, Track f t (fun _ p => p = .ret x) L c p := by
  induction h with
  | ret c y => cases ho; exact ⟨0, .stop rfl⟩
  | ub c => cases ho
  | ask a b _ ih =>
    obtain ⟨L, g⟩ := ih ho
    exact ⟨L + 1, .ask a b g⟩

/-- The next page read ends because all NodeIDs are used up. -/
def FullNow (f : Nat) (c : Conf K V) (p : IProg K V α) : Prop :=
  ∃ q k m, p = .ask q k ∧ (q.toCall : Call K V).forward = true ∧ Steps c.mem (prog f (q.toCall : Call K V)) m (.fail .tableFull)

theorem TableFull.track {c : Conf K V} {p : IProg K V α} (h : TableFull f t c p) : ∃ L, Track f t (FullNow f) L c p := by
  induction h with
  | now z a _ => exact ⟨0, .stop ⟨_, _, _, rfl, z, a⟩⟩
  | later z a _ ih =>
    obtain ⟨L, g⟩ := ih
    exact ⟨L + 1, .ask z a g⟩

/-- The memory `m` without collector that belongs to `c`. -/
def Full (m : Mem K V) (c : Conf K V) : Prop := SeqReach ⟨m, c.thr, c.hist⟩ ∧ Coll m c.mem ∧ Gone m c.mem

theorem Full.stored {m : Mem K V} {c : Conf K V} (h : Full m c) : Stored c.mem = Stored m := by
  obtain ⟨w, hw⟩ := h.1.calls
  have e : w.mem = m := hw.mem
  subst e
  exact h.2.1.stored hw.rest.1

/-- With the collector the same pages are read as without. -/
theorem CIter.sim (hf : Ample f) {E : Conf K V → IProg K V α → Prop}
    (hE : ∀ c q k (pg : Page K V) m, E c (.ask q k) → ¬ Steps c.mem (prog f q.toCall) m (.ret (.page pg.low pg.high pg.items)))
    {j : Nat} {c c' : Conf K V} {p p' : IProg K V α} (h : CIter f t j c p c' p') :
    ∀ {m : Mem K V} {L : Nat}, Full m c → SeqCollect c → Track f t E L ⟨m, c.thr, c.hist⟩ p →
      SeqCollect c' ∧ Stored c'.mem = Stored c.mem ∧ j ≤ L ∧ ∃ m' L', Full m' c' ∧ Track f t E L' ⟨m', c'.thr, c'.hist⟩ p' := by
  induction h with
  | refl c p => intro m L h1 h2 h3; exact ⟨h2, rfl, Nat.zero_le _, m, L, h1, h3⟩
  | @collect j c c' p p' g hg _ ih =>
    intro m L h1 h2 h3
    obtain ⟨w, hw⟩ := h1.1.calls
    have e : w.mem = m := hw.mem
    subst e
    have hg' : g ∈ w.mem.garbage := h1.2.1.garbage ▸ hg
    have h4 : Full w.mem { c with mem := c.mem.destroy g } := ⟨h1.1, h1.2.1.destroy hg', h1.2.2.destroy hw.rest.1 h1.2.1 hg'⟩
    obtain ⟨i1, i2, i3⟩ := ih h4 (h2.collect hg) h3
    exact ⟨i1, i2.trans (h4.stored.trans h1.stored.symm), i3⟩
  | @ask j n c c' q k p' pg m1 hq hs _ ih =>
    intro m L h1 h2 h3
    obtain ⟨m2, h4, h5, h6, _⟩ := hs.sim h1.1 hf hq h1.2.1 h1.2.2 (fun g hg => h1.2.1.garbage ▸ hg)
    have hst := iter_steps h4
    cases h3 with
    | stop he => exact absurd hst (hE _ _ _ _ _ he)
    | @ask L' _ _ _ pg' m2' _ b g =>
      obtain ⟨rfl, e⟩ := b.det hst (fun _ => rfl) (fun _ => rfl)
      injection e with e
      obtain rfl := page_inj e
      have h7 : Full m2' (after c t q.toCall m1 (.page pg'.low pg'.high pg'.items)) := ⟨.call t h1.1 hf hq hst, h5, h6⟩
      obtain ⟨i1, i2, i3, i4⟩ := ih h7 (.call t h2 hf hq hs) g
      exact ⟨i1, i2.trans (h7.stored.trans ((page_ok h1.1 hf hq hst).2.trans h1.stored.symm)), Nat.succ_le_succ i3, i4⟩

theorem pageComes (hf : Ample f) {c : Conf K V} (h : SeqCollect c) {q : Query K} (hq : (q.toCall : Call K V).forward = true) (k : Page K V → IProg K V α) :
    PageComes f c (.ask q k) := by
  obtain ⟨N, hN⟩ := C41_collected h hf hq
  refine ⟨q, k, N, rfl, fun n m r hs => ?_⟩
  obtain ⟨h1, h2 | ⟨a, rfl⟩ | h2 | ⟨⟨k', e⟩, _⟩⟩ := hN n m r hs
  · exact ⟨h1, Or.inl h2⟩
  · refine ⟨h1, Or.inr (Or.inl ?_)⟩
    have := C42_collected h hf hq hs
    cases q with
    | back k => cases hq
    | first => cases a with
      | page lo hi l => exact ⟨_, _, _, rfl⟩
      | bool | values => exact this.elim
    | page k => cases a with
      | page lo hi l => exact ⟨_, _, _, rfl⟩
      | bool | values => exact this.elim
  · exact ⟨h1, Or.inr (Or.inr h2)⟩
  · cases q <;> cases e

theorem Track.ends {E : Conf K V → IProg K V α → Prop} {L : Nat} {c : Conf K V} {p : IProg K V α} (h : Track f t E L c p) :
    E c p ∨ ∃ q k, p = .ask q k ∧ (q.toCall : Call K V).forward = true := by
  cases h with
  | stop h => exact Or.inl h
  | ask a _ _ => exact Or.inr ⟨_, _, rfl, a⟩

/-- What holds with the collector, when without it the program ends with `x`. -/
theorem collected_run (hf : Ample f) {c : Conf K V} (hc : SeqCollect c) {m : Mem K V} (hm : Full m c) {p : IProg K V α} {x : α} {c1 : Conf K V}
    (hr : SoloRun f t ⟨m, c.thr, c.hist⟩ p c1 (some x)) : ∃ N, ∀ j c' p', CIter f t j c p c' p' →
      j ≤ N ∧ SeqCollect c' ∧ Stored c'.mem = Stored c.mem ∧ (PageComes f c' p' ∨ p' = .ret x) := by
  obtain ⟨L, h1⟩ := hr.track rfl
  refine ⟨L, fun j c' p' h => ?_⟩
  obtain ⟨h2, h3, h4, m', L', _, h5⟩ := h.sim hf (by rintro _ _ _ _ _ ⟨⟩) hm hc h1
  rcases h5.ends with h6 | ⟨q, k, rfl, h6⟩
  · exact ⟨h4, h2, h3, Or.inr h6⟩
  · exact ⟨h4, h2, h3, Or.inl (pageComes hf h2 h6 k)⟩

/-- What holds with the collector, when without it the mapping table is used up. -/
theorem collected_full (hf : Ample f) {c : Conf K V} (hc : SeqCollect c) {m : Mem K V} (hm : Full m c) {p : IProg K V α}
    (hr : TableFull f t ⟨m, c.thr, c.hist⟩ p) : ∃ N, ∀ j c' p', CIter f t j c p c' p' →
      j ≤ N ∧ SeqCollect c' ∧ Stored c'.mem = Stored c.mem ∧ PageComes f c' p' := by
  obtain ⟨L, h1⟩ := hr.track
  refine ⟨L, fun j c' p' h => ?_⟩
  obtain ⟨h2, h3, h4, m', L', _, h5⟩ := h.sim hf (by
    rintro _ _ _ _ _ ⟨q, k, m, e, _, s⟩ s'
    cases e
    obtain ⟨_, e⟩ := s.det s' (fun _ => rfl) (fun _ => rfl)
    cases e) hm hc h1
  rcases h5.ends with ⟨q, k, m, rfl, h6, _⟩ | ⟨q, k, rfl, h6⟩
  · exact ⟨h4, h2, h3, pageComes hf h2 h6 k⟩
  · exact ⟨h4, h2, h3, pageComes hf h2 h6 k⟩

/-- While the collector destroys what was retired, `for(it = tree.Begin(k); !it.IsEnd(); ++it)` reads a bounded number of pages. At any moment the next page comes,
or the loop has ended with every stored pair from `k` on, in key order, each once. -/
theorem C46_scanFrom_collected {c : Conf K V} (h : SeqCollect c) (hf : Ample f) (hfu : TABLE_SIZE < fuel) (t : Tid) (k : K) :
    ∃ M, ∀ n, M ≤ n → ∃ N, ∀ j c' p, CIter f t j c (scanFrom n fuel k : IProg K V (List (K × V))) c' p →
      j ≤ N ∧ SeqCollect c' ∧ Stored c'.mem = Stored c.mem ∧
      (PageComes f c' p ∨ ∃ l, p = .ret l ∧ Ascending l ∧ l.Nodup ∧ ∀ x v, (x, v) ∈ l ↔ k ≤ x ∧ Stored c.mem x v) := by
  obtain ⟨m, hm⟩ : ∃ m, Full m c := h.sim
  rcases C46_scanFrom_ends hm.1 hf hfu t k with ⟨M, h1⟩ | ⟨M, c1, l, h1, _, _, h2, h3, h4⟩
  · refine ⟨M, fun n hn => ?_⟩
    obtain ⟨N, hN⟩ := collected_full hf h hm (h1 n hn)
    exact ⟨N, fun j c' p hp => ⟨(hN j c' p hp).1, (hN j c' p hp).2.1, (hN j c' p hp).2.2.1, Or.inl (hN j c' p hp).2.2.2⟩⟩
  · refine ⟨M, fun n hn => ?_⟩
    obtain ⟨N, hN⟩ := collected_run hf h hm (h1 n hn)
    refine ⟨N, fun j c' p hp => ?_⟩
    obtain ⟨g1, g2, g3, g4⟩ := hN j c' p hp
    refine ⟨g1, g2, g3, g4.imp id fun g => ⟨l, g, h2, h3, fun x v => ?_⟩⟩
    rw [hm.stored]
    exact h4 x v

/-- The same for `++` on an iterator that points to an item, whatever calls were made and whatever the collector destroyed since it was positioned. -/
theorem C46_step_collected {c : Conf K V} (h : SeqCollect c) (hf : Ample f) (hfu : TABLE_SIZE < fuel) (t : Tid) {it : It K V} {x : K × V}
    (hx : it.item = some x) : ∃ N, ∀ j c' p, CIter f t j c (next fuel (some it)) c' p →
      j ≤ N ∧ SeqCollect c' ∧ Stored c'.mem = Stored c.mem ∧ (PageComes f c' p ∨ ∃ it', p = .ret (some it')) := by
  obtain ⟨m, hm⟩ : ∃ m, Full m c := h.sim
  rcases C46_step_ends hm.1 hf hfu t hx with h1 | ⟨c1, it', h1, _⟩
  · obtain ⟨N, hN⟩ := collected_full hf h hm h1
    exact ⟨N, fun j c' p hp => ⟨(hN j c' p hp).1, (hN j c' p hp).2.1, (hN j c' p hp).2.2.1, Or.inl (hN j c' p hp).2.2.2⟩⟩
  · obtain ⟨N, hN⟩ := collected_run hf h hm h1
    refine ⟨N, fun j c' p hp => ?_⟩
    obtain ⟨g1, g2, g3, g4⟩ := hN j c' p hp
    exact ⟨g1, g2, g3, g4.imp id fun g => ⟨it', g⟩⟩

theorem SoloRun.citer {c c' : Conf K V} {p : IProg K V α} {x : α} {o : Option α} (h : SoloRun f t c p c' o) (ho : o = some x) :
    ∃ j, CIter f t j c p c' (.ret x) := by
  induction h with
  | ret c y => cases ho; exact ⟨0, .refl _ _⟩
  | ub c => cases ho
  | @ask c _ _ _ _ _ _ a b _ ih =>
    obtain ⟨j, g⟩ := ih ho
    obtain ⟨n, hn⟩ := b.csteps c.mem.garbage
    exact ⟨j + 1, .ask a hn g⟩

/-- The loop from 60 over the tree of `afterLast` when the entry of node 3 is cleared. -/
def clearedLoop : Option (Option (List (Nat × Nat)) × Bool) :=
  afterLast.bind fun c => if c.mem.garbage.contains 271 && (c.mem.table 3).isSome && decide (3 < c.mem.nextId) then
    (runIt 0 (scanFrom 109 (TABLE_SIZE + 1) 60) { c with mem := c.mem.destroy 271 }).map fun r => (r.2, ((c.mem.destroy 271).table 3).isNone) else none

/-- The pairs from 60 on. -/
def clearedPairs : List (Nat × Nat) := ((List.range 4).map fun i => (60 + i, 60 + i)) ++ (List.range 103).map fun i => (97 + i, 97 + i)

theorem clearedLoop_eq : clearedLoop = some (some clearedPairs, true) := by decide +kernel

/-- The hypotheses are met by a loop over a tree from which the collector has taken the entry of a removed node; it ends. -/
theorem C46_collected_example : ∃ (c c' : Conf Nat Nat) (j : Nat), SeqCollect c ∧ 3 < c.mem.nextId ∧ c.mem.table 3 = none ∧ Ample (3 * TABLE_SIZE + 1) ∧
    CIter (3 * TABLE_SIZE + 1) 0 j c (scanFrom 109 (TABLE_SIZE + 1) 60) c' (.ret clearedPairs) := by
  have h := clearedLoop_eq
  unfold clearedLoop at h
  cases hc : afterLast with
  | none => rw [hc] at h; cases h
  | some c =>
    rw [hc] at h
    simp only [Option.bind_some] at h
    split at h
    · rename_i hg
      simp only [Bool.and_eq_true, List.contains_iff_mem, decide_eq_true_eq] at hg
      obtain ⟨⟨hg, _⟩, hid⟩ := hg
      cases hr : runIt 0 (scanFrom 109 (TABLE_SIZE + 1) 60) { c with mem := c.mem.destroy 271 } with
      | none => rw [hr] at h; cases h
      | some r =>
        rw [hr] at h
        obtain ⟨c', out⟩ := r
        injection h with h
        injection h with h1 h2
        obtain ⟨j, hj⟩ := (runIt_solo _ hr).citer h1
        exact ⟨_, c', j, (seqRun_reach .init insDel_forward hc).collected.collect hg, hid, Option.isNone_iff_eq_none.mp h2, Nat.lt_succ_self _, hj⟩
    · cases h

end Iterator
end BwTree
