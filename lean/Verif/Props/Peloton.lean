import Mathlib.Data.List.Dedup
import Verif.Props.Iterator
import Verif.Props.SeqBack
import Verif.Props.SeqIter
import Verif.Spec.Peloton

/-!
  C51: the scans of the Peloton index adapter.
-/

namespace BwTree
namespace Peloton

open Tree Iterator

set_option linter.unusedSectionVars false

variable {K V : Type} [LinearOrder K] [DecidableEq V] [Inhabited K] {f fuel : Nat} {c c' : Conf K V} {t : Tid}

theorem bind_assoc {α β γ : Type} (p : IProg K V α) (g : α → IProg K V β) (h : β → IProg K V γ) :
    (p.bind g).bind h = p.bind fun a => (g a).bind h := by
  induction p with
  | ret a => rfl
  | ub => rfl
  | spin => rfl
  | ask q k ih => exact congrArg (IProg.ask q) (funext fun pg => ih pg)

theorem bind_inv {α β : Type} {p : IProg K V α} {g : α → IProg K V β} {out : Option β} {y : β} : ∀ {c c' : Conf K V},
    SoloRun f t c (p.bind g) c' out → out = some y → ∃ c1 x, SoloRun f t c p c1 (some x) ∧ SoloRun f t c1 (g x) c' (some y) := by
  induction p with
  | ret a => intro c c' h e; subst e; exact ⟨c, a, .ret c a, h⟩
  | ub => intro c c' h e; subst e; cases h
  | spin => intro c c' h e; cases h
  | ask q k ih =>
    intro c c' h e
    cases h with
    | ask a b h =>
      obtain ⟨c1, x, h1, h2⟩ := ih _ h e
      exact ⟨c1, x, .ask a b h1, h2⟩

theorem postNext_some {it : It K V} (he : isEnd (some it) ≠ true) :
    postNext fuel (some it) = (moveAhead fuel it).bind fun it' => .ret (some it, some it') := by
  unfold postNext
  simp only [if_neg he]
  rfl

theorem loop_end {n : Nat} {sat : K → Bool} {stop : Bool} {it : It K V} (he : isEnd (some it) = true) :
    scanLoop (n + 1) fuel sat stop (some it) = .ret [] := by
  unfold scanLoop
  rw [if_pos he]

theorem loop_cons {n : Nat} {sat : K → Bool} {stop : Bool} {it : It K V} (he : isEnd (some it) ≠ true) {x : K × V} (hx : it.item = some x) :
    scanLoop (n + 1) fuel sat stop (some it) =
      if sat x.1 then (moveAhead fuel it).bind fun it' => (scanLoop n fuel sat stop (some it')).bind fun xs => .ret (x.2 :: xs)
      else if stop then .ret [] else (moveAhead fuel it).bind fun it' => scanLoop n fuel sat stop (some it') := by
  have h1 : deref (some it) = .ret x := by unfold deref; simp only [hx]
  show (if isEnd (some it) then _ else (deref (some it)).bind fun x =>
    if sat x.1 then (postNext fuel (some it)).bind fun r => (scanLoop n fuel sat stop r.2).bind fun xs => .ret (x.2 :: xs)
    else if stop then .ret [] else (postNext fuel (some it)).bind fun r => scanLoop n fuel sat stop r.2) = _
  rw [if_neg he, h1, postNext_some he]
  show (if sat x.1 then _ else _) = _
  rw [bind_assoc, bind_assoc]
  rfl

/-- What the loop makes of the pairs from its start on. -/
def pick (sat : K → Bool) (stop : Bool) (l : List (K × V)) : List (K × V) :=
  if stop then l.takeWhile fun x => sat x.1 else l.filter fun x => sat x.1

theorem loop_run {sat : K → Bool} {stop : Bool} : ∀ (n : Nat) {it : It K V} {c c' : Conf K V} {l : List (K × V)},
    SoloRun f t c (scan n fuel (some it)) c' (some l) →
    ∃ c'', SoloRun f t c (scanLoop n fuel sat stop (some it)) c'' (some ((pick sat stop l).map Prod.snd)) := by
  intro n
  induction n with
  | zero => intro it c c' l h; cases h
  | succ n ih =>
    intro it c c' l h
    by_cases he : isEnd (some it) = true
    · rw [scan_end he] at h
      rw [loop_end he]
      cases h
      refine ⟨c, ?_⟩
      have : (pick sat stop ([] : List (K × V))).map Prod.snd = [] := by cases stop <;> rfl
      rw [this]
      exact .ret c _
    · cases hx : it.item with
      | none =>
        have : scan (n + 1) fuel (some it) = .ub := by
          show (if isEnd (some it) then _ else (deref (some it)).bind _) = _
          rw [if_neg he]
          unfold deref
          simp only [hx]
          rfl
        rw [this] at h
        cases h
      | some x =>
        rw [scan_cons he hx] at h
        rw [loop_cons he hx]
        obtain ⟨c1, it', h1, h2⟩ := bind_inv h rfl
        obtain ⟨c2, xs, h3, h4⟩ := bind_inv h2 rfl
        cases h4
        obtain ⟨c3, h5⟩ := ih h3
        by_cases hs : sat x.1 = true
        · rw [if_pos hs]
          have e : (pick sat stop (x :: xs)).map Prod.snd = x.2 :: (pick sat stop xs).map Prod.snd := by
            unfold pick
            cases stop <;> simp [hs]
          rw [e]
          exact ⟨c3, h1.bind rfl (h5.bind rfl (.ret _ _))⟩
        · rw [if_neg hs]
          cases stop with
          | true =>
            have e : (pick sat true (x :: xs)).map Prod.snd = [] := by unfold pick; simp [hs]
            rw [e]
            exact ⟨c, .ret c _⟩
          | false =>
            have e : pick sat false (x :: xs) = pick sat false xs := by unfold pick; simp [hs]
            rw [e]
            exact ⟨c3, h1.bind rfl h5⟩

theorem takeWhile_mem {sat : K → Bool} : ∀ {l : List (K × V)}, Ascending l → (∀ x ∈ l, ∀ y ∈ l, x.1 ≤ y.1 → sat y.1 = true → sat x.1 = true) →
    l.takeWhile (fun x => sat x.1) = l.filter fun x => sat x.1 := by
  intro l
  induction l with
  | nil => intros; rfl
  | cons a l ih =>
    intro h hp
    have h' := List.pairwise_cons.mp h
    by_cases ha : sat a.1 = true
    · rw [List.takeWhile_cons_of_pos (p := fun x : K × V => sat x.1) ha, List.filter_cons_of_pos (p := fun x : K × V => sat x.1) ha,
        ih h'.2 fun x hx y hy => hp x (List.mem_cons_of_mem _ hx) y (List.mem_cons_of_mem _ hy)]
    · rw [List.takeWhile_cons_of_neg (p := fun x : K × V => sat x.1) ha, List.filter_cons_of_neg (p := fun x : K × V => sat x.1) ha]
      symm
      rw [List.filter_eq_nil_iff]
      intro y hy hs
      exact ha (hp a List.mem_cons_self y (List.mem_cons_of_mem _ hy) (h'.1 y hy) hs)

theorem filter_answer {S : K → V → Prop} {P : K → Prop} {sat : K → Bool} {l : List (K × V)} (ha : Ascending l) (hn : l.Nodup)
    (hl : ∀ x v, (x, v) ∈ l ↔ P x ∧ S x v) :
    Answer S (fun x => P x ∧ sat x = true) ((l.filter fun x => sat x.1).map Prod.snd) := by
  refine ⟨_, rfl, ha.sublist List.filter_sublist, hn.sublist List.filter_sublist, fun x v => ?_⟩
  rw [List.mem_filter, hl]
  exact ⟨fun h => ⟨⟨h.1.1, h.2⟩, h.1.2⟩, fun h => ⟨⟨h.1.1, h.2⟩, h.1.2⟩⟩

theorem Answer.congr {S : K → V → Prop} {P Q : K → Prop} {r : List V} (h : Answer S P r) (e : ∀ x, P x ↔ Q x) : Answer S Q r := by
  obtain ⟨l, h1, h2, h3, h4⟩ := h
  exact ⟨l, h1, h2, h3, fun x v => by rw [h4, e]⟩

/-- A loop that starts at `k` and does not stop early: it returns the matching pairs from `k` on. -/
theorem loop_from (h : SeqReach c) (hf : Ample f) (hfu : TABLE_SIZE < fuel) (t : Tid) (k : K) (sat : K → Bool) :
    (∃ M, ∀ n, M ≤ n → TableFull f t c (scanFrom n fuel k : IProg K V (List (K × V)))) ∨
    ∃ M l, Ascending l ∧ l.Nodup ∧ (∀ x v, (x, v) ∈ l ↔ k ≤ x ∧ Stored c.mem x v) ∧ ∀ n, M ≤ n → ∀ stop, ∃ c',
      SoloRun f t c ((beginAt fuel k).bind fun it => scanLoop n fuel sat stop (some it)) c' (some ((pick sat stop l).map Prod.snd)) := by
  rcases C46_scanFrom_ends h hf hfu t k with h1 | ⟨M, c1, l, h1, _, _, h4, h5, h6⟩
  · exact Or.inl h1
  · refine Or.inr ⟨M, l, h4, h5, h6, fun n hn stop => ?_⟩
    obtain ⟨c2, it, g1, g2⟩ := bind_inv (p := beginAt fuel k) (g := fun it => scan n fuel (some it)) (h1 n hn) rfl
    obtain ⟨c3, g3⟩ := loop_run (sat := sat) (stop := stop) n g2
    exact ⟨c3, g1.bind rfl g3⟩

/-- A scan of a condition with `=` on the leading column, into pointers, when calls do not overlap: it ends, leaves the contents as they are, and
returns exactly the values of the pairs whose key satisfies the condition, in key order. Asked of the condition: no matching key is below the lower
bound, and if all constraints are equalities the matching keys from the lower bound on come first. The other case is that reading on from the lower
bound uses up the mapping table. -/
theorem C51_scan_partial (h : SeqReach c) (hf : Ample f) (hfu : TABLE_SIZE < fuel) (t : Tid) {q : Cond K} (hl : q.leading = true) (hb : Bounded q)
    (hp : q.allEqual = true → Prefixed q) :
    (∃ M, ∀ n, M ≤ n → TableFull f t c (scanFrom n fuel q.start : IProg K V (List (K × V)))) ∨
    ∃ M r, Answer (Stored c.mem) (fun x => q.sat x = true) r ∧ ∀ n, M ≤ n → ∃ c', SoloRun f t c (scanPointers n fuel q) c' (some r) ∧
      SeqReach c' ∧ Stored c'.mem = Stored c.mem := by
  rcases loop_from h hf hfu t q.start q.sat with h1 | ⟨M, l, h1, h2, h3, h4⟩
  · exact Or.inl h1
  · refine Or.inr ⟨M, (pick q.sat q.allEqual l).map Prod.snd, ?_, fun n hn => ?_⟩
    · have e : pick q.sat q.allEqual l = l.filter fun x => q.sat x.1 := by
        unfold pick
        by_cases ha : q.allEqual = true
        · rw [if_pos ha]
          exact takeWhile_mem h1 fun x hx y _ => hp ha x.1 y.1 ((h3 x.1 x.2).mp hx).1
        · rw [if_neg ha]
      rw [e]
      exact (filter_answer h1 h2 h3).congr fun x => ⟨fun h => h.2, fun h => ⟨hb x h, h⟩⟩
    · obtain ⟨c', g⟩ := h4 n hn q.allEqual
      have g' : SoloRun f t c (scanPointers n fuel q) c' (some ((pick q.sat q.allEqual l).map Prod.snd)) := by
        unfold scanPointers
        rw [if_pos hl]
        exact g
      obtain ⟨r1, r2, _⟩ := g'.right hf h
      exact ⟨c', g', r1, r2⟩

theorem begin_ub {sat : K → Bool} {stop : Bool} {pg : Page K V} (h1 : pg.items = []) (h2 : pg.high.2 ≠ INVALID) (n : Nat) :
    scanLoop (n + 1) fuel sat stop (some (⟨pg, 0⟩ : It K V)) = .ub := by
  have hne : ¬ isEnd (some (⟨pg, 0⟩ : It K V)) = true := by
    simp only [isEnd, decide_eq_true_eq]
    exact fun h => h2 h.1
  show (if isEnd (some (⟨pg, 0⟩ : It K V)) then _ else (deref (some (⟨pg, 0⟩ : It K V))).bind _) = _
  rw [if_neg hne]
  simp only [deref, It.item, h1]
  rfl

theorem scanAllKeys_loop : ∀ (n : Nat) (o : Option (It K V)), scanAllKeys.loop n fuel o = scanLoop n fuel (fun _ => true) false o := by
  intro n
  induction n with
  | zero => intro o; rfl
  | succ n ih =>
    intro o
    unfold scanAllKeys.loop scanLoop
    congr 1
    refine congrArg (IProg.bind (deref o)) (funext fun x => ?_)
    rw [if_pos rfl]
    refine congrArg (IProg.bind (postNext fuel o)) (funext fun r => ?_)
    rw [ih]

/-- A scan without `=` on the leading column starts at the first pair of the tree. It returns exactly the values of the pairs whose key satisfies the
condition; but if the leftmost leaf is empty and not the only one, its behaviour is undefined. -/
theorem C51_scan_begin_partial (h : SeqReach c) (hf : Ample f) (hfu : TABLE_SIZE < fuel) (t : Tid) {q : Cond K} (hl : q.leading = false) :
    (∃ M, ∀ n, M ≤ n → TableFull f t c (scanAll n fuel : IProg K V (List (K × V)))) ∨
    (∃ c' pg, (∀ n, 1 ≤ n → SoloRun f t c (scanPointers n fuel q : IProg K V (List V)) c' none) ∧
      SoloRun f t c (begin : IProg K V (It K V)) c' (some ⟨pg, 0⟩) ∧ pg.items = [] ∧ pg.high.2 ≠ INVALID) ∨
    ∃ M r, Answer (Stored c.mem) (fun x => q.sat x = true) r ∧ ∀ n, M ≤ n → ∃ c', SoloRun f t c (scanPointers n fuel q) c' (some r) ∧
      SeqReach c' ∧ Stored c'.mem = Stored c.mem := by
  have hsp : ∀ n, (scanPointers n fuel q : IProg K V (List V)) = begin.bind fun it => scanLoop n fuel q.sat false (some it) := by
    intro n
    unfold scanPointers
    rw [if_neg (by rw [hl]; exact Bool.false_ne_true)]
    rfl
  rcases C46_scanAll_ends_partial h hf hfu t with h1 | ⟨c', pg, _, h2, h3, h4⟩ | ⟨M, c1, l, h1, _, _, h4, h5, h6⟩
  · exact Or.inl h1
  · refine Or.inr (Or.inl ⟨c', pg, fun n hn => ?_, h2, h3, h4⟩)
    obtain ⟨n, rfl⟩ : ∃ n', n = n' + 1 := ⟨n - 1, by omega⟩
    rw [hsp]
    refine h2.bind rfl ?_
    rw [begin_ub h3 h4]
    exact .ub _
  · refine Or.inr (Or.inr ⟨M, (l.filter fun x => q.sat x.1).map Prod.snd, ?_, fun n hn => ?_⟩)
    · exact (filter_answer (P := fun _ => True) h4 h5 fun x v => by rw [h6, true_and]).congr fun x => ⟨fun h => h.2, fun h => ⟨trivial, h⟩⟩
    · obtain ⟨c2, it, g1, g2⟩ := bind_inv (p := begin) (g := fun it => scan n fuel (some it)) (h1 n hn) rfl
      obtain ⟨c3, g3⟩ := loop_run (sat := q.sat) (stop := false) n g2
      have g : SoloRun f t c (scanPointers n fuel q) c3 (some ((l.filter fun x => q.sat x.1).map Prod.snd)) := by
        rw [hsp]
        exact g1.bind rfl g3
      obtain ⟨r1, r2, _⟩ := g.right hf h
      exact ⟨c3, g, r1, r2⟩

theorem scanAllKeys_eq (n : Nat) : (scanAllKeys n fuel : IProg K V (List V)) = scanPointers n fuel (⟨false, default, false, fun _ => true⟩ : Cond K) := by
  unfold scanAllKeys scanPointers
  rw [if_neg Bool.false_ne_true]
  exact congrArg (IProg.bind begin) (funext fun it => scanAllKeys_loop n _)

/-- `ScanAllKeys`: the values of all pairs, with the same exception. -/
theorem C51_scan_all_keys_partial (h : SeqReach c) (hf : Ample f) (hfu : TABLE_SIZE < fuel) (t : Tid) :
    (∃ M, ∀ n, M ≤ n → TableFull f t c (scanAll n fuel : IProg K V (List (K × V)))) ∨
    (∃ c' pg, (∀ n, 1 ≤ n → SoloRun f t c (scanAllKeys n fuel : IProg K V (List V)) c' none) ∧
      SoloRun f t c (begin : IProg K V (It K V)) c' (some ⟨pg, 0⟩) ∧ pg.items = [] ∧ pg.high.2 ≠ INVALID) ∨
    ∃ M r, Answer (Stored c.mem) (fun _ => True) r ∧ ∀ n, M ≤ n → ∃ c', SoloRun f t c (scanAllKeys n fuel) c' (some r) ∧
      SeqReach c' ∧ Stored c'.mem = Stored c.mem := by
  simp only [scanAllKeys_eq]
  rcases C51_scan_begin_partial h hf hfu t (q := (⟨false, default, false, fun _ => true⟩ : Cond K)) rfl with h1 | h1 | ⟨M, r, h1, h2⟩
  · exact Or.inl h1
  · exact Or.inr (Or.inl h1)
  · exact Or.inr (Or.inr ⟨M, r, h1.congr fun x => ⟨fun _ => trivial, fun _ => rfl⟩, h2⟩)

/-- `Scan` into objects, with `=` on the leading column. Where it does not look up a single key it is exact. It looks up a single key only if all
constraints are equalities; then `C51_scan_point_partial` applies. -/
theorem C51_scan_objects_partial (h : SeqReach c) (hf : Ample f) (hfu : TABLE_SIZE < fuel) (t : Tid) {q : Cond K} (hl : q.leading = true) (hb : Bounded q) :
    (q.allEqual = true ∧ ∀ n, (scanObjects n fuel q : Option (IProg K V (List V))) = none) ∨
    (∃ M, ∀ n, M ≤ n → TableFull f t c (scanFrom n fuel q.start : IProg K V (List (K × V)))) ∨
    ∃ M r, Answer (Stored c.mem) (fun x => q.sat x = true) r ∧ ∀ n, M ≤ n → ∃ p c', scanObjects n fuel q = some p ∧ SoloRun f t c p c' (some r) ∧
      SeqReach c' ∧ Stored c'.mem = Stored c.mem := by
  by_cases ha : q.allEqual = true
  · refine Or.inl ⟨ha, fun n => ?_⟩
    unfold scanObjects
    rw [hl, ha]
    rfl
  · rcases C51_scan_partial h hf hfu t hl hb (fun e => absurd e ha) with h1 | ⟨M, r, h1, h2⟩
    · exact Or.inr (Or.inl h1)
    · refine Or.inr (Or.inr ⟨M, r, h1, fun n hn => ?_⟩)
      obtain ⟨c', h3⟩ := h2 n hn
      refine ⟨_, c', ?_, h3⟩
      unfold scanObjects
      rw [if_neg (by rw [hl, Bool.true_and]; exact ha)]

/-- The early exit of `Scan` into objects, one `GetValue` of the lower bound, returns the values stored under the lower bound and nothing else. So it
returns the values of the pairs that satisfy the condition if the lower bound is the only matching key. -/
theorem C51_scan_point_partial (h : SeqReach c) (hf : Ample f) {q : Cond K} {m : Mem K V} {r : List V} {leaf : LeafChain K V}
    (hs : Steps c.mem (prog f (.api (.get q.start))) m (.ret (.values r leaf))) :
    r.Nodup ∧ (∀ v, v ∈ r ↔ Stored c.mem q.start v) ∧ (Pointed q → ∀ v, v ∈ r ↔ ∃ x, q.sat x = true ∧ Stored c.mem x v) := by
  have h1 := C42_exact h hf rfl hs
  refine ⟨h1.1, h1.2.1, fun hp v => ?_⟩
  rw [h1.2.1]
  exact ⟨fun h => ⟨_, (hp _).mpr rfl, h⟩, fun ⟨x, hx, h⟩ => by rw [(hp x).mp hx] at h; exact h⟩

/-- The scan of mvcc-dev-scale, when not all constraints are equalities, returns the matching pairs from the unset key on: for any value that key has,
it misses the matching pairs below it. -/
theorem C51_mvcc_scan_partial (h : SeqReach c) (hf : Ample f) (hfu : TABLE_SIZE < fuel) (t : Tid) (junk : K) (q : Cond K) :
    (∃ M, ∀ n, M ≤ n → TableFull f t c (scanFrom n fuel junk : IProg K V (List (K × V)))) ∨
    ∃ M r, Answer (Stored c.mem) (fun x => junk ≤ x ∧ q.sat x = true) r ∧ ∀ n, M ≤ n → ∃ c', SoloRun f t c (scanMvcc n fuel junk q) c' (some r) ∧
      SeqReach c' ∧ Stored c'.mem = Stored c.mem := by
  rcases loop_from h hf hfu t junk q.sat with h1 | ⟨M, l, h1, h2, h3, h4⟩
  · exact Or.inl h1
  · refine Or.inr ⟨M, (l.filter fun x => q.sat x.1).map Prod.snd, filter_answer h1 h2 h3, fun n hn => ?_⟩
    obtain ⟨c', g⟩ := h4 n hn false
    have g' : SoloRun f t c (scanMvcc n fuel junk q) c' (some ((l.filter fun x => q.sat x.1).map Prod.snd)) := g
    obtain ⟨r1, r2, _⟩ := g'.right hf h
    exact ⟨c', g', r1, r2⟩

/-! ### While other calls run -/

section Concurrent

variable {A : Query K → Page K V → Nat → Nat → Prop} {S : Nat → Spec.PairSet K V}

theorem pick_pos {sat : K → Bool} {stop : Bool} {x : K × V} {l : List (K × V)} (h : sat x.1 = true) :
    pick sat stop (x :: l) = x :: pick sat stop l := by
  unfold pick
  cases stop <;> simp [h]

theorem loop_spec (hA : Answers A S) {n : Nat} {sat : K → Bool} {stop : Bool} {it : It K V} {a b : Nat} {out : Option (List V)}
    (H : ∀ k, ∃ rest, Fwd S (some k) rest b b) (hv : Valid S it a) (h : Run A a (scanLoop n fuel sat stop (some it)) b out) :
    ∃ rest, out = some ((pick sat stop (it.page.items.drop it.pos.toNat ++ rest)).map Prod.snd) ∧ Tail S it.page rest a b := by
  induction n generalizing it a out with
  | zero => cases h
  | succ n ih =>
    by_cases he : isEnd (some it) = true
    · rw [loop_end he] at h
      cases h
      simp only [isEnd, decide_eq_true_eq] at he
      refine ⟨[], ?_, fun _ => rfl, fun hn => absurd he.1 hn⟩
      rw [List.drop_eq_nil_of_le (by omega)]
      cases stop <;> rfl
    · have hef : isEnd (some it) = false := by simpa using he
      have hlt : it.pos < it.page.items.length := hv.val.resolve_right he
      obtain ⟨x, hx, hdrop⟩ := item_valid hv.pos hlt
      rw [loop_cons he hx] at h
      have key : ∀ {it' : It K V} {b1 : Nat} {rest : List (K × V)}, b1 ≤ b → a ≤ b1 → Tail S it'.page rest b1 b →
          ((it'.page = it.page ∧ it'.pos = it.pos + 1) ∨
           (it.pos + 1 = it.page.items.length ∧ it.page.high.2 ≠ INVALID ∧ ∀ rest c, b1 ≤ c → Tail S it'.page rest b1 c →
              Fwd S (some it.page.high.1) (it'.page.items.drop it'.pos.toNat ++ rest) a c)) →
          ∃ rest', it.page.items.drop it.pos.toNat ++ rest' = x :: (it'.page.items.drop it'.pos.toNat ++ rest) ∧ Tail S it.page rest' a b := by
        intro it' b1 rest hle hab ht hcase
        rcases hcase with ⟨e1, e2⟩ | ⟨e1, e2, e3⟩
        · refine ⟨rest, ?_, ?_⟩
          · rw [hdrop, e1, e2]; rfl
          · rw [e1] at ht
            refine ⟨ht.1, fun hn => ?_⟩
            obtain ⟨f1, f2, τ, f3, f4, f5⟩ := ht.2 hn
            exact ⟨f1, f2, τ, fun x => ⟨by have := (f3 x).1; omega, (f3 x).2⟩, f4, f5⟩
        · refine ⟨it'.page.items.drop it'.pos.toNat ++ rest, ?_, fun e => absurd e e2, fun _ => e3 rest _ hle ht⟩
          rw [hdrop, List.drop_eq_nil_of_le (as := it.page.items) (by omega)]
          rfl
      by_cases hs : sat x.1 = true
      · rw [if_pos hs] at h
        obtain ⟨b1, o1, r1, _, r3⟩ := run_bind h
        obtain ⟨it', rfl, v', hab, hcase⟩ := moveAhead_spec hA hv hef r1
        obtain ⟨b2, o2, t1, t2, t3⟩ := run_bind (r3 _ rfl)
        have eb : b2 = b := by
          cases o2 with
          | none => exact (t2 rfl).2.symm
          | some xs => have := t3 xs rfl; cases this; rfl
        subst eb
        obtain ⟨rest, rfl, ht⟩ := ih v' t1
        have t3 := t3 _ rfl
        cases t3
        obtain ⟨rest', e, g⟩ := key (run_le hA t1) hab ht hcase
        exact ⟨rest', by rw [e, pick_pos hs]; rfl, g⟩
      · rw [if_neg hs] at h
        cases stop with
        | true =>
          cases h
          have e : ∀ rest, (pick sat true (it.page.items.drop it.pos.toNat ++ rest)).map Prod.snd = [] := by
            intro rest
            rw [hdrop]
            unfold pick
            simp [hs]
          by_cases hi : it.page.high.2 = INVALID
          · exact ⟨[], by rw [e], fun _ => rfl, fun hn => absurd hi hn⟩
          · obtain ⟨rest, hr⟩ := H it.page.high.1
            exact ⟨rest, by rw [e], fun hn => absurd hn hi, fun _ => hr⟩
        | false =>
          obtain ⟨b1, o1, r1, _, r3⟩ := run_bind h
          obtain ⟨it', rfl, v', hab, hcase⟩ := moveAhead_spec hA hv hef r1
          have r3 := r3 _ rfl
          obtain ⟨rest, rfl, ht⟩ := ih v' r3
          obtain ⟨rest', e, g⟩ := key (run_le hA r3) hab ht hcase
          refine ⟨rest', ?_, g⟩
          rw [e]
          unfold pick
          simp [hs]

theorem has_list : ∀ c : LeafChain K V, ∃ l : List (K × V), ∀ k v, c.Has k v → (k, v) ∈ l
  | .base _ _ items => ⟨items, fun _ _ h => h⟩
  | .ins k' v' _ _ c => by
    obtain ⟨l, h⟩ := has_list c
    refine ⟨(k', v') :: l, fun k v hk => ?_⟩
    rcases hk with ⟨rfl, rfl⟩ | hk
    · exact List.mem_cons_self
    · exact List.mem_cons_of_mem _ (h k v hk)
  | .del _ _ _ _ c => by
    obtain ⟨l, h⟩ := has_list c
    exact ⟨l, fun k v hk => h k v hk.2⟩
  | .split _ _ _ c => by
    obtain ⟨l, h⟩ := has_list c
    exact ⟨l, fun k v hk => h k v hk.2⟩
  | .merge mk _ r c => by
    obtain ⟨l, h⟩ := has_list c
    obtain ⟨l', h'⟩ := has_list r
    refine ⟨l ++ l', fun k v hk => ?_⟩
    unfold LeafChain.Has at hk
    split at hk
    · exact List.mem_append_right _ (h' k v hk)
    · exact List.mem_append_left _ (h k v hk)
  | .remove _ c => by
    obtain ⟨l, h⟩ := has_list c
    exact ⟨l, fun k v hk => h k v hk⟩

theorem nodes_list (m : Mem K V) : ∀ N : Nat, ∃ l : List (K × V), ∀ (id : Nat) c k v, id < N → m.node id = some (.leaf c) → c.Has k v → (k, v) ∈ l
  | 0 => ⟨[], fun id _ _ _ h => absurd h (Nat.not_lt_zero id)⟩
  | N + 1 => by
    obtain ⟨l, h⟩ := nodes_list m N
    have : ∃ l' : List (K × V), ∀ c k v, m.node N = some (.leaf c) → c.Has k v → (k, v) ∈ l' := by
      cases hn : m.node N with
      | none => exact ⟨[], fun c k v e => by cases e⟩
      | some nd =>
        cases nd with
        | leaf c =>
          obtain ⟨l', h'⟩ := has_list c
          exact ⟨l', fun c' k v e hk => by cases e; exact h' k v hk⟩
        | inner c => exact ⟨[], fun c k v e => by cases e⟩
    obtain ⟨l', h'⟩ := this
    refine ⟨l ++ l', fun id c k v hid hn hk => ?_⟩
    by_cases e : id = N
    · subst e
      exact List.mem_append_right _ (h' c k v hn hk)
    · exact List.mem_append_left _ (h id c k v (by omega) hn hk)

open Classical in
/-- The pairs stored in a tree that calls have led to, as a list in key order. -/
theorem stored_list (h : Reach c) : ∃ l : List (K × V), Ascending l ∧ l.Nodup ∧ ∀ x v, (x, v) ∈ l ↔ Stored c.mem x v := by
  obtain ⟨w, hw⟩ := good_of_reach h
  obtain ⟨l, hl⟩ := nodes_list c.mem c.mem.nextId
  have hin : ∀ x v, Stored c.mem x v → (x, v) ∈ l := by
    rintro x v ⟨id, lc, h1, h2⟩
    have h1' := h1
    rw [← hw.mem] at h1'
    obtain ⟨⟨⟨lk, g1⟩, _⟩, _⟩ := (onPath_iff hw.inv).mp h1'
    have hlt := (hw.inv.ids _ _ g1).2.2
    rw [hw.mem] at hlt
    refine hl id lc x v hlt ?_ h2
    cases h1 with
    | first h => exact h
    | next _ _ h => exact h
  let l1 := (l.dedup.filter fun x => decide (Stored c.mem x.1 x.2))
  refine ⟨l1.mergeSort (fun a b => decide (a.1 ≤ b.1)), ?_, ?_, fun x v => ?_⟩
  · have := List.pairwise_mergeSort (le := fun a b : K × V => decide (a.1 ≤ b.1))
      (fun a b c h1 h2 => by simp only [decide_eq_true_eq] at *; exact le_trans h1 h2)
      (fun a b => by simp only [Bool.or_eq_true, decide_eq_true_eq]; exact le_total _ _) l1
    exact this.imp fun h => by simpa using h
  · exact (List.mergeSort_perm l1 _).nodup_iff.mpr ((List.nodup_dedup l).filter _)
  · rw [(List.mergeSort_perm l1 _).mem_iff]
    show (x, v) ∈ l.dedup.filter _ ↔ _
    rw [List.mem_filter, List.mem_dedup, decide_eq_true_eq]
    exact ⟨fun h => h.2, fun h => ⟨hin x v h, h⟩⟩

theorem exec_reach {σ : Nat → Conf K V} {n : Nat} (h : Exec σ n) : ∀ i, i ≤ n → Reach (σ i)
  | 0, _ => h.start
  | i + 1, hi => .step (exec_reach h i (by omega)) (h.step i (by omega))

theorem rest_exists {σ : Nat → Conf K V} {n b : Nat} (h : Exec σ n) (hb : b ≤ n) (k : K) : ∃ rest, Fwd (At σ) (some k) rest b b := by
  obtain ⟨l, h1, h2, h3⟩ := stored_list (exec_reach h b hb)
  refine ⟨l.filter fun x => decide (k ≤ x.1), h1.sublist List.filter_sublist, h2.sublist List.filter_sublist, fun _ => b,
    fun _ => ⟨Nat.le_refl b, Nat.le_refl b⟩, fun _ _ _ => Nat.le_refl b, fun x v => ?_⟩
  rw [List.mem_filter, h3, decide_eq_true_eq]
  exact ⟨fun h => ⟨fun k' e => by cases e; exact h.2, h.1⟩, fun h => ⟨h.2, h.1 k rfl⟩⟩

/-- A scan of a condition with `=` on the leading column, while any other calls run on the tree: its behaviour is never undefined, and if it ends it
returns, in key order, the values of the pairs whose key satisfies the condition, every key being looked up at one instant during the scan. -/
theorem C51_scan_concurrent {σ : Nat → Conf K V} {n m a b : Nat} {t : Tid} (h : Exec σ n) (hb : b ≤ n) {q : Cond K} (hl : q.leading = true)
    (hbd : Bounded q) (hp : q.allEqual = true → Prefixed q) {out : Option (List V)} (hr : Run (Asked σ n t) a (scanPointers m fuel q) b out) :
    ∃ l : List (K × V), out = some (l.map Prod.snd) ∧ Ascending l ∧ l.Nodup ∧ Sweep (At σ) (fun x => q.sat x = true) l a b := by
  unfold scanPointers at hr
  rw [if_pos hl] at hr
  obtain ⟨b1, o1, r1, _, r3⟩ := run_bind (p := beginAt fuel q.start) (f := fun it => scanLoop m fuel q.sat q.allEqual (some it)) hr
  obtain ⟨it, rfl, hv, hab, hf⟩ := lowerBoundIt_spec (answers h) r1
  have r3 := r3 _ rfl
  obtain ⟨rest, rfl, ht⟩ := loop_spec (answers h) (rest_exists h hb) hv r3
  obtain ⟨g1, g2, τ, g3, g4, g5⟩ := hf rest b (run_le (answers h) r3) ht
  generalize it.page.items.drop it.pos.toNat ++ rest = l at g1 g2 g5
  have e : pick q.sat q.allEqual l = l.filter fun x => q.sat x.1 := by
    unfold pick
    by_cases ha : q.allEqual = true
    · rw [if_pos ha]
      exact takeWhile_mem g1 fun x hx y _ => hp ha x.1 y.1 (((g5 x.1 x.2).mp hx).1 _ rfl)
    · rw [if_neg ha]
  refine ⟨_, rfl, ?_, ?_, τ, g3, g4, fun x v => ?_⟩
  · rw [e]; exact g1.sublist List.filter_sublist
  · rw [e]; exact g2.sublist List.filter_sublist
  · rw [e, List.mem_filter, g5]
    exact ⟨fun h => ⟨h.2, h.1.2⟩, fun h => ⟨⟨fun k e => by cases e; exact hbd x h.1, h.2⟩, h.1⟩⟩

/-- The same for a scan without `=` on the leading column. Its behaviour is undefined only if `Begin()` read an empty leftmost leaf that has a right
sibling. -/
theorem C51_scan_begin_concurrent_partial {σ : Nat → Conf K V} {n m a b : Nat} {t : Tid} (h : Exec σ n) (hb : b ≤ n) {q : Cond K}
    (hl : q.leading = false) {out : Option (List V)} (hr : Run (Asked σ n t) a (scanPointers m fuel q) b out) :
    (∃ l : List (K × V), out = some (l.map Prod.snd) ∧ Ascending l ∧ l.Nodup ∧ Sweep (At σ) (fun x => q.sat x = true) l a b) ∨
    (out = none ∧ ∃ pg a' b', a ≤ a' ∧ b' ≤ b ∧ Asked σ n t .first pg a' b' ∧ pg.items = [] ∧ pg.high.2 ≠ INVALID) := by
  unfold scanPointers at hr
  rw [if_neg (by rw [hl]; exact Bool.false_ne_true)] at hr
  obtain ⟨b1, o1, r1, _, r3⟩ := run_bind (p := begin) (f := fun it => scanLoop m fuel q.sat false (some it)) hr
  cases r1 with
  | ask h1 h2 h3 =>
    rename_i a' b' pg
    obtain ⟨i, g1, g2, g3, g4⟩ := answers h _ _ _ _ h2
    cases h3
    have r3 := r3 _ rfl
    have hle := run_le (answers h) r3
    by_cases hv : pg.items = [] ∧ pg.high.2 ≠ INVALID
    · refine Or.inr ⟨?_, pg, a', _, h1, hle, h2, hv⟩
      cases m with
      | zero => cases r3
      | succ m =>
        rw [begin_ub hv.1 hv.2] at r3
        cases r3
        rfl
    · left
      have hval : Valid (At σ) (⟨pg, 0⟩ : It K V) b1 := by
        refine ⟨Int.le_refl 0, Int.natCast_nonneg _, ?_, i, g2, g4⟩
        by_cases hi : pg.items = []
        · right
          have : pg.high.2 = INVALID := by
            by_cases h : pg.high.2 = INVALID
            · exact h
            · exact absurd ⟨hi, h⟩ hv
          simp [isEnd, hi, this]
        · left
          exact Int.ofNat_lt.mpr (List.length_pos_iff.mpr hi)
      obtain ⟨rest, rfl, ht⟩ := loop_spec (answers h) (rest_exists h hb) hval r3
      obtain ⟨f1, f2, τ, f3, f4, f5⟩ : Fwd (At σ) none (pg.items.drop 0 ++ rest) a b :=
        Fwd.glue (p := 0) g4 (fun x _ => Or.inl g3) (fun k e => by cases e) (fun x hx => by simp at hx) (fun x _ k e => by cases e)
          (show a ≤ i by omega) g2 hle ht
      refine ⟨_, rfl, f1.sublist List.filter_sublist, f2.sublist List.filter_sublist, τ, f3, f4, fun x v => ?_⟩
      show (x, v) ∈ (pg.items.drop 0 ++ rest).filter _ ↔ _
      rw [List.mem_filter, f5]
      exact ⟨fun h => ⟨h.2, h.1.2⟩, fun h => ⟨⟨fun k e => (by cases e), h.2⟩, h.1⟩⟩

/-- `ScanAllKeys` while other calls run. -/
theorem C51_scan_all_keys_concurrent_partial {σ : Nat → Conf K V} {n m a b : Nat} {t : Tid} (h : Exec σ n) (hb : b ≤ n) {out : Option (List V)}
    (hr : Run (Asked σ n t) a (scanAllKeys m fuel) b out) :
    (∃ l : List (K × V), out = some (l.map Prod.snd) ∧ Ascending l ∧ l.Nodup ∧ Sweep (At σ) (fun _ => True) l a b) ∨
    (out = none ∧ ∃ pg a' b', a ≤ a' ∧ b' ≤ b ∧ Asked σ n t .first pg a' b' ∧ pg.items = [] ∧ pg.high.2 ≠ INVALID) := by
  rw [scanAllKeys_eq] at hr
  rcases C51_scan_begin_concurrent_partial h hb rfl hr with ⟨l, h1, h2, h3, τ, h4, h5, h6⟩ | h1
  · exact Or.inl ⟨l, h1, h2, h3, τ, h4, h5, fun x v => by rw [h6]; exact ⟨fun g => ⟨trivial, g.2⟩, fun g => ⟨rfl, g.2⟩⟩⟩
  · exact Or.inr h1

end Concurrent

/-! ### Cases -/

/-- The values GetValue(k) returns, and the result of the program `p`, both on the tree `c`. -/
def look (c : Conf Nat Nat) (k : Nat) (p : IProg Nat Nat (List Nat)) : Option (List Nat × Option (List Nat)) :=
  match runN 2000 c.mem (prog (3 * TABLE_SIZE + 1) (.api (.get k))) with
  | (_, .ret (.values l _)) => (runIt 0 p c).map fun r => (l, r.2)
  | _ => none

theorem look_spec {c : Conf Nat Nat} {k : Nat} {p : IProg Nat Nat (List Nat)} {vs : List Nat} {out : Option (List Nat)}
    (hr : SeqReach c) (h : look c k p = some (vs, out)) :
    (∀ v ∈ vs, Stored c.mem k v) ∧ (∃ c', SoloRun (3 * TABLE_SIZE + 1) 0 c p c' out) ∧
      ∃ m leaf, Steps c.mem (prog (3 * TABLE_SIZE + 1) (.api (.get k))) m (.ret (.values vs leaf)) := by
  unfold look at h
  have hs := runN_steps 2000 c.mem (prog (3 * TABLE_SIZE + 1) (.api (.get k)))
  split at h
  · rename_i m l leaf e
    rw [e] at hs
    cases hx : runIt 0 p c with
    | none => rw [hx] at h; cases h
    | some r =>
      rw [hx] at h
      obtain ⟨c', o⟩ := r
      injection h with h
      injection h with h1 h2
      subst h1 h2
      exact ⟨fun v hv => ((C42_exact hr (Nat.lt_succ_self _) rfl hs).2.1 v).mp hv, ⟨c', runIt_solo _ hx⟩, m, leaf, hs⟩
  · cases h

/-- Executes calls one after the other and looks at the tree they leave in two ways. -/
def probe (ops : List (Call Nat Nat)) (k k' : Nat) (p p' : IProg Nat Nat (List Nat)) :
    Option ((List Nat × Option (List Nat)) × (List Nat × Option (List Nat))) :=
  (seqRun 2000 initConf ops).bind fun c => (look c k p).bind fun r => (look c k' p').map fun r' => (r, r')

theorem probe_spec {ops : List (Call Nat Nat)} {k k' : Nat} {p p' : IProg Nat Nat (List Nat)} {r r' : List Nat × Option (List Nat)}
    (hop : ∀ op ∈ ops, op.forward = true) (h : probe ops k k' p p' = some (r, r')) :
    ∃ c : Conf Nat Nat, SeqReach c ∧ look c k p = some r ∧ look c k' p' = some r' := by
  unfold probe at h
  cases hc : seqRun 2000 initConf ops with
  | none => rw [hc] at h; cases h
  | some c =>
    rw [hc] at h
    simp only [Option.bind_some] at h
    cases h1 : look c k p with
    | none => rw [h1] at h; cases h
    | some r1 =>
      rw [h1] at h
      simp only [Option.bind_some] at h
      cases h2 : look c k' p' with
      | none => rw [h2] at h; cases h
      | some r2 =>
        rw [h2] at h
        injection h with h
        injection h with e1 e2
        subst e1 e2
        exact ⟨c, seqRun_reach .init hop hc, h1, h2⟩

/-- Keys of two decimal columns: `tens = 5`. -/
def tens5 : Cond Nat := ⟨true, 50, true, fun k => k / 10 == 5⟩

/-- Keys of three decimal columns: `hundreds = 1 AND ones = 3`, no constraint on the tens. -/
def gap13 : Cond Nat := ⟨true, 103, true, fun k => k / 100 == 1 && k % 10 == 3⟩

/-- `key < 100`. -/
def below100 : Cond Nat := ⟨false, 0, false, fun k => decide (k < 100)⟩

def pairs (l : List Nat) : List (Call Nat Nat) := l.map fun i => .api (.insert i (i + 1000))

theorem pairs_forward {l : List Nat} : ∀ op ∈ pairs l, op.forward = true := by
  intro op h
  obtain ⟨_, _, rfl⟩ := List.mem_map.mp h
  rfl

theorem tens5_ok : Bounded tens5 ∧ Prefixed tens5 := by
  refine ⟨fun x h => ?_, fun x y h1 h2 h => ?_⟩
  · simp only [tens5, beq_iff_eq] at h ⊢
    omega
  · simp only [tens5, beq_iff_eq] at h h1 ⊢
    omega

/-- The hypotheses of `C51_scan_partial` and `C51_mvcc_scan_partial` are met: a condition on a leading column, on a tree that holds matching and
other keys. -/
example : tens5.leading = true ∧ Bounded tens5 ∧ (tens5.allEqual = true → Prefixed tens5) ∧
    ∃ c c' : Conf Nat Nat, SeqReach c ∧ Ample (3 * TABLE_SIZE + 1) ∧ Stored c.mem 57 1057 ∧ Stored c.mem 60 1060 ∧
      SoloRun (3 * TABLE_SIZE + 1) 0 c (scanPointers 9 (TABLE_SIZE + 1) tens5) c' (some [1051, 1057]) := by
  refine ⟨rfl, tens5_ok.1, fun _ => tens5_ok.2, ?_⟩
  obtain ⟨c, h, h1, h2⟩ := probe_spec (ops := pairs [57, 13, 51, 60]) (k := 57) (k' := 60) (p := scanPointers 9 (TABLE_SIZE + 1) tens5) (p' := .ub)
    pairs_forward (r := ([1057], some [1051, 1057])) (r' := ([1060], none)) (by decide +kernel)
  obtain ⟨g1, ⟨c', g2⟩, _⟩ := look_spec h h1
  exact ⟨c, c', h, Nat.lt_succ_self _, g1 _ List.mem_cons_self, (look_spec h h2).1 _ List.mem_cons_self, g2⟩

/-- The hypotheses of `C51_scan_begin_partial` and `C51_scan_all_keys_partial` are met, with the third outcome: a tree of several leaves. -/
example : below100.leading = false ∧ ∃ c c1 c2 : Conf Nat Nat, SeqReach c ∧ Stored c.mem 150 150 ∧
    SoloRun (3 * TABLE_SIZE + 1) 0 c (scanPointers 1000 (TABLE_SIZE + 1) below100) c1 (some (List.range 100)) ∧
    SoloRun (3 * TABLE_SIZE + 1) 0 c (scanAllKeys 1000 (TABLE_SIZE + 1)) c2 (some (List.range 200)) := by
  obtain ⟨c, h, h1, h2⟩ := probe_spec (ops := insDel 200 0 0) (k := 150) (k' := 150) (p := scanPointers 1000 (TABLE_SIZE + 1) below100)
    (p' := scanAllKeys 1000 (TABLE_SIZE + 1)) insDel_forward (r := ([150], some (List.range 100))) (r' := ([150], some (List.range 200)))
    (by decide +kernel)
  obtain ⟨g1, ⟨c1, g2⟩, _⟩ := look_spec h h1
  obtain ⟨_, ⟨c2, g3⟩, _⟩ := look_spec h h2
  exact ⟨rfl, c, c1, c2, h, g1 _ List.mem_cons_self, g2, g3⟩

/-- The hypotheses of `C51_scan_concurrent` and `C51_scan_begin_concurrent_partial` are met by executions. -/
example : (∃ (σ : Nat → Conf Nat Nat) (n : Nat), Exec σ n ∧
      Run (Asked σ n 1) 0 (scanPointers 200 50 tens5) n (some ((List.range 10).map (50 + ·)))) ∧
    ∃ (σ : Nat → Conf Nat Nat) (n : Nat), Exec σ n ∧ Run (Asked σ n 1) 0 (scanPointers 200 50 below100) n (some (List.range 100)) := by
  obtain ⟨σ, n, h1, _, _, h3⟩ := exists_run_of (p := scanPointers 200 50 tens5) (c := twoLeaves) (reach_exec _) twoLeaves_idle
    (out := some ((List.range 10).map (50 + ·))) (by decide +kernel)
  obtain ⟨σ', n', g1, _, _, g3⟩ := exists_run_of (p := scanPointers 200 50 below100) (c := twoLeaves) (reach_exec _) twoLeaves_idle
    (out := some (List.range 100)) (by decide +kernel)
  exact ⟨⟨σ, n, h1, h3⟩, σ', n', g1, g3⟩

/-- Equalities on columns that are not the leading ones alone: the scan stops at the first key that does not match, and misses a stored pair that
does. The lower bound is one. -/
theorem C51_scan_stops_early : gap13.leading = true ∧ gap13.allEqual = true ∧ Bounded gap13 ∧
    ∃ c c' : Conf Nat Nat, SeqReach c ∧ gap13.sat 113 = true ∧ Stored c.mem 113 1113 ∧
      SoloRun (3 * TABLE_SIZE + 1) 0 c (scanPointers 9 (TABLE_SIZE + 1) gap13) c' (some []) := by
  refine ⟨rfl, rfl, fun x h => ?_, ?_⟩
  · simp only [gap13, Bool.and_eq_true, beq_iff_eq] at h ⊢
    omega
  · obtain ⟨c, h, h1, _⟩ := probe_spec (ops := pairs [113, 105]) (k := 113) (k' := 0) (p := scanPointers 9 (TABLE_SIZE + 1) gap13) (p' := .ub)
      pairs_forward (r := ([1113], some [])) (r' := ([], none)) (by decide +kernel)
    obtain ⟨g1, ⟨c', g2⟩, _⟩ := look_spec h h1
    exact ⟨c, c', h, rfl, g1 _ List.mem_cons_self, g2⟩

/-- An equality on the leading column only: the early exit looks up one key, and misses a stored pair that matches. The scan into pointers finds it. -/
theorem C51_point_misses : tens5.leading = true ∧ tens5.allEqual = true ∧ Bounded tens5 ∧ Prefixed tens5 ∧
    (scanObjects 9 (TABLE_SIZE + 1) tens5 : Option (IProg Nat Nat (List Nat))) = none ∧
    ∃ c c' : Conf Nat Nat, SeqReach c ∧ tens5.sat 57 = true ∧ Stored c.mem 57 1057 ∧
      (∃ m leaf, Steps c.mem (prog (3 * TABLE_SIZE + 1) (.api (.get tens5.start))) m (.ret (.values [] leaf))) ∧
      SoloRun (3 * TABLE_SIZE + 1) 0 c (scanPointers 9 (TABLE_SIZE + 1) tens5) c' (some [1057]) := by
  obtain ⟨c, h, h1, h2⟩ := probe_spec (ops := pairs [57]) (k := 57) (k' := 50) (p := scanPointers 9 (TABLE_SIZE + 1) tens5) (p' := .ub)
    pairs_forward (r := ([1057], some [1057])) (r' := ([], none)) (by decide +kernel)
  obtain ⟨g1, ⟨c', g2⟩, _⟩ := look_spec h h1
  exact ⟨rfl, rfl, tens5_ok.1, tens5_ok.2, rfl, c, c', h, rfl, g1 _ List.mem_cons_self, (look_spec h h2).2.2, g2⟩

/-- A scan that starts at a key that was never set misses a stored pair that matches. -/
theorem C51_mvcc_misses : ∃ (junk : Nat) (c c' : Conf Nat Nat), SeqReach c ∧ below100.sat 57 = true ∧ Stored c.mem 57 1057 ∧ Bounded below100 ∧
    SoloRun (3 * TABLE_SIZE + 1) 0 c (scanMvcc 9 (TABLE_SIZE + 1) junk below100) c' (some [1061]) := by
  obtain ⟨c, h, h1, _⟩ := probe_spec (ops := pairs [57, 61, 113]) (k := 57) (k' := 0) (p := scanMvcc 9 (TABLE_SIZE + 1) 60 below100) (p' := .ub)
    pairs_forward (r := ([1057], some [1061])) (r' := ([], none)) (by decide +kernel)
  obtain ⟨g1, ⟨c', g2⟩, _⟩ := look_spec h h1
  exact ⟨60, c, c', h, rfl, g1 _ List.mem_cons_self, fun x _ => Nat.zero_le x, g2⟩

/-- `ScanAllKeys`, and a scan without `=` on the leading column, on a tree whose leftmost leaf has become empty: undefined, though pairs are stored. -/
theorem C51_scan_undefined : ∃ c c1 c2 : Conf Nat Nat, SeqReach c ∧ Stored c.mem 64 64 ∧
    SoloRun (3 * TABLE_SIZE + 1) 0 c (scanAllKeys 1000 (TABLE_SIZE + 1)) c1 none ∧
    SoloRun (3 * TABLE_SIZE + 1) 0 c (scanPointers 1000 (TABLE_SIZE + 1) below100) c2 none := by
  obtain ⟨c, h, h1, h2⟩ := probe_spec (ops := insDel 129 0 64) (k := 64) (k' := 64) (p := scanAllKeys 1000 (TABLE_SIZE + 1))
    (p' := scanPointers 1000 (TABLE_SIZE + 1) below100) insDel_forward (r := ([64], none)) (r' := ([64], none)) (by decide +kernel)
  obtain ⟨g1, ⟨c1, g2⟩, _⟩ := look_spec h h1
  obtain ⟨_, ⟨c2, g3⟩, _⟩ := look_spec h h2
  exact ⟨c, c1, c2, h, g1 _ List.mem_cons_self, g2, g3⟩

end Peloton
end BwTree
