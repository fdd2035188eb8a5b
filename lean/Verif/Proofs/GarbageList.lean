import Verif.Spec.GarbageList
import Verif.Proofs.EpochGC

/-! The linked garbage lists represent the lists of `Model/EpochGC` (used by Props/GarbageList). -/

namespace BwTree
namespace GC
namespace Rec

theorem Seg.frame {heap heap' : Nat → Option Node} : ∀ {as : List Nat} {h : Option Nat} {gs : List (Nat × Nat)},
    (∀ a ∈ as, heap' a = heap a) → Seg heap h as gs → Seg heap' h as gs
  | [], none, [], _, _ => trivial
  | [], none, _ :: _, _, h => h.elim
  | [], some _, _, _, h => h.elim
  | _ :: _, none, _, _, h => h.elim
  | _ :: _, some _, [], _, h => h.elim
  | b :: as, some a, g :: gs, hf, ⟨hab, nx, hn, hs⟩ =>
    ⟨hab, nx, by rw [hab, hf b (by simp), ← hab]; exact hn, Seg.frame (fun x hx => hf x (List.mem_cons_of_mem _ hx)) hs⟩

theorem Seg.len {heap : Nat → Option Node} : ∀ {as : List Nat} {h : Option Nat} {gs : List (Nat × Nat)},
    Seg heap h as gs → as.length = gs.length
  | [], none, [], _ => rfl
  | [], none, _ :: _, h => h.elim
  | [], some _, _, h => h.elim
  | _ :: _, none, _, h => h.elim
  | _ :: _, some _, [], h => h.elim
  | b :: as, some a, g :: gs, ⟨_, nx, _, hs⟩ => by simp [Seg.len hs]

theorem Seg.nil {heap : Nat → Option Node} {h : Option Nat} {gs : List (Nat × Nat)} (hs : Seg heap h [] gs) : h = none ∧ gs = [] := by
  cases h with
  | none => cases gs with
    | nil => exact ⟨rfl, rfl⟩
    | cons _ _ => exact hs.elim
  | some a => exact hs.elim

theorem Seg.none_nil {heap : Nat → Option Node} {as : List Nat} {gs : List (Nat × Nat)} (hs : Seg heap none as gs) : as = [] ∧ gs = [] := by
  cases as with
  | nil => exact ⟨rfl, hs.nil.2⟩
  | cons b as => exact hs.elim

/-- The record that is linked to the end. -/
theorem Seg.snoc {heap : Nat → Option Node} {a o d : Nat} : ∀ {as : List Nat} {h : Option Nat} {gs : List (Nat × Nat)} {b : Nat},
    Seg heap h as gs → as.Nodup → a ∉ as → as.getLast? = some b →
    ∃ n, heap b = some n ∧
      Seg (upd (upd heap a (some ⟨d, o, none⟩)) b (some { n with next := some a })) h (as ++ [a]) (gs ++ [(o, d)])
  | [], _, _, _, _, _, _, hl => by simp at hl
  | _ :: _, none, _, _, h, _, _, _ => h.elim
  | _ :: _, some _, [], _, h, _, _, _ => h.elim
  | [c], some x, g :: gs, b, ⟨hxc, nx, hn, hs⟩, _, ha, hl => by
    simp only [List.getLast?_singleton, Option.some.injEq] at hl
    subst hl; subst hxc
    have hax : a ≠ x := fun e => ha (by simp [e])
    obtain ⟨hnx, hgs⟩ := hs.nil
    subst hnx; subst hgs
    refine ⟨_, hn, rfl, some a, by simp [upd], rfl, none, ?_, trivial⟩
    simp [upd, hax]
  | c :: c' :: as, some x, g :: gs, b, ⟨hxc, nx, hn, hs⟩, hd, ha, hl => by
    subst hxc
    have hd' := (List.nodup_cons.1 hd)
    have hl' : (c' :: as).getLast? = some b := by simpa [List.getLast?_cons_cons] using hl
    obtain ⟨n, hb, hs'⟩ := Seg.snoc hs hd'.2 (fun h => ha (List.mem_cons_of_mem _ h)) hl'
    have hbx : x ≠ b := by
      intro e
      subst e
      exact hd'.1 (List.mem_of_getLast? hl')
    have hax : x ≠ a := fun e => ha (by simp [e])
    refine ⟨n, hb, rfl, nx, ?_, hs'⟩
    simp only [upd, hbx, hax, if_false]
    exact hn

/-- The metadata array and the records represent the lists `garb`. `loose i`: `last_p` of thread `i` may be out of date while its list is
empty. -/
structure Lists (n : Nat) (arr : Option (List Slot)) (heap : Nat → Option Node) (lae : Nat → Nat) (garb : Nat → List (Nat × Nat))
    (loose : Nat → Prop) (l : List Slot) (A : Nat → List Nat) : Prop where
  arr : arr = some l
  len : l.length = n
  lae : ∀ i x, l[i]? = some x → x.lae = lae i
  cnt : ∀ i x, l[i]? = some x → x.count = (garb i).length
  seg : ∀ i x, l[i]? = some x → Seg heap x.head (A i) (garb i)
  last : ∀ i x b, l[i]? = some x → (A i).getLast? = some b → x.last = .node b
  first : ∀ i x, l[i]? = some x → A i = [] → x.last = .header ∨ loose i
  nodup : ∀ i, (A i).Nodup
  disj : ∀ i j a, a ∈ A i → a ∈ A j → i = j
  out : ∀ i, n ≤ i → A i = [] ∧ garb i = []
  cover : ∀ a, heap a ≠ none → ∃ i, a ∈ A i
  live : ∀ i a, a ∈ A i → heap a ≠ none

theorem Lists.get {s : State} {lae : Nat → Nat} {garb : Nat → List (Nat × Nat)} {loose : Nat → Prop} {l : List Slot} {A : Nat → List Nat}
    (h : Lists s.threadNum s.arr s.heap lae garb loose l A) {i : Nat} (hi : i < s.threadNum) :
    ∃ x, getSlot s i = .ok x ∧ l[i]? = some x := by
  have hl : i < l.length := by rw [h.len]; exact hi
  refine ⟨l[i], ?_, by simp [hl]⟩
  simp [getSlot, hi, h.arr, hl]
  rfl

theorem getSlot_big {s : State} {i : Nat} (h : ¬ i < s.threadNum) : getSlot s i = .error .gcId := by
  simp [getSlot, h]; rfl

variable {n : Nat} {arr : Option (List Slot)} {heap : Nat → Option Node} {lae : Nat → Nat} {garb : Nat → List (Nat × Nat)}
  {loose loose' : Nat → Prop} {l : List Slot} {A : Nat → List Nat}

theorem get_set {l : List Slot} {t i : Nat} {x y : Slot} (h : (l.set t x)[i]? = some y) :
    (i = t ∧ y = x ∧ t < l.length) ∨ (i ≠ t ∧ l[i]? = some y) := by
  rw [List.getElem?_set] at h
  by_cases e : t = i
  · subst e
    by_cases hl : t < l.length
    · left
      simp only [hl, if_true, Option.some.injEq] at h
      exact ⟨rfl, h.symm, hl⟩
    · simp [hl] at h
  · right
    rw [if_neg e] at h
    exact ⟨fun x => e x.symm, h⟩

theorem Lists.weaken (h : Lists n arr heap lae garb loose l A) (hw : ∀ i, loose i → loose' i) :
    Lists n arr heap lae garb loose' l A :=
  { h with first := fun i x hx he => (h.first i x hx he).imp id (hw i) }

/-- Storing an epoch. -/
theorem Lists.setLae (h : Lists n arr heap lae garb loose l A) {t : Nat} {x : Slot} (hx : l[t]? = some x) (e : Nat) :
    Lists n (arr.map (fun l => l.set t { x with lae := e })) heap (upd lae t e) garb loose (l.set t { x with lae := e }) A := by
  constructor
  · rw [h.arr]; rfl
  · simp [h.len]
  · intro i y hy
    rcases get_set hy with ⟨rfl, rfl, _⟩ | ⟨hi, hy⟩
    · simp [upd]
    · rw [upd_ne _ _ hi]; exact h.lae i y hy
  · intro i y hy
    rcases get_set hy with ⟨rfl, rfl, _⟩ | ⟨hi, hy⟩
    · exact h.cnt i x hx
    · exact h.cnt i y hy
  · intro i y hy
    rcases get_set hy with ⟨rfl, rfl, _⟩ | ⟨hi, hy⟩
    · exact h.seg i x hx
    · exact h.seg i y hy
  · intro i y b hy
    rcases get_set hy with ⟨rfl, rfl, _⟩ | ⟨hi, hy⟩
    · exact h.last i x b hx
    · exact h.last i y b hy
  · intro i y hy
    rcases get_set hy with ⟨rfl, rfl, _⟩ | ⟨hi, hy⟩
    · exact h.first i x hx
    · exact h.first i y hy
  · exact h.nodup
  · exact h.disj
  · exact h.out
  · exact h.cover
  · exact h.live

/-- AddGarbageNode. -/
theorem append_spec {s : State} (h : Lists s.threadNum s.arr s.heap lae garb loose l A) {t a o d : Nat} (ht : t < s.threadNum)
    (ha : s.heap a = none) (hl : ¬ loose t) :
    ∃ l1 h1 x1, append s t a o d = .ok { s with arr := some l1, heap := h1 } ∧ l1[t]? = some x1 ∧
      Lists s.threadNum (some l1) h1 lae (upd garb t (garb t ++ [(o, d)])) loose l1 (upd A t (A t ++ [a])) := by
  obtain ⟨x, hg, hx⟩ := h.get ht
  have hlt : t < l.length := by rw [h.len]; exact ht
  have hfresh : ∀ i, a ∉ A i := fun i hi => h.live i a hi ha
  have hnd : ∀ i, (upd A t (A t ++ [a]) i).Nodup := by
    intro i
    by_cases hi : i = t
    · subst hi
      rw [upd_same]
      exact List.nodup_append.2 ⟨h.nodup i, by simp, by
        intro p hp q hq e
        simp only [List.mem_singleton] at hq
        subst hq; subst e
        exact hfresh i hp⟩
    · rw [upd_ne _ _ hi]; exact h.nodup i
  have hmem : ∀ i p, p ∈ upd A t (A t ++ [a]) i → p ∈ A i ∨ (i = t ∧ p = a) := by
    intro i p hp
    by_cases hi : i = t
    · subst hi
      rw [upd_same] at hp
      rcases List.mem_append.1 hp with hp | hp
      · exact Or.inl hp
      · exact Or.inr ⟨rfl, by simpa using hp⟩
    · rw [upd_ne _ _ hi] at hp; exact Or.inl hp
  have hdisj : ∀ i j p, p ∈ upd A t (A t ++ [a]) i → p ∈ upd A t (A t ++ [a]) j → i = j := by
    intro i j p hi hj
    rcases hmem i p hi with hi | ⟨hit, hpa⟩
    · rcases hmem j p hj with hj | ⟨hjt, hpa⟩
      · exact h.disj i j p hi hj
      · exact absurd (hpa ▸ hi) (hfresh i)
    · rcases hmem j p hj with hj | ⟨hjt, _⟩
      · exact absurd (hpa ▸ hj) (hfresh j)
      · exact hit.trans hjt.symm
  have hout : ∀ i, s.threadNum ≤ i → upd A t (A t ++ [a]) i = [] ∧ upd garb t (garb t ++ [(o, d)]) i = [] := by
    intro i hi
    have hit : i ≠ t := by omega
    rw [upd_ne _ _ hit, upd_ne _ _ hit]
    exact h.out i hi
  rcases hlast : x.last with _ | b
  · -- the list is empty
    have hA : A t = [] := by
      cases hc : (A t).getLast? with
      | none => simpa using hc
      | some b =>
        have := h.last t x b hx hc
        rw [hlast] at this
        cases this
    obtain ⟨hh, hgs⟩ := (hA ▸ h.seg t x hx).nil
    refine ⟨l.set t { x with head := some a, last := .node a, count := x.count + 1 }, upd s.heap a (some ⟨d, o, none⟩),
      { x with head := some a, last := .node a, count := x.count + 1 }, ?_, by simp [hlt], ?_⟩
    · simp [append, hg, hlast, setSlot, h.arr, bind, Except.bind, pure, Except.pure]
    constructor
    · rfl
    · simp [h.len]
    · intro i y hy
      rcases get_set hy with ⟨rfl, rfl, _⟩ | ⟨hi, hy⟩
      · exact h.lae i x hx
      · exact h.lae i y hy
    · intro i y hy
      rcases get_set hy with ⟨rfl, rfl, _⟩ | ⟨hi, hy⟩
      · rw [upd_same]
        simp [h.cnt i x hx]
      · rw [upd_ne _ _ hi]; exact h.cnt i y hy
    · intro i y hy
      rcases get_set hy with ⟨rfl, rfl, _⟩ | ⟨hi, hy⟩
      · rw [upd_same, upd_same, hA, hgs]
        exact ⟨rfl, none, by simp [upd], trivial⟩
      · rw [upd_ne _ _ hi, upd_ne _ _ hi]
        refine Seg.frame ?_ (h.seg i y hy)
        intro p hp
        have : p ≠ a := fun e => hfresh i (e ▸ hp)
        simp [upd, this]
    · intro i y b hy hb
      rcases get_set hy with ⟨rfl, rfl, _⟩ | ⟨hi, hy⟩
      · rw [upd_same, List.getLast?_concat] at hb
        cases hb; rfl
      · rw [upd_ne _ _ hi] at hb; exact h.last i y b hy hb
    · intro i y hy he
      rcases get_set hy with ⟨rfl, rfl, _⟩ | ⟨hi, hy⟩
      · rw [upd_same] at he; simp at he
      · rw [upd_ne _ _ hi] at he; exact h.first i y hy he
    · exact hnd
    · exact hdisj
    · exact hout
    · intro p hp
      by_cases e : p = a
      · exact ⟨t, by rw [upd_same]; simp [e]⟩
      · simp only [upd, e, if_false] at hp
        obtain ⟨i, hi⟩ := h.cover p hp
        refine ⟨i, ?_⟩
        by_cases hit : i = t
        · subst hit; rw [upd_same]; simp [hi]
        · rw [upd_ne _ _ hit]; exact hi
    · intro i p hp
      by_cases e : p = a
      · simp [upd, e]
      · simp only [upd, e, if_false]
        rcases hmem i p hp with hp | ⟨_, e'⟩
        · exact h.live i p hp
        · exact absurd e' e
  · -- the list has a last record
    have hlb : (A t).getLast? = some b := by
      cases hc : (A t).getLast? with
      | none =>
        have hA : A t = [] := by simpa using hc
        rcases h.first t x hx hA with e | e
        · rw [hlast] at e; cases e
        · exact absurd e hl
      | some b' =>
        have := h.last t x b' hx hc
        rw [hlast] at this
        cases this; rfl
    have hbA : b ∈ A t := List.mem_of_getLast? hlb
    have hba : b ≠ a := fun e => hfresh t (e ▸ hbA)
    obtain ⟨nb, hnb, hseg⟩ := Seg.snoc (a := a) (o := o) (d := d) (h.seg t x hx) (h.nodup t) (hfresh t) hlb
    refine ⟨l.set t { x with last := .node a, count := x.count + 1 },
      upd (upd s.heap a (some ⟨d, o, none⟩)) b (some { nb with next := some a }),
      { x with last := .node a, count := x.count + 1 }, ?_, by simp [hlt], ?_⟩
    · have : upd s.heap a (some ⟨d, o, none⟩) b = some nb := by simp [upd, hba, hnb]
      simp [append, hg, hlast, setSlot, h.arr, this, bind, Except.bind, pure, Except.pure]
    constructor
    · rfl
    · simp [h.len]
    · intro i y hy
      rcases get_set hy with ⟨rfl, rfl, _⟩ | ⟨hi, hy⟩
      · exact h.lae i x hx
      · exact h.lae i y hy
    · intro i y hy
      rcases get_set hy with ⟨rfl, rfl, _⟩ | ⟨hi, hy⟩
      · rw [upd_same]
        simp [h.cnt i x hx]
      · rw [upd_ne _ _ hi]; exact h.cnt i y hy
    · intro i y hy
      rcases get_set hy with ⟨rfl, rfl, _⟩ | ⟨hi, hy⟩
      · rw [upd_same, upd_same]
        exact hseg
      · rw [upd_ne _ _ hi, upd_ne _ _ hi]
        refine Seg.frame ?_ (h.seg i y hy)
        intro p hp
        have h1 : p ≠ a := fun e => hfresh i (e ▸ hp)
        have h2 : p ≠ b := fun e => hi (h.disj i t b (e ▸ hp) hbA)
        simp [upd, h1, h2]
    · intro i y b' hy hb
      rcases get_set hy with ⟨rfl, rfl, _⟩ | ⟨hi, hy⟩
      · rw [upd_same, List.getLast?_concat] at hb
        cases hb; rfl
      · rw [upd_ne _ _ hi] at hb; exact h.last i y b' hy hb
    · intro i y hy he
      rcases get_set hy with ⟨rfl, rfl, _⟩ | ⟨hi, hy⟩
      · rw [upd_same] at he; simp at he
      · rw [upd_ne _ _ hi] at he; exact h.first i y hy he
    · exact hnd
    · exact hdisj
    · exact hout
    · intro p hp
      by_cases e : p = a
      · exact ⟨t, by rw [upd_same]; simp [e]⟩
      · by_cases e' : p = b
        · exact ⟨t, by rw [upd_same]; simp [e', hbA]⟩
        · simp only [upd, e, e', if_false] at hp
          obtain ⟨i, hi⟩ := h.cover p hp
          refine ⟨i, ?_⟩
          by_cases hit : i = t
          · subst hit; rw [upd_same]; simp [hi]
          · rw [upd_ne _ _ hit]; exact hi
    · intro i p hp
      by_cases e' : p = b
      · simp [upd, e']
      · by_cases e : p = a
        · simp [upd, e, hba.symm]
        · simp only [upd, e, e', if_false]
          rcases hmem i p hp with hp | ⟨_, e'⟩
          · exact h.live i p hp
          · exact absurd e' e

/-- The end of the loop of PerformGC: the list is empty. -/
theorem collect_nil {s : State} (h : Lists s.threadNum s.arr s.heap lae garb loose l A) {t m : Nat} (ht : t < s.threadNum)
    (hg : garb t = []) :
    ∃ l1, collectOnce s t m = .ok ({ s with arr := some l1 }, false) ∧
      Lists s.threadNum (some l1) s.heap lae garb (fun i => loose i ∧ i ≠ t) l1 A := by
  obtain ⟨x, hgx, hx⟩ := h.get ht
  have hlt : t < l.length := by rw [h.len]; exact ht
  have hA : A t = [] := by
    have := (h.seg t x hx).len
    rw [hg] at this
    exact List.length_eq_zero_iff.1 this
  have hh : x.head = none := ((hA ▸ h.seg t x hx).nil).1
  refine ⟨l.set t { x with last := .header }, ?_, ?_⟩
  · simp [collectOnce, hgx, hh, setSlot, h.arr, bind, Except.bind, pure, Except.pure]
  constructor
  · rfl
  · simp [h.len]
  · intro i y hy
    rcases get_set hy with ⟨rfl, rfl, _⟩ | ⟨hi, hy⟩
    · exact h.lae i x hx
    · exact h.lae i y hy
  · intro i y hy
    rcases get_set hy with ⟨rfl, rfl, _⟩ | ⟨hi, hy⟩
    · exact h.cnt i x hx
    · exact h.cnt i y hy
  · intro i y hy
    rcases get_set hy with ⟨rfl, rfl, _⟩ | ⟨hi, hy⟩
    · exact h.seg i x hx
    · exact h.seg i y hy
  · intro i y b hy hb
    rcases get_set hy with ⟨rfl, rfl, _⟩ | ⟨hi, hy⟩
    · rw [hA] at hb; simp at hb
    · exact h.last i y b hy hb
  · intro i y hy he
    rcases get_set hy with ⟨rfl, rfl, _⟩ | ⟨hi, hy⟩
    · exact Or.inl rfl
    · exact (h.first i y hy he).imp id (fun hl => ⟨hl, hi⟩)
  · exact h.nodup
  · exact h.disj
  · exact h.out
  · exact h.cover
  · exact h.live

/-- The end of the loop of PerformGC: the first record is too young. -/
theorem collect_stop {s : State} (h : Lists s.threadNum s.arr s.heap lae garb loose l A) {t m o d : Nat} {rest : List (Nat × Nat)}
    (ht : t < s.threadNum) (hg : garb t = (o, d) :: rest) (hd : ¬ d < m) :
    collectOnce s t m = .ok (s, false) ∧ Lists s.threadNum s.arr s.heap lae garb (fun i => loose i ∧ i ≠ t) l A := by
  obtain ⟨x, hgx, hx⟩ := h.get ht
  have hs := h.seg t x hx
  rw [hg] at hs
  cases hA : A t with
  | nil => rw [hA] at hs; have := hs.nil.2; cases this
  | cons b as =>
    rw [hA] at hs
    cases hh : x.head with
    | none => rw [hh] at hs; exact hs.elim
    | some a =>
      rw [hh] at hs
      obtain ⟨rfl, nx, hn, _⟩ := hs
      refine ⟨?_, { h with first := ?_ }⟩
      · simp [collectOnce, hgx, hh, hn, hd, bind, Except.bind, pure, Except.pure]
      · intro i y hy he
        refine (h.first i y hy he).imp id (fun hl => ⟨hl, ?_⟩)
        intro e
        subst e
        rw [hA] at he
        cases he

/-- An iteration of the loop of PerformGC. -/
theorem collect_pop {s : State} (h : Lists s.threadNum s.arr s.heap lae garb loose l A) {t m o d : Nat} {rest : List (Nat × Nat)}
    (ht : t < s.threadNum) (hg : garb t = (o, d) :: rest) (hd : d < m) :
    ∃ l1 h1 as, collectOnce s t m =
        .ok ({ s with arr := some l1, heap := h1, st := upd s.st o .freed, freed := o :: s.freed }, true) ∧
      Lists s.threadNum (some l1) h1 lae (upd garb t rest) (fun i => loose i ∨ i = t) l1 (upd A t as) := by
  obtain ⟨x, hgx, hx⟩ := h.get ht
  have hlt : t < l.length := by rw [h.len]; exact ht
  have hs := h.seg t x hx
  rw [hg] at hs
  cases hA : A t with
  | nil => rw [hA] at hs; have := hs.nil.2; cases this
  | cons b as =>
    rw [hA] at hs
    cases hh : x.head with
    | none => rw [hh] at hs; exact hs.elim
    | some a =>
      rw [hh] at hs
      obtain ⟨rfl, nx, hn, hs⟩ := hs
      have hc : x.count = rest.length + 1 := by rw [h.cnt t x hx, hg]; rfl
      have hnd : a ∉ as ∧ as.Nodup := List.nodup_cons.1 (hA ▸ h.nodup t)
      have hmem : ∀ i p, p ∈ upd A t as i → p ∈ A i ∧ p ≠ a := by
        intro i p hp
        by_cases hi : i = t
        · subst hi
          rw [upd_same] at hp
          exact ⟨by rw [hA]; exact List.mem_cons_of_mem _ hp, fun e => hnd.1 (e ▸ hp)⟩
        · rw [upd_ne _ _ hi] at hp
          refine ⟨hp, ?_⟩
          intro e
          exact hi (h.disj i t p hp (by rw [hA, e]; simp))
      refine ⟨l.set t { x with head := nx, count := x.count - 1 }, upd s.heap a none, as, ?_, ?_⟩
      · simp [collectOnce, hgx, hh, hn, hd, hc, setSlot, h.arr, bind, Except.bind, pure, Except.pure]
      constructor
      · rfl
      · simp [h.len]
      · intro i y hy
        rcases get_set hy with ⟨rfl, rfl, _⟩ | ⟨hi, hy⟩
        · exact h.lae i x hx
        · exact h.lae i y hy
      · intro i y hy
        rcases get_set hy with ⟨rfl, rfl, _⟩ | ⟨hi, hy⟩
        · rw [upd_same]; simp [hc]
        · rw [upd_ne _ _ hi]; exact h.cnt i y hy
      · intro i y hy
        rcases get_set hy with ⟨rfl, rfl, _⟩ | ⟨hi, hy⟩
        · rw [upd_same, upd_same]
          refine Seg.frame ?_ hs
          intro p hp
          have : p ≠ a := fun e => hnd.1 (e ▸ hp)
          simp [upd, this]
        · rw [upd_ne _ _ hi, upd_ne _ _ hi]
          refine Seg.frame ?_ (h.seg i y hy)
          intro p hp
          have := (hmem i p (by rw [upd_ne _ _ hi]; exact hp)).2
          simp [upd, this]
      · intro i y b hy hb
        rcases get_set hy with ⟨rfl, rfl, _⟩ | ⟨hi, hy⟩
        · rw [upd_same] at hb
          refine h.last i x b hx ?_
          rw [hA, List.getLast?_cons, hb]
          rfl
        · rw [upd_ne _ _ hi] at hb; exact h.last i y b hy hb
      · intro i y hy he
        rcases get_set hy with ⟨rfl, rfl, _⟩ | ⟨hi, hy⟩
        · exact Or.inr (Or.inr rfl)
        · rw [upd_ne _ _ hi] at he
          exact (h.first i y hy he).imp id Or.inl
      · intro i
        by_cases hi : i = t
        · subst hi; rw [upd_same]; exact hnd.2
        · rw [upd_ne _ _ hi]; exact h.nodup i
      · intro i j p hi hj
        exact h.disj i j p (hmem i p hi).1 (hmem j p hj).1
      · intro i hi
        have hit : i ≠ t := by omega
        rw [upd_ne _ _ hit, upd_ne _ _ hit]
        exact h.out i hi
      · intro p hp
        have hpa : p ≠ a := by
          intro e
          subst e
          simp [upd] at hp
        simp only [upd, hpa, if_false] at hp
        obtain ⟨i, hi⟩ := h.cover p hp
        refine ⟨i, ?_⟩
        by_cases hit : i = t
        · subst hit
          rw [upd_same]
          rw [hA] at hi
          exact (List.mem_cons.1 hi).resolve_left hpa
        · rw [upd_ne _ _ hit]; exact hi
      · intro i p hp
        have := hmem i p hp
        simp only [upd, this.2, if_false]
        exact h.live i p this.1

end Rec
end GC
end BwTree
