import Verif.Spec.Lin

/-!
  Commit points imply linearizability.

  `LinRun` is an abstract machine: it keeps the list of all states so far. A thread calls an operation; an update commits by appending
  a state; a thread returns either the result of its committed update, or any result that leaves unchanged one of the states
  seen since its call. Every history of this machine is linearizable.
-/

namespace BwTree
namespace Lin

variable {S Op Res : Type}

/-- What a thread is doing: nothing; operation `op` called at history position `pos` when state number `start` was current; operation
that has committed its update with result `r`. -/
inductive Tok (Op Res : Type) where
  | idle
  | pending (op : Op) (pos start : Nat)
  | done (op : Op) (pos : Nat) (r : Res)

/-- Update of a function at one point. -/
def upd {α : Type} (f : Nat → α) (t : Nat) (a : α) : Nat → α := fun u => if u = t then a else f u

@[simp] theorem upd_self {α : Type} (f : Nat → α) (t : Nat) (a : α) : upd f t a t = a := by simp [upd]
theorem upd_ne {α : Type} (f : Nat → α) {t u : Nat} (a : α) (h : u ≠ t) : upd f t a u = f u := by simp [upd, h]

/-- Reachable configurations of the abstract machine: history, list of states, thread status. -/
inductive LinRun (step : S → Op → Res → S → Prop) (s0 : S) : List (Event Op Res) → List S → (Nat → Tok Op Res) → Prop where
  | init : LinRun step s0 [] [s0] (fun _ => .idle)
  | call {H ss tok t op} : LinRun step s0 H ss tok → tok t = .idle →
      LinRun step s0 (H ++ [.call t op]) ss (upd tok t (.pending op H.length (ss.length - 1)))
  | commit {H ss tok t op pos start r s s'} : LinRun step s0 H ss tok → tok t = .pending op pos start →
      ss.getLast? = some s → step s op r s' →
      LinRun step s0 H (ss ++ [s']) (upd tok t (.done op pos r))
  | retDone {H ss tok t op pos r} : LinRun step s0 H ss tok → tok t = .done op pos r →
      LinRun step s0 (H ++ [.ret t r]) ss (upd tok t .idle)
  | retRead {H ss tok t op pos start r i s} : LinRun step s0 H ss tok → tok t = .pending op pos start →
      start ≤ i → ss[i]? = some s → step s op r s →
      LinRun step s0 (H ++ [.ret t r]) ss (upd tok t .idle)

/-- The linearization: reads of state 0, update 0, reads of state 1, ... -/
def order {X : Type} (reads : Nat → List X) (ups : Nat → X) : Nat → List X
  | 0 => reads 0
  | n + 1 => order reads ups n ++ ups n :: reads (n + 1)

theorem mem_order {X : Type} {reads : Nat → List X} {ups : Nat → X} {n : Nat} {x : X} :
    x ∈ order reads ups n ↔ (∃ v, v ≤ n ∧ x ∈ reads v) ∨ (∃ m, m < n ∧ x = ups m) := by
  induction n with
  | zero => simp [order]
  | succ n ih =>
    simp only [order, List.mem_append, List.mem_cons, ih]
    constructor
    · rintro ((⟨v, h1, h2⟩ | ⟨m, h1, h2⟩) | h | h)
      · exact Or.inl ⟨v, by omega, h2⟩
      · exact Or.inr ⟨m, by omega, h2⟩
      · exact Or.inr ⟨n, by omega, h⟩
      · exact Or.inl ⟨n + 1, by omega, h⟩
    · rintro (⟨v, h1, h2⟩ | ⟨m, h1, h2⟩)
      · by_cases hv : v = n + 1
        · subst hv; exact Or.inr (Or.inr h2)
        · exact Or.inl (Or.inl ⟨v, by omega, h2⟩)
      · by_cases hm : m = n
        · subst hm; exact Or.inr (Or.inl h2)
        · exact Or.inl (Or.inr ⟨m, by omega, h2⟩)

theorem order_pairwise {X : Type} {reads : Nat → List X} {ups : Nat → X} {R : X → X → Prop} {n : Nat}
    (h1 : ∀ v, v ≤ n → (reads v).Pairwise R)
    (h2 : ∀ v w a b, v < w → w ≤ n → a ∈ reads v → b ∈ reads w → R a b)
    (h3 : ∀ v m a, v ≤ m → m < n → a ∈ reads v → R a (ups m))
    (h4 : ∀ v m b, m < v → v ≤ n → b ∈ reads v → R (ups m) b)
    (h5 : ∀ m m', m < m' → m' < n → R (ups m) (ups m')) : (order reads ups n).Pairwise R := by
  induction n with
  | zero => exact h1 0 (Nat.le_refl _)
  | succ n ih =>
    simp only [order]
    rw [List.pairwise_append]
    refine ⟨ih (fun v hv => h1 v (by omega)) (fun v w a b hv hw => h2 v w a b hv (by omega))
      (fun v m a hv hm => h3 v m a hv (by omega)) (fun v m b hv hm => h4 v m b hv (by omega))
      (fun m m' hm hm' => h5 m m' hm (by omega)), ?_, ?_⟩
    · rw [List.pairwise_cons]
      exact ⟨fun b hb => h4 (n + 1) n b (by omega) (by omega) hb, h1 _ (Nat.le_refl _)⟩
    · intro a ha b hb
      rw [mem_order] at ha
      rw [List.mem_cons] at hb
      rcases ha with ⟨v, hv, ha⟩ | ⟨m, hm, rfl⟩ <;> rcases hb with rfl | hb
      · exact h3 v n a hv (by omega) ha
      · exact h2 v (n + 1) a b (by omega) (by omega) ha hb
      · exact h5 m n hm (by omega)
      · exact h4 (n + 1) m b (by omega) (by omega) hb

theorem Run.append {step : S → Op → Res → S → Prop} {s s' s'' : S} {l l' : List (Op × Res)} (h : Run step s l s')
    (h' : Run step s' l' s'') : Run step s (l ++ l') s'' := by
  induction h with
  | nil => exact h'
  | cons h1 _ ih => exact .cons h1 (ih h')

theorem Run.same {step : S → Op → Res → S → Prop} {s : S} : ∀ {l : List (Op × Res)}, (∀ x ∈ l, step s x.1 x.2 s) → Run step s l s
  | [], _ => .nil s
  | (op, r) :: l, h => .cons (h (op, r) (by simp)) (Run.same (fun x hx => h x (by simp [hx])))

/-- Invariant of the abstract machine. `ver` gives for every event the number of the state current when it happened. -/
structure LinInv (step : S → Op → Res → S → Prop) (s0 : S) (H : List (Event Op Res)) (ss : List S) (tok : Nat → Tok Op Res)
    (n : Nat) (reads : Nat → List (Nat × Op × Res)) (ups : Nat → Nat × Op × Res) (ver : Nat → Nat) (rp : Nat → Nat) : Prop where
  len : ss.length = n + 1
  first : ss[0]? = some s0
  verMono : ∀ i j, i ≤ j → j < H.length → ver i ≤ ver j
  verLe : ∀ i, i < H.length → ver i ≤ n
  -- updates and reads
  upStep : ∀ m, m < n → ∃ s s', ss[m]? = some s ∧ ss[m + 1]? = some s' ∧ step s (ups m).2.1 (ups m).2.2 s'
  rdStep : ∀ v x, x ∈ reads v → ∃ s, ss[v]? = some s ∧ step s x.2.1 x.2.2 s
  upVer : ∀ m, m < n → ver (ups m).1 ≤ m
  rdVer : ∀ v x, x ∈ reads v → ver x.1 ≤ v
  upCall : ∀ m, m < n → ∃ t, H[(ups m).1]? = some (.call t (ups m).2.1)
  rdCall : ∀ v x, x ∈ reads v → ∃ t, H[x.1]? = some (.call t x.2.1)
  upRet : ∀ m j r, m < n → Returns H (ups m).1 j r → m + 1 ≤ ver j
  -- reads are added on return; `rp` is the return position
  rdRet : ∀ v x, x ∈ reads v → x.1 < rp x.1 ∧ rp x.1 < H.length ∧ v ≤ ver (rp x.1) ∧ ∀ j r, Returns H x.1 j r → j = rp x.1
  rdOrd : ∀ v, (reads v).Pairwise (fun a b => rp a.1 < rp b.1)
  rdNodup : ∀ v w a b, a ∈ reads v → b ∈ reads w → a.1 = b.1 → v = w
  upNodup : ∀ m m', m < n → m' < n → (ups m).1 = (ups m').1 → m = m'
  upRd : ∀ m v x, m < n → x ∈ reads v → (ups m).1 ≠ x.1
  -- all returned operations are in
  all : ∀ i j r, Returns H i j r → (∃ v op, (i, op, r) ∈ reads v) ∨ (∃ m op, m < n ∧ ups m = (i, op, r))
  -- thread status
  idle : ∀ t i op, tok t = .idle → H[i]? = some (Event.call t op) →
    ∃ (j : Nat) (e : Event Op Res), i < j ∧ H[j]? = some e ∧ e.tid = t
  pend : ∀ t op pos start, tok t = .pending op pos start → H[pos]? = some (.call t op) ∧ ver pos ≤ start ∧ start ≤ n ∧
    (∀ m e, pos < m → H[m]? = some e → e.tid ≠ t) ∧ (∀ v x, x ∈ reads v → x.1 ≠ pos) ∧ (∀ m, m < n → (ups m).1 ≠ pos)
  donet : ∀ t op pos r, tok t = .done op pos r → H[pos]? = some (.call t op) ∧
    (∀ m e, pos < m → H[m]? = some e → e.tid ≠ t) ∧ (∃ m, m < n ∧ ups m = (pos, op, r)) ∧ (∀ v x, x ∈ reads v → x.1 ≠ pos)

theorem getElem?_snoc {α : Type} {l : List α} {a b : α} {i : Nat} (h : (l ++ [a])[i]? = some b) :
    (i < l.length ∧ l[i]? = some b) ∨ (i = l.length ∧ b = a) := by
  by_cases hi : i < l.length
  · rw [List.getElem?_append_left hi] at h
    exact Or.inl ⟨hi, h⟩
  · rw [List.getElem?_append_right (by omega)] at h
    by_cases he : i - l.length = 0
    · rw [he] at h
      simp at h
      exact Or.inr ⟨by omega, h.symm⟩
    · obtain ⟨m, hm⟩ := Nat.exists_eq_succ_of_ne_zero he
      rw [hm] at h; simp at h

theorem getElem?_snoc_lt {α : Type} {l : List α} {a b : α} {i : Nat} (h : l[i]? = some b) : (l ++ [a])[i]? = some b := by
  have := (List.getElem?_eq_some_iff.mp h).1
  rw [List.getElem?_append_left this]; exact h

/-- A return that is not the last event was one before. -/
theorem Returns.snoc {H : List (Event Op Res)} {e : Event Op Res} {i j : Nat} {r : Res} (h : Returns (H ++ [e]) i j r) :
    (j < H.length ∧ Returns H i j r) ∨
    (j = H.length ∧ ∃ t op, e = .ret t r ∧ H[i]? = some (.call t op) ∧ ∀ m e, i < m → H[m]? = some e → e.tid ≠ t) := by
  obtain ⟨h1, t, op, h2, h3, h4⟩ := h
  rcases getElem?_snoc h3 with ⟨hj, h3⟩ | ⟨hj, h3⟩
  · left
    refine ⟨hj, h1, t, op, ?_, h3, fun m e hm hm' he => h4 m e hm hm' (getElem?_snoc_lt he)⟩
    rcases getElem?_snoc h2 with ⟨_, h2⟩ | ⟨hi, _⟩
    · exact h2
    · omega
  · right
    refine ⟨hj, t, op, h3.symm, ?_, ?_⟩
    · rcases getElem?_snoc h2 with ⟨_, h2⟩ | ⟨hi, _⟩
      · exact h2
      · omega
    · intro m e hm he
      have := (List.getElem?_eq_some_iff.mp he).1
      exact h4 m e hm (by omega) (getElem?_snoc_lt he)

theorem Returns.lt {H : List (Event Op Res)} {i j : Nat} {r : Res} (h : Returns H i j r) : j < H.length := by
  obtain ⟨_, _, _, _, h3, _⟩ := h
  exact (List.getElem?_eq_some_iff.mp h3).1

theorem LinInv.call {step : S → Op → Res → S → Prop} {s0 : S} {H : List (Event Op Res)} {ss : List S} {tok : Nat → Tok Op Res}
    {n : Nat} {reads ups ver rp} (I : LinInv step s0 H ss tok n reads ups ver rp) {t : Nat} {op : Op} (ht : tok t = .idle) :
    LinInv step s0 (H ++ [.call t op]) ss (upd tok t (.pending op H.length (ss.length - 1))) n reads ups
      (fun i => if i < H.length then ver i else n) rp := by
  have hv : ∀ i, i < H.length → (fun i => if i < H.length then ver i else n) i = ver i := fun i hi => by simp [hi]
  have hcl : ∀ {i : Nat} {e : Event Op Res}, H[i]? = some e → i < H.length := fun h => (List.getElem?_eq_some_iff.mp h).1
  have hret : ∀ {i j r}, Returns (H ++ [.call t op]) i j r → Returns H i j r := by
    intro i j r h
    rcases h.snoc with ⟨_, h⟩ | ⟨_, _, _, h, _⟩
    · exact h
    · exact absurd h (by simp)
  constructor
  case len => exact I.len
  case first => exact I.first
  case verMono =>
    intro i j hij hj
    simp only [List.length_append, List.length_singleton] at hj
    by_cases h : j < H.length
    · simp only [h, show i < H.length by omega, if_true]; exact I.verMono i j hij h
    · by_cases h' : i < H.length
      · simp only [h, h', if_true, if_false]; exact I.verLe i h'
      · simp only [h, h', if_false]; exact Nat.le_refl _
  case verLe =>
    intro i hi
    by_cases h : i < H.length
    · simp only [h, if_true]; exact I.verLe i h
    · simp only [h, if_false]; exact Nat.le_refl _
  case upStep => exact I.upStep
  case rdStep => exact I.rdStep
  case upVer =>
    intro m hm
    obtain ⟨u, hu⟩ := I.upCall m hm
    simp only [hcl hu, if_true]; exact I.upVer m hm
  case rdVer =>
    intro v x hx
    obtain ⟨u, hu⟩ := I.rdCall v x hx
    simp only [hcl hu, if_true]; exact I.rdVer v x hx
  case upCall => intro m hm; obtain ⟨u, hu⟩ := I.upCall m hm; exact ⟨u, getElem?_snoc_lt hu⟩
  case rdCall => intro v x hx; obtain ⟨u, hu⟩ := I.rdCall v x hx; exact ⟨u, getElem?_snoc_lt hu⟩
  case upRet =>
    intro m j r hm hr
    have hr := hret hr
    simp only [hr.lt, if_true]; exact I.upRet m j r hm hr
  case rdRet =>
    intro v x hx
    obtain ⟨h1, h2, h3, h4⟩ := I.rdRet v x hx
    refine ⟨h1, by simp; omega, ?_, fun j r hr => h4 j r (hret hr)⟩
    simp only [h2, if_true]; exact h3
  case rdOrd => exact I.rdOrd
  case rdNodup => exact I.rdNodup
  case upNodup => exact I.upNodup
  case upRd => exact I.upRd
  case all => intro i j r hr; exact I.all i j r (hret hr)
  case idle =>
    intro u i op' hu hi
    by_cases hut : u = t
    · subst hut; simp at hu
    · rw [upd_ne _ _ hut] at hu
      rcases getElem?_snoc hi with ⟨_, hi⟩ | ⟨_, hi⟩
      · obtain ⟨j, e, h1, h2, h3⟩ := I.idle u i op' hu hi
        exact ⟨j, e, h1, getElem?_snoc_lt h2, h3⟩
      · cases hi; exact absurd rfl hut
  case pend =>
    intro u op' pos start hu
    by_cases hut : u = t
    · subst hut
      simp only [upd_self, Tok.pending.injEq] at hu
      obtain ⟨rfl, rfl, rfl⟩ := hu
      have hl := I.len
      refine ⟨by simp, ?_, by omega, ?_, ?_, ?_⟩
      · simp only [Nat.lt_irrefl, if_false]; omega
      · intro m e hm he
        have := (List.getElem?_eq_some_iff.mp he).1
        simp at this; omega
      · intro v x hx hxe
        obtain ⟨w, hw⟩ := I.rdCall v x hx
        have := hcl hw; omega
      · intro m hm he
        obtain ⟨w, hw⟩ := I.upCall m hm
        have := hcl hw; omega
    · rw [upd_ne _ _ hut] at hu
      obtain ⟨h1, h2, h3, h4, h5, h6⟩ := I.pend u op' pos start hu
      refine ⟨getElem?_snoc_lt h1, ?_, h3, ?_, h5, h6⟩
      · simp only [hcl h1, if_true]; exact h2
      · intro m e hm he
        rcases getElem?_snoc he with ⟨_, he⟩ | ⟨_, he⟩
        · exact h4 m e hm he
        · rw [he]; exact fun hc => hut hc.symm
  case donet =>
    intro u op' pos r hu
    by_cases hut : u = t
    · subst hut; simp at hu
    · rw [upd_ne _ _ hut] at hu
      obtain ⟨h1, h4, h5, h6⟩ := I.donet u op' pos r hu
      refine ⟨getElem?_snoc_lt h1, ?_, h5, h6⟩
      intro m e hm he
      rcases getElem?_snoc he with ⟨_, he⟩ | ⟨_, he⟩
      · exact h4 m e hm he
      · rw [he]; exact fun hc => hut hc.symm

theorem LinInv.commit {step : S → Op → Res → S → Prop} {s0 : S} {H : List (Event Op Res)} {ss : List S} {tok : Nat → Tok Op Res}
    {n : Nat} {reads ups ver rp} (I : LinInv step s0 H ss tok n reads ups ver rp) {t : Nat} {op : Op} {pos start : Nat} {r : Res}
    {s s' : S} (ht : tok t = .pending op pos start) (hl : ss.getLast? = some s) (hs : step s op r s') :
    LinInv step s0 H (ss ++ [s']) (upd tok t (.done op pos r)) (n + 1) reads (upd ups n (pos, op, r)) ver rp := by
  have hlen := I.len
  obtain ⟨p1, p2, p3, p4, p5, p6⟩ := I.pend t op pos start ht
  have hun : ∀ m, m < n → upd ups n (pos, op, r) m = ups m := fun m hm => upd_ne _ _ (by omega)
  have hposl : pos < H.length := (List.getElem?_eq_some_iff.mp p1).1
  have hnr : ∀ j r', ¬ Returns H pos j r' := by
    intro j r' ⟨h1, u, o, h2, h3, _⟩
    rw [p1] at h2
    simp only [Option.some.injEq, Event.call.injEq] at h2
    exact p4 j _ h1 h3 (by simp [Event.tid, h2.1])
  constructor
  case len => simp [hlen]
  case first => exact getElem?_snoc_lt I.first
  case verMono => exact I.verMono
  case verLe => intro i hi; have := I.verLe i hi; omega
  case upStep =>
    intro m hm
    by_cases hmn : m < n
    · obtain ⟨a, b, h1, h2, h3⟩ := I.upStep m hmn
      rw [hun m hmn]
      exact ⟨a, b, getElem?_snoc_lt h1, getElem?_snoc_lt h2, h3⟩
    · have : m = n := by omega
      subst this
      rw [upd_self]
      refine ⟨s, s', getElem?_snoc_lt ?_, ?_, hs⟩
      · rw [List.getLast?_eq_getElem?, hlen] at hl; exact hl
      · rw [List.getElem?_append_right (by omega)]; simp [hlen]
  case rdStep => intro v x hx; obtain ⟨a, h1, h2⟩ := I.rdStep v x hx; exact ⟨a, getElem?_snoc_lt h1, h2⟩
  case upVer =>
    intro m hm
    by_cases hmn : m < n
    · rw [hun m hmn]; exact I.upVer m hmn
    · have : m = n := by omega
      subst this
      rw [upd_self]; have := I.verLe pos hposl; exact this
  case rdVer => exact I.rdVer
  case upCall =>
    intro m hm
    by_cases hmn : m < n
    · rw [hun m hmn]; exact I.upCall m hmn
    · have : m = n := by omega
      subst this
      rw [upd_self]; exact ⟨t, p1⟩
  case rdCall => exact I.rdCall
  case upRet =>
    intro m j r' hm hr
    by_cases hmn : m < n
    · rw [hun m hmn] at hr; exact I.upRet m j r' hmn hr
    · have : m = n := by omega
      subst this
      rw [upd_self] at hr; exact absurd hr (hnr _ _)
  case rdRet => exact I.rdRet
  case rdOrd => exact I.rdOrd
  case rdNodup => exact I.rdNodup
  case upNodup =>
    intro m m' hm hm' he
    by_cases hmn : m < n <;> by_cases hmn' : m' < n
    · rw [hun m hmn, hun m' hmn'] at he; exact I.upNodup m m' hmn hmn' he
    · have : m' = n := by omega
      subst this
      rw [hun m hmn, upd_self] at he; exact absurd he (p6 m hmn)
    · have : m = n := by omega
      subst this
      rw [hun m' hmn', upd_self] at he; exact absurd he.symm (p6 m' hmn')
    · omega
  case upRd =>
    intro m v x hm hx
    by_cases hmn : m < n
    · rw [hun m hmn]; exact I.upRd m v x hmn hx
    · have : m = n := by omega
      subst this
      rw [upd_self]; exact fun h => p5 v x hx h.symm
  case all =>
    intro i j r' hr
    rcases I.all i j r' hr with h | ⟨m, o, h1, h2⟩
    · exact Or.inl h
    · exact Or.inr ⟨m, o, by omega, by rw [hun m h1]; exact h2⟩
  case idle =>
    intro u i o hu
    by_cases hut : u = t
    · subst hut; simp at hu
    · rw [upd_ne _ _ hut] at hu; exact I.idle u i o hu
  case pend =>
    intro u o pos' start' hu
    by_cases hut : u = t
    · subst hut; simp at hu
    · rw [upd_ne _ _ hut] at hu
      obtain ⟨h1, h2, h3, h4, h5, h6⟩ := I.pend u o pos' start' hu
      refine ⟨h1, h2, by omega, h4, h5, ?_⟩
      intro m hm
      by_cases hmn : m < n
      · rw [hun m hmn]; exact h6 m hmn
      · have : m = n := by omega
        subst this
        rw [upd_self]
        intro hc
        simp only at hc
        rw [← hc, p1] at h1
        simp only [Option.some.injEq, Event.call.injEq] at h1
        exact hut h1.1.symm
  case donet =>
    intro u o pos' r' hu
    by_cases hut : u = t
    · subst hut
      simp only [upd_self, Tok.done.injEq] at hu
      obtain ⟨rfl, rfl, rfl⟩ := hu
      exact ⟨p1, p4, ⟨n, by omega, by simp⟩, p5⟩
    · rw [upd_ne _ _ hut] at hu
      obtain ⟨h1, h4, ⟨m, h5, h6⟩, h7⟩ := I.donet u o pos' r' hu
      exact ⟨h1, h4, ⟨m, by omega, by rw [hun m h5]; exact h6⟩, h7⟩

/-- A return event; `reads'` is `reads` with at most the returning operation added. -/
theorem LinInv.ret {step : S → Op → Res → S → Prop} {s0 : S} {H : List (Event Op Res)} {ss : List S} {tok : Nat → Tok Op Res}
    {n : Nat} {reads ups ver rp} (I : LinInv step s0 H ss tok n reads ups ver rp) {t : Nat} {op : Op} {pos : Nat} {r : Res}
    (hcall : H[pos]? = some (.call t op)) (hlast : ∀ m e, pos < m → H[m]? = some e → e.tid ≠ t)
    (htok : tok t = .done op pos r ∨ ∃ start, tok t = .pending op pos start)
    {reads'} (hcase : (reads' = reads ∧ ∃ m, m < n ∧ ups m = (pos, op, r)) ∨
      (∃ v s, reads' = upd reads v (reads v ++ [(pos, op, r)]) ∧ ver pos ≤ v ∧ v ≤ n ∧ ss[v]? = some s ∧ step s op r s ∧
        (∀ v x, x ∈ reads v → x.1 ≠ pos) ∧ (∀ m, m < n → (ups m).1 ≠ pos))) 
    (hfresh : ∀ v x, x ∈ reads v → x.1 ≠ pos) :
    LinInv step s0 (H ++ [.ret t r]) ss (upd tok t .idle) n reads' ups
      (fun i => if i < H.length then ver i else n) (upd rp pos H.length) := by
  have hcl : ∀ {i : Nat} {e : Event Op Res}, H[i]? = some e → i < H.length := fun h => (List.getElem?_eq_some_iff.mp h).1
  have hposl := hcl hcall
  have hret : ∀ {i j r'}, Returns (H ++ [.ret t r]) i j r' → (j < H.length ∧ Returns H i j r') ∨ (j = H.length ∧ i = pos ∧ r' = r) := by
    intro i j r' h
    rcases h.snoc with ⟨h1, h⟩ | ⟨h1, u, o, h2, h3, h4⟩
    · exact Or.inl ⟨h1, h⟩
    · simp only [Event.ret.injEq] at h2
      obtain ⟨rfl, rfl⟩ := h2
      refine Or.inr ⟨h1, ?_, rfl⟩
      rcases Nat.lt_trichotomy i pos with h | h | h
      · exact absurd rfl (h4 pos _ h hcall)
      · exact h
      · exact absurd rfl (hlast i _ h h3)
  have hnr : ∀ j r', ¬ Returns H pos j r' := by
    intro j r' ⟨h1, u, o, h2, h3, _⟩
    rw [hcall] at h2
    simp only [Option.some.injEq, Event.call.injEq] at h2
    exact hlast j _ h1 h3 (by simp [Event.tid, h2.1])
  -- membership in the new reads
  have hmem : ∀ v x, x ∈ reads' v → x ∈ reads v ∨ (x = (pos, op, r) ∧ ver pos ≤ v ∧ v ≤ n ∧ (∃ s, ss[v]? = some s ∧ step s op r s) ∧
      (∀ v x, x ∈ reads v → x.1 ≠ pos) ∧ (∀ m, m < n → (ups m).1 ≠ pos) ∧ ∀ w, w ≠ v → reads' w = reads w) := by
    intro v x hx
    rcases hcase with ⟨rfl, _⟩ | ⟨v0, s, rfl, h1, h2, h3, h4, h5, h6⟩
    · exact Or.inl hx
    · by_cases hv : v = v0
      · subst hv
        rw [upd_self, List.mem_append] at hx
        rcases hx with hx | hx
        · exact Or.inl hx
        · simp only [List.mem_singleton] at hx
          exact Or.inr ⟨hx, h1, h2, ⟨s, h3, h4⟩, h5, h6, fun w hw => upd_ne _ _ hw⟩
      · rw [upd_ne _ _ hv] at hx; exact Or.inl hx
  have hsub : ∀ v x, x ∈ reads v → x ∈ reads' v := by
    intro v x hx
    rcases hcase with ⟨rfl, _⟩ | ⟨v0, s, rfl, _⟩
    · exact hx
    · by_cases hv : v = v0
      · subst hv; rw [upd_self]; exact List.mem_append_left _ hx
      · rw [upd_ne _ _ hv]; exact hx
  have hrp : ∀ v x, x ∈ reads v → upd rp pos H.length x.1 = rp x.1 := fun v x hx => upd_ne _ _ (hfresh v x hx)
  constructor
  case len => exact I.len
  case first => exact I.first
  case verMono =>
    intro i j hij hj
    simp only [List.length_append, List.length_singleton] at hj
    by_cases h : j < H.length
    · simp only [h, show i < H.length by omega, if_true]; exact I.verMono i j hij h
    · by_cases h' : i < H.length
      · simp only [h, h', if_true, if_false]; exact I.verLe i h'
      · simp only [h, h', if_false]; exact Nat.le_refl _
  case verLe =>
    intro i hi
    by_cases h : i < H.length
    · simp only [h, if_true]; exact I.verLe i h
    · simp only [h, if_false]; exact Nat.le_refl _
  case upStep => exact I.upStep
  case rdStep =>
    intro v x hx
    rcases hmem v x hx with hx | ⟨rfl, _, _, h, _⟩
    · exact I.rdStep v x hx
    · exact h
  case upVer =>
    intro m hm
    obtain ⟨u, hu⟩ := I.upCall m hm
    simp only [hcl hu, if_true]; exact I.upVer m hm
  case rdVer =>
    intro v x hx
    rcases hmem v x hx with hx | ⟨rfl, h, _⟩
    · obtain ⟨u, hu⟩ := I.rdCall v x hx
      simp only [hcl hu, if_true]; exact I.rdVer v x hx
    · simp only [hposl, if_true]; exact h
  case upCall => intro m hm; obtain ⟨u, hu⟩ := I.upCall m hm; exact ⟨u, getElem?_snoc_lt hu⟩
  case rdCall =>
    intro v x hx
    rcases hmem v x hx with hx | ⟨rfl, _⟩
    · obtain ⟨u, hu⟩ := I.rdCall v x hx; exact ⟨u, getElem?_snoc_lt hu⟩
    · exact ⟨t, getElem?_snoc_lt hcall⟩
  case upRet =>
    intro m j r' hm hr
    rcases hret hr with ⟨hj, hr⟩ | ⟨hj, _, _⟩
    · simp only [hj, if_true]; exact I.upRet m j r' hm hr
    · subst hj; simp only [Nat.lt_irrefl, if_false]; omega
  case rdRet =>
    intro v x hx
    rcases hmem v x hx with hx | ⟨rfl, _, h2, _⟩
    · obtain ⟨h1, h2, h3, h4⟩ := I.rdRet v x hx
      rw [hrp v x hx]
      refine ⟨h1, by simp; omega, by simp only [h2, if_true]; exact h3, ?_⟩
      intro j r' hr
      rcases hret hr with ⟨_, hr⟩ | ⟨_, hi, _⟩
      · exact h4 j r' hr
      · exact absurd hi (hfresh v x hx)
    · simp only [upd_self]
      refine ⟨hposl, by simp, by simp only [Nat.lt_irrefl, if_false]; exact h2, ?_⟩
      intro j r' hr
      rcases hret hr with ⟨_, hr⟩ | ⟨hj, _, _⟩
      · exact absurd hr (hnr _ _)
      · exact hj
  case rdOrd =>
    intro v
    have base : (reads v).Pairwise (fun a b => upd rp pos H.length a.1 < upd rp pos H.length b.1) := by
      refine List.Pairwise.imp_of_mem ?_ (I.rdOrd v)
      intro a b ha hb h
      rw [hrp v a ha, hrp v b hb]; exact h
    rcases hcase with ⟨rfl, _⟩ | ⟨v0, s, rfl, _⟩
    · exact base
    · by_cases hv : v = v0
      · subst hv
        rw [upd_self, List.pairwise_append]
        refine ⟨base, by simp, ?_⟩
        intro a ha b hb
        simp only [List.mem_singleton] at hb
        subst hb
        rw [hrp v a ha, upd_self]
        exact (I.rdRet v a ha).2.1
      · rw [upd_ne _ _ hv]; exact base
  case rdNodup =>
    intro v w a b ha hb he
    rcases hmem v a ha with ha' | ⟨rfl, _, _, _, hf, _, ho⟩ <;> rcases hmem w b hb with hb' | ⟨rfl, _, _, _, hf', _, ho'⟩
    · exact I.rdNodup v w a b ha' hb' he
    · exact absurd he (hf' v a ha')
    · exact absurd he.symm (hf w b hb')
    · apply Classical.byContradiction; intro hne
      rw [ho w (fun h => hne h.symm)] at hb
      exact hf w _ hb rfl
  case upNodup => exact I.upNodup
  case upRd =>
    intro m v x hm hx
    rcases hmem v x hx with hx | ⟨rfl, _, _, _, _, h, _⟩
    · exact I.upRd m v x hm hx
    · exact h m hm
  case all =>
    intro i j r' hr
    rcases hret hr with ⟨_, hr⟩ | ⟨_, rfl, rfl⟩
    · rcases I.all i j r' hr with ⟨v, o, h⟩ | h
      · exact Or.inl ⟨v, o, hsub v _ h⟩
      · exact Or.inr h
    · rcases hcase with ⟨_, m, h1, h2⟩ | ⟨v0, s, rfl, _⟩
      · exact Or.inr ⟨m, op, h1, h2⟩
      · exact Or.inl ⟨v0, op, by rw [upd_self]; simp⟩
  case idle =>
    intro u i o hu hi
    by_cases hut : u = t
    · subst hut
      rcases getElem?_snoc hi with ⟨hi', _⟩ | ⟨_, hi⟩
      · exact ⟨H.length, .ret u r, hi', by simp, rfl⟩
      · cases hi
    · rw [upd_ne _ _ hut] at hu
      rcases getElem?_snoc hi with ⟨_, hi⟩ | ⟨_, hi⟩
      · obtain ⟨j, e, h1, h2, h3⟩ := I.idle u i o hu hi
        exact ⟨j, e, h1, getElem?_snoc_lt h2, h3⟩
      · cases hi
  case pend =>
    intro u o pos' start' hu
    by_cases hut : u = t
    · subst hut; simp at hu
    · rw [upd_ne _ _ hut] at hu
      obtain ⟨h1, h2, h3, h4, h5, h6⟩ := I.pend u o pos' start' hu
      have hpp : pos ≠ pos' := by
        intro h
        rw [← h, hcall] at h1
        simp only [Option.some.injEq, Event.call.injEq] at h1
        exact hut h1.1.symm
      refine ⟨getElem?_snoc_lt h1, by simp only [hcl h1, if_true]; exact h2, h3, ?_, ?_, h6⟩
      · intro m e hm he
        rcases getElem?_snoc he with ⟨_, he⟩ | ⟨_, he⟩
        · exact h4 m e hm he
        · rw [he]; exact fun hc => hut hc.symm
      · intro v x hx
        rcases hmem v x hx with hx | ⟨rfl, _⟩
        · exact h5 v x hx
        · exact hpp
  case donet =>
    intro u o pos' r' hu
    by_cases hut : u = t
    · subst hut; simp at hu
    · rw [upd_ne _ _ hut] at hu
      obtain ⟨h1, h4, h5, h6⟩ := I.donet u o pos' r' hu
      have hpp : pos ≠ pos' := by
        intro h
        rw [← h, hcall] at h1
        simp only [Option.some.injEq, Event.call.injEq] at h1
        exact hut h1.1.symm
      refine ⟨getElem?_snoc_lt h1, ?_, h5, ?_⟩
      · intro m e hm he
        rcases getElem?_snoc he with ⟨_, he⟩ | ⟨_, he⟩
        · exact h4 m e hm he
        · rw [he]; exact fun hc => hut hc.symm
      · intro v x hx
        rcases hmem v x hx with hx | ⟨rfl, _⟩
        · exact h6 v x hx
        · exact hpp

theorem linInv {step : S → Op → Res → S → Prop} {s0 : S} (d : Nat × Op × Res) {H : List (Event Op Res)} {ss : List S}
    {tok : Nat → Tok Op Res}
    (h : LinRun step s0 H ss tok) : ∃ n reads ups ver rp, LinInv step s0 H ss tok n reads ups ver rp := by
  induction h with
  | init =>
    refine ⟨0, fun _ => [], fun _ => d, fun _ => 0, fun _ => 0, ?_⟩
    constructor <;> first | (simp; done) | skip
    intro i j r hr; obtain ⟨_, _, _, h, _⟩ := hr; simp at h
  | call _ ht ih =>
    obtain ⟨n, reads, ups, ver, rp, I⟩ := ih
    exact ⟨n, _, _, _, _, I.call ht⟩
  | commit _ ht hl hs ih =>
    obtain ⟨n, reads, ups, ver, rp, I⟩ := ih
    exact ⟨n + 1, _, _, _, _, I.commit ht hl hs⟩
  | retDone _ ht ih =>
    obtain ⟨n, reads, ups, ver, rp, I⟩ := ih
    obtain ⟨h1, h2, h3, h4⟩ := I.donet _ _ _ _ ht
    exact ⟨n, reads, ups, _, _, I.ret h1 h2 (Or.inl ht) (Or.inl ⟨rfl, h3⟩) h4⟩
  | @retRead H ss tok t op pos start r i s _ ht hi hs hst ih =>
    obtain ⟨n, reads, ups, ver, rp, I⟩ := ih
    obtain ⟨h1, h2, h3, h4, h5, h6⟩ := I.pend _ _ _ _ ht
    have hl := (List.getElem?_eq_some_iff.mp hs).1
    have hlen := I.len
    exact ⟨n, _, ups, _, _, I.ret h1 h4 (Or.inr ⟨start, ht⟩)
      (Or.inr ⟨i, s, rfl, by omega, by omega, hs, hst, h5, h6⟩) h5⟩

/-- Every history of the abstract machine is linearizable. -/
theorem linearizable {step : S → Op → Res → S → Prop} {s0 : S} (d : Nat × Op × Res) {H : List (Event Op Res)} {ss : List S}
    {tok : Nat → Tok Op Res} (h : LinRun step s0 H ss tok) : Linearizable step s0 H := by
  obtain ⟨n, reads, ups, ver, rp, I⟩ := linInv d h
  have hcl : ∀ {i : Nat} {e : Event Op Res}, H[i]? = some e → i < H.length := fun h => (List.getElem?_eq_some_iff.mp h).1
  have hvn : ∀ v x, x ∈ reads v → v ≤ n := by
    intro v x hx
    obtain ⟨s, h1, _⟩ := I.rdStep v x hx
    have := (List.getElem?_eq_some_iff.mp h1).1
    have := I.len; omega
  refine ⟨order reads ups n, ?_, ?_, ?_, ?_, ?_⟩
  · rw [List.Nodup, List.pairwise_map]
    apply order_pairwise
    · intro v hv
      refine (I.rdOrd v).imp ?_
      intro a b h he; rw [he] at h; omega
    · intro v w a b hvw _ ha hb he
      have := I.rdNodup v w a b ha hb he; omega
    · intro v m a _ hm ha he
      exact I.upRd m v a hm ha he.symm
    · intro v m b hm hv hb
      exact I.upRd m v b (by omega) hb
    · intro m m' hm hm' he
      have := I.upNodup m m' (by omega) hm' he; omega
  · intro x hx
    rcases mem_order.mp hx with ⟨v, _, hx⟩ | ⟨m, hm, rfl⟩
    · exact I.rdCall v x hx
    · exact I.upCall m hm
  · intro i j r hr
    rcases I.all i j r hr with ⟨v, op, hx⟩ | ⟨m, op, hm, hx⟩
    · exact ⟨op, mem_order.mpr (Or.inl ⟨v, hvn v _ hx, hx⟩)⟩
    · exact ⟨op, mem_order.mpr (Or.inr ⟨m, hm, hx.symm⟩)⟩
  · -- real-time order
    have hle : ∀ {i j}, j < i → i < H.length → ver j ≤ ver i := fun h1 h2 => I.verMono _ _ (by omega) h2
    have rdl : ∀ {v x}, x ∈ reads v → x.1 < H.length := fun h => by obtain ⟨t, ht⟩ := I.rdCall _ _ h; exact hcl ht
    have upl : ∀ {m}, m < n → (ups m).1 < H.length := fun h => by obtain ⟨t, ht⟩ := I.upCall _ h; exact hcl ht
    apply order_pairwise
    · intro v hv
      refine List.Pairwise.imp_of_mem ?_ (I.rdOrd v)
      intro a b ha hb hab ⟨j, r, hr, hj⟩
      have h1 := (I.rdRet v b hb).2.2.2 j r hr
      have h2 := (I.rdRet v a ha).1
      omega
    · intro v w a b hvw hw ha hb ⟨j, r, hr, hj⟩
      have h1 := (I.rdRet w b hb).2.2.2 j r hr
      have h2 := (I.rdRet w b hb).2.2.1
      have h3 := hle hj (rdl ha)
      have h4 := I.rdVer v a ha
      rw [← h1] at h2; omega
    · intro v m a hv hm ha ⟨j, r, hr, hj⟩
      have h1 := I.upRet m j r hm hr
      have h3 := hle hj (rdl ha)
      have h4 := I.rdVer v a ha
      omega
    · intro v m b hm hv hb ⟨j, r, hr, hj⟩
      have h1 := (I.rdRet v b hb).2.2.2 j r hr
      have h2 := (I.rdRet v b hb).2.2.1
      have h3 := hle hj (upl (show m < n by omega))
      have h4 := I.upVer m (by omega)
      rw [← h1] at h2; omega
    · intro m m' hm hm' ⟨j, r, hr, hj⟩
      have h1 := I.upRet m' j r hm' hr
      have h3 := hle hj (upl (show m < n by omega))
      have h4 := I.upVer m (by omega)
      omega
  · -- sequential execution
    have key : ∀ m, m ≤ n → ∃ s, ss[m]? = some s ∧ Run step s0 ((order reads ups m).map (·.2)) s := by
      intro m
      induction m with
      | zero =>
        intro _
        refine ⟨s0, I.first, Run.same ?_⟩
        intro x hx
        rw [List.mem_map] at hx
        obtain ⟨y, hy, rfl⟩ := hx
        obtain ⟨s, h1, h2⟩ := I.rdStep 0 y hy
        rw [I.first] at h1; cases h1; exact h2
      | succ m ih =>
        intro hm
        obtain ⟨s, h1, h2⟩ := ih (by omega)
        obtain ⟨a, b, h3, h4, h5⟩ := I.upStep m (by omega)
        rw [h1] at h3; cases h3
        refine ⟨b, h4, ?_⟩
        simp only [order, List.map_append, List.map_cons]
        refine Run.append h2 (.cons h5 (Run.same ?_))
        intro x hx
        rw [List.mem_map] at hx
        obtain ⟨y, hy, rfl⟩ := hx
        obtain ⟨s'', h6, h7⟩ := I.rdStep (m + 1) y hy
        rw [h4] at h6; cases h6; exact h7
    obtain ⟨s, _, h⟩ := key n (Nat.le_refl _)
    exact ⟨s, h⟩

end Lin
end BwTree
