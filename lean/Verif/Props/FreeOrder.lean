import Verif.Model.FreeOrder
import Verif.Props.KeyRef
import Verif.Props.TreeDestroy

/-!
  C34 and C40 for the chains of the tree: destroying a chain uses only memory that was not given back before if it has no merge record, and only then.
-/

namespace BwTree
namespace Tree

variable {K V : Type} [LinearOrder K] [DecidableEq V] [Inhabited K] {m : Mem K V}

/-- The record at `e` is a merge record. -/
def MergeAt (m : Mem K V) (e : Ptr) : Prop := ∃ n, m.heap e = some n ∧ n.isMerge = true

/-- The records of a chain: a base node, a record with one record below, a merge record with the two branches. -/
theorem plain_view (hk : Kids m) {p : Nat} {n : Node K V} (hp : m.heap p = some n) (hn : n.Plain) : n.isRemove = false ∧ n.isAbort = false ∧
    ((n.isBase = true ∧ n.isMerge = false ∧ m.follow p = []) ∨
    (∃ (q : Nat) (n' : Node K V), n.isBase = false ∧ n.isMerge = false ∧ m.kids p = [q] ∧ m.follow p = [q] ∧ q < p ∧ m.heap q = some n' ∧ n'.Plain) ∨
    ∃ (l y : Nat) (n1 n2 : Node K V), n.isBase = false ∧ n.isMerge = true ∧ (∃ r, m.kids p = [l, r]) ∧ m.follow p = [l, y] ∧ l < p ∧ y < p ∧
      m.heap l = some n1 ∧ m.heap y = some n2 ∧ n1.Plain ∧ n2.Plain) := by
  obtain ⟨hc, hl⟩ := hk p n hp
  have one : ∀ (o : Nat) (n' : Node K V), n.isRemove = false → n.isAbort = false → m.kids p = [o] → m.heap o = some n' → n'.Plain → n.isBase = false → n.isMerge = false →
      ∃ (q : Nat) (n' : Node K V), n.isBase = false ∧ n.isMerge = false ∧ m.kids p = [q] ∧ m.follow p = [q] ∧ q < p ∧ m.heap q = some n' ∧ n'.Plain := by
    intro o n' k1 k2 k3 k4 k5 k6 k7
    exact ⟨o, n', k6, k7, k3, by rw [follow_one hp k6 k1 k2 k7]; exact k3, (hl o (by rw [k3]; exact List.mem_cons_self)).1, k4, k5⟩
  have two : ∀ (o q : Nat) (l r rm : Node K V), m.kids p = [o, q] → m.heap o = some l → m.heap q = some rm →
      (∃ y : Nat, m.kids q = [y] ∧ m.heap y = some r) → l.Plain → r.Plain → n.isBase = false → n.isMerge = true → n.isRemove = false → n.isAbort = false →
      ∃ (l y : Nat) (n1 n2 : Node K V), n.isBase = false ∧ n.isMerge = true ∧ (∃ r, m.kids p = [l, r]) ∧ m.follow p = [l, y] ∧ l < p ∧ y < p ∧
        m.heap l = some n1 ∧ m.heap y = some n2 ∧ n1.Plain ∧ n2.Plain := by
    rintro o q l r rm k1 k2 k3 ⟨y, y1, y2⟩ k6 k7 k8 k9 k10 k11
    have hq : q < p := (hl q (by rw [k1]; right; exact List.mem_cons_self)).1
    have hy : (y : Nat) < q := ((hk q rm k3).2 y (by rw [y1]; exact List.mem_cons_self)).1
    exact ⟨o, y, l, r, k8, k9, ⟨q, k1⟩, by simp [Mem.follow, hp, k8, k9, k10, k11, k1, y1], (hl o (by rw [k1]; exact List.mem_cons_self)).1, by omega, k2, y2, k6, k7⟩
  cases n with
  | leaf c =>
    cases c with
    | base => exact ⟨rfl, rfl, .inl ⟨rfl, rfl, by simp [Mem.follow, hp, Node.isBase]⟩⟩
    | ins k v i e c => obtain ⟨o, h1, h2⟩ := hc; exact ⟨rfl, rfl, .inr (.inl (one o (.leaf c) rfl rfl h1 h2 hn rfl rfl))⟩
    | del k v i e c => obtain ⟨o, h1, h2⟩ := hc; exact ⟨rfl, rfl, .inr (.inl (one o (.leaf c) rfl rfl h1 h2 hn rfl rfl))⟩
    | split k i s c => obtain ⟨o, h1, h2⟩ := hc; exact ⟨rfl, rfl, .inr (.inl (one o (.leaf c) rfl rfl h1 h2 hn rfl rfl))⟩
    | merge k i r c =>
      obtain ⟨o, q, j, h1, h2, h3⟩ := hc
      obtain ⟨y, y1, y2⟩ := (hk q _ h3).1
      exact ⟨rfl, rfl, .inr (.inr (two o q (.leaf c) (.leaf r) _ h1 h2 h3 ⟨y, y1, y2⟩ hn.2 hn.1 rfl rfl rfl rfl))⟩
    | remove i c => exact hn.elim
  | inner c =>
    cases c with
    | base => exact ⟨rfl, rfl, .inl ⟨rfl, rfl, by simp [Mem.follow, hp, Node.isBase]⟩⟩
    | ins item next loc c => obtain ⟨o, h1, h2⟩ := hc; exact ⟨rfl, rfl, .inr (.inl (one o (.inner c) rfl rfl h1 h2 hn rfl rfl))⟩
    | del item prev next loc c => obtain ⟨o, h1, h2⟩ := hc; exact ⟨rfl, rfl, .inr (.inl (one o (.inner c) rfl rfl h1 h2 hn rfl rfl))⟩
    | split item s c => obtain ⟨o, h1, h2⟩ := hc; exact ⟨rfl, rfl, .inr (.inl (one o (.inner c) rfl rfl h1 h2 hn rfl rfl))⟩
    | merge k i r c =>
      obtain ⟨o, q, j, h1, h2, h3⟩ := hc
      obtain ⟨y, y1, y2⟩ := (hk q _ h3).1
      exact ⟨rfl, rfl, .inr (.inr (two o q (.inner c) (.inner r) _ h1 h2 h3 ⟨y, y1, y2⟩ hn.2 hn.1 rfl rfl rfl rfl))⟩
    | remove i c => exact hn.elim
    | abort q c => exact hn.elim

theorem lowRef_fuel (hk : Kids m) : ∀ (N p f f' : Nat), p < N → p < f → p < f' → m.lowRef f p = m.lowRef f' p
  | 0, _, _, _, h, _, _ => absurd h (Nat.not_lt_zero _)
  | N + 1, p, 0, _, _, h, _ => absurd h (Nat.not_lt_zero _)
  | N + 1, p, _, 0, _, _, h => absurd h (Nat.not_lt_zero _)
  | N + 1, p, f + 1, f' + 1, hN, hf, hf' => by
    unfold Mem.lowRef
    cases hp : m.heap p with
    | none => rfl
    | some n =>
      simp only
      cases n.isBase
      · simp only [Bool.false_eq_true, if_false]
        cases hq : m.kids p with
        | nil => rfl
        | cons q qs =>
          have h : (q : Nat) < p := ((hk p n hp).2 q (by rw [hq]; exact List.mem_cons_self)).1
          exact lowRef_fuel hk N q f f' (Nat.lt_of_lt_of_le h (Nat.le_of_lt_succ hN)) (Nat.lt_of_lt_of_le h (Nat.le_of_lt_succ hf))
            (Nat.lt_of_lt_of_le h (Nat.le_of_lt_succ hf'))
      · rfl

/-- The base node found through the low key pointer. -/
def Mem.home (m : Mem K V) (p : Nat) : Option Ptr := m.inlineHome (p + 1) p

/-- It is the same for a record and the (left) record below it. -/
theorem home_kid (hk : Kids m) {p q : Nat} {n : Node K V} {qs : List Ptr} (hp : m.heap p = some n) (h1 : n.isBase = false) (hq : m.kids p = q :: qs) :
    m.home p = m.home q := by
  have h : (q : Nat) < p := ((hk p n hp).2 q (by rw [hq]; exact List.mem_cons_self)).1
  have : m.lowRef (p + 1) p = m.lowRef (q + 1) q := by
    rw [← lowRef_fuel hk (q + 1) q p (q + 1) (by omega) h (by omega)]
    conv => lhs; unfold Mem.lowRef
    simp only [hp, h1, hq, Bool.false_eq_true, if_false]
  simp only [Mem.home, Mem.inlineHome, this]

theorem home_base {p : Nat} {n : Node K V} (hp : m.heap p = some n) (h1 : n.isBase = true) : m.home p = some p := by
  simp [Mem.home, hp, h1, Mem.inlineHome, Mem.lowRef]

theorem block_home {p : Nat} {n : Node K V} (hp : m.heap p = some n) (h1 : n.isMerge = false) (h2 : n.isRemove = false) (h3 : n.isAbort = false) :
    m.block p = m.home p := by
  simp [Mem.block, hp, h1, h2, h3, Mem.home]

theorem block_merge {p l y : Nat} {n : Node K V} (hp : m.heap p = some n) (h1 : n.isMerge = true) (h2 : n.isRemove = false) (h3 : n.isAbort = false)
    (h4 : m.follow p = [l, y]) : m.block p = m.home y := by
  simp [Mem.block, hp, h1, h2, h3, h4, Mem.home]

/-- The base node is one of the records of the chain. -/
theorem home_plain (hk : Kids m) {p f : Nat} {n : Node K V} (hp : m.heap p = some n) (hn : n.Plain) (hf : p < f) : ∃ b, m.home p = some b ∧ b ∈ m.cells f p := by
  obtain ⟨⟨e, e1, _, e3⟩, _⟩ := refs_plain hk (p + 1) p n (Nat.lt_succ_self _) hp hn f hf
  rw [lowRef_fuel hk (p + 1) p f (p + 1) (Nat.lt_succ_self _) hf (Nat.lt_succ_self _)] at e1
  exact ⟨e, by simp [Mem.home, Mem.inlineHome, e1], e3⟩

/-- Destroying a chain none of whose records was given back before: it either succeeds, and gives back the base node of the chain, or the destructor of a merge
record is run after its memory was given back. -/
theorem free_plain (hk : Kids m) : ∀ (N p f : Nat) (n : Node K V) (gone : List Ptr), p < N → p < f → m.heap p = some n → n.Plain → (m.cells f p).Nodup →
    (∀ e ∈ m.cells f p, e ∉ gone) → (∃ b, m.home p = some b ∧ m.freeEpoch f p gone = .ok (b :: gone) ∧ ∀ e ∈ m.cells f p, ¬ MergeAt m e) ∨
    ∃ q, m.freeEpoch f p gone = .error (.dtor q) ∧ q ∈ m.cells f p ∧ MergeAt m q
  | 0, _, _, _, _, h, _, _, _, _, _ => absurd h (Nat.not_lt_zero _)
  | N + 1, p, 0, _, _, _, h, _, _, _, _ => absurd h (Nat.not_lt_zero _)
  | N + 1, p, f + 1, n, gone, hN, hf, hp, hn, hd, hg => by
    have nomerge : n.isMerge = false → ¬ MergeAt m p := by
      rintro h ⟨x, hx, hm⟩
      rw [hp] at hx; cases hx
      rw [h] at hm; cases hm
    obtain ⟨b0, hb0, hc0⟩ := home_plain hk hp hn hf
    have hg0 := hg b0 hc0
    obtain ⟨a1, a2, h | ⟨q, n', h1, h2, h3, h4, h5, h6, h7⟩ | ⟨l, y, n1, n2, h1, h2, ⟨r, h3⟩, h4, h5, h6, h7, h8, h9, h10⟩⟩ := plain_view hk hp hn
    · obtain ⟨h1, h2, h3⟩ := h
      have hb := home_base hp h1
      rw [hb] at hb0; cases hb0
      have hu : m.usable gone p = true := by simp [Mem.usable, block_home hp h2 a1 a2, hb, hg0]
      refine .inl ⟨p, hb, by simp [Mem.freeEpoch, hu, hp, h1], fun e he => ?_⟩
      simp only [Mem.cells, h3, List.flatMap_nil, List.mem_singleton] at he
      subst he
      exact nomerge h2
    · have hb := home_kid hk hp h1 h3
      have hc : m.cells (f + 1) p = p :: m.cells f q := by simp [Mem.cells, h4]
      have hu : m.usable gone p = true := by simp [Mem.usable, block_home hp h2 a1 a2, hb0, hg0]
      have hs : m.freeEpoch (f + 1) p gone = m.freeEpoch f q gone := by simp [Mem.freeEpoch, hu, hp, h1, a1, a2, h4]
      rw [hc] at hd hg ⊢
      rw [hs, hb]
      rcases free_plain hk N q f n' gone (by omega) (by omega) h6 h7 (List.nodup_cons.mp hd).2 (fun e he => hg e (List.mem_cons_of_mem _ he)) with
        ⟨b, b1, b2, b3⟩ | ⟨x, b2, b3, b4⟩
      · refine .inl ⟨b, b1, b2, fun e he => ?_⟩
        rcases List.mem_cons.mp he with rfl | he
        · exact nomerge h2
        · exact b3 e he
      · exact .inr ⟨x, b2, List.mem_cons_of_mem _ b3, b4⟩
    · have hc : m.cells (f + 1) p = p :: (m.cells f l ++ m.cells f y) := by simp [Mem.cells, h4]
      have hbm := block_merge hp h2 a1 a2 h4
      obtain ⟨by0, hy0, hyc⟩ := home_plain hk h8 h10 (show y < f by omega)
      obtain ⟨bl0, hl0, hlc⟩ := home_plain hk h7 h9 (show l < f by omega)
      rw [hc] at hd hg ⊢
      obtain ⟨hd1, hd2, hd3⟩ := List.nodup_append.mp (List.nodup_cons.mp hd).2
      have hgl : ∀ e ∈ m.cells f l, e ∉ gone := fun e he => hg e (List.mem_cons_of_mem _ (List.mem_append_left _ he))
      have hgy : ∀ e ∈ m.cells f y, e ∉ gone := fun e he => hg e (List.mem_cons_of_mem _ (List.mem_append_right _ he))
      have hu : m.usable gone p = true := by simp [Mem.usable, hbm, hy0, hgy by0 hyc]
      rcases free_plain hk N l f n1 gone (by omega) (by omega) h7 h9 hd1 hgl with ⟨b, b1, b2, b3⟩ | ⟨x, b2, b3, b4⟩
      · rw [hl0] at b1; cases b1
        have hne : ∀ e ∈ m.cells f y, e ∉ bl0 :: gone := fun e he h => by
          rcases List.mem_cons.mp h with rfl | h
          · exact hd3 _ hlc _ he rfl
          · exact hgy e he h
        have hu2 : m.usable (bl0 :: gone) p = true := by
          have := hne by0 hyc
          simp only [List.mem_cons, not_or] at this
          simp [Mem.usable, hbm, hy0, this.1, this.2]
        rcases free_plain hk N y f n2 (bl0 :: gone) (by omega) (by omega) h8 h10 hd2 hne with ⟨b, c1, c2, c3⟩ | ⟨x, c2, c3, c4⟩
        · rw [hy0] at c1; cases c1
          have hu3 : m.usable (by0 :: bl0 :: gone) p = false := by simp [Mem.usable, hbm, hy0]
          exact .inr ⟨p, by simp [Mem.freeEpoch, hu, hp, h1, a1, a2, h4, b2, hu2, c2, hu3], List.mem_cons_self, n, hp, h2⟩
        · exact .inr ⟨x, by simp [Mem.freeEpoch, hu, hp, h1, a1, a2, h4, b2, hu2, c2], List.mem_cons_of_mem _ (List.mem_append_right _ c3), c4⟩
      · exact .inr ⟨x, by simp [Mem.freeEpoch, hu, hp, h1, a1, a2, h4, b2], List.mem_cons_of_mem _ (List.mem_append_left _ b3), b4⟩

/-- Without a merge record all records of a chain lie in the same memory. -/
theorem block_cells (hk : Kids m) : ∀ (N p f : Nat) (n : Node K V), p < N → m.heap p = some n → n.Plain → (∀ e ∈ m.cells f p, ¬ MergeAt m e) →
    ∀ e ∈ m.cells f p, m.block e = m.home p
  | 0, _, _, _, h, _, _, _ => absurd h (Nat.not_lt_zero _)
  | N + 1, p, 0, _, _, _, _, _ => fun e he => by cases he
  | N + 1, p, f + 1, n, hN, hp, hn, hm => by
    intro e he
    obtain ⟨a1, a2, ⟨_, h2, h3⟩ | ⟨q, n', h1, h2, h3, h4, h5, h6, h7⟩ | ⟨l, y, n1, n2, h1, h2, _⟩⟩ := plain_view hk hp hn
    · simp only [Mem.cells, h3, List.flatMap_nil, List.mem_singleton] at he
      rw [he]
      exact block_home hp h2 a1 a2
    · have hb := home_kid hk hp h1 h3
      have hc : m.cells (f + 1) p = p :: m.cells f q := by simp [Mem.cells, h4]
      rw [hc] at he hm
      rcases List.mem_cons.mp he with rfl | he
      · exact block_home hp h2 a1 a2
      · rw [hb]
        exact block_cells hk N q f n' (by omega) h6 h7 (fun e he => hm e (List.mem_cons_of_mem _ he)) e he
    · exact absurd ⟨n, hp, h2⟩ (hm p List.mem_cons_self)

theorem heap_later {c c' : Conf K V} (h : Reach c) (hl : Later c c') {p : Ptr} {n : Node K V} (hp : c.mem.heap p = some n) : c'.mem.heap p = some n := by
  induction hl with
  | refl => exact hp
  | step hl hs ih =>
    obtain ⟨w, hw⟩ := good_of_reach (reach_later h hl)
    obtain ⟨w', hw', _, _, hm⟩ := good_step hw hs
    rw [← hw.mem] at ih
    rw [← hw'.mem]
    exact hm.heap _ _ ih

/-- The memory of a chain has an owner for each record. -/
theorem free_world {w : World K V} (hi : Inv w) {p : Nat} {n : Node K V} (hp : w.mem.heap p = some n) (hn : n.Plain) (hv : ¬ (w.ow p).Hidden) {f : Nat} (hf : p < f) :
    ((∀ e ∈ w.mem.cells f p, ¬ MergeAt w.mem e) ∧ ∃ b, w.mem.freeEpoch f p [] = .ok [b] ∧ ∀ e ∈ w.mem.cells f p, w.mem.block e = some b) ∨
    ∃ q ∈ w.mem.cells f p, MergeAt w.mem q ∧ w.mem.freeEpoch f p [] = .error (.dtor q) := by
  have hk : Kids w.mem := hi.ow.klt
  rcases free_plain hk (p + 1) p f n [] (Nat.lt_succ_self _) hf hp hn (cells_nodup hi.ow f hv) (fun e _ => List.not_mem_nil) with ⟨b, b1, b2, b3⟩ | ⟨q, b1, b2, b3⟩
  · exact .inl ⟨b3, b, b2, fun e he => (block_cells hk (p + 1) p f n (Nat.lt_succ_self _) hp hn b3 e he).trans b1⟩
  · exact .inr ⟨q, b2, b3, b1⟩

/-- What C34 says of chains, for the chains of the tree. The tree named `id` (at `c`), its entry led to the node at `p` (at `c'`), which has no remove or abort
record on top; whenever `FreeEpochDeltaChain` destroys this chain (`c''`): if it has no merge record, no record is used after its memory was given back, and in
the end the memory of the whole chain is given back, which is that of one base node; if it has one, the destructor of a merge record runs in memory that was
given back, and nothing goes wrong before. -/
theorem C34_tree_chain {c c' c'' : Conf K V} (h : Reach c) (hl : Later c c') (hl' : Later c' c'') {id : NodeId} (hn : Named c.mem id) {p : Nat} {n : Node K V}
    (hp : c'.mem.table id = some p) (hh : c'.mem.heap p = some n) (h1 : n.isRemove = false) (h2 : n.isAbort = false) {f : Nat} (hf : p < f) :
    ((∀ e ∈ c''.mem.cells f p, ¬ MergeAt c''.mem e) ∧ ∃ b, c''.mem.freeEpoch f p [] = .ok [b] ∧ ∀ e ∈ c''.mem.cells f p, c''.mem.block e = some b) ∨
    ∃ q ∈ c''.mem.cells f p, MergeAt c''.mem q ∧ c''.mem.freeEpoch f p [] = .error (.dtor q) := by
  obtain ⟨w, hw⟩ := good_of_reach h
  rw [← hw.mem] at hn
  obtain ⟨x, hx, hd⟩ := named_info hw.inv hn
  obtain ⟨w', hw', hx', _⟩ := load_later h hl hw hx hd
  have hh' := hh
  rw [← hw'.mem] at hp hh'
  obtain ⟨hpub, hok⟩ := hw'.inv.at_ok hx' (⟨hp, hh'⟩ : w'.At id p n)
  have hb := body_plain hok.1
  have hpl : n.Plain := by
    cases n with
    | leaf c => cases c <;> first | exact hb | exact Bool.noConfusion h1
    | inner c => cases c <;> first | exact hb | exact Bool.noConfusion h1 | exact Bool.noConfusion h2
  have hr := reach_later h hl
  have hh2 := heap_later hr hl' hh
  have hpub2 : ∃ w2, Good c'' w2 ∧ w2.pub id p := by
    clear hh2
    induction hl' with
    | refl => exact ⟨w', hw', hpub⟩
    | step hl hs ih =>
      obtain ⟨w2, h3, h4⟩ := ih
      obtain ⟨w3, h5, _, _, hm⟩ := good_step h3 hs
      exact ⟨w3, h5, hm.pub _ _ h4⟩
  obtain ⟨w2, hw2, hp2⟩ := hpub2
  rw [← hw2.mem] at hh2 ⊢
  exact free_world hw2.inv hh2 hpl (hw2.inv.ow.pub id p hp2) hf

end Tree
end BwTree
