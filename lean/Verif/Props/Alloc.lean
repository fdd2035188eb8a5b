import Verif.Model.Alloc

/-! ### C24 – delta-node memory never overlaps -/

namespace BwTree
namespace Alloc

variable (L : Layout)

/-- Two byte ranges are disjoint. -/
def Disj (a : Int) (n : Nat) (b : Int) (m : Nat) : Prop := a + n ≤ b ∨ b + m ≤ a

structure Inv (first : Int) (s : State) : Prop where
  heapND : s.heap.Nodup
  heapD : ∀ b ∈ s.heap, ∀ b' ∈ s.heap, b ≠ b' → Disj b (blockSize L first b) b' (blockSize L first b')
  head : s.chunks[0]?.map Chunk.base = some first
  baseIn : ∀ ch ∈ s.chunks, ch.base ∈ s.heap
  baseND : (s.chunks.map Chunk.base).Nodup
  idx : ∀ t, match s.pc t with
    | .idle => True
    | .check c _ | .sub c _ | .grow c _ | .new c _ | .cas c _ _ => c < s.chunks.length
  casIn : ∀ t c sz b, s.pc t = .cas c sz b → b ∈ s.heap ∧ b ∉ s.chunks.map Chunk.base
  casD : ∀ t u c sz c' sz' b, s.pc t = .cas c sz b → s.pc u = .cas c' sz' b → t = u
  cover : ∀ b ∈ s.heap, b ∈ s.chunks.map Chunk.base ∨ ∃ t c sz, s.pc t = .cas c sz b
  tail : ∀ ch ∈ s.chunks, ch.tail ≤ ch.base + L.chunk
  inside : ∀ a ∈ s.allocs, ∃ ch ∈ s.chunks, ch.base + L.hdr ≤ a.1 ∧ ch.tail ≤ a.1 ∧ a.1 + a.2 ≤ ch.base + L.chunk
  disj : s.allocs.Pairwise (fun a b => Disj a.1 a.2 b.1 b.2)

theorem inv_init (base : Int) : Inv L base (init L base) := by
  constructor <;> simp [init]

theorem map_base_set {l : List Chunk} {c : Nat} {ch : Chunk} {x : Int} (h : l[c]? = some ch) :
    (l.set c { ch with tail := x }).map Chunk.base = l.map Chunk.base := by
  induction l generalizing c with
  | nil => simp at h
  | cons a l ih =>
    cases c with
    | zero => simp at h; subst h; simp
    | succ c => simp at h; simp [ih h]

theorem nodup_base_inj {l : List Chunk} (h : (l.map Chunk.base).Nodup) {i j : Nat} {a b : Chunk} (hi : l[i]? = some a)
    (hj : l[j]? = some b) (hab : a.base = b.base) : i = j := by
  induction l generalizing i j with
  | nil => simp at hi
  | cons x l ih =>
    simp only [List.map_cons, List.nodup_cons] at h
    cases i with
    | zero =>
      cases j with
      | zero => rfl
      | succ j =>
        simp at hi hj
        subst hi
        exact absurd (hab ▸ List.mem_map_of_mem (f := Chunk.base) (List.mem_of_getElem? hj)) h.1
    | succ i =>
      cases j with
      | zero =>
        simp at hi hj
        subst hj
        exact absurd (hab ▸ List.mem_map_of_mem (f := Chunk.base) (List.mem_of_getElem? hi)) h.1
      | succ j =>
        simp at hi hj
        rw [ih h.2 hi hj]

theorem blockSize_ge (first b : Int) : L.chunk ≤ blockSize L first b := by
  unfold blockSize; split <;> omega

theorem inv_step {first : Int} {s s' : State} {a : Act} (h : Inv L first s) (hs : step L first s a = some s') :
    Inv L first s' := by
  obtain ⟨heapND, heapD, head, baseIn, baseND, idx, casIn, casD, cover, tail, inside, disj⟩ := h
  cases a with
  | start t size =>
    simp only [step] at hs
    split at hs
    · rename_i hpc
      obtain rfl := Option.some.inj hs
      refine ⟨heapND, heapD, head, baseIn, baseND, ?_, ?_, ?_, ?_, tail, inside, disj⟩
      · intro u
        simp only [upd]
        by_cases hu : u = t
        · simp only [hu, if_true]
          cases hcs : s.chunks with
          | nil => simp [hcs] at head
          | cons _ _ => simp
        · simpa only [hu, if_false] using idx u
      · simp only [upd]; grind
      · simp only [upd]; grind
      · intro b hb
        rcases cover b hb with h | ⟨u, c, sz, h⟩
        · exact Or.inl h
        · refine Or.inr ⟨u, c, sz, ?_⟩
          have : u ≠ t := by rintro rfl; rw [hpc] at h; cases h
          simpa only [upd, this, if_false] using h
    · cases hs
  | check t =>
    simp only [step] at hs
    split at hs
    · rename_i c size hpc
      split at hs
      · rename_i ch hch
        have hx := idx t
        rw [hpc] at hx
        have key : ∀ p : PC, (p = .grow c size ∨ p = .sub c size) → Inv L first { s with pc := upd s.pc t p } := by
          intro p hp
          refine ⟨heapND, heapD, head, baseIn, baseND, ?_, ?_, ?_, ?_, tail, inside, disj⟩
          · intro u
            simp only [upd]
            by_cases hu : u = t
            · simp only [hu, if_true]
              rcases hp with rfl | rfl <;> exact hx
            · simpa only [hu, if_false] using idx u
          · simp only [upd]; grind
          · simp only [upd]; grind
          · intro b hb
            rcases cover b hb with h | ⟨u, c, sz, h⟩
            · exact Or.inl h
            · refine Or.inr ⟨u, c, sz, ?_⟩
              have : u ≠ t := by rintro rfl; rw [hpc] at h; cases h
              simpa only [upd, this, if_false] using h
        split at hs
        · obtain rfl := Option.some.inj hs
          exact key _ (Or.inl rfl)
        · obtain rfl := Option.some.inj hs
          exact key _ (Or.inr rfl)
      · cases hs
    · cases hs
  | sub t =>
    simp only [step] at hs
    split at hs
    · rename_i c size hpc
      split at hs
      · rename_i ch hch
        have hx := idx t
        rw [hpc] at hx
        have hmem : ch ∈ s.chunks := List.mem_of_getElem? hch
        have hb := map_base_set (x := ch.tail - size) hch
        have hset : ∀ x ∈ s.chunks.set c { ch with tail := ch.tail - size },
            x = { ch with tail := ch.tail - size } ∨ x ∈ s.chunks := by
          intro x hx
          rcases List.mem_or_eq_of_mem_set hx with h | h
          · exact Or.inr h
          · exact Or.inl h
        have hin : ∀ x ∈ s.chunks, ∃ y ∈ s.chunks.set c { ch with tail := ch.tail - size },
            y.base = x.base ∧ y.tail ≤ x.tail := by
          intro x hx
          obtain ⟨i, hi⟩ := List.getElem?_of_mem hx
          by_cases hic : i = c
          · subst hic
            rw [hch] at hi
            obtain rfl := Option.some.inj hi
            refine ⟨_, List.mem_set (List.getElem?_eq_some_iff.mp hch).1 _, rfl, ?_⟩
            simp only
            omega
          · refine ⟨x, ?_, rfl, by omega⟩
            have : (s.chunks.set c { ch with tail := ch.tail - size })[i]? = some x := by
              rw [List.getElem?_set_ne (fun h => hic h.symm)]; exact hi
            exact List.mem_of_getElem? this
        have key : ∀ (p : PC) (al : List (Int × Nat)), (p = .grow c size ∨ p = .idle) →
            (∀ a ∈ al, ∃ x ∈ s.chunks.set c { ch with tail := ch.tail - size },
              x.base + L.hdr ≤ a.1 ∧ x.tail ≤ a.1 ∧ a.1 + a.2 ≤ x.base + L.chunk) →
            al.Pairwise (fun a b => Disj a.1 a.2 b.1 b.2) →
            Inv L first { chunks := s.chunks.set c { ch with tail := ch.tail - size }, pc := upd s.pc t p, allocs := al,
                          heap := s.heap } := by
          intro p al hp h1 h2
          refine ⟨heapND, heapD, ?_, ?_, ?_, ?_, ?_, ?_, ?_, ?_, h1, h2⟩
          · simp only
            cases hcs : s.chunks with
            | nil => simp [hcs] at head
            | cons y ys =>
              rw [hcs] at head hch
              cases c with
              | zero => simp at hch head; subst hch; simp [head]
              | succ c => simpa using head
          · intro x hx
            rcases hset x hx with rfl | h
            · exact baseIn ch hmem
            · exact baseIn x h
          · simp only [hb]; exact baseND
          · intro u
            simp only [upd, List.length_set]
            by_cases hu : u = t
            · simp only [hu, if_true]
              rcases hp with rfl | rfl
              · exact hx
              · trivial
            · simpa only [hu, if_false] using idx u
          · simp only [upd, hb]; grind
          · simp only [upd]; grind
          · intro b hb'
            simp only [hb]
            rcases cover b hb' with h | ⟨u, c, sz, h⟩
            · exact Or.inl h
            · refine Or.inr ⟨u, c, sz, ?_⟩
              have : u ≠ t := by rintro rfl; rw [hpc] at h; cases h
              simpa only [upd, this, if_false] using h
          · intro x hx
            rcases hset x hx with rfl | h
            · have := tail ch hmem
              simp only
              omega
            · exact tail x h
        have hold : ∀ a ∈ s.allocs, ∃ x ∈ s.chunks.set c { ch with tail := ch.tail - size },
              x.base + L.hdr ≤ a.1 ∧ x.tail ≤ a.1 ∧ a.1 + a.2 ≤ x.base + L.chunk := by
          intro a ha
          obtain ⟨x, hx, h1, h2, h3⟩ := inside a ha
          obtain ⟨y, hy, h4, h5⟩ := hin x hx
          exact ⟨y, hy, by omega, by omega, by omega⟩
        split at hs
        · obtain rfl := Option.some.inj hs
          exact key _ _ (Or.inl rfl) hold disj
        · rename_i hnt
          obtain rfl := Option.some.inj hs
          have ht := tail ch hmem
          refine key _ _ (Or.inr rfl) ?_ ?_
          · intro a ha
            simp only [List.mem_cons] at ha
            rcases ha with rfl | ha
            · refine ⟨{ ch with tail := ch.tail - size }, List.mem_set hx _, ?_⟩
              simp only
              omega
            · exact hold a ha
          · rw [List.pairwise_cons]
            refine ⟨?_, disj⟩
            intro a ha
            obtain ⟨x, hx', h1, h2, h3⟩ := inside a ha
            obtain ⟨i, hi⟩ := List.getElem?_of_mem hx'
            by_cases hxc : x.base = ch.base
            · have := nodup_base_inj baseND hi hch hxc
              subst this
              rw [hch] at hi
              obtain rfl := Option.some.inj hi
              left
              simp only
              omega
            · have h4 := heapD _ (baseIn x hx') _ (baseIn ch hmem) hxc
              have h5 := blockSize_ge L first x.base
              have h6 := blockSize_ge L first ch.base
              unfold Disj at *
              simp only
              omega
      · cases hs
    · cases hs
  | grow t =>
    simp only [step] at hs
    split at hs
    · rename_i c size hpc
      have hx := idx t
      rw [hpc] at hx
      have key : ∀ p : PC, (p = .new c size ∨ (c + 1 < s.chunks.length ∧ p = .check (c + 1) size)) →
          Inv L first { s with pc := upd s.pc t p } := by
        intro p hp
        refine ⟨heapND, heapD, head, baseIn, baseND, ?_, ?_, ?_, ?_, tail, inside, disj⟩
        · intro u
          simp only [upd]
          by_cases hu : u = t
          · simp only [hu, if_true]
            rcases hp with rfl | ⟨h, rfl⟩
            · exact hx
            · exact h
          · simpa only [hu, if_false] using idx u
        · simp only [upd]; grind
        · simp only [upd]; grind
        · intro b hb
          rcases cover b hb with h | ⟨u, c, sz, h⟩
          · exact Or.inl h
          · refine Or.inr ⟨u, c, sz, ?_⟩
            have : u ≠ t := by rintro rfl; rw [hpc] at h; cases h
            simpa only [upd, this, if_false] using h
      split at hs
      · rename_i hlt
        obtain rfl := Option.some.inj hs
        exact key _ (Or.inr ⟨hlt, rfl⟩)
      · obtain rfl := Option.some.inj hs
        exact key _ (Or.inl rfl)
    · cases hs
  | new t base =>
    simp only [step] at hs
    split at hs
    · rename_i c size hpc
      have hx := idx t
      rw [hpc] at hx
      split at hs
      · rename_i hfresh
        obtain rfl := Option.some.inj hs
        simp only [Bool.and_eq_true, List.all_eq_true, decide_eq_true_eq] at hfresh
        obtain ⟨hfr, hne⟩ := hfresh
        have hpos : 0 < L.chunk := Nat.lt_of_lt_of_le L.pos L.le
        have hnin : base ∉ s.heap := by
          intro hin
          have := hfr base hin
          have := blockSize_ge L first base
          omega
        have hbs : blockSize L first base = L.chunk := by simp [blockSize, hne]
        refine ⟨?_, ?_, head, ?_, baseND, ?_, ?_, ?_, ?_, tail, inside, disj⟩
        · exact List.nodup_cons.mpr ⟨hnin, heapND⟩
        · intro b hb b' hb' hbb
          simp only [List.mem_cons] at hb hb'
          rcases hb with rfl | hb
          · rcases hb' with rfl | hb'
            · exact absurd rfl hbb
            · have := hfr b' hb'
              unfold Disj; rw [hbs]; omega
          · rcases hb' with rfl | hb'
            · have := hfr b hb
              unfold Disj; rw [hbs]; omega
            · exact heapD b hb b' hb' hbb
        · intro x hx; simp [baseIn x hx]
        · intro u
          simp only [upd]
          by_cases hu : u = t
          · simp only [hu, if_true]; exact hx
          · simpa only [hu, if_false] using idx u
        · intro u c' sz b hu
          by_cases hut : u = t
          · simp only [upd, hut, if_true, PC.cas.injEq] at hu
            obtain ⟨-, -, rfl⟩ := hu
            refine ⟨by simp, ?_⟩
            intro hb
            obtain ⟨x, hx, hxb⟩ := List.mem_map.mp hb
            exact hnin (hxb ▸ baseIn x hx)
          · simp only [upd, hut, if_false] at hu
            have := casIn u c' sz b hu
            exact ⟨by simp [this.1], this.2⟩
        · intro u v c1 z1 c2 z2 b hu hv
          by_cases hut : u = t
          · by_cases hvt : v = t
            · rw [hut, hvt]
            · simp only [upd, hut, hvt, if_true, if_false, PC.cas.injEq] at hu hv
              obtain ⟨-, -, rfl⟩ := hu
              exact absurd (casIn v _ _ _ hv).1 hnin
          · by_cases hvt : v = t
            · simp only [upd, hut, hvt, if_true, if_false, PC.cas.injEq] at hu hv
              obtain ⟨-, -, rfl⟩ := hv
              exact absurd (casIn u _ _ _ hu).1 hnin
            · simp only [upd, hut, hvt, if_false] at hu hv
              exact casD u v _ _ _ _ b hu hv
        · intro b hb
          simp only [List.mem_cons] at hb
          rcases hb with rfl | hb
          · exact Or.inr ⟨t, c, size, by simp [upd]⟩
          · rcases cover b hb with h | ⟨u, c', sz, h⟩
            · exact Or.inl h
            · refine Or.inr ⟨u, c', sz, ?_⟩
              have : u ≠ t := by rintro rfl; rw [hpc] at h; cases h
              simpa only [upd, this, if_false] using h
      · cases hs
    · cases hs
  | cas t =>
    simp only [step] at hs
    split at hs
    · rename_i c size base hpc
      have hx := idx t
      rw [hpc] at hx
      obtain ⟨hbin, hbn⟩ := casIn t _ _ _ hpc
      split at hs
      · rename_i hlen
        obtain rfl := Option.some.inj hs
        refine ⟨heapND, heapD, ?_, ?_, ?_, ?_, ?_, ?_, ?_, ?_, ?_, disj⟩
        · cases hcs : s.chunks with
          | nil => simp [hcs] at head
          | cons y ys => rw [hcs] at head; simpa using head
        · intro x hx
          simp only [List.mem_append, List.mem_singleton] at hx
          rcases hx with hx | rfl
          · exact baseIn x hx
          · exact hbin
        · simp only [List.map_append, List.map_cons, List.map_nil]
          rw [List.nodup_append]
          refine ⟨baseND, by simp, ?_⟩
          intro x hxm y hy
          simp only [List.mem_singleton] at hy
          rintro rfl
          exact hbn (hy ▸ hxm)
        · intro u
          simp only [upd, List.length_append, List.length_singleton]
          by_cases hu : u = t
          · simp only [hu, if_true]; omega
          · have := idx u
            simp only [hu, if_false]
            revert this
            cases s.pc u <;> simp <;> omega
        · intro u c' sz b hu
          by_cases hut : u = t
          · simp only [upd, hut, if_true] at hu; cases hu
          · simp only [upd, hut, if_false] at hu
            have h1 := casIn u c' sz b hu
            refine ⟨h1.1, ?_⟩
            simp only [List.map_append, List.map_cons, List.map_nil, List.mem_append, List.mem_singleton, not_or]
            refine ⟨h1.2, ?_⟩
            rintro rfl
            exact hut (casD u t _ _ _ _ _ hu hpc)
        · simp only [upd]; grind
        · intro b hb
          rcases cover b hb with h | ⟨u, c', sz, h⟩
          · left; simp only [List.map_append, List.mem_append]; exact Or.inl h
          · by_cases hut : u = t
            · subst hut
              rw [hpc] at h
              simp only [PC.cas.injEq] at h
              left; simp [h.2.2]
            · refine Or.inr ⟨u, c', sz, ?_⟩
              simpa only [upd, hut, if_false] using h
        · intro x hx
          simp only [List.mem_append, List.mem_singleton] at hx
          rcases hx with hx | rfl
          · exact tail x hx
          · simp only; omega
        · intro a ha
          obtain ⟨x, hx, h⟩ := inside a ha
          exact ⟨x, by simp [hx], h⟩
      · rename_i hlen
        obtain rfl := Option.some.inj hs
        have hne : ∀ x ∈ s.chunks.map Chunk.base, x ≠ base := fun x hxm h => hbn (h ▸ hxm)
        refine ⟨heapND.erase _, ?_, head, ?_, baseND, ?_, ?_, ?_, ?_, tail, inside, disj⟩
        · intro b hb b' hb' hbb
          exact heapD b (List.mem_of_mem_erase hb) b' (List.mem_of_mem_erase hb') hbb
        · intro x hx
          exact (List.mem_erase_of_ne (hne _ (List.mem_map_of_mem hx))).mpr (baseIn x hx)
        · intro u
          simp only [upd]
          by_cases hu : u = t
          · simp only [hu, if_true]; omega
          · simpa only [hu, if_false] using idx u
        · intro u c' sz b hu
          by_cases hut : u = t
          · simp only [upd, hut, if_true] at hu; cases hu
          · simp only [upd, hut, if_false] at hu
            have h1 := casIn u c' sz b hu
            refine ⟨(List.mem_erase_of_ne ?_).mpr h1.1, h1.2⟩
            rintro rfl
            exact hut (casD u t _ _ _ _ _ hu hpc)
        · simp only [upd]; grind
        · intro b hb
          rcases cover b (List.mem_of_mem_erase hb) with h | ⟨u, c', sz, h⟩
          · exact Or.inl h
          · refine Or.inr ⟨u, c', sz, ?_⟩
            have hut : u ≠ t := by
              rintro rfl
              rw [hpc] at h
              simp only [PC.cas.injEq] at h
              obtain ⟨-, -, rfl⟩ := h
              exact (List.Nodup.not_mem_erase heapND) hb
            simpa only [upd, hut, if_false] using h
    · cases hs

theorem inv_run {first : Int} : ∀ {as : List Act} {s s' : State}, Inv L first s → run L first s as = some s' → Inv L first s'
  | [], s, s', h, hr => by simp [run] at hr; subst hr; exact h
  | a :: as, s, s', h, hr => by
    simp only [run] at hr
    cases hs : step L first s a with
    | none => simp [hs] at hr
    | some s1 =>
      simp only [hs, Option.bind_some] at hr
      exact inv_run (inv_step L h hs) hr

/-- **C24.** However many threads allocate concurrently: any two allocations are disjoint. -/
theorem C24_disjoint (first : Int) (as : List Act) {s : State} (hr : run L first (init L first) as = some s) :
    s.allocs.Pairwise (fun a b => Disj a.1 a.2 b.1 b.2) :=
  (inv_run L (inv_init L first) hr).disj

/-- **C24.** Every allocation lies inside a chunk of the list, behind the chunk's header, and does not touch the node that
follows the first chunk. -/
theorem C24_inside (first : Int) (as : List Act) {s : State} (hr : run L first (init L first) as = some s)
    (a : Int) (n : Nat) (ha : (a, n) ∈ s.allocs) :
    (∃ ch ∈ s.chunks, ch.base + L.hdr ≤ a ∧ a + n ≤ ch.base + L.chunk) ∧ Disj a n (first + L.chunk) L.node := by
  have hi := inv_run L (inv_init L first) hr
  obtain ⟨ch, hch, h1, -, h3⟩ := hi.inside _ ha
  refine ⟨⟨ch, hch, h1, h3⟩, ?_⟩
  by_cases hb : ch.base = first
  · left; simp only at h3; omega
  · have hf : first ∈ s.heap := by
      have := hi.head
      cases hcs : s.chunks with
      | nil => simp [hcs] at this
      | cons y ys =>
        simp [hcs] at this
        rw [← this]
        exact hi.baseIn y (by simp [hcs])
    have h4 := hi.heapD _ (hi.baseIn ch hch) _ hf hb
    have h5 : blockSize L first first = L.chunk + L.node := by simp [blockSize]
    have h6 : blockSize L first ch.base = L.chunk := by simp [blockSize, hb]
    have h7 := L.le
    rw [h5, h6] at h4
    simp only at h1 h3
    unfold Disj at *
    omega

theorem destroy_perm : ∀ (cs : List Chunk) (heap : List Int), heap.Perm (cs.map Chunk.base) → destroy cs heap = some []
  | [], heap, h => by simp at h; simp [destroy, h]
  | c :: cs, heap, h => by
    have hin : c.base ∈ heap := h.symm.subset (by simp)
    simp only [destroy, hin, if_true]
    apply destroy_perm
    have := h.erase c.base
    simpa using this

/-- **C24.** When no allocation is in progress, `Destroy` deletes every block exactly once: chunks that lost the race to be
installed have been deleted already and no installed chunk is lost. -/
theorem C24_destroy (first : Int) (as : List Act) {s : State} (hr : run L first (init L first) as = some s)
    (hidle : ∀ t, s.pc t = .idle) : destroy s.chunks s.heap = some [] := by
  have hi := inv_run L (inv_init L first) hr
  apply destroy_perm
  refine (List.perm_ext_iff_of_nodup hi.heapND hi.baseND).mpr ?_
  intro b
  constructor
  · intro hb
    rcases hi.cover b hb with h | ⟨t, c, sz, h⟩
    · exact h
    · rw [hidle t] at h; cases h
  · intro hb
    obtain ⟨x, hx, rfl⟩ := List.mem_map.mp hb
    exact hi.baseIn x hx

/-- Non-vacuity: two threads race to install the second chunk; both then allocate from it. -/
def demoLayout : Layout := ⟨24, 104, 200, by decide, by decide⟩
def demo : List Act :=
  [.start 1 40, .check 1, .sub 1, .start 1 30, .check 1, .sub 1,
   .start 1 40, .start 2 40, .check 1, .check 2, .sub 1, .sub 2, .grow 1, .grow 2, .new 1 5000, .new 2 6000, .cas 2, .cas 1,
   .check 1, .check 2, .sub 1, .sub 2]
example : (run demoLayout 1000 (init demoLayout 1000) demo).map (fun s => (s.allocs, s.heap, destroy s.chunks s.heap)) =
    some ([(6024, 40), (6064, 40), (1034, 30), (1064, 40)], [6000, 1000], some []) := by decide +kernel

end Alloc
end BwTree
