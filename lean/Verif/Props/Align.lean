import Verif.Model.Alloc

/-!
  C50. Where nodes and records are placed relative to the alignment of key and value types.

  In C++ the size of a type is a multiple of its alignment, and an object at an address that is not a multiple of its alignment is undefined behaviour. `new char[]`
  returns addresses that are multiples of 16 (`__STDCPP_DEFAULT_NEW_ALIGNMENT__` on the platforms the code is built for).
-/

namespace BwTree
namespace Alloc

/-- `AllocationMeta` (1896-1911) has three pointers, 24 bytes; `CHUNK_SIZE` (1900) is 8 times the size `u` of `DeltaNodeUnion` (1878-1891) plus 24. The node with its
items takes `node` bytes. -/
def ptrLayout (u node : Nat) : Layout where
  hdr := 24
  chunk := u * 8 + 24
  node := node
  pos := by decide
  le := Nat.le_add_left _ _

/-- All requested sizes are multiples of `a`, and `new char[]` returns multiples of 16. -/
def Act.Fits (a : Nat) : Act → Prop
  | .start _ size => a ∣ size
  | .new _ base => (16 : Int) ∣ base
  | _ => True

/-- The size a thread is going to take. -/
def PC.size? : PC → Option Nat
  | .idle => none
  | .check _ n => some n
  | .sub _ n => some n
  | .grow _ n => some n
  | .new _ n => some n
  | .cas _ n _ => some n

def PC.base? : PC → Option Int
  | .cas _ _ b => some b
  | _ => none

/-- All addresses are `r` modulo `a`. -/
structure Mod (a : Nat) (r : Int) (s : State) : Prop where
  tail : ∀ ch ∈ s.chunks, (a : Int) ∣ ch.tail - r
  got : ∀ x ∈ s.allocs, (a : Int) ∣ x.1 - r
  size : ∀ t n, (s.pc t).size? = some n → a ∣ n
  base : ∀ t b, (s.pc t).base? = some b → (16 : Int) ∣ b

theorem upd_size {a : Nat} {pc : Nat → PC} (h : ∀ t n, (pc t).size? = some n → a ∣ n) {t : Nat} {x : PC} (hx : ∀ n, x.size? = some n → a ∣ n) :
    ∀ u n, (upd pc t x u).size? = some n → a ∣ n := by
  intro u n hu
  unfold upd at hu
  split at hu
  · exact hx n hu
  · exact h u n hu

theorem upd_base {pc : Nat → PC} (h : ∀ t b, (pc t).base? = some b → (16 : Int) ∣ b) {t : Nat} {x : PC} (hx : ∀ b, x.base? = some b → (16 : Int) ∣ b) :
    ∀ u b, (upd pc t x u).base? = some b → (16 : Int) ∣ b := by
  intro u b hu
  unfold upd at hu
  split at hu
  · exact hx b hu
  · exact h u b hu

variable {u node a : Nat} {r first : Int}

theorem mod_step (ha : a ∣ 16) (hr : (a : Int) ∣ ((u * 8 + 24 : Nat) : Int) - r) {s s' : State} {x : Act} (hx : x.Fits a) (h : Mod a r s)
    (hs : step (ptrLayout u node) first s x = some s') : Mod a r s' := by
  obtain ⟨h1, h2, h3, h4⟩ := h
  have h16 : ∀ b : Int, (16 : Int) ∣ b → (a : Int) ∣ b := fun b hb => Int.dvd_trans (Int.natCast_dvd_natCast.mpr ha) hb
  have same : ∀ {n : Nat} {y : PC}, y.size? = some n → a ∣ n → ∀ m, y.size? = some m → a ∣ m := fun e e' m hm => by
    rw [e] at hm; cases hm; exact e'
  have none' : ∀ {y : PC}, y.base? = none → ∀ b, y.base? = some b → (16 : Int) ∣ b := fun e b hb => by rw [e] at hb; cases hb
  cases x with
  | start t size =>
    simp only [step] at hs
    split at hs
    · cases hs
      exact ⟨h1, h2, upd_size h3 (same rfl hx), upd_base h4 (none' rfl)⟩
    · cases hs
  | check t =>
    simp only [step] at hs
    split at hs
    · rename_i c size hpc
      have hsz := h3 t size (by rw [hpc]; rfl)
      split at hs
      · split at hs
        · cases hs
          exact ⟨h1, h2, upd_size h3 (same rfl hsz), upd_base h4 (none' rfl)⟩
        · cases hs
          exact ⟨h1, h2, upd_size h3 (same rfl hsz), upd_base h4 (none' rfl)⟩
      · cases hs
    · cases hs
  | sub t =>
    simp only [step] at hs
    split at hs
    · rename_i c size hpc
      have hsz := h3 t size (by rw [hpc]; rfl)
      split at hs
      · rename_i ch hch
        have hnt : (a : Int) ∣ (ch.tail - (size : Int)) - r := by
          have e : ch.tail - (size : Int) - r = (ch.tail - r) - size := by omega
          rw [e]
          exact Int.dvd_sub (h1 ch (List.mem_of_getElem? hch)) (Int.natCast_dvd_natCast.mpr hsz)
        have h1' : ∀ y ∈ s.chunks.set c { ch with tail := ch.tail - (size : Int) }, (a : Int) ∣ y.tail - r := by
          intro y hy
          rcases List.mem_or_eq_of_mem_set hy with hy | rfl
          · exact h1 y hy
          · exact hnt
        split at hs
        · cases hs
          exact ⟨h1', h2, upd_size h3 (same rfl hsz), upd_base h4 (none' rfl)⟩
        · cases hs
          refine ⟨h1', fun y hy => ?_, upd_size h3 (fun n hn => by cases hn), upd_base h4 (none' rfl)⟩
          rcases List.mem_cons.mp hy with rfl | hy
          · exact hnt
          · exact h2 y hy
      · cases hs
    · cases hs
  | grow t =>
    simp only [step] at hs
    split at hs
    · rename_i c size hpc
      have hsz := h3 t size (by rw [hpc]; rfl)
      split at hs
      · cases hs
        exact ⟨h1, h2, upd_size h3 (same rfl hsz), upd_base h4 (none' rfl)⟩
      · cases hs
        exact ⟨h1, h2, upd_size h3 (same rfl hsz), upd_base h4 (none' rfl)⟩
    · cases hs
  | new t base =>
    simp only [step] at hs
    split at hs
    · rename_i c size hpc
      have hsz := h3 t size (by rw [hpc]; rfl)
      split at hs
      · cases hs
        exact ⟨h1, h2, upd_size h3 (same rfl hsz), upd_base h4 (fun b hb => by cases hb; exact hx)⟩
      · cases hs
    · cases hs
  | cas t =>
    simp only [step] at hs
    split at hs
    · rename_i c size base hpc
      have hsz := h3 t size (by rw [hpc]; rfl)
      have hb := h4 t base (by rw [hpc]; rfl)
      split at hs
      · cases hs
        refine ⟨fun y hy => ?_, h2, upd_size h3 (same rfl hsz), upd_base h4 (none' rfl)⟩
        rcases List.mem_append.mp hy with hy | hy
        · exact h1 y hy
        · rw [List.mem_singleton.mp hy]
          have e : base + ((ptrLayout u node).chunk : Int) - r = base + (((u * 8 + 24 : Nat) : Int) - r) := by
            show base + ((u * 8 + 24 : Nat) : Int) - r = _
            omega
          rw [e]
          exact Int.dvd_add (h16 _ hb) hr
      · cases hs
        exact ⟨h1, h2, upd_size h3 (same rfl hsz), upd_base h4 (none' rfl)⟩
    · cases hs

theorem mod_run (ha : a ∣ 16) (hr : (a : Int) ∣ ((u * 8 + 24 : Nat) : Int) - r) : ∀ {as : List Act} {s s' : State}, (∀ x ∈ as, x.Fits a) → Mod a r s →
    run (ptrLayout u node) first s as = some s' → Mod a r s'
  | [], s, s', _, h, e => by cases e; exact h
  | x :: as, s, s', hf, h, e => by
    simp only [run] at e
    cases hs : step (ptrLayout u node) first s x with
    | none => rw [hs] at e; cases e
    | some s1 =>
      rw [hs] at e
      exact mod_run ha hr (fun y hy => hf y (List.mem_cons_of_mem _ hy)) (mod_step ha hr (hf x List.mem_cons_self) h hs) e

theorem mod_init (ha : a ∣ 16) (hr : (a : Int) ∣ ((u * 8 + 24 : Nat) : Int) - r) (hf : (16 : Int) ∣ first) : Mod a r (init (ptrLayout u node) first) where
  tail ch hch := by
    rw [List.mem_singleton.mp hch]
    have e : first + ((ptrLayout u node).chunk : Int) - r = first + (((u * 8 + 24 : Nat) : Int) - r) := by
      show first + ((u * 8 + 24 : Nat) : Int) - r = _
      omega
    rw [e]
    exact Int.dvd_add (Int.dvd_trans (Int.natCast_dvd_natCast.mpr ha) hf) hr
  got x hx := by cases hx
  size t n h := by cases h
  base t b h := by cases h

/-- **C50.** If no type is aligned more strictly than a pointer (8), so that all sizes are multiples of 8, then the node and every record that any number of threads
allocate from its preallocated space are at addresses that are multiples of 8. -/
theorem C50_aligned_partial (hf : (16 : Int) ∣ first) {as : List Act} (has : ∀ x ∈ as, x.Fits 8) {s : State}
    (h : run (ptrLayout u node) first (init (ptrLayout u node) first) as = some s) :
    (8 : Int) ∣ first + (ptrLayout u node).chunk ∧ ∀ x ∈ s.allocs, (8 : Int) ∣ x.1 := by
  have hr : ((8 : Nat) : Int) ∣ ((u * 8 + 24 : Nat) : Int) - 0 := by omega
  have hm := mod_run (by decide) hr has (mod_init (by decide) hr hf) h
  refine ⟨?_, fun x hx => ?_⟩
  · show (8 : Int) ∣ first + ((u * 8 + 24 : Nat) : Int)
    omega
  · have := hm.got x hx
    rwa [Int.sub_zero] at this

/-- **C50 fails** for every key or value type that is aligned to 16 bytes (`long double`, 128-bit integers, vector types): then the sizes, also that of the union `u`, are
multiples of 16, and neither the node nor any record allocated from its preallocated space is at a multiple of 16. -/
theorem C50_misaligned (hu : 16 ∣ u) (hf : (16 : Int) ∣ first) {as : List Act} (has : ∀ x ∈ as, x.Fits 16) {s : State}
    (h : run (ptrLayout u node) first (init (ptrLayout u node) first) as = some s) :
    ¬ (16 : Int) ∣ first + (ptrLayout u node).chunk ∧ ∀ x ∈ s.allocs, ¬ (16 : Int) ∣ x.1 := by
  have hr : ((16 : Nat) : Int) ∣ ((u * 8 + 24 : Nat) : Int) - 8 := by omega
  have hm := mod_run (Nat.dvd_refl 16) hr has (mod_init (Nat.dvd_refl 16) hr hf) h
  refine ⟨?_, fun x hx => ?_⟩
  · show ¬ (16 : Int) ∣ first + ((u * 8 + 24 : Nat) : Int)
    omega
  · have := hm.got x hx
    have h' : (16 : Int) ∣ x.1 - 8 := this
    omega

/-- Nine records of 64 bytes: eight fit into the first chunk, the ninth into a second one at 4096. -/
def nine : List Act := (List.replicate 8 [Act.start 0 64, .check 0, .sub 0]).flatten ++ [.start 0 64, .check 0, .sub 0, .grow 0, .new 0 4096, .cas 0, .check 0, .sub 0]

example : (∀ x ∈ nine, x.Fits 16) ∧ ((run (ptrLayout 64 200) 1024 (init (ptrLayout 64 200) 1024) nine).map fun s => (s.allocs.length, s.allocs.head?)) = some (9, some (4568, 64)) := by
  refine ⟨?_, by decide⟩
  intro x hx
  have : ∀ x ∈ nine, x = .start 0 64 ∨ x = .check 0 ∨ x = .sub 0 ∨ x = .grow 0 ∨ x = .new 0 4096 ∨ x = .cas 0 := by
    intro x hx
    simp only [nine, List.mem_append, List.mem_flatten, List.mem_replicate] at hx
    rcases hx with ⟨l, ⟨_, rfl⟩, hx⟩ | hx
    · simp only [List.mem_cons, List.not_mem_nil, or_false] at hx
      rcases hx with rfl | rfl | rfl <;> simp
    · simp only [List.mem_cons, List.not_mem_nil, or_false] at hx
      rcases hx with rfl | rfl | rfl | rfl | rfl | rfl | rfl | rfl <;> simp
  rcases this x hx with rfl | rfl | rfl | rfl | rfl | rfl
  · exact ⟨4, rfl⟩
  · trivial
  · trivial
  · trivial
  · exact ⟨256, rfl⟩
  · trivial

end Alloc
end BwTree
