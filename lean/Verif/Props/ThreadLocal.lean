import Verif.Model.ThreadLocal

/-! ### C27 – per-thread GC metadata -/

namespace BwTree
namespace TL

theorem mask_bit : ∀ i : Fin 64, MASK.getLsbD i.val = decide (6 ≤ i.val) := by decide

theorem mask_toNat (x : BitVec 64) : (x &&& MASK).toNat = x.toNat / 64 * 64 := by
  have h : x &&& MASK = (x >>> 6) <<< 6 := by
    apply BitVec.eq_of_getLsbD_eq
    intro i hi
    rw [BitVec.getLsbD_and, mask_bit ⟨i, hi⟩, BitVec.getLsbD_shiftLeft, BitVec.getLsbD_ushiftRight]
    by_cases h6 : i < 6
    · simp [h6, Nat.not_le.mpr h6]
    · have : 6 + (i - 6) = i := by omega
      simp [h6, hi, Nat.not_lt.mp h6, this]
  rw [h, BitVec.toNat_shiftLeft, BitVec.toNat_ushiftRight, Nat.shiftLeft_eq, Nat.shiftRight_eq_div_pow]
  have := x.isLt
  rw [Nat.mod_eq_of_lt]
  omega

theorem alignBase_toNat (original : BitVec 64) (h : original.toNat + 63 < 2 ^ 64) :
    (alignBase original).toNat = (original.toNat + 63) / 64 * 64 := by
  unfold alignBase
  rw [mask_toNat]
  have e : (original + LINE - 1#64).toNat = original.toNat + 63 := by
    simp only [LINE, BitVec.toNat_sub, BitVec.toNat_add, BitVec.toNat_ofNat]
    omega
  rw [e]

/-- **C27.** For every block returned by malloc (any start address, `thread_num + 1` cache lines that do not wrap around the
address space) and every registered thread: its record starts on a 64-byte boundary and lies inside the block. -/
theorem C27_aligned_inside (original : BitVec 64) (threadNum : Nat) (hfit : original.toNat + mallocBytes threadNum ≤ 2 ^ 64)
    (t : Int) (p : BitVec 64) (hp : getGCMetaData original threadNum t = some p) :
    p.toNat % 64 = 0 ∧ original.toNat ≤ p.toNat ∧ p.toNat + 64 ≤ original.toNat + mallocBytes threadNum := by
  unfold getGCMetaData at hp
  split at hp
  · rename_i ht
    obtain rfl := Option.some.inj hp
    unfold mallocBytes at *
    have e := alignBase_toNat original (by omega)
    rw [BitVec.toNat_add, BitVec.toNat_ofNat, e]
    omega
  · cases hp

/-- **C27.** Records of different threads do not overlap. -/
theorem C27_disjoint (original : BitVec 64) (threadNum : Nat) (hfit : original.toNat + mallocBytes threadNum ≤ 2 ^ 64)
    (t u : Int) (p q : BitVec 64) (hp : getGCMetaData original threadNum t = some p)
    (hq : getGCMetaData original threadNum u = some q) (htu : t ≠ u) :
    p.toNat + 64 ≤ q.toNat ∨ q.toNat + 64 ≤ p.toNat := by
  unfold getGCMetaData at hp hq
  split at hp
  · split at hq
    · obtain rfl := Option.some.inj hp
      obtain rfl := Option.some.inj hq
      unfold mallocBytes at *
      have e := alignBase_toNat original (by omega)
      rw [BitVec.toNat_add, BitVec.toNat_add, BitVec.toNat_ofNat, BitVec.toNat_ofNat, e]
      omega
    · cases hq
  · cases hp

/-- **C27.** Exactly the registered threads have a record. -/
theorem C27_registered (original : BitVec 64) (threadNum : Nat) (t : Int) :
    (getGCMetaData original threadNum t).isSome ↔ 0 ≤ t ∧ t < threadNum := by
  unfold getGCMetaData
  split <;> simp_all

/-- Non-vacuity: an unaligned block for four threads. -/
example : (0x1008#64).toNat + mallocBytes 4 ≤ 2 ^ 64 ∧ getGCMetaData 0x1008#64 4 3 = some 0x1100#64 := by decide

end TL
end BwTree
