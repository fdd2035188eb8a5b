/-!
  Address arithmetic of the per-thread GC metadata: `PrepareThreadLocal` (bwtree.h 372-403) and `GetGCMetaData` (538-543).
  Addresses are 64-bit words; `sizeof(PaddedGCMetadata) = 64` (static_assert at 305).
-/

namespace BwTree
namespace TL

/-- CACHE_LINE_SIZE (195). -/
def LINE : BitVec 64 := 64#64

/-- CACHE_LINE_MASK (198). -/
def MASK : BitVec 64 := ~~~(LINE - 1#64)

/-- The aligned base address (384-386), `(original_p + CACHE_LINE_SIZE - 1) & CACHE_LINE_MASK`. -/
def alignBase (original : BitVec 64) : BitVec 64 := (original + LINE - 1#64) &&& MASK

/-- Bytes requested from malloc (379-380). -/
def mallocBytes (threadNum : Nat) : Nat := 64 * (threadNum + 1)

/-- `&(gc_metadata_p + thread_id)->data` (542); `none` = the assertion 540 fails. -/
def getGCMetaData (original : BitVec 64) (threadNum : Nat) (threadId : Int) : Option (BitVec 64) :=
  if 0 ≤ threadId ∧ threadId < threadNum then some (alignBase original + BitVec.ofNat 64 (64 * threadId.toNat)) else none

end TL
end BwTree
