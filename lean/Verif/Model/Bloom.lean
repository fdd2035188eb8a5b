/-!
  Model of `BloomFilter` (/repo/src/bloom_filter.h 32-198).

  `bit_array_0` is byte addressed memory (32 bytes, line 57); that every access is inside the array is proved in
  `Verif.Props.Components`.  `data_p` holds pointers to the inserted values, represented by the values
  themselves in insertion order (`value_count` is the length).
-/

namespace BwTree.Bloom

/-- Fields `bit_array_0`, `data_p`/`value_count` (57-61). -/
structure Filter (V : Type) where
  bits : Nat → BitVec 8
  data : List V

variable {V : Type}

/-- Constructor (89-101): all bits zero, no values. -/
def empty : Filter V := { bits := fun _ => 0#8, data := [] }

/-- `(hash_value & BYTE_OFFSET_MASK) >> 3` (53, 147). -/
def byteIdx (h : BitVec 64) : Nat := ((h &&& 0xF8#64) >>> 3).toNat

/-- `0x1 << (hash_value & BIT_OFFSET_MASK)` stored into an `unsigned char` (49, 148). -/
def bitMask (h : BitVec 64) : BitVec 8 := 1#8 <<< (h &&& 0x07#64).toNat

/-- `__InsertScalar` (137-152). -/
def insert (hash : V → BitVec 64) (f : Filter V) (v : V) : Filter V :=
  let h := hash v
  { bits := fun i => if i = byteIdx h then f.bits i ||| bitMask h else f.bits i
    data := f.data ++ [v] }

/-- `__ExistsScalar` (170-193): test the bit, then scan linearly with the equality checker. -/
def exists? (hash : V → BitVec 64) (eq : V → V → Bool) (f : Filter V) (v : V) : Bool :=
  let h := hash v
  if (f.bits (byteIdx h) &&& bitMask h) = 0#8 then false
  else f.data.any (fun u => eq v u)

end BwTree.Bloom
