/-!
  Inline delta-node allocation: `AllocationMeta` (bwtree.h 1896-2064), as used by `ElasticNode::Get` (2268) and
  `InlineAllocate` (2357). Any number of threads; one transition per atomic access.

  The linked list of chunks is a Lean list; the `next` field of chunk `i` is non-null iff chunk `i + 1` exists. Addresses
  are integers (no wrap around of the 64-bit address space). `operator new[]` may return any block that is disjoint from the
  blocks currently allocated for this node.
-/

namespace BwTree
namespace Alloc

/-- Layout constants: `hdr` = sizeof(AllocationMeta), `chunk` = CHUNK_SIZE (1900), `node` = bytes of the ElasticNode with its
items, which follow the first chunk (2286-2309). -/
structure Layout where
  hdr : Nat
  chunk : Nat
  node : Nat
  pos : 0 < hdr
  le : hdr ≤ chunk

/-- One chunk: start address and `tail` (1906). `limit` (1908) is `base + sizeof(AllocationMeta)`. -/
structure Chunk where
  base : Int
  tail : Int
  deriving DecidableEq, Repr

/-- Program counter of a thread inside `Allocate(size)` (2012-2036); `c` is the index of `meta_p`. -/
inductive PC where
  | idle
  | check (c : Nat) (size : Nat)               -- TryAllocate, before 1935
  | sub (c : Nat) (size : Nat)                 -- before 1941
  | grow (c : Nat) (size : Nat)                -- GrowChunk, before 1966
  | new (c : Nat) (size : Nat)                 -- before 1971
  | cas (c : Nat) (size : Nat) (base : Int)    -- before 1987, holding the new chunk
  deriving DecidableEq, Repr

structure State where
  chunks : List Chunk
  pc : Nat → PC
  allocs : List (Int × Nat)       -- results of Allocate so far: address and size
  heap : List Int                 -- blocks obtained by `new char[]` and not deleted; the first one also holds the node

inductive Act where
  | start (t : Nat) (size : Nat)
  | check (t : Nat)
  | sub (t : Nat)
  | grow (t : Nat)
  | new (t : Nat) (base : Int)
  | cas (t : Nat)

def upd {α : Type} (f : Nat → α) (i : Nat) (x : α) : Nat → α := fun j => if j = i then x else f j

variable (L : Layout)

/-- Size of a heap block: the first one also holds the node (2290). -/
def blockSize (first b : Int) : Nat := if b = first then L.chunk + L.node else L.chunk

/-- `ElasticNode::Get` (2268-2321): one chunk in front of the node. -/
def init (base : Int) : State :=
  { chunks := [⟨base, base + L.chunk⟩], pc := fun _ => .idle, allocs := [], heap := [base] }

/-- `none` = not enabled. -/
def step (first : Int) (s : State) : Act → Option State
  | .start t size =>
    match s.pc t with
    | .idle => some { s with pc := upd s.pc t (.check 0 size) }
    | _ => none
  -- 1935: `if(tail.load() < limit) return nullptr`
  | .check t =>
    match s.pc t with
    | .check c size =>
      match s.chunks[c]? with
      | some ch =>
        if ch.tail < ch.base + L.hdr then some { s with pc := upd s.pc t (.grow c size) }
        else some { s with pc := upd s.pc t (.sub c size) }
      | none => none
    | _ => none
  -- 1941-1950: fetch_sub and test; 2031: return
  | .sub t =>
    match s.pc t with
    | .sub c size =>
      match s.chunks[c]? with
      | some ch =>
        let nt := ch.tail - size
        let s' := { s with chunks := s.chunks.set c { ch with tail := nt } }
        if nt < ch.base + L.hdr then some { s' with pc := upd s.pc t (.grow c size) }
        else some { s' with pc := upd s.pc t .idle, allocs := (nt, size) :: s.allocs }
      | none => none
    | _ => none
  -- 1966-1969: load `next`
  | .grow t =>
    match s.pc t with
    | .grow c size =>
      if c + 1 < s.chunks.length then some { s with pc := upd s.pc t (.check (c + 1) size) }
      else some { s with pc := upd s.pc t (.new c size) }
    | _ => none
  -- 1971-1983: new chunk
  | .new t base =>
    match s.pc t with
    | .new c size =>
      if s.heap.all (fun b => decide (b + blockSize L first b ≤ base ∨ base + L.chunk ≤ b)) && decide (base ≠ first) then
        some { s with pc := upd s.pc t (.cas c size base), heap := base :: s.heap }
      else none
    | _ => none
  -- 1987-2000: CAS `next` from nullptr; on failure delete the chunk and use the one installed
  | .cas t =>
    match s.pc t with
    | .cas c size base =>
      if c + 1 = s.chunks.length then
        some { s with chunks := s.chunks ++ [⟨base, base + L.chunk⟩], pc := upd s.pc t (.check (c + 1) size) }
      else some { s with heap := s.heap.erase base, pc := upd s.pc t (.check (c + 1) size) }
    | _ => none

def run (first : Int) : State → List Act → Option State
  | s, [] => some s
  | s, a :: as => (step L first s a).bind (fun s' => run first s' as)

/-- `Destroy` (2045-2063): delete every chunk of the list, in order. `none` = a block is deleted that is not allocated. -/
def destroy : List Chunk → List Int → Option (List Int)
  | [], heap => some heap
  | c :: cs, heap => if c.base ∈ heap then destroy cs (heap.erase c.base) else none

end Alloc
end BwTree
