/-!
  `FreeEpochDeltaChain` (src/bwtree.h 8196-8363): freeing a retired delta chain.

  A chain is seen as memory cells. Every cell has an address. A delta record other than remove/abort lives in memory owned by
  some base node, its *home* (`InlineAllocate`, 2015-2110, see `Verif.Model.Alloc`): the memory is returned when that base node is
  destroyed. The twelve node types fall into four groups that the function treats alike; the leaf and the inner variant of
  each type have identical code.
-/

namespace BwTree.FreeChain

/-- Addresses. -/
abbrev Addr := Nat

/-- A delta chain in memory.
* `base a` - LeafNode / InnerNode at `a`, allocated with its own chunk;
* `data a home c` - Leaf/Inner Insert, Delete or Split record at `a` inside the chunks of base node `home`;
* `merge a home c r` - Leaf/Inner Merge record with left branch `c` and right branch `r`;
* `cut a c` - LeafRemove, InnerRemove or InnerAbort record, allocated by `new`. -/
inductive Chain where
  | base (a : Addr)
  | data (a home : Addr) (c : Chain)
  | merge (a home : Addr) (c r : Chain)
  | cut (a : Addr) (c : Chain)
  deriving Repr, DecidableEq

/-- What the function does to memory.
* `read a` - reads a field of the record at `a` (type tag or child pointer);
* `dtor a` - runs the destructor of the object at `a`;
* `release a` - returns to the allocator the memory owned by `a` (`Destroy` for base nodes, `delete` for remove/abort). -/
inductive Ev where
  | read (a : Addr)
  | dtor (a : Addr)
  | release (a : Addr)
  deriving Repr, DecidableEq

/-- `FreeEpochDeltaChain` 8196-8363 as the sequence of its memory events. Loop iterations become recursive calls.
Not modelled: `freed_count` statistics and `InvalidateNodeID` (8249, 8318), which writes the mapping table only. -/
def free : Chain → List Ev
  | .base a => [.read a, .dtor a, .release a]                                    -- 8262-8272, 8329-8337
  | .data a _ c => [.read a, .read a, .dtor a] ++ free c                         -- 8206-8234, 8273-8303
  | .merge a _ c r =>                                                            -- 8235-8246, 8304-8315
    [.read a, .read a] ++ free c ++ [.read a] ++ free r ++ [.dtor a]
  | .cut a _ => [.read a, .dtor a, .release a]                                   -- 8247-8261, 8316-8328, 8338-8353

/-- `GetLowKeyPair` chases to the base node of the leftmost branch; `InlineAllocate` calls start from it. -/
def leftBase : Chain → Addr
  | .base a => a
  | .data _ _ c => leftBase c
  | .merge _ _ c _ => leftBase c
  | .cut _ c => leftBase c

/-- Where the code allocates records: Insert/Delete/Split on the base node of the chain they are posted on (macros
`LeafInlineAllocateOfType`/`InnerInlineAllocateOfType` with the current node's low key pair, e.g. 7392, 6548), Merge on the base
node of the *right* branch (7287, 7324). -/
def Placed : Chain → Prop
  | .base _ => True
  | .data _ home c => home = leftBase c ∧ Placed c
  | .merge _ home c r => home = leftBase r ∧ Placed c ∧ Placed r
  | .cut _ c => Placed c

end BwTree.FreeChain
