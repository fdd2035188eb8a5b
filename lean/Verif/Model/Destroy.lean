import Verif.Model.RemovedId

/-!
  The destructor of the tree, /repo/src/bwtree.h: `~BwTree` 2718-2732, `ClearThreadLocalGarbage` 2739-2757, `FreeNodeByNodeID`
  2792-2803, `FreeNodeByPointer` 2857-2995.

  The destructor runs when no other call runs, so it is a function of the memory the calls left behind. The heap is not changed; the model
  keeps the list of freed addresses instead and stops with `dangling` when an address is used after it was freed.

  Simplifications:
  * `Mem.garbage` is everything ever handed to the epoch manager; part of it was freed before the destructor runs, the rest is freed by
    `ClearThreadLocalGarbage`. The model frees all of it first; `Mem.pending` in Model/Collect is the memory after part of it was freed. (That `PerformGC` with all counters at the maximum frees everything is C20.)
  * The counters `freed_count` and the free list of NodeIDs filled by `InvalidateNodeID` are left out; nobody reads them afterwards.
-/

namespace BwTree
namespace Tree

variable {K V : Type}

/-- Why the destructor stops. -/
inductive DFail where
  | badId        -- assert in GetNode 3199-3200
  | dangling     -- an address is used that was freed before, or never allocated
  | unknownType  -- assert(false) at 2987: remove or abort record
  | fuel         -- the bound of the model on the recursion depth was too small
  deriving DecidableEq

/-- Mapping table and freed addresses (newest first). -/
structure DState where
  table : NodeId → Option Ptr
  freed : List Ptr

/-- `mapping_table[id] = nullptr` (2800, 2933, `InvalidateNodeID` 2821-2828). -/
def DState.clear (s : DState) (id : NodeId) : DState := { s with table := fun i => if i = id then none else s.table i }

/-- The mapping of the child of a delete record is cleared (2933). -/
def DState.unmap (s : DState) : Option NodeId → DState
  | some id => s.clear id
  | none => s

/-- A node is destroyed and its memory given back. -/
def DState.free (s : DState) (p : Ptr) : DState := { s with freed := p :: s.freed }

/-- `FreeEpochDeltaChain` 8196-8364 destroys one node: below remove records its NodeID is recycled. -/
def gcFree (m : Mem K V) (s : DState) (p : Ptr) : DState :=
  match (m.heap p).bind Node.removedId with
  | some id => (s.clear id).free p
  | none => s.free p

/-- `ClearThreadLocalGarbage` 2739-2757: everything handed to the epoch manager is freed. -/
def clearGarbage (m : Mem K V) : DState :=
  (m.garbage.flatMap fun g => m.cells m.nextPtr g).foldl (gcFree m) ⟨m.table, []⟩

/-- NodeIDs that `FreeNodeByPointer` frees while at this node: the sibling of a split record (2888, 2943), the new child of an insert record
(2918), all children of a base node (2964-2968). -/
def Node.frees : Node K V → List NodeId
  | .leaf (.split _ id _ _) => [id]
  | .inner (.ins item _ _ _) => [item.2]
  | .inner (.split item _ _) => [item.2]
  | .inner (.base _ _ _ items) => items.map (·.2)
  | _ => []

/-- The child whose mapping is cleared at a delete record (2933). -/
def Node.unmaps : Node K V → Option NodeId
  | .inner (.del item _ _ _ _) => some item.2
  | _ => none

/-- `FreeNodeByNodeID` 2792-2803; `rec` is `FreeNodeByPointer`. -/
def freeId (rec : Ptr → DState → Except DFail DState) (s : DState) (id : NodeId) : Except DFail DState :=
  if id = INVALID ∨ TABLE_SIZE ≤ id then .error .badId
  else
    match s.table id with
    | none => .ok s
    | some p => rec p (s.clear id)

/-- `FreeNodeByPointer` 2857-2995. A merge record is freed after both branches (2896-2903), a base node after its children (2964-2972), the
other records before the walk goes on to the child. `fuel` bounds the number of nested nodes. -/
def freePtr (m : Mem K V) : Nat → Ptr → DState → Except DFail DState
  | 0, _, _ => .error .fuel
  | fuel + 1, p, s =>
    if p ∈ s.freed then .error .dangling
    else
      match m.heap p with
      | none => .error .dangling
      | some n =>
        if n.isRemove || n.isAbort then .error .unknownType
        else do
          let s ← n.frees.foldlM (freeId (freePtr m fuel)) s
          let s := s.unmap n.unmaps
          if n.isBase then .ok (s.free p)
          else if n.isMerge then do
            let s ← (m.follow p).foldlM (fun s q => freePtr m fuel q s) s
            .ok (s.free p)
          else
            (m.follow p).foldlM (fun s q => freePtr m fuel q s) (s.free p)

/-- `~BwTree` 2718-2732. -/
def destroy (m : Mem K V) (fuel : Nat) : Except DFail DState :=
  freeId (freePtr m fuel) (clearGarbage m) m.root

end Tree
end BwTree
