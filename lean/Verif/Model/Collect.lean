import Verif.Model.RemovedId

/-!
  Memory that the collector gives back, /repo/src/bwtree.h: `FreeEpochDeltaChain` 8196-8364 and `InvalidateNodeID` 2821-2828.

  The tree model of Model/Tree keeps every record for ever. Here a retired chain is taken out of the heap, and the mapping entry of a removed node is cleared.

  Simplifications:
  * A chain is destroyed in one step. (The records of a retired chain are found only through each other; nobody else writes to them.)
  * Addresses are not handed out again.
  * `Mem.garbage` keeps the addresses of all chains ever retired. Destroying one of them a second time changes nothing here; that the epoch manager does
    not do so is C20.
-/

namespace BwTree
namespace Tree

variable {K V : Type}

/-- `FreeEpochDeltaChain` 8196-8364 on the chain at `g`: all its records are destroyed; with a remove record, the entry of the NodeID it names is cleared
(8249, 8318). -/
def Mem.destroy (m : Mem K V) (g : Ptr) : Mem K V :=
  { m with
    heap := fun p => if p ∈ m.cells m.nextPtr g then none else m.heap p
    table := fun i => if (m.cells m.nextPtr g).any (fun p => decide ((m.heap p).bind Node.removedId = some i)) then none else m.table i }

/-- What the epoch manager still has to destroy when the destructor begins: the chains it has not destroyed yet. (Its lists hold a chain until it is
destroyed, `PerformGC` 8436-8473.) -/
def Mem.pending (m : Mem K V) : Mem K V := { m with garbage := m.garbage.filter fun g => (m.heap g).isSome }

end Tree
end BwTree
