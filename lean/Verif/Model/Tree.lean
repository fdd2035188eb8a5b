import Verif.Model.Split
import Verif.Model.Inner
import Verif.Spec.Leaf
import Verif.Spec.Set
import Verif.Spec.Lin

/-!
  The concurrent tree of /repo/src/bwtree.h: mapping table, node loading with help-along (split, merge, remove,
  abort), consolidation, size adjustment, traversal and the API calls Insert, Delete and GetValue.

  A call is a `Prog`: a tree of atomic steps on shared memory (`Mem`). Each step is one atomic instruction of the code on the
  mapping table or the root NodeID, an allocation, or the hand-over of a node to the garbage list. Everything between two such
  steps only reads immutable nodes. Threads interleave at these steps.

  Simplifications, stated here once:
  * Nodes are immutable values on a heap of addresses; addresses are never reused (epoch protection, C20) and nothing is freed
    while the calls run. Mapping entries are not cleared by the garbage collector.
  * NodeIDs come from the counter only: the free list is always empty, see C23.
  * Sequentially consistent memory; all accesses here are `std::atomic` with the default order.
  * Loops (`while(1)`, `goto`) take a bound `fuel`; running out is the outcome `spin`. All theorems hold for every bound, so
    they cover every finite execution prefix.
  * The addresses stored inside a record (`Mem.kids`) and what the collector destroys below a retired node (`Mem.cells`) are kept
    beside the chain itself; the chunk a record is carved from (C24), epoch membership (C20), counters and debug output are left
    out.
  * A failing `assert` or undefined behaviour is the outcome `fail`.
-/

namespace BwTree

/-- `MAPPING_TABLE_SIZE` (149). -/
def TABLE_SIZE : Nat := 2 ^ 20
/-- `INNER_NODE_SIZE_UPPER_THRESHOLD`, `INNER_NODE_SIZE_LOWER_THRESHOLD` (156-157). -/
def INNER_UPPER : Nat := 128
def INNER_LOWER : Nat := 32
/-- `INNER_DELTA_CHAIN_LENGTH_THRESHOLD`, `LEAF_DELTA_CHAIN_LENGTH_THRESHOLD` (152-153). -/
def INNER_CHAIN : Nat := 8
def LEAF_CHAIN : Nat := 8
/-- `FIRST_LEAF_NODE_ID` (146). -/
def FIRST_LEAF : NodeId := 2

namespace Tree

abbrev Ptr := Nat
abbrev Tid := Nat

/-- A node (head of a delta chain), leaf or inner (`IsOnLeafDeltaChain` 1240). -/
inductive Node (K V : Type) where
  | leaf (c : LeafChain K V)
  | inner (c : InnerChain K)
  deriving Repr, DecidableEq

namespace Node
variable {K V : Type}

/-- `IsOnLeafDeltaChain` 1240 / `NodeSnapshot::IsLeaf` 1874. -/
def isLeaf : Node K V → Bool
  | leaf _ => true
  | inner _ => false

/-- `GetLowKeyPair` 1278. -/
def low : Node K V → K × NodeId
  | leaf c => c.low
  | inner c => c.low

/-- `GetHighKeyPair` 1268. -/
def high : Node K V → K × NodeId
  | leaf c => c.high
  | inner c => c.high

/-- `IsDeltaNode` 1200. -/
def isDelta : Node K V → Bool
  | leaf c => c.isDelta
  | inner c => c.isDelta

/-- `IsRemoveNode` 1222. -/
def isRemove : Node K V → Bool
  | leaf c => c.isRemove
  | inner c => c.isRemove

/-- `GetDepth` 1309. -/
def depth : Node K V → Nat
  | leaf c => c.depth
  | inner c => c.depth

/-- Base node: the end of a delta chain (`LeafType` 8262, `InnerType` 8329). -/
def isBase : Node K V → Bool
  | leaf (.base _ _ _) => true
  | inner (.base _ _ _ _) => true
  | _ => false

/-- `InnerAbortType` (8338). -/
def isAbort : Node K V → Bool
  | inner (.abort _ _) => true
  | _ => false

/-- `LeafMergeType`, `InnerMergeType` (8235, 8304). -/
def isMerge : Node K V → Bool
  | leaf (.merge _ _ _ _) => true
  | inner (.merge _ _ _ _) => true
  | _ => false

end Node

/-- Shared memory: `root_id`, `mapping_table`, the nodes by address, the addresses stored in the node at an address,
`next_unused_node_id`, the next fresh address, the nodes handed to the epoch manager (newest first).

The addresses stored in a node are the constructor argument `child_node_p` of a delta record; for a merge record also its second
pointer `right_merge_p` (1563, 1787): 5901-5903 read it from the `child_node_p` of the remove record of the right
node, and it is represented by the address of that remove record. -/
structure Mem (K V : Type) where
  root : NodeId
  table : NodeId → Option Ptr
  heap : Ptr → Option (Node K V)
  kids : Ptr → List Ptr
  nextId : NodeId
  nextPtr : Ptr
  garbage : List Ptr

/-- Where `EpochManager::FreeEpochDeltaChain` 8196-8364 goes on after the node at `p`: below a delta record to its child, below a merge
record to both branches, below base nodes, remove and abort records to nothing. -/
def Mem.follow {K V : Type} (m : Mem K V) (p : Ptr) : List Ptr :=
  match m.heap p with
  | none => []
  | some n =>
    if n.isBase || n.isRemove || n.isAbort then []
    else if n.isMerge then (match m.kids p with
      | [l, r] => l :: m.kids r
      | _ => [])
    else m.kids p

/-- The addresses `FreeEpochDeltaChain` destroys when called on `p` (8196-8364), in any order; `fuel` bounds the depth. -/
def Mem.cells {K V : Type} (m : Mem K V) : Nat → Ptr → List Ptr
  | 0, _ => []
  | fuel + 1, p => p :: (m.follow p).flatMap (m.cells fuel)

/-- Why a thread stops: each is an `assert` or undefined behaviour of the code. -/
inductive Fail where
  | badId            -- assert in GetNode 3199-3200 / InstallNodeToReplace 3146-3147
  | tableFull        -- InstallNewNode 3180 writes past the table (C23)
  | null             -- null mapping entry dereferenced
  | kind             -- leaf/inner confusion: asserts 5351, 6293, 6318 or a wrong cast
  | sameId           -- assert 5353
  | noParent         -- assert(current_level >= 1) 5156, 5173, 5202
  | uninit           -- the uninitialised parent snapshot of a read optimized traversal is used
  | collect          -- consolidation fails (3938, 4905, or buffer overrun)
  | navigate         -- search in an inner node is undefined
  | search           -- search in a leaf is undefined
  | splitPoint       -- GetSplitSibling is undefined
  | leftSibling      -- FindLeftSibling 7045: assert or undefined
  | mergeRange       -- assert 6910 while completing a merge
  | mergeSep         -- assert 6045: separator with the deleted key but another NodeID
  | notRemoved       -- assert 5822: node deleted from the parent is not removed
  | splitSep         -- assert 6229: separator with the split key, another NodeID, and not removed
  | findSep          -- the existence search is undefined otherwise
  | abortLost        -- assert 6799
  | backLow          -- assert 9301: the page found left of a key does not begin below it
  deriving Repr, DecidableEq

/-- A call in progress. -/
inductive Prog (K V α : Type) where
  | ret (a : α)
  | fail (why : Fail)
  | spin
  /-- `root_id.load()` (3246) -/
  | loadRoot (k : NodeId → Prog K V α)
  /-- `root_id.compare_exchange_strong` (3168) -/
  | casRoot (old new : NodeId) (k : Bool → Prog K V α)
  /-- `mapping_table[id].load()` (3202), with the node at the address read -/
  | load (id : NodeId) (k : Option (Ptr × Node K V) → Prog K V α)
  /-- `mapping_table[id].compare_exchange_strong` (3154) -/
  | cas (id : NodeId) (old new : Ptr) (k : Bool → Prog K V α)
  /-- `mapping_table[id] = p` (3180) -/
  | store (id : NodeId) (p : Ptr) (k : Prog K V α)
  /-- allocation and construction of a node that stores the addresses `kids` -/
  | alloc (n : Node K V) (kids : List Ptr) (k : Ptr → Prog K V α)
  /-- `next_unused_node_id.fetch_add(1)` (3126) -/
  | newId (k : NodeId → Prog K V α)
  /-- `epoch_manager.AddGarbageNode(p)` (9393) -/
  | retire (p : Ptr) (k : Prog K V α)

namespace Prog
variable {K V α β : Type}

/-- Sequential composition. -/
def bind : Prog K V α → (α → Prog K V β) → Prog K V β
  | ret a, f => f a
  | fail w, _ => fail w
  | spin, _ => spin
  | loadRoot k, f => loadRoot fun x => bind (k x) f
  | casRoot o n k, f => casRoot o n fun x => bind (k x) f
  | load id k, f => load id fun x => bind (k x) f
  | cas id o n k, f => cas id o n fun x => bind (k x) f
  | store id p k, f => store id p (bind k f)
  | alloc n ks k, f => alloc n ks fun x => bind (k x) f
  | newId k, f => newId fun x => bind (k x) f
  | retire p k, f => retire p (bind k f)

instance : Monad (Prog K V) where
  pure := ret
  bind := bind

/-- One atomic step on memory; `none` = the call has ended. -/
def step (m : Mem K V) : Prog K V α → Option (Mem K V × Prog K V α)
  | ret _ => none
  | fail _ => none
  | spin => none
  | loadRoot k => some (m, k m.root)
  | casRoot o n k => if m.root = o then some ({ m with root := n }, k true) else some (m, k false)
  | load id k => some (m, k (match m.table id with
      | none => none
      | some p => match m.heap p with
        | none => none
        | some n => some (p, n)))
  | cas id o n k =>
    if m.table id = some o then some ({ m with table := fun i => if i = id then some n else m.table i }, k true)
    else some (m, k false)
  | store id p k => some ({ m with table := fun i => if i = id then some p else m.table i }, k)
  | alloc n ks k => some ({ m with heap := fun p => if p = m.nextPtr then some n else m.heap p,
                                   kids := fun p => if p = m.nextPtr then ks else m.kids p, nextPtr := m.nextPtr + 1 }, k m.nextPtr)
  | newId k => some ({ m with nextId := m.nextId + 1 }, k m.nextId)
  | retire p k => some ({ m with garbage := p :: m.garbage }, k)

end Prog

open Prog

section

variable {K V : Type} [LinearOrder K] [DecidableEq V] [Inhabited K]

/-- `GetNode` 3198-3203, dereferenced. -/
def getNode (id : NodeId) : Prog K V (Ptr × Node K V) :=
  if id = INVALID ∨ TABLE_SIZE ≤ id then .fail .badId
  else .load id fun r => match r with
    | none => .fail .null
    | some x => .ret x

/-- `InstallNodeToReplace` 3143-3155. -/
def replace (id : NodeId) (new old : Ptr) : Prog K V Bool :=
  if id = INVALID ∨ TABLE_SIZE ≤ id then .fail .badId else .cas id old new .ret

/-- `InstallNewNode` 3178-3183. -/
def installNew (id : NodeId) (p : Ptr) : Prog K V Unit :=
  if TABLE_SIZE ≤ id then .fail .tableFull else .store id p (.ret ())

/-- `GetNextNodeID` 3120-3133 with an empty free list. -/
def nextNodeId : Prog K V NodeId := .newId .ret
def allocate (n : Node K V) (kids : List Ptr) : Prog K V Ptr := .alloc n kids .ret
def addGarbage (p : Ptr) : Prog K V Unit := .retire p (.ret ())
def readRoot : Prog K V NodeId := .loadRoot .ret
/-- `InstallRootNode` 3166-3170. -/
def installRoot (old new : NodeId) : Prog K V Bool := .casRoot old new .ret

/-- `NodeSnapshot` 1842: NodeID and the address of the node (with the node found there). -/
structure Snap (K V : Type) where
  id : NodeId
  ptr : Ptr
  node : Node K V
  deriving Repr, DecidableEq

/-- `Context::parent_snapshot`: not initialised (1862), NodeID INVALID (set at the root, 3248 and 5329), or a snapshot. -/
inductive Par (K V : Type) where
  | uninit
  | root
  | snap (s : Snap K V)

/-- `Context` 993 without the search key and the abort flag. A function that may set the abort flag returns `none` when it does. -/
structure Ctx (K V : Type) where
  cur : Snap K V
  par : Par K V
  level : Nat

/-- `GetLatestParentNodeSnapshot` 5154-5160, followed by a use of the snapshot. -/
def parent (ctx : Ctx K V) : Prog K V (Snap K V) :=
  if ctx.level = 0 then .fail .noParent
  else match ctx.par with
    | .uninit => .fail .uninit
    | .root => .fail .null
    | .snap s => .ret s

/-- `IsOnRootNode` 1088. -/
def onRoot (ctx : Ctx K V) : Prog K V Bool :=
  match ctx.par with
  | .uninit => .fail .uninit
  | .root => .ret true
  | .snap _ => .ret false

/-- The node built by ConsolidateLeafNode 6292 / ConsolidateInnerNode 6317 from a chain. -/
def consolidated : Node K V → Option (Node K V)
  | .leaf c => c.consolidate.map .leaf
  | .inner c => (c.consolidate 0).map .inner

/-- `ConsolidateNode` 6348-6357 with ConsolidateLeafNode 6292-6310 and ConsolidateInnerNode 6317-6335. -/
def consolidateNode (s : Snap K V) : Prog K V (Snap K V) :=
  match consolidated s.node with
  | none => .fail .collect
  | some b => do
    let p ← allocate b []
    let ok ← replace s.id p s.ptr
    if ok then do
      addGarbage s.ptr
      return ⟨s.id, p, b⟩
    else do
      addGarbage p
      return s

/-- `PostInnerInsertNode` 5717-5765. -/
def postInnerInsert (ctx : Ctx K V) (item next : K × NodeId) (loc : Nat) : Prog K V (Option (Ctx K V)) := do
  let par ← parent ctx
  match par.node with
  | .leaf _ => .fail .kind
  | .inner c => do
    let n : Node K V := .inner (.ins item next loc c)
    let p ← allocate n [par.ptr]
    let ok ← replace par.id p par.ptr
    if ok then do
      let cur ← consolidateNode ctx.cur
      return some { ctx with par := .snap ⟨par.id, p, n⟩, cur := cur }
    else return none

/-- `PostInnerDeleteNode` 5781-5831. -/
def postInnerDelete (ctx : Ctx K V) (item prev next : K × NodeId) (loc : Nat) : Prog K V (Option (Ctx K V)) := do
  let par ← parent ctx
  match par.node with
  | .leaf _ => .fail .kind
  | .inner c => do
    let n : Node K V := .inner (.del item prev next loc c)
    let p ← allocate n [par.ptr]
    let ok ← replace par.id p par.ptr
    if ok then do
      let g ← getNode item.2
      if g.2.isRemove then do
        addGarbage g.1
        let cur ← consolidateNode ctx.cur
        return some { ctx with par := .snap ⟨par.id, p, n⟩, cur := cur }
      else .fail .notRemoved
    else return none

/-- `FindLeftSibling` 7045-7272: the walk, and the consolidation of the parent if it meets a merge record. Returns
the NodeID and the parent snapshot, which that consolidation may have changed. -/
def findLeftSibling (k : K) (par : Snap K V) : Prog K V (NodeId × Snap K V) :=
  match par.node with
  | .leaf _ => .fail .kind
  | .inner c =>
    match c.leftStart k with
    | none => .fail .leftSibling
    | some (.found id) => .ret (id, par)
    | some .sawMerge =>
      match c.consolidate (c.depth + 1) with
      | none => .fail .collect
      | some b => do
        let p ← allocate (.inner b) []
        let ok ← replace par.id p par.ptr
        let par' ← (if ok then do
            addGarbage par.ptr
            return (⟨par.id, p, .inner b⟩ : Snap K V)
          else do
            addGarbage p
            return par)
        match b.leftRec c.depth k [] with
        | some (.found id) => return (id, par')
        | _ => .fail .leftSibling

/-- Completion of a split for a node that is not the root (6173-6247). `item` is the split item, `next` the
high key pair below the split record. -/
def finishSplitNonRoot (ctx : Ctx K V) (item next : K × NodeId) : Prog K V (Option (Ctx K V)) := do
  let par ← parent ctx
  if par.node.high.2 ≠ INVALID ∧ par.node.high.1 ≤ item.1 then return some ctx
  else
    match par.node with
    | .leaf _ => .fail .kind
    | .inner c =>
      match c.findSep item.1 with
      | none => .fail .findSep
      | some (some found, _) =>
        if found.2 ≠ item.2 then do
          let g ← getNode found.2
          if g.2.isRemove then return none else .fail .splitSep
        else return some ctx
      | some (none, loc) => postInnerInsert ctx item next loc

/-- Completion of a root split (6105-6171): always aborts. -/
def finishSplitRoot (ctx : Ctx K V) (item : K × NodeId) : Prog K V (Option (Ctx K V)) := do
  let newRoot ← nextNodeId
  let first : K × NodeId := (default, ctx.cur.id)
  let n : Node K V := .inner (.base first (default, INVALID) 0 [first, item])
  let p ← allocate n []
  installNew newRoot p
  let ok ← installRoot ctx.cur.id newRoot
  if ok then return none
  else do
    let f ← allocate (.inner (.remove newRoot (.base first (default, INVALID) 0 [first, item]))) [p]
    addGarbage f
    addGarbage p
    return none

/-- Case Inner/LeafSplitType of FinishPartialSMO (6077-6249). -/
def finishSplit (ctx : Ctx K V) (item next : K × NodeId) : Prog K V (Option (Ctx K V)) := do
  let r ← onRoot ctx
  if r then finishSplitRoot ctx item else finishSplitNonRoot ctx item next

/-- Case Inner/LeafMergeType of FinishPartialSMO (5989-6076). `item` is the deleted separator, `high` the high key pair of
the right branch. -/
def finishMerge (ctx : Ctx K V) (item high : K × NodeId) : Prog K V (Option (Ctx K V)) := do
  let par ← parent ctx
  let g ← getNode par.id
  if g.1 ≠ par.ptr then return none
  else
    match par.node with
    | .leaf _ => .fail .kind
    | .inner c =>
      match c.findSep item.1 with
      | none => .fail .mergeRange
      | some (none, _) => return some ctx
      | some (some found, loc) =>
        if found.2 ≠ item.2 then .fail .mergeSep
        else postInnerDelete ctx item (ctx.cur.node.low.1, ctx.cur.id) high loc

/-- `TryConsolidateNode` 6376-6413. -/
def tryConsolidate (ctx : Ctx K V) : Prog K V (Ctx K V) :=
  if ctx.cur.node.isDelta = false then .ret ctx
  else if ctx.cur.node.depth < (if ctx.cur.node.isLeaf then LEAF_CHAIN else INNER_CHAIN) then .ret ctx
  else do
    let cur ← consolidateNode ctx.cur
    return { ctx with cur := cur }

/-- Removal of an underflown node (6537-6622 leaf, 6707-6779 inner) with PostAbortOnParent 6839-6872 and RemoveAbortOnParent
6793-6803. Always aborts. -/
def removeNode (ctx : Ctx K V) (removed : Node K V) : Prog K V (Option (Ctx K V)) := do
  let par ← parent ctx
  match par.node with
  | .leaf _ => .fail .kind
  | .inner c => do
    let a ← allocate (.inner (.abort par.ptr c)) [par.ptr]
    let ok ← replace par.id a par.ptr
    if ok then do
      let p ← allocate removed [ctx.cur.ptr]
      let _ ← replace ctx.cur.id p ctx.cur.ptr
      let back ← replace par.id par.ptr a
      if back then do
        addGarbage a
        return none
      else .fail .abortLost
    else return none

/-- Installation of a split (6488-6532 leaf, 6656-6700 inner): `sib` goes to `newId`, `delta` replaces the current node;
`fake` is the remove node retired together with `sib` when that fails. -/
def installSplit (ctx : Ctx K V) (newId : NodeId) (sib delta fake : Node K V) : Prog K V (Option (Ctx K V)) := do
  let s ← allocate sib []
  let d ← allocate delta [ctx.cur.ptr]
  installNew newId s
  let ok ← replace ctx.cur.id d ctx.cur.ptr
  if ok then return none
  else do
    let f ← allocate fake [s]
    addGarbage f
    addGarbage s
    return some ctx

/-- `AdjustNodeSize` 6429-6782. -/
def adjustSize (ctx : Ctx K V) : Prog K V (Option (Ctx K V)) :=
  match ctx.cur.node with
  | .leaf c =>
    if c.isDelta then .ret (some ctx)
    else if (LEAF_UPPER : Int) ≤ c.itemCount then
      match c.splitSibling with
      | none => .fail .splitPoint
      | some none => .ret (some ctx)
      | some (some sib) =>
        match sib with
        | .base _ _ (x :: _) => do
          let id ← nextNodeId
          installSplit ctx id (.leaf sib) (.leaf (.split x.1 id sib.itemCount c)) (.leaf (.remove id sib))
        | _ => .fail .splitPoint
    else if c.itemCount ≤ (LEAF_LOWER : Int) then do
      let par ← parent ctx
      if par.node.low.2 = ctx.cur.id then return some ctx
      else removeNode ctx (.leaf (.remove ctx.cur.id c))
    else .ret (some ctx)
  | .inner c =>
    if c.isDelta then .ret (some ctx)
    else if (INNER_UPPER : Int) ≤ c.itemCount then
      match c.splitSibling with
      | none => .fail .splitPoint
      | some sib => do
        let g ← getNode sib.low.2
        if g.2.isRemove then do
          let s ← allocate (.inner sib) []
          addGarbage s
          return some ctx
        else do
          let id ← nextNodeId
          installSplit ctx id (.inner sib) (.inner (InnerChain.splitDelta id sib c)) (.inner (.remove id sib))
    else if c.itemCount ≤ (INNER_LOWER : Int) then do
      let r ← onRoot ctx
      if r then return some ctx
      else do
        let par ← parent ctx
        if par.node.low.2 = ctx.cur.id then return some ctx
        else removeNode ctx (.inner (.remove ctx.cur.id c))
    else .ret (some ctx)

/-- The part common to LoadNodeID 5384-5402 and JumpToNodeID 5417-5437 after the snapshot is taken, given
FinishPartialSMO. -/
def settle (finish : Ctx K V → Prog K V (Option (Ctx K V))) (ctx : Ctx K V) : Prog K V (Option (Ctx K V)) := do
  let r ← finish ctx
  match r with
  | none => return none
  | some ctx => do
    let ctx ← tryConsolidate ctx
    adjustSize ctx

/-- `JumpToNodeID` 5417-5437 with UpdateNodeSnapshot 5343-5362. -/
def jump (finish : Ctx K V → Prog K V (Option (Ctx K V))) (id : NodeId) (ctx : Ctx K V) : Prog K V (Option (Ctx K V)) := do
  let g ← getNode id
  if g.2.isLeaf ≠ ctx.cur.node.isLeaf then .fail .kind
  else if ctx.cur.id = id then .fail .sameId
  else settle finish { ctx with cur := ⟨id, g.1, g.2⟩ }

/-- `JumpToLeftSibling` 5199-5281. -/
def jumpLeft (finish : Ctx K V → Prog K V (Option (Ctx K V))) (ctx : Ctx K V) : Prog K V (Option (Ctx K V)) := do
  let par ← parent ctx
  if par.node.low.2 = ctx.cur.id then return none
  else do
    let g ← getNode par.id
    if g.1 ≠ par.ptr then return none
    else do
      let x ← findLeftSibling ctx.cur.node.low.1 par
      let r ← jump finish x.1 { ctx with par := .snap x.2 }
      match r with
      | none => return none
      | some ctx' => if ctx.cur.id ≠ ctx'.cur.node.high.2 then return none else return some ctx'

/-- PostInnerMergeNode 7276 / PostLeafMergeNode 7313: the merge record on the left sibling `left` for the removed node
`id` with content `right`. -/
def mergeNode (id : NodeId) (left right : Node K V) : Option (Node K V) :=
  match left, right with
  | .leaf l, .leaf r => some (.leaf (.merge l.high.1 id r l))
  | .inner l, .inner r => some (.inner (.merge l.high.1 id r l))
  | _, _ => none

/-- Case Inner/LeafRemoveType of FinishPartialSMO (5904-5987), falling through to the merge case. `right` is the chain
below the remove record. -/
def finishRemove (finish : Ctx K V → Prog K V (Option (Ctx K V))) (ctx : Ctx K V) (right : Node K V) :
    Prog K V (Option (Ctx K V)) := do
  let r ← jumpLeft finish ctx
  match r with
  | none => return none
  | some left =>
    match mergeNode ctx.cur.id left.cur.node right with
    | none => .fail .kind
    | some m => do
      let p ← allocate m [left.cur.ptr, ctx.cur.ptr]
      let ok ← replace left.cur.id p left.cur.ptr
      if ok then finishMerge { left with cur := ⟨left.cur.id, p, m⟩ } (left.cur.node.high.1, ctx.cur.id) right.high
      else return none

/-- `FinishPartialSMO` 5878-6285. -/
def finishSMO : Nat → Ctx K V → Prog K V (Option (Ctx K V))
  | 0, _ => .spin
  | fuel + 1, ctx =>
    match ctx.cur.node with
    | .inner (.abort p c) => finishSMO fuel { ctx with cur := ⟨ctx.cur.id, p, .inner c⟩ }
    | .inner (.remove _ c) => finishRemove (finishSMO fuel) ctx (.inner c)
    | .leaf (.remove _ c) => finishRemove (finishSMO fuel) ctx (.leaf c)
    | .inner (.merge k id r _) => finishMerge ctx (k, id) r.high
    | .leaf (.merge k id r _) => finishMerge ctx (k, id) r.high
    | .inner (.split item _ c) => finishSplit ctx item c.high
    | .leaf (.split k id _ c) => finishSplit ctx (k, id) c.high
    | _ => .ret (some ctx)

/-- `LoadNodeID` 5384-5402 with TakeNodeSnapshot 5295-5336, below the node of `ctx`. -/
def loadChild (fuel : Nat) (id : NodeId) (ctx : Ctx K V) : Prog K V (Option (Ctx K V)) := do
  let g ← getNode id
  settle (finishSMO fuel) { cur := ⟨id, g.1, g.2⟩, par := .snap ctx.cur, level := ctx.level + 1 }

/-- LoadNodeID of the root: the parent snapshot gets NodeID INVALID (3248). -/
def loadRootNode (fuel : Nat) (id : NodeId) : Prog K V (Option (Ctx K V)) := do
  let g ← getNode id
  settle (finishSMO fuel) { cur := ⟨id, g.1, g.2⟩, par := .root, level := 0 }

/-- `NavigateSiblingChain` 3385-3415. -/
def navSibling (fuel : Nat) (k : K) : Nat → Ctx K V → Prog K V (Option (Ctx K V))
  | 0, _ => .spin
  | n + 1, ctx =>
    if ctx.cur.node.high.2 ≠ INVALID ∧ ctx.cur.node.high.1 ≤ k then do
      let r ← jump (finishSMO fuel) ctx.cur.node.high.2 ctx
      match r with
      | none => return none
      | some ctx' => navSibling fuel k n ctx'
    else .ret (some ctx)

/-- `NavigateInnerNode(Context *)` 3546-3732: sibling walk, then the child to descend to. -/
def navInner (fuel : Nat) (k : K) (ctx : Ctx K V) : Prog K V (Option (Ctx K V × NodeId)) := do
  let r ← navSibling fuel k fuel ctx
  match r with
  | none => return none
  | some ctx =>
    match ctx.cur.node with
    | .leaf _ => .fail .kind
    | .inner c =>
      match c.navigate k with
      | none => .fail .navigate
      | some id => return some (ctx, id)

/-- Descent loop of Traverse (3263-3295), ending with the sibling walk on the leaf level (3300, 3302). -/
def descend (fuel : Nat) (k : K) : Nat → Ctx K V → Prog K V (Option (Ctx K V))
  | 0, _ => .spin
  | n + 1, ctx => do
    let r ← navInner fuel k ctx
    match r with
    | none => return none
    | some (ctx, id) => do
      let r ← loadChild fuel id ctx
      match r with
      | none => return none
      | some ctx =>
        if ctx.cur.node.isLeaf then navSibling fuel k fuel ctx else descend fuel k n ctx

/-- One attempt of `Traverse` 3232-3358; `none` = aborted, the caller retries. -/
def tryTraverse (fuel : Nat) (k : K) : Prog K V (Option (Ctx K V)) := do
  let root ← readRoot
  let r ← loadRootNode fuel root
  match r with
  | none => return none
  | some ctx => descend fuel k fuel ctx

/-- `Traverse` 3232-3358 with its retry loop; the leaf search follows in the callers. -/
def traverse (fuel : Nat) (k : K) : Nat → Prog K V (Ctx K V)
  | 0 => .spin
  | n + 1 => do
    let r ← tryTraverse fuel k
    match r with
    | none => traverse fuel k n
    | some ctx => return ctx

/-- `NavigateSiblingChainBI` 3430-3452: like NavigateSiblingChain, but stays if the key equals the high key. -/
def navSiblingBI (fuel : Nat) (k : K) : Nat → Ctx K V → Prog K V (Option (Ctx K V))
  | 0, _ => .spin
  | n + 1, ctx =>
    if ctx.cur.node.high.2 ≠ INVALID ∧ ctx.cur.node.high.1 < k then do
      let r ← jump (finishSMO fuel) ctx.cur.node.high.2 ctx
      match r with
      | none => return none
      | some ctx' => navSiblingBI fuel k n ctx'
    else .ret (some ctx)

/-- `NavigateInnerNodeBI(Context *)` 3743-3863. -/
def navInnerBI (fuel : Nat) (k : K) (ctx : Ctx K V) : Prog K V (Option (Ctx K V × NodeId)) := do
  let r ← navSiblingBI fuel k fuel ctx
  match r with
  | none => return none
  | some ctx =>
    match ctx.cur.node with
    | .leaf _ => .fail .kind
    | .inner c =>
      match c.navBI k with
      | none => .fail .navigate
      | some id => return some (ctx, id)

/-- Descent loop of TraverseBI (5557-5587). -/
def descendBI (fuel : Nat) (k : K) : Nat → Ctx K V → Prog K V (Option (Ctx K V))
  | 0, _ => .spin
  | n + 1, ctx => do
    let r ← navInnerBI fuel k ctx
    match r with
    | none => return none
    | some (ctx, id) => do
      let r ← loadChild fuel id ctx
      match r with
      | none => return none
      | some ctx =>
        if ctx.cur.node.isLeaf then navSiblingBI fuel k fuel ctx else descendBI fuel k n ctx

/-- One attempt of `TraverseBI` 5543-5602; `none` = aborted. -/
def tryTraverseBI (fuel : Nat) (k : K) : Prog K V (Option (Ctx K V)) := do
  let root ← readRoot
  let r ← loadRootNode fuel root
  match r with
  | none => return none
  | some ctx => descendBI fuel k fuel ctx

/-- `TraverseBI` 5543-5602 with its retry loop. -/
def traverseBI (fuel : Nat) (k : K) : Nat → Prog K V (Ctx K V)
  | 0 => .spin
  | n + 1 => do
    let r ← tryTraverseBI fuel k
    match r with
    | none => traverseBI fuel k n
    | some ctx => return ctx

/-- `Insert` 7353-7428. -/
def insert (fuel : Nat) (k : K) (v : V) : Nat → Prog K V Bool
  | 0 => .spin
  | n + 1 => do
    let ctx ← traverse fuel k fuel
    match ctx.cur.node with
    | .inner _ => .fail .kind
    | .leaf c =>
      match c.findValue k v with
      | none => .fail .search
      | some (true, _, _) => return false
      | some (false, i, e) => do
        let p ← allocate (.leaf (.ins k v i e c)) [ctx.cur.ptr]
        let ok ← replace ctx.cur.id p ctx.cur.ptr
        if ok then return true else insert fuel k v n

/-- `Delete` 7556-7630. -/
def delete (fuel : Nat) (k : K) (v : V) : Nat → Prog K V Bool
  | 0 => .spin
  | n + 1 => do
    let ctx ← traverse fuel k fuel
    match ctx.cur.node with
    | .inner _ => .fail .kind
    | .leaf c =>
      match c.findValue k v with
      | none => .fail .search
      | some (false, _, _) => return false
      | some (true, i, e) => do
        let p ← allocate (.leaf (.del k v i e c)) [ctx.cur.ptr]
        let ok ← replace ctx.cur.id p ctx.cur.ptr
        if ok then return true else delete fuel k v n

/-- `FinishPartialSMOReadOptimized` 5449-5478: `none` = abort flag. -/
def finishRO (s : Snap K V) : Nat → Prog K V (Option (Snap K V))
  | 0 => .spin
  | n + 1 =>
    match s.node with
    | .inner (.abort p c) => finishRO ⟨s.id, p, .inner c⟩ n
    | .inner (.remove _ _) => .ret none
    | .leaf (.remove _ _) => .ret none
    | _ => .ret (some s)

/-- `LoadNodeIDReadOptimized` 5520-5530 with TakeNodeSnapshotReadOptimized 5489-5510: the parent snapshot is not
touched and stays uninitialised. -/
def loadRO (fuel : Nat) (id : NodeId) (level : Nat) : Prog K V (Option (Ctx K V)) := do
  let g ← getNode id
  let r ← finishRO ⟨id, g.1, g.2⟩ fuel
  match r with
  | none => return none
  | some s => return some { cur := s, par := .uninit, level := level }

/-- Descent loop of TraverseReadOptimized (5622-5665) up to the leaf search. -/
def descendRO (fuel : Nat) (k : K) : Nat → Ctx K V → Prog K V (Option (Ctx K V))
  | 0, _ => .spin
  | n + 1, ctx => do
    let r ← navInner fuel k ctx
    match r with
    | none => return none
    | some (ctx, id) => do
      let r ← loadRO fuel id (ctx.level + 1)
      match r with
      | none => return none
      | some ctx =>
        if ctx.cur.node.isLeaf then navSibling fuel k fuel ctx else descendRO fuel k n ctx

/-- `GetValue` 7638-7652 with TraverseReadOptimized 5604-5700. -/
def getValue (fuel : Nat) (k : K) : Nat → Prog K V (List V × LeafChain K V)
  | 0 => .spin
  | n + 1 => do
    let root ← readRoot
    let r ← loadRO fuel root 0
    match r with
    | none => getValue fuel k n
    | some ctx => do
      let r ← descendRO fuel k fuel ctx
      match r with
      | none => getValue fuel k n
      | some ctx =>
        match ctx.cur.node with
        | .inner _ => .fail .kind
        | .leaf c =>
          match c.lookupStep k with
          | none => .fail .search
          | some l => return (l, c)

end

end Tree
end BwTree
