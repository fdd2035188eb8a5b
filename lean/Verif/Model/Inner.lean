import Verif.Model.Leaf

/-!
  Inner nodes and inner delta chains of /repo/src/bwtree.h: search, existence search, left sibling search,
  consolidation and split. Simplifications as in `Verif.Model.Leaf`; in addition

  * `location` pointers (1614) into the separator array of a base node are array positions. Above a merge record the code compares
    such pointers across different arrays (3629, 3631, 3671, 3673); the result is overwritten at the merge record before it is used
    (3706-3709), which the model shows by resetting the positions there.
  * `none` is undefined behaviour or a failing `assert`.
-/

namespace BwTree

/-- Inner delta chains, one constructor per class.
  `base` – InnerNode (2389) / ElasticNode: low and high key pair, the depth stored in the node, separator array;
  `ins` – InnerInsertNode 1643;  `del` – InnerDeleteNode 1680;  `split` – InnerSplitNode 1731 (`sib` = item count of the
  sibling);  `merge` – InnerMergeNode 1782;  `remove` – InnerRemoveNode 1759;  `abort` – InnerAbortNode 1819, which also keeps the
  address of its child because that address is put back (6793). -/
inductive InnerChain (K : Type) where
  | base (low high : K × NodeId) (dep : Nat) (items : List (K × NodeId))
  | ins (item next : K × NodeId) (loc : Nat) (child : InnerChain K)
  | del (item prev next : K × NodeId) (loc : Nat) (child : InnerChain K)
  | split (item : K × NodeId) (sib : Int) (child : InnerChain K)
  | merge (key : K) (id : NodeId) (right child : InnerChain K)
  | remove (id : NodeId) (child : InnerChain K)
  | abort (ptr : Nat) (child : InnerChain K)
  deriving Repr, DecidableEq

namespace InnerChain

variable {K : Type}

/-- `GetLowKeyPair` 1278; every delta copies its child's. -/
def low : InnerChain K → K × NodeId
  | base l _ _ _ => l
  | ins _ _ _ c => c.low
  | del _ _ _ _ c => c.low
  | split _ _ c => c.low
  | merge _ _ _ c => c.low
  | remove _ c => c.low
  | abort _ c => c.low

/-- `GetHighKeyPair` 1268; inherited except at split (1744) and merge (1799). -/
def high : InnerChain K → K × NodeId
  | base _ h _ _ => h
  | ins _ _ _ c => c.high
  | del _ _ _ _ c => c.high
  | split i _ _ => i
  | merge _ _ r _ => r.high
  | remove _ c => c.high
  | abort _ c => c.high

/-- `GetDepth` 1309 as set by the constructors. -/
def depth : InnerChain K → Nat
  | base _ _ d _ => d
  | ins _ _ _ c => c.depth + 1
  | del _ _ _ _ c => c.depth + 1
  | split _ _ c => c.depth
  | merge _ _ r c => c.depth + r.depth
  | remove _ c => c.depth
  | abort _ c => c.depth

/-- `GetItemCount` 1316 as set by the constructors. -/
def itemCount : InnerChain K → Int
  | base _ _ _ items => items.length
  | ins _ _ _ c => c.itemCount + 1
  | del _ _ _ _ c => c.itemCount - 1
  | split _ sib c => c.itemCount - sib
  | merge _ _ r c => c.itemCount + r.itemCount
  | remove _ c => c.itemCount
  | abort _ c => c.itemCount

/-- `IsDeltaNode` 1200. -/
def isDelta : InnerChain K → Bool
  | base _ _ _ _ => false
  | _ => true

/-- `IsRemoveNode` 1222 for inner nodes. -/
def isRemove : InnerChain K → Bool
  | remove _ _ => true
  | _ => false

/-- `InnerNode::GetNodeHeader(&node_p->GetLowKeyPair())` (3582, 3586, 3707): the separator array of the base node holding the low key
pair, i.e. of the leftmost branch. -/
def baseItems : InnerChain K → List (K × NodeId)
  | base _ _ _ items => items
  | ins _ _ _ c => c.baseItems
  | del _ _ _ _ c => c.baseItems
  | split _ _ c => c.baseItems
  | merge _ _ _ c => c.baseItems
  | remove _ c => c.baseItems
  | abort _ c => c.baseItems

variable [LinearOrder K]

/-- `LocateSeparatorByKey` 3462-3490: `*(upper_bound(start, end, key) - 1)`. -/
def locate (items : List (K × NodeId)) (s e : Nat) (k : K) : Option NodeId :=
  if items.length = 0 then none
  else
    match upperBound items s e k with
    | none => none
    | some 0 => none
    | some (i + 1) =>
      match items[i]? with
      | none => none
      | some x => some x.2

/-- `NavigateInnerNode(Context *)` 3546-3732 after the sibling walk: the child to descend to. `s`/`e` are
`start_p`/`end_p`. -/
def nav (k : K) : InnerChain K → (s e : Nat) → Option NodeId
  | base _ _ _ items, s, e => locate items s e k
  | ins item next loc c, s, e =>
    if item.1 ≤ k then
      if next.2 = INVALID ∨ k < next.1 then some item.2
      else nav k c (max s loc) e
    else nav k c s (min e loc)
  | del item prev next loc c, s, e =>
    if (c.low.2 = prev.2 ∨ prev.1 ≤ k) ∧ (next.2 = INVALID ∨ k < next.1) then some prev.2
    else if item.1 ≤ k then nav k c (max loc s) e
    else nav k c s (min loc e)
  | split _ _ c, s, e => nav k c s e
  | merge mk _ r c, _, _ =>
    if mk ≤ k then nav k r 1 r.baseItems.length else nav k c 1 c.baseItems.length
  | remove _ _, _, _ => none
  | abort _ _, _, _ => none

/-- Entry of `NavigateInnerNode` with the initial search range (3581-3586). -/
def navigate (k : K) (c : InnerChain K) : Option NodeId := nav k c 1 c.baseItems.length

/-- `LocateSeparatorByKeyBI` 3499-3518. -/
def locateBI (items : List (K × NodeId)) (k : K) : Option NodeId :=
  if items.length = 0 then none
  else
    match upperBound items 1 items.length k with
    | none => none
    | some 0 => none
    | some (i + 1) =>
      match items[i]? with
      | none => none
      | some x =>
        if x.1 = k then
          match i with
          | 0 => none                               -- assert(it != Begin())
          | j + 1 =>
            match items[j]? with
            | none => none
            | some y => some y.2
        else some x.2

/-- `NavigateInnerNodeBI` 3743-3860 after the sibling walk. -/
def navBI (k : K) : InnerChain K → Option NodeId
  | base _ _ _ items => locateBI items k
  | ins item next _ c =>
    if (next.2 = INVALID ∨ k < next.1) ∧ item.1 < k then some item.2 else navBI k c
  | del _ prev next _ c =>
    if (c.low.2 = prev.2 ∨ prev.1 < k) ∧ (next.2 = INVALID ∨ k < next.1) then some prev.2 else navBI k c
  | split _ _ c => navBI k c
  | merge mk _ r c => if mk < k then navBI k r else navBI k c
  | remove _ _ => none
  | abort _ _ => none

/-- `NavigateInnerNode(snapshot, key, &location)` 6898-7030 below the entry: existence of a separator. `lowId` is the NodeID of the
low key pair of the node the search started at (6906). Result: the item found, and `*location`. -/
def findRec (lowId : NodeId) (k : K) : InnerChain K → Option (Option (K × NodeId) × Nat)
  | ins item _ loc c => if item.1 = k then some (some item, loc) else findRec lowId k c
  | del item _ _ loc c => if item.1 = k then some (none, loc) else findRec lowId k c
  | base _ _ _ items =>
    match items[0]? with
    | none => none
    | some first =>
      let start := if lowId = first.2 then 1 else 0
      match lowerBound items start items.length k with
      | none => none
      | some i =>
        match items[i]? with
        | none => some (none, i)
        | some x => if x.1 = k then some (some x, i) else some (none, i)
  | split _ _ c => findRec lowId k c
  | merge mk _ r c => if mk ≤ k then findRec lowId k r else findRec lowId k c
  | remove _ _ => none
  | abort _ _ => none

/-- Entry with the assertion 6910: the key is below the high key. -/
def findSep (k : K) (c : InnerChain K) : Option (Option (K × NodeId) × Nat) :=
  if c.high.2 = INVALID ∨ k < c.high.1 then findRec c.low.2 k c else none

/-- An `InnerDataNode *` in `sss`: its item and whether it is an InnerInsertNode. -/
structure SepRec (K : Type) where
  item : K × NodeId
  isIns : Bool
  deriving Repr, DecidableEq

/-- Comparator `f1` / equality `f2` of CollectAllSepsOnInner (3897-3903). -/
def sepLt (a b : SepRec K) : Bool := decide (a.item.1 < b.item.1)
def sepEq (a b : SepRec K) : Bool := decide (a.item.1 = b.item.1)
/-- Reversed comparator of FindLeftSibling (7065). -/
def sepGt (a b : SepRec K) : Bool := decide (b.item.1 < a.item.1)

/-- Merge loop 4029-4110 over the array rest and the records below the high key: both are sorted by key. The recursion consumes
one element of one of them each time. -/
def mergeSeps : List (K × NodeId) → List (SepRec K) → List (K × NodeId)
  | arr, [] => arr
  | [], d :: ds => (if d.isIns then [d.item] else []) ++ mergeSeps [] ds
  | a :: arr, d :: ds =>
    if a.1 < d.item.1 then a :: mergeSeps arr (d :: ds)
    else if d.item.1 < a.1 then (if d.isIns then [d.item] else []) ++ mergeSeps (a :: arr) ds
    else (if d.isIns then [d.item] else []) ++ mergeSeps arr ds
  termination_by arr ds => arr.length + ds.length

/-- State threaded through the recursion: `sss`, number of array cells used under `sss`, separators pushed so far. -/
structure SepState (K : Type) where
  sss : List (SepRec K)
  used : Nat
  out : List (K × NodeId)

/-- Case `InnerType` of CollectAllSepsOnInnerRecursive (3976-4115). -/
def collectSepsBase (items : List (K × NodeId)) (lowId : NodeId) (hi : K × NodeId) (st : SepState K) : Option (SepState K) :=
  match (if hi.2 = INVALID then some items.length
         else if items.length = 0 then none else lowerBound items 1 items.length hi.1), items[0]? with
  | some copyEnd, some first =>
    let start := if first.2 = lowId then 1 else 0
    let n := if hi.2 = INVALID then st.sss.length
             else (st.sss.reverse.dropWhile (fun d => !decide (d.item.1 < hi.1))).length
    match slice? items start copyEnd with
    | none => none
    | some arr => some { sss := st.sss.drop n, used := st.used, out := st.out ++ mergeSeps arr (st.sss.take n) }
  | _, _ => none

/-- `CollectAllSepsOnInnerRecursive` 3950-4192; `cap` is the size of `data_node_list` (3893). -/
def collectSepsRec (cap : Nat) (lowId : NodeId) : InnerChain K → K × NodeId → SepState K → Option (SepState K)
  | base _ _ _ items, hi, st => collectSepsBase items lowId hi st
  | ins item _ _ c, hi, st =>
    if (hi.2 = INVALID ∨ item.1 < hi.1) ∧ st.used < cap then
      let s := SmallSet.insert sepLt sepEq ⟨item, true⟩ st.sss
      collectSepsRec cap lowId c hi { st with sss := s, used := st.used + (s.length - st.sss.length) }
    else none
  | del item _ _ _ c, hi, st =>
    if (hi.2 = INVALID ∨ item.1 < hi.1) ∧ st.used < cap then
      let s := SmallSet.insert sepLt sepEq ⟨item, false⟩ st.sss
      collectSepsRec cap lowId c hi { st with sss := s, used := st.used + (s.length - st.sss.length) }
    else none
  | split _ _ c, hi, st => collectSepsRec cap lowId c hi st
  | merge _ _ r c, _, st =>
    match collectSepsRec cap lowId c c.high st with
    | none => none
    | some st' => collectSepsRec cap lowId r r.high st'
  | remove _ _, _, _ => none
  | abort _ _, _, _ => none

/-- `CollectAllSepsOnInner` 3880-3942: the separators of the consolidated node. The node has room for `GetItemCount()` items
(3912) and the asserts 3938-3939 require exactly that many. -/
def collectSeps (c : InnerChain K) : Option (List (K × NodeId)) :=
  match collectSepsRec c.depth c.low.2 c c.high { sss := [], used := 0, out := [c.low] } with
  | none => none
  | some st => if (st.out.length : Int) = c.itemCount then some st.out else none

/-- The consolidated node with depth `d` (ConsolidateInnerNode 6317 uses 0, FindLeftSibling 7230 uses depth + 1). -/
def consolidate (d : Nat) (c : InnerChain K) : Option (InnerChain K) :=
  match collectSeps c with
  | none => none
  | some items => some (base c.low c.high d items)

/-- Result of the walk of FindLeftSibling: an answer, or a merge record was met. -/
inductive LeftRes where
  | found (id : NodeId)
  | sawMerge
  deriving Repr, DecidableEq

/-- Loop 7113-7170: pop items in descending key order until two have been seen. `i` is the position of `it1` (`none`
after stepping before `Begin()`; such an iterator may not be dereferenced), `left` the current `left_item_p`. -/
def popTwo (items : List (K × NodeId)) : Nat → Nat → Option Nat → List (SepRec K) → Option NodeId → Option NodeId
  | _, 0, _, _, left => left
  | 0, _, _, _, _ => none
  | fuel + 1, n + 1, i, [], _ =>
    match i with
    | none => none
    | some j =>
      match items[j]? with
      | none => none
      | some x => popTwo items fuel n (if j = 0 then none else some (j - 1)) [] (some x.2)
  | fuel + 1, n + 1, i, d :: ds, left =>
    match i with
    | none => none
    | some 0 =>
      if d.isIns then popTwo items fuel n (some 0) ds (some d.item.2)
      else popTwo items fuel (n + 1) (some 0) ds left
    | some (j + 1) =>
      match items[j + 1]? with
      | none => none
      | some x =>
        if d.item.1 = x.1 then
          if d.isIns then popTwo items fuel n (some j) ds (some d.item.2)
          else popTwo items fuel (n + 1) (some j) ds left
        else if d.item.1 < x.1 then popTwo items fuel n (some j) (d :: ds) (some x.2)
        else if d.isIns then popTwo items fuel n (some (j + 1)) ds (some d.item.2)
        else popTwo items fuel (n + 1) (some (j + 1)) ds left

/-- Walk of `FindLeftSibling` 7045-7272 over a chain; `cap` is the size of `data_node_list` (7058); the model asks for a free
cell before it knows whether the record is a duplicate. -/
def leftRec (cap : Nat) (k : K) : InnerChain K → List (SepRec K) → Option LeftRes
  | base _ _ _ items, sss =>
    if items.length = 0 then none
    else
      match upperBound items 1 items.length k with
      | none => none
      | some 0 => none
      | some (i + 1) =>
        match popTwo items (items.length + sss.length + 2) 2 (some i) sss none with
        | none => none
        | some id => some (.found id)
  | ins item _ _ c, sss =>
    if item.1 ≤ k then
      if sss.length < cap then leftRec cap k c (SmallSet.insert sepGt sepEq ⟨item, true⟩ sss) else none
    else leftRec cap k c sss
  | del item _ _ _ c, sss =>
    if item.1 ≤ k then
      if sss.length < cap then leftRec cap k c (SmallSet.insert sepGt sepEq ⟨item, false⟩ sss) else none
    else leftRec cap k c sss
  | split _ _ c, sss => leftRec cap k c sss
  | merge _ _ _ _, _ => some .sawMerge
  | remove _ _, _ => none
  | abort _ _, _ => none

/-- Entry of FindLeftSibling with its range assertion (7051). When the walk meets a merge record the code consolidates the
node and continues on the result with an empty set (7216-7254); see `leftSibling`. -/
def leftStart (k : K) (c : InnerChain K) : Option LeftRes :=
  if c.high.2 = INVALID ∨ k < c.high.1 then leftRec c.depth k c [] else none

/-- The NodeID FindLeftSibling returns. -/
def leftSibling (k : K) (c : InnerChain K) : Option NodeId :=
  match leftStart k c with
  | some (.found id) => some id
  | some .sawMerge =>
    match consolidate (c.depth + 1) c with
    | none => none
    | some b =>
      match leftRec c.depth k b [] with
      | some (.found id) => some id
      | _ => none
  | none => none

/-- `InnerNode::GetSplitSibling` 2417-2459. -/
def splitSibling : InnerChain K → Option (InnerChain K)
  | base _ high _ items =>
    if 2 ≤ items.length then
      match items[items.length / 2]? with
      | none => none
      | some x => some (base x high 0 (items.drop (items.length / 2)))
    else none
  | _ => none

/-- The split delta built in AdjustNodeSize (6656-6663) for sibling `sib` installed at `newId`. -/
def splitDelta (newId : NodeId) (sib c : InnerChain K) : InnerChain K :=
  split (sib.low.1, newId) sib.itemCount c

end InnerChain
end BwTree
