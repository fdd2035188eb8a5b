import Verif.Model.Search
import Verif.Model.SmallSet
import Mathlib.Order.Defs.LinearOrder

/-!
  Leaf nodes and leaf delta chains of /repo/src/bwtree.h and the three search routines plus
  consolidation that walk them.

  Simplifications, all stated here once:
  * A chain is an immutable value; in the code it is an immutable linked structure once published.
  * `KeyComparator`/`KeyEqualityChecker` are a linear order and its equality (see C35), value equality is
    decidable equality.
  * `BloomFilter` objects are represented by the list of inserted values with exact membership; C25
    proves that the class answers exactly that.
  * `none` is undefined behaviour or a failing `assert` (asserts are active in the build).
-/

namespace BwTree

/-- `NodeID` (uint64_t, 121). -/
abbrev NodeId := Nat

/-- `INVALID_NODE_ID` (139-141). -/
def INVALID : NodeId := 0

/-- `~INVALID_NODE_ID`, stored as NodeID part of a split leaf's low key (2608). -/
def NOT_INVALID : NodeId := 2 ^ 64 - 1

/-- Leaf delta chains: one constructor per class.
  `base`   – LeafNode (2467) / ElasticNode (2075): low key pair, high key pair, array of items;
  `ins`    – LeafInsertNode 1420 (item, index_pair);   `del` – LeafDeleteNode 1450;
  `split`  – LeafSplitNode 1479 (insert_item; `sib` = item count of the split sibling passed to the
             constructor);
  `remove` – LeafRemoveNode 1524;  `merge` – LeafMergeNode 1556 (delete_item, right_merge_p). -/
inductive LeafChain (K V : Type) where
  | base (low high : K × NodeId) (items : List (K × V))
  | ins (k : K) (v : V) (idx : Nat) (ex : Bool) (child : LeafChain K V)
  | del (k : K) (v : V) (idx : Nat) (ex : Bool) (child : LeafChain K V)
  | split (key : K) (id : NodeId) (sib : Int) (child : LeafChain K V)
  | merge (key : K) (id : NodeId) (right child : LeafChain K V)
  | remove (id : NodeId) (child : LeafChain K V)
  deriving Repr, DecidableEq

namespace LeafChain

variable {K V : Type}

/-- `GetLowKeyPair` 1278: every delta copies its child's low key pointer (1432, 1462, 1489, 1533, 1577). -/
def low : LeafChain K V → K × NodeId
  | base l _ _ => l
  | ins _ _ _ _ c => c.low
  | del _ _ _ _ c => c.low
  | split _ _ _ c => c.low
  | merge _ _ _ c => c.low
  | remove _ c => c.low

/-- `GetHighKeyPair` 1268: inherited, except split (its own item, 1498) and merge (right branch, 1580). -/
def high : LeafChain K V → K × NodeId
  | base _ h _ => h
  | ins _ _ _ _ c => c.high
  | del _ _ _ _ c => c.high
  | split k id _ _ => (k, id)
  | merge _ _ r _ => r.high
  | remove _ c => c.high

/-- `GetDepth` 1309: base 0 (CollectAllValuesOnLeaf 4827, GetSplitSibling 2606), +1 per data delta (1435, 1464),
sum for merge (1583), unchanged for split and remove. The 16-bit field (1130) is modelled as `Nat`; C08
bounds it. -/
def depth : LeafChain K V → Nat
  | base _ _ _ => 0
  | ins _ _ _ _ c => c.depth + 1
  | del _ _ _ _ c => c.depth + 1
  | split _ _ _ c => c.depth
  | merge _ _ r c => c.depth + r.depth
  | remove _ c => c.depth

/-- `GetItemCount` 1316, as computed by the constructors (2111, 1438, 1467, 1506, 1538, 1587). -/
def itemCount : LeafChain K V → Int
  | base _ _ items => items.length
  | ins _ _ _ _ c => c.itemCount + 1
  | del _ _ _ _ c => c.itemCount - 1
  | split _ _ sib c => c.itemCount - sib
  | merge _ _ r c => c.itemCount + r.itemCount
  | remove _ c => c.itemCount

/-- `IsDeltaNode` 1200. -/
def isDelta : LeafChain K V → Bool
  | base _ _ _ => false
  | _ => true

/-- `IsRemoveNode` 1222 for leaf nodes. -/
def isRemove : LeafChain K V → Bool
  | remove _ _ => true
  | _ => false

variable [LinearOrder K] [DecidableEq V]

/-- The scan `while(it != End() && KeyCmpEqual(it->first, key))` of 4482-4506: from position `i` on (the list argument is
the rest of the array), look for the value; the result is (found, position). -/
def scanFor (k : K) (v : V) : List (K × V) → Nat → Bool × Nat
  | [], i => (false, i)
  | x :: xs, i => if x.1 = k then (if x.2 = v then (true, i) else scanFor k v xs (i + 1)) else (false, i)

/-- `NavigateLeafNode(context, value, index_pair)` 4438-4603 after the sibling walk: existence of one pair.
Returns (found, index pair). -/
def findValue (k : K) (v : V) : LeafChain K V → Option (Bool × Nat × Bool)
  | base _ _ items =>
    match lowerBound items 0 items.length k with
    | none => none
    | some b =>
      match scanFor k v (items.drop b) b with
      | (true, i) => some (true, i, true)
      | (false, i) => some (false, i, false)
  | ins k' v' i e c => if k = k' ∧ v' = v then some (true, i, e) else findValue k v c
  | del k' v' i e c => if k = k' ∧ v' = v then some (false, i, e) else findValue k v c
  | remove _ _ => none
  | merge mk _ r c => if mk ≤ k then findValue k v r else findValue k v c
  | split _ _ _ c => findValue k v c

/-- Copy loop 4300-4318: append values stored under `k` that are neither deleted nor present. -/
def copyValues (k : K) (present deleted : List V) : List (K × V) → List V → List V
  | [], out => out
  | x :: xs, out =>
    if x.1 = k then
      copyValues k present deleted xs
        (if !deleted.contains x.2 && !present.contains x.2 then out ++ [x.2] else out)
    else out

/-- `NavigateLeafNode(context, value_list)` 4225-4419 after the sibling walk: all values of a key.  `s`/`e` are
`start_index`/`end_index` (`e = none` stands for -1); `cap` is the size of the two stack arrays (4253-4262), writing past
it is undefined. -/
def getValues (cap : Nat) (k : K) : LeafChain K V → (present deleted : List V) → (s : Nat) → (e : Option Nat) →
    List V → Option (List V)
  | base _ _ items, present, deleted, s, e, out =>
    let last := e.getD items.length
    match lowerBound items s last k with
    | none => none
    | some b => some (copyValues k present deleted (items.drop b) out)
  | ins k' v' i _ c, present, deleted, s, e, out =>
    if k = k' then
      if !deleted.contains v' && !present.contains v' then
        if present.length < cap then getValues cap k c (present ++ [v']) deleted s e (out ++ [v']) else none
      else getValues cap k c present deleted s e out
    else if k' < k then getValues cap k c present deleted i e out
    else getValues cap k c present deleted s (some i) out
  | del k' v' i _ c, present, deleted, s, e, out =>
    if k = k' then
      if !present.contains v' then
        if deleted.length < cap then getValues cap k c present (deleted ++ [v']) s e out else none
      else getValues cap k c present deleted s e out
    else if k' < k then getValues cap k c present deleted i e out
    else getValues cap k c present deleted s (some i) out
  | remove _ _, _, _, _, _, _ => none
  | merge mk _ r c, present, deleted, s, e, out =>
    if mk ≤ k then getValues cap k r present deleted s e out else getValues cap k c present deleted s e out
  | split _ _ _ c, present, deleted, s, e, out => getValues cap k c present deleted s e out

/-- Result of the predicate search: the flag `*predicate_satisfied`, an existing equal pair, or the index to insert at. -/
inductive PredResult where
  | satisfied
  | existing
  | insertAt (idx : Nat) (ex : Bool)
  deriving Repr, DecidableEq

/-- Scan 4669-4692 of the predicate search. -/
def predScan (k : K) (v : V) (p : V → Bool) (present deleted : List V) : List (K × V) → Nat → PredResult
  | [], i => .insertAt i false
  | x :: xs, i =>
    if x.1 = k then
      if !deleted.contains x.2 && !present.contains x.2 then
        if p x.2 then .satisfied
        else if v = x.2 then .existing
        else predScan k v p present deleted xs (i + 1)
      else predScan k v p present deleted xs (i + 1)
    else .insertAt i false

/-- `NavigateLeafNode(context, value, index_pair, predicate, flag)` 4626-4797; `cap` as in `getValues` (4646-4649). -/
def predSearch (cap : Nat) (k : K) (v : V) (p : V → Bool) : LeafChain K V → (present deleted : List V) → Option PredResult
  | base _ _ items, present, deleted =>
    match lowerBound items 0 items.length k with
    | none => none
    | some b => some (predScan k v p present deleted (items.drop b) b)
  | ins k' v' _ _ c, present, deleted =>
    if k = k' then
      if !deleted.contains v' && !present.contains v' then
        if p v' then some .satisfied
        else if v = v' then some .existing
        else if present.length < cap then predSearch cap k v p c (present ++ [v']) deleted else none
      else predSearch cap k v p c present deleted
    else predSearch cap k v p c present deleted
  | del k' v' _ _ c, present, deleted =>
    if k = k' then
      if !present.contains v' then
        if deleted.length < cap then predSearch cap k v p c present (deleted ++ [v']) else none
      else predSearch cap k v p c present deleted
    else predSearch cap k v p c present deleted
  | remove _ _, _, _ => none
  | merge mk _ r c, present, deleted =>
    if mk ≤ k then predSearch cap k v p r present deleted else predSearch cap k v p c present deleted
  | split _ _ _ c, present, deleted => predSearch cap k v p c present deleted

end LeafChain

/-- A `LeafDataNode *` kept in `sss` during consolidation: item, index pair and node type. -/
structure DeltaRec (K V : Type) where
  k : K
  v : V
  idx : Nat
  ex : Bool
  isIns : Bool
  deriving Repr, DecidableEq

namespace LeafChain

variable {K V : Type} [LinearOrder K] [DecidableEq V]

/-- Comparator `f1` (4857-4869): key first, then index. -/
def deltaLt (a b : DeltaRec K V) : Bool :=
  if a.k < b.k then true else if a.k = b.k then decide (a.idx < b.idx) else false

/-- Merge loop 5022-5075 over the deltas below the high key (`todo`), plus the final copy 5078.
`fuel` counts outer iterations (each consumes at least one delta). -/
def mergeLoop (items : List (K × V)) (copyEnd : Nat) :
    Nat → List (DeltaRec K V) → Nat → List (K × V) → Option (List (K × V))
  | _, [], start, out =>
    match slice? items start copyEnd with
    | none => none
    | some s => some (out ++ s)
  | 0, _ :: _, _, _ => none
  | fuel + 1, d :: ds, start, out =>
    let cur := d.idx
    -- assert(copy_start_index <= current_index); assert(current_index <= copy_end_index)
    if start ≤ cur ∧ cur ≤ copyEnd then
      match slice? items start cur with
      | none => none
      | some s =>
        let grp := (d :: ds).takeWhile (fun x => x.idx == cur)
        let rest := (d :: ds).dropWhile (fun x => x.idx == cur)
        let out' := out ++ s ++ (grp.filter (·.isIns)).map (fun x => (x.k, x.v))
        let start' := if grp.any (·.ex) then cur + 1 else cur
        mergeLoop items copyEnd fuel rest start' out'
    else none

/-- State threaded through the recursion: `sss`, `delta_set`, items pushed into the new leaf node. -/
structure CollectState (K V : Type) where
  sss : List (DeltaRec K V)
  seen : List (K × V)
  out : List (K × V)

/-- Case `LeafType` of CollectAllValuesOnLeafRecursive (4958-5082). -/
def collectBase (items : List (K × V)) (hi : K × NodeId) (st : CollectState K V) : Option (CollectState K V) :=
  -- copy_end_it (4964-4979)
  match (if hi.2 = INVALID then some items.length else lowerBound items 0 items.length hi.1) with
  | none => none
  | some copyEnd =>
    -- sss_end_it (4993-5016): walk back from the last element while its key is not below the high key
    let n := if hi.2 = INVALID then st.sss.length
             else (st.sss.reverse.dropWhile (fun d => !decide (d.k < hi.1))).length
    match mergeLoop items copyEnd n (st.sss.take n) 0 st.out with
    | none => none
    | some out => some { sss := st.sss.drop n, seen := st.seen, out := out }

/-- `CollectAllValuesOnLeafRecursive` 4928-5142; `hi` is the high key pair of the node the (recursive) call started
at (4936). `cap` is the size of the stack arrays under `sss` and `delta_set` (4841-4859); as the start pointer of `sss` only
moves forward, the space used in both is the number of records ever put in, the length of `seen`. -/
def collectRec (cap : Nat) : LeafChain K V → K × NodeId → CollectState K V → Option (CollectState K V)
  | base _ _ items, hi, st => collectBase items hi st
  | ins k v i e c, hi, st =>
    if st.seen.contains (k, v) then collectRec cap c hi st
    else if st.seen.length < cap then
      match SmallSet.insertNoDedup deltaLt ⟨k, v, i, e, true⟩ st.sss with
      | none => none
      | some s => collectRec cap c hi { st with sss := s, seen := st.seen ++ [(k, v)] }
    else none
  | del k v i e c, hi, st =>
    if st.seen.contains (k, v) then collectRec cap c hi st
    else if st.seen.length < cap then
      match SmallSet.insertNoDedup deltaLt ⟨k, v, i, e, false⟩ st.sss with
      | none => none
      | some s => collectRec cap c hi { st with sss := s, seen := st.seen ++ [(k, v)] }
    else none
  | remove _ _, _, _ => none
  | split _ _ _ c, hi, st => collectRec cap c hi st
  | merge _ _ r c, _, st =>
    match collectRec cap c c.high st with
    | none => none
    | some st' => collectRec cap r r.high st'

/-- `CollectAllValuesOnLeaf` 4812-4908: the items of the consolidated node. The node is allocated for `GetItemCount()`
items (4824); pushing more is a heap overrun and pushing fewer fails the assert 4905, hence the check. -/
def collect (c : LeafChain K V) : Option (List (K × V)) :=
  match collectRec c.depth c c.high { sss := [], seen := [], out := [] } with
  | none => none
  | some st => if (st.out.length : Int) = c.itemCount then some st.out else none

/-- `ConsolidateLeafNode` 6292 / the node CollectAllValuesOnLeaf builds: same low and high key pair, depth 0. -/
def consolidate (c : LeafChain K V) : Option (LeafChain K V) :=
  match collect c with
  | none => none
  | some items => some (base c.low c.high items)

/-- Leaf part of `Insert` 7353-7447: search, and if absent build a LeafInsertNode on the snapshot. -/
def insertStep (k : K) (v : V) (c : LeafChain K V) : Option (Bool × LeafChain K V) :=
  match findValue k v c with
  | none => none
  | some (true, _, _) => some (false, c)
  | some (false, i, e) => some (true, ins k v i e c)

/-- Leaf part of `Delete` 7556-7636. -/
def deleteStep (k : K) (v : V) (c : LeafChain K V) : Option (Bool × LeafChain K V) :=
  match findValue k v c with
  | none => none
  | some (false, _, _) => some (false, c)
  | some (true, i, e) => some (true, del k v i e c)

/-- Leaf part of `GetValue` 7638-7680. -/
def lookupStep (k : K) (c : LeafChain K V) : Option (List V) := getValues c.depth k c [] [] 0 none []

/-- Leaf part of `ConditionalInsert` 7449-7554 (only compiled with BWTREE_PELOTON): result is
(returned value, *predicate_satisfied, new chain). -/
def condInsertStep (k : K) (v : V) (p : V → Bool) (c : LeafChain K V) : Option (Bool × Bool × LeafChain K V) :=
  match predSearch c.depth k v p c [] [] with
  | none => none
  | some .satisfied => some (false, true, c)
  | some .existing => some (false, false, c)
  | some (.insertAt i e) => some (true, false, ins k v i e c)

end LeafChain
end BwTree
