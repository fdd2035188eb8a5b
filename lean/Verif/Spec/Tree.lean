import Verif.Spec.Inner
import Verif.Model.TreeSem
import Verif.Spec.Leaf
import Verif.Spec.Set
import Verif.Spec.Lin

/-!
  What the calls on the concurrent tree should do, and what a tree in memory contains.
-/

namespace BwTree
namespace Tree

variable {K V : Type} [LinearOrder K] [DecidableEq V] [Inhabited K]

/-- What an iterator page with the given low and high key should contain when the tree stores the set `S`: the pairs of `S` in that key range, in
key order, each once. -/
def PageOk (S : Spec.PairSet K V) (low high : K × NodeId) (items : List (K × V)) : Prop :=
  items.Pairwise (fun a b => a.1 ≤ b.1) ∧ items.Nodup ∧ (∀ x ∈ items, InRange low high x.1) ∧
  ∀ k v, InRange low high k → (S k v ↔ (k, v) ∈ items)

/-- What a call may return on the set `S` and which set it leaves. GetValue returns some of the values stored under the key, each once; it
returns all of them when the leaf it was read from has no data record above a merge record (see C30). -/
def tstep (S : Spec.PairSet K V) : Call K V → Ans K V → Spec.PairSet K V → Prop
  | .api op, .bool b, S' => Spec.step S op (.bool b) S'
  | .api (.get k), .values l c, S' => (c.NoDataAboveMerge → Spec.step S (.get k) (.values l) S') ∧ S' = S ∧ l.Nodup ∧ ∀ v ∈ l, S k v
  | .page k, .page low high items, S' => S' = S ∧ InRange low high k ∧ PageOk S low high items
  | .first, .page low high items, S' => S' = S ∧ low.2 = INVALID ∧ PageOk S low high items
  | .back k, .page low high items, S' => S' = S ∧ (low.2 = INVALID ∨ low.1 < k) ∧ (high.2 = INVALID ∨ k ≤ high.1) ∧ PageOk S low high items
  | _, _, _ => False

/-- A call as the user of the set API sees it; `none` = a page read by an iterator. -/
def Call.toApi : Call K V → Option (Spec.Op K V)
  | .api op => some op
  | _ => none

/-- Its result. -/
def Ans.toApi : Ans K V → Option (Spec.Res V)
  | .bool b => some (.bool b)
  | .values l _ => some (.values l)
  | .page _ _ _ => none

/-- The same with GetValue hidden as well: only updates are left. -/
def Call.toUpdate : Call K V → Option (Spec.Op K V)
  | .api (.insert k v) => some (.insert k v)
  | .api (.delete k v) => some (.delete k v)
  | _ => none

def Ans.toUpdate : Ans K V → Option (Spec.Res V)
  | .bool b => some (.bool b)
  | _ => none

/-- Specification of histories of API calls mixed with other calls (`none`), which must not change the set. -/
def apiStep (S : Spec.PairSet K V) : Option (Spec.Op K V) → Option (Spec.Res V) → Spec.PairSet K V → Prop
  | some op, some r, S' => Spec.step S op r S'
  | none, none, S' => S' = S
  | _, _, _ => False

/-- The same, but GetValue may miss values: it returns some of the stored ones, each once. -/
def apiStepSome (S : Spec.PairSet K V) : Option (Spec.Op K V) → Option (Spec.Res V) → Spec.PairSet K V → Prop
  | some (.get k), some (.values l), S' => S' = S ∧ l.Nodup ∧ ∀ v ∈ l, S k v
  | some op, some r, S' => Spec.step S op r S'
  | none, none, S' => S' = S
  | _, _, _ => False

/-- The node a NodeID is mapped to. -/
def Mem.node (m : Mem K V) (id : NodeId) : Option (Node K V) := (m.table id).bind m.heap

/-- A node with the addresses `ks` in it stands for the given chain: below a delta record lies the rest of the chain, a merge record
names the left branch and the remove record of the right branch. -/
def ChildrenOk (heap : Ptr → Option (Node K V)) (ks : List Ptr) : Node K V → Prop
  | .leaf (.base _ _ _) => ks = []
  | .leaf (.ins _ _ _ _ c) => ∃ o, ks = [o] ∧ heap o = some (.leaf c)
  | .leaf (.del _ _ _ _ c) => ∃ o, ks = [o] ∧ heap o = some (.leaf c)
  | .leaf (.split _ _ _ c) => ∃ o, ks = [o] ∧ heap o = some (.leaf c)
  | .leaf (.merge _ _ r c) => ∃ o q id, ks = [o, q] ∧ heap o = some (.leaf c) ∧ heap q = some (.leaf (.remove id r))
  | .leaf (.remove _ c) => ∃ o, ks = [o] ∧ heap o = some (.leaf c)
  | .inner (.base _ _ _ _) => ks = []
  | .inner (.ins _ _ _ c) => ∃ o, ks = [o] ∧ heap o = some (.inner c)
  | .inner (.del _ _ _ _ c) => ∃ o, ks = [o] ∧ heap o = some (.inner c)
  | .inner (.split _ _ c) => ∃ o, ks = [o] ∧ heap o = some (.inner c)
  | .inner (.merge _ _ r c) => ∃ o q id, ks = [o, q] ∧ heap o = some (.inner c) ∧ heap q = some (.inner (.remove id r))
  | .inner (.remove _ c) => ∃ o, ks = [o] ∧ heap o = some (.inner c)
  | .inner (.abort p c) => ks = [p] ∧ heap p = some (.inner c)

/-- The leaves met when following right sibling links from the leftmost leaf. -/
inductive OnPath (m : Mem K V) : NodeId → LeafChain K V → Prop where
  | first {c : LeafChain K V} : m.node FIRST_LEAF = some (.leaf c) → OnPath m FIRST_LEAF c
  | next {id : NodeId} {c c' : LeafChain K V} : OnPath m id c → c.high.2 ≠ INVALID → m.node c.high.2 = some (.leaf c') →
      OnPath m c.high.2 c'

/-- The pairs stored in the tree. -/
def Stored (m : Mem K V) : Spec.PairSet K V := fun k v => ∃ id c, OnPath m id c ∧ c.Has k v

/-- Children of a node: its leftmost child and the child of each separator. -/
def Node.children : Node K V → List NodeId
  | .leaf _ => []
  | .inner c => c.low.2 :: c.seps.map (·.2)

/-- NodeIDs that are part of the tree: the root, the leftmost leaf, and from any of them that is not marked removed its children and
its right sibling. -/
inductive Linked (m : Mem K V) : NodeId → Prop where
  | root : Linked m m.root
  | first : Linked m FIRST_LEAF
  | child {id i : NodeId} {n : Node K V} : Linked m id → m.node id = some n → n.isRemove = false → i ∈ n.children → Linked m i
  | right {id : NodeId} {n : Node K V} : Linked m id → m.node id = some n → n.isRemove = false → n.high.2 ≠ INVALID → Linked m n.high.2

/-- Addresses that are destroyed when everything handed to the epoch manager is freed. -/
def Retired (m : Mem K V) (e : Ptr) : Prop := ∃ fuel, ∃ g ∈ m.garbage, e ∈ m.cells fuel g

/-- Addresses met when the memory of a node is read: its records, also those below a remove or abort record on top. -/
inductive Uses (m : Mem K V) : Ptr → Ptr → Prop where
  | chain {p e : Ptr} {fuel : Nat} : e ∈ m.cells fuel p → Uses m p e
  | below {p q e : Ptr} {fuel : Nat} {n : Node K V} : m.heap p = some n → (n.isRemove = true ∨ n.isAbort = true) → q ∈ m.kids p →
      e ∈ m.cells fuel q → Uses m p e

/-- The leftmost node of each level, from the root down. -/
inductive Leftmost (m : Mem K V) : NodeId → Prop where
  | root : Leftmost m m.root
  | down {id i : NodeId} {n : Node K V} : Leftmost m id → m.node id = some n → n.children.head? = some i → Leftmost m i

/-- The nodes of a level: the leftmost one and what follows by right sibling links, marked removed or not. (Once a removed node is merged
into its left sibling, the link of the latter leads past it.) -/
inductive OnLevel (m : Mem K V) : NodeId → Prop where
  | first {id : NodeId} : Leftmost m id → OnLevel m id
  | right {id : NodeId} {n : Node K V} : OnLevel m id → m.node id = some n → n.high.2 ≠ INVALID → OnLevel m n.high.2

/-- A split record with the new sibling `i`. -/
def Node.SplitsTo (n : Node K V) (i : NodeId) : Prop := (∃ k s c, n = .leaf (.split k i s c)) ∨ ∃ k s c, n = .inner (.split (k, i) s c)

/-- Nodes that hang below the root by child pointers and split records. -/
inductive Attached (m : Mem K V) : NodeId → Prop where
  | root : Attached m m.root
  | sibling {id i : NodeId} {n nd : Node K V} {p e : Ptr} {fuel : Nat} : Attached m id → m.table id = some p → m.heap p = some n → n.isRemove = false →
      e ∈ m.cells fuel p → m.heap e = some nd → nd.SplitsTo i → Attached m i
  | child {id i : NodeId} {n : Node K V} : Attached m id → m.node id = some n → n.isRemove = false → i ∈ n.children → Attached m i

/-- Records that make up the tree. -/
def PartOf (m : Mem K V) (e : Ptr) : Prop := ∃ id p, OnLevel m id ∧ m.table id = some p ∧ Uses m p e

/-- The record that marks a merged node: it stays in the mapping table until the separator of the node is deleted. -/
def Marker (m : Mem K V) (e : Ptr) : Prop := ∃ id n, id < m.nextId ∧ ¬ OnLevel m id ∧ m.table id = some e ∧ m.heap e = some n ∧ n.isRemove = true

/-- The record deletes a separator whose child is `id`. -/
def DeletesChild (m : Mem K V) (p : Ptr) (id : NodeId) : Prop :=
  ∃ item prev next loc c, m.heap p = some (.inner (.del item prev next loc c)) ∧ item.2 = id

/-- `c'` is reached from `c` by any number of steps. -/
inductive Later (c : Conf K V) : Conf K V → Prop where
  | refl : Later c c
  | step {c1 c2 : Conf K V} : Later c c1 → Step c1 c2 → Later c c2

/-- Thread `t` is executing `op`: its last event in the history is the call. -/
def Running (H : List (Lin.Event (Call K V) (Ans K V))) (t : Tid) (op : Call K V) : Prop :=
  ∃ pre post, H = pre ++ .call t op :: post ∧ ∀ e ∈ post, e.tid ≠ t

end Tree
end BwTree
