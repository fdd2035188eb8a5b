import Verif.Model.Tree

/-!
  Concurrent executions of the tree: any number of threads, each executing one call at a time, interleaved at atomic steps.
-/

namespace BwTree
namespace Tree

open Prog

variable {K V : Type}

/-- What a thread may call: an API operation; or the page reads that iterators are made of. `page k` is one round of LowerBound 9173
(Traverse for `k`, then copy the leaf); `first` is Begin() 8779 (copy the leftmost leaf); `back k` is one round of MoveBackByOne 9283
(TraverseBI for `k`, assert, then copy the leaf). -/
inductive Call (K V : Type) where
  | api (op : Spec.Op K V)
  | page (k : K)
  | first
  | back (k : K)

/-- What a call returns. `values` carries, besides the list returned by GetValue, the leaf it was read from; the code does not return
that, it is only there to state when the list is right (see C30). `page` is what an iterator copies: low and high key pair and the items. -/
inductive Ans (K V : Type) where
  | bool (b : Bool)
  | values (l : List V) (leaf : LeafChain K V)
  | page (low high : K × NodeId) (items : List (K × V))

variable [LinearOrder K] [DecidableEq V] [Inhabited K]

/-- `CollectAllValuesOnLeaf` 4812 into the iterator's own page (9201, 8790). -/
def readPage (n : Node K V) : Prog K V (Ans K V) :=
  match n with
  | .inner _ => .fail .kind
  | .leaf c =>
    match c.collect with
    | none => .fail .collect
    | some items => .ret (.page c.low c.high items)

/-- The program of a call. -/
def prog (fuel : Nat) : Call K V → Prog K V (Ans K V)
  | .api (.insert k v) => do
    let b ← insert fuel k v fuel
    return .bool b
  | .api (.delete k v) => do
    let b ← delete fuel k v fuel
    return .bool b
  | .api (.get k) => do
    let x ← getValue fuel k fuel
    return .values x.1 x.2
  | .page k => do
    let ctx ← traverse fuel k fuel
    readPage ctx.cur.node
  | .first => do
    let g ← getNode FIRST_LEAF
    readPage g.2
  | .back k => do
    let ctx ← traverseBI fuel k fuel
    if ctx.cur.node.low.2 = INVALID ∨ ctx.cur.node.low.1 < k then readPage ctx.cur.node else .fail .backLow

/-- `InitNodeLayout` 3004-3110: root (NodeID 1) with one child, the empty leaf (NodeID 2). -/
def initMem : Mem K V where
  root := 1
  table := fun i => if i = 1 then some 0 else if i = 2 then some 1 else none
  heap := fun p =>
    if p = 0 then some (.inner (.base (default, 2) (default, INVALID) 0 [(default, 2)]))
    else if p = 1 then some (.leaf (.base (default, INVALID) (default, INVALID) []))
    else none
  kids := fun _ => []
  nextId := 3
  nextPtr := 2
  garbage := []

/-- A configuration: memory, what each thread is running (`none` = idle), and the calls and returns so far. -/
structure Conf (K V : Type) where
  mem : Mem K V
  thr : Tid → Option (Prog K V (Ans K V))
  hist : List (Lin.Event (Call K V) (Ans K V))

/-- Set the program of one thread. -/
def setThr (f : Tid → Option (Prog K V (Ans K V))) (t : Tid) (p : Option (Prog K V (Ans K V))) :
    Tid → Option (Prog K V (Ans K V)) := fun u => if u = t then p else f u

/-- One step of the system: a thread calls, executes one atomic step, or returns. A thread whose program has failed takes no
further step. -/
inductive Step : Conf K V → Conf K V → Prop where
  | call (c : Conf K V) (t : Tid) (fuel : Nat) (op : Call K V) : c.thr t = none →
      Step c ⟨c.mem, setThr c.thr t (some (prog fuel op)), c.hist ++ [.call t op]⟩
  | step (c : Conf K V) (t : Tid) (p p' : Prog K V (Ans K V)) (m' : Mem K V) : c.thr t = some p → p.step c.mem = some (m', p') →
      Step c ⟨m', setThr c.thr t (some p'), c.hist⟩
  | ret (c : Conf K V) (t : Tid) (a : Ans K V) : c.thr t = some (.ret a) →
      Step c ⟨c.mem, setThr c.thr t none, c.hist ++ [.ret t a]⟩

/-- The configuration after construction of the tree. -/
def initConf : Conf K V := ⟨initMem, fun _ => none, []⟩

/-- Configurations reachable by any interleaving of any calls. -/
inductive Reach : Conf K V → Prop where
  | init : Reach initConf
  | step {c c' : Conf K V} : Reach c → Step c c' → Reach c'

end Tree
end BwTree
