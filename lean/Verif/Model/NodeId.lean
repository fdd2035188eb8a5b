import Verif.Model.AtomicStack

/-!
  Node ID allocation: `GetNextNodeID` (bwtree.h 3120-3135), `InvalidateNodeID` (2821-2828, the push of recycled IDs is
  commented out, so the free list has no producer), `InstallNewNode` (3178), `InstallNodeToReplace` (3143), `GetNode` (3198).
-/

namespace BwTree
namespace NodeId

/-- INVALID_NODE_ID (139 ff.). -/
def INVALID : Nat := 0
/-- MAPPING_TABLE_SIZE. -/
def TABLE_SIZE : Nat := 2 ^ 20

/-- `free_node_id_list`, `next_unused_node_id`, and for each thread whether its Pop has returned false and fetch_add comes
next. `out` is the log of IDs handed out, newest first. -/
structure State where
  stk : AStack.State Nat
  next : Nat
  needAdd : Nat → Bool
  out : List (Nat × Nat)

/-- BwTree constructor (2668-2671): counter 1, empty free list. -/
def init : State := { stk := AStack.init 0, next := 1, needAdd := fun _ => false, out := [] }

inductive Act where
  | popLoad (t : Nat)
  | popRead (t : Nat)
  | popCas (t : Nat)
  | fetchAdd (t : Nat)

/-- One step of `Pop` by thread `t`; the result of Pop decides how GetNextNodeID continues (3127-3134). -/
def popStep (s : State) (t : Nat) (a : AStack.Act Nat) : Option State :=
  if s.needAdd t then none
  else
    match AStack.step TABLE_SIZE s.stk a with
    | none => none
    | some (stk', none) => some { s with stk := stk' }
    | some (stk', some (.failed _)) => some { s with stk := stk', needAdd := fun i => if i = t then true else s.needAdd i }
    | some (stk', some (.popped _ v)) => some { s with stk := stk', out := (t, v) :: s.out }
    | some (stk', some (.pushed _)) => some { s with stk := stk' }

def step (s : State) : Act → Option State
  | .popLoad t => popStep s t (.popLoad t)
  | .popRead t => popStep s t (.popRead t)
  | .popCas t => popStep s t (.popCas t)
  | .fetchAdd t =>
    if s.needAdd t then
      some { s with next := s.next + 1, out := (t, s.next) :: s.out,
                    needAdd := fun i => if i = t then false else s.needAdd i }
    else none

def run : State → List Act → Option State
  | s, [] => some s
  | s, a :: as => (step s a).bind (fun s' => run s' as)

/-- `InstallNewNode` (3178): writes `mapping_table[node_id]` without any check; `none` = write outside the array. -/
def installNewNode {N : Type} (table : Nat → N) (id : Nat) (node : N) : Option (Nat → N) :=
  if id < TABLE_SIZE then some (fun i => if i = id then node else table i) else none

end NodeId
end BwTree
