/-!
  Ownership of iterator page buffers: `IteratorContext` (bwtree.h 8558-8735) reference counts and the special member functions of
  `ForwardIterator` (8747-9390).

  An iterator is reduced to its `ic_p`; `kv_p` is null exactly when `ic_p` is (asserted throughout the code). A context is
  its reference count, `none` = not allocated or already deleted. Accessing such a context, or a null `ic_p`, is undefined
  behaviour: the operation returns `none`. Iterators live in numbered variables; a variable holds `none` while no object
  is constructed in it.
-/

namespace BwTree
namespace Iter

structure State where
  var : Nat → Option (Option Nat)     -- variables: not constructed / iterator with `ic_p` (none = nullptr)
  ctx : Nat → Option Nat              -- reference counts of the allocated contexts
  next : Nat                          -- next fresh address

def init : State := { var := fun _ => none, ctx := fun _ => none, next := 0 }

def upd {α : Type} (f : Nat → α) (i : Nat) (x : α) : Nat → α := fun j => if j = i then x else f j

/-- `IncRef` (8619). -/
def incRef (s : State) (c : Nat) : Option State :=
  match s.ctx c with
  | some r => some { s with ctx := upd s.ctx c (some (r + 1)) }
  | none => none

/-- `DecRef` (8646): asserts a non-zero count; the last reference deletes the context. -/
def decRef (s : State) (c : Nat) : Option State :=
  match s.ctx c with
  | some 0 => none
  | some 1 => some { s with ctx := upd s.ctx c none }
  | some (r + 2) => some { s with ctx := upd s.ctx c (some (r + 1)) }
  | none => none

/-- `IteratorContext::Get` (8683): a new context with one reference. -/
def getCtx (s : State) : State × Nat :=
  ({ s with ctx := upd s.ctx s.next (some 1), next := s.next + 1 }, s.next)

/-- The page reload in LowerBound (9205-9210) and MoveBackByOne (9303-9306), `k` times: release the old context, get a new one. -/
def reload : Nat → State → Nat → Option State
  | 0, s, _ => some s
  | k + 1, s, i =>
    match s.var i with
    | some (some c) =>
      match decRef s c with
      | some s1 =>
        let (s2, c') := getCtx s1
        reload k { s2 with var := upd s2.var i (some (some c')) } i
      | none => none
    | _ => none

inductive Op where
  | ctorNull (i : Nat)              -- ForwardIterator() 8763
  | ctorPage (i k : Nat)            -- ForwardIterator(tree) 8774 (k = 0), ForwardIterator(tree, key) 8810 loading 1 + k pages
  | copyCtor (i j : Nat)            -- 8829, constructs `i` from `j`
  | copyAssign (i j : Nat)          -- 8845, i = j
  | moveAssign (i j : Nat)          -- 8876, i = std::move(j)
  | dtor (i : Nat)                  -- 9073
  | move (i k : Nat)                -- prefix ++ / -- (9095, 9108) loading k pages; no-op on a null iterator
  | postMove (i j k : Nat)          -- postfix ++ / -- (9126, 9143): constructs the returned copy in `j`
  deriving DecidableEq, Repr

def op (s : State) : Op → Option State
  | .ctorNull i =>
    match s.var i with
    | none => some { s with var := upd s.var i (some none) }
    | some _ => none
  | .ctorPage i k =>
    match s.var i with
    | none =>
      let (s1, c) := getCtx s
      reload k { s1 with var := upd s1.var i (some (some c)) } i
    | some _ => none
  | .copyCtor i j =>
    match s.var i, s.var j with
    | none, some (some c) => incRef { s with var := upd s.var i (some (some c)) } c
    | _, _ => none
  | .copyAssign i j =>
    match s.var i, s.var j with
    | some a, some b =>
      if i = j then some s
      else
        match (match a with | none => some s | some c => decRef s c) with
        | none => none
        | some s1 =>
          match b with
          | none => none
          | some d => incRef { s1 with var := upd s1.var i (some (some d)) } d
    | _, _ => none
  | .moveAssign i j =>
    match s.var i, s.var j with
    | some _, some b =>
      if i = j then some s
      else some { s with var := upd (upd s.var i (some b)) j (some none) }
    | _, _ => none
  | .dtor i =>
    match s.var i with
    | some none => some { s with var := upd s.var i none }
    | some (some c) => decRef { s with var := upd s.var i none } c
    | none => none
  | .move i k =>
    match s.var i with
    | some none => some s
    | some (some _) => reload k s i
    | none => none
  -- the copy is made before moving; for an end iterator only the copy is made (9127, 9144: `return *this`)
  | .postMove i j k =>
    match s.var i, s.var j with
    | some (some c), none =>
      match incRef { s with var := upd s.var j (some (some c)) } c with
      | some s1 => reload k s1 i
      | none => none
    | _, _ => none

/-- The program only uses variables that hold an object, and constructs only in free ones (C++ scoping). -/
def Usable (s : State) : Op → Prop
  | .ctorNull i | .ctorPage i _ => s.var i = none
  | .copyCtor i j => s.var i = none ∧ s.var j ≠ none
  | .copyAssign i j | .moveAssign i j => s.var i ≠ none ∧ s.var j ≠ none
  | .dtor i | .move i _ => s.var i ≠ none
  | .postMove i j _ => s.var i ≠ none ∧ s.var j = none ∧ i ≠ j

def run : State → List Op → Option State
  | s, [] => some s
  | s, o :: os => (op s o).bind (fun s' => run s' os)

end Iter
end BwTree
