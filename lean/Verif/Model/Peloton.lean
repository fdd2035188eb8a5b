import Verif.Model.Iterator
import Verif.Model.Leaf

/-!
  The scans of the Peloton index adapter (`/repo/src/peloton/master/bwtree_index.cpp` and `/repo/src/peloton/mvcc-dev-scale/bwtree_index.cpp`),
  as programs over the iterator of the tree.

  Not modelled: the conversion of tuples to keys, and the objects the stored pointers point to (the scans that return `ItemPointer` by value copy
  the object behind each stored pointer). `ConstructLowerBoundTuple` and `Compare` are not part of the repository; they enter as the fields of
  `Cond`, and what is required of them is stated in `Verif.Spec.Peloton`.
-/

namespace BwTree
namespace Peloton

open Iterator

/-- What a scan knows about the condition it evaluates. -/
structure Cond (K : Type) where
  /-- `special_case` (master 149-155, 291-297): column 0 is compared with `=`. -/
  leading : Bool
  /-- `start_key`, filled by `ConstructLowerBoundTuple` (master 171, 309): the value of the condition in the columns compared with `=`, the least
  value in all others (mvcc-dev-scale 216-223). -/
  start : K
  /-- `all_constraints_are_equal`, the result of the same function: every column the condition mentions is compared with `=`. -/
  allEqual : Bool
  /-- `Compare(tuple, key_column_ids, expr_types, values)` (master 218, 349). -/
  sat : K → Bool

variable {K V : Type} [LinearOrder K]

/-- The loop of `Scan` (master 205-226, 336-357). `stop` is `all_constraints_are_equal`. Only the postfix `++` is used. -/
def scanLoop : Nat → Nat → (K → Bool) → Bool → Option (It K V) → IProg K V (List V)
  | 0, _, _, _, _ => .spin
  | n + 1, fuel, sat, stop, o =>
    if isEnd o then .ret []
    else do
      let x ← deref o
      if sat x.1 then
        let r ← postNext fuel o
        let xs ← scanLoop n fuel sat stop r.2
        return x.2 :: xs
      else if stop then .ret []
      else
        let r ← postNext fuel o
        scanLoop n fuel sat stop r.2

/-- `Scan` into a vector of pointers (master 269-367). Both scan directions run the same loop (333-334); an invalid direction throws. The variable
`all_constraints_are_equal` keeps its initial value unless the leading column is compared with `=` (302, 309). The early exit by `GetValue` is
commented out there (315-326). -/
def scanPointers (n fuel : Nat) (q : Cond K) : IProg K V (List V) :=
  if q.leading then do
    let it ← beginAt fuel q.start
    scanLoop n fuel q.sat q.allEqual (some it)
  else do
    let it ← begin
    scanLoop n fuel q.sat false (some it)

/-- `Scan` into a vector of objects (master 131-236) where it does not take the early exit: the same loop. The early exit (180-193), for
`leading` and `allEqual`, is one `GetValue(start)`. `none` = it takes the early exit. -/
def scanObjects (n fuel : Nat) (q : Cond K) : Option (IProg K V (List V)) :=
  if q.leading && q.allEqual then none else some (scanPointers n fuel q)

/-- `ScanAllKeys` (master 240-250, 371-381). -/
def scanAllKeys : Nat → Nat → IProg K V (List V)
  | n, fuel => do
    let it ← begin
    loop n fuel (some it)
where
  loop : Nat → Nat → Option (It K V) → IProg K V (List V)
  | 0, _, _ => .spin
  | n + 1, fuel, o =>
    if isEnd o then .ret []
    else do
      let x ← deref o
      let r ← postNext fuel o
      let xs ← loop n fuel r.2
      return x.2 :: xs

/-- `Scan` of mvcc-dev-scale (208-278, 313-366) when not all constraints are equalities: `index_key` is declared (214, 319), assigned only in the
branch for point queries (238, 328), and then given to `Begin` (246, 336). `junk` stands for its value. -/
def scanMvcc (n fuel : Nat) (junk : K) (q : Cond K) : IProg K V (List V) := do
  let it ← beginAt fuel junk
  scanLoop n fuel q.sat false (some it)

/-- Outcome of an insertion through the adapter on the leaf the key belongs to: a failed assert, or the value returned, whether the object allocated
for the entry still exists, and the leaf. -/
inductive Inserted (K V : Type) where
  | abort
  | done (ret : Bool) (kept : Bool) (leaf : LeafChain K V)
  deriving DecidableEq

/-- `InsertEntry` (master 50-66): the object is deleted if the insertion fails. `v` stands for the location in the object: values are compared by
what they point to. -/
def insertEntry [DecidableEq V] (k : K) (v : V) (c : LeafChain K V) : Option (Inserted K V) :=
  match c.insertStep k v with
  | none => none
  | some (ret, c') => some (.done ret ret c')

/-- `CondInsertEntry` (master 100-129, mvcc-dev-scale 150-184), with its two asserts. -/
def condInsertEntry [DecidableEq V] (k : K) (v : V) (p : V → Bool) (c : LeafChain K V) : Option (Inserted K V) :=
  match c.condInsertStep k v p with
  | none => none
  | some (ret, satisfied, c') =>
    if satisfied = false then
      if ret = true then some (.done ret true c') else some .abort
    else
      if ret = false then some (.done ret false c') else some .abort

end Peloton
end BwTree
