import Verif.Model.Tree

/-!
  `ConditionalInsert` on the whole tree (bwtree.h 7436-7554, compiled with BWTREE_PELOTON only).
-/

namespace BwTree
namespace Tree

open Prog

variable {K V : Type} [LinearOrder K] [DecidableEq V] [Inhabited K]

/-- `ConditionalInsert` 7449-7554; the result is (returned value, `*predicate_satisfied`). The search is `NavigateLeafNode` with the
predicate, its scratch arrays as long as the chain. Epoch calls and debug counters are left out, as in `insert`. -/
def condInsert (fuel : Nat) (k : K) (v : V) (p : V → Bool) : Nat → Prog K V (Bool × Bool)
  | 0 => .spin
  | n + 1 => do
    let ctx ← traverse fuel k fuel
    match ctx.cur.node with
    | .inner _ => .fail .kind
    | .leaf c =>
      match c.predSearch c.depth k v p [] [] with
      | none => .fail .search
      | some .satisfied => return (false, true)
      | some .existing => return (false, false)
      | some (.insertAt i e) => do
        let q ← allocate (.leaf (.ins k v i e c)) [ctx.cur.ptr]
        let ok ← replace ctx.cur.id q ctx.cur.ptr
        if ok then return (true, false) else condInsert fuel k v p n

/-- `InsertEntry` of the Peloton adapter (src/peloton/master/bwtree_index.cpp 50-66) on the whole tree: the value returned, and whether the object
allocated for the entry still exists. -/
def insertEntry (fuel : Nat) (k : K) (v : V) : Prog K V (Bool × Bool) := do
  let ret ← insert fuel k v fuel
  return (ret, ret)

/-- `CondInsertEntry` (src/peloton/master/bwtree_index.cpp 100-129) on the whole tree, with its two asserts: `none` if one fails, otherwise as in
`insertEntry`. -/
def condInsertEntry (fuel : Nat) (k : K) (v : V) (p : V → Bool) : Prog K V (Option (Bool × Bool)) := do
  let r ← condInsert fuel k v p fuel
  if r.2 = false then
    if r.1 = true then return some (r.1, true) else return none
  else
    if r.1 = false then return some (r.1, false) else return none

end Tree
end BwTree
