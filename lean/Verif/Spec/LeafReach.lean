import Verif.Model.Split
import Verif.Spec.Leaf
import Verif.Spec.Set

/-!
  Leaf chains that the code can build: start from an empty leaf and apply the leaf part of Insert, Delete, consolidation,
  split and merge in any order. This uses only the model's *operations*, not the invariant `WF`.
-/

namespace BwTree

open LeafChain

variable {K V : Type} [LinearOrder K] [DecidableEq V]

inductive LeafReach : LeafChain K V → Prop where
  /-- an empty leaf with any non-empty key range (InitNodeLayout 3004 creates the one with the full range) -/
  | init (low high : K × NodeId) : RangeNE low high → LeafReach (base low high [])
  | insert {c c' : LeafChain K V} {k : K} {v : V} {b : Bool} :
      LeafReach c → InRange c.low c.high k → insertStep k v c = some (b, c') → LeafReach c'
  | delete {c c' : LeafChain K V} {k : K} {v : V} {b : Bool} :
      LeafReach c → InRange c.low c.high k → deleteStep k v c = some (b, c') → LeafReach c'
  | consolidate {c c' : LeafChain K V} : LeafReach c → LeafChain.consolidate c = some c' → LeafReach c'
  /-- the old leaf after a split -/
  | splitLeft {c l r : LeafChain K V} {id : NodeId} :
      LeafReach c → id ≠ INVALID → trySplit id c = some (some (l, r)) → LeafReach l
  /-- the new sibling -/
  | splitRight {c l r : LeafChain K V} {id : NodeId} :
      LeafReach c → id ≠ INVALID → trySplit id c = some (some (l, r)) → LeafReach r
  /-- PostLeafMergeNode 7313: `r` is the chain below the remove record of the right sibling `id`, which the left chain
  points to and which begins at the left chain's high key -/
  | merge {l r : LeafChain K V} {mk : K} {id : NodeId} :
      LeafReach l → LeafReach r → l.high = (mk, id) → id ≠ INVALID → r.low.1 = mk → r.low.2 ≠ INVALID →
      LeafReach (LeafChain.merge mk id r l)

/-- Actions on one leaf: API calls with keys of this leaf, or a consolidation. -/
inductive LeafAct (K V : Type) where
  | api (op : Spec.Op K V)
  | consolidate

/-- Key of an API call. -/
def Spec.Op.key : Spec.Op K V → K
  | .insert k _ => k
  | .delete k _ => k
  | .get k => k

/-- Run a history of actions on a leaf, recording the calls and their results. -/
def leafRun : List (LeafAct K V) → LeafChain K V → Option (List (Spec.Op K V × Spec.Res V) × LeafChain K V)
  | [], c => some ([], c)
  | .consolidate :: rest, c =>
    match consolidate c with
    | none => none
    | some c' => leafRun rest c'
  | .api (.insert k v) :: rest, c =>
    match insertStep k v c with
    | none => none
    | some (b, c') =>
      match leafRun rest c' with
      | none => none
      | some (tr, c'') => some ((.insert k v, .bool b) :: tr, c'')
  | .api (.delete k v) :: rest, c =>
    match deleteStep k v c with
    | none => none
    | some (b, c') =>
      match leafRun rest c' with
      | none => none
      | some (tr, c'') => some ((.delete k v, .bool b) :: tr, c'')
  | .api (.get k) :: rest, c =>
    match lookupStep k c with
    | none => none
    | some l =>
      match leafRun rest c with
      | none => none
      | some (tr, c'') => some ((.get k, .values l) :: tr, c'')

end BwTree
