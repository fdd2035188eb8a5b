import Verif.Model.Search

/-!
  Model of `SortedSmallSet` (/repo/src/sorted_small_set.h 18-159).

  The array segment `[start_p, end_p)` is a list; `start_p` only ever advances (PopFront), so the consumed
  prefix is dropped from the list.  The capacity of the caller's array is not part of the class (the code
  has no bounds check); that it suffices is property C08.
-/

namespace BwTree.SmallSet

variable {α : Type}

/-- `Insert` (49-79): linear scan for the first element that is not smaller; drop duplicates. -/
def insert (lt eq : α → α → Bool) (v : α) : List α → List α
  | [] => [v]
  | x :: xs =>
    if lt x v = false then
      if eq x v = false then v :: x :: xs else x :: xs
    else x :: insert lt eq v xs

/-- `InsertNoDedup` (88-101): `std::upper_bound`, shift the tail by one, store. -/
def insertNoDedup (lt : α → α → Bool) (v : α) (l : List α) : Option (List α) :=
  match bsearch (fun x => !lt v x) l 0 l.length with
  | none => none
  | some b => some (l.take b ++ v :: l.drop b)

/-- `PopFront` (129-133): `assert(start_p < end_p)`, then advance. -/
def popFront : List α → Option (α × List α)
  | [] => none
  | x :: xs => some (x, xs)

/-- `GetFront` (139-141): reads `*start_p`; undefined when empty. -/
def getFront (l : List α) : Option α := l.head?

/-- `Invalidate` (156-158). -/
def invalidate (_ : List α) : List α := []

end BwTree.SmallSet
