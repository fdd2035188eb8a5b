/-
  Binary search as performed by `std::lower_bound` / `std::upper_bound` (libstdc++ `bits/stl_algo.h`,
  `__lower_bound`, `__upper_bound`), which the BwTree calls in
  /repo/src/bwtree.h 3477, 3520, 4293, 4478, 4974, 6943, 7086, 9175 and /repo/src/sorted_small_set.h 89.

  A C++ range `[first, first + len)` of an array is a list together with two indices. Reading outside
  the array is undefined behaviour and yields `none`.
-/

namespace BwTree

/-- Halving loop shared by `std::lower_bound` and `std::upper_bound`: `goRight x` is
`comp(x, val)` for `lower_bound` and `!comp(val, x)` for `upper_bound`.
`fuel` bounds the number of iterations; `len` iterations are always enough. -/
def bsearchLoop {α : Type} (goRight : α → Bool) (l : List α) : Nat → Nat → Nat → Option Nat
  | 0, first, len => if len = 0 then some first else none
  | fuel + 1, first, len =>
    if len = 0 then some first
    else
      let half := len / 2
      let mid := first + half
      match l[mid]? with
      | none => none
      | some x =>
        if goRight x then bsearchLoop goRight l fuel (mid + 1) (len - half - 1)
        else bsearchLoop goRight l fuel first half

/-- A search over the C++ range `[first, last)`; a range that is not valid (`last < first` or `last` beyond the
array) is undefined behaviour. -/
def bsearch {α : Type} (goRight : α → Bool) (l : List α) (first last : Nat) : Option Nat :=
  if first ≤ last ∧ last ≤ l.length then bsearchLoop goRight l (last - first) first (last - first)
  else none

/-- `std::lower_bound(first, last, key, cmp)` where `cmp` compares keys only
(KeyValuePairComparator 871, KeyNodeIDPairComparator 814 in /repo/src/bwtree.h). -/
def lowerBound {K α : Type} [LT K] [DecidableLT K] (l : List (K × α)) (first last : Nat) (k : K) :
    Option Nat :=
  bsearch (fun x => decide (x.1 < k)) l first last

/-- `std::upper_bound(first, last, key, cmp)` where `cmp` compares keys only. -/
def upperBound {K α : Type} [LT K] [DecidableLT K] (l : List (K × α)) (first last : Nat) (k : K) :
    Option Nat :=
  bsearch (fun x => !decide (k < x.1)) l first last

/-- The C++ half-open range `[first, last)` of an array; not a valid range → undefined behaviour. -/
def slice? {α : Type} (l : List α) (first last : Nat) : Option (List α) :=
  if first ≤ last ∧ last ≤ l.length then some ((l.take last).drop first) else none

end BwTree
