import Verif.Model.Search
import Verif.Model.Leaf

/-!
  `ForwardIterator` (bwtree.h 8747-9390): how an iterator moves over the pages it copies from the tree.

  An iterator function is a program that may ask the tree for pages; which page it gets is decided by the tree (see
  `Verif.Model.TreeSem`, calls `first`, `page` and `back`).  Reference counting of the page buffers is modelled separately in
  `Verif.Model.IterHandle`.
-/

namespace BwTree
namespace Iterator

/-- The leaf page copied into the iterator (`IteratorContext` 8558-8737 with the embedded LeafNode): low key pair, high key pair
(its second part is the next NodeID) and the items. -/
structure Page (K V : Type) where
  low : K × NodeId
  high : K × NodeId
  items : List (K × V)
  deriving Repr, DecidableEq

/-- An iterator that is not null: the page `ic_p` and the position of `kv_p` relative to `Begin()` of the page (-1 is the slot before
the first item; the code forms that pointer too, 8960 and 9319). -/
structure It (K V : Type) where
  page : Page K V
  pos : Int
  deriving Repr, DecidableEq

/-- A request to the tree. -/
inductive Query (K : Type) where
  | first            -- the leftmost leaf (8780)
  | page (k : K)     -- the leaf for `k` (9193)
  | back (k : K)     -- the leaf left of `k` (9290)
  deriving Repr, DecidableEq

/-- Iterator programs. `ub` = undefined behaviour or failed assert. `spin` = a loop went round more often than the fuel of the model. -/
inductive IProg (K V α : Type) where
  | ret (a : α)
  | ub
  | spin
  | ask (q : Query K) (k : Page K V → IProg K V α)

namespace IProg

variable {K V α β : Type}

def bind : IProg K V α → (α → IProg K V β) → IProg K V β
  | ret a, f => f a
  | ub, _ => ub
  | spin, _ => spin
  | ask q k, f => ask q fun x => bind (k x) f

instance : Monad (IProg K V) where
  pure := ret
  bind := bind

end IProg

variable {K V : Type}

/-- `IsEnd` 8922-8934; `none` is the null iterator. -/
def isEnd : Option (It K V) → Bool
  | none => true
  | some it => decide (it.page.high.2 = INVALID ∧ it.pos = it.page.items.length)

/-- `IsBegin` 8944-8954. -/
def isBegin : Option (It K V) → Bool
  | none => true
  | some it => decide (it.page.low.2 = INVALID ∧ it.pos = 0)

/-- `IsREnd` 8965-8976. -/
def isREnd : Option (It K V) → Bool
  | none => true
  | some it => decide (it.page.low.2 = INVALID ∧ it.pos = -1)

/-- The item at `kv_p`, if `kv_p` points to one. -/
def It.item (it : It K V) : Option (K × V) := if 0 ≤ it.pos then it.page.items[it.pos.toNat]? else none

/-- `operator*` 8985, `operator->` 8997. -/
def deref : Option (It K V) → IProg K V (K × V)
  | none => .ub
  | some it =>
    match it.item with
    | none => .ub
    | some x => .ret x

/-- `Begin()` 8509 via ForwardIterator(BwTree *) 8774-8802. -/
def begin : IProg K V (It K V) := .ask .first fun pg => .ret ⟨pg, 0⟩

variable [LinearOrder K]

/-- `operator<` 9019-9037; `none` = undefined behaviour. -/
def lt (a b : Option (It K V)) : Option Bool :=
  if isEnd b then some (!isEnd a)
  else if isEnd a then some false
  else
    match a.bind It.item, b.bind It.item with
    | some x, some y => some (decide (x.1 < y.1))
    | _, _ => none

/-- `operator==` 9048-9065. -/
def eq (a b : Option (It K V)) : Option Bool :=
  if isEnd b then some (isEnd a)
  else if isEnd a then some false
  else
    match a.bind It.item, b.bind It.item with
    | some x, some y => some (decide (x.1 = y.1))
    | _, _ => none

/-- `LowerBound` 9173-9246. -/
def lowerBoundIt : Nat → K → IProg K V (It K V)
  | 0, _ => .spin
  | fuel + 1, start => .ask (.page start) fun pg =>
    match lowerBound pg.items 0 pg.items.length start with
    | none => .ub
    | some b =>
      if b ≠ pg.items.length then .ret ⟨pg, b⟩
      else if isEnd (some ⟨pg, b⟩) then .ret ⟨pg, b⟩
      else lowerBoundIt fuel pg.high.1

/-- `Begin(start_key)` 8520 via ForwardIterator(BwTree *, const KeyType &) 8810-8821. -/
def beginAt (fuel : Nat) (k : K) : IProg K V (It K V) := lowerBoundIt fuel k

/-- `MoveAheadByOne` 9353-9388. Moving `kv_p` beyond `End()` is undefined. -/
def moveAhead (fuel : Nat) (it : It K V) : IProg K V (It K V) :=
  if isEnd (some it) then .ub
  else if it.page.items.length < it.pos + 1 then .ub
  else if it.pos + 1 = it.page.items.length then
    if isEnd (some ⟨it.page, it.pos + 1⟩) then .ret ⟨it.page, it.pos + 1⟩ else lowerBoundIt fuel it.page.high.1
  else .ret ⟨it.page, it.pos + 1⟩

/-- Prefix `operator++` 9095-9103. -/
def next (fuel : Nat) (o : Option (It K V)) : IProg K V (Option (It K V)) :=
  if isEnd o then .ret o
  else
    match o with
    | none => .ub
    | some it => do
      let it' ← moveAhead fuel it
      return some it'

/-- Postfix `operator++` 9126-9138: the value and the moved iterator. The copy of a null iterator dereferences null (8834). -/
def postNext (fuel : Nat) (o : Option (It K V)) : IProg K V (Option (It K V) × Option (It K V)) :=
  match o with
  | none => .ub
  | some it =>
    if isEnd o then .ret (o, o)
    else do
      let it' ← moveAhead fuel it
      return (o, some it')

/-- The loop of MoveBackByOne (9283-9338) with the low key of the page held at its start. The assert 9301 compares the low key of the
node found; the iterator's copy has the same low key (8648). -/
def backLoop : Nat → K → IProg K V (It K V)
  | 0, _ => .spin
  | fuel + 1, low => .ask (.back low) fun pg =>
    if pg.low.2 = INVALID ∨ pg.low.1 < low then
      match lowerBound pg.items 0 pg.items.length low with
      | none => .ub
      | some b =>
        if (b : Int) - 1 = -1 then
          if pg.low.2 = INVALID then .ret ⟨pg, -1⟩ else backLoop fuel pg.low.1
        else .ret ⟨pg, (b : Int) - 1⟩
    else .ub

/-- `MoveBackByOne` 9261-9341. -/
def moveBack (fuel : Nat) (it : It K V) : IProg K V (It K V) :=
  if isREnd (some it) then .ub                    -- assert 9264
  else if it.pos = -1 then .ub                    -- assert 9267
  else if isREnd (some ⟨it.page, it.pos - 1⟩) then .ret ⟨it.page, it.pos - 1⟩
  else if it.pos - 1 ≠ -1 then .ret ⟨it.page, it.pos - 1⟩
  else backLoop fuel it.page.low.1

/-- Prefix `operator--` 9108-9119. -/
def prev (fuel : Nat) (o : Option (It K V)) : IProg K V (Option (It K V)) :=
  if isREnd o then .ret o
  else
    match o with
    | none => .ub
    | some it => do
      let it' ← moveBack fuel it
      return some it'

/-- Postfix `operator--` 9143-9155. -/
def postPrev (fuel : Nat) (o : Option (It K V)) : IProg K V (Option (It K V) × Option (It K V)) :=
  match o with
  | none => .ub
  | some it =>
    if isREnd o then .ret (o, o)
    else do
      let it' ← moveBack fuel it
      return (o, some it')

/-- The usual loop over an iterator: `while(!it.IsEnd()) { use(*it); ++it; }`. -/
def scan : Nat → Nat → Option (It K V) → IProg K V (List (K × V))
  | 0, _, _ => .spin
  | n + 1, fuel, o =>
    if isEnd o then .ret []
    else do
      let x ← deref o
      let o' ← next fuel o
      let xs ← scan n fuel o'
      return x :: xs

/-- The loop in the other direction: `while(!it.IsREnd()) { use(*it); --it; }`. -/
def scanBack : Nat → Nat → Option (It K V) → IProg K V (List (K × V))
  | 0, _, _ => .spin
  | n + 1, fuel, o =>
    if isREnd o then .ret []
    else do
      let x ← deref o
      let o' ← prev fuel o
      let xs ← scanBack n fuel o'
      return x :: xs

/-- `for(it = tree.Begin(); !it.IsEnd(); ++it)`. -/
def scanAll (n fuel : Nat) : IProg K V (List (K × V)) := do
  let it ← begin
  scan n fuel (some it)

/-- `for(it = tree.Begin(k); !it.IsEnd(); ++it)`. -/
def scanFrom (n fuel : Nat) (k : K) : IProg K V (List (K × V)) := do
  let it ← beginAt fuel k
  scan n fuel (some it)

/-- Position at `k`, step back once, and go on backwards: the pairs below `k`. -/
def scanBelow (n fuel : Nat) (k : K) : IProg K V (List (K × V)) := do
  let it ← beginAt fuel k
  let o ← prev fuel (some it)
  scanBack n fuel o

end Iterator
end BwTree
