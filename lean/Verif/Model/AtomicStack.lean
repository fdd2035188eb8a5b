/-!
  `AtomicStack` (/repo/src/atomic_stack.h): one producer, any number of consumers. One transition per atomic access
  (and per plain array access).

  Simplifications: the 64-bit version counter is a natural number (it would have to wrap around within one Pop to
  matter); the array `data` is a total function and an out of bounds write sets the flag `oob`; the plain read in Pop
  (337), which can race with a producer's write, is modelled as returning the cell's value at that moment.
-/

namespace BwTree
namespace AStack

/-- `VersionedPointer` (25-150): `ptr = none` is nullptr, `some i` is `data + i - 1`, so `some 0` is the initial `data - 1`
(231) and `some n` means that `n` elements are on the stack. -/
structure VPtr where
  ptr : Option Nat
  ver : Nat
  deriving DecidableEq, Repr

/-- Program counter of the producer. `writing`: after PreparePush (209), `snap` is the advanced local pointer, `todo` the
items still to be written, `batch` tells whether the buffer is cleared at the end (293). -/
inductive Prod (T : Type) where
  | idle
  | writing (snap : VPtr) (todo : List T) (all : List T) (batch : Bool)
  deriving DecidableEq, Repr

/-- Program counter of a consumer in `Pop` (312-363). -/
inductive Cons (T : Type) where
  | idle
  | loaded (snap : VPtr)            -- after load (319) or after a failed CAS (350)
  | read (snap : VPtr) (val : T)    -- after 337
  deriving DecidableEq, Repr

structure State (T : Type) where
  data : Nat → T
  top : VPtr
  buffer : List T
  prod : Prod T
  cons : Nat → Cons T
  oob : Bool

/-- Observable events: a push of items takes effect, a pop returns a value, a pop returns "empty". -/
inductive Event (T : Type) where
  | pushed (items : List T)
  | popped (who : Nat) (v : T)
  | failed (who : Nat)
  deriving DecidableEq, Repr

/-- One step of one thread. -/
inductive Act (T : Type) where
  | bufferPush (x : T)
  | pushBegin (x : T)
  | commitBegin
  | write
  | store
  | popLoad (c : Nat)
  | popRead (c : Nat)
  | popCas (c : Nat)

variable {T : Type}

def setCons (s : State T) (c : Nat) (x : Cons T) : State T :=
  { s with cons := fun i => if i = c then x else s.cons i }

/-- `none` = the step is not enabled. `size` is STACK_SIZE. -/
def step (size : Nat) (s : State T) : Act T → Option (State T × Option (Event T))
  -- SingleThreadBufferPush 244
  | .bufferPush x =>
    match s.prod with
    | .idle => some ({ s with buffer := s.buffer ++ [x] }, none)
    | _ => none
  -- SingleThreadPush 260: PreparePush exchanges the top pointer with (nullptr, 0)
  | .pushBegin x =>
    match s.prod with
    | .idle => some ({ s with top := ⟨none, 0⟩, prod := .writing s.top [x] [x] false }, none)
    | _ => none
  -- SingleThreadCommitPush 283
  | .commitBegin =>
    match s.prod with
    | .idle => some ({ s with top := ⟨none, 0⟩, prod := .writing s.top s.buffer s.buffer true }, none)
    | _ => none
  -- *(++snapshot_top_p) = item (265, 287)
  | .write =>
    match s.prod with
    | .writing ⟨some n, ver⟩ (x :: rest) all b =>
      some ({ s with data := fun i => if i = n then x else s.data i,
                     prod := .writing ⟨some (n + 1), ver⟩ rest all b,
                     oob := s.oob || decide (size ≤ n) }, none)
    | _ => none
  -- ToNextVersion; top_p.store (268-271, 290-293)
  | .store =>
    match s.prod with
    | .writing snap [] all b =>
      some ({ s with top := ⟨snap.ptr, snap.ver + 1⟩, prod := .idle, buffer := if b then [] else s.buffer },
        some (.pushed all))
    | _ => none
  -- 319
  | .popLoad c =>
    match s.cons c with
    | .idle => some (setCons s c (.loaded s.top), none)
    | _ => none
  -- 325-337
  | .popRead c =>
    match s.cons c with
    | .loaded ⟨none, _⟩ => some (setCons s c .idle, some (.failed c))
    | .loaded ⟨some 0, _⟩ => some (setCons s c .idle, some (.failed c))
    | .loaded ⟨some (n + 1), ver⟩ => some (setCons s c (.read ⟨some (n + 1), ver⟩ (s.data n)), none)
    | _ => none
  -- 340-358
  | .popCas c =>
    match s.cons c with
    | .read ⟨some (n + 1), ver⟩ v =>
      if s.top = ⟨some (n + 1), ver⟩ then
        some ({ setCons s c .idle with top := ⟨some n, ver + 1⟩ }, some (.popped c v))
      else some (setCons s c (.loaded s.top), none)
    | _ => none

/-- Constructor (230). -/
def init (d : T) : State T :=
  { data := fun _ => d, top := ⟨some 0, 0⟩, buffer := [], prod := .idle, cons := fun _ => .idle, oob := false }

/-- Executions: the list of actions of the threads in the order of the interleaving; result: final state and events. -/
def run (size : Nat) : State T → List (Act T) → Option (State T × List (Event T))
  | s, [] => some (s, [])
  | s, a :: as =>
    match step size s a with
    | none => none
    | some (s', e) =>
      match run size s' as with
      | none => none
      | some (s'', es) => some (s'', e.toList ++ es)

end AStack
end BwTree
