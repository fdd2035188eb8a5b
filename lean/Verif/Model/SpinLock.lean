import Mathlib.Logic.Function.Basic

/-!
# The reader-writer spin lock (`benchmark/spinlock/spinlock.h`, `spinlock.cpp`)

The lock the benchmarks put around the single-threaded trees they compare the Bw-Tree with. It is one `std::atomic<int>` that is only
accessed with `memory_order_relaxed`; ordering comes from explicit fences. The model therefore does not assume sequential consistency:
the values the atomic variable takes form its modification order (`hist`), a relaxed load may read any of them that is not older
than one the thread has already read or written, and what a thread knows of the accesses other threads made to the protected data is
tracked with the usual views: a release fence makes what the thread knows part of the values it writes from then on, a read-modify-write
operation passes on what was attached to the value it replaces (release sequence), a load only collects what is attached, and an
acquire fence turns what was collected into knowledge. Simplified: the protected data are one memory location; out-of-thin-air
behaviour does not arise, as every write is a read-modify-write.
-/

namespace BwTree.Spin

/-- The four functions of spinlock.h 16-19. -/
inductive Op where
  | readLock | readUnlock | writeLock | writeUnlock
  deriving DecidableEq, Repr

/-- Where a thread is in spinlock.cpp. -/
inductive Pc where
  /-- not holding the lock, outside of all functions -/
  | idle
  /-- after `read_lock` returned -/
  | reading
  /-- after `write_lock` returned -/
  | writing
  /-- about to load `expected` (34, 54, 78, 98) -/
  | load (o : Op)
  /-- about to execute the release fence before the exchange (60, 104) -/
  | before (o : Op) (e : Int)
  /-- about to execute the compare-exchange with `expected = e` (39, 61, 83, 105) -/
  | cas (o : Op) (e : Int)
  /-- about to execute the fence after the loop (44, 88) -/
  | after (o : Op)
  /-- `assert(false)` (66, 110) or overflow of `1 + expected` (38) -/
  | stuck
  deriving DecidableEq, Repr

/-- One value in the modification order of the lock variable, with the accesses attached to it. -/
structure Msg where
  val : Int
  view : Nat → Bool

/-- A thread: the newest value of the lock it has seen; the accesses that happened before what it does now (`cur`), the ones it has
collected but not acquired (`acq`), the ones its next writes of the lock publish (`rel`). -/
structure Thr where
  pc : Pc
  seen : Nat
  cur : Nat → Bool
  acq : Nat → Bool
  rel : Nat → Bool

/-- All threads, the modification order up to `last`, and the accesses to the protected data made so far (`wr i`: the `i`-th one is a write). -/
structure State where
  thr : Nat → Thr
  hist : Nat → Msg
  last : Nat
  nacc : Nat
  wr : Nat → Bool

/-- No access at all. -/
def nothing : Nat → Bool := fun _ => false
/-- What is known after two pieces of knowledge are put together. -/
def join (a b : Nat → Bool) : Nat → Bool := fun i => a i || b i

/-- After `rwlock_init` (spinlock.cpp 22-25), before the threads are created. -/
def init : State where
  thr _ := ⟨.idle, 0, nothing, nothing, nothing⟩
  hist _ := ⟨0, nothing⟩
  last := 0
  nacc := 0
  wr := nothing

/-- `INT_MAX`. -/
def intMax : Int := 2147483647

/-- What is done with the loaded value (36-38; 56-58 and 64-67; 80-82; 100-102 and 108-111). -/
def loaded (e : Int) : Op → Pc
  | .readLock => if 0 ≤ e then (if e = intMax then .stuck else .cas .readLock e) else .load .readLock
  | .readUnlock => if 0 < e then .before .readUnlock e else .stuck
  | .writeLock => if e = 0 then .cas .writeLock e else .load .writeLock
  | .writeUnlock => if e = -1 then .before .writeUnlock e else .stuck

/-- `desired` (38, 58, 82, 102). -/
def desired (e : Int) : Op → Int
  | .readLock => 1 + e
  | .readUnlock => e - 1
  | .writeLock => -1
  | .writeUnlock => 0

/-- Where the thread is after the exchange succeeded. -/
def won : Op → Pc
  | .readLock => .after .readLock
  | .readUnlock => .idle
  | .writeLock => .after .writeLock
  | .writeUnlock => .idle

/-- What a thread can do next. `load i` and `casFail i` read the `i`-th value of the modification order; the exchange is a weak one, which
may fail although the value is the expected one. -/
inductive Act where
  | call (o : Op)
  | load (i : Nat)
  | fence
  | casOk
  | casFail (i : Nat)
  | access (write : Bool)
  deriving Repr

/-- A thread reads the `i`-th value of the lock: later reads of it do not go back, and what is attached is collected. -/
def Thr.read (h : Thr) (i : Nat) (m : Msg) (pc : Pc) : Thr := { h with pc := pc, seen := i, acq := join h.acq m.view }

/-- One step of thread `t`. With `fix = false` this is the code; with `fix = true` the fence at the end of `write_lock` (spinlock.cpp 88) is
an acquire-release fence in place of a release fence. Callers unlock only what they hold. -/
def step (fix : Bool) (s : State) (t : Nat) (a : Act) : Option State :=
  let h := s.thr t
  let set (h' : Thr) : State := { s with thr := Function.update s.thr t h' }
  match a, h.pc with
  | .call .readLock, .idle => some (set { h with pc := .load .readLock })
  | .call .writeLock, .idle => some (set { h with pc := .load .writeLock })
  | .call .readUnlock, .reading => some (set { h with pc := .load .readUnlock })
  | .call .writeUnlock, .writing => some (set { h with pc := .load .writeUnlock })
  | .load i, .load o =>
    if h.seen ≤ i ∧ i ≤ s.last then some (set (h.read i (s.hist i) (loaded (s.hist i).val o))) else none
  | .fence, .before o e => some (set { h with pc := .cas o e, rel := join h.rel h.cur })
  | .casFail i, .cas o _ =>
    if h.seen ≤ i ∧ i ≤ s.last then some (set (h.read i (s.hist i) (.load o))) else none
  | .casOk, .cas o e =>
    if (s.hist s.last).val = e then
      some { set (h.read (s.last + 1) (s.hist s.last) (won o)) with
        hist := Function.update s.hist (s.last + 1) ⟨desired e o, join (s.hist s.last).view h.rel⟩
        last := s.last + 1 }
    else none
  | .fence, .after .readLock => some (set { h with pc := .reading, cur := join h.cur h.acq })
  | .fence, .after .writeLock =>
    let cur := if fix then join h.cur h.acq else h.cur
    some (set { h with pc := .writing, cur := cur, rel := join h.rel cur })
  | .access w, pc =>
    if pc = .writing ∨ (pc = .reading ∧ w = false) then
      some { set { h with cur := Function.update h.cur s.nacc true } with
        nacc := s.nacc + 1
        wr := Function.update s.wr s.nacc w }
    else none
  | _, _ => none

/-- The states `n` threads can bring about. -/
inductive Reach (fix : Bool) (n : Nat) : State → Prop where
  | init : Reach fix n init
  | step {s s' : State} {t : Nat} {a : Act} : Reach fix n s → t < n → Spin.step fix s t a = some s' → Reach fix n s'

/-- A data race: an access of `t` (a write if `w`) conflicts with an earlier access that does not happen before it. -/
def Racy (s : State) (t : Nat) (w : Bool) : Prop :=
  ∃ i, i < s.nacc ∧ (w = true ∨ s.wr i = true) ∧ (s.thr t).cur i = false

/-- Runs a schedule. -/
def run (fix : Bool) (s : State) : List (Nat × Act) → Option State
  | [] => some s
  | (t, a) :: l => (step fix s t a).bind fun s' => run fix s' l

end BwTree.Spin
