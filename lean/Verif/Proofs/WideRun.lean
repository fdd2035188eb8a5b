import Verif.Proofs.StuckRun

/-!
  Another continuation of the long execution. 2601 inserts split leaves 2 … 41, so that node 1 has 104 children when node 131, with 25 children, is due to be
  merged into it; 71 deletes leave leaves 34 and 165 short. Then three calls overlap: node 1 is split between leaf 164 and leaf 34 after leaf 34 was marked
  removed, and the merge of leaf 34 into leaf 164 cannot be completed.
-/

set_option Elab.async false

namespace BwTree
namespace Tree
namespace Long

open Prog

/-- A second value for each key of a leaf, and one more pair. -/
def widen (i : Nat) : Call Nat Nat :=
  .api (if i % 65 < 64 then .insert (64 * (i / 65) + i % 65) (64 * (i / 65) + i % 65 + 10000) else .insert (64 * (i / 65)) 9)

/-- Deletes in leaf 34 and then in leaf 165. -/
def thin (i : Nat) : Call Nat Nat :=
  if i < 39 then .api (.delete (2048 + i / 2) (2048 + i / 2 + 10000 * (i % 2)))
  else .api (.delete (2080 + (i - 39) / 2) (2080 + (i - 39) / 2 + 10000 * ((i - 39) % 2)))

/-- The children of node 1 after leaves 2 … 8 q + 1 have split. -/
def wideSeps (q : Nat) : List (Nat × NodeId) :=
  ((List.range (8 * q)).flatMap fun i => [sep (i + 2), (64 * i + 32, 133 + i)]) ++ (List.range (64 - 8 * q)).map fun i => sep (8 * q + 2 + i)

def leaf164 : NodeId × Ptr × Node Nat Nat := (164, 13969, .leaf (.base (2016, NOT_INVALID) (2048, 34) (both 2016 32)))

/-- After 520 q + 1 inserts: leaf 8 q + 2 has its first record. -/
def wide (q : Nat) (rest : List (NodeId × Ptr × Node Nat Nat)) : Rows Nat Nat where
  root := 132
  nextId := 133 + 8 * q
  nextPtr := 11508 + 617 * q
  rows := topRow :: (1, 11506 + 617 * q, .inner (.base (0, 2) (4096, 131) 0 (wideSeps q))) ::
    (131, 11504, .inner (delPair 4 3 (delPair 4 2 (delPair 4 1 (delPair 4 0 (.base (sep 66) (0, INVALID) 0 (kids 4))))))) ::
    (8 * q + 2, 11507 + 617 * q, .leaf (.ins (512 * q) (512 * q + 10000) 1 false
      (.base (512 * q, NOT_INVALID) (512 * q + 64, 8 * q + 3) (own (512 * q) 64)))) :: (rest ++ fullLeaves (8 * q + 3) (40 - 8 * q))

/-- The leaves that take part in what follows. -/
def threeLeaves : List (NodeId × Ptr × Node Nat Nat) :=
  [leaf164, (34, 14051, .leaf (.ins 2048 9 2 false (.base (2048, NOT_INVALID) (2080, 165) (both 2048 32)))),
    (165, 14047, .leaf (.base (2080, NOT_INVALID) (2112, 35) (both 2080 32)))]

theorem lead_w0 : leads widen 521 521 (shrunk 4) (wide 1 []) = true := by decide +kernel

theorem lead_w1 : leads widen 1041 520 (wide 1 []) (wide 2 []) = true := by decide +kernel

theorem lead_w2 : leads widen 1561 520 (wide 2 []) (wide 3 []) = true := by decide +kernel

theorem lead_w3 : leads widen 2081 520 (wide 3 []) (wide 4 [leaf164]) = true := by decide +kernel

theorem lead_w4 : leads widen 2601 520 (wide 4 [leaf164]) (wide 5 threeLeaves) = true := by decide +kernel

/-- Thread 0 calls Delete(5000, 5000), merges node 131 into node 1 and is interrupted when it has removed the separator of 131. -/
def first (s : PMem Nat Nat) : PMem Nat Nat × Prog Nat Nat (Ans Nat Nat) := runP 22 s (prog 100 (delOwn 5000))

/-- Thread 1 calls Insert(2090, 1), marks leaf 165 removed, consolidates node 1 to find its left neighbour, leaf 34, and is interrupted when it is about to
mark that one removed too. -/
def second (s : PMem Nat Nat) : PMem Nat Nat × Prog Nat Nat (Ans Nat Nat) := runP 27 (first s).1 (prog 100 (.api (.insert 2090 1)))

/-- Thread 2 makes a call and is interrupted when it is about to split node 1 before leaf 34, which it has seen in use. -/
def third (s : PMem Nat Nat) (op : Call Nat Nat) : PMem Nat Nat × Prog Nat Nat (Ans Nat Nat) := runP 8 (second s).1 (prog 100 op)

/-- Thread 1 goes on: it marks leaf 34 removed, puts node 1 back as it was, and merges leaf 34 into leaf 164. -/
def fourth (s : PMem Nat Nat) (op : Call Nat Nat) : PMem Nat Nat × Prog Nat Nat (Ans Nat Nat) := runP 19 (third s op).1 (second s).2

/-- Thread 2 goes on: it splits node 1 and stops at a failed assertion when it tries to complete the merge into leaf 164. -/
def clash (op : Call Nat Nat) : Bool :=
  match callsP thin 71 71 (wide 5 threeLeaves).mem with
  | none => false
  | some s => match runP 20 (fourth s op).1 (third s op).2 with
    | (_, .fail f) => decide (f = .mergeRange)
    | _ => false

theorem clash_insert : clash (.api (.insert 2020 1)) = true := by decide +kernel

theorem clash_delete : clash (.api (.delete 2020 2020)) = true := by decide +kernel

theorem clash_page : clash (.page 2020) = true := by decide +kernel

theorem clash_back : clash (.back 2020) = true := by decide +kernel

end Long
end Tree
end BwTree
