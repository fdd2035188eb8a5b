import Verif.Proofs.LongRun

/-!
  Continuation of the long execution: node 131 is merged into node 1 and leaf 66 into leaf 65 while another thread keeps an old snapshot of node 1; leaf 65
  then splits and the separator of the new leaf 133 is never posted.
-/

set_option Elab.async false

namespace BwTree
namespace Tree
namespace Long

open Prog

def late (a n : Nat) : List (Nat × Nat) := (List.range n).map fun i => (a + i, a + i + 10000)
def both (a n : Nat) : List (Nat × Nat) := (List.range n).flatMap fun i => [(a + i, a + i), (a + i, a + i + 10000)]

def both' (a n : Nat) : List (Nat × Nat) := (List.range n).flatMap fun i => [(a + i, a + i), (a + i, 9)]

def delOwn (i : Nat) : Call Nat Nat := .api (.delete i i)
def insLate (i : Nat) : Call Nat Nat := .api (.insert (4096 + i) (14096 + i))
def more (i : Nat) : Call Nat Nat := .api (.insert (4032 + i) 9)
def wear (i : Nat) : Call Nat Nat := if i < 30 then .api (.delete (4099 + i) (14099 + i)) else .api (.delete (4100 + i) (4100 + i))

def rootRow : NodeId × Ptr × Node Nat Nat :=
  (132, 11511, .inner (.del (4096, 131) (0, 1) (0, INVALID) 1 (.base (0, 1) (0, INVALID) 0 [(0, 1), (4096, 131)])))

def wideRow : NodeId × Ptr × Node Nat Nat :=
  (1, 11552, .inner (.del (sep 66) (sep 65) (sep 67) 64 (.base (0, 2) (0, INVALID) 0 (seps 64 ++ kids 5))))

/-- Nodes that stay as they are from here on; 66 and 131 were merged away. -/
def others : List (NodeId × Ptr × Node Nat Nat) :=
  (66, 11550, .leaf (.remove 66 (.base (4096, NOT_INVALID) (4160, 67) (own 4128 32)))) ::
  (131, 11509, .inner (.remove 131 (.base (4096, 66) (0, INVALID) 0 (kids 5)))) ::
  lastLeaf :: firstLeaf :: (fullLeaves 3 61 ++ (List.range 20).map mergedLeaf ++ fullLeaves 127 3)

/-- After the deletes of 4096 … 4128: node 131 was merged into node 1, leaf 66 into leaf 65. -/
def joined : Rows Nat Nat where
  root := 132
  nextId := 133
  nextPtr := 11555
  rows := rootRow :: wideRow :: fullLeaf 64 ::
    (65, 11554, .leaf (.del 4128 4128 64 true (.base (4032, NOT_INVALID) (4160, 67) (own 4032 64 ++ own 4128 32)))) :: others

def leftRow : NodeId × Ptr × Node Nat Nat :=
  (65, 11601, .leaf (.ins 4090 7 59 false (.split 4099 133 67
    (.base (4032, NOT_INVALID) (4160, 67) (own 4032 64 ++ late 4096 33 ++ both 4129 6 ++ own 4135 25)))))

def newRow : NodeId × Ptr × Node Nat Nat :=
  (133, 11602, .leaf (.ins 4135 14135 43 false (.base (4099, NOT_INVALID) (4160, 67) (late 4099 30 ++ both 4129 6 ++ own 4135 25))))

/-- Leaf 65 has split; leaf 133 is linked to it but node 1 does not know it. -/
def apart : Rows Nat Nat where
  root := 132
  nextId := 134
  nextPtr := 11603
  rows := rootRow :: wideRow :: fullLeaf 64 :: leftRow :: newRow :: others

/-- After 9 more inserts leaf 65 is consolidated; its right link is all that is left of the split. -/
def cut : Rows Nat Nat where
  root := 132
  nextId := 134
  nextPtr := 11613
  rows := rootRow :: wideRow :: fullLeaf 64 ::
    (65, 11612, .leaf (.ins 4040 9 16 false (.ins 4039 9 15 false (.base (4032, NOT_INVALID) (4099, 133)
      (both' 4032 7 ++ own 4039 51 ++ [(4090, 4090), (4090, 7)] ++ own 4091 5 ++ late 4096 3))))) :: newRow :: others

/-- After 39 deletes in leaf 133. -/
def worn : Rows Nat Nat where
  root := 132
  nextId := 134
  nextPtr := 11646
  rows := [rootRow, wideRow, fullLeaf 64, leftRow,
    (133, 11645, .leaf (.del 4138 4138 15 true (.del 4137 4137 14 true (.del 4136 4136 13 true (.del 4135 4135 11 true (.del 4134 4134 9 true
      (.del 4133 4133 7 true (.del 4132 4132 5 true (.del 4131 4131 3 true
        (.base (4099, NOT_INVALID) (4160, 67) (both 4129 1 ++ late 4130 1 ++ both 4131 5 ++ own 4136 24)))))))))))]

/-- Leaf 133 is marked removed. -/
def gone : Rows Nat Nat where
  root := 132
  nextId := 134
  nextPtr := 11649
  rows := [rootRow, wideRow, fullLeaf 64, leftRow,
    (133, 11648, .leaf (.remove 133 (.base (4099, NOT_INVALID) (4160, 67) (both 4129 1 ++ late 4130 6 ++ own 4139 21))))]

theorem lead_joined : leads delOwn 4129 33 (shrunk 4) joined = true := by decide +kernel

theorem lead_cut : leads more 9 9 apart cut = true := by decide +kernel

theorem lead_worn : leads wear 39 39 apart worn = true := by decide +kernel

/-- The thread with the old snapshot of node 1: it has called Insert(4090, 7) in `tall` and is about to load leaf 65. -/
def waiting : Prog Nat Nat (Ans Nat Nat) := (runP 3 tall.mem (prog 100 (.api (.insert 4090 7)))).2

/-- Thread 0 makes 39 inserts and another one, which splits leaf 65 and is interrupted there; the other thread resumes and returns; thread 0 resumes
and returns. -/
def parts : Bool :=
  match callsP insLate 39 39 joined.mem with
  | none => false
  | some s => match runP 20 (runP 12 s (prog 100 (insLate 39))).1 waiting with
    | (s1, .ret _) => match runP 100 s1 (runP 12 s (prog 100 (insLate 39))).2 with
      | (s2, .ret _) => apart.holds s2
      | _ => false
    | _ => false

theorem parts_true : parts = true := by decide +kernel

theorem waiting_tall : tall.holds (runP 3 tall.mem (prog 100 (.api (.insert 4090 7)))).1 = true := by decide +kernel

/-- A thread that made a call on the new tree and has read that the root is node 1. -/
def early (op : Call Nat Nat) : Prog Nat Nat (Ans Nat Nat) := (runP 1 rowsInit.mem (prog 100 op)).2

/-- Thread 0 calls Delete(4096, 4096) and takes `n` steps; the early thread resumes and stops with a failed assertion. -/
def breaks (n : Nat) (op : Call Nat Nat) : Bool :=
  match runP 30 (runP n (shrunk 4).mem (prog 100 (delOwn 4096))).1 (early op) with
  | (_, .fail f) => decide (f = .noParent)
  | _ => false

theorem breaks_insert : breaks 19 (.api (.insert 5000 5000)) = true := by decide +kernel

theorem breaks_delete : breaks 19 (.api (.delete 5000 5000)) = true := by decide +kernel

theorem breaks_page : breaks 19 (.page 5000) = true := by decide +kernel

theorem breaks_back : breaks 19 (.back 5000) = true := by decide +kernel

theorem breaks_get : breaks 12 (.api (.get 5000)) = true := by decide +kernel

theorem early_rows (op : Call Nat Nat) (h : op = .api (.insert 5000 5000) ∨ op = .api (.delete 5000 5000) ∨ op = .page 5000 ∨ op = .back 5000 ∨
    op = .api (.get 5000)) : rowsInit.holds (runP 1 rowsInit.mem (prog 100 op)).1 = true := by
  rcases h with rfl | rfl | rfl | rfl | rfl <;> decide +kernel

/-- One attempt to reach the leaf of 4139 marks leaf 133 removed and aborts. -/
def attempt (n : Nat) (r r' : Rows Nat Nat) (f : Nat) : Bool :=
  match runP n r.mem (tryTraverse (f + 20) 4139) with
  | (s, .ret none) => r'.holds s
  | _ => false

theorem attempt_first (f : Nat) : attempt 14 worn gone f = true := by rfl

theorem attempt_again (f : Nat) : attempt 7 gone gone f = true := by rfl

end Long
end Tree
end BwTree
