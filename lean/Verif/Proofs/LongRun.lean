import Verif.Proofs.FastRun
import Mathlib.Order.Nat

/-!
  A long execution of whole calls by one thread, written down by its states: 8258 inserts grow a tree of three levels (the first inner node, 1, has split
  into 1 and 131), and 1320 deletes then shrink node 131 until it is due to be merged.
-/

set_option Elab.async false

namespace BwTree
namespace Tree
namespace Long

open Prog

def insI (i : Nat) : Call Nat Nat := .api (.insert i i)

/-- The new tree. -/
def rowsInit : Rows Nat Nat :=
  ⟨1, 3, 2, [(1, 0, .inner (.base (default, 2) (default, INVALID) 0 [(default, 2)])), (2, 1, .leaf (.base (default, INVALID) (default, INVALID) []))]⟩

/-- Leaf `j` holds the 64 keys from 64 (j - 2). -/
def leafPtr (j : Nat) : Ptr := 76 * j + (j - 2) / 8 - 3

def fullLeaf (j : Nat) : NodeId × Ptr × Node Nat Nat :=
  (j, leafPtr j, .leaf (.base (64 * (j - 2), NOT_INVALID) (64 * (j - 1), j + 1) ((List.range 64).map fun i => (64 * (j - 2) + i, 64 * (j - 2) + i))))

/-- The leftmost leaf, which was there from the beginning. -/
def firstLeaf : NodeId × Ptr × Node Nat Nat := (2, 149, .leaf (.base (default, INVALID) (64, 3) ((List.range 64).map fun i => (i, i))))

/-- Leaves `j`, …, `j + n - 1`. -/
def fullLeaves (j n : Nat) : List (NodeId × Ptr × Node Nat Nat) := (List.range n).map fun i => fullLeaf (j + i)

/-- The separator of leaf `id`. -/
def sep (id : NodeId) : Nat × NodeId := (64 * (id - 2), id)

def seps (n : Nat) : List (Nat × NodeId) := (List.range n).map fun i => sep (i + 2)

/-- After the inserts of 0 … 64 (8 q + 2): 8 q + 2 leaves; the record that posted the last one is on top of node 1. -/
def grown (q : Nat) : Rows Nat Nat where
  root := 1
  nextId := 8 * q + 4
  nextPtr := 609 * q + 151
  rows := (1, 609 * q + 148, .inner (.ins (sep (8 * q + 3)) (0, INVALID) (8 * q + 1) (.base (0, 2) (0, INVALID) 0 (seps (8 * q + 1))))) ::
    (8 * q + 3, 609 * q + 150, .leaf (.ins (64 * (8 * q + 2)) (64 * (8 * q + 2)) 64 false
      (.base (64 * (8 * q + 1), NOT_INVALID) (0, INVALID) ((List.range 64).map fun i => (64 * (8 * q + 1) + i, 64 * (8 * q + 1) + i))))) ::
    firstLeaf :: fullLeaves 3 (8 * q)

/-- The new root 132 over 1 and 131. -/
def topRow : NodeId × Ptr × Node Nat Nat := (132, 9821, .inner (.base (0, 1) (0, INVALID) 0 [(0, 1), (4096, 131)]))

/-- Node 1 has split at 4096. -/
def oldRow : NodeId × Ptr × Node Nat Nat := (1, 9820, .inner (.split (4096, 131) 65 (.base (0, 2) (0, INVALID) 0 (seps 129))))

/-- The children of node 131, of which two in three of the leaves from 68 to 67 + 12 j have been merged away. -/
def kids (j : Nat) : List (Nat × NodeId) :=
  sep 66 :: ((List.range (4 * j)).map (fun g => sep (67 + 3 * g)) ++ (List.range (64 - 12 * j)).map fun i => sep (67 + 12 * j + i))

def lastLeaf : NodeId × Ptr × Node Nat Nat :=
  (130, 9822, .leaf (.ins 8257 8257 64 false (.ins 8256 8256 64 false (.base (8192, NOT_INVALID) (0, INVALID) ((List.range 64).map fun i => (8192 + i, 8192 + i))))))

/-- After the inserts of 0 … 8257. -/
def tall : Rows Nat Nat where
  root := 132
  nextId := 133
  nextPtr := 9823
  rows := topRow :: oldRow :: (131, 9819, .inner (.base (sep 66) (0, INVALID) 0 (kids 0))) :: lastLeaf :: firstLeaf :: fullLeaves 3 127

/-- In each group of three leaves (67, 68, 69), (70, 71, 72), … the first 33 keys of the last two are deleted. -/
def delKey (i : Nat) : Nat := 4224 + 192 * (i / 66) + (if i % 66 < 33 then i % 66 else i % 66 + 31)

def delI (i : Nat) : Call Nat Nat := .api (.delete (delKey i) (delKey i))

/-- The records that took two leaves out of the group beginning with `67 + 3 (4 j + a)`. -/
def delPair (j a : Nat) (c : InnerChain Nat) : InnerChain Nat :=
  let b := 67 + 3 * (4 * j + a)
  .del (sep (b + 2)) (sep b) (sep (b + 3)) (3 + 3 * a + 4 * j) (.del (sep (b + 1)) (sep b) (sep (b + 2)) (2 + 3 * a + 4 * j) c)

def own (a n : Nat) : List (Nat × Nat) := (List.range n).map fun i => (a + i, a + i)

/-- The first leaf of the `g`-th group of three, after the other two were merged into it. -/
def mergedLeaf (g : Nat) : NodeId × Ptr × Node Nat Nat :=
  (67 + 3 * g, 9906 + 84 * g + g / 4, .leaf (.del (4320 + 192 * g) (4320 + 192 * g) 95 true (.base (4160 + 192 * g, NOT_INVALID) (4352 + 192 * g, 70 + 3 * g)
    (own (4160 + 192 * g) 64 ++ own (4257 + 192 * g) 31 ++ own (4320 + 192 * g) 32))))

/-- After 264 (j + 1) deletes. -/
def shrunk (j : Nat) : Rows Nat Nat where
  root := 132
  nextId := 133
  nextPtr := 337 * j + 10159
  rows := topRow :: oldRow ::
    (131, 337 * j + 10156, .inner (delPair j 3 (delPair j 2 (delPair j 1 (delPair j 0 (.base (sep 66) (0, INVALID) 0 (kids j))))))) ::
    lastLeaf :: firstLeaf :: (fullLeaves 3 64 ++ (List.range (4 * j + 4)).map mergedLeaf ++ fullLeaves (79 + 12 * j) (51 - 12 * j))

theorem lead_init : leads insI 129 129 rowsInit (grown 0) = true := by decide +kernel

theorem lead_0 : leads insI 641 512 (grown 0) (grown 1) = true := by decide +kernel

theorem lead_1 : leads insI 1153 512 (grown 1) (grown 2) = true := by decide +kernel

theorem lead_2 : leads insI 1665 512 (grown 2) (grown 3) = true := by decide +kernel

theorem lead_3 : leads insI 2177 512 (grown 3) (grown 4) = true := by decide +kernel

theorem lead_4 : leads insI 2689 512 (grown 4) (grown 5) = true := by decide +kernel

theorem lead_5 : leads insI 3201 512 (grown 5) (grown 6) = true := by decide +kernel

theorem lead_6 : leads insI 3713 512 (grown 6) (grown 7) = true := by decide +kernel

theorem lead_7 : leads insI 4225 512 (grown 7) (grown 8) = true := by decide +kernel

theorem lead_8 : leads insI 4737 512 (grown 8) (grown 9) = true := by decide +kernel

theorem lead_9 : leads insI 5249 512 (grown 9) (grown 10) = true := by decide +kernel

theorem lead_10 : leads insI 5761 512 (grown 10) (grown 11) = true := by decide +kernel

theorem lead_11 : leads insI 6273 512 (grown 11) (grown 12) = true := by decide +kernel

theorem lead_12 : leads insI 6785 512 (grown 12) (grown 13) = true := by decide +kernel

theorem lead_13 : leads insI 7297 512 (grown 13) (grown 14) = true := by decide +kernel

theorem lead_14 : leads insI 7809 512 (grown 14) (grown 15) = true := by decide +kernel

theorem lead_tall : leads insI 8258 449 (grown 15) tall = true := by decide +kernel

theorem lead_s : leads delI 264 264 tall (shrunk 0) = true := by decide +kernel

theorem lead_s0 : leads delI 528 264 (shrunk 0) (shrunk 1) = true := by decide +kernel

theorem lead_s1 : leads delI 792 264 (shrunk 1) (shrunk 2) = true := by decide +kernel

theorem lead_s2 : leads delI 1056 264 (shrunk 2) (shrunk 3) = true := by decide +kernel

theorem lead_s3 : leads delI 1320 264 (shrunk 3) (shrunk 4) = true := by decide +kernel

end Long
end Tree
end BwTree
