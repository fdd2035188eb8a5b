import Mathlib.Data.Nat.Basic
import Verif.Props.Tree
import Verif.Proofs.TreeLost

/-!
  Concrete reachable configurations of the concurrent tree: the hypotheses of the theorems in `Props.Tree` are met by large
  trees with splits and merges, and the claims the code does not meet fail in actual executions. The executions are
  evaluated by the kernel.
-/

namespace BwTree
namespace Tree

open Prog

/-- Thread 0 inserts `(a, a), ..., (b-1, b-1)`. -/
def insR (a b : Nat) : List (Act Nat Nat) := (List.range (b - a)).flatMap fun i => whole 0 (.api (.insert (a + i) (a + i)))
/-- Thread 0 deletes them. -/
def delR (a b : Nat) : List (Act Nat Nat) := (List.range (b - a)).flatMap fun i => whole 0 (.api (.delete (a + i) (a + i)))

/-- An execution from the empty tree. -/
def exec (l : List (Act Nat Nat)) : Conf Nat Nat := acts initConf l

theorem reach_exec (l : List (Act Nat Nat)) : Reach (exec l) := reach_acts .init l

/-- 129 insertions by one thread: the leaf was split. -/
theorem reach_split : Reach (exec (insR 0 129)) ∧ (exec (insR 0 129)).mem.nextId = 4 :=
  ⟨reach_exec _, by decide +kernel⟩

/-- The leftmost leaf is `[_, 64)`, then comes the leaf `3`. -/
theorem reach_split_path : ((exec (insR 0 129)).mem.node FIRST_LEAF).map (fun n => n.high) = some (64, 3) := by decide +kernel

/-- C31 fails: GetValue reads an uninitialised parent snapshot. Thread 1 reads the root, thread 0 splits the leaf and then deletes most of the right
half; thread 1 walks right, consolidates the small leaf and asks for its parent. -/
theorem C31_getValue_uses_uninitialised :
    ∃ c : Conf Nat Nat, Reach c ∧ (∃ n, c.hist[0]? = some (.call 1 (.api (.get n)))) ∧ c.thr 1 = some (.fail .uninit) := by
  refine ⟨exec ([.call 1 50 (.api (.get 127)), .run 1 2] ++ insR 0 129 ++ delR 64 103 ++ [.run 1 1000]), reach_exec _, ⟨127, ?_⟩, ?_⟩
  · decide +kernel
  · have h : (match (exec ([.call 1 50 (.api (.get 127)), .run 1 2] ++ insR 0 129 ++ delR 64 103 ++ [.run 1 1000])).thr 1 with
      | some (.fail f) => decide (f = .uninit)
      | _ => false) = true := by decide +kernel
    split at h
    · rename_i f hf
      rw [hf, of_decide_eq_true h]
    · cases h

/-- Leaf 3 has underflown; thread 1 has posted the merge and deleted the separator, but not yet consolidated; thread 0 inserts `(10, 999)` and
looks up 104. -/
def lostRun : List (Act Nat Nat) :=
  insR 0 129 ++ delR 64 103 ++ [.call 1 50 (.api (.delete 103 103)), .run 1 22] ++ whole 0 (.api (.insert 10 999)) ++
    whole 0 (.api (.get 104))

/-- The same with an insert further right in the left leaf. -/
def outsideRun : List (Act Nat Nat) :=
  insR 0 129 ++ delR 64 103 ++ [.call 1 50 (.api (.delete 103 103)), .run 1 22] ++ whole 0 (.api (.insert 60 999)) ++
    [.call 0 50 (.api (.get 104)), .run 0 1000]

/-- C31 fails: GetValue searches outside the array of a leaf. The index recorded for the insert into the left leaf, 61, is used in the right leaf, which has
25 pairs. -/
theorem C31_getValue_outside_leaf : ∃ c : Conf Nat Nat, Reach c ∧ Running c.hist 0 (.api (.get 104)) ∧ c.thr 0 = some (.fail .search) := by
  refine ⟨exec outsideRun, reach_exec _, ⟨(exec outsideRun).hist.take 339, [], ?_, by simp⟩, ?_⟩
  · have h : (exec outsideRun).hist = (exec outsideRun).hist.take 339 ++ (exec outsideRun).hist.drop 339 := (List.take_append_drop _ _).symm
    have e : (exec outsideRun).hist.drop 339 = [.call 0 (.api (.get 104))] := by decide +kernel
    rw [e] at h
    simpa using h
  · have h : (match (exec outsideRun).thr 0 with
      | some (.fail f) => decide (f = .search)
      | _ => false) = true := by decide +kernel
    split at h
    · rename_i f hf
      rw [hf, of_decide_eq_true h]
    · cases h

/-- Events of a run as API events. -/
abbrev apiHist (c : Conf Nat Nat) : List (Lin.Event (Option (Spec.Op Nat Nat)) (Option (Spec.Res Nat))) :=
  c.hist.map (Lin.Event.map Call.toApi Ans.toApi)

theorem lostRun_facts : (apiHist (exec lostRun))[208]? = some (.call 0 (some (.insert 104 104))) ∧
    (apiHist (exec lostRun))[209]? = some (.ret 0 (some (.bool true))) ∧
    (apiHist (exec lostRun))[339]? = some (.call 0 (some (.get 104))) ∧
    (apiHist (exec lostRun))[340]? = some (.ret 0 (some (.values []))) ∧
    ((apiHist (exec lostRun)).all fun e => match e with
      | .call _ (some (.delete k v)) => decide (¬ (k = 104 ∧ v = 104))
      | _ => true) = true := by
  decide +kernel

/-- C01 fails for GetValue: there is a reachable history of API calls that is not linearizable. A completed Insert(104,104) is followed by a
GetValue(104) that returns nothing, although nobody deletes the pair. -/
theorem C01_getValue_not_linearizable : ∃ c : Conf Nat Nat, Reach c ∧
    ¬ Lin.Linearizable apiStep (fun _ _ => False) (c.hist.map (Lin.Event.map Call.toApi Ans.toApi)) := by
  refine ⟨exec lostRun, reach_exec _, ?_⟩
  obtain ⟨h1, h2, h3, h4, h5⟩ := lostRun_facts
  refine not_linearizable_of_lost (k := 104) (v := 104) h1 (returns_adj h1 h2) (by decide) h3 (returns_adj h3 h4) (by simp) ?_
  intro e he t hd
  have := List.all_eq_true.mp h5 e he
  rw [hd] at this
  simp at this

end Tree
end BwTree
