import Mathlib.Data.Nat.Basic
import Verif.Proofs.TreeAlone
import Verif.Props.Iterator

/-!
  Insert, Delete and GetValue on a whole tree in which no other thread executes an update meanwhile (others may read, iterate, and may have
  left any structure modification half done): the words of C02, C03 and C04.
-/

namespace BwTree
namespace Iterator

open Tree

variable {K V : Type} [LinearOrder K] [DecidableEq V] [Inhabited K]
variable {σ : Nat → Conf K V} {n : Nat} {t : Tid}

/-- Insert(k, v) returns true exactly when the pair was not stored; afterwards the tree stores the old pairs and (k, v). -/
theorem C02_insert_tree (h : Exec σ n) {k : K} {v : V} {ans : Ans K V} {a b : Nat} (hb : b ≤ n)
    (hc : CallAt σ t (.api (.insert k v)) ans a b) (ha : Alone σ t a b) :
    ∃ r, ans = .bool r ∧ (r = true ↔ ¬ Stored (σ a).mem k v) ∧
      ∀ k' v', Stored (σ b).mem k' v' ↔ Stored (σ a).mem k' v' ∨ (k' = k ∧ v' = v) := by
  have hs := alone_call h hb hc ha
  cases ans with
  | bool r => exact ⟨r, rfl, hs.1, hs.2⟩
  | values l c => exact hs.elim
  | page a b c => exact hs.elim

/-- Delete(k, v) returns true exactly when the pair was stored; afterwards the tree stores the old pairs without (k, v). -/
theorem C03_delete_tree (h : Exec σ n) {k : K} {v : V} {ans : Ans K V} {a b : Nat} (hb : b ≤ n)
    (hc : CallAt σ t (.api (.delete k v)) ans a b) (ha : Alone σ t a b) :
    ∃ r, ans = .bool r ∧ (r = true ↔ Stored (σ a).mem k v) ∧
      ∀ k' v', Stored (σ b).mem k' v' ↔ Stored (σ a).mem k' v' ∧ ¬ (k' = k ∧ v' = v) := by
  have hs := alone_call h hb hc ha
  cases ans with
  | bool r => exact ⟨r, rfl, hs.1, hs.2⟩
  | values l c => exact hs.elim
  | page a b c => exact hs.elim

/-- GetValue(k) returns values stored under `k`, each once, and changes nothing; it returns all of them when the leaf it was read from has no
data record above a merge record. Partial: without that it may miss some, see `C01_getValue_not_linearizable`. -/
theorem C04_get_tree_partial (h : Exec σ n) {k : K} {ans : Ans K V} {a b : Nat} (hb : b ≤ n)
    (hc : CallAt σ t (.api (.get k)) ans a b) (ha : Alone σ t a b) :
    ∃ l leaf, ans = .values l leaf ∧ (l.Nodup ∧ ∀ v ∈ l, Stored (σ a).mem k v) ∧
      (leaf.NoDataAboveMerge → ∀ v, v ∈ l ↔ Stored (σ a).mem k v) ∧
      ∀ k' v', Stored (σ b).mem k' v' ↔ Stored (σ a).mem k' v' := by
  have hs := alone_call h hb hc ha
  cases ans with
  | bool r => exact hs.elim
  | values l c =>
    refine ⟨l, c, rfl, hs.2.2, fun hn => (hs.1 hn).2.1, fun k' v' => ?_⟩
    have e : Stored (σ b).mem = Stored (σ a).mem := hs.2.1
    rw [e]
  | page a b c => exact hs.elim

/-- Result of a call made by thread 1, executed without interruption. -/
def soloAns (c : Conf Nat Nat) (op : Call Nat Nat) : Option (Ans Nat Nat) :=
  match (act (act c (.call 1 50 op)) (.run 1 1000)).thr 1 with
  | some (.ret a) => some a
  | _ => none

theorem soloAns_call {c : Conf Nat Nat} (h : Reach c) (hidle : ∀ u, c.thr u = none) {op : Call Nat Nat} {ans : Ans Nat Nat}
    (hp : soloAns c op = some ans) :
    ∃ (σ : Nat → Conf Nat Nat) (n : Nat), Exec σ n ∧ σ 0 = c ∧ CallAt σ 1 op ans 0 n ∧ Alone σ 1 0 n := by
  unfold soloAns at hp
  split at hp
  · cases hp
    rename_i h'
    obtain ⟨σ, n, h1, h2, _, h3, h4⟩ := solo_call h hidle h'
    exact ⟨σ, n, h1, h2, h3, h4⟩
  · cases hp

/-- Booleans returned. -/
def boolAns : Option (Ans Nat Nat) → Option Bool
  | some (.bool b) => some b
  | _ => none

theorem boolAns_some {x : Option (Ans Nat Nat)} {b : Bool} (h : boolAns x = some b) : x = some (.bool b) := by
  unfold boolAns at h
  split at h
  · cases h; rfl
  · cases h

theorem solo_bool {op : Call Nat Nat} {b : Bool} (h : boolAns (soloAns twoLeaves op) = some b) :
    ∃ (σ : Nat → Conf Nat Nat) (n : Nat), Exec σ n ∧ σ 0 = twoLeaves ∧ CallAt σ 1 op (.bool b) 0 n ∧ Alone σ 1 0 n :=
  soloAns_call (c := twoLeaves) (reach_exec _) twoLeaves_idle (boolAns_some h)

/-- Calls on a tree of two leaves that meet the hypotheses and return either result. -/
example : (∃ (σ : Nat → Conf Nat Nat) (n : Nat), Exec σ n ∧ σ 0 = twoLeaves ∧ CallAt σ 1 (.api (.insert 200 7)) (.bool true) 0 n ∧ Alone σ 1 0 n) ∧
    (∃ (σ : Nat → Conf Nat Nat) (n : Nat), Exec σ n ∧ σ 0 = twoLeaves ∧ CallAt σ 1 (.api (.insert 100 100)) (.bool false) 0 n ∧ Alone σ 1 0 n) ∧
    (∃ (σ : Nat → Conf Nat Nat) (n : Nat), Exec σ n ∧ σ 0 = twoLeaves ∧ CallAt σ 1 (.api (.delete 100 100)) (.bool true) 0 n ∧ Alone σ 1 0 n) ∧
    (∃ (σ : Nat → Conf Nat Nat) (n : Nat), Exec σ n ∧ σ 0 = twoLeaves ∧ CallAt σ 1 (.api (.delete 100 7)) (.bool false) 0 n ∧ Alone σ 1 0 n) :=
  ⟨solo_bool (by decide +kernel), solo_bool (by decide +kernel), solo_bool (by decide +kernel), solo_bool (by decide +kernel)⟩

/-- The chain consists of a base and insert records. -/
def insertsOnly : LeafChain Nat Nat → Bool
  | .base _ _ _ => true
  | .ins _ _ _ _ c => insertsOnly c
  | _ => false

theorem insertsOnly_noMerge : (c : LeafChain Nat Nat) → insertsOnly c = true → LeafChain.NoDataAboveMerge.noMerge c
  | .base _ _ _, _ => trivial
  | .ins _ _ _ _ c, h => insertsOnly_noMerge c h

theorem insertsOnly_ok : (c : LeafChain Nat Nat) → insertsOnly c = true → c.NoDataAboveMerge
  | .base _ _ _, _ => trivial
  | .ins _ _ _ _ c, h => insertsOnly_noMerge c h

/-- Values returned, and whether the leaf they come from consists of a base and insert records. -/
def valuesAns : Option (Ans Nat Nat) → Option (List Nat × Bool)
  | some (.values l c) => some (l, insertsOnly c)
  | _ => none

/-- A lookup that returns a value, from a leaf without merge records. -/
example : ∃ leaf, LeafChain.NoDataAboveMerge leaf ∧
    ∃ (σ : Nat → Conf Nat Nat) (n : Nat), Exec σ n ∧ σ 0 = twoLeaves ∧ CallAt σ 1 (.api (.get 100)) (.values [100] leaf) 0 n ∧ Alone σ 1 0 n := by
  have h : valuesAns (soloAns twoLeaves (.api (.get 100))) = some ([100], true) := by decide +kernel
  generalize hx : soloAns twoLeaves (.api (.get 100)) = x at h
  unfold valuesAns at h
  split at h
  · rename_i l c
    injection h with h
    injection h with h1 h2
    subst h1
    exact ⟨c, insertsOnly_ok c h2, soloAns_call (c := twoLeaves) (reach_exec _) twoLeaves_idle hx⟩
  · cases h

end Iterator
end BwTree
