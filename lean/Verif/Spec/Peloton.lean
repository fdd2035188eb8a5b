import Verif.Model.Peloton

/-! What the scans of the Peloton adapter rely on, and what is expected of them. -/

namespace BwTree
namespace Peloton

variable {K V : Type} [LinearOrder K]

/-- The lower bound is one: no key that satisfies the condition lies below it. -/
def Bounded (q : Cond K) : Prop := ∀ x, q.sat x = true → q.start ≤ x

/-- The keys from the lower bound on that satisfy the condition come first: so it is if the columns compared with `=` are the leading ones. -/
def Prefixed (q : Cond K) : Prop := ∀ x y, q.start ≤ x → x ≤ y → q.sat y = true → q.sat x = true

/-- The only key that satisfies the condition is the lower bound: so it is if all columns are compared with `=`. -/
def Pointed (q : Cond K) : Prop := ∀ x, q.sat x = true ↔ x = q.start

/-- `r` lists the values of the pairs of `S` whose key satisfies `P`, in key order, each pair once. -/
def Answer (S : K → V → Prop) (P : K → Prop) (r : List V) : Prop :=
  ∃ l : List (K × V), r = l.map Prod.snd ∧ l.Pairwise (fun a b => a.1 ≤ b.1) ∧ l.Nodup ∧ ∀ x v, (x, v) ∈ l ↔ P x ∧ S x v

end Peloton
end BwTree
