import Verif.Spec.Collected
import Verif.Spec.SoloIter

/-!
  An iterator that is used while no other call runs, but the collector destroys what was retired.
-/

namespace BwTree
namespace Iterator

open Tree

variable {K V : Type} [LinearOrder K] [DecidableEq V] [Inhabited K] {α : Type}

/-- `CIter f t j c p c' p'`: thread `t` runs the iterator program `p` from `c`, and after reading `j` pages `p'` is left to do in `c'`. The collector
destroys retired chains, as in `SeqCollect`: between page reads any of them, during one those that were retired before it began. -/
inductive CIter (f : Nat) (t : Tid) : Nat → Conf K V → IProg K V α → Conf K V → IProg K V α → Prop where
  | refl (c : Conf K V) (p : IProg K V α) : CIter f t 0 c p c p
  | collect {j : Nat} {c c' : Conf K V} {p p' : IProg K V α} {g : Ptr} : g ∈ c.mem.garbage → CIter f t j { c with mem := c.mem.destroy g } p c' p' →
      CIter f t j c p c' p'
  | ask {j n : Nat} {c c' : Conf K V} {q : Query K} {k : Page K V → IProg K V α} {p' : IProg K V α} {pg : Page K V} {m : Mem K V} :
      (q.toCall : Call K V).forward = true → CSteps c.mem.garbage n c.mem (prog f q.toCall) m (.ret (.page pg.low pg.high pg.items)) →
      CIter f t j (after c t q.toCall m (.page pg.low pg.high pg.items)) (k pg) c' p' → CIter f t (j + 1) c (.ask q k) c' p'

/-- The page the program asks for next is read in a bounded number of steps, whatever the collector destroys meanwhile, unless all NodeIDs of the mapping table
are used up. -/
def PageComes (f : Nat) (c : Conf K V) (p : IProg K V α) : Prop :=
  ∃ q k N, p = .ask q k ∧ ∀ n m r, CSteps c.mem.garbage n c.mem (prog f q.toCall) m r → n ≤ N ∧
    ((∃ x, r.step m = some x) ∨ (∃ low high items, r = .ret (.page low high items)) ∨ (r = .fail .tableFull ∧ TABLE_SIZE < m.nextId))

end Iterator
end BwTree
