import Verif.Spec.Iterator
import Verif.Spec.Solo

/-!
  An iterator that is used while no other call runs: every page it asks for is read by a call that starts when nothing else runs and ends before
  anything else starts.
-/

namespace BwTree
namespace Iterator

open Tree

variable {K V : Type} [LinearOrder K] [DecidableEq V] [Inhabited K] {α : Type}

/-- The configuration after thread `t` has made the call `op`, which returned `a` and left the memory `m`. -/
def after (c : Conf K V) (t : Tid) (op : Call K V) (m : Mem K V) (a : Ans K V) : Conf K V := ⟨m, c.thr, c.hist ++ [.call t op, .ret t a]⟩

/-- `SoloRun f t c p c' out`: thread `t` runs the iterator program `p` from `c`; it ends in `c'` with the result `out` (`none` = undefined
behaviour). Only pages for moving forward are asked for, as in `SeqReach`; each may be retried `f` times. -/
inductive SoloRun (f : Nat) (t : Tid) : Conf K V → IProg K V α → Conf K V → Option α → Prop where
  | ret (c : Conf K V) (x : α) : SoloRun f t c (.ret x) c (some x)
  | ub (c : Conf K V) : SoloRun f t c .ub c none
  | ask {c c' : Conf K V} {q : Query K} {k : Page K V → IProg K V α} {pg : Page K V} {m : Mem K V} {out : Option α} :
      (q.toCall : Call K V).forward = true → Steps c.mem (prog f q.toCall) m (.ret (.page pg.low pg.high pg.items)) →
      SoloRun f t (after c t q.toCall m (.page pg.low pg.high pg.items)) (k pg) c' out → SoloRun f t c (.ask q k) c' out

/-- Thread `t` runs the iterator program `p` from `c` and a page read stops because all NodeIDs of the mapping table are used up. -/
inductive TableFull (f : Nat) (t : Tid) : Conf K V → IProg K V α → Prop where
  | now {c : Conf K V} {q : Query K} {k : Page K V → IProg K V α} {m : Mem K V} :
      (q.toCall : Call K V).forward = true → Steps c.mem (prog f q.toCall) m (.fail .tableFull) → TABLE_SIZE < m.nextId → TableFull f t c (.ask q k)
  | later {c : Conf K V} {q : Query K} {k : Page K V → IProg K V α} {pg : Page K V} {m : Mem K V} :
      (q.toCall : Call K V).forward = true → Steps c.mem (prog f q.toCall) m (.ret (.page pg.low pg.high pg.items)) →
      TableFull f t (after c t q.toCall m (.page pg.low pg.high pg.items)) (k pg) → TableFull f t c (.ask q k)

end Iterator
end BwTree
