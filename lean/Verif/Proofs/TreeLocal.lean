import Verif.Proofs.SeqRun
import Verif.Proofs.FastRun

/-!
  What the nodes that calls allocate are made of: a logic for `Prog` that knows only that nodes in memory satisfy `H`, and asks the same of
  every node that is allocated.
-/

namespace BwTree
namespace Tree

open Prog

set_option linter.unusedSectionVars false

variable {K V : Type} [LinearOrder K] [DecidableEq V] [Inhabited K]

/-- A property of leaf chains that the structural changes of the tree keep. -/
structure KeepsLeaf (H : LeafChain K V → Prop) : Prop where
  base : ∀ low high items, H (.base low high items)
  split : ∀ k id n c, H c → H (.split k id n c)
  remove : ∀ id c, H (.remove id c) ↔ H c
  merge : ∀ k id r c, H r → H c → H (.merge k id r c)

/-- The same for nodes; nothing is said of inner nodes. -/
def LeafGood (H : LeafChain K V → Prop) : Node K V → Prop
  | .leaf c => H c
  | .inner _ => True

/-- If the nodes that are read are good then so are the nodes that are allocated, and the result satisfies `Q`. -/
def lp (H : LeafChain K V → Prop) {α : Type} : Prog K V α → (α → Prop) → Prop
  | .ret a, Q => Q a
  | .fail _, _ => True
  | .spin, _ => True
  | .loadRoot k, Q => ∀ id, lp H (k id) Q
  | .casRoot _ _ k, Q => ∀ b, lp H (k b) Q
  | .load _ k, Q => ∀ r, (∀ p n, r = some (p, n) → LeafGood H n) → lp H (k r) Q
  | .cas _ _ _ k, Q => ∀ b, lp H (k b) Q
  | .store _ _ k, Q => lp H k Q
  | .alloc n _ k, Q => LeafGood H n ∧ ∀ p, lp H (k p) Q
  | .newId k, Q => ∀ id, lp H (k id) Q
  | .retire _ k, Q => lp H k Q

variable {H : LeafChain K V → Prop} {α β : Type}

theorem lp_mono {Q Q' : α → Prop} (hQ : ∀ a, Q a → Q' a) : ∀ {p : Prog K V α}, lp H p Q → lp H p Q'
  | .ret a, h => hQ a h
  | .fail _, _ => trivial
  | .spin, _ => trivial
  | .loadRoot k, h => fun id => lp_mono hQ (h id)
  | .casRoot _ _ k, h => fun b => lp_mono hQ (h b)
  | .load _ k, h => fun r hr => lp_mono hQ (h r hr)
  | .cas _ _ _ k, h => fun b => lp_mono hQ (h b)
  | .store _ _ k, h => lp_mono (p := k) hQ h
  | .alloc n _ k, h => ⟨h.1, fun p => lp_mono hQ (h.2 p)⟩
  | .newId k, h => fun id => lp_mono hQ (h id)
  | .retire _ k, h => lp_mono (p := k) hQ h

theorem lp_bind {Q : β → Prop} {f : α → Prog K V β} : ∀ {p : Prog K V α}, lp H p (fun a => lp H (f a) Q) → lp H (p.bind f) Q
  | .ret a, h => h
  | .fail _, _ => trivial
  | .spin, _ => trivial
  | .loadRoot k, h => fun id => lp_bind (h id)
  | .casRoot _ _ k, h => fun b => lp_bind (h b)
  | .load _ k, h => fun r hr => lp_bind (h r hr)
  | .cas _ _ _ k, h => fun b => lp_bind (h b)
  | .store _ _ k, h => lp_bind (p := k) h
  | .alloc n _ k, h => ⟨h.1, fun p => lp_bind (h.2 p)⟩
  | .newId k, h => fun id => lp_bind (h id)
  | .retire _ k, h => lp_bind (p := k) h

theorem lp_seq {Q : β → Prop} {R : α → Prop} {f : α → Prog K V β} {p : Prog K V α} (h : lp H p R) (hR : ∀ a, R a → lp H (f a) Q) :
    lp H (p >>= f) Q := lp_bind (lp_mono hR h)

/-- All nodes in memory are good. -/
def AllGood (H : LeafChain K V → Prop) (m : Mem K V) : Prop := ∀ p n, m.heap p = some n → LeafGood H n

theorem lp_step {Q : α → Prop} {p p' : Prog K V α} {m m' : Mem K V} (h : lp H p Q) (hm : AllGood H m) (hs : p.step m = some (m', p')) :
    AllGood H m' ∧ lp H p' Q := by
  cases p with
  | ret a => cases hs
  | fail f => cases hs
  | spin => cases hs
  | loadRoot k => cases hs; exact ⟨hm, h _⟩
  | casRoot o n k => simp only [Prog.step] at hs; split at hs <;> cases hs <;> exact ⟨hm, h _⟩
  | load id k =>
    cases hs
    refine ⟨hm, h _ ?_⟩
    intro p n e
    split at e
    · cases e
    · rename_i q _
      cases hq : m.heap q with
      | none => rw [hq] at e; cases e
      | some x => rw [hq] at e; cases e; exact hm _ _ hq
  | cas id o n k => simp only [Prog.step] at hs; split at hs <;> cases hs <;> exact ⟨hm, h _⟩
  | store id q k => cases hs; exact ⟨hm, h⟩
  | alloc n ks k =>
    cases hs
    refine ⟨fun p x e => ?_, h.2 _⟩
    have e : (if p = m.nextPtr then some n else m.heap p) = some x := e
    split at e
    · cases e; exact h.1
    · exact hm _ _ e
  | newId k => cases hs; exact ⟨hm, h _⟩
  | retire q k => cases hs; exact ⟨hm, h⟩

theorem lp_steps {Q : α → Prop} {p p' : Prog K V α} {m m' : Mem K V} (hs : Steps m p m' p') : lp H p Q → AllGood H m → AllGood H m' ∧ lp H p' Q := by
  induction hs with
  | refl => exact fun h hm => ⟨hm, h⟩
  | step h1 _ ih => exact fun h hm => ih (lp_step h hm h1).2 (lp_step h hm h1).1

/-! ### Small programs -/

theorem lp_getNode {id : NodeId} : lp H (getNode (K := K) (V := V) id) (fun x => LeafGood H x.2) := by
  unfold getNode
  split
  · trivial
  · intro r hr
    cases r with
    | none => trivial
    | some x => exact hr x.1 x.2 rfl

theorem lp_replace {id : NodeId} {n o : Ptr} : lp H (replace (K := K) (V := V) id n o) (fun _ => True) := by
  unfold replace
  split
  · trivial
  · exact fun _ => trivial

theorem lp_installNew {id : NodeId} {p : Ptr} : lp H (installNew (K := K) (V := V) id p) (fun _ => True) := by
  unfold installNew
  split <;> trivial

theorem lp_allocate {n : Node K V} {ks : List Ptr} (h : LeafGood H n) : lp H (allocate n ks) (fun _ => True) := ⟨h, fun _ => trivial⟩

theorem lp_nextNodeId : lp H (nextNodeId (K := K) (V := V)) (fun _ => True) := fun _ => trivial

theorem lp_readRoot : lp H (readRoot (K := K) (V := V)) (fun _ => True) := fun _ => trivial

theorem lp_installRoot {o n : NodeId} : lp H (installRoot (K := K) (V := V) o n) (fun _ => True) := fun _ => trivial

theorem lp_addGarbage {p : Ptr} : lp H (addGarbage (K := K) (V := V) p) (fun _ => True) := trivial

theorem lp_parent {ctx : Ctx K V} : lp H (parent ctx) (fun _ => True) := by
  unfold parent
  split
  · trivial
  · split <;> trivial

theorem lp_onRoot {ctx : Ctx K V} : lp H (onRoot ctx) (fun _ => True) := by
  unfold onRoot
  split <;> trivial

/-- The current node of the context, if there is one, is good. -/
def OptG (H : LeafChain K V → Prop) (r : Option (Ctx K V)) : Prop := ∀ c, r = some c → LeafGood H c.cur.node

theorem OptG.none : OptG H (none : Option (Ctx K V)) := fun _ e => by cases e
theorem OptG.some {c : Ctx K V} (h : LeafGood H c.cur.node) : OptG H (some c) := fun _ e => by cases e; exact h

variable (hk : KeepsLeaf H)
include hk

theorem lp_consolidateNode {s : Snap K V} (hs : LeafGood H s.node) : lp H (consolidateNode s) (fun s' => LeafGood H s'.node) := by
  unfold consolidateNode
  split
  · trivial
  · rename_i b e
    have hb : LeafGood H b := by
      unfold consolidated at e
      split at e
      · rename_i c _
        unfold LeafChain.consolidate at e
        split at e
        · cases e
        · cases e; exact hk.base _ _ _
      · obtain ⟨x, _, rfl⟩ := Option.map_eq_some_iff.mp e
        trivial
    refine lp_seq (lp_allocate hb) fun p _ => lp_seq lp_replace fun ok _ => ?_
    cases ok
    · exact lp_seq lp_addGarbage fun _ _ => hs
    · exact lp_seq lp_addGarbage fun _ _ => hb

theorem lp_postInnerInsert {ctx : Ctx K V} (h : LeafGood H ctx.cur.node) (item next : K × NodeId) (loc : Nat) :
    lp H (postInnerInsert ctx item next loc) (OptG H) := by
  unfold postInnerInsert
  refine lp_seq lp_parent fun par _ => ?_
  split
  · trivial
  · refine lp_seq (lp_allocate (n := .inner _) trivial) fun p _ => lp_seq lp_replace fun ok _ => ?_
    cases ok
    · exact OptG.none
    · exact lp_seq (lp_consolidateNode hk h) fun s hs => OptG.some hs

theorem lp_postInnerDelete {ctx : Ctx K V} (h : LeafGood H ctx.cur.node) (item prev next : K × NodeId) (loc : Nat) :
    lp H (postInnerDelete ctx item prev next loc) (OptG H) := by
  unfold postInnerDelete
  refine lp_seq lp_parent fun par _ => ?_
  split
  · trivial
  · refine lp_seq (lp_allocate (n := .inner _) trivial) fun p _ => lp_seq lp_replace fun ok _ => ?_
    cases ok
    · exact OptG.none
    · refine lp_seq lp_getNode fun g _ => ?_
      split
      · exact lp_seq lp_addGarbage fun _ _ => lp_seq (lp_consolidateNode hk h) fun s hs => OptG.some hs
      · trivial

omit hk in
theorem lp_findLeftSibling (k : K) (par : Snap K V) : lp H (findLeftSibling k par) (fun _ => True) := by
  unfold findLeftSibling
  split
  · trivial
  · split
    · trivial
    · trivial
    · split
      · trivial
      · refine lp_seq (lp_allocate (n := .inner _) trivial) fun p _ => lp_seq lp_replace fun ok _ => ?_
        refine lp_seq (R := fun _ => True) ?_ fun par' _ => ?_
        · cases ok
          · exact lp_seq lp_addGarbage fun _ _ => trivial
          · exact lp_seq lp_addGarbage fun _ _ => trivial
        · split <;> trivial

theorem lp_finishSplitNonRoot {ctx : Ctx K V} (h : LeafGood H ctx.cur.node) (item next : K × NodeId) : lp H (finishSplitNonRoot ctx item next) (OptG H) := by
  unfold finishSplitNonRoot
  refine lp_seq lp_parent fun par _ => ?_
  split
  · exact OptG.some h
  · split
    · trivial
    · split
      · trivial
      · split
        · refine lp_seq lp_getNode fun g _ => ?_
          split
          · exact OptG.none
          · trivial
        · exact OptG.some h
      · exact lp_postInnerInsert hk h _ _ _

omit hk in
theorem lp_finishSplitRoot {ctx : Ctx K V} (item : K × NodeId) : lp H (finishSplitRoot ctx item) (OptG H) := by
  unfold finishSplitRoot
  refine lp_seq lp_nextNodeId fun newRoot _ => lp_seq (lp_allocate (n := .inner _) trivial) fun p _ => lp_seq lp_installNew fun _ _ => ?_
  refine lp_seq lp_installRoot fun ok _ => ?_
  cases ok
  · exact lp_seq (lp_allocate (n := .inner _) trivial) fun _ _ => lp_seq lp_addGarbage fun _ _ => lp_seq lp_addGarbage fun _ _ => OptG.none
  · exact OptG.none

theorem lp_finishSplit {ctx : Ctx K V} (h : LeafGood H ctx.cur.node) (item next : K × NodeId) : lp H (finishSplit ctx item next) (OptG H) := by
  unfold finishSplit
  refine lp_seq lp_onRoot fun r _ => ?_
  split
  · exact lp_finishSplitRoot _
  · exact lp_finishSplitNonRoot hk h _ _

theorem lp_finishMerge {ctx : Ctx K V} (h : LeafGood H ctx.cur.node) (item high : K × NodeId) : lp H (finishMerge ctx item high) (OptG H) := by
  unfold finishMerge
  refine lp_seq lp_parent fun par _ => lp_seq lp_getNode fun g _ => ?_
  split
  · exact OptG.none
  · split
    · trivial
    · split
      · trivial
      · exact OptG.some h
      · split
        · trivial
        · exact lp_postInnerDelete hk h _ _ _ _

theorem lp_tryConsolidate {ctx : Ctx K V} (h : LeafGood H ctx.cur.node) : lp H (tryConsolidate ctx) (fun c => LeafGood H c.cur.node) := by
  unfold tryConsolidate
  split
  · exact h
  · by_cases hd : ctx.cur.node.depth < (if ctx.cur.node.isLeaf then LEAF_CHAIN else INNER_CHAIN)
    · rw [if_pos hd]
      exact h
    · rw [if_neg hd]
      exact lp_seq (lp_consolidateNode hk h) fun s hs => hs

omit hk in
theorem lp_removeNode {ctx : Ctx K V} {removed : Node K V} (hr : LeafGood H removed) : lp H (removeNode ctx removed) (OptG H) := by
  unfold removeNode
  refine lp_seq lp_parent fun par _ => ?_
  split
  · trivial
  · refine lp_seq (lp_allocate (n := .inner _) trivial) fun p _ => lp_seq lp_replace fun ok _ => ?_
    cases ok
    · exact OptG.none
    · refine lp_seq (lp_allocate hr) fun _ _ => lp_seq lp_replace fun _ _ => lp_seq lp_replace fun back _ => ?_
      cases back
      · trivial
      · exact lp_seq lp_addGarbage fun _ _ => OptG.none

omit hk in
theorem lp_installSplit {ctx : Ctx K V} (h : LeafGood H ctx.cur.node) (newId : NodeId) {sib delta fake : Node K V} (h1 : LeafGood H sib) (h2 : LeafGood H delta)
    (h3 : LeafGood H fake) : lp H (installSplit ctx newId sib delta fake) (OptG H) := by
  unfold installSplit
  refine lp_seq (lp_allocate h1) fun _ _ => lp_seq (lp_allocate h2) fun _ _ => lp_seq lp_installNew fun _ _ => lp_seq lp_replace fun ok _ => ?_
  cases ok
  · exact lp_seq (lp_allocate h3) fun _ _ => lp_seq lp_addGarbage fun _ _ => lp_seq lp_addGarbage fun _ _ => OptG.some h
  · exact OptG.none

theorem lp_adjustSize {ctx : Ctx K V} (h : LeafGood H ctx.cur.node) : lp H (adjustSize ctx) (OptG H) := by
  unfold adjustSize
  split
  · rename_i c e
    have hc : H c := by rw [e] at h; exact h
    split
    · exact OptG.some h
    · split
      · split
        · trivial
        · exact OptG.some h
        · split
          · intro id
            exact lp_installSplit h _ (hk.base _ _ _) (hk.split _ _ _ _ hc) ((hk.remove _ _).mpr (hk.base _ _ _))
          · trivial
      · split
        · refine lp_seq lp_parent fun par _ => ?_
          split
          · exact OptG.some h
          · exact lp_removeNode ((hk.remove _ _).mpr hc)
        · exact OptG.some h
  · split
    · exact OptG.some h
    · split
      · split
        · trivial
        · refine lp_seq lp_getNode fun g _ => ?_
          split
          · exact lp_seq (lp_allocate (n := .inner _) trivial) fun _ _ => lp_seq lp_addGarbage fun _ _ => OptG.some h
          · intro id
            exact lp_installSplit h _ (sib := .inner _) (delta := .inner _) (fake := .inner _) trivial trivial trivial
      · split
        · refine lp_seq lp_onRoot fun r _ => ?_
          split
          · exact OptG.some h
          · refine lp_seq lp_parent fun par _ => ?_
            split
            · exact OptG.some h
            · exact lp_removeNode (removed := .inner _) trivial
        · exact OptG.some h

/-! ### The way down -/

omit hk in
/-- What a version of FinishPartialSMO satisfies. -/
def FinishG (H : LeafChain K V → Prop) (finish : Ctx K V → Prog K V (Option (Ctx K V))) : Prop :=
  ∀ ctx, LeafGood H ctx.cur.node → lp H (finish ctx) (OptG H)

theorem lp_settle {finish : Ctx K V → Prog K V (Option (Ctx K V))} (hf : FinishG H finish) {ctx : Ctx K V} (h : LeafGood H ctx.cur.node) :
    lp H (settle finish ctx) (OptG H) := by
  unfold settle
  refine lp_seq (hf ctx h) fun r hr => ?_
  cases r with
  | none => exact OptG.none
  | some c => exact lp_seq (lp_tryConsolidate hk (hr c rfl)) fun c' hc' => lp_adjustSize hk hc'

theorem lp_jump {finish : Ctx K V → Prog K V (Option (Ctx K V))} (hf : FinishG H finish) (id : NodeId) (ctx : Ctx K V) :
    lp H (jump finish id ctx) (OptG H) := by
  unfold jump
  refine lp_seq lp_getNode fun g hg => ?_
  split
  · trivial
  · split
    · trivial
    · exact lp_settle hk hf hg

theorem lp_jumpLeft {finish : Ctx K V → Prog K V (Option (Ctx K V))} (hf : FinishG H finish) (ctx : Ctx K V) : lp H (jumpLeft finish ctx) (OptG H) := by
  unfold jumpLeft
  refine lp_seq lp_parent fun par _ => ?_
  split
  · exact OptG.none
  · refine lp_seq lp_getNode fun g _ => ?_
    split
    · exact OptG.none
    · refine lp_seq (lp_findLeftSibling _ _) fun x _ => lp_seq (lp_jump hk hf _ _) fun r hr => ?_
      cases r with
      | none => exact OptG.none
      | some c =>
        simp only
        split
        · exact OptG.none
        · exact OptG.some (hr c rfl)

theorem lp_finishRemove {finish : Ctx K V → Prog K V (Option (Ctx K V))} (hf : FinishG H finish) (ctx : Ctx K V) {right : Node K V} (hr : LeafGood H right) :
    lp H (finishRemove finish ctx right) (OptG H) := by
  unfold finishRemove
  refine lp_seq (lp_jumpLeft hk hf ctx) fun r hl => ?_
  cases r with
  | none => exact OptG.none
  | some left =>
    have hl := hl left rfl
    simp only
    split
    · trivial
    · rename_i m e
      have hm : LeafGood H m := by
        unfold mergeNode at e
        split at e
        · rename_i l r e1
          rw [e1] at hl
          cases e
          exact hk.merge _ _ _ _ hr hl
        · cases e; trivial
        · cases e
      refine lp_seq (lp_allocate hm) fun p _ => lp_seq lp_replace fun ok _ => ?_
      cases ok
      · exact OptG.none
      · exact lp_finishMerge hk (ctx := { left with cur := ⟨left.cur.id, p, m⟩ }) hm _ _

theorem lp_finishSMO : ∀ fuel, FinishG H (finishSMO (K := K) (V := V) fuel)
  | 0, _, _ => trivial
  | fuel + 1, ctx, h => by
    unfold finishSMO
    split
    · exact lp_finishSMO fuel { ctx with cur := _ } trivial
    · exact lp_finishRemove hk (lp_finishSMO fuel) ctx (right := .inner _) trivial
    · rename_i c e
      rw [e] at h
      exact lp_finishRemove hk (lp_finishSMO fuel) ctx (right := .leaf c) ((hk.remove _ _).mp h)
    · exact lp_finishMerge hk h _ _
    · exact lp_finishMerge hk h _ _
    · exact lp_finishSplit hk h _ _
    · exact lp_finishSplit hk h _ _
    · exact OptG.some h

theorem lp_loadChild (fuel : Nat) (id : NodeId) (ctx : Ctx K V) : lp H (loadChild fuel id ctx) (OptG H) :=
  lp_seq lp_getNode fun _ hg => lp_settle hk (lp_finishSMO hk fuel) hg

theorem lp_loadRootNode (fuel : Nat) (id : NodeId) : lp H (loadRootNode (K := K) (V := V) fuel id) (OptG H) :=
  lp_seq lp_getNode fun _ hg => lp_settle hk (lp_finishSMO hk fuel) hg

theorem lp_navSibling (fuel : Nat) (k : K) : ∀ (n : Nat) {ctx : Ctx K V}, LeafGood H ctx.cur.node → lp H (navSibling fuel k n ctx) (OptG H)
  | 0, _, _ => trivial
  | n + 1, ctx, h => by
    unfold navSibling
    split
    · refine lp_seq (lp_jump hk (lp_finishSMO hk fuel) _ _) fun r hr => ?_
      cases r with
      | none => exact OptG.none
      | some c => exact lp_navSibling fuel k n (hr c rfl)
    · exact OptG.some h

theorem lp_navSiblingBI (fuel : Nat) (k : K) : ∀ (n : Nat) {ctx : Ctx K V}, LeafGood H ctx.cur.node → lp H (navSiblingBI fuel k n ctx) (OptG H)
  | 0, _, _ => trivial
  | n + 1, ctx, h => by
    unfold navSiblingBI
    split
    · refine lp_seq (lp_jump hk (lp_finishSMO hk fuel) _ _) fun r hr => ?_
      cases r with
      | none => exact OptG.none
      | some c => exact lp_navSiblingBI fuel k n (hr c rfl)
    · exact OptG.some h

theorem lp_navInner (fuel : Nat) (k : K) {ctx : Ctx K V} (h : LeafGood H ctx.cur.node) : lp H (navInner fuel k ctx) (fun _ => True) := by
  unfold navInner
  refine lp_seq (lp_navSibling hk fuel k fuel h) fun r _ => ?_
  cases r with
  | none => trivial
  | some c =>
    simp only
    split
    · trivial
    · split <;> trivial

theorem lp_navInnerBI (fuel : Nat) (k : K) {ctx : Ctx K V} (h : LeafGood H ctx.cur.node) : lp H (navInnerBI fuel k ctx) (fun _ => True) := by
  unfold navInnerBI
  refine lp_seq (lp_navSiblingBI hk fuel k fuel h) fun r _ => ?_
  cases r with
  | none => trivial
  | some c =>
    simp only
    split
    · trivial
    · split <;> trivial

theorem lp_descend (fuel : Nat) (k : K) : ∀ (n : Nat) {ctx : Ctx K V}, LeafGood H ctx.cur.node → lp H (descend fuel k n ctx) (OptG H)
  | 0, _, _ => trivial
  | n + 1, ctx, h => by
    unfold descend
    refine lp_seq (lp_navInner hk fuel k h) fun r _ => ?_
    cases r with
    | none => exact OptG.none
    | some x =>
      refine lp_seq (lp_loadChild hk fuel _ _) fun r hr => ?_
      cases r with
      | none => exact OptG.none
      | some c =>
        simp only
        split
        · exact lp_navSibling hk fuel k fuel (hr c rfl)
        · exact lp_descend fuel k n (hr c rfl)

theorem lp_descendBI (fuel : Nat) (k : K) : ∀ (n : Nat) {ctx : Ctx K V}, LeafGood H ctx.cur.node → lp H (descendBI fuel k n ctx) (OptG H)
  | 0, _, _ => trivial
  | n + 1, ctx, h => by
    unfold descendBI
    refine lp_seq (lp_navInnerBI hk fuel k h) fun r _ => ?_
    cases r with
    | none => exact OptG.none
    | some x =>
      refine lp_seq (lp_loadChild hk fuel _ _) fun r hr => ?_
      cases r with
      | none => exact OptG.none
      | some c =>
        simp only
        split
        · exact lp_navSiblingBI hk fuel k fuel (hr c rfl)
        · exact lp_descendBI fuel k n (hr c rfl)

theorem lp_traverse (fuel : Nat) (k : K) : ∀ n, lp H (traverse (V := V) fuel k n) (fun c => LeafGood H c.cur.node)
  | 0 => trivial
  | n + 1 => by
    unfold traverse
    refine lp_seq (R := OptG H) ?_ fun r hr => ?_
    · unfold tryTraverse
      refine lp_seq lp_readRoot fun root _ => lp_seq (lp_loadRootNode hk fuel root) fun r hr => ?_
      cases r with
      | none => exact OptG.none
      | some c => exact lp_descend hk fuel k fuel (hr c rfl)
    · cases r with
      | none => exact lp_traverse fuel k n
      | some c => exact hr c rfl

theorem lp_traverseBI (fuel : Nat) (k : K) : ∀ n, lp H (traverseBI (V := V) fuel k n) (fun c => LeafGood H c.cur.node)
  | 0 => trivial
  | n + 1 => by
    unfold traverseBI
    refine lp_seq (R := OptG H) ?_ fun r hr => ?_
    · unfold tryTraverseBI
      refine lp_seq lp_readRoot fun root _ => lp_seq (lp_loadRootNode hk fuel root) fun r hr => ?_
      cases r with
      | none => exact OptG.none
      | some c => exact lp_descendBI hk fuel k fuel (hr c rfl)
    · cases r with
      | none => exact lp_traverseBI fuel k n
      | some c => exact hr c rfl

omit hk in
theorem lp_finishRO : ∀ (n : Nat) {s : Snap K V}, LeafGood H s.node → lp H (finishRO s n) (fun r => ∀ s', r = some s' → LeafGood H s'.node)
  | 0, _, _ => trivial
  | n + 1, s, h => by
    unfold finishRO
    split
    · exact lp_finishRO n (s := ⟨_, _, .inner _⟩) trivial
    · exact fun _ e => by cases e
    · exact fun _ e => by cases e
    · exact fun _ e => by cases e; exact h

omit hk in
theorem lp_loadRO (fuel : Nat) (id : NodeId) (level : Nat) : lp H (loadRO (K := K) (V := V) fuel id level) (OptG H) := by
  unfold loadRO
  refine lp_seq lp_getNode fun g hg => lp_seq (lp_finishRO fuel (s := ⟨id, g.1, g.2⟩) hg) fun r hr => ?_
  cases r with
  | none => exact OptG.none
  | some s => exact OptG.some (hr s rfl)

theorem lp_descendRO (fuel : Nat) (k : K) : ∀ (n : Nat) {ctx : Ctx K V}, LeafGood H ctx.cur.node → lp H (descendRO fuel k n ctx) (OptG H)
  | 0, _, _ => trivial
  | n + 1, ctx, h => by
    unfold descendRO
    refine lp_seq (lp_navInner hk fuel k h) fun r _ => ?_
    cases r with
    | none => exact OptG.none
    | some x =>
      refine lp_seq (lp_loadRO fuel _ _) fun r hr => ?_
      cases r with
      | none => exact OptG.none
      | some c =>
        simp only
        split
        · exact lp_navSibling hk fuel k fuel (hr c rfl)
        · exact lp_descendRO fuel k n (hr c rfl)

theorem lp_getValue (fuel : Nat) (k : K) : ∀ n, lp H (getValue (V := V) fuel k n) (fun _ => True)
  | 0 => trivial
  | n + 1 => by
    unfold getValue
    refine lp_seq lp_readRoot fun root _ => lp_seq (lp_loadRO fuel root 0) fun r hr => ?_
    cases r with
    | none => exact lp_getValue fuel k n
    | some c =>
      refine lp_seq (lp_descendRO hk fuel k fuel (hr c rfl)) fun r _ => ?_
      cases r with
      | none => exact lp_getValue fuel k n
      | some c =>
        simp only
        split
        · trivial
        · split <;> trivial

omit hk in
theorem lp_readPage (n : Node K V) : lp H (readPage n) (fun _ => True) := by
  unfold readPage
  split
  · trivial
  · split <;> trivial

/-! ### The calls -/

theorem lp_insert (fuel : Nat) (k : K) (v : V) (hi : ∀ i e c, H c → H (.ins k v i e c)) : ∀ n, lp H (insert fuel k v n) (fun _ => True)
  | 0 => trivial
  | n + 1 => by
    unfold insert
    refine lp_seq (lp_traverse hk fuel k fuel) fun ctx h => ?_
    split
    · trivial
    · rename_i c e
      rw [e] at h
      split
      · trivial
      · trivial
      · refine lp_seq (lp_allocate (n := .leaf _) (hi _ _ _ h)) fun _ _ => lp_seq lp_replace fun ok _ => ?_
        cases ok
        · exact lp_insert fuel k v hi n
        · trivial

theorem lp_delete (fuel : Nat) (k : K) (v : V) (hd : ∀ i e c, H c → H (.del k v i e c)) : ∀ n, lp H (delete fuel k v n) (fun _ => True)
  | 0 => trivial
  | n + 1 => by
    unfold delete
    refine lp_seq (lp_traverse hk fuel k fuel) fun ctx h => ?_
    split
    · trivial
    · rename_i c e
      rw [e] at h
      split
      · trivial
      · trivial
      · refine lp_seq (lp_allocate (n := .leaf _) (hd _ _ _ h)) fun _ _ => lp_seq lp_replace fun ok _ => ?_
        cases ok
        · exact lp_delete fuel k v hd n
        · trivial

/-- Any call, if its own records keep the property. -/
theorem lp_prog (fuel : Nat) (op : Call K V) (hi : ∀ k v, op = .api (.insert k v) → ∀ i e c, H c → H (.ins k v i e c))
    (hd : ∀ k v, op = .api (.delete k v) → ∀ i e c, H c → H (.del k v i e c)) : lp H (prog fuel op) (fun _ => True) := by
  cases op with
  | api o =>
    cases o with
    | insert k v => exact lp_seq (lp_insert hk fuel k v (hi k v rfl) fuel) fun _ _ => trivial
    | delete k v => exact lp_seq (lp_delete hk fuel k v (hd k v rfl) fuel) fun _ _ => trivial
    | get k => exact lp_seq (lp_getValue hk fuel k fuel) fun _ _ => trivial
  | page k => exact lp_seq (lp_traverse hk fuel k fuel) fun _ _ => lp_readPage _
  | first => exact lp_seq lp_getNode fun _ _ => lp_readPage _
  | back k =>
    refine lp_seq (lp_traverseBI hk fuel k fuel) fun ctx _ => ?_
    split
    · exact lp_readPage _
    · trivial

end Tree
end BwTree
