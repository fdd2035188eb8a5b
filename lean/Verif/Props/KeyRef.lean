import Verif.Model.KeyRef
import Verif.Props.TreeUse
import Verif.Props.TreeGC

/-!
  C49: the boundary keys of a node lie in memory that belongs to the node.
-/

namespace BwTree
namespace Tree

open Prog

variable {K V : Type} [LinearOrder K] [DecidableEq V] [Inhabited K]

/-- No remove or abort record in the chain. -/
def _root_.BwTree.LeafChain.Plain : LeafChain K V → Prop
  | .base _ _ _ => True
  | .ins _ _ _ _ c => c.Plain
  | .del _ _ _ _ c => c.Plain
  | .split _ _ _ c => c.Plain
  | .merge _ _ r c => r.Plain ∧ c.Plain
  | .remove _ _ => False

def _root_.BwTree.InnerChain.Plain : InnerChain K → Prop
  | .base _ _ _ _ => True
  | .ins _ _ _ c => c.Plain
  | .del _ _ _ _ c => c.Plain
  | .split _ _ c => c.Plain
  | .merge _ _ r c => r.Plain ∧ c.Plain
  | .remove _ _ => False
  | .abort _ _ => False

def Node.Plain : Node K V → Prop
  | .leaf c => c.Plain
  | .inner c => c.Plain

theorem _root_.BwTree.LeafChain.WF.plain : ∀ {c : LeafChain K V}, c.WF → c.Plain
  | .base _ _ _, _ => trivial
  | .ins _ _ _ _ c, h => LeafChain.WF.plain (c := c) h.1
  | .del _ _ _ _ c, h => LeafChain.WF.plain (c := c) h.1
  | .split _ _ _ c, h => LeafChain.WF.plain (c := c) h.1
  | .merge _ _ r c, h => ⟨LeafChain.WF.plain (c := r) h.2.1, LeafChain.WF.plain (c := c) h.1⟩
  | .remove _ _, h => h.elim

theorem _root_.BwTree.InnerChain.WF.plain {lo : NodeId → Option (Option K)} : ∀ {c : InnerChain K} {lv : Option K}, c.WF lo lv → c.Plain
  | .base _ _ _ _, _, _ => trivial
  | .ins _ _ _ c, _, h => InnerChain.WF.plain (c := c) h.1
  | .del _ _ _ _ c, _, h => InnerChain.WF.plain (c := c) h.1
  | .split _ _ c, _, h => InnerChain.WF.plain (c := c) h.1
  | .merge _ _ r c, _, h => ⟨InnerChain.WF.plain (c := r) h.2.1, InnerChain.WF.plain (c := c) h.1⟩
  | .remove _ _, _, h => h.elim
  | .abort _ _, _, h => h.elim

/-- The member `low_key` of the record at `e` is the low key of `n`, and the record is a base node of the same kind (leaf or inner) as `n`. -/
def LowAt (m : Mem K V) (n : Node K V) (e : Ptr) : Prop := m.pairAt (e, .low) = some n.low ∧ ∃ b, m.heap e = some b ∧ b.isBase = true ∧ b.isLeaf = n.isLeaf

theorem LowAt.of {m : Mem K V} {n n' : Node K V} {e : Ptr} (h1 : n.low = n'.low) (h2 : n.isLeaf = n'.isLeaf) (h : LowAt m n' e) : LowAt m n e := by
  unfold LowAt
  rw [h1, h2]
  exact h

/-- The key pointers of the record at `p` are resolved within the records of `p`, and lead to its low and its high key. -/
def Refs (m : Mem K V) (p : Ptr) (n : Node K V) : Prop :=
  ∀ f, p < f → (∃ e, m.lowRef f p = some (e, .low) ∧ LowAt m n e ∧ e ∈ m.cells f p) ∧
    ∃ e x, m.highRef f p = some (e, x) ∧ m.pairAt (e, x) = some n.high ∧ e ∈ m.cells f p

variable {m : Mem K V}

/-- The addresses in each node are those of the chain. -/
def Kids (m : Mem K V) : Prop := ∀ p n, m.heap p = some n → ChildrenOk m.heap (m.kids p) n ∧ ∀ c ∈ m.kids p, c < p ∧ ∃ x, m.heap c = some x

theorem cells_kid {p q e : Ptr} {f : Nat} (hq : q ∈ m.follow p) (he : e ∈ m.cells f q) : e ∈ m.cells (f + 1) p :=
  List.mem_cons_of_mem _ (List.mem_flatMap.mpr ⟨q, hq, he⟩)

theorem follow_one {p : Ptr} {n : Node K V} (hp : m.heap p = some n) (h1 : n.isBase = false) (h2 : n.isRemove = false) (h3 : n.isAbort = false)
    (h4 : n.isMerge = false) : m.follow p = m.kids p := by
  simp [Mem.follow, hp, h1, h2, h3, h4]

theorem refs_plain (hk : Kids m) : ∀ (N : Nat) (p : Nat) (n : Node K V), p < N → m.heap p = some n → n.Plain → Refs m p n
  | 0, _, _, h, _, _ => absurd h (Nat.not_lt_zero _)
  | N + 1, p, n, hN, hp, hn => by
    intro f hf
    obtain ⟨f, rfl⟩ : ∃ g, f = g + 1 := Nat.exists_eq_succ_of_ne_zero (fun h => by subst h; exact absurd hf (Nat.not_lt_zero _))
    obtain ⟨hc, hl⟩ := hk p n hp
    have hf' : p < f + 1 := hf
    -- a record with one record below
    have one : ∀ (o : Nat) (n' : Node K V), m.kids p = [o] → m.heap o = some n' → n'.Plain → n.isBase = false → n.isMerge = false → m.follow p = [o] →
        n.low = n'.low → n.isLeaf = n'.isLeaf → (∃ e, m.lowRef (f + 1) p = some (e, .low) ∧ LowAt m n e ∧ e ∈ m.cells (f + 1) p) ∧
          ∃ e x, m.highRef f o = some (e, x) ∧ m.pairAt (e, x) = some n'.high ∧ e ∈ m.cells (f + 1) p := by
      intro o n' k1 k2 k3 k4 k5 k6 k7 kl
      have ho : o < p := (hl o (by rw [k1]; exact List.mem_cons_self)).1
      obtain ⟨⟨e, e1, e2, e3⟩, ⟨e', x, g1, g2, g3⟩⟩ := refs_plain hk N o n' (by omega) k2 k3 f (show o < f by omega)
      refine ⟨⟨e, ?_, e2.of k7 kl, cells_kid (by rw [k6]; exact List.mem_cons_self) e3⟩, ⟨e', x, g1, g2, cells_kid (by rw [k6]; exact List.mem_cons_self) g3⟩⟩
      simp only [Mem.lowRef, hp, k4, k1, Bool.false_eq_true, if_false]
      exact e1
    -- a merge record
    have two : ∀ (o q i : Nat) (l r rm : Node K V), m.kids p = [o, q] → m.heap o = some l → m.heap q = some rm → rm.isBase = false → rm.isMerge = false →
        (∃ y : Nat, m.kids q = [y] ∧ m.heap y = some r) → l.Plain → r.Plain → n.isBase = false → n.isMerge = true → n.isRemove = false → n.isAbort = false →
        n.low = l.low → n.high = r.high → n.isLeaf = l.isLeaf → (∃ e, m.lowRef (f + 1) p = some (e, .low) ∧ LowAt m n e ∧ e ∈ m.cells (f + 1) p) ∧
          ∃ y e x, m.kids q = [y] ∧ m.highRef f y = some (e, x) ∧ m.pairAt (e, x) = some n.high ∧ e ∈ m.cells (f + 1) p := by
      rintro o q i l r rm k1 k2 k3 k4 k5 ⟨y, y1, y2⟩ k6 k7 k8 k9 k10 k11 k12 k13 kl
      have ho : o < p := (hl o (by rw [k1]; exact List.mem_cons_self)).1
      have hq : q < p := (hl q (by rw [k1]; right; exact List.mem_cons_self)).1
      have hy : (y : Nat) < q := ((hk q rm k3).2 y (by rw [y1]; exact List.mem_cons_self)).1
      have hfo : m.follow p = [o, y] := by simp [Mem.follow, hp, k8, k9, k10, k11, k1, y1]
      obtain ⟨⟨e, e1, e2, e3⟩, _⟩ := refs_plain hk N o l (by omega) k2 k6 f (show o < f by omega)
      obtain ⟨_, ⟨e', x, g1, g2, g3⟩⟩ := refs_plain hk N y r (by omega) y2 k7 f (show y < f by omega)
      refine ⟨⟨e, ?_, e2.of k12 kl, cells_kid (by rw [hfo]; exact List.mem_cons_self) e3⟩, ⟨y, e', x, y1, g1, by rw [k13]; exact g2,
        cells_kid (by rw [hfo]; right; exact List.mem_cons_self) g3⟩⟩
      simp only [Mem.lowRef, hp, k8, k1, Bool.false_eq_true, if_false]
      exact e1
    have self : p ∈ m.cells (f + 1) p := List.mem_cons_self
    cases n with
    | leaf c =>
      cases c with
      | base low high items =>
        exact ⟨⟨p, by simp [Mem.lowRef, hp, Node.isBase], ⟨by simp [Mem.pairAt, hp, Node.low, LeafChain.low], _, hp, rfl, rfl⟩, self⟩,
          ⟨p, .high, by simp [Mem.highRef, hp, Node.isBase], by simp [Mem.pairAt, hp, Node.high, LeafChain.high], self⟩⟩
      | ins k v i e c =>
        obtain ⟨o, h1, h2⟩ := hc
        obtain ⟨a, ⟨e', x, b1, b2⟩⟩ := one o (.leaf c) h1 h2 hn rfl rfl (by rw [follow_one hp rfl rfl rfl rfl]; exact h1) rfl rfl
        exact ⟨a, e', x, by simp [Mem.highRef, hp, Node.isBase, Node.isMerge, h1]; exact b1, b2⟩
      | del k v i e c =>
        obtain ⟨o, h1, h2⟩ := hc
        obtain ⟨a, ⟨e', x, b1, b2⟩⟩ := one o (.leaf c) h1 h2 hn rfl rfl (by rw [follow_one hp rfl rfl rfl rfl]; exact h1) rfl rfl
        exact ⟨a, e', x, by simp [Mem.highRef, hp, Node.isBase, Node.isMerge, h1]; exact b1, b2⟩
      | split k i s c =>
        obtain ⟨o, h1, h2⟩ := hc
        obtain ⟨a, _⟩ := one o (.leaf c) h1 h2 hn rfl rfl (by rw [follow_one hp rfl rfl rfl rfl]; exact h1) rfl rfl
        exact ⟨a, p, .item, by simp [Mem.highRef, hp], by simp [Mem.pairAt, hp, Node.high, LeafChain.high], self⟩
      | merge k i r c =>
        obtain ⟨o, q, j, h1, h2, h3⟩ := hc
        obtain ⟨y, y1, y2⟩ := (hk q _ h3).1
        obtain ⟨a, ⟨y', e', x, b0, b1, b2⟩⟩ := two o q j (.leaf c) (.leaf r) _ h1 h2 h3 rfl rfl ⟨y, y1, y2⟩ hn.2 hn.1 rfl rfl rfl rfl rfl rfl rfl
        exact ⟨a, e', x, by simp [Mem.highRef, hp, Node.isBase, Node.isMerge, h1, b0]; exact b1, b2⟩
      | remove i c => exact hn.elim
    | inner c =>
      cases c with
      | base low high d items =>
        exact ⟨⟨p, by simp [Mem.lowRef, hp, Node.isBase], ⟨by simp [Mem.pairAt, hp, Node.low, InnerChain.low], _, hp, rfl, rfl⟩, self⟩,
          ⟨p, .high, by simp [Mem.highRef, hp, Node.isBase], by simp [Mem.pairAt, hp, Node.high, InnerChain.high], self⟩⟩
      | ins item next loc c =>
        obtain ⟨o, h1, h2⟩ := hc
        obtain ⟨a, ⟨e', x, b1, b2⟩⟩ := one o (.inner c) h1 h2 hn rfl rfl (by rw [follow_one hp rfl rfl rfl rfl]; exact h1) rfl rfl
        exact ⟨a, e', x, by simp [Mem.highRef, hp, Node.isBase, Node.isMerge, h1]; exact b1, b2⟩
      | del item prev next loc c =>
        obtain ⟨o, h1, h2⟩ := hc
        obtain ⟨a, ⟨e', x, b1, b2⟩⟩ := one o (.inner c) h1 h2 hn rfl rfl (by rw [follow_one hp rfl rfl rfl rfl]; exact h1) rfl rfl
        exact ⟨a, e', x, by simp [Mem.highRef, hp, Node.isBase, Node.isMerge, h1]; exact b1, b2⟩
      | split item s c =>
        obtain ⟨o, h1, h2⟩ := hc
        obtain ⟨a, _⟩ := one o (.inner c) h1 h2 hn rfl rfl (by rw [follow_one hp rfl rfl rfl rfl]; exact h1) rfl rfl
        exact ⟨a, p, .item, by simp [Mem.highRef, hp], by simp [Mem.pairAt, hp, Node.high, InnerChain.high], self⟩
      | merge k i r c =>
        obtain ⟨o, q, j, h1, h2, h3⟩ := hc
        obtain ⟨y, y1, y2⟩ := (hk q _ h3).1
        obtain ⟨a, ⟨y', e', x, b0, b1, b2⟩⟩ := two o q j (.inner c) (.inner r) _ h1 h2 h3 rfl rfl ⟨y, y1, y2⟩ hn.2 hn.1 rfl rfl rfl rfl rfl rfl rfl
        exact ⟨a, e', x, by simp [Mem.highRef, hp, Node.isBase, Node.isMerge, h1, b0]; exact b1, b2⟩
      | remove i c => exact hn.elim
      | abort q c => exact hn.elim

/-- Also with a remove or abort record on top. -/
theorem refs_strip (hk : Kids m) {p : Nat} {n : Node K V} (hp : m.heap p = some n) (hn : n.strip.Plain) :
    (∀ f, p < f → (∃ e, m.lowRef f p = some (e, .low) ∧ LowAt m n e ∧ Uses m p e) ∧
      ∃ e x, m.highRef f p = some (e, x) ∧ m.pairAt (e, x) = some n.high ∧ Uses m p e) := by
  intro f hf
  have plain : n.Plain → (∃ e, m.lowRef f p = some (e, .low) ∧ LowAt m n e ∧ Uses m p e) ∧
      ∃ e x, m.highRef f p = some (e, x) ∧ m.pairAt (e, x) = some n.high ∧ Uses m p e := fun h => by
    obtain ⟨⟨e, e1, e2, e3⟩, ⟨e', x, g1, g2, g3⟩⟩ := refs_plain hk (p + 1) p n (Nat.lt_succ_self _) hp h f hf
    exact ⟨⟨e, e1, e2, .chain e3⟩, ⟨e', x, g1, g2, .chain g3⟩⟩
  have top : ∀ (o : Nat) (n' : Node K V), m.kids p = [o] → m.heap o = some n' → n'.Plain → n.isBase = false → n.isMerge = false →
      (n.isRemove = true ∨ n.isAbort = true) → n.low = n'.low → n.high = n'.high → n.isLeaf = n'.isLeaf →
      (∀ f, m.highRef (f + 1) p = m.highRef f o) → (∃ e, m.lowRef f p = some (e, .low) ∧ LowAt m n e ∧ Uses m p e) ∧
      ∃ e x, m.highRef f p = some (e, x) ∧ m.pairAt (e, x) = some n.high ∧ Uses m p e := by
    intro o n' k1 k2 k3 k4 k5 k6 k7 k8 kl k9
    have ho : o < p := ((hk p n hp).2 o (by rw [k1]; exact List.mem_cons_self)).1
    obtain ⟨f, rfl⟩ : ∃ g, f = g + 1 := Nat.exists_eq_succ_of_ne_zero (by omega)
    obtain ⟨⟨e, e1, e2, e3⟩, ⟨e', x, g1, g2, g3⟩⟩ := refs_plain hk (o + 1) o n' (Nat.lt_succ_self _) k2 k3 f (show o < f by omega)
    have u : ∀ {e}, e ∈ m.cells f o → Uses m p e := fun h => .below hp k6 (by rw [k1]; exact List.mem_cons_self) h
    refine ⟨⟨e, ?_, e2.of k7 kl, u e3⟩, ⟨e', x, by rw [k9]; exact g1, by rw [k8]; exact g2, u g3⟩⟩
    simp only [Mem.lowRef, hp, k4, k1, Bool.false_eq_true, if_false]
    exact e1
  have hc := (hk p n hp).1
  cases n with
  | leaf c =>
    cases c with
    | remove i c =>
      obtain ⟨o, h1, h2⟩ := hc
      exact top o (.leaf c) h1 h2 hn rfl rfl (.inl rfl) rfl rfl rfl (fun f => by simp [Mem.highRef, hp, Node.isBase, Node.isMerge, h1])
    | _ => exact plain hn
  | inner c =>
    cases c with
    | remove i c =>
      obtain ⟨o, h1, h2⟩ := hc
      exact top o (.inner c) h1 h2 hn rfl rfl (.inl rfl) rfl rfl rfl (fun f => by simp [Mem.highRef, hp, Node.isBase, Node.isMerge, h1])
    | abort q c =>
      obtain ⟨h1, h2⟩ := hc
      exact top q (.inner c) h1 h2 hn rfl rfl (.inr rfl) rfl rfl rfl (fun f => by simp [Mem.highRef, hp, Node.isBase, Node.isMerge, h1])
    | _ => exact plain hn

theorem body_plain {w : World K V} {lk : Option K} {l : Nat} : ∀ {n : Node K V}, Body w lk l n → n.Plain
  | .leaf _, h => h.2.2.2.2.1.plain
  | .inner _, h => h.2.2.2.choose_spec.2.1.plain

/-- C49. The tree names `id`, now or at some earlier moment, and its entry leads to `n` at `p`. The pointers to the two boundary keys that `n` holds lead to
members of records of this node which hold just these keys; the low key is the member of a base node of the same kind, so that the next record can
be placed in its preallocated space. -/
theorem C49_keys {c c' : Conf K V} (h : Reach c) (hl : Later c c') {id : NodeId} (hn : Named c.mem id) {p : Nat} {n : Node K V}
    (hp : c'.mem.table id = some p) (hh : c'.mem.heap p = some n) {f : Nat} (hf : p < f) :
    (∃ e, c'.mem.lowRef f p = some (e, .low) ∧ c'.mem.pairAt (e, .low) = some n.low ∧ Uses c'.mem p e ∧ c'.mem.inlineHome f p = some e ∧
      ∃ b, c'.mem.heap e = some b ∧ b.isBase = true ∧ b.isLeaf = n.isLeaf) ∧
    ∃ e x, c'.mem.highRef f p = some (e, x) ∧ c'.mem.pairAt (e, x) = some n.high ∧ Uses c'.mem p e := by
  obtain ⟨w, hw⟩ := good_of_reach h
  rw [← hw.mem] at hn
  obtain ⟨x, hx, hd⟩ := named_info hw.inv hn
  obtain ⟨w', hw', hx', _⟩ := load_later h hl hw hx hd
  rw [← hw'.mem] at hp hh ⊢
  have hb := (hw'.inv.at_ok hx' (⟨hp, hh⟩ : w'.At id p n)).2.1
  obtain ⟨⟨e, e1, e2, e3⟩, g⟩ := refs_strip hw'.inv.ow.klt hh (body_plain hb) f hf
  exact ⟨⟨e, e1, e2.1, e3, by simp [Mem.inlineHome, e1], e2.2⟩, g⟩

/-- C49. The memory of these keys is not yet destroyed while a call runs that met the NodeID in the tree (`b`) and then its entry (`i`): neither at once nor as
long as it goes on (`j`). Partial in the same way as `C44_epochs_partial`: not for nodes that were merged away at `b`. -/
theorem C49_keys_live_partial {k N : Nat} {σ : Nat → Sys K V} (h : SysExec k σ N) {t : Tid} {a b i j : Nat} (hb : Busy (fun i => (σ i).tree) t a j)
    (hab : a ≤ b) (hbi : b ≤ i) (hij : i ≤ j) (hj : j ≤ N) {id : NodeId} (hn : Named (σ b).tree.mem id) (hv : OnLevel (σ b).tree.mem id) {p : Nat}
    {n : Node K V} (hp : (σ i).tree.mem.table id = some p) (hh : (σ i).tree.mem.heap p = some n) {f : Nat} (hf : p < f) :
    ∃ e e' x, (σ i).tree.mem.lowRef f p = some (e, .low) ∧ (σ i).tree.mem.highRef f p = some (e', x) ∧ (σ i).tree.mem.pairAt (e, .low) = some n.low ∧
      (σ i).tree.mem.pairAt (e', x) = some n.high ∧ ¬ Freed (σ j) e ∧ ¬ Freed (σ j) e' := by
  have hr := (h.reach (show b ≤ N by omega)).tree
  have hl := h.later hbi (show i ≤ N by omega)
  obtain ⟨⟨e, e1, e2, e3, _⟩, ⟨e', x, g1, g2, g3⟩⟩ := C49_keys hr hl hn hp hh hf
  have hu := (C44_epochs_partial h hb hab hbi hij hj hn hp).2 hv
  exact ⟨e, e', x, e1, g1, e2, g2, hu e e3, hu e' g3⟩

end Tree
end BwTree
