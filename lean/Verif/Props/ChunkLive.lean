import Verif.Props.FreeOrder
import Verif.Props.SeqUse

/-!
  C44 with the memory that the records of a chain share: a record lies in the chunk of a base node, and what must not be released while a call uses the record is
  this chunk.
-/

namespace BwTree
namespace Tree

set_option linter.unusedSectionVars false

variable {K V : Type} [LinearOrder K] [DecidableEq V] [Inhabited K] {m : Mem K V}

/-- The memory in which the records of a chain lie is that of base nodes of this chain. -/
theorem block_plain (hk : Kids m) : ∀ (N p : Nat) (n : Node K V), p < N → m.heap p = some n → n.Plain → ∀ (fuel : Nat) (e : Ptr), e ∈ m.cells fuel p →
    ∃ b f, m.block e = some b ∧ b ∈ m.cells f p
  | 0, _, _, h, _, _ => absurd h (Nat.not_lt_zero _)
  | N + 1, p, n, hN, hp, hn => by
    intro fuel e he
    cases fuel with
    | zero => cases he
    | succ fuel =>
      have up : ∀ {q : Nat} {b : Ptr} {f : Nat}, q ∈ m.follow p → b ∈ m.cells f q → b ∈ m.cells (f + 1) p := fun hq hb =>
        List.mem_cons_of_mem _ (List.mem_flatMap.mpr ⟨_, hq, hb⟩)
      obtain ⟨a1, a2, ⟨hb, h2, h3⟩ | ⟨q, n', h1, h2, h3, h4, h5, h6, h7⟩ | ⟨l, y, n1, n2, h1, h2, _, h4, h5, h6, h7, h8, h9, h10⟩⟩ := plain_view hk hp hn
      · simp only [Mem.cells, h3, List.flatMap_nil, List.mem_singleton] at he
        rw [he]
        exact ⟨p, 1, by rw [block_home hp h2 a1 a2]; exact home_base hp hb, List.mem_cons_self⟩
      · rcases List.mem_cons.mp he with rfl | he
        · obtain ⟨b, b1, b2⟩ := home_plain hk hp hn (Nat.lt_succ_self _)
          exact ⟨b, _, by rw [block_home hp h2 a1 a2]; exact b1, b2⟩
        · obtain ⟨x, hx, he⟩ := List.mem_flatMap.mp he
          rw [h4, List.mem_singleton] at hx
          subst hx
          obtain ⟨b, f, b1, b2⟩ := block_plain hk N x n' (by omega) h6 h7 fuel e he
          exact ⟨b, f + 1, b1, up (by rw [h4]; exact List.mem_singleton_self _) b2⟩
      · rcases List.mem_cons.mp he with rfl | he
        · obtain ⟨b, b1, b2⟩ := home_plain hk h8 h10 (Nat.lt_succ_self _)
          exact ⟨b, _, by rw [block_merge hp h2 a1 a2 h4]; exact b1, up (by rw [h4]; simp) b2⟩
        · obtain ⟨x, hx, he⟩ := List.mem_flatMap.mp he
          rw [h4] at hx
          rcases List.mem_cons.mp hx with rfl | hx
          · obtain ⟨b, f, b1, b2⟩ := block_plain hk N x n1 (by omega) h7 h9 fuel e he
            exact ⟨b, f + 1, b1, up (by rw [h4]; simp) b2⟩
          · rw [List.mem_singleton] at hx
            subst hx
            obtain ⟨b, f, b1, b2⟩ := block_plain hk N x n2 (by omega) h8 h10 fuel e he
            exact ⟨b, f + 1, b1, up (by rw [h4]; simp) b2⟩

/-- Also with a remove or abort record on top. -/
theorem block_strip (hk : Kids m) {p : Nat} {n : Node K V} (hp : m.heap p = some n) (hn : n.strip.Plain) {e : Ptr} (hu : Uses m p e) :
    ∃ b, m.block e = some b ∧ Uses m p b := by
  have plain : n.Plain → n.isRemove = false → n.isAbort = false → ∃ b, m.block e = some b ∧ Uses m p b := fun h h1 h2 => by
    cases hu with
    | chain hc =>
      obtain ⟨b, f, b1, b2⟩ := block_plain hk (p + 1) p n (Nat.lt_succ_self _) hp h _ e hc
      exact ⟨b, b1, .chain b2⟩
    | below hh hk' _ _ =>
      rw [hp] at hh; cases hh
      rw [h1, h2] at hk'
      rcases hk' with hk' | hk' <;> cases hk'
  have top : ∀ (o : Nat) (n' : Node K V), m.kids p = [o] → m.heap o = some n' → n'.Plain → (n.isRemove = true ∨ n.isAbort = true) → m.follow p = [] →
      ∃ b, m.block e = some b ∧ Uses m p b := by
    intro o n' k1 k2 k3 k4 k5
    cases hu with
    | chain hc =>
      rename_i fuel
      cases fuel with
      | zero => cases hc
      | succ fuel =>
        simp only [Mem.cells, k5, List.flatMap_nil, List.mem_singleton] at hc
        subst hc
        refine ⟨e, ?_, .chain (fuel := 1) List.mem_cons_self⟩
        unfold Mem.block
        rw [hp]
        have : (n.isRemove || n.isAbort) = true := by rcases k4 with h | h <;> simp [h]
        simp [this]
    | below hh hk' hq hc =>
      rw [k1, List.mem_singleton] at hq
      subst hq
      obtain ⟨b, f, b1, b2⟩ := block_plain hk (_ + 1) _ n' (Nat.lt_succ_self _) k2 k3 _ e hc
      exact ⟨b, b1, .below hp k4 (by rw [k1]; exact List.mem_cons_self) b2⟩
  have hc := (hk p n hp).1
  cases n with
  | leaf c =>
    cases c with
    | remove i c =>
      obtain ⟨o, h1, h2⟩ := hc
      exact top o (.leaf c) h1 h2 hn (.inl rfl) (follow_remove hp rfl)
    | _ => exact plain hn rfl rfl
  | inner c =>
    cases c with
    | remove i c =>
      obtain ⟨o, h1, h2⟩ := hc
      exact top o (.inner c) h1 h2 hn (.inl rfl) (follow_remove hp rfl)
    | abort q c =>
      obtain ⟨h1, h2⟩ := hc
      exact top q (.inner c) h1 h2 hn (.inr rfl) (follow_abort hp)
    | _ => exact plain hn rfl rfl

/-- C44 for the memory in which the records lie. A call met the NodeID in the tree (`b`) and then its entry (`i`); each record of the node lies in memory that is given back
with a record of the same node, and this is not destroyed as long as the call goes on (`j`). Partial in the same way as `C44_epochs_partial`: not for nodes
that were merged away at `b`. -/
theorem C44_chunks_partial {k N : Nat} {σ : Nat → Sys K V} (h : SysExec k σ N) {t : Tid} {a b i j : Nat} (hb : Busy (fun i => (σ i).tree) t a j)
    (hab : a ≤ b) (hbi : b ≤ i) (hij : i ≤ j) (hj : j ≤ N) {id : NodeId} (hn : Named (σ b).tree.mem id) (hv : OnLevel (σ b).tree.mem id) {p : Nat}
    (hp : (σ i).tree.mem.table id = some p) {e : Ptr} (he : Uses (σ i).tree.mem p e) :
    ∃ q, (σ i).tree.mem.block e = some q ∧ Uses (σ i).tree.mem p q ∧ ¬ Freed (σ j) q := by
  have hu := (C44_epochs_partial h hb hab hbi hij hj hn hp).2 hv
  have hr := (h.reach (show b ≤ N by omega)).tree
  have hl := h.later hbi (show i ≤ N by omega)
  obtain ⟨w, hw⟩ := good_of_reach hr
  rw [← hw.mem] at hn
  obtain ⟨x, hx, hd⟩ := named_info hw.inv hn
  obtain ⟨w', hw', hx', _⟩ := load_later hr hl hw hx hd
  rw [← hw'.mem] at hp he hu ⊢
  obtain ⟨q, hq, hpub⟩ := hw'.inv.cur id _ hx'
  rw [hp] at hq; cases hq
  obtain ⟨_, _, node, _, hnode, _⟩ := hw'.inv.ok id p hpub
  have hbd := (hw'.inv.at_ok hx' (⟨hp, hnode⟩ : w'.At id p node)).2.1
  obtain ⟨q, q1, q2⟩ := block_strip hw'.inv.ow.klt hnode (body_plain hbd) he
  exact ⟨q, q1, q2, hu q q2⟩

/-- The hypotheses are met from any reachable configuration of the tree on, with the root for `id`. -/
example {c : Conf K V} (h : Reach c) {t : Tid} (ht : c.thr t = none) (op : Call K V) : ∃ n, ∃ σ : Nat → Sys K V, SysExec n σ 1 ∧
    Busy (fun i => (σ i).tree) t 0 1 ∧ (σ 0).tree = c ∧ Named (σ 0).tree.mem c.mem.root ∧ OnLevel (σ 0).tree.mem c.mem.root ∧
    ∃ p, (σ 1).tree.mem.table c.mem.root = some p ∧ Uses (σ 1).tree.mem p p := by
  obtain ⟨w, hw⟩ := good_of_reach h
  obtain ⟨l, hx, _⟩ := hw.inv.root
  obtain ⟨p, hp, _⟩ := hw.inv.cur _ _ hx
  rw [hw.mem] at hp
  obtain ⟨n0, h1⟩ := C44_epochs_complete h
  obtain ⟨s, h2, rfl, h3, _⟩ := h1 (max n0 (t + 1)) (Nat.le_max_left _ _)
  obtain ⟨g, h4, h5, _⟩ := join_run (P := fun _ => True) (s := s) trivial
    (show t < max n0 (t + 1) from Nat.lt_of_lt_of_le (Nat.lt_succ_self t) (Nat.le_max_right n0 (t + 1))) (by rw [h3, ht]; rfl)
  refine ⟨_, fun i => if i = 0 then ⟨s.tree, g⟩ else ⟨⟨s.tree.mem, setThr s.tree.thr t (some (prog 0 op)), s.tree.hist ++ [.call t op]⟩, g⟩,
    ⟨h4.reach h2, fun i hi => ?_⟩, ⟨ht, Nat.zero_lt_one, fun i h6 h7 => ?_⟩, rfl, .inl rfl, .first .root, p, hp, .chain (fuel := 1) List.mem_cons_self⟩
  · obtain rfl : i = 0 := by omega
    exact .call ⟨s.tree, g⟩ t 0 op h5 ht
  · obtain rfl : i = 1 := by omega
    simp [setThr]

/-- C44 for the memory in which the records lie, when calls do not overlap: for every entry a call reads (any call except stepping an iterator back), the record it
finds lies in memory that is not given back with anything retired, and so does every record below it if the node is part of the tree. -/
theorem C44_chunks_sequential {c : Conf K V} (h : SeqReach c) {fuel : Nat} (hf : Ample fuel) {op : Call K V} (hop : op.forward = true) {m : Mem K V} {id : NodeId}
    {k : Option (Ptr × Node K V) → Prog K V (Ans K V)} (hs : Steps c.mem (prog fuel op) m (.load id k)) {p : Ptr} (hp : m.table id = some p) :
    (∃ q, m.block p = some q ∧ ¬ Retired m q) ∧ (OnLevel m id → ∀ e, Uses m p e → ∃ q, m.block e = some q ∧ ¬ Retired m q) := by
  obtain ⟨h1, h2, h3⟩ := C44_sequential h hf hop hs hp
  have key : OnLevel m id → ∀ e, Uses m p e → ∃ q, m.block e = some q ∧ ¬ Retired m q := by
    intro ho e he
    obtain ⟨w, hw⟩ := h.calls
    obtain ⟨wm, rfl, hi, hlook, _⟩ := hw.looks hf hop hs
    obtain ⟨⟨x, hx⟩, _⟩ := hlook id rfl
    obtain ⟨q, hq, hpub⟩ := hi.cur id _ hx
    rw [hp] at hq; cases hq
    obtain ⟨_, _, node, _, hnode, _⟩ := hi.ok id p hpub
    have hbd := (hi.at_ok hx (⟨hp, hnode⟩ : wm.At id p node)).2.1
    obtain ⟨q, q1, q2⟩ := block_strip hi.ow.klt hnode (body_plain hbd) he
    exact ⟨q, q1, h2 ho q q2⟩
  refine ⟨?_, key⟩
  by_cases ho : OnLevel m id
  · exact key ho p (.chain (fuel := 1) List.mem_cons_self)
  · obtain ⟨n, hn, hr⟩ := h3 ho
    refine ⟨p, ?_, h1⟩
    unfold Mem.block
    rw [hn]
    simp [hr]

/-- The hypotheses are met: the execution in which a delete looks at a node it merged (Props/SeqUse). -/
example : ∃ (c : Conf Nat Nat) (m : Mem Nat Nat) (k : Option (Ptr × Node Nat Nat) → Prog Nat Nat (Ans Nat Nat)) (p q : Ptr),
    SeqReach c ∧ Ample (3 * TABLE_SIZE + 1) ∧ Steps c.mem (prog (3 * TABLE_SIZE + 1) (.api (.delete 96 96))) m (.load 3 k) ∧ m.table 3 = some p ∧
    m.block p = some q ∧ ¬ Retired m q ∧ ∃ e, Retired m e := by
  obtain ⟨c, m, k, p, n, hr, _, hs, hp, _, _, _, he⟩ := seq_looks
  obtain ⟨⟨q, h1, h2⟩, _⟩ := C44_chunks_sequential hr (Nat.lt_succ_self _) rfl hs hp
  exact ⟨c, m, k, p, q, hr, Nat.lt_succ_self _, hs, hp, h1, h2, he⟩

/-- C49 when calls do not overlap: for every entry of a node of the tree that a call reads (any call except stepping an iterator back), the boundary keys of the node lie
in memory that is not retired. -/
theorem C49_keys_sequential {c : Conf K V} (h : SeqReach c) {fuel : Nat} (hf : Ample fuel) {op : Call K V} (hop : op.forward = true) {m : Mem K V} {id : NodeId}
    {k : Option (Ptr × Node K V) → Prog K V (Ans K V)} (hs : Steps c.mem (prog fuel op) m (.load id k)) {p : Nat} (hp : m.table id = some p)
    (ho : OnLevel m id) {n : Node K V} (hh : m.heap p = some n) {f : Nat} (hfp : p < f) :
    ∃ e e' x, m.lowRef f p = some (e, .low) ∧ m.highRef f p = some (e', x) ∧ m.pairAt (e, .low) = some n.low ∧ m.pairAt (e', x) = some n.high ∧
      ¬ Retired m e ∧ ¬ Retired m e' := by
  have hu := (C44_sequential h hf hop hs hp).2.1 ho
  obtain ⟨w, hw⟩ := h.calls
  obtain ⟨wm, rfl, hi, hlook, _⟩ := hw.looks hf hop hs
  obtain ⟨⟨x, hx⟩, _⟩ := hlook id rfl
  have hb := (hi.at_ok hx (⟨hp, hh⟩ : wm.At id p n)).2.1
  obtain ⟨⟨e, e1, e2, e3⟩, ⟨e', y, g1, g2, g3⟩⟩ := refs_strip hi.ow.klt hh (body_plain hb) f hfp
  exact ⟨e, e', y, e1, g1, e2.1, g2, hu e e3, hu e' g3⟩

/-- The hypotheses are met by the first step of the first GetValue. -/
example : ∃ (m : Mem Nat Nat) (id : NodeId) (k : Option (Ptr × Node Nat Nat) → Prog Nat Nat (Ans Nat Nat)) (p : Nat) (n : Node Nat Nat),
    Steps (initConf : Conf Nat Nat).mem (prog (3 * TABLE_SIZE + 1) (.api (.get 5))) m (.load id k) ∧ m.table id = some p ∧ OnLevel m id ∧
    m.heap p = some n := by
  refine ⟨initConf.mem, initConf.mem.root, _, _, _, .step rfl (.refl _ _), rfl, .first .root, rfl⟩

end Tree
end BwTree
