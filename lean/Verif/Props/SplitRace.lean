import Verif.Proofs.WideRun
import Verif.Props.Stuck

/-!
  C31 fails in a second way. The abort record that protects the parent while a leaf is marked removed is taken away by putting the old address of the parent
  back. A thread that has checked before that the leaf was in use, and that is about to split the parent just before this leaf, then still succeeds. The removed
  leaf is now the first child of one inner node, and the leaf it is merged into the last child of another.
-/

namespace BwTree
namespace Tree

namespace Long

theorem leads_wide {t : Tid} : Leads t (shrunk 4) (wide 5 threeLeaves) :=
  (leads_of lead_w0).trans <| (leads_of lead_w1).trans <| (leads_of lead_w2).trans <| (leads_of lead_w3).trans <| leads_of lead_w4

theorem reach_clash {op : Call Nat Nat} (h : clash op = true) :
    ∃ c : Conf Nat Nat, Reach c ∧ Running c.hist 2 op ∧ c.thr 2 = some (.fail .mergeRange) := by
  unfold clash at h
  split at h
  · cases h
  rename_i s hs
  obtain ⟨c1, o1, r1⟩ := (leads_tall (t := 0)).trans (leads_shrunk.trans leads_wide) initConf rfl init_rows
  have i1 : c1.thr = fun _ => none := o1.thr
  obtain ⟨c2, o2, k2⟩ := callsP_onward (t := 0) (by rw [i1]) r1.knows hs
  have i2 : c2.thr = fun _ => none := by rw [o2.thr, i1]
  obtain ⟨c3, h3, i3, k3, e3⟩ := start (t := 0) (o2.reach (o1.reach .init)) (by rw [i2]) k2 22 100 (delOwn 5000)
  obtain ⟨c4, h4, i4, k4, e4⟩ := start (t := 1) h3 (by rw [i3, i2]; rfl) k3 27 100 (.api (.insert 2090 1))
  obtain ⟨c5, h5, i5, k5, e5⟩ := start (t := 2) h4 (by rw [i4, i3, i2]; rfl) k4 8 100 op
  obtain ⟨c6, h6, i6, k6, e6⟩ := resume (t := 1) h5 (p := (second s).2) (by rw [i5, i4]; rfl) k5 19
  obtain ⟨c7, h7, i7, k7, e7⟩ := resume (t := 2) h6 (p := (third s op).2) (by rw [i6, i5]; rfl) k6 20
  split at h
  case h_2 => cases h
  rename_i s1 f e1
  have hf : f = .mergeRange := by simpa using h
  subst hf
  refine ⟨c7, h7, ?_, ?_⟩
  · rw [e7, e6, e5]
    exact ⟨c4.hist, [], by simp, by simp⟩
  · rw [i7]
    show some _ = _
    exact congrArg (fun x => some x.2) e1

end Long

/-- C31 fails: Insert, Delete, Begin(key) and a step of an iterator back can stop at the assertion that the separator of a leaf which is being merged is in the range
of the parent node. -/
theorem C31_merge_assertion : ∀ op : Call Nat Nat, op = .api (.insert 2020 1) ∨ op = .api (.delete 2020 2020) ∨ op = .page 2020 ∨ op = .back 2020 →
    ∃ c : Conf Nat Nat, Reach c ∧ Running c.hist 2 op ∧ c.thr 2 = some (.fail .mergeRange) := by
  rintro op (rfl | rfl | rfl | rfl)
  · exact Long.reach_clash Long.clash_insert
  · exact Long.reach_clash Long.clash_delete
  · exact Long.reach_clash Long.clash_page
  · exact Long.reach_clash Long.clash_back

end Tree
end BwTree
