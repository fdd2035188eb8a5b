import Verif.Model.FreeChain

/-!
  C34: freeing a retired chain frees each node once and nothing below a remove/abort record; memory is not used after it was
  returned, except by the destructor of merge records.
-/

namespace BwTree.FreeChain

/-- The object at `a` belongs to the chain, without passing a remove or abort record. -/
inductive Own : Chain → Addr → Prop where
  | base {a} : Own (.base a) a
  | data {a h c} : Own (.data a h c) a
  | dataC {a h c x} : Own c x → Own (.data a h c) x
  | merge {a h c r} : Own (.merge a h c r) a
  | mergeL {a h c r x} : Own c x → Own (.merge a h c r) x
  | mergeR {a h c r x} : Own r x → Own (.merge a h c r) x
  | cut {a c} : Own (.cut a c) a

/-- All objects, including those below remove and abort records. -/
inductive All : Chain → Addr → Prop where
  | base {a} : All (.base a) a
  | data {a h c} : All (.data a h c) a
  | dataC {a h c x} : All c x → All (.data a h c) x
  | merge {a h c r} : All (.merge a h c r) a
  | mergeL {a h c r x} : All c x → All (.merge a h c r) x
  | mergeR {a h c r x} : All r x → All (.merge a h c r) x
  | cut {a c} : All (.cut a c) a
  | cutC {a c x} : All c x → All (.cut a c) x

theorem Own.all {c : Chain} {x : Addr} (h : Own c x) : All c x := by
  induction h with
  | base => exact .base
  | data => exact .data
  | dataC _ ih => exact .dataC ih
  | merge => exact .merge
  | mergeL _ ih => exact .mergeL ih
  | mergeR _ ih => exact .mergeR ih
  | cut => exact .cut

/-- Different objects have different addresses. -/
def Distinct : Chain → Prop
  | .base _ => True
  | .data a _ c => ¬ All c a ∧ Distinct c
  | .merge a _ c r => ¬ All c a ∧ ¬ All r a ∧ (∀ x, All c x → ¬ All r x) ∧ Distinct c ∧ Distinct r
  | .cut a c => ¬ All c a ∧ Distinct c

/-- The object at `a` in the chain lives in memory that is returned together with object `h`. -/
inductive Home : Chain → Addr → Addr → Prop where
  | base {a} : Home (.base a) a a
  | data {a h c} : Home (.data a h c) a h
  | dataC {a h c x y} : Home c x y → Home (.data a h c) x y
  | merge {a h c r} : Home (.merge a h c r) a h
  | mergeL {a h c r x y} : Home c x y → Home (.merge a h c r) x y
  | mergeR {a h c r x y} : Home r x y → Home (.merge a h c r) x y
  | cut {a c} : Home (.cut a c) a a

/-- The object at `a` is a merge record. -/
inductive IsMerge : Chain → Addr → Prop where
  | here {a h c r} : IsMerge (.merge a h c r) a
  | data {a h c x} : IsMerge c x → IsMerge (.data a h c) x
  | left {a h c r x} : IsMerge c x → IsMerge (.merge a h c r) x
  | right {a h c r x} : IsMerge r x → IsMerge (.merge a h c r) x

theorem mem_dtor {c : Chain} {x : Addr} : Ev.dtor x ∈ free c → Own c x := by
  induction c with
  | base a => simp only [free]; intro h; simp at h; subst h; exact .base
  | data a h c ih =>
    simp only [free]; intro h; simp at h
    rcases h with rfl | h
    · exact .data
    · exact .dataC (ih h)
  | merge a h c r ih1 ih2 =>
    simp only [free]; intro h; simp at h
    rcases h with h | h | rfl
    · exact .mergeL (ih1 h)
    · exact .mergeR (ih2 h)
    · exact .merge
  | cut a c ih => simp only [free]; intro h; simp at h; subst h; exact .cut

theorem mem_release {c : Chain} {x : Addr} : Ev.release x ∈ free c → Own c x := by
  induction c with
  | base a => simp only [free]; intro h; simp at h; subst h; exact .base
  | data a h c ih => simp only [free]; intro h; simp at h; exact .dataC (ih h)
  | merge a h c r ih1 ih2 =>
    simp only [free]; intro h; simp at h
    rcases h with h | h
    · exact .mergeL (ih1 h)
    · exact .mergeR (ih2 h)
  | cut a c ih => simp only [free]; intro h; simp at h; subst h; exact .cut

theorem mem_read {c : Chain} {x : Addr} : Ev.read x ∈ free c → Own c x := by
  induction c with
  | base a => simp only [free]; intro h; simp at h; subst h; exact .base
  | data a h c ih =>
    simp only [free]; intro h; simp at h
    rcases h with rfl | h
    · exact .data
    · exact .dataC (ih h)
  | merge a h c r ih1 ih2 =>
    simp only [free]; intro h; simp at h
    rcases h with rfl | h | rfl | h
    · exact .merge
    · exact .mergeL (ih1 h)
    · exact .merge
    · exact .mergeR (ih2 h)
  | cut a c ih => simp only [free]; intro h; simp at h; subst h; exact .cut

theorem count_dtor_zero {c : Chain} {x : Addr} (h : ¬ Own c x) : (free c).count (.dtor x) = 0 :=
  List.count_eq_zero_of_not_mem (fun hm => h (mem_dtor hm))

/-- C34. Every object of the chain down to remove/abort records is destroyed exactly once, nothing else is touched: objects below
a remove or abort record are neither read, destroyed nor returned. -/
theorem C34_each_once {c : Chain} (hd : Distinct c) (x : Addr) :
    (Own c x → (free c).count (.dtor x) = 1) ∧
    (¬ Own c x → Ev.dtor x ∉ free c ∧ Ev.read x ∉ free c ∧ Ev.release x ∉ free c) := by
  refine ⟨?_, fun h => ⟨fun hm => h (mem_dtor hm), fun hm => h (mem_read hm), fun hm => h (mem_release hm)⟩⟩
  induction c with
  | base a => intro h; cases h; simp [free]
  | data a hm c ih =>
    obtain ⟨h1, h2⟩ := hd
    intro h
    simp only [free, List.count_append]
    cases h with
    | data => rw [count_dtor_zero (fun h => h1 h.all)]; simp
    | dataC h =>
      rw [ih h2 h]
      have : a ≠ x := by rintro rfl; exact h1 h.all
      simp [List.count_cons, this]
  | merge a hm c r ih1 ih2 =>
    obtain ⟨h1, h2, h3, h4, h5⟩ := hd
    intro h
    simp only [free, List.count_append]
    cases h with
    | merge =>
      rw [count_dtor_zero (fun h => h1 h.all), count_dtor_zero (fun h => h2 h.all)]; simp
    | mergeL h =>
      have : a ≠ x := by rintro rfl; exact h1 h.all
      rw [ih1 h4 h, count_dtor_zero (fun h' => h3 x h.all h'.all)]
      simp [List.count_cons, this]
    | mergeR h =>
      have : a ≠ x := by rintro rfl; exact h2 h.all
      rw [ih2 h5 h, count_dtor_zero (fun h' => h3 x h'.all h.all)]
      simp [List.count_cons, this]
  | cut a c ih => intro h; cases h; simp [free]

/-- C34. All memory is returned: every base node and the remove/abort record reached is released exactly once. -/
theorem C34_released_once {c : Chain} (hd : Distinct c) {x : Addr} (h : Home c x x) (hb : ¬ IsMerge c x) (hp : Placed c) :
    (free c).count (.release x) = 1 := by
  have zero : ∀ {c : Chain} {x : Addr}, ¬ Own c x → (free c).count (.release x) = 0 :=
    fun h => List.count_eq_zero_of_not_mem (fun hm => h (mem_release hm))
  have own : ∀ {c : Chain} {x y : Addr}, Home c x y → Own c x := by
    intro c x y h
    induction h with
    | base => exact .base
    | data => exact .data
    | dataC _ ih => exact .dataC ih
    | merge => exact .merge
    | mergeL _ ih => exact .mergeL ih
    | mergeR _ ih => exact .mergeR ih
    | cut => exact .cut
  have lb : ∀ c : Chain, All c (leftBase c) := by
    intro c
    induction c with
    | base => exact .base
    | data _ _ _ ih => exact .dataC ih
    | merge _ _ _ _ ih _ => exact .mergeL ih
    | cut _ _ ih => exact .cutC ih
  induction c with
  | base a => cases h; simp [free]
  | data a hm c ih =>
    obtain ⟨h1, h2⟩ := hd
    simp only [free, List.count_append]
    cases h with
    | data => exact absurd (hp.1 ▸ lb c) h1
    | dataC h =>
      rw [ih h2 h (fun hm => hb (.data hm)) hp.2]
      simp
  | merge a hm c r ih1 ih2 =>
    obtain ⟨h1, h2, h3, h4, h5⟩ := hd
    simp only [free, List.count_append]
    cases h with
    | merge => exact absurd .here hb
    | mergeL h =>
      rw [ih1 h4 h (fun hm => hb (.left hm)) hp.2.1, zero (fun h' => h3 x (own h).all h'.all)]
      simp
    | mergeR h =>
      rw [ih2 h5 h (fun hm => hb (.right hm)) hp.2.2, zero (fun h' => h3 x h'.all (own h).all)]
      simp
  | cut a c ih => cases h; simp [free]

/-- The two branches never share a home: a home in the chain is one of its own objects (the base node of some branch). -/
theorem Home.own_home {c : Chain} (hp : Placed c) {x y : Addr} (h : Home c x y) : All c y := by
  have lb : ∀ c : Chain, All c (leftBase c) := by
    intro c
    induction c with
    | base => exact .base
    | data _ _ _ ih => exact .dataC ih
    | merge _ _ _ _ ih _ => exact .mergeL ih
    | cut _ _ ih => exact .cutC ih
  induction h with
  | base => exact .base
  | data => exact .dataC (hp.1 ▸ lb _)
  | dataC _ ih => exact .dataC (ih hp.2)
  | merge => exact .mergeR (hp.1 ▸ lb _)
  | mergeL _ ih => exact .mergeL (ih hp.2.1)
  | mergeR _ ih => exact .mergeR (ih hp.2.2)
  | cut => exact .cut

theorem Own.of_home {c : Chain} {x y : Addr} (h : Home c x y) : Own c x := by
  induction h with
  | base => exact .base
  | data => exact .data
  | dataC _ ih => exact .dataC ih
  | merge => exact .merge
  | mergeL _ ih => exact .mergeL ih
  | mergeR _ ih => exact .mergeR ih
  | cut => exact .cut

/-- C34. No use after release: whenever the function reads a record, or runs a destructor other than that of a merge record, the
memory holding the object has not been returned yet. -/
theorem C34_no_use_after_release_partial {c : Chain} (hd : Distinct c) (hp : Placed c) :
    ∀ (l1 l2 : List Ev) (e : Ev) (x h : Addr), free c = l1 ++ e :: l2 → Home c x h →
      (e = .read x ∨ (e = .dtor x ∧ ¬ IsMerge c x)) → Ev.release h ∉ l1 := by
  have lb : ∀ c : Chain, All c (leftBase c) := by
    intro c
    induction c with
    | base => exact .base
    | data _ _ _ ih => exact .dataC ih
    | merge _ _ _ _ ih _ => exact .mergeL ih
    | cut _ _ ih => exact .cutC ih
  induction c with
  | base a =>
    intro l1 l2 e x h heq hh he hm
    cases hh
    simp only [free] at heq
    rcases l1 with _ | ⟨b1, _ | ⟨b2, _ | ⟨b3, _ | ⟨b4, l1⟩⟩⟩⟩ <;> simp at heq hm
    · obtain ⟨rfl, rfl, -⟩ := heq; cases hm
    · obtain ⟨rfl, rfl, rfl, -⟩ := heq
      rcases he with he | ⟨he, _⟩ <;> cases he
  | cut a c ih =>
    intro l1 l2 e x h heq hh he hm
    cases hh
    simp only [free] at heq
    rcases l1 with _ | ⟨b1, _ | ⟨b2, _ | ⟨b3, _ | ⟨b4, l1⟩⟩⟩⟩ <;> simp at heq hm
    · obtain ⟨rfl, rfl, -⟩ := heq; cases hm
    · obtain ⟨rfl, rfl, rfl, -⟩ := heq
      rcases he with he | ⟨he, _⟩ <;> cases he
  | data a hm c ih =>
    intro l1 l2 e x h heq hh he hmem
    obtain ⟨h1, h2⟩ := hd
    simp only [free] at heq
    rw [List.append_eq_append_iff] at heq
    rcases heq with ⟨as, rfl, h4⟩ | ⟨bs, h3, _⟩
    · simp at hmem
      -- the event is inside the rest of the chain
      have hxm : Own c x := by
        rcases he with rfl | ⟨rfl, _⟩
        · exact mem_read (by rw [h4]; simp)
        · exact mem_dtor (by rw [h4]; simp)
      cases hh with
      | data => exact h1 hxm.all
      | dataC hh =>
        exact ih h2 hp.2 as l2 e x h h4 hh (he.imp id (fun q => ⟨q.1, fun k => q.2 (.data k)⟩)) hmem
    · have : Ev.release h ∈ [Ev.read a, .read a, .dtor a] := by rw [h3]; simp [hmem]
      simp at this
  | merge a hm c r ih1 ih2 =>
    intro l1 l2 e x h heq hh he hmem
    obtain ⟨h1, h2, h3, h4, h5⟩ := hd
    simp only [free, List.append_assoc] at heq
    rw [List.append_eq_append_iff] at heq
    rcases heq with ⟨as, rfl, heq⟩ | ⟨bs, hb, _⟩
    rotate_left
    · have : Ev.release h ∈ [Ev.read a, .read a] := by rw [hb]; simp [hmem]
      simp at this
    simp at hmem
    rw [List.append_eq_append_iff] at heq
    rcases heq with ⟨as2, rfl, heq⟩ | ⟨bs, hb, heq⟩
    rotate_left
    · cases bs with
      | nil =>
        -- the event is the second read of the record itself
        simp at hb heq
        obtain ⟨rfl, heq⟩ := heq
        subst hb
        have hxa : x = a := by rcases he with he | ⟨he, _⟩ <;> cases he; rfl
        subst hxa
        cases hh with
        | merge => exact h3 _ (mem_release hmem).all (hp.1 ▸ lb r)
        | mergeL hh => exact h1 (Own.of_home hh).all
        | mergeR hh => exact h2 (Own.of_home hh).all
      | cons b bs =>
        -- the event is inside the left branch
        simp at heq
        obtain ⟨rfl, heq⟩ := heq
        have hxm : Own c x := by
          rcases he with rfl | ⟨rfl, _⟩
          · exact mem_read (by rw [hb]; simp)
          · exact mem_dtor (by rw [hb]; simp)
        cases hh with
        | merge => exact h1 hxm.all
        | mergeL hh =>
          exact ih1 h4 hp.2.1 _ _ e x h hb hh (he.imp id (fun q => ⟨q.1, fun k => q.2 (.left k)⟩)) hmem
        | mergeR hh => exact h3 _ hxm.all (Own.of_home hh).all
    · -- the event comes after the left branch
      have hl : ∀ {x h}, Home c x h → Own c x := fun hh => Own.of_home hh
      cases as2 with
      | nil =>
        simp at heq hmem
        obtain ⟨rfl, heq⟩ := heq
        have hxa : x = a := by rcases he with he | ⟨he, _⟩ <;> cases he; rfl
        subst hxa
        cases hh with
        | merge => exact h3 _ (mem_release hmem).all (hp.1 ▸ lb r)
        | mergeL hh => exact h1 (Own.of_home hh).all
        | mergeR hh => exact h2 (Own.of_home hh).all
      | cons b as2 =>
        simp at heq
        obtain ⟨rfl, heq⟩ := heq
        simp at hmem
        rw [List.append_eq_append_iff] at heq
        -- the event is in the right branch, or the final destructor
        have key : ∀ l3 l4, free r = l3 ++ e :: l4 → Ev.release h ∈ free c ∨ Ev.release h ∈ l3 → False := by
          intro l3 l4 hr hor
          have hxm : Own r x := by
            rcases he with rfl | ⟨rfl, _⟩
            · exact mem_read (by rw [hr]; simp)
            · exact mem_dtor (by rw [hr]; simp)
          cases hh with
          | merge => exact h2 hxm.all
          | mergeL hh => exact h3 _ (Own.of_home hh).all hxm.all
          | mergeR hh =>
            rcases hor with hor | hor
            · exact h3 _ (mem_release hor).all (Home.own_home hp.2.2 hh)
            · exact ih2 h5 hp.2.2 _ _ e x h hr hh (he.imp id (fun q => ⟨q.1, fun k => q.2 (.right k)⟩)) hor
        rcases heq with ⟨as3, rfl, heq⟩ | ⟨bs, hb, heq⟩
        · cases as3 with
          | nil =>
            simp at heq
            obtain ⟨rfl, _⟩ := heq
            rcases he with he | ⟨he, hn⟩
            · cases he
            · cases he; exact hn .here
          | cons b as3 => simp at heq
        · cases bs with
          | nil =>
            simp at heq
            obtain ⟨rfl, _⟩ := heq
            rcases he with he | ⟨he, hn⟩
            · cases he
            · cases he; exact hn .here
          | cons b bs =>
            simp at heq
            obtain ⟨rfl, _⟩ := heq
            exact key _ _ hb hmem

/-- No remove/abort record on the path to the base node (they only ever sit on top of a chain). -/
def NoCut : Chain → Prop
  | .base _ => True
  | .data _ _ c => NoCut c
  | .merge _ _ c r => NoCut c ∧ NoCut r
  | .cut _ _ => False

/-- C34 (what is missing above). The destructor of a merge record always runs after the memory holding the record was returned:
the record lives in the right branch's base node, which was destroyed just before. For keys with a trivial destructor this
does nothing; for others it is a use after free. -/
theorem C34_merge_destructor_after_release {a h : Addr} {c r : Chain} (hp : Placed (.merge a h c r)) (hn : NoCut r) :
    ∃ l1, free (.merge a h c r) = l1 ++ [.dtor a] ∧ Ev.release h ∈ l1 := by
  have key : ∀ r : Chain, NoCut r → Ev.release (leftBase r) ∈ free r := by
    intro r hn
    induction r with
    | base => simp [free, leftBase]
    | data _ _ c ih => simp [free, leftBase, ih hn]
    | merge _ _ c r ih1 _ => simp [free, leftBase, ih1 hn.1]
    | cut => exact hn.elim
  refine ⟨[.read a, .read a] ++ free c ++ [.read a] ++ free r, by simp [free], ?_⟩
  rw [hp.1]
  simp [key r hn]

/-- A chain meeting the hypotheses: an insert on a merge of two leaves, the right one with a record of its own. -/
def exFree : Chain := .data 10 1 (.merge 11 2 (.base 1) (.data 12 2 (.base 2)))

example : Distinct exFree ∧ Placed exFree ∧ Own exFree 12 ∧ Home exFree 11 2 := by
  refine ⟨⟨?_, ?_, ?_, ?_, trivial, ?_, trivial⟩, ⟨rfl, rfl, trivial, rfl, trivial⟩, .dataC (.mergeR .data), .dataC .merge⟩
  · intro h; cases h with
    | mergeL h => cases h
    | mergeR h => cases h with
      | dataC h => cases h
  · intro h; cases h
  · intro h; cases h with
    | dataC h => cases h
  · intro x h; cases h; intro h; cases h with
    | dataC h => cases h
  · intro h; cases h

/-- Retired remove record: only the record itself. -/
example : free (.cut 5 exFree) = [.read 5, .dtor 5, .release 5] := rfl

end BwTree.FreeChain
