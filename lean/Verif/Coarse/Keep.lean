import Verif.Coarse.History

/-!
What the calls keep: the points in the leaves, the counters, the times.
-/

set_option linter.unusedSectionVars false

namespace Orp.Coarse

open Finset
open Mondrian (Node Box Forest Params Cut upd init extent cutAt bump sampleBlock Tree Data Frame plug ctxPar ctxTau ctxIds HoldsCtx Holds Ready avail mem_avail
  avail_nodup avail_used upd_spec lt_of_get newLeaf holds_plug plug_ids holds_root id_mem_ids holds_mem relinked set_same oids allIds recountAll OnlyCounts Positive
  Point IsHull histogram Right Times)

variable {K : Type} [Field K] [LinearOrder K] [IsStrictOrderedRing K] [FloorRing K] {F L : Nat}

/-! ### `EXTEND_ORIGINAL`: the points in the leaves -/

theorem aboveC_right (lifetime : K) (np ns : Nat) {c : Cut K F} {t : Tree K F L} (cnt : Fin L → Nat) {pts : List (Point K F L)} (z : Point K F L)
    (h : Right pts t) (hc : c.Ok t.data.box z.1) : Right (pts ++ [z]) (aboveC lifetime np ns c t cnt z.1 z.2) := by
  have := Mondrian.above_right lifetime (np, ns) z h hc
  unfold Mondrian.above at this
  unfold aboveC
  simp only at this
  split
  · rename_i hr; rw [if_pos hr] at this; exact this
  · rename_i hr; rw [if_neg hr] at this; exact this

theorem WayBox.original {c : Config K} (hc : c.extend = .original) {b b' : Box K F} {x : Fin F → K} (h : WayBox c b x b') : b' = b.extend x := by
  rcases h with h | ⟨h, -⟩
  · rw [h]; unfold newBox; rw [hc, if_neg (by decide)]
  · rw [hc] at h; cases h

theorem Grows.right_tree {c : Config K} (hc : c.extend = .original) {base : Base} {lifetime : K} {z : Point K F L} {dist : Nat} {ptau : K}
    {t t' : Tree K F L} (h : Grows c base lifetime z.1 z.2 dist ptau t t') : ∀ {pts : List (Point K F L)}, Right pts t → Right (pts ++ [z]) t' := by
  induction h with
  | insert np ns h hm => intro pts hr; exact aboveC_right _ _ _ _ z hr h.ok
  | insertLeaf np ns h hm => rw [hc] at hm; cases hm
  | insertLeft np ns h hm hx hg ih => rw [hc] at hm; cases hm
  | insertRight np ns h hm hx hg ih => rw [hc] at hm; cases hm
  | leaf b' hb =>
      intro pts hr
      rw [hb.original hc]
      refine ⟨by simp, hr.2.1.extend z, ?_⟩
      rw [Mondrian.histogram_append, ← hr.2.2]
  | left b' hb hx hg ih =>
      intro pts hr
      rw [hb.original hc]
      refine ⟨hr.1.extend z, ?_, ?_⟩
      · rw [List.filter_append, List.filter_cons_of_pos (by simpa using hx), List.filter_nil]
        exact ih hr.2.1
      · rw [List.filter_append, List.filter_cons_of_neg (by simpa using hx), List.filter_nil, List.append_nil]
        exact hr.2.2
  | right b' hb hx hg ih =>
      intro pts hr
      rw [hb.original hc]
      refine ⟨hr.1.extend z, ?_, ?_⟩
      · rw [List.filter_append, List.filter_cons_of_neg (by simpa using hx), List.filter_nil, List.append_nil]
        exact hr.2.1
      · rw [List.filter_append, List.filter_cons_of_pos (by simpa using hx), List.filter_nil]
        exact ih hr.2.2
  | ghost hm => rw [hc] at hm; cases hm
  | drop hm => rw [hc] at hm; cases hm

/-! ### Counting the points -/

/-- The number of points of each label counted in the leaves of a tree -/
def held : Tree K F L → Fin L → Nat
  | .leaf _ d => d.counts
  | .node _ _ _ _ l r => fun i => held l i + held r i

theorem held_above (lifetime : K) (np ns : Nat) (c : Cut K F) (t : Tree K F L) (cnt : Fin L → Nat) (x : Fin F → K) (label : Fin L) :
    held (aboveC lifetime np ns c t cnt x label) = bump (held t) label := by
  funext i
  unfold aboveC
  split <;> simp only [held, newLeaf, bump, Function.update_apply] <;> split <;> simp_all <;> omega

theorem bump_add (a b : Fin L → Nat) (label : Fin L) : (fun i => bump a label i + b i) = bump (fun i => a i + b i) label := by
  funext i
  simp only [bump, Function.update_apply]
  split
  · rename_i h; subst h; omega
  · rfl

theorem bump_add' (a b : Fin L → Nat) (label : Fin L) : (fun i => a i + bump b label i) = bump (fun i => a i + b i) label := by
  funext i
  simp only [bump, Function.update_apply]
  split
  · rename_i h; subst h; omega
  · rfl

/-- Without the modes that skip a point or count it twice, each point is counted once. -/
theorem Grows.held_eq {c : Config K} (h1 : c.extend ≠ .ghost) (h2 : c.extend ≠ .partialUpdate) (h3 : c.extend ≠ .counterNoUpdate) {base : Base} {lifetime : K}
    {x : Fin F → K} {label : Fin L} {dist : Nat} {ptau : K} {t t' : Tree K F L} (h : Grows c base lifetime x label dist ptau t t') :
    held t' = bump (held t) label := by
  induction h with
  | insert np ns h hm => exact held_above ..
  | insertLeaf np ns h hm => exact absurd hm h3
  | insertLeft np ns h hm hx hg ih => exact absurd hm h3
  | insertRight np ns h hm hx hg ih => exact absurd hm h3
  | leaf b' hb => rfl
  | left b' hb hx hg ih => simp only [held, ih, bump_add]
  | right b' hb hx hg ih => simp only [held, ih, bump_add']
  | ghost hm => exact absurd hm h1
  | drop hm => exact absurd hm h2

/-- In every mode, no label but that of the point gains. -/
theorem Grows.held_other {c : Config K} {base : Base} {lifetime : K} {x : Fin F → K} {label : Fin L} {dist : Nat} {ptau : K} {t t' : Tree K F L}
    (h : Grows c base lifetime x label dist ptau t t') (i : Fin L) (hi : i ≠ label) : held t' i = held t i := by
  have hb : ∀ a : Fin L → Nat, bump a label i = a i := fun a => by simp [bump, Function.update_apply, hi]
  induction h with
  | insert np ns h hm => rw [held_above, hb]
  | insertLeaf np ns h hm => rw [held_above, hb]; exact hb _
  | insertLeft np ns h hm hx hg ih => rw [held_above, hb]; simp only [held, ih]
  | insertRight np ns h hm hx hg ih => rw [held_above, hb]; simp only [held, ih]
  | leaf b' hb' => exact hb _
  | left b' hb hx hg ih => simp only [held, ih]
  | right b' hb hx hg ih => simp only [held, ih]
  | ghost hm =>
      rename_i t
      cases t with
      | leaf id d => exact hb _
      | node => rfl
  | drop hm => rfl

/-- `EXTEND_COUNTER_NO_UPDATE`: each point is counted at least once. -/
theorem Grows.held_ge {c : Config K} (h1 : c.extend = .counterNoUpdate) {base : Base} {lifetime : K}
    {x : Fin F → K} {label : Fin L} {dist : Nat} {ptau : K} {t t' : Tree K F L} (h : Grows c base lifetime x label dist ptau t t') :
    held t label + 1 ≤ held t' label := by
  have hb : ∀ a : Fin L → Nat, bump a label label = a label + 1 := fun a => by simp [bump]
  induction h with
  | insert np ns h hm => exact absurd h1 hm
  | insertLeaf np ns h hm => rw [held_above, hb]; show _ ≤ bump _ _ _ + 1; rw [hb]; simp only [held]; omega
  | insertLeft np ns h hm hx hg ih => rw [held_above, hb]; simp only [held]; omega
  | insertRight np ns h hm hx hg ih => rw [held_above, hb]; simp only [held]; omega
  | leaf b' hb' => show _ ≤ bump _ _ _; rw [hb]; exact le_refl _
  | left b' hb hx hg ih => simp only [held]; omega
  | right b' hb hx hg ih => simp only [held]; omega
  | ghost hm => rw [h1] at hm; cases hm
  | drop hm => rw [h1] at hm; cases hm

/-- `EXTEND_PARTIAL_UPDATE` and `EXTEND_GHOST`: each point is counted at most once in the leaves. -/
theorem Grows.held_le {c : Config K} (h1 : c.extend ≠ .counterNoUpdate) {base : Base} {lifetime : K}
    {x : Fin F → K} {label : Fin L} {dist : Nat} {ptau : K} {t t' : Tree K F L} (h : Grows c base lifetime x label dist ptau t t') :
    held t label ≤ held t' label ∧ held t' label ≤ held t label + 1 := by
  have hb : ∀ a : Fin L → Nat, bump a label label = a label + 1 := fun a => by simp [bump]
  induction h with
  | insert np ns h hm => rw [held_above, hb]; omega
  | insertLeaf np ns h hm => exact absurd hm h1
  | insertLeft np ns h hm hx hg ih => exact absurd hm h1
  | insertRight np ns h hm hx hg ih => exact absurd hm h1
  | leaf b' hb' => show _ ≤ bump _ _ _ ∧ bump _ _ _ ≤ _; rw [hb]; simp only [held]; omega
  | left b' hb hx hg ih => simp only [held]; omega
  | right b' hb hx hg ih => simp only [held]; omega
  | ghost hm =>
      rename_i t
      cases t with
      | leaf id d => show _ ≤ bump d.counts _ _ ∧ bump d.counts _ _ ≤ _; rw [hb]; simp only [held]; omega
      | node => simp only [Tree.withData, held]; omega
  | drop hm => omega

theorem aboveC_counts (lifetime : K) (np ns : Nat) (c : Cut K F) (t : Tree K F L) (cnt : Fin L → Nat) (x : Fin F → K) (label : Fin L) :
    (aboveC lifetime np ns c t cnt x label).data.counts = cnt := by
  unfold aboveC
  split <;> rfl

/-- `EXTEND_GHOST`: the root of the tree counts every point. -/
theorem Grows.ghost_root {c : Config K} (h1 : c.extend = .ghost) {base : Base} {lifetime : K}
    {x : Fin F → K} {label : Fin L} {dist : Nat} {ptau : K} {t t' : Tree K F L} (h : Grows c base lifetime x label dist ptau t t') :
    t'.data.counts = bump t.data.counts label := by
  cases h with
  | insert np ns h hm => rw [aboveC_counts, h1]; rfl
  | insertLeaf np ns h hm => rw [h1] at hm; cases hm
  | insertLeft np ns h hm hx hg => rw [h1] at hm; cases hm
  | insertRight np ns h hm hx hg => rw [h1] at hm; cases hm
  | leaf b' hb => rfl
  | left b' hb hx hg => simp only [Tree.data, wayCounts, h1, if_true]
  | right b' hb hx hg => simp only [Tree.data, wayCounts, h1, if_true]
  | ghost hm => cases t <;> rfl
  | drop hm => rw [h1] at hm; cases hm

/-- the counters of a split node cover those of its children -/
def Covers : Tree K F L → Prop
  | .leaf _ _ => True
  | .node _ d _ _ l r => (∀ i, l.data.counts i + r.data.counts i ≤ d.counts i) ∧ Covers l ∧ Covers r

theorem bump_le {a b : Fin L → Nat} (label : Fin L) (h : ∀ i, a i ≤ b i) : ∀ i, a i ≤ bump b label i := by
  intro i
  simp only [bump, Function.update_apply]
  split
  · rename_i e; subst e; have := h i; omega
  · exact h i

/-- `EXTEND_GHOST`: a split node counts the points that its children have counted, and those that left the tree at it. -/
theorem Grows.ghost_covers {c : Config K} (h1 : c.extend = .ghost) {base : Base} {lifetime : K}
    {x : Fin F → K} {label : Fin L} {dist : Nat} {ptau : K} {t t' : Tree K F L} (h : Grows c base lifetime x label dist ptau t t') (hc : Covers t) : Covers t' := by
  induction h with
  | insert np ns h hm =>
      rename_i t cut
      rw [h1]
      unfold aboveC
      have hz : ∀ i, t.data.counts i + bump (fun _ => 0) label i = bump t.data.counts label i := by
        intro i
        simp only [bump, Function.update_apply]
        split
        · rename_i e; subst e; rfl
        · rfl
      split
      · exact ⟨fun i => (hz i).le, hc, trivial⟩
      · refine ⟨fun i => ?_, trivial, hc⟩
        rw [Nat.add_comm]
        exact (hz i).le
  | insertLeaf np ns h hm => rw [h1] at hm; cases hm
  | insertLeft np ns h hm hx hg ih => rw [h1] at hm; cases hm
  | insertRight np ns h hm hx hg ih => rw [h1] at hm; cases hm
  | leaf b' hb => trivial
  | left b' hb hx hg ih =>
      refine ⟨fun i => ?_, ih hc.2.1, hc.2.2⟩
      rw [hg.ghost_root h1]
      simp only [wayCounts, h1, if_true]
      have := hc.1 i
      simp only [bump, Function.update_apply]
      split
      · rename_i e; subst e; omega
      · exact this
  | right b' hb hx hg ih =>
      refine ⟨fun i => ?_, hc.2.1, ih hc.2.2⟩
      rw [hg.ghost_root h1]
      simp only [wayCounts, h1, if_true]
      have := hc.1 i
      simp only [bump, Function.update_apply]
      split
      · rename_i e; subst e; omega
      · exact this
  | ghost hm =>
      rename_i t
      cases t with
      | leaf => trivial
      | node id d dim sp l r => exact ⟨bump_le label hc.1, hc.2⟩
  | drop hm => exact hc

/-! ### Times -/

theorem times_mono {lifetime : K} : ∀ {t : Tree K F L} {a b : K}, Times (· ≤ ·) lifetime b t → a ≤ b → Times (· ≤ ·) lifetime a t
  | .leaf _ _, _, _, h, _ => h
  | .node _ _ _ _ _ _, _, _, h, hab => ⟨hab.trans h.1, h.2⟩

theorem times_root_le {lifetime : K} : ∀ {t : Tree K F L} {a : K}, Times (· ≤ ·) lifetime a t → t.data.tau ≤ lifetime
  | .leaf _ _, _, h => le_of_eq h
  | .node _ _ _ _ _ _, _, h => h.2.1.le

theorem times_tau {lifetime : K} : ∀ {t : Tree K F L} {a b : K}, Times (· ≤ ·) lifetime a t → b ≤ t.data.tau → Times (· ≤ ·) lifetime b t
  | .leaf _ _, _, _, h, _ => h
  | .node _ _ _ _ _ _, _, _, h, hb => ⟨hb, h.2⟩

theorem aboveC_times {lifetime : K} {np ns : Nat} {c : Cut K F} {t : Tree K F L} (cnt : Fin L → Nat) (x : Fin F → K) (label : Fin L) {ptau : K}
    (ht : Times (· ≤ ·) lifetime c.tau t) (h1 : ptau ≤ c.tau) (h2 : c.tau < lifetime) :
    Times (· ≤ ·) lifetime ptau (aboveC lifetime np ns c t cnt x label) := by
  unfold aboveC
  split
  · exact ⟨h1, h2, ht, rfl⟩
  · exact ⟨h1, h2, rfl, ht⟩

theorem Grows.times {c : Config K} {base : Base} {lifetime : K} {x : Fin F → K} {label : Fin L} {dist : Nat} {ptau : K} {t t' : Tree K F L}
    (h : Grows c base lifetime x label dist ptau t t') : Times (· ≤ ·) lifetime ptau t → Times (· ≤ ·) lifetime ptau t' := by
  induction h with
  | insert np ns h hm => intro ht; exact aboveC_times _ _ _ (times_tau ht h.lt.le) h.le (h.lt.trans_le (times_root_le ht))
  | insertLeaf np ns h hm =>
      intro ht
      have h2 := h.lt.trans_le (le_of_eq ht)
      exact aboveC_times _ _ _ ht h.le h2
  | insertLeft np ns h hm hx hg ih =>
      intro ht
      exact aboveC_times _ _ _ ⟨h.lt.le, ht.2.1, ih ht.2.2.1, ht.2.2.2⟩ h.le (h.lt.trans ht.2.1)
  | insertRight np ns h hm hx hg ih =>
      intro ht
      exact aboveC_times _ _ _ ⟨h.lt.le, ht.2.1, ht.2.2.1, ih ht.2.2.2⟩ h.le (h.lt.trans ht.2.1)
  | leaf b' hb => exact fun ht => ht
  | left b' hb hx hg ih => exact fun ht => ⟨ht.1, ht.2.1, ih ht.2.2.1, ht.2.2.2⟩
  | right b' hb hx hg ih => exact fun ht => ⟨ht.1, ht.2.1, ht.2.2.1, ih ht.2.2.2⟩
  | ghost hm =>
      rename_i t
      cases t <;> exact fun ht => ht
  | drop hm => exact fun ht => ht

theorem Removes.times {lifetime : K} {id : Nat} {t t' : Tree K F L} (h : Removes id t t') : ∀ {ptau : K}, Times (· ≤ ·) lifetime ptau t → Times (· ≤ ·) lifetime ptau t' := by
  induction h with
  | atLeft => intro ptau ht; exact times_mono ht.2.2.2 ht.1
  | atRight => intro ptau ht; exact times_mono ht.2.2.1 ht.1
  | left h ih => intro ptau ht; exact ⟨ht.1, ht.2.1, ih ht.2.2.1, ht.2.2.2⟩
  | right h ih => intro ptau ht; exact ⟨ht.1, ht.2.1, ht.2.2.1, ih ht.2.2.2⟩

/-! ### The predicates kept by histories -/

/-- the training points of a history -/
def points : List (Op K F L) → List (Point K F L)
  | [] => []
  | .train x label :: ops => (x, label) :: points ops
  | _ :: ops => points ops

theorem points_snoc (op : Op K F L) : ∀ ops : List (Op K F L), points (ops ++ [op]) = points ops ++ points [op]
  | [] => rfl
  | .train x label :: ops => by simp only [List.cons_append, points, points_snoc op ops]
  | .predict _ _ :: ops => by simp only [List.cons_append, points, points_snoc op ops]
  | .trim :: ops => by simp only [List.cons_append, points, points_snoc op ops]
  | .fade :: ops => by simp only [List.cons_append, points, points_snoc op ops]
  | .other _ :: ops => by simp only [List.cons_append, points, points_snoc op ops]

/-- nothing is required -/
theorem kept_true (c : Config K) (lifetime : K) (few : Prop) (n : Nat) : Kept (F := F) (L := L) c lifetime few n (fun _ _ _ => True) :=
  ⟨fun _ => trivial, fun _ _ _ _ _ _ _ _ _ => trivial⟩

theorem kept_times (c : Config K) (lifetime : K) (few : Prop) (n : Nat) :
    Kept (F := F) (L := L) c lifetime few n (fun _ _ o => ∀ t, o = some t → Times (· ≤ ·) lifetime 0 t) := by
  have htrim : ∀ (o o' : Option (Tree K F L)), (∀ t, o = some t → Times (· ≤ ·) lifetime 0 t) → Pruned c o o' → ∀ t, o' = some t → Times (· ≤ ·) lifetime 0 t := by
    intro o o' h hp
    rcases hp with rfl | ⟨-, f, hp⟩
    · exact h
    · cases o with
      | none => cases hp; exact h
      | some t =>
          rcases hp with ⟨z, t', -, hr, rfl⟩ | ⟨rfl, -⟩
          · intro t1 e
            cases e
            exact hr.times (h t rfl)
          · exact h
  refine ⟨fun b t h => (by cases h), fun ops op b o o' _ _ h he => ?_⟩
  cases op with
  | train x label =>
      obtain ⟨o1, hp, hs⟩ := he
      have h1 := htrim o o1 h hp
      intro t' ht'
      cases o1 with
      | none =>
          rcases hs with ⟨a, rfl⟩ | ⟨-, rfl⟩
          · cases ht'; rfl
          · cases ht'
      | some t =>
          obtain ⟨t1, rfl, hg⟩ := hs
          cases ht'
          by_cases hm : c.extend = .none
          · rw [if_pos hm] at hg; rw [hg]; exact h1 t rfl
          · rw [if_neg hm] at hg; exact hg.times (h1 t rfl)
  | predict x use =>
      have e : o' = counted c o := he
      subst e
      unfold counted
      split
      · exact h
      · intro t ht
        cases o with
        | none => cases ht
        | some t0 => cases ht; exact Mondrian.recount_times (h t0 rfl)
  | trim => exact htrim o o' h he
  | fade => have e : o' = o := he; rw [e]; exact h
  | other last => have e : o' = o := he; rw [e]; exact h

/-- A predicate `Q pts t` that holds for a leaf with one point, is kept by growing and by refreshing the counters, is kept by histories without trimming. -/
theorem kept_points (c : Config K) (ht : c.trim = .none) (hm : c.extend ≠ .none) (lifetime : K) (n : Nat) (Q : List (Point K F L) → Tree K F L → Prop)
    (h1 : ∀ a x label, Q [(x, label)] (newLeaf lifetime a x label))
    (h2 : ∀ b x label t t' pts, Grows c b lifetime x label 0 0 t t' → Q pts t → Q (pts ++ [(x, label)]) t')
    (h3 : c.extend ≠ .ghost → ∀ t pts, Q pts t → Q pts t.recount) :
    Kept c lifetime False n (fun ops _ o => match o with
      | none => points ops = []
      | some t => Q (points ops) t) := by
  have htrim : ∀ (o o' : Option (Tree K F L)), Pruned c o o' → o' = o := by
    intro o o' hp
    rcases hp with h | ⟨h, -⟩
    · exact h
    · exact absurd ht h
  refine ⟨fun b => rfl, fun ops op b o o' _ _ h he => ?_⟩
  rw [points_snoc]
  cases op with
  | train x label =>
      obtain ⟨o1, hp, hs⟩ := he
      have := htrim _ _ hp
      subst this
      cases o1 with
      | none =>
          rcases hs with ⟨a, rfl⟩ | ⟨h, -⟩
          · simp only at h
            simp only [h, List.nil_append, points]
            exact h1 a x label
          · exact h.elim
      | some t =>
          obtain ⟨t1, rfl, hg⟩ := hs
          rw [if_neg hm] at hg
          exact h2 b x label t t1 _ hg h
  | predict x use =>
      have e : o' = counted c o := he
      subst e
      simp only [points, List.append_nil]
      unfold counted
      by_cases hgh : c.extend = .ghost
      · rw [if_pos hgh]; exact h
      · rw [if_neg hgh]
        cases o with
        | none => exact h
        | some t => exact h3 hgh t _ h
  | trim => have := htrim _ _ he; subst this; simpa only [points, List.append_nil] using h
  | fade => have e : o' = o := he; subst e; simpa only [points, List.append_nil] using h
  | other last => have e : o' = o := he; subst e; simpa only [points, List.append_nil] using h

theorem held_recount : ∀ t : Tree K F L, held t.recount = held t
  | .leaf _ _ => rfl
  | .node _ _ _ _ l r => by simp only [Tree.recount, held, held_recount l, held_recount r]

theorem kept_right (c : Config K) (ht : c.trim = .none) (hm : c.extend = .original) (lifetime : K) (n : Nat) :
    Kept (F := F) (L := L) c lifetime False n (fun ops _ o => match o with
      | none => points ops = []
      | some t => Right (points ops) t) :=
  kept_points c ht (by rw [hm]; decide) lifetime n Right (fun a x label => Mondrian.newLeaf_right lifetime a (x, label))
    (fun b x label t t' pts hg h => hg.right_tree (z := (x, label)) hm h) (fun _ t pts h => Mondrian.recount_right h)

theorem kept_held (c : Config K) (ht : c.trim = .none) (hm : c.extend = .original ∨ c.extend = .barycenter) (lifetime : K) (n : Nat) :
    Kept (F := F) (L := L) c lifetime False n (fun ops _ o => match o with
      | none => points ops = []
      | some t => held t = histogram (points ops)) :=
  kept_points c ht (by rcases hm with h | h <;> rw [h] <;> decide) lifetime n (fun pts t => held t = histogram pts)
    (fun a x label => (Mondrian.histogram_append [] (x, label)).symm)
    (fun b x label t t' pts hg h => by
      rw [hg.held_eq (by rcases hm with h | h <;> rw [h] <;> decide) (by rcases hm with h | h <;> rw [h] <;> decide) (by rcases hm with h | h <;> rw [h] <;> decide), h,
        Mondrian.histogram_append])
    (fun _ t pts h => by rw [held_recount]; exact h)

theorem kept_ghost (c : Config K) (ht : c.trim = .none) (hm : c.extend = .ghost) (lifetime : K) (n : Nat) :
    Kept (F := F) (L := L) c lifetime False n (fun ops _ o => match o with
      | none => points ops = []
      | some t => t.data.counts = histogram (points ops) ∧ Covers t) :=
  kept_points c ht (by rw [hm]; decide) lifetime n (fun pts t => t.data.counts = histogram pts ∧ Covers t)
    (fun a x label => ⟨(Mondrian.histogram_append [] (x, label)).symm, trivial⟩)
    (fun b x label t t' pts hg h => ⟨by rw [hg.ghost_root hm, h.1, Mondrian.histogram_append], hg.ghost_covers hm h.2⟩)
    (fun h => absurd hm h)

end Orp.Coarse
