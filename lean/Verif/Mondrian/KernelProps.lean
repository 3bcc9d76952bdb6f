import Verif.Mondrian.RunProg
import Verif.Mondrian.LawProps

/-!
Property C95: after any training history, with ideal random numbers, a group of training points is in one leaf of a tree with probability
`exp (-lifetime * size)`, where `size` is the sum of the side lengths of the smallest box around the group, independently for the trees. This is the
law of a Mondrian process; for two points it is the Laplace kernel.
-/

set_option linter.unusedSectionVars false

namespace Orp.Mondrian

open MeasureTheory Orp.Reservoir

variable {F L : Nat}

/-! ### The value at the end -/

theorem inside_out {b q : Box ℝ F} (hq : q.Ordered) (h : q.Inside b) : b.outs q = 0 ∧ b.aways q = 0 := by
  constructor
  · refine Finset.sum_eq_zero fun i _ => ?_
    have := h i
    rw [Box.out, max_eq_right (by linarith [this.1]), max_eq_right (by linarith [this.2]), add_zero]
  · refine Finset.sum_eq_zero fun i _ => ?_
    have := h i
    have := hq i
    rw [Box.away, max_eq_right (by linarith [(h i).1]), max_eq_right (by linarith [(h i).2]), add_zero]

open Classical in
theorem together_all {Q : List (Point ℝ F L)} (hne : Q ≠ []) {q : Box ℝ F} (hq : IsHull Q q) (life : ℝ) : ∀ (t : Tree ℝ F L) (pts : List (Point ℝ F L)) (r : ℝ),
    Right pts t → (∀ z ∈ Q, z ∈ pts) → t.ids.Nodup → together q life t r = if t.Together Q then 1 else 0
  | t, pts, r, hR, hsub, hnd => by
      have hin := inside_out (fun i => hull_proper hne hq i) (hull_inside hsub hq hR.hull)
      rw [together_eq, hin.1, hin.2]
      have hv : val 0 0 q.size life t.data.tau (goal q life t) r = goal q life t := by simp [val]
      rw [hv]
      match t, hR, hnd with
      | .leaf id d, hR, hnd => simp [goal, Tree.Together, Tree.leafOf]
      | .node id d dim sp lt rt, hR, hnd =>
        simp only [Tree.ids, List.nodup_cons, List.mem_append, List.nodup_append] at hnd
        obtain ⟨-, n1, n2, n3⟩ := hnd
        simp only [goal]
        split
        · rename_i h
          have hl : ∀ z ∈ Q, z.1 dim ≤ sp := fun z hz => (hq.1 z hz dim).2.trans h
          rw [together_all hne hq life lt _ _ hR.2.1 (fun z hz => List.mem_filter.2 ⟨hsub z hz, by simpa using hl z hz⟩) n1]
          refine if_congr ?_ rfl rfl
          unfold Tree.Together
          refine forall₂_congr fun a ha => forall₂_congr fun b hb => ?_
          simp only [Tree.leafOf, hl a ha, hl b hb, if_true]
        · split
          · rename_i h
            have hl : ∀ z ∈ Q, ¬ z.1 dim ≤ sp := fun z hz => not_le.2 (h.trans_le (hq.1 z hz dim).1)
            rw [together_all hne hq life rt _ _ hR.2.2 (fun z hz => List.mem_filter.2 ⟨hsub z hz, by simpa using hl z hz⟩) n2]
            refine if_congr ?_ rfl rfl
            unfold Tree.Together
            refine forall₂_congr fun a ha => forall₂_congr fun b hb => ?_
            simp only [Tree.leafOf, hl a ha, hl b hb, if_false]
          · rename_i h1 h2
            rw [if_neg]
            intro h
            obtain ⟨⟨a, ha, ea⟩, ⟨b, hb, eb⟩⟩ := hq.2 dim
            have := h a ha b hb
            simp only [Tree.leafOf, ea, eb] at this
            rw [if_pos (not_lt.1 h2), if_neg h1] at this
            exact n3 _ (leafOf_mem a.1 lt) _ (leafOf_mem b.1 rt) this

/-- the tree is not empty and keeps the points together -/
def Keeps (Q : List (Point ℝ F L)) (o : Option (Tree ℝ F L)) : Prop := ∃ t, o = some t ∧ t.Together Q

open Classical in
theorem looksAll_eq {life : ℝ} {pts : List (Point ℝ F L)} {Qs : List (List (Point ℝ F L))} {qs : List (Box ℝ F)}
    (h : List.Forall₂ (fun Q q => Q ≠ [] ∧ (∀ z ∈ Q, z ∈ pts) ∧ IsHull Q q) Qs qs) : ∀ (os : List (Option (Tree ℝ F L))), qs.length = os.length →
      (∀ o ∈ os, Good (· ≤ ·) life pts o) → (allIds os).Nodup → looksAll life qs os = if List.Forall₂ Keeps Qs os then 1 else 0 := by
  induction h with
  | nil =>
    intro os hl hg hnd
    have : os = [] := List.length_eq_zero_iff.1 (by simpa using hl.symm)
    subst this
    simp [looksAll]
  | @cons Q q Qs qs h1 h2 ih =>
    intro os hl hg hnd
    cases os with
    | nil => simp at hl
    | cons o os =>
      have hgo := hg o (List.mem_cons_self ..)
      cases o with
      | none =>
        obtain ⟨z, hz⟩ := List.exists_mem_of_ne_nil Q h1.1
        have := h1.2.1 z hz
        rw [show pts = [] from hgo] at this
        simp at this
      | some t =>
        simp only [allIds, List.flatMap_cons, List.nodup_append] at hnd
        have e := ih os (by simpa using hl) (fun o ho => hg o (List.mem_cons_of_mem _ ho)) hnd.2.1
        have e1 := together_all h1.1 h1.2.2 life t pts 0 hgo.1 h1.2.1 hnd.1
        simp only [looksAll, List.zipWith_cons_cons, List.prod_cons, looks] at e ⊢
        rw [e, e1]
        have ek : Keeps Q (some t) ↔ t.Together Q := by simp [Keeps]
        simp only [List.forall₂_cons, ek]
        by_cases c1 : t.Together Q <;> by_cases c2 : List.Forall₂ Keeps Qs os <;> simp [c1, c2]

/-! ### The event can be measured -/

theorem together_meas {t : (Nat → U01) → Tree ℝ F L} (h : MTree t) (Q : List (Point ℝ F L)) : MeasurableSet {ω | (t ω).Together Q} := by
  have : {ω | (t ω).Together Q} = ⋂ a ∈ {a | a ∈ Q}, ⋂ b ∈ {b | b ∈ Q}, {ω | (t ω).leafOf a.1 = (t ω).leafOf b.1} := by
    ext ω
    simp [Tree.Together]
  rw [this]
  exact Q.finite_toSet.measurableSet_biInter fun a _ => Q.finite_toSet.measurableSet_biInter fun b _ => measurableSet_eq_fun (h.leafOf a.1) (h.leafOf b.1)

theorem keeps_meas {os : (Nat → U01) → List (Option (Tree ℝ F L))} (h : MOpts os) : ∀ Qs : List (List (Point ℝ F L)), MeasurableSet {ω | List.Forall₂ Keeps Qs (os ω)} := by
  induction h with
  | nil => intro Qs; exact MeasurableSet.const _
  | none hos ih =>
    intro Qs
    cases Qs with
    | nil => simp
    | cons Q Qs => simp [Keeps]
  | @some t os ht hos ih =>
    intro Qs
    cases Qs with
    | nil => simp
    | cons Q Qs =>
      simp only [List.forall₂_cons, Keeps, Option.some.injEq, exists_eq_left']
      exact (together_meas ht Q).inter (ih Qs)

/-- the event for an outcome of the program -/
def KeepsAll (Qs : List (List (Point ℝ F L))) : Res (List (Option (Tree ℝ F L)) × List Nat) → Prop
  | .error _ => False
  | .ok r => List.Forall₂ Keeps Qs r.1

theorem keepsAll_meas {p : Params ℝ} (hlog : p.log = Real.log) (Qs : List (List (Point ℝ F L))) (zs : List (Point ℝ F L)) (n : Nat) (A : List Nat) :
    MeasurableSet {ω | KeepsAll Qs ((runP p zs (List.replicate n none) A).eval ω 0).1} := by
  refine (runP_pieces hlog zs (mopts_new n) A 0).meas (E := fun r => KeepsAll Qs r.1) fun g hg => ?_
  cases hg with
  | error e pos => simp [KeepsAll]
  | ok ht A pos => exact keeps_meas ht Qs

/-! ### C95 -/

theorem replicate_prod {qs : List (Box ℝ F)} {life : ℝ} : looksAll (L := L) life qs (List.replicate qs.length none) = ENNReal.ofReal (Real.exp (-(life * (qs.map Box.size).sum))) := by
  induction qs with
  | nil => simp [looksAll]
  | cons q qs ih =>
    simp only [looksAll, List.length_cons, List.replicate_succ, List.zipWith_cons_cons, List.prod_cons, looks, List.map_cons, List.sum_cons] at ih ⊢
    rw [ih, ← ENNReal.ofReal_mul (Real.exp_nonneg _), ← Real.exp_add]
    congr 2
    ring

/-- The groups `Qs`, one for every tree -/
theorem keepsAll_law (p : Params ℝ) (hlife : 0 ≤ p.lifetime) (hlog : p.log = Real.log) (m : Nat) (zs : List (Point ℝ F L)) (Qs : List (List (Point ℝ F L))) (qs : List (Box ℝ F))
    (hm : zs ≠ [] → qs.length + 2 * qs.length * (zs.length - 1) ≤ m) (h : List.Forall₂ (fun Q q => Q ≠ [] ∧ (∀ z ∈ Q, z ∈ zs) ∧ IsHull Q q) Qs qs) :
    draws {ω | ∃ s pos trees, run p (nums ω) (trainAll zs) (new m qs.length) 0 = .ok (s, pos) ∧ HoldsAll s trees ∧ List.Forall₂ Keeps Qs trees} =
      ENNReal.ofReal (Real.exp (-(p.lifetime * (qs.map Box.size).sum))) := by
  classical
  set n := qs.length with hn
  have hneed : ((List.replicate n (none : Option (Tree ℝ F L))).map need).sum = n := by simp [need]
  have hgood : ∀ o ∈ List.replicate n (none : Option (Tree ℝ F L)), Good (· ≤ ·) p.lifetime [] o := by
    intro o ho
    rw [List.eq_of_mem_replicate ho]
    rfl
  have hm' : zs ≠ [] → ((List.replicate n (none : Option (Tree ℝ F L))).map need).sum + 2 * (List.replicate n (none : Option (Tree ℝ F L))).length * (zs.length - 1) ≤ (List.range m).length := by
    intro hz
    rw [hneed, List.length_replicate, List.length_range]
    exact hm hz
  have hord : ∀ q ∈ qs, q.Ordered := by
    intro q hq
    obtain ⟨k, hk, rfl⟩ := List.mem_iff_getElem.1 hq
    have := (List.forall₂_iff_get.1 h).2 k (by rw [h.length_eq]; exact hk) hk
    exact fun i => hull_proper this.1 this.2.2 i
  set P : Prog (Res (List (Option (Tree ℝ F L)) × List Nat)) := runP p zs (List.replicate n none) (List.range m) with hP
  have hrun := fun ω => runP_run hlife ω zs (List.replicate n none) (new m n) [] 0 [] (inv_new m n) hgood (by rw [avail_new]; exact hm')
  simp only [avail_new, ← hP, List.nil_append] at hrun
  -- the value of an outcome
  have hval : ∀ ω, (match (P.eval ω 0).1 with
      | .ok (os', _) => looksAll p.lifetime qs os'
      | .error _ => 0) = {ω | KeepsAll Qs (P.eval ω 0).1}.indicator 1 ω := by
    intro ω
    have := hrun ω
    revert this
    generalize hE : P.eval ω 0 = E
    obtain ⟨r, pos'⟩ := E
    cases r with
    | error e => intro _; simp [hE, KeepsAll]
    | ok r =>
      obtain ⟨os', A'⟩ := r
      rintro ⟨s', lost', -, c2, -, c4, c5⟩
      rw [List.length_replicate] at c5
      have := looksAll_eq h os' (by rw [c5]) c4 c2.all.nodup
      simp only [this, Set.indicator_apply, Set.mem_ofPred_eq, hE, KeepsAll, Pi.one_apply]
  -- the event
  have hev : {ω | ∃ s pos trees, run p (nums ω) (trainAll zs) (new m n) 0 = .ok (s, pos) ∧ HoldsAll s trees ∧ List.Forall₂ Keeps Qs trees} = {ω | KeepsAll Qs (P.eval ω 0).1} := by
    ext ω
    simp only [Set.mem_ofPred_eq]
    have := hrun ω
    revert this
    generalize P.eval ω 0 = E
    obtain ⟨r, pos'⟩ := E
    cases r with
    | error e =>
      intro h1
      simp only [KeepsAll, iff_false]
      rintro ⟨s, pos, trees, h2, -⟩
      rw [trainAll, h1] at h2
      simp at h2
    | ok r =>
      obtain ⟨os', A'⟩ := r
      rintro ⟨s', lost', c1, c2, -, -, -⟩
      constructor
      · rintro ⟨s, pos, trees, h2, h3, h4⟩
        rw [trainAll, c1] at h2
        simp only [Except.ok.injEq, Prod.mk.injEq] at h2
        obtain ⟨rfl, rfl⟩ := h2
        rw [C52_trees_unique h3 c2.all] at h4
        exact h4
      · intro h4
        exact ⟨s', pos', os', c1, c2.all, h4⟩
  have hmeas := keepsAll_meas hlog Qs zs n (List.range m)
  have hex := runP_ex hlife hlog hord zs (List.replicate n none) (List.range m) [] (by rw [List.length_replicate]) hgood hm'
  rw [← hP] at hex hmeas
  rw [← Prog.ex_eval _ P (by
    have e : (fun ω => (match (P.eval ω 0).1 with
      | .ok (os', _) => looksAll p.lifetime qs os'
      | .error _ => 0)) = {ω | KeepsAll Qs (P.eval ω 0).1}.indicator (1 : (Nat → U01) → ENNReal) := funext hval
    exact e ▸ measurable_one.indicator hmeas)] at hex
  rw [hev, ← replicate_prod (L := L), ← hex, ← lintegral_indicator_one hmeas]
  exact lintegral_congr fun ω => (hval ω).symm

/-- **C95.** A forest of `n` trees, with nodes for the points of the history, is trained with the points `zs` in this order. For every tree a group
of these points is given, `q k` is the smallest box around the group of tree `k`. With ideal random numbers, the probability that the training
ends without an error and that in every tree the points of its group are in one leaf is `exp (-lifetime * ∑ k, size (q k))`: the trees are
independent, neither the order of the points nor the points outside of the group matter. -/
theorem C95_kernel (p : Params ℝ) (hlife : 0 ≤ p.lifetime) (hlog : p.log = Real.log) (m n : Nat) (zs : List (Point ℝ F L)) (hm : n * (2 * zs.length - 1) ≤ m)
    (Q : Fin n → List (Point ℝ F L)) (hQ : ∀ k, Q k ≠ [] ∧ ∀ z ∈ Q k, z ∈ zs) (q : Fin n → Box ℝ F) (hq : ∀ k, IsHull (Q k) (q k)) :
    draws {ω | ∃ s pos trees, run p (nums ω) (trainAll zs) (new m n) 0 = .ok (s, pos) ∧ HoldsAll s trees ∧
      ∀ k : Fin n, ∃ t, trees[k]? = some (some t) ∧ t.Together (Q k)} = ENNReal.ofReal (Real.exp (-(p.lifetime * ∑ k, (q k).size))) := by
  have h := keepsAll_law p hlife hlog m zs (List.ofFn Q) (List.ofFn q) (fun hz => by
    rw [List.length_ofFn]
    have : 1 ≤ zs.length := List.length_pos_of_ne_nil hz
    obtain ⟨k, hk⟩ := Nat.exists_eq_add_of_le this
    rw [hk] at hm ⊢
    have e : n * (2 * (1 + k) - 1) = n + 2 * n * k := by
      rw [show 2 * (1 + k) - 1 = 1 + 2 * k by omega]; ring
    rw [Nat.add_sub_cancel_left]
    omega) (by
    rw [List.forall₂_iff_get]
    refine ⟨by simp, fun i h1 h2 => ?_⟩
    simp only [List.get_eq_getElem, List.getElem_ofFn]
    exact ⟨(hQ _).1, (hQ _).2, hq _⟩)
  rw [List.length_ofFn, List.map_ofFn, List.sum_ofFn] at h
  simp only [Function.comp_apply] at h
  rw [← h]
  congr 1
  ext ω
  simp only [Set.mem_ofPred_eq]
  refine exists_congr fun s => exists_congr fun pos => exists_congr fun trees => and_congr_right fun h1 => and_congr_right fun h2 => ?_
  have hlen : trees.length = n := by
    obtain ⟨trees', lost, a1, a2, a3, a4⟩ := run_good p hlife (nums ω) (nums_range ω) (· ≤ ·) (fun a b h => h.le) (draw_le (nums_range ω)) m n (trainAll zs) 0 _ h1
    rw [C52_trees_unique h2 a1.all, a3]
  rw [List.forall₂_iff_get]
  constructor
  · intro hk
    refine ⟨by simp [hlen], fun i h3 h4 => ?_⟩
    obtain ⟨t, e1, e2⟩ := hk ⟨i, by rw [← hlen]; exact h4⟩
    refine ⟨t, ?_, ?_⟩
    · rw [List.get_eq_getElem]
      have := List.getElem?_eq_getElem h4
      simp only [Fin.getElem?_fin] at e1
      rw [e1] at this
      exact (Option.some.inj this).symm
    · simpa using e2
  · rintro ⟨-, hk⟩ k
    obtain ⟨t, e1, e2⟩ := hk k.1 (by simp) (by rw [hlen]; exact k.2)
    refine ⟨t, ?_, by simpa using e2⟩
    rw [List.get_eq_getElem] at e1
    rw [Fin.getElem?_fin, List.getElem?_eq_getElem (by rw [hlen]; exact k.2), e1]

/-- a group of one point is always together -/
theorem together_single (t : Tree ℝ F L) (z : Point ℝ F L) : t.Together [z] := by
  intro a ha b hb
  rw [List.mem_singleton.1 ha, List.mem_singleton.1 hb]

theorem hull_single (z : Point ℝ F L) : IsHull [z] (Box.point z.1) := by
  simp [IsHull, Box.point]

theorem hull_pair (a b : Point ℝ F L) : IsHull [a, b] ⟨fun i => min (a.1 i) (b.1 i), fun i => max (a.1 i) (b.1 i)⟩ := by
  refine ⟨fun z hz i => ?_, fun i => ?_⟩
  · rcases List.mem_pair.1 hz with rfl | rfl
    · exact ⟨min_le_left _ _, le_max_left _ _⟩
    · exact ⟨min_le_right _ _, le_max_right _ _⟩
  · rcases le_total (a.1 i) (b.1 i) with h | h
    · exact ⟨⟨a, by simp, (min_eq_left h).symm⟩, ⟨b, by simp, (max_eq_right h).symm⟩⟩
    · exact ⟨⟨b, by simp, (min_eq_right h).symm⟩, ⟨a, by simp, (max_eq_left h).symm⟩⟩

/-- A group in one of the trees -/
theorem C95_group (p : Params ℝ) (hlife : 0 ≤ p.lifetime) (hlog : p.log = Real.log) (m n : Nat) (zs : List (Point ℝ F L)) (hm : n * (2 * zs.length - 1) ≤ m) (k : Fin n)
    (Q : List (Point ℝ F L)) (hne : Q ≠ []) (hQ : ∀ z ∈ Q, z ∈ zs) (q : Box ℝ F) (hq : IsHull Q q) :
    draws {ω | ∃ s pos trees t, run p (nums ω) (trainAll zs) (new m n) 0 = .ok (s, pos) ∧ HoldsAll s trees ∧ trees[k]? = some (some t) ∧ t.Together Q} =
      ENNReal.ofReal (Real.exp (-(p.lifetime * q.size))) := by
  obtain ⟨z, hz⟩ := List.exists_mem_of_ne_nil Q hne
  have h := C95_kernel p hlife hlog m n zs hm (fun j => if j = k then Q else [z]) (fun j => by
    by_cases hj : j = k
    · rw [if_pos hj]; exact ⟨hne, hQ⟩
    · simp [hj, hQ z hz]) (fun j => if j = k then q else Box.point z.1) (fun j => by
    by_cases hj : j = k
    · simpa [hj] using hq
    · simpa [hj] using hull_single z)
  have e : ∑ j : Fin n, (if j = k then q else Box.point z.1).size = q.size := by
    rw [Finset.sum_eq_single k]
    · simp
    · intro j _ hj
      simp [hj, Box.size, Box.point]
    · simp
  rw [e] at h
  rw [← h]
  congr 1
  ext ω
  simp only [Set.mem_ofPred_eq]
  refine exists_congr fun s => exists_congr fun pos => exists_congr fun trees => ?_
  constructor
  · rintro ⟨t, h1, h2, h3, h4⟩
    refine ⟨h1, h2, fun j => ?_⟩
    by_cases hj : j = k
    · subst hj
      exact ⟨t, h3, by simpa using h4⟩
    · obtain ⟨trees', lost, a1, a2, a3, a4⟩ := run_good p hlife (nums ω) (nums_range ω) (· ≤ ·) (fun a b h => h.le) (draw_le (nums_range ω)) m n (trainAll zs) 0 _ h1
      rw [← C52_trees_unique h2 a1.all] at a3 a4
      have hlt : j.1 < trees.length := by rw [a3]; exact j.2
      have hg := a4 trees[j.1] (List.getElem_mem hlt)
      cases ho : trees[j.1] with
      | none =>
        rw [ho] at hg
        have hp : points (trainAll zs) = [] := hg
        cases zs with
        | nil => exact absurd (hQ z hz) (by simp)
        | cons w ws => simp [points, trainAll] at hp
      | some t' =>
        refine ⟨t', ?_, by simpa [hj] using together_single t' z⟩
        rw [Fin.getElem?_fin, List.getElem?_eq_getElem hlt, ho]
  · rintro ⟨h1, h2, h3⟩
    obtain ⟨t, h4, h5⟩ := h3 k
    exact ⟨t, h1, h2, h4, by simpa using h5⟩

/-- **C95.** Two of the training points are in the same leaf of a tree with probability `exp (-lifetime * ∑ |a i - b i|)`: the kernel of the
forest is the Laplace kernel. -/
theorem C95_laplace (p : Params ℝ) (hlife : 0 ≤ p.lifetime) (hlog : p.log = Real.log) (m n : Nat) (zs : List (Point ℝ F L)) (hm : n * (2 * zs.length - 1) ≤ m) (k : Fin n)
    (a b : Point ℝ F L) (ha : a ∈ zs) (hb : b ∈ zs) :
    draws {ω | ∃ s pos trees t, run p (nums ω) (trainAll zs) (new m n) 0 = .ok (s, pos) ∧ HoldsAll s trees ∧ trees[k]? = some (some t) ∧ t.leafOf a.1 = t.leafOf b.1} =
      ENNReal.ofReal (Real.exp (-(p.lifetime * ∑ i, |a.1 i - b.1 i|))) := by
  have h := C95_group p hlife hlog m n zs hm k [a, b] (by simp) (by simp [ha, hb]) _ (hull_pair a b)
  have e : Box.size (⟨fun i => min (a.1 i) (b.1 i), fun i => max (a.1 i) (b.1 i)⟩ : Box ℝ F) = ∑ i, |a.1 i - b.1 i| := by
    refine Finset.sum_congr rfl fun i _ => ?_
    exact max_sub_min_eq_abs' _ _
  rw [e] at h
  rw [← h]
  congr 1
  ext ω
  simp only [Set.mem_ofPred_eq]
  refine exists_congr fun s => exists_congr fun pos => exists_congr fun trees => exists_congr fun t => and_congr_right fun h1 => and_congr_right fun h2 =>
    and_congr_right fun h3 => ?_
  simp only [Tree.Together, List.mem_cons, List.not_mem_nil, or_false, forall_eq_or_imp, forall_eq]
  exact ⟨fun h => ⟨⟨trivial, h⟩, ⟨h.symm, trivial⟩⟩, fun h => h.1.2⟩

/-! ### Examples -/

example : draws {ω | ∃ s pos trees t, run exR (nums ω) (trainAll [(pt2 0 0, 0), (pt2 5 5, 1), (pt2 1 3, (1 : Fin 2))]) (new 10 2) 0 = .ok (s, pos) ∧
      HoldsAll s trees ∧ trees[(1 : Fin 2)]? = some (some t) ∧ t.leafOf (pt2 0 0) = t.leafOf (pt2 1 3)} = ENNReal.ofReal (Real.exp (-8)) := by
  refine (C95_laplace exR (by norm_num [exR]) rfl 10 2 _ (by simp) 1 (pt2 0 0, 0) (pt2 1 3, 1) (by simp) (by simp)).trans ?_
  congr 2
  simp [Fin.sum_univ_two, pt2, exR]
  norm_num

example : draws {ω | ∃ s pos trees, run exR (nums ω) (trainAll [(pt2 0 0, 0), (pt2 5 5, 1), (pt2 1 3, (1 : Fin 2))]) (new 10 2) 0 = .ok (s, pos) ∧
      HoldsAll s trees ∧ ∀ k : Fin 2, ∃ t, trees[k]? = some (some t) ∧ t.Together [(pt2 0 0, 0), (pt2 1 3, 1)]} = ENNReal.ofReal (Real.exp (-16)) := by
  refine (C95_kernel exR (by norm_num [exR]) rfl 10 2 _ (by simp) _ (fun k => ⟨by simp, by simp⟩) _ (fun k => hull_pair _ _)).trans ?_
  congr 2
  simp [Fin.sum_univ_two, pt2, exR, Box.size]
  norm_num

end Orp.Mondrian
