import Verif.Mondrian.BatchProps
import Mathlib.MeasureTheory.Constructions.Pi

/-!
The Mondrian trees of some points as a probability measure, and the joint law of the trees of a forest.
-/

set_option linter.unusedSectionVars false

namespace Orp.Mondrian

open MeasureTheory Orp.Reservoir

variable {F L : Nat}

/-- The measurable sets of trees are the events of `BatchSpec`. -/
instance treeSpace : MeasurableSpace (Tree ℝ F L) where
  MeasurableSet' := IsEvent
  measurableSet_empty := fun _ _ _ _ => MeasurableSet.empty
  measurableSet_compl := fun _ h => h.compl
  measurableSet_iUnion := fun _ h => IsEvent.iUnion h

theorem VTree.measurable {X : Type} [MeasurableSpace X] {t : X → Tree ℝ F L} (h : VTree t) : Measurable t := fun _ hE => hE X t h

/-- a function of trees is measurable if it is so along all trees of fixed shape -/
theorem measurable_tree {Y : Type} [MeasurableSpace Y] {f : Tree ℝ F L → Y} (h : ∀ (X : Type) [MeasurableSpace X] (t : X → Tree ℝ F L), VTree t → Measurable fun y => f (t y)) :
    Measurable f := fun B hB X _ t ht => by
  rw [← Set.preimage_comp]
  exact h X t ht hB

theorem mondrian_iUnion (life : ℝ) (pts : List (Point ℝ F L)) (E : Nat → Set (Tree ℝ F L)) (hE : ∀ i, IsEvent (E i)) (hd : Pairwise (Function.onFun Disjoint E)) :
    mondrian life pts (⋃ i, E i) = ∑' i, mondrian life pts (E i) := by
  have hm : MeasT fun (i : Nat) t => ind (E i) t := by
    intro Y _ a t ha ht
    have hs : MeasurableSet {y | t y ∈ E (a y)} := by
      have : {y | t y ∈ E (a y)} = ⋃ i, (a ⁻¹' {i} ∩ t ⁻¹' E i) := by
        ext y
        simp
      rw [this]
      exact MeasurableSet.iUnion fun i => (ha (measurableSet_singleton i)).inter (hE i Y t ht)
    have e : (fun y => ind (E (a y)) (t y)) = {y | t y ∈ E (a y)}.indicator 1 := by
      funext y
      by_cases h : t y ∈ E (a y)
      · rw [ind, if_pos h, Set.indicator_of_mem (show y ∈ {y | t y ∈ E (a y)} from h), Pi.one_apply]
      · rw [ind, if_neg h, Set.indicator_of_notMem (show y ∉ {y | t y ∈ E (a y)} from h)]
    rw [e]
    exact measurable_one.indicator hs
  have h := batch_swap life pts.length pts 0 Measure.count hm
  simp only [lintegral_count] at h
  calc mondrian life pts (⋃ i, E i) = batch life pts.length pts 0 (ind (⋃ i, E i)) := rfl
    _ = batch life pts.length pts 0 (fun t => ∑' i, ind (E i) t) := by
        congr 1
        funext t
        by_cases h : t ∈ ⋃ i, E i
        · obtain ⟨i, hi⟩ := Set.mem_iUnion.1 h
          rw [tsum_eq_single i fun j hj => ?_]
          · rw [ind, ind, if_pos h, if_pos hi]
          · rw [ind, if_neg fun hj' => Set.disjoint_left.1 (hd hj) hj' hi]
        · rw [ind, if_neg h]
          refine (ENNReal.tsum_eq_zero.2 fun i => ?_).symm
          rw [ind, if_neg fun hi => h (Set.mem_iUnion.2 ⟨i, hi⟩)]
    _ = ∑' i, mondrian life pts (E i) := h

/-- The law of a Mondrian tree of the points -/
noncomputable def mondrianLaw (life : ℝ) (pts : List (Point ℝ F L)) : Measure (Tree ℝ F L) :=
  Measure.ofMeasurable (fun E _ => mondrian life pts E) (by
    have := batch_zero life pts.length pts 0
    unfold mondrian
    simpa using this) (fun E hE hd => mondrian_iUnion life pts E hE hd)

theorem mondrianLaw_apply (life : ℝ) (pts : List (Point ℝ F L)) {E : Set (Tree ℝ F L)} (hE : MeasurableSet E) : mondrianLaw life pts E = mondrian life pts E :=
  Measure.ofMeasurable_apply E hE

theorem mondrianLaw_prob (life : ℝ) (hlife : 0 ≤ life) (zs : List (Point ℝ F L)) (hz : zs ≠ []) : IsProbabilityMeasure (mondrianLaw life zs) :=
  ⟨by rw [mondrianLaw_apply life zs MeasurableSet.univ, C145_total life hlife zs hz]⟩

theorem mondrianLaw_perm (life : ℝ) {zs zs' : List (Point ℝ F L)} (h : zs.Perm zs') : mondrianLaw life zs = mondrianLaw life zs' :=
  Measure.ext fun E hE => by rw [mondrianLaw_apply life zs hE, mondrianLaw_apply life zs' hE, mondrian_perm life h]

/-! ### The trees as a function of the random numbers -/

/-- a tree of a list, without the places of its nodes -/
noncomputable def getTree (os : List (Option (Tree ℝ F L))) (k : Nat) : Tree ℝ F L :=
  match os[k]? with
  | some (some t) => t.anon
  | _ => .leaf 0 ⟨0, ⟨fun _ => 0, fun _ => 0⟩, fun _ => 0⟩

/-- the trees of an outcome -/
noncomputable def getTrees (n : Nat) : Res (List (Option (Tree ℝ F L)) × List Nat) → Fin n → Tree ℝ F L
  | .ok r, k => getTree r.1 k
  | .error _, _ => .leaf 0 ⟨0, ⟨fun _ => 0, fun _ => 0⟩, fun _ => 0⟩

theorem vtree_leaf {X : Type} [MeasurableSpace X] : VTree fun _ : X => (.leaf 0 ⟨0, ⟨fun _ => 0, fun _ => 0⟩, fun _ => 0⟩ : Tree ℝ F L) :=
  .leaf 0 _ measurable_const fun _ => ⟨measurable_const, measurable_const⟩

theorem getTree_meas {os : (Nat → U01) → List (Option (Tree ℝ F L))} (h : MOpts os) : ∀ k : Nat, VTree fun ω => getTree (os ω) k := by
  induction h with
  | nil => intro k; exact vtree_leaf
  | none hos ih =>
    intro k
    cases k with
    | zero => exact vtree_leaf
    | succ k => exact ih k
  | @some t os ht hos ih =>
    intro k
    cases k with
    | zero => exact ht.var
    | succ k => exact ih k

/-- the trees after the training -/
noncomputable def trained (p : Params ℝ) (m n : Nat) (zs : List (Point ℝ F L)) (ω : Nat → U01) : Fin n → Tree ℝ F L :=
  getTrees n ((runP p zs (List.replicate n none) (List.range m)).eval ω 0).1

theorem trained_meas {p : Params ℝ} (hlog : p.log = Real.log) (m n : Nat) (zs : List (Point ℝ F L)) : Measurable (trained p m n zs) := by
  refine measurable_pi_iff.2 fun k E hE => ?_
  refine (runP_pieces hlog zs (mopts_new n) (List.range m) 0).meas (E := fun r => getTrees n r.1 k ∈ E) fun g hg => ?_
  cases hg with
  | error e pos => exact MeasurableSet.const _
  | ok ht A pos => exact (getTree_meas ht k).measurable hE

theorem memory_enough {n m : Nat} {zs : List (Point ℝ F L)} (hz : zs ≠ []) (hm : n * (2 * zs.length - 1) ≤ m) : n + 2 * n * (zs.length - 1) ≤ m := by
  have : 1 ≤ zs.length := List.length_pos_of_ne_nil hz
  obtain ⟨k, hk⟩ := Nat.exists_eq_add_of_le this
  rw [hk] at hm ⊢
  have e : n * (2 * (1 + k) - 1) = n + 2 * n * k := by
    rw [show 2 * (1 + k) - 1 = 1 + 2 * k by omega]; ring
  rw [Nat.add_sub_cancel_left]
  omega

/-- If the training ends without an error, the state holds the trees. -/
theorem trained_run {p : Params ℝ} (hlife : 0 ≤ p.lifetime) {m n : Nat} {zs : List (Point ℝ F L)} (hz : zs ≠ []) (hm : n * (2 * zs.length - 1) ≤ m) {ω : Nat → U01}
    {s : Forest ℝ F L} {pos : Nat} (hr : run p (nums ω) (trainAll zs) (new m n) 0 = .ok (s, pos)) :
    ∃ trees, HoldsAll s trees ∧ trees.length = n ∧ ∀ k : Fin n, ∃ t, trees[k]? = some (some t) ∧ trained p m n zs ω k = t.anon := by
  have hneed : ((List.replicate n (none : Option (Tree ℝ F L))).map need).sum = n := by simp [need]
  have hgood : ∀ o ∈ List.replicate n (none : Option (Tree ℝ F L)), Good (· ≤ ·) p.lifetime [] o := by
    intro o ho
    rw [List.eq_of_mem_replicate ho]
    rfl
  have h := runP_run hlife ω zs (List.replicate n none) (new m n) [] 0 [] (inv_new m n) hgood (by
    intro _
    rw [avail_new, hneed, List.length_replicate, List.length_range]
    exact memory_enough hz hm)
  rw [avail_new] at h
  unfold trained
  revert h
  generalize (runP p zs (List.replicate n none) (List.range m)).eval ω 0 = E
  obtain ⟨r, pos'⟩ := E
  cases r with
  | error e =>
    intro h1
    rw [trainAll, h1] at hr
    simp at hr
  | ok r =>
    obtain ⟨os', A'⟩ := r
    rintro ⟨s', lost', c1, c2, -, c4, c5⟩
    rw [trainAll, c1] at hr
    simp only [Except.ok.injEq, Prod.mk.injEq] at hr
    obtain ⟨rfl, rfl⟩ := hr
    rw [List.length_replicate] at c5
    refine ⟨os', c2.all, c5, fun k => ?_⟩
    have hlt : k.1 < os'.length := by rw [c5]; exact k.2
    have hg := c4 os'[k.1] (List.getElem_mem hlt)
    cases ho : os'[k.1] with
    | none =>
      rw [ho] at hg
      exact absurd (show zs = [] by simpa using (show [] ++ zs = [] from hg)) hz
    | some t =>
      have e : os'[k.1]? = some (some t) := by rw [List.getElem?_eq_getElem hlt, ho]
      exact ⟨t, by rw [Fin.getElem?_fin, e], by simp only [getTrees, getTree, e]⟩

/-- The training almost surely ends without an error. -/
theorem run_ae {p : Params ℝ} (hlife : 0 ≤ p.lifetime) (hlog : p.log = Real.log) (m n : Nat) {zs : List (Point ℝ F L)} (hz : zs ≠ []) (hm : n * (2 * zs.length - 1) ≤ m) :
    ∀ᵐ ω ∂(draws : Measure (Nat → U01)), ∃ r, run p (nums ω) (trainAll zs) (new m n) 0 = .ok r := by
  have hneed : ((List.replicate n (none : Option (Tree ℝ F L))).map need).sum = n := by simp [need]
  have hgood : ∀ o ∈ List.replicate n (none : Option (Tree ℝ F L)), Good (· ≤ ·) p.lifetime [] o := by
    intro o ho
    rw [List.eq_of_mem_replicate ho]
    rfl
  have hrun := fun ω => runP_run hlife ω zs (List.replicate n none) (new m n) [] 0 [] (inv_new m n) hgood (by
    intro _
    rw [avail_new, hneed, List.length_replicate, List.length_range]
    exact memory_enough hz hm)
  simp only [avail_new] at hrun
  have hev : {ω | ∃ r, run p (nums ω) (trainAll zs) (new m n) 0 = .ok r} = {ω | ∃ r, ((runP p zs (List.replicate n none) (List.range m)).eval ω 0).1 = .ok r} := by
    ext ω
    simp only [Set.mem_ofPred_eq]
    have := hrun ω
    revert this
    generalize (runP p zs (List.replicate n none) (List.range m)).eval ω 0 = E
    obtain ⟨r, pos'⟩ := E
    cases r with
    | error e =>
      intro h1
      rw [trainAll, h1]
      simp
    | ok r =>
      obtain ⟨os', A'⟩ := r
      rintro ⟨s', lost', c1, -⟩
      rw [trainAll, c1]
      simp
  have hmeas : MeasurableSet {ω | ∃ r, run p (nums ω) (trainAll zs) (new m n) 0 = .ok r} := by
    rw [hev]
    refine (runP_pieces hlog zs (mopts_new n) (List.range m) 0).meas (E := fun r => ∃ q, r.1 = .ok q) fun g hg => ?_
    cases hg with
    | error e pos => exact MeasurableSet.const _
    | ok ht A pos => simp
  have h1 := C145_law p hlife hlog m n zs hz hm (fun _ => Set.univ) fun _ => IsEvent.univ
  simp only [C145_total p.lifetime hlife zs hz, Finset.prod_const_one] at h1
  refine (mem_ae_iff_prob_eq_one hmeas).2 (le_antisymm prob_le_one ?_)
  rw [← h1]
  exact measure_mono fun ω ⟨s, pos, _, h, _⟩ => ⟨_, h⟩

/-- The joint law of the trees is the product of the laws of Mondrian trees of the points. -/
theorem trained_law {p : Params ℝ} (hlife : 0 ≤ p.lifetime) (hlog : p.log = Real.log) (m n : Nat) {zs : List (Point ℝ F L)} (hz : zs ≠ []) (hm : n * (2 * zs.length - 1) ≤ m) :
    (draws : Measure (Nat → U01)).map (trained p m n zs) = Measure.pi fun _ => mondrianLaw p.lifetime zs := by
  have := mondrianLaw_prob p.lifetime hlife zs hz
  refine (Measure.pi_eq fun E hE => ?_).symm
  rw [Measure.map_apply (trained_meas hlog m n zs) (MeasurableSet.univ_pi hE)]
  simp only [fun k => mondrianLaw_apply p.lifetime zs (hE k)]
  rw [← C145_law p hlife hlog m n zs hz hm E hE]
  refine measure_congr (Filter.eventuallyEq_set.2 ((run_ae hlife hlog m n hz hm).mono fun ω hω => ?_))
  obtain ⟨⟨s, pos⟩, hr⟩ := hω
  obtain ⟨trees, h1, h2, h3⟩ := trained_run hlife hz hm hr
  simp only [Set.mem_preimage, Set.mem_pi, Set.mem_univ, forall_true_left, Set.mem_ofPred_eq, hr, Except.ok.injEq, Prod.mk.injEq]
  constructor
  · intro h
    refine ⟨s, pos, trees, ⟨rfl, rfl⟩, h1, fun k => ?_⟩
    obtain ⟨t, e1, e2⟩ := h3 k
    exact ⟨t, e1, by rw [← e2]; exact h k⟩
  · rintro ⟨_, _, ts, ⟨rfl, rfl⟩, h5, h6⟩ k
    rw [C52_trees_unique h5 h1] at h6
    obtain ⟨t, e1, e2⟩ := h3 k
    obtain ⟨u, f1, f2⟩ := h6 k
    rw [e1] at f1
    obtain rfl : t = u := by simpa using f1
    rw [e2]
    exact f2

/-- **C146.** The joint law of the trees: with ideal random numbers, for every measurable set of `n`-tuples of trees, the probability that the training ends and
that the trees, apart from the places of their nodes, are in the set is that of `n` independent Mondrian trees sampled from scratch for the points. -/
theorem C146_joint (p : Params ℝ) (hlife : 0 ≤ p.lifetime) (hlog : p.log = Real.log) (m n : Nat) (zs : List (Point ℝ F L)) (hz : zs ≠ []) (hm : n * (2 * zs.length - 1) ≤ m)
    (A : Set (Fin n → Tree ℝ F L)) (hA : MeasurableSet A) :
    draws {ω | ∃ s pos trees, run p (nums ω) (trainAll zs) (new m n) 0 = .ok (s, pos) ∧ HoldsAll s trees ∧
      ∃ T : Fin n → Tree ℝ F L, (∀ k : Fin n, trees[k]? = some (some (T k))) ∧ (fun k => (T k).anon) ∈ A} = Measure.pi (fun _ => mondrianLaw p.lifetime zs) A := by
  rw [← trained_law hlife hlog m n hz hm, Measure.map_apply (trained_meas hlog m n zs) hA]
  refine measure_congr (Filter.eventuallyEq_set.2 ((run_ae hlife hlog m n hz hm).mono fun ω hω => ?_))
  obtain ⟨⟨s, pos⟩, hr⟩ := hω
  obtain ⟨trees, h1, h2, h3⟩ := trained_run hlife hz hm hr
  have key : ∀ T : Fin n → Tree ℝ F L, (∀ k : Fin n, trees[k]? = some (some (T k))) → trained p m n zs ω = fun k => (T k).anon := by
    intro T hT
    funext k
    obtain ⟨t, e1, e2⟩ := h3 k
    rw [hT k] at e1
    obtain rfl : T k = t := by simpa using e1
    exact e2
  simp only [Set.mem_preimage, Set.mem_ofPred_eq, hr, Except.ok.injEq, Prod.mk.injEq]
  constructor
  · rintro ⟨_, _, ts, ⟨rfl, rfl⟩, h5, T, h6, h7⟩
    rw [C52_trees_unique h5 h1] at h6
    rw [key T h6]
    exact h7
  · intro h
    choose T hT hT' using h3
    refine ⟨s, pos, trees, ⟨rfl, rfl⟩, h1, T, hT, ?_⟩
    rw [← key T hT]
    exact h

end Orp.Mondrian
