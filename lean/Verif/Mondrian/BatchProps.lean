import Verif.Mondrian.BatchRun
import Verif.Mondrian.KernelMore

/-!
Property C145: with ideal random numbers, the trees of a forest that is trained point by point are independent and each has the law of a Mondrian tree
that is sampled from scratch for all the training points. So the law of the forest does not depend on the order of the training points.
-/

set_option linter.unusedSectionVars false

namespace Orp.Mondrian

open MeasureTheory Orp.Reservoir

variable {F L : Nat}

/-! ### The order of the points -/

theorem hull_unique {pts : List (Point ℝ F L)} {b b' : Box ℝ F} (h : IsHull pts b) (h' : IsHull pts b') : b = b' := by
  obtain ⟨lo, up⟩ := b
  obtain ⟨lo', up'⟩ := b'
  have e1 : lo = lo' := funext fun i => by
    obtain ⟨z, hz, e⟩ := (h.2 i).1
    obtain ⟨z', hz', e'⟩ := (h'.2 i).1
    have h1 := (h.1 z' hz' i).1
    have h2 := (h'.1 z hz i).1
    simp only at e e' h1 h2
    linarith
  have e2 : up = up' := funext fun i => by
    obtain ⟨z, hz, e⟩ := (h.2 i).2
    obtain ⟨z', hz', e'⟩ := (h'.2 i).2
    have h1 := (h.1 z' hz' i).2
    have h2 := (h'.1 z hz i).2
    simp only at e e' h1 h2
    linarith
  rw [e1, e2]

theorem IsHull.perm {pts pts' : List (Point ℝ F L)} (h : pts.Perm pts') {b : Box ℝ F} (hb : IsHull pts b) : IsHull pts' b :=
  ⟨fun z hz => hb.1 z (h.mem_iff.2 hz), fun i => ⟨(hb.2 i).1.imp fun z hz => ⟨h.mem_iff.1 hz.1, hz.2⟩, (hb.2 i).2.imp fun z hz => ⟨h.mem_iff.1 hz.1, hz.2⟩⟩⟩

theorem hull_perm {pts pts' : List (Point ℝ F L)} (h : pts.Perm pts') : hull pts = hull pts' := by
  by_cases hne : pts = []
  · subst hne
    rw [h.nil_eq]
  · exact hull_unique ((hull_isHull hne).perm h) (hull_isHull fun h0 => hne (h0 ▸ h).eq_nil)

theorem batch_perm (life : ℝ) : ∀ (n : Nat) {pts pts' : List (Point ℝ F L)} (_ : pts.Perm pts') (r : ℝ) (f : Tree ℝ F L → ENNReal), batch life n pts r f = batch life n pts' r f
  | 0, _, _, _, _, _ => rfl
  | n + 1, pts, pts', h, r, f => by
      have eh : histogram pts = histogram pts' := funext fun l => h.countP_eq _
      simp only [batch]
      rw [hull_perm h, eh]
      congr 1
      refine lintegral_congr fun s => Finset.sum_congr rfl fun d _ => lintegral_congr fun x => ?_
      have hl : (lefts pts d x).Perm (lefts pts' d x) := h.filter _
      have hr : (rights pts d x).Perm (rights pts' d x) := h.filter _
      rw [batch_perm life n hl s]
      congr 2
      funext l
      exact batch_perm life n hr s _

theorem mondrian_perm (life : ℝ) {pts pts' : List (Point ℝ F L)} (h : pts.Perm pts') (E : Set (Tree ℝ F L)) : mondrian life pts E = mondrian life pts' E := by
  unfold mondrian
  rw [h.length_eq, batch_perm life _ h]

/-! ### The law of a forest -/

/-- **C145.** A forest of `n` trees, with nodes for the points of the history, is trained with the points `zs` in this order. With ideal random numbers, the
probability that the training ends without an error and that every tree is in a given set, apart from the places of its nodes, is the product of the
probabilities of these sets for Mondrian trees that are sampled from scratch for all the points. -/
theorem C145_law (p : Params ℝ) (hlife : 0 ≤ p.lifetime) (hlog : p.log = Real.log) (m n : Nat) (zs : List (Point ℝ F L)) (hz : zs ≠ []) (hm : n * (2 * zs.length - 1) ≤ m)
    (E : Fin n → Set (Tree ℝ F L)) (hE : ∀ k, IsEvent (E k)) :
    draws {ω | ∃ s pos trees, run p (nums ω) (trainAll zs) (new m n) 0 = .ok (s, pos) ∧ HoldsAll s trees ∧
      ∀ k : Fin n, ∃ t, trees[k]? = some (some t) ∧ t.anon ∈ E k} = ∏ k, mondrian p.lifetime zs (E k) := by
  have h := allIn_law p hlife hlog m hz (Es := List.ofFn E) (fun E' hE' => by
    obtain ⟨k, rfl⟩ := (List.mem_ofFn' _ _).1 hE'
    exact hE k) (by
    rw [List.length_ofFn]
    have : 1 ≤ zs.length := List.length_pos_of_ne_nil hz
    obtain ⟨k, hk⟩ := Nat.exists_eq_add_of_le this
    rw [hk] at hm ⊢
    have e : n * (2 * (1 + k) - 1) = n + 2 * n * k := by
      rw [show 2 * (1 + k) - 1 = 1 + 2 * k by omega]; ring
    rw [Nat.add_sub_cancel_left]
    omega)
  rw [List.length_ofFn, List.map_ofFn, List.prod_ofFn] at h
  simp only [Function.comp_apply] at h
  rw [← h]
  congr 1
  ext ω
  simp only [Set.mem_ofPred_eq]
  refine exists_congr fun s => exists_congr fun pos => exists_congr fun trees => and_congr_right fun h1 => and_congr_right fun h2 => ?_
  have hlen : trees.length = n := by
    obtain ⟨trees', lost, a1, a2, a3, a4⟩ := run_good p hlife (nums ω) (nums_range ω) (· ≤ ·) (fun a b h => h.le) (draw_le (nums_range ω)) m n (trainAll zs) 0 _ h1
    rw [C52_trees_unique h2 a1.all, a3]
  rw [List.forall₂_iff_get]
  constructor
  · intro hk
    refine ⟨by simp [hlen], fun i h3 h4 => ?_⟩
    obtain ⟨t, e1, e2⟩ := hk ⟨i, by rw [← hlen]; exact h4⟩
    refine ⟨t, ?_, ?_⟩
    · rw [List.get_eq_getElem]
      have := List.getElem?_eq_getElem h4
      simp only [Fin.getElem?_fin] at e1
      rw [e1] at this
      exact (Option.some.inj this).symm
    · simpa using e2
  · rintro ⟨-, hk⟩ k
    obtain ⟨t, e1, e2⟩ := hk k.1 (by simp) (by rw [hlen]; exact k.2)
    refine ⟨t, ?_, by simpa using e2⟩
    rw [List.get_eq_getElem] at e1
    rw [Fin.getElem?_fin, List.getElem?_eq_getElem (by rw [hlen]; exact k.2), e1]

/-- **C145.** The law of the trained forest does not depend on the order of the training points. -/
theorem C145_order (p : Params ℝ) (hlife : 0 ≤ p.lifetime) (hlog : p.log = Real.log) (m n : Nat) (zs zs' : List (Point ℝ F L)) (hp : zs.Perm zs') (hz : zs ≠ [])
    (hm : n * (2 * zs.length - 1) ≤ m) (E : Fin n → Set (Tree ℝ F L)) (hE : ∀ k, IsEvent (E k)) :
    draws {ω | ∃ s pos trees, run p (nums ω) (trainAll zs) (new m n) 0 = .ok (s, pos) ∧ HoldsAll s trees ∧ ∀ k : Fin n, ∃ t, trees[k]? = some (some t) ∧ t.anon ∈ E k} =
    draws {ω | ∃ s pos trees, run p (nums ω) (trainAll zs') (new m n) 0 = .ok (s, pos) ∧ HoldsAll s trees ∧ ∀ k : Fin n, ∃ t, trees[k]? = some (some t) ∧ t.anon ∈ E k} := by
  rw [C145_law p hlife hlog m n zs hz hm E hE, C145_law p hlife hlog m n zs' (fun h => hz (h ▸ hp).eq_nil) (by rw [← hp.length_eq]; exact hm) E hE]
  exact Finset.prod_congr rfl fun k _ => mondrian_perm p.lifetime hp (E k)

/-! ### Histories with predictions, and `MondrianForestUnbound` -/

theorem VTree.anon {X : Type} [MeasurableSpace X] {t : X → Tree ℝ F L} (h : VTree t) : VTree fun y => (t y).anon := by
  induction h with
  | leaf id counts ht hb => exact .leaf 0 counts ht hb
  | node id counts dim ht hb hs hl hr ihl ihr => exact .node 0 counts dim ht hb hs ihl ihr

/-- the counters of the root of a tree of fixed shape do not depend on the parameter -/
theorem VTree.counts {X : Type} [MeasurableSpace X] {t : X → Tree ℝ F L} (h : VTree t) : ∃ c, ∀ y, (t y).data.counts = c := by
  cases h with
  | leaf id counts ht hb => exact ⟨counts, fun _ => rfl⟩
  | node id counts dim ht hb hs hl hr => exact ⟨counts, fun _ => rfl⟩

theorem VTree.content {X : Type} [MeasurableSpace X] {t : X → Tree ℝ F L} (h : VTree t) : VTree fun y => (t y).content := by
  induction h with
  | leaf id counts ht hb => exact .leaf 0 counts ht hb
  | @node id counts dim tau sp box l r ht hb hs hl hr ihl ihr =>
    obtain ⟨cl, hcl⟩ := ihl.counts
    obtain ⟨cr, hcr⟩ := ihr.counts
    simp only [content_node, hcl, hcr]
    exact .node 0 _ dim ht hb hs ihl ihr

theorem IsEvent.content {E : Set (Tree ℝ F L)} (h : IsEvent E) : IsEvent {t | t.content ∈ E} := fun X _ _ ht => h X _ ht.content

theorem content_anon : ∀ t : Tree ℝ F L, t.anon.content = t.content
  | .leaf _ _ => rfl
  | .node _ _ _ _ l r => by rw [Tree.anon, content_node, content_node, content_anon l, content_anon r]

theorem same_in {trees trees' : List (Option (Tree ℝ F L))} (h : SameTrees trees trees') {n : Nat} (E : Fin n → Set (Tree ℝ F L))
    (hk : ∀ k : Fin n, ∃ t, trees[k]? = some (some t) ∧ t.content ∈ E k) (k : Fin n) : ∃ t, trees'[k]? = some (some t) ∧ t.content ∈ E k := by
  obtain ⟨t, e1, e2⟩ := hk k
  have e3 : (trees.map (fun t => t.map Tree.content))[k]? = (trees'.map (fun t => t.map Tree.content))[k]? := by rw [show trees.map _ = trees'.map _ from h]
  simp only [Fin.getElem?_fin, List.getElem?_map] at e1 e3 ⊢
  rw [e1] at e3
  cases ho : trees'[k.1]? with
  | none => rw [ho] at e3; simp at e3
  | some o =>
    cases o with
    | none => rw [ho] at e3; simp at e3
    | some u =>
      rw [ho] at e3
      simp only [Option.map_some, Option.some.injEq] at e3
      exact ⟨u, rfl, by rwa [← e3]⟩

/-- **C145** for histories of calls of `train` and `predict`, for an exponential function and a discount factor for which `predict` is defined; the counters
of the split nodes, that `predict` computes from those of the leaves, are replaced by the values computed from the leaves. -/
theorem C145_history (p : Params ℝ) (hlife : 0 ≤ p.lifetime) (hlog : p.log = Real.log) (h0 : p.exp 0 = 1) (hdisc : 0 ≤ p.discount) (m n : Nat) (hn : 0 < n)
    (ops : List (Op ℝ F L)) (hz : points ops ≠ []) (hm : n * (2 * (points ops).length - 1) ≤ m) (E : Fin n → Set (Tree ℝ F L)) (hE : ∀ k, IsEvent (E k)) :
    draws {ω | ∃ s pos trees, run p (nums ω) ops (new m n) 0 = .ok (s, pos) ∧ HoldsAll s trees ∧
      ∀ k : Fin n, ∃ t, trees[k]? = some (some t) ∧ t.content ∈ E k} = ∏ k, mondrian p.lifetime (points ops) {t | t.content ∈ E k} := by
  rw [← C145_law p hlife hlog m n (points ops) hz hm _ fun k => (hE k).content]
  simp only [Set.mem_ofPred_eq, content_anon]
  refine measure_congr (Filter.eventuallyEq_set.2 (draws_pos.mono fun ω hω => ?_))
  have hω' : ∀ i, 0 < nums ω i ∧ nums ω i < 1 := fun i => ⟨hω i, (nums_range ω i).2⟩
  obtain ⟨⟨s, pos⟩, hr⟩ := run_ok p hlife h0 hdisc (nums ω) hω' m n hn (enough hn hm (Q := fun _ => points ops) fun _ => ⟨hz, fun z hz => hz⟩) ops 0
  obtain ⟨s', h1, ⟨trees, trees', h2, h3, h4⟩, -⟩ := C71_predict_is_pure p hlife (nums ω) (nums_range ω) m n ops 0 s pos hr
  rw [trainings_all] at h1
  simp only [Set.mem_ofPred_eq, hr, h1, Except.ok.injEq, Prod.mk.injEq]
  constructor
  · rintro ⟨_, _, ts, ⟨rfl, rfl⟩, h5, h6⟩
    rw [C52_trees_unique h5 h2] at h6
    exact ⟨s', pos, trees', ⟨rfl, rfl⟩, h3, same_in h4 E h6⟩
  · rintro ⟨_, _, ts, ⟨rfl, rfl⟩, h5, h6⟩
    rw [C52_trees_unique h5 h3] at h6
    exact ⟨s, pos, trees, ⟨rfl, rfl⟩, h2, same_in (Eq.symm h4) E h6⟩

/-- **C145** for `MondrianForestUnbound`, without a condition on the memory -/
theorem C145_unbound (p : Params ℝ) (hlife : 0 ≤ p.lifetime) (hlog : p.log = Real.log) (h0 : p.exp 0 = 1) (hdisc : 0 ≤ p.discount) (n : Nat) (hn : 0 < n)
    (ops : List (Op ℝ F L)) (hz : points ops ≠ []) (E : Fin n → Set (Tree ℝ F L)) (hE : ∀ k, IsEvent (E k)) :
    draws {ω | ∃ s pos trees, Unbound.run p (nums ω) ops (Unbound.new n) 0 = .ok (s, pos) ∧ HoldsAll ⟨s.heap, s.roots⟩ trees ∧
      ∀ k : Fin n, ∃ t, trees[k]? = some (some t) ∧ t.content ∈ E k} = ∏ k, mondrian p.lifetime (points ops) {t | t.content ∈ E k} := by
  rw [← C145_history p hlife hlog h0 hdisc _ n hn ops hz le_rfl E hE]
  refine measure_congr (Filter.eventuallyEq_set.2 (draws_pos.mono fun ω hω => ?_))
  have hω' : ∀ i, 0 < nums ω i ∧ nums ω i < 1 := fun i => ⟨hω i, (nums_range ω i).2⟩
  obtain ⟨⟨s, pos⟩, hr⟩ := Unbound.run_ok p h0 hdisc (nums ω) hω' n hn ops 0
  obtain ⟨trees₀, a1, a2, -, -, a5⟩ := Unbound.run_good p (nums ω) (nums_range ω) (· ≤ ·) (fun a b h => h.le) (Unbound.draw_le' (nums_range ω)) n ops 0 _ hr
  have hlen : s.heap.length ≤ n * (2 * (points ops).length - 1) := by
    have := allIds_le a5
    rwa [a1.length, a2] at this
  obtain ⟨s', h1, ⟨trees, trees', h2, h3, h4⟩, -⟩ := Unbound.C59_bounded_follows p hlife (nums ω) (nums_range ω) _ n ops 0 s pos hr hlen
  simp only [Set.mem_ofPred_eq, hr, h1, Except.ok.injEq, Prod.mk.injEq]
  constructor
  · rintro ⟨_, _, ts, ⟨rfl, rfl⟩, h5, h6⟩
    rw [C52_trees_unique h5 h2] at h6
    exact ⟨s', pos, trees', ⟨rfl, rfl⟩, h3, same_in h4 E h6⟩
  · rintro ⟨_, _, ts, ⟨rfl, rfl⟩, h5, h6⟩
    rw [C52_trees_unique h5 h3] at h6
    exact ⟨s, pos, trees, ⟨rfl, rfl⟩, h2, same_in (Eq.symm h4) E h6⟩

/-- The law of the forest after two histories with the same training points in any order is the same. -/
theorem C145_order_unbound (p : Params ℝ) (hlife : 0 ≤ p.lifetime) (hlog : p.log = Real.log) (h0 : p.exp 0 = 1) (hdisc : 0 ≤ p.discount) (n : Nat) (hn : 0 < n)
    (ops ops' : List (Op ℝ F L)) (hp : (points ops).Perm (points ops')) (hz : points ops ≠ []) (E : Fin n → Set (Tree ℝ F L)) (hE : ∀ k, IsEvent (E k)) :
    draws {ω | ∃ s pos trees, Unbound.run p (nums ω) ops (Unbound.new n) 0 = .ok (s, pos) ∧ HoldsAll ⟨s.heap, s.roots⟩ trees ∧
      ∀ k : Fin n, ∃ t, trees[k]? = some (some t) ∧ t.content ∈ E k} =
    draws {ω | ∃ s pos trees, Unbound.run p (nums ω) ops' (Unbound.new n) 0 = .ok (s, pos) ∧ HoldsAll ⟨s.heap, s.roots⟩ trees ∧
      ∀ k : Fin n, ∃ t, trees[k]? = some (some t) ∧ t.content ∈ E k} := by
  rw [C145_unbound p hlife hlog h0 hdisc n hn ops hz E hE, C145_unbound p hlife hlog h0 hdisc n hn ops' (fun h => hz (h ▸ hp).eq_nil) E hE]
  exact Finset.prod_congr rfl fun k _ => mondrian_perm p.lifetime hp _

/-! ### The events and the probability of a Mondrian tree -/

theorem IsEvent.univ : IsEvent (Set.univ : Set (Tree ℝ F L)) := fun _ _ _ _ => MeasurableSet.univ

theorem IsEvent.compl {E : Set (Tree ℝ F L)} (h : IsEvent E) : IsEvent Eᶜ := fun X _ t ht => (h X t ht).compl

theorem IsEvent.iUnion {E : Nat → Set (Tree ℝ F L)} (h : ∀ i, IsEvent (E i)) : IsEvent (⋃ i, E i) := fun X _ t ht => by
  rw [Set.preimage_iUnion]
  exact MeasurableSet.iUnion fun i => h i X t ht

/-- every set of trees that is given by the shape only is an event -/
theorem VTree.nodes {X : Type} [MeasurableSpace X] {t : X → Tree ℝ F L} (h : VTree t) : ∃ k, ∀ y, (t y).ids.length = k := by
  induction h with
  | leaf id counts ht hb => exact ⟨1, fun _ => rfl⟩
  | node id counts dim ht hb hs hl hr ihl ihr =>
    obtain ⟨a, ha⟩ := ihl
    obtain ⟨b, hb⟩ := ihr
    exact ⟨a + b + 1, fun y => by simp [Tree.ids, ha, hb]⟩

theorem isEvent_nodes (k : Nat) : IsEvent {t : Tree ℝ F L | t.ids.length = k} := fun X _ t ht => by
  obtain ⟨c, hc⟩ := ht.nodes
  have : t ⁻¹' {t | t.ids.length = k} = {_y | c = k} := by
    ext y
    simp [hc]
  rw [this]
  exact MeasurableSet.const _

/-- the first split is not before the time `T` -/
theorem isEvent_first (T : ℝ) : IsEvent {t : Tree ℝ F L | T ≤ t.data.tau} := fun X _ t ht => by
  cases ht with
  | leaf id counts ht hb => exact measurableSet_le measurable_const ht
  | node id counts dim ht hb hs hl hr => exact measurableSet_le measurable_const ht

/-- **C145.** The Mondrian trees of some points have total probability 1. -/
theorem C145_total (life : ℝ) (hlife : 0 ≤ life) (zs : List (Point ℝ F L)) (hz : zs ≠ []) : mondrian life zs Set.univ = 1 := by
  let p : Params ℝ := { lifetime := life, base := 0, discount := 1, exp := Real.exp, log := Real.log }
  have h := C145_law p hlife rfl (1 * (2 * zs.length - 1)) 1 zs hz le_rfl (fun _ => Set.univ) fun _ => IsEvent.univ
  rw [Fin.prod_univ_one] at h
  have h1 : draws {ω | ∃ s pos trees, run p (nums ω) (trainAll zs) (new (1 * (2 * zs.length - 1)) 1) 0 = .ok (s, pos) ∧ HoldsAll s trees ∧
      ∀ k : Fin 1, ∃ t, trees[k]? = some (some t) ∧ t.anon ∈ (Set.univ : Set (Tree ℝ F L))} = 1 := by
    rw [← measure_univ (μ := (draws : Measure (Nat → U01)))]
    refine measure_congr (Filter.eventuallyEq_set.2 (draws_pos.mono fun ω hω => ?_))
    have hω' : ∀ i, 0 < nums ω i ∧ nums ω i < 1 := fun i => ⟨hω i, (nums_range ω i).2⟩
    have hlen : 1 ≤ zs.length := List.length_pos_of_ne_nil hz
    obtain ⟨⟨s, pos⟩, hr⟩ := run_ok p hlife Real.exp_zero (by norm_num [p]) (nums ω) hω' (1 * (2 * zs.length - 1)) 1 one_pos (by omega) (trainAll zs) 0
    obtain ⟨trees, lost, a1, a2, a3, a4⟩ := run_good p hlife (nums ω) (nums_range ω) (· ≤ ·) (fun a b h => h.le) (draw_le (nums_range ω)) _ 1 (trainAll zs) 0 _ hr
    simp only [Set.mem_univ, and_true, iff_true, Set.mem_ofPred_eq]
    refine ⟨s, pos, trees, hr, a1.all, fun k => ?_⟩
    have hlt : k.1 < trees.length := by rw [a3]; exact k.2
    have hg := a4 trees[k.1] (List.getElem_mem hlt)
    cases ho : trees[k.1] with
    | none =>
      rw [ho] at hg
      have hp : points (trainAll zs) = [] := hg
      cases zs with
      | nil => exact absurd rfl hz
      | cons w ws => simp [points, trainAll] at hp
    | some t => exact ⟨t, by rw [Fin.getElem?_fin, List.getElem?_eq_getElem hlt, ho]⟩
  rw [← h, h1]

/-! ### Examples -/

/-- the tree of two points is a single leaf -/
example : mondrian 2 [(pt2 0 0, 0), (pt2 1 3, (1 : Fin 2))] {t | t.ids.length = 1} = ENNReal.ofReal (Real.exp (-8)) := by
  have h : ∀ (s : ℝ) (d : Fin 2) (x : ℝ) (b : Box ℝ 2) (l r : Tree ℝ 2 2), ¬ (Tree.node 0 ⟨s, b, fun _ => 0⟩ d x l r).ids.length = 1 := by
    intro s d x b l r
    cases l <;> simp [Tree.ids]
  simp only [mondrian, List.length_cons, List.length_nil, Set.mem_ofPred_eq]
  rw [batch]
  simp only [h, if_false, batch_zero]
  simp [Tree.ids, hull, Box.extend, Box.size, Fin.sum_univ_two, pt2, Utils.min, Utils.max]
  norm_num

/-- three points in two orders: the probability that the tree has 5 nodes is the same -/
example : draws {ω | ∃ s pos trees, run exR (nums ω) (trainAll [(pt2 0 0, 0), (pt2 5 5, 1), (pt2 1 3, (1 : Fin 2))]) (new 10 2) 0 = .ok (s, pos) ∧
      HoldsAll s trees ∧ ∀ k : Fin 2, ∃ t, trees[k]? = some (some t) ∧ t.anon ∈ {t | t.ids.length = 5}} =
    draws {ω | ∃ s pos trees, run exR (nums ω) (trainAll [(pt2 1 3, 1), (pt2 0 0, 0), (pt2 5 5, (1 : Fin 2))]) (new 10 2) 0 = .ok (s, pos) ∧
      HoldsAll s trees ∧ ∀ k : Fin 2, ∃ t, trees[k]? = some (some t) ∧ t.anon ∈ {t | t.ids.length = 5}} :=
  C145_order exR (by norm_num [exR]) rfl 10 2 _ _ ((List.perm_append_comm (l₁ := [_, _]) (l₂ := [_]))) (by simp) (by simp) _ fun _ => isEvent_nodes 5

end Orp.Mondrian
