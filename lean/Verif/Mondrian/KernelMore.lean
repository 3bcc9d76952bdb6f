import Verif.Mondrian.KernelProps
import Verif.Mondrian.Twin
import Verif.Unbound.Props

/-!
Property C95 for histories with calls of `predict` and for `MondrianForestUnbound`.
-/

set_option linter.unusedSectionVars false

namespace Orp.Mondrian

open MeasureTheory Orp.Reservoir

variable {F L : Nat}

/-! ### Trees that differ in the places of their nodes -/

/-- the directions that a point takes in a tree -/
noncomputable def Tree.way (x : Fin F → ℝ) : Tree ℝ F L → List Bool
  | .leaf _ _ => []
  | .node _ _ dim sp l r => if x dim ≤ sp then true :: l.way x else false :: r.way x

theorem leafOf_way {t : Tree ℝ F L} (hnd : t.ids.Nodup) (x y : Fin F → ℝ) : t.leafOf x = t.leafOf y ↔ t.way x = t.way y := by
  induction t with
  | leaf id d => simp [Tree.leafOf, Tree.way]
  | node id d dim sp l r ihl ihr =>
    simp only [Tree.ids, List.nodup_cons, List.mem_append, List.nodup_append] at hnd
    obtain ⟨-, n1, n2, n3⟩ := hnd
    simp only [Tree.leafOf, Tree.way]
    by_cases hx : x dim ≤ sp <;> by_cases hy : y dim ≤ sp <;> simp only [hx, hy, if_true, if_false]
    · rw [ihl n1]; simp
    · simp only [List.cons.injEq, Bool.true_eq_false, false_and, iff_false]
      exact n3 _ (leafOf_mem x l) _ (leafOf_mem y r)
    · simp only [List.cons.injEq, Bool.false_eq_true, false_and, iff_false]
      exact fun h => n3 _ (leafOf_mem y l) _ (leafOf_mem x r) h.symm
    · rw [ihr n2]; simp

theorem way_content (x : Fin F → ℝ) : ∀ t : Tree ℝ F L, t.content.way x = t.way x
  | .leaf _ _ => rfl
  | .node _ _ dim sp l r => by rw [content_node, Tree.way, Tree.way, way_content x l, way_content x r]

theorem together_content {t u : Tree ℝ F L} (h : t.content = u.content) (ht : t.ids.Nodup) (hu : u.ids.Nodup) (Q : List (Point ℝ F L)) : t.Together Q ↔ u.Together Q := by
  unfold Tree.Together
  refine forall₂_congr fun a _ => forall₂_congr fun b _ => ?_
  rw [leafOf_way ht, leafOf_way hu, ← way_content _ t, ← way_content _ t, h, way_content, way_content]

theorem same_keeps {trees trees' : List (Option (Tree ℝ F L))} (h : SameTrees trees trees') (h1 : (allIds trees).Nodup) (h2 : (allIds trees').Nodup) {n : Nat}
    (Q : Fin n → List (Point ℝ F L)) (hk : ∀ k : Fin n, ∃ t, trees[k]? = some (some t) ∧ t.Together (Q k)) (k : Fin n) : ∃ t, trees'[k]? = some (some t) ∧ t.Together (Q k) := by
  obtain ⟨t, e1, e2⟩ := hk k
  have e3 : (trees.map (fun t => t.map Tree.content))[k]? = (trees'.map (fun t => t.map Tree.content))[k]? := by rw [show trees.map _ = trees'.map _ from h]
  simp only [Fin.getElem?_fin, List.getElem?_map] at e1 e3 ⊢
  rw [e1] at e3
  cases ho : trees'[k.1]? with
  | none => rw [ho] at e3; simp at e3
  | some o =>
    cases o with
    | none => rw [ho] at e3; simp at e3
    | some u =>
      rw [ho] at e3
      simp only [Option.map_some, Option.some.injEq] at e3
      refine ⟨u, rfl, (together_content e3 ?_ ?_ _).1 e2⟩
      · exact (List.nodup_flatMap.1 h1).1 _ (List.mem_of_getElem? e1)
      · exact (List.nodup_flatMap.1 h2).1 _ (List.mem_of_getElem? ho)

/-! ### The number of nodes -/

theorem Right.ids_le {pts : List (Point ℝ F L)} {t : Tree ℝ F L} (h : Right pts t) : t.ids.length + 1 ≤ 2 * pts.length := by
  induction t generalizing pts with
  | leaf id d =>
    have := List.length_pos_of_ne_nil h.1
    simp only [Tree.ids, List.length_singleton]
    omega
  | node id d dim sp l r ihl ihr =>
    have h1 := ihl h.2.1
    have h2 := ihr h.2.2
    have := List.length_eq_length_filter_add (l := pts) (fun z => decide (z.1 dim ≤ sp))
    simp only [Tree.ids, List.length_cons, List.length_append]
    simp only [decide_not] at h2
    omega

theorem allIds_le {life : ℝ} {pts : List (Point ℝ F L)} : ∀ {trees : List (Option (Tree ℝ F L))}, (∀ o ∈ trees, Good (· ≤ ·) life pts o) →
    (allIds trees).length ≤ trees.length * (2 * pts.length - 1)
  | [], _ => by simp [allIds]
  | o :: trees, h => by
      have ih := allIds_le fun o ho => h o (List.mem_cons_of_mem _ ho)
      have ho := h o (List.mem_cons_self ..)
      simp only [allIds, List.flatMap_cons, List.length_append, List.length_cons] at ih ⊢
      rw [Nat.add_mul, one_mul]
      cases o with
      | none => simp only [List.length_nil]; omega
      | some t =>
        have := ho.1.ids_le
        simp only
        omega

/-! ### The random number 0 -/

theorem draws_pos : ∀ᵐ ω ∂draws, ∀ i, 0 < nums ω i := by
  rw [ae_all_iff]
  intro i
  have h : draws {ω | (ω i).1 ∈ ({0} : Set ℝ)} = 0 := by
    have e : {ω : Nat → U01 | (ω i).1 ∈ ({0} : Set ℝ)} = (fun ω : Nat → U01 => ω i) ⁻¹' {u : U01 | u.1 ∈ ({0} : Set ℝ)} := rfl
    have hm : MeasurableSet {u : U01 | u.1 ∈ ({0} : Set ℝ)} := measurable_subtype_coe (measurableSet_singleton 0)
    rw [e, ← Measure.map_apply (measurable_pi_apply i) hm, draws, Measure.infinitePi_map_eval]
    rw [vol_U01]
    refine measure_mono_null ?_ (Real.volume_singleton (a := 0))
    rintro _ ⟨u, hu, rfl⟩
    exact hu
  rw [ae_iff]
  refine measure_mono_null (fun ω hω => ?_) h
  simp only [Set.mem_ofPred_eq, nums, not_lt, Set.mem_singleton_iff] at hω ⊢
  exact le_antisymm hω (ω i).2.1

/-! ### Histories with predictions -/

theorem trainings_all : ∀ ops : List (Op ℝ F L), trainings ops = trainAll (points ops)
  | [] => rfl
  | .train x l :: ops => by simp only [trainings, points, trainings_all ops]; rfl
  | .predict x :: ops => by simp only [trainings, points, trainings_all ops]

theorem enough {n m : Nat} {zs : List (Point ℝ F L)} (hn : 0 < n) (hm : n * (2 * zs.length - 1) ≤ m) {Q : Fin n → List (Point ℝ F L)}
    (hQ : ∀ k, Q k ≠ [] ∧ ∀ z ∈ Q k, z ∈ zs) : n ≤ m := by
  obtain ⟨z, hz⟩ := List.exists_mem_of_ne_nil _ (hQ ⟨0, hn⟩).1
  have : 1 ≤ zs.length := List.length_pos_of_mem ((hQ _).2 z hz)
  calc n = n * 1 := (mul_one n).symm
    _ ≤ n * (2 * zs.length - 1) := Nat.mul_le_mul_left _ (by omega)
    _ ≤ m := hm

/-- **C95** for histories of calls of `train` and `predict`, for an exponential function and a discount factor for which `predict` is defined -/
theorem C95_history (p : Params ℝ) (hlife : 0 ≤ p.lifetime) (hlog : p.log = Real.log) (h0 : p.exp 0 = 1) (hdisc : 0 ≤ p.discount) (m n : Nat) (hn : 0 < n)
    (ops : List (Op ℝ F L)) (hm : n * (2 * (points ops).length - 1) ≤ m)
    (Q : Fin n → List (Point ℝ F L)) (hQ : ∀ k, Q k ≠ [] ∧ ∀ z ∈ Q k, z ∈ points ops) (q : Fin n → Box ℝ F) (hq : ∀ k, IsHull (Q k) (q k)) :
    draws {ω | ∃ s pos trees, run p (nums ω) ops (new m n) 0 = .ok (s, pos) ∧ HoldsAll s trees ∧
      ∀ k : Fin n, ∃ t, trees[k]? = some (some t) ∧ t.Together (Q k)} = ENNReal.ofReal (Real.exp (-(p.lifetime * ∑ k, (q k).size))) := by
  rw [← C95_kernel p hlife hlog m n (points ops) hm Q hQ q hq]
  refine measure_congr (Filter.eventuallyEq_set.2 (draws_pos.mono fun ω hω => ?_))
  have hω' : ∀ i, 0 < nums ω i ∧ nums ω i < 1 := fun i => ⟨hω i, (nums_range ω i).2⟩
  obtain ⟨⟨s, pos⟩, hr⟩ := run_ok p hlife h0 hdisc (nums ω) hω' m n hn (enough hn hm hQ) ops 0
  obtain ⟨s', h1, ⟨trees, trees', h2, h3, h4⟩, -⟩ := C71_predict_is_pure p hlife (nums ω) (nums_range ω) m n ops 0 s pos hr
  rw [trainings_all] at h1
  simp only [Set.mem_ofPred_eq, hr, h1, Except.ok.injEq, Prod.mk.injEq]
  constructor
  · rintro ⟨_, _, ts, ⟨rfl, rfl⟩, h5, h6⟩
    rw [C52_trees_unique h5 h2] at h6
    exact ⟨s', pos, trees', ⟨rfl, rfl⟩, h3, same_keeps h4 h2.nodup h3.nodup Q h6⟩
  · rintro ⟨_, _, ts, ⟨rfl, rfl⟩, h5, h6⟩
    rw [C52_trees_unique h5 h3] at h6
    exact ⟨s, pos, trees, ⟨rfl, rfl⟩, h2, same_keeps (Eq.symm h4) h3.nodup h2.nodup Q h6⟩

/-- **C95** for `MondrianForestUnbound`, without a condition on the memory -/
theorem C95_unbound (p : Params ℝ) (hlife : 0 ≤ p.lifetime) (hlog : p.log = Real.log) (h0 : p.exp 0 = 1) (hdisc : 0 ≤ p.discount) (n : Nat) (hn : 0 < n)
    (ops : List (Op ℝ F L)) (Q : Fin n → List (Point ℝ F L)) (hQ : ∀ k, Q k ≠ [] ∧ ∀ z ∈ Q k, z ∈ points ops) (q : Fin n → Box ℝ F) (hq : ∀ k, IsHull (Q k) (q k)) :
    draws {ω | ∃ s pos trees, Unbound.run p (nums ω) ops (Unbound.new n) 0 = .ok (s, pos) ∧ HoldsAll ⟨s.heap, s.roots⟩ trees ∧
      ∀ k : Fin n, ∃ t, trees[k]? = some (some t) ∧ t.Together (Q k)} = ENNReal.ofReal (Real.exp (-(p.lifetime * ∑ k, (q k).size))) := by
  rw [← C95_history p hlife hlog h0 hdisc _ n hn ops le_rfl Q hQ q hq]
  refine measure_congr (Filter.eventuallyEq_set.2 (draws_pos.mono fun ω hω => ?_))
  have hω' : ∀ i, 0 < nums ω i ∧ nums ω i < 1 := fun i => ⟨hω i, (nums_range ω i).2⟩
  obtain ⟨⟨s, pos⟩, hr⟩ := Unbound.run_ok p h0 hdisc (nums ω) hω' n hn ops 0
  obtain ⟨trees₀, a1, a2, -, -, a5⟩ := Unbound.run_good p (nums ω) (nums_range ω) (· ≤ ·) (fun a b h => h.le) (Unbound.draw_le' (nums_range ω)) n ops 0 _ hr
  have hlen : s.heap.length ≤ n * (2 * (points ops).length - 1) := by
    have := allIds_le a5
    rwa [a1.length, a2] at this
  obtain ⟨s', h1, ⟨trees, trees', h2, h3, h4⟩, -⟩ := Unbound.C59_bounded_follows p hlife (nums ω) (nums_range ω) _ n ops 0 s pos hr hlen
  simp only [Set.mem_ofPred_eq, hr, h1, Except.ok.injEq, Prod.mk.injEq]
  constructor
  · rintro ⟨_, _, ts, ⟨rfl, rfl⟩, h5, h6⟩
    rw [C52_trees_unique h5 h2] at h6
    exact ⟨s', pos, trees', ⟨rfl, rfl⟩, h3, same_keeps h4 h2.nodup h3.nodup Q h6⟩
  · rintro ⟨_, _, ts, ⟨rfl, rfl⟩, h5, h6⟩
    rw [C52_trees_unique h5 h3] at h6
    exact ⟨s, pos, trees, ⟨rfl, rfl⟩, h2, same_keeps (Eq.symm h4) h3.nodup h2.nodup Q h6⟩

/-! ### Examples -/

example : draws {ω | ∃ s pos trees, run exR (nums ω) [.train (pt2 0 0) 0, .predict (pt2 1 1), .train (pt2 5 5) 1, .train (pt2 1 3) (1 : Fin 2)] (new 10 2) 0 = .ok (s, pos) ∧
      HoldsAll s trees ∧ ∀ k : Fin 2, ∃ t, trees[k]? = some (some t) ∧ t.Together [(pt2 0 0, 0), (pt2 1 3, 1)]} = ENNReal.ofReal (Real.exp (-16)) := by
  refine (C95_history exR (by norm_num [exR]) rfl (by simp [exR]) (by norm_num [exR]) 10 2 (by norm_num) _ (by simp [points]) _ (fun k => ⟨by simp, by simp [points]⟩) _
    (fun k => hull_pair _ _)).trans ?_
  congr 2
  simp [Fin.sum_univ_two, pt2, exR, Box.size]
  norm_num

example : draws {ω | ∃ s pos trees, Unbound.run exR (nums ω) [.train (pt2 0 0) 0, .predict (pt2 1 1), .train (pt2 5 5) 1, .train (pt2 1 3) (1 : Fin 2)] (Unbound.new 2) 0 = .ok (s, pos) ∧
      HoldsAll ⟨s.heap, s.roots⟩ trees ∧ ∀ k : Fin 2, ∃ t, trees[k]? = some (some t) ∧ t.Together [(pt2 0 0, 0), (pt2 1 3, 1)]} = ENNReal.ofReal (Real.exp (-16)) := by
  refine (C95_unbound exR (by norm_num [exR]) rfl (by simp [exR]) (by norm_num [exR]) 2 (by norm_num) _ _ (fun k => ⟨by simp, by simp [points]⟩) _
    (fun k => hull_pair _ _)).trans ?_
  congr 2
  simp [Fin.sum_univ_two, pt2, exR, Box.size]
  norm_num

end Orp.Mondrian
