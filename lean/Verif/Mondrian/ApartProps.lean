import Verif.Mondrian.ApartRun
import Verif.Mondrian.KernelMore

/-!
Property C144: after any training history, with ideal random numbers, the time at which a tree separates a group of training points is exponentially
distributed, with the sum of the side lengths of the smallest box around the group as rate, and cut at the lifetime. The trees are independent.
-/

set_option linter.unusedSectionVars false

namespace Orp.Mondrian

open MeasureTheory Orp.Reservoir

variable {F L : Nat}

/-- **C144.** A forest of `n` trees, with nodes for the points of the history, is trained with the points `zs` in this order. For every tree a group of
these points and a time `T k` up to the lifetime are given, `q k` is the smallest box around the group of tree `k`. With ideal random numbers, the
probability that the training ends without an error and that no tree separates its group before its time is `exp (-∑ k, T k * size (q k))`. -/
theorem C144_times (p : Params ℝ) (hlog : p.log = Real.log) (m n : Nat) (zs : List (Point ℝ F L)) (hm : n * (2 * zs.length - 1) ≤ m)
    (Q : Fin n → List (Point ℝ F L)) (hQ : ∀ k, Q k ≠ [] ∧ ∀ z ∈ Q k, z ∈ zs) (q : Fin n → Box ℝ F) (hq : ∀ k, IsHull (Q k) (q k)) (hlife : 0 ≤ p.lifetime)
    (T : Fin n → ℝ) (hT : ∀ k, 0 ≤ T k ∧ T k ≤ p.lifetime) :
    draws {ω | ∃ s pos trees, run p (nums ω) (trainAll zs) (new m n) 0 = .ok (s, pos) ∧ HoldsAll s trees ∧
      ∀ k : Fin n, ∃ t, trees[k]? = some (some t) ∧ t.Until (T k) (Q k)} = ENNReal.ofReal (Real.exp (-∑ k, T k * (q k).size)) := by
  have h := waitsAll_law p hlife hlog m zs (List.ofFn fun k => (Q k, T k)) (List.ofFn fun k => (q k, T k)) (fun hz => by
    rw [List.length_ofFn]
    have : 1 ≤ zs.length := List.length_pos_of_ne_nil hz
    obtain ⟨k, hk⟩ := Nat.exists_eq_add_of_le this
    rw [hk] at hm ⊢
    have e : n * (2 * (1 + k) - 1) = n + 2 * n * k := by
      rw [show 2 * (1 + k) - 1 = 1 + 2 * k by omega]; ring
    rw [Nat.add_sub_cancel_left]
    omega) (by
    rw [List.forall₂_iff_get]
    refine ⟨by simp, fun i h1 h2 => ?_⟩
    simp only [List.get_eq_getElem, List.getElem_ofFn]
    exact ⟨(hQ _).1, (hQ _).2, hq _, rfl, hT _⟩)
  rw [List.length_ofFn, List.map_ofFn, List.sum_ofFn] at h
  simp only [Function.comp_apply] at h
  rw [← h]
  congr 1
  ext ω
  simp only [Set.mem_ofPred_eq]
  refine exists_congr fun s => exists_congr fun pos => exists_congr fun trees => and_congr_right fun h1 => and_congr_right fun h2 => ?_
  have hlen : trees.length = n := by
    obtain ⟨trees', lost, a1, a2, a3, a4⟩ := run_good p hlife (nums ω) (nums_range ω) (· ≤ ·) (fun a b h => h.le) (draw_le (nums_range ω)) m n (trainAll zs) 0 _ h1
    rw [C52_trees_unique h2 a1.all, a3]
  rw [List.forall₂_iff_get]
  constructor
  · intro hk
    refine ⟨by simp [hlen], fun i h3 h4 => ?_⟩
    obtain ⟨t, e1, e2⟩ := hk ⟨i, by rw [← hlen]; exact h4⟩
    refine ⟨t, ?_, ?_⟩
    · rw [List.get_eq_getElem]
      have := List.getElem?_eq_getElem h4
      simp only [Fin.getElem?_fin] at e1
      rw [e1] at this
      exact (Option.some.inj this).symm
    · simpa using e2
  · rintro ⟨-, hk⟩ k
    obtain ⟨t, e1, e2⟩ := hk k.1 (by simp) (by rw [hlen]; exact k.2)
    refine ⟨t, ?_, by simpa using e2⟩
    rw [List.get_eq_getElem] at e1
    rw [Fin.getElem?_fin, List.getElem?_eq_getElem (by rw [hlen]; exact k.2), e1]

/-! ### Histories with predictions, and `MondrianForestUnbound` -/

theorem apart_content (Q : List (Point ℝ F L)) : ∀ t : Tree ℝ F L, t.content.apart Q = t.apart Q
  | .leaf _ _ => rfl
  | .node _ _ dim sp l r => by rw [content_node, Tree.apart, Tree.apart, apart_content Q l, apart_content Q r]

theorem same_until {trees trees' : List (Option (Tree ℝ F L))} (h : SameTrees trees trees') {n : Nat} (T : Fin n → ℝ)
    (Q : Fin n → List (Point ℝ F L)) (hk : ∀ k : Fin n, ∃ t, trees[k]? = some (some t) ∧ t.Until (T k) (Q k)) (k : Fin n) :
    ∃ t, trees'[k]? = some (some t) ∧ t.Until (T k) (Q k) := by
  obtain ⟨t, e1, e2⟩ := hk k
  have e3 : (trees.map (fun t => t.map Tree.content))[k]? = (trees'.map (fun t => t.map Tree.content))[k]? := by rw [show trees.map _ = trees'.map _ from h]
  simp only [Fin.getElem?_fin, List.getElem?_map] at e1 e3 ⊢
  rw [e1] at e3
  cases ho : trees'[k.1]? with
  | none => rw [ho] at e3; simp at e3
  | some o =>
    cases o with
    | none => rw [ho] at e3; simp at e3
    | some u =>
      rw [ho] at e3
      simp only [Option.map_some, Option.some.injEq] at e3
      refine ⟨u, rfl, ?_⟩
      rwa [Tree.Until, ← apart_content, ← e3, apart_content]

/-- **C144** for histories of calls of `train` and `predict`, for an exponential function and a discount factor for which `predict` is defined -/
theorem C144_history (p : Params ℝ) (hlife : 0 ≤ p.lifetime) (hlog : p.log = Real.log) (h0 : p.exp 0 = 1) (hdisc : 0 ≤ p.discount) (m n : Nat) (hn : 0 < n)
    (ops : List (Op ℝ F L)) (hm : n * (2 * (points ops).length - 1) ≤ m)
    (Q : Fin n → List (Point ℝ F L)) (hQ : ∀ k, Q k ≠ [] ∧ ∀ z ∈ Q k, z ∈ points ops) (q : Fin n → Box ℝ F) (hq : ∀ k, IsHull (Q k) (q k))
    (T : Fin n → ℝ) (hT : ∀ k, 0 ≤ T k ∧ T k ≤ p.lifetime) :
    draws {ω | ∃ s pos trees, run p (nums ω) ops (new m n) 0 = .ok (s, pos) ∧ HoldsAll s trees ∧
      ∀ k : Fin n, ∃ t, trees[k]? = some (some t) ∧ t.Until (T k) (Q k)} = ENNReal.ofReal (Real.exp (-∑ k, T k * (q k).size)) := by
  rw [← C144_times p hlog m n (points ops) hm Q hQ q hq hlife T hT]
  refine measure_congr (Filter.eventuallyEq_set.2 (draws_pos.mono fun ω hω => ?_))
  have hω' : ∀ i, 0 < nums ω i ∧ nums ω i < 1 := fun i => ⟨hω i, (nums_range ω i).2⟩
  obtain ⟨⟨s, pos⟩, hr⟩ := run_ok p hlife h0 hdisc (nums ω) hω' m n hn (enough hn hm hQ) ops 0
  obtain ⟨s', h1, ⟨trees, trees', h2, h3, h4⟩, -⟩ := C71_predict_is_pure p hlife (nums ω) (nums_range ω) m n ops 0 s pos hr
  rw [trainings_all] at h1
  simp only [Set.mem_ofPred_eq, hr, h1, Except.ok.injEq, Prod.mk.injEq]
  constructor
  · rintro ⟨_, _, ts, ⟨rfl, rfl⟩, h5, h6⟩
    rw [C52_trees_unique h5 h2] at h6
    exact ⟨s', pos, trees', ⟨rfl, rfl⟩, h3, same_until h4 T Q h6⟩
  · rintro ⟨_, _, ts, ⟨rfl, rfl⟩, h5, h6⟩
    rw [C52_trees_unique h5 h3] at h6
    exact ⟨s, pos, trees, ⟨rfl, rfl⟩, h2, same_until (Eq.symm h4) T Q h6⟩

/-- **C144** for `MondrianForestUnbound`, without a condition on the memory -/
theorem C144_unbound (p : Params ℝ) (hlife : 0 ≤ p.lifetime) (hlog : p.log = Real.log) (h0 : p.exp 0 = 1) (hdisc : 0 ≤ p.discount) (n : Nat) (hn : 0 < n)
    (ops : List (Op ℝ F L)) (Q : Fin n → List (Point ℝ F L)) (hQ : ∀ k, Q k ≠ [] ∧ ∀ z ∈ Q k, z ∈ points ops) (q : Fin n → Box ℝ F) (hq : ∀ k, IsHull (Q k) (q k))
    (T : Fin n → ℝ) (hT : ∀ k, 0 ≤ T k ∧ T k ≤ p.lifetime) :
    draws {ω | ∃ s pos trees, Unbound.run p (nums ω) ops (Unbound.new n) 0 = .ok (s, pos) ∧ HoldsAll ⟨s.heap, s.roots⟩ trees ∧
      ∀ k : Fin n, ∃ t, trees[k]? = some (some t) ∧ t.Until (T k) (Q k)} = ENNReal.ofReal (Real.exp (-∑ k, T k * (q k).size)) := by
  rw [← C144_history p hlife hlog h0 hdisc _ n hn ops le_rfl Q hQ q hq T hT]
  refine measure_congr (Filter.eventuallyEq_set.2 (draws_pos.mono fun ω hω => ?_))
  have hω' : ∀ i, 0 < nums ω i ∧ nums ω i < 1 := fun i => ⟨hω i, (nums_range ω i).2⟩
  obtain ⟨⟨s, pos⟩, hr⟩ := Unbound.run_ok p h0 hdisc (nums ω) hω' n hn ops 0
  obtain ⟨trees₀, a1, a2, -, -, a5⟩ := Unbound.run_good p (nums ω) (nums_range ω) (· ≤ ·) (fun a b h => h.le) (Unbound.draw_le' (nums_range ω)) n ops 0 _ hr
  have hlen : s.heap.length ≤ n * (2 * (points ops).length - 1) := by
    have := allIds_le a5
    rwa [a1.length, a2] at this
  obtain ⟨s', h1, ⟨trees, trees', h2, h3, h4⟩, -⟩ := Unbound.C59_bounded_follows p hlife (nums ω) (nums_range ω) _ n ops 0 s pos hr hlen
  simp only [Set.mem_ofPred_eq, hr, h1, Except.ok.injEq, Prod.mk.injEq]
  constructor
  · rintro ⟨_, _, ts, ⟨rfl, rfl⟩, h5, h6⟩
    rw [C52_trees_unique h5 h2] at h6
    exact ⟨s', pos, trees', ⟨rfl, rfl⟩, h3, same_until h4 T Q h6⟩
  · rintro ⟨_, _, ts, ⟨rfl, rfl⟩, h5, h6⟩
    rw [C52_trees_unique h5 h3] at h6
    exact ⟨s, pos, trees, ⟨rfl, rfl⟩, h2, same_until (Eq.symm h4) T Q h6⟩

/-! ### One tree -/

theorem until_zero {life : ℝ} {ptau : ℝ} (h0 : 0 ≤ ptau) (hl : 0 ≤ life) {t : Tree ℝ F L} (ht : Times (· ≤ ·) life ptau t) (Q : List (Point ℝ F L)) : t.Until 0 Q := by
  intro s hs
  refine le_trans ?_ (apart_ge Q ht hs)
  cases t with
  | leaf id d => rw [Tree.data, show d.tau = life from ht]; exact hl
  | node id d dim sp l r => exact h0.trans ht.1

/-- **C144.** A group of training points is not separated by a tree before the time `T` with probability `exp (-T * size)`. -/
theorem C144_group (p : Params ℝ) (hlife : 0 ≤ p.lifetime) (hlog : p.log = Real.log) (m n : Nat) (zs : List (Point ℝ F L)) (hm : n * (2 * zs.length - 1) ≤ m) (k : Fin n)
    (Q : List (Point ℝ F L)) (hne : Q ≠ []) (hQ : ∀ z ∈ Q, z ∈ zs) (q : Box ℝ F) (hq : IsHull Q q) (T : ℝ) (h0 : 0 ≤ T) (hT : T ≤ p.lifetime) :
    draws {ω | ∃ s pos trees t, run p (nums ω) (trainAll zs) (new m n) 0 = .ok (s, pos) ∧ HoldsAll s trees ∧ trees[k]? = some (some t) ∧ t.Until T Q} =
      ENNReal.ofReal (Real.exp (-(T * q.size))) := by
  have h := C144_times p hlog m n zs hm (fun _ => Q) (fun _ => ⟨hne, hQ⟩) (fun _ => q) (fun _ => hq) hlife (fun j => if j = k then T else 0) (fun j => by
    split
    · exact ⟨h0, hT⟩
    · exact ⟨le_rfl, hlife⟩)
  have e : ∑ j : Fin n, (if j = k then T else 0) * q.size = T * q.size := by simp
  rw [e] at h
  rw [← h]
  congr 1
  ext ω
  simp only [Set.mem_ofPred_eq]
  refine exists_congr fun s => exists_congr fun pos => exists_congr fun trees => ?_
  constructor
  · rintro ⟨t, h1, h2, h3, h4⟩
    refine ⟨h1, h2, fun j => ?_⟩
    by_cases hj : j = k
    · subst hj
      exact ⟨t, h3, by simpa using h4⟩
    · obtain ⟨trees', lost, a1, a2, a3, a4⟩ := run_good p hlife (nums ω) (nums_range ω) (· ≤ ·) (fun a b h => h.le) (draw_le (nums_range ω)) m n (trainAll zs) 0 _ h1
      rw [← C52_trees_unique h2 a1.all] at a3 a4
      have hlt : j.1 < trees.length := by rw [a3]; exact j.2
      have hg := a4 trees[j.1] (List.getElem_mem hlt)
      cases ho : trees[j.1] with
      | none =>
        rw [ho] at hg
        have hp : points (trainAll zs) = [] := hg
        obtain ⟨z, hz⟩ := List.exists_mem_of_ne_nil Q hne
        cases zs with
        | nil => exact absurd (hQ z hz) (by simp)
        | cons w ws => simp [points, trainAll] at hp
      | some t' =>
        rw [ho] at hg
        refine ⟨t', ?_, ?_⟩
        · rw [Fin.getElem?_fin, List.getElem?_eq_getElem hlt, ho]
        · rw [if_neg hj]
          exact until_zero le_rfl hlife hg.2 Q
  · rintro ⟨h1, h2, h3⟩
    obtain ⟨t, h4, h5⟩ := h3 k
    exact ⟨t, h1, h2, h4, by simpa using h5⟩

/-! ### The first split -/

/-- the time of the first split of a tree, if there is one -/
def Tree.first : Tree ℝ F L → Option ℝ
  | .leaf _ _ => none
  | .node _ d _ _ _ _ => some d.tau

theorem first_apart {pts : List (Point ℝ F L)} {t : Tree ℝ F L} (h : Right pts t) : t.apart pts = t.first := by
  cases t with
  | leaf id d => rfl
  | node id d dim sp l r =>
    rw [Tree.apart, if_neg, if_neg]
    · rfl
    · intro h1
      obtain ⟨z, hz⟩ := List.exists_mem_of_ne_nil _ h.2.1.ne_nil
      have := List.mem_filter.1 hz
      exact h1 z this.1 (by simpa using this.2)
    · intro h1
      obtain ⟨z, hz⟩ := List.exists_mem_of_ne_nil _ h.2.2.ne_nil
      have := List.mem_filter.1 hz
      exact (by simpa using this.2 : ¬ z.1 dim ≤ sp) (h1 z this.1)

/-- **C144.** The first split of a tree is not made before the time `T` with probability `exp (-T * size)`, where `size` is the sum of the side lengths of
the smallest box around the training points: in whatever order they came. -/
theorem C144_first (p : Params ℝ) (hlife : 0 ≤ p.lifetime) (hlog : p.log = Real.log) (m n : Nat) (zs : List (Point ℝ F L)) (hne : zs ≠ []) (hm : n * (2 * zs.length - 1) ≤ m)
    (k : Fin n) (q : Box ℝ F) (hq : IsHull zs q) (T : ℝ) (h0 : 0 ≤ T) (hT : T ≤ p.lifetime) :
    draws {ω | ∃ s pos trees t, run p (nums ω) (trainAll zs) (new m n) 0 = .ok (s, pos) ∧ HoldsAll s trees ∧ trees[k]? = some (some t) ∧ ∀ s, t.first = some s → T ≤ s} =
      ENNReal.ofReal (Real.exp (-(T * q.size))) := by
  rw [← C144_group p hlife hlog m n zs hm k zs hne (fun z hz => hz) q hq T h0 hT]
  congr 1
  ext ω
  simp only [Set.mem_ofPred_eq]
  refine exists_congr fun s => exists_congr fun pos => exists_congr fun trees => exists_congr fun t => and_congr_right fun h1 => and_congr_right fun h2 =>
    and_congr_right fun h3 => ?_
  obtain ⟨trees', lost, a1, a2, a3, a4⟩ := run_good p hlife (nums ω) (nums_range ω) (· ≤ ·) (fun a b h => h.le) (draw_le (nums_range ω)) m n (trainAll zs) 0 _ h1
  rw [← C52_trees_unique h2 a1.all] at a4
  have hg := a4 _ (List.mem_of_getElem? (by simpa using h3))
  have hp : points (trainAll zs) = zs := by
    unfold trainAll
    clear hne hm hq h1 a4 hg
    induction zs with
    | nil => rfl
    | cons z zs ih => simp only [List.map_cons, points, ih]
  rw [hp] at hg
  rw [Tree.Until, first_apart hg.1]

/-! ### Examples -/

example : draws {ω | ∃ s pos trees t, run exR (nums ω) (trainAll [(pt2 0 0, 0), (pt2 5 5, 1), (pt2 1 3, (1 : Fin 2))]) (new 10 2) 0 = .ok (s, pos) ∧
      HoldsAll s trees ∧ trees[(1 : Fin 2)]? = some (some t) ∧ ∀ s, t.first = some s → 1 ≤ s} = ENNReal.ofReal (Real.exp (-10)) := by
  refine (C144_first exR (by norm_num [exR]) rfl 10 2 _ (by simp) (by simp) 1 ⟨pt2 0 0, pt2 5 5⟩ ?_ 1 (by norm_num) (by norm_num [exR])).trans ?_
  · constructor
    · intro z hz i
      fin_cases i <;> simp only [List.mem_cons, List.not_mem_nil, or_false] at hz <;> rcases hz with rfl | rfl | rfl <;> norm_num [pt2]
    · intro i
      exact ⟨⟨(pt2 0 0, 0), by simp, rfl⟩, ⟨(pt2 5 5, 1), by simp, rfl⟩⟩
  · congr 2
    simp [Fin.sum_univ_two, pt2, Box.size]
    norm_num

example : draws {ω | ∃ s pos trees, run exR (nums ω) (trainAll [(pt2 0 0, 0), (pt2 5 5, 1), (pt2 1 3, (1 : Fin 2))]) (new 10 2) 0 = .ok (s, pos) ∧
      HoldsAll s trees ∧ ∀ k : Fin 2, ∃ t, trees[k]? = some (some t) ∧ t.Until 1 [(pt2 0 0, 0), (pt2 1 3, 1)]} = ENNReal.ofReal (Real.exp (-8)) := by
  refine (C144_times exR rfl 10 2 _ (by simp) _ (fun k => ⟨by simp, by simp⟩) _ (fun k => hull_pair _ _) (by norm_num [exR]) (fun _ => 1) (fun k => by norm_num [exR])).trans ?_
  congr 2
  simp [Fin.sum_univ_two, pt2, Box.size]
  norm_num

end Orp.Mondrian
