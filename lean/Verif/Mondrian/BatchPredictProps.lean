import Verif.Mondrian.BatchPredict

/-!
Property C146: with ideal random numbers, the joint law of the predictions of a forest for any queries does not depend on the order of the training points:
it is that of the predictions of independent Mondrian trees that are sampled from scratch for the training points.
-/

set_option linter.unusedSectionVars false

namespace Orp.Mondrian

open MeasureTheory Orp.Reservoir

variable {F L : Nat}

/-- the tuples of trees that give the queries the labels -/
def Answers (p : Params ℝ) (n : Nat) (qs : List ((Fin F → ℝ) × Nat)) : Set (Fin n → Tree ℝ F L) := {T | ∀ q ∈ qs, label p q.1 (recountAll (tupleList T)) = .ok q.2}

theorem answers_meas {p : Params ℝ} (hexp : Measurable p.exp) (n : Nat) (qs : List ((Fin F → ℝ) × Nat)) : MeasurableSet (Answers (L := L) p n qs) := by
  have : Answers (L := L) p n qs = ⋂ q ∈ {q | q ∈ qs}, {T | label p q.1 (recountAll (tupleList T)) = .ok q.2} := by
    ext T
    simp [Answers]
  rw [this]
  exact MeasurableSet.biInter (List.finite_toSet qs).countable fun q _ => label_meas hexp q.1 n q.2

theorem tuple_same {n : Nat} {trees : List (Option (Tree ℝ F L))} (hlen : trees.length = n) {T : Fin n → Tree ℝ F L}
    (h : ∀ k : Fin n, ∃ t, trees[k]? = some (some t) ∧ T k = t.anon) : SameTrees trees (tupleList T) := by
  refine List.ext_getElem? fun i => ?_
  by_cases hi : i < n
  · obtain ⟨t, e1, e2⟩ := h ⟨i, hi⟩
    simp only [Fin.getElem?_fin] at e1
    rw [List.getElem?_map, List.getElem?_map, e1, tupleList, List.getElem?_ofFn, dif_pos hi]
    simp only [Option.map_some, e2, content_anon]
  · rw [List.getElem?_eq_none (by simpa [hlen] using hi), List.getElem?_eq_none (by simpa [tupleList] using hi)]

/-- **C146.** After a history of calls of `train` and `predict` on a new forest of `n` trees, with nodes for the points of the history, the probability that the
queries `qs` get given labels is that of `n` independent Mondrian trees sampled from scratch for the training points. -/
theorem C146_predictions (p : Params ℝ) (hlife : 0 ≤ p.lifetime) (hlog : p.log = Real.log) (hexp : Measurable p.exp) (h0 : p.exp 0 = 1) (hdisc : 0 ≤ p.discount) (m n : Nat)
    (hn : 0 < n) (ops : List (Op ℝ F L)) (hz : points ops ≠ []) (hm : n * (2 * (points ops).length - 1) ≤ m) (qs : List ((Fin F → ℝ) × Nat)) :
    draws {ω | ∃ s pos, run p (nums ω) ops (new m n) 0 = .ok (s, pos) ∧ ∀ q ∈ qs, (predict p s q.1).map (fun r => r.2) = .ok q.2} =
      Measure.pi (fun _ => mondrianLaw p.lifetime (points ops)) (Answers p n qs) := by
  rw [← trained_law hlife hlog m n hz hm, Measure.map_apply (trained_meas hlog m n _) (answers_meas hexp n qs)]
  refine measure_congr (Filter.eventuallyEq_set.2 (draws_pos.mono fun ω hω => ?_))
  have hω' : ∀ i, 0 < nums ω i ∧ nums ω i < 1 := fun i => ⟨hω i, (nums_range ω i).2⟩
  obtain ⟨⟨s, pos⟩, hr⟩ := run_ok p hlife h0 hdisc (nums ω) hω' m n hn (enough hn hm (Q := fun _ => points ops) fun _ => ⟨hz, fun z hz => hz⟩) ops 0
  obtain ⟨s', h1, -, h5⟩ := C71_predict_is_pure p hlife (nums ω) (nums_range ω) m n ops 0 s pos hr
  rw [trainings_all] at h1
  obtain ⟨trees, b1, b2, b3⟩ := trained_run hlife hz hm h1
  obtain ⟨trees', lost, a1, -, -, -⟩ := run_good p hlife (nums ω) (nums_range ω) (· ≤ ·) (fun a b h => h.le) (draw_le (nums_range ω)) m n (trainAll (points ops)) 0 _ h1
  obtain ⟨nodes', -, -, -, c4⟩ := a1.predict_eq p
  have e : ∀ x, (predict p s x).map (fun r => r.2) = label p x (recountAll (tupleList (trained p m n (points ops) ω))) := fun x => by
    rw [h5 x, c4 x, ← C52_trees_unique b1 a1.all, ← label_congr p x (tuple_same b2 b3)]
    cases label p x (recountAll trees) <;> rfl
  simp only [Set.mem_ofPred_eq, hr, Except.ok.injEq, Prod.mk.injEq, Set.mem_preimage, Answers, ← e]
  constructor
  · rintro ⟨_, _, ⟨rfl, rfl⟩, h⟩
    exact h
  · exact fun h => ⟨s, pos, ⟨rfl, rfl⟩, h⟩

/-- **C146.** Two histories with the same training points in any order, on forests with nodes for them, give any queries given labels with the same probability. -/
theorem C146_order (p : Params ℝ) (hlife : 0 ≤ p.lifetime) (hlog : p.log = Real.log) (hexp : Measurable p.exp) (h0 : p.exp 0 = 1) (hdisc : 0 ≤ p.discount) (m m' n : Nat)
    (hn : 0 < n) (ops ops' : List (Op ℝ F L)) (hp : (points ops).Perm (points ops')) (hz : points ops ≠ []) (hm : n * (2 * (points ops).length - 1) ≤ m)
    (hm' : n * (2 * (points ops).length - 1) ≤ m') (qs : List ((Fin F → ℝ) × Nat)) :
    draws {ω | ∃ s pos, run p (nums ω) ops (new m n) 0 = .ok (s, pos) ∧ ∀ q ∈ qs, (predict p s q.1).map (fun r => r.2) = .ok q.2} =
    draws {ω | ∃ s pos, run p (nums ω) ops' (new m' n) 0 = .ok (s, pos) ∧ ∀ q ∈ qs, (predict p s q.1).map (fun r => r.2) = .ok q.2} := by
  rw [C146_predictions p hlife hlog hexp h0 hdisc m n hn ops hz hm qs, C146_predictions p hlife hlog hexp h0 hdisc m' n hn ops' (fun h => hz (h ▸ hp).eq_nil)
    (by rw [← hp.length_eq]; exact hm') qs, mondrianLaw_perm p.lifetime hp]

/-- **C146** for `MondrianForestUnbound`, without a condition on the memory -/
theorem C146_unbound (p : Params ℝ) (hlife : 0 ≤ p.lifetime) (hlog : p.log = Real.log) (hexp : Measurable p.exp) (h0 : p.exp 0 = 1) (hdisc : 0 ≤ p.discount) (n : Nat)
    (hn : 0 < n) (ops : List (Op ℝ F L)) (hz : points ops ≠ []) (qs : List ((Fin F → ℝ) × Nat)) :
    draws {ω | ∃ s pos, Unbound.run p (nums ω) ops (Unbound.new n) 0 = .ok (s, pos) ∧ ∀ q ∈ qs, Unbound.predict p s q.1 = .ok q.2} =
      Measure.pi (fun _ => mondrianLaw p.lifetime (points ops)) (Answers p n qs) := by
  rw [← C146_predictions p hlife hlog hexp h0 hdisc _ n hn ops hz le_rfl qs]
  refine measure_congr (Filter.eventuallyEq_set.2 (draws_pos.mono fun ω hω => ?_))
  have hω' : ∀ i, 0 < nums ω i ∧ nums ω i < 1 := fun i => ⟨hω i, (nums_range ω i).2⟩
  obtain ⟨⟨s, pos⟩, hr⟩ := Unbound.run_ok p h0 hdisc (nums ω) hω' n hn ops 0
  obtain ⟨trees₀, a1, a2, -, -, a5⟩ := Unbound.run_good p (nums ω) (nums_range ω) (· ≤ ·) (fun a b h => h.le) (Unbound.draw_le' (nums_range ω)) n ops 0 _ hr
  have hlen : s.heap.length ≤ n * (2 * (points ops).length - 1) := by
    have := allIds_le a5
    rwa [a1.length, a2] at this
  obtain ⟨s', h1, -, h5⟩ := Unbound.C59_bounded_follows p hlife (nums ω) (nums_range ω) _ n ops 0 s pos hr hlen
  simp only [Set.mem_ofPred_eq, hr, h1, Except.ok.injEq, Prod.mk.injEq]
  constructor
  · rintro ⟨_, _, ⟨rfl, rfl⟩, h⟩
    exact ⟨s', pos, ⟨rfl, rfl⟩, fun q hq => by rw [h5]; exact h q hq⟩
  · rintro ⟨_, _, ⟨rfl, rfl⟩, h⟩
    exact ⟨s, pos, ⟨rfl, rfl⟩, fun q hq => by rw [← h5]; exact h q hq⟩

/-- **C146.** Two histories of `MondrianForestUnbound` with the same training points in any order give any queries given labels with the same probability. -/
theorem C146_order_unbound (p : Params ℝ) (hlife : 0 ≤ p.lifetime) (hlog : p.log = Real.log) (hexp : Measurable p.exp) (h0 : p.exp 0 = 1) (hdisc : 0 ≤ p.discount) (n : Nat)
    (hn : 0 < n) (ops ops' : List (Op ℝ F L)) (hp : (points ops).Perm (points ops')) (hz : points ops ≠ []) (qs : List ((Fin F → ℝ) × Nat)) :
    draws {ω | ∃ s pos, Unbound.run p (nums ω) ops (Unbound.new n) 0 = .ok (s, pos) ∧ ∀ q ∈ qs, Unbound.predict p s q.1 = .ok q.2} =
    draws {ω | ∃ s pos, Unbound.run p (nums ω) ops' (Unbound.new n) 0 = .ok (s, pos) ∧ ∀ q ∈ qs, Unbound.predict p s q.1 = .ok q.2} := by
  rw [C146_unbound p hlife hlog hexp h0 hdisc n hn ops hz qs, C146_unbound p hlife hlog hexp h0 hdisc n hn ops' (fun h => hz (h ▸ hp).eq_nil) qs, mondrianLaw_perm p.lifetime hp]

/-! ### Example -/

/-- three points in two orders, with a prediction in between, and two queries -/
example : draws {ω | ∃ s pos, run exR (nums ω) [.train (pt2 0 0) 0, .train (pt2 5 5) 1, .predict (pt2 1 1), .train (pt2 1 3) (1 : Fin 2)] (new 10 2) 0 = .ok (s, pos) ∧
      ∀ q ∈ [(pt2 1 1, 0), (pt2 4 4, 1)], (predict exR s q.1).map (fun r => r.2) = .ok q.2} =
    draws {ω | ∃ s pos, run exR (nums ω) [.train (pt2 1 3) 1, .train (pt2 0 0) 0, .train (pt2 5 5) (1 : Fin 2)] (new 20 2) 0 = .ok (s, pos) ∧
      ∀ q ∈ [(pt2 1 1, 0), (pt2 4 4, 1)], (predict exR s q.1).map (fun r => r.2) = .ok q.2} :=
  C146_order exR (by norm_num [exR]) rfl Real.measurable_exp Real.exp_zero (by norm_num [exR]) 10 20 2 (by norm_num) _ _
    (by exact List.perm_append_comm (l₁ := [(pt2 0 0, 0), (pt2 5 5, 1)]) (l₂ := [(pt2 1 3, (1 : Fin 2))])) (by simp [points]) (by simp [points]) (by simp [points]) _

end Orp.Mondrian
