import Verif.Coarse.Kernel
import Verif.Mondrian.ApartProps
import Verif.Mondrian.BatchPredictProps


/-!
Property C147: with `EXTEND_ORIGINAL` and `PHOENIX_MANAGEMENT` the trees of the coarse forest are independent Mondrian trees, as long as there is memory, and the law of its
predictions does not depend on the order of the training points.
-/

set_option linter.unusedSectionVars false

namespace Orp.Coarse

open MeasureTheory Orp.Reservoir
open Mondrian (Box Params Point IsHull HoldsAll SameTrees draws nums draws_pos nums_range allIds_le C52_trees_unique Tree IsEvent mondrian mondrian_perm mondrianLaw mondrianLaw_perm Answers
  same_until same_in exR pt2 hull_pair)

variable {F L : Nat}

/-- the training points of a history -/
def taught (ops : List (Op ℝ F L)) : List (Point ℝ F L) := Mondrian.points (ops.filterMap plainCall)

section

variable (c : Config ℝ) (hx : c.extend = .original) (hm : c.management = .phoenix) (p : Params ℝ) (hlife : 0 ≤ p.lifetime) (hlog : p.log = Real.log)
  (h0 : p.exp 0 = 1) (hdisc : 0 ≤ p.discount) (maxSize sizeNode sizeBase : Nat) (junk : List Int) (last : Nat) (hn : 0 < junk.length) (s0 : State ℝ F L)
  (hs0 : new c maxSize sizeNode sizeBase junk last = .ok s0) (ops : List (Op ℝ F L)) (hP : ∀ op ∈ ops, PlainUse c op)
  (hroom : junk.length * (2 * (taught ops).length - 1) + (if c.trim = .none then 0 else 2) ≤ s0.forest.nodes.length)

include hx hm hlife h0 hdisc hn hs0 hP hroom in
theorem follows : ∀ᵐ ω ∂draws, ∃ s pos s', Unbound.run p (nums ω) (ops.filterMap plainCall) (Unbound.new junk.length) 0 = .ok (s, pos) ∧ run c p (nums ω) ops s0 0 = .ok (s', pos) ∧
    (∃ trees trees', HoldsAll { nodes := s.heap, roots := s.roots } trees ∧ HoldsAll s'.forest trees' ∧ SameTrees trees trees') ∧
    ∀ x, (predict c p s' x none).map (fun r => r.2) = Unbound.predict p s x := by
  refine draws_pos.mono fun ω hω => ?_
  have hω' : ∀ i, 0 < nums ω i ∧ nums ω i < 1 := fun i => ⟨hω i, (nums_range ω i).2⟩
  obtain ⟨⟨s, pos⟩, hr⟩ := Unbound.run_ok p h0 hdisc (nums ω) hω' junk.length hn (ops.filterMap plainCall) 0
  obtain ⟨trees₀, a1, a2, -, -, a5⟩ := Unbound.run_good p (nums ω) (nums_range ω) (· ≤ ·) (fun a b h => h.le) (Unbound.draw_le' (nums_range ω)) junk.length _ 0 _ hr
  have hlen : s.heap.length ≤ junk.length * (2 * (taught ops).length - 1) := by
    have := allIds_le a5
    rwa [a1.length, a2] at this
  obtain ⟨s', h1, h2, h3⟩ := C113_coarse_follows c hx hm p hlife (nums ω) (nums_range ω) maxSize sizeNode sizeBase junk last s0 hs0 ops hP 0 s
    pos hr (by omega) (fun ht => by rw [if_neg ht] at hroom; omega)
  exact ⟨s, pos, s', hr, h1, h2, h3⟩

include hx hm hlife h0 hdisc hn hs0 hP hroom in
/-- what the trees of the two forests have in common, has the same probability -/
theorem follows_law (A : List (Option (Tree ℝ F L)) → Prop) (hA : ∀ trees trees', SameTrees trees trees' → A trees → A trees') :
    draws {ω | ∃ s pos trees, run c p (nums ω) ops s0 0 = .ok (s, pos) ∧ HoldsAll s.forest trees ∧ A trees} =
      draws {ω | ∃ s pos trees, Unbound.run p (nums ω) (ops.filterMap plainCall) (Unbound.new junk.length) 0 = .ok (s, pos) ∧ HoldsAll ⟨s.heap, s.roots⟩ trees ∧ A trees} := by
  refine measure_congr (Filter.eventuallyEq_set.2
    ((follows c hx hm p hlife h0 hdisc maxSize sizeNode sizeBase junk last hn s0 hs0 ops hP hroom).mono fun ω hω => ?_))
  obtain ⟨s, pos, s', hr, h1, ⟨trees, trees', h2, h3, h4⟩, -⟩ := hω
  simp only [Set.mem_ofPred_eq, hr, h1, Except.ok.injEq, Prod.mk.injEq]
  constructor
  · rintro ⟨_, _, ts, ⟨rfl, rfl⟩, h5, h6⟩
    rw [C52_trees_unique h5 h3] at h6
    exact ⟨s, pos, trees, ⟨rfl, rfl⟩, h2, hA _ _ (Eq.symm h4) h6⟩
  · rintro ⟨_, _, ts, ⟨rfl, rfl⟩, h5, h6⟩
    rw [C52_trees_unique h5 h2] at h6
    exact ⟨s', pos, trees', ⟨rfl, rfl⟩, h3, hA _ _ h4 h6⟩

include hx hm hlife hlog h0 hdisc hn hs0 hP hroom in
/-- **C147.** The probability that in every tree `k` the points of the group `Q k` are not separated before the time `T k` is the product of `exp (-T k * size (q k))`. -/
theorem C147_times (Q : Fin junk.length → List (Point ℝ F L)) (hQ : ∀ k, Q k ≠ [] ∧ ∀ z ∈ Q k, z ∈ taught ops) (q : Fin junk.length → Box ℝ F)
    (hq : ∀ k, IsHull (Q k) (q k)) (T : Fin junk.length → ℝ) (hT : ∀ k, 0 ≤ T k ∧ T k ≤ p.lifetime) :
    draws {ω | ∃ s pos trees, run c p (nums ω) ops s0 0 = .ok (s, pos) ∧ HoldsAll s.forest trees ∧
      ∀ k : Fin junk.length, ∃ t, trees[k]? = some (some t) ∧ t.Until (T k) (Q k)} = ENNReal.ofReal (Real.exp (-∑ k, T k * (q k).size)) := by
  rw [← Mondrian.C144_unbound p hlife hlog h0 hdisc junk.length hn (ops.filterMap plainCall) Q hQ q hq T hT]
  exact follows_law c hx hm p hlife h0 hdisc maxSize sizeNode sizeBase junk last hn s0 hs0 ops hP hroom _ fun _ _ h => same_until h T Q

include hx hm hlife hlog h0 hdisc hn hs0 hP hroom in
/-- **C147.** The trees are independent and have the law of Mondrian trees that are sampled from scratch for the training points. -/
theorem C147_law (hz : taught ops ≠ []) (E : Fin junk.length → Set (Tree ℝ F L)) (hE : ∀ k, IsEvent (E k)) :
    draws {ω | ∃ s pos trees, run c p (nums ω) ops s0 0 = .ok (s, pos) ∧ HoldsAll s.forest trees ∧
      ∀ k : Fin junk.length, ∃ t, trees[k]? = some (some t) ∧ t.content ∈ E k} = ∏ k, mondrian p.lifetime (taught ops) {t | t.content ∈ E k} := by
  rw [taught, ← Mondrian.C145_unbound p hlife hlog h0 hdisc junk.length hn (ops.filterMap plainCall) hz E hE]
  exact follows_law c hx hm p hlife h0 hdisc maxSize sizeNode sizeBase junk last hn s0 hs0 ops hP hroom _ fun _ _ h => same_in h E

include hx hm hlife hlog h0 hdisc hn hs0 hP hroom in
/-- **C147.** The probability that the queries get given labels is that of independent Mondrian trees sampled from scratch for the training points. -/
theorem C147_predictions (hexp : Measurable p.exp) (hz : taught ops ≠ []) (qs : List ((Fin F → ℝ) × Nat)) :
    draws {ω | ∃ s pos, run c p (nums ω) ops s0 0 = .ok (s, pos) ∧ ∀ q ∈ qs, (predict c p s q.1 none).map (fun r => r.2) = .ok q.2} =
      Measure.pi (fun _ => mondrianLaw p.lifetime (taught ops)) (Answers p junk.length qs) := by
  rw [taught, ← Mondrian.C146_unbound p hlife hlog hexp h0 hdisc junk.length hn (ops.filterMap plainCall) hz qs]
  refine measure_congr (Filter.eventuallyEq_set.2
    ((follows c hx hm p hlife h0 hdisc maxSize sizeNode sizeBase junk last hn s0 hs0 ops hP hroom).mono fun ω hω => ?_))
  obtain ⟨s, pos, s', hr, h1, -, h5⟩ := hω
  simp only [Set.mem_ofPred_eq, hr, h1, Except.ok.injEq, Prod.mk.injEq]
  constructor
  · rintro ⟨_, _, ⟨rfl, rfl⟩, h⟩
    exact ⟨s, pos, ⟨rfl, rfl⟩, fun q hq => by rw [← h5]; exact h q hq⟩
  · rintro ⟨_, _, ⟨rfl, rfl⟩, h⟩
    exact ⟨s', pos, ⟨rfl, rfl⟩, fun q hq => by rw [h5]; exact h q hq⟩

include hx hm hlife hlog h0 hdisc hn hs0 hP hroom in
/-- **C147.** Two histories with the same training points in any order, also on forests of different sizes and with different trimming, give any queries given labels with the same
probability. -/
theorem C147_order (hexp : Measurable p.exp) (hz : taught ops ≠ []) (c' : Config ℝ) (hx' : c'.extend = .original) (hm' : c'.management = .phoenix)
    (maxSize' sizeNode' sizeBase' : Nat) (junk' : List Int) (last' : Nat) (hl : junk'.length = junk.length) (s0' : State ℝ F L)
    (hs0' : new c' maxSize' sizeNode' sizeBase' junk' last' = .ok s0') (ops' : List (Op ℝ F L)) (hP' : ∀ op ∈ ops', PlainUse c' op)
    (hroom' : junk'.length * (2 * (taught ops').length - 1) + (if c'.trim = .none then 0 else 2) ≤ s0'.forest.nodes.length)
    (hp : (taught ops).Perm (taught ops')) (qs : List ((Fin F → ℝ) × Nat)) :
    draws {ω | ∃ s pos, run c p (nums ω) ops s0 0 = .ok (s, pos) ∧ ∀ q ∈ qs, (predict c p s q.1 none).map (fun r => r.2) = .ok q.2} =
    draws {ω | ∃ s pos, run c' p (nums ω) ops' s0' 0 = .ok (s, pos) ∧ ∀ q ∈ qs, (predict c' p s q.1 none).map (fun r => r.2) = .ok q.2} := by
  rw [C147_predictions c hx hm p hlife hlog h0 hdisc maxSize sizeNode sizeBase junk last hn s0 hs0 ops hP hroom hexp hz qs,
    C147_predictions c' hx' hm' p hlife hlog h0 hdisc maxSize' sizeNode' sizeBase' junk' last' (hl ▸ hn) s0' hs0' ops' hP' hroom' hexp (fun h => hz (h ▸ hp).eq_nil) qs,
    mondrianLaw_perm p.lifetime hp, hl]

end

/-! ### Examples -/

/-- three points in two orders, with other calls in between, and two queries -/
example : ∃ s0 s0' : State ℝ 2 2, new cfgR 120 10 5 [0, 0] 0 = .ok s0 ∧ new cfgR 150 10 5 [7, 3] 0 = .ok s0' ∧
    draws {ω | ∃ s pos, run cfgR exR (nums ω) [.train (pt2 0 0) 0, .train (pt2 5 5) 1, .fade, .predict (pt2 1 1) none, .train (pt2 1 3) 1] s0 0 = .ok (s, pos) ∧
      ∀ q ∈ [(pt2 1 1, 0), (pt2 4 4, 1)], (predict cfgR exR s q.1 none).map (fun r => r.2) = .ok q.2} =
    draws {ω | ∃ s pos, run cfgR exR (nums ω) [.train (pt2 1 3) 1, .other 3, .train (pt2 0 0) 0, .train (pt2 5 5) 1] s0' 0 = .ok (s, pos) ∧
      ∀ q ∈ [(pt2 1 1, 0), (pt2 4 4, 1)], (predict cfgR exR s q.1 none).map (fun r => r.2) = .ok q.2} := by
  refine ⟨_, _, rfl, rfl, C147_order cfgR rfl rfl exR (by norm_num [exR]) rfl Real.exp_zero (by norm_num [exR]) 120 10 5 [0, 0] 0 (by norm_num) _ rfl _ (by simp [PlainUse])
    ?_ Real.measurable_exp ?_ cfgR rfl rfl 150 10 5 [7, 3] 0 rfl _ rfl _ (by simp [PlainUse]) ?_ ?_ _⟩
  · simp [taught, Mondrian.points, plainCall, List.filterMap, cfgR]
  · simp [taught, Mondrian.points, plainCall, List.filterMap]
  · simp [taught, Mondrian.points, plainCall, List.filterMap, cfgR]
  · exact List.perm_append_comm (l₁ := [(pt2 0 0, 0), (pt2 5 5, 1)]) (l₂ := [(pt2 1 3, (1 : Fin 2))])

/-- two trees: the two points are not separated before the time 1 with probability `exp (-8)` -/
example : ∃ s0 : State ℝ 2 2, new cfgR 90 10 5 [0, 0] 0 = .ok s0 ∧
    draws {ω | ∃ s pos trees, run cfgR exR (nums ω) [.train (pt2 0 0) 0, .other 3, .predict (pt2 1 1) none, .train (pt2 1 3) 1] s0 0 = .ok (s, pos) ∧
      HoldsAll s.forest trees ∧ ∀ k : Fin 2, ∃ t, trees[k]? = some (some t) ∧ t.Until 1 [(pt2 0 0, 0), (pt2 1 3, 1)]} = ENNReal.ofReal (Real.exp (-8)) := by
  refine ⟨_, rfl, (C147_times cfgR rfl rfl exR (by norm_num [exR]) rfl Real.exp_zero (by norm_num [exR]) 90 10 5 [0, 0] 0 (by norm_num) _ rfl _ (by simp [PlainUse])
    ?_ _ (fun k => ⟨by simp, by simp [taught, Mondrian.points, plainCall, List.filterMap]⟩) _ (fun k => hull_pair _ _) (fun _ => 1) (fun k => by norm_num [exR])).trans ?_⟩
  · simp [taught, Mondrian.points, plainCall, List.filterMap, cfgR]
  · congr 2
    simp [Fin.sum_univ_two, pt2, Box.size]
    norm_num

end Orp.Coarse
