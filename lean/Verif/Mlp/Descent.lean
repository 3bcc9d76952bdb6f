import Verif.Mlp.Props

/-!
Property C114: a small step of the perceptron reduces the error.
-/

set_option linter.unusedSectionVars false

open Finset

namespace Orp.Mlp

/-- the weights on the straight line from `W` in the direction `V` -/
def line (W V : Nat → Nat → Nat → ℝ) (t : ℝ) : Nat → Nat → Nat → ℝ := fun l j i => W l j i + t * V l j i

/-- the change of the outputs of layer `l` along the line -/
noncomputable def slope (deriv : ℝ → ℝ) (W V : Nat → Nat → Nat → ℝ) (n : Nat → Nat) (v : Nat → Nat → ℝ) : Nat → Nat → ℝ
  | 0 => fun _ => 0
  | l + 1 => fun j => deriv (v (l + 1) j) * ((∑ i ∈ range (n l), (V l j i * v l i + W l j i * slope deriv W V n v l i)) + V l j (n l))

theorem line_zero (W V : Nat → Nat → Nat → ℝ) : line W V 0 = W := by
  funext l j i
  simp [line]

theorem layerOut_line (act deriv : ℝ → ℝ) (W V : Nat → Nat → Nat → ℝ) (n : Nat → Nat) (last : Nat) (x : Nat → ℝ)
    (hact : ∀ l j, l < last → j < n (l + 1) → HasDerivAt act (deriv (layerOut act W n x (l + 1) j)) (preact W n l (layerOut act W n x l) j)) :
    ∀ (l j : Nat), l ≤ last → j < n l → HasDerivAt (fun t => layerOut act (line W V t) n x l j) (slope deriv W V n (layerOut act W n x) l j) 0
  | 0, j, _, _ => hasDerivAt_const _ _
  | l + 1, j, hl, hj => by
      have ha := hact l j (by omega) hj
      have hp : HasDerivAt (fun t => preact (line W V t) n l (layerOut act (line W V t) n x l) j)
          ((∑ i ∈ range (n l), (V l j i * layerOut act W n x l i + W l j i * slope deriv W V n (layerOut act W n x) l i)) + V l j (n l)) 0 := by
        unfold preact
        have hw : ∀ i, HasDerivAt (fun t => line W V t l j i) (V l j i) 0 := by
          intro i
          have := ((hasDerivAt_id (0 : ℝ)).mul_const (V l j i)).const_add (W l j i)
          simpa [line] using this
        refine HasDerivAt.add (HasDerivAt.fun_sum fun i hi => ?_) (hw _)
        have := (hw i).mul (layerOut_line act deriv W V n last x hact l i (by omega) (mem_range.1 hi))
        rw [line_zero] at this
        exact this
      have he : preact (line W V 0) n l (layerOut act (line W V 0) n x l) j = preact W n l (layerOut act W n x l) j := by rw [line_zero]
      rw [← he] at ha
      exact HasDerivAt.comp (0 : ℝ) ha hp

/-- what the weights between the layers `l` and `l + 1` contribute to the change of the error -/
noncomputable def share (V : Nat → Nat → Nat → ℝ) (n : Nat → Nat) (v D : Nat → Nat → ℝ) (l : Nat) : ℝ :=
  ∑ j ∈ range (n (l + 1)), D (l + 1) j * ∑ i ∈ range (n l + 1), V l j i * inp n v l i

theorem deltas_slope {deriv : ℝ → ℝ} {W V : Nat → Nat → Nat → ℝ} {n : Nat → Nat} {last : Nat} {v D : Nat → Nat → ℝ} {e : Nat → ℝ}
    (hD : Deltas deriv W n last v e D) : ∀ l, l < last →
    ∑ j ∈ range (n (l + 1)), D (l + 1) j * ((∑ i ∈ range (n l), (V l j i * v l i + W l j i * slope deriv W V n v l i)) + V l j (n l)) =
      ∑ k ∈ range (l + 1), share V n v D k := by
  intro l
  have hin : ∀ l j, ∑ i ∈ range (n l + 1), V l j i * inp n v l i = (∑ i ∈ range (n l), V l j i * v l i) + V l j (n l) := by
    intro l j
    rw [sum_range_succ]
    congr 1
    · refine sum_congr rfl fun i hi => ?_
      rw [inp, if_pos (mem_range.1 hi)]
    · rw [inp, if_neg (lt_irrefl _), mul_one]
  induction l with
  | zero =>
      intro _
      rw [sum_range_one, share]
      refine sum_congr rfl fun j _ => ?_
      rw [hin]
      simp [slope]
  | succ l ih =>
      intro hl
      rw [sum_range_succ, ← ih (by omega), share, add_comm (∑ j ∈ range (n (l + 1)), _)]
      have h1 : ∀ j, D (l + 1 + 1) j * ((∑ i ∈ range (n (l + 1)), (V (l + 1) j i * v (l + 1) i + W (l + 1) j i * slope deriv W V n v (l + 1) i)) + V (l + 1) j (n (l + 1))) =
          D (l + 1 + 1) j * (∑ i ∈ range (n (l + 1) + 1), V (l + 1) j i * inp n v (l + 1) i) +
            ∑ i ∈ range (n (l + 1)), D (l + 1 + 1) j * W (l + 1) j i * slope deriv W V n v (l + 1) i := by
        intro j
        rw [hin, sum_add_distrib]
        rw [show ∑ i ∈ range (n (l + 1)), D (l + 1 + 1) j * W (l + 1) j i * slope deriv W V n v (l + 1) i =
          D (l + 1 + 1) j * ∑ i ∈ range (n (l + 1)), W (l + 1) j i * slope deriv W V n v (l + 1) i by
            rw [mul_sum]; exact sum_congr rfl fun i _ => by ring]
        ring
      rw [sum_congr rfl fun j _ => h1 j, sum_add_distrib]
      congr 1
      rw [sum_comm]
      refine sum_congr rfl fun i _ => ?_
      rw [← sum_mul, hD.step (l + 1) i hl]
      simp only [slope]
      ring

/-- The change of the error along a line -/
theorem halfError_line (act deriv : ℝ → ℝ) (W V : Nat → Nat → Nat → ℝ) (n : Nat → Nat) (last : Nat) (x e : Nat → ℝ)
    (hact : ∀ l j, l < last → j < n (l + 1) → HasDerivAt act (deriv (layerOut act W n x (l + 1) j)) (preact W n l (layerOut act W n x l) j))
    {D : Nat → Nat → ℝ} (hD : Deltas deriv W n last (layerOut act W n x) e D) :
    HasDerivAt (fun t => halfError act n last x e (line W V t)) (∑ k ∈ range last, share V n (layerOut act W n x) D k) 0 := by
  have h1 : HasDerivAt (fun t => halfError act n last x e (line W V t))
      (∑ j ∈ range (n last), (layerOut act W n x last j - e j) * slope deriv W V n (layerOut act W n x) last j) 0 := by
    unfold halfError
    have : HasDerivAt (fun t => ∑ j ∈ range (n last), (layerOut act (line W V t) n x last j - e j) ^ 2)
        (∑ j ∈ range (n last), 2 * ((layerOut act W n x last j - e j) * slope deriv W V n (layerOut act W n x) last j)) 0 := by
      refine HasDerivAt.fun_sum fun j hj => ?_
      have := ((layerOut_line act deriv W V n last x hact last j le_rfl (mem_range.1 hj)).sub_const (e j)).pow 2
      rw [line_zero] at this
      refine this.congr_deriv ?_
      simp
      ring
    refine (this.div_const 2).congr_deriv ?_
    rw [← mul_sum]
    ring
  refine h1.congr_deriv ?_
  cases last with
  | zero => simp [slope]
  | succ l =>
      rw [← deltas_slope hD l (by omega)]
      refine sum_congr rfl fun j _ => ?_
      rw [hD.top]
      simp only [slope]
      ring

theorem layerOut_valid (act : ℝ → ℝ) {W W' : Nat → Nat → Nat → ℝ} (n : Nat → Nat) (last : Nat) (x : Nat → ℝ)
    (h : ∀ l j i, Valid n last l j i → W l j i = W' l j i) : ∀ l, l ≤ last → ∀ j < n l, layerOut act W n x l j = layerOut act W' n x l j
  | 0, _, _, _ => rfl
  | l + 1, hl, j, hj => by
      simp only [layerOut, preact]
      rw [h l j (n l) ⟨by omega, hj, le_rfl⟩]
      congr 2
      refine sum_congr rfl fun i hi => ?_
      rw [h l j i ⟨by omega, hj, (mem_range.1 hi).le⟩, layerOut_valid act n last x h l (by omega) i (mem_range.1 hi)]

theorem halfError_valid (act : ℝ → ℝ) {W W' : Nat → Nat → Nat → ℝ} (n : Nat → Nat) (last : Nat) (x e : Nat → ℝ)
    (h : ∀ l j i, Valid n last l j i → W l j i = W' l j i) : halfError act n last x e W = halfError act n last x e W' := by
  unfold halfError
  congr 1
  refine sum_congr rfl fun j hj => ?_
  rw [layerOut_valid act n last x h last le_rfl j (mem_range.1 hj)]

/-- a function with a negative derivative at 0 is smaller right of 0 -/
theorem descends {f : ℝ → ℝ} {d : ℝ} (h : HasDerivAt f d 0) (hd : d < 0) : ∃ η > 0, ∀ t, 0 < t → t < η → f t < f 0 := by
  have h1 := h.tendsto_slope_zero_right
  have h2 : ∀ᶠ t in nhdsWithin (0 : ℝ) (Set.Ioi 0), t⁻¹ • (f (0 + t) - f 0) < 0 := h1.eventually (gt_mem_nhds hd)
  rw [eventually_nhdsWithin_iff, Metric.eventually_nhds_iff] at h2
  obtain ⟨η, hη, h3⟩ := h2
  refine ⟨η, hη, fun t ht ht' => ?_⟩
  have := h3 (y := t) (by rw [Real.dist_eq, sub_zero, abs_of_pos ht]; exact ht') ht
  rw [zero_add, smul_eq_mul] at this
  have h4 : 0 < t⁻¹ := inv_pos.2 ht
  nlinarith [mul_neg_iff.1 this]

theorem pass (g : Int) (act deriv : ℝ → ℝ) (net : Net ℝ) (hf : Fits net) (input expected : List ℝ) (hi : net.n 0 ≤ input.length)
    (he : net.n net.last ≤ expected.length) {D : Nat → Nat → ℝ}
    (hD : Deltas deriv net.W net.n net.last (layerOut act net.W net.n (fun i => input.getD i 0)) (fun j => expected.getD j 0) D) :
    ∃ net1 r net2, feedForward act net input = .ok (net1, r) ∧
      backpropagate (some g) deriv net1 expected = .ok (net2,
        2 * halfError act net.n net.last (fun i => input.getD i 0) (fun j => expected.getD j 0) net.W / (net.n net.last : ℝ)) ∧
      Fits net2 ∧ net2.sizes = net.sizes ∧ net2.weights.length = net.weights.length ∧
      (∀ p, wB net.n net.last ≤ p → net2.weights[p]? = net.weights[p]?) ∧
      ∀ l j i, Valid net.n net.last l j i →
        net2.W l j i = net.W l j i + net.rate * -(inp net.n (layerOut act net.W net.n (fun i => input.getD i 0)) l i * D (l + 1) j) := by
  obtain ⟨out', a1, a2, a3⟩ := feedForward_spec act net hf input hi
  let net1 : Net ℝ := { net with out := out' }
  have hf1 : Fits net1 := ⟨hf.layers, hf.weights, by rw [show net1.out = out' from rfl, a2]; exact hf.outs⟩
  obtain ⟨w', out2, b1, b2, b3, b4, b5⟩ := backpropagate_spec g deriv net1 hf1 expected he a3 hD
  let net2 : Net ℝ := { net1 with
    weights := w'
    out := out2 }
  refine ⟨net1, _, net2, a1, ?_, ?_, rfl, b2, b4, fun l j i hv => ?_⟩
  · rw [b1]
    congr 2
    unfold halfError
    rw [mul_div_cancel₀ _ two_ne_zero]
    rfl
  · exact ⟨hf.layers, le_of_le_of_eq hf.weights b2.symm, le_of_le_of_eq hf1.outs b3.symm⟩
  · have h : w'[addr net.n l j i]? = some (net.W l j i + -net.rate * inp net.n _ l i * _) := b5 l j i hv
    show w'.getD (addr net.n l j i) 0 = _
    rw [List.getD_eq_getElem?_getD, h]
    simp only [Option.getD_some]
    ring

theorem weights_ext {net net' : Net ℝ} (hf : Fits net) (hs : net'.sizes = net.sizes) (hl : net'.weights.length = net.weights.length)
    (ht : ∀ p, wB net.n net.last ≤ p → net'.weights[p]? = net.weights[p]?)
    (hW : ∀ l j i, Valid net.n net.last l j i → net'.W l j i = net.W l j i) : net'.weights = net.weights := by
  have hn : net'.n = net.n := by funext l; simp [Net.n, hs]
  refine List.ext_getElem? fun p => ?_
  by_cases hp : wB net.n net.last ≤ p
  · exact ht p hp
  · obtain ⟨l, j, i, hv, rfl⟩ := C40_dense net.n net.last p (by omega)
    have h1 : addr net.n l j i < net.weights.length := lt_of_lt_of_le (addr_lt hv) hf.weights
    have h2 := hW l j i hv
    simp only [Net.W, hn, List.getD_eq_getElem?_getD] at h2
    rw [List.getElem?_eq_getElem h1, List.getElem?_eq_getElem (by omega)] at h2 ⊢
    simpa using h2

/-- **C114** For every network, input and expected output there is a bound such that with every smaller positive learning rate the step of `feed_forward` and
`backpropagate` either changes no weight at all, or the error that `backpropagate` returns when the example is presented again is strictly smaller than before. -/
theorem C114_descent (g g' : Int) (act deriv : ℝ → ℝ) (net : Net ℝ) (hf : Fits net) (input expected : List ℝ) (hi : net.n 0 ≤ input.length)
    (he : net.n net.last ≤ expected.length)
    (hact : ∀ l j, l < net.last → j < net.n (l + 1) →
      HasDerivAt act (deriv (layerOut act net.W net.n (fun i => input.getD i 0) (l + 1) j))
        (preact net.W net.n l (layerOut act net.W net.n (fun i => input.getD i 0) l) j)) :
    ∃ η > 0, ∀ rate, 0 < rate → rate < η → ∃ net1 r1 net2 err1 net3 r2 net4 err2,
      feedForward act { net with rate := rate } input = .ok (net1, r1) ∧ backpropagate (some g) deriv net1 expected = .ok (net2, err1) ∧
      feedForward act net2 input = .ok (net3, r2) ∧ backpropagate (some g') deriv net3 expected = .ok (net4, err2) ∧
      (net2.weights = net.weights ∨ err2 < err1) := by
  obtain ⟨D, hD⟩ : ∃ D, Deltas deriv net.W net.n net.last (layerOut act net.W net.n (fun i => input.getD i 0)) (fun j => expected.getD j 0) D :=
    ⟨_, deltas_exist deriv net.W net.n net.last _ _⟩
  set v := layerOut act net.W net.n (fun i => input.getD i 0) with hv
  let V : Nat → Nat → Nat → ℝ := fun l j i => -(inp net.n v l i * D (l + 1) j)
  have hder := halfError_line act deriv net.W V net.n net.last (fun i => input.getD i 0) (fun j => expected.getD j 0) hact hD
  have hshare : ∀ k, share V net.n v D k = -∑ j ∈ range (net.n (k + 1)), ∑ i ∈ range (net.n k + 1), (V k j i) ^ 2 := by
    intro k
    rw [share, ← sum_neg_distrib]
    refine sum_congr rfl fun j _ => ?_
    rw [mul_sum, ← sum_neg_distrib]
    refine sum_congr rfl fun i _ => ?_
    simp only [V]
    ring
  have hle : ∀ k, share V net.n v D k ≤ 0 := by
    intro k
    rw [hshare, neg_nonpos]
    exact sum_nonneg fun j _ => sum_nonneg fun i _ => sq_nonneg _
  by_cases hz : ∀ l j i, Valid net.n net.last l j i → V l j i = 0
  · refine ⟨1, one_pos, fun rate _ _ => ?_⟩
    obtain ⟨net1, r, net2, a1, a2, a3, a4, a5, a6, a7⟩ := pass g act deriv { net with rate := rate } ⟨hf.layers, hf.weights, hf.outs⟩ input expected hi he hD
    have hn : net2.n = net.n := by funext l; simp [Net.n, a4]
    have hlast : net2.last = net.last := by simp [Net.last, a4]
    obtain ⟨net3, r2, net4, b1, b2, -⟩ := pass g' act deriv net2 a3 input expected (by rw [hn]; exact hi) (by rw [hn, hlast]; exact he)
      (deltas_exist deriv net2.W net2.n net2.last _ _)
    refine ⟨net1, r, net2, _, net3, r2, net4, _, a1, a2, b1, b2, .inl ?_⟩
    refine weights_ext hf a4 a5 a6 fun l j i h => ?_
    have := a7 l j i h
    have h0 : -(inp net.n v l i * D (l + 1) j) = 0 := hz l j i h
    rw [this]
    show net.W l j i + rate * -(inp net.n v l i * D (l + 1) j) = _
    rw [h0, mul_zero, add_zero]
  · push Not at hz
    obtain ⟨l, j, i, ⟨hl, hj, hi'⟩, hne⟩ := hz
    have hneg : ∑ k ∈ range net.last, share V net.n v D k < 0 := by
      refine sum_neg' (fun k _ => hle k) ⟨l, mem_range.2 hl, ?_⟩
      rw [hshare, neg_lt_zero]
      refine sum_pos' (fun _ _ => sum_nonneg fun _ _ => sq_nonneg _) ⟨j, mem_range.2 hj, ?_⟩
      exact sum_pos' (fun _ _ => sq_nonneg _) ⟨i, mem_range.2 (by omega), by positivity⟩
    obtain ⟨η, hη, hlow⟩ := descends hder hneg
    refine ⟨η, hη, fun rate h0 h1 => ?_⟩
    obtain ⟨net1, r, net2, a1, a2, a3, a4, a5, a6, a7⟩ := pass g act deriv { net with rate := rate } ⟨hf.layers, hf.weights, hf.outs⟩ input expected hi he hD
    have hn : net2.n = net.n := by funext l; simp [Net.n, a4]
    have hlast : net2.last = net.last := by simp [Net.last, a4]
    obtain ⟨net3, r2, net4, b1, b2, -⟩ := pass g' act deriv net2 a3 input expected (by rw [hn]; exact hi) (by rw [hn, hlast]; exact he)
      (deltas_exist deriv net2.W net2.n net2.last _ _)
    refine ⟨net1, r, net2, _, net3, r2, net4, _, a1, a2, b1, b2, .inr ?_⟩
    have hlow := hlow rate h0 h1
    simp only [line_zero] at hlow
    rw [hn, hlast, halfError_valid act net.n net.last (W' := line net.W V rate) _ _ fun l j i h => a7 l j i h]
    have hpos : 0 < net.n net.last := by
      rcases Nat.eq_zero_or_pos (net.n net.last) with h | h
      · simp [halfError, h] at hlow
      · exact h
    have hpos' : (0 : ℝ) < (net.n net.last : ℝ) := by exact_mod_cast hpos
    show 2 * _ / (net.n net.last : ℝ) < 2 * halfError act net.n net.last _ _ net.W / (net.n net.last : ℝ)
    gcongr

/-- **C114** A learned example is left alone: when the output of the network is the expected one, the error is 0 and no weight changes, whatever the learning rate. -/
theorem C114_learned (g : Int) (act deriv : ℝ → ℝ) (net : Net ℝ) (hf : Fits net) (input expected : List ℝ) (hi : net.n 0 ≤ input.length)
    (he : net.n net.last ≤ expected.length) :
    ∃ net1 result net2 err, feedForward act net input = .ok (net1, result) ∧ backpropagate (some g) deriv net1 expected = .ok (net2, err) ∧
      (err = 0 ↔ result = expected.take (net.n net.last)) ∧ (err = 0 → net2.weights = net.weights) := by
  have hD := deltas_exist deriv net.W net.n net.last (layerOut act net.W net.n (fun i => input.getD i 0)) (fun j => expected.getD j 0)
  generalize (fun l => deltaAux deriv net.W net.n net.last (layerOut act net.W net.n (fun i => input.getD i 0)) (fun j => expected.getD j 0) (net.last - l)) = D at hD
  obtain ⟨out', c1, -, -⟩ := feedForward_spec act net hf input hi
  obtain ⟨net1, r, net2, a1, a2, a3, a4, a5, a6, a7⟩ := pass g act deriv net hf input expected hi he hD
  obtain ⟨-, rfl⟩ := Prod.mk.inj (Except.ok.inj (a1.symm.trans c1))
  have hz : 2 * halfError act net.n net.last (fun i => input.getD i 0) (fun j => expected.getD j 0) net.W / (net.n net.last : ℝ) = 0 →
      ∀ j < net.n net.last, layerOut act net.W net.n (fun i => input.getD i 0) net.last j - expected.getD j 0 = 0 := by
    intro h j hj
    have hpos : (net.n net.last : ℝ) ≠ 0 := by
      have : net.n net.last ≠ 0 := by omega
      exact_mod_cast this
    rw [div_eq_zero_iff, or_iff_left hpos, halfError, mul_div_cancel₀ _ two_ne_zero, sum_eq_zero_iff_of_nonneg fun _ _ => sq_nonneg _] at h
    exact pow_eq_zero_iff two_ne_zero |>.1 (h j (mem_range.2 hj))
  refine ⟨net1, _, net2, _, a1, a2, ⟨fun h => ?_, fun h => ?_⟩, fun h => ?_⟩
  · refine List.ext_getElem (by simp [he]) fun j h1 h2 => ?_
    have hj : j < net.n net.last := by simpa using h1
    have := hz h j hj
    rw [List.getD_eq_getElem?_getD, List.getElem?_eq_getElem (by omega)] at this
    simp only [List.getElem_map, List.getElem_range, List.getElem_take]
    exact sub_eq_zero.1 this
  · have : ∀ j ∈ range (net.n net.last), (layerOut act net.W net.n (fun i => input.getD i 0) net.last j - expected.getD j 0) ^ 2 = 0 := by
      intro j hj
      have hj := mem_range.1 hj
      have h1 := congrArg (fun l => l[j]?) h
      simp only [List.getElem?_map, List.getElem?_range hj, List.getElem?_take, if_pos hj, Option.map_some] at h1
      rw [List.getD_eq_getElem?_getD, ← h1]
      simp
    rw [halfError, sum_eq_zero this]
    simp
  · have h0 := hz h
    have hDz : ∀ k l, l + k = net.last → ∀ j < net.n l, D l j = 0 := by
      intro k
      induction k with
      | zero =>
          intro l hl j hj
          obtain rfl : l = net.last := by omega
          rw [hD.top, h0 j hj, mul_zero]
      | succ k ih =>
          intro l hl j hj
          rw [hD.step l j (by omega), sum_eq_zero fun m hm => by rw [ih (l + 1) (by omega) m (mem_range.1 hm), zero_mul], zero_mul]
    refine weights_ext hf a4 a5 a6 fun l j i hv => ?_
    rw [a7 l j i hv, hDz (net.last - (l + 1)) (l + 1) (by have := hv.1; omega) j hv.2.1]
    simp

/-- a network with a hidden layer -/
noncomputable def sigNet : Net ℝ := { sizes := [1, 2, 1], weights := List.replicate 7 1, out := List.replicate 4 0, rate := 1 }

/-- the hypotheses of C114 hold for the sigmoid networks -/
example : ∃ η > 0, ∀ rate, 0 < rate → rate < η → ∃ net1 r1 net2 err1 net3 r2 net4 err2,
      feedForward Real.sigmoid { sigNet with rate := rate } [3] = .ok (net1, r1) ∧
      backpropagate (some 0) (fun y => y * (1 - y)) net1 [0] = .ok (net2, err1) ∧
      feedForward Real.sigmoid net2 [3] = .ok (net3, r2) ∧ backpropagate (some 0) (fun y => y * (1 - y)) net3 [0] = .ok (net4, err2) ∧
      (net2.weights = sigNet.weights ∨ err2 < err1) :=
  C114_descent 0 0 Real.sigmoid (fun y => y * (1 - y)) sigNet ⟨by simp [sigNet], by simp [sigNet, wB, Net.n, Net.last], by simp [sigNet, oB, Net.n, Net.last]⟩ [3] [0]
    (by simp [sigNet, Net.n]) (by simp [sigNet, Net.n, Net.last]) fun l j _ _ => by
      rw [layerOut]
      exact Real.hasDerivAt_sigmoid _

/-- With a large learning rate the error can grow: the bound on the rate is needed. -/
theorem C114_large_rate : (feedForward (fun y => y) exNet [3 / 2, 3]).bind (fun r => (backpropagate (some 1234) (fun _ => 1) r.1 [4]).bind fun q =>
      (feedForward (fun y => y) q.1 [3 / 2, 3]).bind fun r' => (backpropagate (some 1234) (fun _ => 1) r'.1 [4]).map fun q' => (q.2, q'.2)) =
    .ok (64, 404496 / 625) := by decide +kernel

end Orp.Mlp
