import Verif.Mondrian.Cuts
import Mathlib.MeasureTheory.Integral.IntervalIntegral.FundThmCalculus
import Mathlib.Analysis.SpecialFunctions.Log.Deriv

/-!
The integral over the time of a split.
-/

set_option linter.unusedSectionVars false

namespace Orp.Mondrian

open MeasureTheory Orp.Reservoir

/-- The value at time `r` of a process that ends at time `T` with value `g`: at rate `w` something happens before, of which a part `k` leads to the value
`exp (-ℓ (life - s))` and the rest to nothing. -/
noncomputable def val (w k ℓ life T g r : ℝ) : ℝ :=
  Real.exp (w * r) * (Real.exp (-(w * T)) * g + k * ∫ s in r..T, Real.exp (-(w * s) - ℓ * (life - s)))

theorem expCont (w ℓ life : ℝ) : Continuous fun s : ℝ => Real.exp (-(w * s) - ℓ * (life - s)) := by fun_prop

theorem val_nonneg {w k ℓ life T g r : ℝ} (hk : 0 ≤ k) (hg : 0 ≤ g) (hr : r ≤ T) : 0 ≤ val w k ℓ life T g r := by
  unfold val
  have := intervalIntegral.integral_nonneg hr (f := fun s => Real.exp (-(w * s) - ℓ * (life - s))) (μ := volume) fun s _ => Real.exp_nonneg _
  positivity

theorem val_end (w k ℓ life T g : ℝ) : val w k ℓ life T g T = g := by
  unfold val
  rw [intervalIntegral.integral_same, mul_zero, add_zero, ← mul_assoc, ← Real.exp_add]
  simp

theorem val_deriv (w k ℓ life T g r : ℝ) : HasDerivAt (val w k ℓ life T g) (w * val w k ℓ life T g r - k * Real.exp (-(ℓ * (life - r)))) r := by
  have h1 : HasDerivAt (fun r : ℝ => ∫ s in r..T, Real.exp (-(w * s) - ℓ * (life - s))) (-Real.exp (-(w * r) - ℓ * (life - r))) r :=
    (intervalIntegral.integral_hasStrictDerivAt_left ((expCont w ℓ life).intervalIntegrable _ _)
      (expCont w ℓ life).stronglyMeasurable.stronglyMeasurableAtFilter (expCont w ℓ life).continuousAt).hasDerivAt
  have h2 : HasDerivAt (fun r : ℝ => Real.exp (w * r)) (Real.exp (w * r) * w) r := by
    simpa using ((hasDerivAt_id r).const_mul w).exp
  have h3 := h2.mul ((h1.const_mul k).const_add (Real.exp (-(w * T)) * g))
  refine h3.congr_deriv ?_
  unfold val
  have e : Real.exp (w * r) * Real.exp (-(w * r) - ℓ * (life - r)) = Real.exp (-(ℓ * (life - r))) := by
    rw [← Real.exp_add]; congr 1; ring
  rw [← e]
  ring

/-- integrals over a draw below a bound -/
theorem draw_integral {c : ℝ} (h0 : 0 ≤ c) (h1 : c ≤ 1) {f G : ℝ → ℝ} (hG : ∀ u < 1, HasDerivAt G (f u) u) (hc : c < 1) (hf : ∀ u, 0 ≤ u → u ≤ c → 0 ≤ f u) :
    ∫⁻ u in {u : U01 | u.1 < c}, ENNReal.ofReal (f u.1) = ENNReal.ofReal (G c - G 0) ∧ 0 ≤ G c - G 0 := by
  have hcont : ContinuousOn G (Set.Icc 0 c) := fun u hu => (hG u (lt_of_le_of_lt hu.2 hc)).continuousAt.continuousWithinAt
  have hder : ∀ u ∈ Set.Ioo 0 c, HasDerivAt G (f u) u := fun u hu => hG u (hu.2.trans hc)
  have hint : IntegrableOn f (Set.Ioc 0 c) := intervalIntegral.integrableOn_deriv_of_nonneg hcont hder fun u hu => hf u hu.1.le hu.2.le
  have hii : IntervalIntegrable f volume 0 c := (intervalIntegrable_iff_integrableOn_Ioc_of_le h0).2 hint
  have hft := intervalIntegral.integral_eq_sub_of_hasDerivAt_of_le h0 hcont hder hii
  refine ⟨?_, by rw [← hft]; exact intervalIntegral.integral_nonneg h0 fun u hu => hf u hu.1 hu.2⟩
  have hS : MeasurableSet {u : U01 | u.1 < c} := measurableSet_lt measurable_subtype_coe measurable_const
  have e1 : ∫⁻ u in {u : U01 | u.1 < c}, ENNReal.ofReal (f u.1) = ∫⁻ u : U01, (Set.Iio c).indicator (fun u => ENNReal.ofReal (f u)) u.1 := by
    rw [← lintegral_indicator hS]
    refine lintegral_congr fun u => ?_
    by_cases h : u.1 < c
    · rw [Set.indicator_of_mem (show u ∈ {u : U01 | u.1 < c} from h), Set.indicator_of_mem (show u.1 ∈ Set.Iio c from h)]
    · rw [Set.indicator_of_notMem (show u ∉ {u : U01 | u.1 < c} from h), Set.indicator_of_notMem (show u.1 ∉ Set.Iio c from h)]
  have e2 : ∫⁻ u : U01, (Set.Iio c).indicator (fun u => ENNReal.ofReal (f u)) u.1 = ∫⁻ u in Set.Ico (0 : ℝ) 1, (Set.Iio c).indicator (fun u => ENNReal.ofReal (f u)) u :=
    lintegral_subtype_comap measurableSet_Ico _
  rw [e1, e2, lintegral_indicator measurableSet_Iio, Measure.restrict_restrict measurableSet_Iio]
  have e3 : Set.Iio c ∩ Set.Ico (0 : ℝ) 1 = Set.Ico 0 c := by
    ext u
    simp only [Set.mem_inter_iff, Set.mem_Iio, Set.mem_Ico]
    constructor
    · rintro ⟨a, b, -⟩; exact ⟨b, a⟩
    · rintro ⟨a, b⟩; exact ⟨b, a, b.trans_le h1⟩
  rw [e3, ← hft, intervalIntegral.integral_of_le h0, ofReal_integral_eq_lintegral_ofReal hint ?_]
  · exact setLIntegral_congr Ico_ae_eq_Ioc
  · refine (ae_restrict_iff' measurableSet_Ioc).2 (Filter.Eventually.of_forall fun u hu => hf u hu.1.le hu.2)

/-- The expected value after a split at an exponentially distributed time, or at the end -/
theorem time_ex {w k w' k' ℓ life a P T g : ℝ} (ha : 0 < a) (hPT : P ≤ T) (hg : 0 ≤ g) (hk : 0 ≤ k) (hk' : 0 ≤ k') (h1 : 0 ≤ a + w' - w) (h2 : 0 ≤ k - k') :
    (∫⁻ u in {u : U01 | u.1 < 1 - Real.exp (-(a * (T - P)))}, ENNReal.ofReal (val w' k' ℓ life (P + Real.log (1 - u.1) / (-a))
        (((a + w' - w) * val w k ℓ life T g (P + Real.log (1 - u.1) / (-a)) + (k - k') * Real.exp (-(ℓ * (life - (P + Real.log (1 - u.1) / (-a)))))) / a) P)) +
      ENNReal.ofReal (Real.exp (-(a * (T - P)))) * ENNReal.ofReal (val w' k' ℓ life T g P) = ENNReal.ofReal (val w k ℓ life T g P) := by
  let τ : ℝ → ℝ := fun u => P + Real.log (1 - u) / (-a)
  let J : ℝ → ℝ := fun t => ∫ s in P..t, Real.exp (-(w' * s) - ℓ * (life - s))
  let f : ℝ → ℝ := fun u => val w' k' ℓ life (τ u) (((a + w' - w) * val w k ℓ life T g (τ u) + (k - k') * Real.exp (-(ℓ * (life - τ u)))) / a) P
  let G : ℝ → ℝ := fun u => -((1 - u) * (Real.exp (w' * P) * (k' * J (τ u) + Real.exp (-(w' * τ u)) * val w k ℓ life T g (τ u))))
  have hexp : Real.exp (-(a * (T - P))) ≤ 1 := Real.exp_le_one_iff.2 (by
    have := mul_nonneg ha.le (sub_nonneg.2 hPT); linarith)
  have hτ : ∀ u < 1, HasDerivAt τ (1 / (a * (1 - u))) u := by
    intro u hu
    have h : (1 : ℝ) - u ≠ 0 := by linarith
    have := (((hasDerivAt_id u).const_sub 1).log h).div_const (-a)
    refine (this.const_add P).congr_deriv ?_
    simp only [id]
    field_simp
  have hG : ∀ u < 1, HasDerivAt G (f u) u := by
    intro u hu
    have h : (1 : ℝ) - u ≠ 0 := by linarith
    have hJ : HasDerivAt J (Real.exp (-(w' * τ u) - ℓ * (life - τ u))) (τ u) :=
      ((expCont w' ℓ life).integral_hasStrictDerivAt P (τ u)).hasDerivAt
    have d1 := hJ.comp u (hτ u hu)
    have d2 := (val_deriv w k ℓ life T g (τ u)).comp u (hτ u hu)
    have d3 : HasDerivAt (fun u => Real.exp (-(w' * τ u))) (Real.exp (-(w' * τ u)) * -(w' * (1 / (a * (1 - u))))) u := ((hτ u hu).const_mul w').neg.exp
    have d4 := (((d1.const_mul k').add (d3.mul d2)).const_mul (Real.exp (w' * P)))
    have d5 := (((hasDerivAt_id u).const_sub 1).mul d4).neg
    refine d5.congr_deriv ?_
    simp only [f, id, Function.comp_apply, Pi.add_apply, Pi.mul_apply]
    generalize val w k ℓ life T g (τ u) = A
    unfold val
    have e1 : Real.exp (-(w' * τ u) - ℓ * (life - τ u)) = Real.exp (-(w' * τ u)) * Real.exp (-(ℓ * (life - τ u))) := by
      rw [← Real.exp_add]; congr 1
    simp only [J]
    rw [e1]
    field_simp
    ring
  have hc0 : 0 ≤ 1 - Real.exp (-(a * (T - P))) := by linarith
  have hc1 : 1 - Real.exp (-(a * (T - P))) < 1 := by linarith [Real.exp_pos (-(a * (T - P)))]
  have hτle : ∀ u, 0 ≤ u → u ≤ 1 - Real.exp (-(a * (T - P))) → P ≤ τ u ∧ τ u ≤ T := by
    intro u h0 hu
    have hu1 : 0 < 1 - u := by linarith
    constructor
    · have := log_nonneg' (e := a) ha h0 (by linarith : u < 1)
      simp only [τ]; linarith
    · have hl : -(a * (T - P)) ≤ Real.log (1 - u) := by
        rw [Real.le_log_iff_exp_le hu1]; linarith
      simp only [τ]
      have : Real.log (1 - u) / (-a) ≤ T - P := by
        rw [div_neg, neg_le, le_div_iff₀ ha]; linarith
      linarith
  have hf : ∀ u, 0 ≤ u → u ≤ 1 - Real.exp (-(a * (T - P))) → 0 ≤ f u := by
    intro u h0 hu
    obtain ⟨t1, t2⟩ := hτle u h0 hu
    refine val_nonneg hk' (div_nonneg (add_nonneg (mul_nonneg h1 (val_nonneg hk hg t2)) (mul_nonneg h2 (Real.exp_nonneg _))) ha.le) t1
  obtain ⟨key, hpos⟩ := draw_integral hc0 hc1.le hG hc1 hf
  have e0 : τ 0 = P := by simp [τ]
  have eT : τ (1 - Real.exp (-(a * (T - P)))) = T := by
    simp only [τ]
    rw [sub_sub_cancel, Real.log_exp]
    field_simp
    ring
  have g0 : G 0 = -val w k ℓ life T g P := by
    simp only [G, e0, J]
    rw [intervalIntegral.integral_same]
    have : Real.exp (w' * P) * Real.exp (-(w' * P)) = 1 := by rw [← Real.exp_add]; simp
    linear_combination (-val w k ℓ life T g P) * this
  have gT : G (1 - Real.exp (-(a * (T - P)))) = -(Real.exp (-(a * (T - P))) * val w' k' ℓ life T g P) := by
    simp only [G, eT, val_end, J]
    unfold val
    ring
  rw [gT, g0] at key hpos
  have hv' := val_nonneg (w := w') (ℓ := ℓ) (life := life) hk' hg hPT
  rw [show (∫⁻ u in {u : U01 | u.1 < 1 - Real.exp (-(a * (T - P)))}, ENNReal.ofReal (val w' k' ℓ life (P + Real.log (1 - u.1) / (-a))
        (((a + w' - w) * val w k ℓ life T g (P + Real.log (1 - u.1) / (-a)) + (k - k') * Real.exp (-(ℓ * (life - (P + Real.log (1 - u.1) / (-a)))))) / a) P)) =
      ∫⁻ u in {u : U01 | u.1 < 1 - Real.exp (-(a * (T - P)))}, ENNReal.ofReal (f u.1) from rfl, key, ← ENNReal.ofReal_mul (Real.exp_nonneg _), ← ENNReal.ofReal_add]
  · congr 1; ring
  · exact hpos
  · exact mul_nonneg (Real.exp_nonneg _) hv'

end Orp.Mondrian
