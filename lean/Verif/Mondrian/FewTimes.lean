import Verif.Mondrian.Few
import Verif.Utils.ExpGrid

/-!
C169: what a random function with only `R` different values does to the times of the splits of the Mondrian trees (mondrian.hpp:126-163).
-/

set_option linter.unusedSectionVars false

namespace Orp.Mondrian

open MeasureTheory Set
open Orp.Reservoir (U01 grid vol_lt grid_le)

variable {F : Nat}

/-- a point outside the box is kept out of a split exactly if the time drawn is too late -/
theorem draw_none_iff (p : Params ℝ) (hlog : p.log = Real.log) (ω : Nat → ℝ) (hω : 0 ≤ ω 0 ∧ ω 0 < 1) (b : Box ℝ F) (x : Fin F → ℝ) (ptau tau : ℝ)
    (hs : 0 < ∑ i, extent b x i) :
    draw p ω 0 b x ptau tau = .ok (none, 1) ↔ tau - ptau ≤ Utils.randExponential (∑ i, extent b x i) (ω 0) := by
  have he : (0 : ℝ) ≤ Utils.randExponential (∑ i, extent b x i) (ω 0) := (Utils.C65_rand_exponential hs).1 ⟨ω 0, hω⟩
  unfold draw
  simp only [if_neg hs.ne', hlog, Nat.zero_add]
  rw [show Real.log (1 - ω 0) / (-∑ i, extent b x i) = Utils.randExponential (∑ i, extent b x i) (ω 0) from rfl]
  by_cases h : ptau + Utils.randExponential (∑ i, extent b x i) (ω 0) < tau
  · rw [if_pos ⟨he, h⟩]
    refine ⟨fun hd => ?_, fun hd => absurd hd (by linarith)⟩
    exfalso
    cases h1 : pickDim ω 1 (extent b x) (∑ i, extent b x i) with
    | error e => simp [h1, bind, Except.bind] at hd
    | ok r =>
      cases h2 : cutAt ω r.2 b x r.1 (ptau + Utils.randExponential (∑ i, extent b x i) (ω 0)) with
      | error e => simp [h1, h2, bind, Except.bind] at hd
      | ok q => simp [h1, h2, bind, Except.bind, pure, Except.pure] at hd
  · rw [if_neg (fun h' => h h'.2)]
    exact ⟨fun _ => by linarith [not_lt.1 h], fun _ => rfl⟩

/-- **C169** (violation) A point that is far enough outside the box of a node, compared with the time left, is always given a split; with ideal random numbers it
joins the node with a positive probability. `v` are the random numbers after the first. -/
theorem C169_mondrian_always {R : Nat} (hR : 1 ≤ R) (p : Params ℝ) (hlog : p.log = Real.log) (b : Box ℝ F) (x : Fin F → ℝ) (ptau tau : ℝ) (v : Nat → ℝ)
    (hs : 0 < ∑ i, extent b x i) (hfar : Real.log R < (tau - ptau) * ∑ i, extent b x i) :
    (∀ u : U01, draw p (fun i => if i = 0 then (grid R u).1 else v i) 0 b x ptau tau ≠ .ok (none, 1)) ∧
    0 < volume {u : U01 | draw p (fun i => if i = 0 then u.1 else v i) 0 b x ptau tau = .ok (none, 1)} := by
  have hR1 : (1 : ℝ) ≤ R := by exact_mod_cast hR
  have ht : Real.log R / (∑ i, extent b x i) < tau - ptau := (div_lt_iff₀ hs).2 hfar
  have ht0 : 0 ≤ tau - ptau := (div_nonneg (Real.log_nonneg hR1) hs.le).trans ht.le
  refine ⟨fun u h => ?_, ?_⟩
  · rw [draw_none_iff p hlog _ (by simp only [if_true]; exact (grid R u).2) b x ptau tau hs] at h
    exact absurd (h.trans ((Utils.C169_bounded hR hs).1 u)) (not_le.2 ht)
  · have hv := (Utils.C65_rand_exponential hs).2 (tau - ptau) ht0
    refine lt_of_lt_of_le ?_ (measure_mono (s := {u : U01 | tau - ptau < Utils.randExponential (∑ i, extent b x i) u.1}) fun u hu => ?_)
    · rw [hv]
      exact ENNReal.ofReal_pos.2 (Real.exp_pos _)
    · exact (draw_none_iff p hlog _ (by simp only [if_true]; exact u.2) b x ptau tau hs).2 (by simp only [if_true]; exact le_of_lt hu)

/-- **C169** The probability that a point outside the box of a node joins the node at once is that of ideal random numbers, `exp(-(tau-ptau)·sum)`, or up to `1/R`
smaller. -/
theorem C169_mondrian_close {R : Nat} (hR : 1 ≤ R) (p : Params ℝ) (hlog : p.log = Real.log) (b : Box ℝ F) (x : Fin F → ℝ) (ptau tau : ℝ) (htau : ptau ≤ tau)
    (v : Nat → ℝ) (hs : 0 < ∑ i, extent b x i) :
    Real.exp (-((∑ i, extent b x i) * (tau - ptau))) - 1 / R ≤
      (volume {u : U01 | draw p (fun i => if i = 0 then (grid R u).1 else v i) 0 b x ptau tau = .ok (none, 1)}).toReal ∧
    (volume {u : U01 | draw p (fun i => if i = 0 then (grid R u).1 else v i) 0 b x ptau tau = .ok (none, 1)}).toReal ≤
      Real.exp (-((∑ i, extent b x i) * (tau - ptau))) := by
  have hpos : (0 : ℝ) < R := by exact_mod_cast hR
  set q := Real.exp (-((∑ i, extent b x i) * (tau - ptau))) with hq
  have hq0 : 0 < q := Real.exp_pos _
  have hq1 : q ≤ 1 := Real.exp_le_one_iff.2 (by nlinarith)
  -- ideal numbers that lead to no split
  have hid : ∀ z : ℝ, 0 ≤ z → z ≤ 1 → (volume {u : U01 | 1 - z ≤ u.1}).toReal = z := by
    intro z hz hz1
    have hc : {u : U01 | 1 - z ≤ u.1} = {u : U01 | u.1 < 1 - z}ᶜ := by
      ext u
      simp only [mem_ofPred_eq, mem_compl_iff, not_lt]
    rw [hc, prob_compl_eq_one_sub (measurableSet_lt measurable_subtype_coe measurable_const), vol_lt (by linarith), ENNReal.toReal_sub_of_le (by
      rw [← ENNReal.ofReal_one]; exact ENNReal.ofReal_le_ofReal (by linarith)) ENNReal.one_ne_top, ENNReal.toReal_one, ENNReal.toReal_ofReal (by linarith)]
    ring
  have hset : {u : U01 | draw p (fun i => if i = 0 then (grid R u).1 else v i) 0 b x ptau tau = .ok (none, 1)} = {u : U01 | 1 - q ≤ (grid R u).1} := by
    ext u
    simp only [mem_ofPred_eq]
    rw [draw_none_iff p hlog _ (by simp only [if_true]; exact (grid R u).2) b x ptau tau hs]
    simp only [if_true]
    have h1 : 0 < 1 - (grid R u).1 := by linarith [(grid R u).2.2]
    unfold Utils.randExponential
    rw [div_neg, le_neg, div_le_iff₀ hs, Real.log_le_iff_le_exp h1]
    have : -(tau - ptau) * ∑ i, extent b x i = -((∑ i, extent b x i) * (tau - ptau)) := by ring
    rw [this, ← hq]
    constructor <;> intro h <;> linarith
  rw [hset]
  have hg : ∀ u : U01, u.1 - 1 / R ≤ (grid R u).1 := by
    intro u
    have := (Int.lt_floor_add_one (u.1 * (R : ℝ))).le
    simp only [grid]
    rw [le_div_iff₀ hpos, sub_mul, one_div_mul_cancel hpos.ne']
    linarith
  have hR0 : (0 : ℝ) < 1 / R := by positivity
  constructor
  · by_cases h : 0 ≤ q - 1 / R
    · refine le_of_eq_of_le (hid (q - 1 / R) h (by linarith)).symm (ENNReal.toReal_mono (measure_ne_top _ _) (measure_mono fun u hu => ?_))
      have hu' : 1 - (q - 1 / R) ≤ u.1 := hu
      show 1 - q ≤ (grid R u).1
      linarith [hg u]
    · exact (not_le.1 h).le.trans ENNReal.toReal_nonneg
  · exact le_of_le_of_eq (ENNReal.toReal_mono (measure_ne_top _ _) (measure_mono fun u hu => le_trans hu (grid_le R u))) (hid q hq0.le hq1)

/-- the hypotheses are met: the box of the point 0, the point 1, two random values, a lifetime of 1 -/
example : 0 < ∑ i, extent (Box.point ![(0 : ℝ)]) ![1] i ∧ Real.log (2 : ℕ) < (1 - 0) * ∑ i, extent (Box.point ![(0 : ℝ)]) ![1] i := by
  have : ∑ i, extent (Box.point ![(0 : ℝ)]) ![1] i = 1 := by simp [extent, Box.point]
  rw [this]
  refine ⟨one_pos, ?_⟩
  have := Real.log_lt_sub_one_of_pos (x := 2) two_pos (by norm_num)
  push_cast
  linarith

end Orp.Mondrian
