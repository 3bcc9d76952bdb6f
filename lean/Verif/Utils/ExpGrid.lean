import Verif.Utils.PickGrid

/-!
Property C169: `rand_exponential` (utils.hpp:60-64) with a random function that has only `R` different values, such as `rand()/(RAND_MAX+1.0)`. As in C162 such a
random number is an ideal one rounded down to the grid (`Orp.Reservoir.grid`, `C162_grid_law`).
-/

set_option linter.unusedSectionVars false

namespace Orp.Utils

open MeasureTheory Set
open Orp.Reservoir (U01 grid C162_grid_law)

theorem randExponential_le_iff {rate u x : ℝ} (hr : 0 < rate) (hu : u < 1) : randExponential rate u ≤ x ↔ u ≤ 1 - Real.exp (-(rate * x)) := by
  have h1 : 0 < 1 - u := by linarith
  unfold randExponential
  rw [div_neg, neg_le, le_div_iff₀ hr, Real.le_log_iff_exp_le h1]
  have : -x * rate = -(rate * x) := by ring
  rw [this]
  constructor <;> intro h <;> linarith

theorem grid_top {R : Nat} (hR : 1 ≤ R) (u : U01) : (grid R u).1 ≤ ((R : ℝ) - 1) / R := by
  have hpos : (0 : ℝ) < R := by exact_mod_cast hR
  have h : ⌊u.1 * (R : ℝ)⌋ < (R : ℤ) := by
    rw [Int.floor_lt]
    push_cast
    nlinarith [u.2.2]
  have h' : (⌊u.1 * (R : ℝ)⌋ : ℝ) ≤ (R : ℝ) - 1 := by
    have : ⌊u.1 * (R : ℝ)⌋ ≤ (R : ℤ) - 1 := by omega
    exact_mod_cast this
  exact div_le_div_of_nonneg_right h' hpos.le

/-- **C169** The law: the value is at most `x` with a probability that is the share of the `R` numbers that are at most `1 - exp(-rate·x)`. -/
theorem C169_law {R : Nat} (hR : 1 ≤ R) {rate : ℝ} (hr : 0 < rate) {x : ℝ} (hx : 0 ≤ x) :
    volume {u : U01 | randExponential rate (grid R u).1 ≤ x} = ENNReal.ofReal ((gridCount R (1 - Real.exp (-(rate * x))) : ℝ) / R) := by
  have he1 : Real.exp (-(rate * x)) ≤ 1 := Real.exp_le_one_iff.2 (by nlinarith)
  rw [← vol_grid_le hR (by linarith)]
  congr 1
  ext u
  exact randExponential_le_iff hr (grid R u).2.2

/-- **C169** It is within `1/R` of the exponential law, and never below it: the values are too small rather than too large. -/
theorem C169_close {R : Nat} (hR : 1 ≤ R) {rate : ℝ} (hr : 0 < rate) {x : ℝ} (hx : 0 ≤ x) :
    1 - Real.exp (-(rate * x)) ≤ (volume {u : U01 | randExponential rate (grid R u).1 ≤ x}).toReal ∧
    (volume {u : U01 | randExponential rate (grid R u).1 ≤ x}).toReal ≤ 1 - Real.exp (-(rate * x)) + 1 / R := by
  have hpos : (0 : ℝ) < R := by exact_mod_cast hR
  have he1 : Real.exp (-(rate * x)) ≤ 1 := Real.exp_le_one_iff.2 (by nlinarith)
  have he0 := Real.exp_pos (-(rate * x))
  obtain ⟨a, b⟩ := gridCount_near hR (x := 1 - Real.exp (-(rate * x))) (by linarith) (by linarith)
  rw [C169_law hR hr hx, ENNReal.toReal_ofReal (by positivity), le_div_iff₀ hpos, div_le_iff₀ hpos, add_mul, one_div_mul_cancel hpos.ne']
  exact ⟨a, b⟩

/-- **C169** (violation) The value is exactly 0 with probability `1/R`; an exponential variable is positive with probability 1. -/
theorem C169_zero {R : Nat} (hR : 1 ≤ R) {rate : ℝ} (hr : 0 < rate) :
    volume {u : U01 | randExponential rate (grid R u).1 = 0} = ENNReal.ofReal (1 / R) := by
  rw [← C162_grid_law (j := 0) hR (by omega)]
  congr 1
  ext u
  have h0 : 0 ≤ randExponential rate (grid R u).1 := (C65_rand_exponential hr).1 (grid R u)
  have h := randExponential_le_iff (x := 0) hr (grid R u).2.2
  rw [mul_zero, neg_zero, Real.exp_zero, sub_self] at h
  simp only [mem_ofPred_eq, Nat.cast_zero, zero_div]
  exact ⟨fun e => le_antisymm (h.1 e.le) (grid R u).2.1, fun e => le_antisymm (h.2 e.le) h0⟩

/-- **C169** (violation) No value is above `log R / rate`; an exponential variable is, with probability `1/R`. -/
theorem C169_bounded {R : Nat} (hR : 1 ≤ R) {rate : ℝ} (hr : 0 < rate) :
    (∀ u : U01, randExponential rate (grid R u).1 ≤ Real.log R / rate) ∧
    volume {u : U01 | Real.log R / rate < randExponential rate u.1} = ENNReal.ofReal (1 / R) := by
  have hpos : (0 : ℝ) < R := by exact_mod_cast hR
  have hR1 : (1 : ℝ) ≤ R := by exact_mod_cast hR
  have hexp : Real.exp (-(rate * (Real.log R / rate))) = 1 / R := by
    rw [mul_div_cancel₀ _ hr.ne', Real.exp_neg, Real.exp_log hpos, one_div]
  refine ⟨fun u => ?_, ?_⟩
  · rw [randExponential_le_iff hr (grid R u).2.2, hexp]
    refine (grid_top hR u).trans (le_of_eq ?_)
    rw [sub_div, div_self hpos.ne']
  · rw [(C65_rand_exponential hr).2 _ (div_nonneg (Real.log_nonneg hR1) hr.le), hexp]

/-- the bound is reached: with probability `1/R` the value is `log R / rate` -/
theorem C169_max {R : Nat} (hR : 1 ≤ R) {rate : ℝ} (hr : 0 < rate) :
    volume {u : U01 | randExponential rate (grid R u).1 = Real.log R / rate} = ENNReal.ofReal (1 / R) := by
  have hpos : (0 : ℝ) < R := by exact_mod_cast hR
  rw [← C162_grid_law (j := R - 1) hR (by omega)]
  congr 1
  ext u
  have hu : 0 < 1 - (grid R u).1 := by linarith [(grid R u).2.2]
  simp only [mem_ofPred_eq, randExponential]
  rw [div_neg, ← neg_div, div_left_inj' hr.ne', ← Real.log_inv]
  have hinj : Real.log (1 - (grid R u).1)⁻¹ = Real.log R ↔ (1 - (grid R u).1)⁻¹ = R :=
    ⟨fun h => Real.log_injOn_pos (inv_pos.2 hu) hpos h, fun h => by rw [h]⟩
  rw [hinj, inv_eq_iff_eq_inv, Nat.cast_sub hR, Nat.cast_one, sub_div, div_self hpos.ne', one_div]
  constructor <;> intro h <;> linarith

/-- the hypotheses are met: half of the numbers 0, 1/2 give the value 0 -/
example : volume {u : U01 | randExponential 1 (grid 2 u).1 = 0} = ENNReal.ofReal (1 / 2) := by
  have := C169_zero (R := 2) (by norm_num) (rate := 1) one_pos
  exact_mod_cast this

end Orp.Utils
