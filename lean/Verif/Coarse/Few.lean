import Verif.Coarse.Ideal
import Verif.Mondrian.FewTimes

/-!
C167 for `CoarseMondrianForest`: the choice of a split (mondrian_coarse.hpp:338-354, 390) with a random function that has only `R` different values, such as
`rand()/(RAND_MAX+1.0)`.
-/

set_option linter.unusedSectionVars false

namespace Orp.Coarse

open MeasureTheory Set Mondrian
open Orp.Reservoir (U01 grid C162_grid_law)

variable {F : Nat}

/-- **C167** (violation) A point that is outside the box of a node, but not in its first feature, makes a split of this node read uninitialised values with
probability `1/R`: whenever the number that chooses the feature is 0. `v` chooses the place of the split. -/
theorem C167_coarse_split {R : Nat} (hR : 1 ≤ R) (b : Box ℝ (F + 1)) (x : Fin (F + 1) → ℝ) (tau v : ℝ)
    (hin : b.lower 0 ≤ x 0 ∧ x 0 ≤ b.upper 0) (hout : ∃ i, x i < b.lower i ∨ b.upper i < x i) (hv : 0 < v ∧ v < 1) :
    volume {u : U01 | drawCut (fun i => if i = 0 then (grid R u).1 else v) 0 b x tau = .error .ub} = ENNReal.ofReal (1 / R) := by
  have hs : ∑ i, extent b x i ≠ 0 := by
    rw [Ne, sum_eq_zero_iff]
    obtain ⟨i, hi⟩ := hout
    intro h
    rcases hi with hi | hi
    · exact absurd (h i).1 (not_le.2 hi)
    · exact absurd (h i).2 (not_le.2 hi)
  have hs' : 0 < ∑ i, extent b x i := lt_of_le_of_ne (sum_nonneg' b x) (Ne.symm hs)
  rw [← C162_grid_law (j := 0) hR (by omega)]
  congr 1
  ext u
  simp only [mem_ofPred_eq, Nat.cast_zero, zero_div]
  constructor
  · intro h
    by_contra hne
    obtain ⟨c, q, hr, _⟩ := drawCut_ok (fun i => if i = 0 then (grid R u).1 else v) (fun i => by
      by_cases h0 : i = 0
      · simp only [h0, if_true]
        exact ⟨lt_of_le_of_ne (grid R u).2.1 (Ne.symm hne), (grid R u).2.2⟩
      · simpa only [h0, if_false] using hv) 0 b x tau hs
    rw [hr] at h
    cases h
  · intro h0
    have hpick := Mondrian.pickDim_zero (fun i => if i = 0 then (grid R u).1 else v) 0 (extent b x) (extent_nonneg b x) hs' (by simpa using h0)
    rw [pickDim_same _ 0 (extent b x) (extent_nonneg b x) hs' (by simp only [if_true]; exact (grid R u).2.2)] at hpick
    simp only [drawCut, extentSum, hpick, bind, Except.bind, cutAt, if_neg (not_lt.2 hin.1), if_neg (not_lt.2 hin.2)]

/-- the hypotheses are met: the box of the point (0,0) and the point (0,1) -/
example : volume {u : U01 | drawCut (fun i => if i = 0 then (grid 2 u).1 else 1 / 2) 0 (Box.point ![(0 : ℝ), 0]) ![0, 1] 1 = .error .ub} = ENNReal.ofReal (1 / 2) := by
  have := C167_coarse_split (R := 2) (by norm_num) (Box.point ![(0 : ℝ), 0]) ![0, 1] 1 (1 / 2) (by simp [Box.point]) ⟨1, by simp [Box.point]⟩ (by norm_num)
  exact_mod_cast this

/-- **C169** (violation) The time that `CoarseMondrianForest` draws for a point outside the box of a node (mondrian_coarse.hpp:320) is 0 with probability `1/R` and never
above `log R / sum`. -/
theorem C169_coarse_time {R : Nat} (hR : 1 ≤ R) (p : Params ℝ) (hlog : p.log = Real.log) (b : Box ℝ F) (x : Fin F → ℝ) (v : Nat → ℝ) (hs : 0 < ∑ i, extent b x i) :
    volume {u : U01 | (expo p (fun i => if i = 0 then (grid R u).1 else v i) 0 b x).1 = 0} = ENNReal.ofReal (1 / R) ∧
    ∀ u : U01, (expo p (fun i => if i = 0 then (grid R u).1 else v i) 0 b x).1 ≤ Real.log R / ∑ i, extent b x i := by
  have h : ∀ u : U01, (expo p (fun i => if i = 0 then (grid R u).1 else v i) 0 b x).1 = Utils.randExponential (∑ i, extent b x i) (grid R u).1 := by
    intro u
    simp only [expo, extentSum, if_neg hs.ne', if_true, hlog, Utils.randExponential]
  simp only [h]
  exact ⟨Utils.C169_zero hR hs, (Utils.C169_bounded hR hs).1⟩

/-- the hypotheses are met: the box of the point 0 and the point 1 -/
example : 0 < ∑ i, extent (Box.point ![(0 : ℝ)]) ![1] i := by
  have : ∑ i, extent (Box.point ![(0 : ℝ)]) ![1] i = 1 := by simp [extent, Box.point]
  rw [this]
  exact one_pos

end Orp.Coarse
