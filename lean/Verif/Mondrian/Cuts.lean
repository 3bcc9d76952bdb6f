import Verif.Mondrian.GrowProg

/-!
Measures of cuts: how a split between a box and a point lies with respect to another box.
-/

set_option linter.unusedSectionVars false

namespace Orp.Mondrian

open MeasureTheory Orp.Reservoir

variable {F L : Nat}

/-- how far a box `q` sticks out of a box `b` in one dimension -/
def Box.out (b q : Box ℝ F) (i : Fin F) : ℝ := max (b.lower i - q.lower i) 0 + max (q.upper i - b.upper i) 0

/-- how far a box `q` is from a box `b` in one dimension -/
def Box.away (b q : Box ℝ F) (i : Fin F) : ℝ := max (b.lower i - q.upper i) 0 + max (q.lower i - b.upper i) 0

/-- lower bounds are below upper bounds -/
def Box.Ordered (b : Box ℝ F) : Prop := ∀ i, b.lower i ≤ b.upper i

theorem Box.out_nonneg (b q : Box ℝ F) (i : Fin F) : 0 ≤ b.out q i := add_nonneg (le_max_right _ _) (le_max_right _ _)

theorem Box.away_nonneg (b q : Box ℝ F) (i : Fin F) : 0 ≤ b.away q i := add_nonneg (le_max_right _ _) (le_max_right _ _)

theorem vol_lt_min (c : ℝ) : volume {u : U01 | u.1 < c} = ENNReal.ofReal (max 0 (min c 1)) := by
  have h : {u : U01 | u.1 < c} = {u : U01 | u.1 < max 0 (min c 1)} := by
    ext u
    have h0 := u.2.1
    have h1 := u.2.2
    simp only [Set.mem_ofPred_eq, lt_max_iff, lt_min_iff]
    constructor
    · intro h; exact Or.inr ⟨h, h1⟩
    · rintro (h | h)
      · linarith
      · exact h.1
  rw [h, vol_lt (max_le (by norm_num) (min_le_right _ _))]

theorem vol_ge_min (c : ℝ) : volume {u : U01 | c ≤ u.1} = ENNReal.ofReal (1 - max 0 (min c 1)) := by
  have hm : MeasurableSet {u : U01 | u.1 < c} := measurableSet_lt measurable_subtype_coe measurable_const
  have h := prob_compl_eq_one_sub (μ := (volume : Measure U01)) hm
  rw [vol_lt_min] at h
  have e : {u : U01 | u.1 < c}ᶜ = {u : U01 | c ≤ u.1} := by ext u; simp
  rw [← e, h, ← ENNReal.ofReal_one, ← ENNReal.ofReal_sub _ (le_max_left _ _)]

/-- the expected value of a split that is uniform in an interval, if it counts `X` above `u` and `Y` below `l` -/
theorem split_ex {e lo l u X Y : ℝ} (he : 0 < e) (hlu : l ≤ u) (hX : 0 ≤ X) (hY : 0 ≤ Y) :
    ∫⁻ w : U01, ENNReal.ofReal (if u ≤ w.1 * e + lo then X else if w.1 * e + lo < l then Y else 0) =
      ENNReal.ofReal (((e - max 0 (min (u - lo) e)) * X + max 0 (min (l - lo) e) * Y) / e) := by
  have h1 : ∀ w : U01, ENNReal.ofReal (if u ≤ w.1 * e + lo then X else if w.1 * e + lo < l then Y else 0) =
      {w : U01 | (u - lo) / e ≤ w.1}.indicator (fun _ => ENNReal.ofReal X) w + {w : U01 | w.1 < (l - lo) / e}.indicator (fun _ => ENNReal.ofReal Y) w := by
    intro w
    have c1 : u ≤ w.1 * e + lo ↔ w ∈ {w : U01 | (u - lo) / e ≤ w.1} := by rw [Set.mem_ofPred_eq]; rw [div_le_iff₀ he]; constructor <;> intro h <;> linarith
    have c2 : w.1 * e + lo < l ↔ w ∈ {w : U01 | w.1 < (l - lo) / e} := by rw [Set.mem_ofPred_eq]; rw [lt_div_iff₀ he]; constructor <;> intro h <;> linarith
    by_cases h : u ≤ w.1 * e + lo
    · have h' : ¬ w.1 * e + lo < l := by linarith
      rw [if_pos h, Set.indicator_of_mem (c1.1 h), Set.indicator_of_notMem fun hh => h' (c2.2 hh), add_zero]
    · rw [if_neg h, Set.indicator_of_notMem fun hh => h (c1.2 hh), zero_add]
      by_cases h' : w.1 * e + lo < l
      · rw [if_pos h', Set.indicator_of_mem (c2.1 h')]
      · rw [if_neg h', Set.indicator_of_notMem fun hh => h' (c2.2 hh), ENNReal.ofReal_zero]
  have m1 : MeasurableSet {w : U01 | (u - lo) / e ≤ w.1} := measurableSet_le measurable_const measurable_subtype_coe
  have m2 : MeasurableSet {w : U01 | w.1 < (l - lo) / e} := measurableSet_lt measurable_subtype_coe measurable_const
  have cl : ∀ c : ℝ, max 0 (min (c / e) 1) = max 0 (min c e) / e := by
    intro c
    rw [← max_div_div_right he.le, zero_div, ← min_div_div_right he.le, div_self he.ne']
  simp only [h1]
  rw [lintegral_add_left (measurable_const.indicator m1), lintegral_indicator_const m1, lintegral_indicator_const m2, vol_ge_min, vol_lt_min, cl, cl,
    ← ENNReal.ofReal_mul hX, ← ENNReal.ofReal_mul hY, ← ENNReal.ofReal_add]
  · congr 1
    field_simp
  · refine mul_nonneg hX (sub_nonneg.2 ?_)
    rw [div_le_one he]
    exact max_le he.le (min_le_right _ _)
  · exact mul_nonneg hY (div_nonneg (le_max_left _ _) he.le)

theorem extend_lower (b : Box ℝ F) (z : Fin F → ℝ) (i : Fin F) : (b.extend z).lower i = min (z i) (b.lower i) := by
  simp only [Box.extend]
  split
  · rename_i h; rw [min_eq_left h.le]
  · rename_i h; rw [min_eq_right (not_lt.1 h)]

theorem extend_upper (b : Box ℝ F) (z : Fin F → ℝ) (i : Fin F) : (b.extend z).upper i = max (z i) (b.upper i) := by
  simp only [Box.extend]
  split
  · rename_i h; rw [max_eq_left h.le]
  · rename_i h; rw [max_eq_right (not_lt.1 h)]

/-- what a split counts: `X` if the box `q` is on the side of the box, `Y` if it is on the side of the new point -/
noncomputable def sideVal (c : Cut ℝ F) (q : Box ℝ F) (X Y : ℝ) : ℝ :=
  if q.upper c.dim ≤ c.split then (if c.right then X else Y) else if c.split < q.lower c.dim then (if c.right then Y else X) else 0

theorem side_ex {b q : Box ℝ F} (hb : b.Ordered) (hq : q.Ordered) {z : Fin F → ℝ} {d : Fin F} (hd : 0 < b.distIn z d) (tau : ℝ) {X Y : ℝ} (hX : 0 ≤ X)
    (hY : 0 ≤ Y) : ∫⁻ w : U01, ENNReal.ofReal (sideVal (cutWith b z d tau w) q X Y) =
      ENNReal.ofReal (((b.distIn z d + (b.extend z).out q d - b.out q d) * X + (b.away q d - (b.extend z).away q d) * Y) / b.distIn z d) := by
  have hbd := hb d
  have hqd := hq d
  have hd' : 0 < extent b z d := by rw [extent_eq]; exact hd
  by_cases hu : b.upper d < z d
  · have hlo : b.gapLow z d = b.upper d := by simp [Box.gapLow, hu]
    have hhi : b.gapHigh z d = z d := by simp [Box.gapHigh, hu]
    have hdi : b.distIn z d = z d - b.upper d := by
      unfold Box.distIn
      rw [max_eq_right (by linarith), max_eq_left (by linarith)]; ring
    have h := split_ex (e := z d - b.upper d) (lo := b.upper d) (l := q.lower d) (u := q.upper d) (by linarith) hqd hX hY
    have e1 : ∀ w : U01, sideVal (cutWith b z d tau w) q X Y = if q.upper d ≤ w.1 * (z d - b.upper d) + b.upper d then X else
        if w.1 * (z d - b.upper d) + b.upper d < q.lower d then Y else 0 := by
      intro w
      simp [sideVal, cutWith, hlo, hhi]
    simp only [e1]
    rw [h, hdi]
    congr 3
    · congr 1
      simp only [Box.out, extend_lower, extend_upper]
      rw [min_eq_right (by linarith : b.lower d ≤ z d), max_eq_left hu.le]
      rcases le_total (q.upper d) (b.upper d) with h1 | h1
      · rw [max_eq_right (by linarith : q.upper d - z d ≤ 0), max_eq_right (by linarith : q.upper d - b.upper d ≤ 0),
          max_eq_left ((min_le_left _ _).trans (by linarith))]; ring
      · rcases le_total (q.upper d) (z d) with h2 | h2
        · rw [max_eq_right (by linarith : q.upper d - z d ≤ 0), max_eq_left (by linarith : 0 ≤ q.upper d - b.upper d), min_eq_left (by linarith),
            max_eq_right (by linarith)]; ring
        · rw [max_eq_left (by linarith : 0 ≤ q.upper d - z d), max_eq_left (by linarith : 0 ≤ q.upper d - b.upper d), min_eq_right (by linarith),
            max_eq_right (by linarith)]; ring
    · congr 1
      simp only [Box.away, extend_lower, extend_upper]
      rw [min_eq_right (by linarith : b.lower d ≤ z d), max_eq_left hu.le]
      rcases le_total (q.lower d) (b.upper d) with h1 | h1
      · rw [max_eq_right (by linarith : q.lower d - z d ≤ 0), max_eq_right (by linarith : q.lower d - b.upper d ≤ 0),
          max_eq_left ((min_le_left _ _).trans (by linarith))]; ring
      · rcases le_total (q.lower d) (z d) with h2 | h2
        · rw [max_eq_right (by linarith : q.lower d - z d ≤ 0), max_eq_left (by linarith : 0 ≤ q.lower d - b.upper d), min_eq_left (by linarith),
            max_eq_right (by linarith)]; ring
        · rw [max_eq_left (by linarith : 0 ≤ q.lower d - z d), max_eq_left (by linarith : 0 ≤ q.lower d - b.upper d), min_eq_right (by linarith),
            max_eq_right (by linarith)]; ring
  · have hl : z d < b.lower d := (extent_pos hd').resolve_left hu
    have hlo : b.gapLow z d = z d := by simp [Box.gapLow, hu]
    have hhi : b.gapHigh z d = b.lower d := by simp [Box.gapHigh, hu]
    have hdi : b.distIn z d = b.lower d - z d := by
      unfold Box.distIn
      rw [max_eq_left (by linarith), max_eq_right (by linarith)]; ring
    have h := split_ex (e := b.lower d - z d) (lo := z d) (l := q.lower d) (u := q.upper d) (by linarith) hqd hY hX
    have e1 : ∀ w : U01, sideVal (cutWith b z d tau w) q X Y = if q.upper d ≤ w.1 * (b.lower d - z d) + z d then Y else
        if w.1 * (b.lower d - z d) + z d < q.lower d then X else 0 := by
      intro w
      simp [sideVal, cutWith, hlo, hhi, hl.ne]
    simp only [e1]
    rw [h, hdi]
    congr 2
    rw [add_comm]
    congr 2
    · simp only [Box.out, extend_lower, extend_upper]
      rw [min_eq_left hl.le, max_eq_right (by linarith : z d ≤ b.upper d)]
      rcases le_total (q.lower d) (z d) with h1 | h1
      · rw [max_eq_left (by linarith : 0 ≤ z d - q.lower d), max_eq_left (by linarith : 0 ≤ b.lower d - q.lower d),
          max_eq_left ((min_le_left _ _).trans (by linarith))]; ring
      · rcases le_total (q.lower d) (b.lower d) with h2 | h2
        · rw [max_eq_right (by linarith : z d - q.lower d ≤ 0), max_eq_left (by linarith : 0 ≤ b.lower d - q.lower d), min_eq_left (by linarith),
            max_eq_right (by linarith)]; ring
        · rw [max_eq_right (by linarith : z d - q.lower d ≤ 0), max_eq_right (by linarith : b.lower d - q.lower d ≤ 0), min_eq_right (by linarith),
            max_eq_right (by linarith)]; ring
    · simp only [Box.away, extend_lower, extend_upper]
      rw [min_eq_left hl.le, max_eq_right (by linarith : z d ≤ b.upper d)]
      rcases le_total (q.upper d) (z d) with h1 | h1
      · rw [max_eq_left (by linarith : 0 ≤ z d - q.upper d), max_eq_left (by linarith : 0 ≤ b.lower d - q.upper d),
          max_eq_left ((min_le_left _ _).trans (by linarith))]; ring
      · rcases le_total (q.upper d) (b.lower d) with h2 | h2
        · rw [max_eq_right (by linarith : z d - q.upper d ≤ 0), max_eq_left (by linarith : 0 ≤ b.lower d - q.upper d), min_eq_left (by linarith),
            max_eq_right (by linarith)]; ring
        · rw [max_eq_right (by linarith : z d - q.upper d ≤ 0), max_eq_right (by linarith : b.lower d - q.upper d ≤ 0), min_eq_right (by linarith),
            max_eq_right (by linarith)]; ring

end Orp.Mondrian
