import Verif.Mondrian.BatchAdd
import Verif.Mondrian.Same
import Mathlib.MeasureTheory.Function.JacobianOneDim

/-!
The growth of a tree by the code has the expectation of `addPt`: the random numbers are replaced by the times and values of the splits.
-/

set_option linter.unusedSectionVars false

namespace Orp.Mondrian

open MeasureTheory Orp.Reservoir

variable {F L : Nat}

theorem unit_below {c : ℝ} (h1 : c ≤ 1) (ψ : ℝ → ENNReal) : ∫⁻ u in {u : U01 | u.1 < c}, ψ u.1 = ∫⁻ u in Set.Ico 0 c, ψ u := by
  have hS : MeasurableSet {u : U01 | u.1 < c} := measurableSet_lt measurable_subtype_coe measurable_const
  have e1 : ∫⁻ u in {u : U01 | u.1 < c}, ψ u.1 = ∫⁻ u : U01, (Set.Iio c).indicator ψ u.1 := by
    rw [← lintegral_indicator hS]
    refine lintegral_congr fun u => ?_
    by_cases h : u.1 < c
    · rw [Set.indicator_of_mem (show u ∈ {u : U01 | u.1 < c} from h), Set.indicator_of_mem (show u.1 ∈ Set.Iio c from h)]
    · rw [Set.indicator_of_notMem (show u ∉ {u : U01 | u.1 < c} from h), Set.indicator_of_notMem (show u.1 ∉ Set.Iio c from h)]
  have e2 : ∫⁻ u : U01, (Set.Iio c).indicator ψ u.1 = ∫⁻ u in Set.Ico (0 : ℝ) 1, (Set.Iio c).indicator ψ u := lintegral_subtype_comap measurableSet_Ico _
  rw [e1, e2, lintegral_indicator measurableSet_Iio, Measure.restrict_restrict measurableSet_Iio]
  have e3 : Set.Iio c ∩ Set.Ico (0 : ℝ) 1 = Set.Ico 0 c := by
    ext u
    simp only [Set.mem_inter_iff, Set.mem_Iio, Set.mem_Ico]
    constructor
    · rintro ⟨a, b, -⟩; exact ⟨b, a⟩
    · rintro ⟨a, b⟩; exact ⟨b, a, b.trans_le h1⟩
  rw [e3]

/-- a uniform number gives a uniform value between two bounds -/
theorem value_int {lo hi : ℝ} (h : lo < hi) (φ : ℝ → ENNReal) : ∫⁻ w : U01, φ (w.1 * (hi - lo) + lo) = ENNReal.ofReal (1 / (hi - lo)) * ∫⁻ x in Set.Ico lo hi, φ x := by
  have hp : 0 < hi - lo := sub_pos.2 h
  have e1 : ∫⁻ w : U01, φ (w.1 * (hi - lo) + lo) = ∫⁻ w in Set.Ico (0 : ℝ) 1, φ (w * (hi - lo) + lo) := lintegral_subtype_comap measurableSet_Ico (fun w => φ (w * (hi - lo) + lo))
  have e2 : (fun w : ℝ => w * (hi - lo) + lo) '' Set.Ico 0 1 = Set.Ico lo hi := by
    ext x
    simp only [Set.mem_image, Set.mem_Ico]
    constructor
    · rintro ⟨w, ⟨h1, h2⟩, rfl⟩
      constructor <;> nlinarith
    · rintro ⟨h1, h2⟩
      refine ⟨(x - lo) / (hi - lo), ⟨div_nonneg (by linarith) hp.le, (div_lt_one hp).2 (by linarith)⟩, ?_⟩
      field_simp
      ring
  have e3 := lintegral_image_eq_lintegral_abs_deriv_mul (s := Set.Ico (0 : ℝ) 1) (f := fun w : ℝ => w * (hi - lo) + lo) (f' := fun _ => hi - lo) measurableSet_Ico
    (fun w _ => (((hasDerivAt_id w).mul_const (hi - lo)).add_const lo).hasDerivWithinAt.congr_deriv (by simp)) (fun a _ b _ hab => by
      have : a * (hi - lo) = b * (hi - lo) := by simpa using hab
      exact mul_right_cancel₀ hp.ne' this) φ
  rw [e2, abs_of_pos hp, lintegral_const_mul' _ _ ENNReal.ofReal_ne_top] at e3
  rw [e1, e3, ← mul_assoc, ← ENNReal.ofReal_mul (by positivity), one_div, inv_mul_cancel₀ hp.ne', ENNReal.ofReal_one, one_mul]

/-- a uniform number gives an exponentially distributed time -/
theorem time_int {η r τ : ℝ} (hη : 0 < η) (φ : ℝ → ENNReal) : ∫⁻ u in {u : U01 | u.1 < 1 - Real.exp (-(η * (τ - r)))}, φ (r + Real.log (1 - u.1) / (-η)) =
    ∫⁻ s in Set.Ico r τ, ENNReal.ofReal (η * Real.exp (-(η * (s - r)))) * φ s := by
  rw [unit_below (by linarith [Real.exp_pos (-(η * (τ - r)))]) fun u => φ (r + Real.log (1 - u) / (-η))]
  have e2 : (fun s : ℝ => 1 - Real.exp (-(η * (s - r)))) '' Set.Ico r τ = Set.Ico 0 (1 - Real.exp (-(η * (τ - r)))) := by
    ext u
    simp only [Set.mem_image, Set.mem_Ico]
    constructor
    · rintro ⟨s, ⟨h1, h2⟩, rfl⟩
      constructor
      · have : Real.exp (-(η * (s - r))) ≤ 1 := Real.exp_le_one_iff.2 (by
          have := mul_nonneg hη.le (sub_nonneg.2 h1); linarith)
        linarith
      · have : Real.exp (-(η * (τ - r))) < Real.exp (-(η * (s - r))) := Real.exp_lt_exp.2 (by
          have := mul_lt_mul_of_pos_left (sub_lt_sub_right h2 r) hη; linarith)
        linarith
    · rintro ⟨h1, h2⟩
      have h3 : 0 < 1 - u := by linarith [Real.exp_pos (-(η * (τ - r)))]
      have h4 : Real.log (1 - u) / (-η) < τ - r := (log_lt_iff hη (by linarith)).2 h2
      have h5 : 0 ≤ Real.log (1 - u) / (-η) := log_nonneg' hη h1 (by linarith)
      refine ⟨r + Real.log (1 - u) / (-η), ⟨by linarith, by linarith⟩, ?_⟩
      have : -(η * (r + Real.log (1 - u) / (-η) - r)) = Real.log (1 - u) := by field_simp; ring
      rw [this, Real.exp_log h3]
      ring
  have hd : ∀ s : ℝ, HasDerivAt (fun s : ℝ => 1 - Real.exp (-(η * (s - r)))) (η * Real.exp (-(η * (s - r)))) s := by
    intro s
    have := (((((hasDerivAt_id s).sub_const r).const_mul η).neg).exp).const_sub 1
    refine this.congr_deriv ?_
    simp only [Pi.neg_apply, id]
    ring
  have e3 := lintegral_image_eq_lintegral_abs_deriv_mul (s := Set.Ico r τ) (f := fun s : ℝ => 1 - Real.exp (-(η * (s - r)))) (f' := fun s => η * Real.exp (-(η * (s - r)))) measurableSet_Ico
    (fun s _ => (hd s).hasDerivWithinAt) (fun a _ b _ hab => by
      have : Real.exp (-(η * (a - r))) = Real.exp (-(η * (b - r))) := by simpa using hab
      have := Real.exp_injective this
      have := mul_left_cancel₀ hη.ne' (neg_injective this)
      linarith) (fun u => φ (r + Real.log (1 - u) / (-η)))
  rw [e2] at e3
  rw [e3]
  refine lintegral_congr fun s => ?_
  have hp : 0 < η * Real.exp (-(η * (s - r))) := mul_pos hη (Real.exp_pos _)
  rw [abs_of_pos hp]
  congr 2
  rw [sub_sub_cancel, Real.log_exp]
  field_simp
  ring

theorem gap_empty {b : Box ℝ F} {x : Fin F → ℝ} {d : Fin F} (h : b.distIn x d = 0) : Set.Ico (b.gapLow x d) (b.gapHigh x d) = ∅ := by
  have h1 : b.lower d - x d ≤ 0 := (le_max_left _ _).trans (by
    have := le_max_right (x d - b.upper d) 0
    unfold Box.distIn at h; linarith)
  have h2 : x d - b.upper d ≤ 0 := (le_max_left _ _).trans (by
    have := le_max_right (b.lower d - x d) 0
    unfold Box.distIn at h; linarith)
  refine Set.Ico_eq_empty ?_
  have h3 : ¬ b.upper d < x d := by linarith
  simp only [Box.gapLow, Box.gapHigh, h3, if_false]
  linarith

/-- the expectation over the random choices of a node, as an integral over times and values -/
theorem drawP_int {p : Params ℝ} (hlog : p.log = Real.log) {b : Box ℝ F} (hb : b.Ordered) (x : Fin F → ℝ) {ptau tau : ℝ} (ht : ptau ≤ tau) (Φ : Res (Option (Cut ℝ F)) → ENNReal) :
    (drawP p b x ptau tau).ex Φ = (∫⁻ s in Set.Ico ptau tau, ∑ d, ∫⁻ v in Set.Ico (b.gapLow x d) (b.gapHigh x d),
        ENNReal.ofReal (Real.exp (-(b.dist x * (s - ptau)))) * Φ (.ok (some ⟨d, v, s, decide (x d = b.gapHigh x d)⟩))) +
      ENNReal.ofReal (Real.exp (-(b.dist x * (tau - ptau)))) * Φ (.ok none) := by
  rcases (dist_nonneg b x).eq_or_lt with h0 | hpos
  · have hd : ∀ d, b.distIn x d = 0 := fun d => by
      have := (Finset.sum_eq_zero_iff_of_nonneg fun i _ => distIn_nonneg b x i).1 h0.symm
      exact this d (Finset.mem_univ d)
    simp [drawP, h0.symm, Prog.ex, gap_empty (hd _)]
  · rw [drawP_ex hlog hpos ht]
    congr 1
    have e : ∀ u : U01, timeOf p b x ptau u = ptau + Real.log (1 - u.1) / (-b.dist x) := fun u => by rw [timeOf, hlog]
    simp only [e]
    rw [time_int hpos fun s => ∑ d, ENNReal.ofReal (b.distIn x d / b.dist x) * ∫⁻ w, Φ (.ok (some (cutWith b x d s w)))]
    refine lintegral_congr fun s => ?_
    rw [Finset.mul_sum]
    refine Finset.sum_congr rfl fun d _ => ?_
    rcases (distIn_nonneg b x d).eq_or_lt with hd | hd
    · simp [gap_empty hd.symm, hd.symm]
    · have hg : b.gapHigh x d - b.gapLow x d = b.distIn x d := by
        rw [gap_extent hb (by rw [extent_eq]; exact hd), extent_eq]
      have h1 : b.gapLow x d < b.gapHigh x d := by linarith
      have := value_int h1 fun v => Φ (.ok (some ⟨d, v, s, decide (x d = b.gapHigh x d)⟩))
      simp only [cutWith]
      rw [this, hg, lintegral_const_mul' _ _ ENNReal.ofReal_ne_top, ← mul_assoc, ← mul_assoc, ← ENNReal.ofReal_mul (by positivity), ← ENNReal.ofReal_mul (by positivity)]
      congr 2
      field_simp

/-! ### The growth of a tree -/

theorem anon_above (life : ℝ) (f : Nat × Nat) (c : Cut ℝ F) (t : Tree ℝ F L) (x : Fin F → ℝ) (label : Fin L) :
    (above life f c t x label).anon = above life (0, 0) c t.anon x label := by
  unfold above
  rw [anon_data]
  cases c.right <;> rfl

/-- the value of a result -/
def onOk (g : Tree ℝ F L → ENNReal) : Res (Tree ℝ F L) → ENNReal
  | .ok t => g t.anon
  | .error _ => 0

theorem growP_addPt {p : Params ℝ} (hlog : p.log = Real.log) (f : Nat × Nat) (z : Point ℝ F L) : ∀ (t : Tree ℝ F L) (ptau : ℝ), Sound t → Times (· ≤ ·) p.lifetime ptau t →
    ptau ≤ t.data.tau → ∀ g : Tree ℝ F L → ENNReal, (growP p f z.1 z.2 t ptau).ex (onOk g) = addPt p.lifetime z t.anon ptau g
  | .leaf id d, ptau, hs, ht, hle, g => by
      simp only [growP, Prog.ex_bind, Tree.anon, addPt]
      rw [drawP_int hlog hs z.1 (tau := d.tau) hle]
      simp only [Prog.ex, onOk, anon_above, newCut, over, Tree.data, Tree.anon]
      congr 2
  | .node id d dim sp l r, ptau, hs, ht, hle, g => by
      have hl := ht.2.2.1.step (fun a b h => h) ht.2.1
      have hr := ht.2.2.2.step (fun a b h => h) ht.2.1
      simp only [growP, Prog.ex_bind, Tree.anon, addPt]
      rw [drawP_int hlog hs.1 z.1 (tau := d.tau) hle]
      simp only [Prog.ex, onOk, anon_above, newCut, over, Tree.data, Tree.anon]
      congr 2
      split
      · rw [Prog.ex_bind, ← growP_addPt hlog f z l d.tau hs.2.1 ht.2.2.1 hl]
        refine Prog.ex_congr _ fun ω pos => ?_
        cases ((growP p f z.1 z.2 l d.tau).eval ω pos).1 with
        | error e => rfl
        | ok t => rfl
      · rw [Prog.ex_bind, ← growP_addPt hlog f z r d.tau hs.2.2 ht.2.2.2 hr]
        refine Prog.ex_congr _ fun ω pos => ?_
        cases ((growP p f z.1 z.2 r d.tau).eval ω pos).1 with
        | error e => rfl
        | ok t => rfl

end Orp.Mondrian
