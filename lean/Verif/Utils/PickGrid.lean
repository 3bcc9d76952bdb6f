import Verif.Utils.Props
import Verif.Reservoir.Grid

/-!
Property C167: `pick_from_distribution` (utils.hpp:13-21) with a random function that has only `R` different values, such as `rand()/(RAND_MAX+1.0)`. As in
C162 such a random number is an ideal one rounded down to the grid (`Orp.Reservoir.grid`, `C162_grid_law`).
-/

set_option linter.unusedSectionVars false

namespace Orp.Utils

open MeasureTheory Set
open Orp.Reservoir (U01 grid vol_lt)

/-- how many of the numbers `0, 1/R, …, (R-1)/R` are at most `x` (specification) -/
noncomputable def gridCount (R : Nat) (x : ℝ) : Nat := ((Finset.range R).filter fun j : Nat => (j : ℝ) / R ≤ x).card

theorem gridCount_eq {R : Nat} (hR : 1 ≤ R) {x : ℝ} (h0 : 0 ≤ x) : gridCount R x = Min.min R (⌊x * (R : ℝ)⌋₊ + 1) := by
  have hpos : (0 : ℝ) < R := by exact_mod_cast hR
  have : ((Finset.range R).filter fun j : Nat => (j : ℝ) / R ≤ x) = Finset.range (Min.min R (⌊x * (R : ℝ)⌋₊ + 1)) := by
    ext j
    rw [Finset.mem_filter, Finset.mem_range, Finset.mem_range, lt_min_iff, Nat.lt_succ_iff, Nat.le_floor_iff (mul_nonneg h0 hpos.le), div_le_iff₀ hpos]
  rw [gridCount, this, Finset.card_range]

theorem vol_grid_le {R : Nat} (hR : 1 ≤ R) {x : ℝ} (h0 : 0 ≤ x) :
    volume {u : U01 | (grid R u).1 ≤ x} = ENNReal.ofReal ((gridCount R x : ℝ) / R) := by
  have hpos : (0 : ℝ) < R := by exact_mod_cast hR
  have hset : {u : U01 | (grid R u).1 ≤ x} = {u : U01 | u.1 < (gridCount R x : ℝ) / R} := by
    ext u
    have hu := mul_nonneg u.2.1 hpos.le
    have hu1 : u.1 * (R : ℝ) < R := by nlinarith [u.2.2]
    simp only [mem_ofPred_eq, grid]
    rw [div_le_iff₀ hpos, lt_div_iff₀ hpos, gridCount_eq hR h0, ← natCast_floor_eq_intCast_floor hu, ← Nat.le_floor_iff (mul_nonneg h0 hpos.le), Nat.cast_min,
      lt_min_iff, ← Nat.floor_lt hu (n := ⌊x * (R : ℝ)⌋₊ + 1), Nat.lt_succ_iff]
    exact ⟨fun h => ⟨hu1, h⟩, fun h => h.2⟩
  rw [hset, vol_lt]
  rw [div_le_one hpos, gridCount_eq hR h0]
  exact_mod_cast Nat.min_le_left _ _

theorem gridCount_mono {R : Nat} {x y : ℝ} (h : x ≤ y) : gridCount R x ≤ gridCount R y :=
  Finset.card_le_card (Finset.monotone_filter_right _ (fun _ _ hj => hj.trans h))

theorem meas_grid_le (R : Nat) (x : ℝ) : MeasurableSet {u : U01 | (grid R u).1 ≤ x} := by
  have hm : Measurable fun u : U01 => (grid R u).1 :=
    ((measurable_from_top (f := fun z : Int => (z : ℝ))).comp (Int.measurable_floor.comp (measurable_subtype_coe.mul_const (R : ℝ)))).div_const (R : ℝ)
  exact measurableSet_le hm measurable_const

/-- **C167** The probability of an index is the share of the `R` numbers that are in its interval. -/
theorem C167_law {R : Nat} (hR : 1 ≤ R) (p : List ℝ) (hmono : ∀ i j (_ : i ≤ j) (h : j < p.length), p[i] ≤ p[j])
    (hlast : p.getLast? = some 1) (hnn : ∀ x ∈ p, 0 ≤ x) (i : Nat) (hi : i < p.length) :
    volume {u : U01 | pick p (grid R u).1 = i} =
      ENNReal.ofReal (((gridCount R p[i] : ℝ) - if h : 1 ≤ i then (gridCount R p[i - 1] : ℝ) else 0) / R) := by
  have hpos : (0 : ℝ) < R := by exact_mod_cast hR
  have key : ∀ u : U01, pick p (grid R u).1 = i ↔ (∀ h : 1 ≤ i, p[i - 1] < (grid R u).1) ∧ (grid R u).1 ≤ p[i] :=
    fun u => (C30_first_index_partial p hmono hlast (grid R u).2.2).2 i hi
  have hi0 : 0 ≤ p[i] := hnn _ (List.getElem_mem hi)
  by_cases h1 : 1 ≤ i
  · have hs : {u : U01 | pick p (grid R u).1 = i} = {u : U01 | (grid R u).1 ≤ p[i]} \ {u : U01 | (grid R u).1 ≤ p[i - 1]} := by
      ext u
      simp only [mem_ofPred_eq, mem_sdiff, key u, not_le]
      exact ⟨fun h => ⟨h.2, h.1 h1⟩, fun h => ⟨fun _ => h.2, h.1⟩⟩
    have hsub : {u : U01 | (grid R u).1 ≤ p[i - 1]} ⊆ {u : U01 | (grid R u).1 ≤ p[i]} := fun u hu => le_trans hu (hmono _ _ (by omega) hi)
    rw [hs, measure_sdiff hsub (meas_grid_le R _).nullMeasurableSet (measure_ne_top _ _),
      vol_grid_le hR hi0, vol_grid_le hR (hnn _ (List.getElem_mem (by omega))), ← ENNReal.ofReal_sub _ (by positivity), dif_pos h1, sub_div]
  · have hs : {u : U01 | pick p (grid R u).1 = i} = {u : U01 | (grid R u).1 ≤ p[i]} := by
      ext u
      simp only [mem_ofPred_eq, key u]
      exact ⟨fun h => h.2, fun h => ⟨fun h' => absurd h' h1, h⟩⟩
    rw [hs, vol_grid_le hR hi0, dif_neg h1, sub_zero]

theorem gridCount_near {R : Nat} (hR : 1 ≤ R) {x : ℝ} (h0 : 0 ≤ x) (h1 : x ≤ 1) : x * (R : ℝ) ≤ gridCount R x ∧ (gridCount R x : ℝ) ≤ x * R + 1 := by
  have hpos : (0 : ℝ) < R := by exact_mod_cast hR
  rw [gridCount_eq hR h0]
  have a := Nat.floor_le (mul_nonneg h0 hpos.le)
  have b := (Nat.lt_floor_add_one (x * (R : ℝ))).le
  push_cast
  exact ⟨le_min (by nlinarith) b, (min_le_right _ _).trans (by linarith)⟩

/-- **C167** This probability is within `1/R` of the probability of the index in the distribution. -/
theorem C167_close {R : Nat} (hR : 1 ≤ R) (p : List ℝ) (hmono : ∀ i j (_ : i ≤ j) (h : j < p.length), p[i] ≤ p[j])
    (hlast : p.getLast? = some 1) (hnn : ∀ x ∈ p, 0 ≤ x) (i : Nat) (hi : i < p.length) :
    |(volume {u : U01 | pick p (grid R u).1 = i}).toReal - (if h : 1 ≤ i then p[i] - p[i - 1] else p[i])| ≤ 1 / R := by
  have hpos : (0 : ℝ) < R := by exact_mod_cast hR
  have hl : p[p.length - 1] = 1 := by
    rw [List.getLast?_eq_getElem?, List.getElem?_eq_getElem (by omega)] at hlast
    simpa using hlast
  have hle1 : ∀ j (h : j < p.length), p[j] ≤ 1 := fun j h => by rw [← hl]; exact hmono _ _ (by omega) (by omega)
  rw [C167_law hR p hmono hlast hnn i hi]
  obtain ⟨a1, a2⟩ := gridCount_near hR (hnn _ (List.getElem_mem hi)) (hle1 i hi)
  by_cases h1 : 1 ≤ i
  · obtain ⟨b1, b2⟩ := gridCount_near hR (hnn _ (List.getElem_mem (by omega : i - 1 < p.length))) (hle1 (i - 1) (by omega))
    have hm : (gridCount R p[i - 1] : ℝ) ≤ gridCount R p[i] := by exact_mod_cast gridCount_mono (hmono (i - 1) i (by omega) hi)
    rw [dif_pos h1, dif_pos h1, ENNReal.toReal_ofReal (div_nonneg (by linarith) hpos.le)]
    rw [show ((gridCount R p[i] : ℝ) - gridCount R p[i - 1]) / R - (p[i] - p[i - 1]) =
      ((gridCount R p[i] - p[i] * R) - (gridCount R p[i - 1] - p[i - 1] * R)) / R by field_simp; ring, abs_div, abs_of_pos hpos]
    exact div_le_div_of_nonneg_right (abs_le.2 ⟨by linarith, by linarith⟩) hpos.le
  · rw [dif_neg h1, dif_neg h1, sub_zero, ENNReal.toReal_ofReal (by positivity)]
    rw [show (gridCount R p[i] : ℝ) / R - p[i] = (gridCount R p[i] - p[i] * R) / R by field_simp, abs_div, abs_of_pos hpos]
    exact div_le_div_of_nonneg_right (abs_le.2 ⟨by linarith, by linarith⟩) hpos.le

/-- **C167** Weights, as the Mondrian trees use them: an index of weight 0 other than the first is never drawn. -/
theorem C167_zero_weight {R : Nat} (hR : 1 ≤ R) (values : List ℝ) (hv : ∀ v ∈ values, 0 ≤ v) (hs : 0 < values.sum) (p : List ℝ)
    (hp : turnIntoProbability values = .ok p) (i : Nat) (hi : 1 ≤ i) (hz : values[i]? = some 0) :
    volume {u : U01 | pick p (grid R u).1 = i} = 0 := by
  obtain ⟨r, e1, e2, -, e4, e5, e6, e7⟩ := C29_cumulative values hv hs
  rw [e1] at hp
  cases hp
  obtain ⟨hlt, hz'⟩ := List.getElem?_eq_some_iff.1 hz
  obtain ⟨k, rfl⟩ : ∃ k, i = k + 1 := ⟨i - 1, by omega⟩
  have hd := e6 k (by omega) hlt
  rw [hz', zero_div, sub_eq_zero] at hd
  rw [C167_law hR p (fun i j h h' => e5 i j h h') e7 (fun x hx => by obtain ⟨j, hj, rfl⟩ := List.getElem_of_mem hx; exact (e4 j hj).1) (k + 1) (by omega), dif_pos hi]
  simp [hd]

/-- **C167** (violation) If the first index has weight 0, it is still drawn, with probability `1/R`. -/
theorem C167_first_weight_zero {R : Nat} (hR : 1 ≤ R) (values : List ℝ) (hv : ∀ v ∈ values, 0 ≤ v) (hs : 0 < values.sum) (p : List ℝ)
    (hp : turnIntoProbability values = .ok p) (hz : values[0]? = some 0) :
    volume {u : U01 | pick p (grid R u).1 = 0} = ENNReal.ofReal (1 / R) := by
  obtain ⟨r, e1, e2, e3, e4, e5, e6, e7⟩ := C29_cumulative values hv hs
  rw [e1] at hp
  cases hp
  obtain ⟨hlt, hz'⟩ := List.getElem?_eq_some_iff.1 hz
  have h0 : p[0] = 0 := by
    rw [e3 0 (by omega), List.take_add_one, hz]
    simp
  rw [C167_law hR p (fun i j h h' => e5 i j h h') e7 (fun x hx => by obtain ⟨j, hj, rfl⟩ := List.getElem_of_mem hx; exact (e4 j hj).1) 0 (by omega), h0,
    gridCount_eq hR le_rfl]
  simp [hR]

/-- **C167** (violation) An index can have a positive probability and never be drawn: any probability below `1/R` whose interval has none of the numbers. -/
theorem C167_never_drawn {R : Nat} (hR : 1 ≤ R) : ∃ values : List ℝ, (∀ v ∈ values, 0 < v) ∧ ∃ p, turnIntoProbability values = .ok p ∧
    ∃ i < values.length, volume {u : U01 | pick p (grid R u).1 = i} = 0 := by
  have hpos : (0 : ℝ) < R := by exact_mod_cast hR
  have hv : ∀ v ∈ [4 * (R : ℝ) - 3, 2, 1], (0 : ℝ) < v := by
    have : (1 : ℝ) ≤ R := by exact_mod_cast hR
    intro v hv
    simp only [List.mem_cons, List.not_mem_nil, or_false] at hv
    rcases hv with rfl | rfl | rfl <;> linarith
  have hsum : [4 * (R : ℝ) - 3, 2, 1].sum = 4 * R := by simp; ring
  obtain ⟨r, e1, e2, e3, e4, e5, e6, e7⟩ := C29_cumulative [4 * (R : ℝ) - 3, 2, 1] (fun v h => (hv v h).le) (by rw [hsum]; linarith)
  refine ⟨_, hv, r, e1, 2, by simp, ?_⟩
  have hlen : r.length = 3 := by simpa using e2
  rw [C167_law hR r (fun i j h h' => e5 i j h h') e7 (fun x hx => by obtain ⟨j, hj, rfl⟩ := List.getElem_of_mem hx; exact (e4 j hj).1) 2 (by omega), dif_pos (by omega)]
  have g2 : r[2] * (R : ℝ) = R := by
    rw [e3 2 (by omega), hsum]
    simp
    field_simp
    ring
  have g1 : r[1] * (R : ℝ) = R - 1 / 4 := by
    rw [e3 1 (by omega), hsum]
    simp
    field_simp
    ring
  have f1 : ⌊r[1] * (R : ℝ)⌋₊ + 1 = R := by
    have : ⌊r[1] * (R : ℝ)⌋₊ = R - 1 := by
      rw [g1, Nat.floor_eq_iff (by linarith [(Nat.one_le_cast (α := ℝ)).2 hR])]
      push_cast [Nat.cast_sub hR]
      constructor <;> linarith
    omega
  have f2 : ⌊r[2] * (R : ℝ)⌋₊ = R := by rw [g2, Nat.floor_natCast]
  rw [gridCount_eq hR (e4 2 (by omega)).1, gridCount_eq hR (e4 1 (by omega)).1, f2]
  simp only [f1]
  simp

/- a distribution that meets the hypotheses -/
example : ∃ p : List ℚ, turnIntoProbability [(0 : ℚ), 1, 2, 1] = .ok p ∧ p = [0, 1 / 4, 3 / 4, 1] ∧ pick p 0 = 0 ∧ pick p (1 / 2) = 2 :=
  ⟨[0, 1 / 4, 3 / 4, 1], by decide +kernel, rfl, by decide +kernel, by decide +kernel⟩

end Orp.Utils
