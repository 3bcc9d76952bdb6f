import Verif.Utils.Lemmas
import Verif.Reservoir.Prob

/-!
Properties C29–C33, C64 (see `Shuffle.lean`) and C65 of `Utils`.
-/

set_option linter.unusedSectionVars false

namespace Orp.Utils

open MeasureTheory
open Orp.Reservoir (U01)

variable {α : Type} {K : Type} [Field K] [LinearOrder K] [IsStrictOrderedRing K] [FloorRing K]

/-- **C29** For non-negative values with a positive sum the result is the cumulative distribution: entry `i` is the
sum of the first `i+1` values divided by the total; it is non-decreasing, within `[0,1]`, and ends at 1. -/
theorem C29_cumulative (values : List K) (hv : ∀ v ∈ values, 0 ≤ v) (hs : 0 < values.sum) :
    ∃ r, turnIntoProbability values = .ok r ∧ r.length = values.length ∧
      (∀ i (h : i < r.length), r[i] = (values.take (i + 1)).sum / values.sum) ∧
      (∀ i (h : i < r.length), 0 ≤ r[i] ∧ r[i] ≤ 1) ∧
      (∀ i j (_ : i ≤ j) (h : j < r.length), r[i] ≤ r[j]) ∧
      (∀ i (h : i + 1 < r.length) (h' : i + 1 < values.length), r[i + 1] - r[i] = values[i + 1] / values.sum) ∧
      r.getLast? = some 1 := by
  have hsum : (if (-1 : K) < 0 then values.foldl (· + ·) 0 else -1) = values.sum := by
    simp [foldl_add]
  obtain ⟨v, vs, rfl⟩ : ∃ v vs, values = v :: vs := by
    cases values with
    | nil => simp at hs
    | cons v vs => exact ⟨v, vs, rfl⟩
  have e : turnIntoProbability (v :: vs) =
      .ok ((v / (v :: vs).sum) :: cumulate (v :: vs).sum (v / (v :: vs).sum) vs) := by
    unfold turnIntoProbability
    simp only [hsum, hs.ne', if_false]
  have hlen : ((v / (v :: vs).sum) :: cumulate (v :: vs).sum (v / (v :: vs).sum) vs).length = (v :: vs).length := by
    simp [cumulate_length]
  have hget : ∀ i (h : i < ((v / (v :: vs).sum) :: cumulate (v :: vs).sum (v / (v :: vs).sum) vs).length),
      ((v / (v :: vs).sum) :: cumulate (v :: vs).sum (v / (v :: vs).sum) vs)[i] =
        ((v :: vs).take (i + 1)).sum / (v :: vs).sum := by
    intro i h
    cases i with
    | zero => simp
    | succ i =>
        rw [List.getElem_cons_succ, cumulate_getElem]
        simp only [List.take_succ_cons, List.sum_cons]
        ring
  have hmono : ∀ i j, i ≤ j → ((v :: vs).take i).sum ≤ ((v :: vs).take j).sum := by
    intro i j hij
    have : (v :: vs).take i = ((v :: vs).take j).take i := by rw [List.take_take, Nat.min_eq_left hij]
    rw [this]
    conv_rhs => rw [← List.take_append_drop i ((v :: vs).take j), List.sum_append]
    have : 0 ≤ (((v :: vs).take j).drop i).sum :=
      List.sum_nonneg fun x hx => hv x (List.mem_of_mem_take (List.mem_of_mem_drop hx))
    linarith
  refine ⟨_, e, hlen, hget, ?_, ?_, ?_, ?_⟩
  · intro i h
    rw [hget i h, div_le_one hs]
    constructor
    · exact div_nonneg (List.sum_nonneg fun x hx => hv x (List.mem_of_mem_take hx)) hs.le
    · have := hmono (i + 1) (v :: vs).length (by omega)
      rwa [List.take_length] at this
  · intro i j hij h
    rw [hget i (by omega), hget j h]
    exact div_le_div_of_nonneg_right (hmono _ _ (by omega)) hs.le
  · intro i h h'
    rw [hget (i + 1) h, hget i (by omega), List.take_succ_eq_append_getElem h', List.sum_append,
      List.sum_singleton]
    ring
  · have hlt : vs.length < ((v / (v :: vs).sum) :: cumulate (v :: vs).sum (v / (v :: vs).sum) vs).length := by
      rw [hlen]; simp
    have h1 : ((v / (v :: vs).sum) :: cumulate (v :: vs).sum (v / (v :: vs).sum) vs).length - 1 = vs.length := by
      rw [hlen]; rfl
    rw [List.getLast?_eq_getElem?, h1, List.getElem?_eq_getElem hlt, hget,
      show vs.length + 1 = (v :: vs).length from rfl, List.take_length, div_self hs.ne']

example : turnIntoProbability ([6, 15, 9] : List ℚ) = .ok [1/5, 7/10, 1] := by decide +kernel

/-- **C30** (the part that holds for every `u`) For a non-decreasing array ending at 1 and `u < 1`, the result is an
index `i` in range, the first one with `u ≤ p[i]`; index `i` is selected exactly when `u` is in
`]p[i-1], p[i]]` (`]-∞, p[0]]` for `i = 0`). -/
theorem C30_first_index_partial (p : List K) (hmono : ∀ i j (_ : i ≤ j) (h : j < p.length), p[i] ≤ p[j])
    (hlast : p.getLast? = some 1) {u : K} (hu : u < 1) :
    pick p u < p.length ∧
    ∀ i (hi : i < p.length), pick p u = i ↔ (∀ h : 1 ≤ i, p[i - 1] < u) ∧ u ≤ p[i] := by
  have hne : p ≠ [] := by rintro rfl; simp at hlast
  have hpos : 0 < p.length := List.length_pos_iff.2 hne
  have hl : p[p.length - 1] = 1 := by
    rw [List.getLast?_eq_getElem?, List.getElem?_eq_getElem (by omega)] at hlast
    simpa using hlast
  constructor
  · obtain ⟨m, h1, h2, h3, h4⟩ := pickFrom_spec u p 0
    unfold pick
    rw [h1]
    by_contra hge
    have hm : m = p.length := by omega
    have := h3 (p.length - 1) (by omega) (by omega)
    rw [hl] at this
    exact absurd hu (not_lt.2 this.le)
  · intro i hi
    rw [pick_eq_iff p u i hi]
    constructor
    · rintro ⟨a, b⟩; exact ⟨fun h => a (i - 1) (by omega) (by omega), b⟩
    · rintro ⟨a, b⟩
      refine ⟨fun j hj hji => ?_, b⟩
      exact (hmono j (i - 1) (by omega) (by omega)).trans_lt (a (by omega))

example : pick ([1/5, 1/2, 1] : List ℚ) (3/10) = 1 := by decide +kernel

/-- **C30** An index of probability zero is never returned when `u > 0`. -/
theorem C30_no_zero_probability_partial (p : List K)
    (hmono : ∀ i j (_ : i ≤ j) (h : j < p.length), p[i] ≤ p[j])
    (hlast : p.getLast? = some 1) {u : K} (hu0 : 0 < u) (hu : u < 1) (i : Nat) (hi : i < p.length)
    (hzero : (if h : 1 ≤ i then p[i] - p[i - 1] else p[i]) = 0) : pick p u ≠ i := by
  intro h
  obtain ⟨a, b⟩ := ((C30_first_index_partial p hmono hlast hu).2 i hi).1 h
  by_cases h1 : 1 ≤ i
  · rw [dif_pos h1] at hzero
    have := a h1
    linarith
  · rw [dif_neg h1] at hzero
    linarith

/-- **C30** fails at `u = 0`, a value the generator can return: an index of probability zero is picked. -/
theorem C30_zero_draw_picks_impossible_index :
    ∃ values : List ℚ, (∀ v ∈ values, 0 ≤ v) ∧ 0 < values.sum ∧
      ∃ p, turnIntoProbability values = .ok p ∧ ∃ i, pick p 0 = i ∧ values[i]? = some 0 :=
  ⟨[0, 1], by decide +kernel, by decide +kernel, [0, 1], by decide +kernel, 0, by decide +kernel, rfl⟩

/-- **C30** With an ideal uniform random number each index is picked with exactly its probability. -/
theorem C30_probability (p : List ℝ) (hmono : ∀ i j (_ : i ≤ j) (h : j < p.length), p[i] ≤ p[j])
    (hlast : p.getLast? = some 1) (hnn : ∀ x ∈ p, 0 ≤ x) (i : Nat) (hi : i < p.length) :
    volume {u : U01 | pick p u.1 = i} = ENNReal.ofReal (if h : 1 ≤ i then p[i] - p[i - 1] else p[i]) := by
  have hpos : 0 < p.length := by omega
  have hl : p[p.length - 1] = 1 := by
    rw [List.getLast?_eq_getElem?, List.getElem?_eq_getElem (by omega)] at hlast
    simpa using hlast
  have hle1 : p[i] ≤ 1 := by rw [← hl]; exact hmono _ _ (by omega) (by omega)
  rw [Orp.Reservoir.vol_U01]
  have key : ∀ u : U01, pick p u.1 = i ↔ (∀ h : 1 ≤ i, p[i - 1] < u.1) ∧ u.1 ≤ p[i] :=
    fun u => (C30_first_index_partial p hmono hlast u.2.2).2 i hi
  by_cases h1 : 1 ≤ i
  · rw [dif_pos h1]
    apply le_antisymm
    · have hsub : (Subtype.val '' {u : U01 | pick p u.1 = i}) ⊆ Set.Ioc p[i - 1] p[i] := by
        rintro x ⟨u, hu, rfl⟩
        exact ⟨((key u).1 hu).1 h1, ((key u).1 hu).2⟩
      exact (measure_mono hsub).trans (by rw [Real.volume_Ioc])
    · have hsub : Set.Ioo p[i - 1] p[i] ⊆ (Subtype.val '' {u : U01 | pick p u.1 = i}) := by
        rintro x ⟨a, b⟩
        have h0 : 0 ≤ x := (hnn _ (List.getElem_mem (by omega))).trans a.le
        exact ⟨⟨x, h0, b.trans_le hle1⟩, (key ⟨x, h0, b.trans_le hle1⟩).2 ⟨fun _ => a, b.le⟩, rfl⟩
      exact le_trans (by rw [Real.volume_Ioo]) (measure_mono hsub)
  · rw [dif_neg h1]
    apply le_antisymm
    · have hsub : (Subtype.val '' {u : U01 | pick p u.1 = i}) ⊆ Set.Icc 0 p[i] := by
        rintro x ⟨u, hu, rfl⟩
        exact ⟨u.2.1, ((key u).1 hu).2⟩
      exact (measure_mono hsub).trans (by rw [Real.volume_Icc, sub_zero])
    · have hsub : Set.Ioo 0 p[i] ⊆ (Subtype.val '' {u : U01 | pick p u.1 = i}) := by
        rintro x ⟨a, b⟩
        exact ⟨⟨x, a.le, b.trans_le hle1⟩, (key ⟨x, a.le, b.trans_le hle1⟩).2 ⟨fun h => absurd h h1, b.le⟩, rfl⟩
      exact le_trans (by rw [Real.volume_Ioo, sub_zero]) (measure_mono hsub)

/-- **C31** `shuffle` stays in bounds and leaves a permutation of the array. -/
theorem C31_permutes_partial (l : List α) (u : Nat → K) (hu : ∀ i, 0 ≤ u i ∧ u i < 1) :
    ∃ r, shuffle l u = .ok r ∧ r.Perm l := by
  obtain ⟨r, h1, h2, _⟩ := shuffleLoop_spec u hu (l.length - 1) l (by omega)
  exact ⟨r, h1, h2⟩

example : shuffle [1, 2, 3, 4] (fun _ => (1/2 : ℚ)) = .ok [3, 1, 4, 2] := by decide +kernel

/-- **C31** is violated: with at least two distinct elements no element ever keeps its place, so that most
permutations (for instance the identity) are impossible. -/
theorem C31_no_element_keeps_its_place (l : List α) (hn : l.Nodup) (h2 : 2 ≤ l.length) (u : Nat → K)
    (hu : ∀ i, 0 ≤ u i ∧ u i < 1) :
    ∃ r, shuffle l u = .ok r ∧ ∀ m, m < l.length → r[m]? ≠ l[m]? := by
  obtain ⟨r, h1, _, _, h4⟩ := shuffleLoop_spec u hu (l.length - 1) l (by omega)
  exact ⟨r, h1, fun m hm => h4 hn (by omega) m (by omega)⟩

/-- **C31** is violated: the identity permutation is unreachable. -/
theorem C31_identity_unreachable (l : List α) (hn : l.Nodup) (h2 : 2 ≤ l.length) :
    ¬ ∃ u : Nat → K, (∀ i, 0 ≤ u i ∧ u i < 1) ∧ shuffle l u = .ok l := by
  rintro ⟨u, hu, h⟩
  obtain ⟨r, h1, h3⟩ := C31_no_element_keeps_its_place l hn h2 u hu
  rw [h] at h1
  cases h1
  exact h3 0 (by omega) rfl

example : ([1, 2] : List Nat).Nodup ∧ 2 ≤ [1, 2].length := by decide

/-- **C32** `index_max` of a non-empty array is in range, its element is maximal, and no earlier element is. -/
theorem C32_index_max {α : Type} [LinearOrder α] (l : List α) (hne : l ≠ []) :
    ∃ h : indexMax l < l.length, (∀ x ∈ l, x ≤ l[indexMax l]) ∧
      ∀ j (h' : j < l.length), j < indexMax l → l[j] < l[indexMax l] := by
  cases l with
  | nil => exact absurd rfl hne
  | cons x xs =>
      exact indexMaxFrom_spec [x] xs 0 1 x rfl (by omega) rfl (by simp) (by intro j _ h; omega)

example : indexMax ([3, 9, 2, 9] : List Nat) = 1 := by decide

/-- **C33** `div_int` is the quotient truncated toward zero. -/
theorem C33_div_int {a b : Int} (hb : b ≠ 0) (hrep : ¬ (a = -(2 ^ 31) ∧ b = -1)) :
    ∃ q, divInt a b = .ok q ∧ q = a.tdiv b ∧ |q| * |b| ≤ |a| ∧ |a| < (|q| + 1) * |b| := by
  have hq : (a - a.tmod b).tdiv b = a.tdiv b := by
    have h := Int.mul_tdiv_add_tmod a b
    have : a - a.tmod b = b * a.tdiv b := by omega
    rw [this, Int.mul_tdiv_cancel_left _ hb]
  refine ⟨_, by rw [divInt, if_neg hb, if_neg hrep], hq, ?_⟩
  rw [hq]
  have h1 : |a.tdiv b| = |a| / |b| := by
    rw [Int.abs_eq_natAbs, Int.abs_eq_natAbs, Int.abs_eq_natAbs, Int.natAbs_tdiv]; rfl
  rw [h1]
  have hb' : 0 < |b| := abs_pos.2 hb
  have := Int.mul_ediv_add_emod |a| |b|
  have h3 := Int.emod_nonneg |a| hb'.ne'
  have h4 := Int.emod_lt_of_pos |a| hb'
  constructor <;> nlinarith

example : divInt (-7) 2 = .ok (-3) := by decide

/-- **C33** `round` gives a nearest integer; a half is rounded away from zero. -/
theorem C33_round (v : K) :
    |((round v : Int) : K) - v| ≤ 1 / 2 ∧
    (|((round v : Int) : K) - v| = 1 / 2 → |v| < |((round v : Int) : K)|) := by
  unfold round
  by_cases h : v < 0
  · have h1 : v - 1 / 2 < 0 := by linarith
    simp only [h, if_true, trunc, h1]
    have a := Int.le_ceil (v - 1 / 2)
    have b := Int.ceil_lt_add_one (v - 1 / 2)
    have hle : ((⌈v - 1 / 2⌉ : Int) : K) ≤ 0 := by
      have : ⌈v - 1 / 2⌉ ≤ 0 := Int.ceil_le.2 (by simpa using h1.le)
      exact_mod_cast this
    refine ⟨abs_le.2 ⟨by linarith, by linarith⟩, fun he => ?_⟩
    rw [abs_of_neg h, abs_of_nonpos hle]
    rcases abs_cases (((⌈v - 1 / 2⌉ : Int) : K) - v) with ⟨e1, _⟩ | ⟨e1, _⟩ <;> linarith
  · have h1 : ¬ v + 1 / 2 < 0 := by linarith
    simp only [h, if_false, trunc, h1]
    have a := Int.floor_le (v + 1 / 2)
    have b := Int.lt_floor_add_one (v + 1 / 2)
    push Not at h h1
    have hge : (0 : K) ≤ ((⌊v + 1 / 2⌋ : Int) : K) := by
      have : 0 ≤ ⌊v + 1 / 2⌋ := Int.floor_nonneg.2 h1
      exact_mod_cast this
    refine ⟨abs_le.2 ⟨by linarith, by linarith⟩, fun he => ?_⟩
    rw [abs_of_nonneg h, abs_of_nonneg hge]
    rcases abs_cases (((⌊v + 1 / 2⌋ : Int) : K) - v) with ⟨e1, _⟩ | ⟨e1, _⟩ <;> linarith

example : round (-5/2 : ℚ) = -3 ∧ round (5/2 : ℚ) = 3 ∧ round (7/3 : ℚ) = 2 := by decide +kernel

/-- **C33** `abs`, `min` and `max` are the absolute value, the minimum and the maximum (exact numbers). -/
theorem C33_abs_min_max {R : Type} [Ring R] [LinearOrder R] [IsStrictOrderedRing R] (a b : R) :
    Utils.abs a = |a| ∧ Utils.min a b = Min.min a b ∧ Utils.max a b = Max.max a b := by
  refine ⟨?_, ?_, ?_⟩
  · unfold Utils.abs
    split
    · rename_i h; rw [abs_of_neg h]; simp
    · rename_i h; rw [abs_of_nonneg (not_lt.1 h)]
  · unfold Utils.min
    split
    · rename_i h; rw [min_eq_left h.le]
    · rename_i h; rw [min_eq_right (not_lt.1 h)]
  · unfold Utils.max
    split
    · rename_i h; rw [max_eq_left h.le]
    · rename_i h; rw [max_eq_right (not_lt.1 h)]

/-- **C65** For a positive rate and an ideal uniform `u`, `rand_exponential` is non-negative and exceeds `x ≥ 0`
with probability exactly `exp(-rate·x)`: it follows the exponential law. -/
theorem C65_rand_exponential {rate : ℝ} (hr : 0 < rate) :
    (∀ u : U01, 0 ≤ randExponential rate u.1) ∧
    ∀ x : ℝ, 0 ≤ x → volume {u : U01 | x < randExponential rate u.1} = ENNReal.ofReal (Real.exp (-(rate * x))) := by
  constructor
  · intro u
    unfold randExponential
    have h1 : 0 ≤ 1 - u.1 := by linarith [u.2.2]
    have h2 : 1 - u.1 ≤ 1 := by linarith [u.2.1]
    exact div_nonneg_of_nonpos (Real.log_nonpos h1 h2) (by linarith)
  · intro x hx
    rw [Orp.Reservoir.vol_U01]
    have he1 : Real.exp (-(rate * x)) ≤ 1 := Real.exp_le_one_iff.2 (by nlinarith)
    have : Subtype.val '' {u : U01 | x < randExponential rate u.1} = Set.Ioo (1 - Real.exp (-(rate * x))) 1 := by
      have key : ∀ u : ℝ, u < 1 → (x < randExponential rate u ↔ 1 - Real.exp (-(rate * x)) < u) := by
        intro u hu
        have h1 : 0 < 1 - u := by linarith
        unfold randExponential
        rw [div_neg, lt_neg, div_lt_iff₀ hr, Real.log_lt_iff_lt_exp h1]
        have : -x * rate = -(rate * x) := by ring
        rw [this]
        constructor <;> intro h <;> linarith
      ext y
      constructor
      · rintro ⟨u, hu, rfl⟩
        exact ⟨(key u.1 u.2.2).1 hu, u.2.2⟩
      · rintro ⟨a, b⟩
        exact ⟨⟨y, by linarith, b⟩, (key y b).2 a, rfl⟩
    rw [this, Real.volume_Ioo]
    congr 1; ring

end Orp.Utils
