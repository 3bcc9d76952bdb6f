import Verif.Utils.Shuffle
import Verif.Reservoir.Grid

/-!
Property C164: `shuffle` (utils.hpp:82-90) with a random function that has only `R` different values, such as `rand()/(RAND_MAX+1.0)`. As in C162 such a
random number is an ideal one rounded down to the grid (`Orp.Reservoir.grid`, `C162_grid_law`).
-/

set_option linter.unusedSectionVars false

namespace Orp.Utils

open MeasureTheory Set
open Orp.Reservoir (U01 grid cell grid_le grid_between cell_vol floor_range)

variable {α : Type}

/-- the ideal random numbers of a call of `shuffle` for an array of `n` elements -/
def idealNums {n : Nat} (w : Fin n → U01) (i : Nat) : ℝ := if h : i < n then (w ⟨i, h⟩).1 else 0

/-- the same numbers, with `R` different values -/
noncomputable def gridNums (R : Nat) {n : Nat} (w : Fin n → U01) (i : Nat) : ℝ := if h : i < n then (grid R (w ⟨i, h⟩)).1 else 0

/-- the numbers for which the grid may change the index drawn in iteration `i` -/
def badIdx (R i : Nat) : Set U01 := ⋃ j ∈ Finset.range (i - 1), cell R ⌊((j : ℝ) + 1) / i * (R : ℝ)⌋.toNat

theorem badIdx_meas (R i : Nat) : MeasurableSet (badIdx R i) := Finset.measurableSet_biUnion _ (fun _ _ => Orp.Reservoir.cell_meas R _)

theorem badIdx_vol {R : Nat} (hR : 1 ≤ R) (i : Nat) : volume (badIdx R i) ≤ ENNReal.ofReal (((i - 1 : Nat) : ℝ) / R) := by
  refine (measure_biUnion_finset_le _ _).trans ((Finset.sum_le_sum fun j _ => cell_vol hR _).trans (le_of_eq ?_))
  rw [Finset.sum_const, Finset.card_range, nsmul_eq_mul, ← ENNReal.ofReal_natCast, ← ENNReal.ofReal_mul (Nat.cast_nonneg _)]
  congr 1
  ring

theorem trunc_grid {R i : Nat} (hR : 1 ≤ R) (hi : 1 ≤ i) {u : U01} (hu : u ∉ badIdx R i) :
    trunc ((grid R u).1 * (i : ℝ)) = trunc (u.1 * (i : ℝ)) := by
  have hpos : (0 : ℝ) < i := by exact_mod_cast hi
  rw [trunc_nonneg (mul_nonneg (grid R u).2.1 hpos.le), trunc_nonneg (mul_nonneg u.2.1 hpos.le)]
  apply le_antisymm
  · exact Int.floor_le_floor (mul_le_mul_of_nonneg_right (grid_le R u) hpos.le)
  · by_contra hlt
    push Not at hlt
    obtain ⟨a1, _⟩ := floor_range (K := ℝ) hi (grid R u).2
    obtain ⟨_, a2⟩ := floor_range (K := ℝ) hi u.2
    obtain ⟨m, hm⟩ : ∃ m : Nat, ⌊u.1 * (i : ℝ)⌋ = ((m + 1 : Nat) : Int) := ⟨(⌊u.1 * (i : ℝ)⌋ - 1).toNat, by omega⟩
    refine hu (mem_iUnion₂.2 ⟨m, Finset.mem_range.2 (by omega), grid_between hR (by positivity) ?_ ?_⟩)
    · rw [lt_div_iff₀ hpos]
      have := Int.floor_lt.1 hlt
      rw [hm] at this
      push_cast at this
      exact this
    · rw [div_le_iff₀ hpos]
      have := Int.floor_le (u.1 * (i : ℝ))
      rw [hm] at this
      push_cast at this
      exact this

theorem shuffleLoop_congr {u v : Nat → ℝ} : ∀ (i : Nat) (l : List α), (∀ m, 1 ≤ m → m ≤ i → trunc (u m * (m : ℝ)) = trunc (v m * (m : ℝ))) →
    shuffleLoop u i l = shuffleLoop v i l
  | 0, _, _ => rfl
  | i + 1, l, h => by
      have e : shuffleStep l (i + 1) (u (i + 1)) = shuffleStep l (i + 1) (v (i + 1)) := by
        unfold shuffleStep
        rw [h (i + 1) (by omega) le_rfl]
      have ih := fun l' : List α => shuffleLoop_congr i l' (fun m h1 h2 => h m h1 (by omega))
      simp only [shuffleLoop, e, ih]

/-- the draws for which the grid may make a difference -/
def badShuffle (R n : Nat) : Set (Fin n → U01) := ⋃ i ∈ (Finset.univ : Finset (Fin n)), {w | w i ∈ badIdx R i.val}

theorem sum_pred : ∀ n : Nat, ∑ i ∈ Finset.range n, (i - 1) = (n - 1).choose 2
  | 0 => rfl
  | 1 => rfl
  | n + 2 => by
      rw [Finset.sum_range_succ, sum_pred (n + 1)]
      simp only [Nat.add_sub_cancel, show n + 2 - 1 = n + 1 by omega]
      rw [Nat.choose_succ_succ' n 1, Nat.choose_one_right, add_comm]

theorem badShuffle_vol {R : Nat} (hR : 1 ≤ R) (n : Nat) : volume (badShuffle R n) ≤ ENNReal.ofReal (((n - 1).choose 2 : ℝ) / R) := by
  have h1 : ∀ i : Fin n, volume {w : Fin n → U01 | w i ∈ badIdx R i.val} ≤ ENNReal.ofReal (((i.val - 1 : Nat) : ℝ) / R) := fun i => by
    have hmp := measurePreserving_eval (fun _ : Fin n => (volume : Measure U01)) i
    have := hmp.measure_preimage (badIdx_meas R i.val).nullMeasurableSet
    exact this.le.trans (badIdx_vol hR _)
  refine (measure_biUnion_finset_le _ _).trans ((Finset.sum_le_sum fun i _ => h1 i).trans (le_of_eq ?_))
  rw [← ENNReal.ofReal_sum_of_nonneg (fun i _ => by positivity), ← Finset.sum_div, ← Nat.cast_sum,
    Fin.sum_univ_eq_sum_range (fun i => i - 1) n, sum_pred]

theorem shuffle_grid {R : Nat} (hR : 1 ≤ R) (l : List α) (w : Fin l.length → U01) (hw : w ∉ badShuffle R l.length) :
    shuffle l (gridNums R w) = shuffle l (idealNums w) := by
  refine shuffleLoop_congr _ l (fun m h1 h2 => ?_)
  have hm : m < l.length := by omega
  simp only [gridNums, idealNums, hm, dif_pos]
  refine trunc_grid hR h1 (fun hb => hw (mem_iUnion₂.2 ⟨⟨m, hm⟩, Finset.mem_univ _, hb⟩))

/-- **C164** Whatever is asked about the shuffled array of `n` elements: the probability with a random function of `R` values differs from that with ideal
random numbers by at most `(n-1)*(n-2)/(2*R)`. -/
theorem C164_close {R : Nat} (hR : 1 ≤ R) (l : List α) (Q : List α → Prop) :
    volume {w : Fin l.length → U01 | ∃ r, shuffle l (gridNums R w) = .ok r ∧ Q r} ≤
        volume {w : Fin l.length → U01 | ∃ r, shuffle l (idealNums w) = .ok r ∧ Q r} + ENNReal.ofReal (((l.length - 1).choose 2 : ℝ) / R) ∧
      volume {w : Fin l.length → U01 | ∃ r, shuffle l (idealNums w) = .ok r ∧ Q r} ≤
        volume {w : Fin l.length → U01 | ∃ r, shuffle l (gridNums R w) = .ok r ∧ Q r} + ENNReal.ofReal (((l.length - 1).choose 2 : ℝ) / R) := by
  constructor
  · refine (measure_mono (t := {w : Fin l.length → U01 | ∃ r, shuffle l (idealNums w) = .ok r ∧ Q r} ∪ badShuffle R l.length) ?_).trans
      ((measure_union_le _ _).trans (add_le_add le_rfl (badShuffle_vol hR _)))
    intro w hw
    by_cases hb : w ∈ badShuffle R l.length
    · exact .inr hb
    · refine .inl ?_
      simp only [mem_ofPred_eq] at hw ⊢
      rwa [shuffle_grid hR l w hb] at hw
  · refine (measure_mono (t := {w : Fin l.length → U01 | ∃ r, shuffle l (gridNums R w) = .ok r ∧ Q r} ∪ badShuffle R l.length) ?_).trans
      ((measure_union_le _ _).trans (add_le_add le_rfl (badShuffle_vol hR _)))
    intro w hw
    by_cases hb : w ∈ badShuffle R l.length
    · exact .inr hb
    · refine .inl ?_
      simp only [mem_ofPred_eq] at hw ⊢
      rwa [shuffle_grid hR l w hb]

/-- **C164** In particular each of the cyclic arrangements, the only possible ones (C64), has probability `1/(n-1)!` up to `(n-1)*(n-2)/(2*R)`. -/
theorem C164_arrangement {R : Nat} (hR : 1 ≤ R) (l : List α) (hl : 1 ≤ l.length) (hn : l.Nodup) (σ : Equiv.Perm Nat) (hσ : FullCycle l.length σ) :
    volume {w : Fin l.length → U01 | ∃ r, shuffle l (gridNums R w) = .ok r ∧ r.length = l.length ∧ ∀ m : Nat, r[m]? = l[σ m]?} ≤
        ENNReal.ofReal (1 / ((l.length - 1).factorial : ℝ)) + ENNReal.ofReal (((l.length - 1).choose 2 : ℝ) / R) ∧
      ENNReal.ofReal (1 / ((l.length - 1).factorial : ℝ)) ≤
        volume {w : Fin l.length → U01 | ∃ r, shuffle l (gridNums R w) = .ok r ∧ r.length = l.length ∧ ∀ m : Nat, r[m]? = l[σ m]?} +
          ENNReal.ofReal (((l.length - 1).choose 2 : ℝ) / R) := by
  have h := C164_close hR l (fun r => r.length = l.length ∧ ∀ m : Nat, r[m]? = l[σ m]?)
  have e := C64_equal_probability l hl hn σ hσ
  have e2 : {w : Fin l.length → U01 | ∃ r, shuffle l (idealNums w) = .ok r ∧ r.length = l.length ∧ ∀ m : Nat, r[m]? = l[σ m]?} =
      {w : Fin l.length → U01 | ∃ r, r.length = l.length ∧ (∀ m, r[m]? = l[σ m]?) ∧
        shuffle l (fun i => if h : i < l.length then (w ⟨i, h⟩).1 else 0) = .ok r} := by
    ext w
    simp only [mem_ofPred_eq]
    exact exists_congr fun r => ⟨fun ⟨a, b, c⟩ => ⟨b, c, a⟩, fun ⟨b, c, a⟩ => ⟨a, b, c⟩⟩
  rw [e2, e] at h
  exact h

/-- **C164** But an array of more than `R + 1` elements has an element, other than the last one, that never comes to the last place, whatever the
random numbers are. -/
theorem C164_never_last {R : Nat} (hR : 1 ≤ R) (l : List α) (hn : l.Nodup) (hlong : R + 1 < l.length) :
    ∃ j : Nat, j < l.length - 1 ∧ ∀ (w : Fin l.length → U01) (r : List α), shuffle l (gridNums R w) = .ok r →
      r[l.length - 1]? ≠ l[j]? := by
  classical
  obtain ⟨n, hln⟩ : ∃ n, l.length = n + 2 := ⟨l.length - 2, by omega⟩
  -- the places the last element can be exchanged with
  let S : Finset Nat := (Finset.range R).image fun k : Nat => (trunc ((k : ℝ) / R * ((n + 1 : Nat) : ℝ))).toNat
  have hS : S.card < (Finset.range (n + 1)).card := by
    rw [Finset.card_range]
    have := Finset.card_image_le (s := Finset.range R) (f := fun k : Nat => (trunc ((k : ℝ) / R * ((n + 1 : Nat) : ℝ))).toNat)
    rw [Finset.card_range] at this
    exact lt_of_le_of_lt this (by omega : R < n + 1)
  obtain ⟨j, hj1, hj2⟩ := Finset.exists_mem_notMem_of_card_lt_card hS
  have hj : j < n + 1 := Finset.mem_range.1 hj1
  refine ⟨j, by omega, fun w r hr hlast => hj2 ?_⟩
  have hlt : n + 1 < l.length := by omega
  have hu : ∀ i, 0 ≤ gridNums R w i ∧ gridNums R w i < 1 := by
    intro i
    unfold gridNums
    split
    · exact (grid R _).2
    · norm_num
  have hsub : l.length - 1 = n + 1 := by omega
  unfold shuffle at hr
  rw [hsub] at hr hlast
  obtain ⟨q, hq, hqi, hqe, h1⟩ := shuffleStep_eq l (n + 1) (gridNums R w (n + 1)) (hu _).1 (hu _).2 (by omega) hlt
  simp only [shuffleLoop, h1, bind, Except.bind] at hr
  obtain ⟨r', e1, -, e3, -⟩ := shuffleLoop_spec (gridNums R w) hu n (swapAt l (n + 1) q hlt hq) (by rw [swapAt_length]; omega)
  rw [e1] at hr
  cases hr
  rw [e3 _ (by omega), List.getElem?_eq_getElem (by rw [swapAt_length]; exact hlt), swapAt_getElem, if_neg (by omega), if_pos rfl,
    List.getElem?_eq_getElem (by omega : j < l.length), Option.some.injEq] at hlast
  have hqj : q = j := (List.Nodup.getElem_inj_iff hn).1 hlast
  rw [← hqj, hqe]
  refine Finset.mem_image.2 ⟨⌊(w ⟨n + 1, hlt⟩).1 * (R : ℝ)⌋.toNat, ?_, ?_⟩
  · obtain ⟨a, b⟩ := floor_range (K := ℝ) hR (w ⟨n + 1, hlt⟩).2
    rw [Finset.mem_range]
    omega
  · obtain ⟨a, b⟩ := floor_range (K := ℝ) hR (w ⟨n + 1, hlt⟩).2
    have e : ((⌊(w ⟨n + 1, hlt⟩).1 * (R : ℝ)⌋.toNat : Nat) : ℝ) = (⌊(w ⟨n + 1, hlt⟩).1 * (R : ℝ)⌋ : ℝ) := by
      exact_mod_cast congrArg (Int.cast : Int → ℝ) (Int.toNat_of_nonneg a)
    simp only [gridNums, hlt, dif_pos, grid, e]

/- three elements and a random function with the only value 0: element 1 never comes to the last place -/
example : ([1, 2, 3] : List Nat).Nodup ∧ 1 + 1 < ([1, 2, 3] : List Nat).length := by decide

end Orp.Utils
