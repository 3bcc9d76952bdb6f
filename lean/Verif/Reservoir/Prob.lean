import Verif.Reservoir.Lemmas
import Mathlib.MeasureTheory.Measure.Lebesgue.Basic
import Mathlib.MeasureTheory.Constructions.Pi
import Mathlib.MeasureTheory.Function.Floor
import Mathlib.MeasureTheory.Measure.Prod

/-!
Probability tools: independent uniform random numbers in `[0,1[` and the laws of the two reservoirs.
-/

namespace Orp.Reservoir

open MeasureTheory Set

/-- real numbers in `[0,1[`, with Lebesgue measure: one ideal random number -/
abbrev U01 : Type := Set.Ico (0 : ℝ) 1

noncomputable instance : MeasureSpace U01 := Measure.Subtype.measureSpace

/-- the random numbers of `N` successive calls: all independent and uniform (product of Lebesgue measures) -/
abbrev Draws (N : Nat) : Type := Fin N → U01 × U01

theorem vol_U01 (t : Set U01) : volume t = volume (Subtype.val '' t) :=
  comap_subtype_coe_apply measurableSet_Ico volume t

instance : IsProbabilityMeasure (volume : Measure U01) := ⟨by
  rw [vol_U01, image_univ, Subtype.range_coe]; simp⟩

/-- `P(u < c) = c` -/
theorem vol_lt {c : ℝ} (h1 : c ≤ 1) : volume {u : U01 | u.1 < c} = ENNReal.ofReal c := by
  rw [vol_U01]
  have : Subtype.val '' {u : U01 | u.1 < c} = Ico 0 c := by
    ext x
    constructor
    · rintro ⟨u, hu, rfl⟩; exact ⟨u.2.1, hu⟩
    · rintro ⟨a, b⟩; exact ⟨⟨x, a, lt_of_lt_of_le b h1⟩, b, rfl⟩
  rw [this]; simp

/-- `P(⌊u k⌋ = j) = 1/k` -/
theorem vol_floor {k j : Nat} (hk : 1 ≤ k) (hj : j < k) :
    volume {u : U01 | ⌊u.1 * (k : ℝ)⌋.toNat = j} = ENNReal.ofReal (1 / k) := by
  have hpos : (0 : ℝ) < k := by exact_mod_cast hk
  rw [vol_U01]
  have : Subtype.val '' {u : U01 | ⌊u.1 * (k : ℝ)⌋.toNat = j} = Ico ((j : ℝ) / k) (((j : ℝ) + 1) / k) := by
    ext x
    constructor
    · rintro ⟨u, hu, rfl⟩
      have h0 : 0 ≤ ⌊u.1 * (k : ℝ)⌋ := (floor_range hk u.2).1
      have hu' : ⌊u.1 * (k : ℝ)⌋ = (j : Int) := by
        have hu : ⌊u.1 * (k : ℝ)⌋.toNat = j := hu
        omega
      rw [Int.floor_eq_iff] at hu'
      obtain ⟨a, b⟩ := hu'
      refine ⟨?_, ?_⟩
      · rw [div_le_iff₀ hpos]; exact_mod_cast a
      · rw [lt_div_iff₀ hpos]; exact_mod_cast b
    · rintro ⟨a, b⟩
      rw [div_le_iff₀ hpos] at a
      rw [lt_div_iff₀ hpos] at b
      have h0 : 0 ≤ x := by
        by_contra hneg
        push Not at hneg
        have : x * k < 0 := mul_neg_of_neg_of_pos hneg hpos
        have : (0 : ℝ) ≤ j := by positivity
        linarith
      have h1 : x < 1 := by
        have : (j : ℝ) + 1 ≤ k := by exact_mod_cast hj
        by_contra hge
        push Not at hge
        nlinarith
      refine ⟨⟨x, h0, h1⟩, ?_, rfl⟩
      have : ⌊x * (k : ℝ)⌋ = (j : Int) := by
        rw [Int.floor_eq_iff]; exact ⟨by exact_mod_cast a, by exact_mod_cast b⟩
      simp only [mem_ofPred_eq]; omega
  rw [this, Real.volume_Ico]
  congr 1
  field_simp
  ring

/-- `P(u < c and ⌊v k⌋ = j) = c/k`, `u` and `v` independent -/
theorem vol_pick {k j : Nat} (hk : 1 ≤ k) (hj : j < k) {c : ℝ} (h0 : 0 ≤ c) (h1 : c ≤ 1) :
    volume {r : U01 × U01 | r.1.1 < c ∧ ⌊r.2.1 * (k : ℝ)⌋.toNat = j} = ENNReal.ofReal (c / k) := by
  have : {r : U01 × U01 | r.1.1 < c ∧ ⌊r.2.1 * (k : ℝ)⌋.toNat = j} =
      {u : U01 | u.1 < c} ×ˢ {u : U01 | ⌊u.1 * (k : ℝ)⌋.toNat = j} := by
    ext ⟨a, b⟩; rfl
  rw [this, Measure.volume_eq_prod, Measure.prod_prod, vol_lt h1, vol_floor hk hj,
    ← ENNReal.ofReal_mul h0]
  congr 1; ring

/-- `P(u < c) = c` among the pairs -/
theorem vol_lt_pair {c : ℝ} (h1 : c ≤ 1) :
    volume {r : U01 × U01 | r.1.1 < c} = ENNReal.ofReal c := by
  have : {r : U01 × U01 | r.1.1 < c} = {u : U01 | u.1 < c} ×ˢ (univ : Set U01) := by
    ext ⟨a, b⟩; simp
  rw [this, Measure.volume_eq_prod, Measure.prod_prod, vol_lt h1, measure_univ, mul_one]

theorem meas_floor (k : Nat) : Measurable fun r : U01 × U01 => ⌊r.2.1 * (k : ℝ)⌋.toNat := by
  have h : Measurable fun r : U01 × U01 => r.2.1 * (k : ℝ) :=
    (measurable_subtype_coe.comp measurable_snd).mul_const _
  exact (measurable_from_top (f := Int.toNat)).comp (Int.measurable_floor.comp h)

theorem meas_pick (k j : Nat) (c : ℝ) :
    MeasurableSet {r : U01 × U01 | r.1.1 < c ∧ ⌊r.2.1 * (k : ℝ)⌋.toNat = j} := by
  have h1 : MeasurableSet {r : U01 × U01 | r.1.1 < c} :=
    measurableSet_lt (measurable_subtype_coe.comp measurable_fst) measurable_const
  exact h1.inter ((meas_floor k) (measurableSet_singleton j))

/-- `P(not (u < c and ⌊v k⌋ = j)) = 1 - c/k` -/
theorem vol_not_pick {k j : Nat} (hk : 1 ≤ k) (hj : j < k) {c : ℝ} (h0 : 0 ≤ c) (h1 : c ≤ 1) :
    volume {r : U01 × U01 | ¬ (r.1.1 < c ∧ ⌊r.2.1 * (k : ℝ)⌋.toNat = j)} = ENNReal.ofReal (1 - c / k) := by
  have hc := prob_compl_eq_one_sub (μ := (volume : Measure (U01 × U01))) (meas_pick k j c)
  rw [vol_pick hk hj h0 h1] at hc
  have hpos : (0 : ℝ) ≤ c / k := by positivity
  rw [ENNReal.ofReal_sub _ hpos, ENNReal.ofReal_one, ← hc]
  rfl

/-- Fubini for the last draw: probability of an event described by the first `N` draws and the last one. -/
theorem vol_last {N : Nat} {A : Set (Draws N × (U01 × U01))} (hA : MeasurableSet A) :
    volume {ω : Draws (N + 1) | (Fin.init ω, ω (Fin.last N)) ∈ A} =
      ∫⁻ ω : Draws N, volume {r | (ω, r) ∈ A} := by
  have hmp := volume_preserving_piFinSuccAbove (fun _ : Fin (N + 1) => U01 × U01) (Fin.last N)
  let B : Set ((U01 × U01) × Draws N) := Prod.swap ⁻¹' A
  have hB : MeasurableSet B := measurable_swap hA
  have h1 := hmp.measure_preimage hB.nullMeasurableSet
  have h2 : (MeasurableEquiv.piFinSuccAbove (fun _ : Fin (N + 1) => U01 × U01) (Fin.last N)) ⁻¹' B =
      {ω : Draws (N + 1) | (Fin.init ω, ω (Fin.last N)) ∈ A} := by
    ext ω
    simp only [B, mem_preimage, mem_ofPred_eq, MeasurableEquiv.piFinSuccAbove_apply, Prod.swap_prod_mk,
      Fin.insertNthEquiv_symm_apply, Fin.removeNth_last]
  rw [← h2, h1, Measure.volume_eq_prod, Measure.prod_apply_symm hB]
  rfl

/-- calls on the stream `0, 1, 2, …` of positions, with the given draws -/
def calls {N : Nat} (ω : Draws N) : List (Call Nat ℝ) :=
  List.ofFn fun i : Fin N => { e := i.val, r1 := (ω i).1.1, r2 := (ω i).2.1 }

theorem calls_valid {N : Nat} (ω : Draws N) : ∀ c ∈ calls ω, c.Valid := by
  intro c hc
  obtain ⟨i, rfl⟩ := (List.mem_ofFn' ..).1 hc
  exact ⟨(ω i).1.2, (ω i).2.2⟩

theorem calls_succ {N : Nat} (ω : Draws (N + 1)) :
    calls ω = calls (Fin.init ω : Draws N) ++
      [{ e := N, r1 := (ω (Fin.last N)).1.1, r2 := (ω (Fin.last N)).2.1 }] := by
  rw [calls, List.ofFn_succ_last]
  rfl

theorem calls_e {N : Nat} (ω : Draws N) : (calls ω).map Call.e = List.range N := by
  rw [calls, List.map_ofFn]
  apply List.ext_getElem <;> simp

@[simp] theorem calls_length {N : Nat} (ω : Draws N) : (calls ω).length = N := by simp [calls]

end Orp.Reservoir

namespace Orp.Reservoir

open MeasureTheory Set

/-! ### Random walks on a countable state space driven by the draws -/

section Walk

variable {X : Type} [Countable X]

/-- the walk: call number `t` moves from `x` to `step t x (draws of that call)` -/
def walk (x0 : X) (step : Nat → X → U01 × U01 → X) : (N : Nat) → Draws N → X
  | 0, _ => x0
  | N + 1, ω => step N (walk x0 step N (Fin.init ω : Draws N)) (ω (Fin.last N))

theorem measurable_init (N : Nat) : Measurable (fun ω : Draws (N + 1) => (Fin.init ω : Draws N)) :=
  measurable_pi_lambda _ fun i => measurable_pi_apply (Fin.castSucc i)

theorem walk_joint {x0 : X} {step : Nat → X → U01 × U01 → X} {N : Nat}
    (hw : ∀ x, MeasurableSet {ω | walk x0 step N ω = x})
    {P : X → U01 × U01 → Prop} (hP : ∀ x, MeasurableSet {r | P x r}) :
    MeasurableSet {z : Draws N × (U01 × U01) | P (walk x0 step N z.1) z.2} := by
  have : {z : Draws N × (U01 × U01) | P (walk x0 step N z.1) z.2} =
      ⋃ x : X, {ω | walk x0 step N ω = x} ×ˢ {r | P x r} := by
    ext ⟨ω, r⟩; simp
  rw [this]
  exact MeasurableSet.iUnion fun x => (hw x).prod (hP x)

theorem walk_meas (x0 : X) (step : Nat → X → U01 × U01 → X)
    (hs : ∀ t x y, MeasurableSet {r | step t x r = y}) (N : Nat) (x : X) :
    MeasurableSet {ω | walk x0 step N ω = x} := by
  induction N generalizing x with
  | zero => simp only [walk]; exact MeasurableSet.const _
  | succ N ih =>
      have h := walk_joint ih (P := fun y r => step N y r = x) (fun y => hs N y x)
      exact ((measurable_init N).prodMk (measurable_pi_apply (Fin.last N))) h

/-- Fubini for the walk -/
theorem walk_succ (x0 : X) (step : Nat → X → U01 × U01 → X)
    (hs : ∀ t x y, MeasurableSet {r | step t x r = y}) (N : Nat) (A : X → Prop) :
    volume {ω : Draws (N + 1) | A (walk x0 step (N + 1) ω)} =
      ∫⁻ ω : Draws N, volume {r | A (step N (walk x0 step N ω) r)} := by
  have hA : ∀ x, MeasurableSet {r | A (step N x r)} := by
    intro x
    have : {r | A (step N x r)} = ⋃ y : {y // A y}, {r | step N x r = y.1} := by
      ext r; simp
    rw [this]
    exact MeasurableSet.iUnion fun y => hs N x y.1
  exact vol_last (walk_joint (walk_meas x0 step hs N) hA)

/-- If in every reachable state satisfying `A` the next call keeps `A` with probability `q`, and never
reaches `A` from outside, the probability of `A` is multiplied by `q`. -/
theorem walk_decay (x0 : X) (step : Nat → X → U01 × U01 → X)
    (hs : ∀ t x y, MeasurableSet {r | step t x r = y}) (N : Nat) (A : X → Prop) (q : ENNReal)
    (h1 : ∀ ω : Draws N, A (walk x0 step N ω) → volume {r | A (step N (walk x0 step N ω) r)} = q)
    (h0 : ∀ ω : Draws N, ¬ A (walk x0 step N ω) → ∀ r, ¬ A (step N (walk x0 step N ω) r)) :
    volume {ω : Draws (N + 1) | A (walk x0 step (N + 1) ω)} =
      q * volume {ω : Draws N | A (walk x0 step N ω)} := by
  classical
  rw [walk_succ x0 step hs]
  have hm : MeasurableSet {ω : Draws N | A (walk x0 step N ω)} := by
    have : {ω : Draws N | A (walk x0 step N ω)} = ⋃ y : {y // A y}, {ω | walk x0 step N ω = y.1} := by
      ext r; simp
    rw [this]
    exact MeasurableSet.iUnion fun y => walk_meas x0 step hs N y.1
  rw [← lintegral_indicator_const hm]
  apply lintegral_congr
  intro ω
  by_cases h : A (walk x0 step N ω)
  · rw [h1 ω h, indicator_of_mem]; exact h
  · rw [indicator_of_notMem (show ω ∉ {ω : Draws N | A (walk x0 step N ω)} from h)]
    have : {r | A (step N (walk x0 step N ω) r)} = ∅ := by
      ext r; simpa using h0 ω h r
    rw [this]; simp

/-- If in every reachable state the next call reaches `A` with probability `q`, so does the walk. -/
theorem walk_hit (x0 : X) (step : Nat → X → U01 × U01 → X)
    (hs : ∀ t x y, MeasurableSet {r | step t x r = y}) (N : Nat) (A : X → Prop) (q : ENNReal)
    (h1 : ∀ ω : Draws N, volume {r | A (step N (walk x0 step N ω) r)} = q) :
    volume {ω : Draws (N + 1) | A (walk x0 step (N + 1) ω)} = q := by
  rw [walk_succ x0 step hs]
  simp only [h1]
  simp

end Walk

end Orp.Reservoir
