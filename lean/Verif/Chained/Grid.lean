import Verif.Chained.SampleProps
import Verif.Reservoir.Grid

/-!
Property C168: the chained reservoir (chained_reservoir.hpp:122-148), without `obsolete`, with a random function that has only `R` different values, such as
`rand()/(RAND_MAX+1.0)`. As in C162 such a random number is an ideal one rounded down to the grid (`Orp.Reservoir.grid`, `C162_grid_law`).
-/

set_option linter.unusedSectionVars false

namespace Orp.Chained

open MeasureTheory Set Orp.Reservoir

variable {α : Type}

/-- the draws with `R` different values -/
noncomputable def gridDraws (R : Nat) {N : Nat} (ω : Fin N → U01 × U01) (k : Fin N) : U01 × U01 := (grid R (ω k).1, grid R (ω k).2)

/-- the draws for which the grid may make a difference for item `k` -/
def badHit (n R k : Nat) : Set (U01 × U01) :=
  (cell R ⌊(n : ℝ) / (k : ℝ) * (R : ℝ)⌋.toNat ×ˢ univ) ∪ ⋃ j ∈ Finset.range (n - 1), univ ×ˢ cell R ⌊((j : ℝ) + 1 / 2) / ((n - 1 : Nat) : ℝ) * (R : ℝ)⌋.toNat

theorem badHit_meas (n R k : Nat) : MeasurableSet (badHit n R k) :=
  ((cell_meas R _).prod MeasurableSet.univ).union (Finset.measurableSet_biUnion _ (fun _ _ => MeasurableSet.univ.prod (cell_meas R _)))

theorem badHit_vol {n R : Nat} (hn : 1 ≤ n) (hR : 1 ≤ R) (k : Nat) : volume (badHit n R k) ≤ ENNReal.ofReal (n / R) := by
  have h1 : volume (cell R ⌊(n : ℝ) / (k : ℝ) * (R : ℝ)⌋.toNat ×ˢ (univ : Set U01)) ≤ ENNReal.ofReal (1 / R) := by
    rw [Measure.volume_eq_prod, Measure.prod_prod, measure_univ, mul_one]
    exact cell_vol hR _
  have h2 : volume (⋃ j ∈ Finset.range (n - 1), (univ : Set U01) ×ˢ cell R ⌊((j : ℝ) + 1 / 2) / ((n - 1 : Nat) : ℝ) * (R : ℝ)⌋.toNat) ≤
      ∑ _j ∈ Finset.range (n - 1), ENNReal.ofReal (1 / R) := by
    refine (measure_biUnion_finset_le _ _).trans (Finset.sum_le_sum fun j _ => ?_)
    rw [Measure.volume_eq_prod, Measure.prod_prod, measure_univ, one_mul]
    exact cell_vol hR _
  refine (measure_union_le _ _).trans ((add_le_add h1 h2).trans (le_of_eq ?_))
  rw [Finset.sum_const, Finset.card_range, nsmul_eq_mul, ← ENNReal.ofReal_natCast, ← ENNReal.ofReal_mul (Nat.cast_nonneg _),
    ← ENNReal.ofReal_add (by positivity) (by positivity)]
  congr 1
  rw [Nat.cast_sub hn]
  push_cast
  ring

/-- the slot drawn is the same -/
theorem draw_grid {n R : Nat} (hn : 1 ≤ n) (hR : 1 ≤ R) {u : U01}
    (hu : ∀ j < n - 1, u ∉ cell R ⌊((j : ℝ) + 1 / 2) / ((n - 1 : Nat) : ℝ) * (R : ℝ)⌋.toNat) : draw n (grid R u).1 = draw n u.1 := by
  obtain ⟨i, hi⟩ : ∃ i, draw n (grid R u).1 = i := ⟨_, rfl⟩
  obtain ⟨j, hj⟩ : ∃ j, draw n u.1 = j := ⟨_, rfl⟩
  obtain ⟨a1, a2⟩ := (draw_iff i (grid R u).2.1).1 hi
  obtain ⟨b1, b2⟩ := (draw_iff j u.2.1).1 hj
  have hm := mul_le_mul_of_nonneg_right (grid_le R u) (Nat.cast_nonneg (α := ℝ) (n - 1))
  have hjn : j < n := hj ▸ draw_lt hn u.2.2.le
  have hij : i ≤ j := by
    have : (i : ℝ) < j + 1 := by linarith
    exact Nat.lt_succ_iff.1 (by exact_mod_cast this)
  rw [hi, hj]
  by_contra hne
  have hlt : i + 1 ≤ j := by omega
  have hlt' : (i : ℝ) + 1 ≤ j := by exact_mod_cast hlt
  have hpos : (0 : ℝ) < ((n - 1 : Nat) : ℝ) := by exact_mod_cast (show 0 < n - 1 by omega)
  refine hu i (by omega) (grid_between hR (by positivity) ?_ ?_)
  · rw [lt_div_iff₀ hpos]; exact a2
  · rw [div_le_iff₀ hpos]; linarith

/-- outside these draws an item replaces the same slot, if any -/
theorem hit_grid {n R k : Nat} (hn : 1 ≤ n) (hR : 1 ≤ R) {r : U01 × U01} (hr : r ∉ badHit n R k) (i : Nat) :
    ((grid R r.1).1 < (n : ℝ) / (k : ℝ) ∧ draw n (grid R r.2).1 = i) ↔ (r.1.1 < (n : ℝ) / (k : ℝ) ∧ draw n r.2.1 = i) := by
  have e1 : (grid R r.1).1 < (n : ℝ) / (k : ℝ) ↔ r.1.1 < (n : ℝ) / (k : ℝ) := by
    constructor
    · intro h1
      by_contra h2
      exact hr (.inl ⟨grid_between hR (by positivity) h1 (not_lt.1 h2), trivial⟩)
    · intro h1
      exact (grid_le R r.1).trans_lt h1
  rw [e1, draw_grid hn hR (fun j hj hc => hr (.inr (mem_iUnion₂.2 ⟨j, Finset.mem_range.2 hj, trivial, hc⟩)))]

/-- the draws for which the grid may make a difference -/
def badSample (n R N : Nat) : Set (Fin N → U01 × U01) := ⋃ k ∈ (Finset.univ.filter fun k : Fin N => n ≤ k.val), {ω | ω k ∈ badHit n R k.val}

theorem badSample_vol {n R : Nat} (hn : 1 ≤ n) (hR : 1 ≤ R) (N : Nat) : volume (badSample n R N) ≤ ENNReal.ofReal (((N - n : Nat) : ℝ) * (n / R)) := by
  have h1 : ∀ k : Fin N, volume {ω : Fin N → U01 × U01 | ω k ∈ badHit n R k.val} ≤ ENNReal.ofReal (n / R) := fun k => by
    have hmp := measurePreserving_eval (fun _ : Fin N => (volume : Measure (U01 × U01))) k
    have := hmp.measure_preimage (badHit_meas n R k.val).nullMeasurableSet
    exact this.le.trans (badHit_vol hn hR _)
  have hcard : (Finset.univ.filter fun k : Fin N => n ≤ k.val).card = N - n := by
    have := Fin.card_filter_val_lt (n := N) (m := n)
    have h2 := Finset.card_filter_add_card_filter_not (s := (Finset.univ : Finset (Fin N))) (fun k : Fin N => k.val < n)
    simp only [not_lt, Finset.card_univ, Fintype.card_fin] at h2
    omega
  refine (measure_biUnion_finset_le _ _).trans ((Finset.sum_le_sum fun k _ => h1 k).trans (le_of_eq ?_))
  rw [Finset.sum_const, hcard, nsmul_eq_mul, ← ENNReal.ofReal_natCast, ← ENNReal.ofReal_mul (Nat.cast_nonneg _)]

section

variable (g : List α) (hn : 1 ≤ g.length) {N : Nat} (hN : g.length ≤ N) (hs : N < 5000) (rest : Fin N → Call α ℝ) (hv : ∀ k, (rest k).Valid) (ht : ∀ k, (rest k).ts ≠ 0)

include hn hN hs hv ht in
/-- outside these draws all slots show the same -/
theorem sample_grid {R : Nat} (hR : 1 ≤ R) (ω : Fin N → U01 × U01) (hω : ω ∉ badSample g.length R N) :
    ∃ s s', run g.length (new g) ((sampleCalls rest ω).map Op.add) = .ok s ∧ run g.length (new g) ((sampleCalls rest (gridDraws R ω)).map Op.add) = .ok s' ∧
      ∀ i < g.length, get s' i = get s i := by
  obtain ⟨s, h1, h2⟩ := sample_item g hn hN hs rest hv ht ω
  obtain ⟨s', h1', h2'⟩ := sample_item g hn hN hs rest hv ht (gridDraws R ω)
  refine ⟨s, s', h1, h1', fun i hi => ?_⟩
  obtain ⟨m, a1, a2⟩ := h2 i hi
  obtain ⟨m', b1, b2⟩ := h2' i hi
  have same : ∀ J, g.length ≤ J → (m'.val < J ↔ m.val < J) := by
    intro J hJ
    rw [showsItem_lt g rest m.2 a2 hJ, showsItem_lt g rest m'.2 b2 hJ]
    refine forall_congr' fun k => forall_congr' fun hk => not_congr (hit_grid hn hR (fun hb => hω (mem_iUnion₂.2 ⟨k, Finset.mem_filter.2 ⟨Finset.mem_univ _, by omega⟩, hb⟩)) i)
  have hm : m'.val = m.val := by
    by_cases hlt : m.val < g.length
    · have hlt' := (same _ le_rfl).2 hlt
      rw [a2.1 hlt, b2.1 hlt']
    · have p1 := same (m.val + 1) (by omega)
      have p2 := same m.val (by omega)
      omega
  rw [a1, b1, Fin.ext hm]

include hn hN hs hv ht in
/-- **C168** Whatever is asked about what the slots show: after `N < 5000` items the probability with a random function of `R` values differs from that with ideal random
numbers by at most `(N-n)*n/R`, `n` being the sample size. -/
theorem C168_close {R : Nat} (hR : 1 ≤ R) (Q : (Fin g.length → Res α) → Prop) :
    volume {ω : Fin N → U01 × U01 | ∃ s, run g.length (new g) ((sampleCalls rest (gridDraws R ω)).map Op.add) = .ok s ∧ Q (fun i => get s i)} ≤
        volume {ω : Fin N → U01 × U01 | ∃ s, run g.length (new g) ((sampleCalls rest ω).map Op.add) = .ok s ∧ Q (fun i => get s i)} +
          ENNReal.ofReal (((N - g.length : Nat) : ℝ) * (g.length / R)) ∧
      volume {ω : Fin N → U01 × U01 | ∃ s, run g.length (new g) ((sampleCalls rest ω).map Op.add) = .ok s ∧ Q (fun i => get s i)} ≤
        volume {ω : Fin N → U01 × U01 | ∃ s, run g.length (new g) ((sampleCalls rest (gridDraws R ω)).map Op.add) = .ok s ∧ Q (fun i => get s i)} +
          ENNReal.ofReal (((N - g.length : Nat) : ℝ) * (g.length / R)) := by
  have key : ∀ ω : Fin N → U01 × U01, ω ∉ badSample g.length R N →
      ((∃ s, run g.length (new g) ((sampleCalls rest (gridDraws R ω)).map Op.add) = .ok s ∧ Q (fun i => get s i)) ↔
        ∃ s, run g.length (new g) ((sampleCalls rest ω).map Op.add) = .ok s ∧ Q (fun i => get s i)) := by
    intro ω hω
    obtain ⟨s, s', h1, h2, h3⟩ := sample_grid g hn hN hs rest hv ht hR ω hω
    have e : (fun i : Fin g.length => get s' i) = fun i : Fin g.length => get s i := funext fun i => h3 i i.2
    constructor
    · rintro ⟨q, hq, hQ⟩
      rw [h2] at hq
      cases hq
      exact ⟨s, h1, e ▸ hQ⟩
    · rintro ⟨q, hq, hQ⟩
      rw [h1] at hq
      cases hq
      exact ⟨s', h2, e ▸ hQ⟩
  constructor
  · refine (measure_mono (t := {ω : Fin N → U01 × U01 | ∃ s, run g.length (new g) ((sampleCalls rest ω).map Op.add) = .ok s ∧ Q (fun i => get s i)} ∪ badSample g.length R N) ?_).trans
      ((measure_union_le _ _).trans (add_le_add le_rfl (badSample_vol hn hR N)))
    intro ω hω
    by_cases hb : ω ∈ badSample g.length R N
    · exact .inr hb
    · exact .inl ((key ω hb).1 hω)
  · refine (measure_mono (t := {ω : Fin N → U01 × U01 | ∃ s, run g.length (new g) ((sampleCalls rest (gridDraws R ω)).map Op.add) = .ok s ∧ Q (fun i => get s i)} ∪ badSample g.length R N) ?_).trans
      ((measure_union_le _ _).trans (add_le_add le_rfl (badSample_vol hn hR N)))
    intro ω hω
    by_cases hb : ω ∈ badSample g.length R N
    · exact .inr hb
    · exact .inl ((key ω hb).2 hω)

include hn hN hs hv ht in
/-- **C168** In particular slot `i` shows item `j`, not one of the first `n`, with the probability of C66 up to `(N-n)*n/R`. -/
theorem C168_item (he : ∀ k l, (rest k).e = (rest l).e → k = l) {R : Nat} (hR : 1 ≤ R) (i : Fin g.length) (j : Fin N) (hj : g.length ≤ j.val) :
    volume {ω : Fin N → U01 × U01 | ∃ s, run g.length (new g) ((sampleCalls rest (gridDraws R ω)).map Op.add) = .ok s ∧ get s i = .ok (rest j).e} ≤
        ENNReal.ofReal ((g.length : ℝ) / (j.val : ℝ) * slotChance g.length i * ∏ k ∈ Finset.Ico (j.val + 1) N, (1 - (g.length : ℝ) / (k : ℝ) * slotChance g.length i)) +
          ENNReal.ofReal (((N - g.length : Nat) : ℝ) * (g.length / R)) ∧
      ENNReal.ofReal ((g.length : ℝ) / (j.val : ℝ) * slotChance g.length i * ∏ k ∈ Finset.Ico (j.val + 1) N, (1 - (g.length : ℝ) / (k : ℝ) * slotChance g.length i)) ≤
        volume {ω : Fin N → U01 × U01 | ∃ s, run g.length (new g) ((sampleCalls rest (gridDraws R ω)).map Op.add) = .ok s ∧ get s i = .ok (rest j).e} +
          ENNReal.ofReal (((N - g.length : Nat) : ℝ) * (g.length / R)) := by
  have := C168_close g hn hN hs rest hv ht hR (fun f => f i = .ok (rest j).e)
  rwa [C66_item_partial g hn hN hs rest hv ht he i j hj] at this

end

/-- the hypotheses are met: a sample of two items and a stream of ten different items -/
example : ∃ rest : Fin 10 → Call Nat ℝ, (∀ k, (rest k).Valid) ∧ (∀ k, (rest k).ts ≠ 0) ∧ ∀ k l, (rest k).e = (rest l).e → k = l :=
  ⟨fun k => { e := k.val, ts := k.val + 1, r1 := 0, r2 := 0, r3 := 0, rs := fun _ => 0 }, fun k => by simp [Call.Valid], fun k => by simp,
    fun k l h => Fin.ext h⟩

end Orp.Chained
