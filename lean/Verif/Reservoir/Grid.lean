import Verif.Reservoir.Props
import Mathlib.MeasureTheory.Constructions.Pi

/-!
Property C162: `ReservoirSampling` (reservoir_sampling.hpp:37-80) with a random function that has only `R` different values, such as `rand()/(RAND_MAX+1.0)`.
The numbers `⌊u*R⌋/R`, with `u` ideal and uniform in `[0,1[`, are `0, 1/R, …, (R-1)/R`, each with probability `1/R` (`grid_law`), so a program with such a random function is the program that
replaces each ideal number `u` by `⌊u*R⌋/R`.
-/

namespace Orp.Reservoir

open MeasureTheory Set

theorem grid_mem (R : Nat) (u : U01) : (⌊u.1 * (R : ℝ)⌋ : ℝ) / R ∈ Set.Ico (0 : ℝ) 1 := by
  rcases Nat.eq_zero_or_pos R with rfl | hR
  · simp
  · have hpos : (0 : ℝ) < R := by exact_mod_cast hR
    obtain ⟨a, b⟩ := floor_range (K := ℝ) hR u.2
    refine ⟨div_nonneg (by exact_mod_cast a) hpos.le, ?_⟩
    rw [div_lt_one hpos]
    exact_mod_cast b

/-- a random number with `R` different values -/
noncomputable def grid (R : Nat) (u : U01) : U01 := ⟨(⌊u.1 * (R : ℝ)⌋ : ℝ) / R, grid_mem R u⟩

/-- the stream `0, 1, 2, …` with random numbers that have `R` different values -/
noncomputable def gridCalls (R : Nat) {N : Nat} (ω : Draws N) : List (Call Nat ℝ) :=
  List.ofFn fun i : Fin N => { e := i.val, r1 := (grid R (ω i).1).1, r2 := (grid R (ω i).2).1 }

/-- **C162** the random numbers are `0, 1/R, …, (R-1)/R`, each with probability `1/R` -/
theorem C162_grid_law {R j : Nat} (hR : 1 ≤ R) (hj : j < R) : volume {u : U01 | (grid R u).1 = (j : ℝ) / R} = ENNReal.ofReal (1 / R) := by
  rw [← vol_floor hR hj]
  congr 1
  ext u
  have hpos : (0 : ℝ) < R := by exact_mod_cast hR
  obtain ⟨a, _⟩ := floor_range (K := ℝ) hR u.2
  simp only [mem_ofPred_eq, grid]
  rw [div_left_inj' hpos.ne']
  constructor
  · intro h
    have : ⌊u.1 * (R : ℝ)⌋ = (j : Int) := by exact_mod_cast h
    omega
  · intro h
    have : ⌊u.1 * (R : ℝ)⌋ = (j : Int) := by omega
    rw [this]; simp

/-! ### where the decisions differ -/

/-- the numbers of one cell of the grid -/
def cell (R m : Nat) : Set U01 := {u : U01 | ⌊u.1 * (R : ℝ)⌋.toNat = m}

theorem cell_meas (R m : Nat) : MeasurableSet (cell R m) := by
  have h : Measurable fun u : U01 => ⌊u.1 * (R : ℝ)⌋.toNat :=
    (measurable_from_top (f := Int.toNat)).comp (Int.measurable_floor.comp (measurable_subtype_coe.mul_const _))
  exact h (measurableSet_singleton m)

theorem cell_vol {R : Nat} (hR : 1 ≤ R) (m : Nat) : volume (cell R m) ≤ ENNReal.ofReal (1 / R) := by
  by_cases hm : m < R
  · exact (vol_floor hR hm).le
  · have : cell R m = ∅ := by
      ext u
      obtain ⟨a, b⟩ := floor_range (K := ℝ) hR u.2
      simp only [cell, mem_ofPred_eq, mem_empty_iff_false, iff_false]
      omega
    rw [this]
    simp

theorem grid_le (R : Nat) (u : U01) : (grid R u).1 ≤ u.1 := by
  rcases Nat.eq_zero_or_pos R with rfl | hR
  · simp only [grid]
    simpa using u.2.1
  · have hpos : (0 : ℝ) < R := by exact_mod_cast hR
    simp only [grid]
    rw [div_le_iff₀ hpos]
    exact Int.floor_le _

theorem grid_between {R : Nat} (hR : 1 ≤ R) {u : U01} {c : ℝ} (hc : 0 ≤ c) (h1 : (grid R u).1 < c) (h2 : c ≤ u.1) : u ∈ cell R ⌊c * (R : ℝ)⌋.toNat := by
  have hpos : (0 : ℝ) < R := by exact_mod_cast hR
  simp only [grid] at h1
  rw [div_lt_iff₀ hpos] at h1
  have e : ⌊c * (R : ℝ)⌋ = ⌊u.1 * (R : ℝ)⌋ := by
    apply le_antisymm
    · exact Int.floor_le_floor (mul_le_mul_of_nonneg_right h2 hpos.le)
    · exact Int.le_floor.2 h1.le
  show ⌊u.1 * (R : ℝ)⌋.toNat = _
  rw [e]

/-- the draws for which the grid may make a difference at position `t` -/
def badDraws (k R t : Nat) : Set (U01 × U01) :=
  (cell R ⌊(k : ℝ) / ((t : ℝ) + 1) * (R : ℝ)⌋.toNat ×ˢ univ) ∪ ⋃ j ∈ Finset.range (k - 1), univ ×ˢ cell R ⌊((j : ℝ) + 1) / k * (R : ℝ)⌋.toNat

theorem bad_meas (k R t : Nat) : MeasurableSet (badDraws k R t) :=
  ((cell_meas R _).prod MeasurableSet.univ).union (Finset.measurableSet_biUnion _ (fun _ _ => MeasurableSet.univ.prod (cell_meas R _)))

theorem bad_vol {k R : Nat} (hk : 1 ≤ k) (hR : 1 ≤ R) (t : Nat) : volume (badDraws k R t) ≤ ENNReal.ofReal (k / R) := by
  have h1 : volume (cell R ⌊(k : ℝ) / ((t : ℝ) + 1) * (R : ℝ)⌋.toNat ×ˢ (univ : Set U01)) ≤ ENNReal.ofReal (1 / R) := by
    rw [Measure.volume_eq_prod, Measure.prod_prod, measure_univ, mul_one]
    exact cell_vol hR _
  have h2 : volume (⋃ j ∈ Finset.range (k - 1), (univ : Set U01) ×ˢ cell R ⌊((j : ℝ) + 1) / k * (R : ℝ)⌋.toNat) ≤ ∑ _j ∈ Finset.range (k - 1), ENNReal.ofReal (1 / R) := by
    refine (measure_biUnion_finset_le _ _).trans (Finset.sum_le_sum fun j _ => ?_)
    rw [Measure.volume_eq_prod, Measure.prod_prod, measure_univ, one_mul]
    exact cell_vol hR _
  refine (measure_union_le _ _).trans ((add_le_add h1 h2).trans (le_of_eq ?_))
  rw [Finset.sum_const, Finset.card_range, nsmul_eq_mul, ← ENNReal.ofReal_natCast, ← ENNReal.ofReal_mul (Nat.cast_nonneg _),
    ← ENNReal.ofReal_add (by positivity) (by positivity)]
  congr 1
  rw [Nat.cast_sub hk]
  push_cast
  ring

theorem pstep_grid {k R t : Nat} (hk : 1 ≤ k) (hR : 1 ≤ R) (S : List Nat) (r : U01 × U01) (h : t < k ∨ r ∉ badDraws k R t) :
    pstep k t S (grid R r.1, grid R r.2) = pstep k t S r := by
  unfold pstep
  by_cases ht : t < k
  · simp [ht]
  · have hr := h.resolve_left ht
    have hkpos : (0 : ℝ) < k := by exact_mod_cast hk
    have hb1 : r.1 ∉ cell R ⌊(k : ℝ) / ((t : ℝ) + 1) * (R : ℝ)⌋.toNat := fun hc => hr (.inl ⟨hc, trivial⟩)
    have hb2 : ∀ j < k - 1, r.2 ∉ cell R ⌊((j : ℝ) + 1) / k * (R : ℝ)⌋.toNat := fun j hj hc =>
      hr (.inr (mem_iUnion₂.2 ⟨j, Finset.mem_range.2 hj, trivial, hc⟩))
    rw [if_neg ht, if_neg ht]
    have e1 : (grid R r.1).1 < (k : ℝ) / ((t : ℝ) + 1) ↔ r.1.1 < (k : ℝ) / ((t : ℝ) + 1) := by
      constructor
      · intro h1
        by_contra h2
        exact hb1 (grid_between hR (by positivity) h1 (not_lt.1 h2))
      · intro h1
        exact (grid_le R r.1).trans_lt h1
    have e2 : ⌊(grid R r.2).1 * (k : ℝ)⌋ = ⌊r.2.1 * (k : ℝ)⌋ := by
      apply le_antisymm
      · exact Int.floor_le_floor (mul_le_mul_of_nonneg_right (grid_le R r.2) hkpos.le)
      · by_contra hlt
        push Not at hlt
        obtain ⟨a1, _⟩ := floor_range (K := ℝ) hk (grid R r.2).2
        obtain ⟨_, a2⟩ := floor_range (K := ℝ) hk r.2.2
        obtain ⟨m, hm⟩ : ∃ m : Nat, ⌊r.2.1 * (k : ℝ)⌋ = ((m + 1 : Nat) : Int) := ⟨(⌊r.2.1 * (k : ℝ)⌋ - 1).toNat, by omega⟩
        refine hb2 m (by omega) (grid_between hR (by positivity) ?_ ?_)
        · rw [lt_div_iff₀ hkpos]
          have := Int.floor_lt.1 hlt
          rw [hm] at this
          push_cast at this
          exact this
        · rw [div_le_iff₀ hkpos]
          have := Int.floor_le (r.2.1 * (k : ℝ))
          rw [hm] at this
          push_cast at this
          exact this
    simp only [e1, e2]

theorem walk_grid {k R : Nat} (hk : 1 ≤ k) (hR : 1 ≤ R) (garbage : List Nat) : ∀ (N : Nat) (ω : Draws N),
    (∀ i : Fin N, i.val < k ∨ ω i ∉ badDraws k R i.val) →
    walk garbage (pstep k) N (fun i => (grid R (ω i).1, grid R (ω i).2)) = walk garbage (pstep k) N ω
  | 0, _, _ => rfl
  | N + 1, ω, h => by
      have ih := walk_grid hk hR garbage N (Fin.init ω) (fun i => h i.castSucc)
      simp only [walk]
      rw [pstep_grid (t := N) hk hR _ _ (h (Fin.last N))]
      have e : (Fin.init (fun i => (grid R (ω i).1, grid R (ω i).2)) : Draws N) = fun i => (grid R ((Fin.init ω : Draws N) i).1, grid R ((Fin.init ω : Draws N) i).2) := rfl
      rw [e, ih]

/-- the draws for which the grid may make a difference -/
def badRun (k R N : Nat) : Set (Draws N) := ⋃ i ∈ (Finset.univ.filter fun i : Fin N => k ≤ i.val), {ω | ω i ∈ badDraws k R i.val}

theorem badRun_vol {k R : Nat} (hk : 1 ≤ k) (hR : 1 ≤ R) (N : Nat) : volume (badRun k R N) ≤ ENNReal.ofReal (((N - k : Nat) : ℝ) * (k / R)) := by
  have h1 : ∀ i : Fin N, volume {ω : Draws N | ω i ∈ badDraws k R i.val} ≤ ENNReal.ofReal (k / R) := fun i => by
    have hmp := measurePreserving_eval (fun _ : Fin N => (volume : Measure (U01 × U01))) i
    have := hmp.measure_preimage (bad_meas k R i.val).nullMeasurableSet
    exact this.le.trans (bad_vol hk hR _)
  have hcard : (Finset.univ.filter fun i : Fin N => k ≤ i.val).card = N - k := by
    have := Fin.card_filter_val_lt (n := N) (m := k)
    have h2 := Finset.card_filter_add_card_filter_not (s := (Finset.univ : Finset (Fin N))) (fun i : Fin N => i.val < k)
    simp only [not_lt, Finset.card_univ, Fintype.card_fin] at h2
    omega
  refine (measure_biUnion_finset_le _ _).trans ((Finset.sum_le_sum fun i _ => h1 i).trans (le_of_eq ?_))
  rw [Finset.sum_const, hcard, nsmul_eq_mul, ← ENNReal.ofReal_natCast, ← ENNReal.ofReal_mul (Nat.cast_nonneg _)]

theorem grid_run {k R : Nat} (hk : 1 ≤ k) (hR : 1 ≤ R) (garbage : List Nat) (hg : garbage.length = k) {N : Nat} (hN : N < 2 ^ 32) (ω : Draws N)
    (hω : ω ∉ badRun k R N) : adds k (new garbage) (gridCalls R ω) = adds k (new garbage) (calls ω) := by
  have h1 := adds_walk hk garbage hg N hN (fun i => (grid R (ω i).1, grid R (ω i).2))
  rw [adds_walk hk garbage hg N hN ω, ← walk_grid hk hR garbage N ω, ← h1]
  · rfl
  · intro i
    by_contra hc
    push Not at hc
    exact hω (mem_iUnion₂.2 ⟨i, Finset.mem_filter.2 ⟨Finset.mem_univ _, hc.1⟩, hc.2⟩)

/-- **C162** Whatever is asked about the sample: after `N` adds the probability with a random function of `R` values differs from that with ideal random numbers by at most `(N-k)*k/R`. -/
theorem C162_close {k R : Nat} (hk : 1 ≤ k) (hR : 1 ≤ R) (garbage : List Nat) (hg : garbage.length = k) {N : Nat} (hN : N < 2 ^ 32) (Q : List Nat → Prop) :
    volume {ω : Draws N | ∃ s, adds k (new garbage) (gridCalls R ω) = .ok s ∧ Q s.sample} ≤
        volume {ω : Draws N | ∃ s, adds k (new garbage) (calls ω) = .ok s ∧ Q s.sample} + ENNReal.ofReal (((N - k : Nat) : ℝ) * (k / R)) ∧
      volume {ω : Draws N | ∃ s, adds k (new garbage) (calls ω) = .ok s ∧ Q s.sample} ≤
        volume {ω : Draws N | ∃ s, adds k (new garbage) (gridCalls R ω) = .ok s ∧ Q s.sample} + ENNReal.ofReal (((N - k : Nat) : ℝ) * (k / R)) := by
  constructor
  · refine (measure_mono (t := {ω : Draws N | ∃ s, adds k (new garbage) (calls ω) = .ok s ∧ Q s.sample} ∪ badRun k R N) ?_).trans
      ((measure_union_le _ _).trans (add_le_add le_rfl (badRun_vol hk hR N)))
    intro ω hω
    by_cases hb : ω ∈ badRun k R N
    · exact .inr hb
    · refine .inl ?_
      simp only [mem_ofPred_eq] at hω ⊢
      rwa [grid_run hk hR garbage hg hN ω hb] at hω
  · refine (measure_mono (t := {ω : Draws N | ∃ s, adds k (new garbage) (gridCalls R ω) = .ok s ∧ Q s.sample} ∪ badRun k R N) ?_).trans
      ((measure_union_le _ _).trans (add_le_add le_rfl (badRun_vol hk hR N)))
    intro ω hω
    by_cases hb : ω ∈ badRun k R N
    · exact .inr hb
    · refine .inl ?_
      simp only [mem_ofPred_eq] at hω ⊢
      rwa [grid_run hk hR garbage hg hN ω hb]

/-- **C162** In particular every position is in the sample with probability `k/N` up to `(N-k)*k/R`. -/
theorem C162_included {k R : Nat} (hk : 1 ≤ k) (hR : 1 ≤ R) (garbage : List Nat) (hg : garbage.length = k) {N : Nat} (hkN : k ≤ N) (hN : N < 2 ^ 32) {p : Nat} (hp : p < N) :
    volume {ω : Draws N | ∃ s, adds k (new garbage) (gridCalls R ω) = .ok s ∧ p ∈ s.sample} ≤
        ENNReal.ofReal ((k : ℝ) / N) + ENNReal.ofReal (((N - k : Nat) : ℝ) * (k / R)) ∧
      ENNReal.ofReal ((k : ℝ) / N) ≤
        volume {ω : Draws N | ∃ s, adds k (new garbage) (gridCalls R ω) = .ok s ∧ p ∈ s.sample} + ENNReal.ofReal (((N - k : Nat) : ℝ) * (k / R)) := by
  have := C162_close hk hR garbage hg hN (fun S => p ∈ S)
  rwa [show volume {ω : Draws N | ∃ s, adds k (new garbage) (calls ω) = .ok s ∧ p ∈ s.sample} = ENNReal.ofReal ((k : ℝ) / N) from C16_uniform hk garbage hg hkN hN hp] at this

/-! ### long streams -/

theorem accept_long {k R c : Nat} (hk : 1 ≤ k) (hR : 1 ≤ R) (hc : k * R ≤ c + 1) (hkc : k ≤ c) (hw : c + 1 < 2 ^ 32) (S : List Nat) (r : U01 × U01) :
    0 ≤ (sampleIndex k (⟨S, c⟩ : State Nat) (grid R r.1).1 (grid R r.2).1).2 ↔ r.1 ∈ cell R 0 := by
  have hpos : (0 : ℝ) < R := by exact_mod_cast hR
  have hcpos : (0 : ℝ) < (c : ℝ) + 1 := by positivity
  have hin : incr c = c + 1 := by rw [incr, Nat.mod_eq_of_lt hw]
  obtain ⟨a, _⟩ := floor_range (K := ℝ) hk (grid R r.2).2
  obtain ⟨b, _⟩ := floor_range (K := ℝ) hR r.1.2
  have hc' : (k : ℝ) * R ≤ (c : ℝ) + 1 := by exact_mod_cast hc
  have hkpos : (0 : ℝ) < k := by exact_mod_cast hk
  have key : (grid R r.1).1 < (k : ℝ) / ((c : ℝ) + 1) ↔ r.1 ∈ cell R 0 := by
    simp only [grid, cell, mem_ofPred_eq]
    rw [div_lt_div_iff₀ hpos hcpos]
    constructor
    · intro h
      by_contra hne
      have h1 : (1 : ℝ) ≤ ⌊r.1.1 * (R : ℝ)⌋ := by
        have : 1 ≤ ⌊r.1.1 * (R : ℝ)⌋ := by omega
        exact_mod_cast this
      nlinarith
    · intro h
      have h0 : ⌊r.1.1 * (R : ℝ)⌋ = 0 := by omega
      rw [h0]
      simp only [Int.cast_zero, zero_mul]
      positivity
  rw [← key]
  unfold sampleIndex ltQuot
  simp only [hin, if_neg (show ¬ c < k by omega), if_neg (show ¬ c + 1 = 0 by omega)]
  push_cast
  by_cases h : (grid R r.1).1 < (k : ℝ) / ((c : ℝ) + 1)
  · simp only [h, decide_true, if_true, iff_true]
    exact a
  · simp only [h, decide_false, Bool.false_eq_true, if_false, iff_false]
    omega

/-- **C162** From `k*R` items on, every item is taken into the sample with probability `1/R`, however long the stream is; with ideal random numbers it would be `k/t` for the `t`-th item. -/
theorem C162_long {k R c : Nat} (hk : 1 ≤ k) (hR : 1 ≤ R) (hc : k * R ≤ c + 1) (hkc : k ≤ c) (hw : c + 1 < 2 ^ 32) (S : List Nat) :
    volume {r : U01 × U01 | 0 ≤ (sampleIndex k (⟨S, c⟩ : State Nat) (grid R r.1).1 (grid R r.2).1).2} = ENNReal.ofReal (1 / R) ∧
      volume {r : U01 × U01 | 0 ≤ (sampleIndex k (⟨S, c⟩ : State Nat) r.1.1 r.2.1).2} = ENNReal.ofReal (k / ((c : ℝ) + 1)) := by
  constructor
  · rw [show {r : U01 × U01 | 0 ≤ (sampleIndex k (⟨S, c⟩ : State Nat) (grid R r.1).1 (grid R r.2).1).2} = cell R 0 ×ˢ univ by
      ext r
      simp only [mem_ofPred_eq, accept_long hk hR hc hkc hw, mem_prod, mem_univ, and_true]]
    rw [Measure.volume_eq_prod, Measure.prod_prod, measure_univ, mul_one]
    exact vol_floor hR (by omega)
  · rw [← vol_lt_pair (c := k / ((c : ℝ) + 1))]
    · congr 1
      ext r
      have hin : incr c = c + 1 := by rw [incr, Nat.mod_eq_of_lt hw]
      obtain ⟨a, _⟩ := floor_range (K := ℝ) hk r.2.2
      simp only [mem_ofPred_eq, sampleIndex, ltQuot, hin, if_neg (show ¬ c < k by omega), if_neg (show ¬ c + 1 = 0 by omega)]
      push_cast
      by_cases h : r.1.1 < (k : ℝ) / ((c : ℝ) + 1)
      · simp only [h, decide_true, if_true, iff_true]
        exact a
      · simp only [h, decide_false, Bool.false_eq_true, if_false, iff_false]
        omega
    · rw [div_le_one (by positivity)]
      have : (k : ℝ) ≤ c := by exact_mod_cast hkc
      linarith

/-- **C162** So from `T ≥ k*R` items on the sample stays as it is up to item `N` with probability `(1-1/R)^(N-T)`: it is forgotten at a constant rate. -/
theorem C162_forgets {k R T N : Nat} (hk : 1 ≤ k) (hR : 1 ≤ R) (hT : k * R ≤ T + 1) (hkT : k ≤ T) (hTN : T ≤ N) (hN : N < 2 ^ 32) :
    volume {ω : Draws N | ∀ i : Fin N, T ≤ i.val → ∀ S : List Nat, (sampleIndex k (⟨S, i.val⟩ : State Nat) (grid R (ω i).1).1 (grid R (ω i).2).1).2 < 0} =
      ENNReal.ofReal ((1 - 1 / R) ^ (N - T)) := by
  have hset : {ω : Draws N | ∀ i : Fin N, T ≤ i.val → ∀ S : List Nat, (sampleIndex k (⟨S, i.val⟩ : State Nat) (grid R (ω i).1).1 (grid R (ω i).2).1).2 < 0} =
      Set.univ.pi (fun i : Fin N => if T ≤ i.val then (cell R 0 ×ˢ (univ : Set U01))ᶜ else univ) := by
    ext ω
    simp only [mem_ofPred_eq, Set.mem_pi, mem_univ, true_implies]
    refine forall_congr' fun i => ?_
    by_cases hi : T ≤ i.val
    · simp only [hi, true_implies, if_true, mem_compl_iff, mem_prod, mem_univ, and_true]
      have hacc := fun S => accept_long hk hR (c := i.val) (by omega) (by omega) (by have := i.2; omega) S (ω i)
      constructor
      · intro h hc
        exact absurd ((hacc []).2 hc) (not_le.2 (h []))
      · intro h S
        by_contra hc
        exact h ((hacc S).1 (not_lt.1 hc))
    · simp [hi]
  have hR1 : (1 : ℝ) / R ≤ 1 := by
    rw [div_le_one (by exact_mod_cast hR)]
    exact_mod_cast hR
  have hv : volume (cell R 0 ×ˢ (univ : Set U01))ᶜ = ENNReal.ofReal (1 - 1 / R) := by
    rw [prob_compl_eq_one_sub ((cell_meas R 0).prod MeasurableSet.univ), Measure.volume_eq_prod, Measure.prod_prod, measure_univ, mul_one,
      show volume (cell R 0) = ENNReal.ofReal (1 / R) from vol_floor hR (by omega), ENNReal.ofReal_sub _ (by positivity), ENNReal.ofReal_one]
  rw [hset, volume_pi_pi]
  have : ∀ i : Fin N, volume (if T ≤ i.val then (cell R 0 ×ˢ (univ : Set U01))ᶜ else univ) = if T ≤ i.val then ENNReal.ofReal (1 - 1 / R) else 1 := by
    intro i
    split
    · exact hv
    · exact measure_univ
  simp only [this]
  rw [Finset.prod_ite, Finset.prod_const_one, mul_one, Finset.prod_const, ENNReal.ofReal_pow (by linarith)]
  congr 1
  have h2 := Finset.card_filter_add_card_filter_not (s := (Finset.univ : Finset (Fin N))) (fun i : Fin N => i.val < T)
  have h3 := Fin.card_filter_val_lt (n := N) (m := T)
  simp only [not_lt, Finset.card_univ, Fintype.card_fin] at h2
  omega

/-- with `rand()` of 2^15 values and 10 places: after 100 items no probability is off by more than 3%; from 327680 items on every item is taken with probability 1/32768 -/
example (garbage : List Nat) (hg : garbage.length = 10) (Q : List Nat → Prop) :
    volume {ω : Draws 100 | ∃ s, adds 10 (new garbage) (gridCalls (2 ^ 15) ω) = .ok s ∧ Q s.sample} ≤
      volume {ω : Draws 100 | ∃ s, adds 10 (new garbage) (calls ω) = .ok s ∧ Q s.sample} + ENNReal.ofReal (3 / 100) := by
  refine ((C162_close (by norm_num) (by norm_num) garbage hg (by norm_num) Q).1).trans (add_le_add le_rfl (ENNReal.ofReal_le_ofReal ?_))
  norm_num

end Orp.Reservoir
