import Verif.Reservoir.Grid

/-!
Property C165: `ExponentialReservoirSampling` (reservoir_sampling.hpp:91-133) with a random function that has only `R` different values. As in C162 such a
random number is an ideal one rounded down to the grid (`grid`, `C162_grid_law`).
-/

namespace Orp.Reservoir

open MeasureTheory Set

/-- the draws for which the grid may make a difference when the reservoir has `c` items -/
def badExp (k R c : Nat) : Set (U01 × U01) :=
  (cell R ⌊(c : ℝ) / (k : ℝ) * (R : ℝ)⌋.toNat ×ˢ univ) ∪ ⋃ j ∈ Finset.range (c - 1), univ ×ˢ cell R ⌊((j : ℝ) + 1) / c * (R : ℝ)⌋.toNat

theorem badExp_meas (k R c : Nat) : MeasurableSet (badExp k R c) :=
  ((cell_meas R _).prod MeasurableSet.univ).union (Finset.measurableSet_biUnion _ (fun _ _ => MeasurableSet.univ.prod (cell_meas R _)))

theorem badExp_vol {k R c : Nat} (hk : 1 ≤ k) (hR : 1 ≤ R) (hc : c ≤ k) : volume (badExp k R c) ≤ ENNReal.ofReal (k / R) := by
  have hpos : (0 : ℝ) < R := by exact_mod_cast hR
  have h1 : volume (cell R ⌊(c : ℝ) / (k : ℝ) * (R : ℝ)⌋.toNat ×ˢ (univ : Set U01)) ≤ ENNReal.ofReal (1 / R) := by
    rw [Measure.volume_eq_prod, Measure.prod_prod, measure_univ, mul_one]
    exact cell_vol hR _
  have h2 : volume (⋃ j ∈ Finset.range (c - 1), (univ : Set U01) ×ˢ cell R ⌊((j : ℝ) + 1) / c * (R : ℝ)⌋.toNat) ≤ ∑ _j ∈ Finset.range (c - 1), ENNReal.ofReal (1 / R) := by
    refine (measure_biUnion_finset_le _ _).trans (Finset.sum_le_sum fun j _ => ?_)
    rw [Measure.volume_eq_prod, Measure.prod_prod, measure_univ, one_mul]
    exact cell_vol hR _
  refine (measure_union_le _ _).trans ((add_le_add h1 h2).trans ?_)
  rw [Finset.sum_const, Finset.card_range, nsmul_eq_mul, ← ENNReal.ofReal_natCast, ← ENNReal.ofReal_mul (Nat.cast_nonneg _),
    ← ENNReal.ofReal_add (by positivity) (by positivity)]
  refine ENNReal.ofReal_le_ofReal ?_
  have h3 : 1 + ((c - 1 : Nat) : ℝ) ≤ k := by exact_mod_cast (by omega : 1 + (c - 1) ≤ k)
  calc 1 / (R : ℝ) + ((c - 1 : Nat) : ℝ) * (1 / R) = (1 + ((c - 1 : Nat) : ℝ)) / R := by ring
    _ ≤ k / R := div_le_div_of_nonneg_right h3 hpos.le

theorem floor_grid {R c : Nat} (hR : 1 ≤ R) {u : U01} (hu : ∀ j < c - 1, u ∉ cell R ⌊((j : ℝ) + 1) / c * (R : ℝ)⌋.toNat) :
    ⌊(grid R u).1 * (c : ℝ)⌋ = ⌊u.1 * (c : ℝ)⌋ := by
  rcases Nat.eq_zero_or_pos c with rfl | hc
  · simp
  have hpos : (0 : ℝ) < c := by exact_mod_cast hc
  apply le_antisymm
  · exact Int.floor_le_floor (mul_le_mul_of_nonneg_right (grid_le R u) hpos.le)
  · by_contra hlt
    push Not at hlt
    obtain ⟨a1, _⟩ := floor_range (K := ℝ) hc (grid R u).2
    obtain ⟨_, a2⟩ := floor_range (K := ℝ) hc u.2
    obtain ⟨m, hm⟩ : ∃ m : Nat, ⌊u.1 * (c : ℝ)⌋ = ((m + 1 : Nat) : Int) := ⟨(⌊u.1 * (c : ℝ)⌋ - 1).toNat, by omega⟩
    refine hu m (by omega) (grid_between hR (by positivity) ?_ ?_)
    · rw [lt_div_iff₀ hpos]
      have := Int.floor_lt.1 hlt
      rw [hm] at this
      push_cast at this
      exact this
    · rw [div_le_iff₀ hpos]
      have := Int.floor_le (u.1 * (c : ℝ))
      rw [hm] at this
      push_cast at this
      exact this

theorem estep_grid {k R t : Nat} (hR : 1 ≤ R) (x : List Nat × Nat) (r : U01 × U01) (h : r ∉ badExp k R x.2) :
    estep k t x (grid R r.1, grid R r.2) = estep k t x r := by
  have hb1 : r.1 ∉ cell R ⌊(x.2 : ℝ) / (k : ℝ) * (R : ℝ)⌋.toNat := fun hc => h (.inl ⟨hc, trivial⟩)
  have hb2 : ∀ j < x.2 - 1, r.2 ∉ cell R ⌊((j : ℝ) + 1) / x.2 * (R : ℝ)⌋.toNat := fun j hj hc =>
    h (.inr (mem_iUnion₂.2 ⟨j, Finset.mem_range.2 hj, trivial, hc⟩))
  have e1 : (grid R r.1).1 < (x.2 : ℝ) / (k : ℝ) ↔ r.1.1 < (x.2 : ℝ) / (k : ℝ) := by
    constructor
    · intro h1
      by_contra h2
      exact hb1 (grid_between hR (by positivity) h1 (not_lt.1 h2))
    · intro h1
      exact (grid_le R r.1).trans_lt h1
  simp only [estep, e1, floor_grid hR hb2]

/-- the draws for which the grid may make a difference in `N` adds -/
def badExpRun (k R : Nat) (garbage : List Nat) : (N : Nat) → Set (Draws N)
  | 0 => ∅
  | N + 1 => {ω | (Fin.init ω : Draws N) ∈ badExpRun k R garbage N} ∪
      {ω | ω (Fin.last N) ∈ badExp k R (walk (garbage, 0) (estep k) N (Fin.init ω : Draws N)).2}

theorem badExpRun_spec {k R : Nat} (hk : 1 ≤ k) (hk2 : k < 2 ^ 31) (hR : 1 ≤ R) (garbage : List Nat) (hg : garbage.length = k) : ∀ N : Nat,
    MeasurableSet (badExpRun k R garbage N) ∧ volume (badExpRun k R garbage N) ≤ ENNReal.ofReal ((N : ℝ) * (k / R))
  | 0 => by simp [badExpRun]
  | N + 1 => by
      obtain ⟨m1, v1⟩ := badExpRun_spec hk hk2 hR garbage hg N
      have hA : MeasurableSet {z : Draws N × (U01 × U01) | z.2 ∈ badExp k R (walk (garbage, 0) (estep k) N z.1).2} :=
        walk_joint (walk_meas (garbage, 0) (estep k) (estep_meas k) N) (P := fun x r => r ∈ badExp k R x.2) (fun x => badExp_meas k R x.2)
      have hB : MeasurableSet {z : Draws N × (U01 × U01) | z.1 ∈ badExpRun k R garbage N} := measurable_fst m1
      have hpair : Measurable fun ω : Draws (N + 1) => ((Fin.init ω : Draws N), ω (Fin.last N)) := (measurable_init N).prodMk (measurable_pi_apply (Fin.last N))
      refine ⟨(hpair hB).union (hpair hA), ?_⟩
      have e1 : volume {ω : Draws (N + 1) | (Fin.init ω : Draws N) ∈ badExpRun k R garbage N} = volume (badExpRun k R garbage N) := by
        have := vol_last hB
        simp only [mem_ofPred_eq] at this
        rw [this, ← lintegral_indicator_one m1]
        refine lintegral_congr fun ω => ?_
        by_cases hω : ω ∈ badExpRun k R garbage N
        · simp [hω]
        · simp [hω]
      have e2 : volume {ω : Draws (N + 1) | ω (Fin.last N) ∈ badExp k R (walk (garbage, 0) (estep k) N (Fin.init ω : Draws N)).2} ≤ ENNReal.ofReal (k / R) := by
        have := vol_last hA
        simp only [mem_ofPred_eq] at this
        rw [this]
        calc _ ≤ ∫⁻ _ω : Draws N, ENNReal.ofReal (k / R) := lintegral_mono fun ω => badExp_vol hk hR (ewalk_facts hk hk2 garbage hg N ω).2.1
          _ = _ := by rw [lintegral_const, measure_univ, mul_one]
      refine (measure_union_le _ _).trans ((add_le_add (e1.le.trans v1) e2).trans (le_of_eq ?_))
      rw [← ENNReal.ofReal_add (by positivity) (by positivity)]
      congr 1
      push_cast
      ring

theorem ewalk_grid {k R : Nat} (hR : 1 ≤ R) (garbage : List Nat) : ∀ (N : Nat) (ω : Draws N), ω ∉ badExpRun k R garbage N →
    walk (garbage, 0) (estep k) N (fun i => (grid R (ω i).1, grid R (ω i).2)) = walk (garbage, 0) (estep k) N ω
  | 0, _, _ => rfl
  | N + 1, ω, h => by
      have ih := ewalk_grid hR garbage N (Fin.init ω) (fun hc => h (.inl hc))
      have e : (Fin.init (fun i => (grid R (ω i).1, grid R (ω i).2)) : Draws N) = fun i => (grid R ((Fin.init ω : Draws N) i).1, grid R ((Fin.init ω : Draws N) i).2) := rfl
      simp only [walk]
      rw [e, ih]
      exact estep_grid hR _ _ (fun hc => h (.inr hc))

theorem grid_exp_run {k R : Nat} (hk : 1 ≤ k) (hk2 : k < 2 ^ 31) (hR : 1 ≤ R) (garbage : List Nat) (hg : garbage.length = k) {N : Nat} (ω : Draws N)
    (hω : ω ∉ badExpRun k R garbage N) : expAdds k (new garbage) (gridCalls R ω) = expAdds k (new garbage) (calls ω) := by
  have h1 := expAdds_walk hk hk2 garbage hg N (fun i => (grid R (ω i).1, grid R (ω i).2))
  rw [expAdds_walk hk hk2 garbage hg N ω, ← ewalk_grid hR garbage N ω hω, ← h1]
  rfl

/-- **C165** Whatever is asked about the reservoir: after `N` adds the probability with a random function of `R` values differs from that with ideal random
numbers by at most `N*k/R`. -/
theorem C165_close {k R : Nat} (hk : 1 ≤ k) (hk2 : k < 2 ^ 31) (hR : 1 ≤ R) (garbage : List Nat) (hg : garbage.length = k) (N : Nat) (Q : List Nat → Nat → Prop) :
    volume {ω : Draws N | ∃ s, expAdds k (new garbage) (gridCalls R ω) = .ok s ∧ Q s.sample (count s)} ≤
        volume {ω : Draws N | ∃ s, expAdds k (new garbage) (calls ω) = .ok s ∧ Q s.sample (count s)} + ENNReal.ofReal ((N : ℝ) * (k / R)) ∧
      volume {ω : Draws N | ∃ s, expAdds k (new garbage) (calls ω) = .ok s ∧ Q s.sample (count s)} ≤
        volume {ω : Draws N | ∃ s, expAdds k (new garbage) (gridCalls R ω) = .ok s ∧ Q s.sample (count s)} + ENNReal.ofReal ((N : ℝ) * (k / R)) := by
  have hv := (badExpRun_spec hk hk2 hR garbage hg N).2
  constructor
  · refine (measure_mono (t := {ω : Draws N | ∃ s, expAdds k (new garbage) (calls ω) = .ok s ∧ Q s.sample (count s)} ∪ badExpRun k R garbage N) ?_).trans
      ((measure_union_le _ _).trans (add_le_add le_rfl hv))
    intro ω hω
    by_cases hb : ω ∈ badExpRun k R garbage N
    · exact .inr hb
    · refine .inl ?_
      simp only [mem_ofPred_eq] at hω ⊢
      rwa [grid_exp_run hk hk2 hR garbage hg ω hb] at hω
  · refine (measure_mono (t := {ω : Draws N | ∃ s, expAdds k (new garbage) (gridCalls R ω) = .ok s ∧ Q s.sample (count s)} ∪ badExpRun k R garbage N) ?_).trans
      ((measure_union_le _ _).trans (add_le_add le_rfl hv))
    intro ω hω
    by_cases hb : ω ∈ badExpRun k R garbage N
    · exact .inr hb
    · refine .inl ?_
      simp only [mem_ofPred_eq] at hω ⊢
      rwa [grid_exp_run hk hk2 hR garbage hg ω hb]

/-- **C165** In particular the item at position `p` is in the reservoir with probability `(1-1/k)^(N-1-p)` up to `N*k/R`. -/
theorem C165_bias {k R : Nat} (hk : 1 ≤ k) (hk2 : k < 2 ^ 31) (hR : 1 ≤ R) (garbage : List Nat) (hg : garbage.length = k) {N p : Nat} (hp : p < N) :
    volume {ω : Draws N | ∃ s, expAdds k (new garbage) (gridCalls R ω) = .ok s ∧ p ∈ s.sample.take (count s)} ≤
        ENNReal.ofReal ((1 - 1 / (k : ℝ)) ^ (N - 1 - p)) + ENNReal.ofReal ((N : ℝ) * (k / R)) ∧
      ENNReal.ofReal ((1 - 1 / (k : ℝ)) ^ (N - 1 - p)) ≤
        volume {ω : Draws N | ∃ s, expAdds k (new garbage) (gridCalls R ω) = .ok s ∧ p ∈ s.sample.take (count s)} + ENNReal.ofReal ((N : ℝ) * (k / R)) := by
  have := C165_close hk hk2 hR garbage hg N (fun S c => p ∈ S.take c)
  rwa [show volume {ω : Draws N | ∃ s, expAdds k (new garbage) (calls ω) = .ok s ∧ p ∈ s.sample.take (count s)} =
    ENNReal.ofReal ((1 - 1 / (k : ℝ)) ^ (N - 1 - p)) from C63_exponential_bias hk hk2 garbage hg hp] at this

/-! ### reservoirs with more places than the random function has values -/

theorem grid_max {R : Nat} (hR : 1 ≤ R) (u : U01) : (grid R u).1 * R ≤ R - 1 := by
  have hpos : (0 : ℝ) < R := by exact_mod_cast hR
  obtain ⟨_, b⟩ := floor_range (K := ℝ) hR u.2
  simp only [grid]
  rw [div_mul_cancel₀ _ hpos.ne']
  have : ⌊u.1 * (R : ℝ)⌋ ≤ (R : Int) - 1 := by omega
  exact_mod_cast this

/-- **C165** But the reservoir never holds more than `k - k/R + 1` items, however long the stream is; with `R < k` it is never full. -/
theorem C165_never_full {k R : Nat} (hk : 1 ≤ k) (hk2 : k < 2 ^ 31) (hR : 1 ≤ R) (garbage : List Nat) (hg : garbage.length = k) {N : Nat} (ω : Draws N) :
    ∃ s, expAdds k (new garbage) (gridCalls R ω) = .ok s ∧ (count s : ℝ) ≤ k - k / R + 1 ∧ (R < k → count s < k) := by
  have hw := expAdds_walk hk hk2 garbage hg N (fun i => (grid R (ω i).1, grid R (ω i).2))
  have hkpos : (0 : ℝ) < k := by exact_mod_cast hk
  have hpos : (0 : ℝ) < R := by exact_mod_cast hR
  have hR1 : (1 : ℝ) ≤ R := by exact_mod_cast hR
  have hkR : (k : ℝ) / R ≤ k := div_le_self hkpos.le hR1
  have key : ∀ (M : Nat) (w : Draws M), ((walk (garbage, 0) (estep k) M (fun i => (grid R (w i).1, grid R (w i).2))).2 : ℝ) ≤ k - k / R + 1 := by
    intro M
    induction M with
    | zero => intro w; simp only [walk]; push_cast; linarith
    | succ M ih =>
        intro w
        have e : (Fin.init (fun i => (grid R (w i).1, grid R (w i).2)) : Draws M) = fun i => (grid R ((Fin.init w : Draws M) i).1, grid R ((Fin.init w : Draws M) i).2) := rfl
        have := ih (Fin.init w)
        simp only [walk]
        rw [e]
        generalize walk (garbage, 0) (estep k) M (fun i => (grid R ((Fin.init w : Draws M) i).1, grid R ((Fin.init w : Draws M) i).2)) = x at *
        unfold estep
        split
        · exact this
        · rename_i hge
          push Not at hge
          have h2 := grid_max hR (w (Fin.last M)).1
          rw [div_le_iff₀ hkpos] at hge
          have h3 : (x.2 : ℝ) ≤ k - k / R := by
            have h4 : (grid R (w (Fin.last M)).1).1 ≤ 1 - 1 / R := by
              rw [← le_div_iff₀ hpos, sub_div, div_self hpos.ne'] at h2
              exact h2
            calc (x.2 : ℝ) ≤ (grid R (w (Fin.last M)).1).1 * k := hge
              _ ≤ (1 - 1 / R) * k := mul_le_mul_of_nonneg_right h4 hkpos.le
              _ = k - k / R := by ring
          push_cast
          linarith
  refine ⟨_, hw, key N ω, fun hlt => ?_⟩
  have h1 := key N ω
  have h2 : (1 : ℝ) < k / R := by rw [lt_div_iff₀ hpos, one_mul]; exact_mod_cast hlt
  have h3 : ((walk (garbage, 0) (estep k) N (fun i => (grid R (ω i).1, grid R (ω i).2))).2 : ℝ) < k := by linarith
  exact_mod_cast h3

/- three places and a random function with the values 0 and 1/2: at most two places are used -/
example : (expAdds (K := ℚ) 3 (new [7, 8, 9]) [⟨0, 0, 0⟩, ⟨1, 1 / 2, 0⟩, ⟨2, 1 / 2, 1 / 2⟩, ⟨3, 1 / 2, 1 / 2⟩]).map (fun s => (s.sample, count s)) = .ok ([0, 3, 9], 2) := by
  decide +kernel

end Orp.Reservoir
