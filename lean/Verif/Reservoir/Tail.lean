import Verif.Reservoir.Estimate
import Mathlib.Algebra.Order.Chebyshev
import Mathlib.Probability.Distributions.Uniform
import Mathlib.Probability.ProbabilityMassFunction.Integrals
import Mathlib.Probability.Moments.SubGaussian

/-!
Property C157: large errors of the mean over the reservoir are exponentially unlikely (Hoeffding's inequality for sampling
without replacement, by Maclaurin's inequality for elementary symmetric sums).
-/

namespace Orp.Reservoir

open MeasureTheory Set

/-! ### elementary symmetric sums -/

/-- the sum over the `k`-subsets of `s` of the products of `y` -/
noncomputable def symSum (y : Nat → ℝ) (s : Finset Nat) (k : Nat) : ℝ := ∑ A ∈ s.powersetCard k, ∏ i ∈ A, y i

theorem symSum_nonneg {y : Nat → ℝ} {s : Finset Nat} (hy : ∀ i ∈ s, 0 ≤ y i) (k : Nat) : 0 ≤ symSum y s k :=
  Finset.sum_nonneg fun _ hA => Finset.prod_nonneg fun i hi => hy i ((Finset.mem_powersetCard.1 hA).1 hi)

theorem symSum_insert (y : Nat → ℝ) {i : Nat} {t : Finset Nat} (h : i ∉ t) (k : Nat) :
    symSum y (insert i t) (k + 1) = symSum y t (k + 1) + y i * symSum y t k := by
  unfold symSum
  rw [Finset.powersetCard_succ_insert h, Finset.sum_union, Finset.sum_image, Finset.mul_sum]
  · congr 1
    apply Finset.sum_congr rfl
    intro A hA
    rw [Finset.prod_insert fun hi => h ((Finset.mem_powersetCard.1 hA).1 hi)]
  · intro A hA B hB hAB
    have h1 : i ∉ A := fun hi => h ((Finset.mem_powersetCard.1 hA).1 hi)
    have h2 : i ∉ B := fun hi => h ((Finset.mem_powersetCard.1 hB).1 hi)
    rw [← Finset.erase_insert h1, hAB, Finset.erase_insert h2]
  · rw [Finset.disjoint_left]
    intro A hA hB
    obtain ⟨B, _, rfl⟩ := Finset.mem_image.1 hB
    exact h ((Finset.mem_powersetCard.1 hA).1 (Finset.mem_insert_self i B))

theorem sum_symSum_erase (y : Nat → ℝ) (s : Finset Nat) (k : Nat) :
    ∑ i ∈ s, symSum y (s.erase i) k = ((s.card : ℝ) - k) * symSum y s k := by
  unfold symSum
  rw [Finset.sum_comm' (t' := s.powersetCard k) (s' := fun A => s \ A), Finset.mul_sum]
  · apply Finset.sum_congr rfl
    intro A hA
    obtain ⟨h1, h2⟩ := Finset.mem_powersetCard.1 hA
    have h3 : k ≤ s.card := h2 ▸ Finset.card_le_card h1
    rw [Finset.sum_const, Finset.card_sdiff_of_subset h1, h2, nsmul_eq_mul, Nat.cast_sub h3]
  · intro i A
    simp only [Finset.mem_powersetCard, Finset.mem_sdiff]
    constructor
    · rintro ⟨h1, h2, h3⟩
      exact ⟨⟨h1, fun hi => (Finset.mem_erase.1 (h2 hi)).1 rfl⟩, h2.trans (Finset.erase_subset _ _), h3⟩
    · rintro ⟨⟨h1, h2⟩, h3, h4⟩
      exact ⟨h1, fun j hj => Finset.mem_erase.2 ⟨fun e => h2 (e ▸ hj), h3 hj⟩, h4⟩

theorem sum_mul_symSum_erase (y : Nat → ℝ) (s : Finset Nat) (k : Nat) :
    ∑ i ∈ s, y i * symSum y (s.erase i) k = ((k : ℝ) + 1) * symSum y s (k + 1) := by
  have h : ∀ i ∈ s, y i * symSum y (s.erase i) k = symSum y s (k + 1) - symSum y (s.erase i) (k + 1) := by
    intro i hi
    have := symSum_insert y (Finset.notMem_erase i s) k
    rw [Finset.insert_erase hi] at this
    linarith
  rw [Finset.sum_congr rfl h, Finset.sum_sub_distrib, Finset.sum_const, nsmul_eq_mul, sum_symSum_erase]
  push_cast
  ring

/-- leaving out a larger number leaves a smaller symmetric sum -/
theorem symSum_antivary {y : Nat → ℝ} {s : Finset Nat} (hy : ∀ i ∈ s, 0 ≤ y i) (k : Nat) :
    AntivaryOn y (fun i => symSum y (s.erase i) k) s := by
  intro i hi j hj hlt
  simp only at hlt
  rcases eq_or_ne i j with rfl | hne
  · exact le_rfl
  cases k with
  | zero => simp [symSum] at hlt
  | succ k =>
      have hi' : i ∈ s := hi
      have hj' : j ∈ s := hj
      have e1 := symSum_insert y (i := j) (t := (s.erase i).erase j) (Finset.notMem_erase j _) k
      rw [Finset.insert_erase (Finset.mem_erase.2 ⟨hne.symm, hj'⟩)] at e1
      have e2 := symSum_insert y (i := i) (t := (s.erase j).erase i) (Finset.notMem_erase i _) k
      rw [Finset.insert_erase (Finset.mem_erase.2 ⟨hne, hi'⟩), Finset.erase_right_comm] at e2
      have hnn : 0 ≤ symSum y ((s.erase i).erase j) k :=
        symSum_nonneg (fun l hl => hy l (Finset.mem_of_mem_erase (Finset.mem_of_mem_erase hl))) k
      by_contra hc
      push Not at hc
      have := mul_le_mul_of_nonneg_right hc.le hnn
      linarith

/-- Maclaurin's inequality: the mean of the products over the `k`-subsets is at most the `k`-th power of the mean -/
theorem maclaurin {y : Nat → ℝ} {s : Finset Nat} (hy : ∀ i ∈ s, 0 ≤ y i) (hs : 0 < s.card) :
    ∀ k, k ≤ s.card → symSum y s k ≤ s.card.choose k * ((∑ i ∈ s, y i) / s.card) ^ k
  | 0, _ => by simp [symSum]
  | k + 1, hk => by
      have ih := maclaurin hy hs k (by omega)
      have hS : 0 ≤ ∑ i ∈ s, y i := Finset.sum_nonneg hy
      have hsp : (0 : ℝ) < s.card := by exact_mod_cast hs
      have h1 := (symSum_antivary hy k).card_mul_sum_le_sum_mul_sum
      rw [sum_mul_symSum_erase, sum_symSum_erase] at h1
      have h2 : ((s.card.choose (k + 1) : Nat) : ℝ) * ((k : ℝ) + 1) = s.card.choose k * ((s.card : ℝ) - k) := by
        rw [← Nat.cast_sub (by omega : k ≤ s.card)]
        exact_mod_cast Nat.choose_succ_right_eq s.card k
      have hd : (0 : ℝ) ≤ (s.card : ℝ) - k := by
        have : (k : ℝ) ≤ s.card := by exact_mod_cast (by omega : k ≤ s.card)
        linarith
      have h3 : (s.card : ℝ) * (((k : ℝ) + 1) * symSum y s (k + 1)) ≤
          (∑ i ∈ s, y i) * (((s.card : ℝ) - k) * (s.card.choose k * ((∑ i ∈ s, y i) / s.card) ^ k)) :=
        h1.trans (mul_le_mul_of_nonneg_left (mul_le_mul_of_nonneg_left ih hd) hS)
      have h4 : (∑ i ∈ s, y i) * (((s.card : ℝ) - k) * (s.card.choose k * ((∑ i ∈ s, y i) / s.card) ^ k)) =
          (s.card : ℝ) * (((k : ℝ) + 1) * (s.card.choose (k + 1) * ((∑ i ∈ s, y i) / s.card) ^ (k + 1))) := by
        rw [pow_succ]
        have : (∑ i ∈ s, y i) = s.card * ((∑ i ∈ s, y i) / s.card) := by field_simp
        calc _ = (s.card.choose k * ((s.card : ℝ) - k)) * (((∑ i ∈ s, y i) / s.card) ^ k * (∑ i ∈ s, y i)) := by ring
          _ = (s.card.choose (k + 1) * ((k : ℝ) + 1)) * (((∑ i ∈ s, y i) / s.card) ^ k * (s.card * ((∑ i ∈ s, y i) / s.card))) := by
              rw [h2, ← this]
          _ = _ := by ring
      rw [h4] at h3
      have h5 := le_of_mul_le_mul_left h3 hsp
      exact le_of_mul_le_mul_left h5 (by positivity)

/-! ### Hoeffding's lemma for a finite list of numbers -/

theorem hoeffding_lemma {N : Nat} (hN : 0 < N) (x : Nat → ℝ) {a b : ℝ} (hx : ∀ i < N, x i ∈ Icc a b) (t : ℝ) :
    (∑ i ∈ Finset.range N, Real.exp (t * (x i - streamMean x N))) / N ≤ Real.exp (t ^ 2 * (b - a) ^ 2 / 8) := by
  have : Nonempty (Fin N) := ⟨⟨0, hN⟩⟩
  let μ : Measure (Fin N) := (PMF.uniformOfFintype (Fin N)).toMeasure
  have hint : ∀ f : Fin N → ℝ, ∫ i, f i ∂μ = (∑ i, f i) / N := by
    intro f
    rw [PMF.integral_eq_sum, Finset.sum_div]
    apply Finset.sum_congr rfl
    intro i _
    rw [PMF.uniformOfFintype_apply, Fintype.card_fin, ENNReal.toReal_inv, ENNReal.toReal_natCast, smul_eq_mul]
    ring
  have hmean : ∫ i : Fin N, x i ∂μ = streamMean x N := by
    rw [hint, streamMean, Finset.sum_range]
  have h := ProbabilityTheory.hasSubgaussianMGF_of_mem_Icc (μ := μ) (X := fun i : Fin N => x i) (a := a) (b := b)
    (measurable_of_finite _).aemeasurable (Filter.Eventually.of_forall fun i => hx i i.2)
  have h2 := h.mgf_le t
  rw [ProbabilityTheory.mgf, hint, hmean, ← Finset.sum_range fun i => Real.exp (t * (x i - streamMean x N))] at h2
  refine h2.trans (le_of_eq ?_)
  congr 1
  simp only [NNReal.coe_pow, NNReal.coe_div, coe_nnnorm, Real.norm_eq_abs]
  rw [div_pow, sq_abs]
  norm_num
  ring

/-! ### the mean over the reservoir -/

/-- the moment generating function of the error of the estimate -/
theorem estimate_mgf {k : Nat} (hk : 1 ≤ k) (garbage : List ℝ) (hg : garbage.length = k) (x : Nat → ℝ) {N : Nat}
    (hkN : k ≤ N) (hN : N < 2 ^ 32) {a b : ℝ} (hx : ∀ i < N, x i ∈ Icc a b) (t : ℝ) :
    Integrable (fun ω => Real.exp (t * (k * (estimate k garbage x N ω - streamMean x N)))) ∧
    ∫ ω, Real.exp (t * (k * (estimate k garbage x N ω - streamMean x N))) ≤
      Real.exp (t ^ 2 * (b - a) ^ 2 / 8) ^ k := by
  obtain ⟨gp, h1, h2⟩ := estimate_eq hk garbage hg x hkN hN
  have hkp : (0 : ℝ) < k := by exact_mod_cast hk
  let y : Nat → ℝ := fun i => Real.exp (t * (x i - streamMean x N))
  have h3 := integral_sample hk gp h1 hkN hN (fun A => ∏ i ∈ A, y i)
  have hfun : (fun ω => Real.exp (t * (k * (estimate k garbage x N ω - streamMean x N)))) =
      fun ω => ∏ i ∈ (walk gp (pstep k) N ω).toFinset, y i := by
    funext ω
    obtain ⟨f1, f2, _, _⟩ := walk_facts hk gp h1 N hN hkN ω
    rw [← Real.exp_sum, ← Finset.mul_sum, Finset.sum_sub_distrib, Finset.sum_const, List.toFinset_card_of_nodup f2, f1,
      nsmul_eq_mul, h2 ω]
    congr 2
    field_simp
  rw [hfun]
  refine ⟨h3.1, h3.2.le.trans ?_⟩
  have hc : (0 : ℝ) < (N.choose k : ℝ) := by exact_mod_cast Nat.choose_pos hkN
  rw [div_le_iff₀ hc]
  have h4 := maclaurin (y := y) (s := Finset.range N) (fun i _ => (Real.exp_pos _).le)
    (by rw [Finset.card_range]; omega) k (by rw [Finset.card_range]; omega)
  rw [Finset.card_range] at h4
  have h5 := hoeffding_lemma (by omega : 0 < N) x hx t
  refine h4.trans ?_
  rw [mul_comm]
  refine mul_le_mul_of_nonneg_right (pow_le_pow_left₀ ?_ h5 k) hc.le
  exact div_nonneg (Finset.sum_nonneg fun i _ => (Real.exp_pos _).le) (Nat.cast_nonneg _)

/-- one side -/
theorem estimate_tail {k : Nat} (hk : 1 ≤ k) (garbage : List ℝ) (hg : garbage.length = k) (x : Nat → ℝ) {N : Nat}
    (hkN : k ≤ N) (hN : N < 2 ^ 32) {a b : ℝ} (hab : a < b) (hx : ∀ i < N, x i ∈ Icc a b) {δ : ℝ} (hδ : 0 ≤ δ)
    {σ : ℝ} (hσ : σ ^ 2 = 1) :
    (volume : Measure (Draws N)).real {ω | δ ≤ σ * (estimate k garbage x N ω - streamMean x N)} ≤
      Real.exp (-2 * k * δ ^ 2 / (b - a) ^ 2) := by
  have hd : 0 < b - a := sub_pos.2 hab
  have hkp : (0 : ℝ) < k := by exact_mod_cast hk
  set l : ℝ := 4 * δ / (b - a) ^ 2 with hl
  have hl0 : 0 ≤ l := by positivity
  obtain ⟨hi, hb⟩ := estimate_mgf hk garbage hg x hkN hN hx (l * σ)
  have hm := mul_meas_ge_le_integral_of_nonneg (μ := (volume : Measure (Draws N)))
    (Filter.Eventually.of_forall fun ω => (Real.exp_pos _).le) hi (Real.exp (l * (k * δ)))
  have hsub : {ω | δ ≤ σ * (estimate k garbage x N ω - streamMean x N)} ⊆
      {ω | Real.exp (l * (k * δ)) ≤ Real.exp (l * σ * (k * (estimate k garbage x N ω - streamMean x N)))} := by
    intro ω h
    simp only [Set.mem_ofPred_eq] at h ⊢
    rw [Real.exp_le_exp]
    have := mul_le_mul_of_nonneg_left (mul_le_mul_of_nonneg_left h hkp.le) hl0
    calc _ ≤ _ := this
      _ = _ := by ring
  have h1 := (mul_le_mul_of_nonneg_left (measureReal_mono (s₂ := _) hsub) (Real.exp_pos (l * (k * δ))).le).trans (hm.trans hb)
  rw [← Real.exp_nat_mul, mul_comm, ← le_div_iff₀ (Real.exp_pos _), ← Real.exp_sub] at h1
  refine h1.trans (le_of_eq ?_)
  congr 1
  rw [mul_pow, hσ, hl]
  field_simp
  ring

/-- **C157** The mean over a reservoir of `k` slots differs by `δ` or more from the mean of the stream with probability at most
`2 exp(-2 k δ² / (b - a)²)`, if all numbers of the stream lie between `a` and `b`; the length of the stream does not matter. -/
theorem C157_exponential_tail {k : Nat} (hk : 1 ≤ k) (garbage : List ℝ) (hg : garbage.length = k) (x : Nat → ℝ) {N : Nat}
    (hkN : k ≤ N) (hN : N < 2 ^ 32) {a b : ℝ} (hab : a < b) (hx : ∀ i < N, x i ∈ Icc a b) {δ : ℝ} (hδ : 0 ≤ δ) :
    volume {ω : Draws N | δ ≤ |estimate k garbage x N ω - streamMean x N|} ≤
      ENNReal.ofReal (2 * Real.exp (-2 * k * δ ^ 2 / (b - a) ^ 2)) := by
  have h1 := estimate_tail hk garbage hg x hkN hN hab hx hδ (σ := 1) (by norm_num)
  have h2 := estimate_tail hk garbage hg x hkN hN hab hx hδ (σ := -1) (by norm_num)
  have hsub : {ω : Draws N | δ ≤ |estimate k garbage x N ω - streamMean x N|} ⊆
      {ω | δ ≤ 1 * (estimate k garbage x N ω - streamMean x N)} ∪
        {ω | δ ≤ -1 * (estimate k garbage x N ω - streamMean x N)} := by
    intro ω h
    simp only [Set.mem_ofPred_eq, mem_union] at h ⊢
    rcases le_abs.1 h with h | h
    · left; linarith
    · right; linarith
  rw [← ofReal_measureReal]
  apply ENNReal.ofReal_le_ofReal
  have h3 := (measureReal_mono (μ := (volume : Measure (Draws N))) (s₂ := _) hsub).trans (measureReal_union_le _ _)
  linarith

/-- the share of the items in the array that have a property, after the items `z 0, ..., z (N - 1)` have been added -/
noncomputable def sampleShare {α : Type} (P : α → Prop) [DecidablePred P] (k : Nat) (garbage : List α) (z : Nat → α) (N : Nat)
    (ω : Draws N) : ℝ :=
  match adds k (new garbage) (List.ofFn fun i : Fin N => ⟨z i.val, (ω i).1.1, (ω i).2.1⟩) with
  | .ok s => (s.sample.countP (fun e => decide (P e)) : ℝ) / k
  | .error _ => 0

/-- the share of the first `N` items of the stream that have the property -/
noncomputable def streamShare {α : Type} (P : α → Prop) [DecidablePred P] (z : Nat → α) (N : Nat) : ℝ :=
  (((Finset.range N).filter fun i => P (z i)).card : ℝ) / N

theorem sampleShare_eq {α : Type} (P : α → Prop) [DecidablePred P] (k : Nat) (garbage : List α) (z : Nat → α) (N : Nat)
    (ω : Draws N) : sampleShare P k garbage z N ω =
      estimate k (garbage.map fun e => if P e then 1 else 0) (fun i => if P (z i) then 1 else 0) N ω := by
  unfold sampleShare estimate
  have h := adds_map (fun e => if P e then (1 : ℝ) else 0) k
    (List.ofFn fun i : Fin N => (⟨z i.val, (ω i).1.1, (ω i).2.1⟩ : Call α ℝ)) (new garbage)
  rw [List.map_ofFn] at h
  have h2 : (List.ofFn fun i : Fin N => (⟨if P (z i.val) then (1 : ℝ) else 0, (ω i).1.1, (ω i).2.1⟩ : Call ℝ ℝ)) =
      List.ofFn ((fun c : Call α ℝ => (⟨if P c.e then (1 : ℝ) else 0, c.r1, c.r2⟩ : Call ℝ ℝ)) ∘
        fun i : Fin N => ⟨z i.val, (ω i).1.1, (ω i).2.1⟩) := rfl
  rw [h2]
  have h3 : new (garbage.map fun e => if P e then (1 : ℝ) else 0) =
      ⟨(new garbage).sample.map fun e => if P e then (1 : ℝ) else 0, (new garbage).counter⟩ := rfl
  rw [h3, h]
  cases adds k (new garbage) (List.ofFn fun i : Fin N => (⟨z i.val, (ω i).1.1, (ω i).2.1⟩ : Call α ℝ)) with
  | error e => rfl
  | ok s =>
      simp only [Except.map]
      congr 1
      induction s.sample with
      | nil => simp
      | cons e l ih =>
          by_cases he : P e
          · simp only [List.countP_cons, he, decide_true, if_true, List.map_cons, List.sum_cons]
            rw [← ih]; push_cast; ring
          · simp only [List.countP_cons, he, decide_false, if_false, List.map_cons, List.sum_cons, Bool.false_eq_true]
            rw [← ih]; push_cast; ring

/-- **C157** For items of any type and any property of items: the share of the property in the reservoir differs by `δ` or more from
its share in the stream with probability at most `2 exp(-2 k δ²)`. -/
theorem C157_share {α : Type} (P : α → Prop) [DecidablePred P] {k : Nat} (hk : 1 ≤ k) (garbage : List α)
    (hg : garbage.length = k) (z : Nat → α) {N : Nat} (hkN : k ≤ N) (hN : N < 2 ^ 32) {δ : ℝ} (hδ : 0 ≤ δ) :
    volume {ω : Draws N | δ ≤ |sampleShare P k garbage z N ω - streamShare P z N|} ≤
      ENNReal.ofReal (2 * Real.exp (-2 * k * δ ^ 2)) := by
  have h := C157_exponential_tail hk (garbage.map fun e => if P e then (1 : ℝ) else 0) (by rw [List.length_map, hg])
    (fun i => if P (z i) then (1 : ℝ) else 0) hkN hN (a := 0) (b := 1) (by norm_num)
    (fun i _ => by split <;> simp) hδ
  have h2 : streamMean (fun i => if P (z i) then (1 : ℝ) else 0) N = streamShare P z N := by
    unfold streamMean streamShare
    rw [Finset.sum_boole]
  simp only [sampleShare_eq, ← h2]
  simpa using h

/-- a sample of 1000 of four billion words estimates the share of the empty word up to 0.1, except with probability `2 exp(-20)` -/
example (z : Nat → List Char) :
    volume {ω : Draws 4000000000 | 1 / 10 ≤
      |sampleShare (· = []) 1000 (List.replicate 1000 []) z 4000000000 ω - streamShare (· = []) z 4000000000|} ≤
      ENNReal.ofReal (2 * Real.exp (-20)) := by
  refine (C157_share (· = []) (k := 1000) (by norm_num) _ (List.length_replicate) z (by norm_num) (by norm_num)
    (by norm_num)).trans (le_of_eq ?_)
  norm_num

/-- a sample of 1000 from four billion labels 0 and 1 estimates the share of the 1s up to 0.1, except with probability `2 exp(-20)` -/
example (x : Nat → ℝ) (hx : ∀ i, x i = 0 ∨ x i = 1) :
    volume {ω : Draws 4000000000 | 1 / 10 ≤
      |estimate 1000 (List.replicate 1000 0) x 4000000000 ω - streamMean x 4000000000|} ≤
      ENNReal.ofReal (2 * Real.exp (-20)) := by
  refine (C157_exponential_tail (k := 1000) (by norm_num) _ (List.length_replicate) x (by norm_num) (by norm_num)
    (a := 0) (b := 1) (by norm_num) (fun i _ => ?_) (by norm_num)).trans (le_of_eq ?_)
  · rcases hx i with h | h <;> rw [h] <;> simp
  · norm_num

end Orp.Reservoir
