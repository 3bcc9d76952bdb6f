import Verif.Mlp.Lemmas
import Mathlib.Analysis.Calculus.Deriv.Add
import Mathlib.Analysis.Calculus.Deriv.Mul
import Mathlib.Analysis.Calculus.Deriv.Comp
import Mathlib.Analysis.Calculus.Deriv.Pow
import Mathlib.Algebra.BigOperators.Field

/-! The errors propagated by the perceptron are partial derivatives: chain rule over the layers. -/

open Finset

namespace Orp.Mlp

/-- error as a function of the outputs `a` of the layer `k` layers below the last one -/
noncomputable def tailErr (act : ℝ → ℝ) (W : Nat → Nat → Nat → ℝ) (n : Nat → Nat) (last : Nat) (e : Nat → ℝ) : Nat → (Nat → ℝ) → ℝ
  | 0, a => (∑ j ∈ range (n last), (a j - e j) ^ 2) / 2
  | k + 1, a => tailErr act W n last e k (fun j => act (preact W n (last - (k + 1)) a j))

theorem tailErr_layerOut (act : ℝ → ℝ) (W : Nat → Nat → Nat → ℝ) (n : Nat → Nat) (last : Nat) (x e : Nat → ℝ) : ∀ k, k ≤ last →
    tailErr act W n last e k (layerOut act W n x (last - k)) = halfError act n last x e W
  | 0, _ => rfl
  | k + 1, h => by
      rw [← tailErr_layerOut act W n last x e k (by omega)]
      simp only [tailErr]
      congr 1
      rw [show last - k = last - (k + 1) + 1 by omega]
      rfl

theorem tailErr_congr (act : ℝ → ℝ) {W W' : Nat → Nat → Nat → ℝ} (n : Nat → Nat) (last : Nat) (e : Nat → ℝ) : ∀ k a, k ≤ last →
    (∀ l, last - k ≤ l → ∀ j i, W l j i = W' l j i) → tailErr act W n last e k a = tailErr act W' n last e k a
  | 0, a, _, _ => rfl
  | k + 1, a, h, hW => by
      simp only [tailErr]
      rw [tailErr_congr act n last e k _ (by omega) (fun l hl => hW l (by omega))]
      congr 1
      funext j
      simp only [preact, hW _ le_rfl]

theorem layerOut_congr (act : ℝ → ℝ) {W W' : Nat → Nat → Nat → ℝ} (n : Nat → Nat) (x : Nat → ℝ) : ∀ l,
    (∀ l' < l, ∀ j i, W l' j i = W' l' j i) → layerOut act W n x l = layerOut act W' n x l
  | 0, _ => rfl
  | l + 1, h => by
      simp only [layerOut, layerOut_congr act n x l (fun l' hl' => h l' (by omega))]
      funext j
      simp only [preact, h l (by omega)]

theorem preact_hasDerivAt (W : Nat → Nat → Nat → ℝ) (n : Nat → Nat) (l m : Nat) (a : ℝ → Nat → ℝ) (a' : Nat → ℝ) (t0 : ℝ)
    (h : ∀ i < n l, HasDerivAt (fun t => a t i) (a' i) t0) :
    HasDerivAt (fun t => preact W n l (a t) m) (∑ i ∈ range (n l), W l m i * a' i) t0 := by
  unfold preact
  apply HasDerivAt.add_const
  apply HasDerivAt.fun_sum
  intro i hi
  exact (h i (mem_range.1 hi)).const_mul _

theorem tailErr_hasDerivAt (act deriv : ℝ → ℝ) (W : Nat → Nat → Nat → ℝ) (n : Nat → Nat) (last : Nat) (x e : Nat → ℝ)
    (hact : ∀ l j, l < last → j < n (l + 1) → HasDerivAt act (deriv (layerOut act W n x (l + 1) j)) (preact W n l (layerOut act W n x l) j))
    {D : Nat → Nat → ℝ} (hD : Deltas deriv W n last (layerOut act W n x) e D) : ∀ (k : Nat), k ≤ last →
    ∃ G : Nat → ℝ, (∀ j, D (last - k) j = G j * deriv (layerOut act W n x (last - k) j)) ∧
    ∀ (a : ℝ → Nat → ℝ) (a' : Nat → ℝ) (t0 : ℝ), (∀ j < n (last - k), a t0 j = layerOut act W n x (last - k) j) →
    (∀ j < n (last - k), HasDerivAt (fun t => a t j) (a' j) t0) →
    HasDerivAt (fun t => tailErr act W n last e k (a t)) (∑ j ∈ range (n (last - k)), G j * a' j) t0
  | 0, _ => by
      refine ⟨fun j => layerOut act W n x last j - e j, fun j => by rw [Nat.sub_zero, hD.top]; ring, fun a a' t0 h1 h2 => ?_⟩
      simp only [tailErr, Nat.sub_zero] at *
      have : HasDerivAt (fun t => ∑ j ∈ range (n last), (a t j - e j) ^ 2)
          (∑ j ∈ range (n last), 2 * (layerOut act W n x last j - e j) * a' j) t0 := by
        apply HasDerivAt.fun_sum
        intro j hj
        have hj' := mem_range.1 hj
        have := ((h2 j hj').sub_const (e j)).fun_pow 2
        rw [h1 j hj'] at this
        refine this.congr_deriv ?_
        norm_num
      refine (this.div_const 2).congr_deriv ?_
      rw [sum_div]
      apply sum_congr rfl
      intro j _; ring
  | k + 1, hk => by
      obtain ⟨l, hl⟩ : ∃ l, last - (k + 1) = l := ⟨_, rfl⟩
      have hlk : last - k = l + 1 := by omega
      obtain ⟨G, g1, g2⟩ := tailErr_hasDerivAt act deriv W n last x e hact hD k (by omega)
      rw [hlk] at g1 g2
      rw [hl]
      refine ⟨fun i => ∑ m ∈ range (n (l + 1)), D (l + 1) m * W l m i, fun j => hD.step l j (by omega), fun a a' t0 h1 h2 => ?_⟩
      have hpre : ∀ m, preact W n l (a t0) m = preact W n l (layerOut act W n x l) m := by
        intro m
        unfold preact
        congr 1
        apply sum_congr rfl
        intro i hi; rw [h1 i (mem_range.1 hi)]
      have := g2 (fun t m => act (preact W n l (a t) m))
        (fun m => deriv (layerOut act W n x (l + 1) m) * ∑ i ∈ range (n l), W l m i * a' i) t0
        (fun m hm => by simp only [hpre]; rfl)
        (fun m hm => by
          have ha := hact l m (by omega) hm
          rw [← hpre m] at ha
          exact HasDerivAt.comp t0 ha (preact_hasDerivAt W n l m a a' t0 h2))
      simp only [tailErr, hl]
      refine this.congr_deriv (Eq.symm ?_)
      calc (∑ j ∈ range (n l), (∑ m ∈ range (n (l + 1)), D (l + 1) m * W l m j) * a' j)
          = ∑ j ∈ range (n l), ∑ m ∈ range (n (l + 1)), D (l + 1) m * W l m j * a' j := by
            apply sum_congr rfl; intro j _; rw [sum_mul]
        _ = ∑ m ∈ range (n (l + 1)), ∑ j ∈ range (n l), D (l + 1) m * W l m j * a' j := sum_comm
        _ = _ := by
            apply sum_congr rfl; intro m _
            rw [g1 m, mul_sum, mul_sum]
            apply sum_congr rfl; intro j _; ring

theorem preact_setW (W : Nat → Nat → Nat → ℝ) (n : Nat → Nat) {l j i : Nat} (hi : i ≤ n l) (v : Nat → Nat → ℝ) (t : ℝ) (m : Nat) :
    preact (setW W l j i t) n l (v l) m =
      if m = j then preact W n l (v l) j + (t - W l j i) * inp n v l i else preact W n l (v l) m := by
  by_cases hm : m = j
  · subst hm
    rw [if_pos rfl]
    by_cases hc : i < n l
    · have h1 : setW W l m i t l m (n l) = W l m (n l) := by simp only [setW]; rw [if_neg (by omega)]
      have h2 : ∀ k ∈ range (n l), setW W l m i t l m k * v l k = W l m k * v l k + (if k = i then (t - W l m i) * v l i else 0) := by
        intro k _
        by_cases hk : k = i
        · subst hk; simp only [setW, and_self, if_true]; ring
        · simp only [setW]; rw [if_neg (by omega), if_neg hk]; ring
      simp only [preact]
      rw [sum_congr rfl h2, h1, sum_add_distrib, sum_ite_eq', if_pos (mem_range.2 hc), inp, if_pos hc]
      ring
    · have hin : i = n l := by omega
      have h1 : setW W l m i t l m (n l) = t := by simp [setW, hin]
      have h2 : ∀ k ∈ range (n l), setW W l m i t l m k * v l k = W l m k * v l k := by
        intro k hk
        have := mem_range.1 hk
        simp only [setW]; rw [if_neg (by omega)]
      simp only [preact]
      rw [sum_congr rfl h2, h1, inp, if_neg hc, hin]
      ring
  · rw [if_neg hm]
    have : ∀ k, setW W l j i t l m k = W l m k := by intro k; simp only [setW]; rw [if_neg (by omega)]
    simp only [preact, this]

/-- the partial derivatives of half the squared error -/
theorem halfError_hasDerivAt (act deriv : ℝ → ℝ) (W : Nat → Nat → Nat → ℝ) (n : Nat → Nat) (last : Nat) (x e : Nat → ℝ)
    (hact : ∀ l j, l < last → j < n (l + 1) → HasDerivAt act (deriv (layerOut act W n x (l + 1) j)) (preact W n l (layerOut act W n x l) j))
    {D : Nat → Nat → ℝ} (hD : Deltas deriv W n last (layerOut act W n x) e D) {l j i : Nat} (hv : Valid n last l j i) :
    HasDerivAt (fun t => halfError act n last x e (setW W l j i t)) (inp n (layerOut act W n x) l i * D (l + 1) j) (W l j i) := by
  obtain ⟨hl, hj, hi⟩ := hv
  obtain ⟨G, g1, g2⟩ := tailErr_hasDerivAt act deriv W n last x e hact hD (last - (l + 1)) (by omega)
  have hll : last - (last - (l + 1)) = l + 1 := by omega
  rw [hll] at g1 g2
  have hsame : ∀ t, halfError act n last x e (setW W l j i t) = tailErr act W n last e (last - (l + 1))
      (fun m => act (preact (setW W l j i t) n l (layerOut act W n x l) m)) := by
    intro t
    rw [← tailErr_layerOut act (setW W l j i t) n last x e (last - (l + 1)) (by omega), hll]
    rw [tailErr_congr act n last e (last - (l + 1)) _ (by omega) (W' := W)]
    · congr 1
      simp only [layerOut]
      rw [layerOut_congr act n x l (W' := W)]
      intro l' hl' j' i'; simp only [setW]; rw [if_neg (by omega)]
    · intro l' hl' j' i'; simp only [setW]; rw [if_neg (by omega)]
  have hpre : ∀ m, preact (setW W l j i (W l j i)) n l (layerOut act W n x l) m = preact W n l (layerOut act W n x l) m := by
    intro m
    rw [preact_setW W n hi]
    split
    · rename_i h; subst h; ring
    · rfl
  have key := g2 (fun t m => act (preact (setW W l j i t) n l (layerOut act W n x l) m))
    (fun m => if m = j then deriv (layerOut act W n x (l + 1) j) * inp n (layerOut act W n x) l i else 0) (W l j i)
    (fun m hm => by simp only [hpre]; rfl)
    (fun m hm => by
      by_cases hmj : m = j
      · subst hmj
        simp only [if_true]
        have ha := hact l m hl hm
        rw [← hpre m] at ha
        refine HasDerivAt.comp (W l m i) ha ?_
        have : (fun t => preact (setW W l m i t) n l (layerOut act W n x l) m) =
            fun t => preact W n l (layerOut act W n x l) m + (t - W l m i) * inp n (layerOut act W n x) l i := by
          funext t; rw [preact_setW W n hi, if_pos rfl]
        rw [this]
        have h1 := ((hasDerivAt_id (W l m i)).sub_const (W l m i)).mul_const (inp n (layerOut act W n x) l i)
        have h2 := h1.const_add (preact W n l (layerOut act W n x l) m)
        simpa using h2
      · simp only [if_neg hmj]
        have : (fun t => act (preact (setW W l j i t) n l (layerOut act W n x l) m)) =
            fun _ => act (preact W n l (layerOut act W n x l) m) := by
          funext t; rw [preact_setW W n hi, if_neg hmj]
        rw [this]
        exact hasDerivAt_const _ _)
  rw [show (fun t => halfError act n last x e (setW W l j i t)) = _ from funext hsame]
  refine key.congr_deriv ?_
  rw [sum_eq_single j]
  · rw [if_pos rfl, g1 j]; ring
  · intro m _ hm; rw [if_neg hm, mul_zero]
  · intro h; exact absurd (mem_range.2 hj) h

end Orp.Mlp
