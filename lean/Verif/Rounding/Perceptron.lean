import Verif.Mlp.Props
import Verif.Rounding.Probability

/-!
Property C161: `feed_forward` of `MultiLayerPerceptron` (perceptron.hpp:62-101) computed with rounding, compared with the exact network function.

Each product and each sum of the code is rounded once (no contraction into fused operations). The activation function of the user is any function `act` on the numbers of the format; it
approximates a function `g` on the real numbers, such as the sigmoid or tanh.
-/

open Finset

namespace Orp.Rounding

open Orp.Mlp

/-! ### the model -/

/-- Inner loop of `feed_forward` (perceptron.hpp:78-83), rounded -/
def sumLoopFl (fl : ℚ → ℚ) (w out : List ℚ) (wb ob : Nat) : Nat → Nat → ℚ → Res ℚ
  | _, 0, s => .ok s
  | i, k + 1, s => do
      let a ← rd w (wb + i)
      let b ← rd out (ob + i)
      sumLoopFl fl w out wb ob (i + 1) k (fl (s + fl (a * b)))

/-- Loop over the neurons of a layer (perceptron.hpp:75-92), rounded; `np` is the size of the previous layer. -/
def neuronLoopFl (fl act : ℚ → ℚ) (w : List ℚ) (np wb ob : Nat) : Nat → Nat → List ℚ → Res (List ℚ)
  | _, 0, out => .ok out
  | j, k + 1, out => do
      let s ← sumLoopFl fl w out (wb + j * (np + 1)) ob 0 np 0
      let b ← rd w (wb + j * (np + 1) + np)
      let out ← wr out (ob + np + j) (act (fl (s + b)))
      neuronLoopFl fl act w np wb ob (j + 1) k out

/-- Loop over the layers (perceptron.hpp:73-95), rounded -/
def layerLoopFl (fl act : ℚ → ℚ) (sizes : List Nat) (w : List ℚ) : Nat → Nat → Nat → Nat → List ℚ → Res (List ℚ × Nat)
  | _, 0, _, ob, out => .ok (out, ob)
  | l, k + 1, wb, ob, out => do
      let np ← rd sizes (l - 1)
      let n ← rd sizes l
      let out ← neuronLoopFl fl act w np wb ob 0 n out
      layerLoopFl fl act sizes w (l + 1) k (wb + n * (np + 1)) (ob + np) out

/-- `feed_forward` (perceptron.hpp:62-101), rounded; the second component is what is written to `output` -/
def feedForwardFl (fl act : ℚ → ℚ) (net : Net ℚ) (input : List ℚ) : Res (Net ℚ × List ℚ) := do
  let n0 ← rd net.sizes 0
  let out ← copyLoop input 0 0 0 n0 net.out
  let (out, ob) ← layerLoopFl fl act net.sizes net.weights 1 (net.sizes.length - 1) 0 0 out
  let n ← rd net.sizes (net.sizes.length - 1)
  let res ← readLoop out ob 0 n []
  return ({ net with out := out }, res)

/-! ### what the loops compute -/

/-- the rounded sum of the first `k` products -/
def sumFl (fl : ℚ → ℚ) (w a : Nat → ℚ) : Nat → ℚ
  | 0 => 0
  | k + 1 => fl (sumFl fl w a k + fl (w k * a k))

theorem sumFl_congr (fl : ℚ → ℚ) (w : Nat → ℚ) {a b : Nat → ℚ} : ∀ k, (∀ i < k, a i = b i) → sumFl fl w a k = sumFl fl w b k
  | 0, _ => rfl
  | k + 1, h => by
      rw [sumFl, sumFl, sumFl_congr fl w k (fun i hi => h i (by omega)), h k (by omega)]

/-- the rounded input of an activation function -/
def preactFl (fl : ℚ → ℚ) (W : Nat → Nat → Nat → ℚ) (n : Nat → Nat) (l : Nat) (a : Nat → ℚ) (j : Nat) : ℚ :=
  fl (sumFl fl (W l j) a (n l) + W l j (n l))

/-- the outputs of layer `l` computed with rounding -/
def layerOutFl (fl act : ℚ → ℚ) (W : Nat → Nat → Nat → ℚ) (n : Nat → Nat) (x : Nat → ℚ) : Nat → Nat → ℚ
  | 0 => x
  | l + 1 => fun j => act (preactFl fl W n l (layerOutFl fl act W n x l) j)

theorem sumLoopFl_spec (fl : ℚ → ℚ) {n : Nat → Nat} {last : Nat} {w out : List ℚ} {W : Nat → Nat → Nat → ℚ} {v : Nat → Nat → ℚ} {l j : Nat}
    (hw : Weights n last w W) (ho : Outs n last out v) (hl : l < last) (hj : j < n (l + 1)) : ∀ (k i : Nat) (s : ℚ), i + k = n l →
    s = sumFl fl (W l j) (v l) i →
    sumLoopFl fl w out (wB n l + j * (n l + 1)) (oB n l) i k s = .ok (sumFl fl (W l j) (v l) (n l))
  | 0, i, s, h, hs => by
      have : i = n l := by omega
      subst this
      simp only [sumLoopFl, hs]
  | k + 1, i, s, h, hs => by
      have h1 : rd w (wB n l + j * (n l + 1) + i) = .ok (W l j i) := rd_eq_ok_iff.2 (hw.2 l j i ⟨hl, hj, by omega⟩)
      have h2 : rd out (oB n l + i) = .ok (v l i) := rd_eq_ok_iff.2 (ho.2 l i (by omega) (by omega))
      simp only [sumLoopFl, h1, h2, bind, Except.bind]
      exact sumLoopFl_spec fl hw ho hl hj k (i + 1) _ (by omega) (by rw [hs, sumFl])

theorem neuronLoopFl_spec (fl act : ℚ → ℚ) {n : Nat → Nat} {last : Nat} {w : List ℚ} {W : Nat → Nat → Nat → ℚ} {l : Nat} {a : Nat → ℚ}
    (hw : Weights n last w W) (hl : l < last) : ∀ (k j : Nat) (out : List ℚ) (v : Nat → Nat → ℚ), j + k = n (l + 1) → Outs n last out v →
    (∀ i < n l, v l i = a i) →
    ∃ out' v', neuronLoopFl fl act w (n l) (wB n l) (oB n l) j k out = .ok out' ∧ Outs n last out' v' ∧ out'.length = out.length ∧
      (∀ l' ≤ l, v' l' = v l') ∧ (∀ i < j, v' (l + 1) i = v (l + 1) i) ∧
      (∀ i, j ≤ i → i < n (l + 1) → v' (l + 1) i = act (preactFl fl W n l a i))
  | 0, j, out, v, h, ho, ha => ⟨out, v, rfl, ho, rfl, fun _ _ => rfl, fun _ _ => rfl, fun i h1 h2 => by omega⟩
  | k + 1, j, out, v, h, ho, ha => by
      have hj : j < n (l + 1) := by omega
      have h1 := sumLoopFl_spec fl hw ho hl hj (n l) 0 0 (by omega) rfl
      have h2 : rd w (wB n l + j * (n l + 1) + n l) = .ok (W l j (n l)) := rd_eq_ok_iff.2 (hw.2 l j (n l) ⟨hl, hj, le_rfl⟩)
      have hs : fl (sumFl fl (W l j) (v l) (n l) + W l j (n l)) = preactFl fl W n l a j := by
        unfold preactFl
        rw [sumFl_congr fl (W l j) (n l) (fun m hm => ha m hm)]
      obtain ⟨b1, b2⟩ := outs_set ho (show l + 1 ≤ last from hl) hj (act (preactFl fl W n l a j))
      have b1' : wr out (oB n l + n l + j) (act (preactFl fl W n l a j)) = .ok (out.set (oB n (l + 1) + j) (act (preactFl fl W n l a j))) := b1
      have hne : ∀ l' ≤ l, set2 v (l + 1) j (act (preactFl fl W n l a j)) l' = v l' := by
        intro l' hl'; funext i
        simp only [set2]; rw [if_neg (by omega)]
      obtain ⟨out', v', c1, c2, c2', c3, c4, c5⟩ := neuronLoopFl_spec fl act (a := a) hw hl k (j + 1) _ _ (by omega) b2
        (fun i hi => by rw [hne l le_rfl]; exact ha i hi)
      refine ⟨out', v', ?_, c2, by simpa using c2', fun l' hl' => by rw [c3 l' hl', hne l' hl'], fun i hi => ?_, fun i h1 h2 => ?_⟩
      · simp only [neuronLoopFl, h1, h2, bind, Except.bind, hs, b1', c1]
      · rw [c4 i (by omega)]; simp only [set2]; rw [if_neg (by omega)]
      · rcases h1.eq_or_lt with rfl | h1
        · rw [c4 j (by omega)]; simp [set2]
        · exact c5 i h1 h2

theorem layerLoopFl_spec (fl act : ℚ → ℚ) (net : Net ℚ) {w : List ℚ} {W : Nat → Nat → Nat → ℚ} (hw : Weights net.n net.last w W) (x : Nat → ℚ)
    (hL : 1 ≤ net.sizes.length) : ∀ (k l : Nat) (out : List ℚ) (v : Nat → Nat → ℚ), l + k = net.last → Outs net.n net.last out v →
    (∀ l' ≤ l, ∀ i < net.n l', v l' i = layerOutFl fl act W net.n x l' i) →
    ∃ out', layerLoopFl fl act net.sizes w (l + 1) k (wB net.n l) (oB net.n l) out = .ok (out', oB net.n net.last) ∧ out'.length = out.length ∧
      Outs net.n net.last out' (layerOutFl fl act W net.n x)
  | 0, l, out, v, h, ho, hv => by
      have : l = net.last := by omega
      subst this
      exact ⟨out, rfl, rfl, ho.1, fun l' j hl' hj => by rw [ho.2 l' j hl' hj, hv l' hl' j hj]⟩
  | k + 1, l, out, v, h, ho, hv => by
      have hll : net.last = net.sizes.length - 1 := rfl
      have hl : l < net.last := by omega
      obtain ⟨out1, v1, c1, c2, c2', c3, c4, c5⟩ := neuronLoopFl_spec fl act (a := layerOutFl fl act W net.n x l) hw hl (net.n (l + 1)) 0 out v (by omega) ho
        (hv l le_rfl)
      obtain ⟨out', d1, d2, d3⟩ := layerLoopFl_spec fl act net hw x hL k (l + 1) out1 v1 (by omega) c2 (by
        intro l' hl' i hi
        rcases hl'.eq_or_lt with rfl | hl'
        · rw [c5 i (by omega) hi]; rfl
        · rw [c3 l' (by omega)]; exact hv l' (by omega) i hi)
      refine ⟨out', ?_, by rw [d2, c2'], d3⟩
      simp only [layerLoopFl, Nat.add_sub_cancel, n_rd net (show l < net.sizes.length by omega),
        n_rd net (show l + 1 < net.sizes.length by omega), bind, Except.bind, c1]
      have e1 : wB net.n l + net.n (l + 1) * (net.n l + 1) = wB net.n (l + 1) := by simp only [wB]; ring
      have e2 : oB net.n l + net.n l = oB net.n (l + 1) := rfl
      rw [e1, e2]
      exact d1

theorem feedForwardFl_spec (fl act : ℚ → ℚ) (net : Net ℚ) (hf : Fits net) (input : List ℚ) (hi : net.n 0 ≤ input.length) :
    ∃ out', feedForwardFl fl act net input = .ok ({ net with out := out' },
        (List.range (net.n net.last)).map (layerOutFl fl act net.W net.n (fun i => input.getD i 0) net.last)) ∧
      out'.length = net.out.length ∧ Outs net.n net.last out' (layerOutFl fl act net.W net.n (fun i => input.getD i 0)) := by
  have hL := hf.layers
  have hll : net.last = net.sizes.length - 1 := rfl
  have hn0 : net.n 0 ≤ net.out.length := by
    have h1 : oB net.n 1 ≤ oB net.n (net.last + 1) := oB_mono _ (by omega)
    have := hf.outs
    have h2 : oB net.n 1 = net.n 0 := by simp [oB]
    omega
  obtain ⟨out0, a1, a2, a3⟩ := copyLoop_spec input 0 0 (net.n 0) 0 net.out (by omega) (by omega)
  have hout0 : Outs net.n net.last out0 (fun l j => out0.getD (oB net.n l + j) 0) := by
    refine ⟨by rw [a2]; exact hf.outs, fun l j hl hj => ?_⟩
    have hlt : oB net.n l + j < out0.length := lt_of_lt_of_le (oaddr_lt hl hj) (by rw [a2]; exact hf.outs)
    rw [List.getElem?_eq_getElem hlt]; simp [hlt]
  obtain ⟨out', b1, b2, b3⟩ := layerLoopFl_spec fl act net (net_weights net hf.weights) (fun i => input.getD i 0) hL net.last 0 out0 _ (by omega) hout0 (by
    intro l' hl' i hi'
    obtain rfl : l' = 0 := by omega
    have := a3 i
    rw [if_pos (by omega)] at this
    simp only [oB, Nat.zero_add, List.getD_eq_getElem?_getD, this, layerOutFl]
    simp)
  refine ⟨out', ?_, by rw [b2, a2], b3⟩
  have hr := readLoop_spec out' (oB net.n net.last) (net.n net.last) 0 [] (by
    have := b3.1
    simp only [oB] at this; omega)
  have b1' : layerLoopFl fl act net.sizes net.weights 1 (net.sizes.length - 1) 0 0 out0 = .ok (out', oB net.n net.last) := b1
  simp only [feedForwardFl, n_rd net (show 0 < net.sizes.length by omega), a1, b1', n_rd net (show net.sizes.length - 1 < net.sizes.length by omega),
    bind, Except.bind, pure, Except.pure]
  rw [← hll, hr]
  simp only [List.nil_append, Except.ok.injEq, Prod.mk.injEq, true_and]
  rw [← List.range_eq_range']
  apply List.map_congr_left
  intro m hm
  have := b3.2 net.last m le_rfl (List.mem_range.1 hm)
  simp [List.getD_eq_getElem?_getD, this]

/-! ### the error -/

/-- the bound of the rounding errors of one neuron with `k` inputs of size at most `A` and weights of size at most `M` -/
def neuronErr (f : Fmt) (M A : ℚ) (k : Nat) : ℚ :=
  ((1 + ulp f) ^ (k + 2) - 1) * ((k * A + 1) * M) + (2 * k + 1) * (1 + ulp f) ^ (k + 1) * tiny f

section
variable {f : Fmt} {fl : ℚ → ℚ}

theorem sumFl_error (h : IsRounding f fl) (hp : 1 ≤ f.prec) {w a : Nat → ℚ} {M A : ℚ} (hM : 0 ≤ M) (hA : 0 ≤ A) : ∀ k,
    (∀ i < k, |w i| ≤ M ∧ |a i| ≤ A) →
    |sumFl fl w a k - ∑ i ∈ range k, w i * a i| ≤ ((1 + ulp f) ^ (k + 1) - 1) * (k * (M * A)) + 2 * k * (1 + ulp f) ^ k * tiny f
  | 0, _ => by simp [sumFl]
  | k + 1, hb => by
      have ih := sumFl_error h hp hM hA k (fun i hi => hb i (by omega))
      have hu := (ulp_pos f).le
      have ht := (tiny_pos f).le
      have hMA : 0 ≤ M * A := mul_nonneg hM hA
      have hpr : |w k * a k| ≤ M * A := by
        rw [abs_mul]
        exact mul_le_mul (hb k (by omega)).1 (hb k (by omega)).2 (abs_nonneg _) hM
      have hsum : |∑ i ∈ range (k + 1), w i * a i| ≤ (k + 1) * (M * A) := by
        refine (abs_sum_le_sum_abs _ _).trans ?_
        refine (sum_le_sum (g := fun _ => M * A) fun i hi => ?_).trans ?_
        · rw [abs_mul]
          exact mul_le_mul (hb i (mem_range.1 hi)).1 (hb i (mem_range.1 hi)).2 (abs_nonneg _) hM
        · simp
      set s := sumFl fl w a k
      set S := ∑ i ∈ range k, w i * a i with hS
      rw [sum_range_succ, ← hS] at hsum ⊢
      set p := w k * a k
      have e1 := h.error hp p
      have e2 := h.error hp (s + fl p)
      have e3 : |fl p - p| ≤ M * A * ulp f + tiny f := e1.trans (by have := mul_le_mul_of_nonneg_right hpr hu; linarith)
      have e4 : |s + fl p - (S + p)| ≤ |s - S| + (M * A * ulp f + tiny f) := by
        have : s + fl p - (S + p) = (s - S) + (fl p - p) := by ring
        rw [this]
        exact (abs_add_le _ _).trans (by linarith)
      have e5 : |s + fl p| ≤ (k + 1) * (M * A) + (|s - S| + (M * A * ulp f + tiny f)) := by
        have : s + fl p = (S + p) + (s + fl p - (S + p)) := by ring
        rw [this]
        exact (abs_add_le _ _).trans (by linarith)
      have e6 : |sumFl fl w a (k + 1) - (S + p)| ≤ |fl (s + fl p) - (s + fl p)| + |s + fl p - (S + p)| := by
        have : sumFl fl w a (k + 1) - (S + p) = (fl (s + fl p) - (s + fl p)) + (s + fl p - (S + p)) := by
          show fl (s + fl p) - (S + p) = _
          ring
        rw [this]
        exact abs_add_le _ _
      have e7 := mul_le_mul_of_nonneg_right e5 hu
      generalize hu' : ulp f = u at *
      generalize ht' : tiny f = t at *
      generalize hX : M * A = X at *
      have hk : (0 : ℚ) ≤ k := Nat.cast_nonneg k
      have hq1 : (1 : ℚ) ≤ (1 + u) ^ k := one_le_pow₀ (by linarith)
      have step : |sumFl fl w a (k + 1) - (S + p)| ≤ (1 + u) * (|s - S| + (X * u + t)) + (k + 1) * X * u + t := by linarith
      refine step.trans ?_
      have h8 : (1 + u) * (|s - S| + (X * u + t)) ≤ (1 + u) * ((((1 + u) ^ (k + 1) - 1) * (k * X) + 2 * k * (1 + u) ^ k * t) + (X * u + t)) :=
        mul_le_mul_of_nonneg_left (by linarith) (by linarith)
      refine (add_le_add_left (add_le_add_left h8 _) _).trans ?_
      have hp2 : (1 + u) ^ (k + 1 + 1) = (1 + u) ^ k * (1 + u) ^ 2 := by ring
      have hp1 : (1 + u) ^ (k + 1) = (1 + u) ^ k * (1 + u) := by ring
      rw [hp2, hp1]
      push_cast
      generalize (1 + u) ^ k = q at *
      have n1 : 0 ≤ (q - 1) * X * (1 + u) ^ 2 := mul_nonneg (mul_nonneg (by linarith) hMA) (sq_nonneg _)
      have n2 : 0 ≤ (q - 1) * t := mul_nonneg (by linarith) ht
      have n3 : 0 ≤ (q - 1) * u * t := mul_nonneg (mul_nonneg (by linarith) hu) ht
      have n4 : 0 ≤ u * t := mul_nonneg hu ht
      nlinarith

theorem preactFl_error (h : IsRounding f fl) (hp : 1 ≤ f.prec) {W : Nat → Nat → Nat → ℚ} {n : Nat → Nat} {l j : Nat} {a : Nat → ℚ} {M A : ℚ}
    (hM : 0 ≤ M) (hA : 0 ≤ A) (hW : ∀ i ≤ n l, |W l j i| ≤ M) (ha : ∀ i < n l, |a i| ≤ A) :
    |preactFl fl W n l a j - preact W n l a j| ≤ neuronErr f M A (n l) := by
  have e0 := sumFl_error (w := W l j) h hp hM hA (n l) (fun i hi => ⟨hW i (by omega), ha i hi⟩)
  have hu := (ulp_pos f).le
  have ht := (tiny_pos f).le
  have hMA : 0 ≤ M * A := mul_nonneg hM hA
  have hsum : |∑ i ∈ range (n l), W l j i * a i| ≤ n l * (M * A) := by
    refine (abs_sum_le_sum_abs _ _).trans ?_
    refine (sum_le_sum (g := fun _ => M * A) fun i hi => ?_).trans (by simp)
    rw [abs_mul]
    exact mul_le_mul (hW i (mem_range.1 hi).le) (ha i (mem_range.1 hi)) (abs_nonneg _) hM
  have hbias := hW (n l) le_rfl
  unfold preactFl preact neuronErr
  set s := sumFl fl (W l j) a (n l)
  set S := ∑ i ∈ range (n l), W l j i * a i
  set b := W l j (n l)
  have e1 := h.error hp (s + b)
  have e2 : |s + b| ≤ |s - S| + (n l * (M * A) + M) := by
    have : s + b = (s - S) + (S + b) := by ring
    rw [this]
    exact (abs_add_le _ _).trans (by have := abs_add_le S b; linarith)
  have e3 : |fl (s + b) - (S + b)| ≤ |fl (s + b) - (s + b)| + |s - S| := by
    have : fl (s + b) - (S + b) = (fl (s + b) - (s + b)) + (s - S) := by ring
    rw [this]
    exact abs_add_le _ _
  have e4 := mul_le_mul_of_nonneg_right e2 hu
  generalize ulp f = u at *
  generalize tiny f = t at *
  have hk : (0 : ℚ) ≤ n l := Nat.cast_nonneg _
  generalize ((n l : Nat) : ℚ) = k at *
  have hq1 : (1 : ℚ) ≤ (1 + u) ^ n l := one_le_pow₀ (by linarith)
  have hp2 : (1 + u) ^ (n l + 2) = (1 + u) ^ n l * (1 + u) ^ 2 := by ring
  have hp1 : (1 + u) ^ (n l + 1) = (1 + u) ^ n l * (1 + u) := by ring
  rw [hp1] at e0
  rw [hp2, hp1]
  generalize (1 + u) ^ n l = q at *
  have step : |fl (s + b) - (S + b)| ≤ (1 + u) * |s - S| + (k * (M * A) + M) * u + t := by linarith
  refine step.trans ?_
  have h8 := mul_le_mul_of_nonneg_left e0 (show 0 ≤ 1 + u by linarith)
  refine (add_le_add_left (add_le_add_left h8 _) _).trans ?_
  have n1 : 0 ≤ (q * (1 + u) - 1) * ((1 + u) * M) := mul_nonneg (by nlinarith) (mul_nonneg (by linarith) hM)
  have n2 : 0 ≤ (q * (1 + u) - 1) * t := mul_nonneg (by nlinarith) ht
  nlinarith

end

theorem preact_cast (W : Nat → Nat → Nat → ℚ) (n : Nat → Nat) (l : Nat) (a : Nat → ℚ) (j : Nat) :
    ((preact W n l a j : ℚ) : ℝ) = preact (fun l j i => (W l j i : ℝ)) n l (fun i => (a i : ℝ)) j := by
  unfold preact
  push_cast
  rfl

theorem preact_lip {W : Nat → Nat → Nat → ℝ} {n : Nat → Nat} {l j : Nat} {a b : Nat → ℝ} {M E : ℝ} (hM : 0 ≤ M) (hW : ∀ i ≤ n l, |W l j i| ≤ M)
    (hab : ∀ i < n l, |a i - b i| ≤ E) : |preact W n l a j - preact W n l b j| ≤ n l * M * E := by
  unfold preact
  rw [add_sub_add_right_eq_sub, ← sum_sub_distrib]
  refine (abs_sum_le_sum_abs _ _).trans ?_
  refine (sum_le_sum (g := fun _ => M * E) fun i hi => ?_).trans (by simp [mul_assoc])
  rw [← mul_sub, abs_mul]
  exact mul_le_mul (hW i (mem_range.1 hi).le) (hab i (mem_range.1 hi)) (abs_nonneg _) hM

/-- The bound on the difference between computed and exact outputs of layer `l`, for layers of at most `N` neurons, weights of size at most `M`, inputs and outputs of size at most `A`,
a Lipschitz constant `L` of the activation function, and `η`, the accuracy with which it is computed. -/
noncomputable def outputErr (f : Fmt) (M A : ℚ) (L η : ℝ) (N l : Nat) : ℝ := (η + L * neuronErr f M A N) * ∑ i ∈ range l, (L * (N * M)) ^ i

theorem neuronErr_mono {f : Fmt} {M A : ℚ} (hM : 0 ≤ M) (hA : 0 ≤ A) {k N : Nat} (h : k ≤ N) : neuronErr f M A k ≤ neuronErr f M A N := by
  have hu := (ulp_pos f).le
  have ht := (tiny_pos f).le
  have hq : (1 : ℚ) ≤ 1 + ulp f := by linarith
  have hkN : (k : ℚ) ≤ N := by exact_mod_cast h
  have hk : (0 : ℚ) ≤ k := Nat.cast_nonneg _
  have a1 : (1 + ulp f) ^ (k + 2) ≤ (1 + ulp f) ^ (N + 2) := pow_le_pow_right₀ hq (by omega)
  have a2 : (1 + ulp f) ^ (k + 1) ≤ (1 + ulp f) ^ (N + 1) := pow_le_pow_right₀ hq (by omega)
  have a3 : (1 : ℚ) ≤ (1 + ulp f) ^ (N + 2) := one_le_pow₀ hq
  have a4 : (0 : ℚ) ≤ (1 + ulp f) ^ (k + 1) := by positivity
  unfold neuronErr
  refine add_le_add (mul_le_mul (by linarith) (mul_le_mul_of_nonneg_right (by nlinarith) hM) (mul_nonneg (by nlinarith) hM) (by linarith)) ?_
  exact mul_le_mul_of_nonneg_right (mul_le_mul (by linarith) a2 a4 (by linarith)) ht

theorem neuronErr_nonneg {f : Fmt} {M A : ℚ} (hM : 0 ≤ M) (hA : 0 ≤ A) (k : Nat) : 0 ≤ neuronErr f M A k := by
  have hu := (ulp_pos f).le
  have ht := (tiny_pos f).le
  have a3 : (1 : ℚ) ≤ (1 + ulp f) ^ (k + 2) := one_le_pow₀ (by linarith)
  have hk : (0 : ℚ) ≤ k := Nat.cast_nonneg _
  unfold neuronErr
  have : 0 ≤ ((1 + ulp f) ^ (k + 2) - 1) * ((k * A + 1) * M) := mul_nonneg (by linarith) (mul_nonneg (by nlinarith) hM)
  have : 0 ≤ (2 * k + 1) * (1 + ulp f) ^ (k + 1) * tiny f := by positivity
  linarith

/-- what is assumed of the network, its input and its activation function -/
structure Bounded (f : Fmt) (act : ℚ → ℚ) (g : ℝ → ℝ) (net : Net ℚ) (input : List ℚ) (M A : ℚ) (L η : ℝ) (N : Nat) : Prop where
  fits : Fits net
  long : net.n 0 ≤ input.length
  input : ∀ i < net.n 0, |input.getD i 0| ≤ A
  weights : ∀ l j i, Valid net.n net.last l j i → |net.W l j i| ≤ M
  sizes : ∀ l < net.last, net.n l ≤ N
  M0 : 0 ≤ M
  A0 : 0 ≤ A
  act_range : ∀ x, IsFloat f x → |act x| ≤ A
  act_acc : ∀ x, IsFloat f x → |(act x : ℝ) - g x| ≤ η
  lip : ∀ x y, |g x - g y| ≤ L * |x - y|
  L0 : 0 ≤ L
  η0 : 0 ≤ η

section
variable {f : Fmt} {fl act : ℚ → ℚ} {g : ℝ → ℝ} {net : Net ℚ} {input : List ℚ} {M A : ℚ} {L η : ℝ} {N : Nat}

theorem layerOutFl_range (h : IsRounding f fl) (hb : Bounded f act g net input M A L η N) : ∀ l ≤ net.last, ∀ j < net.n l,
    |layerOutFl fl act net.W net.n (fun i => input.getD i 0) l j| ≤ A
  | 0, _, j, hj => hb.input j hj
  | _ + 1, _, _, _ => hb.act_range _ (h.float _)

theorem layerOutFl_error (h : IsRounding f fl) (hp : 1 ≤ f.prec) (hb : Bounded f act g net input M A L η N) : ∀ l ≤ net.last, ∀ j < net.n l,
    |(layerOutFl fl act net.W net.n (fun i => input.getD i 0) l j : ℝ) -
      layerOut g (fun l j i => (net.W l j i : ℝ)) net.n (fun i => ((input.getD i 0 : ℚ) : ℝ)) l j| ≤ outputErr f M A L η N l
  | 0, _, j, hj => by simp [layerOutFl, layerOut, outputErr]
  | l + 1, hl, j, hj => by
      have ih := layerOutFl_error h hp hb l (by omega)
      have hr := layerOutFl_range h hb l (by omega)
      have hW : ∀ i ≤ net.n l, |net.W l j i| ≤ M := fun i hi => hb.weights l j i ⟨by omega, hj, hi⟩
      have hM' : (0 : ℝ) ≤ M := by exact_mod_cast hb.M0
      have hWR : ∀ i ≤ net.n l, |((net.W l j i : ℚ) : ℝ)| ≤ (M : ℝ) := fun i hi => by
        have := hW i hi
        exact_mod_cast this
      set a := layerOutFl fl act net.W net.n (fun i => input.getD i 0) l
      set b := layerOut g (fun l j i => (net.W l j i : ℝ)) net.n (fun i => ((input.getD i 0 : ℚ) : ℝ)) l
      have c1 := (preactFl_error h hp hb.M0 hb.A0 hW hr).trans (neuronErr_mono (f := f) hb.M0 hb.A0 (hb.sizes l (by omega)))
      have c1' : |((preactFl fl net.W net.n l a j : ℚ) : ℝ) - preact (fun l j i => (net.W l j i : ℝ)) net.n l (fun i => (a i : ℝ)) j| ≤ neuronErr f M A N := by
        rw [← preact_cast]
        exact_mod_cast c1
      have c2 := preact_lip (W := fun l j i => (net.W l j i : ℝ)) (j := j) (a := fun i => (a i : ℝ)) (b := b) hM' hWR ih
      have c3 := hb.act_acc (preactFl fl net.W net.n l a j) (h.float _)
      have c4 := hb.lip (preactFl fl net.W net.n l a j : ℝ) (preact (fun l j i => (net.W l j i : ℝ)) net.n l b j)
      have hE : 0 ≤ outputErr f M A L η N l := by
        unfold outputErr
        have h1 : (0 : ℝ) ≤ neuronErr f M A N := by exact_mod_cast neuronErr_nonneg (f := f) hb.M0 hb.A0 N
        have h2 := hb.L0
        have h3 := hb.η0
        positivity
      have hN : (net.n l : ℝ) * M * outputErr f M A L η N l ≤ N * M * outputErr f M A L η N l := by
        refine mul_le_mul_of_nonneg_right (mul_le_mul_of_nonneg_right ?_ hM') hE
        exact_mod_cast hb.sizes l (by omega)
      have c5 : |((preactFl fl net.W net.n l a j : ℚ) : ℝ) - preact (fun l j i => (net.W l j i : ℝ)) net.n l b j| ≤
          neuronErr f M A N + N * M * outputErr f M A L η N l := by
        refine (abs_sub_le _ (preact (fun l j i => (net.W l j i : ℝ)) net.n l (fun i => (a i : ℝ)) j) _).trans ?_
        linarith
      have c6 := mul_le_mul_of_nonneg_left c5 hb.L0
      show |((act (preactFl fl net.W net.n l a j) : ℚ) : ℝ) - g (preact (fun l j i => (net.W l j i : ℝ)) net.n l b j)| ≤ _
      refine (abs_sub_le _ (g (preactFl fl net.W net.n l a j : ℝ)) _).trans ?_
      have hlast : outputErr f M A L η N (l + 1) = (η + L * neuronErr f M A N) + L * (N * M) * outputErr f M A L η N l := by
        unfold outputErr
        have hs : ∑ i ∈ range l, (L * (N * M)) ^ (i + 1) = L * (N * M) * ∑ i ∈ range l, (L * (N * M)) ^ i := by
          rw [mul_sum]
          exact sum_congr rfl (fun i _ => pow_succ' _ _)
        rw [sum_range_succ', pow_zero, hs]
        ring
      rw [hlast]
      calc _ ≤ η + L * |((preactFl fl net.W net.n l a j : ℚ) : ℝ) - preact (fun l j i => (net.W l j i : ℝ)) net.n l b j| := add_le_add c3 c4
        _ ≤ η + L * (neuronErr f M A N + N * M * outputErr f M A L η N l) := by linarith
        _ = _ := by ring

/-- **C161** `feed_forward` with rounding stays inside its arrays, leaves the weights as they are, and each output differs from that of the exact network function by at most `outputErr`. -/
theorem C161_accurate (h : IsRounding f fl) (hp : 1 ≤ f.prec) (hb : Bounded f act g net input M A L η N) :
    ∃ net' out, feedForwardFl fl act net input = .ok (net', out) ∧ net'.weights = net.weights ∧ net'.sizes = net.sizes ∧ Fits net' ∧ out.length = net.n net.last ∧
      ∀ (j : Nat) (y : ℚ), out[j]? = some y →
        |(y : ℝ) - layerOut g (fun l j i => (net.W l j i : ℝ)) net.n (fun i => ((input.getD i 0 : ℚ) : ℝ)) net.last j| ≤ outputErr f M A L η N net.last := by
  obtain ⟨out', a1, a2, _⟩ := feedForwardFl_spec fl act net hb.fits input hb.long
  refine ⟨_, _, a1, rfl, rfl, ⟨hb.fits.layers, hb.fits.weights, ?_⟩, by simp, fun j y hy => ?_⟩
  · rw [show ({ net with out := out' } : Net ℚ).out = out' from rfl, a2]; exact hb.fits.outs
  · obtain ⟨hj, rfl⟩ := List.getElem?_eq_some_iff.1 hy
    simp only [List.length_map, List.length_range] at hj
    rw [List.getElem_map, List.getElem_range]
    exact layerOutFl_error h hp hb net.last le_rfl j hj

/-- **C161** Decisions: if the exact output `j` exceeds the exact output `k` by more than twice the bound, the computed output `j` is larger than the computed output `k`. -/
theorem C161_decision (h : IsRounding f fl) (hp : 1 ≤ f.prec) (hb : Bounded f act g net input M A L η N) {net' : Net ℚ} {out : List ℚ}
    (hr : feedForwardFl fl act net input = .ok (net', out)) {j k : Nat} {y z : ℚ} (hy : out[j]? = some y) (hz : out[k]? = some z)
    (hgap : layerOut g (fun l j i => (net.W l j i : ℝ)) net.n (fun i => ((input.getD i 0 : ℚ) : ℝ)) net.last k + 2 * outputErr f M A L η N net.last <
      layerOut g (fun l j i => (net.W l j i : ℝ)) net.n (fun i => ((input.getD i 0 : ℚ) : ℝ)) net.last j) : z < y := by
  obtain ⟨n2, o2, b1, _, _, _, _, b2⟩ := C161_accurate h hp hb
  rw [hr] at b1
  obtain ⟨rfl, rfl⟩ := Prod.mk.inj (Except.ok.inj b1)
  have c1 := abs_le.1 (b2 j y hy)
  have c2 := abs_le.1 (b2 k z hz)
  have : (z : ℝ) < y := by linarith [c1.1, c2.2]
  exact_mod_cast this

end

/-! ### an instance -/

/-- a network with two inputs, two hidden neurons and two outputs -/
def accNet : Net ℚ := { sizes := [2, 2, 2], weights := [1, 1/2, 0, -1, 1/4, 1/8, 1, 0, 0, 1/2, -1, 1/4], out := [8, 8, 8, 8, 8, 8], rate := 1 / 10 }

/-- the activation function that cuts off at -1 and 1 -/
def clamp (x : ℚ) : ℚ := max (-1) (min 1 x)

/-- the same on the real numbers -/
noncomputable def clampR (x : ℝ) : ℝ := max (-1) (min 1 x)

theorem accNet_bounded : Bounded double clamp clampR accNet [1/2, 1/4] 1 1 1 0 2 where
  fits := ⟨by decide, by decide, by decide⟩
  long := by decide
  input := by
    intro i hi
    have : i < 2 := hi
    obtain rfl | rfl : i = 0 ∨ i = 1 := by omega
    · norm_num
    · norm_num
  weights := by
    have hall : ∀ x ∈ accNet.weights, |x| ≤ 1 := by decide +kernel
    intro l j i _
    unfold Net.W
    rw [List.getD_eq_getElem?_getD]
    cases hx : accNet.weights[addr accNet.n l j i]? with
    | none => simp
    | some x => exact hall x (List.mem_of_getElem? hx)
  sizes := by
    intro l hl
    have : l < 2 := hl
    obtain rfl | rfl : l = 0 ∨ l = 1 := by omega
    · decide
    · decide
  M0 := by norm_num
  A0 := by norm_num
  act_range := fun x _ => abs_le.2 ⟨le_max_left _ _, max_le (by norm_num) (min_le_left _ _)⟩
  act_acc := by
    intro x _
    simp [clamp, clampR]
  lip := by
    intro x y
    rw [one_mul]
    unfold clampR
    refine (abs_max_sub_max_le_max _ _ _ _).trans (max_le (by simp) ?_)
    exact (abs_min_sub_min_le_max _ _ _ _).trans (max_le (by simp) le_rfl)
  L0 := by norm_num
  η0 := le_rfl

/-- in `double` the outputs of this network are right up to `2^-46` -/
example : outputErr double 1 1 1 0 2 2 ≤ (2 : ℝ) ^ (-46 : Int) := by
  have h1 : neuronErr double 1 1 2 ≤ 1 / 2 ^ 48 := by
    have ht : tiny double ≤ 1 / 2 ^ 60 := by
      unfold tiny double
      rw [show (1 : ℚ) / 2 ^ 60 = (2 : ℚ) ^ (-60 : Int) by norm_num]
      exact two_zpow_le (by norm_num)
    have := mul_le_mul_of_nonneg_left ht (show (0 : ℚ) ≤ (2 * 2 + 1) * (1 + ulp double) ^ 3 by unfold ulp double; norm_num)
    unfold neuronErr
    refine (add_le_add_right this _).trans ?_
    unfold ulp double
    norm_num
  have h2 : ((neuronErr double 1 1 2 : ℚ) : ℝ) ≤ 1 / 2 ^ 48 := by
    have : ((neuronErr double 1 1 2 : ℚ) : ℝ) ≤ ((1 / 2 ^ 48 : ℚ) : ℝ) := by exact_mod_cast h1
    exact this.trans (by norm_num)
  unfold outputErr
  simp only [sum_range_succ, range_zero, sum_empty]
  norm_num at h2 ⊢
  linarith

end Orp.Rounding
