import Verif.Rounding.Mcnn
import Verif.Mcnn.Props

/-!
`MCNN` with rounded arithmetic (C110): the error of the variances from which a cluster is split, and the loss of a label when such a variance
is negative.
-/

set_option linter.unusedSectionVars false

namespace Orp.Rounding

open Mcnn

variable {f : Fmt} {fl : ℚ → ℚ}

/-- Error of a rounded sum of floats: `k` terms are in the accumulator already. -/
theorem sum_error (h : IsRounding f fl) (hp : 1 ≤ f.prec) {P : ℚ} : ∀ (ys : List ℚ) (A T : ℚ) (k : Nat), IsFloat f A → (∀ y ∈ ys, IsFloat f y ∧ |y| ≤ P) →
    |A - T| ≤ ulp f * k ^ 2 * P → |T| ≤ k * P → ((k + ys.length : Nat) : ℚ) * ulp f ≤ 1 → 0 ≤ P → 1 ≤ k →
    IsFloat f (ys.foldl (fun a y => fl (a + y)) A) ∧ |ys.foldl (fun a y => fl (a + y)) A - (T + ys.sum)| ≤ ulp f * ((k + ys.length : Nat) : ℚ) ^ 2 * P
  | [], A, T, k, hA, _, h1, _, _, _, _ => ⟨hA, by simpa using h1⟩
  | y :: ys, A, T, k, hA, hy, h1, h2, h3, hP, hk => by
      obtain ⟨hy1, hy2⟩ := hy y (by simp)
      have hu := ulp_pos f
      have hk1 : (1 : ℚ) ≤ k := by exact_mod_cast hk
      have hku : (k : ℚ) * ulp f ≤ 1 := by
        refine le_trans (mul_le_mul_of_nonneg_right ?_ hu.le) h3
        push_cast
        have : (0 : ℚ) ≤ (y :: ys).length := by positivity
        linarith
      have h4 := h.error_add hp hA hy1
      have hT : |T + y| ≤ (k + 1) * P := le_trans (abs_add_le _ _) (by linarith)
      have hA2 : |A + y| ≤ (k + 1) * P + ulp f * k ^ 2 * P := by
        have : A + y = (T + y) + (A - T) := by ring
        rw [this]
        exact le_trans (abs_add_le _ _) (add_le_add hT h1)
      have h5 : |fl (A + y) - (T + y)| ≤ ulp f * ((k + 1 : Nat) : ℚ) ^ 2 * P := by
        have e : fl (A + y) - (T + y) = (fl (A + y) - (A + y)) + (A - T) := by ring
        rw [e]
        refine le_trans (abs_add_le _ _) (le_trans (add_le_add h4 h1) ?_)
        have h6 : |A + y| * ulp f ≤ ((k + 1) * P + ulp f * k ^ 2 * P) * ulp f := mul_le_mul_of_nonneg_right hA2 hu.le
        refine le_trans (add_le_add_left h6 _) ?_
        have h7 : ulp f * k ^ 2 ≤ k := by nlinarith
        have h8 : ulp f * k ^ 2 * P * ulp f ≤ k * P * ulp f := by
          have := mul_le_mul_of_nonneg_right h7 (mul_nonneg hP hu.le)
          nlinarith
        push_cast
        nlinarith
      have := sum_error h hp ys (fl (A + y)) (T + y) (k + 1) (h.float _) (fun z hz => hy z (by simp [hz])) h5 (by push_cast; exact hT)
        (by rw [show k + 1 + ys.length = k + (y :: ys).length by simp; omega]; exact h3) hP (by omega)
      rw [show k + 1 + ys.length = k + (y :: ys).length by simp; omega] at this
      simpa [add_assoc] using this

/-- the sum of one feature of a cluster -/
def featSum (fl : ℚ → ℚ) (x : ℚ) (xs : List ℚ) : ℚ := xs.foldl (fun a y => fl (a + y)) x

/-- the sum of the squares of one feature of a cluster -/
def featSq (fl : ℚ → ℚ) (x : ℚ) (xs : List ℚ) : ℚ := (xs.map (fun y => fl (y * y))).foldl (fun a y => fl (a + y)) (fl (x * x))

theorem feature_mean (h : IsRounding f fl) (hp : 1 ≤ f.prec) {x : ℚ} {xs : List ℚ} {M : ℚ} {n : Nat} (hn : n = xs.length + 1) (hM : 0 < M)
    (hx : ∀ y ∈ x :: xs, IsFloat f y ∧ |y| ≤ M) (hn1 : 5 * ((n : ℚ) + 5) * ulp f ≤ 1) (ht : tiny f ≤ ulp f * M) :
    |fl (featSum fl x xs / n) - (x :: xs).sum / n| ≤ ((n : ℚ) + 3) * ulp f * M := by
  have hu := ulp_pos f
  have hn0 : (0 : ℚ) < n := by rw [hn]; positivity
  obtain ⟨-, h1⟩ := sum_error h hp xs x x 1 (hx x (by simp)).1 (fun y hy => hx y (by simp [hy]))
    (by simp; positivity) (by simpa using (hx x (by simp)).2) (by
      rw [show 1 + xs.length = n by omega]; nlinarith) hM.le (le_refl 1)
  rw [show 1 + xs.length = n by omega] at h1
  have h1' : |featSum fl x xs - (x :: xs).sum| ≤ ulp f * (n : ℚ) ^ 2 * M := by simpa [featSum] using h1
  have h2 : |featSum fl x xs / n - (x :: xs).sum / n| ≤ ulp f * n * M := by
    rw [← sub_div, abs_div, abs_of_pos hn0, div_le_iff₀ hn0]
    nlinarith
  have hs : |(x :: xs).sum| ≤ n * M := by
    have : ∀ l : List ℚ, (∀ y ∈ l, |y| ≤ M) → |l.sum| ≤ l.length * M := by
      intro l
      induction l with
      | nil => simp
      | cons a l ih =>
        intro hl
        have := ih (fun y hy => hl y (by simp [hy]))
        have ha := hl a (by simp)
        rw [List.sum_cons, List.length_cons]
        push_cast
        have := abs_add_le a l.sum
        linarith
    have := this (x :: xs) (fun y hy => (hx y hy).2)
    rw [hn]; simpa using this
  have h3 : |(x :: xs).sum / n| ≤ M := by
    rw [abs_div, abs_of_pos hn0, div_le_iff₀ hn0]
    linarith
  have h4 : |featSum fl x xs / n| ≤ 2 * M := by
    have e : featSum fl x xs / n = (featSum fl x xs / n - (x :: xs).sum / n) + (x :: xs).sum / n := by ring
    rw [e]
    refine le_trans (abs_add_le _ _) ?_
    have : ulp f * n * M ≤ 1 * M := mul_le_mul_of_nonneg_right (by nlinarith) hM.le
    linarith
  have h5 := h.error hp (featSum fl x xs / n)
  have e : fl (featSum fl x xs / n) - (x :: xs).sum / n = (fl (featSum fl x xs / n) - featSum fl x xs / n) + (featSum fl x xs / n - (x :: xs).sum / n) := by ring
  rw [e]
  refine le_trans (abs_add_le _ _) ?_
  have h6 : |featSum fl x xs / n| * ulp f ≤ 2 * M * ulp f := mul_le_mul_of_nonneg_right h4 hu.le
  linarith

theorem abs_mean_le {x : ℚ} {xs : List ℚ} {M : ℚ} {n : Nat} (hn : n = xs.length + 1) (hx : ∀ y ∈ x :: xs, |y| ≤ M) : |(x :: xs).sum / n| ≤ M := by
  have hn0 : (0 : ℚ) < n := by rw [hn]; positivity
  have : ∀ l : List ℚ, (∀ y ∈ l, |y| ≤ M) → |l.sum| ≤ l.length * M := by
    intro l
    induction l with
    | nil => simp
    | cons a l ih =>
      intro hl
      have := ih (fun y hy => hl y (by simp [hy]))
      have ha := hl a (by simp)
      rw [List.sum_cons, List.length_cons]
      push_cast
      have := abs_add_le a l.sum
      linarith
  have := this (x :: xs) hx
  rw [abs_div, abs_of_pos hn0, div_le_iff₀ hn0, hn, mul_comm]
  simpa using this

theorem feature_sq (h : IsRounding f fl) (hp : 1 ≤ f.prec) {x : ℚ} {xs : List ℚ} {M : ℚ} {n : Nat} (hn : n = xs.length + 1) (hM : 0 < M)
    (hx : ∀ y ∈ x :: xs, |y| ≤ M) (hn1 : 5 * ((n : ℚ) + 5) * ulp f ≤ 1) (ht : tiny f ≤ ulp f * M ^ 2) :
    |fl (featSq fl x xs / n) - ((x :: xs).map (fun y => y * y)).sum / n| ≤ (2 * (n : ℚ) + 7) * ulp f * M ^ 2 := by
  have hu := ulp_pos f
  have hM2 : 0 < M ^ 2 := by positivity
  have hn0 : (0 : ℚ) < n := by rw [hn]; positivity
  have hn01 : (1 : ℚ) ≤ n := by rw [hn]; push_cast; linarith [show (0 : ℚ) ≤ xs.length by positivity]
  have hu1 : ulp f ≤ 1 / 30 := by nlinarith
  have hsq : ∀ y ∈ x :: xs, |y * y| ≤ M ^ 2 := by
    intro y hy
    have := hx y hy
    rw [abs_mul]
    nlinarith [abs_nonneg y]
  have hq : ∀ y ∈ x :: xs, |fl (y * y) - y * y| ≤ 2 * ulp f * M ^ 2 := by
    intro y hy
    have h1 := h.error hp (y * y)
    have h2 : |y * y| * ulp f ≤ M ^ 2 * ulp f := mul_le_mul_of_nonneg_right (hsq y hy) hu.le
    linarith
  have hq2 : ∀ y ∈ x :: xs, |fl (y * y)| ≤ 2 * M ^ 2 := by
    intro y hy
    have e : fl (y * y) = (fl (y * y) - y * y) + y * y := by ring
    rw [e]
    refine le_trans (abs_add_le _ _) ?_
    have h1 := hq y hy
    have h2 := hsq y hy
    nlinarith
  obtain ⟨-, h1⟩ := sum_error h hp (xs.map (fun y => fl (y * y))) (fl (x * x)) (fl (x * x)) 1 (P := 2 * M ^ 2) (h.float _) (fun y hy => by
      obtain ⟨z, hz, rfl⟩ := List.mem_map.1 hy
      exact ⟨h.float _, hq2 z (by simp [hz])⟩)
    (by simp; positivity) (by simpa using hq2 x (by simp)) (by
      rw [List.length_map, show 1 + xs.length = n by omega]; nlinarith) (by positivity) (le_refl 1)
  rw [List.length_map, show 1 + xs.length = n by omega] at h1
  have h1' : |featSq fl x xs - ((x :: xs).map (fun y => fl (y * y))).sum| ≤ ulp f * (n : ℚ) ^ 2 * (2 * M ^ 2) := by simpa [featSq] using h1
  have h2 : |((x :: xs).map (fun y => fl (y * y))).sum - ((x :: xs).map (fun y => y * y)).sum| ≤ n * (2 * ulp f * M ^ 2) := by
    have : ∀ l : List ℚ, (∀ y ∈ l, |fl (y * y) - y * y| ≤ 2 * ulp f * M ^ 2) →
        |(l.map (fun y => fl (y * y))).sum - (l.map (fun y => y * y)).sum| ≤ l.length * (2 * ulp f * M ^ 2) := by
      intro l
      induction l with
      | nil => simp
      | cons a l ih =>
        intro hl
        have := ih (fun y hy => hl y (by simp [hy]))
        have ha := hl a (by simp)
        simp only [List.map_cons, List.sum_cons, List.length_cons]
        push_cast
        have e : fl (a * a) + (l.map (fun y => fl (y * y))).sum - (a * a + (l.map (fun y => y * y)).sum) =
          (fl (a * a) - a * a) + ((l.map (fun y => fl (y * y))).sum - (l.map (fun y => y * y)).sum) := by ring
        rw [e]
        have := abs_add_le (fl (a * a) - a * a) ((l.map (fun y => fl (y * y))).sum - (l.map (fun y => y * y)).sum)
        linarith
    have := this (x :: xs) hq
    rw [hn]; simpa using this
  have h3 : |featSq fl x xs / n - ((x :: xs).map (fun y => y * y)).sum / n| ≤ (2 * n + 2) * ulp f * M ^ 2 := by
    rw [← sub_div, abs_div, abs_of_pos hn0, div_le_iff₀ hn0]
    have e : featSq fl x xs - ((x :: xs).map (fun y => y * y)).sum = (featSq fl x xs - ((x :: xs).map (fun y => fl (y * y))).sum) +
      (((x :: xs).map (fun y => fl (y * y))).sum - ((x :: xs).map (fun y => y * y)).sum) := by ring
    rw [e]
    refine le_trans (abs_add_le _ _) (le_trans (add_le_add h1' h2) (le_of_eq (by ring)))
  have h4 : |((x :: xs).map (fun y => y * y)).sum / n| ≤ M ^ 2 := by
    have := abs_mean_le (x := x * x) (xs := xs.map (fun y => y * y)) (M := M ^ 2) (n := n) (by simpa using hn) (fun y hy => by
      rw [← List.map_cons (f := fun y => y * y)] at hy
      obtain ⟨z, hz, rfl⟩ := List.mem_map.1 hy
      exact hsq z hz)
    simpa using this
  have h5 : |featSq fl x xs / n| ≤ 2 * M ^ 2 := by
    have e : featSq fl x xs / n = (featSq fl x xs / n - ((x :: xs).map (fun y => y * y)).sum / n) + ((x :: xs).map (fun y => y * y)).sum / n := by ring
    rw [e]
    refine le_trans (abs_add_le _ _) ?_
    have : (2 * n + 2) * ulp f * M ^ 2 ≤ 1 * M ^ 2 := mul_le_mul_of_nonneg_right (by nlinarith) hM2.le
    linarith
  have h6 := h.error hp (featSq fl x xs / n)
  have e : fl (featSq fl x xs / n) - ((x :: xs).map (fun y => y * y)).sum / n = (fl (featSq fl x xs / n) - featSq fl x xs / n) +
    (featSq fl x xs / n - ((x :: xs).map (fun y => y * y)).sum / n) := by ring
  rw [e]
  refine le_trans (abs_add_le _ _) ?_
  have h7 : |featSq fl x xs / n| * ulp f ≤ 2 * M ^ 2 * ulp f := mul_le_mul_of_nonneg_right h5 hu.le
  nlinarith

/-- Error of the variance of one feature. -/
theorem feature_variance (h : IsRounding f fl) (hp : 1 ≤ f.prec) {x : ℚ} {xs : List ℚ} {M : ℚ} {n : Nat} (hn : n = xs.length + 1) (hM : 0 < M)
    (hx : ∀ y ∈ x :: xs, IsFloat f y ∧ |y| ≤ M) (hn1 : 5 * ((n : ℚ) + 5) * ulp f ≤ 1) (ht : tiny f ≤ ulp f * M) (ht2 : tiny f ≤ ulp f * M ^ 2) :
    |fl (fl (featSq fl x xs / n) - fl (fl (featSum fl x xs / n) * fl (featSum fl x xs / n))) - (((x :: xs).map (fun y => y * y)).sum / n - ((x :: xs).sum / n) ^ 2)| ≤
      5 * ((n : ℚ) + 5) * ulp f * M ^ 2 := by
  have hu := ulp_pos f
  have hM2 : 0 < M ^ 2 := by positivity
  have hn01 : (1 : ℚ) ≤ n := by rw [hn]; push_cast; linarith [show (0 : ℚ) ≤ xs.length by positivity]
  have h1 := feature_mean h hp hn hM hx hn1 ht
  have h2 := feature_sq h hp hn hM (fun y hy => (hx y hy).2) hn1 ht2
  have h3 := abs_mean_le hn (fun y hy => (hx y hy).2)
  set a := fl (featSq fl x xs / n) with ha
  set b := fl (featSum fl x xs / n) with hb
  set m := (x :: xs).sum / (n : ℚ) with hm
  set q := ((x :: xs).map (fun y => y * y)).sum / (n : ℚ) with hq
  have h4 : |q| ≤ M ^ 2 := by
    have := abs_mean_le (x := x * x) (xs := xs.map (fun y => y * y)) (M := M ^ 2) (n := n) (by simpa using hn) (fun y hy => by
      rw [← List.map_cons (f := fun y => y * y)] at hy
      obtain ⟨z, hz, rfl⟩ := List.mem_map.1 hy
      have := (hx z hz).2
      rw [abs_mul]
      nlinarith [abs_nonneg z])
    rw [hq]
    simpa using this
  have hc1 : ((n : ℚ) + 3) * ulp f * M ≤ 1 * M := mul_le_mul_of_nonneg_right (by nlinarith) hM.le
  have hb1 : |b| ≤ 2 * M := by
    have e : b = (b - m) + m := by ring
    rw [e]
    exact le_trans (abs_add_le _ _) (by linarith)
  have hbm : |b + m| ≤ 3 * M := le_trans (abs_add_le _ _) (by linarith)
  have hbb : |b * b - m ^ 2| ≤ ((n : ℚ) + 3) * ulp f * M * (3 * M) := by
    have e : b * b - m ^ 2 = (b - m) * (b + m) := by ring
    rw [e, abs_mul]
    exact mul_le_mul h1 hbm (abs_nonneg _) (by positivity)
  have hbsq : |b * b| ≤ 4 * M ^ 2 := by
    rw [abs_mul]
    nlinarith [abs_nonneg b]
  have h5 := h.error hp (b * b)
  have h6 : |b * b| * ulp f ≤ 4 * M ^ 2 * ulp f := mul_le_mul_of_nonneg_right hbsq hu.le
  have h7 : |fl (b * b) - m ^ 2| ≤ (3 * (n : ℚ) + 14) * ulp f * M ^ 2 := by
    have e : fl (b * b) - m ^ 2 = (fl (b * b) - b * b) + (b * b - m ^ 2) := by ring
    rw [e]
    refine le_trans (abs_add_le _ _) ?_
    nlinarith
  have hm2 : |m ^ 2| ≤ M ^ 2 := by
    rw [abs_pow]
    exact pow_le_pow_left₀ (abs_nonneg _) h3 2
  have ha1 : |a| ≤ 2 * M ^ 2 := by
    have e : a = (a - q) + q := by ring
    rw [e]
    have : (2 * (n : ℚ) + 7) * ulp f * M ^ 2 ≤ 1 * M ^ 2 := mul_le_mul_of_nonneg_right (by nlinarith) hM2.le
    exact le_trans (abs_add_le _ _) (by linarith)
  have hb2 : |fl (b * b)| ≤ 2 * M ^ 2 := by
    have e : fl (b * b) = (fl (b * b) - m ^ 2) + m ^ 2 := by ring
    rw [e]
    have : (3 * (n : ℚ) + 14) * ulp f * M ^ 2 ≤ 1 * M ^ 2 := mul_le_mul_of_nonneg_right (by nlinarith) hM2.le
    exact le_trans (abs_add_le _ _) (by linarith)
  have h8 := h.error_add hp (h.float (featSq fl x xs / n)) (h.float (b * b)).neg
  rw [← sub_eq_add_neg, ← ha] at h8
  have h9 : |a - fl (b * b)| ≤ 4 * M ^ 2 := le_trans (abs_sub _ _) (by linarith)
  have h10 : |a - fl (b * b)| * ulp f ≤ 4 * M ^ 2 * ulp f := mul_le_mul_of_nonneg_right h9 hu.le
  have e : fl (a - fl (b * b)) - (q - m ^ 2) = (fl (a - fl (b * b)) - (a - fl (b * b))) + (a - q) - (fl (b * b) - m ^ 2) := by ring
  rw [e]
  refine le_trans (abs_sub _ _) (le_trans (add_le_add_left (abs_add_le _ _) _) ?_)
  nlinarith

/-- The cluster made by the training points `x`, `xs` (with their times). -/
def clusterR (fl : ℚ → ℚ) (x : List ℚ) (xs : List (List ℚ × Int)) (label t thr : Int) : Cluster Num :=
  xs.foldl (fun c q => incorporateR fl c (q.1.map some) q.2) (initClusterR fl (x.map some) label t thr)

theorem clusterR_feature {fc : Nat} {i : Nat} (hi : i < fc) : ∀ (xs : List (List ℚ × Int)) (c : Cluster Num) (a b : ℚ), (∀ q ∈ xs, q.1.length = fc) →
    c.sum[i]? = some (some a) → c.sq[i]? = some (some b) →
    (xs.foldl (fun c q => incorporateR fl c (q.1.map some) q.2) c).sum[i]? = some (some (featSum fl a (xs.map (fun q => q.1.getD i 0)))) ∧
    (xs.foldl (fun c q => incorporateR fl c (q.1.map some) q.2) c).sq[i]? =
      some (some (((xs.map (fun q => q.1.getD i 0)).map (fun y => fl (y * y))).foldl (fun a y => fl (a + y)) b)) ∧
    (xs.foldl (fun c q => incorporateR fl c (q.1.map some) q.2) c).n = c.n + xs.length
  | [], c, a, b, _, h1, h2 => ⟨h1, h2, rfl⟩
  | q :: xs, c, a, b, hq, h1, h2 => by
      have hqi : q.1[i]? = some (q.1.getD i 0) := by
        have : i < q.1.length := by rw [hq q (by simp)]; exact hi
        rw [List.getD_eq_getElem?_getD, List.getElem?_eq_getElem this]
        rfl
      obtain ⟨g1, g2, g3⟩ := clusterR_feature hi xs (incorporateR fl c (q.1.map some) q.2) (fl (a + q.1.getD i 0)) (fl (b + fl (q.1.getD i 0 * q.1.getD i 0)))
        (fun r hr => hq r (by simp [hr]))
        (by simp only [incorporateR, List.getElem?_zipWith, h1, List.getElem?_map, hqi, Option.map_some]; rfl)
        (by simp only [incorporateR, List.getElem?_zipWith, h2, List.getElem?_map, hqi, Option.map_some]; rfl)
      refine ⟨g1, g2, ?_⟩
      rw [List.foldl_cons, g3, List.length_cons]
      simp only [incorporateR]
      omega

/-- Values of one feature. -/
theorem varOf_eq {pts : List (List ℚ)} (hp : pts ≠ []) (i : Nat) :
    varOf pts i = ((pts.map (fun x => x.getD i 0)).map (fun y => y * y)).sum / (pts.length : ℚ) - ((pts.map (fun x => x.getD i 0)).sum / (pts.length : ℚ)) ^ 2 := by
  have hn0 : (pts.length : ℚ) ≠ 0 := by
    have := List.length_pos_iff.2 hp
    positivity
  have := sq_dev_sum (pts.map (fun y => y.getD i 0)) ((pts.map (fun y => y.getD i 0)).sum / (pts.length : ℚ))
  rw [List.map_map, List.map_map, List.length_map] at this
  simp only [Function.comp_def] at this
  simp only [varOf, meanOf, this, List.map_map, Function.comp_def]
  field_simp
  ring

/-- **C110 (accuracy of a cluster).** Rounding to nearest: a cluster made by points with features of absolute value at most `M` has a centroid within
`(n + 3) · ulp · M` of the mean of the points, and variances within `5 · (n + 5) · ulp · M²` of their population variance, `n` being the number of the
points. -/
theorem C110_accuracy (h : IsRounding f fl) (hp : 1 ≤ f.prec) {fc : Nat} (x : List ℚ) (xs : List (List ℚ × Int)) (label t thr : Int) {M : ℚ} (hM : 0 < M)
    (hlen : ∀ p ∈ x :: xs.map Prod.fst, p.length = fc) {i : Nat} (hi : i < fc) (hv : ∀ p ∈ x :: xs.map Prod.fst, IsFloat f (p.getD i 0) ∧ |p.getD i 0| ≤ M)
    (hn : 5 * (((xs.length + 1 : Nat) : ℚ) + 5) * ulp f ≤ 1) (ht : tiny f ≤ ulp f * M) (ht2 : tiny f ≤ ulp f * M ^ 2) :
    (∃ m, (centroidR fl (clusterR fl x xs label t thr))[i]? = some (some m) ∧
      |m - meanOf (x :: xs.map Prod.fst) i| ≤ (((xs.length + 1 : Nat) : ℚ) + 3) * ulp f * M) ∧
    ∃ v, (variancesR fl (clusterR fl x xs label t thr))[i]? = some (some v) ∧
      |v - varOf (x :: xs.map Prod.fst) i| ≤ 5 * (((xs.length + 1 : Nat) : ℚ) + 5) * ulp f * M ^ 2 := by
  have hxi : x[i]? = some (x.getD i 0) := by
    have : i < x.length := by rw [hlen x (by simp)]; exact hi
    rw [List.getD_eq_getElem?_getD, List.getElem?_eq_getElem this]
    rfl
  obtain ⟨g1, g2, g3⟩ := clusterR_feature (fl := fl) hi xs (initClusterR fl (x.map some) label t thr) (x.getD i 0) (fl (x.getD i 0 * x.getD i 0))
    (fun q hq => hlen q.1 (by simp only [List.mem_cons, List.mem_map]; exact .inr ⟨q, hq, rfl⟩))
    (by simp only [initClusterR, List.getElem?_map, hxi, Option.map_some])
    (by simp only [initClusterR, List.getElem?_map, hxi, Option.map_some]; rfl)
  set xi := x.getD i 0 with hxi'
  set ys := xs.map (fun q => q.1.getD i 0) with hys
  have hn' : (clusterR fl x xs label t thr).n = ys.length + 1 := by
    unfold clusterR
    rw [g3, hys, List.length_map]
    simp only [initClusterR]
    omega
  have hyl : xs.length + 1 = ys.length + 1 := by rw [hys, List.length_map]
  have hvals : (x :: xs.map Prod.fst).map (fun p => p.getD i 0) = xi :: ys := by
    rw [List.map_cons, List.map_map]
    rfl
  have hx : ∀ y ∈ xi :: ys, IsFloat f y ∧ |y| ≤ M := by
    intro y hy
    rw [← hvals] at hy
    obtain ⟨p, hp1, rfl⟩ := List.mem_map.1 hy
    exact hv p hp1
  rw [hyl] at hn ⊢
  have hpl : (x :: xs.map Prod.fst).length = ys.length + 1 := by simp [hys]
  constructor
  · refine ⟨fl (featSum fl xi ys / ((ys.length + 1 : Nat) : ℚ)), ?_, ?_⟩
    · simp only [centroidR, List.getElem?_map]
      rw [show (clusterR fl x xs label t thr).sum[i]? = _ from g1, hn']
      rfl
    · have := feature_mean h hp rfl hM hx hn ht
      rw [meanOf, hvals, hpl]
      exact this
  · refine ⟨fl (fl (featSq fl xi ys / ((ys.length + 1 : Nat) : ℚ)) - fl (fl (featSum fl xi ys / ((ys.length + 1 : Nat) : ℚ)) *
      fl (featSum fl xi ys / ((ys.length + 1 : Nat) : ℚ)))), ?_, ?_⟩
    · simp only [variancesR, List.getElem?_zipWith]
      rw [show (clusterR fl x xs label t thr).sum[i]? = _ from g1, show (clusterR fl x xs label t thr).sq[i]? = _ from g2, hn']
      rfl
    · have := feature_variance h hp rfl hM hx hn ht ht2
      rw [varOf_eq (by simp), hvals, hpl]
      exact this

theorem splitLoopR_max : ∀ (vs : List Num) (i k : Nat) (hv : ℚ), (∀ v ∈ vs, v ≠ none) →
    ∃ k' w, splitLoopR vs i (some k) (some hv) = (some k', some w) ∧ hv ≤ w ∧ ∀ v, some v ∈ vs → v ≤ w
  | [], i, k, hv, _ => ⟨k, hv, rfl, le_refl _, by simp⟩
  | v :: vs, i, k, hv, hn => by
      obtain ⟨a, rfl⟩ := Option.ne_none_iff_exists'.1 (hn v (by simp))
      unfold splitLoopR
      by_cases hc : (Num.lt (some hv) (some a) = true ∨ some k = none)
      · rw [if_pos hc]
        have hlt : hv < a := by rcases hc with h | h; exacts [of_decide_eq_true h, nomatch h]
        obtain ⟨k', w, h1, h2, h3⟩ := splitLoopR_max vs (i + 1) i a (fun v hv => hn v (by simp [hv]))
        refine ⟨k', w, h1, le_trans hlt.le h2, fun u hu => ?_⟩
        rcases List.mem_cons.1 hu with h | h
        · cases h; exact h2
        · exact h3 u h
      · rw [if_neg hc]
        push Not at hc
        have hle : a ≤ hv := by
          by_contra hlt
          exact hc.1 (decide_eq_true (not_le.1 hlt))
        obtain ⟨k', w, h1, h2, h3⟩ := splitLoopR_max vs (i + 1) k hv (fun v hv => hn v (by simp [hv]))
        refine ⟨k', w, h1, h2, fun u hu => ?_⟩
        rcases List.mem_cons.1 hu with h | h
        · cases h; exact le_trans hle h2
        · exact h3 u h

theorem splitLoopR_first {vs : List Num} (h : vs ≠ []) (hn : ∀ v ∈ vs, v ≠ none) :
    ∃ k w, splitLoopR vs 0 none (some 0) = (some k, some w) ∧ ∀ v, some v ∈ vs → v ≤ w := by
  cases vs with
  | nil => exact absurd rfl h
  | cons v vs =>
    obtain ⟨a, rfl⟩ := Option.ne_none_iff_exists'.1 (hn v (by simp))
    unfold splitLoopR
    rw [if_pos (.inr rfl)]
    obtain ⟨k', w, h1, h2, h3⟩ := splitLoopR_max vs 1 0 a (fun v hv => hn v (by simp [hv]))
    refine ⟨k', w, h1, fun u hu => ?_⟩
    rcases List.mem_cons.1 hu with h | h
    · cases h; exact h2
    · exact h3 u h

/-- **C110 (splitting, when it works).** The cluster made by training points with features of absolute value at most `M` is split into two clusters
without NaN as soon as some feature has a population variance above `5 · (n + 5) · ulp · M²`. Without such a feature this is false, see `C110_label_lost`. -/
theorem C110_split_partial (h : IsRounding f fl) (hp : 1 ≤ f.prec) (root : ℚ → ℚ) {fc : Nat} (x : List ℚ) (xs : List (List ℚ × Int)) (label t thr : Int) {M : ℚ}
    (hM : 0 < M) (hlen : ∀ p ∈ x :: xs.map Prod.fst, p.length = fc)
    (hv : ∀ p ∈ x :: xs.map Prod.fst, ∀ i < fc, IsFloat f (p.getD i 0) ∧ |p.getD i 0| ≤ M)
    (hn : 5 * (((xs.length + 1 : Nat) : ℚ) + 5) * ulp f ≤ 1) (ht : tiny f ≤ ulp f * M) (ht2 : tiny f ≤ ulp f * M ^ 2)
    {i : Nat} (hi : i < fc) (hvar : 5 * (((xs.length + 1 : Nat) : ℚ) + 5) * ulp f * M ^ 2 < varOf (x :: xs.map Prod.fst) i)
    (s s' : State Num) (ci j : Nat) (hc : s.clusters[ci]? = some (clusterR fl x xs label t thr)) (hs : splitIntoR fl root s ci j = .ok s') :
    ∀ k, k = ci ∨ k = j → ∃ d, s'.clusters[k]? = some d ∧ d.label = label ∧ d.n = 1 ∧ none ∉ d.sum ∧ none ∉ d.sq := by
  have acc := fun k (hk : k < fc) => C110_accuracy h hp x xs label t thr hM hlen hk (fun p hp' => hv p hp' k hk) hn ht ht2
  set c := clusterR fl x xs label t thr with hcdef
  have hlab : c.label = label := by
    have : ∀ (xs : List (List ℚ × Int)) (c : Cluster Num), (xs.foldl (fun c q => incorporateR fl c (q.1.map some) q.2) c).label = c.label := by
      intro xs
      induction xs with
      | nil => intro c; rfl
      | cons q xs ih => intro c; rw [List.foldl_cons, ih]; rfl
    rw [hcdef]
    exact this _ _
  have hlens : c.sum.length = fc ∧ c.sq.length = fc := by
    have : ∀ (xs : List (List ℚ × Int)) (c : Cluster Num), (∀ q ∈ xs, q.1.length = fc) → c.sum.length = fc ∧ c.sq.length = fc →
        (xs.foldl (fun c q => incorporateR fl c (q.1.map some) q.2) c).sum.length = fc ∧
        (xs.foldl (fun c q => incorporateR fl c (q.1.map some) q.2) c).sq.length = fc := by
      intro xs
      induction xs with
      | nil => intro c _ hc; exact hc
      | cons q xs ih =>
        intro c hq hc
        rw [List.foldl_cons]
        refine ih _ (fun r hr => hq r (by simp [hr])) ⟨?_, ?_⟩ <;> simp [incorporateR, hc.1, hc.2, hq q (by simp)]
    rw [hcdef]
    exact this _ _ (fun q hq => hlen q.1 (by simp only [List.mem_cons, List.mem_map]; exact .inr ⟨q, hq, rfl⟩))
      (by simp [initClusterR, hlen x (by simp)])
  have hvl : (variancesR fl c).length = fc := by simp [variancesR, hlens.1, hlens.2]
  have hcl : (centroidR fl c).length = fc := by simp [centroidR, hlens.1]
  have hvn : ∀ v ∈ variancesR fl c, v ≠ none := by
    intro v hv'
    obtain ⟨k, hk, rfl⟩ := List.getElem_of_mem hv'
    obtain ⟨-, w, h1, -⟩ := acc k (by rw [← hvl]; exact hk)
    rw [List.getElem?_eq_getElem hk] at h1
    rw [Option.some.inj h1]
    simp
  have hcn : ∀ v ∈ centroidR fl c, v ≠ none := by
    intro v hv'
    obtain ⟨k, hk, rfl⟩ := List.getElem_of_mem hv'
    obtain ⟨⟨w, h1, -⟩, -⟩ := acc k (by rw [← hcl]; exact hk)
    rw [List.getElem?_eq_getElem hk] at h1
    rw [Option.some.inj h1]
    simp
  obtain ⟨k0, w, hl1, hl2⟩ := splitLoopR_first (by intro h0; rw [h0] at hvl; simp at hvl; omega) hvn
  have hw : 0 < w := by
    obtain ⟨-, v, h1, h2⟩ := acc i hi
    have := hl2 v (List.mem_of_getElem? h1)
    have := (abs_le.1 h2).1
    linarith
  have hroot : Num.sqrt root (some w) = some (root w) := by simp only [Num.sqrt, if_neg (not_lt.2 hw.le)]
  have hmod : ∀ g : ℚ → ℚ, none ∉ (centroidR fl c).modify k0 (fun v => v.map g) := by
    intro g hmem
    obtain ⟨k, hk⟩ := List.getElem?_of_mem hmem
    rw [List.getElem?_modify] at hk
    cases hq : (centroidR fl c)[k]? with
    | none => rw [hq] at hk; simp at hk
    | some v =>
      obtain ⟨b, hb⟩ := Option.ne_none_iff_exists'.1 (hcn v (List.mem_of_getElem? hq))
      rw [hq, hb] at hk
      by_cases e : k0 = k <;> simp [e] at hk
  have hinit : ∀ (y : List Num) (l a b : Int), none ∉ y → (initClusterR fl y l a b).n = 1 ∧ none ∉ (initClusterR fl y l a b).sum ∧ none ∉ (initClusterR fl y l a b).sq := by
    intro y l a b hy
    refine ⟨rfl, hy, fun hmem => ?_⟩
    obtain ⟨v, hv1, hv2⟩ := List.mem_map.1 hmem
    cases v with
    | none => exact hy hv1
    | some v => simp [Num.mul, Num.lift] at hv2
  have hsub : (fun v : Num => Num.sub fl v (some (root w))) = fun v => v.map (fun a => fl (a - root w)) := by
    funext v; cases v <;> rfl
  have hadd : (fun v : Num => Num.add fl v (some (root w))) = fun v => v.map (fun a => fl (a + root w)) := by
    funext v; cases v <;> rfl
  simp only [splitIntoR, rd_eq_ok_iff.2 hc, bind, Except.bind, hl1, hroot, hsub, hadd] at hs
  revert hs
  generalize hc1 : initClusterR fl ((centroidR fl c).modify k0 (fun v => v.map (fun a => fl (a - root w)))) c.label _ _ = c1
  have good1 : c1.label = label ∧ c1.n = 1 ∧ none ∉ c1.sum ∧ none ∉ c1.sq := by
    rw [← hc1]
    exact ⟨hlab, hinit _ _ _ _ (hmod _)⟩
  intro hs
  cases hw1 : wr s.clusters j c1 with
  | error e => rw [hw1] at hs; cases hs
  | ok cl1 =>
    obtain ⟨hj, hcl0⟩ := wr_eq_ok_iff.1 hw1
    have hcl1 := hcl0.symm
    have hci : ci < s.clusters.length := (List.getElem?_eq_some_iff.1 hc).1
    have hci1 : ci < cl1.length := by rw [hcl1, List.length_set]; exact hci
    rw [hw1] at hs
    simp only [rd_ok hci1, wr_ok _ hci1] at hs
    have hlab2 : cl1[ci].label = label := by
      have hq : cl1[ci]? = (s.clusters.set j c1)[ci]? := by rw [hcl1]
      rw [List.getElem?_eq_getElem hci1] at hq
      by_cases e : j = ci
      · subst e
        rw [List.getElem?_set_self hj] at hq
        rw [Option.some.inj hq]; exact good1.1
      · rw [List.getElem?_set_ne e, hc] at hq
        rw [Option.some.inj hq]; exact hlab
    rw [hlab2] at hs
    revert hs
    generalize hc2 : initClusterR fl ((centroidR fl c).modify k0 (fun v => v.map (fun a => fl (a + root w)))) label _ _ = c2
    have good2 : c2.label = label ∧ c2.n = 1 ∧ none ∉ c2.sum ∧ none ∉ c2.sq := by
      rw [← hc2]
      exact ⟨rfl, hinit _ _ _ _ (hmod _)⟩
    intro hs
    cases hw2 : wr s.active j true with
    | error e => rw [hw2] at hs; cases hs
    | ok act =>
      rw [hw2] at hs
      simp only [pure, Except.pure, Except.ok.injEq] at hs
      rw [← hs]
      intro k hk
      by_cases e : k = ci
      · subst e
        exact ⟨c2, List.getElem?_set_self hci1, good2⟩
      · obtain rfl := hk.resolve_left e
        refine ⟨c1, ?_, good1⟩
        show (cl1.set ci c2)[k]? = some c1
        rw [List.getElem?_set_ne (fun h => e h.symm), hcl1, List.getElem?_set_self hj]

/-! ### A label is lost -/

/-- the `double` nearest to 0.1 -/
def tenth : ℚ := 3602879701896397 / 36028797018963968

/-- A square root that is exact for squares of rational numbers. -/
def ratRoot (q : ℚ) : ℚ := (Nat.sqrt q.num.toNat : ℚ) / (Nat.sqrt q.den : ℚ)

theorem ratRoot_sq {v : ℚ} (hv : 0 ≤ v) : ratRoot (v * v) = v := by
  unfold ratRoot
  rw [Rat.mul_self_num, Rat.mul_self_den]
  have : 0 ≤ v.num := Rat.num_nonneg.2 hv
  obtain ⟨n, hn⟩ := Int.eq_ofNat_of_zero_le this
  rw [hn]
  rw [show ((n : Int) * (n : Int)).toNat = n * n by exact_mod_cast Int.toNat_natCast (n * n), Nat.sqrt_eq, Nat.sqrt_eq]
  conv_rhs => rw [← Rat.num_div_den v, hn]
  push_cast
  rfl

/-- unused slots -/
def junkR : List (Cluster Num) := List.replicate 8 ⟨[some 0], [some 0], 0, 0, 0, 0, 0, 0⟩
def junkQ : List (Cluster ℚ) := List.replicate 8 ⟨[0], [0], 0, 0, 0, 0, 0, 0⟩

/-- three points at 0.1 with the label 1, and four other points with the label 2 -/
def lostHistory : List (List ℚ × Int) := [([tenth], 1), ([tenth], 1), ([tenth], 1), ([9 / 2], 2), ([1 / 2], 2), ([1 / 4], 2), ([1 / 8], 2)]

/-- **C110 (violation).** Double precision, a pool of 8 clusters, error threshold 1. Three training points at 0.1 have the label 1, then four points at 4.5,
0.5, 0.25 and 0.125 have the label 2. Before the last point, 0.1 is classified 1. The last point makes the cluster of label 1 split; its computed
variance is negative, the square root is NaN, and both halves have a NaN centroid: now no point at all is classified 1. With exact arithmetic 0.1 is
still classified 1. -/
theorem C110_label_lost :
    (∀ v : ℚ, 0 ≤ v → ratRoot (v * v) = v) ∧
    (∃ s, mcRunR (rn double) ratRoot (mcNewR junkR 1 0 0) (lostHistory.take 6) = .ok s ∧ mcPredictR (rn double) 0 s [some tenth] = .ok 1) ∧
    (∃ s, mcRunR (rn double) ratRoot (mcNewR junkR 1 0 0) lostHistory = .ok s ∧ (∃ i c, InUse s i c ∧ c.label = 1) ∧
      ∀ x : ℚ, mcPredictR (rn double) 0 s [some x] ≠ .ok 1) ∧
    (∃ s, Mcnn.run ratRoot (Mcnn.new junkQ 1 0 0) lostHistory = .ok s ∧ Mcnn.predict 0 s [tenth] = .ok 1) := by
  refine ⟨fun v hv => ratRoot_sq hv, ?_, ?_, ?_⟩
  · have h : (mcRunR (rn double) ratRoot (mcNewR junkR 1 0 0) (lostHistory.take 6)).bind (fun s => mcPredictR (rn double) 0 s [some tenth]) = .ok 1 := by
      decide +kernel
    cases hr : mcRunR (rn double) ratRoot (mcNewR junkR 1 0 0) (lostHistory.take 6) with
    | error e => rw [hr] at h; cases h
    | ok s => rw [hr] at h; exact ⟨s, rfl, h⟩
  · have h1 : (mcRunR (rn double) ratRoot (mcNewR junkR 1 0 0) lostHistory).map (fun s => s.active) = .ok [true, true, true, true, true, true, false, false] := by
      decide +kernel
    have h2 : (mcRunR (rn double) ratRoot (mcNewR junkR 1 0 0) lostHistory).map (fun s => s.clusters.map (fun c => c.label)) = .ok [1, 2, 2, 2, 2, 1, 0, 0] := by
      decide +kernel
    have h3 : (mcRunR (rn double) ratRoot (mcNewR junkR 1 0 0) lostHistory).map (fun s => s.clusters.map (fun c => c.sum)) =
        .ok [[none], [some (9 / 2)], [some (1 / 2)], [some (1 / 4)], [some (1 / 8)], [none], [some 0], [some 0]] := by
      decide +kernel
    cases hr : mcRunR (rn double) ratRoot (mcNewR junkR 1 0 0) lostHistory with
    | error e => rw [hr] at h1; cases h1
    | ok s =>
      rw [hr] at h1 h2 h3
      simp only [Except.map, Except.ok.injEq] at h1 h2 h3
      have hlen : s.clusters.length = s.active.length := by
        have := congrArg List.length h2
        rw [List.length_map] at this
        rw [this, h1]
        rfl
      refine ⟨s, rfl, ?_, ?_⟩
      · have hc : 0 < s.clusters.length := by rw [hlen, h1]; simp
        refine ⟨0, s.clusters[0], ⟨by rw [h1]; rfl, List.getElem?_eq_getElem hc⟩, ?_⟩
        have := congrArg (fun l => l[0]?) h2
        simp only [List.getElem?_map, List.getElem?_eq_getElem hc] at this
        simpa using this
      · intro x hx
        obtain ⟨best, d, e1, e2⟩ := findNearestR_ok (fl := rn double) s [some x] hlen
        cases best with
        | none =>
          simp only [mcPredictR, e1, bind, Except.bind, pure, Except.pure] at hx
          cases hx
        | some j =>
          have e3 := (nearestLoopR_none (fl := rn double) s [some x] (fun _ => true) hlen s.active.length 0 none (some 1000000) (some j) d (by omega)
            (by rw [← hlen]; exact e1)).2 j rfl
          obtain ⟨c, hc1, -, hc2⟩ := e3.resolve_left (by simp)
          have hjl : j < s.clusters.length := (List.getElem?_eq_some_iff.1 hc1.2).1
          have hcc : s.clusters[j] = c := by have := hc1.2; rw [List.getElem?_eq_getElem hjl] at this; exact Option.some.inj this
          simp only [mcPredictR, e1, bind, Except.bind, rd_ok hjl, hcc, pure, Except.pure, Except.ok.injEq] at hx
          have l2 := congrArg (fun l => l[j]?) h2
          have l3 := congrArg (fun l => l[j]?) h3
          simp only [List.getElem?_map, hc1.2, Option.map_some, hx] at l2 l3
          have hnan : c.sum = [none] := by
            have hj8 : j < 8 := by
              have := hjl
              rw [hlen, h1] at this
              simpa using this
            rcases j with _ | _ | _ | _ | _ | _ | _ | _ | j <;> simp at l2 l3
            · exact l3
            · exact l3
          rw [show centroidR (rn double) c = [none] by simp [centroidR, hnan, Num.div, Num.lift]] at hc2
          simp [distanceR, Num.sub, Num.mul, Num.add, Num.lift, Num.lt] at hc2
  · have h : (Mcnn.run ratRoot (Mcnn.new junkQ 1 0 0) lostHistory).bind (fun s => Mcnn.predict 0 s [tenth]) = .ok 1 := by decide +kernel
    cases hr : Mcnn.run ratRoot (Mcnn.new junkQ 1 0 0) lostHistory with
    | error e => rw [hr] at h; cases h
    | ok s => rw [hr] at h; exact ⟨s, rfl, h⟩

/-- The hypotheses of `C110_split_partial` are met in double precision, e.g. by the points 0 and 1. -/
example : 5 * (((1 + 1 : Nat) : ℚ) + 5) * ulp double ≤ 1 ∧ tiny double ≤ ulp double * 1 ∧
    5 * (((1 + 1 : Nat) : ℚ) + 5) * ulp double * 1 ^ 2 < varOf [[0], [1]] 0 ∧ IsFloat double 0 ∧ IsFloat double 1 := by
  refine ⟨?_, ?_, ?_, isFloat_zero _, ?_⟩
  · unfold ulp double; norm_num
  · rw [mul_one]
    exact two_zpow_le (by decide)
  · have : varOf [[0], [1]] 0 = (1 / 4 : ℚ) := by decide +kernel
    rw [this]
    unfold ulp double; norm_num
  · exact_mod_cast isFloat_int (f := double) (by decide) (n := 1) (by decide) (by decide)

end Orp.Rounding
