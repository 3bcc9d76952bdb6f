import Verif.Rounding.Samplers

/-!
`turn_array_into_probability` and `pick_from_distribution` with rounded arithmetic (C107).
-/

namespace Orp.Rounding

variable {f : Fmt} {fl : ℚ → ℚ}

/-- The sum in `turn_array_into_probability` (utils.hpp:32-34) with rounding -/
def sumR (fl : ℚ → ℚ) (values : List ℚ) : ℚ := values.foldl (fun a v => fl (a + v)) 0

/-- The loop of `turn_array_into_probability` (utils.hpp:40-41) with rounding -/
def cumulateR (fl : ℚ → ℚ) (sum prev : ℚ) : List ℚ → List ℚ
  | [] => []
  | v :: vs => fl (prev + fl (v / sum)) :: cumulateR fl sum (fl (prev + fl (v / sum))) vs

/-- `turn_array_into_probability` (utils.hpp:29-42) with rounding; see `Utils.turnIntoProbability` -/
def turnR (fl : ℚ → ℚ) (values : List ℚ) (sum : ℚ := -1) : Res (List ℚ) :=
  let sum := if sum < 0 then sumR fl values else sum
  match values with
  | [] => .error .ub
  | v :: vs => if sum = 0 then .error .ub else .ok (fl (v / sum) :: cumulateR fl sum (fl (v / sum)) vs)

theorem cumulateR_id (sum : ℚ) : ∀ (vs : List ℚ) (prev : ℚ), cumulateR id sum prev vs = Utils.cumulate sum prev vs
  | [], _ => rfl
  | v :: vs, prev => by
      simp only [cumulateR, Utils.cumulate, id, cumulateR_id sum vs]

/-- without rounding this is the function of the model -/
theorem turnR_id (values : List ℚ) (sum : ℚ) : turnR id values sum = Utils.turnIntoProbability values sum := by
  unfold turnR Utils.turnIntoProbability sumR
  cases values with
  | nil => rfl
  | cons v vs => simp only [cumulateR_id, id]

/-! ### The error of one operation -/

/-- the relative error of an operation whose result is not too small -/
def ulp (f : Fmt) : ℚ := (2 : ℚ) ^ (-(f.prec : Int))

/-- half of the smallest number of the format -/
def tiny (f : Fmt) : ℚ := (2 : ℚ) ^ (f.emin - 1)

theorem ulp_pos (f : Fmt) : 0 < ulp f := two_zpow_pos _
theorem tiny_pos (f : Fmt) : 0 < tiny f := two_zpow_pos _

theorem roundEven_half (x : ℚ) : |(roundEven x : ℚ) - x| ≤ 1 / 2 := by
  have h1 := Int.floor_le x
  have h2 := Int.lt_floor_add_one x
  rcases le_or_gt (x - ⌊x⌋) (1 / 2) with h | h
  · refine le_trans (roundEven_le x ⌊x⌋) ?_
    rw [abs_of_nonpos (by linarith)]; linarith
  · refine le_trans (roundEven_le x (⌊x⌋ + 1)) ?_
    push_cast
    rw [abs_of_nonneg (by linarith)]; linarith

theorem rn_half (f : Fmt) (x : ℚ) : |rn f x - x| ≤ (2 : ℚ) ^ (expo f x - 1) := by
  have hpos := two_zpow_pos (expo f x)
  have e1 : rn f x - x = (roundEven (x / (2 : ℚ) ^ expo f x) - x / (2 : ℚ) ^ expo f x) * (2 : ℚ) ^ expo f x := by
    unfold rn
    rw [sub_mul, div_mul_cancel₀ _ hpos.ne']
  rw [e1, abs_mul, abs_of_pos hpos, zpow_sub₀ (by norm_num), zpow_one]
  have := mul_le_mul_of_nonneg_right (roundEven_half (x / (2 : ℚ) ^ expo f x)) hpos.le
  linarith

theorem log_ulp (f : Fmt) {x : ℚ} (hx : x ≠ 0) : (2 : ℚ) ^ (Int.log 2 |x| - f.prec) ≤ |x| * ulp f := by
  have := Int.zpow_log_le_self (b := 2) (by norm_num) (abs_pos.2 hx)
  have h : (2 : ℚ) ^ Int.log 2 |x| ≤ |x| := by exact_mod_cast this
  rw [sub_eq_add_neg, zpow_add₀ (by norm_num)]
  exact mul_le_mul_of_nonneg_right h (two_zpow_pos _).le

/-- the error of any operation -/
theorem IsRounding.error (h : IsRounding f fl) (hp : 1 ≤ f.prec) (x : ℚ) : |fl x - x| ≤ |x| * ulp f + tiny f := by
  by_cases hx : x = 0
  · rw [hx, h.fix (isFloat_zero f)]
    simp [(tiny_pos f).le]
  refine le_trans ((h x).2 _ (rn_float f hp x)) (le_trans (rn_half f x) ?_)
  have h1 := log_ulp f hx
  have h2 := (mul_pos (abs_pos.2 hx) (ulp_pos f)).le
  have h3 := (tiny_pos f).le
  unfold expo
  rcases le_total f.emin (Int.log 2 |x| - (f.prec - 1)) with h4 | h4
  · rw [max_eq_right h4, show Int.log 2 |x| - ((f.prec : Int) - 1) - 1 = Int.log 2 |x| - f.prec by ring]
    linarith
  · rw [max_eq_left h4]
    show tiny f ≤ _
    linarith

/-- the error of an addition: there is no underflow -/
theorem IsRounding.error_add (h : IsRounding f fl) (hp : 1 ≤ f.prec) {a b : ℚ} (ha : IsFloat f a) (hb : IsFloat f b) :
    |fl (a + b) - (a + b)| ≤ |a + b| * ulp f := by
  obtain ⟨n, hn⟩ := ha.multiple
  obtain ⟨m, hm⟩ := hb.multiple
  have hs : a + b = ((n + m : Int) : ℚ) * (2 : ℚ) ^ f.emin := by rw [hn, hm]; push_cast; ring
  by_cases hsmall : |n + m| ≤ 2 ^ f.prec
  · have : IsFloat f (a + b) := by rw [hs]; exact isFloat_grid hp hsmall le_rfl
    rw [h.fix this, sub_self, abs_zero]
    exact mul_nonneg (abs_nonneg _) (ulp_pos f).le
  · push Not at hsmall
    have hx : a + b ≠ 0 := by
      rw [hs]
      refine mul_ne_zero ?_ (two_zpow_pos _).ne'
      intro h0
      have : n + m = 0 := by exact_mod_cast h0
      rw [this] at hsmall
      have : (0 : Int) < 2 ^ f.prec := by positivity
      simp at hsmall
      omega
    refine le_trans ((h (a + b)).2 _ (rn_float f hp _)) (le_trans (rn_half f _) ?_)
    have hbig : (2 : ℚ) ^ (f.emin + f.prec) ≤ |a + b| := by
      rw [hs, abs_mul, abs_of_pos (two_zpow_pos f.emin), zpow_add₀ (by norm_num), mul_comm]
      refine mul_le_mul_of_nonneg_right ?_ (two_zpow_pos _).le
      rw [zpow_natCast]; exact_mod_cast hsmall.le
    have hlt := Int.lt_zpow_succ_log_self (b := 2) (by norm_num) |a + b|
    have hlt : |a + b| < (2 : ℚ) ^ (Int.log 2 |a + b| + 1) := by exact_mod_cast hlt
    have := two_zpow_lt.1 (lt_of_le_of_lt hbig hlt)
    unfold expo
    rw [max_eq_right (by omega), show Int.log 2 |a + b| - ((f.prec : Int) - 1) - 1 = Int.log 2 |a + b| - f.prec by ring]
    exact log_ulp f hx

theorem IsRounding.nonneg (h : IsRounding f fl) {x : ℚ} (hx : 0 ≤ x) : 0 ≤ fl x := h.ge (isFloat_zero f) hx

theorem IsRounding.bounds (h : IsRounding f fl) (hp : 1 ≤ f.prec) {x : ℚ} (hx : 0 ≤ x) : (1 - ulp f) * x - tiny f ≤ fl x ∧ fl x ≤ (1 + ulp f) * x + tiny f := by
  have := abs_le.1 (h.error hp x)
  rw [abs_of_nonneg hx] at this
  constructor <;> nlinarith [this.1, this.2]

theorem IsRounding.bounds_add (h : IsRounding f fl) (hp : 1 ≤ f.prec) {a b : ℚ} (ha : IsFloat f a) (hb : IsFloat f b) (hx : 0 ≤ a + b) :
    (1 - ulp f) * (a + b) ≤ fl (a + b) ∧ fl (a + b) ≤ (1 + ulp f) * (a + b) := by
  have := abs_le.1 (h.error_add hp ha hb)
  rw [abs_of_nonneg hx] at this
  constructor <;> nlinarith [this.1, this.2]

/-! ### The whole computation -/

theorem ulp_le_half (hp : 1 ≤ f.prec) : ulp f ≤ 1 / 2 := by
  have h : (2 : ℚ) ^ (-1 : Int) = 1 / 2 := by norm_num
  rw [← h]; exact two_zpow_le (by omega)

theorem sum_bounds (h : IsRounding f fl) (hp : 1 ≤ f.prec) : ∀ (vs : List ℚ) (a : ℚ), (∀ v ∈ vs, IsFloat f v ∧ 0 ≤ v) → IsFloat f a → 0 ≤ a →
    IsFloat f (vs.foldl (fun a v => fl (a + v)) a) ∧ (1 - ulp f) ^ vs.length * (a + vs.sum) ≤ vs.foldl (fun a v => fl (a + v)) a ∧
      vs.foldl (fun a v => fl (a + v)) a ≤ (1 + ulp f) ^ vs.length * (a + vs.sum)
  | [], a, _, ha, _ => by simp [ha]
  | v :: vs, a, hv, ha, ha0 => by
      obtain ⟨hvf, hv0⟩ := hv v (by simp)
      have hb := h.bounds_add hp ha hvf (by linarith)
      obtain ⟨i1, i2, i3⟩ := sum_bounds h hp vs (fl (a + v)) (fun w hw => hv w (List.mem_cons_of_mem _ hw)) (h.float _) (h.nonneg (by linarith))
      have hs : 0 ≤ vs.sum := List.sum_nonneg (fun w hw => (hv w (List.mem_cons_of_mem _ hw)).2)
      have he := ulp_pos f
      have he2 := ulp_le_half (f := f) hp
      have p1 : (0 : ℚ) ≤ (1 - ulp f) ^ vs.length := pow_nonneg (by linarith) _
      have p2 : (0 : ℚ) ≤ (1 + ulp f) ^ vs.length := pow_nonneg (by linarith) _
      refine ⟨i1, le_trans ?_ i2, le_trans i3 ?_⟩
      · rw [List.length_cons, pow_succ, List.sum_cons, mul_assoc]
        refine mul_le_mul_of_nonneg_left ?_ p1
        nlinarith [hb.1]
      · rw [List.length_cons, pow_succ, List.sum_cons, mul_assoc]
        refine mul_le_mul_of_nonneg_left ?_ p2
        nlinarith [hb.2]

theorem cumulate_bounds (h : IsRounding f fl) (hp : 1 ≤ f.prec) {S : ℚ} (hS : 0 < S) : ∀ (vs : List ℚ) (c : ℚ), (∀ v ∈ vs, 0 ≤ v) → IsFloat f c → 0 ≤ c →
    ∀ (i : Nat) (x : ℚ), (cumulateR fl S c vs)[i]? = some x →
      (1 - ulp f) ^ (i + 1) * (c + (1 - ulp f) * ((vs.take (i + 1)).sum / S)) - (i + 1) * tiny f ≤ x ∧
      x ≤ (1 + ulp f) ^ (i + 1) * (c + (1 + ulp f) * ((vs.take (i + 1)).sum / S) + (i + 1) * tiny f)
  | [], c, _, _, _, i, x, hx => by simp [cumulateR] at hx
  | v :: vs, c, hv, hc, hc0, i, x, hx => by
      have hv0 := hv v (by simp)
      have he := ulp_pos f
      have he2 := ulp_le_half (f := f) hp
      have ht := tiny_pos f
      have hq0 : 0 ≤ v / S := div_nonneg hv0 hS.le
      have hq := h.bounds hp hq0
      have hq1 := h.nonneg hq0
      have hadd := h.bounds_add hp hc (h.float (v / S)) (by linarith)
      have hc1 : 0 ≤ fl (c + fl (v / S)) := h.nonneg (by linarith)
      -- one step
      have s1 : (1 - ulp f) * (c + (1 - ulp f) * (v / S)) - tiny f ≤ fl (c + fl (v / S)) := by nlinarith [hadd.1, hq.1]
      have s2 : fl (c + fl (v / S)) ≤ (1 + ulp f) * (c + (1 + ulp f) * (v / S) + tiny f) := by nlinarith [hadd.2, hq.2]
      cases i with
      | zero =>
          simp only [cumulateR, List.getElem?_cons_zero, Option.some.injEq] at hx
          subst hx
          simp only [List.take_succ_cons, List.take_zero, List.sum_cons, List.sum_nil, add_zero, zero_add, pow_one, Nat.cast_zero, one_mul]
          exact ⟨s1, s2⟩
      | succ i =>
          simp only [cumulateR, List.getElem?_cons_succ] at hx
          obtain ⟨j1, j2⟩ := cumulate_bounds h hp hS vs _ (fun w hw => hv w (List.mem_cons_of_mem _ hw)) (h.float _) hc1 i x hx
          rw [List.take_succ_cons, List.sum_cons, add_div]
          set T := (vs.take (i + 1)).sum / S with hT
          have hT0 : 0 ≤ T := div_nonneg (List.sum_nonneg (fun w hw => hv w (List.mem_cons_of_mem _ (List.mem_of_mem_take hw)))) hS.le
          have p1 : (0 : ℚ) ≤ (1 - ulp f) ^ (i + 1) := pow_nonneg (by linarith) _
          have p1' : (1 - ulp f) ^ (i + 1) ≤ 1 := pow_le_one₀ (by linarith) (by linarith)
          have p2 : (0 : ℚ) ≤ (1 + ulp f) ^ (i + 1) := pow_nonneg (by linarith) _
          constructor
          · refine le_trans ?_ j1
            have k1 := mul_le_mul_of_nonneg_left s1 p1
            have k2 : (1 - ulp f) ^ (i + 1) * tiny f ≤ tiny f := by nlinarith
            have k3 : (1 - ulp f) ^ (i + 1) * ((1 - ulp f) * ((1 - ulp f) * T)) ≤ (1 - ulp f) ^ (i + 1) * ((1 - ulp f) * T) := by
              refine mul_le_mul_of_nonneg_left ?_ p1
              have : 0 ≤ (1 - ulp f) * T := mul_nonneg (by linarith) hT0
              nlinarith
            rw [pow_succ]
            push_cast
            nlinarith
          · refine le_trans j2 ?_
            have k1 := mul_le_mul_of_nonneg_left s2 p2
            have k3 : (1 + ulp f) ^ (i + 1) * ((1 + ulp f) * T + (i + 1) * tiny f) ≤ (1 + ulp f) ^ (i + 1) * ((1 + ulp f) * ((1 + ulp f) * T + (i + 1) * tiny f)) := by
              refine mul_le_mul_of_nonneg_left ?_ p2
              have : 0 ≤ (1 + ulp f) * T := mul_nonneg (by linarith) hT0
              have : 0 ≤ ((i : ℚ) + 1) * tiny f := by positivity
              nlinarith
            rw [pow_succ (1 + ulp f) (i + 1)]
            push_cast
            nlinarith

theorem bernoulli {e : ℚ} (h1 : e ≤ 1) (n : Nat) : 1 - n * e ≤ (1 - e) ^ n := by
  have := one_add_mul_le_pow (a := -e) (by linarith) n
  have e1 : 1 + -e = 1 - e := by ring
  rw [e1] at this
  linarith

theorem cumulateR_length (S : ℚ) : ∀ (vs : List ℚ) (c : ℚ), (cumulateR fl S c vs).length = vs.length
  | [], _ => rfl
  | v :: vs, c => by simp [cumulateR, cumulateR_length S vs]

theorem cumulateR_ge (h : IsRounding f fl) {S : ℚ} (hS : 0 < S) : ∀ (vs : List ℚ) (c : ℚ), (∀ v ∈ vs, 0 ≤ v) → IsFloat f c →
    ∀ x ∈ cumulateR fl S c vs, c ≤ x
  | [], _, _, _, x, hx => by simp [cumulateR] at hx
  | v :: vs, c, hv, hc, x, hx => by
      have h1 : c ≤ fl (c + fl (v / S)) :=
        h.ge hc (by linarith [h.nonneg (div_nonneg (hv v (by simp)) hS.le)])
      rcases List.mem_cons.1 hx with rfl | hx
      · exact h1
      · exact le_trans h1 (cumulateR_ge h hS vs _ (fun w hw => hv w (List.mem_cons_of_mem _ hw)) (h.float _) x hx)

theorem cumulateR_mono (h : IsRounding f fl) {S : ℚ} (hS : 0 < S) : ∀ (vs : List ℚ) (c : ℚ), (∀ v ∈ vs, 0 ≤ v) → IsFloat f c →
    (cumulateR fl S c vs).Pairwise (· ≤ ·)
  | [], _, _, _ => by simp [cumulateR]
  | v :: vs, c, hv, hc => by
      refine List.pairwise_cons.2 ⟨cumulateR_ge h hS vs _ (fun w hw => hv w (List.mem_cons_of_mem _ hw)) (h.float _),
        cumulateR_mono h hS vs _ (fun w hw => hv w (List.mem_cons_of_mem _ hw)) (h.float _)⟩

/-- equal to its predecessor if the weight is zero -/
theorem cumulateR_zero (h : IsRounding f fl) {S : ℚ} : ∀ (vs : List ℚ) (c : ℚ), IsFloat f c → ∀ i : Nat, vs[i]? = some (0 : ℚ) →
    (c :: cumulateR fl S c vs)[i + 1]? = (c :: cumulateR fl S c vs)[i]?
  | [], _, _, i, hi => by simp at hi
  | v :: vs, c, hc, 0, hi => by
      simp only [List.getElem?_cons_zero, Option.some.injEq] at hi
      subst hi
      simp only [cumulateR, zero_div, h.fix (isFloat_zero f), add_zero, h.fix hc, List.getElem?_cons_succ, List.getElem?_cons_zero]
  | v :: vs, c, hc, i + 1, hi => by
      have := cumulateR_zero (S := S) h vs (fl (c + fl (v / S))) (h.float _) i (by simpa using hi)
      simpa [cumulateR] using this

theorem sumR_bounds (h : IsRounding f fl) (hp : 1 ≤ f.prec) {vs : List ℚ} (hv : ∀ v ∈ vs, IsFloat f v ∧ 0 ≤ v) :
    (1 - ulp f) ^ vs.length * vs.sum ≤ sumR fl vs ∧ sumR fl vs ≤ (1 + ulp f) ^ vs.length * vs.sum := by
  have := (sum_bounds h hp vs 0 hv (isFloat_zero f) le_rfl).2
  simp only [zero_add] at this
  exact this

theorem sumR_pos (h : IsRounding f fl) (hp : 1 ≤ f.prec) {vs : List ℚ} (hv : ∀ v ∈ vs, IsFloat f v ∧ 0 ≤ v) (hs : 0 < vs.sum) : 0 < sumR fl vs := by
  have he2 := ulp_le_half (f := f) hp
  exact lt_of_lt_of_le (mul_pos (pow_pos (by linarith) _) hs) (sumR_bounds h hp hv).1

theorem turnR_ok (h : IsRounding f fl) (hp : 1 ≤ f.prec) {v : ℚ} {vs : List ℚ} (hv : ∀ w ∈ v :: vs, IsFloat f w ∧ 0 ≤ w) (hs : 0 < (v :: vs).sum) :
    turnR fl (v :: vs) = .ok (fl (v / sumR fl (v :: vs)) :: cumulateR fl (sumR fl (v :: vs)) (fl (v / sumR fl (v :: vs))) vs) := by
  have := sumR_pos h hp hv hs
  unfold turnR
  rw [if_pos (by norm_num)]
  simp only [if_neg this.ne']

/-- the bounds in terms of powers -/
theorem turnR_bounds (h : IsRounding f fl) (hp : 1 ≤ f.prec) {vs : List ℚ} (hv : ∀ v ∈ vs, IsFloat f v ∧ 0 ≤ v) (hs : 0 < vs.sum) :
    ∃ p, turnR fl vs = .ok p ∧ p.length = vs.length ∧ ∀ i x, p[i]? = some x →
      (1 - ulp f) ^ (i + 1) * ((vs.take (i + 1)).sum / sumR fl vs) - (i + 1) * tiny f ≤ x ∧
      x ≤ (1 + ulp f) ^ (i + 1) * ((vs.take (i + 1)).sum / sumR fl vs + (i + 1) * tiny f) := by
  cases vs with
  | nil => simp at hs
  | cons v vs =>
      have hS := sumR_pos h hp hv hs
      refine ⟨_, turnR_ok h hp hv hs, by simp [cumulateR_length], ?_⟩
      set S := sumR fl (v :: vs)
      have he := ulp_pos f
      have he2 := ulp_le_half (f := f) hp
      have ht := tiny_pos f
      have hv0 : 0 ≤ v := (hv v (by simp)).2
      have hq0 : 0 ≤ v / S := div_nonneg hv0 hS.le
      have hq := h.bounds hp hq0
      intro i x hx
      cases i with
      | zero =>
          simp only [List.getElem?_cons_zero, Option.some.injEq] at hx
          subst hx
          simp only [List.take_succ_cons, List.take_zero, List.sum_cons, List.sum_nil, add_zero, zero_add, pow_one, Nat.cast_zero, one_mul]
          exact ⟨hq.1, by nlinarith [hq.2]⟩
      | succ i =>
          rw [List.getElem?_cons_succ] at hx
          obtain ⟨j1, j2⟩ := cumulate_bounds h hp hS vs _ (fun w hw => (hv w (List.mem_cons_of_mem _ hw)).2) (h.float _) (h.nonneg hq0) i x hx
          rw [List.take_succ_cons, List.sum_cons, add_div]
          have p1 : (0 : ℚ) ≤ (1 - ulp f) ^ (i + 1) := pow_nonneg (by linarith) _
          have p1' : (1 - ulp f) ^ (i + 1) ≤ 1 := pow_le_one₀ (by linarith) (by linarith)
          have p2 : (0 : ℚ) ≤ (1 + ulp f) ^ (i + 1) := pow_nonneg (by linarith) _
          constructor
          · refine le_trans ?_ j1
            have k1 := mul_le_mul_of_nonneg_left hq.1 p1
            have k2 : (1 - ulp f) ^ (i + 1) * tiny f ≤ tiny f := by nlinarith
            rw [pow_succ (1 - ulp f) (i + 1)]
            push_cast
            nlinarith
          · refine le_trans j2 ?_
            have k1 := mul_le_mul_of_nonneg_left hq.2 p2
            have k2 : 0 ≤ (1 + ulp f) ^ (i + 1) * (ulp f * ((i + 1 + 1) * tiny f)) := by positivity
            rw [pow_succ (1 + ulp f) (i + 1)]
            push_cast
            nlinarith

theorem take_sum_le {vs : List ℚ} (hv : ∀ v ∈ vs, 0 ≤ v) (i : Nat) : 0 ≤ (vs.take i).sum ∧ (vs.take i).sum ≤ vs.sum := by
  have h1 : 0 ≤ (vs.take i).sum := List.sum_nonneg (fun w hw => hv w (List.mem_of_mem_take hw))
  have h2 : 0 ≤ (vs.drop i).sum := List.sum_nonneg (fun w hw => hv w (List.mem_of_mem_drop hw))
  have h3 : (vs.take i).sum + (vs.drop i).sum = vs.sum := by rw [← List.sum_append, List.take_append_drop]
  exact ⟨h1, by linarith⟩

/-- below by `1 - 2nε - nδ` times the exact value -/
theorem turnR_lower (h : IsRounding f fl) (hp : 1 ≤ f.prec) {vs : List ℚ} (hv : ∀ v ∈ vs, IsFloat f v ∧ 0 ≤ v) (hs : 0 < vs.sum)
    {p : List ℚ} (ht : turnR fl vs = .ok p) {i : Nat} {x : ℚ} (hx : p[i]? = some x) :
    (vs.take (i + 1)).sum / vs.sum - vs.length * (2 * ulp f + tiny f) ≤ x := by
  obtain ⟨p', e1, e2, e3⟩ := turnR_bounds h hp hv hs
  rw [ht] at e1; cases e1
  have hi : i + 1 ≤ vs.length := by rw [← e2]; exact (List.getElem?_eq_some_iff.1 hx).1
  have he := ulp_pos f
  have he2 := ulp_le_half (f := f) hp
  have htp := tiny_pos f
  have hb := sumR_bounds h hp hv
  have hS := sumR_pos h hp hv hs
  obtain ⟨t1, t2⟩ := take_sum_le (fun v hv' => (hv v hv').2) (i + 1)
  set T := (vs.take (i + 1)).sum
  have hP0 : 0 ≤ T / vs.sum := div_nonneg t1 hs.le
  have hP1 : T / vs.sum ≤ 1 := (div_le_one hs).2 t2
  refine le_trans ?_ (e3 i x hx).1
  have a1 : (1 - ulp f) ^ vs.length * (T / vs.sum) ≤ T / sumR fl vs := by
    rw [le_div_iff₀ hS]
    have c1 : (1 - ulp f) ^ vs.length * (T / vs.sum) * sumR fl vs ≤ (1 - ulp f) ^ vs.length * (T / vs.sum) * ((1 + ulp f) ^ vs.length * vs.sum) :=
      mul_le_mul_of_nonneg_left hb.2 (mul_nonneg (pow_nonneg (by linarith) _) hP0)
    have c2 : (1 - ulp f) ^ vs.length * (T / vs.sum) * ((1 + ulp f) ^ vs.length * vs.sum) = (1 - ulp f * ulp f) ^ vs.length * T := by
      have : (1 - ulp f * ulp f) = (1 - ulp f) * (1 + ulp f) := by ring
      rw [this, mul_pow]; field_simp
    have c3 : (1 - ulp f * ulp f) ^ vs.length ≤ 1 := pow_le_one₀ (by nlinarith) (by nlinarith)
    nlinarith
  have a2 : (1 - ulp f) ^ vs.length ≤ (1 - ulp f) ^ (i + 1) := pow_le_pow_of_le_one (by linarith) (by linarith) hi
  have a3 : (1 - ulp f) ^ vs.length * ((1 - ulp f) ^ vs.length * (T / vs.sum)) ≤ (1 - ulp f) ^ (i + 1) * (T / sumR fl vs) :=
    mul_le_mul a2 a1 (mul_nonneg (pow_nonneg (by linarith) _) hP0) (pow_nonneg (by linarith) _)
  have a4 := bernoulli (e := ulp f) (by linarith) (2 * vs.length)
  have a5 : (1 - ulp f) ^ vs.length * ((1 - ulp f) ^ vs.length * (T / vs.sum)) = (1 - ulp f) ^ (2 * vs.length) * (T / vs.sum) := by
    rw [← mul_assoc, ← pow_add, two_mul]
  rw [a5] at a3
  have a6 := mul_le_mul_of_nonneg_right a4 hP0
  have a7 : ((i : ℚ) + 1) * tiny f ≤ vs.length * tiny f := mul_le_mul_of_nonneg_right (by exact_mod_cast hi) htp.le
  push_cast at a6
  have a8 : (2 * (vs.length : ℚ) * ulp f) * (T / vs.sum) ≤ 2 * (vs.length : ℚ) * ulp f := by
    have : 0 ≤ 2 * (vs.length : ℚ) * ulp f := by positivity
    nlinarith
  nlinarith

theorem turnR_upper (h : IsRounding f fl) (hp : 1 ≤ f.prec) {vs : List ℚ} (hv : ∀ v ∈ vs, IsFloat f v ∧ 0 ≤ v) (hs : 0 < vs.sum)
    (hn : 4 * vs.length * ulp f ≤ 1) {p : List ℚ} (ht : turnR fl vs = .ok p) {i : Nat} {x : ℚ} (hx : p[i]? = some x) :
    x ≤ (vs.take (i + 1)).sum / vs.sum + 2 * vs.length * (2 * ulp f + tiny f) := by
  obtain ⟨p', e1, e2, e3⟩ := turnR_bounds h hp hv hs
  rw [ht] at e1; cases e1
  have hi : i + 1 ≤ vs.length := by rw [← e2]; exact (List.getElem?_eq_some_iff.1 hx).1
  have he := ulp_pos f
  have he2 := ulp_le_half (f := f) hp
  have htp := tiny_pos f
  have hb := sumR_bounds h hp hv
  have hS := sumR_pos h hp hv hs
  obtain ⟨t1, t2⟩ := take_sum_le (fun v hv' => (hv v hv').2) (i + 1)
  set T := (vs.take (i + 1)).sum
  set n := vs.length
  have hP0 : 0 ≤ T / vs.sum := div_nonneg t1 hs.le
  have hP1 : T / vs.sum ≤ 1 := (div_le_one hs).2 t2
  refine le_trans (e3 i x hx).2 ?_
  have hb1 := bernoulli (e := ulp f) (by linarith) n
  have hb2 := bernoulli (e := ulp f) (by linarith) (2 * n)
  push_cast at hb2
  have d0 : (0 : ℚ) < (1 - ulp f) ^ n := pow_pos (by linarith) _
  -- `(1 + ε)^(i+1) (1 - ε)^n ≤ 1`
  have m1 : (1 + ulp f) ^ (i + 1) * (1 - ulp f) ^ n ≤ 1 := by
    have c0 : (1 + ulp f) ^ (i + 1) ≤ (1 + ulp f) ^ n := pow_le_pow_right₀ (by linarith) hi
    have c1 : (1 + ulp f) ^ (i + 1) * (1 - ulp f) ^ n ≤ (1 + ulp f) ^ n * (1 - ulp f) ^ n := mul_le_mul_of_nonneg_right c0 d0.le
    rw [← mul_pow] at c1
    refine le_trans c1 (pow_le_one₀ ?_ ?_) <;> nlinarith
  have q1 : T / sumR fl vs ≤ (T / vs.sum) / (1 - ulp f) ^ n := by
    rw [le_div_iff₀ d0, div_mul_eq_mul_div, div_le_div_iff₀ hS hs]
    nlinarith [hb.1]
  have w1 : (1 + ulp f) ^ (i + 1) ≤ 1 / (1 - ulp f) ^ n := by rwa [le_div_iff₀ d0]
  have w2 : (1 : ℚ) / (1 - ulp f) ^ n ≤ 2 := by rw [div_le_iff₀ d0]; nlinarith
  have w3 : (1 + ulp f) ^ (i + 1) ≤ 2 := le_trans w1 w2
  have w0 : (0 : ℚ) ≤ (1 + ulp f) ^ (i + 1) := pow_nonneg (by linarith) _
  have r1 : (1 + ulp f) ^ (i + 1) * (T / sumR fl vs) ≤ (T / vs.sum) * (1 + 4 * n * ulp f) := by
    have c1 : (1 + ulp f) ^ (i + 1) * (T / sumR fl vs) ≤ 1 / (1 - ulp f) ^ n * ((T / vs.sum) / (1 - ulp f) ^ n) :=
      mul_le_mul w1 q1 (div_nonneg t1 hS.le) (by positivity)
    have c2 : 1 / (1 - ulp f) ^ n * ((T / vs.sum) / (1 - ulp f) ^ n) = (T / vs.sum) * (1 / (1 - ulp f) ^ (2 * n)) := by
      rw [two_mul, pow_add]; field_simp
    have c3 : 1 / (1 - ulp f) ^ (2 * n) ≤ 1 + 4 * n * ulp f := by
      rw [div_le_iff₀ (pow_pos (by linarith) _)]
      have : (0 : ℚ) ≤ n * ulp f := by positivity
      nlinarith
    rw [c2] at c1
    exact le_trans c1 (mul_le_mul_of_nonneg_left c3 hP0)
  have r2 : (T / vs.sum) * (4 * n * ulp f) ≤ 4 * n * ulp f := by
    have : (0 : ℚ) ≤ 4 * n * ulp f := by positivity
    nlinarith
  have r3 : (1 + ulp f) ^ (i + 1) * (((i : ℚ) + 1) * tiny f) ≤ 2 * (n * tiny f) := by
    have a7 : ((i : ℚ) + 1) * tiny f ≤ n * tiny f := mul_le_mul_of_nonneg_right (by exact_mod_cast hi) htp.le
    exact mul_le_mul w3 a7 (by positivity) (by norm_num)
  nlinarith

/-! ### The properties -/

/-- **C107** The cumulative probabilities computed from `n` weights are within `4n(ε + δ)` of the exact ones, where `ε` is the relative
precision (`2^-53` for doubles) and `δ` half of the smallest number; they never decrease. -/
theorem C107_cumulative (h : IsRounding f fl) (hp : 1 ≤ f.prec) {values : List ℚ} (hv : ∀ v ∈ values, IsFloat f v ∧ 0 ≤ v) (hs : 0 < values.sum)
    (hn : 4 * values.length * ulp f ≤ 1) :
    ∃ p, turnR fl values = .ok p ∧ p.length = values.length ∧ p.Pairwise (· ≤ ·) ∧
      ∀ (i : Nat) (x : ℚ), p[i]? = some x → |x - (values.take (i + 1)).sum / values.sum| ≤ 4 * values.length * (ulp f + tiny f) := by
  obtain ⟨p, e1, e2, e3⟩ := turnR_bounds h hp hv hs
  refine ⟨p, e1, e2, ?_, ?_⟩
  · cases values with
    | nil => simp at hs
    | cons v vs =>
        rw [turnR_ok h hp hv hs] at e1
        cases e1
        have hS := sumR_pos h hp hv hs
        exact List.pairwise_cons.2 ⟨cumulateR_ge h hS vs _ (fun w hw => (hv w (List.mem_cons_of_mem _ hw)).2) (h.float _),
          cumulateR_mono h hS vs _ (fun w hw => (hv w (List.mem_cons_of_mem _ hw)).2) (h.float _)⟩
  · intro i x hx
    have l := turnR_lower h hp hv hs e1 hx
    have u := turnR_upper h hp hv hs hn e1 hx
    have he := ulp_pos f
    have ht := tiny_pos f
    have : (0 : ℚ) ≤ values.length * ulp f := by positivity
    have : (0 : ℚ) ≤ values.length * tiny f := by positivity
    rw [abs_le]
    constructor <;> nlinarith

example : 4 * (7 : ℚ) * ulp double ≤ 1 ∧ ulp double = 1 / 2 ^ 53 := by constructor <;> norm_num [ulp, double]

/-- **C107** A weight of zero is never picked, except by the random number 0. -/
theorem C107_no_zero_weight (h : IsRounding f fl) (hp : 1 ≤ f.prec) {values : List ℚ} (hv : ∀ v ∈ values, IsFloat f v ∧ 0 ≤ v) (hs : 0 < values.sum)
    {p : List ℚ} (ht : turnR fl values = .ok p) {u : ℚ} (hu : 0 < u) (i : Nat) (hi : values[i]? = some 0) : Utils.pick p u ≠ i := by
  intro hpick
  have hlen : p.length = values.length := by
    obtain ⟨p', e1, e2, -⟩ := turnR_bounds h hp hv hs
    rw [ht] at e1; cases e1; exact e2
  have hi' : i < p.length := by rw [hlen]; exact (List.getElem?_eq_some_iff.1 hi).1
  obtain ⟨a, b⟩ := (Utils.pick_eq_iff p u i hi').1 hpick
  cases values with
  | nil => simp at hi
  | cons v vs =>
      rw [turnR_ok h hp hv hs] at ht
      cases ht
      cases i with
      | zero =>
          simp only [List.getElem?_cons_zero, Option.some.injEq] at hi
          subst hi
          simp only [zero_div, h.fix (isFloat_zero f), List.getElem_cons_zero] at b
          linarith
      | succ i =>
          have := cumulateR_zero (S := sumR fl (v :: vs)) h vs (fl (v / sumR fl (v :: vs))) (h.float _) i (by simpa using hi)
          rw [List.getElem?_eq_getElem hi', List.getElem?_eq_getElem (by omega), Option.some.injEq] at this
          have a' := a i (by omega) (by omega)
          rw [this] at b
          linarith

/-- **C107** A random number at least `n(2ε + δ)` below 1 picks an index inside the array. -/
theorem C107_in_range_partial (h : IsRounding f fl) (hp : 1 ≤ f.prec) {values : List ℚ} (hv : ∀ v ∈ values, IsFloat f v ∧ 0 ≤ v) (hs : 0 < values.sum)
    {p : List ℚ} (ht : turnR fl values = .ok p) {u : ℚ} (hu : u ≤ 1 - values.length * (2 * ulp f + tiny f)) : Utils.pick p u < values.length := by
  obtain ⟨p', e1, hlen, -⟩ := turnR_bounds h hp hv hs
  rw [ht] at e1; cases e1
  have hpos : 0 < values.length := by
    cases values with
    | nil => simp at hs
    | cons => simp
  obtain ⟨m, h1, h2, h3, h4⟩ := Utils.pickFrom_spec u p 0
  have hm : Utils.pick p u = m := by unfold Utils.pick; rw [h1, Nat.zero_add]
  rw [hm]
  by_contra hge
  have := h3 (values.length - 1) (by omega) (by omega)
  have hx := turnR_lower h hp hv hs ht (List.getElem?_eq_getElem (show values.length - 1 < p.length by omega))
  rw [Nat.sub_add_cancel hpos, List.take_length, div_self hs.ne'] at hx
  linarith

/-- **C107** is violated for random numbers nearer to 1: with doubles, the weights 1, 4, 1, 1 and the largest random number below 1 the result
is the size of the array, an index outside of it. -/
theorem C107_out_of_range : ∃ (values p : List ℚ) (u : ℚ), (∀ v ∈ values, IsFloat double v ∧ 0 ≤ v) ∧ 0 < values.sum ∧ Draw double u ∧
    turnR (rn double) values = .ok p ∧ Utils.pick p u = values.length := by
  refine ⟨[1, 4, 1, 1], [2573485501354569 / 2 ^ 54, 3216856876693211 / 2 ^ 52, 3860228252031853 / 2 ^ 52, 1 - 1 / 2 ^ 52],
    1 - 2 ^ (-53 : Int), ?_, by norm_num, ?_, by decide +kernel, by decide +kernel⟩
  · intro v hv
    have : v = 1 ∨ v = 4 := by
      have h' : v = 1 ∨ v = 4 ∨ v = 1 := by simpa using hv
      tauto
    rcases this with rfl | rfl
    · exact ⟨⟨1, 0, by decide, by decide, by norm_num⟩, by norm_num⟩
    · exact ⟨⟨4, 0, by decide, by decide, by norm_num⟩, by norm_num⟩
  · refine ⟨⟨2 ^ 53 - 1, -53, by decide, by decide, ?_⟩, ?_, ?_⟩ <;> norm_num

/-- an instance of the partial property: three weights, one of them zero -/
example : ∃ p, turnR (rn double) [1, 0, 2] = .ok p ∧ Utils.pick p (rn double (1 / 3)) = 0 ∧ Utils.pick p (1 / 2) = 2 ∧ p ≠ [1 / 3, 1 / 3, 1] :=
  ⟨[6004799503160661 / 2 ^ 54, 6004799503160661 / 2 ^ 54, 1], by decide +kernel, by decide +kernel, by decide +kernel, by decide +kernel⟩

end Orp.Rounding
