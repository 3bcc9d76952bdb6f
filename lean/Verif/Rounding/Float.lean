import Verif.Basic
import Mathlib.Data.Int.Log
import Mathlib.Data.Rat.Floor
import Mathlib.Algebra.Order.Field.Basic
import Mathlib.Tactic.Linarith
import Mathlib.Tactic.Ring
import Mathlib.Tactic.Positivity
import Mathlib.Tactic.NormNum

/-!
Floating-point numbers with rounding. The other parts of the model compute with `double` exactly; the theorems on rounding (C106–C109) use this file.

A format has a precision and a smallest exponent: the numbers are `m · 2^e` with `|m| < 2^prec` and `emin ≤ e` (subnormal numbers included). Overflow to infinity
is not modelled: there is no greatest exponent. The value of an operation is one of the numbers closest to the exact result; the theorems that say
that something holds do not depend on how ties are resolved, those that show that something goes wrong use the IEEE rule (`rn`: ties to even).
-/

namespace Orp.Rounding

/-- A binary floating-point format -/
structure Fmt where
  prec : Nat
  emin : Int

/-- IEEE binary64, the `double` of all usual platforms -/
def double : Fmt := ⟨53, -1074⟩

/-- The numbers of the format, without a bound above -/
def IsFloat (f : Fmt) (x : ℚ) : Prop := ∃ m e : Int, |m| < 2 ^ f.prec ∧ f.emin ≤ e ∧ x = m * (2 : ℚ) ^ e

/-- `y` is a number of the format, and none is closer to `x`. -/
def Nearest (f : Fmt) (x y : ℚ) : Prop := IsFloat f y ∧ ∀ z, IsFloat f z → |y - x| ≤ |z - x|

/-- `fl` rounds to nearest; ties are resolved in any way. -/
def IsRounding (f : Fmt) (fl : ℚ → ℚ) : Prop := ∀ x, Nearest f x (fl x)

/-- The nearest integer, the even one of two. -/
def roundEven (x : ℚ) : Int :=
  let n := ⌊x⌋
  if x - n < 1 / 2 then n else if 1 / 2 < x - n then n + 1 else if n % 2 = 0 then n else n + 1

/-- The exponent of the last digit of the result -/
def expo (f : Fmt) (x : ℚ) : Int := max f.emin (Int.log 2 |x| - (f.prec - 1))

/-- Rounding to nearest, ties to even, as in IEEE 754 -/
def rn (f : Fmt) (x : ℚ) : ℚ := roundEven (x / (2 : ℚ) ^ expo f x) * (2 : ℚ) ^ expo f x

theorem two_zpow_pos (e : Int) : (0 : ℚ) < (2 : ℚ) ^ e := zpow_pos (by norm_num) e

theorem two_zpow_le {a b : Int} (h : a ≤ b) : (2 : ℚ) ^ a ≤ (2 : ℚ) ^ b := zpow_le_zpow_right₀ (by norm_num) h

theorem two_zpow_lt {a b : Int} : (2 : ℚ) ^ a < (2 : ℚ) ^ b ↔ a < b := zpow_lt_zpow_iff_right₀ (by norm_num)

theorem two_zpow_split {a b : Int} (h : a ≤ b) : (2 : ℚ) ^ b = ((2 ^ (b - a).toNat : Int) : ℚ) * (2 : ℚ) ^ a := by
  have : b = (b - a).toNat + a := by omega
  conv_lhs => rw [this, zpow_add₀ (by norm_num), zpow_natCast]
  push_cast
  rfl

theorem roundEven_le (x : ℚ) (k : Int) : |(roundEven x : ℚ) - x| ≤ |(k : ℚ) - x| := by
  have h1 := Int.floor_le x
  have h2 := Int.lt_floor_add_one x
  have hk : (k : ℚ) ≤ ⌊x⌋ ∨ (⌊x⌋ : ℚ) + 1 ≤ k := by
    rcases le_or_gt k ⌊x⌋ with h | h
    · left; exact_mod_cast h
    · right; exact_mod_cast h
  unfold roundEven
  simp only
  split
  · rcases hk with h | h
    · rw [abs_of_nonpos (by linarith), abs_of_nonpos (by linarith)]; linarith
    · rw [abs_of_nonpos (by linarith), abs_of_nonneg (by linarith)]; linarith
  · split
    · push_cast
      rcases hk with h | h
      · rw [abs_of_nonneg (by linarith), abs_of_nonpos (by linarith)]; linarith
      · rw [abs_of_nonneg (by linarith), abs_of_nonneg (by linarith)]; linarith
    · have he : x - ⌊x⌋ = 1 / 2 := by linarith
      have : |(k : ℚ) - x| ≥ 1 / 2 := by
        rcases hk with h | h
        · rw [abs_of_nonpos (by linarith)]; linarith
        · rw [abs_of_nonneg (by linarith)]; linarith
      split
      · rw [abs_of_nonpos (by linarith)]; linarith
      · push_cast
        rw [abs_of_nonneg (by linarith)]; linarith

theorem isFloat_grid {f : Fmt} (hp : 1 ≤ f.prec) {n e : Int} (hn : |n| ≤ 2 ^ f.prec) (he : f.emin ≤ e) : IsFloat f (n * (2 : ℚ) ^ e) := by
  rcases lt_or_eq_of_le hn with h | h
  · exact ⟨n, e, h, he, rfl⟩
  · have h2 : (2 : Int) ^ f.prec = 2 * 2 ^ (f.prec - 1) := by
      conv_lhs => rw [show f.prec = (f.prec - 1) + 1 by omega]
      rw [pow_succ]; ring
    have hpos : (0 : Int) < 2 ^ (f.prec - 1) := by positivity
    rcases abs_choice n with hc | hc
    · refine ⟨2 ^ (f.prec - 1), e + 1, ?_, by omega, ?_⟩
      · rw [abs_of_pos hpos]; omega
      · rw [show n = 2 * 2 ^ (f.prec - 1) by omega, zpow_add₀ (by norm_num)]
        push_cast
        ring
    · refine ⟨-2 ^ (f.prec - 1), e + 1, ?_, by omega, ?_⟩
      · rw [abs_neg, abs_of_pos hpos]; omega
      · rw [show n = -(2 * 2 ^ (f.prec - 1)) by omega, zpow_add₀ (by norm_num)]
        push_cast
        ring

theorem isFloat_zero (f : Fmt) : IsFloat f 0 := ⟨0, f.emin, by simp, le_rfl, by simp⟩

theorem isFloat_int {f : Fmt} (hp : 1 ≤ f.prec) (he : f.emin ≤ 0) {n : Int} (hn : |n| ≤ 2 ^ f.prec) : IsFloat f n := by
  have := isFloat_grid hp hn he
  simpa using this

theorem isFloat_nat {f : Fmt} (hp : 1 ≤ f.prec) (he : f.emin ≤ 0) {n : Nat} (hn : n ≤ 2 ^ f.prec) : IsFloat f n := by
  have := isFloat_int (n := (n : Int)) hp he (by rw [Nat.abs_cast]; exact_mod_cast hn)
  simpa using this

theorem IsFloat.neg {f : Fmt} {x : ℚ} (h : IsFloat f x) : IsFloat f (-x) := by
  obtain ⟨m, e, h1, h2, rfl⟩ := h
  exact ⟨-m, e, by rwa [abs_neg], h2, by push_cast; ring⟩

/-- every number of the format is a multiple of the smallest one -/
theorem IsFloat.multiple {f : Fmt} {x : ℚ} (h : IsFloat f x) : ∃ n : Int, x = n * (2 : ℚ) ^ f.emin := by
  obtain ⟨m, e, h1, h2, rfl⟩ := h
  refine ⟨m * 2 ^ (e - f.emin).toNat, ?_⟩
  rw [two_zpow_split h2]
  push_cast
  ring

/-- a number of absolute value at least `2^k` is a multiple of `2^(k+1-prec)` -/
theorem IsFloat.grid {f : Fmt} {x : ℚ} {k : Int} (h : IsFloat f x) (hk : (2 : ℚ) ^ k ≤ |x|) : ∃ n : Int, x = n * (2 : ℚ) ^ (k + 1 - f.prec) := by
  obtain ⟨m, e, h1, h2, rfl⟩ := h
  have hm : |(m : ℚ)| < (2 : ℚ) ^ (f.prec : Int) := by
    rw [zpow_natCast]; exact_mod_cast h1
  have : (2 : ℚ) ^ k < (2 : ℚ) ^ ((f.prec : Int) + e) := by
    rw [abs_mul, abs_of_pos (two_zpow_pos e)] at hk
    rw [zpow_add₀ (by norm_num)]
    exact lt_of_le_of_lt hk (mul_lt_mul_of_pos_right hm (two_zpow_pos e))
  have hke := two_zpow_lt.1 this
  refine ⟨m * 2 ^ (e - (k + 1 - f.prec)).toNat, ?_⟩
  rw [two_zpow_split (show k + 1 - (f.prec : Int) ≤ e by omega)]
  push_cast
  ring

theorem expo_bound (f : Fmt) (x : ℚ) : |x| < (2 : ℚ) ^ (expo f x + f.prec) := by
  by_cases hx : x = 0
  · rw [hx, abs_zero]; exact two_zpow_pos _
  · have h := Int.lt_zpow_succ_log_self (b := 2) (by norm_num) |x|
    refine lt_of_lt_of_le h ?_
    have : Int.log 2 |x| + 1 ≤ expo f x + f.prec := by unfold expo; omega
    exact_mod_cast two_zpow_le this

theorem rn_float (f : Fmt) (hp : 1 ≤ f.prec) (x : ℚ) : IsFloat f (rn f x) := by
  unfold rn
  refine isFloat_grid hp ?_ (le_max_left _ _)
  set e := expo f x with he
  have hb := expo_bound f x
  rw [← he, zpow_add₀ (by norm_num), zpow_natCast] at hb
  have hpos := two_zpow_pos e
  have hq : |x / (2 : ℚ) ^ e| < (2 : ℚ) ^ f.prec := by
    rw [abs_div, abs_of_pos hpos, div_lt_iff₀ hpos]
    linarith
  rw [abs_lt] at hq
  have hN : (((2 ^ f.prec : Int)) : ℚ) = (2 : ℚ) ^ f.prec := by push_cast; rfl
  have h1 := roundEven_le (x / (2 : ℚ) ^ e) (2 ^ f.prec)
  have h2 := roundEven_le (x / (2 : ℚ) ^ e) (-2 ^ f.prec)
  push_cast at h1 h2
  rw [abs_of_nonneg (by linarith : (0 : ℚ) ≤ 2 ^ f.prec - x / 2 ^ e)] at h1
  rw [abs_of_nonpos (by linarith : -(2 : ℚ) ^ f.prec - x / 2 ^ e ≤ 0)] at h2
  have h3 := abs_le.1 h1
  have h4 := abs_le.1 h2
  rw [abs_le]
  constructor
  · have : (-2 ^ f.prec : ℚ) ≤ roundEven (x / (2 : ℚ) ^ e) := by linarith [h4.1]
    exact_mod_cast this
  · have : (roundEven (x / (2 : ℚ) ^ e) : ℚ) ≤ 2 ^ f.prec := by linarith [h3.2]
    exact_mod_cast this

theorem rn_multiple (f : Fmt) (x : ℚ) (n : Int) : |rn f x - x| ≤ |n * (2 : ℚ) ^ expo f x - x| := by
  have hpos := two_zpow_pos (expo f x)
  have e1 : ∀ k : ℚ, k * (2 : ℚ) ^ expo f x - x = (k - x / (2 : ℚ) ^ expo f x) * (2 : ℚ) ^ expo f x := by
    intro k
    rw [sub_mul, div_mul_cancel₀ _ hpos.ne']
  unfold rn
  rw [e1, e1, abs_mul, abs_mul]
  exact mul_le_mul_of_nonneg_right (roundEven_le _ _) (abs_nonneg _)

/-- The IEEE rule is a rounding to nearest. -/
theorem rn_isRounding (f : Fmt) (hp : 1 ≤ f.prec) : IsRounding f (rn f) := by
  intro x
  refine ⟨rn_float f hp x, ?_⟩
  by_cases hx : x = 0
  · intro z _
    have : rn f x = 0 := by
      rw [hx]; unfold rn roundEven
      simp
    rw [this, hx, sub_self, abs_zero]
    exact abs_nonneg _
  rintro z ⟨m, e', h1, h2, rfl⟩
  rcases le_or_gt (expo f x) e' with he | he
  · have := rn_multiple f x (m * 2 ^ (e' - expo f x).toNat)
    rw [two_zpow_split he]
    push_cast at this ⊢
    rwa [mul_assoc] at this
  · have hlog : expo f x = Int.log 2 |x| - (f.prec - 1) := by
      unfold expo at he ⊢
      omega
    have hlow : (2 : ℚ) ^ (expo f x + f.prec - 1) ≤ |x| := by
      have := Int.zpow_log_le_self (b := 2) (by norm_num) (abs_pos.2 hx)
      rw [show expo f x + (f.prec : Int) - 1 = Int.log 2 |x| by omega]
      exact_mod_cast this
    have hz : |(m : ℚ) * (2 : ℚ) ^ e'| ≤ (2 : ℚ) ^ (expo f x + f.prec - 1) := by
      rw [abs_mul, abs_of_pos (two_zpow_pos e')]
      have hm : |(m : ℚ)| ≤ (2 : ℚ) ^ (f.prec : Int) := by
        rw [zpow_natCast]; exact_mod_cast h1.le
      calc |(m : ℚ)| * (2 : ℚ) ^ e' ≤ (2 : ℚ) ^ (f.prec : Int) * (2 : ℚ) ^ e' := mul_le_mul_of_nonneg_right hm (two_zpow_pos e').le
        _ = (2 : ℚ) ^ ((f.prec : Int) + e') := (zpow_add₀ (by norm_num) _ _).symm
        _ ≤ _ := two_zpow_le (by omega)
    have hb : (2 : ℚ) ^ (expo f x + f.prec - 1) = ((2 ^ (f.prec - 1) : Int) : ℚ) * (2 : ℚ) ^ expo f x := by
      rw [two_zpow_split (show expo f x ≤ expo f x + (f.prec : Int) - 1 by omega)]
      congr 3
      omega
    rcases le_or_gt 0 x with h0 | h0
    · have := rn_multiple f x (2 ^ (f.prec - 1))
      rw [← hb] at this
      refine le_trans this ?_
      rw [abs_of_nonneg h0] at hlow
      have := (abs_le.1 hz).2
      rw [abs_of_nonpos (by linarith), abs_of_nonpos (by linarith)]
      linarith
    · have := rn_multiple f x (-2 ^ (f.prec - 1))
      rw [Int.cast_neg, neg_mul, ← hb] at this
      refine le_trans this ?_
      rw [abs_of_neg h0] at hlow
      have := (abs_le.1 hz).1
      rw [abs_of_nonneg (by linarith), abs_of_nonneg (by linarith)]
      linarith

/-! ### Consequences of rounding to nearest -/

variable {f : Fmt} {fl : ℚ → ℚ}

theorem IsRounding.float (h : IsRounding f fl) (x : ℚ) : IsFloat f (fl x) := (h x).1

/-- numbers of the format are not changed -/
theorem IsRounding.fix (h : IsRounding f fl) {x : ℚ} (hx : IsFloat f x) : fl x = x := by
  have := (h x).2 x hx
  rw [sub_self, abs_zero] at this
  have := abs_nonpos_iff.1 this
  linarith

/-- rounding to nearest is monotone -/
theorem IsRounding.mono (h : IsRounding f fl) {x y : ℚ} (hxy : x ≤ y) : fl x ≤ fl y := by
  rcases eq_or_lt_of_le hxy with rfl | hlt
  · exact le_rfl
  by_contra hc
  push Not at hc
  have h1 := (h x).2 _ (h y).1
  have h2 := (h y).2 _ (h x).1
  rcases abs_cases (fl x - x) with ⟨e1, g1⟩ | ⟨e1, g1⟩ <;> rcases abs_cases (fl y - x) with ⟨e2, g2⟩ | ⟨e2, g2⟩ <;>
    rcases abs_cases (fl y - y) with ⟨e3, g3⟩ | ⟨e3, g3⟩ <;> rcases abs_cases (fl x - y) with ⟨e4, g4⟩ | ⟨e4, g4⟩ <;>
    rw [e1, e2] at h1 <;> rw [e3, e4] at h2 <;> linarith

theorem IsRounding.le (h : IsRounding f fl) {x y : ℚ} (hy : IsFloat f y) (hxy : x ≤ y) : fl x ≤ y := by
  have := h.mono hxy
  rwa [h.fix hy] at this

theorem IsRounding.ge (h : IsRounding f fl) {x y : ℚ} (hy : IsFloat f y) (hxy : y ≤ x) : y ≤ fl x := by
  have := h.mono hxy
  rwa [h.fix hy] at this

/-- a number of the format below 1 is at most the last one before 1 -/
theorem IsFloat.lt_one (hp : 1 ≤ f.prec) {u : ℚ} (hu : IsFloat f u) (h1 : u < 1) : u ≤ 1 - (2 : ℚ) ^ (-(f.prec : Int)) := by
  obtain ⟨m, e, hm, he, rfl⟩ := hu
  have hh : (2 : ℚ) ^ (-1 : Int) = 1 / 2 := by norm_num
  have hhalf : (2 : ℚ) ^ (-(f.prec : Int)) ≤ 1 / 2 := by
    rw [← hh]; exact two_zpow_le (by omega)
  rcases le_or_gt (-(f.prec : Int)) e with h | h
  · rcases le_or_gt 0 e with h0 | h0
    · have e1 : (m : ℚ) * (2 : ℚ) ^ e = ((m * 2 ^ e.toNat : Int) : ℚ) := by
        have : e = e.toNat := by omega
        conv_lhs => rw [this, zpow_natCast]
        push_cast; rfl
      rw [e1] at h1 ⊢
      have : m * 2 ^ e.toNat < 1 := by exact_mod_cast h1
      have : ((m * 2 ^ e.toNat : Int) : ℚ) ≤ 0 := by exact_mod_cast (by omega : m * 2 ^ e.toNat ≤ 0)
      exact le_trans this (by linarith)
    · have e1 := two_zpow_split h0.le
      rw [zpow_zero] at e1
      have hpos := two_zpow_pos e
      have : (m : ℚ) < ((2 ^ (0 - e).toNat : Int) : ℚ) := by
        by_contra hc
        push Not at hc
        have := mul_le_mul_of_nonneg_right hc hpos.le
        linarith
      have : m + 1 ≤ 2 ^ (0 - e).toNat := by exact_mod_cast this
      have : (m : ℚ) + 1 ≤ ((2 ^ (0 - e).toNat : Int) : ℚ) := by exact_mod_cast this
      have := mul_le_mul_of_nonneg_right this hpos.le
      have := two_zpow_le h
      linarith
  · have hm : (m : ℚ) ≤ (2 : ℚ) ^ (f.prec : Int) := by
      rw [zpow_natCast]; exact_mod_cast (le_trans (le_abs_self m) hm.le)
    have : (m : ℚ) * (2 : ℚ) ^ e ≤ (2 : ℚ) ^ (-1 : Int) := by
      calc (m : ℚ) * (2 : ℚ) ^ e ≤ (2 : ℚ) ^ (f.prec : Int) * (2 : ℚ) ^ e := mul_le_mul_of_nonneg_right hm (two_zpow_pos e).le
        _ = (2 : ℚ) ^ ((f.prec : Int) + e) := (zpow_add₀ (by norm_num) _ _).symm
        _ ≤ _ := two_zpow_le (by omega)
    rw [hh] at this
    linarith

/-- **The product of a number below 1 and a number that is not too small is rounded to a smaller number.** -/
theorem IsRounding.mul_lt (h : IsRounding f fl) (hp : 1 ≤ f.prec) {u a : ℚ} (hu : IsFloat f u) (hu1 : u < 1) (ha : IsFloat f a)
    (hbig : (2 : ℚ) ^ (f.emin + f.prec) ≤ a) : fl (u * a) < a := by
  have hapos : 0 < a := lt_of_lt_of_le (two_zpow_pos _) hbig
  have hle := IsFloat.lt_one hp hu hu1
  set k := Int.log 2 a with hk
  have hk1 : (2 : ℚ) ^ k ≤ a := by
    have := Int.zpow_log_le_self (b := 2) (by norm_num) hapos
    exact_mod_cast this
  have hk2 : f.emin + f.prec ≤ k := by
    have := Int.lt_zpow_succ_log_self (b := 2) (by norm_num) a
    have : a < (2 : ℚ) ^ (k + 1) := by exact_mod_cast this
    have := two_zpow_lt.1 (lt_of_le_of_lt hbig this)
    omega
  have hprod : u * a ≤ a - a * (2 : ℚ) ^ (-(f.prec : Int)) := by
    have := mul_le_mul_of_nonneg_right hle hapos.le
    linarith
  rcases eq_or_lt_of_le hk1 with heq | hlt
  · -- a power of two
    have hfl : IsFloat f (((2 ^ f.prec - 1 : Int) : ℚ) * (2 : ℚ) ^ (k - f.prec)) := by
      refine ⟨_, _, ?_, by omega, rfl⟩
      have : (1 : Int) ≤ 2 ^ f.prec := by exact_mod_cast Nat.one_le_two_pow
      rw [abs_of_nonneg (by omega)]
      omega
    have e1 : ((2 ^ f.prec - 1 : Int) : ℚ) * (2 : ℚ) ^ (k - f.prec) = a - a * (2 : ℚ) ^ (-(f.prec : Int)) := by
      rw [← heq, sub_eq_add_neg k, zpow_add₀ (by norm_num)]
      have : (2 : ℚ) ^ f.prec * (2 : ℚ) ^ (-(f.prec : Int)) = 1 := by
        rw [← zpow_natCast, ← zpow_add₀ (by norm_num)]; simp
      push_cast
      calc _ = (2 : ℚ) ^ k * ((2 : ℚ) ^ f.prec * (2 : ℚ) ^ (-(f.prec : Int))) - (2 : ℚ) ^ k * (2 : ℚ) ^ (-(f.prec : Int)) := by ring
        _ = _ := by rw [this]; ring
    rw [e1] at hfl
    have := h.le hfl hprod
    have hpos := mul_pos hapos (two_zpow_pos (-(f.prec : Int)))
    linarith
  · obtain ⟨n, hn⟩ := ha.grid (k := k) (by rw [abs_of_pos hapos]; exact hk1)
    set w := (2 : ℚ) ^ (k + 1 - f.prec) with hw
    have hwpos : 0 < w := two_zpow_pos _
    have e2 : (2 : ℚ) ^ k = ((2 ^ (f.prec - 1) : Int) : ℚ) * w := by
      rw [two_zpow_split (show k + 1 - (f.prec : Int) ≤ k by omega)]
      congr 3
      omega
    have hn1 : (2 : Int) ^ (f.prec - 1) < n := by
      have : ((2 ^ (f.prec - 1) : Int) : ℚ) * w < n * w := by rw [← e2, ← hn]; exact hlt
      exact_mod_cast lt_of_mul_lt_mul_right this hwpos.le
    have hn2 : n ≤ 2 ^ f.prec := by
      have h3 := Int.lt_zpow_succ_log_self (b := 2) (by norm_num) a
      have h3 : a < (2 : ℚ) ^ (k + 1) := by exact_mod_cast h3
      rw [two_zpow_split (show k + 1 - (f.prec : Int) ≤ k + 1 by omega), ← hw, show (k + 1 - (k + 1 - (f.prec : Int))).toNat = f.prec by omega] at h3
      rw [hn] at h3
      have := lt_of_mul_lt_mul_right h3 hwpos.le
      exact_mod_cast this.le
    have hpred : IsFloat f (((n - 1 : Int) : ℚ) * w) := by
      refine isFloat_grid hp ?_ (by omega)
      have : (0 : Int) < 2 ^ (f.prec - 1) := by positivity
      rw [abs_of_nonneg (by omega)]; omega
    have hpe : ((n - 1 : Int) : ℚ) * w = a - w := by rw [hn]; push_cast; ring
    rw [hpe] at hpred
    have hhalf : u * a < a - w / 2 := by
      have h4 : (2 : ℚ) ^ k * (2 : ℚ) ^ (-(f.prec : Int)) = w / 2 := by
        rw [hw, ← zpow_add₀ (by norm_num), show k + 1 - (f.prec : Int) = (k + -(f.prec : Int)) + 1 by ring, zpow_add₀ (by norm_num : (2 : ℚ) ≠ 0) _ 1]
        norm_num
      have h5 := mul_lt_mul_of_pos_right hlt (two_zpow_pos (-(f.prec : Int)))
      linarith
    rcases le_or_gt (u * a) (a - w) with h6 | h6
    · have := h.le hpred h6
      linarith
    · have h7 := (h (u * a)).2 _ hpred
      rw [abs_of_nonpos (by linarith : a - w - u * a ≤ 0)] at h7
      have h8 := (abs_le.1 h7).2
      linarith

end Orp.Rounding
