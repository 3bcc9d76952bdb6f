import Verif.Rounding.Probability
import Verif.Ltc.Props

/-!
LTC with rounded `double` arithmetic (`/repo/src/ltc.hpp`): C111. The exact model of `Verif/Ltc/Model.lean` computes slopes and extended limits exactly; here
every operation on doubles is followed by the rounding `fl`. The elements are `int`s (`Verif/Ltc/Model.lean`), whose conversion to `double` is exact; the
conversion of a difference of timestamps, which may be a wider type, rounds. The additions of integers (lines 55, 57, 122) do not round. `(UL.value + LL.value) / 2` (line 122) is an integer division, i.e. truncation, as in the exact model.
-/

set_option linter.unusedSectionVars false

namespace Orp.Rounding

open Orp.Ltc

/-- Slope from `p` to `q` (ltc.hpp:63-66). -/
def derivaR (fl : ℚ → ℚ) (c : Cfg) (p q : Point) : ℚ := fl (fl ((q.v - p.v) / fl ((q.t - p.t : Int) : ℚ)) / (c.tud : ℚ))

/-- Lines 72 and 76. -/
def extendR (fl : ℚ → ℚ) (c : Cfg) (lim : Point) (d : ℚ) (t : Int) : Point :=
  { t, v := c.conv (fl (fl (fl ((t - lim.t).tdiv c.tud : Int) * d) + lim.v)) }

/-- `need_transmit` (ltc.hpp:62-79). -/
def needTransmitR (fl : ℚ → ℚ) (c : Cfg) (s : State) (nul nll : Point) : Res (Option (Point × Point)) :=
  if s.ul.t = s.last.t ∨ s.ll.t = s.last.t ∨ nul.t = s.last.t ∨ nll.t = s.last.t ∨ c.tud = 0 then .error .ub
  else
    let oldUp := derivaR fl c s.last s.ul
    let oldLow := derivaR fl c s.last s.ll
    let newUp := derivaR fl c s.last nul
    let newLow := derivaR fl c s.last nll
    if oldUp < newLow ∨ oldLow > newUp then .ok none
    else
      let nul := if oldUp < newUp then extendR fl c s.ul oldUp nul.t else nul
      let nll := if oldLow > newLow then extendR fl c s.ll oldLow nll.t else nll
      .ok (some (nul, nll))

/-- `add` (ltc.hpp:102-129). -/
def ltcAddR (fl : ℚ → ℚ) (c : Cfg) (s : State) (t : Int) (v : ℚ) : Res (State × Bool) :=
  if s.counter = 0 then .ok ({ s with last := ⟨t, v⟩, counter := 1 }, false)
  else if s.counter = 1 then .ok (addSecond c s t v, false)
  else do
    match ← needTransmitR fl c s (newUl c t v) (newLl c t v) with
    | some (nul, nll) => return ({ s with ul := nul, ll := nll }, false)
    | none =>
        let s := { s with
          toTransmit := s.last
          last := ⟨t - 1, c.conv ((s.ul.v + s.ll.v) / 2)⟩
          counter := 1 }
        return (addSecond c s t v, true)

/-- A stream of samples and what the user sees. -/
def ltcRunR (fl : ℚ → ℚ) (c : Cfg) (s : State) : List Point → Res (State × List (Option Point))
  | [] => .ok (s, [])
  | p :: ps => do
      let (s, r) ← ltcAddR fl c s p.t p.v
      let (s', os) ← ltcRunR fl c s ps
      return (s', observe s r :: os)

/-- without rounding this is the exact model -/
theorem ltcAddR_id (c : Cfg) (s : State) (t : Int) (v : ℚ) : ltcAddR id c s t v = add c s t v := rfl

theorem ltcRunR_id (c : Cfg) (s : State) (ps : List Point) : ltcRunR id c s ps = run c s ps := by
  induction ps generalizing s with
  | nil => rfl
  | cons p ps ih => simp only [ltcRunR, run, ltcAddR_id, ih]

/-- all values are integers -/
def Integral (ps : List Point) : Prop := ∀ p ∈ ps, ∃ z : Int, p.v = z

/-! ### consecutive timestamps -/

section Consecutive

variable {fl : ℚ → ℚ} {c : Cfg}

theorem int_fix (h : IsRounding double fl) {n : Int} (hn : |n| ≤ 2 ^ 53) : fl n = n :=
  h.fix (isFloat_int (by decide) (by decide) hn)

theorem tiny_double : tiny double ≤ 1 / 2 ^ 100 := by
  unfold tiny double
  have : (2 : ℚ) ^ (-1074 - 1 : Int) ≤ (2 : ℚ) ^ (-100 : Int) := two_zpow_le (by norm_num)
  refine this.trans (le_of_eq ?_)
  rw [zpow_neg]; norm_num

theorem ulp_double : ulp double = 1 / 2 ^ 53 := by
  unfold ulp double
  rw [zpow_neg]; norm_num

/-- quotients of small integers are compared correctly -/
theorem quot_lt (h : IsRounding double fl) {a b a' b' : Int} (ha : |a| ≤ 2 ^ 17) (ha' : |a'| ≤ 2 ^ 17) (hb : 0 < b) (hb2 : b ≤ 2 ^ 32) (hb' : 0 < b')
    (hb2' : b' ≤ 2 ^ 32) : fl ((a : ℚ) / b) < fl ((a' : ℚ) / b') ↔ (a : ℚ) / b < (a' : ℚ) / b' := by
  constructor
  · intro hlt
    by_contra hc
    exact absurd (h.mono (not_lt.1 hc)) (not_le.2 hlt)
  · intro hlt
    have e1 := (abs_le.1 (h.error (by decide) ((a : ℚ) / b))).2
    have e2 := (abs_le.1 (h.error (by decide) ((a' : ℚ) / b'))).1
    have hbq : (0 : ℚ) < b := by exact_mod_cast hb
    have hbq' : (0 : ℚ) < b' := by exact_mod_cast hb'
    have hbu : (b : ℚ) ≤ 2 ^ 32 := by exact_mod_cast hb2
    have hbu' : (b' : ℚ) ≤ 2 ^ 32 := by exact_mod_cast hb2'
    have haq : |(a : ℚ)| ≤ 2 ^ 17 := by exact_mod_cast ha
    have haq' : |(a' : ℚ)| ≤ 2 ^ 17 := by exact_mod_cast ha'
    rw [abs_div, abs_of_pos hbq, ulp_double] at e1
    rw [abs_div, abs_of_pos hbq', ulp_double] at e2
    have hgap : (1 : ℚ) ≤ a' * b - a * b' := by
      rw [div_lt_div_iff₀ hbq hbq'] at hlt
      have : a * b' < a' * b := by exact_mod_cast hlt
      have : 1 ≤ a' * b - a * b' := by omega
      exact_mod_cast this
    have ht := tiny_double
    have hpos : (0 : ℚ) < b * b' := mul_pos hbq hbq'
    have key : |(a : ℚ)| / b * (1 / 2 ^ 53) + tiny double + (|(a' : ℚ)| / b' * (1 / 2 ^ 53) + tiny double) < (a' : ℚ) / b' - (a : ℚ) / b := by
      have e3 : (a' : ℚ) / b' - (a : ℚ) / b = (a' * b - a * b') / (b * b') := by field_simp
      rw [e3, lt_div_iff₀ hpos]
      have e4 : (|(a : ℚ)| / b * (1 / 2 ^ 53) + tiny double + (|(a' : ℚ)| / b' * (1 / 2 ^ 53) + tiny double)) * (b * b') =
          |(a : ℚ)| * b' / 2 ^ 53 + |(a' : ℚ)| * b / 2 ^ 53 + 2 * tiny double * (b * b') := by field_simp; ring
      rw [e4]
      have m1 : |(a : ℚ)| * b' ≤ 2 ^ 17 * 2 ^ 32 := mul_le_mul haq hbu' hbq'.le (by norm_num)
      have m2 : |(a' : ℚ)| * b ≤ 2 ^ 17 * 2 ^ 32 := mul_le_mul haq' hbu hbq.le (by norm_num)
      have m3 : (b : ℚ) * b' ≤ 2 ^ 32 * 2 ^ 32 := mul_le_mul hbu hbu' hbq'.le (by norm_num)
      have m4 : tiny double * (b * b') ≤ 1 / 2 ^ 100 * (2 ^ 32 * 2 ^ 32) := mul_le_mul ht m3 hpos.le (by norm_num)
      norm_num at m1 m2 m4 ⊢
      linarith
    linarith

/-- truncation does not see an error smaller than the distance to the integers -/
theorem trunc_close {n b : Int} {y : ℚ} (hb : 0 < b) (hne : ∀ z : Int, (n : ℚ) / b ≠ z) (hy : |y - (n : ℚ) / b| * b < 1) : trunc y = trunc ((n : ℚ) / b) := by
  have hbq : (0 : ℚ) < b := by exact_mod_cast hb
  obtain ⟨x, hx⟩ : ∃ x, x = (n : ℚ) / b := ⟨_, rfl⟩
  rw [← hx] at hne hy ⊢
  have hfar : ∀ z : Int, 1 ≤ |x - z| * b := by
    intro z
    have e : |x - z| * b = |((n - z * b : Int) : ℚ)| := by
      have e1 : |x - z| * b = |(x - z) * b| := by rw [abs_mul, abs_of_pos hbq]
      rw [e1, hx]
      congr 1; push_cast; field_simp
    rw [e]
    have : n - z * b ≠ 0 := by
      intro h0
      refine hne z ?_
      rw [hx, div_eq_iff hbq.ne']
      have : n = z * b := by omega
      exact_mod_cast this
    have := Int.one_le_abs this
    exact_mod_cast this
  have side : ∀ z : Int, (x < z → y < z) ∧ ((z : ℚ) < x → (z : ℚ) < y) := by
    intro z
    have h1 := hfar z
    have h2 : |y - x| < |x - z| := lt_of_mul_lt_mul_right (lt_of_lt_of_le hy h1) hbq.le
    have h3 := abs_lt.1 h2
    constructor
    · intro h; rw [abs_of_neg (by linarith)] at h3; linarith [h3.2]
    · intro h; rw [abs_of_pos (by linarith)] at h3; linarith [h3.1]
  have f1 : ⌊y⌋ = ⌊x⌋ := by
    rw [Int.floor_eq_iff]
    refine ⟨((side ⌊x⌋).2 (lt_of_le_of_ne (Int.floor_le x) (hne _).symm)).le, ?_⟩
    have := (side (⌊x⌋ + 1)).1 (by push_cast; exact Int.lt_floor_add_one x)
    push_cast at this; exact this
  have f2 : ⌈y⌉ = ⌈x⌉ := by
    rw [Int.ceil_eq_iff]
    refine ⟨?_, ((side ⌈x⌉).1 (lt_of_le_of_ne (Int.le_ceil x) (hne _))).le⟩
    have := (side (⌈x⌉ - 1)).2 (by push_cast; linarith [Int.ceil_lt_add_one x])
    push_cast at this; linarith
  have f3 : y < 0 ↔ x < 0 := by
    have := side 0
    rw [Int.cast_zero] at this
    constructor
    · intro hy0
      by_contra hc
      rcases lt_or_eq_of_le (not_lt.1 hc) with h1 | h1
      · linarith [this.2 h1]
      · exact hne 0 (by rw [← h1]; simp)
    · exact this.1
  unfold trunc
  simp only [f1, f2, f3]

/-- The limits are extended by one time unit without a visible error. -/
theorem extend_close (h : IsRounding double fl) {a b m : Int} (ha : |a| ≤ 2 ^ 17) (hm : |m| ≤ 2 ^ 16) (hb : 0 < b) (hb2 : b ≤ 2 ^ 32) :
    trunc (fl (fl ((a : ℚ) / b) + m)) = trunc ((a : ℚ) / b + m) := by
  have hbq : (0 : ℚ) < b := by exact_mod_cast hb
  have hb1 : (1 : ℚ) ≤ b := by exact_mod_cast hb
  have hbu : (b : ℚ) ≤ 2 ^ 32 := by exact_mod_cast hb2
  have haq : |(a : ℚ)| ≤ 2 ^ 17 := by exact_mod_cast ha
  have hmq : |(m : ℚ)| ≤ 2 ^ 16 := by exact_mod_cast hm
  by_cases hz : ∃ z : Int, (a : ℚ) / b = z
  · obtain ⟨z, hz⟩ := hz
    have hza : |z| ≤ 2 ^ 17 := by
      have : |(z : ℚ)| ≤ 2 ^ 17 := by
        rw [← hz, abs_div, abs_of_pos hbq]
        exact (div_le_self (abs_nonneg _) hb1).trans haq
      exact_mod_cast this
    rw [hz, int_fix h (hza.trans (by norm_num))]
    have := int_fix h (n := z + m) ((abs_add_le _ _).trans (by
      have : (2 : Int) ^ 17 + 2 ^ 16 ≤ 2 ^ 53 := by norm_num
      omega))
    push_cast at this
    rw [this]
  · push Not at hz
    have e0 : (a : ℚ) / b + m = ((a + m * b : Int) : ℚ) / b := by push_cast; field_simp
    rw [e0]
    refine trunc_close hb ?_ ?_
    · intro z hzz
      rw [← e0] at hzz
      refine hz (z - m) ?_
      push_cast; linarith
    · rw [← e0]
      have e1 := h.error (by decide) ((a : ℚ) / b)
      have e2 := h.error_add (by decide) (h.float ((a : ℚ) / b)) (isFloat_int (f := double) (by decide) (by decide) (n := m) (hm.trans (by norm_num [double])))
      have ht := tiny_double
      rw [ulp_double] at e1 e2
      obtain ⟨x, hx⟩ : ∃ x, x = (a : ℚ) / b := ⟨_, rfl⟩
      obtain ⟨w, hw⟩ : ∃ w, w = fl x := ⟨_, rfl⟩
      rw [← hx, ← hw] at e1 e2 ⊢
      have hxa : |x| ≤ 2 ^ 17 := by
        rw [hx, abs_div, abs_of_pos hbq]; exact (div_le_self (abs_nonneg _) hb1).trans haq
      have e3 : |w - x| ≤ 2 ^ 18 / 2 ^ 53 := by
        refine e1.trans ?_
        norm_num at hxa ht ⊢
        linarith
      have hwm : |w + m| ≤ 2 ^ 19 := by
        have a1 := abs_add_le w m
        have a2 := abs_add_le (w - x) x
        rw [show w - x + x = w by ring] at a2
        norm_num at e3 hxa hmq ⊢
        linarith
      have e4 : |fl (w + m) - (x + m)| ≤ 2 ^ 20 / 2 ^ 53 := by
        have a1 := abs_add_le (fl (w + m) - (w + m)) (w - x)
        rw [show fl (w + m) - (w + m) + (w - x) = fl (w + m) - (x + m) by ring] at a1
        norm_num at e2 e3 hwm a1 ⊢
        linarith
      have := mul_le_mul e4 hbu hbq.le (by norm_num)
      norm_num at this ⊢
      linarith

/-- what is known of the object after a sample at time `now`; `t0` is the time of the first sample -/
structure LtcGood (c : Cfg) (t0 now : Int) (s : State) : Prop where
  cnt : s.counter = 1 ∨ s.counter = 2
  last : ∃ z : Int, s.last.v = z ∧ c.minValue ≤ z ∧ z ≤ c.maxValue
  from0 : t0 ≤ s.last.t
  one : s.counter = 1 → s.last.t = now
  two : s.counter = 2 → s.last.t < now ∧ s.ul.t = now ∧ s.ll.t = now ∧ (∃ z : Int, s.ul.v = z ∧ c.minValue ≤ z ∧ z ≤ c.maxValue) ∧
    ∃ z : Int, s.ll.v = z ∧ c.minValue ≤ z ∧ z ≤ c.maxValue

/-- a stored integer of the declared range -/
def Stored (c : Cfg) (x : ℚ) : Prop := ∃ z : Int, x = z ∧ c.minValue ≤ z ∧ z ≤ c.maxValue

theorem trunc_isInt (x : ℚ) : ∃ z : Int, trunc x = z := by
  unfold trunc; split
  · exact ⟨_, rfl⟩
  · exact ⟨_, rfl⟩

theorem stored_trunc {x : ℚ} (h1 : (c.minValue : ℚ) ≤ x) (h2 : x ≤ c.maxValue) : Stored c (trunc x) := by
  obtain ⟨z, hz⟩ := trunc_isInt x
  refine ⟨z, hz, ?_, ?_⟩
  · have := trunc_mono h1
    rw [trunc_int, hz] at this; exact_mod_cast this
  · have := trunc_mono h2
    rw [trunc_int, hz] at this; exact_mod_cast this

theorem stored_newUl (he : 0 ≤ c.eps) {t : Int} {v : ℚ} (hv : Stored c v) : Stored c (newUl c t v).v := by
  obtain ⟨z, rfl, h1, h2⟩ := hv
  simp only [newUl]
  split
  · exact ⟨c.maxValue, rfl, by omega, le_rfl⟩
  · rename_i h
    have : (z : ℚ) + c.eps ≤ c.maxValue := not_lt.1 h
    have : z + c.eps ≤ c.maxValue := by exact_mod_cast this
    exact ⟨z + c.eps, by push_cast; rfl, by omega, this⟩

theorem stored_newLl (he : 0 ≤ c.eps) {t : Int} {v : ℚ} (hv : Stored c v) : Stored c (newLl c t v).v := by
  obtain ⟨z, rfl, h1, h2⟩ := hv
  simp only [newLl]
  split
  · exact ⟨c.minValue, rfl, le_rfl, by omega⟩
  · rename_i h
    have : (c.minValue : ℚ) ≤ (z : ℚ) - c.eps := not_lt.1 h
    have : c.minValue ≤ z - c.eps := by exact_mod_cast this
    exact ⟨z - c.eps, by push_cast; rfl, this, by omega⟩

/-- the computed slope -/
theorem derivaR_eq (h : IsRounding double fl) (htud : c.tud = 1) (hmin : -2 ^ 16 ≤ c.minValue) (hmax : c.maxValue ≤ 2 ^ 16) {p q : Point}
    (hp : Stored c p.v) (hq : Stored c q.v) (ht : p.t < q.t) (ht2 : q.t - p.t ≤ 2 ^ 32) :
    ∃ a b : Int, |a| ≤ 2 ^ 17 ∧ 0 < b ∧ b ≤ 2 ^ 32 ∧ b = q.t - p.t ∧ q.v - p.v = a ∧ derivaR fl c p q = fl ((a : ℚ) / b) ∧ deriva c p q = (a : ℚ) / b := by
  obtain ⟨x, hx, x1, x2⟩ := hp
  obtain ⟨y, hy, y1, y2⟩ := hq
  have ha : |y - x| ≤ 2 ^ 17 := by rw [abs_le]; constructor <;> omega
  have hb : |q.t - p.t| ≤ 2 ^ 53 := by rw [abs_le]; constructor <;> omega
  have e : q.v - p.v = ((y - x : Int) : ℚ) := by rw [hx, hy]; push_cast; rfl
  refine ⟨y - x, q.t - p.t, ha, by omega, ht2, rfl, e, ?_, ?_⟩
  · rw [derivaR, htud, e, int_fix h hb]
    rw [Int.cast_one, div_one, h.fix (h.float _)]
  · rw [deriva, htud, e, Int.cast_one, div_one]

/-- one `add` one time unit later: rounding changes nothing -/
theorem ltc_step (h : IsRounding double fl) (htud : c.tud = 1) (he : 0 ≤ c.eps) (hconv : c.conv = trunc) (hmin : -2 ^ 16 ≤ c.minValue)
    (hmax : c.maxValue ≤ 2 ^ 16) {t0 now : Int} {s : State} (hg : LtcGood c t0 now s) (hspan : now + 1 - t0 ≤ 2 ^ 32) {v : ℚ} (hv : Stored c v) :
    ∃ s' r, ltcAddR fl c s (now + 1) v = .ok (s', r) ∧ add c s (now + 1) v = .ok (s', r) ∧ LtcGood c t0 (now + 1) s' := by
  have hnu := stored_newUl (t := now + 1) he hv
  have hnl := stored_newLl (t := now + 1) he hv
  rcases hg.cnt with h1 | h2
  · have h3 := hg.one h1
    have h4 := hg.from0
    refine ⟨addSecond c s (now + 1) v, false, by simp [ltcAddR, h1], by simp [add, h1], ?_⟩
    exact ⟨.inr rfl, hg.last, hg.from0, fun hc => absurd hc (by simp [addSecond]), fun _ => ⟨by simp only [addSecond]; omega, rfl, rfl, hnu, hnl⟩⟩
  · obtain ⟨hlt, hut, hlt', hu, hl⟩ := hg.two h2
    have hfrom := hg.from0
    have hlast : Stored c s.last.v := hg.last
    have hc0 : ¬ s.counter = 0 := by omega
    have hc1 : ¬ s.counter = 1 := by omega
    have hne : ¬ (s.ul.t = s.last.t ∨ s.ll.t = s.last.t ∨ (newUl c (now + 1) v).t = s.last.t ∨ (newLl c (now + 1) v).t = s.last.t ∨ c.tud = 0) := by
      rw [newUl_t, newLl_t, htud]; omega
    obtain ⟨a1, b1, q1, q2, q3, q4, q5, q6, q7⟩ := derivaR_eq h htud hmin hmax (q := s.ul) hlast hu (by omega) (by omega)
    obtain ⟨a2, b2, r1, r2, r3, r4, r5, r6, r7⟩ := derivaR_eq h htud hmin hmax (q := s.ll) hlast hl (by omega) (by omega)
    obtain ⟨a3, b3, u1, u2, u3, u4, u5, u6, u7⟩ := derivaR_eq h htud hmin hmax (q := newUl c (now + 1) v) hlast hnu (by rw [newUl_t]; omega) (by rw [newUl_t]; omega)
    obtain ⟨a4, b4, w1, w2, w3, w4, w5, w6, w7⟩ := derivaR_eq h htud hmin hmax (q := newLl c (now + 1) v) hlast hnl (by rw [newLl_t]; omega) (by rw [newLl_t]; omega)
    have c1 : derivaR fl c s.last s.ul < derivaR fl c s.last (newLl c (now + 1) v) ↔ deriva c s.last s.ul < deriva c s.last (newLl c (now + 1) v) := by
      rw [q6, q7, w6, w7]; exact quot_lt h q1 w1 q2 q3 w2 w3
    have c2 : derivaR fl c s.last s.ll > derivaR fl c s.last (newUl c (now + 1) v) ↔ deriva c s.last s.ll > deriva c s.last (newUl c (now + 1) v) := by
      rw [r6, r7, u6, u7]; exact quot_lt h u1 r1 u2 u3 r2 r3
    have c3 : derivaR fl c s.last s.ul < derivaR fl c s.last (newUl c (now + 1) v) ↔ deriva c s.last s.ul < deriva c s.last (newUl c (now + 1) v) := by
      rw [q6, q7, u6, u7]; exact quot_lt h q1 u1 q2 q3 u2 u3
    have c4 : derivaR fl c s.last s.ll > derivaR fl c s.last (newLl c (now + 1) v) ↔ deriva c s.last s.ll > deriva c s.last (newLl c (now + 1) v) := by
      rw [r6, r7, w6, w7]; exact quot_lt h w1 r1 w2 w3 r2 r3
    have one : fl ((1 : Int) : ℚ) = ((1 : Int) : ℚ) := int_fix h (by norm_num)
    have ext : ∀ (lim : Point), lim.t = now → Stored c lim.v → ∀ a b : Int, |a| ≤ 2 ^ 17 → 0 < b → b ≤ 2 ^ 32 →
        extendR fl c lim (fl ((a : ℚ) / b)) (now + 1) = extend c lim ((a : ℚ) / b) (now + 1) := by
      intro lim ht hs a b ha hb hb2
      obtain ⟨z, hz, z1, z2⟩ := hs
      have hz3 : |z| ≤ 2 ^ 16 := by rw [abs_le]; constructor <;> omega
      rw [extendR, extend, ht, htud, Int.tdiv_one, show now + 1 - now = 1 by omega, one, hz, Int.cast_one, one_mul,
        one_mul, h.fix (h.float _), hconv, extend_close h ha hz3 hb hb2]
    have x1 : extendR fl c s.ul (derivaR fl c s.last s.ul) (now + 1) = extend c s.ul (deriva c s.last s.ul) (now + 1) := by
      rw [q6, q7]; exact ext _ hut hu _ _ q1 q2 q3
    have x2 : extendR fl c s.ll (derivaR fl c s.last s.ll) (now + 1) = extend c s.ll (deriva c s.last s.ll) (now + 1) := by
      rw [r6, r7]; exact ext _ hlt' hl _ _ r1 r2 r3
    have hsame : needTransmitR fl c s (newUl c (now + 1) v) (newLl c (now + 1) v) = needTransmit c s (newUl c (now + 1) v) (newLl c (now + 1) v) := by
      rw [needTransmitR, needTransmit, if_neg hne, if_neg hne]
      simp only [c1, c2, c3, c4, newUl_t, newLl_t, x1, x2]
    have hadd : ltcAddR fl c s (now + 1) v = add c s (now + 1) v := by
      unfold ltcAddR add; rw [hsame]; rfl
    rw [hadd]
    obtain ⟨u, eu⟩ : ∃ u, u = deriva c s.last s.ul := ⟨_, rfl⟩
    obtain ⟨l, el⟩ : ∃ l, l = deriva c s.last s.ll := ⟨_, rfl⟩
    obtain ⟨nu, enu⟩ : ∃ u, u = deriva c s.last (newUl c (now + 1) v) := ⟨_, rfl⟩
    obtain ⟨nl, enl⟩ : ∃ u, u = deriva c s.last (newLl c (now + 1) v) := ⟨_, rfl⟩
    have vu : s.ul.v = ray s.last u now := by
      rw [eu, deriva, htud, hut]; simpa using ray_at s.last s.ul.v hlt
    have vl : s.ll.v = ray s.last l now := by
      rw [el, deriva, htud, hlt']; simpa using ray_at s.last s.ll.v hlt
    have vnu : (newUl c (now + 1) v).v = ray s.last nu (now + 1) := by
      rw [enu, deriva, htud, newUl_t]; simpa using ray_at s.last (newUl c (now + 1) v).v (t := now + 1) (by omega)
    have vnl : (newLl c (now + 1) v).v = ray s.last nl (now + 1) := by
      rw [enl, deriva, htud, newLl_t]; simpa using ray_at s.last (newLl c (now + 1) v).v (t := now + 1) (by omega)
    have exu : extend c s.ul u (now + 1) = ⟨now + 1, trunc (ray s.last u (now + 1))⟩ := by
      rw [extend, htud, Int.tdiv_one, vu, hut, ray_extend, hconv]
    have exl : extend c s.ll l (now + 1) = ⟨now + 1, trunc (ray s.last l (now + 1))⟩ := by
      rw [extend, htud, Int.tdiv_one, vl, hlt', ray_extend, hconv]
    have hlt1 : s.last.t < now + 1 := by omega
    have stq : ∀ x : ℚ, Stored c x → (c.minValue : ℚ) ≤ x ∧ x ≤ c.maxValue := by
      rintro _ ⟨z, rfl, z1, z2⟩
      exact ⟨by exact_mod_cast z1, by exact_mod_cast z2⟩
    by_cases hcond : u < nl ∨ l > nu
    · refine ⟨addSecond c { s with toTransmit := s.last, last := ⟨now + 1 - 1, c.conv ((s.ul.v + s.ll.v) / 2)⟩, counter := 1 } (now + 1) v, true, ?_, ?_, ?_⟩
      · simp only [add, hc0, hc1, if_false, needTransmit, hne, ← eu, ← el, ← enu, ← enl, hcond, if_true, bind, Except.bind, pure, Except.pure]
      · simp only [add, hc0, hc1, if_false, needTransmit, hne, ← eu, ← el, ← enu, ← enl, hcond, if_true, bind, Except.bind, pure, Except.pure]
      · have b1 := stq _ hu
        have b2 := stq _ hl
        refine ⟨.inr rfl, ?_, ?_, fun hc => absurd hc (by simp [addSecond]), fun _ => ⟨by simp only [addSecond]; omega, rfl, rfl, hnu, hnl⟩⟩
        · simp only [addSecond, hconv]
          exact stored_trunc (by linarith) (by linarith)
        · simp only [addSecond]; omega
    · push Not at hcond
      have hcond' : ¬ (u < nl ∨ l > nu) := by push Not; exact hcond
      have hn : needTransmit c s (newUl c (now + 1) v) (newLl c (now + 1) v) =
          .ok (some (if u < nu then extend c s.ul u (now + 1) else newUl c (now + 1) v,
            if l > nl then extend c s.ll l (now + 1) else newLl c (now + 1) v)) := by
        simp only [needTransmit, if_neg hne, ← eu, ← el, ← enu, ← enl, if_neg hcond']
        rfl
      refine ⟨{ s with
        ul := if u < nu then extend c s.ul u (now + 1) else newUl c (now + 1) v
        ll := if l > nl then extend c s.ll l (now + 1) else newLl c (now + 1) v }, false, ?_, ?_, ?_⟩
      · simp only [add, hc0, hc1, if_false, hn, bind, Except.bind, pure, Except.pure]
      · simp only [add, hc0, hc1, if_false, hn, bind, Except.bind, pure, Except.pure]
      · have b1 := stq _ hnu
        have b2 := stq _ hnl
        rw [vnu] at b1
        rw [vnl] at b2
        refine ⟨.inr h2, hg.last, hg.from0, fun hc => absurd hc (by dsimp only; omega), fun _ => ⟨by dsimp only; omega, ?_, ?_, ?_, ?_⟩⟩
        · dsimp only; split <;> rfl
        · dsimp only; split <;> rfl
        · dsimp only
          split
          · rename_i hlt2
            rw [exu]
            exact stored_trunc (b2.1.trans ((ray_mono hlt1).2 hcond.1)) (((ray_mono hlt1).2 hlt2.le).trans b1.2)
          · exact hnu
        · dsimp only
          split
          · rename_i hlt2
            rw [exl]
            exact stored_trunc (b2.1.trans ((ray_mono hlt1).2 (le_of_lt hlt2))) (((ray_mono hlt1).2 hcond.2).trans b1.2)
          · exact hnl

theorem ltc_run (h : IsRounding double fl) (htud : c.tud = 1) (he : 0 ≤ c.eps) (hconv : c.conv = trunc) (hmin : -2 ^ 16 ≤ c.minValue)
    (hmax : c.maxValue ≤ 2 ^ 16) (t0 : Int) : ∀ (ps : List Point) (now : Int) (s : State), LtcGood c t0 now s → now + ps.length - t0 ≤ 2 ^ 32 →
    (∀ p ∈ ps, Stored c p.v) → (∀ p ∈ ps.head?, p.t = now + 1) → Consecutive ps → ltcRunR fl c s ps = run c s ps
  | [], _, _, _, _, _, _, _ => rfl
  | p :: ps, now, s, hg, hspan, hv, ht, hcons => by
      have hp : p.t = now + 1 := ht p rfl
      simp only [List.length_cons, Nat.cast_add, Nat.cast_one] at hspan
      obtain ⟨s', r, e1, e2, e3⟩ := ltc_step h htud he hconv hmin hmax hg (by omega) (hv p (by simp))
      have ih := ltc_run h htud he hconv hmin hmax t0 ps (now + 1) s' e3 (by omega) (fun q hq => hv q (by simp [hq]))
        (by
          intro q hq
          cases ps with
          | nil => simp at hq
          | cons q' ps =>
              simp only [List.head?_cons, Option.mem_def, Option.some.injEq] at hq
              subst hq
              have := (List.isChain_cons_cons.1 hcons).1
              omega) hcons.of_cons
      simp only [ltcRunR, run, hp, e1, e2, bind, Except.bind, ih]

end Consecutive

/-- **C111** With consecutive timestamps rounding changes nothing: for `double` slopes, integer samples of a range within `±2^16` (the default range is
`-32768 … 32767`) and at most `2^32` samples, the object behaves exactly as with exact slopes, whatever way ties are rounded. -/
theorem C111_consecutive {fl : ℚ → ℚ} (h : IsRounding double fl) {c : Cfg} (htud : c.tud = 1) (he : 0 ≤ c.eps) (hconv : c.conv = trunc)
    (hmin : -2 ^ 16 ≤ c.minValue) (hmax : c.maxValue ≤ 2 ^ 16) (g : Point) (ps : List Point) (hcons : Consecutive ps) (hr : InRange c ps) (hz : Integral ps)
    (hlen : ps.length ≤ 2 ^ 32) : ltcRunR fl c (new g) ps = run c (new g) ps := by
  cases ps with
  | nil => rfl
  | cons p ps =>
      have hst : ∀ q ∈ p :: ps, Stored c q.v := by
        intro q hq
        obtain ⟨z, e⟩ := hz q hq
        have := hr q hq
        rw [e] at this
        exact ⟨z, e, by exact_mod_cast this.1, by exact_mod_cast this.2⟩
      have hg : LtcGood c p.t p.t { new g with last := p, counter := 1 } :=
        ⟨.inl rfl, hst p (by simp), le_rfl, fun _ => rfl, fun hc => absurd hc (by simp)⟩
      have hl : p.t + (ps.length : Int) - p.t ≤ 2 ^ 32 := by
        simp only [List.length_cons] at hlen
        have : (ps.length : Int) ≤ 2 ^ 32 := by
          have : ps.length ≤ 2 ^ 32 := by omega
          exact_mod_cast this
        omega
      have := ltc_run h htud he hconv hmin hmax p.t ps p.t _ hg hl (fun q hq => hst q (by simp [hq]))
        (by
          intro q hq
          cases ps with
          | nil => simp at hq
          | cons q' ps =>
              simp only [List.head?_cons, Option.mem_def, Option.some.injEq] at hq
              subst hq
              exact (List.isChain_cons_cons.1 hcons).1) hcons.of_cons
      have e1 : ltcAddR fl c (new g) p.t p.v = .ok ({ new g with last := p, counter := 1 }, false) := rfl
      have e2 : add c (new g) p.t p.v = .ok ({ new g with last := p, counter := 1 }, false) := rfl
      simp only [ltcRunR, run, e1, e2, bind, Except.bind, this]

/-! ### any increasing timestamps -/

section Gaps

variable {f : Fmt} {fl : ℚ → ℚ} {c : Cfg}

/-- the integers that occur are numbers of the format: the range of the values and the whole time span are at most `2^prec` -/
structure LtcBounds (f : Fmt) (c : Cfg) (ps : List Point) : Prop where
  prec : 1 ≤ f.prec
  emin : f.emin ≤ 0
  lo : -2 ^ f.prec ≤ c.minValue
  hi : c.maxValue ≤ 2 ^ f.prec
  width : c.maxValue - c.minValue ≤ 2 ^ f.prec
  span : ∀ p ∈ ps, ∀ q ∈ ps, q.t - p.t ≤ 2 ^ f.prec

/-- the line through `P` with slope `σ` has integer values of the declared range at all these times -/
def OnGrid (c : Cfg) (P : Point) (σ : ℚ) (seg : List Point) : Prop := ∀ q ∈ seg, ∃ z : Int, ray P σ q.t = z ∧ c.minValue ≤ z ∧ z ≤ c.maxValue

/-- what is known of an object with an open segment `seg` -/
structure SegR (c : Cfg) (s : State) (seg : List Point) : Prop where
  cnt : s.counter = 2
  tu : s.ll.t = s.ul.t
  lt : s.last.t < s.ul.t
  tm : ∀ p ∈ seg, s.last.t < p.t ∧ p.t ≤ s.ul.t
  top : ∃ p ∈ seg, p.t = s.ul.t
  fit : ∀ σ : Int, Fits c.eps s.last σ seg → OnGrid c s.last σ seg → s.ll.v ≤ ray s.last σ s.ul.t ∧ ray s.last σ s.ul.t ≤ s.ul.v

theorem grid_range {P : Point} {σ : ℚ} {seg : List Point} (h : OnGrid c P σ seg) {q : Point} (hq : q ∈ seg) :
    (c.minValue : ℚ) ≤ ray P σ q.t ∧ ray P σ q.t ≤ c.maxValue := by
  obtain ⟨z, e, h1, h2⟩ := h q hq
  rw [e]; exact ⟨by exact_mod_cast h1, by exact_mod_cast h2⟩

theorem segR_single (s : State) (p : Point) (hp : s.last.t < p.t) : SegR c (addSecond c s p.t p.v) [p] := by
  refine ⟨rfl, rfl, hp, by simpa [addSecond, newUl] using hp, ⟨p, by simp, rfl⟩, ?_⟩
  intro σ hf hc
  have h1 := abs_ray.1 (hf p (by simp))
  have h2 := grid_range hc (q := p) (by simp)
  exact ⟨newLl_le h1.1 h2.1, newUl_ge h1.2 h2.2⟩

theorem fl_int (h : IsRounding f fl) {ps : List Point} (hb : LtcBounds f c ps) {n : Int} (h1 : -2 ^ f.prec ≤ n) (h2 : n ≤ 2 ^ f.prec) : fl n = n :=
  h.fix (isFloat_int hb.prec hb.emin (abs_le.2 ⟨h1, h2⟩))

/-- an integer slope below (above) the exact one is below (above) the computed one -/
theorem deriva_int (h : IsRounding f fl) (htud : c.tud = 1) {ps : List Point} (hb : LtcBounds f c ps) {P q : Point} (ht : P.t < q.t)
    (ht2 : q.t - P.t ≤ 2 ^ f.prec) {σ : Int} (h1 : -2 ^ f.prec ≤ σ) (h2 : σ ≤ 2 ^ f.prec) :
    (ray P σ q.t ≤ q.v → (σ : ℚ) ≤ derivaR fl c P q) ∧ (q.v ≤ ray P σ q.t → derivaR fl c P q ≤ σ) := by
  have hd : (0 : ℚ) < ((q.t - P.t : Int) : ℚ) := by
    have : 0 < q.t - P.t := by omega
    exact_mod_cast this
  have hp2 : (0 : Int) < 2 ^ f.prec := by positivity
  have hdr : derivaR fl c P q = fl ((q.v - P.v) / ((q.t - P.t : Int) : ℚ)) := by
    rw [derivaR, htud, fl_int h hb (by omega) ht2, Int.cast_one, div_one, h.fix (h.float _)]
  rw [hdr]
  have hσ := fl_int h hb h1 h2
  constructor
  · intro hr
    rw [← hσ]
    refine h.mono ?_
    rw [le_div_iff₀ hd]
    unfold ray at hr; linarith
  · intro hr
    rw [← hσ]
    refine h.mono ?_
    rw [div_le_iff₀ hd]
    unfold ray at hr; linarith

theorem step_segR (h : IsRounding f fl) (htud : c.tud = 1) (hconv : c.conv = trunc) {ps : List Point} (hb : LtcBounds f c ps) (s : State) (seg : List Point)
    (hs : SegR c s seg) (p : Point) (hp : s.ul.t < p.t) (hsp : p.t - s.last.t ≤ 2 ^ f.prec) :
    (∃ s', ltcAddR fl c s p.t p.v = .ok (s', false) ∧ s'.last = s.last ∧ s'.ul.t = p.t ∧ SegR c s' (seg ++ [p])) ∨
    (∃ s', ltcAddR fl c s p.t p.v = .ok (s', true) ∧ s'.toTransmit = s.last ∧ s'.last = ⟨p.t - 1, trunc ((s.ul.v + s.ll.v) / 2)⟩ ∧ s'.ul.t = p.t ∧
      SegR c s' [p] ∧ ∀ σ : Int, Fits c.eps s.last σ (seg ++ [p]) → ¬ OnGrid c s.last σ (seg ++ [p])) := by
  have hlt := hs.lt
  have hlp : s.last.t < p.t := by omega
  have hll : s.ll.t = s.ul.t := hs.tu
  have hp2 : (0 : Int) < 2 ^ f.prec := by positivity
  obtain ⟨u, hu⟩ : ∃ u, u = derivaR fl c s.last s.ul := ⟨_, rfl⟩
  obtain ⟨l, hl⟩ : ∃ l, l = derivaR fl c s.last s.ll := ⟨_, rfl⟩
  obtain ⟨nu, hnu⟩ : ∃ u, u = derivaR fl c s.last (newUl c p.t p.v) := ⟨_, rfl⟩
  obtain ⟨nl, hnl⟩ : ∃ u, u = derivaR fl c s.last (newLl c p.t p.v) := ⟨_, rfl⟩
  have hne : ¬ (s.ul.t = s.last.t ∨ s.ll.t = s.last.t ∨ (newUl c p.t p.v).t = s.last.t ∨ (newLl c p.t p.v).t = s.last.t ∨ c.tud = 0) := by
    rw [newUl_t, newLl_t, htud, hll]; omega
  have hc0 : ¬ s.counter = 0 := by rw [hs.cnt]; decide
  have hc1 : ¬ s.counter = 1 := by rw [hs.cnt]; decide
  have key : ∀ σ : Int, Fits c.eps s.last σ (seg ++ [p]) → OnGrid c s.last σ (seg ++ [p]) →
      (-2 ^ f.prec ≤ (p.t - s.ul.t) * σ ∧ (p.t - s.ul.t) * σ ≤ 2 ^ f.prec) ∧
      (s.ll.v ≤ ray s.last σ s.ul.t ∧ ray s.last σ s.ul.t ≤ s.ul.v) ∧ ((newLl c p.t p.v).v ≤ ray s.last σ p.t ∧ ray s.last σ p.t ≤ (newUl c p.t p.v).v) ∧
      (l ≤ σ ∧ σ ≤ u) ∧ nl ≤ σ ∧ σ ≤ nu := by
    intro σ h1 h2
    have h3 := hs.fit σ (fun q hq => h1 q (by simp [hq])) (fun q hq => h2 q (by simp [hq]))
    have h4 := abs_ray.1 (h1 p (by simp))
    have h5 := grid_range h2 (q := p) (by simp)
    have h6 := newUl_ge (t := p.t) h4.2 h5.2
    have h7 := newLl_le (t := p.t) h4.1 h5.1
    obtain ⟨q, hq, hqt⟩ := hs.top
    have h8 := grid_range h2 (q := q) (by simp [hq])
    have hdiff : (((p.t - s.ul.t) * σ : Int) : ℚ) = ray s.last σ p.t - ray s.last σ q.t := by
      rw [hqt]; unfold ray; push_cast; ring
    have hw : ((c.maxValue - c.minValue : Int) : ℚ) ≤ ((2 ^ f.prec : Int) : ℚ) := by exact_mod_cast hb.width
    have d1 : -2 ^ f.prec ≤ (p.t - s.ul.t) * σ := by
      have : ((-2 ^ f.prec : Int) : ℚ) ≤ (((p.t - s.ul.t) * σ : Int) : ℚ) := by
        rw [hdiff]; push_cast at hw ⊢; linarith [h5.1, h8.2]
      exact_mod_cast this
    have d2 : (p.t - s.ul.t) * σ ≤ 2 ^ f.prec := by
      have : (((p.t - s.ul.t) * σ : Int) : ℚ) ≤ ((2 ^ f.prec : Int) : ℚ) := by
        rw [hdiff]; push_cast at hw ⊢; linarith [h5.2, h8.1]
      exact_mod_cast this
    have hd : 1 ≤ p.t - s.ul.t := by omega
    have s1 : -2 ^ f.prec ≤ σ := by
      rcases le_or_gt 0 σ with h | h
      · omega
      · nlinarith
    have s2 : σ ≤ 2 ^ f.prec := by
      rcases le_or_gt σ 0 with h | h
      · omega
      · nlinarith
    have k1 := deriva_int h htud hb (P := s.last) (q := s.ul) hlt (by omega) s1 s2
    have k2 := deriva_int h htud hb (P := s.last) (q := s.ll) (by omega) (by omega) s1 s2
    have k3 := deriva_int h htud hb (P := s.last) (q := newUl c p.t p.v) (by rw [newUl_t]; omega) (by rw [newUl_t]; omega) s1 s2
    have k4 := deriva_int h htud hb (P := s.last) (q := newLl c p.t p.v) (by rw [newLl_t]; omega) (by rw [newLl_t]; omega) s1 s2
    rw [← hu] at k1
    rw [← hl, hll] at k2
    rw [← hnu, newUl_t] at k3
    rw [← hnl, newLl_t] at k4
    exact ⟨⟨d1, d2⟩, h3, ⟨h7, h6⟩, ⟨k2.2 h3.1, k1.1 h3.2⟩, k4.2 h7, k3.1 h6⟩
  by_cases hcond : u < nl ∨ l > nu
  · right
    refine ⟨addSecond c { s with toTransmit := s.last, last := ⟨p.t - 1, c.conv ((s.ul.v + s.ll.v) / 2)⟩, counter := 1 } p.t p.v, ?_, rfl, ?_, rfl,
      segR_single _ _ (by simp), ?_⟩
    · simp only [ltcAddR, hc0, hc1, if_false, needTransmitR, hne, ← hu, ← hl, ← hnu, ← hnl, hcond, if_true, bind, Except.bind, pure, Except.pure]
    · simp only [addSecond, hconv]
    · intro σ h1 h2
      obtain ⟨_, _, _, ⟨h3, h4⟩, h5, h6⟩ := key σ h1 h2
      rcases hcond with h7 | h7
      · exact absurd (h5.trans h4) (not_le.2 h7)
      · exact absurd (h3.trans h6) (not_le.2 h7)
  · left
    push Not at hcond
    refine ⟨{ s with
      ul := if u < nu then extendR fl c s.ul u p.t else newUl c p.t p.v
      ll := if l > nl then extendR fl c s.ll l p.t else newLl c p.t p.v }, ?_, rfl, ?_, ?_⟩
    · have hcond' : ¬ (u < nl ∨ l > nu) := by push Not; exact hcond
      have hn : needTransmitR fl c s (newUl c p.t p.v) (newLl c p.t p.v) =
          .ok (some (if u < nu then extendR fl c s.ul u p.t else newUl c p.t p.v,
            if l > nl then extendR fl c s.ll l p.t else newLl c p.t p.v)) := by
        simp only [needTransmitR, if_neg hne, ← hu, ← hl, ← hnu, ← hnl, if_neg hcond']
        rfl
      simp only [ltcAddR, hc0, hc1, if_false, hn, bind, Except.bind, pure, Except.pure]
    · dsimp only; split <;> rfl
    · have tul : (if u < nu then extendR fl c s.ul u p.t else newUl c p.t p.v).t = p.t := by split <;> rfl
      have tll : (if l > nl then extendR fl c s.ll l p.t else newLl c p.t p.v).t = p.t := by split <;> rfl
      refine ⟨hs.cnt, by dsimp only; rw [tul, tll], by dsimp only; rw [tul]; exact hlp, ?_, ⟨p, by simp, by dsimp only; rw [tul]⟩, ?_⟩
      · intro q hq
        dsimp only; rw [tul]
        rcases List.mem_append.1 hq with hq | hq
        · have := hs.tm q hq; omega
        · simp only [List.mem_singleton] at hq; subst hq; omega
      · intro σ h1 h2
        dsimp only at h1 h2 ⊢
        rw [tul]
        obtain ⟨⟨d1, d2⟩, hin, hnew, ⟨h3, h4⟩, _, _⟩ := key σ h1 h2
        obtain ⟨z, ez, z1, z2⟩ := h2 p (by simp)
        have fz : fl z = z := fl_int h hb (by have := hb.lo; omega) (by have := hb.hi; omega)
        have fd : fl ((p.t - s.ul.t : Int) : ℚ) = ((p.t - s.ul.t : Int) : ℚ) := fl_int h hb (by omega) (by omega)
        have fσ : fl (((p.t - s.ul.t) * σ : Int) : ℚ) = (((p.t - s.ul.t) * σ : Int) : ℚ) := fl_int h hb d1 d2
        have hpos : (0 : ℚ) ≤ ((p.t - s.ul.t : Int) : ℚ) := by
          have : 0 ≤ p.t - s.ul.t := by omega
          exact_mod_cast this
        have eσ : ray s.last σ p.t = (((p.t - s.ul.t) * σ : Int) : ℚ) + ray s.last σ s.ul.t := by
          unfold ray; push_cast; ring
        constructor
        · split
          · rw [extendR, htud, Int.tdiv_one, hll, fd, hconv]
            dsimp only
            rw [ez, ← trunc_int z]
            refine trunc_mono ?_
            rw [← fz]
            refine h.mono ?_
            rw [← ez, eσ]
            refine add_le_add ?_ hin.1
            rw [← fσ]
            refine h.mono ?_
            push_cast at hpos ⊢
            exact mul_le_mul_of_nonneg_left h3 hpos
          · exact hnew.1
        · split
          · rw [extendR, htud, Int.tdiv_one, fd, hconv]
            dsimp only
            rw [ez, ← trunc_int z]
            refine trunc_mono ?_
            rw [← fz]
            refine h.mono ?_
            rw [← ez, eσ]
            refine add_le_add ?_ hin.2
            rw [← fσ]
            refine h.mono ?_
            push_cast at hpos ⊢
            exact mul_le_mul_of_nonneg_left h4 hpos
          · exact hnew.2

/-- what is known after a non-empty stream -/
structure InvR (c : Cfg) (ps : List Point) (s : State) (os : List (Option Point)) : Prop where
  len : os.length = ps.length
  one : ps.length = 1 → s.counter = 1 ∧ os = [none]
  seg : 2 ≤ ps.length → SegR c s (openSegment (ps.zip os))
  top : 2 ≤ ps.length → ∃ q ∈ ps, q.t = s.ul.t
  two : ∀ o ∈ os.take 2, o = none
  old : ∃ q ∈ ps, q.t ≤ s.last.t
  first : transmitted os = [] → ps.head? = some s.last
  sent : transmitted os ≠ [] → (transmitted os).head? = ps.head?
  incr : (transmitted os ++ [s.last]).Pairwise (fun P Q => P.t < Q.t)

theorem ltcRunR_append (s : State) (ps : List Point) (p : Point) {s1 os s2 r} (h : ltcRunR fl c s ps = .ok (s1, os))
    (h2 : ltcAddR fl c s1 p.t p.v = .ok (s2, r)) : ltcRunR fl c s (ps ++ [p]) = .ok (s2, os ++ [observe s2 r]) := by
  induction ps generalizing s os with
  | nil =>
      simp only [ltcRunR, Except.ok.injEq, Prod.mk.injEq] at h
      obtain ⟨rfl, rfl⟩ := h
      simp [ltcRunR, h2, bind, Except.bind, pure, Except.pure]
  | cons q ps ih =>
      simp only [ltcRunR, bind, Except.bind, pure, Except.pure] at h
      cases h3 : ltcAddR fl c s q.t q.v with
      | error e => simp [h3] at h
      | ok x =>
          obtain ⟨sa, ra⟩ := x
          simp only [h3] at h
          cases h4 : ltcRunR fl c sa ps with
          | error e => simp [h4] at h
          | ok y =>
              obtain ⟨sb, ob⟩ := y
              simp only [h4, Except.ok.injEq, Prod.mk.injEq] at h
              obtain ⟨rfl, rfl⟩ := h
              simp [ltcRunR, h3, ih sa h4, bind, Except.bind, pure, Except.pure]

theorem invR_one (g : Point) (p : Point) : ∃ s, ltcRunR fl c (new g) [p] = .ok (s, [none]) ∧ InvR c [p] s [none] := by
  refine ⟨{ new g with last := p, counter := 1 }, ?_, ?_⟩
  · simp [ltcRunR, ltcAddR, new, observe, bind, Except.bind, pure, Except.pure]
  · exact ⟨rfl, fun _ => ⟨rfl, rfl⟩, by simp, by simp, by simp, ⟨p, by simp, le_rfl⟩, fun _ => rfl, by simp [transmitted], by simp [transmitted]⟩

theorem invR_false {ps : List Point} {s s' : State} {os : List (Option Point)} (h : InvR c ps s os) {p : Point} (hps : ps ≠ [])
    (hlast : s'.last = s.last) (hul : s'.ul.t = p.t) (hseg : SegR c s' (openSegment (ps.zip os) ++ [p])) : InvR c (ps ++ [p]) s' (os ++ [none]) := by
  have hl := h.len
  have hz : ps.zip os ≠ [] := by
    intro hc; have := congrArg List.length hc; simp [hl] at this; exact hps this
  have hos : openSegment ((ps ++ [p]).zip (os ++ [none])) = openSegment (ps.zip os) ++ [p] := by
    rw [zip_snoc hl, openSegment_snoc _ hz]; simp
  have htr : transmitted (os ++ [none]) = transmitted os := by rw [transmitted_snoc]; simp
  have hhead : (ps ++ [p]).head? = ps.head? := by
    cases ps with
    | nil => exact absurd rfl hps
    | cons => rfl
  refine ⟨by simp [hl], fun h2 => ?_, fun _ => by rw [hos]; exact hseg, fun _ => ⟨p, by simp, hul.symm⟩, ?_, ?_, ?_, ?_, ?_⟩
  · simp at h2; exact absurd h2 hps
  · intro o ho
    rw [List.take_append] at ho
    rcases List.mem_append.1 ho with ho | ho
    · exact h.two o ho
    · have := List.mem_of_mem_take ho; simpa using this
  · obtain ⟨q, h1, h2⟩ := h.old
    exact ⟨q, by simp [h1], by rw [hlast]; exact h2⟩
  · rw [htr, hlast, hhead]; exact h.first
  · rw [htr, hhead]; exact h.sent
  · rw [htr, hlast]; exact h.incr

theorem invR_true {ps : List Point} {s s' : State} {os : List (Option Point)} (h : InvR c ps s os) {p : Point} (hps : 2 ≤ ps.length)
    (hinc : ∀ q ∈ ps, q.t < p.t) {x : ℚ} (hlast : s'.last = ⟨p.t - 1, x⟩) (hul : s'.ul.t = p.t) (hseg : SegR c s' [p]) :
    InvR c (ps ++ [p]) s' (os ++ [some s.last]) := by
  have hl := h.len
  have hps' : ps ≠ [] := by rintro rfl; simp at hps
  have hz : ps.zip os ≠ [] := by
    intro hc; have := congrArg List.length hc; simp [hl] at this; exact hps' this
  have hos : openSegment ((ps ++ [p]).zip (os ++ [some s.last])) = [p] := by
    rw [zip_snoc hl, openSegment_snoc _ hz]; simp
  have htr : transmitted (os ++ [some s.last]) = transmitted os ++ [s.last] := by rw [transmitted_snoc]; simp
  have hhead : (ps ++ [p]).head? = ps.head? := by
    cases ps with
    | nil => exact absurd rfl hps'
    | cons => rfl
  obtain ⟨lq, hlq, hlqt⟩ := h.top hps
  have hlp : s.ul.t < p.t := by rw [← hlqt]; exact hinc lq hlq
  have hlt := (h.seg hps).lt
  refine ⟨by simp [hl], fun h2 => ?_, fun _ => by rw [hos]; exact hseg, fun _ => ⟨p, by simp, hul.symm⟩, ?_, ?_, ?_, ?_, ?_⟩
  · simp at h2; exact absurd h2 hps'
  · intro o ho
    rw [List.take_append_of_le_length (by omega)] at ho
    exact h.two o ho
  · exact ⟨lq, by simp [hlq], by rw [hlast]; dsimp only; omega⟩
  · rw [htr]; simp
  · intro _
    rw [htr, hhead]
    by_cases h0 : transmitted os = []
    · rw [h0, h.first h0]; rfl
    · rw [← h.sent h0]
      cases hh : transmitted os with
      | nil => exact absurd hh h0
      | cons => rfl
  · rw [htr, List.pairwise_append]
    refine ⟨h.incr, by simp, ?_⟩
    intro P hP Q hQ
    simp only [List.mem_singleton] at hQ; subst hQ
    have hlst : s.last.t < p.t - 1 := by omega
    rw [hlast]
    rcases List.mem_append.1 hP with hP | hP
    · exact ((List.pairwise_append.1 h.incr).2.2 P hP s.last (by simp)).trans hlst
    · simp at hP; subst hP; exact hlst

theorem stepR_inv (h : IsRounding f fl) (htud : c.tud = 1) (hconv : c.conv = trunc) {ps : List Point} {s : State} {os : List (Option Point)}
    (hi : InvR c ps s os) (hps : ps ≠ []) {p : Point} (hb : LtcBounds f c (ps ++ [p])) (hinc : ∀ q ∈ ps, q.t < p.t) :
    (∃ s', ltcAddR fl c s p.t p.v = .ok (s', false) ∧ InvR c (ps ++ [p]) s' (os ++ [none])) ∨
    (∃ s', ltcAddR fl c s p.t p.v = .ok (s', true) ∧ s'.toTransmit = s.last ∧ InvR c (ps ++ [p]) s' (os ++ [some s.last]) ∧
      ∀ σ : Int, Fits c.eps s.last σ (openSegment (ps.zip os) ++ [p]) → ¬ OnGrid c s.last σ (openSegment (ps.zip os) ++ [p])) := by
  by_cases h1 : ps.length = 1
  · left
    obtain ⟨h2, h3⟩ := hi.one h1
    obtain ⟨q, rfl⟩ := List.length_eq_one_iff.1 h1
    have h4 : s.last = q := by have := hi.first (by rw [h3]; rfl); simp at this; exact this.symm
    have hq := hinc q (by simp)
    refine ⟨addSecond c s p.t p.v, by simp [ltcAddR, h2], ?_⟩
    refine invR_false hi (by simp) rfl rfl ?_
    rw [h3]
    exact segR_single _ _ (by rw [h4]; exact hq)
  · have h2 : 2 ≤ ps.length := by
      have := List.length_pos_iff.2 hps; omega
    have hs := hi.seg h2
    obtain ⟨lq, hlq, hlqt⟩ := hi.top h2
    have hlp : s.ul.t < p.t := by rw [← hlqt]; exact hinc lq hlq
    obtain ⟨oq, hoq, hoqt⟩ := hi.old
    have hspan := hb.span oq (by simp [hoq]) p (by simp)
    rcases step_segR h htud hconv hb s _ hs p hlp (by omega) with ⟨s', a1, a2, a3, a4⟩ | ⟨s', a1, a2, a3, a4, a5, a6⟩
    · exact .inl ⟨s', a1, invR_false hi hps a2 a3 a4⟩
    · exact .inr ⟨s', a1, a2, invR_true hi h2 hinc a3 a4 a5, a6⟩

theorem LtcBounds.init {ps : List Point} {p : Point} (hb : LtcBounds f c (ps ++ [p])) : LtcBounds f c ps :=
  ⟨hb.prec, hb.emin, hb.lo, hb.hi, hb.width, fun a ha b hb' => hb.span a (by simp [ha]) b (by simp [hb'])⟩

theorem runR_inv (h : IsRounding f fl) (htud : c.tud = 1) (hconv : c.conv = trunc) (g : Point) (ps : List Point) (hps : ps ≠ []) (hb : LtcBounds f c ps)
    (hinc : Increasing ps) : ∃ s os, ltcRunR fl c (new g) ps = .ok (s, os) ∧ InvR c ps s os := by
  induction ps using List.reverseRecOn with
  | nil => exact absurd rfl hps
  | append_singleton ps p ih =>
      by_cases h0 : ps = []
      · subst h0
        obtain ⟨s, h1, h2⟩ := invR_one (fl := fl) (c := c) g p
        exact ⟨s, _, h1, h2⟩
      · obtain ⟨h1, h2⟩ := increasing_snoc hinc
        obtain ⟨s, os, h3, h4⟩ := ih h0 hb.init h1
        rcases stepR_inv h htud hconv h4 h0 hb h2 with ⟨s', a1, a3⟩ | ⟨s', a1, a2, a3, _⟩
        · exact ⟨s', _, ltcRunR_append _ _ _ h3 a1, a3⟩
        · refine ⟨s', os ++ [some s.last], ?_, a3⟩
          rw [ltcRunR_append _ _ _ h3 a1, observe, a2]; rfl

end Gaps

/-- **C111** The protocol of C28 does not depend on exact slopes: for any increasing timestamps, no failure, the first two `add` return false, the first
point to transmit is the first sample and the transmitted timestamps increase strictly. -/
theorem C111_protocol {f : Fmt} {fl : ℚ → ℚ} (h : IsRounding f fl) {c : Cfg} (htud : c.tud = 1) (hconv : c.conv = trunc) (g : Point) (ps : List Point)
    (hb : LtcBounds f c ps) (hinc : Increasing ps) :
    ∃ s os, ltcRunR fl c (new g) ps = .ok (s, os) ∧ os.length = ps.length ∧ (∀ o ∈ os.take 2, o = none) ∧
      (transmitted os ≠ [] → (transmitted os).head? = ps.head?) ∧ (transmitted os).Pairwise (fun P Q => P.t < Q.t) := by
  by_cases h0 : ps = []
  · subst h0; exact ⟨new g, [], rfl, rfl, by simp, by simp [transmitted], by simp [transmitted]⟩
  · obtain ⟨s, os, h1, h2⟩ := runR_inv h htud hconv g ps h0 hb hinc
    exact ⟨s, os, h1, h2.len, h2.two, h2.sent, (List.pairwise_append.1 h2.incr).1⟩

/-- **C111** (partial) No needless transmission for lines of integer slope, at any increasing timestamps: when `add p` returns true with point `P`, no line
through `P` with an integer slope and integer values in the range is within epsilon of `p` and of all samples of the open segment. For other slopes this is
false: `C111_needless`. -/
theorem C111_no_needless_partial {f : Fmt} {fl : ℚ → ℚ} (h : IsRounding f fl) {c : Cfg} (htud : c.tud = 1) (hconv : c.conv = trunc) (g : Point)
    (ps : List Point) (p : Point) (hb : LtcBounds f c (ps ++ [p])) (hinc : Increasing (ps ++ [p])) {s : State} {os : List (Option Point)} {P : Point}
    (hrun : ltcRunR fl c (new g) (ps ++ [p]) = .ok (s, os ++ [some P])) (σ : Int)
    (hint : ∀ q ∈ openSegment (ps.zip os) ++ [p], ∃ z : Int, ray P σ q.t = z ∧ c.minValue ≤ z ∧ z ≤ c.maxValue) :
    ¬ Fits c.eps P σ (openSegment (ps.zip os) ++ [p]) := by
  by_cases h0 : ps = []
  · subst h0
    obtain ⟨s0, h1, _⟩ := invR_one (fl := fl) (c := c) g p
    rw [List.nil_append, h1] at hrun
    simp only [Except.ok.injEq, Prod.mk.injEq] at hrun
    have := hrun.2
    rcases os with _ | ⟨a, os⟩ <;> simp at this
  · obtain ⟨h1, h2⟩ := increasing_snoc hinc
    obtain ⟨s0, os0, h3, h4⟩ := runR_inv h htud hconv g ps h0 hb.init h1
    rcases stepR_inv h htud hconv h4 h0 hb h2 with ⟨s', a1, _⟩ | ⟨s', a1, a2, a3, a4⟩
    · rw [ltcRunR_append _ _ _ h3 a1] at hrun
      simp only [Except.ok.injEq, Prod.mk.injEq] at hrun
      have := List.append_inj' hrun.2 rfl
      simp [observe] at this
    · rw [ltcRunR_append _ _ _ h3 a1] at hrun
      simp only [Except.ok.injEq, Prod.mk.injEq] at hrun
      obtain ⟨h5, h6⟩ := List.append_inj' hrun.2 rfl
      simp only [observe, if_true, List.cons.injEq, Option.some.injEq, and_true, a2] at h6
      subst h5; subst h6
      exact fun hf => a4 σ hf hint

/-- four samples on a line of slope 1/49 (epsilon 1, default range) -/
def needless : List Point := [⟨0, -1⟩, ⟨49, -1⟩, ⟨98, 1⟩, ⟨147, 3⟩]

/-- **C111** (violation) With gaps between the timestamps the rounded slope breaks C26: `49 * (1.0 / 49)` is below 1 and is truncated to 0. In exact
arithmetic the four samples are compressed; the code transmits at the fourth, although the line through the first sample with slope 1/49, whose values are
integers, is within epsilon of all of them. -/
theorem C111_needless : Increasing needless ∧ InRange exCode needless ∧ Integral needless ∧ LtcBounds double exCode needless ∧
    (∃ s, ltcRunR (rn double) exCode (new ⟨0, 0⟩) needless = .ok (s, [none, none, none, some ⟨0, -1⟩])) ∧
    (∃ s, run exCode (new ⟨0, 0⟩) needless = .ok (s, [none, none, none, none])) ∧
    (∀ q ∈ needless, ∃ z : Int, ray ⟨0, -1⟩ (1 / 49) q.t = z ∧ exCode.minValue ≤ z ∧ z ≤ exCode.maxValue) ∧ Fits exCode.eps ⟨0, -1⟩ (1 / 49) needless := by
  have hmem : ∀ q ∈ needless, q = ⟨0, -1⟩ ∨ q = ⟨49, -1⟩ ∨ q = ⟨98, 1⟩ ∨ q = ⟨147, 3⟩ := by
    intro q hq; simpa [needless] using hq
  refine ⟨by simp [Increasing, needless], ?_, ?_, ⟨by decide, by decide, by decide, by decide, by decide, ?_⟩,
    ⟨⟨⟨146, 0⟩, ⟨147, 4⟩, ⟨147, 2⟩, ⟨0, -1⟩, 2⟩, by decide +kernel⟩, ⟨⟨⟨0, -1⟩, ⟨147, 2⟩, ⟨147, 2⟩, ⟨0, 0⟩, 2⟩, by decide +kernel⟩, ?_, ?_⟩
  · intro p hp
    rcases hmem p hp with rfl | rfl | rfl | rfl <;> norm_num [exCode]
  · intro p hp
    rcases hmem p hp with rfl | rfl | rfl | rfl
    exacts [⟨-1, by norm_num⟩, ⟨-1, by norm_num⟩, ⟨1, by norm_num⟩, ⟨3, by norm_num⟩]
  · intro p hp q hq
    rcases hmem p hp with rfl | rfl | rfl | rfl <;> rcases hmem q hq with rfl | rfl | rfl | rfl <;> norm_num [double]
  · intro p hp
    rcases hmem p hp with rfl | rfl | rfl | rfl
    exacts [⟨-1, by norm_num [ray, exCode]⟩, ⟨0, by norm_num [ray, exCode]⟩, ⟨1, by norm_num [ray, exCode]⟩, ⟨2, by norm_num [ray, exCode]⟩]
  · intro p hp
    rcases hmem p hp with rfl | rfl | rfl | rfl <;> norm_num [ray, exCode, abs_le]

/-- **C111** The unbounded error of C25 is not an artefact of exact slopes: with doubles, epsilon 1 and the default range, a sample can be 32000 away from
the line joining the transmitted points around it. -/
theorem C111_error {fl : ℚ → ℚ} (h : IsRounding double fl) (g : Point) : ∃ ps : List Point, Consecutive ps ∧ InRange exCode ps ∧ Integral ps ∧
    ∃ s os P Q p, ltcRunR fl exCode (new g) ps = .ok (s, os) ∧ transmitted os = [P, Q] ∧ p ∈ ps ∧ P.t ≤ p.t ∧ p.t ≤ Q.t ∧
      (32000 : ℚ) < |lineAt P Q p.t - p.v| := by
  obtain ⟨ps, h0, h1, h2, h3, s, os, P, Q, p, h4, h5⟩ := C25_error_unbounded exCode rfl rfl rfl 32000 (by decide) (by decide) g
  refine ⟨ps, h1, h2, h3, s, os, P, Q, p, ?_, by exact_mod_cast h5⟩
  rw [C111_consecutive h rfl (by decide) rfl (by decide) (by decide) g ps h1 h2 h3 (by omega)]
  exact h4

/-- the hypotheses of `C111_consecutive` on a stream with transmissions -/
example : Consecutive exStream ∧ InRange exCode exStream ∧ Integral exStream ∧
    (ltcRunR (rn double) exCode (new ⟨0, 0⟩) exStream).map Prod.snd = .ok [none, none, none, some ⟨0, 0⟩, some ⟨2, 3⟩, some ⟨3, 9⟩] := by
  have hmem : ∀ p ∈ exStream, p = ⟨0, 0⟩ ∨ p = ⟨1, 1⟩ ∨ p = ⟨2, 4⟩ ∨ p = ⟨3, 9⟩ ∨ p = ⟨4, 9⟩ ∨ p = ⟨5, 2⟩ := by
    intro p hp; simpa [exStream] using hp
  refine ⟨by simp [Consecutive, exStream], ?_, ?_, by decide +kernel⟩
  · intro p hp
    rcases hmem p hp with rfl | rfl | rfl | rfl | rfl | rfl <;> norm_num [exCode]
  · intro p hp
    rcases hmem p hp with rfl | rfl | rfl | rfl | rfl | rfl
    exacts [⟨0, by norm_num⟩, ⟨1, by norm_num⟩, ⟨4, by norm_num⟩, ⟨9, by norm_num⟩, ⟨9, by norm_num⟩, ⟨2, by norm_num⟩]

end Orp.Rounding
