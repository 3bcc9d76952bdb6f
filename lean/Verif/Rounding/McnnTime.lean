import Verif.Rounding.Ltc
import Verif.Rounding.Metrics
import Verif.Rounding.Mcnn
import Verif.Mcnn.Counters

/-!
C129: the times of MC-NN are kept in variables of type `double`. They are exact for a long time, so that integers are the right model for them.
-/

namespace Orp.Rounding

open Orp.Mcnn

variable {fl : ℚ → ℚ}

/-- `triangular_number` (mc_nn.hpp:27-30) with rounding -/
def triangularR (fl : ℚ → ℚ) (t : ℚ) : ℚ := fl (fl (fl (t * t) + t) * (1 / 2))

/-- `performance` (mc_nn.hpp:59-65) with rounding of every operation -/
def participationR {K : Type} (fl : ℚ → ℚ) (c : Cluster K) (now : ℚ) : Dbl ℚ :=
  rndD fl (Dbl.mul (.fin (c.tsSum : ℚ)) (rndD fl (Dbl.div (.fin 100) (.fin (fl (triangularR fl now - triangularR fl c.init))))))

theorem triangularR_eq (h : IsRounding double fl) {t : Int} (h0 : 0 ≤ t) (h1 : t * (t + 1) ≤ 2 ^ 53) : triangularR fl t = triangular t := by
  have hsq : 0 ≤ t * t := mul_nonneg h0 h0
  have e1 : fl ((t : ℚ) * t) = ((t * t : Int) : ℚ) := by
    rw [← int_fix h (n := t * t) (by rw [abs_of_nonneg hsq]; nlinarith)]
    push_cast; rfl
  have e2 : fl (((t * t : Int) : ℚ) + t) = ((t * t + t : Int) : ℚ) := by
    rw [← int_fix h (n := t * t + t) (by rw [abs_of_nonneg (by omega)]; nlinarith)]
    push_cast; rfl
  have ev : ∃ m : Int, t * t + t = 2 * m := by
    obtain ⟨k, hk⟩ := Int.even_or_odd' t
    rcases hk with hk | hk
    · exact ⟨k * (2 * k + 1), by rw [hk]; ring⟩
    · exact ⟨(2 * k + 1) * (k + 1), by rw [hk]; ring⟩
  obtain ⟨m, hm⟩ := ev
  unfold triangularR triangular
  rw [e1, e2, hm]
  have e3 : ((2 * m : Int) : ℚ) * (1 / 2) = (m : ℚ) := by push_cast; ring
  rw [e3]
  exact int_fix h (by rw [abs_of_nonneg (by nlinarith)]; nlinarith)

theorem triangular_int {t : Int} (h0 : 0 ≤ t) : ∃ m : Int, 0 ≤ m ∧ 2 * m = t * (t + 1) ∧ triangular t = m := by
  obtain ⟨k, hk⟩ := Int.even_or_odd' t
  have ht : 0 ≤ t * (t + 1) := mul_nonneg h0 (by omega)
  rcases hk with hk | hk
  · have e : 2 * (k * (2 * k + 1)) = t * (t + 1) := by rw [hk]; ring
    refine ⟨k * (2 * k + 1), by omega, e, ?_⟩
    have e' : t * t + t = 2 * (k * (2 * k + 1)) := by rw [e]; ring
    unfold triangular
    rw [e']
    push_cast; ring
  · have e : 2 * ((2 * k + 1) * (k + 1)) = t * (t + 1) := by rw [hk]; ring
    refine ⟨(2 * k + 1) * (k + 1), by omega, e, ?_⟩
    have e' : t * t + t = 2 * ((2 * k + 1) * (k + 1)) := by rw [e]; ring
    unfold triangular
    rw [e']
    push_cast; ring

/-- the quotient of integers, rounded and then truncated, is the truncated quotient -/
theorem quot_floor (h : IsRounding double fl) {a b : Int} (ha : 0 ≤ a) (ha2 : a ≤ 2 ^ 52) (hb : 0 < b) (hb2 : b ≤ 2 ^ 52) : ⌊fl ((a : ℚ) / b)⌋ = a / b := by
  have hbq : (0 : ℚ) < b := by exact_mod_cast hb
  have haq : (0 : ℚ) ≤ a := by exact_mod_cast ha
  have hq0 : 0 ≤ a / b := Int.ediv_nonneg ha hb.le
  have hq1 : a / b ≤ a := Int.ediv_le_self b ha
  rw [Int.floor_eq_iff]
  constructor
  · rw [← int_fix h (n := a / b) (by rw [abs_of_nonneg hq0]; omega)]
    apply h.mono
    rw [le_div_iff₀ hbq]
    exact_mod_cast Int.ediv_mul_le a hb.ne'
  · have h1 := h.error (by decide) ((a : ℚ) / b)
    have hu : ulp double = 1 / 2 ^ 53 := by
      unfold ulp double
      norm_num
    have ht := tiny_double
    have hx : 0 ≤ (a : ℚ) / b := by positivity
    rw [hu, abs_of_nonneg hx] at h1
    have h2 := (abs_le.1 h1).2
    have h3 : (a : ℚ) / b ≤ ((a / b : Int) : ℚ) + 1 - 1 / b := by
      rw [div_le_iff₀ hbq, sub_mul, add_mul, one_div, inv_mul_cancel₀ hbq.ne']
      have := Int.lt_ediv_add_one_mul_self a hb
      have h4 : a + 1 ≤ a / b * b + b := by nlinarith
      have : ((a + 1 : Int) : ℚ) ≤ ((a / b * b + b : Int) : ℚ) := by exact_mod_cast h4
      push_cast at this
      linarith
    have h5 : (a : ℚ) / b * (1 / 2 ^ 53) ≤ 1 / (2 * b) := by
      rw [div_mul_eq_mul_div, div_le_div_iff₀ hbq (by positivity)]
      have : (a : ℚ) ≤ 2 ^ 52 := by exact_mod_cast ha2
      nlinarith
    have h6 : (1 : ℚ) / 2 ^ 100 < 1 / (2 * b) := by
      have : (b : ℚ) ≤ 2 ^ 52 := by exact_mod_cast hb2
      rw [div_lt_div_iff₀ (by positivity) (by positivity)]
      nlinarith
    have h7 : (1 : ℚ) / (2 * b) + 1 / (2 * b) = 1 / b := by field_simp; ring
    linarith

/-- **C129** MC-NN, the times. After `N` training points with `(N - 1) N ≤ 2^53` (so `N` can be over 94 million), in `double` precision: the time and the sum of the times of every cluster
in use are exact, adding the next time is exact, the participation is computed with the two roundings of the model of C110 only, and the mean time that a split gives to
the new clusters is exact. -/
theorem C129_times {K : Type} [Field K] [LinearOrder K] [IsStrictOrderedRing K] (h : IsRounding double fl) (sqrt : K → K) (garbage : List (Cluster K)) (hg : garbage ≠ [])
    (fc : Nat) (hfc : 1 ≤ fc) (errorThr cleaning : Nat) (perfThr : ℚ) (ps : List (List K × Int)) (hp : ∀ p ∈ ps, p.1.length = fc)
    (hN : (ps.length - 1) * ps.length ≤ 2 ^ 53) :
    ∃ s, run sqrt (new garbage errorThr cleaning perfThr) ps = .ok s ∧ fl s.timestamp = s.timestamp ∧ fl (s.timestamp + 1) = s.timestamp + 1 ∧ ∀ i c, Active s i c →
      fl c.tsSum = c.tsSum ∧ fl (c.tsSum + s.timestamp) = c.tsSum + s.timestamp ∧
      participationR fl c s.timestamp = rndD fl (Dbl.mul (.fin (c.tsSum : ℚ)) (rndD fl (Dbl.div (.fin 100) (.fin (triangular s.timestamp - triangular c.init))))) ∧
      ⌊fl ((c.tsSum : ℚ) / c.n)⌋ = c.tsSum.tdiv c.n := by
  obtain ⟨s, h1, h2, h3⟩ := C129_counters sqrt garbage hg fc hfc errorThr cleaning perfThr ps hp
  have hlen : ps.length < 2 ^ 27 + 1 := by
    by_contra hc
    have : (2 ^ 27 : Nat) * (2 ^ 27 + 1) ≤ (ps.length - 1) * ps.length := Nat.mul_le_mul (by omega) (by omega)
    omega
  refine ⟨s, h1, int_fix h (by rw [h2, abs_le]; constructor <;> omega), ?_, fun i c hc => ?_⟩
  · have := int_fix h (n := s.timestamp + 1) (by rw [h2, abs_le]; constructor <;> omega)
    push_cast at this
    exact this
  · obtain ⟨a1, a2, -, a4, a5, a6, a7⟩ := h3 i c hc
    have hT : 1 ≤ ps.length := by omega
    have hN' : s.timestamp * (s.timestamp + 1) ≤ 2 ^ 53 := by
      rw [h2]
      have : (((ps.length - 1) * ps.length : Nat) : Int) ≤ ((2 ^ 53 : Nat) : Int) := by exact_mod_cast hN
      rw [Nat.cast_mul, Nat.cast_sub hT] at this
      push_cast at this
      linarith
    have h0 : 0 ≤ s.timestamp := by omega
    have h2S : 2 * c.tsSum ≤ s.timestamp * (s.timestamp + 1) := by rw [h2]; linarith
    have hi : c.init ≤ s.timestamp := by omega
    have hci : c.init * (c.init + 1) ≤ s.timestamp * (s.timestamp + 1) := by nlinarith
    obtain ⟨m, m1, m2, m3⟩ := triangular_int h0
    obtain ⟨k, k1, k2, k3⟩ := triangular_int a4
    refine ⟨int_fix h (by rw [abs_of_nonneg a6]; omega), ?_, ?_, ?_⟩
    · have := int_fix h (n := c.tsSum + s.timestamp) (by rw [abs_of_nonneg (by omega)]; omega)
      push_cast at this
      exact this
    · unfold participationR
      rw [triangularR_eq h h0 hN', triangularR_eq h a4 (by omega)]
      have e : fl (triangular s.timestamp - triangular c.init) = triangular s.timestamp - triangular c.init := by
        rw [m3, k3]
        have := int_fix h (n := m - k) (by rw [abs_le]; constructor <;> omega)
        push_cast at this
        exact this
      rw [e]
    · have := quot_floor h (a := c.tsSum) (b := c.n) a6 (by omega) (by omega) (by omega)
      rw [Int.tdiv_eq_ediv_of_nonneg a6, ← this]
      norm_cast

example : ∃ s, run (K := ℚ) id (new [junk] 2 0 50) (List.replicate 90000000 ([3], 7)) = .ok s ∧ rn double s.timestamp = s.timestamp :=
  let ⟨s, h1, h2, _⟩ := C129_times (rn_isRounding double (by decide)) (K := ℚ) id [junk] (by simp) 1 le_rfl 2 0 50 (List.replicate 90000000 ([3], 7))
    (fun p hp => by rw [List.eq_of_mem_replicate hp]; rfl) (by rw [List.length_replicate]; norm_num)
  ⟨s, h1, h2⟩

end Orp.Rounding
