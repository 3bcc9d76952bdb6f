import Verif.Rounding.Float
import Verif.Reservoir.Props
import Verif.Chained.Props
import Verif.Utils.Props

/-!
The reservoirs and `shuffle` with rounded arithmetic (C106).

The functions below are those of `Reservoir/Model.lean`, `Chained/Model.lean` and `Utils/Model.lean` with every `double` operation followed by a rounding `fl`.
Conversions of `int` and `unsigned int` to `double` are exact. The theorems say that every run with rounded arithmetic is a run with exact arithmetic and
other random numbers from the same interval; so what was proved for all random numbers holds with rounding too.
-/

namespace Orp.Rounding

/-- A format in which `int`, `unsigned int` and half integers of this size are exact, with 1 far above the smallest numbers -/
def Fmt.Wide (f : Fmt) : Prop := 33 ≤ f.prec ∧ f.emin + f.prec ≤ 0

theorem double_wide : double.Wide := ⟨by decide, by decide⟩

/-- a random number: a number of the format in `[0,1)` -/
def Draw (f : Fmt) (r : ℚ) : Prop := IsFloat f r ∧ 0 ≤ r ∧ r < 1

variable {α : Type} {f : Fmt} {fl : ℚ → ℚ}

theorem Fmt.Wide.one_le (hf : f.Wide) : 1 ≤ f.prec := by unfold Fmt.Wide at hf; omega

theorem Fmt.Wide.nat (hf : f.Wide) {n : Nat} (hn : n ≤ 2 ^ 32) : IsFloat f n := by
  have := hf.1; have := hf.2
  exact isFloat_nat hf.one_le (by omega) (le_trans hn (Nat.pow_le_pow_right (by norm_num) (by omega)))

/-- a random index is in range -/
theorem index_lt (h : IsRounding f fl) (hf : f.Wide) {r : ℚ} (hr : Draw f r) {n : Nat} (h1 : 1 ≤ n) (hn : n ≤ 2 ^ 32) :
    0 ≤ fl (r * n) ∧ fl (r * n) < n := by
  constructor
  · exact h.ge (isFloat_zero f) (mul_nonneg hr.2.1 (Nat.cast_nonneg n))
  · refine h.mul_lt hf.one_le hr.1 hr.2.2 (hf.nat hn) ?_
    have hn1 : (1 : ℚ) ≤ n := by exact_mod_cast h1
    refine le_trans ?_ hn1
    have := two_zpow_le hf.2
    rwa [zpow_zero] at this

/-- the random number that gives index `j` of `n` -/
theorem floor_back {n j : Nat} (hj : j < n) : ⌊((j : ℚ) / n) * n⌋ = (j : Int) := by
  have : (n : ℚ) ≠ 0 := by exact_mod_cast (by omega : n ≠ 0)
  rw [div_mul_cancel₀ _ this]
  exact Int.floor_natCast j

theorem frac_in {n j : Nat} (hj : j < n) : Reservoir.In01 ((j : ℚ) / n) := by
  have hn : (0 : ℚ) < n := by exact_mod_cast (by omega : 0 < n)
  refine ⟨by positivity, ?_⟩
  rw [div_lt_one hn]; exact_mod_cast hj

/-- an index computed with rounding is the exact one for another random number -/
theorem index_back (h : IsRounding f fl) (hf : f.Wide) {r : ℚ} (hr : Draw f r) {n : Nat} (h1 : 1 ≤ n) (hn : n ≤ 2 ^ 32) :
    ∃ r' : ℚ, Reservoir.In01 r' ∧ ⌊fl (r * n)⌋ = ⌊r' * n⌋ := by
  obtain ⟨a1, a2⟩ := index_lt h hf hr h1 hn
  have b1 : 0 ≤ ⌊fl (r * n)⌋ := Int.floor_nonneg.2 a1
  have b2 : ⌊fl (r * n)⌋ < n := Int.floor_lt.2 (by exact_mod_cast a2)
  have hj : ⌊fl (r * n)⌋.toNat < n := by omega
  refine ⟨_, frac_in hj, ?_⟩
  rw [floor_back hj]
  omega

/-! ### Reservoir sampling -/

/-- `rnd < num / den` (reservoir_sampling.hpp:66-68, 113-115) with rounding; see `Reservoir.ltQuot` -/
def ltQuotR (fl : ℚ → ℚ) (rnd : ℚ) (num den : Nat) : Bool :=
  if den = 0 then decide (num ≠ 0) else decide (rnd < fl ((num : ℚ) / (den : ℚ)))

/-- `ReservoirSampling::sample_index` (reservoir_sampling.hpp:58-73) with rounding -/
def sampleIndexR (fl : ℚ → ℚ) (sampleSize : Nat) (s : Reservoir.State α) (r1 r2 : ℚ) : Reservoir.State α × Int :=
  let idx : Int :=
    if s.counter < sampleSize then (s.counter : Int)
    else if ltQuotR fl r1 sampleSize (Reservoir.incr s.counter) then ⌊fl (r2 * (sampleSize : ℚ))⌋
    else -1
  ({ s with counter := Reservoir.incr s.counter }, idx)

/-- `ReservoirSampling::add` (reservoir_sampling.hpp:47-53) with rounding -/
def addR (fl : ℚ → ℚ) (sampleSize : Nat) (s : Reservoir.State α) (e : α) (r1 r2 : ℚ) : Res (Reservoir.State α × Int) :=
  let (s, idx) := sampleIndexR fl sampleSize s r1 r2
  if idx ≥ 0 then do
    let sample ← wr s.sample idx.toNat e
    return ({ s with sample }, idx)
  else return (s, idx)

/-- a stream of `add` calls with rounding -/
def addsR (fl : ℚ → ℚ) (sampleSize : Nat) (s : Reservoir.State α) : List (Reservoir.Call α ℚ) → Res (Reservoir.State α)
  | [] => .ok s
  | c :: cs => do
      let (s, _) ← addR fl sampleSize s c.e c.r1 c.r2
      addsR fl sampleSize s cs

theorem addR_back (h : IsRounding f fl) (hf : f.Wide) {k : Nat} (hk : 1 ≤ k) (hk2 : k < 2 ^ 31) (s : Reservoir.State α) (hs : s.counter < 2 ^ 32) (e : α)
    {r1 r2 : ℚ} (h2 : Draw f r2) :
    ∃ r1' r2' : ℚ, Reservoir.In01 r1' ∧ Reservoir.In01 r2' ∧ addR fl k s e r1 r2 = Reservoir.add k s e r1' r2' := by
  obtain ⟨r2', c1, c2⟩ := index_back h hf h2 hk (n := k) (by omega)
  have zero_in : Reservoir.In01 (0 : ℚ) := ⟨le_rfl, one_pos⟩
  have hkpos : (0 : ℚ) < k := by exact_mod_cast hk
  by_cases hc : s.counter < k
  · refine ⟨0, r2', zero_in, c1, ?_⟩
    simp only [addR, sampleIndexR, Reservoir.add, Reservoir.sampleIndex, if_pos hc]
  · by_cases hq : ltQuotR fl r1 k (Reservoir.incr s.counter) = true
    · refine ⟨0, r2', zero_in, c1, ?_⟩
      have hq' : Reservoir.ltQuot (0 : ℚ) k (Reservoir.incr s.counter) = true := by
        unfold Reservoir.ltQuot
        split
        · simp; omega
        · rename_i hne
          have : (0 : ℚ) < (Reservoir.incr s.counter : ℚ) := by exact_mod_cast (by omega : 0 < Reservoir.incr s.counter)
          simp only [decide_eq_true_eq]
          positivity
      simp only [addR, sampleIndexR, Reservoir.add, Reservoir.sampleIndex, if_neg hc, hq, hq', if_true, c2]
    · have hne : Reservoir.incr s.counter ≠ 0 := by
        intro h0
        apply hq
        unfold ltQuotR
        rw [if_pos h0]
        simp; omega
      have hin : Reservoir.incr s.counter = s.counter + 1 := by
        unfold Reservoir.incr at hne ⊢
        rcases Nat.lt_or_ge (s.counter + 1) (2 ^ 32) with h3 | h3
        · exact Nat.mod_eq_of_lt h3
        · exfalso; apply hne
          rw [show s.counter + 1 = 2 ^ 32 by omega, Nat.mod_self]
      refine ⟨(k : ℚ) / (Reservoir.incr s.counter : ℚ), r2', ?_, c1, ?_⟩
      · exact frac_in (by omega)
      · have hq' : Reservoir.ltQuot ((k : ℚ) / (Reservoir.incr s.counter : ℚ)) k (Reservoir.incr s.counter) = false := by
          unfold Reservoir.ltQuot
          rw [if_neg hne]
          simp
        simp only [Bool.not_eq_true] at hq
        simp only [addR, sampleIndexR, Reservoir.add, Reservoir.sampleIndex, if_neg hc, hq, hq', Bool.false_eq_true, if_false]

theorem incr_lt (n : Nat) : Reservoir.incr n < 2 ^ 32 := Nat.mod_lt _ (by norm_num)

theorem add_counter {k : Nat} {s : Reservoir.State α} {e : α} {r1 r2 : ℚ} {q : Reservoir.State α × Int} (h : Reservoir.add k s e r1 r2 = .ok q) :
    q.1.counter < 2 ^ 32 := by
  have key : (Reservoir.sampleIndex k s r1 r2).1.counter < 2 ^ 32 := incr_lt _
  unfold Reservoir.add at h
  generalize Reservoir.sampleIndex k s r1 r2 = w at h key
  simp only at h
  split at h
  · simp only [bind, Except.bind] at h
    split at h
    · cases h
    · rw [← Except.ok.inj h]; exact key
  · rw [← Except.ok.inj h]; exact key

/-- **C106** Reservoir sampling with rounding: for every stream and all random numbers there are random numbers with which exact arithmetic gives the same
results. -/
theorem C106_reservoir (h : IsRounding f fl) (hf : f.Wide) {k : Nat} (hk : 1 ≤ k) (hk2 : k < 2 ^ 31) :
    ∀ (cs : List (Reservoir.Call α ℚ)) (s : Reservoir.State α), s.counter < 2 ^ 32 → (∀ c ∈ cs, Draw f c.r1 ∧ Draw f c.r2) →
    ∃ cs' : List (Reservoir.Call α ℚ), cs'.map (·.e) = cs.map (·.e) ∧ (∀ c ∈ cs', c.Valid) ∧ addsR fl k s cs = Reservoir.adds k s cs'
  | [], s, _, _ => ⟨[], rfl, by simp, rfl⟩
  | c :: cs, s, hs, hv => by
      obtain ⟨r1', r2', a1, a2, a3⟩ := addR_back h hf hk hk2 s hs c.e (r1 := c.r1) (hv c (by simp)).2
      cases hq : Reservoir.add k s c.e r1' r2' with
      | error e =>
          refine ⟨⟨c.e, r1', r2'⟩ :: cs.map (fun d => ⟨d.e, 0, 0⟩), by simp, ?_, ?_⟩
          · intro d hd
            rcases List.mem_cons.1 hd with rfl | hd
            · exact ⟨a1, a2⟩
            · obtain ⟨d', _, rfl⟩ := List.mem_map.1 hd
              exact ⟨⟨le_rfl, one_pos⟩, ⟨le_rfl, one_pos⟩⟩
          · simp only [addsR, Reservoir.adds, a3, hq, bind, Except.bind]
      | ok q =>
          obtain ⟨cs', b1, b2, b3⟩ := C106_reservoir h hf hk hk2 cs q.1 (add_counter hq) (fun d hd => hv d (List.mem_cons_of_mem _ hd))
          refine ⟨⟨c.e, r1', r2'⟩ :: cs', by simp [b1], ?_, ?_⟩
          · intro d hd
            rcases List.mem_cons.1 hd with rfl | hd
            · exact ⟨a1, a2⟩
            · exact b2 d hd
          · simp only [addsR, Reservoir.adds, a3, hq, bind, Except.bind, b3]

/-- **C106** In particular `add` with rounding writes no slot out of range (C14). -/
theorem C106_reservoir_slot (h : IsRounding f fl) (hf : f.Wide) {k : Nat} (hk : 1 ≤ k) (hk2 : k < 2 ^ 31) (s : Reservoir.State α) (hs : s.counter < 2 ^ 32)
    (hl : s.sample.length = k) (e : α) {r1 r2 : ℚ} (h2 : Draw f r2) :
    ∃ s' idx, addR fl k s e r1 r2 = .ok (s', idx) ∧ s'.sample.length = k ∧
      ((idx = -1 ∧ s'.sample = s.sample) ∨
       (∃ i : Nat, idx = i ∧ i < k ∧ s'.sample[i]? = some e ∧ ∀ j, j ≠ i → s'.sample[j]? = s.sample[j]?)) := by
  obtain ⟨r1', r2', a1, a2, a3⟩ := addR_back h hf hk hk2 s hs e (r1 := r1) h2
  rw [a3]
  exact Reservoir.C14_add_valid_slot hk s hl e a2

/-- without rounding these are the functions of the model -/
theorem addR_id (k : Nat) (s : Reservoir.State α) (e : α) (r1 r2 : ℚ) : addR id k s e r1 r2 = Reservoir.add k s e r1 r2 := rfl

/-- a stream for which rounding matters: `0.7` (as a `double`) times 10 is below 7, its rounded value is 7. -/
example : addR (rn double) 10 ⟨List.replicate 10 0, 10⟩ 1 0 (rn double (7 / 10)) = .ok (⟨[0, 0, 0, 0, 0, 0, 0, 1, 0, 0], 11⟩, 7) ∧
    Reservoir.add 10 ⟨List.replicate 10 0, 10⟩ 1 0 (rn double (7 / 10)) = .ok (⟨[0, 0, 0, 0, 0, 0, 1, 0, 0, 0], 11⟩, 6) := by
  decide +kernel

example : Draw double (rn double (7 / 10)) := ⟨rn_float _ (by decide) _, by decide +kernel, by decide +kernel⟩

/-- `fl` rounds upward (the mode `FE_UPWARD`): the result is the smallest number of the format that is not below the exact result. -/
def IsUpward (f : Fmt) (fl : ℚ → ℚ) : Prop := ∀ x, IsFloat f (fl x) ∧ x ≤ fl x ∧ ∀ z, IsFloat f z → x ≤ z → fl x ≤ z

/-- **C106** Rounding to nearest is needed: in the rounding mode "upward" the last number before 1 gives an index out of range. -/
theorem C106_upward (h : IsUpward double fl) (a b c e : α) (n : Nat) (hn : 3 ≤ n) (hn2 : n + 1 < 2 ^ 32) :
    Draw double (1 - 2 ^ (-53 : Int)) ∧ addR fl 3 ⟨[a, b, c], n⟩ e 0 (1 - 2 ^ (-53 : Int)) = .error .ub := by
  have hr : Draw double (1 - 2 ^ (-53 : Int)) := by
    refine ⟨⟨2 ^ 53 - 1, -53, by decide, by decide, ?_⟩, ?_, ?_⟩ <;> norm_num
  refine ⟨hr, ?_⟩
  have h3 : fl ((1 - 2 ^ (-53 : Int)) * ((3 : Nat) : ℚ)) = 3 := by
    obtain ⟨a1, a2, a3⟩ := h ((1 - 2 ^ (-53 : Int)) * ((3 : Nat) : ℚ))
    have b1 := a3 3 ⟨3, 0, by decide, by decide, by norm_num⟩ (by norm_num)
    set y := fl ((1 - 2 ^ (-53 : Int)) * ((3 : Nat) : ℚ)) with hy
    have b2 : (2 : ℚ) ^ (1 : Int) ≤ |y| := by
      rw [abs_of_nonneg (le_trans (by norm_num) a2)]
      exact le_trans (by norm_num) a2
    obtain ⟨m, hm⟩ := a1.grid b2
    have he : (1 : Int) + 1 - double.prec = -51 := by decide
    rw [he] at hm
    have hw : (2 : ℚ) ^ (-51 : Int) = 1 / 2251799813685248 := by norm_num
    have hw2 : (2 : ℚ) ^ (-53 : Int) = 1 / 9007199254740992 := by norm_num
    rw [hw] at hm
    rw [hw2, hm] at a2
    rw [hm] at b1
    have c1 : (m : ℚ) ≤ 6755399441055744 := by linarith
    have c2 : (6755399441055743 : ℚ) < m := by push_cast at a2; linarith
    have c3 : m ≤ 6755399441055744 := by exact_mod_cast c1
    have c4 : 6755399441055743 < m := by exact_mod_cast c2
    have : m = 6755399441055744 := by omega
    rw [hm, this]; norm_num
  have hin : Reservoir.incr n = n + 1 := Nat.mod_eq_of_lt hn2
  have hq : ltQuotR fl 0 3 (n + 1) = true := by
    unfold ltQuotR
    rw [if_neg (by omega), decide_eq_true_eq]
    have hpos : (0 : ℚ) < ((3 : Nat) : ℚ) / ((n + 1 : Nat) : ℚ) := by positivity
    exact lt_of_lt_of_le hpos (h _).2.1
  simp only [addR, sampleIndexR, if_neg (show ¬ n < 3 by omega), hin, hq, if_true, h3]
  have : ⌊(3 : ℚ)⌋ = 3 := by norm_num
  simp [this, wr, bind, Except.bind]

/-! ### Exponential reservoir -/

/-- `ExponentialReservoirSampling::sample_index` (reservoir_sampling.hpp:112-126) with rounding -/
def expSampleIndexR (fl : ℚ → ℚ) (sampleSize : Nat) (s : Reservoir.State α) (r1 r2 : ℚ) : Reservoir.State α × Int :=
  if ltQuotR fl r1 s.counter sampleSize then (s, ⌊fl (r2 * (s.counter : ℚ))⌋)
  else ({ s with counter := Reservoir.incr s.counter }, (s.counter : Int))

/-- `ExponentialReservoirSampling::add` (reservoir_sampling.hpp:101-107) with rounding -/
def expAddR (fl : ℚ → ℚ) (sampleSize : Nat) (s : Reservoir.State α) (e : α) (r1 r2 : ℚ) : Res (Reservoir.State α × Int) :=
  let (s, idx) := expSampleIndexR fl sampleSize s r1 r2
  if idx ≥ 0 then do
    let sample ← wr s.sample idx.toNat e
    return ({ s with sample }, idx)
  else return (s, idx)

/-- a stream of `add` calls on the exponential variant, with rounding -/
def expAddsR (fl : ℚ → ℚ) (sampleSize : Nat) (s : Reservoir.State α) : List (Reservoir.Call α ℚ) → Res (Reservoir.State α)
  | [] => .ok s
  | c :: cs => do
      let (s, _) ← expAddR fl sampleSize s c.e c.r1 c.r2
      expAddsR fl sampleSize s cs

theorem expAddR_back (h : IsRounding f fl) (hf : f.Wide) {k : Nat} (hk : 1 ≤ k) (hk2 : k < 2 ^ 31) (s : Reservoir.State α) (hs : s.counter ≤ k) (e : α)
    {r1 r2 : ℚ} (h1 : Draw f r1) (h2 : Draw f r2) :
    ∃ r1' r2' : ℚ, Reservoir.In01 r1' ∧ Reservoir.In01 r2' ∧ expAddR fl k s e r1 r2 = Reservoir.expAdd k s e r1' r2' := by
  have zero_in : Reservoir.In01 (0 : ℚ) := ⟨le_rfl, one_pos⟩
  have hkpos : (0 : ℚ) < k := by exact_mod_cast hk
  have hk0 : k ≠ 0 := by omega
  by_cases hq : ltQuotR fl r1 s.counter k = true
  · have hpos : 0 < s.counter := by
      by_contra hc
      have h0 : s.counter = 0 := by omega
      unfold ltQuotR at hq
      rw [if_neg hk0, h0, Nat.cast_zero, zero_div, h.fix (isFloat_zero f)] at hq
      have := of_decide_eq_true hq
      exact absurd h1.2.1 (not_le.2 this)
    obtain ⟨r2', c1, c2⟩ := index_back h hf h2 (n := s.counter) hpos (by omega)
    refine ⟨0, r2', zero_in, c1, ?_⟩
    have hq' : Reservoir.ltQuot (0 : ℚ) s.counter k = true := by
      unfold Reservoir.ltQuot
      rw [if_neg hk0, decide_eq_true_eq]
      have : (0 : ℚ) < s.counter := by exact_mod_cast hpos
      positivity
    simp only [expAddR, expSampleIndexR, Reservoir.expAdd, Reservoir.expSampleIndex, hq, hq', if_true, c2]
  · have hlt : s.counter < k := by
      rcases Nat.lt_or_ge s.counter k with h3 | h3
      · exact h3
      · exfalso; apply hq
        unfold ltQuotR
        rw [if_neg hk0, show s.counter = k by omega, div_self hkpos.ne', decide_eq_true_eq]
        have : fl 1 = 1 := h.fix (by simpa using hf.nat (n := 1) (by norm_num))
        rw [this]; exact h1.2.2
    refine ⟨(s.counter : ℚ) / k, 0, frac_in hlt, zero_in, ?_⟩
    have hq' : Reservoir.ltQuot ((s.counter : ℚ) / k) s.counter k = false := by
      unfold Reservoir.ltQuot
      rw [if_neg hk0]; simp
    simp only [Bool.not_eq_true] at hq
    simp only [expAddR, expSampleIndexR, Reservoir.expAdd, Reservoir.expSampleIndex, hq, hq', Bool.false_eq_true, if_false]

theorem expAdd_counter {k : Nat} (hk : 1 ≤ k) (hk2 : k < 2 ^ 31) {s : Reservoir.State α} (hs : s.counter ≤ k) {e : α} {r1 r2 : ℚ} (h1 : r1 < 1)
    {q : Reservoir.State α × Int} (h : Reservoir.expAdd k s e r1 r2 = .ok q) : q.1.counter ≤ k := by
  have key : (Reservoir.expSampleIndex k s r1 r2).1.counter ≤ k := by
    unfold Reservoir.expSampleIndex
    split
    · exact hs
    · rename_i hq
      have hlt : s.counter < k := by
        rcases Nat.lt_or_ge s.counter k with h3 | h3
        · exact h3
        · exfalso; apply hq
          have hkpos : (0 : ℚ) < k := by exact_mod_cast hk
          unfold Reservoir.ltQuot
          rw [if_neg (by omega), show s.counter = k by omega, div_self hkpos.ne', decide_eq_true_eq]
          exact h1
      show Reservoir.incr s.counter ≤ k
      unfold Reservoir.incr
      rw [Nat.mod_eq_of_lt (by omega)]; omega
  unfold Reservoir.expAdd at h
  simp only at h
  split at h
  · simp only [bind, Except.bind] at h
    split at h
    · cases h
    · rw [← Except.ok.inj h]; exact key
  · rw [← Except.ok.inj h]; exact key

/-- **C106** The exponential reservoir with rounding: for every stream and all random numbers there are random numbers with which exact arithmetic gives
the same results. -/
theorem C106_exponential (h : IsRounding f fl) (hf : f.Wide) {k : Nat} (hk : 1 ≤ k) (hk2 : k < 2 ^ 31) :
    ∀ (cs : List (Reservoir.Call α ℚ)) (s : Reservoir.State α), s.counter ≤ k → (∀ c ∈ cs, Draw f c.r1 ∧ Draw f c.r2) →
    ∃ cs' : List (Reservoir.Call α ℚ), cs'.map (·.e) = cs.map (·.e) ∧ (∀ c ∈ cs', c.Valid) ∧ expAddsR fl k s cs = Reservoir.expAdds k s cs'
  | [], s, _, _ => ⟨[], rfl, by simp, rfl⟩
  | c :: cs, s, hs, hv => by
      obtain ⟨r1', r2', a1, a2, a3⟩ := expAddR_back h hf hk hk2 s hs c.e (hv c (by simp)).1 (hv c (by simp)).2
      cases hq : Reservoir.expAdd k s c.e r1' r2' with
      | error e =>
          refine ⟨⟨c.e, r1', r2'⟩ :: cs.map (fun d => ⟨d.e, 0, 0⟩), by simp, ?_, ?_⟩
          · intro d hd
            rcases List.mem_cons.1 hd with rfl | hd
            · exact ⟨a1, a2⟩
            · obtain ⟨d', _, rfl⟩ := List.mem_map.1 hd
              exact ⟨⟨le_rfl, one_pos⟩, ⟨le_rfl, one_pos⟩⟩
          · simp only [expAddsR, Reservoir.expAdds, a3, hq, bind, Except.bind]
      | ok q =>
          obtain ⟨cs', b1, b2, b3⟩ := C106_exponential h hf hk hk2 cs q.1 (expAdd_counter hk hk2 hs a1.2 hq) (fun d hd => hv d (List.mem_cons_of_mem _ hd))
          refine ⟨⟨c.e, r1', r2'⟩ :: cs', by simp [b1], ?_, ?_⟩
          · intro d hd
            rcases List.mem_cons.1 hd with rfl | hd
            · exact ⟨a1, a2⟩
            · exact b2 d hd
          · simp only [expAddsR, Reservoir.expAdds, a3, hq, bind, Except.bind, b3]

/-! ### `shuffle` -/

/-- One iteration of the loop of `shuffle` (utils.hpp:85-88) with rounding -/
def shuffleStepR (fl : ℚ → ℚ) (array : List α) (i : Nat) (u : ℚ) : Res (List α) := do
  let tmp ← rd array i
  let swapIdx := Utils.trunc (fl (u * (i : ℚ)))
  if swapIdx < 0 then .error .ub
  let x ← rd array swapIdx.toNat
  let array ← wr array i x
  wr array swapIdx.toNat tmp

/-- The loop of `shuffle` (utils.hpp:84) with rounding -/
def shuffleLoopR (fl : ℚ → ℚ) (u : Nat → ℚ) : (i : Nat) → List α → Res (List α)
  | 0, array => .ok array
  | i + 1, array => do
      let array ← shuffleStepR fl array (i + 1) (u (i + 1))
      shuffleLoopR fl u i array

/-- `shuffle` (utils.hpp:82-90) with rounding -/
def shuffleR (fl : ℚ → ℚ) (array : List α) (u : Nat → ℚ) : Res (List α) := shuffleLoopR fl u (array.length - 1) array

theorem trunc_nonneg {x : ℚ} (h : 0 ≤ x) : Utils.trunc x = ⌊x⌋ := by
  unfold Utils.trunc
  rw [if_neg (not_lt.2 h)]

theorem shuffleStepR_eq {array : List α} {i : Nat} {u u' : ℚ} (h : Utils.trunc (fl (u * (i : ℚ))) = Utils.trunc (u' * (i : ℚ))) :
    shuffleStepR fl array i u = Utils.shuffleStep array i u' := by
  unfold shuffleStepR Utils.shuffleStep
  rw [h]

theorem shuffleLoopR_eq {u u' : Nat → ℚ} : ∀ (i : Nat) (array : List α),
    (∀ j, 1 ≤ j → j ≤ i → Utils.trunc (fl (u j * (j : ℚ))) = Utils.trunc (u' j * (j : ℚ))) → shuffleLoopR fl u i array = Utils.shuffleLoop u' i array
  | 0, array, _ => rfl
  | i + 1, array, hj => by
      unfold shuffleLoopR Utils.shuffleLoop
      rw [shuffleStepR_eq (hj (i + 1) (by omega) le_rfl)]
      cases Utils.shuffleStep array (i + 1) (u' (i + 1)) with
      | error e => rfl
      | ok a => exact shuffleLoopR_eq i a (fun j h1 h2 => hj j h1 (by omega))

/-- **C106** `shuffle` with rounding: there are random numbers with which exact arithmetic gives the same result. -/
theorem C106_shuffle (h : IsRounding f fl) (hf : f.Wide) (l : List α) (hl : l.length < 2 ^ 31) (u : Nat → ℚ) (hu : ∀ i, Draw f (u i)) :
    ∃ u' : Nat → ℚ, (∀ i, 0 ≤ u' i ∧ u' i < 1) ∧ shuffleR fl l u = Utils.shuffle l u' := by
  have key : ∀ i, ∃ r : ℚ, (0 ≤ r ∧ r < 1) ∧ (1 ≤ i → i < 2 ^ 31 → Utils.trunc (fl (u i * (i : ℚ))) = Utils.trunc (r * (i : ℚ))) := by
    intro i
    by_cases hi : 1 ≤ i ∧ i < 2 ^ 31
    · obtain ⟨r', a1, a2⟩ := index_back h hf (hu i) hi.1 (by omega)
      refine ⟨r', a1, fun _ _ => ?_⟩
      rw [trunc_nonneg (index_lt h hf (hu i) hi.1 (by omega)).1, trunc_nonneg (mul_nonneg a1.1 (Nat.cast_nonneg i)), a2]
    · exact ⟨0, ⟨le_rfl, one_pos⟩, fun h1 h2 => absurd ⟨h1, h2⟩ hi⟩
  choose u' a1 a2 using key
  exact ⟨u', a1, shuffleLoopR_eq _ _ (fun j h1 h2 => a2 j h1 (by omega))⟩

/-- **C106** In particular `shuffle` with rounding stays in bounds and leaves a permutation (C31). -/
theorem C106_shuffle_permutes (h : IsRounding f fl) (hf : f.Wide) (l : List α) (hl : l.length < 2 ^ 31) (u : Nat → ℚ) (hu : ∀ i, Draw f (u i)) :
    ∃ r, shuffleR fl l u = .ok r ∧ r.Perm l := by
  obtain ⟨u', a1, a2⟩ := C106_shuffle h hf l hl u hu
  rw [a2]
  exact Utils.C31_permutes_partial l u' a1

/-! ### Chained reservoir -/

/-- `round(funct::random() * (sample_size-1))` (chained_reservoir.hpp:35-37, 127, 133, 137, 144) with rounding -/
def chainDrawR (fl : ℚ → ℚ) (n : Nat) (r : ℚ) : Nat := ⌊fl (fl (r * ((n - 1 : Nat) : ℚ)) + 1 / 2)⌋.toNat

/-- The loop of `add` over `next` (chained_reservoir.hpp:141-146) with rounding -/
def chainAddLoopR (fl : ℚ → ℚ) (n : Nat) (e : α) (ts : Nat) (rs : Nat → ℚ) : Nat → Nat → Chained.State α → Res (Chained.State α)
  | _, 0, s => .ok s
  | i, k + 1, s => do
      let nx ← rd s.next i
      if s.counter = nx then do
        let heap ← Chained.pushOnChain s.heap i e ts
        let next ← wr s.next i (s.counter + 1 + chainDrawR fl n (rs i))
        chainAddLoopR fl n e ts rs (i + 1) k { s with heap, next }
      else chainAddLoopR fl n e ts rs (i + 1) k s

/-- First half of `add` (chained_reservoir.hpp:123-139) with rounding -/
def chainAddHeadR (fl : ℚ → ℚ) (n : Nat) (s : Chained.State α) (c : Chained.Call α ℚ) : Res (Chained.State α) :=
  if s.counter < n then do
    let heap ← wr s.heap s.counter { next := none, elem := c.e, ts := c.ts }
    let next ← wr s.next s.counter (s.counter + 1 + chainDrawR fl n c.r3)
    return { s with heap, next }
  else if c.r1 < fl ((n : ℚ) / (s.counter : ℚ)) then do
    let index := chainDrawR fl n c.r2
    let x ← rd s.heap index
    let heap ← wr s.heap index { x with elem := c.e, ts := c.ts }
    let heap ← Chained.clearChain (heap.length + 1) heap x.next
    let next ← wr s.next index (s.counter + 1 + chainDrawR fl n c.r3)
    return { s with heap, next }
  else return s

/-- `add` (chained_reservoir.hpp:122-148) with rounding -/
def chainAddR (fl : ℚ → ℚ) (n : Nat) (s : Chained.State α) (c : Chained.Call α ℚ) : Res (Chained.State α) := do
  let s ← chainAddHeadR fl n s c
  let s ← chainAddLoopR fl n c.e c.ts c.rs 0 n s
  return { s with counter := s.counter + 1 }

/-- one call with rounding -/
def chainStepR (fl : ℚ → ℚ) (n : Nat) (s : Chained.State α) : Chained.Op α ℚ → Res (Chained.State α)
  | .add c => chainAddR fl n s c
  | .obsolete t => Chained.obsolete n s t

/-- a history with rounding -/
def chainRunR (fl : ℚ → ℚ) (n : Nat) (s : Chained.State α) : List (Chained.Op α ℚ) → Res (Chained.State α)
  | [] => .ok s
  | op :: ops => do
      let s ← chainStepR fl n s op
      chainRunR fl n s ops

theorem chainDraw_back (h : IsRounding f fl) (hf : f.Wide) {r : ℚ} (hr : Draw f r) {n : Nat} (h1 : 1 ≤ n) (hn : n < 2 ^ 31) :
    ∃ r' : ℚ, (0 ≤ r' ∧ r' ≤ 1) ∧ chainDrawR fl n r = Chained.draw n r' := by
  have hm : IsFloat f ((n - 1 : Nat) : ℚ) := hf.nat (by omega)
  have a1 : 0 ≤ fl (r * ((n - 1 : Nat) : ℚ)) := h.ge (isFloat_zero f) (mul_nonneg hr.2.1 (Nat.cast_nonneg _))
  have a2 : fl (r * ((n - 1 : Nat) : ℚ)) ≤ ((n - 1 : Nat) : ℚ) := by
    refine h.le hm ?_
    have : (0 : ℚ) ≤ ((n - 1 : Nat) : ℚ) := Nat.cast_nonneg _
    nlinarith [hr.2.2]
  have hhalf : IsFloat f (((n - 1 : Nat) : ℚ) + 1 / 2) := by
    refine ⟨2 * (n - 1 : Nat) + 1, -1, ?_, ?_, ?_⟩
    · have h3 : (2 : Int) ^ 33 ≤ 2 ^ f.prec := pow_le_pow_right₀ (by norm_num) hf.1
      rw [abs_of_nonneg (by omega)]
      omega
    · have := hf.1; have := hf.2; omega
    · push_cast
      norm_num
      ring
  have b1 : 0 ≤ fl (fl (r * ((n - 1 : Nat) : ℚ)) + 1 / 2) := h.ge (isFloat_zero f) (by linarith)
  have b2 : fl (fl (r * ((n - 1 : Nat) : ℚ)) + 1 / 2) ≤ ((n - 1 : Nat) : ℚ) + 1 / 2 := h.le hhalf (by linarith)
  have c1 : 0 ≤ ⌊fl (fl (r * ((n - 1 : Nat) : ℚ)) + 1 / 2)⌋ := Int.floor_nonneg.2 b1
  have c2 : ⌊fl (fl (r * ((n - 1 : Nat) : ℚ)) + 1 / 2)⌋ < ((n - 1 : Nat) : Int) + 1 := by
    rw [Int.floor_lt]; push_cast; linarith
  set j := ⌊fl (fl (r * ((n - 1 : Nat) : ℚ)) + 1 / 2)⌋.toNat with hj
  have hjn : j ≤ n - 1 := by omega
  rcases Nat.eq_zero_or_pos (n - 1) with h0 | h0
  · refine ⟨0, ⟨le_rfl, zero_le_one⟩, ?_⟩
    have : chainDrawR fl n r = j := rfl
    rw [this, show j = 0 by omega]
    unfold Chained.draw Chained.round
    rw [zero_mul]
    norm_num
  · have hpos : (0 : ℚ) < ((n - 1 : Nat) : ℚ) := by exact_mod_cast h0
    refine ⟨(j : ℚ) / ((n - 1 : Nat) : ℚ), ⟨by positivity, ?_⟩, ?_⟩
    · rw [div_le_one hpos]; exact_mod_cast hjn
    · have : chainDrawR fl n r = j := rfl
      rw [this]
      unfold Chained.draw Chained.round
      rw [div_mul_cancel₀ _ hpos.ne']
      have : ⌊(j : ℚ) + 1 / 2⌋ = (j : Int) := by
        rw [Int.floor_eq_iff]; push_cast; constructor <;> linarith
      rw [this]; rfl

theorem chainAddLoopR_eq {n : Nat} {e : α} {ts : Nat} {rs rs' : Nat → ℚ} (h : ∀ i, chainDrawR fl n (rs i) = Chained.draw n (rs' i)) :
    ∀ (k i : Nat) (s : Chained.State α), chainAddLoopR fl n e ts rs i k s = Chained.addLoop n e ts rs' i k s
  | 0, i, s => rfl
  | k + 1, i, s => by
      unfold chainAddLoopR Chained.addLoop
      simp only [h, chainAddLoopR_eq h k]

theorem chainAddR_back (h : IsRounding f fl) (hf : f.Wide) {n : Nat} (h1 : 1 ≤ n) (hn : n < 2 ^ 31) (s : Chained.State α) (c : Chained.Call α ℚ)
    (hc : Draw f c.r1 ∧ Draw f c.r2 ∧ Draw f c.r3 ∧ ∀ i, Draw f (c.rs i)) :
    ∃ c' : Chained.Call α ℚ, c'.e = c.e ∧ c'.ts = c.ts ∧ c'.Valid ∧ c'.r1 < 1 ∧ chainAddR fl n s c = Chained.add n s c' := by
  obtain ⟨r2', a1, a2⟩ := chainDraw_back h hf hc.2.1 h1 hn
  obtain ⟨r3', b1, b2⟩ := chainDraw_back h hf hc.2.2.1 h1 hn
  have key := fun i => chainDraw_back h hf (hc.2.2.2 i) h1 hn
  choose rs' c1 c2 using key
  have hr1 : ∃ r1' : ℚ, (0 ≤ r1' ∧ r1' < 1) ∧ (¬ s.counter < n → (c.r1 < fl ((n : ℚ) / (s.counter : ℚ)) ↔ r1' < (n : ℚ) / (s.counter : ℚ))) := by
    by_cases hlt : s.counter < n
    · exact ⟨0, ⟨le_rfl, one_pos⟩, fun h => absurd hlt h⟩
    · have hnpos : (0 : ℚ) < n := by exact_mod_cast h1
      have hcpos : (0 : ℚ) < s.counter := by exact_mod_cast (by omega : 0 < s.counter)
      by_cases hq : c.r1 < fl ((n : ℚ) / (s.counter : ℚ))
      · exact ⟨0, ⟨le_rfl, one_pos⟩, fun _ => ⟨fun _ => by positivity, fun _ => hq⟩⟩
      · refine ⟨(n : ℚ) / (s.counter : ℚ), ⟨by positivity, ?_⟩, fun _ => ⟨fun h => absurd h hq, fun h => absurd h (lt_irrefl _)⟩⟩
        rw [div_lt_one hcpos]
        have : n ≠ s.counter := by
          intro he
          apply hq
          have hone : fl 1 = 1 := h.fix (by simpa using hf.nat (n := 1) (by norm_num))
          rw [← he, div_self hnpos.ne', hone]
          exact hc.1.2.2
        exact_mod_cast (by omega : n < s.counter)
  obtain ⟨r1', d1, d2⟩ := hr1
  refine ⟨⟨c.e, c.ts, r1', r2', r3', rs'⟩, rfl, rfl, ⟨d1.1, d1.2.le, a1.1, a1.2, b1.1, b1.2, c1⟩, d1.2, ?_⟩
  have hhead : chainAddHeadR fl n s c = Chained.addHead n s ⟨c.e, c.ts, r1', r2', r3', rs'⟩ := by
    unfold chainAddHeadR Chained.addHead
    by_cases hlt : s.counter < n
    · simp only [if_pos hlt, b2]
    · by_cases hq : r1' < (n : ℚ) / (s.counter : ℚ)
      · simp only [if_neg hlt, if_pos hq, if_pos ((d2 hlt).2 hq), a2, b2]
      · simp only [if_neg hlt, if_neg hq, if_neg (fun h => hq ((d2 hlt).1 h))]
  unfold chainAddR Chained.add
  rw [hhead]
  simp only [chainAddLoopR_eq c2]

/-- two calls with the same arguments, except for the random numbers -/
def SameCall : Chained.Op α ℚ → Chained.Op α ℚ → Prop
  | .add c, .add c' => c'.e = c.e ∧ c'.ts = c.ts
  | .obsolete t, .obsolete t' => t' = t
  | _, _ => False

/-- all random numbers of the call are in `[0,1)` and in the format -/
def DrawOp (f : Fmt) : Chained.Op α ℚ → Prop
  | .add c => Draw f c.r1 ∧ Draw f c.r2 ∧ Draw f c.r3 ∧ ∀ i, Draw f (c.rs i)
  | .obsolete _ => True

/-- **C106** The chained reservoir with rounding: for every history and all random numbers there are random numbers with which exact arithmetic gives the
same results. -/
theorem C106_chained (h : IsRounding f fl) (hf : f.Wide) {n : Nat} (h1 : 1 ≤ n) (hn : n < 2 ^ 31) :
    ∀ (ops : List (Chained.Op α ℚ)) (s : Chained.State α), (∀ op ∈ ops, DrawOp f op) →
    ∃ ops' : List (Chained.Op α ℚ), List.Forall₂ SameCall ops ops' ∧ (∀ op ∈ ops', op.Valid) ∧ chainRunR fl n s ops = Chained.run n s ops'
  | [], s, _ => ⟨[], .nil, by simp, rfl⟩
  | op :: ops, s, hv => by
      have hstep : ∃ op', SameCall op op' ∧ op'.Valid ∧ chainStepR fl n s op = Chained.step n s op' := by
        cases op with
        | add c =>
            obtain ⟨c', a1, a2, a3, -, a4⟩ := chainAddR_back h hf h1 hn s c (hv (.add c) (by simp))
            exact ⟨.add c', ⟨a1, a2⟩, a3, a4⟩
        | obsolete t => exact ⟨.obsolete t, rfl, trivial, rfl⟩
      obtain ⟨op', b1, b2, b3⟩ := hstep
      cases hq : Chained.step n s op' with
      | error e =>
          have hrest : ∀ os : List (Chained.Op α ℚ), ∃ os', List.Forall₂ SameCall os os' ∧ ∀ op ∈ os', op.Valid := by
            intro os
            induction os with
            | nil => exact ⟨[], .nil, by simp⟩
            | cons o os ih =>
                obtain ⟨os', c1, c2⟩ := ih
                cases o with
                | add c =>
                    refine ⟨.add ⟨c.e, c.ts, 0, 0, 0, fun _ => 0⟩ :: os', .cons ⟨rfl, rfl⟩ c1, fun op hop => ?_⟩
                    rcases List.mem_cons.1 hop with rfl | hop
                    · exact ⟨le_rfl, zero_le_one, le_rfl, zero_le_one, le_rfl, zero_le_one, fun _ => ⟨le_rfl, zero_le_one⟩⟩
                    · exact c2 op hop
                | obsolete t =>
                    refine ⟨.obsolete t :: os', .cons rfl c1, fun op hop => ?_⟩
                    rcases List.mem_cons.1 hop with rfl | hop
                    · trivial
                    · exact c2 op hop
          obtain ⟨os', c1, c2⟩ := hrest ops
          refine ⟨op' :: os', .cons b1 c1, fun o ho => ?_, ?_⟩
          · rcases List.mem_cons.1 ho with rfl | ho
            · exact b2
            · exact c2 o ho
          · simp only [chainRunR, Chained.run, b3, hq, bind, Except.bind]
      | ok q =>
          obtain ⟨os', c1, c2, c3⟩ := C106_chained h hf h1 hn ops q (fun o ho => hv o (List.mem_cons_of_mem _ ho))
          refine ⟨op' :: os', .cons b1 c1, fun o ho => ?_, ?_⟩
          · rcases List.mem_cons.1 ho with rfl | ho
            · exact b2
            · exact c2 o ho
          · simp only [chainRunR, Chained.run, b3, hq, bind, Except.bind, c3]

/-- a call on a full chained reservoir with rounded arithmetic: the index is 1 where exact arithmetic gives 0 -/
example : (chainAddR (rn double) 2 ⟨[⟨none, 7, 1⟩, ⟨none, 8, 2⟩], [9, 9], 2⟩ ⟨5, 3, 0, 1 / 2 - 2 ^ (-54 : Int), 0, fun _ => 0⟩).map
      (fun s => s.heap.map (fun c => c.elem)) = .ok [7, 5] ∧
    (Chained.add 2 ⟨[⟨none, 7, 1⟩, ⟨none, 8, 2⟩], [9, 9], 2⟩ ⟨5, 3, 0, (1 / 2 - 2 ^ (-54 : Int) : ℚ), 0, fun _ => 0⟩).map
      (fun s => s.heap.map (fun c => c.elem)) = .ok [5, 8] := by
  decide +kernel

end Orp.Rounding
