import Verif.Rounding.Ltc
import Verif.Metrics.Props

/-!
C124: the scores of the metrics in floating point. The counters are integers below `2^31`, which `double` holds exactly.
-/

namespace Orp.Rounding

open Orp.Metrics Orp.Metrics.Spec

variable {fl : ℚ → ℚ}

/-- `ErrorMetrics::score` with `use_ratio = false` (metrics.hpp:14-15, 18), every operation rounded; `none` for a division by zero -/
def errScoreR (fl : ℚ → ℚ) (s : ErrState) (invert : Bool) : Option ℚ :=
  if invert then (quot ((s.count - s.errorCount : Int) : ℚ) s.count).map fl else (quot s.errorCount s.count).map fl

/-- `KappaMetrics::kappa` (metrics.hpp:67-81), every operation rounded -/
def kappaR (fl : ℚ → ℚ) (n : Nat) (s : KappaState) : Option ℚ :=
  let diagonal : ℚ := (List.range n).foldl (fun acc i => fl (acc + (s.confusion i i : ℚ))) 0
  let sumCol : Nat → ℚ := fun i => (List.range n).foldl (fun acc j => fl (acc + (s.confusion i j : ℚ))) 0
  let sumRow : Nat → ℚ := fun i => (List.range n).foldl (fun acc j => fl (acc + (s.confusion j i : ℚ))) 0
  let sumColRow : ℚ := (List.range n).foldl (fun acc i => fl (acc + fl (sumCol i * sumRow i))) 0
  (quot (fl (fl ((s.total : ℚ) * diagonal) - sumColRow)) (fl (fl ((s.total : ℚ) * (s.total : ℚ)) - sumColRow))).map fl

/-- `KappaMetrics::score` with `use_ratio = false` (metrics.hpp:84-85, 88), every operation rounded -/
def kappaScoreR (fl : ℚ → ℚ) (n : Nat) (s : KappaState) (invert : Bool) : Option ℚ :=
  if invert then (kappaR fl n s).map fun k => fl (fl (k + 1) / 2) else (kappaR fl n s).map fun k => fl (fl (fl (k * (-1)) + 1) / 2)

theorem unit_error (h : IsRounding double fl) {x : ℚ} (hx : |x| ≤ 1) : |fl x - x| ≤ 1 / 2 ^ 52 := by
  have h1 := h.error (by decide) x
  have h2 : ulp double = 1 / 2 ^ 53 := by
    unfold ulp double
    norm_num
  have h3 := tiny_double
  rw [h2] at h1
  have h4 : |x| * (1 / 2 ^ 53) ≤ 1 * (1 / 2 ^ 53 : ℚ) := mul_le_mul_of_nonneg_right hx (by norm_num)
  have h5 : (1 : ℚ) / 2 ^ 100 ≤ 1 / 2 ^ 53 := by norm_num
  have h6 : (1 : ℚ) * (1 / 2 ^ 53) + 1 / 2 ^ 53 = 1 / 2 ^ 52 := by norm_num
  linarith

theorem nat_fix (h : IsRounding double fl) {n : Nat} (hn : n ≤ 2 ^ 53) : fl n = n :=
  h.fix (isFloat_nat (by decide) (by decide) hn)

/-- sums of integers are exact as long as they are at most `2^53` -/
theorem fold_exact (h : IsRounding double fl) (n : Nat) (f : Nat → Nat) (g : Nat → ℚ) (hg : ∀ i < n, g i = f i) (hs : ∑ i ∈ Finset.range n, f i ≤ 2 ^ 53) :
    (List.range n).foldl (fun acc i => fl (acc + g i)) 0 = ((∑ i ∈ Finset.range n, f i : Nat) : ℚ) := by
  induction n with
  | zero => simp
  | succ n ih =>
      rw [Finset.sum_range_succ] at hs
      rw [List.range_succ, List.foldl_append, ih (fun i hi => hg i (by omega)) (by omega), Finset.sum_range_succ]
      simp only [List.foldl_cons, List.foldl_nil]
      rw [hg n (by omega), ← Nat.cast_add, nat_fix h (by omega)]

/-- the number of items with a given truth -/
def rowN (l : List (Nat × Nat)) (i : Nat) : Nat := (l.filter (fun x => x.1 = i)).length

/-- the number of items with a given prediction -/
def colN (l : List (Nat × Nat)) (i : Nat) : Nat := (l.filter (fun x => x.2 = i)).length

theorem row_count (n i : Nat) (l : List (Nat × Nat)) (h : ∀ x ∈ l, x.1 < n ∧ x.2 < n) : ∑ j ∈ Finset.range n, l.count (i, j) = rowN l i := by
  have := sum_count_row n i l h
  unfold rowN
  exact_mod_cast this

theorem col_count (n i : Nat) (l : List (Nat × Nat)) (h : ∀ x ∈ l, x.1 < n ∧ x.2 < n) : ∑ j ∈ Finset.range n, l.count (j, i) = colN l i := by
  have := sum_count_col n i l h
  unfold colN
  exact_mod_cast this

theorem diag_count (n : Nat) (l : List (Nat × Nat)) (h : ∀ x ∈ l, x.1 < n ∧ x.2 < n) :
    ∑ j ∈ Finset.range n, l.count (j, j) = (l.filter (fun x => x.1 = x.2)).length := by
  have := sum_count_diag n l h
  exact_mod_cast this

theorem cross_cast (n : Nat) (l : List (Nat × Nat)) : crossSum n l = ((∑ i ∈ Finset.range n, rowN l i * colN l i : Nat) : ℚ) := by
  unfold crossSum rowN colN
  push_cast
  rfl

/-- Up to `2^26` items the whole computation is exact but for the last division. -/
theorem kappaR_eq (h : IsRounding double fl) {n : Nat} {s : KappaState} {l : List (Nat × Nat)} (hc : Counts n s l) (hl : l.length ≤ 2 ^ 26) :
    kappaR fl n s = (s.kappa n).map fl := by
  have hsq : l.length * l.length ≤ 2 ^ 52 := by
    calc l.length * l.length ≤ 2 ^ 26 * 2 ^ 26 := Nat.mul_le_mul hl hl
      _ = 2 ^ 52 := by norm_num
  have hrow : ∀ i, rowN l i ≤ l.length := fun i => List.length_filter_le _ _
  have hcol : ∀ i, colN l i ≤ l.length := fun i => List.length_filter_le _ _
  have hdl : (l.filter (fun x => x.1 = x.2)).length ≤ l.length := List.length_filter_le _ _
  have e1 : (List.range n).foldl (fun acc i => fl (acc + (s.confusion i i : ℚ))) 0 = diag l := by
    rw [fold_exact h n (fun i => l.count (i, i)) _ (fun i hi => by rw [hc.conf i i hi hi]; rfl) (by rw [diag_count n l hc.lt]; omega), diag_count n l hc.lt]
    rfl
  have e2 : ∀ i < n, (List.range n).foldl (fun acc j => fl (acc + (s.confusion i j : ℚ))) 0 = (rowN l i : ℚ) := by
    intro i hi
    have := hrow i
    rw [fold_exact h n (fun j => l.count (i, j)) _ (fun j hj => by rw [hc.conf i j hi hj]; rfl) (by rw [row_count n i l hc.lt]; omega), row_count n i l hc.lt]
  have e3 : ∀ i < n, (List.range n).foldl (fun acc j => fl (acc + (s.confusion j i : ℚ))) 0 = (colN l i : ℚ) := by
    intro i hi
    have := hcol i
    rw [fold_exact h n (fun j => l.count (j, i)) _ (fun j hj => by rw [hc.conf j i hj hi]; rfl) (by rw [col_count n i l hc.lt]; omega), col_count n i l hc.lt]
  have hcr := cross_le n l hc.lt
  rw [cross_cast] at hcr
  have hcr' : ∑ i ∈ Finset.range n, rowN l i * colN l i ≤ l.length * l.length := by exact_mod_cast hcr
  have e4 : (List.range n).foldl (fun acc i => fl (acc + fl ((List.range n).foldl (fun acc j => fl (acc + (s.confusion i j : ℚ))) 0 *
      (List.range n).foldl (fun acc j => fl (acc + (s.confusion j i : ℚ))) 0))) 0 = crossSum n l := by
    rw [fold_exact h n (fun i => rowN l i * colN l i) _ (fun i hi => ?_) (by omega), cross_cast]
    rw [e2 i hi, e3 i hi, ← Nat.cast_mul]
    exact nat_fix h (le_trans (Nat.mul_le_mul (hrow i) (hcol i)) (by omega))
  have ht : (s.total : ℚ) = l.length := by
    rw [hc.tot]
    rfl
  have e5 : fl ((l.length : ℚ) * diag l) = (l.length : ℚ) * diag l := by
    unfold diag
    rw [← Nat.cast_mul]
    exact nat_fix h (le_trans (Nat.mul_le_mul_left _ hdl) (by omega))
  have e6 : fl ((l.length : ℚ) * l.length) = (l.length : ℚ) * l.length := by
    rw [← Nat.cast_mul]
    exact nat_fix h (by omega)
  have e7 : fl ((l.length : ℚ) * diag l - crossSum n l) = (l.length : ℚ) * diag l - crossSum n l := by
    have hd2 : l.length * (l.filter (fun x => x.1 = x.2)).length ≤ l.length * l.length := Nat.mul_le_mul_left _ hdl
    rw [cross_cast]
    unfold diag
    have : (l.length : ℚ) * ((l.filter (fun x => x.1 = x.2)).length : ℚ) - ((∑ i ∈ Finset.range n, rowN l i * colN l i : Nat) : ℚ) =
        (((l.length * (l.filter (fun x => x.1 = x.2)).length : Nat) - (∑ i ∈ Finset.range n, rowN l i * colN l i : Nat) : Int) : ℚ) := by
      push_cast
      ring
    rw [this]
    refine int_fix h ?_
    rw [abs_le]
    constructor <;> omega
  have e8 : fl ((l.length : ℚ) * l.length - crossSum n l) = (l.length : ℚ) * l.length - crossSum n l := by
    rw [cross_cast]
    have : (l.length : ℚ) * (l.length : ℚ) - ((∑ i ∈ Finset.range n, rowN l i * colN l i : Nat) : ℚ) =
        (((l.length * l.length : Nat) - (∑ i ∈ Finset.range n, rowN l i * colN l i : Nat) : Int) : ℚ) := by
      push_cast
      ring
    rw [this]
    refine int_fix h ?_
    rw [abs_le]
    constructor <;> omega
  unfold kappaR
  simp only [e1, e4, ht, e5, e6, e7, e8]
  rw [kappa_eq hc]

/-- **C124** Up to `2^26` items the computed kappa is Cohen's kappa rounded once: it is a number exactly when kappa is defined, it is in `[-1, 1]`, it is 1 exactly
when every prediction was right, and it is off by at most `2^-52`. The scores are in `[0, 1]` and off by at most `2^-51`. -/
theorem C124_kappa (h : IsRounding double fl) (n : Nat) (ops : List Op) (hv : ∀ o ∈ ops, ValidOp n o) (hne : recorded ops ≠ []) (hl : (recorded ops).length ≤ 2 ^ 26) :
    ∃ s, KappaState.init.run n ops = .ok s ∧
      (kappaR fl n s = none ↔ ∃ a, ∀ x ∈ recorded ops, x = (a, a)) ∧
      ∀ k', kappaR fl n s = some k' → ∃ k : ℚ,
        k = (po (recorded ops) - pe n (recorded ops)) / (1 - pe n (recorded ops)) ∧ k' = fl k ∧ |k' - k| ≤ 1 / 2 ^ 52 ∧
        -1 ≤ k' ∧ k' ≤ 1 ∧ (k' = 1 ↔ ∀ x ∈ recorded ops, x.1 = x.2) ∧
        ∃ a b, kappaScoreR fl n s false = some a ∧ kappaScoreR fl n s true = some b ∧
          |a - (1 - k) / 2| ≤ 1 / 2 ^ 51 ∧ |b - (1 + k) / 2| ≤ 1 / 2 ^ 51 ∧ 0 ≤ a ∧ a ≤ 1 ∧ 0 ≤ b ∧ b ≤ 1 := by
  obtain ⟨s, h1, h2, h3⟩ := C35_kappa n ops hv hne
  obtain ⟨s', h1', hc⟩ := kappa_run n ops hv
  rw [h1] at h1'
  cases h1'
  have hk := kappaR_eq h hc hl
  refine ⟨s, h1, ?_, ?_⟩
  · rw [hk, ← h2]
    cases s.kappa n <;> simp
  · intro k' hk'
    rw [hk] at hk'
    cases hkk : s.kappa n with
    | none => rw [hkk] at hk'; cases hk'
    | some k =>
        rw [hkk] at hk'
        obtain rfl := Option.some.inj hk'
        obtain ⟨g1, g2, g3, g4, _⟩ := h3 k hkk
        have habs : |k| ≤ 1 := abs_le.2 ⟨g2, g3⟩
        have f1 : IsFloat double 1 := by simpa using isFloat_int (f := double) (n := 1) (by decide) (by decide) (by norm_num [double])
        have f0 : IsFloat double 0 := isFloat_zero _
        have f2 : IsFloat double 2 := by simpa using isFloat_int (f := double) (n := 2) (by decide) (by decide) (by norm_num [double])
        have lo : -1 ≤ fl k := h.ge f1.neg g2
        have hi : fl k ≤ 1 := h.le f1 g3
        refine ⟨k, g1, rfl, unit_error h habs, lo, hi, ?_, ?_⟩
        · rw [← g4]
          refine ⟨fun e => ?_, fun e => by rw [e]; exact h.fix f1⟩
          by_contra hne1
          have hlt : k < 1 := lt_of_le_of_ne g3 hne1
          -- the distance to 1 is at least one part in `2^52`
          have hke := hkk
          rw [kappa_eq hc] at hke
          unfold quot at hke
          split at hke
          · cases hke
          · rename_i hden
            have hke := Option.some.inj hke
            have hcr := cross_le n (recorded ops) hc.lt
            have hdpos : 0 < ((recorded ops).length : ℚ) * (recorded ops).length - crossSum n (recorded ops) := lt_of_le_of_ne (by linarith) (Ne.symm hden)
            have hcr0 : 0 ≤ crossSum n (recorded ops) := by
              rw [cross_cast]
              exact Nat.cast_nonneg _
            have hsq : ((recorded ops).length : ℚ) * (recorded ops).length ≤ 2 ^ 52 := by
              have : (recorded ops).length * (recorded ops).length ≤ 2 ^ 26 * 2 ^ 26 := Nat.mul_le_mul hl hl
              have h' : ((recorded ops).length : ℚ) * (recorded ops).length ≤ ((2 ^ 26 * 2 ^ 26 : Nat) : ℚ) := by exact_mod_cast this
              refine h'.trans (le_of_eq ?_)
              norm_num
            rw [← hke, div_lt_one hdpos] at hlt
            have hint : ((recorded ops).length : ℚ) * diag (recorded ops) + 1 ≤ ((recorded ops).length : ℚ) * (recorded ops).length := by
              unfold diag at hlt ⊢
              have : ((recorded ops).length : ℚ) * ((recorded ops).filter (fun x => x.1 = x.2)).length < ((recorded ops).length : ℚ) * (recorded ops).length := by linarith
              exact_mod_cast this
            have hk1 : k ≤ 1 - 1 / 2 ^ 52 := by
              rw [← hke, div_le_iff₀ hdpos, sub_mul]
              have : 1 / 2 ^ 52 * (((recorded ops).length : ℚ) * (recorded ops).length - crossSum n (recorded ops)) ≤ 1 := by
                rw [div_mul_eq_mul_div, one_mul, div_le_one (by norm_num)]
                linarith
              linarith
            have ff : IsFloat double (1 - 1 / 2 ^ 52) := by
              have := isFloat_grid (f := double) (n := 2 ^ 52 - 1) (e := -52) (by decide) (by norm_num [double]) (by decide)
              have e2 : (((2 ^ 52 - 1 : Int)) : ℚ) * (2 : ℚ) ^ (-52 : Int) = 1 - 1 / 2 ^ 52 := by norm_num
              rwa [e2] at this
            have := h.le ff hk1
            rw [e] at this
            norm_num at this
        · have hneg : fl (fl k * (-1)) = -fl k := by
            rw [mul_neg_one]
            exact h.fix (h.float k).neg
          have hu := unit_error h habs
          have half : ∀ y : ℚ, IsFloat double y → -1 ≤ y → y ≤ 1 → 0 ≤ fl (fl (y + 1) / 2) ∧ fl (fl (y + 1) / 2) ≤ 1 ∧ |fl (fl (y + 1) / 2) - (y + 1) / 2| ≤ 1 / 2 ^ 51 - 1 / 2 ^ 53 := by
            intro y hy y0 y1
            have a1 : 0 ≤ fl (y + 1) := h.ge f0 (by linarith)
            have a2 : fl (y + 1) ≤ 2 := h.le f2 (by linarith)
            have b1 : 0 ≤ fl (fl (y + 1) / 2) := h.ge f0 (by linarith)
            have b2 : fl (fl (y + 1) / 2) ≤ 1 := h.le f1 (by linarith)
            refine ⟨b1, b2, ?_⟩
            have c1 := h.error_add (by decide) hy f1
            have c2 := unit_error h (x := fl (y + 1) / 2) (abs_le.2 ⟨by linarith, by linarith⟩)
            have hul : ulp double = 1 / 2 ^ 53 := by
              unfold ulp double
              norm_num
            rw [hul] at c1
            have c3 : |y + 1| ≤ 2 := abs_le.2 ⟨by linarith, by linarith⟩
            have c4 : |fl (y + 1) - (y + 1)| ≤ 1 / 2 ^ 52 := by
              refine c1.trans ?_
              have : |y + 1| * (1 / 2 ^ 53) ≤ 2 * (1 / 2 ^ 53) := mul_le_mul_of_nonneg_right c3 (by norm_num)
              refine this.trans (le_of_eq (by norm_num))
            rw [abs_le] at c2 c4 ⊢
            constructor <;> norm_num at c2 c4 ⊢ <;> linarith [c2.1, c2.2, c4.1, c4.2]
          have ha := half (-fl k) (h.float k).neg (by linarith) (by linarith)
          have hb := half (fl k) (h.float k) lo hi
          refine ⟨fl (fl (-fl k + 1) / 2), fl (fl (fl k + 1) / 2), ?_, ?_, ?_, ?_, ha.1, ha.2.1, hb.1, hb.2.1⟩
          · simp only [kappaScoreR, hk, hkk, Option.map_some, hneg]
            rfl
          · simp only [kappaScoreR, hk, hkk, Option.map_some]
            rfl
          · have := ha.2.2
            rw [abs_le] at this hu ⊢
            constructor <;> norm_num at this hu ⊢ <;> linarith [this.1, this.2, hu.1, hu.2]
          · have := hb.2.2
            rw [abs_le] at this hu ⊢
            constructor <;> norm_num at this hu ⊢ <;> linarith [this.1, this.2, hu.1, hu.2]

theorem err_cast (ops : List Op) : ((ops.foldl ErrState.apply {}).count : ℚ) = allItems (sinceReset ops) ∧
    ((ops.foldl ErrState.apply {}).errorCount : ℚ) = allErrors (sinceReset ops) := by
  obtain ⟨h1, h2⟩ := err_run ops
  rw [h1, h2]
  exact ⟨rfl, rfl⟩

/-- **C124** The computed error rate is the error rate rounded once: it is in `[0, 1]`, 0 exactly when there was no error and 1 exactly when there were only errors,
for all counts of an `int`; the inverted score is the rounded rate of right answers. -/
theorem C124_error_rate (h : IsRounding double fl) (ops : List Op) (hi : 1 ≤ allItems (sinceReset ops)) (hm : allItems (sinceReset ops) < 2 ^ 31) :
    ∃ e i : ℚ, errScoreR fl (ops.foldl ErrState.apply {}) false = some e ∧ errScoreR fl (ops.foldl ErrState.apply {}) true = some i ∧
      |e - (allErrors (sinceReset ops) : ℚ) / allItems (sinceReset ops)| ≤ 1 / 2 ^ 52 ∧ |e + i - 1| ≤ 1 / 2 ^ 51 ∧
      0 ≤ e ∧ e ≤ 1 ∧ 0 ≤ i ∧ i ≤ 1 ∧ (e = 0 ↔ allErrors (sinceReset ops) = 0) ∧ (e = 1 ↔ allErrors (sinceReset ops) = allItems (sinceReset ops)) := by
  obtain ⟨c1, c2⟩ := err_cast ops
  have hle := allErrors_le (sinceReset ops)
  generalize allItems (sinceReset ops) = N at *
  generalize allErrors (sinceReset ops) = E at *
  have hN : (0 : ℚ) < N := by exact_mod_cast hi
  have hE : (E : ℚ) ≤ N := by exact_mod_cast hle
  have hN31 : (N : ℚ) ≤ 2 ^ 31 := by exact_mod_cast hm.le
  have hr0 : 0 ≤ (E : ℚ) / N := div_nonneg (Nat.cast_nonneg _) hN.le
  have hr1 : (E : ℚ) / N ≤ 1 := (div_le_one hN).2 hE
  have hs0 : 0 ≤ ((N : ℚ) - E) / N := div_nonneg (by linarith) hN.le
  have hs1 : ((N : ℚ) - E) / N ≤ 1 := (div_le_one hN).2 (by have : (0 : ℚ) ≤ E := Nat.cast_nonneg _; linarith)
  have hsum : (E : ℚ) / N + ((N : ℚ) - E) / N = 1 := by
    rw [← add_div, add_sub_cancel, div_self hN.ne']
  have f1 : IsFloat double 1 := by simpa using isFloat_int (f := double) (n := 1) (by decide) (by decide) (by norm_num [double])
  have f0 : IsFloat double 0 := isFloat_zero _
  have fs : IsFloat double (1 / 2 ^ 31) := by
    have := isFloat_grid (f := double) (n := 1) (e := -31) (by decide) (by norm_num [double]) (by decide)
    have e2 : ((1 : Int) : ℚ) * (2 : ℚ) ^ (-31 : Int) = 1 / 2 ^ 31 := by norm_num
    rwa [e2] at this
  have fg : IsFloat double (1 - 1 / 2 ^ 31) := by
    have := isFloat_grid (f := double) (n := 2 ^ 31 - 1) (e := -31) (by decide) (by norm_num [double]) (by decide)
    have e2 : ((2 ^ 31 - 1 : Int) : ℚ) * (2 : ℚ) ^ (-31 : Int) = 1 - 1 / 2 ^ 31 := by norm_num
    rwa [e2] at this
  have g1 := unit_error h (x := (E : ℚ) / N) (abs_le.2 ⟨by linarith, hr1⟩)
  have g2 := unit_error h (x := ((N : ℚ) - E) / N) (abs_le.2 ⟨by linarith, hs1⟩)
  refine ⟨fl ((E : ℚ) / N), fl (((N : ℚ) - E) / N), ?_, ?_, g1, ?_, h.ge f0 hr0, h.le f1 hr1, h.ge f0 hs0, h.le f1 hs1, ?_, ?_⟩
  · simp only [errScoreR, Bool.false_eq_true, if_false, c1, c2]
    rw [quot_ok hN.ne']
    rfl
  · simp only [errScoreR, if_true, Int.cast_sub, c1, c2]
    rw [quot_ok hN.ne']
    rfl
  · rw [abs_le] at g1 g2 ⊢
    constructor <;> norm_num at g1 g2 ⊢ <;> linarith [g1.1, g1.2, g2.1, g2.2]
  · constructor
    · intro he
      by_contra h0
      have hE1 : (1 : ℚ) ≤ E := by exact_mod_cast Nat.one_le_iff_ne_zero.2 h0
      have : 1 / 2 ^ 31 ≤ (E : ℚ) / N := by
        rw [div_le_div_iff₀ (by norm_num) hN]
        nlinarith
      have := h.ge fs this
      rw [he] at this
      norm_num at this
    · intro he
      rw [he, Nat.cast_zero, zero_div]
      exact h.fix f0
  · constructor
    · intro he
      by_contra hne
      have hlt : E + 1 ≤ N := by omega
      have hlt' : (E : ℚ) + 1 ≤ N := by exact_mod_cast hlt
      have : (E : ℚ) / N ≤ 1 - 1 / 2 ^ 31 := by
        rw [div_le_iff₀ hN, sub_mul, one_mul, div_mul_eq_mul_div, one_mul]
        have : (N : ℚ) / 2 ^ 31 ≤ 1 := (div_le_one (by norm_num)).2 hN31
        linarith
      have := h.le fg this
      rw [he] at this
      norm_num at this
    · intro he
      rw [he, div_self hN.ne']
      exact h.fix f1

/-- **C124** Comparing two objects by their computed error rates is right up to `2^25` items each: the computed rates are in the same order as the rates. Without
a limit a smaller rate never gets a greater score. -/
theorem C124_ranking (h : IsRounding double fl) (a b : List Op) (ha : 1 ≤ allItems (sinceReset a)) (hb : 1 ≤ allItems (sinceReset b)) :
    ∃ x y : ℚ, errScoreR fl (a.foldl ErrState.apply {}) false = some x ∧ errScoreR fl (b.foldl ErrState.apply {}) false = some y ∧
      ((allErrors (sinceReset a) : ℚ) / allItems (sinceReset a) ≤ (allErrors (sinceReset b) : ℚ) / allItems (sinceReset b) → x ≤ y) ∧
      (allItems (sinceReset a) ≤ 2 ^ 25 → allItems (sinceReset b) ≤ 2 ^ 25 →
        ((allErrors (sinceReset a) : ℚ) / allItems (sinceReset a) < (allErrors (sinceReset b) : ℚ) / allItems (sinceReset b) ↔ x < y)) := by
  obtain ⟨a1, a2⟩ := err_cast a
  obtain ⟨b1, b2⟩ := err_cast b
  have hla := allErrors_le (sinceReset a)
  have hlb := allErrors_le (sinceReset b)
  generalize allItems (sinceReset a) = N at *
  generalize allErrors (sinceReset a) = E at *
  generalize allItems (sinceReset b) = M at *
  generalize allErrors (sinceReset b) = D at *
  have hN : (0 : ℚ) < N := by exact_mod_cast ha
  have hM : (0 : ℚ) < M := by exact_mod_cast hb
  have hE : (E : ℚ) ≤ N := by exact_mod_cast hla
  have hD : (D : ℚ) ≤ M := by exact_mod_cast hlb
  refine ⟨fl ((E : ℚ) / N), fl ((D : ℚ) / M), ?_, ?_, h.mono, fun h1 h2 => ⟨fun hlt => ?_, fun hlt => ?_⟩⟩
  · simp only [errScoreR, Bool.false_eq_true, if_false, a1, a2]
    rw [quot_ok hN.ne']
    rfl
  · simp only [errScoreR, Bool.false_eq_true, if_false, b1, b2]
    rw [quot_ok hM.ne']
    rfl
  · have g1 := unit_error h (x := (E : ℚ) / N) (abs_le.2 ⟨by have : 0 ≤ (E : ℚ) / N := div_nonneg (Nat.cast_nonneg _) hN.le; linarith, (div_le_one hN).2 hE⟩)
    have g2 := unit_error h (x := (D : ℚ) / M) (abs_le.2 ⟨by have : 0 ≤ (D : ℚ) / M := div_nonneg (Nat.cast_nonneg _) hM.le; linarith, (div_le_one hM).2 hD⟩)
    have hgap : 1 / 2 ^ 50 ≤ (D : ℚ) / M - (E : ℚ) / N := by
      rw [div_lt_div_iff₀ hN hM] at hlt
      have hlt' : (E : ℚ) * M + 1 ≤ D * N := by exact_mod_cast hlt
      rw [div_sub_div _ _ hM.ne' hN.ne', div_le_div_iff₀ (by norm_num) (mul_pos hM hN)]
      have hn : (N : ℚ) ≤ 2 ^ 25 := by exact_mod_cast h1
      have hm : (M : ℚ) ≤ 2 ^ 25 := by exact_mod_cast h2
      have : (M : ℚ) * N ≤ 2 ^ 25 * 2 ^ 25 := mul_le_mul hm hn hN.le (by norm_num)
      have e : (2 : ℚ) ^ 25 * 2 ^ 25 = 2 ^ 50 := by norm_num
      rw [e] at this
      nlinarith
    rw [abs_le] at g1 g2
    norm_num at g1 g2 hgap
    linarith [g1.1, g1.2, g2.1, g2.2]
  · by_contra hge
    exact absurd (h.mono (not_lt.1 hge)) (not_le.2 hlt)

/-- three items, one of them wrong: the hypotheses hold -/
example : ∃ e i : ℚ, errScoreR (rn double) ([Op.update 0 0, Op.update 1 1, Op.update 1 0].foldl ErrState.apply {}) false = some e ∧
    errScoreR (rn double) ([Op.update 0 0, Op.update 1 1, Op.update 1 0].foldl ErrState.apply {}) true = some i ∧ 0 ≤ e ∧ e ≤ 1 := by
  obtain ⟨e, i, h1, h2, _, _, h3, h4, _⟩ := C124_error_rate (rn_isRounding double (by decide)) [Op.update 0 0, Op.update 1 1, Op.update 1 0] (by decide) (by decide)
  exact ⟨e, i, h1, h2, h3, h4⟩

/-- the same items for kappa -/
example : ∃ s, KappaState.init.run 2 [Op.update 0 0, Op.update 1 1, Op.update 1 0] = .ok s ∧ kappaR (rn double) 2 s ≠ none := by
  obtain ⟨s, h1, h2, _⟩ := C124_kappa (rn_isRounding double (by decide)) 2 [Op.update 0 0, Op.update 1 1, Op.update 1 0]
    (by intro o ho; fin_cases ho <;> simp [ValidOp]) (by decide) (by decide)
  refine ⟨s, h1, fun h0 => ?_⟩
  obtain ⟨a, ha⟩ := h2.1 h0
  have e1 := ha (0, 0) (by decide)
  have e2 := ha (1, 1) (by decide)
  simp only [Prod.mk.injEq] at e1 e2
  omega

end Orp.Rounding
