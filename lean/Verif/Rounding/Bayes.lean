import Verif.Rounding.Samplers
import Verif.Bayes.Lemmas

/-!
`NaiveBayes` with rounded arithmetic (C109): the running mean and variance.
-/

set_option linter.unusedSectionVars false

namespace Orp.Rounding

open Bayes

variable {f : Fmt} {fl : ℚ → ℚ}

/-- `GaussianEstimator::train` (naive_bayes.hpp:16-28) with rounding -/
def estTrainR (fl : ℚ → ℚ) (e : Est ℚ) (value weight : ℚ) : Est ℚ :=
  if e.weightSum > 0 then
    let ws := fl (e.weightSum + weight)
    let previous := e.mean
    let mean := fl (e.mean + fl (fl (weight * fl (value - previous)) / ws))
    ⟨ws, fl (e.varianceSum + fl (fl (weight * fl (value - previous)) * fl (value - mean))), mean⟩
  else ⟨weight, 0, value⟩

/-- `GaussianEstimator::probability_density` (naive_bayes.hpp:29-40) with rounding -/
def densityR (fl : ℚ → ℚ) (env : Env ℚ) (e : Est ℚ) (value : ℚ) : ℚ :=
  if e.weightSum ≤ 0 then 0
  else
    let variance := if e.weightSum > 1 then fl (e.varianceSum / fl (e.weightSum - 1)) else 0
    let stdev := env.sqrt variance
    if stdev > 0 then
      let diff := fl (value - e.mean)
      fl (fl (1 / fl (fl (250663 / 100000) * stdev)) * env.exp (-(fl (fl (diff * diff) / fl (fl (2 * stdev) * stdev)))))
    else if value = e.mean then 1 else 0

/-- The loop of `train` (naive_bayes.hpp:67-68) with rounding -/
def bayesLoopR (fl : ℚ → ℚ) (fc : Nat) (x : List ℚ) (label : Nat) (w : ℚ) : Nat → Nat → List (Est ℚ) → Res (List (Est ℚ))
  | _, 0, c => .ok c
  | i, k + 1, c => do
      let v ← rd x i
      let e ← rd c (label * fc + i)
      let c ← wr c (label * fc + i) (estTrainR fl e v w)
      bayesLoopR fl fc x label w (i + 1) k c

/-- `train` (naive_bayes.hpp:66-72) with rounding -/
def bayesTrainR (fl : ℚ → ℚ) (fc : Nat) (m : Bayes.Model ℚ) (x : List ℚ) (label : Nat) (w : ℚ) : Res (Bayes.Model ℚ) := do
  let c ← bayesLoopR fl fc x label w 0 fc m.counters
  let lw ← rd m.labelWeights label
  let lws ← wr m.labelWeights label (fl (lw + w))
  return { m with
    counters := c
    labelWeights := lws
    totalWeights := fl (m.totalWeights + w) }

/-- A training history with rounding -/
def bayesRunR (fl : ℚ → ℚ) (fc : Nat) (m : Bayes.Model ℚ) : List (Ex ℚ) → Res (Bayes.Model ℚ)
  | [] => .ok m
  | e :: es => do
      let m ← bayesTrainR fl fc m e.x e.label e.w
      bayesRunR fl fc m es

/-! ### Without rounding -/

theorem bayesLoopR_id (fc : Nat) (x : List ℚ) (label : Nat) (w : ℚ) : ∀ k i c, bayesLoopR id fc x label w i k c = trainLoop fc x label w i k c
  | 0, _, _ => rfl
  | k + 1, i, c => by
      unfold bayesLoopR trainLoop
      have ht : ∀ e v, estTrainR id e v w = e.train v w := fun _ _ => rfl
      simp only [ht, bayesLoopR_id fc x label w k]

theorem bayesRunR_id (fc : Nat) : ∀ (es : List (Ex ℚ)) (m : Bayes.Model ℚ), bayesRunR id fc m es = run fc m es
  | [], _ => rfl
  | e :: es, m => by
      have : bayesTrainR id fc m e.x e.label e.w = train fc m e.x e.label e.w := by
        unfold bayesTrainR train
        rw [bayesLoopR_id]
        rfl
      unfold bayesRunR run
      rw [this]
      congr 1
      funext m
      exact bayesRunR_id fc es m

/-! ### The estimators after a history -/

/-- the estimator after the values, with weights -/
def estR (fl : ℚ → ℚ) (ps : List (ℚ × ℚ)) : Est ℚ := ps.foldl (fun e p => estTrainR fl e p.1 p.2) Est.new

theorem estR_snoc (ps : List (ℚ × ℚ)) (p : ℚ × ℚ) : estR fl (ps ++ [p]) = estTrainR fl (estR fl ps) p.1 p.2 := by
  simp [estR, List.foldl_append]

theorem bayesLoopR_spec (fc : Nat) (x : List ℚ) (label : Nat) (w : ℚ) (hx : fc ≤ x.length) : ∀ (k i : Nat) (c : List (Est ℚ)),
    i + k = fc → (label + 1) * fc ≤ c.length →
    ∃ c', bayesLoopR fl fc x label w i k c = .ok c' ∧ c'.length = c.length ∧
      ∀ j, c'[j]? = if label * fc + i ≤ j ∧ j < label * fc + fc then (c[j]?).map (fun e => estTrainR fl e (x.getD (j - label * fc) 0) w)
        else c[j]?
  | 0, i, c, hk, _ => ⟨c, rfl, rfl, fun j => by rw [if_neg]; omega⟩
  | k + 1, i, c, hk, hc => by
      have hmul : (label + 1) * fc = label * fc + fc := by ring
      have hi : i < x.length := by omega
      have hci : label * fc + i < c.length := by omega
      obtain ⟨c', h1, h2, h3⟩ := bayesLoopR_spec fc x label w hx k (i + 1)
        (c.set (label * fc + i) (estTrainR fl c[label * fc + i] x[i] w)) (by omega) (by simpa using hc)
      refine ⟨c', ?_, by simpa using h2, ?_⟩
      · simp only [bayesLoopR, rd_ok hi, rd_ok hci, wr_ok _ hci, bind, Except.bind, h1]
      · intro j
        rw [h3 j]
        by_cases hj : j = label * fc + i
        · subst hj
          rw [if_neg (by omega), if_pos (by omega), List.getElem?_set_self hci]
          simp [hci, hi]
        · have hiff : (label * fc + (i + 1) ≤ j ∧ j < label * fc + fc) ↔ (label * fc + i ≤ j ∧ j < label * fc + fc) := by omega
          simp only [hiff, List.getElem?_set_ne (Ne.symm hj)]

/-- the estimators of the object after the examples -/
structure HoldsR (fl : ℚ → ℚ) (lc fc : Nat) (m : Bayes.Model ℚ) (es : List (Ex ℚ)) : Prop where
  clen : m.counters.length = lc * fc
  llen : m.labelWeights.length = lc
  counters : ∀ l < lc, ∀ j < fc, m.counters[l * fc + j]? = some (estR fl (column es l j))

theorem holdsR_new (lc fc : Nat) (sm : ℚ) : HoldsR fl lc fc (Bayes.new lc fc sm) [] := by
  refine ⟨by simp [Bayes.new], by simp [Bayes.new], ?_⟩
  intro l hl j hj
  have := Bayes.index_lt hl hj
  simp [Bayes.new, this, column, estR]

theorem holdsR_train {lc fc : Nat} {m : Bayes.Model ℚ} {es : List (Ex ℚ)} (h : HoldsR fl lc fc m es) (e : Ex ℚ)
    (he : e.Fits lc fc) : ∃ m', bayesTrainR fl fc m e.x e.label e.w = .ok m' ∧ HoldsR fl lc fc m' (es ++ [e]) := by
  obtain ⟨hl, hx⟩ := he
  have hc : (e.label + 1) * fc ≤ m.counters.length := by rw [h.clen]; exact Nat.mul_le_mul_right _ hl
  obtain ⟨c', h1, h2, h3⟩ := bayesLoopR_spec (fl := fl) fc e.x e.label e.w hx fc 0 m.counters (by omega) hc
  have hl' : e.label < m.labelWeights.length := by rw [h.llen]; exact hl
  refine ⟨{ m with
    counters := c'
    labelWeights := m.labelWeights.set e.label (fl (m.labelWeights[e.label] + e.w))
    totalWeights := fl (m.totalWeights + e.w) }, ?_, ?_⟩
  · simp only [bayesTrainR, h1, rd_ok hl', wr_ok _ hl', bind, Except.bind, pure, Except.pure]
  · refine ⟨by rw [← h.clen]; exact h2, by simpa using h.llen, ?_⟩
    intro l hll j hj
    show c'[l * fc + j]? = _
    rw [h3, h.counters l hll j hj]
    by_cases hel : e.label = l
    · subst hel
      rw [if_pos (by omega)]
      have : column (es ++ [e]) e.label j = column es e.label j ++ [(e.x.getD j 0, e.w)] := by simp [column]
      rw [this, estR_snoc]
      simp
    · have hout : ¬ (e.label * fc + 0 ≤ l * fc + j ∧ l * fc + j < e.label * fc + fc) := by
        rintro ⟨a1, a2⟩
        rcases Nat.lt_or_gt_of_ne hel with h4 | h4
        · have : (e.label + 1) * fc ≤ l * fc := Nat.mul_le_mul_right _ h4
          have h5 : (e.label + 1) * fc = e.label * fc + fc := by ring
          omega
        · have : (l + 1) * fc ≤ e.label * fc := Nat.mul_le_mul_right _ h4
          have h5 : (l + 1) * fc = l * fc + fc := by ring
          omega
      rw [if_neg hout]
      have : column (es ++ [e]) l j = column es l j := by simp [column, hel]
      rw [this]

theorem holdsR_run {lc fc : Nat} : ∀ (es ds : List (Ex ℚ)) (m : Bayes.Model ℚ), HoldsR fl lc fc m ds → (∀ e ∈ es, e.Fits lc fc) →
    ∃ m', bayesRunR fl fc m es = .ok m' ∧ HoldsR fl lc fc m' (ds ++ es)
  | [], ds, m, h, _ => ⟨m, rfl, by simpa using h⟩
  | e :: es, ds, m, h, hv => by
      obtain ⟨m1, h1, h2⟩ := holdsR_train h e (hv e (by simp))
      obtain ⟨m2, h3, h4⟩ := holdsR_run es _ m1 h2 (fun x hx => hv x (by simp [hx]))
      exact ⟨m2, by simp only [bayesRunR, h1, bind, Except.bind, h3], by simpa using h4⟩

/-! ### One step -/

/-- the mirrored rounding -/
theorem IsRounding.mirror (h : IsRounding f fl) : IsRounding f (fun x => -fl (-x)) := by
  intro x
  refine ⟨(h.float _).neg, fun z hz => ?_⟩
  have := (h (-x)).2 (-z) hz.neg
  rw [show -fl (-x) - x = -(fl (-x) - -x) by ring, show z - x = -(-z - -x) by ring, abs_neg, abs_neg]
  exact this

theorem half_le (h : IsRounding f fl) (hp : 1 ≤ f.prec) {m v : ℚ} (hm : IsFloat f m) (hv : IsFloat f v) (hle : m ≤ v) :
    0 ≤ fl (v - m) ∧ fl (fl (v - m) / 2) ≤ v - m := by
  have hd0 : 0 ≤ fl (v - m) := h.ge (isFloat_zero f) (by linarith)
  refine ⟨hd0, ?_⟩
  obtain ⟨n, hn⟩ := hv.multiple
  obtain ⟨k, hk⟩ := hm.multiple
  have hs : v - m = ((n - k : Int) : ℚ) * (2 : ℚ) ^ f.emin := by rw [hn, hk]; push_cast; ring
  by_cases hsmall : |n - k| ≤ 2 ^ f.prec
  · have hfd : IsFloat f (v - m) := by rw [hs]; exact isFloat_grid hp hsmall le_rfl
    rw [h.fix hfd]
    exact h.le hfd (by linarith)
  · push Not at hsmall
    have hbigf : IsFloat f ((2 : ℚ) ^ (f.emin + f.prec)) := by
      have := isFloat_grid (f := f) hp (n := 2 ^ f.prec) (e := f.emin) (by rw [abs_of_nonneg (by positivity)]) le_rfl
      rw [zpow_add₀ (by norm_num), zpow_natCast, mul_comm]
      push_cast at this
      exact this
    have hbig : (2 : ℚ) ^ (f.emin + f.prec) ≤ fl (v - m) := by
      refine h.ge hbigf ?_
      have : |v - m| = v - m := abs_of_nonneg (by linarith)
      rw [← this, hs, abs_mul, abs_of_pos (two_zpow_pos f.emin), zpow_add₀ (by norm_num), mul_comm]
      refine mul_le_mul_of_nonneg_right ?_ (two_zpow_pos _).le
      rw [zpow_natCast]; exact_mod_cast hsmall.le
    -- half of it is a number of the format
    have hhalf : IsFloat f (fl (v - m) / 2) := by
      obtain ⟨a, e, h1, h2, h3⟩ := h.float (v - m)
      rw [h3] at hbig ⊢
      have he : f.emin < e := by
        by_contra hcon
        have hee : e = f.emin := by omega
        rw [hee, zpow_add₀ (by norm_num), mul_comm] at hbig
        have h4 := le_of_mul_le_mul_right hbig (two_zpow_pos f.emin)
        rw [zpow_natCast] at h4
        have h5 : (2 : Int) ^ f.prec ≤ a := by exact_mod_cast h4
        have h6 := le_abs_self a
        omega
      refine ⟨a, e - 1, h1, by omega, ?_⟩
      rw [zpow_sub₀ (by norm_num), zpow_one]; ring
    rw [h.fix hhalf]
    have hnear := (h (v - m)).2 0 (isFloat_zero f)
    rw [zero_sub, abs_neg, abs_of_nonneg (show 0 ≤ v - m by linarith)] at hnear
    have := abs_le.1 hnear
    linarith

/-- the new mean is between the old one and the value -/
theorem mean_step (h : IsRounding f fl) (hp : 1 ≤ f.prec) {m v w : ℚ} (hm : IsFloat f m) (hv : IsFloat f v) (hw : 2 ≤ w) (hle : m ≤ v) :
    m ≤ fl (m + fl (fl (v - m) / w)) ∧ fl (m + fl (fl (v - m) / w)) ≤ v := by
  obtain ⟨h0, h1⟩ := half_le h hp hm hv hle
  have hq0 : 0 ≤ fl (fl (v - m) / w) := h.ge (isFloat_zero f) (div_nonneg h0 (by linarith))
  have hq : fl (fl (v - m) / w) ≤ fl (fl (v - m) / 2) := h.mono (div_le_div_of_nonneg_left h0 (by norm_num) hw)
  exact ⟨h.ge hm (by linarith), h.le hv (by linarith)⟩

theorem mean_step' (h : IsRounding f fl) (hp : 1 ≤ f.prec) {m v w : ℚ} (hm : IsFloat f m) (hv : IsFloat f v) (hw : 2 ≤ w) (hle : v ≤ m) :
    v ≤ fl (m + fl (fl (v - m) / w)) ∧ fl (m + fl (fl (v - m) / w)) ≤ m := by
  obtain ⟨h1, h2⟩ := mean_step h.mirror hp hm.neg hv.neg hw (by linarith)
  have e1 : -(-v - -m) = v - m := by ring
  have e2 : -(-fl (v - m) / w) = fl (v - m) / w := by ring
  simp only [e1, e2] at h1 h2
  have e3 : -(-m + -fl (fl (v - m) / w)) = m + fl (fl (v - m) / w) := by ring
  rw [e3] at h1 h2
  exact ⟨by linarith, by linarith⟩

/-- an estimator that has seen points of weight one -/
structure Sane (f : Fmt) (lo hi : ℚ) (e : Est ℚ) : Prop where
  weight : 1 ≤ e.weightSum
  float : IsFloat f e.mean
  lo : lo ≤ e.mean
  hi : e.mean ≤ hi
  var : 0 ≤ e.varianceSum

theorem isFloat_two (hp : 1 ≤ f.prec) (he : f.emin ≤ 1) : IsFloat f 2 := by
  have := isFloat_grid (f := f) hp (n := 1) (e := 1) (by simpa using one_le_pow₀ (by norm_num)) he
  simpa using this

theorem train_sane (h : IsRounding f fl) (hp : 1 ≤ f.prec) (he : f.emin ≤ 1) {e : Est ℚ} {lo hi v : ℚ} (hs : Sane f lo hi e) (hv : IsFloat f v)
    (h1 : lo ≤ v) (h2 : v ≤ hi) : Sane f lo hi (estTrainR fl e v 1) ∧ (v = e.mean → (estTrainR fl e v 1).varianceSum = fl e.varianceSum) := by
  have hpos : e.weightSum > 0 := by have := hs.weight; linarith
  have hw : 2 ≤ fl (e.weightSum + 1) := h.ge (isFloat_two hp he) (by have := hs.weight; linarith)
  have hd : fl (1 * fl (v - e.mean)) = fl (v - e.mean) := by rw [one_mul, h.fix (h.float _)]
  unfold estTrainR
  simp only [if_pos hpos, hd]
  constructor
  · rcases le_total e.mean v with hle | hle
    · obtain ⟨a1, a2⟩ := mean_step h hp hs.float hv hw hle
      refine ⟨by linarith, h.float _, by simp only; linarith [hs.lo], by simp only; linarith, ?_⟩
      refine h.ge (isFloat_zero f) (add_nonneg hs.var (h.ge (isFloat_zero f) (mul_nonneg ?_ ?_)))
      · exact h.ge (isFloat_zero f) (by linarith)
      · exact h.ge (isFloat_zero f) (by linarith)
    · obtain ⟨a1, a2⟩ := mean_step' h hp hs.float hv hw hle
      refine ⟨by linarith, h.float _, by simp only; linarith, by simp only; linarith [hs.hi], ?_⟩
      refine h.ge (isFloat_zero f) (add_nonneg hs.var (h.ge (isFloat_zero f) (mul_nonneg_of_nonpos_of_nonpos ?_ ?_)))
      · exact h.le (isFloat_zero f) (by linarith)
      · exact h.le (isFloat_zero f) (by linarith)
  · rintro rfl
    simp only [sub_self, h.fix (isFloat_zero f), zero_div, add_zero, zero_mul]

theorem estR_sane (h : IsRounding f fl) (hp : 1 ≤ f.prec) (he : f.emin ≤ 1) {lo hi : ℚ} (ps : List (ℚ × ℚ)) (hne : ps ≠ []) (hw : ∀ p ∈ ps, p.2 = 1)
    (hv : ∀ p ∈ ps, IsFloat f p.1) (hlo : ∀ p ∈ ps, lo ≤ p.1) (hhi : ∀ p ∈ ps, p.1 ≤ hi) :
    Sane f lo hi (estR fl ps) ∧ (lo = hi → (estR fl ps).varianceSum = 0) := by
  induction ps using List.reverseRecOn with
  | nil => exact absurd rfl hne
  | append_singleton ps p ih =>
    rw [estR_snoc, hw p (by simp)]
    by_cases hps : ps = []
    · subst hps
      have : estTrainR fl (estR fl []) p.1 1 = ⟨1, 0, p.1⟩ := by simp [estR, estTrainR, Est.new]
      rw [this]
      exact ⟨⟨le_rfl, hv p (by simp), hlo p (by simp), hhi p (by simp), le_rfl⟩, fun _ => rfl⟩
    · obtain ⟨h1, h2⟩ := ih hps (fun q hq => hw q (by simp [hq])) (fun q hq => hv q (by simp [hq])) (fun q hq => hlo q (by simp [hq]))
        (fun q hq => hhi q (by simp [hq]))
      obtain ⟨h3, h4⟩ := train_sane h hp he h1 (hv p (by simp)) (hlo p (by simp)) (hhi p (by simp))
      refine ⟨h3, fun hlh => ?_⟩
      have e1 := hlo p (by simp)
      have e2 := hhi p (by simp)
      have := h1.lo
      have := h1.hi
      rw [h4 (by linarith), h2 hlh, h.fix (isFloat_zero f)]

/-! ### The properties -/

/-- **C109** (partial) Every estimator that has seen a point has a mean between the smallest and the largest of its values and a variance that is not negative;
the variance is zero if all the values are the same. Missing: weights other than 1, see `C109_negative`. -/
theorem C109_mean_variance_partial (h : IsRounding f fl) (hp : 1 ≤ f.prec) (he : f.emin ≤ 1) {lc fc : Nat} (sm : ℚ) (es : List (Ex ℚ)) (hv : ∀ e ∈ es, e.Fits lc fc)
    (hw : ∀ e ∈ es, e.w = 1) (hf : ∀ e ∈ es, ∀ v ∈ e.x, IsFloat f v) : ∃ m, bayesRunR fl fc (Bayes.new lc fc sm) es = .ok m ∧ ∀ l < lc, ∀ j < fc,
      (∃ e ∈ es, e.label = l) → ∃ est, m.counters[l * fc + j]? = some est ∧ 0 ≤ est.varianceSum ∧ ∀ lo hi : ℚ,
        (∀ e ∈ es, e.label = l → ∀ v, e.x[j]? = some v → lo ≤ v ∧ v ≤ hi) → lo ≤ est.mean ∧ est.mean ≤ hi ∧ (lo = hi → est.varianceSum = 0) := by
  obtain ⟨m, h1, h2⟩ := holdsR_run (fl := fl) es [] _ (holdsR_new lc fc sm) hv
  rw [List.nil_append] at h2
  refine ⟨m, h1, fun l hl j hj ⟨e0, he0, hl0⟩ => ⟨_, h2.counters l hl j hj, ?_⟩⟩
  have hget : ∀ e ∈ es, ∃ v, e.x[j]? = some v ∧ e.x.getD j 0 = v := by
    intro e hes
    have hlt : j < e.x.length := lt_of_lt_of_le hj (hv e hes).2
    exact ⟨e.x[j], by rw [List.getElem?_eq_getElem hlt], by rw [List.getD_eq_getElem?_getD, List.getElem?_eq_getElem hlt]; rfl⟩
  have hcol : ∀ p ∈ column es l j, ∃ e ∈ es, e.label = l ∧ e.x[j]? = some p.1 ∧ p.2 = 1 ∧ IsFloat f p.1 := by
    intro p hpc
    obtain ⟨e, h3, rfl⟩ := List.mem_map.1 hpc
    obtain ⟨h4, h5⟩ := List.mem_filter.1 h3
    obtain ⟨v, h6, h7⟩ := hget e h4
    exact ⟨e, h4, by simpa using h5, by rw [h6, h7], hw e h4, by rw [h7]; exact hf e h4 v (List.mem_of_getElem? h6)⟩
  have hne : column es l j ≠ [] := by
    intro hnil
    have : (e0.x.getD j 0, e0.w) ∈ column es l j := List.mem_map.2 ⟨e0, List.mem_filter.2 ⟨he0, by simpa using hl0⟩, rfl⟩
    rw [hnil] at this
    cases this
  have key : ∀ lo hi : ℚ, (∀ e ∈ es, e.label = l → ∀ v, e.x[j]? = some v → lo ≤ v ∧ v ≤ hi) → _ := fun lo hi hr =>
    estR_sane h hp he (column es l j) hne (fun p hpc => by obtain ⟨e, _, _, _, q, _⟩ := hcol p hpc; exact q)
      (fun p hpc => by obtain ⟨e, _, _, _, _, q⟩ := hcol p hpc; exact q)
      (lo := lo) (hi := hi) (fun p hpc => by obtain ⟨e, a, b, c, _, _⟩ := hcol p hpc; exact (hr e a b _ c).1)
      (fun p hpc => by obtain ⟨e, a, b, c, _, _⟩ := hcol p hpc; exact (hr e a b _ c).2)
  constructor
  · -- some bounds exist
    obtain ⟨lo, hlo⟩ : ∃ lo : ℚ, ∀ v ∈ es.map (fun e => e.x.getD j 0), lo ≤ v := by
      induction es.map (fun e => e.x.getD j 0) with
      | nil => exact ⟨0, by simp⟩
      | cons a l ih =>
        obtain ⟨lo, hlo⟩ := ih
        exact ⟨min a lo, by
          intro v hv
          rcases List.mem_cons.1 hv with rfl | hv
          · exact min_le_left _ _
          · exact (min_le_right _ _).trans (hlo v hv)⟩
    obtain ⟨hi, hhi⟩ : ∃ hi : ℚ, ∀ v ∈ es.map (fun e => e.x.getD j 0), v ≤ hi := by
      induction es.map (fun e => e.x.getD j 0) with
      | nil => exact ⟨0, by simp⟩
      | cons a l ih =>
        obtain ⟨hi, hhi⟩ := ih
        exact ⟨max a hi, by
          intro v hv
          rcases List.mem_cons.1 hv with rfl | hv
          · exact le_max_left _ _
          · exact (hhi v hv).trans (le_max_right _ _)⟩
    refine (key lo hi fun e hes _ v hev => ?_).1.var
    have hm : v ∈ es.map (fun e => e.x.getD j 0) := by
      refine List.mem_map.2 ⟨e, hes, ?_⟩
      rw [List.getD_eq_getElem?_getD, hev]; rfl
    exact ⟨hlo v hm, hhi v hm⟩
  · intro lo hi hr
    obtain ⟨k1, k2⟩ := key lo hi hr
    exact ⟨k1.lo, k1.hi, k2⟩

theorem isFloat_double (n : Int) (k : Nat) (hk : k ≤ 1074) (hn : |n| ≤ 2 ^ 53) {x : ℚ} (hx : x * 2 ^ k = n) : IsFloat double x := by
  have := isFloat_grid (f := double) (by decide) (n := n) (e := -(k : Int)) hn (by simp only [double]; omega)
  rw [← hx, zpow_neg, zpow_natCast, mul_assoc, mul_inv_cancel₀ (by positivity), mul_one] at this
  exact this

/-- **C109** (violation) With weights of very different size the mean can leave the range of the values and the variance become negative: doubles, the value 1
with weight 1 and the value 0.1 with weight `10^17`. -/
theorem C109_negative : ∃ (es : List (Ex ℚ)) (m : Bayes.Model ℚ) (est : Est ℚ), (∀ e ∈ es, e.Fits 1 1 ∧ 0 < e.w ∧ IsFloat double e.w ∧ ∀ v ∈ e.x, IsFloat double v) ∧
    bayesRunR (rn double) 1 (Bayes.new 1 1 0) es = .ok m ∧ m.counters[0]? = some est ∧ est.varianceSum < 0 ∧ ∀ e ∈ es, ∀ v ∈ e.x, est.mean < v := by
  have hr : bayesRunR (rn double) 1 (Bayes.new 1 1 0) [⟨[1], 0, 1⟩, ⟨[3602879701896397 / 36028797018963968], 0, 100000000000000000⟩] =
    .ok ⟨[⟨100000000000000000, -1373291015625 / 549755813888, 900719925474099 / 9007199254740992⟩], [100000000000000000], 100000000000000000, 0⟩ := by
    decide +kernel
  refine ⟨_, _, _, ?_, hr, rfl, by norm_num, ?_⟩
  · intro e he
    simp only [List.mem_cons, List.not_mem_nil, or_false] at he
    rcases he with rfl | rfl
    · refine ⟨⟨by decide, by decide⟩, by norm_num, isFloat_double 1 0 (by decide) (by decide) (by norm_num), ?_⟩
      intro v hv
      simp only [List.mem_cons, List.not_mem_nil, or_false] at hv
      subst hv
      exact isFloat_double 1 0 (by decide) (by decide) (by norm_num)
    · refine ⟨⟨by decide, by decide⟩, by norm_num, ?_, ?_⟩
      · have := isFloat_grid (f := double) (by decide) (n := 762939453125) (e := 17) (by decide) (by decide)
        norm_num at this
        exact this
      · intro v hv
        simp only [List.mem_cons, List.not_mem_nil, or_false] at hv
        subst hv
        exact isFloat_double 3602879701896397 55 (by decide) (by decide) (by norm_num)
  · intro e he v hv
    simp only [List.mem_cons, List.not_mem_nil, or_false] at he
    rcases he with rfl | rfl <;>
    · simp only [List.mem_cons, List.not_mem_nil, or_false] at hv
      subst hv
      norm_num

/-- **C109** (violation) Different values can have the computed variance zero: the values `1 + 2^-52` and `1 + 2^-51`. The density is then zero at the first one, although
it is a training point. -/
theorem C109_degenerate : ∃ (es : List (Ex ℚ)) (m : Bayes.Model ℚ) (est : Est ℚ) (x : ℚ), (∀ e ∈ es, e.Fits 1 1 ∧ e.w = 1 ∧ ∀ v ∈ e.x, IsFloat double v) ∧
    bayesRunR (rn double) 1 (Bayes.new 1 1 0) es = .ok m ∧ m.counters[0]? = some est ∧ (∃ e ∈ es, e.x = [x]) ∧
    ∀ env : Env ℚ, env.sqrt 0 = 0 → densityR (rn double) env est x = 0 := by
  have hr : bayesRunR (rn double) 1 (Bayes.new 1 1 0) [⟨[1 + 1 / 2 ^ 52], 0, 1⟩, ⟨[1 + 2 / 2 ^ 52], 0, 1⟩] = .ok ⟨[⟨2, 0, 1 + 2 / 2 ^ 52⟩], [2], 2, 0⟩ := by decide +kernel
  refine ⟨_, _, _, 1 + 1 / 2 ^ 52, ?_, hr, rfl, ⟨_, List.mem_cons_self, rfl⟩, ?_⟩
  · intro e he
    simp only [List.mem_cons, List.not_mem_nil, or_false] at he
    rcases he with rfl | rfl
    · refine ⟨⟨by decide, by decide⟩, rfl, fun v hv => ?_⟩
      simp only [List.mem_cons, List.not_mem_nil, or_false] at hv
      subst hv
      exact isFloat_double (2 ^ 52 + 1) 52 (by decide) (by decide) (by norm_num)
    · refine ⟨⟨by decide, by decide⟩, rfl, fun v hv => ?_⟩
      simp only [List.mem_cons, List.not_mem_nil, or_false] at hv
      subst hv
      exact isFloat_double (2 ^ 52 + 2) 52 (by decide) (by decide) (by norm_num)
  · intro env h0
    have hz : rn double (0 / rn double (2 - 1)) = 0 := by decide +kernel
    unfold densityR
    simp only [hz]
    norm_num
    intro hpos
    rw [h0] at hpos
    exact absurd hpos (lt_irrefl _)

/-! ### Example -/

example : ∃ m, bayesRunR (rn double) 1 (Bayes.new 2 1 0) [⟨[1], 1, 1⟩, ⟨[7], 0, 1⟩, ⟨[3], 1, 1⟩, ⟨[2], 1, 1⟩] = .ok m ∧ ∃ est, m.counters[1]? = some est ∧ 0 ≤ est.varianceSum ∧
    1 ≤ est.mean ∧ est.mean ≤ 3 := by
  obtain ⟨m, h1, h2⟩ := C109_mean_variance_partial (rn_isRounding double (by decide)) (by decide) (by decide) (lc := 2) (fc := 1) 0
    [⟨[1], 1, 1⟩, ⟨[7], 0, 1⟩, ⟨[3], 1, 1⟩, ⟨[2], 1, 1⟩] (by simp [Ex.Fits]) (by simp) (by
      intro e he v hv
      have : ∃ n : Nat, n ≤ 7 ∧ v = n := by
        simp only [List.mem_cons, List.not_mem_nil, or_false] at he
        rcases he with rfl | rfl | rfl | rfl <;> simp only [List.mem_cons, List.not_mem_nil, or_false] at hv <;> subst hv
        · exact ⟨1, by decide, by simp⟩
        · exact ⟨7, by decide, by simp⟩
        · exact ⟨3, by decide, by simp⟩
        · exact ⟨2, by decide, by simp⟩
      obtain ⟨n, h1, rfl⟩ := this
      exact isFloat_nat (by decide) (by decide) (by simp only [double]; omega))
  obtain ⟨est, h3, h4, h5⟩ := h2 1 (by decide) 0 (by decide) ⟨⟨[1], 1, 1⟩, by simp, rfl⟩
  obtain ⟨h6, h7, -⟩ := h5 1 3 (by
    intro e he hl v hv
    simp only [List.mem_cons, List.not_mem_nil, or_false] at he
    rcases he with rfl | rfl | rfl | rfl <;> simp at hv hl <;> subst hv <;> norm_num)
  exact ⟨m, h1, est, by simpa using h3, h4, h6, h7⟩

end Orp.Rounding
