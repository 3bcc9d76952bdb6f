import Verif.Bayes.Props
import Mathlib.Analysis.SpecialFunctions.Log.Basic
import Mathlib.Analysis.Real.Pi.Bounds
import Mathlib.Algebra.BigOperators.Field
import Mathlib.Tactic.IntervalCases

/-!
C141: `predict` takes the Bayes decision for the Gaussian model fitted to the training points; the rounded constant in the code does not matter.
C142: training with weights is training with repetitions.
-/

namespace Orp.Bayes

open Finset

/-! ### Specification -/

/-- the total weight of label `l` -/
noncomputable def labelTotal (es : List (Ex ℝ)) (l : Nat) : ℝ := ((es.filter (fun e => e.label = l)).map Ex.w).sum

/-- the weighted mean of feature `f` for label `l` -/
noncomputable def labelMean (es : List (Ex ℝ)) (l f : Nat) : ℝ :=
  ((es.filter (fun e => e.label = l)).map (fun e => e.w * e.x.getD f 0)).sum / labelTotal es l

/-- the weighted sample variance of feature `f` for label `l` -/
noncomputable def labelVar (es : List (Ex ℝ)) (l f : Nat) : ℝ :=
  ((es.filter (fun e => e.label = l)).map (fun e => e.w * (e.x.getD f 0 - labelMean es l f) ^ 2)).sum / (labelTotal es l - 1)

/-- the density of the normal law with mean `μ` and variance `v` -/
noncomputable def gauss (μ v x : ℝ) : ℝ := 1 / Real.sqrt (2 * Real.pi * v) * Real.exp (-(x - μ) ^ 2 / (2 * v))

/-- Prior times likelihood of label `l`: what Bayes' rule compares. -/
noncomputable def posterior (es : List (Ex ℝ)) (fc : Nat) (x : List ℝ) (l : Nat) : ℝ :=
  labelTotal es l / (es.map Ex.w).sum * ∏ f ∈ range fc, gauss (labelMean es l f) (labelVar es l f) (x.getD f 0)

/-- Every label that occurs has more than one training point and no feature is constant for it. -/
def Varied (es : List (Ex ℝ)) (lc fc : Nat) : Prop :=
  ∀ l < lc, (∀ e ∈ es, e.label ≠ l) ∨ (1 < labelTotal es l ∧ ∀ f < fc, 0 < labelVar es l f)

/-- The difference, on the logarithmic scale, that the rounded constant of the code makes for each feature. -/
noncomputable def constantShift : ℝ := Real.log (Real.sqrt (2 * Real.pi) / (250663 / 100000))

/-! ### Proofs -/

theorem estOf_column (es : List (Ex ℝ)) (hw : ∀ e ∈ es, 0 < e.w) (l f : Nat) (h : 1 < labelTotal es l) :
    (estOf (column es l f)).weightSum = labelTotal es l ∧ (estOf (column es l f)).mean = labelMean es l f ∧
      (estOf (column es l f)).varianceSum / (labelTotal es l - 1) = labelVar es l f := by
  obtain ⟨a, b, c⟩ := estOf_eq (column es l f) (by
    intro p hp
    obtain ⟨e, he, rfl⟩ := List.mem_map.1 hp
    exact (hw e (List.mem_filter.1 he).1).le)
  have hws : wsum (column es l f) = labelTotal es l := by simp [wsum, column, labelTotal, Function.comp_def]
  have hvs : vsum (column es l f) = ((es.filter (fun e => e.label = l)).map (fun e => e.w * e.x.getD f 0)).sum := by
    simp [vsum, column, Function.comp_def]
  have hm : (estOf (column es l f)).mean = labelMean es l f := by
    rw [labelMean, eq_div_iff (by linarith), ← hvs, ← b, hws]
  refine ⟨a.trans hws, hm, ?_⟩
  rw [c, hm, labelVar]
  simp [sqdev, column, Function.comp_def]

/-- the density in the code is the normal density, up to the constant -/
theorem density_gauss (es : List (Ex ℝ)) (hw : ∀ e ∈ es, 0 < e.w) (l f : Nat) (h : 1 < labelTotal es l) (hv : 0 < labelVar es l f) (x : ℝ) :
    (estOf (column es l f)).density realEnv x = Real.sqrt (2 * Real.pi) / (250663 / 100000) * gauss (labelMean es l f) (labelVar es l f) x := by
  obtain ⟨a, b, c⟩ := estOf_column es hw l f h
  have hpi := Real.pi_pos
  have hs : 0 < Real.sqrt (labelVar es l f) := Real.sqrt_pos.2 hv
  unfold Est.density
  rw [a, if_neg (by linarith)]
  dsimp only
  rw [if_pos h, c, b]
  show (if Real.sqrt (labelVar es l f) > 0 then _ else _) = _
  rw [if_pos hs, gauss, Real.sqrt_mul (show (0 : ℝ) ≤ 2 * Real.pi by positivity) (labelVar es l f)]
  have hsq : Real.sqrt (labelVar es l f) * Real.sqrt (labelVar es l f) = labelVar es l f := Real.mul_self_sqrt hv.le
  have h2 : (0 : ℝ) < Real.sqrt (2 * Real.pi) := Real.sqrt_pos.2 (by positivity)
  have he : -((x - labelMean es l f) * (x - labelMean es l f) / (2 * realEnv.sqrt (labelVar es l f) * realEnv.sqrt (labelVar es l f))) =
      -(x - labelMean es l f) ^ 2 / (2 * labelVar es l f) := by
    show -((x - labelMean es l f) * (x - labelMean es l f) / (2 * Real.sqrt (labelVar es l f) * Real.sqrt (labelVar es l f))) = _
    rw [mul_assoc 2, hsq]; ring
  rw [he]
  show 1 / (250663 / 100000 * Real.sqrt (labelVar es l f)) * Real.exp _ = _
  field_simp

theorem gauss_pos (μ v x : ℝ) (hv : 0 < v) : 0 < gauss μ v x := by
  have hpi := Real.pi_pos
  unfold gauss
  have : 0 < Real.sqrt (2 * Real.pi * v) := Real.sqrt_pos.2 (by positivity)
  have := Real.exp_pos (-(x - μ) ^ 2 / (2 * v))
  positivity

theorem shift_pos : 0 < Real.sqrt (2 * Real.pi) / (250663 / 100000) := by
  have hpi := Real.pi_pos
  have : 0 < Real.sqrt (2 * Real.pi) := Real.sqrt_pos.2 (by positivity)
  positivity

theorem foldl_fin (g : Nat → ℝ) (h : Nat → Dbl ℝ) (n : Nat) (hg : ∀ f < n, h f = .fin (g f)) (a : ℝ) :
    (List.range n).foldl (fun (acc : Dbl ℝ) f => acc.add (h f)) (.fin a) = (.fin (a + ∑ f ∈ range n, g f) : Dbl ℝ) := by
  induction n with
  | zero => simp
  | succ n ih =>
      rw [List.range_succ, List.foldl_append, ih (fun f hf => hg f (by omega)), sum_range_succ]
      simp only [List.foldl_cons, List.foldl_nil, hg n (by omega), Dbl.add, add_assoc]

theorem score_varied {lc fc : Nat} (sm : ℝ) (es : List (Ex ℝ)) (hv : ∀ e ∈ es, e.Fits lc fc) (hw : ∀ e ∈ es, 0 < e.w)
    (x : List ℝ) (hx : fc ≤ x.length) {m : Model ℝ} (hrun : run fc (new lc fc sm) es = .ok m) {l : Nat} (hl : l < lc)
    (h1 : 1 < labelTotal es l) (h2 : ∀ f < fc, 0 < labelVar es l f) :
    0 < posterior es fc x l ∧ score realEnv fc m x l = .ok (.fin (Real.log (posterior es fc x l) + fc * constantShift)) := by
  have hle : labelTotal es l ≤ (es.map Ex.w).sum := by
    unfold labelTotal
    have : ∀ L : List (Ex ℝ), (∀ e ∈ L, 0 < e.w) → ((L.filter (fun e => e.label = l)).map Ex.w).sum ≤ (L.map Ex.w).sum := by
      intro L hL
      induction L with
      | nil => simp
      | cons e L ih =>
          have := ih (fun d hd => hL d (by simp [hd]))
          have he := hL e (by simp)
          by_cases hh : e.label = l
          · simp only [List.filter_cons, hh, decide_true, if_true, List.map_cons, List.sum_cons]; linarith
          · simp only [List.filter_cons, hh, decide_false, Bool.false_eq_true, if_false, List.map_cons, List.sum_cons]; linarith
    exact this es hw
  have htot : 0 < (es.map Ex.w).sum := by linarith
  have hprior : 0 < labelTotal es l / (es.map Ex.w).sum := div_pos (by linarith) htot
  have hg : ∀ f ∈ range fc, 0 < gauss (labelMean es l f) (labelVar es l f) (x.getD f 0) := fun f hf => gauss_pos _ _ _ (h2 f (mem_range.1 hf))
  have hpos : 0 < posterior es fc x l := mul_pos hprior (prod_pos hg)
  refine ⟨hpos, ?_⟩
  rw [C39_score sm es hv realEnv x hx hrun hl]
  congr 1
  have h0 : logD realEnv (Dbl.div (.fin ((es.filter (fun e => e.label = l)).map Ex.w).sum) (.fin (es.map Ex.w).sum)) =
      .fin (Real.log (labelTotal es l / (es.map Ex.w).sum)) := by
    simp only [Dbl.div, if_neg htot.ne', logD, realEnv]
    exact if_pos hprior
  rw [h0]
  have hd : ∀ f < fc, realEnv.log (((((es.filter (fun e => e.label = l)).map (fun e => (e.x.getD f 0, e.w))).foldl (fun e p => e.train p.1 p.2) Est.new)).density
      realEnv (x.getD f 0)) = .fin (constantShift + Real.log (gauss (labelMean es l f) (labelVar es l f) (x.getD f 0))) := by
    intro f hf
    have hgf := gauss_pos (labelMean es l f) (labelVar es l f) (x.getD f 0) (h2 f hf)
    have hden := density_gauss es hw l f h1 (h2 f hf) (x.getD f 0)
    have : 0 < Real.sqrt (2 * Real.pi) / (250663 / 100000) * gauss (labelMean es l f) (labelVar es l f) (x.getD f 0) := mul_pos shift_pos hgf
    show realEnv.log ((estOf (column es l f)).density realEnv (x.getD f 0)) = _
    rw [hden]
    simp only [realEnv, if_pos this]
    rw [Real.log_mul shift_pos.ne' hgf.ne', constantShift]
  rw [foldl_fin _ _ fc hd, posterior, Real.log_mul hprior.ne' (prod_pos hg).ne', Real.log_prod (fun f hf => (hg f hf).ne'), sum_add_distrib]
  congr 1
  simp only [sum_const, card_range, nsmul_eq_mul]
  ring

/-- **C141** If no feature is constant for a label, the prediction is a label with the largest posterior probability (the first of them), for the normal
laws with the weighted means and sample variances of the training points; the scores are the logarithms of these probabilities up to the same
constant for all labels, and minus infinity for the labels without training points. -/
theorem C141_bayes {lc fc : Nat} (hlc : 1 ≤ lc) (sm : ℝ) (es : List (Ex ℝ)) (hv : ∀ e ∈ es, e.Fits lc fc) (hw : ∀ e ∈ es, 0 < e.w)
    (hne : es ≠ []) (hvar : Varied es lc fc) (x : List ℝ) (hx : fc ≤ x.length) :
    ∃ m l scores, run fc (new lc fc sm) es = .ok m ∧ predict realEnv lc fc m x = .ok (l, scores) ∧ l < lc ∧
      (∀ j < lc, posterior es fc x j ≤ posterior es fc x l) ∧ (∀ j < l, posterior es fc x j < posterior es fc x l) ∧
      ∀ j < lc, scores[j]? = some (if labelTotal es j = 0 then .ninf else .fin (Real.log (posterior es fc x j) + fc * constantShift)) := by
  obtain ⟨m, l, scores, a, a1, a2, a3, a4, a5, a6, a7, a8⟩ := C39_predicts_best hlc sm es hv hw hne realEnv realEnv_ok x hx
  have hunseen : ∀ j, (∀ e ∈ es, e.label ≠ j) → labelTotal es j = 0 := by
    intro j hj
    have : es.filter (fun e => e.label = j) = [] := by
      rw [List.filter_eq_nil_iff]; intro e he; simpa using hj e he
    simp [labelTotal, this]
  have hsc : ∀ j < lc, scores[j]? = some (if labelTotal es j = 0 then .ninf else .fin (Real.log (posterior es fc x j) + fc * constantShift)) ∧
      (labelTotal es j ≠ 0 → 0 < posterior es fc x j) := by
    intro j hj
    obtain ⟨b, b1, b2⟩ := a4 j hj
    rcases hvar j hj with hu | ⟨h1, h2⟩
    · have h0 := hunseen j hu
      obtain ⟨m', r1, r2⟩ := run_new sm es hv
      rw [a1] at r1; cases r1
      have := (score_proper realEnv_ok r2 hw hne hj b2).2 hu
      refine ⟨by rw [b1, if_pos h0, this], fun h => absurd h0 h⟩
    · obtain ⟨p1, p2⟩ := score_varied sm es hv hw x hx a1 hj h1 h2
      rw [b2] at p2
      refine ⟨?_, fun _ => p1⟩
      rw [b1, if_neg (by linarith), Except.ok.inj p2]
  have hzero : ∀ j, labelTotal es j = 0 → posterior es fc x j = 0 := by
    intro j hj; simp [posterior, hj]
  -- the best label has training points
  have hseen : labelTotal es l ≠ 0 := by
    intro h0
    obtain ⟨e, es', rfl⟩ := List.exists_cons_of_ne_nil hne
    have hel := (hv e (by simp)).1
    have hs := (hsc e.label hel).1
    have hs' := (hsc l a5).1
    rw [if_pos h0, a6] at hs'
    cases hs'
    have hnz : labelTotal (e :: es') e.label ≠ 0 := by
      rcases hvar e.label hel with hu | ⟨h1, _⟩
      · exact absurd rfl (hu e (by simp))
      · linarith
    rw [if_neg hnz] at hs
    have := a7 _ (List.mem_of_getElem? hs)
    simp [Dbl.le] at this
  have hl := (hsc l a5)
  have hla : a = .fin (Real.log (posterior es fc x l) + fc * constantShift) := by
    have := hl.1
    rw [if_neg hseen, a6] at this
    exact Option.some.inj this
  have hlpos := hl.2 hseen
  refine ⟨m, l, scores, a1, a2, a5, ?_, ?_, fun j hj => (hsc j hj).1⟩
  · intro j hj
    by_cases h0 : labelTotal es j = 0
    · rw [hzero j h0]; exact hlpos.le
    · have hs := (hsc j hj).1
      rw [if_neg h0] at hs
      have := a7 _ (List.mem_of_getElem? hs)
      rw [hla] at this
      simp only [Dbl.le, decide_eq_true_eq] at this
      exact (Real.log_le_log_iff ((hsc j hj).2 h0) hlpos).1 (by linarith)
  · intro j hj
    have hj' : j < lc := by omega
    by_cases h0 : labelTotal es j = 0
    · rw [hzero j h0]; exact hlpos
    · have hs := (hsc j hj').1
      rw [if_neg h0] at hs
      have := a8 j hj _ hs
      rw [hla] at this
      simp only [Dbl.lt, decide_eq_true_eq] at this
      exact (Real.log_lt_log_iff ((hsc j hj').2 h0) hlpos).1 (by linarith)

/-- **C141** If moreover all labels have the same weight and the same variances, the prediction is the label with the nearest mean, where each feature
is measured in units of its standard deviation (the first such label). -/
theorem C141_nearest_mean {lc fc : Nat} (hlc : 1 ≤ lc) (sm : ℝ) (es : List (Ex ℝ)) (hv : ∀ e ∈ es, e.Fits lc fc) (hw : ∀ e ∈ es, 0 < e.w)
    (W : ℝ) (hW : 1 < W) (v : Nat → ℝ) (hpos : ∀ f < fc, 0 < v f) (hWl : ∀ l < lc, labelTotal es l = W)
    (hvl : ∀ l < lc, ∀ f < fc, labelVar es l f = v f) (x : List ℝ) (hx : fc ≤ x.length) :
    ∃ m l scores, run fc (new lc fc sm) es = .ok m ∧ predict realEnv lc fc m x = .ok (l, scores) ∧ l < lc ∧
      (∀ j < lc, ∑ f ∈ range fc, (x.getD f 0 - labelMean es l f) ^ 2 / v f ≤ ∑ f ∈ range fc, (x.getD f 0 - labelMean es j f) ^ 2 / v f) ∧
      (∀ j < l, ∑ f ∈ range fc, (x.getD f 0 - labelMean es l f) ^ 2 / v f < ∑ f ∈ range fc, (x.getD f 0 - labelMean es j f) ^ 2 / v f) := by
  have hne : es ≠ [] := by
    rintro rfl
    have := hWl 0 hlc
    simp [labelTotal] at this
    linarith
  obtain ⟨m, l, scores, a1, a2, a3, a4, a5, _⟩ := C141_bayes hlc sm es hv hw hne
    (fun l hl => .inr ⟨by rw [hWl l hl]; exact hW, fun f hf => by rw [hvl l hl f hf]; exact hpos f hf⟩) x hx
  have htot : 0 < (es.map Ex.w).sum := sum_w_pos hw hne
  have hform : ∀ j < lc, posterior es fc x j = W / (es.map Ex.w).sum * (∏ f ∈ range fc, (1 / Real.sqrt (2 * Real.pi * v f))) *
      Real.exp (-(∑ f ∈ range fc, (x.getD f 0 - labelMean es j f) ^ 2 / v f) / 2) := by
    intro j hj
    rw [posterior, hWl j hj, mul_assoc]
    congr 1
    rw [neg_div, Finset.sum_div, ← sum_neg_distrib, Real.exp_sum, ← prod_mul_distrib]
    refine prod_congr rfl fun f hf => ?_
    have hf' := mem_range.1 hf
    rw [gauss, hvl j hj f hf']
    have := hpos f hf'
    congr 2
    field_simp
  have hc : 0 < W / (es.map Ex.w).sum * ∏ f ∈ range fc, (1 / Real.sqrt (2 * Real.pi * v f)) := by
    refine mul_pos (div_pos (by linarith) htot) (prod_pos fun f hf => ?_)
    have := hpos f (mem_range.1 hf)
    have hpi := Real.pi_pos
    have : 0 < Real.sqrt (2 * Real.pi * v f) := Real.sqrt_pos.2 (by positivity)
    positivity
  refine ⟨m, l, scores, a1, a2, a3, fun j hj => ?_, fun j hj => ?_⟩
  · have := a4 j hj
    rw [hform j hj, hform l a3] at this
    have := Real.exp_le_exp.1 (le_of_mul_le_mul_left this hc)
    linarith
  · have := a5 j hj
    rw [hform j (by omega), hform l a3] at this
    have := Real.exp_lt_exp.1 (lt_of_mul_lt_mul_left this hc.le)
    linarith

/-! The hypotheses are met: two labels with two points each. -/

def fourPoints : List (Ex ℝ) := [⟨[0], 0, 1⟩, ⟨[10], 1, 1⟩, ⟨[2], 0, 1⟩, ⟨[12], 1, 1⟩]

theorem fourPoints_facts : (∀ e ∈ fourPoints, e.Fits 2 1) ∧ (∀ e ∈ fourPoints, 0 < e.w) ∧ (∀ l < 2, labelTotal fourPoints l = 2) ∧
    (∀ l < 2, ∀ f < 1, labelMean fourPoints l f = 1 + 10 * l) ∧ (∀ l < 2, ∀ f < 1, labelVar fourPoints l f = 2) := by
  have h1 : ∀ l < 2, labelTotal fourPoints l = 2 := by
    intro l hl
    interval_cases l <;> simp [labelTotal, fourPoints, List.filter] <;> norm_num
  have h2 : ∀ l < 2, ∀ f < 1, labelMean fourPoints l f = 1 + 10 * l := by
    intro l hl f hf
    rw [labelMean, h1 l hl]
    obtain rfl : f = 0 := by omega
    interval_cases l <;> simp [fourPoints, List.filter] <;> norm_num
  refine ⟨by simp [fourPoints, Ex.Fits], by simp [fourPoints], h1, h2, ?_⟩
  intro l hl f hf
  rw [labelVar, h1 l hl, h2 l hl f hf]
  obtain rfl : f = 0 := by omega
  interval_cases l <;> simp [fourPoints, List.filter] <;> norm_num

example : fourPoints ≠ [] ∧ Varied fourPoints 2 1 := by
  obtain ⟨_, _, a, b, c⟩ := fourPoints_facts
  exact ⟨by simp [fourPoints], fun l hl => .inr ⟨by rw [a l hl]; norm_num, fun f hf => by rw [c l hl f hf]; norm_num⟩⟩

/-- the prediction for 7 is the second label: its mean 11 is nearer than the mean 1 of the first -/
example (sm : ℝ) : ∃ m scores, run 1 (new 2 1 sm) fourPoints = .ok m ∧ predict realEnv 2 1 m [7] = .ok (1, scores) := by
  obtain ⟨a, b, c, d, e⟩ := fourPoints_facts
  obtain ⟨m, l, scores, h1, h2, h3, h4, h5⟩ := C141_nearest_mean (by norm_num) sm fourPoints a b 2 (by norm_num) (fun _ => 2) (by norm_num) c e [7] (by simp)
  refine ⟨m, scores, h1, ?_⟩
  have := h4 1 (by norm_num)
  interval_cases l
  · exfalso
    simp only [sum_range_one] at this
    rw [d 0 (by norm_num) 0 (by norm_num), d 1 (by norm_num) 0 (by norm_num)] at this
    norm_num at this
  · exact h2

/-! ### C142 -/

section Weights

variable {K : Type} [Field K] [LinearOrder K] [IsStrictOrderedRing K]

/-- The two histories are the same weighted collection of labelled points: every quantity of the points, summed with the weights, is the same. -/
def SameWeighted (es ds : List (Ex K)) : Prop :=
  ∀ φ : Nat → List K → K, (es.map (fun e => e.w * φ e.label e.x)).sum = (ds.map (fun e => e.w * φ e.label e.x)).sum

theorem sum_filter (es : List (Ex K)) (l : Nat) (g : Ex K → K) :
    ((es.filter (fun e => e.label = l)).map g).sum = (es.map (fun e => if e.label = l then g e else 0)).sum := by
  induction es with
  | nil => rfl
  | cons e es ih =>
      by_cases h : e.label = l
      · simp only [List.filter_cons, h, decide_true, if_true, List.map_cons, List.sum_cons, ih]
      · simp only [List.filter_cons, h, decide_false, Bool.false_eq_true, if_false, List.map_cons, List.sum_cons, ih, zero_add]

theorem SameWeighted.filter {es ds : List (Ex K)} (h : SameWeighted es ds) (l : Nat) (ψ : List K → K) :
    ((es.filter (fun e => e.label = l)).map (fun e => e.w * ψ e.x)).sum = ((ds.filter (fun e => e.label = l)).map (fun e => e.w * ψ e.x)).sum := by
  rw [sum_filter, sum_filter]
  have := h (fun k x => if k = l then ψ x else 0)
  simpa only [mul_ite, mul_zero] using this

/-- estimators with the same sums have the same density -/
theorem density_same {ps qs : List (K × K)} (hp : ∀ p ∈ ps, 0 ≤ p.2) (hq : ∀ p ∈ qs, 0 ≤ p.2) (h1 : wsum ps = wsum qs)
    (h2 : vsum ps = vsum qs) (h3 : ∀ c, sqdev c ps = sqdev c qs) (env : Env K) (v : K) :
    (estOf ps).density env v = (estOf qs).density env v := by
  obtain ⟨a1, a2, a3⟩ := estOf_eq ps hp
  obtain ⟨b1, b2, b3⟩ := estOf_eq qs hq
  by_cases h0 : wsum ps ≤ 0
  · simp only [Est.density, a1, b1, ← h1, if_pos h0]
  · have hm : (estOf ps).mean = (estOf qs).mean := by
      have hne : wsum ps ≠ 0 := by intro h; exact h0 h.le
      apply mul_right_cancel₀ hne
      rw [a2, h2, ← b2, h1]
    have hE : estOf ps = estOf qs := by
      have hv : (estOf ps).varianceSum = (estOf qs).varianceSum := by rw [a3, b3, hm, h3]
      have hws : (estOf ps).weightSum = (estOf qs).weightSum := by rw [a1, b1, h1]
      cases hx : estOf ps; cases hy : estOf qs
      rw [hx, hy] at hm hv hws
      simp only at hm hv hws
      subst hm hv hws
      rfl
    rw [hE]

theorem score_same {lc fc : Nat} (sm : K) {es ds : List (Ex K)} (hv : ∀ e ∈ es, e.Fits lc fc) (hv' : ∀ e ∈ ds, e.Fits lc fc)
    (hw : ∀ e ∈ es, 0 ≤ e.w) (hw' : ∀ e ∈ ds, 0 ≤ e.w) (h : SameWeighted es ds) (env : Env K) (x : List K) (hx : fc ≤ x.length)
    {m m' : Model K} (hr : run fc (new lc fc sm) es = .ok m) (hr' : run fc (new lc fc sm) ds = .ok m') {l : Nat} (hl : l < lc) :
    score env fc m x l = score env fc m' x l := by
  rw [C39_score sm es hv env x hx hr hl, C39_score sm ds hv' env x hx hr' hl]
  have e1 : ((es.filter (fun e => e.label = l)).map Ex.w).sum = ((ds.filter (fun e => e.label = l)).map Ex.w).sum := by
    have := h.filter l (fun _ => 1)
    simpa only [mul_one] using this
  have e2 : (es.map Ex.w).sum = (ds.map Ex.w).sum := by
    have := h (fun _ _ => 1)
    simpa only [mul_one] using this
  rw [e1, e2]
  congr 2
  funext acc f
  congr 2
  refine density_same (ps := column es l f) (qs := column ds l f) ?_ ?_ ?_ ?_ ?_ env _
  · intro p hp
    obtain ⟨e, he, rfl⟩ := List.mem_map.1 hp
    exact hw e (List.mem_filter.1 he).1
  · intro p hp
    obtain ⟨e, he, rfl⟩ := List.mem_map.1 hp
    exact hw' e (List.mem_filter.1 he).1
  · simp only [wsum, column, List.map_map, Function.comp_def]; exact e1
  · simp only [vsum, column, List.map_map, Function.comp_def]; exact h.filter l (fun x => x.getD f 0)
  · intro c; simp only [sqdev, column, List.map_map, Function.comp_def]; exact h.filter l (fun x => (x.getD f 0 - c) ^ 2)

theorem scoresFrom_same (env : Env K) (fc : Nat) (m m' : Model K) (x : List K) (lc : Nat)
    (h : ∀ l < lc, score env fc m x l = score env fc m' x l) : ∀ (k l : Nat), l + k ≤ lc → scoresFrom env fc m x l k = scoresFrom env fc m' x l k
  | 0, _, _ => rfl
  | k + 1, l, hk => by
      simp only [scoresFrom, h l (by omega), scoresFrom_same env fc m m' x lc h k (l + 1) (by omega)]

/-- **C142** The predictions and scores depend only on the weighted collection of the training points: not on their order, and not on how the weight of
a point is divided between repetitions of the point. -/
theorem C142_weighted {lc fc : Nat} (sm : K) (es ds : List (Ex K)) (hv : ∀ e ∈ es, e.Fits lc fc) (hv' : ∀ e ∈ ds, e.Fits lc fc)
    (hw : ∀ e ∈ es, 0 ≤ e.w) (hw' : ∀ e ∈ ds, 0 ≤ e.w) (h : SameWeighted es ds) :
    ∃ m m', run fc (new lc fc sm) es = .ok m ∧ run fc (new lc fc sm) ds = .ok m' ∧
      ∀ env x, fc ≤ x.length → predict env lc fc m x = predict env lc fc m' x := by
  obtain ⟨m, h1, _⟩ := run_new sm es hv
  obtain ⟨m', h2, _⟩ := run_new sm ds hv'
  refine ⟨m, m', h1, h2, fun env x hx => ?_⟩
  have := scoresFrom_same env fc m m' x lc (fun l hl => score_same sm hv hv' hw hw' h env x hx h1 h2 hl) lc 0 (by omega)
  simp only [predict, this]

/-- **C142** A point of weight `n` counts like `n` points of weight 1, whenever they come; so does any division of a weight. -/
theorem C142_repetition (es ds : List (Ex K)) (x : List K) (label : Nat) (ws : List K) :
    SameWeighted (es ++ ⟨x, label, ws.sum⟩ :: ds) (es ++ ws.map (fun w => ⟨x, label, w⟩) ++ ds) := by
  intro φ
  simp only [List.map_append, List.sum_append, List.map_cons, List.sum_cons, List.map_map, Function.comp_def]
  have : (ws.map (fun w => w * φ label x)).sum = ws.sum * φ label x := by
    induction ws with
    | nil => simp
    | cons w ws ih => simp only [List.map_cons, List.sum_cons, ih, add_mul]
  rw [this]; ring

/-- **C142** A point of weight 0 counts for nothing. -/
theorem C142_zero_weight (es ds : List (Ex K)) (x : List K) (label : Nat) : SameWeighted (es ++ ⟨x, label, 0⟩ :: ds) (es ++ ds) := by
  have := C142_repetition es ds x label []
  simpa using this

/-- **C142** The order of the points does not matter. -/
theorem C142_order (es ds : List (Ex K)) (h : es.Perm ds) : SameWeighted es ds := fun _ => (h.map _).sum_eq

/-- the hypotheses are met; the two histories leave different objects with the same predictions -/
example : (∀ e ∈ [(⟨[1], 0, 3⟩ : Ex ℚ), ⟨[5], 1, 0⟩, ⟨[2], 0, 1⟩], e.Fits 2 1) ∧
    SameWeighted [(⟨[1], 0, 3⟩ : Ex ℚ), ⟨[5], 1, 0⟩, ⟨[2], 0, 1⟩] [⟨[1], 0, 1⟩, ⟨[1], 0, 2⟩, ⟨[2], 0, 1⟩] ∧
    (run 1 (new 2 1 0) [(⟨[1], 0, 3⟩ : Ex ℚ), ⟨[5], 1, 0⟩, ⟨[2], 0, 1⟩]) ≠ run 1 (new 2 1 0) [⟨[1], 0, 1⟩, ⟨[1], 0, 2⟩, ⟨[2], 0, 1⟩] := by
  refine ⟨by simp [Ex.Fits], ?_, by decide +kernel⟩
  intro φ
  simp only [List.map_cons, List.map_nil, List.sum_cons, List.sum_nil]
  ring

end Weights

end Orp.Bayes
