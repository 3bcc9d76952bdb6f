import Verif.Bayes.Lemmas
import Mathlib.Analysis.SpecialFunctions.Log.Basic
import Mathlib.Analysis.SpecialFunctions.Sqrt

/-!
Properties C37–C39 of naive Bayes.

`Ex.Fits lc fc e`: the example has a label below `lc` and at least `fc` features.
-/

set_option linter.unusedSectionVars false

namespace Orp.Bayes

variable {K : Type} [Field K] [LinearOrder K] [IsStrictOrderedRing K]

/-- **C37** After any sequence of (value, positive weight) the estimator holds the sum of the weights, the weighted mean
and the weighted sum of squared deviations from the mean. (Weights may also be zero.) -/
theorem C37_mean_and_variance (ps : List (K × K)) (h : ∀ p ∈ ps, 0 ≤ p.2) (e : Est K)
    (he : e = ps.foldl (fun e p => e.train p.1 p.2) Est.new) :
    e.weightSum = (ps.map (fun p => p.2)).sum ∧
    e.mean * (ps.map (fun p => p.2)).sum = (ps.map (fun p => p.2 * p.1)).sum ∧
    e.varianceSum = (ps.map (fun p => p.2 * (p.1 - e.mean) ^ 2)).sum := by
  subst he; exact estOf_eq ps h

example : (⟨6, 100 / 3, 8 / 3⟩ : Est ℚ) = [(1, 1), (5, 3), ((0 : ℚ), 2)].foldl (fun e p => e.train p.1 p.2) Est.new := by
  decide +kernel

/-- **C37** for the object: after any training history the estimator of label `l` and feature `f` holds the weighted mean and
squared deviations of the feature `f` of exactly the examples of label `l`. -/
theorem C37_history {lc fc : Nat} (sm : K) (es : List (Ex K)) (hv : ∀ e ∈ es, e.Fits lc fc) (hw : ∀ e ∈ es, 0 ≤ e.w) :
    ∃ m, run fc (new lc fc sm) es = .ok m ∧ ∀ l < lc, ∀ f < fc, ∃ est, m.counters[l * fc + f]? = some est ∧
      est.weightSum = ((es.filter (fun e => e.label = l)).map Ex.w).sum ∧
      est.mean * est.weightSum = ((es.filter (fun e => e.label = l)).map (fun e => e.w * e.x.getD f 0)).sum ∧
      est.varianceSum = ((es.filter (fun e => e.label = l)).map (fun e => e.w * (e.x.getD f 0 - est.mean) ^ 2)).sum := by
  obtain ⟨m, h1, h2⟩ := run_new sm es hv
  refine ⟨m, h1, fun l hl f hf => ⟨_, h2.counters l hl f hf, ?_⟩⟩
  obtain ⟨a, b, c⟩ := estOf_eq (column es l f) (by
    intro p hp
    obtain ⟨e, he, rfl⟩ := List.mem_map.1 hp
    exact hw e (List.mem_filter.1 he).1)
  refine ⟨?_, ?_, ?_⟩
  · rw [a]; simp [wsum, column, Function.comp_def]
  · rw [a, b]; simp [vsum, column, Function.comp_def]
  · rw [c]; simp [sqdev, column, Function.comp_def]

/-- The variance used for the density is the usual unbiased one: with `n ≥ 2` examples of weight 1 it is the sum of
squared deviations divided by `n - 1`, and the density is the one of the normal law with this variance (with the
constant 2.50663 for `sqrt (2 π)`), if this variance is not zero. -/
theorem C37_density (env : Env K) (vs : List K) (hn : 2 ≤ vs.length) (e : Est K)
    (he : e = vs.foldl (fun e v => e.train v 1) Est.new) (x σ : K) (hσ : 0 < σ)
    (hsq : env.sqrt ((vs.map (fun v => (v - vs.sum / vs.length) ^ 2)).sum / (vs.length - 1)) = σ) :
    e.density env x = 1 / (2.50663 * σ) * env.exp (-((x - vs.sum / vs.length) ^ 2 / (2 * σ ^ 2))) := by
  have hfold : e = estOf (vs.map (fun v => (v, 1))) := by
    rw [he, estOf, List.foldl_map]
  obtain ⟨a, b, c⟩ := estOf_eq (vs.map (fun v => (v, (1 : K)))) (by
    intro p hp; obtain ⟨v, _, rfl⟩ := List.mem_map.1 hp; exact zero_le_one)
  rw [← hfold] at a b c
  have hws : wsum (vs.map (fun v => (v, (1 : K)))) = vs.length := by simp [wsum, Function.comp_def]
  have hvs : vsum (vs.map (fun v => (v, (1 : K)))) = vs.sum := by simp [vsum, Function.comp_def]
  have hsd : sqdev e.mean (vs.map (fun v => (v, (1 : K)))) = (vs.map (fun v => (v - e.mean) ^ 2)).sum := by
    simp [sqdev, Function.comp_def]
  rw [hws] at a b
  rw [hvs] at b
  rw [hsd] at c
  have hlen : (2 : K) ≤ vs.length := by exact_mod_cast hn
  have hmean : e.mean = vs.sum / vs.length := by rw [eq_div_iff (by linarith)]; exact b
  rw [hmean] at c
  have h1 : ¬ e.weightSum ≤ 0 := by rw [a]; linarith
  have h2 : e.weightSum > 1 := by rw [a]; linarith
  unfold Est.density
  rw [if_neg h1]
  dsimp only
  rw [if_pos h2, c, a, hsq, if_pos hσ, hmean]
  congr 3
  · norm_num
  · rw [← pow_two, mul_assoc 2 σ σ, ← pow_two]

example : ∃ (env : Env ℚ) (vs : List ℚ) (σ : ℚ), 2 ≤ vs.length ∧ 0 < σ ∧
    env.sqrt ((vs.map (fun v => (v - vs.sum / vs.length) ^ 2)).sum / (vs.length - 1)) = σ :=
  ⟨{ log := fun x => .fin x, sqrt := id, exp := id }, [1, 3], 2, by simp, by norm_num, by norm_num⟩

/-- **C38** Reordering the training examples (positive weights) leads to the same object, so to the same predictions. -/
theorem C38_order_independent {lc fc : Nat} (sm : K) (es ds : List (Ex K)) (hv : ∀ e ∈ es, e.Fits lc fc)
    (hw : ∀ e ∈ es, 0 < e.w) (hp : es.Perm ds) :
    ∃ m, run fc (new lc fc sm) es = .ok m ∧ run fc (new lc fc sm) ds = .ok m ∧
      ∀ env x, ∀ m', run fc (new lc fc sm) ds = .ok m' → predict env lc fc m' x = predict env lc fc m x := by
  obtain ⟨m, h1, h2⟩ := run_new sm es hv
  obtain ⟨m', h3, h4⟩ := run_new sm ds (fun e he => hv e (hp.mem_iff.2 he))
  have := holds_ext h2 h4 hp hw
  subst this
  exact ⟨m, h1, h3, fun env x m' h => by rw [h3] at h; cases h; rfl⟩

example : (run 1 (new 2 1 0) [⟨[1], 0, 1⟩, ⟨[5], 1, 2⟩, ⟨[2], 0, (3 : ℚ)⟩]) =
    (run 1 (new 2 1 0) [⟨[2], 0, (3 : ℚ)⟩, ⟨[1], 0, 1⟩, ⟨[5], 1, 2⟩]) := by decide +kernel

/-- **C38** Training an example of one label changes neither the estimators nor the weight of another label. -/
theorem C38_per_label {lc fc : Nat} (m : Model K) (hc : m.counters.length = lc * fc) (hl : m.labelWeights.length = lc)
    (e : Ex K) (he : e.Fits lc fc) :
    ∃ m', train fc m e.x e.label e.w = .ok m' ∧ ∀ l < lc, l ≠ e.label →
      m'.labelWeights[l]? = m.labelWeights[l]? ∧ ∀ f < fc, m'.counters[l * fc + f]? = m.counters[l * fc + f]? := by
  obtain ⟨h1, hx⟩ := he
  have hc' : (e.label + 1) * fc ≤ m.counters.length := by rw [hc]; exact Nat.mul_le_mul_right _ h1
  obtain ⟨c', a1, a2, a3⟩ := trainLoop_spec fc e.x e.label e.w hx fc 0 m.counters (by omega) hc'
  have hl' : e.label < m.labelWeights.length := by rw [hl]; exact h1
  refine ⟨_, by simp only [train, a1, rd_ok hl', wr_ok _ hl', bind, Except.bind, pure, Except.pure]; rfl, ?_⟩
  intro l hll hne
  refine ⟨List.getElem?_set_ne (Ne.symm hne), fun f hf => ?_⟩
  show c'[l * fc + f]? = _
  rw [a3, if_neg]
  rintro ⟨b1, b2⟩
  rcases Nat.lt_or_gt_of_ne hne with h4 | h4
  · have : (l + 1) * fc ≤ e.label * fc := Nat.mul_le_mul_right _ h4
    have h5 : (l + 1) * fc = l * fc + fc := by ring
    omega
  · have : (e.label + 1) * fc ≤ l * fc := Nat.mul_le_mul_right _ h4
    have h5 : (e.label + 1) * fc = e.label * fc + fc := by ring
    omega

/-! ### C39 -/

/-- What is expected of the external functions: `log` is finite for positive numbers and `-inf` at zero, `exp` is not
negative. -/
def Env.Ok (env : Env K) : Prop :=
  (∀ x, 0 < x → ∃ y, env.log x = .fin y) ∧ env.log 0 = .ninf ∧ ∀ x, 0 ≤ env.exp x

/-- the real functions -/
noncomputable def realEnv : Env ℝ where
  log x := if 0 < x then .fin (Real.log x) else if x = 0 then .ninf else .nan
  sqrt := Real.sqrt
  exp := Real.exp

theorem realEnv_ok : realEnv.Ok :=
  ⟨fun x hx => ⟨_, by simp only [realEnv, if_pos hx]; rfl⟩, by simp [realEnv], fun x => (Real.exp_pos x).le⟩

theorem density_nonneg {env : Env K} (henv : env.Ok) (e : Est K) (v : K) : 0 ≤ e.density env v := by
  unfold Est.density
  by_cases h : e.weightSum ≤ 0
  · rw [if_pos h]
  · rw [if_neg h]
    dsimp only
    generalize env.sqrt (if e.weightSum > 1 then e.varianceSum / (e.weightSum - 1) else 0) = σ
    split
    · exact mul_nonneg (by positivity) (henv.2.2 _)
    · split
      · exact zero_le_one
      · exact le_rfl

/-- a score is finite or minus infinity -/
def Proper (s : Dbl K) : Prop := s = .ninf ∨ ∃ y, s = .fin y

theorem proper_log {env : Env K} (henv : env.Ok) {x : K} (hx : 0 ≤ x) : Proper (env.log x) := by
  rcases hx.eq_or_lt with rfl | hx
  · exact .inl henv.2.1
  · exact .inr (henv.1 x hx)

theorem proper_add {a b : Dbl K} (ha : Proper a) (hb : Proper b) : Proper (a.add b) := by
  rcases ha with rfl | ⟨x, rfl⟩ <;> rcases hb with rfl | ⟨y, rfl⟩
  · exact .inl rfl
  · exact .inl rfl
  · exact .inl rfl
  · exact .inr ⟨_, rfl⟩

theorem ninf_add {b : Dbl K} (hb : Proper b) : Dbl.add .ninf b = .ninf := by
  rcases hb with rfl | ⟨y, rfl⟩ <;> rfl

theorem scoreLoop_proper {env : Env K} (henv : env.Ok) {fc : Nat} {m : Model K} {x : List K} {l : Nat} :
    ∀ (k f : Nat) (acc s : Dbl K), Proper acc → scoreLoop env fc m x l f k acc = .ok s →
      Proper s ∧ (acc = .ninf → s = .ninf)
  | 0, f, acc, s, ha, h => by
      simp only [scoreLoop, Except.ok.injEq] at h; subst h; exact ⟨ha, id⟩
  | k + 1, f, acc, s, ha, h => by
      simp only [scoreLoop, bind, Except.bind] at h
      cases h1 : rd m.counters (l * fc + f) with
      | error e => rw [h1] at h; cases h
      | ok e =>
          rw [h1] at h
          cases h2 : rd x f with
          | error e => rw [h2] at h; cases h
          | ok v =>
              rw [h2] at h
              have hp := proper_log henv (density_nonneg henv e v)
              obtain ⟨i1, i2⟩ := scoreLoop_proper henv k (f + 1) _ s (proper_add ha hp) h
              exact ⟨i1, fun h0 => i2 (by rw [h0, ninf_add hp])⟩

theorem sum_w_nonneg {es : List (Ex K)} (hw : ∀ e ∈ es, 0 < e.w) : 0 ≤ (es.map Ex.w).sum :=
  List.sum_nonneg (by
    intro x hx; obtain ⟨e, he, rfl⟩ := List.mem_map.1 hx; exact (hw e he).le)

theorem sum_w_pos {es : List (Ex K)} (hw : ∀ e ∈ es, 0 < e.w) (hne : es ≠ []) : 0 < (es.map Ex.w).sum := by
  obtain ⟨e, es', rfl⟩ := List.exists_cons_of_ne_nil hne
  have h1 := hw e (by simp)
  have h2 := sum_w_nonneg (es := es') (fun d hd => hw d (by simp [hd]))
  simp only [List.map_cons, List.sum_cons]; linarith

theorem score_proper {env : Env K} (henv : env.Ok) {lc fc : Nat} {sm : K} {m : Model K} {es : List (Ex K)} (h : Holds lc fc sm m es)
    (hw : ∀ e ∈ es, 0 < e.w) (hne : es ≠ []) {x : List K} {l : Nat} (hl : l < lc) {s : Dbl K} (hs : score env fc m x l = .ok s) :
    Proper s ∧ ((∀ e ∈ es, e.label ≠ l) → s = .ninf) := by
  simp only [score, rd_eq_ok_iff.2 (h.weights l hl), bind, Except.bind, h.total] at hs
  have htot := sum_w_pos hw hne
  have hlw : 0 ≤ ((es.filter (fun e => e.label = l)).map Ex.w).sum :=
    sum_w_nonneg (fun e he => hw e (List.mem_filter.1 he).1)
  have hdiv : Dbl.div (.fin (((es.filter (fun e => e.label = l)).map Ex.w).sum)) (.fin ((es.map Ex.w).sum)) =
      .fin (((es.filter (fun e => e.label = l)).map Ex.w).sum / (es.map Ex.w).sum) := by
    simp only [Dbl.div, if_neg htot.ne']
  rw [hdiv] at hs
  obtain ⟨h1, h2⟩ := scoreLoop_proper henv _ _ _ s (proper_log henv (div_nonneg hlw htot.le)) hs
  refine ⟨h1, fun hno => h2 ?_⟩
  have : es.filter (fun e => e.label = l) = [] := by
    rw [List.filter_eq_nil_iff]; intro e he; simpa using hno e he
  simp only [this, List.map_nil, List.sum_nil, zero_div]
  exact henv.2.1

/-- **C39** After at least one example (positive weights) `predict` returns a label in range whose score is maximal, the
smallest such label; the scores handed out are those of the labels. -/
theorem C39_predicts_best {lc fc : Nat} (hlc : 1 ≤ lc) (sm : K) (es : List (Ex K)) (hv : ∀ e ∈ es, e.Fits lc fc)
    (hw : ∀ e ∈ es, 0 < e.w) (hne : es ≠ []) (env : Env K) (henv : env.Ok) (x : List K) (hx : fc ≤ x.length) :
    ∃ m l scores a, run fc (new lc fc sm) es = .ok m ∧ predict env lc fc m x = .ok (l, scores) ∧
      scores.length = lc ∧ (∀ j < lc, ∃ b, scores[j]? = some b ∧ score env fc m x j = .ok b) ∧
      l < lc ∧ scores[l]? = some a ∧ (∀ b ∈ scores, b.le a = true) ∧
      (∀ j < l, ∀ b, scores[j]? = some b → b.lt a = true) := by
  obtain ⟨m, h1, h2⟩ := run_new sm es hv
  obtain ⟨ss, s1, s2, s3⟩ := scoresFrom_ok h2 env hx lc 0 (by omega)
  have hnan : ∀ s ∈ ss, s ≠ Dbl.nan := by
    intro s hs
    obtain ⟨j, hj, rfl⟩ := List.getElem_of_mem hs
    obtain ⟨s', b1, b2⟩ := s3 j (by omega)
    rw [List.getElem?_eq_getElem hj] at b1
    cases b1
    rcases (score_proper henv h2 hw hne (by omega) b2).1 with h | ⟨y, h⟩ <;> rw [h] <;> simp
  have h0 : FirstMax ss 1 0 := by
    refine ⟨by omega, ss[0]'(by omega), List.getElem?_eq_getElem _, ?_, by simp⟩
    intro j hj b hb
    have : j = 0 := by omega
    subst this
    rw [List.getElem?_eq_getElem (by omega)] at hb
    cases hb
    exact Dbl.le_refl (hnan _ (List.getElem_mem _))
  obtain ⟨r, r1, r2, a, r3, r4, r5⟩ := argmaxLoop_spec ss hnan (lc - 1) 1 0 (by omega) h0
  refine ⟨m, r, ss, a, h1, ?_, s2, ?_, by omega, r3, ?_, r5⟩
  · simp only [predict, s1, r1, bind, Except.bind, pure, Except.pure]
  · intro j hj
    obtain ⟨b, b1, b2⟩ := s3 j hj
    exact ⟨b, b1, by rw [← b2]; congr 1; omega⟩
  · intro b hb
    obtain ⟨j, hj, rfl⟩ := List.getElem_of_mem hb
    exact r4 j hj _ (List.getElem?_eq_getElem hj)

/-- **C39** The score of label `l` is the logarithm of its share of the training weight plus the logarithms of the densities,
at the query's features, of the estimators of `l` (those of C37, trained on the examples of label `l`). -/
theorem C39_score {lc fc : Nat} (sm : K) (es : List (Ex K)) (hv : ∀ e ∈ es, e.Fits lc fc)
    (env : Env K) (x : List K) (hx : fc ≤ x.length) {m : Model K} (hrun : run fc (new lc fc sm) es = .ok m) {l : Nat} (hl : l < lc) :
    score env fc m x l = .ok ((List.range fc).foldl
      (fun acc f => acc.add (env.log
        ((((es.filter (fun e => e.label = l)).map (fun e => (e.x.getD f 0, e.w))).foldl (fun e p => e.train p.1 p.2) Est.new).density
          env (x.getD f 0))))
      (logD env (Dbl.div (.fin ((es.filter (fun e => e.label = l)).map Ex.w).sum) (.fin (es.map Ex.w).sum)))) := by
  obtain ⟨m', h1, h2⟩ := run_new sm es hv
  rw [hrun] at h1; cases h1
  simp only [score, rd_eq_ok_iff.2 (h2.weights l hl), bind, Except.bind, h2.total]
  generalize logD env (Dbl.div (.fin ((es.filter (fun e => e.label = l)).map Ex.w).sum) (.fin (es.map Ex.w).sum)) = acc
  have hloop : ∀ k f acc, f + k = fc → scoreLoop env fc m x l f k acc = .ok ((List.range' f k).foldl
      (fun acc f => acc.add (env.log ((estOf (column es l f)).density env (x.getD f 0)))) acc) := by
    intro k
    induction k with
    | zero => intro f acc _; rfl
    | succ k ih =>
        intro f acc hf
        have hxf : x[f]? = some (x.getD f 0) := by
          have : f < x.length := by omega
          simp [this]
        simp only [scoreLoop, rd_eq_ok_iff.2 (h2.counters l hl f (by omega)), rd_eq_ok_iff.2 hxf, bind, Except.bind,
          ih (f + 1) _ (by omega), List.range'_succ, List.foldl_cons]
  rw [hloop fc 0 acc (by omega), List.range_eq_range']
  rfl

/-- **C39** If some label has a finite score, the label returned has been trained. -/
theorem C39_never_unseen {lc fc : Nat} (hlc : 1 ≤ lc) (sm : K) (es : List (Ex K)) (hv : ∀ e ∈ es, e.Fits lc fc)
    (hw : ∀ e ∈ es, 0 < e.w) (hne : es ≠ []) (env : Env K) (henv : env.Ok) (x : List K) (hx : fc ≤ x.length)
    {m : Model K} (hrun : run fc (new lc fc sm) es = .ok m) {l : Nat} {scores : List (Dbl K)}
    (hpred : predict env lc fc m x = .ok (l, scores)) {y : K} (hfin : Dbl.fin y ∈ scores) : ∃ e ∈ es, e.label = l := by
  obtain ⟨m', l', ss, a, a1, a2, a3, a4, a5, a6, a7, a8⟩ := C39_predicts_best hlc sm es hv hw hne env henv x hx
  rw [hrun] at a1; cases a1
  rw [hpred] at a2; cases a2
  by_contra hno
  push Not at hno
  obtain ⟨m'', b1, b2⟩ := run_new sm es hv
  rw [hrun] at b1; cases b1
  obtain ⟨b, c1, c2⟩ := a4 l a5
  rw [a6] at c1; cases c1
  have := (score_proper henv b2 hw hne a5 c2).2 hno
  subst this
  have := a7 _ hfin
  simp [Dbl.le] at this

/-- the hypotheses are met with the real functions -/
example : ∃ (es : List (Ex ℝ)) (m : Model ℝ), es ≠ [] ∧ (∀ e ∈ es, e.Fits 2 1) ∧ (∀ e ∈ es, 0 < e.w) ∧
    run 1 (new 2 1 0) es = .ok m ∧ ∃ l scores, predict realEnv 2 1 m [7] = .ok (l, scores) ∧ Dbl.fin 0 ∈ scores := by
  have hv : ∀ e ∈ [(⟨[7], 1, 1⟩ : Ex ℝ)], e.Fits 2 1 := by simp [Ex.Fits]
  have hw : ∀ e ∈ [(⟨[7], 1, 1⟩ : Ex ℝ)], 0 < e.w := by simp
  obtain ⟨m, l, ss, a, a1, a2, a3, a4, a5, a6, a7, a8⟩ := C39_predicts_best (lc := 2) (fc := 1) (by omega) 0 _ hv hw (by simp)
    realEnv realEnv_ok [7] (by simp)
  refine ⟨_, m, by simp, hv, hw, a1, l, ss, a2, ?_⟩
  obtain ⟨b, b1, b2⟩ := a4 1 (by omega)
  have : b = Dbl.fin 0 := by
    simp [run, train, trainLoop, new, rd, wr, bind, Except.bind, pure, Except.pure, Est.train, Est.new] at a1
    subst a1
    have h10 : ¬ (1 : ℝ) ≤ 0 := by norm_num
    simp [score, scoreLoop, rd, bind, Except.bind, logD, Dbl.div, Est.density, realEnv, Dbl.add, h10] at b2
    exact b2.symm
  subst this
  exact List.mem_of_getElem? b1

/-- Without any training all scores are NaN and label 0 is returned. -/
theorem C39_no_training {lc fc : Nat} (hlc : 1 ≤ lc) (sm : K) (env : Env K) (x : List K) (hx : fc ≤ x.length) :
    ∃ scores, predict env lc fc (new lc fc sm) x = .ok (0, scores) ∧ ∀ s ∈ scores, s = Dbl.nan := by
  have h2 := holds_new lc fc sm
  obtain ⟨ss, s1, s2, s3⟩ := scoresFrom_ok h2 env hx lc 0 (by omega)
  have hadd : ∀ b : Dbl K, Dbl.add .nan b = .nan := by intro b; cases b <;> rfl
  have hloop : ∀ (l k f : Nat) (s : Dbl K), scoreLoop env fc (new lc fc sm) x l f k .nan = .ok s → s = .nan := by
    intro l k
    induction k with
    | zero => intro f s h; simp only [scoreLoop, Except.ok.injEq] at h; exact h.symm
    | succ k ih =>
        intro f s h
        simp only [scoreLoop, bind, Except.bind, hadd] at h
        cases h1 : rd (new lc fc sm).counters (l * fc + f) with
        | error e => rw [h1] at h; cases h
        | ok e =>
            rw [h1] at h
            cases h3 : rd x f with
            | error e => rw [h3] at h; cases h
            | ok v => rw [h3] at h; exact ih (f + 1) s h
  have hall : ∀ s ∈ ss, s = Dbl.nan := by
    intro s hs
    obtain ⟨j, hj, rfl⟩ := List.getElem_of_mem hs
    obtain ⟨s', b1, b2⟩ := s3 j (by omega)
    rw [List.getElem?_eq_getElem hj] at b1
    cases b1
    simp only [score, rd_eq_ok_iff.2 (h2.weights (0 + j) (by omega)), bind, Except.bind, h2.total] at b2
    have : logD env (Dbl.div (.fin ((List.map Ex.w (List.filter (fun e => decide (e.label = 0 + j)) ([] : List (Ex K)))).sum))
        (.fin ((List.map Ex.w ([] : List (Ex K))).sum))) = Dbl.nan := by
      simp [Dbl.div, Dbl.infOf, logD]
    rw [this] at b2
    exact hloop _ _ _ _ b2
  refine ⟨ss, ?_, hall⟩
  have hnan : ss[0]? = some Dbl.nan := by
    rw [List.getElem?_eq_getElem (show 0 < ss.length by omega), hall _ (List.getElem_mem _)]
  simp only [predict, s1, argmaxLoop_nan ss hnan (lc - 1) 1 (by omega), bind, Except.bind, pure, Except.pure]

/-- The condition on finite scores is needed: a label that was never trained is returned when the query equals no training
point of labels with constant features (all scores are `-inf`). -/
theorem C39_unseen_returned : ∃ m, run 1 (new 2 1 0) [(⟨[5], 1, 1⟩ : Ex ℝ)] = .ok m ∧
    ∃ scores, predict realEnv 2 1 m [7] = .ok (0, scores) := by
  obtain ⟨m, h⟩ : ∃ m, run 1 (new 2 1 0) [(⟨[5], 1, 1⟩ : Ex ℝ)] = .ok m :=
    ⟨_, (run_new 0 _ (by simp [Ex.Fits])).choose_spec.1⟩
  refine ⟨m, h, [.ninf, .ninf], ?_⟩
  simp [run, train, trainLoop, new, rd, wr, bind, Except.bind, pure, Except.pure, Est.train, Est.new] at h
  subst h
  simp [predict, scoresFrom, argmaxLoop, score, scoreLoop, rd, bind, Except.bind, pure, Except.pure, logD, Dbl.div, Est.density,
    realEnv, Dbl.add, Dbl.lt]

/-- **C39** last clause is violated: the smoothing value has no influence on any prediction. -/
theorem C39_smoothing_ignored (env : Env K) (lc fc : Nat) (m : Model K) (v : K) (x : List K) :
    predict env lc fc (setSmoothing m v) x = predict env lc fc m x := by
  have h1 : ∀ (l k f : Nat) (acc : Dbl K), scoreLoop env fc (setSmoothing m v) x l f k acc = scoreLoop env fc m x l f k acc := by
    intro l k
    induction k with
    | zero => intro f acc; rfl
    | succ k ih =>
        intro f acc
        simp only [scoreLoop, bind, Except.bind, ih]
        rfl
  have h2 : ∀ l, score env fc (setSmoothing m v) x l = score env fc m x l := by
    intro l; simp only [score, h1]; rfl
  have h3 : ∀ k l, scoresFrom env fc (setSmoothing m v) x l k = scoresFrom env fc m x l k := by
    intro k
    induction k with
    | zero => intro l; rfl
    | succ k ih => intro l; simp only [scoresFrom, h2, ih]
  simp only [predict, h3]

end Orp.Bayes
