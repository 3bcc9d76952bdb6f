import Verif.Bayes.Props
import Mathlib.Tactic.FieldSimp
import Mathlib.Tactic.IntervalCases

/-!
Naive Bayes with another origin and other units of the features (C102) and other names of the labels (C103).
-/

set_option linter.unusedSectionVars false

namespace Orp.Bayes

variable {K : Type} [Field K] [LinearOrder K] [IsStrictOrderedRing K]

/-! ### Estimators -/

/-- `e'` is the estimator `e` of the values `α * v + β` -/
structure Moved (α β : K) (e e' : Est K) : Prop where
  weight : e'.weightSum = e.weightSum
  var : e'.varianceSum = α * α * e.varianceSum
  mean : 0 < e.weightSum → e'.mean = α * e.mean + β

theorem Moved.train {α β : K} {e e' : Est K} (h : Moved α β e e') (v w : K) : Moved α β (e.train v w) (e'.train (α * v + β) w) := by
  unfold Est.train
  rw [h.weight]
  by_cases hw : e.weightSum > 0
  · rw [if_pos hw, if_pos hw, h.mean hw, h.var]
    exact ⟨rfl, by ring, fun _ => by ring⟩
  · rw [if_neg hw, if_neg hw]
    exact ⟨rfl, by simp, fun _ => rfl⟩

theorem moved_foldl {α β : K} : ∀ (ps : List (K × K)) (e e' : Est K), Moved α β e e' →
    Moved α β (ps.foldl (fun e p => e.train p.1 p.2) e) ((ps.map (fun p => (α * p.1 + β, p.2))).foldl (fun e p => e.train p.1 p.2) e')
  | [], _, _, h => h
  | p :: ps, e, e', h => moved_foldl ps _ _ (h.train p.1 p.2)

theorem moved_estOf (α β : K) (ps : List (K × K)) : Moved α β (estOf ps) (estOf (ps.map (fun p => (α * p.1 + β, p.2)))) :=
  moved_foldl ps _ _ ⟨rfl, by simp [Est.new], fun h => absurd h (by simp [Est.new])⟩

theorem Moved.density_one {β : K} {e e' : Est K} (h : Moved 1 β e e') (env : Env K) (v : K) : e'.density env (1 * v + β) = e.density env v := by
  unfold Est.density
  rw [h.weight, h.var]
  by_cases hw : e.weightSum ≤ 0
  · rw [if_pos hw, if_pos hw]
  · rw [if_neg hw, if_neg hw, h.mean (not_le.1 hw)]
    simp only [one_mul, add_sub_add_right_eq_sub, add_left_inj]

theorem Moved.density_scale {α β : ℝ} (hα : 0 < α) {e e' : Est ℝ} (h : Moved α β e e') (h1 : 1 < e.weightSum) (hv : 0 < e.varianceSum) (v : ℝ) :
    e'.density realEnv (α * v + β) = e.density realEnv v / α ∧ 0 < e.density realEnv v := by
  have hvar : 0 < e.varianceSum / (e.weightSum - 1) := div_pos hv (by linarith)
  have hs : realEnv.sqrt (e.varianceSum / (e.weightSum - 1)) = Real.sqrt (e.varianceSum / (e.weightSum - 1)) := rfl
  have hpos : 0 < Real.sqrt (e.varianceSum / (e.weightSum - 1)) := Real.sqrt_pos.2 hvar
  have hs' : realEnv.sqrt (α * α * e.varianceSum / (e.weightSum - 1)) = α * Real.sqrt (e.varianceSum / (e.weightSum - 1)) := by
    show Real.sqrt _ = _
    rw [mul_div_assoc, Real.sqrt_mul (mul_self_nonneg α), Real.sqrt_mul_self hα.le]
  unfold Est.density
  rw [h.weight, h.var, h.mean (by linarith)]
  have hw : ¬ e.weightSum ≤ 0 := by linarith
  simp only [if_neg hw, if_pos (show e.weightSum > 1 from h1), hs, hs', if_pos (show Real.sqrt (e.varianceSum / (e.weightSum - 1)) > 0 from hpos),
    if_pos (show α * Real.sqrt (e.varianceSum / (e.weightSum - 1)) > 0 from mul_pos hα hpos)]
  generalize Real.sqrt (e.varianceSum / (e.weightSum - 1)) = σ at hpos
  have harg : (α * v + β - (α * e.mean + β)) * (α * v + β - (α * e.mean + β)) / (2 * (α * σ) * (α * σ)) = (v - e.mean) * (v - e.mean) / (2 * σ * σ) := by
    field_simp
    ring
  rw [harg]
  refine ⟨by field_simp, mul_pos (by positivity) (Real.exp_pos _)⟩

/-! ### Points and histories -/

/-- every feature `f` of the point replaced by `a f * v + b f` -/
def move (a b : Nat → K) (x : List K) : List K := x.mapIdx (fun f v => a f * v + b f)

theorem move_getD (a b : Nat → K) (x : List K) {f : Nat} (hf : f < x.length) : (move a b x).getD f 0 = a f * x.getD f 0 + b f := by
  simp [move, List.getD_eq_getElem?_getD, List.getElem?_eq_getElem, hf]

theorem move_fits {lc fc : Nat} (a b : Nat → K) {es : List (Ex K)} (hv : ∀ e ∈ es, e.Fits lc fc) :
    ∀ e ∈ es.map (fun e => { e with x := move a b e.x }), e.Fits lc fc := by
  intro e he
  obtain ⟨d, hd, rfl⟩ := List.mem_map.1 he
  exact ⟨(hv d hd).1, by simpa [move] using (hv d hd).2⟩

theorem move_column {lc fc : Nat} (a b : Nat → K) (l f : Nat) (hf : f < fc) : ∀ es : List (Ex K), (∀ e ∈ es, e.Fits lc fc) →
    column (es.map (fun e => { e with x := move a b e.x })) l f = (column es l f).map (fun p => (a f * p.1 + b f, p.2))
  | [], _ => rfl
  | e :: es, hv => by
      have ih := move_column a b l f hf es (fun d hd => hv d (by simp [hd]))
      have hx := (hv e (by simp)).2
      unfold column at ih ⊢
      by_cases h : e.label = l
      · simp only [List.map_cons, List.filter_cons, h, decide_true, if_true, List.cons.injEq]
        exact ⟨by rw [move_getD a b e.x (by omega)], ih⟩
      · simp only [List.map_cons, List.filter_cons, h, decide_false, Bool.false_eq_true, if_false]
        exact ih

theorem move_weights (a b : Nat → K) (l : Nat) : ∀ es : List (Ex K),
    ((es.map (fun e => { e with x := move a b e.x })).filter (fun e => e.label = l)).map Ex.w = (es.filter (fun e => e.label = l)).map Ex.w
  | [] => rfl
  | e :: es => by
      have ih := move_weights a b l es
      by_cases h : e.label = l
      · simpa [List.filter_cons, h] using ih
      · simpa [List.filter_cons, h] using ih

/-! ### Scores -/

/-- the sum of the logarithms of the densities -/
def logs (env : Env K) (es : List (Ex K)) (x : List K) (l : Nat) (fs : List Nat) (acc : Dbl K) : Dbl K :=
  fs.foldl (fun acc f => acc.add (env.log ((estOf (column es l f)).density env (x.getD f 0)))) acc

theorem score_logs {lc fc : Nat} (sm : K) (es : List (Ex K)) (hv : ∀ e ∈ es, e.Fits lc fc) (env : Env K) (x : List K) (hx : fc ≤ x.length) {m : Model K}
    (hrun : run fc (new lc fc sm) es = .ok m) {l : Nat} (hl : l < lc) :
    score env fc m x l = .ok (logs env es x l (List.range fc)
      (logD env (Dbl.div (.fin ((es.filter (fun e => e.label = l)).map Ex.w).sum) (.fin (es.map Ex.w).sum)))) :=
  C39_score sm es hv env x hx hrun hl

theorem scoresFrom_congr {env : Env K} {fc : Nat} {m m' : Model K} {x x' : List K} : ∀ (k l : Nat),
    (∀ j, l ≤ j → j < l + k → score env fc m' x' j = score env fc m x j) → scoresFrom env fc m' x' l k = scoresFrom env fc m x l k
  | 0, _, _ => rfl
  | k + 1, l, h => by
      simp only [scoresFrom]
      rw [h l (le_refl l) (by omega), scoresFrom_congr k (l + 1) (fun j h1 h2 => h j (by omega) (by omega))]

/-- **C102** Naive Bayes does not depend on the origin of the features: if the offsets `b f` are added to the features `f` of every training example and of the
query, the same label and the same scores result. (Any weights, any functions `log`, `sqrt` and `exp`.) -/
theorem C102_origin {lc fc : Nat} (b : Nat → K) (sm : K) (es : List (Ex K)) (hv : ∀ e ∈ es, e.Fits lc fc) :
    ∃ m m', run fc (new lc fc sm) es = .ok m ∧
      run fc (new lc fc sm) (es.map (fun e => { e with x := e.x.mapIdx (fun f v => v + b f) })) = .ok m' ∧
      ∀ (env : Env K) (x : List K), fc ≤ x.length → predict env lc fc m' (x.mapIdx (fun f v => v + b f)) = predict env lc fc m x := by
  have hmove : ∀ x : List K, x.mapIdx (fun f v => v + b f) = move (fun _ => 1) b x := by intro x; simp [move]
  simp only [hmove]
  have hv' := move_fits (fun _ => 1) b hv
  obtain ⟨m, h1, -⟩ := run_new sm es hv
  obtain ⟨m', h2, -⟩ := run_new sm _ hv'
  refine ⟨m, m', h1, h2, fun env x hx => ?_⟩
  have hx' : fc ≤ (move (fun _ => 1) b x).length := by simpa [move] using hx
  have hs : ∀ l < lc, score env fc m' (move (fun _ => 1) b x) l = score env fc m x l := by
    intro l hl
    rw [score_logs sm _ hv' env _ hx' h2 hl, score_logs sm es hv env x hx h1 hl, move_weights]
    have hall : (List.map Ex.w (List.map (fun e : Ex K => { e with x := move (fun _ => 1) b e.x }) es)) = es.map Ex.w := by
      rw [List.map_map]; rfl
    rw [hall]
    congr 1
    unfold logs
    apply List.foldl_ext
    intro acc f hf
    have hf' : f < fc := List.mem_range.1 hf
    rw [move_column (fun _ => 1) b l f hf' es hv, move_getD _ b x (by omega), (moved_estOf 1 (b f) (column es l f)).density_one]
  unfold predict
  rw [scoresFrom_congr lc 0 (fun j _ hj => hs j (by omega))]

example : ∀ e ∈ [(⟨[1, 2], 0, 1⟩ : Ex ℚ), ⟨[4, 7], 1, 2⟩, ⟨[2, 2], 0, 3⟩], e.Fits 2 2 := by simp [Ex.Fits]

theorem logs_scale {lc fc : Nat} (a b : Nat → ℝ) (ha : ∀ f, 0 < a f) (es : List (Ex ℝ)) (hv : ∀ e ∈ es, e.Fits lc fc) (x : List ℝ) (hx : fc ≤ x.length)
    (l : Nat) (hvary : ∀ f < fc, 1 < (estOf (column es l f)).weightSum ∧ 0 < (estOf (column es l f)).varianceSum) :
    ∀ (fs : List Nat) (y y' c : ℝ), (∀ f ∈ fs, f < fc) → y' = y - c → ∃ z,
      logs realEnv es x l fs (.fin y) = .fin z ∧
      logs realEnv (es.map (fun e => { e with x := move a b e.x })) (move a b x) l fs (.fin y') = .fin (z - (c + (fs.map (fun f => Real.log (a f))).sum))
  | [], y, y', c, _, hy => ⟨y, rfl, by simp [logs, hy]⟩
  | f :: fs, y, y', c, hfs, hy => by
      have hf : f < fc := hfs f (by simp)
      obtain ⟨h1, h2⟩ := hvary f hf
      obtain ⟨d1, d2⟩ := (moved_estOf (a f) (b f) (column es l f)).density_scale (ha f) h1 h2 (x.getD f 0)
      obtain ⟨z, z1, z2⟩ := logs_scale a b ha es hv x hx l hvary fs (y + Real.log ((estOf (column es l f)).density realEnv (x.getD f 0)))
        (y' + Real.log ((estOf (column es l f)).density realEnv (x.getD f 0) / a f)) (c + Real.log (a f)) (fun g hg => hfs g (by simp [hg])) (by
          rw [Real.log_div d2.ne' (ha f).ne', hy]; ring)
      refine ⟨z, ?_, ?_⟩
      · have : realEnv.log ((estOf (column es l f)).density realEnv (x.getD f 0)) = .fin (Real.log ((estOf (column es l f)).density realEnv (x.getD f 0))) := by
          simp only [realEnv]; exact if_pos d2
        simp only [logs, List.foldl_cons, this, Dbl.add]
        exact z1
      · have hp : 0 < (estOf (column es l f)).density realEnv (x.getD f 0) / a f := div_pos d2 (ha f)
        have : realEnv.log ((estOf (column es l f)).density realEnv (x.getD f 0) / a f) = .fin (Real.log ((estOf (column es l f)).density realEnv (x.getD f 0) / a f)) := by
          simp only [realEnv]; exact if_pos hp
        rw [List.map_cons, List.sum_cons, ← add_assoc, ← z2]
        simp only [logs, List.foldl_cons]
        rw [move_column a b l f hf es hv, move_getD a b x (by omega), d1, this]
        rfl

theorem logs_ninf {env : Env K} (henv : env.Ok) (es : List (Ex K)) (x : List K) (l : Nat) : ∀ fs : List Nat, logs env es x l fs .ninf = .ninf
  | [] => rfl
  | f :: fs => by
      have h := logs_ninf henv es x l fs
      simp only [logs, List.foldl_cons] at h ⊢
      rw [ninf_add (proper_log henv (density_nonneg henv _ _))]
      exact h

theorem argmaxLoop_map {ss : List (Dbl K)} {g : Dbl K → Dbl K} (hg : ∀ a b, (g a).lt (g b) = a.lt b) : ∀ (k l best : Nat),
    argmaxLoop (ss.map g) l k best = argmaxLoop ss l k best
  | 0, _, _ => rfl
  | k + 1, l, best => by
      have hrd : ∀ i, rd (ss.map g) i = (rd ss i).map g := by
        intro i
        unfold rd
        rw [List.getElem?_map]
        cases ss[i]? <;> rfl
      simp only [argmaxLoop, hrd]
      cases rd ss best with
      | error e => rfl
      | ok a =>
          cases rd ss l with
          | error e => rfl
          | ok b =>
              simp only [bind, Except.bind, Except.map, hg]
              exact argmaxLoop_map hg k (l + 1) _

theorem scoresFrom_map {env : Env K} {fc : Nat} {m m' : Model K} {x x' : List K} {g : Dbl K → Dbl K} : ∀ (k l : Nat),
    (∀ j, l ≤ j → j < l + k → score env fc m' x' j = (score env fc m x j).map g) → scoresFrom env fc m' x' l k = (scoresFrom env fc m x l k).map (List.map g)
  | 0, _, _ => rfl
  | k + 1, l, h => by
      simp only [scoresFrom]
      rw [h l (le_refl l) (by omega), scoresFrom_map k (l + 1) (fun j h1 h2 => h j (by omega) (by omega))]
      cases score env fc m x l with
      | error e => rfl
      | ok s =>
          cases scoresFrom env fc m x (l + 1) k with
          | error e => rfl
          | ok r => rfl

theorem lt_add_fin (c : K) (a b : Dbl K) : (a.add (.fin c)).lt (b.add (.fin c)) = a.lt b := by
  cases a <;> cases b <;> simp [Dbl.add, Dbl.lt]

/-- the label `l` has training weight greater than 1 and two examples with different values of every feature -/
def Varies (es : List (Ex K)) (fc l : Nat) : Prop :=
  1 < ((es.filter (fun e => e.label = l)).map Ex.w).sum ∧
  ∀ f < fc, ∃ d ∈ es, ∃ e ∈ es, d.label = l ∧ e.label = l ∧ d.x.getD f 0 ≠ e.x.getD f 0

theorem Varies.est {es : List (Ex K)} {fc l : Nat} (h : Varies es fc l) (hw : ∀ e ∈ es, 0 < e.w) {f : Nat} (hf : f < fc) :
    1 < (estOf (column es l f)).weightSum ∧ 0 < (estOf (column es l f)).varianceSum := by
  have hpos : ∀ p ∈ column es l f, 0 < p.2 := by
    intro p hp
    obtain ⟨e, he, rfl⟩ := List.mem_map.1 hp
    exact hw e (List.mem_filter.1 he).1
  obtain ⟨h1, -, h3⟩ := estOf_eq (column es l f) (fun p hp => (hpos p hp).le)
  refine ⟨?_, ?_⟩
  · rw [h1]
    have : wsum (column es l f) = ((es.filter (fun e => e.label = l)).map Ex.w).sum := by
      unfold wsum column
      rw [List.map_map]
      rfl
    rw [this]
    exact h.1
  · rw [h3]
    generalize (estOf (column es l f)).mean = μ
    obtain ⟨d, hd, e, he, d1, e1, hne⟩ := h.2 f hf
    have hex : ∃ p ∈ column es l f, p.1 ≠ μ := by
      by_cases hdm : d.x.getD f 0 = μ
      · exact ⟨(e.x.getD f 0, e.w), List.mem_map.2 ⟨e, List.mem_filter.2 ⟨he, by simpa using e1⟩, rfl⟩, fun hc => hne (hdm.trans hc.symm)⟩
      · exact ⟨(d.x.getD f 0, d.w), List.mem_map.2 ⟨d, List.mem_filter.2 ⟨hd, by simpa using d1⟩, rfl⟩, hdm⟩
    obtain ⟨p, hp, hpm⟩ := hex
    unfold sqdev
    have hnn : ∀ y ∈ (column es l f).map (fun p => p.2 * (p.1 - μ) ^ 2), 0 ≤ y := by
      intro y hy
      obtain ⟨q, hq, rfl⟩ := List.mem_map.1 hy
      exact mul_nonneg (hpos q hq).le (sq_nonneg _)
    have hin : p.2 * (p.1 - μ) ^ 2 ∈ (column es l f).map (fun p => p.2 * (p.1 - μ) ^ 2) := List.mem_map.2 ⟨p, hp, rfl⟩
    have hp0 : 0 < p.2 * (p.1 - μ) ^ 2 := mul_pos (hpos p hp) (by have := sub_ne_zero.2 hpm; positivity)
    exact lt_of_lt_of_le hp0 (List.single_le_sum hnn _ hin)

/-- **C102** If the features of every trained label vary, changing the units of the features `f` by factors `a f > 0` and the origin by `b f` adds the same number
to all scores, so the predicted label is the same. What is missing is the case of a label with a constant feature, or with total weight at most 1, where the
property is false (`C102_units_matter`). -/
theorem C102_units_partial {lc fc : Nat} (hlc : 1 ≤ lc) (a b : Nat → ℝ) (ha : ∀ f, 0 < a f) (sm : ℝ) (es : List (Ex ℝ)) (hv : ∀ e ∈ es, e.Fits lc fc)
    (hw : ∀ e ∈ es, 0 < e.w) (hne : es ≠ []) (hvary : ∀ e ∈ es, Varies es fc e.label) :
    ∃ m m', run fc (new lc fc sm) es = .ok m ∧
      run fc (new lc fc sm) (es.map (fun e => { e with x := e.x.mapIdx (fun f v => a f * v + b f) })) = .ok m' ∧
      ∀ x : List ℝ, fc ≤ x.length → ∃ l scores, predict realEnv lc fc m x = .ok (l, scores) ∧
        predict realEnv lc fc m' (x.mapIdx (fun f v => a f * v + b f)) =
          .ok (l, scores.map (fun s => s.add (.fin (-((List.range fc).map (fun f => Real.log (a f))).sum)))) := by
  have hv' := move_fits a b hv
  obtain ⟨m, h1, hm⟩ := run_new sm es hv
  obtain ⟨m', h2, -⟩ := run_new sm _ hv'
  refine ⟨m, m', h1, h2, fun x hx => ?_⟩
  have hx' : fc ≤ (move a b x).length := by simpa [move] using hx
  set g : Dbl ℝ → Dbl ℝ := fun s => s.add (.fin (-((List.range fc).map (fun f => Real.log (a f))).sum)) with hg
  have htot := sum_w_pos hw hne
  have hs : ∀ l < lc, score realEnv fc m' (move a b x) l = (score realEnv fc m x l).map g := by
    intro l hl
    rw [score_logs sm _ hv' realEnv _ hx' h2 hl, score_logs sm es hv realEnv x hx h1 hl, move_weights]
    have hall : (List.map Ex.w (List.map (fun e : Ex ℝ => { e with x := move a b e.x }) es)) = es.map Ex.w := by
      rw [List.map_map]; rfl
    rw [hall]
    show Except.ok _ = Except.ok (g _)
    congr 1
    by_cases hl' : ∃ e ∈ es, e.label = l
    · obtain ⟨e, he, rfl⟩ := hl'
      have hp : 0 < ((es.filter (fun d => d.label = e.label)).map Ex.w).sum :=
        lt_trans one_pos (hvary e he).1
      have hstart : logD realEnv (Dbl.div (.fin ((es.filter (fun d => d.label = e.label)).map Ex.w).sum) (.fin (es.map Ex.w).sum)) =
          .fin (Real.log (((es.filter (fun d => d.label = e.label)).map Ex.w).sum / (es.map Ex.w).sum)) := by
        simp only [Dbl.div, if_neg htot.ne', logD, realEnv, if_pos (div_pos hp htot)]
      rw [hstart]
      obtain ⟨z, z1, z2⟩ := logs_scale a b ha es hv x hx e.label (fun f hf => (hvary e he).est hw hf) (List.range fc)
        (Real.log (((es.filter (fun d => d.label = e.label)).map Ex.w).sum / (es.map Ex.w).sum)) _ 0 (fun f hf => List.mem_range.1 hf) (sub_zero _).symm
      rw [z1, z2, hg]
      simp only [Dbl.add, zero_add, sub_eq_add_neg]
    · have hempty : es.filter (fun e => e.label = l) = [] := by
        rw [List.filter_eq_nil_iff]
        intro e he
        simpa using fun h => hl' ⟨e, he, h⟩
      have hstart : logD realEnv (Dbl.div (.fin ((es.filter (fun d => d.label = l)).map Ex.w).sum) (.fin (es.map Ex.w).sum)) = .ninf := by
        rw [hempty]
        simp only [List.map_nil, List.sum_nil, Dbl.div, if_neg htot.ne', zero_div, logD]
        exact realEnv_ok.2.1
      rw [hstart, logs_ninf realEnv_ok, logs_ninf realEnv_ok]
      rfl
  obtain ⟨m₀, l, scores, _, k1, k2, -⟩ := C39_predicts_best hlc sm es hv hw hne realEnv realEnv_ok x hx
  rw [h1] at k1
  cases k1
  refine ⟨l, scores, k2, ?_⟩
  show predict realEnv lc fc m' (move a b x) = _
  unfold predict at k2 ⊢
  rw [scoresFrom_map lc 0 (fun j _ hj => hs j (by omega))]
  cases hsc : scoresFrom realEnv fc m x 0 lc with
  | error e => rw [hsc] at k2; cases k2
  | ok ss =>
      rw [hsc] at k2
      simp only [bind, Except.bind, Except.map] at k2 ⊢
      rw [argmaxLoop_map (lt_add_fin _)]
      cases hb : argmaxLoop ss 1 (lc - 1) 0 with
      | error e => rw [hb] at k2; cases k2
      | ok best =>
          rw [hb] at k2
          cases k2
          rfl

example : ∀ e ∈ [(⟨[1, 2], 0, 1⟩ : Ex ℝ), ⟨[4, 7], 1, 2⟩, ⟨[2, 5], 0, 3⟩, ⟨[3, 8], 1, 1⟩], Varies [(⟨[1, 2], 0, 1⟩ : Ex ℝ), ⟨[4, 7], 1, 2⟩, ⟨[2, 5], 0, 3⟩, ⟨[3, 8], 1, 1⟩] 2 e.label := by
  have h0 : Varies [(⟨[1, 2], 0, 1⟩ : Ex ℝ), ⟨[4, 7], 1, 2⟩, ⟨[2, 5], 0, 3⟩, ⟨[3, 8], 1, 1⟩] 2 0 := by
    refine ⟨by norm_num [List.filter_cons], fun f hf => ⟨_, List.mem_cons_self, ⟨[2, 5], 0, 3⟩, by simp, rfl, rfl, ?_⟩⟩
    interval_cases f <;> norm_num
  have h1 : Varies [(⟨[1, 2], 0, 1⟩ : Ex ℝ), ⟨[4, 7], 1, 2⟩, ⟨[2, 5], 0, 3⟩, ⟨[3, 8], 1, 1⟩] 2 1 := by
    refine ⟨by norm_num [List.filter_cons], fun f hf => ⟨⟨[4, 7], 1, 2⟩, by simp, ⟨[3, 8], 1, 1⟩, by simp, rfl, rfl, ?_⟩⟩
    interval_cases f <;> norm_num
  intro e he
  simp only [List.mem_cons, List.not_mem_nil, or_false] at he
  rcases he with rfl | rfl | rfl | rfl
  exacts [h0, h1, h0, h1]

theorem witness_scores (c : ℝ) (hc : 0 < c) : ∃ m, run 1 (new 2 1 0) [(⟨[c * 0], 0, 1⟩ : Ex ℝ), ⟨[c * -1], 1, 1⟩, ⟨[c * 1], 1, 1⟩] = .ok m ∧
    scoresFrom realEnv 1 m [c * 0] 0 2 = .ok [.fin (Real.log (1 / 3)), .fin (Real.log (2 / 3 * (1 / (250663 / 100000 * (c * Real.sqrt 2)))))] := by
  have hr : run 1 (new 2 1 0) [(⟨[c * 0], 0, 1⟩ : Ex ℝ), ⟨[c * -1], 1, 1⟩, ⟨[c * 1], 1, 1⟩] =
      .ok { counters := [⟨1, 0, 0⟩, ⟨2, 2 * (c * c), 0⟩], labelWeights := [1, 2], totalWeights := 3, smoothing := 0 } := by
    simp [run, train, trainLoop, new, rd, wr, bind, Except.bind, pure, Except.pure, Est.train, Est.new]
    norm_num
    ring_nf
  refine ⟨_, hr, ?_⟩
  have hsq : Real.sqrt (2 * (c * c) / (2 - 1)) = c * Real.sqrt 2 := by
    rw [show 2 * (c * c) / (2 - 1) = c * c * 2 by ring, Real.sqrt_mul (mul_self_nonneg c), Real.sqrt_mul_self hc.le]
  have hpos : 0 < c * Real.sqrt 2 := mul_pos hc (Real.sqrt_pos.2 (by norm_num))
  have hd0 : (⟨1, 0, 0⟩ : Est ℝ).density realEnv (c * 0) = 1 := by
    simp [Est.density, realEnv]
  have hd1 : (⟨2, 2 * (c * c), 0⟩ : Est ℝ).density realEnv (c * 0) = 1 / (250663 / 100000 * (c * Real.sqrt 2)) := by
    have h2 : ¬ (2 : ℝ) ≤ 0 := by norm_num
    have h3 : (2 : ℝ) > 1 := by norm_num
    have hsq' : realEnv.sqrt (2 * (c * c) / (2 - 1)) = c * Real.sqrt 2 := hsq
    have hexp : realEnv.exp 0 = 1 := Real.exp_zero
    simp only [Est.density, if_neg h2, if_pos h3, hsq', if_pos (show c * Real.sqrt 2 > 0 from hpos), mul_zero, sub_zero, zero_div, neg_zero, hexp, mul_one]
  have hlog : ∀ y : ℝ, 0 < y → realEnv.log y = .fin (Real.log y) := fun y hy => if_pos hy
  have h3 : (3 : ℝ) ≠ 0 := by norm_num
  simp only [scoresFrom, score, scoreLoop, rd, bind, Except.bind, pure, Except.pure, Dbl.div, if_neg h3, logD]
  simp only [List.getElem?_cons_zero, List.getElem?_cons_succ, Nat.zero_mul, Nat.zero_add, Nat.one_mul, Nat.add_zero, hd0, hd1, hlog 1 one_pos,
    hlog (1 / 3) (by norm_num), hlog (2 / 3) (by norm_num), hlog (1 / (250663 / 100000 * (c * Real.sqrt 2))) (by positivity), Dbl.add]
  rw [Real.log_mul (by norm_num) (by positivity)]
  simp

/-- **C102** The units matter if a label has a constant feature: its density is 1 in all units, while those of the others change. Here dividing all numbers by ten
changes the predicted label. -/
theorem C102_units_matter : ∃ (es : List (Ex ℝ)) (m m' : Model ℝ) (s s' : List (Dbl ℝ)), (∀ e ∈ es, e.Fits 2 1 ∧ e.w = 1) ∧
    run 1 (new 2 1 0) (es.map (fun e => { e with x := e.x.map (fun v => 1 * v) })) = .ok m ∧ predict realEnv 2 1 m ([0].map (fun v => 1 * v)) = .ok (0, s) ∧
    run 1 (new 2 1 0) (es.map (fun e => { e with x := e.x.map (fun v => 1 / 10 * v) })) = .ok m' ∧
    predict realEnv 2 1 m' ([0].map (fun v => 1 / 10 * v)) = .ok (1, s') := by
  obtain ⟨m, h1, h2⟩ := witness_scores 1 one_pos
  obtain ⟨m', h3, h4⟩ := witness_scores (1 / 10) (by norm_num)
  have hs1 : (1 : ℝ) < Real.sqrt 2 := by
    rw [Real.lt_sqrt] <;> norm_num
  have hs2 : Real.sqrt 2 < 3 / 2 := by
    rw [Real.sqrt_lt'] <;> norm_num
  refine ⟨[⟨[0], 0, 1⟩, ⟨[-1], 1, 1⟩, ⟨[1], 1, 1⟩], m, m', [.fin (Real.log (1 / 3)), .fin (Real.log (2 / 3 * (1 / (250663 / 100000 * (1 * Real.sqrt 2)))))],
    [.fin (Real.log (1 / 3)), .fin (Real.log (2 / 3 * (1 / (250663 / 100000 * (1 / 10 * Real.sqrt 2)))))], by simp [Ex.Fits], h1, ?_, h3, ?_⟩
  · simp only [predict, List.map_cons, List.map_nil, h2, bind, Except.bind]
    have : ¬ Real.log (1 / 3) < Real.log (2 / 3 * (1 / (250663 / 100000 * (1 * Real.sqrt 2)))) := by
      rw [not_lt]
      apply Real.log_le_log (by positivity)
      rw [mul_one_div, div_le_div_iff₀ (by positivity) (by norm_num)]
      linarith
    simp only [argmaxLoop, rd, bind, Except.bind, List.getElem?_cons_zero, List.getElem?_cons_succ, Dbl.lt, this, decide_false, pure, Except.pure]
    rfl
  · simp only [predict, List.map_cons, List.map_nil, h4, bind, Except.bind]
    have : Real.log (1 / 3) < Real.log (2 / 3 * (1 / (250663 / 100000 * (1 / 10 * Real.sqrt 2)))) := by
      apply Real.log_lt_log (by norm_num)
      rw [mul_one_div, div_lt_div_iff₀ (by norm_num) (by positivity)]
      linarith
    simp only [argmaxLoop, rd, bind, Except.bind, List.getElem?_cons_zero, List.getElem?_cons_succ, Dbl.lt, this, decide_true, pure, Except.pure]
    rfl

/-! ### Names of the labels -/

theorem rename_column (π : Nat → Nat) (hπ : Function.Injective π) (l f : Nat) : ∀ es : List (Ex K),
    column (es.map (fun e => { e with label := π e.label })) (π l) f = column es l f
  | [] => rfl
  | e :: es => by
      have ih := rename_column π hπ l f es
      unfold column at ih ⊢
      by_cases h : e.label = l
      · simp only [List.map_cons, List.filter_cons, h, decide_true, if_true, List.cons.injEq, true_and]
        exact ih
      · have h' : π e.label ≠ π l := fun hc => h (hπ hc)
        simp only [List.map_cons, List.filter_cons, h, h', decide_false, Bool.false_eq_true, if_false]
        exact ih

theorem rename_weights (π : Nat → Nat) (hπ : Function.Injective π) (l : Nat) : ∀ es : List (Ex K),
    ((es.map (fun e => { e with label := π e.label })).filter (fun e => e.label = π l)).map Ex.w = (es.filter (fun e => e.label = l)).map Ex.w
  | [] => rfl
  | e :: es => by
      have ih := rename_weights π hπ l es
      by_cases h : e.label = l
      · simp only [List.map_cons, List.filter_cons, h, decide_true, if_true, List.map_cons, List.cons.injEq, true_and]
        exact ih
      · have h' : π e.label ≠ π l := fun hc => h (hπ hc)
        simp only [List.map_cons, List.filter_cons, h, h', decide_false, Bool.false_eq_true, if_false]
        exact ih

/-- **C103** Renaming the labels of the training examples by `π` gives each label the score of its old name. -/
theorem C103_scores {lc fc : Nat} (π : Nat → Nat) (hπ : Function.Injective π) (hlt : ∀ l < lc, π l < lc) (sm : K) (es : List (Ex K)) (hv : ∀ e ∈ es, e.Fits lc fc) :
    ∃ m m', run fc (new lc fc sm) es = .ok m ∧ run fc (new lc fc sm) (es.map (fun e => { e with label := π e.label })) = .ok m' ∧
      ∀ (env : Env K) (x : List K), fc ≤ x.length → ∃ k k' s s', predict env lc fc m x = .ok (k, s) ∧ predict env lc fc m' x = .ok (k', s') ∧
        s.length = lc ∧ s'.length = lc ∧ ∀ l < lc, s'[π l]? = s[l]? := by
  have hv' : ∀ e ∈ es.map (fun e => { e with label := π e.label }), e.Fits lc fc := by
    intro e he
    obtain ⟨d, hd, rfl⟩ := List.mem_map.1 he
    exact ⟨hlt _ (hv d hd).1, (hv d hd).2⟩
  obtain ⟨m, h1, hm⟩ := run_new sm es hv
  obtain ⟨m', h2, hm'⟩ := run_new sm _ hv'
  refine ⟨m, m', h1, h2, fun env x hx => ?_⟩
  obtain ⟨s, s1, s2, s3⟩ := scoresFrom_ok hm env hx lc 0 (by omega)
  obtain ⟨s', t1, t2, t3⟩ := scoresFrom_ok hm' env hx lc 0 (by omega)
  have hpred : ∀ (m : Model K) (s : List (Dbl K)), s.length = lc → scoresFrom env fc m x 0 lc = .ok s → ∃ k, predict env lc fc m x = .ok (k, s) := by
    intro m s hs hsc
    unfold predict
    rw [hsc]
    simp only [bind, Except.bind, pure, Except.pure]
    by_cases h0 : lc = 0
    · subst h0
      exact ⟨0, rfl⟩
    · obtain ⟨r, r1, -⟩ := argmaxLoop_range s (lc - 1) 1 0 (by omega) (by omega)
      rw [r1]
      exact ⟨r, rfl⟩
  obtain ⟨k, hk⟩ := hpred m s s2 s1
  obtain ⟨k', hk'⟩ := hpred m' s' t2 t1
  refine ⟨k, k', s, s', hk, hk', s2, t2, fun l hl => ?_⟩
  obtain ⟨u, u1, u2⟩ := s3 l hl
  obtain ⟨w, w1, w2⟩ := t3 (π l) (hlt l hl)
  rw [u1, w1]
  rw [Nat.zero_add, score_logs sm es hv env x hx h1 hl] at u2
  rw [Nat.zero_add, score_logs sm _ hv' env x hx h2 (hlt l hl)] at w2
  have hall : (List.map Ex.w (List.map (fun e : Ex K => { e with label := π e.label }) es)) = es.map Ex.w := by
    rw [List.map_map]; rfl
  have hl : ∀ fs acc, logs env (es.map (fun e => { e with label := π e.label })) x (π l) fs acc = logs env es x l fs acc := by
    intro fs acc
    unfold logs
    simp only [rename_column π hπ]
  rw [rename_weights π hπ, hall, hl, u2] at w2
  cases w2
  rfl

/-- **C103** If one label has a greater score than all others, the label predicted after renaming is its new name. What is missing are queries for which several
labels share the greatest score: the smallest of them is returned, whatever its name (`C103_ties`). -/
theorem C103_rename_partial {lc fc : Nat} (hlc : 1 ≤ lc) (π : Nat → Nat) (hπ : Function.Injective π) (hlt : ∀ l < lc, π l < lc) (sm : K) (es : List (Ex K))
    (hv : ∀ e ∈ es, e.Fits lc fc) (hw : ∀ e ∈ es, 0 < e.w) (hne : es ≠ []) (env : Env K) (henv : env.Ok) (x : List K) (hx : fc ≤ x.length) :
    ∃ m m' k k' s s', run fc (new lc fc sm) es = .ok m ∧ run fc (new lc fc sm) (es.map (fun e => { e with label := π e.label })) = .ok m' ∧
      predict env lc fc m x = .ok (k, s) ∧ predict env lc fc m' x = .ok (k', s') ∧
      ((∀ l < lc, l ≠ k → ∀ u v, s[l]? = some u → s[k]? = some v → u.lt v = true) → k' = π k) := by
  obtain ⟨m, m', h1, h2, h3⟩ := C103_scores π hπ hlt sm es hv
  obtain ⟨k, k', s, s', h4, h5, h6, h7, h8⟩ := h3 env x hx
  refine ⟨m, m', k, k', s, s', h1, h2, h4, h5, fun hbest => ?_⟩
  have hv' : ∀ e ∈ es.map (fun e => { e with label := π e.label }), e.Fits lc fc := by
    intro e he
    obtain ⟨d, hd, rfl⟩ := List.mem_map.1 he
    exact ⟨hlt _ (hv d hd).1, (hv d hd).2⟩
  have hw' : ∀ e ∈ es.map (fun e => { e with label := π e.label }), 0 < e.w := by
    intro e he
    obtain ⟨d, hd, rfl⟩ := List.mem_map.1 he
    exact hw d hd
  obtain ⟨m₁, k₁, s₁, a, a1, a2, -, -, a5, a6, a7, -⟩ := C39_predicts_best hlc sm es hv hw hne env henv x hx
  rw [h1] at a1; cases a1
  rw [h4] at a2; cases a2
  obtain ⟨m₂, k₂, s₂, b, b1, b2, -, -, b5, b6, b7, -⟩ := C39_predicts_best hlc sm _ hv' hw' (by simpa using hne) env henv x hx
  rw [h2] at b1; cases b1
  rw [h5] at b2; cases b2
  by_contra hk
  -- the predicted label is the new name of some label
  have hsurj : ∃ j < lc, π j = k' := by
    have hinj : Function.Injective (fun i : Fin lc => (⟨π i, hlt i i.2⟩ : Fin lc)) := by
      intro i j hij
      exact Fin.ext (hπ (by simpa using hij))
    obtain ⟨i, hi⟩ := (Finite.injective_iff_surjective.1 hinj) ⟨k', b5⟩
    exact ⟨i, i.2, by simpa using congrArg Fin.val hi⟩
  obtain ⟨j, hj, rfl⟩ := hsurj
  have hjk : j ≠ k := fun hc => hk (by rw [hc])
  have hsj : s[j]? = some b := by rw [← h8 j hj]; exact b6
  have hlt' := hbest j hj hjk b a hsj a6
  have hmem : a ∈ s' := by
    have : s'[π k]? = some a := by rw [h8 k a5]; exact a6
    exact List.mem_of_getElem? this
  have hle := b7 a hmem
  revert hlt' hle
  cases a <;> cases b <;> simp [Dbl.lt, Dbl.le]

example : Function.Injective (Equiv.swap 0 1 : Nat → Nat) ∧ (∀ l < 2, Equiv.swap 0 1 l < 2) ∧ ∀ e ∈ [(⟨[1], 0, 1⟩ : Ex ℚ), ⟨[4], 1, 2⟩], e.Fits 2 1 ∧ 0 < e.w := by
  refine ⟨(Equiv.swap 0 1).injective, by decide, by simp [Ex.Fits]⟩

/-- With equal scores the smallest label is returned under any names: exchanging the names of the two labels does not change the prediction. -/
theorem C103_ties : ∃ m m' s s', run 1 (new 2 1 0) [(⟨[5], 0, 1⟩ : Ex ℝ), ⟨[5], 1, 1⟩] = .ok m ∧ predict realEnv 2 1 m [5] = .ok (0, s) ∧
    run 1 (new 2 1 0) ([(⟨[5], 0, 1⟩ : Ex ℝ), ⟨[5], 1, 1⟩].map (fun e => { e with label := 1 - e.label })) = .ok m' ∧ predict realEnv 2 1 m' [5] = .ok (0, s') := by
  have hr : ∀ es : List (Ex ℝ), es = [⟨[5], 0, 1⟩, ⟨[5], 1, 1⟩] ∨ es = [⟨[5], 1, 1⟩, ⟨[5], 0, 1⟩] → run 1 (new 2 1 0) es =
      .ok { counters := [⟨1, 0, 5⟩, ⟨1, 0, 5⟩], labelWeights := [1, 1], totalWeights := 1 + 1, smoothing := 0 } := by
    rintro es (rfl | rfl) <;> simp [run, train, trainLoop, new, rd, wr, bind, Except.bind, pure, Except.pure, Est.train, Est.new]
  have hp : ∃ s, predict realEnv 2 1 { counters := [⟨1, 0, 5⟩, ⟨1, 0, 5⟩], labelWeights := [1, 1], totalWeights := 1 + 1, smoothing := 0 } [5] = .ok (0, s) := by
    refine ⟨[.fin (Real.log (1 / (1 + 1))), .fin (Real.log (1 / (1 + 1)))], ?_⟩
    have h2 : (1 + 1 : ℝ) ≠ 0 := by norm_num
    have h3 : (0 : ℝ) < 1 / (1 + 1) := by norm_num
    have hlog : ∀ y : ℝ, 0 < y → realEnv.log y = .fin (Real.log y) := fun y hy => if_pos hy
    have hd : (⟨1, 0, 5⟩ : Est ℝ).density realEnv 5 = 1 := by simp [Est.density, realEnv]
    simp only [predict, scoresFrom, argmaxLoop, score, scoreLoop, rd, bind, Except.bind, pure, Except.pure, logD, Dbl.div, if_neg h2, hlog _ h3,
      List.getElem?_cons_zero, List.getElem?_cons_succ, Nat.zero_mul, Nat.zero_add, Nat.one_mul, Nat.add_zero, hd, hlog 1 one_pos, Dbl.add, Real.log_one, add_zero,
      Dbl.lt, lt_irrefl, decide_false]
    rfl
  obtain ⟨s, hs⟩ := hp
  exact ⟨_, _, s, s, hr _ (.inl rfl), hs, hr _ (.inr rfl), hs⟩

end Orp.Bayes
