import Verif.Bayes.Model
import Mathlib.Algebra.BigOperators.Group.List.Basic
import Mathlib.Algebra.Order.BigOperators.Group.List
import Mathlib.Data.List.Induction
import Mathlib.Tactic.FieldSimp
import Mathlib.Tactic.Ring
import Mathlib.Tactic.LinearCombination
import Mathlib.Tactic.Linarith
import Mathlib.Tactic.Positivity

/-! Helper lemmas for naive Bayes. -/

set_option linter.unusedSectionVars false

namespace Orp.Bayes

variable {K : Type} [Field K] [LinearOrder K] [IsStrictOrderedRing K]

/-- the estimator after a list of (value, weight) -/
def estOf (ps : List (K × K)) : Est K := ps.foldl (fun e p => e.train p.1 p.2) Est.new

theorem estOf_snoc (ps : List (K × K)) (p : K × K) : estOf (ps ++ [p]) = (estOf ps).train p.1 p.2 := by
  simp [estOf, List.foldl_append]

def wsum (ps : List (K × K)) : K := (ps.map (fun p => p.2)).sum
def vsum (ps : List (K × K)) : K := (ps.map (fun p => p.2 * p.1)).sum
def sqdev (c : K) (ps : List (K × K)) : K := (ps.map (fun p => p.2 * (p.1 - c) ^ 2)).sum

theorem sqdev_shift (ps : List (K × K)) (c d : K) :
    sqdev d ps = sqdev c ps + 2 * (c - d) * (vsum ps - c * wsum ps) + (c - d) ^ 2 * wsum ps := by
  induction ps with
  | nil => simp [sqdev, vsum, wsum]
  | cons p ps ih =>
      simp only [sqdev, vsum, wsum, List.map_cons, List.sum_cons] at ih ⊢
      rw [ih]; ring

theorem wsum_nonneg {ps : List (K × K)} (h : ∀ p ∈ ps, 0 ≤ p.2) : 0 ≤ wsum ps :=
  List.sum_nonneg (by simpa using fun a b hab => h (b, a) hab)

theorem zero_weights {ps : List (K × K)} (h : ∀ p ∈ ps, 0 ≤ p.2) (h0 : wsum ps = 0) : ∀ p ∈ ps, p.2 = 0 := by
  induction ps with
  | nil => simp
  | cons p ps ih =>
      have h1 := h p (by simp)
      have h2 := wsum_nonneg (ps := ps) (fun q hq => h q (by simp [hq]))
      have h3 : p.2 + wsum ps = 0 := by simpa [wsum] using h0
      have : p.2 = 0 := by linarith
      intro q hq
      rcases List.mem_cons.1 hq with rfl | hq
      · exact this
      · exact ih (fun q hq => h q (by simp [hq])) (by linarith) q hq

theorem sums_zero {ps : List (K × K)} (h : ∀ p ∈ ps, p.2 = 0) (c : K) : vsum ps = 0 ∧ sqdev c ps = 0 := by
  induction ps with
  | nil => simp [vsum, sqdev]
  | cons p ps ih =>
      have := ih (fun q hq => h q (by simp [hq]))
      have hp := h p (by simp)
      simp only [vsum, sqdev, List.map_cons, List.sum_cons, hp, zero_mul, zero_add] at this ⊢
      exact this

/-- Welford's recurrence. -/
theorem estOf_eq (ps : List (K × K)) (h : ∀ p ∈ ps, 0 ≤ p.2) :
    (estOf ps).weightSum = wsum ps ∧ (estOf ps).mean * wsum ps = vsum ps ∧
      (estOf ps).varianceSum = sqdev (estOf ps).mean ps := by
  induction ps using List.reverseRecOn with
  | nil => simp [estOf, Est.new, wsum, vsum, sqdev]
  | append_singleton ps p ih =>
      obtain ⟨i1, i2, i3⟩ := ih (fun q hq => h q (by simp [hq]))
      have hp := h p (by simp)
      have hnn := wsum_nonneg (ps := ps) (fun q hq => h q (by simp [hq]))
      have hw : wsum (ps ++ [p]) = wsum ps + p.2 := by simp [wsum]
      have hv : vsum (ps ++ [p]) = vsum ps + p.2 * p.1 := by simp [vsum]
      have hs : ∀ c, sqdev c (ps ++ [p]) = sqdev c ps + p.2 * (p.1 - c) ^ 2 := by intro c; simp [sqdev]
      rw [estOf_snoc]
      unfold Est.train
      by_cases hpos : (estOf ps).weightSum > 0
      · rw [if_pos hpos]
        rw [i1] at hpos
        have hne : wsum ps + p.2 ≠ 0 := by linarith
        simp only [i1]
        refine ⟨hw.symm, ?_, ?_⟩
        · rw [hw, hv, ← i2]; field_simp; ring
        · rw [hs, sqdev_shift ps (estOf ps).mean, ← i2, i3]
          generalize (estOf ps).mean = μ
          generalize hW : wsum ps = W at *
          field_simp
          ring
      · rw [if_neg hpos]
        have h0 : wsum ps = 0 := by rw [i1] at hpos; linarith
        have hz := zero_weights (fun q hq => h q (by simp [hq])) h0
        obtain ⟨z1, z2⟩ := sums_zero hz p.1
        simp only [hw, hv, hs, h0, z1, z2]
        refine ⟨by ring, by ring, by ring⟩

theorem estOf_perm {ps qs : List (K × K)} (hpq : ps.Perm qs) (h : ∀ p ∈ ps, 0 < p.2) : estOf ps = estOf qs := by
  have hq : ∀ p ∈ qs, 0 < p.2 := fun p hp => h p (hpq.mem_iff.2 hp)
  by_cases hne : ps = []
  · subst hne; rw [List.nil_perm.1 hpq]
  · obtain ⟨a1, a2, a3⟩ := estOf_eq ps (fun p hp => (h p hp).le)
    obtain ⟨b1, b2, b3⟩ := estOf_eq qs (fun p hp => (hq p hp).le)
    have hw : wsum ps = wsum qs := (hpq.map _).sum_eq
    have hv : vsum ps = vsum qs := (hpq.map _).sum_eq
    have hs : ∀ c, sqdev c ps = sqdev c qs := fun c => (hpq.map _).sum_eq
    have hpos : 0 < wsum ps := by
      obtain ⟨p, ps', rfl⟩ := List.exists_cons_of_ne_nil hne
      have h1 := h p (by simp)
      have h2 := wsum_nonneg (ps := ps') (fun q hq => (h q (by simp [hq])).le)
      have : wsum (p :: ps') = p.2 + wsum ps' := by simp [wsum]
      linarith
    have hmean : (estOf ps).mean = (estOf qs).mean := by
      rw [← hv, ← a2, ← hw] at b2
      exact (mul_right_cancel₀ hpos.ne' b2).symm
    have hvar : (estOf ps).varianceSum = (estOf qs).varianceSum := by rw [a3, b3, hmean, hs]
    cases h1 : estOf ps
    cases h2 : estOf qs
    simp_all

/-! ### training -/

theorem trainLoop_spec (fc : Nat) (x : List K) (label : Nat) (w : K) (hx : fc ≤ x.length) : ∀ (k i : Nat) (c : List (Est K)),
    i + k = fc → (label + 1) * fc ≤ c.length →
    ∃ c', trainLoop fc x label w i k c = .ok c' ∧ c'.length = c.length ∧
      ∀ j, c'[j]? = if label * fc + i ≤ j ∧ j < label * fc + fc then (c[j]?).map (fun e => e.train (x.getD (j - label * fc) 0) w)
        else c[j]?
  | 0, i, c, hk, _ => ⟨c, rfl, rfl, fun j => by rw [if_neg]; omega⟩
  | k + 1, i, c, hk, hc => by
      have hmul : (label + 1) * fc = label * fc + fc := by ring
      have hi : i < x.length := by omega
      have hci : label * fc + i < c.length := by omega
      obtain ⟨c', h1, h2, h3⟩ := trainLoop_spec fc x label w hx k (i + 1)
        (c.set (label * fc + i) (c[label * fc + i].train x[i] w)) (by omega) (by simpa using hc)
      refine ⟨c', ?_, by simpa using h2, ?_⟩
      · simp only [trainLoop, rd_ok hi, rd_ok hci, wr_ok _ hci, bind, Except.bind, h1]
      · intro j
        rw [h3 j]
        by_cases hj : j = label * fc + i
        · subst hj
          rw [if_neg (by omega), if_pos (by omega), List.getElem?_set_self hci]
          simp [hci, hi]
        · have hiff : (label * fc + (i + 1) ≤ j ∧ j < label * fc + fc) ↔ (label * fc + i ≤ j ∧ j < label * fc + fc) := by omega
          simp only [hiff, List.getElem?_set_ne (Ne.symm hj)]

/-- an example that fits the template parameters -/
def Ex.Fits (lc fc : Nat) (e : Ex K) : Prop := e.label < lc ∧ fc ≤ e.x.length

/-- values of feature `f` and weights of the examples of label `l`, in order -/
def column (es : List (Ex K)) (l f : Nat) : List (K × K) :=
  (es.filter (fun e => e.label = l)).map (fun e => (e.x.getD f 0, e.w))

/-- state of the object after the examples `es` -/
structure Holds (lc fc : Nat) (sm : K) (m : Model K) (es : List (Ex K)) : Prop where
  clen : m.counters.length = lc * fc
  llen : m.labelWeights.length = lc
  counters : ∀ l < lc, ∀ f < fc, m.counters[l * fc + f]? = some (estOf (column es l f))
  weights : ∀ l < lc, m.labelWeights[l]? = some (((es.filter (fun e => e.label = l)).map Ex.w).sum)
  total : m.totalWeights = (es.map Ex.w).sum
  smoothing : m.smoothing = sm

theorem holds_new (lc fc : Nat) (sm : K) : Holds lc fc sm (new lc fc sm) [] := by
  refine ⟨by simp [new], by simp [new], ?_, ?_, by simp [new], rfl⟩
  · intro l hl f hf
    have : l * fc + f < lc * fc := by
      have : (l + 1) * fc ≤ lc * fc := Nat.mul_le_mul_right _ hl
      have h2 : (l + 1) * fc = l * fc + fc := by ring
      omega
    simp [new, this, column, estOf]
  · intro l hl; simp [new, hl]

theorem index_lt {l lc f fc : Nat} (hl : l < lc) (hf : f < fc) : l * fc + f < lc * fc := by
  have : (l + 1) * fc ≤ lc * fc := Nat.mul_le_mul_right _ hl
  have h2 : (l + 1) * fc = l * fc + fc := by ring
  omega

theorem train_holds {lc fc : Nat} {sm : K} {m : Model K} {es : List (Ex K)} (h : Holds lc fc sm m es) (e : Ex K)
    (he : e.Fits lc fc) : ∃ m', train fc m e.x e.label e.w = .ok m' ∧ Holds lc fc sm m' (es ++ [e]) := by
  obtain ⟨hl, hx⟩ := he
  have hc : (e.label + 1) * fc ≤ m.counters.length := by rw [h.clen]; exact Nat.mul_le_mul_right _ hl
  obtain ⟨c', h1, h2, h3⟩ := trainLoop_spec fc e.x e.label e.w hx fc 0 m.counters (by omega) hc
  have hl' : e.label < m.labelWeights.length := by rw [h.llen]; exact hl
  refine ⟨{ m with
    counters := c'
    labelWeights := m.labelWeights.set e.label (m.labelWeights[e.label] + e.w)
    totalWeights := m.totalWeights + e.w }, ?_, ?_⟩
  · simp only [train, h1, rd_ok hl', wr_ok _ hl', bind, Except.bind, pure, Except.pure]
  · refine ⟨by rw [← h.clen]; exact h2, by simpa using h.llen, ?_, ?_, by simp [h.total], h.smoothing⟩
    · intro l hll f hf
      show c'[l * fc + f]? = _
      rw [h3, h.counters l hll f hf]
      by_cases hel : e.label = l
      · subst hel
        rw [if_pos (by omega)]
        have : column (es ++ [e]) e.label f = column es e.label f ++ [(e.x.getD f 0, e.w)] := by simp [column]
        rw [this, estOf_snoc]
        simp
      · have hout : ¬ (e.label * fc + 0 ≤ l * fc + f ∧ l * fc + f < e.label * fc + fc) := by
          rintro ⟨a1, a2⟩
          rcases Nat.lt_or_gt_of_ne hel with h4 | h4
          · have : (e.label + 1) * fc ≤ l * fc := Nat.mul_le_mul_right _ h4
            have h5 : (e.label + 1) * fc = e.label * fc + fc := by ring
            omega
          · have : (l + 1) * fc ≤ e.label * fc := Nat.mul_le_mul_right _ h4
            have h5 : (l + 1) * fc = l * fc + fc := by ring
            omega
        rw [if_neg hout]
        have : column (es ++ [e]) l f = column es l f := by simp [column, hel]
        rw [this]
    · intro l hll
      show (m.labelWeights.set e.label (m.labelWeights[e.label] + e.w))[l]? = _
      by_cases hel : e.label = l
      · subst hel
        have := h.weights e.label hl
        rw [List.getElem?_eq_getElem hl'] at this
        rw [List.getElem?_set_self hl']
        simp only [Option.some.injEq] at this
        rw [this]; simp
      · rw [List.getElem?_set_ne hel, h.weights l hll]
        simp [hel]

theorem run_holds {lc fc : Nat} {sm : K} (es : List (Ex K)) : ∀ (m : Model K) (ds : List (Ex K)), Holds lc fc sm m ds →
    (∀ e ∈ es, e.Fits lc fc) → ∃ m', run fc m es = .ok m' ∧ Holds lc fc sm m' (ds ++ es) := by
  induction es with
  | nil => intro m ds h _; exact ⟨m, rfl, by simpa using h⟩
  | cons e es ih =>
      intro m ds h hv
      obtain ⟨m1, h1, h2⟩ := train_holds h e (hv e (by simp))
      obtain ⟨m2, h3, h4⟩ := ih m1 (ds ++ [e]) h2 (fun e he => hv e (by simp [he]))
      exact ⟨m2, by simp only [run, h1, h3, bind, Except.bind], by simpa using h4⟩

theorem run_new {lc fc : Nat} (sm : K) (es : List (Ex K)) (hv : ∀ e ∈ es, e.Fits lc fc) :
    ∃ m, run fc (new lc fc sm) es = .ok m ∧ Holds lc fc sm m es := by
  simpa using run_holds es _ _ (holds_new lc fc sm) hv

theorem holds_ext {lc fc : Nat} {sm : K} {m m' : Model K} {es ds : List (Ex K)} (h : Holds lc fc sm m es)
    (h' : Holds lc fc sm m' ds) (hp : es.Perm ds) (hw : ∀ e ∈ es, 0 < e.w) : m = m' := by
  have h1 : m.counters = m'.counters := by
    apply List.ext_getElem?
    intro j
    by_cases hj : j < lc * fc
    · have hfc : 0 < fc := Nat.pos_of_ne_zero (by rintro rfl; simp at hj)
      have hl : j / fc < lc := Nat.div_lt_of_lt_mul (by rw [Nat.mul_comm]; exact hj)
      have hf : j % fc < fc := Nat.mod_lt _ hfc
      have hjj : j / fc * fc + j % fc = j := by rw [Nat.mul_comm]; exact Nat.div_add_mod j fc
      have a := h.counters _ hl _ hf
      have b := h'.counters _ hl _ hf
      rw [hjj] at a b
      rw [a, b]
      congr 1
      apply estOf_perm ((hp.filter _).map _)
      intro p hpm
      obtain ⟨e, he, rfl⟩ := List.mem_map.1 hpm
      exact hw e (List.mem_filter.1 he).1
    · rw [List.getElem?_eq_none (by rw [h.clen]; omega), List.getElem?_eq_none (by rw [h'.clen]; omega)]
  have h2 : m.labelWeights = m'.labelWeights := by
    apply List.ext_getElem?
    intro j
    by_cases hj : j < lc
    · rw [h.weights j hj, h'.weights j hj]
      congr 1
      exact ((hp.filter _).map _).sum_eq
    · rw [List.getElem?_eq_none (by rw [h.llen]; omega), List.getElem?_eq_none (by rw [h'.llen]; omega)]
  have h3 : m.totalWeights = m'.totalWeights := by rw [h.total, h'.total]; exact (hp.map _).sum_eq
  have h4 : m.smoothing = m'.smoothing := by rw [h.smoothing, h'.smoothing]
  cases m; cases m'; simp_all

/-! ### prediction -/

theorem scoreLoop_ok {lc fc : Nat} {sm : K} {m : Model K} {es : List (Ex K)} (h : Holds lc fc sm m es) (env : Env K) {x : List K}
    (hx : fc ≤ x.length) {l : Nat} (hl : l < lc) : ∀ (k f : Nat) (acc : Dbl K), f + k = fc →
    ∃ s, scoreLoop env fc m x l f k acc = .ok s
  | 0, _, acc, _ => ⟨acc, rfl⟩
  | k + 1, f, acc, hk => by
      have h1 : l * fc + f < m.counters.length := by rw [h.clen]; exact index_lt hl (by omega)
      obtain ⟨s, hs⟩ := scoreLoop_ok h env hx hl k (f + 1)
        (acc.add (env.log (m.counters[l * fc + f].density env (x[f]'(by omega))))) (by omega)
      exact ⟨s, by simp only [scoreLoop, rd_ok h1, rd_ok (show f < x.length by omega), bind, Except.bind, hs]⟩

theorem score_ok {lc fc : Nat} {sm : K} {m : Model K} {es : List (Ex K)} (h : Holds lc fc sm m es) (env : Env K) {x : List K}
    (hx : fc ≤ x.length) {l : Nat} (hl : l < lc) : ∃ s, score env fc m x l = .ok s := by
  have h1 : l < m.labelWeights.length := by rw [h.llen]; exact hl
  obtain ⟨s, hs⟩ := scoreLoop_ok h env hx hl fc 0 (logD env (Dbl.div (.fin m.labelWeights[l]) (.fin m.totalWeights))) (by omega)
  exact ⟨s, by simp only [score, rd_ok h1, bind, Except.bind, hs]⟩

theorem scoresFrom_ok {lc fc : Nat} {sm : K} {m : Model K} {es : List (Ex K)} (h : Holds lc fc sm m es) (env : Env K) {x : List K}
    (hx : fc ≤ x.length) : ∀ (k l : Nat), l + k = lc →
    ∃ ss, scoresFrom env fc m x l k = .ok ss ∧ ss.length = k ∧
      ∀ j < k, ∃ s, ss[j]? = some s ∧ score env fc m x (l + j) = .ok s
  | 0, _, _ => ⟨[], rfl, rfl, by simp⟩
  | k + 1, l, hk => by
      obtain ⟨s, hs⟩ := score_ok h env hx (show l < lc by omega)
      obtain ⟨ss, h1, h2, h3⟩ := scoresFrom_ok h env hx k (l + 1) (by omega)
      refine ⟨s :: ss, by simp only [scoresFrom, hs, h1, bind, Except.bind, pure, Except.pure], by simp [h2], ?_⟩
      intro j hj
      cases j with
      | zero => exact ⟨s, rfl, hs⟩
      | succ j =>
          obtain ⟨s', a, b⟩ := h3 j (by omega)
          exact ⟨s', by simpa using a, by rw [← b]; congr 1; omega⟩

/-- `best` is the position of the first maximum among the first `l` -/
def FirstMax (ss : List (Dbl K)) (l best : Nat) : Prop :=
  best < l ∧ ∃ a, ss[best]? = some a ∧ (∀ j < l, ∀ b, ss[j]? = some b → b.le a = true) ∧
    (∀ j < best, ∀ b, ss[j]? = some b → b.lt a = true)

theorem argmaxLoop_spec (ss : List (Dbl K)) (hnan : ∀ s ∈ ss, s ≠ Dbl.nan) : ∀ (k l best : Nat), l + k = ss.length →
    FirstMax ss l best → ∃ r, argmaxLoop ss l k best = .ok r ∧ FirstMax ss ss.length r
  | 0, l, best, hk, h => ⟨best, rfl, by rwa [← hk]⟩
  | k + 1, l, best, hk, h => by
      obtain ⟨h1, a, h2, h3, h4⟩ := h
      have hl : l < ss.length := by omega
      have hb : ss[l]? = some ss[l] := List.getElem?_eq_getElem hl
      have hna := hnan a (List.mem_of_getElem? h2)
      have hnb := hnan _ (List.getElem_mem hl)
      have hstep : argmaxLoop ss l (k + 1) best = argmaxLoop ss (l + 1) k (if a.lt ss[l] then l else best) := by
        simp only [argmaxLoop, rd_eq_ok_iff.2 h2, rd_ok hl, bind, Except.bind]
      rw [hstep]
      apply argmaxLoop_spec ss hnan k (l + 1) _ (by omega)
      by_cases hlt : a.lt ss[l] = true
      · rw [if_pos hlt]
        refine ⟨by omega, _, hb, ?_, ?_⟩
        · intro j hj b hbj
          rcases Nat.lt_succ_iff_lt_or_eq.1 hj with hj | rfl
          · exact Dbl.le_trans (h3 j hj b hbj) (Dbl.le_of_lt hlt)
          · rw [hb] at hbj; cases hbj; exact Dbl.le_refl hnb
        · intro j hj b hbj
          exact Dbl.lt_of_le_of_lt (h3 j hj b hbj) hlt
      · rw [if_neg hlt]
        refine ⟨by omega, a, h2, ?_, h4⟩
        intro j hj b hbj
        rcases Nat.lt_succ_iff_lt_or_eq.1 hj with hj | rfl
        · exact h3 j hj b hbj
        · rw [hb] at hbj; cases hbj
          exact Dbl.le_of_not_lt hna hnb (by simpa using hlt)

/-- whatever the scores, the result is in range and `argmaxLoop` succeeds -/
theorem argmaxLoop_range (ss : List (Dbl K)) : ∀ (k l best : Nat), l + k = ss.length → best < ss.length →
    ∃ r, argmaxLoop ss l k best = .ok r ∧ r < ss.length
  | 0, l, best, hk, h => ⟨best, rfl, h⟩
  | k + 1, l, best, hk, h => by
      have hl : l < ss.length := by omega
      have hstep : argmaxLoop ss l (k + 1) best = argmaxLoop ss (l + 1) k (if (ss[best]).lt ss[l] then l else best) := by
        simp only [argmaxLoop, rd_ok h, rd_ok hl, bind, Except.bind]
      rw [hstep]
      apply argmaxLoop_range ss k (l + 1) _ (by omega)
      split <;> omega

theorem argmaxLoop_nan (ss : List (Dbl K)) {best : Nat} (h : ss[best]? = some Dbl.nan) : ∀ (k l : Nat), l + k = ss.length →
    argmaxLoop ss l k best = .ok best
  | 0, _, _ => rfl
  | k + 1, l, hk => by
      have hl : l < ss.length := by omega
      simp only [argmaxLoop, rd_eq_ok_iff.2 h, rd_ok hl, bind, Except.bind, Dbl.lt_nan_left]
      exact argmaxLoop_nan ss h k (l + 1) (by omega)

end Orp.Bayes
