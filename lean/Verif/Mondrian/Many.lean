import Verif.Mondrian.BatchPredictProps
import Mathlib.Probability.Moments.SubGaussian

/-!
The votes of Mondrian trees are bounded, and the votes of many independent trees are close to the expected vote.
-/

set_option linter.unusedSectionVars false

namespace Orp.Mondrian

open MeasureTheory Orp.Reservoir

variable {F L : Nat}

/-! ### The votes are bounded -/

/-- times between 0 and the lifetime, at most `h` splits above a leaf -/
def Tame (life : ℝ) : Nat → Tree ℝ F L → Prop
  | _, .leaf _ d => 0 ≤ d.tau ∧ d.tau ≤ life
  | 0, .node _ _ _ _ _ _ => False
  | h + 1, .node _ d _ _ l r => (0 ≤ d.tau ∧ d.tau ≤ life) ∧ Tame life h l ∧ Tame life h r

theorem Tame.mono {life : ℝ} : ∀ {t : Tree ℝ F L} {h h' : Nat}, h ≤ h' → Tame life h t → Tame life h' t
  | .leaf _ _, h, h', _, ht => by cases h <;> cases h' <;> exact ht
  | .node _ _ _ _ l r, 0, _, _, ht => by cases ht
  | .node _ _ _ _ l r, h + 1, 0, hle, _ => by omega
  | .node _ _ _ _ l r, h + 1, h' + 1, hle, ht => ⟨ht.1, ht.2.1.mono (by omega), ht.2.2.mono (by omega)⟩

theorem Tame.recount {life : ℝ} : ∀ {t : Tree ℝ F L} {h : Nat}, Tame life h t → Tame life h t.recount
  | .leaf _ _, _, ht => ht
  | .node _ _ _ _ l r, 0, ht => ht
  | .node _ _ _ _ l r, h + 1, ht => ⟨ht.1, ht.2.1.recount, ht.2.2.recount⟩

theorem Right.tame {life : ℝ} (hlife : 0 ≤ life) : ∀ {t : Tree ℝ F L} {pts : List (Point ℝ F L)} {ptau : ℝ}, 0 ≤ ptau → Right pts t → Times (· ≤ ·) life ptau t →
    Tame life pts.length t
  | .leaf _ d, pts, ptau, _, _, ht => by
      have e : d.tau = life := ht
      have : Tame life 0 (.leaf (F := F) (L := L) ‹_› d) := ⟨by rw [e]; exact hlife, e.le⟩
      exact this.mono (Nat.zero_le _)
  | .node _ d dim sp l r, pts, ptau, hp, hr, ht => by
      have h1 := List.length_pos_of_ne_nil hr.2.1.ne_nil
      have h2 := List.length_pos_of_ne_nil hr.2.2.ne_nil
      have h3 : (pts.filter (fun z => z.1 dim ≤ sp)).length + (pts.filter (fun z => ¬ z.1 dim ≤ sp)).length = pts.length := by
        have := List.length_eq_length_filter_add (l := pts) (fun z => decide (z.1 dim ≤ sp))
        rw [this]
        congr 2
        exact List.filter_congr fun z _ => decide_not
      have h0 : 0 ≤ d.tau := le_trans hp ht.1
      have hl := hr.2.1.tame hlife h0 ht.2.2.1
      have hr' := hr.2.2.tame hlife h0 ht.2.2.2
      obtain ⟨m, hm⟩ : ∃ m, pts.length = m + 1 := ⟨pts.length - 1, by omega⟩
      rw [hm]
      exact ⟨⟨h0, ht.2.1.le⟩, hl.mono (by omega), hr'.mono (by omega)⟩

/-- the bound of the posterior means grows with the depth -/
noncomputable def meanUp (p : Params ℝ) (B : ℝ) : ℝ := 1 + Real.exp (p.discount * p.lifetime) + Real.exp (p.discount * p.lifetime) * B

/-- the bound of the votes -/
noncomputable def voteBound (p : Params ℝ) : Nat → ℝ → ℝ
  | 0, B => (1 + B) + meanUp p B
  | h + 1, B => (1 + B) + meanUp p B + voteBound p h (meanUp p B)

theorem meanUp_nonneg (p : Params ℝ) {B : ℝ} (hB : 0 ≤ B) : 0 ≤ meanUp p B := by
  unfold meanUp; positivity

theorem voteBound_nonneg (p : Params ℝ) : ∀ (h : Nat) {B : ℝ}, 0 ≤ B → 0 ≤ voteBound p h B
  | 0, B, hB => by have := meanUp_nonneg p hB; unfold voteBound; linarith
  | h + 1, B, hB => by
      have h1 := meanUp_nonneg p hB
      have h2 := voteBound_nonneg p h h1
      unfold voteBound; linarith

theorem voteBound_leaf (p : Params ℝ) (h : Nat) {B : ℝ} (hB : 0 ≤ B) : (1 + B) + meanUp p B ≤ voteBound p h B := by
  cases h with
  | zero => exact le_rfl
  | succ h =>
      have := voteBound_nonneg p h (meanUp_nonneg p hB)
      unfold voteBound; linarith

theorem meanOf_bound {p : Params ℝ} (hexp : p.exp = Real.exp) (hdisc : 0 ≤ p.discount) (d : Data ℝ F L) {ptau B : ℝ} (ht0 : 0 ≤ d.tau) (ht : d.tau ≤ p.lifetime) (hpt : 0 ≤ ptau)
    (hB : 0 ≤ B) {pm : Fin L → ℝ} (hpm : ∀ l, |pm l| ≤ B) (l : Fin L) : |meanOf p d ptau pm l| ≤ meanUp p B := by
  have hD1 : (1 : ℝ) ≤ Real.exp (p.discount * p.lifetime) := Real.one_le_exp (mul_nonneg hdisc (ht0.trans ht))
  simp only [meanOf, hexp]
  have hd : Real.exp (p.discount * (d.tau - ptau)) ≤ Real.exp (p.discount * p.lifetime) :=
    Real.exp_le_exp.2 (mul_le_mul_of_nonneg_left (by linarith) hdisc)
  set D := Real.exp (p.discount * p.lifetime) with hDdef
  set e := Real.exp (p.discount * (d.tau - ptau)) with he
  have he0 : 0 < e := Real.exp_pos _
  have hDp : 0 < D := Real.exp_pos _
  split
  · rename_i hc
    have htab : ∀ i, ((Utils.min (d.counts i) 1 : Nat) : ℝ) ≤ d.counts i := fun i => by
      rw [min_eq]; exact_mod_cast Nat.min_le_left _ _
    have htab1 : ((Utils.min (d.counts l) 1 : Nat) : ℝ) = 1 := by rw [min_eq, Nat.min_eq_right hc, Nat.cast_one]
    have hS : (d.counts l : ℝ) ≤ ∑ i, (d.counts i : ℝ) :=
      Finset.single_le_sum (f := fun i => (d.counts i : ℝ)) (fun i _ => Nat.cast_nonneg _) (Finset.mem_univ l)
    have hc1 : (1 : ℝ) ≤ d.counts l := by exact_mod_cast hc
    have hSp : 0 < ∑ i, (d.counts i : ℝ) := by linarith
    have hT : ∑ i, ((Utils.min (d.counts i) 1 : Nat) : ℝ) ≤ ∑ i, (d.counts i : ℝ) := Finset.sum_le_sum fun i _ => htab i
    have hT0 : 0 ≤ ∑ i, ((Utils.min (d.counts i) 1 : Nat) : ℝ) := Finset.sum_nonneg fun i _ => Nat.cast_nonneg _
    have h1 : |((d.counts l : ℝ) - e * ((Utils.min (d.counts l) 1 : Nat) : ℝ)) / ∑ i, (d.counts i : ℝ)| ≤ 1 + D := by
      rw [abs_div, abs_of_pos hSp, div_le_iff₀ hSp, htab1, mul_one]
      have h2 : |(d.counts l : ℝ) - e| ≤ d.counts l + D := by
        rw [abs_le]; constructor <;> linarith
      have h3 : D ≤ D * ∑ i, (d.counts i : ℝ) := le_mul_of_one_le_right hDp.le (hc1.trans hS)
      calc _ ≤ _ := h2
        _ ≤ _ := by rw [add_mul, one_mul]; exact add_le_add hS h3
    have h2 : |e * (∑ i, ((Utils.min (d.counts i) 1 : Nat) : ℝ)) * pm l / ∑ i, (d.counts i : ℝ)| ≤ D * B := by
      rw [abs_div, abs_of_pos hSp, div_le_iff₀ hSp, abs_mul, abs_of_nonneg (mul_nonneg he0.le hT0)]
      calc _ ≤ (D * ∑ i, (d.counts i : ℝ)) * B :=
            mul_le_mul (mul_le_mul hd hT hT0 hDp.le) (hpm l) (abs_nonneg _) (mul_nonneg hDp.le hSp.le)
        _ = _ := by ring
    refine (abs_add_le _ _).trans ?_
    unfold meanUp
    linarith
  · unfold meanUp
    have := le_mul_of_one_le_left hB hD1
    linarith [hpm l]

/-- the discount of the hypothetical node is between 0 and 1 -/
theorem hypo_bound {e g t : ℝ} (he : 0 ≤ e) (hg : 0 ≤ g) (ht : 0 ≤ t) (h1 : e + g ≠ 0) (h2 : -(Real.exp (-(e * t)) - 1) ≠ 0) :
    0 ≤ (e / (e + g)) * -(Real.exp (-(e + g) * t) - 1) / -(Real.exp (-(e * t)) - 1) ∧
      (e / (e + g)) * -(Real.exp (-(e + g) * t) - 1) / -(Real.exp (-(e * t)) - 1) ≤ 1 := by
  have hs : 0 < e + g := lt_of_le_of_ne (add_nonneg he hg) (Ne.symm h1)
  have hu : Real.exp (-(e * t)) ≤ 1 := Real.exp_le_one_iff.2 (by have := mul_nonneg he ht; linarith)
  have hu2 : 0 < -(Real.exp (-(e * t)) - 1) := lt_of_le_of_ne (by linarith) (Ne.symm h2)
  have hv : Real.exp (-(e + g) * t) ≤ 1 := Real.exp_le_one_iff.2 (by have := mul_nonneg hs.le ht; linarith)
  refine ⟨div_nonneg (mul_nonneg (div_nonneg he hs.le) (by linarith)) hu2.le, ?_⟩
  rw [div_le_one hu2, div_mul_eq_mul_div, div_le_iff₀ hs]
  have h3 : Real.exp (-(e + g) * t) = Real.exp (-(e * t)) * Real.exp (-(g * t)) := by
    rw [← Real.exp_add]; congr 1; ring
  rw [h3]
  have h4 : 1 - Real.exp (-(g * t)) ≤ g * t := by
    have := Real.add_one_le_exp (-(g * t)); linarith
  have h5 : e * t * Real.exp (-(e * t)) ≤ 1 - Real.exp (-(e * t)) := by
    have h6 := Real.add_one_le_exp (e * t)
    have h7 : Real.exp (e * t) * Real.exp (-(e * t)) = 1 := by rw [← Real.exp_add]; simp
    have h8 := mul_le_mul_of_nonneg_right h6 (Real.exp_pos (-(e * t))).le
    rw [h7] at h8
    linarith
  have h9 : e * Real.exp (-(e * t)) * (1 - Real.exp (-(g * t))) ≤ e * Real.exp (-(e * t)) * (g * t) :=
    mul_le_mul_of_nonneg_left h4 (mul_nonneg he (Real.exp_pos _).le)
  have h10 : g * (e * t * Real.exp (-(e * t))) ≤ g * (1 - Real.exp (-(e * t))) := mul_le_mul_of_nonneg_left h5 hg
  nlinarith

theorem smooth_bound {p : Params ℝ} (hexp : p.exp = Real.exp) (hdisc : 0 ≤ p.discount) (node : Node ℝ F L) {pb dt et ns B M : ℝ} (hpb : pb ≤ 1) (hdt : 0 ≤ dt)
    (het : 0 ≤ et) (hns0 : 0 ≤ ns) (hns1 : ns ≤ 1) (hB : 0 ≤ B) {pm sm : Fin L → ℝ} (hpm : ∀ l, |pm l| ≤ B) (hsm : ∀ l, |sm l| ≤ M) {v : Fin L → ℝ}
    (h : smooth p node pb dt et ns pm sm = .ok v) (l : Fin L) : |v l| ≤ M + (1 + B) := by
  unfold smooth at h
  split at h
  · rename_i hp
    simp only at h
    split at h
    · cases h
    · rename_i hne
      push Not at hne
      obtain ⟨n1, n2, n3⟩ := hne
      rw [← Except.ok.inj h]
      simp only
      rw [hexp] at n2 ⊢
      obtain ⟨a1, a2⟩ := hypo_bound het hdisc hdt n1 n2
      set q := (et / (et + p.discount)) * -(Real.exp (-(et + p.discount) * dt) - 1) / -(Real.exp (-(et * dt)) - 1) with hq
      set c := ((Utils.min (node.counts l) 1 : Nat) : ℝ) with hc
      set S := ∑ l, ((Utils.min (node.counts l) 1 : Nat) : ℝ) with hS
      have hc0 : 0 ≤ c := Nat.cast_nonneg _
      have hcS : c ≤ S := Finset.single_le_sum (f := fun l => ((Utils.min (node.counts l) 1 : Nat) : ℝ)) (fun i _ => Nat.cast_nonneg _) (Finset.mem_univ l)
      have hSp : 0 < S := lt_of_le_of_ne (hc0.trans hcS) (Ne.symm n3)
      have e1 : (1 / S) * (c - q * c + S * pm l) = (c / S) * (1 - q) + pm l := by field_simp
      rw [e1]
      have b1 : |(c / S) * (1 - q) + pm l| ≤ 1 + B := by
        refine (abs_add_le _ _).trans (add_le_add ?_ (hpm l))
        rw [abs_of_nonneg (mul_nonneg (div_nonneg hc0 hSp.le) (by linarith))]
        exact mul_le_one₀ ((div_le_one hSp).2 hcS) (by linarith) (by linarith)
      have b2 : |ns * pb * ((c / S) * (1 - q) + pm l)| ≤ 1 + B := by
        rw [abs_mul, abs_of_nonneg (mul_nonneg hns0 hp.le)]
        exact (mul_le_of_le_one_left (abs_nonneg _) (mul_le_one₀ hns1 hp.le hpb)).trans b1
      exact (abs_add_le _ _).trans (add_le_add (hsm l) b2)
  · rw [← Except.ok.inj h]
    have := hsm l
    linarith

theorem scores_bound {p : Params ℝ} (hexp : p.exp = Real.exp) (hdisc : 0 ≤ p.discount) (x : Fin F → ℝ) : ∀ {t : Tree ℝ F L} {h : Nat} {ptau ns B M : ℝ} {pm sm v : Fin L → ℝ},
    Tame p.lifetime h t → 0 ≤ ptau → 0 ≤ ns → ns ≤ 1 → 0 ≤ B → (∀ l, |pm l| ≤ B) → (∀ l, |sm l| ≤ M) → scores p x t ptau ns pm sm = .ok v →
    ∀ l, |v l| ≤ M + voteBound p h B
  | .leaf _ d, h, ptau, ns, B, M, pm, sm, v, ht, hpt, hns0, hns1, hB, hpm, hsm, hs, l => by
      have htau : 0 ≤ d.tau ∧ d.tau ≤ p.lifetime := by cases h <;> exact ht
      simp only [scores, bind, Except.bind] at hs
      split at hs
      · cases hs
      · rename_i v' hv'
        rw [← Except.ok.inj hs]
        simp only
        have hpb : 0 ≤ p.exp (-(d.tau - 0) * eta d.box x) := by rw [hexp]; exact (Real.exp_pos _).le
        have hpb1 : p.exp (-(d.tau - 0) * eta d.box x) ≤ 1 := by
          rw [hexp, Real.exp_le_one_iff]
          have := mul_nonneg htau.1 (eta_nonneg d.box x)
          linarith
        have b1 := smooth_bound hexp hdisc _ (by linarith) (by linarith [htau.1]) (eta_nonneg d.box x) hns0 hns1 hB hpm hsm hv' l
        have b2 := meanOf_bound hexp hdisc d htau.1 htau.2 hpt hB hpm l
        have b3 : |ns * (1 - (1 - p.exp (-(d.tau - 0) * eta d.box x))) * meanOf p d ptau pm l| ≤ meanUp p B := by
          rw [abs_mul, sub_sub_cancel, abs_of_nonneg (mul_nonneg hns0 hpb)]
          exact (mul_le_of_le_one_left (abs_nonneg _) (mul_le_one₀ hns1 hpb hpb1)).trans b2
        have b4 := voteBound_leaf p h hB
        refine (abs_add_le _ _).trans ?_
        linarith
  | .node _ d dim sp a b, 0, ptau, ns, B, M, pm, sm, v, ht, hpt, hns0, hns1, hB, hpm, hsm, hs, l => by cases ht
  | .node _ d dim sp a b, h + 1, ptau, ns, B, M, pm, sm, v, ht, hpt, hns0, hns1, hB, hpm, hsm, hs, l => by
      obtain ⟨htau, hta, htb⟩ := ht
      simp only [scores, bind, Except.bind] at hs
      split at hs
      · cases hs
      · rename_i v' hv'
        have hpb : 0 ≤ p.exp (-(d.tau - 0) * eta d.box x) := by rw [hexp]; exact (Real.exp_pos _).le
        have hpb1 : p.exp (-(d.tau - 0) * eta d.box x) ≤ 1 := by
          rw [hexp, Real.exp_le_one_iff]
          have := mul_nonneg htau.1 (eta_nonneg d.box x)
          linarith
        have b1 := smooth_bound hexp hdisc _ (by linarith) (by linarith [htau.1]) (eta_nonneg d.box x) hns0 hns1 hB hpm hsm hv'
        have b2 := meanOf_bound hexp hdisc d htau.1 htau.2 hpt hB hpm
        have hn0 : 0 ≤ ns * (1 - (1 - p.exp (-(d.tau - 0) * eta d.box x))) := by rw [sub_sub_cancel]; exact mul_nonneg hns0 hpb
        have hn1 : ns * (1 - (1 - p.exp (-(d.tau - 0) * eta d.box x))) ≤ 1 := by rw [sub_sub_cancel]; exact mul_le_one₀ hns1 hpb hpb1
        have hm := meanUp_nonneg p hB
        have key : |v l| ≤ M + (1 + B) + voteBound p h (meanUp p B) := by
          split at hs
          · exact scores_bound hexp hdisc x hta htau.1 hn0 hn1 hm b2 b1 hs l
          · exact scores_bound hexp hdisc x htb htau.1 hn0 hn1 hm b2 b1 hs l
        unfold voteBound
        linarith

/-! ### What is almost sure of a Mondrian tree -/

theorem points_of_trainAll : ∀ zs : List (Point ℝ F L), points (trainAll zs) = zs
  | [] => rfl
  | z :: zs => congrArg (z :: ·) (points_of_trainAll zs)

theorem law_ae {p : Params ℝ} (hlife : 0 ≤ p.lifetime) (hlog : p.log = Real.log) {zs : List (Point ℝ F L)} (hz : zs ≠ []) {P : Tree ℝ F L → Prop}
    (hP : MeasurableSet {t | P t}) (h : ∀ t : Tree ℝ F L, Right zs t → Times (· ≤ ·) p.lifetime 0 t → P t.anon) : ∀ᵐ t ∂mondrianLaw p.lifetime zs, P t := by
  have := mondrianLaw_prob p.lifetime hlife zs hz
  have h1 := trained_law hlife hlog (1 * (2 * zs.length - 1)) 1 hz le_rfl
  have h2 : (mondrianLaw p.lifetime zs) = (draws : Measure (Nat → U01)).map fun ω => trained p (1 * (2 * zs.length - 1)) 1 zs ω 0 := by
    rw [← (measurePreserving_eval (fun _ : Fin 1 => mondrianLaw p.lifetime zs) 0).map_eq, ← h1,
      Measure.map_map (measurable_pi_apply 0) (trained_meas hlog _ 1 zs)]
    rfl
  have hmeas : Measurable fun ω => trained p (1 * (2 * zs.length - 1)) 1 zs ω 0 := (measurable_pi_apply 0).comp (trained_meas hlog _ 1 zs)
  rw [h2, ae_map_iff hmeas.aemeasurable hP]
  filter_upwards [run_ae hlife hlog (1 * (2 * zs.length - 1)) 1 hz le_rfl] with ω hω
  obtain ⟨⟨s, pos⟩, hr⟩ := hω
  obtain ⟨trees, a1, a2, a3⟩ := trained_run hlife hz le_rfl hr
  obtain ⟨trees', lost, b1, -, -, b4⟩ := run_good p hlife (nums ω) (nums_range ω) (· ≤ ·) (fun a b h => h.le) (draw_le (nums_range ω)) _ 1 (trainAll zs) 0 _ hr
  rw [C52_trees_unique b1.all a1] at b4
  obtain ⟨t, e1, e2⟩ := a3 0
  have hg := b4 (some t) (List.mem_of_getElem? e1)
  rw [e2]
  rw [points_of_trainAll] at hg
  exact h t hg.1 hg.2

/-! ### The votes of independent trees -/

/-- the vote of a tree for a label at a place -/
noncomputable def vote (p : Params ℝ) (x : Fin F → ℝ) (l : Fin L) (t : Tree ℝ F L) : ℝ := resVal (treeScores p x (some t.recount)) l

/-- the expected vote of a Mondrian tree that is sampled from scratch for the points -/
noncomputable def expectedVote (p : Params ℝ) (zs : List (Point ℝ F L)) (x : Fin F → ℝ) (l : Fin L) : ℝ := ∫ t, vote p x l t ∂mondrianLaw p.lifetime zs

/-- a bound of the votes that depends on the number of points only -/
noncomputable def maxVote (p : Params ℝ) (m : Nat) : ℝ := voteBound p m |p.base|

theorem treeScores_anon (p : Params ℝ) (x : Fin F → ℝ) (t : Tree ℝ F L) : treeScores p x (some t.anon.recount) = treeScores p x (some t.recount) := by
  simp only [treeScores]
  rw [← scores_anon p x t.anon.recount, ← scores_anon p x t.recount]
  exact congrArg (fun u => scores p x u 0 1 (fun _ => p.base) fun _ => 0) (content_anon t)

theorem vote_meas {p : Params ℝ} (hexp : Measurable p.exp) (x : Fin F → ℝ) (l : Fin L) : Measurable (vote (L := L) p x l) := (treeScores_meas hexp x).2 l

theorem votes_ae {p : Params ℝ} (hlife : 0 ≤ p.lifetime) (hlog : p.log = Real.log) (hexp : p.exp = Real.exp) (hdisc : 0 ≤ p.discount) {zs : List (Point ℝ F L)} (hz : zs ≠ [])
    (x : Fin F → ℝ) : ∀ᵐ t ∂mondrianLaw p.lifetime zs, (∃ v, treeScores p x (some t.recount) = .ok v) ∧ ∀ l, |vote p x l t| ≤ maxVote p zs.length := by
  have hem : Measurable p.exp := by rw [hexp]; exact Real.measurable_exp
  refine law_ae hlife hlog hz ?_ fun t hr ht => ?_
  · have h1 := (treeScores_meas (F := F) (L := L) hem x).1
    have h2 : MeasurableSet {t : Tree ℝ F L | ∀ l, |vote p x l t| ≤ maxVote p zs.length} := by
      rw [Set.ofPred_forall]
      exact MeasurableSet.iInter fun l => measurableSet_le (vote_meas hem x l).abs measurable_const
    exact h1.inter h2
  · obtain ⟨v, hv⟩ : ∃ v, treeScores p x (some t.recount) = .ok v :=
      scores_ok p (by rw [hexp, Real.exp_zero]) hdisc x t.recount _ _ _ _ hr.positive
    refine ⟨⟨v, by rw [treeScores_anon]; exact hv⟩, fun l => ?_⟩
    rw [vote, treeScores_anon, hv]
    have := scores_bound hexp hdisc x (hr.tame hlife le_rfl ht).recount le_rfl zero_le_one le_rfl (abs_nonneg p.base) (fun _ => le_rfl)
      (M := 0) (sm := fun _ => 0) (fun _ => by simp) hv l
    simpa [maxVote, resVal] using this

theorem indexMax_single {v : Fin L → ℝ} {lab : Fin L} (h : ∀ l, l ≠ lab → v l < v lab) : Utils.indexMax (List.ofFn v) = lab := by
  have hne : List.ofFn v ≠ [] := by
    intro h0
    have h1 := congrArg List.length h0
    rw [List.length_ofFn, List.length_nil] at h1
    exact absurd lab.2 (by omega)
  obtain ⟨h1, h2, -⟩ := Utils.C32_index_max (List.ofFn v) hne
  have hlt : Utils.indexMax (List.ofFn v) < L := by simpa using h1
  by_contra hc
  have h3 := h2 (v lab) ((List.mem_ofFn' _ _).2 ⟨lab, rfl⟩)
  rw [List.getElem_ofFn] at h3
  have h4 := h ⟨Utils.indexMax (List.ofFn v), hlt⟩ fun e => hc (congrArg Fin.val e)
  exact absurd h3 (not_le.2 h4)

theorem totals_votes (p : Params ℝ) (x : Fin F → ℝ) : ∀ (ts : List (Tree ℝ F L)) (acc : Fin L → ℝ), (∀ t ∈ ts, ∃ v, treeScores p x (some t.recount) = .ok v) →
    totals p x (ts.map fun t => some t.recount) acc = .ok fun l => acc l + (ts.map (vote p x l)).sum
  | [], acc, _ => by simp [totals]
  | t :: ts, acc, h => by
      obtain ⟨v, hv⟩ := h t (List.mem_cons_self ..)
      simp only [List.map_cons, totals, hv, bind, Except.bind]
      rw [totals_votes p x ts _ fun t ht => h t (List.mem_cons_of_mem _ ht)]
      congr 1
      funext l
      simp only [List.sum_cons, vote, hv, resVal]
      ring

/-- If the trees all answer and the sum of the votes for `lab` is the largest, `lab` is the answer. -/
theorem label_of_votes (p : Params ℝ) (x : Fin F → ℝ) {n : Nat} (hn : 0 < n) (T : Fin n → Tree ℝ F L) (lab : Fin L)
    (h1 : ∀ k, ∃ v, treeScores p x (some (T k).recount) = .ok v) (h2 : ∀ l, l ≠ lab → ∑ k, vote p x l (T k) < ∑ k, vote p x lab (T k)) :
    label p x (recountAll (tupleList T)) = .ok lab.val := by
  have e : recountAll (tupleList T) = (List.ofFn T).map fun t => some t.recount := by
    rw [recountAll, tupleList, List.map_ofFn, List.map_ofFn]; rfl
  have hlen : ((List.ofFn T).map fun t => some t.recount).length = n := by simp
  unfold label
  rw [e, totals_votes p x (List.ofFn T) _ fun t ht => by
    obtain ⟨k, rfl⟩ := (List.mem_ofFn' _ _).1 ht
    exact h1 k, hlen]
  simp only [bind, Except.bind, if_neg hn.ne', pure, Except.pure]
  congr 1
  refine indexMax_single fun l hl => ?_
  have hnp : (0 : ℝ) < n := by exact_mod_cast hn
  rw [div_lt_div_iff_of_pos_right hnp, zero_add, zero_add, List.map_ofFn, List.map_ofFn, List.sum_ofFn, List.sum_ofFn]
  exact h2 l hl

/-- Independent Mondrian trees for the points give the label with the largest expected vote, except with a probability that falls exponentially with the number of
trees. -/
theorem answers_many {p : Params ℝ} (hlife : 0 ≤ p.lifetime) (hlog : p.log = Real.log) (hexp : p.exp = Real.exp) (hdisc : 0 ≤ p.discount) {zs : List (Point ℝ F L)}
    (hz : zs ≠ []) {n : Nat} (hn : 0 < n) (x : Fin F → ℝ) (lab : Fin L) {gap : ℝ} (hgap : 0 < gap)
    (h : ∀ l, l ≠ lab → expectedVote p zs x l + gap ≤ expectedVote p zs x lab) :
    1 - L * Real.exp (-(n * gap ^ 2 / (8 * maxVote p zs.length ^ 2))) ≤ (Measure.pi fun _ : Fin n => mondrianLaw p.lifetime zs).real (Answers p n [(x, lab.val)]) := by
  have hprob := mondrianLaw_prob p.lifetime hlife zs hz
  have hem : Measurable p.exp := by rw [hexp]; exact Real.measurable_exp
  set μ := mondrianLaw p.lifetime zs with hμ
  set B := maxVote p zs.length with hB
  have hB0 : 0 < B := by
    have := voteBound_leaf p zs.length (abs_nonneg p.base)
    have h2 := meanUp_nonneg p (abs_nonneg p.base)
    have h3 := abs_nonneg p.base
    have : (1 : ℝ) ≤ B := by rw [hB, maxVote]; linarith
    linarith
  have hae := votes_ae hlife hlog hexp hdisc hz x
  -- the differences of the votes
  let X : Fin L → Tree ℝ F L → ℝ := fun l t => vote p x l t - vote p x lab t
  have hXm : ∀ l, Measurable (X l) := fun l => (vote_meas hem x l).sub (vote_meas hem x lab)
  have hXb : ∀ l, ∀ᵐ t ∂μ, X l t ∈ Set.Icc (-(2 * B)) (2 * B) := fun l => hae.mono fun t ht => by
    have h1 := abs_le.1 (ht.2 l)
    have h2 := abs_le.1 (ht.2 lab)
    constructor <;> simp only [X] <;> linarith
  have hvi : ∀ l, Integrable (vote (L := L) p x l) μ := fun l =>
    Integrable.of_mem_Icc (-B) B (vote_meas hem x l).aemeasurable (hae.mono fun t ht => abs_le.1 (ht.2 l))
  have hXi : ∀ l, l ≠ lab → ∫ t, X l t ∂μ ≤ -gap := fun l hl => by
    have h1 : ∫ t, X l t ∂μ = expectedVote p zs x l - expectedVote p zs x lab := integral_sub (hvi l) (hvi lab)
    rw [h1]
    linarith [h l hl]
  have htail : ∀ l, l ≠ lab → (Measure.pi fun _ : Fin n => μ).real {T | 0 ≤ ∑ k, X l (T k)} ≤ Real.exp (-(n * gap ^ 2 / (8 * B ^ 2))) := fun l hl => by
    have hnp : (0 : ℝ) < n := by exact_mod_cast hn
    have hsub : ∀ k : Fin n, ProbabilityTheory.HasSubgaussianMGF (fun T : Fin n → Tree ℝ F L => X l (T k) - ∫ t, X l t ∂μ) ((‖2 * B - -(2 * B)‖₊ / 2) ^ 2)
        (Measure.pi fun _ : Fin n => μ) := fun k => by
      have h1 := ProbabilityTheory.hasSubgaussianMGF_of_mem_Icc (μ := Measure.pi fun _ : Fin n => μ) (X := fun T : Fin n → Tree ℝ F L => X l (T k)) (a := -(2 * B)) (b := 2 * B)
        ((hXm l).comp (measurable_pi_apply k)).aemeasurable
        ((measurePreserving_eval (fun _ : Fin n => μ) k).quasiMeasurePreserving.ae (hXb l))
      have h2 : ∫ T : Fin n → Tree ℝ F L, X l (T k) ∂(Measure.pi fun _ : Fin n => μ) = ∫ t, X l t ∂μ := by
        have hmp := measurePreserving_eval (fun _ : Fin n => μ) k
        have h5 := integral_map (μ := Measure.pi fun _ : Fin n => μ) (f := X l) hmp.measurable.aemeasurable (hXm l).aestronglyMeasurable
        rw [hmp.map_eq] at h5
        exact h5.symm
      rw [h2] at h1
      exact h1
    have hind : ProbabilityTheory.iIndepFun (fun (k : Fin n) (T : Fin n → Tree ℝ F L) => X l (T k) - ∫ t, X l t ∂μ) (Measure.pi fun _ : Fin n => μ) :=
      ProbabilityTheory.iIndepFun_pi (X := fun _ t => X l t - ∫ t, X l t ∂μ) fun _ => ((hXm l).sub_const _).aemeasurable
    have h3 := ProbabilityTheory.HasSubgaussianMGF.measure_sum_ge_le_of_iIndepFun hind (s := Finset.univ) (fun k _ => hsub k) (ε := n * gap) (by positivity)
    refine (measureReal_mono (s₂ := _) fun T hT => ?_).trans (h3.trans (Real.exp_le_exp.2 (le_of_eq ?_)))
    · simp only [Set.mem_ofPred_eq, Finset.sum_sub_distrib, Finset.sum_const, Finset.card_univ, Fintype.card_fin, nsmul_eq_mul] at hT ⊢
      have := mul_le_mul_of_nonneg_left (hXi l hl) hnp.le
      linarith
    · have e : ((∑ _k : Fin n, ((‖2 * B - -(2 * B)‖₊ / 2) ^ 2 : NNReal) : NNReal) : ℝ) = n * (2 * B) ^ 2 := by
        simp only [Finset.sum_const, Finset.card_univ, Fintype.card_fin, nsmul_eq_mul, NNReal.coe_mul, NNReal.coe_natCast, NNReal.coe_pow, NNReal.coe_div, coe_nnnorm,
          Real.norm_eq_abs, NNReal.coe_ofNat]
        rw [abs_of_pos (by linarith)]
        ring
      rw [e]
      field_simp
      ring
  -- all trees answer
  have hall : ∀ᵐ T ∂(Measure.pi fun _ : Fin n => μ), ∀ k, ∃ v, treeScores p x (some (T k).recount) = .ok v :=
    ae_all_iff.2 fun k => (measurePreserving_eval (fun _ : Fin n => μ) k).quasiMeasurePreserving.ae (hae.mono fun t ht => ht.1)
  -- the union bound
  have hbad : (Measure.pi fun _ : Fin n => μ).real (Answers (L := L) p n [(x, lab.val)])ᶜ ≤ L * Real.exp (-(n * gap ^ 2 / (8 * B ^ 2))) := by
    have h1 : ((Answers (L := L) p n [(x, lab.val)])ᶜ : Set (Fin n → Tree ℝ F L)) ≤ᵐ[Measure.pi fun _ : Fin n => μ]
        (⋃ l ∈ Finset.univ.filter (· ≠ lab), {T | 0 ≤ ∑ k, X l (T k)} : Set (Fin n → Tree ℝ F L)) := by
      filter_upwards [hall] with T hT hA
      by_contra hc
      apply hA
      intro q hq
      obtain rfl := List.mem_singleton.1 hq
      refine label_of_votes p x hn T lab hT fun l hl => ?_
      have h2 : ¬ 0 ≤ ∑ k, X l (T k) := fun h3 => hc (Set.mem_biUnion (show l ∈ (Finset.univ.filter (· ≠ lab) : Finset (Fin L)) by simpa using hl) h3)
      simp only [X, Finset.sum_sub_distrib] at h2
      linarith
    have h2 := (ENNReal.toReal_mono (measure_ne_top _ _) (measure_mono_ae h1))
    refine h2.trans ((measureReal_biUnion_finset_le _ _).trans ?_)
    calc _ ≤ ∑ _l ∈ Finset.univ.filter (· ≠ lab), Real.exp (-(n * gap ^ 2 / (8 * B ^ 2))) :=
          Finset.sum_le_sum fun l hl => htail l (by simpa using hl)
      _ ≤ _ := by
          rw [Finset.sum_const, nsmul_eq_mul]
          refine mul_le_mul_of_nonneg_right ?_ (Real.exp_pos _).le
          have : (Finset.univ.filter (· ≠ lab) : Finset (Fin L)).card ≤ L := (Finset.card_filter_le _ _).trans (by simp)
          exact_mod_cast this
  have h4 := probReal_compl_eq_one_sub (μ := Measure.pi fun _ : Fin n => μ) (answers_meas (L := L) hem n [(x, lab.val)])
  linarith

end Orp.Mondrian
