import Verif.Mondrian.BatchJoint
import Mathlib.Analysis.SpecialFunctions.ExpDeriv
import Mathlib.Analysis.Calculus.Deriv.Mul
import Mathlib.MeasureTheory.Integral.IntervalIntegral.FundThmCalculus

/-!
The expected number of leaves of a Mondrian tree.
-/

set_option linter.unusedSectionVars false

namespace Orp.Mondrian

open MeasureTheory

variable {F L : Nat}

/-- the number of leaves of a tree -/
def Tree.leafCount : Tree ℝ F L → Nat
  | .leaf .. => 1
  | .node _ _ _ _ l r => l.leafCount + r.leafCount

theorem Tree.ids_leafCount : ∀ t : Tree ℝ F L, t.ids.length + 1 = 2 * t.leafCount
  | .leaf .. => rfl
  | .node _ _ _ _ l r => by
      have h1 := l.ids_leafCount
      have h2 := r.ids_leafCount
      simp only [Tree.ids, List.length_cons, List.length_append, Tree.leafCount]
      omega

theorem VTree.leafCount {X : Type} [MeasurableSpace X] {t : X → Tree ℝ F L} (h : VTree t) : ∃ k, ∀ y, (t y).leafCount = k := by
  obtain ⟨k, hk⟩ := h.nodes
  refine ⟨(k + 1) / 2, fun y => ?_⟩
  have := (t y).ids_leafCount
  have := hk y
  omega

theorem leafCount_measF : MeasF fun t : Tree ℝ F L => (t.leafCount : ENNReal) := fun Y _ t ht => by
  obtain ⟨k, hk⟩ := ht.leafCount
  simp only [hk]
  exact measurable_const

variable (life : ℝ)

theorem batch_mono : ∀ (n : Nat) (pts : List (Point ℝ F L)) (r : ℝ) {f g : Tree ℝ F L → ENNReal} (_ : ∀ t, f t ≤ g t), batch life n pts r f ≤ batch life n pts r g
  | 0, _, _, _, _, _ => le_rfl
  | n + 1, pts, r, f, g, h => by
      rw [batch_succ, batch_succ]
      refine add_le_add (mul_le_mul_right (h _) _) (lintegral_mono fun s => Finset.sum_le_sum fun d _ => lintegral_mono fun x => mul_le_mul_right ?_ _)
      exact batch_mono n _ _ fun tl => batch_mono n _ _ fun tr => h _

theorem batch_const (n : Nat) (pts : List (Point ℝ F L)) (r : ℝ) {c : ENNReal} (hc : c ≠ ⊤) : batch life n pts r (fun _ => c) = c * batch life n pts r fun _ => 1 := by
  haveI : IsFiniteMeasure (c • (Measure.dirac () : Measure Unit)) := ⟨by simpa using lt_top_iff_ne_top.2 hc⟩
  have := batch_mul life n pts r (f := fun _ => 1) (fun _ _ _ _ => measurable_const) c
  simpa using this

/-- a time with a constant rate, and what is expected from then on -/
theorem duhamel {S r : ℝ} {G G' : ℝ → ℝ} (hG : ∀ s, HasDerivAt G (G' s) s) (hc : Continuous G') (h1 : G life = 1) (hr : r ≤ life)
    (h0 : ∀ s ∈ Set.Ico r life, 0 ≤ S * G s - G' s) (hpos : 0 ≤ G r) :
    ENNReal.ofReal (Real.exp (-(S * (life - r)))) + ∫⁻ s in Set.Ico r life, ENNReal.ofReal (Real.exp (-(S * (s - r))) * (S * G s - G' s)) = ENNReal.ofReal (G r) := by
  have hd : ∀ s, HasDerivAt (fun s => -(Real.exp (-(S * (s - r))) * G s)) (Real.exp (-(S * (s - r))) * (S * G s - G' s)) s := by
    intro s
    have e1 : HasDerivAt (fun s => Real.exp (-(S * (s - r)))) (Real.exp (-(S * (s - r))) * (-(S * 1))) s :=
      ((((hasDerivAt_id s).sub_const r).const_mul S).neg).exp
    refine ((e1.mul (hG s)).neg).congr_deriv ?_
    ring
  have hGc : Continuous G := continuous_iff_continuousAt.2 fun s => (hG s).continuousAt
  have hcont : Continuous fun s => Real.exp (-(S * (s - r))) * (S * G s - G' s) := by fun_prop
  have hint : ∫ s in r..life, Real.exp (-(S * (s - r))) * (S * G s - G' s) = G r - Real.exp (-(S * (life - r))) := by
    rw [intervalIntegral.integral_eq_sub_of_hasDerivAt (fun s _ => hd s) (hcont.intervalIntegrable _ _), h1]
    simp
    ring
  have hset : ∫ s in Set.Ico r life, Real.exp (-(S * (s - r))) * (S * G s - G' s) = G r - Real.exp (-(S * (life - r))) := by
    rw [integral_Ico_eq_integral_Ioc, ← intervalIntegral.integral_of_le hr, hint]
  have hnn : 0 ≤ᵐ[volume.restrict (Set.Ico r life)] fun s => Real.exp (-(S * (s - r))) * (S * G s - G' s) :=
    (ae_restrict_iff' measurableSet_Ico).2 (Filter.Eventually.of_forall fun s hs => mul_nonneg (Real.exp_pos _).le (h0 s hs))
  rw [← ofReal_integral_eq_lintegral_ofReal ((hcont.integrableOn_Icc (a := r) (b := life)).mono_set Set.Ico_subset_Icc_self) hnn, hset, ← ENNReal.ofReal_add (Real.exp_pos _).le]
  · congr 1; ring
  · rw [← hset]
    exact integral_nonneg_of_ae hnn

/-- The bound for a tree of the points from a bound for the halves. -/
theorem batch_le {n : Nat} {pts : List (Point ℝ F L)} (h : pts ≠ []) {r : ℝ} (hr : r ≤ life) {f : Tree ℝ F L → ENNReal} (hf : ∀ d, f (.leaf 0 d) = 1)
    {G G' : ℝ → ℝ} (hG : ∀ s, HasDerivAt G (G' s) s) (hc : Continuous G') (h1 : G life = 1) (hpos : 0 ≤ G r)
    (H : Fin F → ℝ → ℝ) (hH : ∀ d s, s ∈ Set.Ico r life → 0 ≤ H d s)
    (hsum : ∀ s, ∑ d, ((hull pts).upper d - (hull pts).lower d) * H d s = (hull pts).size * G s - G' s)
    (hh : ∀ d, ∀ s ∈ Set.Ico r life, ∀ x ∈ Set.Ico ((hull pts).lower d) ((hull pts).upper d), halves life n pts d f s x ≤ ENNReal.ofReal (H d s)) :
    batch life (n + 1) pts r f ≤ ENNReal.ofReal (G r) := by
  have hord : ∀ i, (hull pts).lower i ≤ (hull pts).upper i := hull_proper h (hull_isHull h)
  have hnn : ∀ s ∈ Set.Ico r life, ∀ d, 0 ≤ ((hull pts).upper d - (hull pts).lower d) * H d s := fun s hs d => mul_nonneg (sub_nonneg.2 (hord d)) (hH d s hs)
  rw [batch_succ, hf, mul_one, ← duhamel life hG hc h1 hr (S := (hull pts).size) (fun s hs => by rw [← hsum]; exact Finset.sum_nonneg fun d _ => hnn s hs d) hpos]
  refine add_le_add le_rfl (setLIntegral_mono' measurableSet_Ico fun s hs => ?_)
  calc ∑ d, ∫⁻ x in Set.Ico ((hull pts).lower d) ((hull pts).upper d), ENNReal.ofReal (Real.exp (-((hull pts).size * (s - r)))) * halves life n pts d f s x
      ≤ ∑ d, ∫⁻ _ in Set.Ico ((hull pts).lower d) ((hull pts).upper d), ENNReal.ofReal (Real.exp (-((hull pts).size * (s - r)))) * ENNReal.ofReal (H d s) :=
        Finset.sum_le_sum fun d _ => setLIntegral_mono' measurableSet_Ico fun x hx => mul_le_mul_right (hh d s hs x hx) _
    _ = ∑ d, ENNReal.ofReal (Real.exp (-((hull pts).size * (s - r))) * (((hull pts).upper d - (hull pts).lower d) * H d s)) := by
        refine Finset.sum_congr rfl fun d _ => ?_
        rw [setLIntegral_const, Real.volume_Ico, ENNReal.ofReal_mul (Real.exp_pos _).le, ENNReal.ofReal_mul (sub_nonneg.2 (hord d))]
        ring
    _ = ENNReal.ofReal (Real.exp (-((hull pts).size * (s - r))) * ((hull pts).size * G s - G' s)) := by
        rw [← ENNReal.ofReal_sum_of_nonneg fun d _ => mul_nonneg (Real.exp_pos _).le (hnn s hs d), ← Finset.mul_sum, hsum]

/-- The probabilities of all trees sum up to at most one. -/
theorem batch_mass : ∀ (n : Nat) {pts : List (Point ℝ F L)} (_ : pts ≠ []) {r : ℝ} (_ : r ≤ life), batch life n pts r (fun _ => 1) ≤ 1
  | 0, _, _, _, _ => by simp [batch]
  | n + 1, pts, h, r, hr => by
      have := batch_le life (n := n) h hr (f := fun _ => 1) (fun _ => rfl) (G := fun _ => 1) (G' := fun _ => 0) (fun s => hasDerivAt_const s 1) continuous_const rfl zero_le_one
        (fun _ _ => 1) (fun _ _ _ => zero_le_one) (fun s => by simp [Box.size]) (fun d s hs x hx => by
          unfold halves
          have hne := sides_ne h hx
          calc _ ≤ batch life n (lefts pts d x) s (fun _ => 1) := batch_mono life n _ _ fun _ => batch_mass n hne.2 hs.2.le
            _ ≤ 1 := batch_mass n hne.1 hs.2.le
            _ = _ := by simp)
      simpa using this

/-- a bound on the expected number of leaves of a tree of points in the box, from the time `r` -/
noncomputable def growth (b : Box ℝ F) (a : ℝ) : ℝ := ∏ d, (1 + a * (b.upper d - b.lower d))

theorem growth_mono {b c : Box ℝ F} {a : ℝ} (ha : 0 ≤ a) (hb : ∀ d, b.lower d ≤ b.upper d) (h : ∀ d, b.upper d - b.lower d ≤ c.upper d - c.lower d) : growth b a ≤ growth c a :=
  Finset.prod_le_prod (fun d _ => add_nonneg zero_le_one (mul_nonneg ha (sub_nonneg.2 (hb d)))) fun d _ => by
    have := mul_le_mul_of_nonneg_left (h d) ha
    linarith

/-- the sides of the box are those of the points -/
theorem hull_within {pts : List (Point ℝ F L)} (h : pts ≠ []) {lo up : Fin F → ℝ} (hz : ∀ z ∈ pts, ∀ d, lo d ≤ z.1 d ∧ z.1 d ≤ up d) (d : Fin F) :
    lo d ≤ (hull pts).lower d ∧ (hull pts).lower d ≤ (hull pts).upper d ∧ (hull pts).upper d ≤ up d := by
  obtain ⟨⟨a, ha, ea⟩, ⟨b, hb, eb⟩⟩ := (hull_isHull h).2 d
  exact ⟨by rw [← ea]; exact (hz a ha d).1, hull_proper h (hull_isHull h) d, by rw [← eb]; exact (hz b hb d).2⟩

theorem growth_half {pts qs : List (Point ℝ F L)} (h : qs ≠ []) (hq : ∀ z ∈ qs, z ∈ pts) {d : Fin F} {lo up : ℝ} (hd : ∀ z ∈ qs, lo ≤ z.1 d ∧ z.1 d ≤ up) {a : ℝ} (ha : 0 ≤ a) :
    growth (hull qs) a ≤ (∏ e ∈ Finset.univ.erase d, (1 + a * ((hull pts).upper e - (hull pts).lower e))) * (1 + a * (up - lo)) := by
  have hp : pts ≠ [] := by
    obtain ⟨z, hz⟩ := List.exists_mem_of_ne_nil _ h
    exact List.ne_nil_of_mem (hq z hz)
  have hin := fun e => hull_within h (lo := (hull pts).lower) (up := (hull pts).upper) (fun z hz e => (hull_isHull hp).1 z (hq z hz) e) e
  unfold growth
  rw [← Finset.prod_erase_mul _ _ (Finset.mem_univ d)]
  obtain ⟨⟨z, hz, ez⟩, ⟨w, hw, ew⟩⟩ := (hull_isHull h).2 d
  refine mul_le_mul (Finset.prod_le_prod (fun e _ => ?_) fun e _ => ?_) ?_ ?_ (Finset.prod_nonneg fun e _ => ?_)
  · exact add_nonneg zero_le_one (mul_nonneg ha (sub_nonneg.2 (hin e).2.1))
  · have := mul_le_mul_of_nonneg_left (show (hull qs).upper e - (hull qs).lower e ≤ (hull pts).upper e - (hull pts).lower e by linarith [(hin e).1, (hin e).2.2]) ha
    linarith
  · have := mul_le_mul_of_nonneg_left (show (hull qs).upper d - (hull qs).lower d ≤ up - lo by linarith [(hd z hz).1, (hd w hw).2]) ha
    linarith
  · exact add_nonneg zero_le_one (mul_nonneg ha (sub_nonneg.2 (hin d).2.1))
  · exact add_nonneg zero_le_one (mul_nonneg ha (sub_nonneg.2 (((hin e).1.trans (hin e).2.1).trans (hin e).2.2)))

theorem growth_deriv (b : Box ℝ F) (s : ℝ) : HasDerivAt (fun s => growth b (life - s))
    (∑ d, (∏ e ∈ Finset.univ.erase d, (1 + (life - s) * (b.upper e - b.lower e))) * -(b.upper d - b.lower d)) s := by
  have := HasDerivAt.fun_finsetProd (u := Finset.univ) (f := fun d s => 1 + (life - s) * (b.upper d - b.lower d)) (f' := fun d => -(b.upper d - b.lower d)) (x := s) fun d _ => by
    have e : HasDerivAt (fun s => 1 + (life - s) * (b.upper d - b.lower d)) (-1 * (b.upper d - b.lower d)) s :=
      ((((hasDerivAt_id s).const_sub life).mul_const _).const_add 1)
    exact e.congr_deriv (by ring)
  exact HasDerivAt.congr_deriv (f := fun s => ∏ d, (1 + (life - s) * (b.upper d - b.lower d))) this (by simp only [smul_eq_mul])

theorem growth_pos {b : Box ℝ F} {a : ℝ} (ha : 0 ≤ a) (hb : ∀ d, b.lower d ≤ b.upper d) : 0 ≤ growth b a :=
  Finset.prod_nonneg fun d _ => add_nonneg zero_le_one (mul_nonneg ha (sub_nonneg.2 (hb d)))

/-- The expected number of leaves of a tree sampled from the points. -/
theorem batch_leaves : ∀ (n : Nat) {pts : List (Point ℝ F L)} (_ : pts ≠ []) {r : ℝ} (_ : r ≤ life),
    batch life n pts r (fun t => (t.leafCount : ENNReal)) ≤ ENNReal.ofReal (growth (hull pts) (life - r))
  | 0, _, _, _, _ => by simp [batch]
  | n + 1, pts, h, r, hr => by
      have hord : ∀ i, (hull pts).lower i ≤ (hull pts).upper i := hull_proper h (hull_isHull h)
      refine batch_le life (n := n) h hr (f := fun t => (t.leafCount : ENNReal)) (fun _ => by simp [Tree.leafCount]) (G := fun s => growth (hull pts) (life - s))
        (G' := fun s => ∑ d, (∏ e ∈ Finset.univ.erase d, (1 + (life - s) * ((hull pts).upper e - (hull pts).lower e))) * -((hull pts).upper d - (hull pts).lower d))
        (growth_deriv life _) (by fun_prop) (by simp [growth]) (growth_pos (sub_nonneg.2 hr) hord)
        (fun d s => (∏ e ∈ Finset.univ.erase d, (1 + (life - s) * ((hull pts).upper e - (hull pts).lower e))) * (2 + (life - s) * ((hull pts).upper d - (hull pts).lower d))) ?_ ?_ ?_
      · intro d s hs
        have ha : 0 ≤ life - s := sub_nonneg.2 hs.2.le
        exact mul_nonneg (Finset.prod_nonneg fun e _ => add_nonneg zero_le_one (mul_nonneg ha (sub_nonneg.2 (hord e)))) (add_nonneg zero_le_two (mul_nonneg ha (sub_nonneg.2 (hord d))))
      · intro s
        unfold Box.size
        rw [Finset.sum_mul, ← Finset.sum_sub_distrib]
        refine Finset.sum_congr rfl fun d _ => ?_
        unfold growth
        rw [← Finset.prod_erase_mul _ _ (Finset.mem_univ d)]
        ring
      · intro d s hs x hx
        have ha : 0 ≤ life - s := sub_nonneg.2 hs.2.le
        have hne := sides_ne h hx
        have hL := batch_leaves n hne.1 hs.2.le
        have hR := batch_leaves n hne.2 hs.2.le
        have gL := growth_half (pts := pts) hne.1 (fun z hz => (List.mem_filter.1 hz).1) (d := d) (lo := (hull pts).lower d) (up := x)
          (fun z hz => ⟨((hull_isHull h).1 z (List.mem_filter.1 hz).1 d).1, by simpa using (List.mem_filter.1 hz).2⟩) ha
        have gR := growth_half (pts := pts) hne.2 (fun z hz => (List.mem_filter.1 hz).1) (d := d) (lo := x) (up := (hull pts).upper d)
          (fun z hz => ⟨le_of_lt (by simpa using (List.mem_filter.1 hz).2), ((hull_isHull h).1 z (List.mem_filter.1 hz).1 d).2⟩) ha
        have pL := growth_pos ha (hull_proper hne.1 (hull_isHull hne.1))
        have pR := growth_pos ha (hull_proper hne.2 (hull_isHull hne.2))
        set gl := growth (hull (lefts pts d x)) (life - s)
        set gr := growth (hull (rights pts d x)) (life - s)
        have key : halves life n pts d (fun t => (t.leafCount : ENNReal)) s x ≤ ENNReal.ofReal gl + ENNReal.ofReal gr := by
          unfold halves
          simp only [Tree.leafCount, Nat.cast_add]
          have e1 : ∀ tl : Tree ℝ F L, batch life n (rights pts d x) s (fun tr => (tl.leafCount : ENNReal) + (tr.leafCount : ENNReal)) ≤ (tl.leafCount : ENNReal) + ENNReal.ofReal gr := by
            intro tl
            rw [batch_add life n _ s (f := fun _ => (tl.leafCount : ENNReal)) (fun _ _ _ _ => measurable_const) leafCount_measF, batch_const life n _ s (ENNReal.natCast_ne_top _)]
            exact add_le_add (mul_le_of_le_one_right' (batch_mass life n hne.2 hs.2.le)) hR
          refine (batch_mono life n _ s e1).trans ?_
          rw [batch_add life n _ s leafCount_measF (g := fun _ => ENNReal.ofReal gr) (fun _ _ _ _ => measurable_const), batch_const life n _ s ENNReal.ofReal_ne_top]
          exact add_le_add hL (mul_le_of_le_one_right' (batch_mass life n hne.1 hs.2.le))
        refine key.trans ?_
        rw [← ENNReal.ofReal_add pL pR]
        refine ENNReal.ofReal_le_ofReal ((add_le_add gL gR).trans (le_of_eq ?_))
        ring

end Orp.Mondrian
