import Verif.Mondrian.TimeIntegral
import Verif.Mondrian.KernelSpec

/-!
The probability that points end up in the same leaf does not change in expectation when a tree grows.
-/

set_option linter.unusedSectionVars false

namespace Orp.Mondrian

open MeasureTheory Orp.Reservoir

variable {F L : Nat}

/-- how far a box `q` sticks out of a box `b`, summed over the dimensions -/
noncomputable def Box.outs (b q : Box ℝ F) : ℝ := ∑ i, b.out q i

/-- how far a box `q` is from a box `b`, summed over the dimensions -/
noncomputable def Box.aways (b q : Box ℝ F) : ℝ := ∑ i, b.away q i

theorem Box.aways_nonneg (b q : Box ℝ F) : 0 ≤ b.aways q := Finset.sum_nonneg fun i _ => b.away_nonneg q i

/-- The probability that the points with box `q` are in one leaf, for a process that starts at time `r` above the tree and of which the tree is the
restriction to its points -/
noncomputable def together (q : Box ℝ F) (life : ℝ) : Tree ℝ F L → ℝ → ℝ
  | .leaf _ d, r => val (d.box.outs q) (d.box.aways q) q.size life d.tau 1 r
  | .node _ d dim sp lt rt, r => val (d.box.outs q) (d.box.aways q) q.size life d.tau
      (if q.upper dim ≤ sp then together q life lt d.tau else if sp < q.lower dim then together q life rt d.tau else 0) r

theorem Times.step {R : ℝ → ℝ → Prop} (hR : ∀ a b, R a b → a ≤ b) {life tau : ℝ} (h : tau < life) : ∀ {t : Tree ℝ F L}, Times R life tau t → tau ≤ t.data.tau
  | .leaf _ _, ht => by rw [Tree.data]; simp only [Times] at ht; linarith
  | .node _ _ _ _ _ _, ht => hR _ _ ht.1

theorem together_nonneg (q : Box ℝ F) {life : ℝ} : ∀ (t : Tree ℝ F L) (ptau r : ℝ), Times (· ≤ ·) life ptau t → r ≤ t.data.tau → 0 ≤ together q life t r
  | .leaf _ d, ptau, r, ht, hr => val_nonneg (Box.aways_nonneg _ _) zero_le_one hr
  | .node _ d dim sp lt rt, ptau, r, ht, hr => by
      refine val_nonneg (Box.aways_nonneg _ _) ?_ hr
      split
      · exact together_nonneg q lt d.tau d.tau ht.2.2.1 (ht.2.2.1.step (fun a b h => h) ht.2.1)
      · split
        · exact together_nonneg q rt d.tau d.tau ht.2.2.2 (ht.2.2.2.step (fun a b h => h) ht.2.1)
        · exact le_rfl

/-- the value at the end -/
noncomputable def goal (q : Box ℝ F) (life : ℝ) : Tree ℝ F L → ℝ
  | .leaf _ _ => 1
  | .node _ d dim sp lt rt => if q.upper dim ≤ sp then together q life lt d.tau else if sp < q.lower dim then together q life rt d.tau else 0

theorem together_eq (q : Box ℝ F) (life : ℝ) (t : Tree ℝ F L) (r : ℝ) :
    together q life t r = val (t.data.box.outs q) (t.data.box.aways q) q.size life t.data.tau (goal q life t) r := by
  cases t <;> rfl

theorem goal_nonneg (q : Box ℝ F) {life ptau : ℝ} (t : Tree ℝ F L) (ht : Times (· ≤ ·) life ptau t) : 0 ≤ goal q life t := by
  have := together_nonneg q t ptau t.data.tau ht le_rfl
  rwa [together_eq, val_end] at this

/-- a box of one point -/
theorem point_out (q : Box ℝ F) (hq : q.Ordered) (z : Fin F → ℝ) : (Box.point z).outs q = (Box.point z).aways q + q.size := by
  unfold Box.outs Box.aways Box.size
  rw [← Finset.sum_add_distrib]
  refine Finset.sum_congr rfl fun i _ => ?_
  have := hq i
  simp only [Box.out, Box.away, Box.point]
  rcases le_total (z i) (q.lower i) with h1 | h1
  · rw [max_eq_right (by linarith : z i - q.lower i ≤ 0), max_eq_left (by linarith : 0 ≤ q.upper i - z i), max_eq_right (by linarith : z i - q.upper i ≤ 0),
      max_eq_left (by linarith : 0 ≤ q.lower i - z i)]; ring
  · rcases le_total (z i) (q.upper i) with h2 | h2
    · rw [max_eq_left (by linarith : 0 ≤ z i - q.lower i), max_eq_left (by linarith : 0 ≤ q.upper i - z i), max_eq_right (by linarith : z i - q.upper i ≤ 0),
        max_eq_right (by linarith : q.lower i - z i ≤ 0)]; ring
    · rw [max_eq_left (by linarith : 0 ≤ z i - q.lower i), max_eq_right (by linarith : q.upper i - z i ≤ 0), max_eq_left (by linarith : 0 ≤ z i - q.upper i),
        max_eq_right (by linarith : q.lower i - z i ≤ 0)]; ring

theorem val_point (k ℓ life r : ℝ) : val (k + ℓ) k ℓ life life 1 r = Real.exp (-(ℓ * (life - r))) := by
  unfold val
  have h : k * ∫ s in r..life, Real.exp (-((k + ℓ) * s) - ℓ * (life - s)) = -Real.exp (-(k * life) - ℓ * life) - -Real.exp (-(k * r) - ℓ * life) := by
    rw [← intervalIntegral.integral_const_mul]
    refine intervalIntegral.integral_eq_sub_of_hasDerivAt (f := fun s => -Real.exp (-(k * s) - ℓ * life)) (fun s _ => ?_) ?_
    · have := ((((hasDerivAt_id s).const_mul k).neg.sub_const (ℓ * life)).exp).neg
      refine this.congr_deriv ?_
      simp only [id, Pi.neg_apply]
      rw [show -((k + ℓ) * s) - ℓ * (life - s) = -(k * s) - ℓ * life by ring]
      ring
    · exact ((expCont (k + ℓ) ℓ life).const_mul k).intervalIntegrable _ _
  rw [h]
  rw [show -Real.exp (-(k * life) - ℓ * life) - -Real.exp (-(k * r) - ℓ * life) = Real.exp (-(k * r) - ℓ * life) - Real.exp (-(k * life) - ℓ * life) by ring,
    show -((k + ℓ) * life) = -(k * life) - ℓ * life by ring, mul_one, add_sub_cancel, ← Real.exp_add]
  congr 1; ring

theorem together_new (q : Box ℝ F) (hq : q.Ordered) (life : ℝ) (id : Nat) (z : Fin F → ℝ) (label : Fin L) (r : ℝ) :
    together q life (newLeaf life id z label) r = Real.exp (-(q.size * (life - r))) := by
  simp only [newLeaf, together]
  rw [point_out q hq, val_point]

theorem together_above (q : Box ℝ F) (hq : q.Ordered) (life : ℝ) (f : Nat × Nat) (c : Cut ℝ F) (t : Tree ℝ F L) (z : Fin F → ℝ) (label : Fin L) (r : ℝ) :
    together q life (above life f c t z label) r = val ((t.data.box.extend z).outs q) ((t.data.box.extend z).aways q) q.size life c.tau
      (sideVal c q (together q life t c.tau) (Real.exp (-(q.size * (life - c.tau))))) r := by
  unfold above sideVal
  cases c.right
  · simp only [Bool.false_eq_true, if_false, together, together_new q hq]
  · simp only [if_true, together, together_new q hq]

theorem sideVal_nonneg (c : Cut ℝ F) (q : Box ℝ F) {X Y : ℝ} (hX : 0 ≤ X) (hY : 0 ≤ Y) : 0 ≤ sideVal c q X Y := by
  unfold sideVal; split_ifs <;> first | assumption | exact le_rfl

theorem val_affine (w k ℓ life T g r : ℝ) : val w k ℓ life T g r = Real.exp (w * r) * Real.exp (-(w * T)) * g + val w k ℓ life T 0 r := by
  unfold val; ring

/-! ### Extension of a box -/

theorem ext_same {b : Box ℝ F} {z : Fin F → ℝ} {i : Fin F} (h : b.distIn z i = 0) : (b.extend z).lower i = b.lower i ∧ (b.extend z).upper i = b.upper i := by
  rw [extend_lower, extend_upper]
  unfold Box.distIn at h
  have h1 := le_max_right (b.lower i - z i) 0
  have h2 := le_max_right (z i - b.upper i) 0
  have h3 := le_max_left (b.lower i - z i) 0
  have h4 := le_max_left (z i - b.upper i) 0
  exact ⟨min_eq_right (by linarith), max_eq_right (by linarith)⟩

theorem ext_out_same {b : Box ℝ F} {z : Fin F → ℝ} {i : Fin F} (h : b.distIn z i = 0) (q : Box ℝ F) : (b.extend z).out q i = b.out q i := by
  obtain ⟨h1, h2⟩ := ext_same h
  simp only [Box.out, h1, h2]

theorem ext_away_same {b : Box ℝ F} {z : Fin F → ℝ} {i : Fin F} (h : b.distIn z i = 0) (q : Box ℝ F) : (b.extend z).away q i = b.away q i := by
  obtain ⟨h1, h2⟩ := ext_same h
  simp only [Box.away, h1, h2]

theorem ext_away_le (b : Box ℝ F) (z : Fin F → ℝ) (q : Box ℝ F) (i : Fin F) : (b.extend z).away q i ≤ b.away q i := by
  simp only [Box.away, extend_lower, extend_upper]
  exact add_le_add (max_le_max_right _ (sub_le_sub_right (min_le_right _ _) _)) (max_le_max_right _ (sub_le_sub_left (le_max_right _ _) _))

theorem ext_out_le (b : Box ℝ F) (z : Fin F → ℝ) (q : Box ℝ F) (i : Fin F) : b.out q i ≤ b.distIn z i + (b.extend z).out q i := by
  simp only [Box.out, Box.distIn, extend_lower, extend_upper]
  have a1 : max (b.lower i - q.lower i) 0 ≤ max (b.lower i - z i) 0 + max (min (z i) (b.lower i) - q.lower i) 0 := by
    refine max_le ?_ (add_nonneg (le_max_right _ _) (le_max_right _ _))
    rcases le_total (z i) (b.lower i) with h | h
    · rw [min_eq_left h]
      have := le_max_left (b.lower i - z i) 0
      have := le_max_left (z i - q.lower i) 0
      linarith
    · rw [min_eq_right h]
      have := le_max_right (b.lower i - z i) 0
      have := le_max_left (b.lower i - q.lower i) 0
      linarith
  have a2 : max (q.upper i - b.upper i) 0 ≤ max (z i - b.upper i) 0 + max (q.upper i - max (z i) (b.upper i)) 0 := by
    refine max_le ?_ (add_nonneg (le_max_right _ _) (le_max_right _ _))
    rcases le_total (z i) (b.upper i) with h | h
    · rw [max_eq_right h]
      have := le_max_right (z i - b.upper i) 0
      have := le_max_left (q.upper i - b.upper i) 0
      linarith
    · rw [max_eq_left h]
      have := le_max_left (z i - b.upper i) 0
      have := le_max_left (q.upper i - z i) 0
      linarith
  linarith

theorem distIn_nonneg (b : Box ℝ F) (z : Fin F → ℝ) (i : Fin F) : 0 ≤ b.distIn z i := add_nonneg (le_max_right _ _) (le_max_right _ _)

/-! ### One node -/

/-- the expectation over the dimension and the value of a split -/
theorem cut_ex {b q : Box ℝ F} (hb : b.Ordered) (hq : q.Ordered) {z : Fin F → ℝ} (hpos : 0 < b.dist z) (tau : ℝ) {α β X Y : ℝ} (hα : 0 ≤ α) (hβ : 0 ≤ β) (hX : 0 ≤ X)
    (hY : 0 ≤ Y) : ∑ d, ENNReal.ofReal (b.distIn z d / b.dist z) * ∫⁻ w, ENNReal.ofReal (α * sideVal (cutWith b z d tau w) q X Y + β) =
      ENNReal.ofReal (α * (((b.dist z + (b.extend z).outs q - b.outs q) * X + (b.aways q - (b.extend z).aways q) * Y) / b.dist z) + β) := by
  have h1 : ∀ d, ENNReal.ofReal (b.distIn z d / b.dist z) * ∫⁻ w, ENNReal.ofReal (α * sideVal (cutWith b z d tau w) q X Y + β) =
      ENNReal.ofReal (α * (((b.distIn z d + (b.extend z).out q d - b.out q d) * X + (b.away q d - (b.extend z).away q d) * Y) / b.dist z) + b.distIn z d / b.dist z * β) := by
    intro d
    rcases (distIn_nonneg b z d).eq_or_lt with hd | hd
    · rw [← hd, ext_out_same hd.symm, ext_away_same hd.symm]; simp
    · have e : ∀ w, ENNReal.ofReal (α * sideVal (cutWith b z d tau w) q X Y + β) = ENNReal.ofReal α * ENNReal.ofReal (sideVal (cutWith b z d tau w) q X Y) + ENNReal.ofReal β := by
        intro w
        rw [ENNReal.ofReal_add (mul_nonneg hα (sideVal_nonneg _ _ hX hY)) hβ, ENNReal.ofReal_mul hα]
      simp only [e]
      have hn : 0 ≤ ((b.distIn z d + (b.extend z).out q d - b.out q d) * X + (b.away q d - (b.extend z).away q d) * Y) / b.distIn z d :=
        div_nonneg (add_nonneg (mul_nonneg (by linarith [ext_out_le b z q d]) hX) (mul_nonneg (by linarith [ext_away_le b z q d]) hY)) hd.le
      rw [lintegral_add_right _ measurable_const, lintegral_const_mul' _ _ ENNReal.ofReal_ne_top, side_ex hb hq hd tau hX hY, lintegral_const, measure_univ, mul_one,
        ← ENNReal.ofReal_mul hα, ← ENNReal.ofReal_add (mul_nonneg hα hn) hβ, ← ENNReal.ofReal_mul (div_nonneg hd.le hpos.le)]
      congr 1
      field_simp
  simp only [h1]
  rw [← ENNReal.ofReal_sum_of_nonneg]
  · congr 1
    rw [Finset.sum_add_distrib, ← Finset.mul_sum, ← Finset.sum_mul, ← Finset.sum_div, ← Finset.sum_div, Finset.sum_add_distrib, ← Finset.sum_mul, ← Finset.sum_mul,
      Finset.sum_sub_distrib, Finset.sum_sub_distrib, Finset.sum_add_distrib]
    have : (∑ i, b.distIn z i) / b.dist z = 1 := div_self hpos.ne'
    rw [this, one_mul]
    rfl
  · intro d _
    refine add_nonneg (mul_nonneg hα (div_nonneg (add_nonneg (mul_nonneg ?_ hX) (mul_nonneg ?_ hY)) hpos.le)) (mul_nonneg (div_nonneg (distIn_nonneg _ _ _) hpos.le) hβ)
    · linarith [ext_out_le b z q d]
    · linarith [ext_away_le b z q d]

/-- One node: with the values after a split and without one given, the expectation is the value before. -/
theorem node_ex {p : Params ℝ} (hlog : p.log = Real.log) {q : Box ℝ F} (hq : q.Ordered) (f : Nat × Nat) (z : Fin F → ℝ) (label : Fin L) {t : Tree ℝ F L} {ptau : ℝ}
    (hb : t.data.box.Ordered) (ht : Times (· ≤ ·) p.lifetime ptau t) (hle : ptau ≤ t.data.tau) (Φ : Res (Option (Cut ℝ F)) → ENNReal)
    (h1 : ∀ c, Φ (.ok (some c)) = ENNReal.ofReal (together q p.lifetime (above p.lifetime f c t z label) ptau))
    (h2 : Φ (.ok none) = ENNReal.ofReal (val ((t.data.box.extend z).outs q) ((t.data.box.extend z).aways q) q.size p.lifetime t.data.tau (goal q p.lifetime t) ptau)) :
    (drawP p t.data.box z ptau t.data.tau).ex Φ = ENNReal.ofReal (together q p.lifetime t ptau) := by
  rcases (dist_nonneg t.data.box z).eq_or_lt with h0 | hpos
  · have hz : ∀ i, t.data.box.distIn z i = 0 := by
      intro i
      have := (Finset.sum_eq_zero_iff_of_nonneg fun i _ => distIn_nonneg t.data.box z i).1 (show ∑ i, t.data.box.distIn z i = 0 from h0.symm) i (Finset.mem_univ i)
      exact this
    unfold drawP
    rw [if_pos h0.symm]
    simp only [Prog.ex]
    rw [h2, together_eq]
    congr 2
    · exact Finset.sum_congr rfl fun i _ => ext_out_same (hz i) q
    · exact Finset.sum_congr rfl fun i _ => ext_away_same (hz i) q
  · have hS : MeasurableSet {u : U01 | u.1 < 1 - Real.exp (-(t.data.box.dist z * (t.data.tau - ptau)))} := measurableSet_lt measurable_subtype_coe measurable_const
    rw [drawP_ex hlog hpos hle, h2, together_eq]
    rw [← time_ex (w := t.data.box.outs q) (k := t.data.box.aways q) (w' := (t.data.box.extend z).outs q) (k' := (t.data.box.extend z).aways q) hpos hle
      (goal_nonneg q t ht) (Box.aways_nonneg _ _) (Box.aways_nonneg _ _) ?_ ?_]
    · congr 1
      refine setLIntegral_congr_fun hS fun u hu => ?_
      have htau : ptau + Real.log (1 - u.1) / (-t.data.box.dist z) = timeOf p t.data.box z ptau u := by rw [timeOf, hlog]
      have hlt : timeOf p t.data.box z ptau u < t.data.tau := by
        have := (log_lt_iff hpos u.2.2 (w := t.data.tau - ptau)).2 hu
        rw [← htau]; linarith
      have hge : ptau ≤ timeOf p t.data.box z ptau u := by
        have := log_nonneg' hpos u.2.1 u.2.2
        rw [← htau]; linarith
      simp only [htau]
      have hsub : ∀ d w, Φ (.ok (some (cutWith t.data.box z d (timeOf p t.data.box z ptau u) w))) =
          ENNReal.ofReal (Real.exp ((t.data.box.extend z).outs q * ptau) * Real.exp (-((t.data.box.extend z).outs q * timeOf p t.data.box z ptau u)) *
            sideVal (cutWith t.data.box z d (timeOf p t.data.box z ptau u) w) q (together q p.lifetime t (timeOf p t.data.box z ptau u))
              (Real.exp (-(q.size * (p.lifetime - timeOf p t.data.box z ptau u)))) +
            val ((t.data.box.extend z).outs q) ((t.data.box.extend z).aways q) q.size p.lifetime (timeOf p t.data.box z ptau u) 0 ptau) := by
        intro d w
        rw [h1, together_above q hq, val_affine]
        rfl
      simp only [hsub]
      rw [cut_ex hb hq hpos _ (mul_nonneg (Real.exp_nonneg _) (Real.exp_nonneg _)) (val_nonneg (Box.aways_nonneg _ _) le_rfl hge)
        (together_nonneg q t ptau _ ht hlt.le) (Real.exp_nonneg _), ← val_affine, together_eq]
    · have : t.data.box.outs q ≤ t.data.box.dist z + (t.data.box.extend z).outs q := by
        unfold Box.outs Box.dist
        rw [← Finset.sum_add_distrib]
        exact Finset.sum_le_sum fun i _ => ext_out_le _ _ _ _
      linarith
    · exact sub_nonneg.2 (Finset.sum_le_sum fun i _ => ext_away_le _ _ _ _)

/-! ### A whole tree -/

theorem Prog.ex_affine {α : Type} (φ : α → ENNReal) {a : ENNReal} (ha : a ≠ ⊤) (c : ENNReal) : ∀ P : Prog α, (P.ex fun x => a * φ x + c) = a * P.ex φ + c
  | .ret x => rfl
  | .ask k => by
      simp only [Prog.ex]
      simp only [Prog.ex_affine φ ha c]
      rw [lintegral_add_right _ measurable_const, lintegral_const_mul' _ _ ha, lintegral_const, measure_univ, mul_one]

theorem drawP_congr {p : Params ℝ} (hlog : p.log = Real.log) (b : Box ℝ F) (x : Fin F → ℝ) {ptau tau : ℝ} (ht : ptau ≤ tau) {Φ Φ' : Res (Option (Cut ℝ F)) → ENNReal}
    (h : ∀ c, Φ (.ok c) = Φ' (.ok c)) : (drawP p b x ptau tau).ex Φ = (drawP p b x ptau tau).ex Φ' := by
  rcases (dist_nonneg b x).eq_or_lt with h0 | hpos
  · simp [drawP, h0.symm, Prog.ex, h]
  · simp only [drawP_ex hlog hpos ht, h]

theorem growP_congr {p : Params ℝ} (hlog : p.log = Real.log) (f : Nat × Nat) (x : Fin F → ℝ) (label : Fin L) {φ φ' : Res (Tree ℝ F L) → ENNReal}
    (h : ∀ t, φ (.ok t) = φ' (.ok t)) : ∀ (t : Tree ℝ F L) (ptau : ℝ), Times (· ≤ ·) p.lifetime ptau t → ptau ≤ t.data.tau →
      (growP p f x label t ptau).ex φ = (growP p f x label t ptau).ex φ'
  | .leaf id d, ptau, ht, hle => by
      simp only [growP, Prog.ex_bind]
      refine drawP_congr hlog _ _ hle fun c => ?_
      cases c <;> simp [Prog.ex, h]
  | .node id d dim sp l r, ptau, ht, hle => by
      simp only [growP, Prog.ex_bind]
      refine drawP_congr hlog _ _ hle fun c => ?_
      cases c with
      | some c => simp [Prog.ex, h]
      | none =>
        simp only
        split
        · simp only [Prog.ex_bind, Prog.ex]
          exact growP_congr hlog f x label (φ := fun q => φ (q.map _)) (φ' := fun q => φ' (q.map _)) (fun t => h _) l d.tau ht.2.2.1
            (ht.2.2.1.step (fun a b h => h) ht.2.1)
        · simp only [Prog.ex_bind, Prog.ex]
          exact growP_congr hlog f x label (φ := fun q => φ (q.map _)) (φ' := fun q => φ' (q.map _)) (fun t => h _) r d.tau ht.2.2.2
            (ht.2.2.2.step (fun a b h => h) ht.2.1)

theorem Prog.ex_congr {α : Type} {φ φ' : α → ENNReal} : ∀ (P : Prog α), (∀ ω pos, φ (P.eval ω pos).1 = φ' (P.eval ω pos).1) → P.ex φ = P.ex φ'
  | .ret x, h => h (fun _ => ⟨0, by norm_num⟩) 0
  | .ask k, h => by
      simp only [Prog.ex]
      refine lintegral_congr fun u => Prog.ex_congr (k u) fun ω pos => ?_
      have := h (Prog.cons (u, fun i => ω (i + pos))) 0
      simp only [Prog.eval] at this
      rw [show Prog.cons (u, fun i => ω (i + pos)) 0 = u from rfl, Prog.eval_cons, Prog.eval_shift, Nat.zero_add] at this
      exact this

/-- the outcomes that a tree can have -/
def Outcome (p : Params ℝ) (f : Nat × Nat) (x : Fin F → ℝ) (label : Fin L) (t : Tree ℝ F L) (ptau : ℝ) (t' : Tree ℝ F L) : Prop :=
  ∃ (ω : Nat → U01) (pos pos' : Nat), grow p (nums ω) (some f) x label t ptau pos = .ok (t', pos')

theorem growP_congr' {p : Params ℝ} (hlog : p.log = Real.log) (f : Nat × Nat) (x : Fin F → ℝ) (label : Fin L) {φ φ' : Res (Tree ℝ F L) → ENNReal}
    (t : Tree ℝ F L) (ptau : ℝ) (ht : Times (· ≤ ·) p.lifetime ptau t) (hle : ptau ≤ t.data.tau) (h : ∀ t', Outcome p f x label t ptau t' → φ (.ok t') = φ' (.ok t')) :
      (growP p f x label t ptau).ex φ = (growP p f x label t ptau).ex φ' := by
  let φ1 : Res (Tree ℝ F L) → ENNReal := fun r => match r with
    | .ok t' => φ' (.ok t')
    | .error e => φ (.error e)
  rw [← growP_congr hlog f x label (φ := φ1) (φ' := φ') (fun t => rfl) t ptau ht hle]
  refine Prog.ex_congr _ fun ω pos => ?_
  have h1 := growP_eval p ω f x label t ptau pos
  cases h2 : ((growP p f x label t ptau).eval ω pos).1 with
  | error e => rfl
  | ok t' =>
    rw [withPos, h2] at h1
    exact h t' ⟨ω, pos, _, h1⟩

theorem Outcome.times {p : Params ℝ} {f : Nat × Nat} {x : Fin F → ℝ} {label : Fin L} {t : Tree ℝ F L} {ptau : ℝ} {t' : Tree ℝ F L} (h : Outcome p f x label t ptau t')
    (ht : Times (· ≤ ·) p.lifetime ptau t) : Times (· ≤ ·) p.lifetime ptau t' := by
  obtain ⟨ω, pos, pos', h⟩ := h
  exact (grow_grows _ _ _ _ _ _ _ _ _ _ h).times (fun a b h => h.le) (nums_range ω) (fun pos b ptau tau c pos' => draw_le (nums_range ω) pos b x ptau tau c pos') ht

/-- the value of a result; errors do not count -/
noncomputable def worth (g : Tree ℝ F L → ℝ) : Res (Tree ℝ F L) → ENNReal
  | .ok t => ENNReal.ofReal (g t)
  | .error _ => 0

/-- all boxes have their lower bounds below their upper bounds -/
def Sound : Tree ℝ F L → Prop
  | .leaf _ d => d.box.Ordered
  | .node _ d _ _ l r => d.box.Ordered ∧ Sound l ∧ Sound r

theorem Sound.box : ∀ {t : Tree ℝ F L}, Sound t → t.data.box.Ordered
  | .leaf _ _, h => h
  | .node _ _ _ _ _ _, h => h.1

theorem Right.sound : ∀ {t : Tree ℝ F L} {pts : List (Point ℝ F L)}, Right pts t → Sound t
  | .leaf _ _, _, h => fun i => hull_proper h.1 h.2.1 i
  | .node _ _ _ _ _ _, _, h => ⟨fun i => hull_proper h.ne_nil h.1 i, h.2.1.sound, h.2.2.sound⟩

/-- The probability that points are together does not change in expectation when another point is added to the tree. -/
theorem grow_ex {p : Params ℝ} (hlog : p.log = Real.log) {q : Box ℝ F} (hq : q.Ordered) (f : Nat × Nat) (z : Fin F → ℝ) (label : Fin L) :
    ∀ (t : Tree ℝ F L) (ptau : ℝ), Sound t → Times (· ≤ ·) p.lifetime ptau t → ptau ≤ t.data.tau →
      (growP p f z label t ptau).ex (worth fun t => together q p.lifetime t ptau) = ENNReal.ofReal (together q p.lifetime t ptau)
  | .leaf id d, ptau, hs, ht, hle => by
      simp only [growP, Prog.ex_bind]
      refine node_ex hlog hq f z label (t := .leaf id d) hs.box ht hle _ (fun c => rfl) rfl
  | .node id d dim sp l r, ptau, hs, ht, hle => by
      simp only [growP, Prog.ex_bind]
      refine node_ex hlog hq f z label (t := .node id d dim sp l r) hs.box ht hle _ (fun c => rfl) ?_
      simp only [Tree.data]
      have hl := ht.2.2.1.step (fun a b h => h) ht.2.1
      have hr := ht.2.2.2.step (fun a b h => h) ht.2.1
      let α := Real.exp ((d.box.extend z).outs q * ptau) * Real.exp (-((d.box.extend z).outs q * d.tau))
      let β := val ((d.box.extend z).outs q) ((d.box.extend z).aways q) q.size p.lifetime d.tau 0 ptau
      have hα : 0 ≤ α := mul_nonneg (Real.exp_nonneg _) (Real.exp_nonneg _)
      have hβ : 0 ≤ β := val_nonneg (Box.aways_nonneg _ _) le_rfl hle
      have key : ∀ (u : Tree ℝ F L), Sound u → Times (· ≤ ·) p.lifetime d.tau u → (mk : Tree ℝ F L → Tree ℝ F L) → (g : Tree ℝ F L → ℝ) →
          (∀ u', together q p.lifetime (mk u') ptau = val ((d.box.extend z).outs q) ((d.box.extend z).aways q) q.size p.lifetime d.tau (g u') ptau) →
          (g = (fun u' => together q p.lifetime u' d.tau) ∨ ∃ c, 0 ≤ c ∧ g = fun _ => c) →
          (growP p f z label u d.tau).ex (worth fun t => together q p.lifetime t d.tau) = ENNReal.ofReal (together q p.lifetime u d.tau) →
          (growP p f z label u d.tau).ex (fun r => worth (fun t => together q p.lifetime t ptau) (r.map mk)) =
            ENNReal.ofReal (val ((d.box.extend z).outs q) ((d.box.extend z).aways q) q.size p.lifetime d.tau (g u) ptau) := by
        intro u hsu htu mk g hmk hg ih
        have hlu := htu.step (fun a b h => h) ht.2.1
        rcases hg with rfl | ⟨c, hc, rfl⟩
        · rw [growP_congr' hlog f z label (φ' := fun x => ENNReal.ofReal α * worth (fun t => together q p.lifetime t d.tau) x + ENNReal.ofReal β) u d.tau htu hlu ?_,
            Prog.ex_affine _ ENNReal.ofReal_ne_top, ih, val_affine,
            ENNReal.ofReal_add (mul_nonneg hα (together_nonneg q u _ _ htu hlu)) hβ, ENNReal.ofReal_mul hα]
          intro t' ho
          have ht' := ho.times htu
          have hn := together_nonneg q t' _ _ ht' (ht'.step (fun a b h => h) ht.2.1)
          simp only [Except.map, worth]
          rw [hmk, val_affine, ENNReal.ofReal_add (mul_nonneg hα hn) hβ, ENNReal.ofReal_mul hα]
        · rw [growP_congr' hlog f z label (φ' := fun x => ENNReal.ofReal (val ((d.box.extend z).outs q) ((d.box.extend z).aways q) q.size p.lifetime d.tau c ptau))
            u d.tau htu hlu ?_, Prog.ex_const]
          intro t' ho
          simp only [Except.map, worth]
          rw [hmk]
      split
      · simp only [Prog.ex_bind, Prog.ex]
        refine key l hs.2.1 ht.2.2.1 (fun l => .node id ⟨d.tau, d.box.extend z, d.counts⟩ dim sp l r)
          (fun l => goal q p.lifetime (.node id d dim sp l r)) (fun u' => rfl) ?_ (grow_ex hlog hq f z label l d.tau hs.2.1 ht.2.2.1 hl)
        by_cases hside : q.upper dim ≤ sp
        · left; funext u'; simp [goal, hside]
        · right
          by_cases hside' : sp < q.lower dim
          · exact ⟨together q p.lifetime r d.tau, together_nonneg q r _ _ ht.2.2.2 hr, by funext u'; simp [goal, hside, hside']⟩
          · exact ⟨0, le_rfl, by funext u'; simp [goal, hside, hside']⟩
      · simp only [Prog.ex_bind, Prog.ex]
        refine key r hs.2.2 ht.2.2.2 (fun r => .node id ⟨d.tau, d.box.extend z, d.counts⟩ dim sp l r)
          (fun r => goal q p.lifetime (.node id d dim sp l r)) (fun u' => rfl) ?_ (grow_ex hlog hq f z label r d.tau hs.2.2 ht.2.2.2 hr)
        by_cases hside : q.upper dim ≤ sp
        · right; exact ⟨together q p.lifetime l d.tau, together_nonneg q l _ _ ht.2.2.1 hl, by funext u'; simp [goal, hside]⟩
        · by_cases hside' : sp < q.lower dim
          · left; funext u'; simp [goal, hside, hside']
          · right; exact ⟨0, le_rfl, by funext u'; simp [goal, hside, hside']⟩

end Orp.Mondrian
