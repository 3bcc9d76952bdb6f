import Verif.Mondrian.Prog

/-!
The growth of a tree as a program that draws random numbers, and the expectation over its random choices.
-/

set_option linter.unusedSectionVars false

namespace Orp.Mondrian

open MeasureTheory Orp.Reservoir

variable {F L : Nat}

/-- the second and the third draw of a split: dimension and value -/
noncomputable def cutOf (b : Box ℝ F) (x : Fin F → ℝ) (tau : ℝ) (u v : U01) : Res (Option (Cut ℝ F)) :=
  match pickDim (fun _ => u.1) 0 (extent b x) (∑ i, extent b x i) with
  | .error e => .error e
  | .ok (d, _) =>
    match cutAt (fun _ => v.1) 0 b x d tau with
    | .error e => .error e
    | .ok (c, _) => .ok (some c)

/-- the time of a split, for the first draw -/
noncomputable def timeOf (p : Params ℝ) (b : Box ℝ F) (x : Fin F → ℝ) (ptau : ℝ) (u : U01) : ℝ := ptau + p.log (1 - u.1) / (-b.dist x)

/-- the random choices of one node as a program -/
noncomputable def drawP (p : Params ℝ) (b : Box ℝ F) (x : Fin F → ℝ) (ptau tau : ℝ) : Prog (Res (Option (Cut ℝ F))) :=
  if b.dist x = 0 then .ret (.ok none)
  else .ask fun u =>
    if 0 ≤ p.log (1 - u.1) / (-b.dist x) ∧ timeOf p b x ptau u < tau then .ask fun v => .ask fun w => .ret (cutOf b x (timeOf p b x ptau u) v w)
    else .ret (.ok none)

/-- the growth of a tree as a program -/
noncomputable def growP (p : Params ℝ) (f : Nat × Nat) (x : Fin F → ℝ) (label : Fin L) : Tree ℝ F L → ℝ → Prog (Res (Tree ℝ F L))
  | .leaf id d, ptau => (drawP p d.box x ptau d.tau).bind fun c =>
      match c with
      | .error e => .ret (.error e)
      | .ok (some c) => .ret (.ok (above p.lifetime f c (.leaf id d) x label))
      | .ok none => .ret (.ok (.leaf id { tau := d.tau, box := d.box.extend x, counts := bump d.counts label }))
  | .node id d dim sp l r, ptau => (drawP p d.box x ptau d.tau).bind fun c =>
      match c with
      | .error e => .ret (.error e)
      | .ok (some c) => .ret (.ok (above p.lifetime f c (.node id d dim sp l r) x label))
      | .ok none =>
        if x dim ≤ sp then (growP p f x label l d.tau).bind fun q =>
          .ret (q.map fun l => .node id { tau := d.tau, box := d.box.extend x, counts := d.counts } dim sp l r)
        else (growP p f x label r d.tau).bind fun q =>
          .ret (q.map fun r => .node id { tau := d.tau, box := d.box.extend x, counts := d.counts } dim sp l r)

/-- a result with the position after -/
def withPos {α : Type} (q : Res α × Nat) : Res (α × Nat) := q.1.map fun a => (a, q.2)

theorem drawP_eval (p : Params ℝ) (ω : Nat → U01) (pos : Nat) (b : Box ℝ F) (x : Fin F → ℝ) (ptau tau : ℝ) :
    draw p (nums ω) pos b x ptau tau = withPos ((drawP p b x ptau tau).eval ω pos) := by
  unfold draw drawP timeOf
  simp only [dist_eq]
  by_cases he : b.dist x = 0
  · simp [he, Prog.eval, withPos, Except.map]
  · have hpos : 0 < b.dist x := lt_of_le_of_ne (dist_nonneg b x) (Ne.symm he)
    have hs : 0 < ∑ i, extent b x i := by rw [dist_eq]; exact hpos
    simp only [he, if_false, Prog.eval]
    have hn : (ω pos).1 = nums ω pos := rfl
    rw [hn]
    split
    · simp only [Prog.eval]
      obtain ⟨d, hd⟩ := pickDim_total ω (pos + 1) (extent b x) (extent_nonneg b x) hs
      have hd2 := pickDim_total (fun _ => ω (pos + 1)) 0 (extent b x) (extent_nonneg b x) hs
      obtain ⟨d', hd'⟩ := hd2
      have e1 := ((pickDim_eq ω (pos + 1) _ (extent_nonneg b x) hs d _).1 hd).1
      have e2 := (pickDim_eq (fun _ => ω (pos + 1)) 0 _ (extent_nonneg b x) hs d (0 + 1)).2 ⟨e1, rfl⟩
      have hn2 : nums (fun _ => ω (pos + 1)) = fun _ => (ω (pos + 1)).1 := rfl
      rw [hn2] at e2
      rw [← dist_eq, hd]
      simp only [cutOf, e2, bind, Except.bind]
      by_cases hx : b.upper d < x d ∨ x d < b.lower d
      · rw [cutAt_eq ω _ hx]
        have := cutAt_eq (fun _ => ω (pos + 1 + 1)) 0 hx (ptau + p.log (1 - nums ω pos) / (-∑ i, extent b x i))
        have hn3 : nums (fun _ => ω (pos + 1 + 1)) = fun _ => (ω (pos + 1 + 1)).1 := rfl
        rw [hn3] at this
        rw [this]
        simp [withPos, Except.map, pure, Except.pure, nums]
      · push Not at hx
        have h1 : ¬ b.upper d < x d := not_lt.2 hx.1
        have h2 : ¬ x d < b.lower d := not_lt.2 hx.2
        simp [cutAt, h1, h2, bind, Except.bind, withPos, Except.map]
    · simp [Prog.eval, withPos, Except.map]

theorem growP_eval (p : Params ℝ) (ω : Nat → U01) (f : Nat × Nat) (x : Fin F → ℝ) (label : Fin L) : ∀ (t : Tree ℝ F L) (ptau : ℝ) (pos : Nat),
    grow p (nums ω) (some f) x label t ptau pos = withPos ((growP p f x label t ptau).eval ω pos)
  | .leaf id d, ptau, pos => by
      simp only [grow, growP, Prog.eval_bind, drawP_eval, withPos]
      cases h : ((drawP p d.box x ptau d.tau).eval ω pos).1 with
      | error e => simp [Except.map, Prog.eval]
      | ok c => cases c <;> simp [Except.map, both, Prog.eval]
  | .node id d dim sp l r, ptau, pos => by
      simp only [grow, growP, Prog.eval_bind, drawP_eval, withPos]
      cases h : ((drawP p d.box x ptau d.tau).eval ω pos).1 with
      | error e => simp [Except.map, Prog.eval]
      | ok c =>
        cases c with
        | some c => simp [Except.map, both, Prog.eval]
        | none =>
          simp only [Except.map, both]
          split
          · rw [growP_eval p ω f x label l]
            simp only [Prog.eval_bind, withPos]
            cases h2 : ((growP p f x label l d.tau).eval ω ((drawP p d.box x ptau d.tau).eval ω pos).2).1 <;> simp [Except.map, Prog.eval]
          · rw [growP_eval p ω f x label r]
            simp only [Prog.eval_bind, withPos]
            cases h2 : ((growP p f x label r d.tau).eval ω ((drawP p d.box x ptau d.tau).eval ω pos).2).1 <;> simp [Except.map, Prog.eval]

/-! ### Expectations -/

/-- the cut of a draw -/
noncomputable def cutWith (b : Box ℝ F) (x : Fin F → ℝ) (d : Fin F) (tau : ℝ) (w : U01) : Cut ℝ F :=
  ⟨d, w.1 * (b.gapHigh x d - b.gapLow x d) + b.gapLow x d, tau, decide (x d = b.gapHigh x d)⟩

/-- the expectation over dimension and value -/
theorem cutOf_ex {b : Box ℝ F} {x : Fin F → ℝ} (hpos : 0 < b.dist x) (tau : ℝ) (Φ : Res (Option (Cut ℝ F)) → ENNReal) :
    ∫⁻ u, ∫⁻ w, Φ (cutOf b x tau u w) = ∑ d, ENNReal.ofReal (b.distIn x d / b.dist x) * ∫⁻ w, Φ (.ok (some (cutWith b x d tau w))) := by
  have hs : 0 < ∑ i, extent b x i := by rw [dist_eq]; exact hpos
  have key : ∀ u : U01, ∫⁻ w, Φ (cutOf b x tau u w) = ∑ d, (picks (extent b x) d).indicator
      (fun _ => ∫⁻ w : U01, Φ (match cutAt (fun _ => w.1) 0 b x d tau with
        | .error e => .error e
        | .ok (c, _) => .ok (some c))) u := by
    intro u
    obtain ⟨d, hd⟩ := pickDim_total (fun _ => u) 0 (extent b x) (extent_nonneg b x) hs
    have e1 := ((pickDim_eq (fun _ => u) 0 _ (extent_nonneg b x) hs d _).1 hd).1
    rw [Finset.sum_eq_single d]
    · rw [Set.indicator_of_mem e1]
      have hn : nums (fun _ => u) = fun _ => u.1 := rfl
      rw [hn] at hd
      simp only [cutOf, hd]
    · intro d' _ hne
      refine Set.indicator_of_notMem (fun h => hne ?_) _
      obtain ⟨r, h1, h2⟩ := e1
      obtain ⟨r', h1', h2'⟩ := h
      rw [h1] at h1'
      cases h1'
      exact Fin.ext (h2'.symm.trans h2)
    · simp
  simp only [key]
  rw [lintegral_finset_sum']
  · refine Finset.sum_congr rfl fun d _ => ?_
    obtain ⟨r, -, hm, hv⟩ := picks_iff (extent b x) (extent_nonneg b x) hs d
    rw [lintegral_indicator_const hm, hv, mul_comm, extent_eq, dist_eq]
    by_cases hd : 0 < extent b x d
    · congr 1
      refine lintegral_congr fun w => ?_
      have := cutAt_eq (fun _ => w) 0 (extent_pos hd) tau
      have hn : nums (fun _ => w) = fun _ => w.1 := rfl
      rw [hn] at this
      rw [this]
      rfl
    · have : b.distIn x d = 0 := by rw [← extent_eq]; exact le_antisymm (not_lt.1 hd) (extent_nonneg b x d)
      simp [this]
  · intro d _
    obtain ⟨r, -, hm, -⟩ := picks_iff (extent b x) (extent_nonneg b x) hs d
    exact (measurable_const.indicator hm).aemeasurable

/-- the expectation over the random choices of a node -/
theorem drawP_ex {p : Params ℝ} (hlog : p.log = Real.log) {b : Box ℝ F} {x : Fin F → ℝ} (hpos : 0 < b.dist x) {ptau tau : ℝ} (ht : ptau ≤ tau)
    (Φ : Res (Option (Cut ℝ F)) → ENNReal) :
    (drawP p b x ptau tau).ex Φ = (∫⁻ u in {u : U01 | u.1 < 1 - Real.exp (-(b.dist x * (tau - ptau)))},
        ∑ d, ENNReal.ofReal (b.distIn x d / b.dist x) * ∫⁻ w, Φ (.ok (some (cutWith b x d (timeOf p b x ptau u) w)))) +
      ENNReal.ofReal (Real.exp (-(b.dist x * (tau - ptau)))) * Φ (.ok none) := by
  have hS : MeasurableSet {u : U01 | u.1 < 1 - Real.exp (-(b.dist x * (tau - ptau)))} := measurableSet_lt measurable_subtype_coe measurable_const
  have h1 : Real.exp (-(b.dist x * (tau - ptau))) ≤ 1 := Real.exp_le_one_iff.2 (by
    have := mul_nonneg hpos.le (sub_nonneg.2 ht); linarith)
  have hiff : ∀ u : U01, (0 ≤ p.log (1 - u.1) / (-b.dist x) ∧ timeOf p b x ptau u < tau) ↔ u.1 < 1 - Real.exp (-(b.dist x * (tau - ptau))) := by
    intro u
    rw [timeOf, hlog, ← log_lt_iff hpos u.2.2]
    constructor
    · rintro ⟨-, h⟩; linarith
    · intro h; exact ⟨log_nonneg' hpos u.2.1 u.2.2, by linarith⟩
  have hc : {u : U01 | u.1 < 1 - Real.exp (-(b.dist x * (tau - ptau)))}ᶜ = {u : U01 | 1 - Real.exp (-(b.dist x * (tau - ptau))) ≤ u.1} := by ext u; simp
  unfold drawP
  rw [if_neg hpos.ne']
  simp only [Prog.ex]
  rw [← lintegral_add_compl _ hS]
  congr 1
  · refine setLIntegral_congr_fun hS fun u hu => ?_
    simp only [if_pos ((hiff u).2 hu), Prog.ex]
    exact cutOf_ex hpos _ Φ
  · rw [setLIntegral_congr_fun hS.compl (g := fun _ => Φ (.ok none)) fun u hu => by
      simp only [if_neg fun h => hu ((hiff u).1 h), Prog.ex]]
    rw [setLIntegral_const, hc, vol_le (Real.exp_nonneg _) h1, mul_comm]

end Orp.Mondrian
