import Verif.Mondrian.Props
import Verif.Mondrian.LawSpec

/-!
The random choices of `extend_block` with ideal independent uniform random numbers: which draws lead to which growth of a tree.
-/

set_option linter.unusedSectionVars false

namespace Orp.Mondrian

open MeasureTheory Orp.Reservoir

/-! ### Sequences of draws -/

instance : IsProbabilityMeasure draws := by unfold draws; infer_instance

theorem nums_range (ω : Nat → U01) (i : Nat) : 0 ≤ nums ω i ∧ nums ω i < 1 := (ω i).2

/-- the draws from position `pos` on are in the given sets, in turn -/
def Meets (ω : Nat → U01) : Nat → List (Set U01) → Prop
  | _, [] => True
  | pos, S :: Ss => ω pos ∈ S ∧ Meets ω (pos + 1) Ss

theorem meets_iff (ω : Nat → U01) : ∀ (pos : Nat) (Ss : List (Set U01)), Meets ω pos Ss ↔ ∀ i (h : i < Ss.length), ω (pos + i) ∈ Ss[i]
  | _, [] => by simp [Meets]
  | pos, S :: Ss => by
      rw [Meets, meets_iff ω (pos + 1) Ss]
      constructor
      · rintro ⟨h1, h2⟩ i hi
        cases i with
        | zero => exact h1
        | succ i =>
            have := h2 i (by simpa using hi)
            rw [show pos + (i + 1) = pos + 1 + i by omega]
            simpa using this
      · intro h
        refine ⟨h 0 (by simp), fun i hi => ?_⟩
        have := h (i + 1) (by simpa using hi)
        rw [show pos + 1 + i = pos + (i + 1) by omega]
        simpa using this

theorem prod_shift (f : Nat → ENNReal) (pos n : Nat) : ∏ i ∈ Finset.Ico pos (pos + n), f i = ∏ i ∈ Finset.range n, f (pos + i) := by
  rw [Finset.prod_Ico_eq_prod_range]; simp

/-- The probability that the draws are in the given sets is the product of the probabilities. -/
theorem meets_law (pos : Nat) (Ss : List (Set U01)) (hS : ∀ S ∈ Ss, MeasurableSet S) :
    draws {ω | Meets ω pos Ss} = (Ss.map fun S => volume S).prod := by
  let t : Nat → Set U01 := fun i => Ss.getD (i - pos) Set.univ
  have h1 : {ω : Nat → U01 | Meets ω pos Ss} = Set.pi (Finset.Ico pos (pos + Ss.length) : Finset Nat) t := by
    ext ω
    simp only [Set.mem_ofPred_eq, meets_iff, Set.mem_pi, Finset.coe_Ico, Set.mem_Ico]
    constructor
    · intro h i hi
      have := h (i - pos) (by omega)
      rw [show pos + (i - pos) = i by omega] at this
      simp only [t, List.getD_eq_getElem?_getD, List.getElem?_eq_getElem (show i - pos < Ss.length by omega), Option.getD_some]
      exact this
    · intro h i hi
      have := h (pos + i) (by omega)
      simp only [t, show pos + i - pos = i by omega, List.getD_eq_getElem?_getD, List.getElem?_eq_getElem hi, Option.getD_some] at this
      exact this
  rw [h1, draws, Measure.infinitePi_pi]
  · rw [prod_shift, Finset.prod_range, ← Fin.prod_univ_fun_getElem]
    refine Finset.prod_congr rfl fun i _ => ?_
    simp [t, List.getD_eq_getElem?_getD, List.getElem?_eq_getElem i.2]
  · intro i hi
    have hi := Finset.mem_Ico.1 hi
    simp only [t, List.getD_eq_getElem?_getD, List.getElem?_eq_getElem (show i - pos < Ss.length by omega), Option.getD_some]
    exact hS _ (List.getElem_mem _)

/-! ### One node -/

variable {F L : Nat}

theorem extent_eq (b : Box ℝ F) (x : Fin F → ℝ) (i : Fin F) : extent b x i = b.distIn x i := by
  unfold extent Box.distIn
  congr 1
  · split
    · rename_i h; rw [max_eq_left h.le]
    · rename_i h; rw [max_eq_right (not_lt.1 h)]
  · split
    · rename_i h; rw [max_eq_left h.le]
    · rename_i h; rw [max_eq_right (not_lt.1 h)]

theorem dist_eq (b : Box ℝ F) (x : Fin F → ℝ) : ∑ i, extent b x i = b.dist x := by
  unfold Box.dist; exact Finset.sum_congr rfl fun i _ => extent_eq b x i

theorem dist_nonneg (b : Box ℝ F) (x : Fin F → ℝ) : 0 ≤ b.dist x := by rw [← dist_eq]; exact sum_nonneg' b x

/-- the draws with which no node is introduced above a node at time `tau`, whose box has distance `e` from the point -/
noncomputable def stays (e ptau tau : ℝ) : List (Set U01) := if e = 0 then [] else [{u | 1 - Real.exp (-(e * (tau - ptau))) ≤ u.1}]

theorem log_lt_iff {e u w : ℝ} (he : 0 < e) (hu : u < 1) : Real.log (1 - u) / (-e) < w ↔ u < 1 - Real.exp (-(e * w)) := by
  have h1 : 0 < 1 - u := by linarith
  rw [div_neg, neg_lt, lt_div_iff₀ he, Real.lt_log_iff_exp_lt h1]
  constructor
  · intro h
    rw [show -(e * w) = -w * e by ring]; linarith
  · intro h
    rw [show -(e * w) = -w * e by ring] at h; linarith

theorem log_nonneg' {e u : ℝ} (he : 0 < e) (h0 : 0 ≤ u) (hu : u < 1) : 0 ≤ Real.log (1 - u) / (-e) :=
  div_nonneg_of_nonpos (Real.log_nonpos (by linarith) (by linarith)) (by linarith)

theorem draw_stays {p : Params ℝ} (hlog : p.log = Real.log) (ω : Nat → U01) (pos : Nat) (b : Box ℝ F) (x : Fin F → ℝ) (ptau tau : ℝ) :
    (∃ pos', draw p (nums ω) pos b x ptau tau = .ok (none, pos')) ↔ Meets ω pos (stays (b.dist x) ptau tau) := by
  unfold draw stays
  simp only [dist_eq]
  by_cases he : b.dist x = 0
  · simp [he, Meets]
  · have hpos : 0 < b.dist x := lt_of_le_of_ne (dist_nonneg b x) (Ne.symm he)
    simp only [he, if_false, Meets, and_true, Set.mem_ofPred_eq, hlog]
    have h0 := log_nonneg' hpos (nums_range ω pos).1 (nums_range ω pos).2
    have hiff := log_lt_iff (w := tau - ptau) hpos (nums_range ω pos).2
    by_cases hc : nums ω pos < 1 - Real.exp (-(b.dist x * (tau - ptau)))
    · have : ptau + Real.log (1 - nums ω pos) / (-b.dist x) < tau := by have := hiff.2 hc; linarith
      rw [if_pos ⟨h0, this⟩]
      constructor
      · rintro ⟨pos', h⟩
        exfalso
        cases hd : pickDim (nums ω) (pos + 1) (extent b x) (b.dist x) with
        | error y => simp [hd, bind, Except.bind] at h
        | ok q =>
          cases hk : cutAt (nums ω) q.2 b x q.1 (ptau + Real.log (1 - nums ω pos) / (-b.dist x)) with
          | error y => simp [hd, hk, bind, Except.bind] at h
          | ok q' => simp [hd, hk, bind, Except.bind, pure, Except.pure] at h
      · intro h
        exact absurd hc (not_lt.2 h)
    · have : ¬ (0 ≤ Real.log (1 - nums ω pos) / (-b.dist x) ∧ ptau + Real.log (1 - nums ω pos) / (-b.dist x) < tau) := by
        rintro ⟨_, h⟩; exact hc (hiff.1 (by linarith))
      rw [if_neg this]
      simp only [Except.ok.injEq, Prod.mk.injEq, true_and, exists_eq', true_iff]
      exact not_lt.1 hc

theorem draw_none_pos {p : Params ℝ} {ω : Nat → U01} {pos pos' : Nat} {b : Box ℝ F} {x : Fin F → ℝ} {ptau tau : ℝ}
    (h : draw p (nums ω) pos b x ptau tau = .ok (none, pos')) : pos' = pos + (stays (b.dist x) ptau tau).length := by
  unfold draw at h
  simp only [dist_eq] at h
  unfold stays
  by_cases he : b.dist x = 0
  · simp [he] at h ⊢; exact h.symm
  · simp only [he, if_false] at h ⊢
    split at h
    · exfalso
      cases hd : pickDim (nums ω) (pos + 1) (extent b x) (b.dist x) with
      | error y => simp [hd, bind, Except.bind] at h
      | ok q =>
        cases hk : cutAt (nums ω) q.2 b x q.1 (ptau + p.log (1 - nums ω pos) / (-b.dist x)) with
        | error y => simp [hd, hk, bind, Except.bind] at h
        | ok q' => simp [hd, hk, bind, Except.bind, pure, Except.pure] at h
    · simp at h ⊢; exact h.symm

theorem stays_meas (e ptau tau : ℝ) : ∀ S ∈ stays e ptau tau, MeasurableSet S := by
  unfold stays
  split
  · simp
  · simp only [List.mem_singleton, forall_eq]
    exact measurableSet_le measurable_const measurable_subtype_coe

theorem vol_le {c : ℝ} (h0 : 0 ≤ c) (h1 : c ≤ 1) : volume {u : U01 | 1 - c ≤ u.1} = ENNReal.ofReal c := by
  have hm : MeasurableSet {u : U01 | u.1 < 1 - c} := measurableSet_lt measurable_subtype_coe measurable_const
  have h := prob_compl_eq_one_sub (μ := (volume : Measure U01)) hm
  rw [vol_lt (by linarith)] at h
  have e : {u : U01 | u.1 < 1 - c}ᶜ = {u : U01 | 1 - c ≤ u.1} := by ext u; simp
  rw [← e, h, ← ENNReal.ofReal_one, ← ENNReal.ofReal_sub _ (by linarith)]
  congr 1; ring

theorem stays_prod {e ptau tau : ℝ} (he : 0 ≤ e) (ht : ptau ≤ tau) :
    ((stays e ptau tau).map fun S => volume S).prod = ENNReal.ofReal (Real.exp (-(e * (tau - ptau)))) := by
  unfold stays
  split
  · rename_i h; simp [h]
  · have h1 : Real.exp (-(e * (tau - ptau))) ≤ 1 := Real.exp_le_one_iff.2 (by
      have := mul_nonneg he (sub_nonneg.2 ht); linarith)
    simp only [List.map_cons, List.map_nil, List.prod_cons, List.prod_nil, mul_one]
    exact vol_le (Real.exp_nonneg _) h1

/-- the draws that select the dimension `d` -/
def picks (e : Fin F → ℝ) (d : Fin F) : Set U01 := {u | ∃ r, Utils.turnIntoProbability (List.ofFn e) (∑ i, e i) = .ok r ∧ Utils.pick r u.1 = d.val}

/-- the draws with which a node is introduced before the time `θ`, in the dimension `d` and with a split value below `v` -/
def cuts (b : Box ℝ F) (x : Fin F → ℝ) (ptau θ : ℝ) (d : Fin F) (v : ℝ) : List (Set U01) :=
  [{u | u.1 < 1 - Real.exp (-(b.dist x * (θ - ptau)))}, picks (extent b x) d, {u | u.1 * (b.gapHigh x d - b.gapLow x d) + b.gapLow x d < v}]

theorem probs_ok (e : Fin F → ℝ) (he : ∀ i, 0 ≤ e i) (hs : 0 < ∑ i, e i) :
    ∃ r : List ℝ, Utils.turnIntoProbability (List.ofFn e) (∑ i, e i) = .ok r ∧ r.length = F ∧ (∀ i j (_ : i ≤ j) (h : j < r.length), r[i] ≤ r[j]) ∧
      r.getLast? = some 1 ∧ (∀ y ∈ r, 0 ≤ y) ∧
      ∀ (d : Fin F) (h : d.val < r.length), (if h' : 1 ≤ d.val then r[d.val] - r[d.val - 1] else r[d.val]) = e d / ∑ i, e i := by
  have hsum : (List.ofFn e).sum = ∑ i, e i := by rw [List.sum_ofFn]
  obtain ⟨r, a1, a2, a3, a4, a5, a6, a7⟩ := Utils.C29_cumulative (List.ofFn e) (by simpa [List.mem_ofFn] using he) (by rw [hsum]; exact hs)
  have a1' : Utils.turnIntoProbability (List.ofFn e) (∑ i, e i) = .ok r := by
    rw [← a1]
    unfold Utils.turnIntoProbability
    rw [if_neg (not_lt.2 hs.le), if_pos (by norm_num), Utils.foldl_add, zero_add, hsum]
  refine ⟨r, a1', by rw [a2]; simp, a5, a7, fun y hy => ?_, fun d h => ?_⟩
  · obtain ⟨i, hi, rfl⟩ := List.mem_iff_getElem.1 hy
    exact (a4 i hi).1
  · split
    · rename_i h'
      obtain ⟨k, hk⟩ := Nat.exists_eq_add_of_le h'
      have := a6 k (by omega) (by simp; omega)
      rw [hsum] at this
      have e1 : d.val = k + 1 := by omega
      simp only [e1, Nat.add_sub_cancel]
      rw [this]
      congr 1
      simp only [List.getElem_ofFn]
      congr 1
      exact Fin.ext e1.symm
    · rename_i h'
      have e1 : d.val = 0 := by omega
      have := a3 0 (by omega)
      simp only [e1]
      rw [this, hsum]
      congr 1
      obtain ⟨n, rfl⟩ : ∃ n, F = n + 1 := ⟨F - 1, by have := d.2; omega⟩
      rw [List.ofFn_succ]
      simp only [Nat.zero_add, List.take_succ_cons, List.take_zero, List.sum_cons, List.sum_nil, add_zero]
      congr 1
      exact Fin.ext e1.symm

theorem pickDim_eq (ω : Nat → U01) (pos : Nat) (e : Fin F → ℝ) (he : ∀ i, 0 ≤ e i) (hs : 0 < ∑ i, e i) (d : Fin F) (pos' : Nat) :
    pickDim (nums ω) pos e (∑ i, e i) = .ok (d, pos') ↔ ω pos ∈ picks e d ∧ pos' = pos + 1 := by
  obtain ⟨r, h1, h2, h3, h4, -, -⟩ := probs_ok e he hs
  obtain ⟨b1, -⟩ := Utils.C30_first_index_partial r h3 h4 (nums_range ω pos).2
  have hd : Utils.pick r (nums ω pos) < F := by omega
  simp only [pickDim, h1, bind, Except.bind, hd, dif_pos, pure, Except.pure, picks, Set.mem_ofPred_eq, Except.ok.injEq, Prod.mk.injEq, exists_eq_left']
  constructor
  · rintro ⟨rfl, rfl⟩; exact ⟨rfl, rfl⟩
  · rintro ⟨h, rfl⟩; exact ⟨Fin.ext h, rfl⟩

theorem pickDim_total (ω : Nat → U01) (pos : Nat) (e : Fin F → ℝ) (he : ∀ i, 0 ≤ e i) (hs : 0 < ∑ i, e i) :
    ∃ d, pickDim (nums ω) pos e (∑ i, e i) = .ok (d, pos + 1) := by
  obtain ⟨r, h1, h2, h3, h4, -, -⟩ := probs_ok e he hs
  obtain ⟨b1, -⟩ := Utils.C30_first_index_partial r h3 h4 (nums_range ω pos).2
  have hd : Utils.pick r (nums ω pos) < F := by omega
  exact ⟨⟨_, hd⟩, (pickDim_eq ω pos e he hs _ _).2 ⟨⟨r, h1, rfl⟩, rfl⟩⟩

theorem picks_iff (e : Fin F → ℝ) (he : ∀ i, 0 ≤ e i) (hs : 0 < ∑ i, e i) (d : Fin F) :
    ∃ r : List ℝ, picks e d = {u : U01 | Utils.pick r u.1 = d.val} ∧ MeasurableSet (picks e d) ∧ volume (picks e d) = ENNReal.ofReal (e d / ∑ i, e i) := by
  obtain ⟨r, h1, h2, h3, h4, h5, h6⟩ := probs_ok e he hs
  have hd : d.val < r.length := by rw [h2]; exact d.2
  have hp : picks e d = {u : U01 | Utils.pick r u.1 = d.val} := by
    ext u
    simp only [picks, h1, Set.mem_ofPred_eq, Except.ok.injEq, exists_eq_left']
  refine ⟨r, hp, ?_, ?_⟩
  · have : picks e d = {u : U01 | ∀ h : 1 ≤ d.val, r[d.val - 1] < u.1} ∩ {u : U01 | u.1 ≤ r[d.val]} := by
      rw [hp]
      ext u
      exact (Utils.C30_first_index_partial r h3 h4 u.2.2).2 d.val hd
    rw [this]
    refine MeasurableSet.inter ?_ (measurableSet_le measurable_subtype_coe measurable_const)
    by_cases h : 1 ≤ d.val
    · simp only [h, forall_true_left]; exact measurableSet_lt measurable_const measurable_subtype_coe
    · simp [h]
  · rw [hp, Utils.C30_probability r h3 h4 h5 d.val hd, h6 d hd]

theorem cutAt_eq (ω : Nat → U01) (pos : Nat) {b : Box ℝ F} {x : Fin F → ℝ} {d : Fin F} (h : b.upper d < x d ∨ x d < b.lower d) (tau : ℝ) :
    cutAt (nums ω) pos b x d tau =
      .ok (⟨d, nums ω pos * (b.gapHigh x d - b.gapLow x d) + b.gapLow x d, tau, decide (x d = b.gapHigh x d)⟩, pos + 1) := by
  unfold cutAt Box.gapHigh Box.gapLow
  by_cases hu : b.upper d < x d
  · simp [if_pos hu, bind, Except.bind, pure, Except.pure]
  · have hl := h.resolve_left hu
    simp [if_neg hu, if_pos hl, bind, Except.bind, pure, Except.pure]

theorem draw_cuts {p : Params ℝ} (hlog : p.log = Real.log) (ω : Nat → U01) (pos : Nat) (b : Box ℝ F) (x : Fin F → ℝ) {ptau tau θ : ℝ} (hθ : θ ≤ tau)
    (d : Fin F) (hd : 0 < extent b x d) (v : ℝ) :
    (∃ c pos', draw p (nums ω) pos b x ptau tau = .ok (some c, pos') ∧ c.dim = d ∧ c.tau < θ ∧ c.split < v) ↔ Meets ω pos (cuts b x ptau θ d v) := by
  have hpos : 0 < b.dist x := by
    rw [← dist_eq]
    exact Finset.sum_pos' (fun i _ => extent_nonneg b x i) ⟨d, Finset.mem_univ _, hd⟩
  have hs : 0 < ∑ i, extent b x i := by rw [dist_eq]; exact hpos
  have he : b.dist x ≠ 0 := hpos.ne'
  have h0 := log_nonneg' hpos (nums_range ω pos).1 (nums_range ω pos).2
  have hiff := log_lt_iff (w := θ - ptau) hpos (nums_range ω pos).2
  simp only [cuts, Meets, and_true, Set.mem_ofPred_eq]
  unfold draw
  simp only [dist_eq, if_neg he, hlog]
  constructor
  · rintro ⟨c, pos', h, rfl, h2, h3⟩
    split at h
    · rename_i hc
      obtain ⟨d', hd'⟩ := pickDim_total ω (pos + 1) (extent b x) (extent_nonneg b x) hs
      rw [dist_eq] at hd'
      rw [hd'] at h
      simp only [bind, Except.bind] at h
      cases hk : cutAt (nums ω) (pos + 1 + 1) b x d' (ptau + Real.log (1 - nums ω pos) / (-b.dist x)) with
      | error y => simp [hk] at h
      | ok q' =>
        simp only [hk, pure, Except.pure, Except.ok.injEq, Prod.mk.injEq, Option.some.injEq] at h
        obtain ⟨rfl, rfl⟩ := h
        have hdd : q'.1.dim = d' := by
          unfold cutAt at hk
          by_cases hu : b.upper d' < x d'
          · simp only [if_pos hu, bind, Except.bind, pure, Except.pure, Except.ok.injEq] at hk
            rw [← hk]
          · by_cases hl : x d' < b.lower d'
            · simp only [if_neg hu, if_pos hl, bind, Except.bind, pure, Except.pure, Except.ok.injEq] at hk
              rw [← hk]
            · simp [if_neg hu, if_neg hl, bind, Except.bind] at hk
        rw [hdd] at hd ⊢
        rw [cutAt_eq ω _ (extent_pos hd)] at hk
        simp only [Except.ok.injEq] at hk
        subst hk
        simp only at h2 h3
        refine ⟨hiff.1 (by linarith), ?_, h3⟩
        rw [← dist_eq] at hd'
        exact ((pickDim_eq ω (pos + 1) _ (extent_nonneg b x) hs _ _).1 hd').1
    · simp at h
  · rintro ⟨a1, a2, a3⟩
    have hlt := hiff.2 a1
    rw [if_pos ⟨h0, by linarith⟩]
    have hd' := (pickDim_eq ω (pos + 1) _ (extent_nonneg b x) hs d _).2 ⟨a2, rfl⟩
    rw [dist_eq] at hd'
    rw [hd']
    simp only [bind, Except.bind, cutAt_eq ω _ (extent_pos hd), pure, Except.pure]
    exact ⟨_, _, rfl, rfl, by simp only; linarith, a3⟩

theorem gap_extent {b : Box ℝ F} (hb : ∀ i, b.lower i ≤ b.upper i) {x : Fin F → ℝ} {d : Fin F} (hd : 0 < extent b x d) :
    b.gapHigh x d - b.gapLow x d = extent b x d := by
  rw [extent_eq]
  unfold Box.distIn Box.gapHigh Box.gapLow
  have := hb d
  rcases extent_pos hd with h | h
  · rw [if_pos h, if_pos h, max_eq_right (by linarith), max_eq_left (by linarith)]; ring
  · have h' : ¬ b.upper d < x d := by linarith
    rw [if_neg h', if_neg h', max_eq_left (by linarith), max_eq_right (by linarith)]; ring

theorem cuts_meas {b : Box ℝ F} {x : Fin F → ℝ} {ptau θ : ℝ} {d : Fin F} (hd : 0 < extent b x d) {v : ℝ} : ∀ S ∈ cuts b x ptau θ d v, MeasurableSet S := by
  have hs : 0 < ∑ i, extent b x i := Finset.sum_pos' (fun i _ => extent_nonneg b x i) ⟨d, Finset.mem_univ _, hd⟩
  obtain ⟨r, -, h, -⟩ := picks_iff (extent b x) (extent_nonneg b x) hs d
  intro S hS
  simp only [cuts, List.mem_cons, List.not_mem_nil, or_false] at hS
  rcases hS with rfl | rfl | rfl
  · exact measurableSet_lt measurable_subtype_coe measurable_const
  · exact h
  · exact measurableSet_lt ((measurable_subtype_coe.mul_const _).add_const _) measurable_const

theorem cuts_prod {b : Box ℝ F} (hb : ∀ i, b.lower i ≤ b.upper i) {x : Fin F → ℝ} {ptau θ : ℝ} (hθ : ptau ≤ θ) {d : Fin F} (hd : 0 < extent b x d) {v : ℝ}
    (hv : v ≤ b.gapHigh x d) :
    ((cuts b x ptau θ d v).map fun S => volume S).prod =
      ENNReal.ofReal ((1 - Real.exp (-(b.dist x * (θ - ptau)))) * ((v - b.gapLow x d) / b.dist x)) := by
  have hs : 0 < ∑ i, extent b x i := Finset.sum_pos' (fun i _ => extent_nonneg b x i) ⟨d, Finset.mem_univ _, hd⟩
  have hpos : 0 < b.dist x := by rw [← dist_eq]; exact hs
  obtain ⟨r, -, -, h⟩ := picks_iff (extent b x) (extent_nonneg b x) hs d
  have hg := gap_extent hb hd
  simp only [cuts, List.map_cons, List.map_nil, List.prod_cons, List.prod_nil, mul_one]
  have h1 : Real.exp (-(b.dist x * (θ - ptau))) ≤ 1 := Real.exp_le_one_iff.2 (by
    have := mul_nonneg hpos.le (sub_nonneg.2 hθ); linarith)
  have e3 : {u : U01 | u.1 * (b.gapHigh x d - b.gapLow x d) + b.gapLow x d < v} = {u : U01 | u.1 < (v - b.gapLow x d) / extent b x d} := by
    ext u
    simp only [Set.mem_ofPred_eq]
    rw [hg, lt_div_iff₀ hd]
    constructor <;> intro h <;> linarith
  rw [vol_lt (by linarith [Real.exp_nonneg (-(b.dist x * (θ - ptau)))]), h, e3, vol_lt (by rw [div_le_one hd]; linarith), dist_eq,
    ← ENNReal.ofReal_mul (by positivity), ← ENNReal.ofReal_mul (by linarith)]
  congr 1
  field_simp

/-! ### Trees -/

/-- the draws with which no node is introduced at the nodes of a way -/
noncomputable def staysAll (x : Fin F → ℝ) (qs : List (ℝ × Data ℝ F L)) : List (Set U01) := qs.flatMap fun q => stays (q.2.box.dist x) q.1 q.2.tau

/-- the draws with which an event happens -/
noncomputable def Growth.conds (x : Fin F → ℝ) (t : Tree ℝ F L) (ptau : ℝ) : Growth F → List (Set U01)
  | .stays => staysAll x (t.path x ptau)
  | .splits j dim θ v =>
    match (t.path x ptau)[j]? with
    | none => []
    | some q => staysAll x ((t.path x ptau).take j) ++ cuts q.2.box x q.1 θ dim v

theorem meets_append (ω : Nat → U01) : ∀ (pos : Nat) (As Bs : List (Set U01)), Meets ω pos (As ++ Bs) ↔ Meets ω pos As ∧ Meets ω (pos + As.length) Bs
  | _, [], _ => by simp [Meets]
  | pos, A :: As, Bs => by
      simp only [List.cons_append, Meets, meets_append ω (pos + 1) As Bs, List.length_cons, and_assoc]
      rw [show pos + 1 + As.length = pos + (As.length + 1) by omega]

theorem draw_some_pos {p : Params ℝ} {ω : Nat → U01} {pos pos' : Nat} {b : Box ℝ F} {x : Fin F → ℝ} {ptau tau : ℝ} {c : Cut ℝ F}
    (h : draw p (nums ω) pos b x ptau tau = .ok (some c, pos')) : pos' = pos + 3 ∧ 0 < b.dist x := by
  unfold draw at h
  simp only [dist_eq] at h
  by_cases he : b.dist x = 0
  · simp [he] at h
  · have hpos : 0 < b.dist x := lt_of_le_of_ne (dist_nonneg b x) (Ne.symm he)
    have hs : 0 < ∑ i, extent b x i := by rw [dist_eq]; exact hpos
    simp only [he, if_false] at h
    split at h
    · obtain ⟨d', hd'⟩ := pickDim_total ω (pos + 1) (extent b x) (extent_nonneg b x) hs
      rw [dist_eq] at hd'
      rw [hd'] at h
      simp only [bind, Except.bind] at h
      cases hk : cutAt (nums ω) (pos + 1 + 1) b x d' (ptau + p.log (1 - nums ω pos) / (-b.dist x)) with
      | error y => simp [hk] at h
      | ok q' =>
        obtain ⟨-, -, h3⟩ := cutAt_spec (nums_range ω _).1 (nums_range ω _).2 hk
        simp only [hk, pure, Except.pure, Except.ok.injEq, Prod.mk.injEq, Option.some.injEq] at h
        exact ⟨by rw [← h.2, h3], hpos⟩
    · simp at h

theorem sub_above {c : Cut ℝ F} {t : Tree ℝ F L} {x : Fin F → ℝ} (hc : c.Ok t.data.box x) (life : ℝ) (f : Nat × Nat) (label : Fin L) (j : Nat) :
    (above life f c t x label).sub x (j + 1) = (newLeaf life f.2 x label).sub x j := by
  unfold above
  rcases hc.sides with ⟨h1, -, h3⟩ | ⟨h1, h2, -⟩
  · simp only [h1, if_true, Tree.sub, if_neg (not_le.2 h3)]
  · simp only [h1, Bool.false_eq_true, if_false, Tree.sub, if_pos h2]

theorem above_sub {c : Cut ℝ F} {t : Tree ℝ F L} {x : Fin F → ℝ} (life : ℝ) (f : Nat × Nat) (label : Fin L) :
    ∃ d l r, d.tau = c.tau ∧ above life f c t x label = .node f.1 d c.dim c.split l r := by
  unfold above
  by_cases h : c.right
  · exact ⟨⟨c.tau, t.data.box.extend x, fun _ => 0⟩, _, _, rfl, by simp only [h, if_true]; rfl⟩
  · exact ⟨⟨c.tau, t.data.box.extend x, fun _ => 0⟩, _, _, rfl, by simp only [h]; rfl⟩

theorem above_length (life : ℝ) (f : Nat × Nat) (c : Cut ℝ F) (t : Tree ℝ F L) (x : Fin F → ℝ) (label : Fin L) :
    (above life f c t x label).ids.length = t.ids.length + 2 := by
  unfold above
  by_cases h : c.right <;> simp [h, Tree.ids, newLeaf] <;> omega

/-- the new split, with a place outside `I` -/
def NewAt (x : Fin F → ℝ) (I : List Nat) (t' : Tree ℝ F L) (j : Nat) (dim : Fin F) (θ v : ℝ) : Prop :=
  ∃ id d sp l r, t'.sub x j = some (.node id d dim sp l r) ∧ id ∉ I ∧ d.tau < θ ∧ sp < v

/-- Which draws leave the tree without new nodes -/
theorem grow_stays {p : Params ℝ} (hlog : p.log = Real.log) (ω : Nat → U01) (f : Nat × Nat) (x : Fin F → ℝ) (label : Fin L) :
    ∀ (t : Tree ℝ F L) (ptau : ℝ) (pos : Nat),
      (∀ t' pos', grow p (nums ω) (some f) x label t ptau pos = .ok (t', pos') → t'.ids.length = t.ids.length →
        Meets ω pos (staysAll x (t.path x ptau)) ∧ pos' = pos + (staysAll x (t.path x ptau)).length) ∧
      (Meets ω pos (staysAll x (t.path x ptau)) → ∃ t', grow p (nums ω) (some f) x label t ptau pos =
        .ok (t', pos + (staysAll x (t.path x ptau)).length) ∧ t'.ids.length = t.ids.length)
  | .leaf id d, ptau, pos => by
      simp only [Tree.path, staysAll, List.flatMap_cons, List.flatMap_nil, List.append_nil]
      have hs := draw_stays hlog ω pos d.box x ptau d.tau
      constructor
      · intro t' pos' h hl
        unfold grow at h
        cases hd : draw p (nums ω) pos d.box x ptau d.tau with
        | error e => simp [hd] at h
        | ok q =>
          obtain ⟨c, pos1⟩ := q
          cases c with
          | some c =>
            simp only [hd, both, Except.ok.injEq, Prod.mk.injEq] at h
            rw [← h.1, above_length] at hl
            omega
          | none =>
            simp only [hd, both, Except.ok.injEq, Prod.mk.injEq] at h
            exact ⟨hs.1 ⟨_, hd⟩, by rw [← h.2]; exact draw_none_pos hd⟩
      · intro h
        obtain ⟨pos', hd⟩ := hs.2 h
        have hp := draw_none_pos hd
        subst hp
        exact ⟨.leaf id { tau := d.tau, box := d.box.extend x, counts := bump d.counts label }, by simp only [grow, hd, both], rfl⟩
  | .node id d dim sp l r, ptau, pos => by
      have hs := draw_stays hlog ω pos d.box x ptau d.tau
      by_cases hx : x dim ≤ sp
      · simp only [Tree.path, if_pos hx, staysAll, List.flatMap_cons, meets_append, List.length_append]
        obtain ⟨ih1, ih2⟩ := grow_stays hlog ω f x label l d.tau (pos + (stays (d.box.dist x) ptau d.tau).length)
        constructor
        · intro t' pos' h hl
          unfold grow at h
          cases hd : draw p (nums ω) pos d.box x ptau d.tau with
          | error e => simp [hd] at h
          | ok q =>
            obtain ⟨c, pos1⟩ := q
            cases c with
            | some c =>
              simp only [hd, both, Except.ok.injEq, Prod.mk.injEq] at h
              rw [← h.1, above_length] at hl
              omega
            | none =>
              have hp := draw_none_pos hd
              subst hp
              simp only [hd, both, if_pos hx] at h
              cases hg : grow p (nums ω) (some f) x label l d.tau (pos + (stays (d.box.dist x) ptau d.tau).length) with
              | error e => simp [hg] at h
              | ok q =>
                simp only [hg, Except.ok.injEq, Prod.mk.injEq] at h
                obtain ⟨rfl, rfl⟩ := h
                obtain ⟨a1, a2⟩ := ih1 _ _ hg (by simp [Tree.ids] at hl; omega)
                exact ⟨⟨hs.1 ⟨_, hd⟩, a1⟩, by rw [a2, staysAll]; omega⟩
        · rintro ⟨h1, h2⟩
          obtain ⟨pos', hd⟩ := hs.2 h1
          have hp := draw_none_pos hd
          subst hp
          obtain ⟨t', e1, e2⟩ := ih2 h2
          exact ⟨_, by simp only [grow, hd, both, if_pos hx, e1]; rw [← add_assoc]; rfl, by simp [Tree.ids, e2]⟩
      · simp only [Tree.path, if_neg hx, staysAll, List.flatMap_cons, meets_append, List.length_append]
        obtain ⟨ih1, ih2⟩ := grow_stays hlog ω f x label r d.tau (pos + (stays (d.box.dist x) ptau d.tau).length)
        constructor
        · intro t' pos' h hl
          unfold grow at h
          cases hd : draw p (nums ω) pos d.box x ptau d.tau with
          | error e => simp [hd] at h
          | ok q =>
            obtain ⟨c, pos1⟩ := q
            cases c with
            | some c =>
              simp only [hd, both, Except.ok.injEq, Prod.mk.injEq] at h
              rw [← h.1, above_length] at hl
              omega
            | none =>
              have hp := draw_none_pos hd
              subst hp
              simp only [hd, both, if_neg hx] at h
              cases hg : grow p (nums ω) (some f) x label r d.tau (pos + (stays (d.box.dist x) ptau d.tau).length) with
              | error e => simp [hg] at h
              | ok q =>
                simp only [hg, Except.ok.injEq, Prod.mk.injEq] at h
                obtain ⟨rfl, rfl⟩ := h
                obtain ⟨a1, a2⟩ := ih1 _ _ hg (by simp [Tree.ids] at hl; omega)
                exact ⟨⟨hs.1 ⟨_, hd⟩, a1⟩, by rw [a2, staysAll]; omega⟩
        · rintro ⟨h1, h2⟩
          obtain ⟨pos', hd⟩ := hs.2 h1
          have hp := draw_none_pos hd
          subst hp
          obtain ⟨t', e1, e2⟩ := ih2 h2
          exact ⟨_, by simp only [grow, hd, both, if_neg hx, e1]; rw [← add_assoc]; rfl, by simp [Tree.ids, e2]⟩

theorem grow_id {p : Params ℝ} {ω : Nat → ℝ} {fresh : Option (Nat × Nat)} {x : Fin F → ℝ} {label : Fin L} {t t' : Tree ℝ F L} {ptau : ℝ} {pos pos' : Nat}
    (hd : ∃ pos1, draw p ω pos t.data.box x ptau t.data.tau = .ok (none, pos1)) (h : grow p ω fresh x label t ptau pos = .ok (t', pos')) : t'.id = t.id := by
  obtain ⟨pos1, hd⟩ := hd
  cases grow_grows _ _ _ _ _ _ _ _ _ _ h with
  | above hd' => rw [hd] at hd'; simp at hd'
  | leaf => rfl
  | left => rfl
  | right => rfl

/-- Which draws introduce a split above the root of the tree -/
theorem grow_top {p : Params ℝ} (hlog : p.log = Real.log) (ω : Nat → U01) (f : Nat × Nat) (x : Fin F → ℝ) (label : Fin L) (I : List Nat) (hf : f.1 ∉ I)
    (t : Tree ℝ F L) (ht : t.id ∈ I) (ptau : ℝ) (pos : Nat) {dim : Fin F} (hdim : 0 < extent t.data.box x dim) {θ : ℝ} (hθ : θ ≤ t.data.tau) (v : ℝ) :
    (∀ t' pos', grow p (nums ω) (some f) x label t ptau pos = .ok (t', pos') → NewAt x I t' 0 dim θ v →
      Meets ω pos (cuts t.data.box x ptau θ dim v) ∧ pos' = pos + 3) ∧
    (Meets ω pos (cuts t.data.box x ptau θ dim v) → ∃ t', grow p (nums ω) (some f) x label t ptau pos = .ok (t', pos + 3) ∧ NewAt x I t' 0 dim θ v) := by
  have hs := draw_cuts hlog ω pos t.data.box x (ptau := ptau) hθ dim hdim v
  constructor
  · rintro t' pos' h ⟨id, d, sp, l, r, a1, a2, a3, a4⟩
    simp only [Tree.sub, Option.some.injEq] at a1
    have hid : t'.id ≠ t.id := by rw [a1]; rintro rfl; exact a2 ht
    cases grow_grows _ _ _ _ _ _ _ _ _ _ h with
    | leaf => exact absurd rfl hid
    | left => exact absurd rfl hid
    | right => exact absurd rfl hid
    | @above _ _ _ _ c f' hd hf' =>
      obtain ⟨d', l', r', e1, e2⟩ := above_sub (c := c) (t := t) (x := x) p.lifetime f' label
      rw [e2] at a1
      injection a1 with b1 b2 b3 b4 b5 b6
      subst b2
      refine ⟨hs.1 ⟨c, _, hd, b3, by rw [← e1]; exact a3, by rw [b4]; exact a4⟩, (draw_some_pos hd).1⟩
  · intro h
    obtain ⟨c, pos', hd, h1, h2, h3⟩ := hs.2 h
    obtain ⟨hp, -⟩ := draw_some_pos hd
    subst hp
    obtain ⟨d', l', r', e1, e2⟩ := above_sub (c := c) (t := t) (x := x) p.lifetime f label
    refine ⟨above p.lifetime f c t x label, ?_, f.1, d', c.split, l', r', ?_, hf, by rw [e1]; exact h2, h3⟩
    · cases t <;> simp only [Tree.data] at hd <;> simp only [grow, hd, both]
    · rw [e2, h1]; rfl

/-- Which draws introduce a split on the way of the point -/
theorem grow_splits {p : Params ℝ} (hlog : p.log = Real.log) (ω : Nat → U01) (f : Nat × Nat) (x : Fin F → ℝ) (label : Fin L) (I : List Nat) (hf : f.1 ∉ I) :
    ∀ (t : Tree ℝ F L) (ptau : ℝ) (pos j : Nat) (q : ℝ × Data ℝ F L) (dim : Fin F) (θ v : ℝ), (∀ i ∈ t.ids, i ∈ I) → (t.path x ptau)[j]? = some q →
      0 < extent q.2.box x dim → θ ≤ q.2.tau →
      (∀ t' pos', grow p (nums ω) (some f) x label t ptau pos = .ok (t', pos') → NewAt x I t' j dim θ v →
        Meets ω pos (staysAll x ((t.path x ptau).take j) ++ cuts q.2.box x q.1 θ dim v) ∧
          pos' = pos + (staysAll x ((t.path x ptau).take j) ++ cuts q.2.box x q.1 θ dim v).length) ∧
      (Meets ω pos (staysAll x ((t.path x ptau).take j) ++ cuts q.2.box x q.1 θ dim v) → ∃ t', grow p (nums ω) (some f) x label t ptau pos =
        .ok (t', pos + (staysAll x ((t.path x ptau).take j) ++ cuts q.2.box x q.1 θ dim v).length) ∧ NewAt x I t' j dim θ v)
  | t, ptau, pos, 0, q, dim, θ, v, ht, hq, hdim, hθ => by
      have hq' : q = (ptau, t.data) := by cases t <;> simp [Tree.path, Tree.data] at hq ⊢ <;> exact hq.symm
      subst hq'
      have hid : t.id ∈ t.ids := by cases t <;> simp [Tree.ids, Tree.id]
      have := grow_top hlog ω f x label I hf t (ht _ hid) ptau pos hdim hθ v
      simpa [staysAll, cuts] using this
  | .leaf id d, ptau, pos, j + 1, q, dim, θ, v, ht, hq, hdim, hθ => by simp [Tree.path] at hq
  | .node id d dm sp l r, ptau, pos, j + 1, q, dim, θ, v, ht, hq, hdim, hθ => by
      have hs := draw_stays hlog ω pos d.box x ptau d.tau
      by_cases hx : x dm ≤ sp
      · simp only [Tree.path, if_pos hx] at hq ⊢
        rw [List.getElem?_cons_succ] at hq
        simp only [List.take_succ_cons, staysAll, List.flatMap_cons, List.append_assoc, meets_append, List.length_append]
        obtain ⟨ih1, ih2⟩ := grow_splits hlog ω f x label I hf l d.tau (pos + (stays (d.box.dist x) ptau d.tau).length) j q dim θ v
          (fun i hi => ht i (by simp [Tree.ids, hi])) hq hdim hθ
        simp only [staysAll, meets_append, List.length_append] at ih1 ih2
        constructor
        · intro t' pos' h hN
          unfold grow at h
          cases hd : draw p (nums ω) pos d.box x ptau d.tau with
          | error e => simp [hd] at h
          | ok q =>
            obtain ⟨c, pos1⟩ := q
            cases c with
            | some c =>
              simp only [hd, both, Except.ok.injEq, Prod.mk.injEq] at h
              obtain ⟨id', d', sp', l', r', a1, -⟩ := hN
              rw [← h.1, sub_above (draw_spec (nums_range ω) hd).1, newLeaf] at a1
              cases j <;> simp [Tree.sub] at a1
            | none =>
              have hp := draw_none_pos hd
              subst hp
              simp only [hd, both, if_pos hx] at h
              cases hg : grow p (nums ω) (some f) x label l d.tau (pos + (stays (d.box.dist x) ptau d.tau).length) with
              | error e => simp [hg] at h
              | ok q =>
                simp only [hg, Except.ok.injEq, Prod.mk.injEq] at h
                obtain ⟨rfl, rfl⟩ := h
                obtain ⟨a1, a2⟩ := ih1 _ _ hg (by simpa only [NewAt, Tree.sub, if_pos hx] using hN)
                exact ⟨⟨hs.1 ⟨_, hd⟩, a1⟩, by rw [a2]; omega⟩
        · rintro ⟨h1, h2⟩
          obtain ⟨pos', hd⟩ := hs.2 h1
          have hp := draw_none_pos hd
          subst hp
          obtain ⟨t', e1, e2⟩ := ih2 h2
          exact ⟨_, by simp only [grow, hd, both, if_pos hx, e1, ← add_assoc]; rfl, by simpa only [NewAt, Tree.sub, if_pos hx] using e2⟩
      · simp only [Tree.path, if_neg hx] at hq ⊢
        rw [List.getElem?_cons_succ] at hq
        simp only [List.take_succ_cons, staysAll, List.flatMap_cons, List.append_assoc, meets_append, List.length_append]
        obtain ⟨ih1, ih2⟩ := grow_splits hlog ω f x label I hf r d.tau (pos + (stays (d.box.dist x) ptau d.tau).length) j q dim θ v
          (fun i hi => ht i (by simp [Tree.ids, hi])) hq hdim hθ
        simp only [staysAll, meets_append, List.length_append] at ih1 ih2
        constructor
        · intro t' pos' h hN
          unfold grow at h
          cases hd : draw p (nums ω) pos d.box x ptau d.tau with
          | error e => simp [hd] at h
          | ok q =>
            obtain ⟨c, pos1⟩ := q
            cases c with
            | some c =>
              simp only [hd, both, Except.ok.injEq, Prod.mk.injEq] at h
              obtain ⟨id', d', sp', l', r', a1, -⟩ := hN
              rw [← h.1, sub_above (draw_spec (nums_range ω) hd).1, newLeaf] at a1
              cases j <;> simp [Tree.sub] at a1
            | none =>
              have hp := draw_none_pos hd
              subst hp
              simp only [hd, both, if_neg hx] at h
              cases hg : grow p (nums ω) (some f) x label r d.tau (pos + (stays (d.box.dist x) ptau d.tau).length) with
              | error e => simp [hg] at h
              | ok q =>
                simp only [hg, Except.ok.injEq, Prod.mk.injEq] at h
                obtain ⟨rfl, rfl⟩ := h
                obtain ⟨a1, a2⟩ := ih1 _ _ hg (by simpa only [NewAt, Tree.sub, if_neg hx] using hN)
                exact ⟨⟨hs.1 ⟨_, hd⟩, a1⟩, by rw [a2]; omega⟩
        · rintro ⟨h1, h2⟩
          obtain ⟨pos', hd⟩ := hs.2 h1
          have hp := draw_none_pos hd
          subst hp
          obtain ⟨t', e1, e2⟩ := ih2 h2
          exact ⟨_, by simp only [grow, hd, both, if_neg hx, e1, ← add_assoc]; rfl, by simpa only [NewAt, Tree.sub, if_neg hx] using e2⟩

/-- Which draws lead to an event -/
theorem grow_law {p : Params ℝ} (hlog : p.log = Real.log) (ω : Nat → U01) (f : Nat × Nat) (x : Fin F → ℝ) (label : Fin L) (t : Tree ℝ F L) (hf : f.1 ∉ t.ids)
    (ptau : ℝ) (pos : Nat) (g : Growth F) (hg : g.Proper x t ptau) :
    (∀ t' pos', grow p (nums ω) (some f) x label t ptau pos = .ok (t', pos') → g.Happens x t t' →
      Meets ω pos (g.conds x t ptau) ∧ pos' = pos + (g.conds x t ptau).length) ∧
    (Meets ω pos (g.conds x t ptau) → ∃ t', grow p (nums ω) (some f) x label t ptau pos = .ok (t', pos + (g.conds x t ptau).length) ∧ g.Happens x t t') := by
  cases g with
  | stays => exact grow_stays hlog ω f x label t ptau pos
  | splits j dim θ v =>
    obtain ⟨q, h1, h2, h3, h4, h5, h6⟩ := hg
    simp only [Growth.conds, h1]
    exact grow_splits hlog ω f x label t.ids hf t ptau pos j q dim θ v (fun i hi => hi) h1 (by rw [extent_eq]; exact h2) h4

theorem staysAll_meas (x : Fin F → ℝ) (qs : List (ℝ × Data ℝ F L)) : ∀ S ∈ staysAll x qs, MeasurableSet S := by
  intro S hS
  obtain ⟨q, -, h⟩ := List.mem_flatMap.1 hS
  exact stays_meas _ _ _ S h

theorem staysAll_prod (x : Fin F → ℝ) : ∀ (qs : List (ℝ × Data ℝ F L)), (∀ q ∈ qs, q.1 ≤ q.2.tau) →
    ((staysAll x qs).map fun S => volume S).prod = ENNReal.ofReal (Real.exp (-weight x qs))
  | [], _ => by simp [staysAll, weight]
  | q :: qs, h => by
      have ih := staysAll_prod x qs fun q hq => h q (List.mem_cons_of_mem _ hq)
      simp only [staysAll, List.flatMap_cons, List.map_append, List.prod_append] at ih ⊢
      rw [ih, stays_prod (dist_nonneg _ _) (h q (List.mem_cons_self ..)), ← ENNReal.ofReal_mul (Real.exp_nonneg _), ← Real.exp_add]
      congr 2
      simp only [weight, List.map_cons, List.sum_cons]
      ring

theorem conds_meas (x : Fin F → ℝ) (t : Tree ℝ F L) (ptau : ℝ) (g : Growth F) (hg : g.Proper x t ptau) : ∀ S ∈ g.conds x t ptau, MeasurableSet S := by
  cases g with
  | stays => exact staysAll_meas x _
  | splits j dim θ v =>
    obtain ⟨q, h1, h2, h3, h4, h5, h6⟩ := hg
    simp only [Growth.conds, h1]
    intro S hS
    rcases List.mem_append.1 hS with h | h
    · exact staysAll_meas x _ S h
    · exact cuts_meas (by rw [extent_eq]; exact h2) S h

theorem conds_prod (x : Fin F → ℝ) (t : Tree ℝ F L) (ptau : ℝ) (hq : ∀ q ∈ t.path x ptau, q.1 ≤ q.2.tau ∧ ∀ i, q.2.box.lower i ≤ q.2.box.upper i)
    (g : Growth F) (hg : g.Proper x t ptau) : ((g.conds x t ptau).map fun S => volume S).prod = ENNReal.ofReal (g.chance x t ptau) := by
  cases g with
  | stays => exact staysAll_prod x _ fun q h => (hq q h).1
  | splits j dim θ v =>
    obtain ⟨q, h1, h2, h3, h4, h5, h6⟩ := hg
    simp only [Growth.conds, Growth.chance, h1, List.map_append, List.prod_append]
    rw [staysAll_prod x _ fun q h => (hq q (List.mem_of_mem_take h)).1, ENNReal.ofReal_mul (Real.exp_nonneg _),
      cuts_prod (hq q (List.mem_of_getElem? h1)).2 h3 (by rw [extent_eq]; exact h2) h6]

theorem hull_proper {pts : List (Point ℝ F L)} (hne : pts ≠ []) {b : Box ℝ F} (h : IsHull pts b) (i : Fin F) : b.lower i ≤ b.upper i := by
  obtain ⟨z, hz⟩ := List.exists_mem_of_ne_nil pts hne
  exact (h.1 z hz i).1.trans (h.1 z hz i).2

theorem path_right {R : ℝ → ℝ → Prop} (hR : ∀ a b, R a b → a ≤ b) {life : ℝ} (x : Fin F → ℝ) : ∀ (t : Tree ℝ F L) (pts : List (Point ℝ F L)) (ptau : ℝ), Right pts t →
    Times R life ptau t → ptau ≤ life → ∀ q ∈ t.path x ptau, q.1 ≤ q.2.tau ∧ ∀ i, q.2.box.lower i ≤ q.2.box.upper i
  | .leaf id d, pts, ptau, h, ht, hl => by
      simp only [Tree.path, List.mem_singleton, forall_eq]
      have ht' : d.tau = life := ht
      exact ⟨by rw [ht']; exact hl, hull_proper h.1 h.2.1⟩
  | .node id d dim sp l r, pts, ptau, h, ht, hl => by
      obtain ⟨h1, h2, h3⟩ := h
      obtain ⟨t1, t2, t3, t4⟩ := ht
      intro q hq
      rcases List.mem_cons.1 hq with rfl | hq
      · exact ⟨hR _ _ t1, hull_proper (by rintro rfl; exact h2.ne_nil rfl) h1⟩
      · split at hq
        · exact path_right hR x l _ _ h2 t3 t2.le q hq
        · exact path_right hR x r _ _ h3 t4 t2.le q hq

/-! ### Forests -/

/-- the draws with which the events happen, tree after tree -/
noncomputable def condsAll (x : Fin F → ℝ) (E : List (Tree ℝ F L × Growth F)) : List (Set U01) := E.flatMap fun e => e.2.conds x e.1 0

theorem get_mid {α : Type} (A : List α) (b : α) (C : List α) : (A ++ b :: C)[A.length]? = some b := by simp

theorem set_mid {α : Type} (A : List α) (b b' : α) (C : List α) : (A ++ b :: C).set A.length b' = (A ++ [b']) ++ C := by simp

theorem fresh_two {A : List Nat} (h : 2 ≤ A.length) : ∃ f, freshOf A = some f ∧ f.1 ∈ A := by
  match A, h with
  | a :: b :: A, _ => exact ⟨(a, b), rfl, by simp⟩

theorem taken_length {A A' ids ids' : List Nat} (h : Taken A A' ids ids') (h2 : 2 ≤ A.length) : A.length ≤ A'.length + 2 := by
  cases h with
  | same h => rw [h]; omega
  | two a b h => rw [h]; simp
  | lost a h => rw [h] at h2; simp at h2

theorem loop_law {p : Params ℝ} (hlife : 0 ≤ p.lifetime) (hlog : p.log = Real.log) (ω : Nat → U01) (x : Fin F → ℝ) (label : Fin L) :
    ∀ (E : List (Tree ℝ F L × Growth F)) (done : List (Option (Tree ℝ F L))) (s : Forest ℝ F L) (lost : List Nat) (pos : Nat) (res : Option Bool),
      Inv s (done ++ E.map fun e => some e.1) lost → 2 * E.length ≤ (avail s.nodes).length → (∀ e ∈ E, e.2.Proper x e.1 0) →
      ((∃ s' pos' r ts', trainLoop p (nums ω) x label done.length E.length s pos res = .ok (s', pos', r) ∧ HoldsAll s' (done ++ ts'.map some) ∧
        List.Forall₂ (fun e t' => e.2.Happens x e.1 t') E ts') ↔ Meets ω pos (condsAll x E))
  | [], done, s, lost, pos, res, hI, hA, hE => by
      simp only [List.length_nil, trainLoop, condsAll, List.flatMap_nil, Meets, iff_true]
      exact ⟨_, _, _, [], rfl, by simpa using hI.all, List.Forall₂.nil⟩
  | e :: E, done, s, lost, pos, res, hI, hA, hE => by
      simp only [List.map_cons] at hI
      simp only [List.length_cons] at hA
      have hi := get_mid done (some e.1) (E.map fun e => some e.1)
      obtain ⟨f, hf, hfA⟩ := fresh_two (show 2 ≤ (avail s.nodes).length by omega)
      have hfi : f.1 ∉ e.1.ids := fun h => hI.used (mem_allIds hi h) hfA
      obtain ⟨g1, g2⟩ := grow_law hlog ω f x label e.1 hfi 0 pos e.2 (hE e (List.mem_cons_self ..))
      have hT := trainTree_some p hlife (nums ω) (nums_range ω) x label s _ lost hI done.length pos e.1 hi
      rw [hf] at hT
      simp only [List.length_cons, trainLoop, bind, Except.bind, condsAll, List.flatMap_cons, meets_append]
      constructor
      · rintro ⟨s', pos', r, ts', h1, h2, h3⟩
        cases hg : grow p (nums ω) (some f) x label e.1 0 pos with
        | error y =>
          rw [hg] at hT
          simp only at hT
          rw [hT] at h1
          simp at h1
        | ok q =>
          obtain ⟨t1, pos1⟩ := q
          rw [hg] at hT
          obtain ⟨s1, lost1, a1, a2, a3, a4⟩ := hT
          rw [set_mid] at a2
          rw [a1] at h1
          simp only [if_true] at h1
          cases h3 with
          | @cons _ b _ ts2 c1 c2 =>
            have hlen : done.length + 1 + E.length = (done ++ [some t1] ++ List.map (fun e => some e.1) E).length := by simp; omega
            obtain ⟨trees', lost', b1, b2, b3, b4, b5⟩ := trainLoop_spec p hlife (nums ω) (nums_range ω) x label E.length (done.length + 1) s1 _ lost1 pos1 res _ hlen a2 h1
            have hu := C52_trees_unique b1.all h2
            subst hu
            have hb : b = t1 := by
              obtain ⟨o', d1, d2, -⟩ := b5 done.length (some t1) (by simp)
              have := d2 (by omega)
              subst this
              simp at d1
              exact d1
            subst hb
            obtain ⟨m1, m2⟩ := g1 _ _ hg c1
            subst m2
            refine ⟨m1, ?_⟩
            have ih := loop_law hlife hlog ω x label E (done ++ [some b]) s1 lost1 (pos + (e.2.conds x e.1 0).length) res a2
              (by have := taken_length a4 (by omega); omega) (fun e he => hE e (List.mem_cons_of_mem _ he))
            rw [List.length_append, List.length_singleton] at ih
            exact ih.1 ⟨s', pos', r, ts2, h1, by simpa using h2, c2⟩
      · rintro ⟨m1, m2⟩
        obtain ⟨t1, hg, hh⟩ := g2 m1
        rw [hg] at hT
        obtain ⟨s1, lost1, a1, a2, a3, a4⟩ := hT
        rw [set_mid] at a2
        have ih := loop_law hlife hlog ω x label E (done ++ [some t1]) s1 lost1 (pos + (e.2.conds x e.1 0).length) res a2
          (by have := taken_length a4 (by omega); omega) (fun e he => hE e (List.mem_cons_of_mem _ he))
        rw [List.length_append, List.length_singleton] at ih
        obtain ⟨s', pos', r, ts2, h1, h2, h3⟩ := ih.2 m2
        refine ⟨s', pos', r, t1 :: ts2, ?_, by simpa using h2, List.Forall₂.cons hh h3⟩
        rw [a1]
        simpa using h1

theorem condsAll_prod (x : Fin F → ℝ) : ∀ (E : List (Tree ℝ F L × Growth F)), (∀ e ∈ E, e.2.Proper x e.1 0) →
    (∀ e ∈ E, ∀ q ∈ e.1.path x 0, q.1 ≤ q.2.tau ∧ ∀ i, q.2.box.lower i ≤ q.2.box.upper i) →
    ((condsAll x E).map fun S => volume S).prod = (E.map fun e => ENNReal.ofReal (e.2.chance x e.1 0)).prod
  | [], _, _ => rfl
  | e :: E, h1, h2 => by
      have ih := condsAll_prod x E (fun e he => h1 e (List.mem_cons_of_mem _ he)) (fun e he => h2 e (List.mem_cons_of_mem _ he))
      simp only [condsAll, List.flatMap_cons, List.map_append, List.prod_append, List.map_cons, List.prod_cons] at ih ⊢
      rw [ih, conds_prod x e.1 0 (h2 e (List.mem_cons_self ..)) e.2 (h1 e (List.mem_cons_self ..))]

theorem train_law {p : Params ℝ} (hlife : 0 ≤ p.lifetime) (hlog : p.log = Real.log) (x : Fin F → ℝ) (label : Fin L) (E : List (Tree ℝ F L × Growth F))
    (s : Forest ℝ F L) (lost : List Nat) (pos : Nat) (hI : Inv s (E.map fun e => some e.1) lost) (hA : 2 * E.length ≤ (avail s.nodes).length)
    (hE : ∀ e ∈ E, e.2.Proper x e.1 0) (hq : ∀ e ∈ E, ∀ q ∈ e.1.path x 0, q.1 ≤ q.2.tau ∧ ∀ i, q.2.box.lower i ≤ q.2.box.upper i) :
    draws {ω | ∃ s' pos' r ts', train p (nums ω) x label s pos = .ok (s', pos', r) ∧ HoldsAll s' (ts'.map some) ∧
      List.Forall₂ (fun e t' => e.2.Happens x e.1 t') E ts'} = (E.map fun e => ENNReal.ofReal (e.2.chance x e.1 0)).prod := by
  have hr : s.roots.length = E.length := by rw [hI.all.roots]; simp
  have h1 : {ω | ∃ s' pos' r ts', train p (nums ω) x label s pos = .ok (s', pos', r) ∧ HoldsAll s' (ts'.map some) ∧
      List.Forall₂ (fun e t' => e.2.Happens x e.1 t') E ts'} = {ω | Meets ω pos (condsAll x E)} := by
    ext ω
    have := loop_law hlife hlog ω x label E [] s lost pos none (by simpa using hI) hA hE
    simpa [train, hr] using this
  rw [h1, meets_law, condsAll_prod x E hE hq]
  intro S hS
  obtain ⟨e, he, h⟩ := List.mem_flatMap.1 hS
  exact conds_meas x e.1 0 e.2 (hE e he) S h

end Orp.Mondrian
