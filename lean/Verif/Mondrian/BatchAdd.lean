import Verif.Mondrian.BatchGrow

/-!
The expectation over the growth of a tree by a point, and the proof that a Mondrian tree of some points that grows by a point is a Mondrian tree of
all the points.
-/

set_option linter.unusedSectionVars false

namespace Orp.Mondrian

open MeasureTheory

variable {F L : Nat} {X Y Z : Type} [MeasurableSpace X] [MeasurableSpace Y] [MeasurableSpace Z]

variable (life : ℝ)

/-- a new node above the tree -/
noncomputable def over (z : Point ℝ F L) (t : Tree ℝ F L) (d : Fin F) (s x : ℝ) : Tree ℝ F L :=
  above life (0, 0) ⟨d, x, s, decide (z.1 d = t.data.box.gapHigh z.1 d)⟩ t z.1 z.2

/-- the part of the expectation where a new node is introduced above the tree -/
noncomputable def newCut (z : Point ℝ F L) (t : Tree ℝ F L) (r : ℝ) (g : Tree ℝ F L → ENNReal) : ENNReal :=
  ∫⁻ s in Set.Ico r t.data.tau, ∑ d, ∫⁻ x in Set.Ico (t.data.box.gapLow z.1 d) (t.data.box.gapHigh z.1 d),
    ENNReal.ofReal (Real.exp (-(t.data.box.dist z.1 * (s - r)))) * g (over life z t d s x)

/-- the expectation of `g` of the tree after the point `z` is added -/
noncomputable def addPt (z : Point ℝ F L) : Tree ℝ F L → ℝ → (Tree ℝ F L → ENNReal) → ENNReal
  | .leaf id d, r, g => newCut life z (.leaf id d) r g +
      ENNReal.ofReal (Real.exp (-(d.box.dist z.1 * (d.tau - r)))) * g (.leaf id ⟨d.tau, d.box.extend z.1, bump d.counts z.2⟩)
  | .node id d dim sp tl tr, r, g => newCut life z (.node id d dim sp tl tr) r g + ENNReal.ofReal (Real.exp (-(d.box.dist z.1 * (d.tau - r)))) *
      if z.1 dim ≤ sp then addPt z tl d.tau fun tl => g (.node id ⟨d.tau, d.box.extend z.1, d.counts⟩ dim sp tl tr)
      else addPt z tr d.tau fun tr => g (.node id ⟨d.tau, d.box.extend z.1, d.counts⟩ dim sp tl tr)

/-- the part of the expectation where no new node is introduced above the tree -/
noncomputable def noCut (z : Point ℝ F L) (t : Tree ℝ F L) (r : ℝ) (g : Tree ℝ F L → ENNReal) : ENNReal :=
  match t with
  | .leaf id d => ENNReal.ofReal (Real.exp (-(d.box.dist z.1 * (d.tau - r)))) * g (.leaf id ⟨d.tau, d.box.extend z.1, bump d.counts z.2⟩)
  | .node id d dim sp tl tr => ENNReal.ofReal (Real.exp (-(d.box.dist z.1 * (d.tau - r)))) *
      if z.1 dim ≤ sp then addPt life z tl d.tau fun tl => g (.node id ⟨d.tau, d.box.extend z.1, d.counts⟩ dim sp tl tr)
      else addPt life z tr d.tau fun tr => g (.node id ⟨d.tau, d.box.extend z.1, d.counts⟩ dim sp tl tr)

theorem addPt_eq (z : Point ℝ F L) (t : Tree ℝ F L) (r : ℝ) (g : Tree ℝ F L → ENNReal) : addPt life z t r g = newCut life z t r g + noCut life z t r g := by
  cases t <;> rfl

/-! ### Measurability -/

theorem VBox.distIn {b : X → Box ℝ F} (hb : VBox b) (x : Fin F → ℝ) (i : Fin F) : Measurable fun y => (b y).distIn x i := by
  have h1 := (hb i).1
  have h2 := (hb i).2
  unfold Box.distIn
  fun_prop

theorem VBox.dist {b : X → Box ℝ F} (hb : VBox b) (x : Fin F → ℝ) : Measurable fun y => (b y).dist x := by
  unfold Box.dist
  exact Finset.measurable_fun_sum _ fun i _ => hb.distIn x i

theorem VBox.extend {b : X → Box ℝ F} (hb : VBox b) (x : Fin F → ℝ) : VBox fun y => (b y).extend x := by
  intro i
  have h1 := (hb i).1
  have h2 := (hb i).2
  simp only [Box.extend]
  exact ⟨Measurable.ite (measurableSet_lt measurable_const h1) measurable_const h1, Measurable.ite (measurableSet_lt h2 measurable_const) measurable_const h2⟩

theorem VBox.gapLow {b : X → Box ℝ F} (hb : VBox b) (x : Fin F → ℝ) (i : Fin F) : Measurable fun y => (b y).gapLow x i :=
  Measurable.ite (measurableSet_lt (hb i).2 measurable_const) (hb i).2 measurable_const

theorem VBox.gapHigh {b : X → Box ℝ F} (hb : VBox b) (x : Fin F → ℝ) (i : Fin F) : Measurable fun y => (b y).gapHigh x i :=
  Measurable.ite (measurableSet_lt (hb i).2 measurable_const) measurable_const (hb i).1

theorem VBox.comp {b : X → Box ℝ F} (hb : VBox b) {a : Y → X} (ha : Measurable a) : VBox fun y => b (a y) := fun i => ⟨(hb i).1.comp ha, (hb i).2.comp ha⟩

theorem VTree.data {t : X → Tree ℝ F L} (h : VTree t) : (Measurable fun y => (t y).data.tau) ∧ VBox fun y => (t y).data.box := by
  cases h with
  | leaf id counts ht hb => exact ⟨ht, hb⟩
  | node id counts dim ht hb hs hl hr => exact ⟨ht, hb⟩

theorem over_meas (z : Point ℝ F L) {t : Y → Tree ℝ F L} (ht : VTree t) (d : Fin F) {s x : Y → ℝ} (hs : Measurable s) (hx : Measurable x) {a : Y → X} (ha : Measurable a)
    {g : X → Tree ℝ F L → ENNReal} (hg : MeasT g) : Measurable fun y => g (a y) (over life z (t y) d (s y) (x y)) := by
  have e : (fun y => g (a y) (over life z (t y) d (s y) (x y))) = fun y => if z.1 d = (t y).data.box.gapHigh z.1 d then
      g (a y) (.node 0 ⟨s y, (t y).data.box.extend z.1, fun _ => 0⟩ d (x y) (t y) (newLeaf life 0 z.1 z.2))
      else g (a y) (.node 0 ⟨s y, (t y).data.box.extend z.1, fun _ => 0⟩ d (x y) (newLeaf life 0 z.1 z.2) (t y)) := by
    funext y
    unfold over above
    by_cases h : z.1 d = (t y).data.box.gapHigh z.1 d <;> simp [h]
  rw [e]
  refine Measurable.ite (measurableSet_eq_fun measurable_const (ht.data.2.gapHigh z.1 d)) ?_ ?_
  · exact hg.at (.node 0 _ d hs (ht.data.2.extend z.1) hx ht (.const _)) ha
  · exact hg.at (.node 0 _ d hs (ht.data.2.extend z.1) hx (.const _) ht) ha

theorem expDist_meas {w a b : X → ℝ} (hw : Measurable w) (ha : Measurable a) (hb : Measurable b) : Measurable fun x => ENNReal.ofReal (Real.exp (-(w x * (a x - b x)))) := by fun_prop

theorem newCut_meas (z : Point ℝ F L) {t : Y → Tree ℝ F L} (ht : VTree t) {r : Y → ℝ} (hr : Measurable r) {g : Y → Tree ℝ F L → ENNReal} (hg : MeasT g) :
    Measurable fun y => newCut life z (t y) (r y) (g y) := by
  unfold newCut
  refine meas_Ico hr ht.data.1 (Finset.measurable_fun_sum _ fun d _ => ?_)
  have h1 : Measurable fun q : Y × ℝ => q.1 := measurable_fst
  have h2 : Measurable fun q : (Y × ℝ) × ℝ => q.1.1 := measurable_fst.comp measurable_fst
  refine meas_Ico ((ht.data.2.gapLow z.1 d).comp h1) ((ht.data.2.gapHigh z.1 d).comp h1) (Measurable.mul ?_ ?_)
  · exact expDist_meas ((ht.data.2.dist z.1).comp h2) (measurable_snd.comp measurable_fst) (hr.comp h2)
  · exact over_meas life z (ht.comp h2) d (measurable_snd.comp measurable_fst) measurable_snd h2 hg

theorem addPt_meas (z : Point ℝ F L) {t : Y → Tree ℝ F L} (ht : VTree t) :
    ∀ {r : Y → ℝ} (_ : Measurable r) {g : Y → Tree ℝ F L → ENNReal} (_ : MeasT g), Measurable fun y => addPt life z (t y) (r y) (g y) := by
  induction ht with
  | @leaf id counts tau box ht hb =>
    intro r hr g hg
    simp only [addPt]
    refine (newCut_meas life z (.leaf id counts ht hb) hr hg).add (Measurable.mul ?_ ?_)
    · exact expDist_meas (hb.dist z.1) ht hr
    · exact hg.at (.leaf id _ ht (hb.extend z.1)) measurable_id
  | @node id counts dim tau sp box l r ht hb hs hl hr ihl ihr =>
    intro r' hr' g hg
    simp only [addPt]
    refine (newCut_meas life z (.node id counts dim ht hb hs hl hr) hr' hg).add (Measurable.mul ?_ ?_)
    · exact expDist_meas (hb.dist z.1) ht hr'
    · refine Measurable.ite (measurableSet_le measurable_const hs) ?_ ?_
      · exact ihl ht (g := fun y tl => g y (.node id ⟨tau y, (box y).extend z.1, counts⟩ dim (sp y) tl (r y))) (hg.node' hr measurable_id id counts dim ht (hb.extend z.1) hs)
      · exact ihr ht (g := fun y tr => g y (.node id ⟨tau y, (box y).extend z.1, counts⟩ dim (sp y) (l y) tr)) (hg.node hl measurable_id id counts dim ht (hb.extend z.1) hs)

theorem MeasF.addPt {g : Tree ℝ F L → ENNReal} (hg : MeasF g) (z : Point ℝ F L) (r : ℝ) : MeasF fun t => addPt life z t r g :=
  fun Y _ t ht => addPt_meas life z ht (g := fun _ => g) measurable_const hg.to

theorem MeasF.newCut {g : Tree ℝ F L → ENNReal} (hg : MeasF g) (z : Point ℝ F L) (r : ℝ) : MeasF fun t => newCut life z t r g :=
  fun Y _ t ht => newCut_meas life z ht (g := fun _ => g) measurable_const hg.to

theorem MeasF.noCut {g : Tree ℝ F L → ENNReal} (hg : MeasF g) (z : Point ℝ F L) (r : ℝ) : MeasF fun t => noCut life z t r g := by
  intro Y _ t ht
  cases ht with
  | @leaf id counts tau box ht hb =>
    exact (expDist_meas (hb.dist z.1) ht measurable_const).mul (hg Y _ (.leaf id (bump counts z.2) ht (hb.extend z.1)))
  | @node id counts dim tau sp box l r' ht hb hs hl hr =>
    refine (expDist_meas (hb.dist z.1) ht measurable_const).mul (Measurable.ite (measurableSet_le measurable_const hs) ?_ ?_)
    · exact addPt_meas life z hl ht (g := fun y tl => g (.node id ⟨tau y, (box y).extend z.1, counts⟩ dim (sp y) tl (r' y)))
        (hg.to.node' hr measurable_id id counts dim ht (hb.extend z.1) hs)
    · exact addPt_meas life z hr ht (g := fun y tr => g (.node id ⟨tau y, (box y).extend z.1, counts⟩ dim (sp y) (l y) tr))
        (hg.to.node hl measurable_id id counts dim ht (hb.extend z.1) hs)

/-! ### The new nodes above the tree -/

theorem cut_before {r τ life : ℝ} (h : τ ≤ life) (φ : ℝ → ENNReal) : ∫⁻ s in Set.Ico r τ, φ s = ∫⁻ s in Set.Ico r life, if s < τ then φ s else 0 := by
  have e : (fun s => if s < τ then φ s else 0) = (Set.Iio τ).indicator φ := by funext s; simp [Set.indicator]
  rw [e, setLIntegral_indicator measurableSet_Iio]
  congr 2
  ext s
  simp only [Set.mem_Ico, Set.mem_inter_iff, Set.mem_Iio]
  constructor
  · rintro ⟨h1, h2⟩; exact ⟨h2, h1, h2.trans_le h⟩
  · rintro ⟨h1, h2, -⟩; exact ⟨h2, h1⟩

theorem batch_newCut {n : Nat} {pts : List (Point ℝ F L)} (z : Point ℝ F L) (r : ℝ) {g : Tree ℝ F L → ENNReal} (hg : MeasF g) :
    batch life n pts r (fun t => newCut life z t r g) = ∫⁻ s in Set.Ico r life, ∑ d, ∫⁻ x in Set.Ico ((hull pts).gapLow z.1 d) ((hull pts).gapHigh z.1 d),
      ENNReal.ofReal (Real.exp (-(((hull pts).size + (hull pts).dist z.1) * (s - r)))) * batch life n pts s fun t => g (over life z t d s x) := by
  let k : ℝ → ℝ → Fin F → Tree ℝ F L → ENNReal := fun s x d t => ENNReal.ofReal (Real.exp (-((hull pts).dist z.1 * (s - r)))) * if s < t.data.tau then g (over life z t d s x) else 0
  have hk : ∀ d, MeasT fun (q : ℝ × ℝ) t => k q.1 q.2 d t := by
    intro d Y _ a t ha ht
    have h1 := measurable_fst.comp ha
    have h2 := measurable_snd.comp ha
    refine (expDist_meas measurable_const h1 measurable_const).mul (Measurable.ite (measurableSet_lt h1 ht.data.1) ?_ measurable_const)
    exact over_meas life z ht d h1 h2 (a := fun y => y) measurable_id hg.to
  have hk1 : ∀ d, MeasT fun (s : ℝ) t => ∫⁻ x in Set.Ico ((hull pts).gapLow z.1 d) ((hull pts).gapHigh z.1 d), k s x d t := by
    intro d Y _ a t ha ht
    exact meas_Ico measurable_const measurable_const (hk d _ (fun q : Y × ℝ => (a q.1, q.2)) (fun q => t q.1) ((ha.comp measurable_fst).prodMk measurable_snd) (ht.comp measurable_fst))
  have hk2 : MeasT fun (s : ℝ) t => ∑ d, ∫⁻ x in Set.Ico ((hull pts).gapLow z.1 d) ((hull pts).gapHigh z.1 d), k s x d t :=
    fun Y _ a t ha ht => Finset.measurable_fun_sum _ fun d _ => hk1 d Y a t ha ht
  rw [batch_congr life (f' := fun t => ∫⁻ s in Set.Ico r life, ∑ d, ∫⁻ x in Set.Ico ((hull pts).gapLow z.1 d) ((hull pts).gapHigh z.1 d), k s x d t), batch_swap life n pts r _ hk2]
  · refine setLIntegral_congr_fun measurableSet_Ico fun s hs => ?_
    rw [batch_sum life n pts r fun d => (hk1 d).fix s]
    refine Finset.sum_congr rfl fun d _ => ?_
    rw [batch_swap life n pts r (volume.restrict _) (f := fun x t => k s x d t) ((hk d).comp (b := fun x : ℝ => (s, x)) (measurable_const.prodMk measurable_id))]
    refine lintegral_congr fun x => ?_
    have hm : MeasF fun t => if s < t.data.tau then g (over life z t d s x) else 0 := fun Y _ t ht =>
      Measurable.ite (measurableSet_lt measurable_const ht.data.1) (over_meas life z ht d measurable_const measurable_const (a := fun y => y) measurable_id hg.to) measurable_const
    rw [batch_mul life n pts r hm, batch_memory life n pts hs.1 hs.2, batch_late life n pts hs.2, ← mul_assoc, ← ENNReal.ofReal_mul (Real.exp_nonneg _), ← Real.exp_add]
    congr 3; ring
  · intro t h1 h2
    rw [newCut, h1, cut_before h2]
    refine lintegral_congr fun s => ?_
    by_cases h : s < t.data.tau
    · simp [k, h]
    · simp [k, h]

/-! ### The sides of the larger box -/

theorem int_extend {b : Box ℝ F} (hb : ∀ i, b.lower i ≤ b.upper i) (z : Fin F → ℝ) (d : Fin F) (φ : ℝ → ENNReal) :
    ∫⁻ x in Set.Ico ((b.extend z).lower d) ((b.extend z).upper d), φ x = (∫⁻ x in Set.Ico (b.lower d) (b.upper d), φ x) + ∫⁻ x in Set.Ico (b.gapLow z d) (b.gapHigh z d), φ x := by
  have := hb d
  simp only [Box.extend, Box.gapLow, Box.gapHigh]
  by_cases h1 : b.upper d < z d
  · have h2 : ¬ z d < b.lower d := by linarith
    simp only [h1, h2, if_true, if_false]
    rw [← Set.Ico_union_Ico_eq_Ico this h1.le, lintegral_union measurableSet_Ico (Set.Ico_disjoint_Ico_same ..)]
  · by_cases h2 : z d < b.lower d
    · simp only [h1, h2, if_true, if_false]
      rw [← Set.Ico_union_Ico_eq_Ico h2.le this, lintegral_union measurableSet_Ico (Set.Ico_disjoint_Ico_same ..), add_comm]
    · simp only [h1, h2, if_false]
      rw [Set.Ico_eq_empty (a := z d) (by linarith)]
      simp

/-- a split between the points and the new point -/
theorem halves_gap {n : Nat} {pts : List (Point ℝ F L)} (hne : pts ≠ []) (z : Point ℝ F L) {d : Fin F} {x : ℝ} (hx : x ∈ Set.Ico ((hull pts).gapLow z.1 d) ((hull pts).gapHigh z.1 d))
    (s : ℝ) (g : Tree ℝ F L → ENNReal) : halves life (n + 1) (pts ++ [z]) d g s x = batch life (n + 1) pts s fun t => g (over life z t d s x) := by
  have hH := hull_isHull hne
  obtain ⟨h1, h2⟩ := hx
  unfold halves lefts rights
  rw [List.filter_append, List.filter_append, hull_append hne]
  by_cases hu : (hull pts).upper d < z.1 d
  · simp only [Box.gapLow, Box.gapHigh, hu, if_true] at h1 h2
    rw [List.filter_eq_self.2 fun w hw => by simpa using (hH.1 w hw d).2.trans h1, List.filter_cons_of_neg (by simpa using h2), List.filter_nil, List.append_nil,
      List.filter_eq_nil_iff.2 fun w hw => by simpa using (hH.1 w hw d).2.trans h1, List.filter_cons_of_pos (by simpa using h2), List.filter_nil, List.nil_append]
    refine batch_congr life fun t ht _ => ?_
    rw [batch_single]
    unfold over above
    rw [ht]
    simp [Box.gapHigh, hu]
  · simp only [Box.gapLow, Box.gapHigh, hu, if_false] at h1 h2
    rw [List.filter_eq_nil_iff.2 fun w hw => by simpa using h2.trans_le (hH.1 w hw d).1, List.filter_cons_of_pos (by simpa using h1), List.filter_nil, List.nil_append,
      List.filter_eq_self.2 fun w hw => by simpa using h2.trans_le (hH.1 w hw d).1, List.filter_cons_of_neg (by simpa using h1), List.filter_nil, List.append_nil, batch_single]
    refine batch_congr life fun t ht _ => ?_
    unfold over above
    rw [ht]
    simp [Box.gapHigh, hu, (h1.trans_lt h2).ne]

/-! ### The main identity -/

theorem two_left (z : Point ℝ F L) {n : Nat} {A B : List (Point ℝ F L)} (hB : B ≠ []) (hB' : B.length ≤ n) {s : ℝ} (ih : ∀ {g : Tree ℝ F L → ENNReal}, MeasF g →
      batch life n A s (fun t => addPt life z t s g) = batch life (n + 1) (A ++ [z]) s g) {c : ENNReal} [SFinite (c • (Measure.dirac () : Measure Unit))]
    {ψ : Tree ℝ F L → Tree ℝ F L → ENNReal} (hψ : ∀ (Y : Type) [MeasurableSpace Y] (t u : Y → Tree ℝ F L), VTree t → VTree u → Measurable fun y => ψ (t y) (u y)) :
    (batch life n A s fun l => batch life n B s fun r => c * addPt life z l s fun l => ψ l r) = c * batch life (n + 1) (A ++ [z]) s fun l => batch life (n + 1) B s (ψ l) := by
  have h0 : ∀ (Y : Type) [MeasurableSpace Y] (u : Y → Tree ℝ F L), VTree u → MeasT fun y l => ψ l (u y) := fun Y _ u hu Y' _ a t ha ht => hψ Y' t _ ht (hu.comp ha)
  have h1 : ∀ (Y : Type) [MeasurableSpace Y] (t u : Y → Tree ℝ F L), VTree t → VTree u → Measurable fun y => addPt life z (t y) s fun l => ψ l (u y) := fun Y _ t u ht hu =>
    addPt_meas life z ht measurable_const (h0 Y u hu)
  have e1 : (fun l => batch life n B s fun r => c * addPt life z l s fun l => ψ l r) = fun l => c * batch life n B s fun r => addPt life z l s fun l => ψ l r := by
    funext l
    exact batch_mul life n B s (f := fun r => addPt life z l s fun l => ψ l r) (fun Y _ u hu => h1 Y _ u (.const l) hu) c
  rw [e1, batch_mul life n A s (f := fun l => batch life n B s fun r => addPt life z l s fun l => ψ l r) ?_ c, batch_batch life n A s n B s h1]
  · have e2 : (fun u => batch life n A s fun t => addPt life z t s fun l => ψ l u) = fun u => batch life (n + 1) (A ++ [z]) s fun l => ψ l u := by
      funext u
      exact ih fun Y _ t ht => hψ Y t _ ht (.const u)
    rw [e2, batch_batch life n B s (n + 1) (A ++ [z]) s (f := fun u l => ψ l u) fun Y _ t u ht hu => hψ Y u t hu ht]
    congr 2
    funext l
    rw [batch_more life n hB hB']
  · intro Y _ t ht
    exact batch_meas life n B measurable_const (f := fun y r => addPt life z (t y) s fun l => ψ l r) fun Y' _ a u ha hu => h1 Y' _ u (ht.comp ha) hu

theorem two_right (z : Point ℝ F L) {n : Nat} {A B : List (Point ℝ F L)} (hA : A ≠ []) (hA' : A.length ≤ n) {s : ℝ} (ih : ∀ {g : Tree ℝ F L → ENNReal}, MeasF g →
      batch life n B s (fun t => addPt life z t s g) = batch life (n + 1) (B ++ [z]) s g) {c : ENNReal} [SFinite (c • (Measure.dirac () : Measure Unit))]
    {ψ : Tree ℝ F L → Tree ℝ F L → ENNReal} (hψ : ∀ (Y : Type) [MeasurableSpace Y] (t u : Y → Tree ℝ F L), VTree t → VTree u → Measurable fun y => ψ (t y) (u y)) :
    (batch life n A s fun l => batch life n B s fun r => c * addPt life z r s fun r => ψ l r) = c * batch life (n + 1) A s fun l => batch life (n + 1) (B ++ [z]) s (ψ l) := by
  have e1 : (fun l => batch life n B s fun r => c * addPt life z r s fun r => ψ l r) = fun l => c * batch life (n + 1) (B ++ [z]) s (ψ l) := by
    funext l
    have hm : MeasF (ψ l) := fun Y _ u hu => hψ Y _ u (.const l) hu
    rw [batch_mul life n B s (f := fun r => addPt life z r s fun r => ψ l r) (hm.addPt life z s) c, ih hm]
  rw [e1, batch_mul life n A s (f := fun l => batch life (n + 1) (B ++ [z]) s (ψ l)) ?_ c, batch_more life n hA hA']
  intro Y _ t ht
  exact batch_meas life (n + 1) _ measurable_const (f := fun y r => ψ (t y) r) fun Y' _ a u ha hu => hψ Y' _ u (ht.comp ha) hu

/-- A Mondrian tree of the points, grown by a point, is a Mondrian tree of all the points. -/
theorem batch_addPt (z : Point ℝ F L) : ∀ (n : Nat) {pts : List (Point ℝ F L)} (_ : pts ≠ []) (_ : pts.length ≤ n) (r : ℝ) {g : Tree ℝ F L → ENNReal} (_ : MeasF g),
    batch life n pts r (fun t => addPt life z t r g) = batch life (n + 1) (pts ++ [z]) r g
  | 0, pts, h, hn, r, g, hg => absurd (List.length_eq_zero_iff.1 (Nat.le_zero.1 hn)) h
  | n + 1, pts, h, hn, r, g, hg => by
      have hord : ∀ i, (hull pts).lower i ≤ (hull pts).upper i := hull_proper h (hull_isHull h)
      have hsize : (hull (pts ++ [z])).size = (hull pts).size + (hull pts).dist z.1 := by rw [hull_append h, size_extend hord]
      -- the splits of the points
      have old : ∀ d s, ∀ x ∈ Set.Ico ((hull pts).lower d) ((hull pts).upper d), halves life n pts d (fun t => noCut life z t r g) s x =
          ENNReal.ofReal (Real.exp (-((hull pts).dist z.1 * (s - r)))) * halves life (n + 1) (pts ++ [z]) d g s x := by
        intro d s x hx
        have h1 := sides_ne h hx
        have h2 := sides_le h hx hn
        unfold halves
        rw [hull_append h]
        simp only [noCut]
        by_cases hz : z.1 d ≤ x
        · have e1 : lefts (pts ++ [z]) d x = lefts pts d x ++ [z] := by
            unfold lefts; rw [List.filter_append, List.filter_cons_of_pos (by simpa using hz), List.filter_nil]
          have e2 : rights (pts ++ [z]) d x = rights pts d x := by
            unfold rights; rw [List.filter_append, List.filter_cons_of_neg (by simpa using hz), List.filter_nil, List.append_nil]
          simp only [hz, if_true, e1, e2]
          exact two_left life z h1.2 h2.2 (fun hg => batch_addPt z n h1.1 h2.1 s hg) (ψ := fun l r => g (.node 0 ⟨s, (hull pts).extend z.1, fun _ => 0⟩ d x l r))
            fun Y _ t u ht hu => hg Y _ (.node 0 _ d measurable_const (.const _) measurable_const ht hu)
        · have e1 : lefts (pts ++ [z]) d x = lefts pts d x := by
            unfold lefts; rw [List.filter_append, List.filter_cons_of_neg (by simpa using hz), List.filter_nil, List.append_nil]
          have e2 : rights (pts ++ [z]) d x = rights pts d x ++ [z] := by
            unfold rights; rw [List.filter_append, List.filter_cons_of_pos (by simpa using hz), List.filter_nil]
          simp only [hz, if_false, e1, e2]
          exact two_right life z h1.1 h2.1 (fun hg => batch_addPt z n h1.2 h2.2 s hg) (ψ := fun l r => g (.node 0 ⟨s, (hull pts).extend z.1, fun _ => 0⟩ d x l r))
            fun Y _ t u ht hu => hg Y _ (.node 0 _ d measurable_const (.const _) measurable_const ht hu)
      have e0 : (fun t => addPt life z t r g) = fun t => newCut life z t r g + noCut life z t r g := funext fun t => addPt_eq life z t r g
      rw [e0, batch_add life _ _ _ (hg.newCut life z r) (hg.noCut life z r), batch_newCut life z r hg, batch_succ, batch_succ life (n + 1), hsize, hull_append h]
      have hm : ∀ d (a b : ℝ), Measurable fun s => ∫⁻ x in Set.Ico a b, ENNReal.ofReal (Real.exp (-(((hull pts).size + (hull pts).dist z.1) * (s - r)))) * halves life (n + 1) (pts ++ [z]) d g s x := by
        intro d a b
        refine meas_Ico measurable_const measurable_const (Measurable.mul ?_ ?_)
        · exact expTerm_meas _ measurable_fst measurable_const
        · exact halves_meas life (n + 1) (pts ++ [z]) d (X := Unit) (f := fun _ => g) hg.to (a := fun _ => ()) measurable_const measurable_fst measurable_snd
      simp only [int_extend hord, Finset.sum_add_distrib]
      rw [lintegral_add_left (Finset.measurable_fun_sum _ fun d _ => hm d _ _), add_comm, add_assoc]
      congr 1
      · simp only [noCut]
        rw [histogram_append, ← mul_assoc, ← ENNReal.ofReal_mul (Real.exp_nonneg _), ← Real.exp_add]
        congr 3; ring
      · congr 1
        · refine lintegral_congr fun s => Finset.sum_congr rfl fun d _ => setLIntegral_congr_fun measurableSet_Ico fun x hx => ?_
          rw [old d s x hx, ← mul_assoc, ← ENNReal.ofReal_mul (Real.exp_nonneg _), ← Real.exp_add]
          congr 3; ring
        · refine lintegral_congr fun s => Finset.sum_congr rfl fun d _ => setLIntegral_congr_fun measurableSet_Ico fun x hx => ?_
          rw [halves_gap life h z hx]

end Orp.Mondrian
