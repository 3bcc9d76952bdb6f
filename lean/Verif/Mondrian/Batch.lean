import Verif.Mondrian.BatchSpec
import Verif.Mondrian.Cuts
import Mathlib.MeasureTheory.Measure.Prod
import Mathlib.MeasureTheory.Integral.Lebesgue.Countable
import Mathlib.MeasureTheory.Constructions.BorelSpace.Order
import Mathlib.MeasureTheory.Function.SpecialFunctions.Basic

/-!
Expectations over a Mondrian tree sampled from scratch: measurability in parameters and exchange of integrals.
-/

set_option linter.unusedSectionVars false

namespace Orp.Mondrian

open MeasureTheory

variable {F L : Nat} {X Y Z : Type} [MeasurableSpace X] [MeasurableSpace Y] [MeasurableSpace Z]

/-- a function of a parameter and a tree that is measurable for every shape of the tree -/
def MeasT (f : X → Tree ℝ F L → ENNReal) : Prop :=
  ∀ (Y : Type) [MeasurableSpace Y] (a : Y → X) (t : Y → Tree ℝ F L), Measurable a → VTree t → Measurable fun y => f (a y) (t y)

theorem VTree.comp {t : X → Tree ℝ F L} (h : VTree t) : ∀ {a : Y → X}, Measurable a → VTree fun y => t (a y) := by
  induction h with
  | leaf id counts ht hb => exact fun ha => .leaf id counts (ht.comp ha) fun i => ⟨(hb i).1.comp ha, (hb i).2.comp ha⟩
  | node id counts dim ht hb hs hl hr ihl ihr => exact fun ha => .node id counts dim (ht.comp ha) (fun i => ⟨(hb i).1.comp ha, (hb i).2.comp ha⟩) (hs.comp ha) (ihl ha) (ihr ha)

theorem VBox.const (b : Box ℝ F) : VBox fun _ : X => b := fun _ => ⟨measurable_const, measurable_const⟩

theorem MeasT.at {f : X → Tree ℝ F L → ENNReal} (hf : MeasT f) {t : Y → Tree ℝ F L} (ht : VTree t) {a : Y → X} (ha : Measurable a) : Measurable fun y => f (a y) (t y) := hf Y a t ha ht

theorem MeasT.comp {f : X → Tree ℝ F L → ENNReal} (hf : MeasT f) {b : Z → X} (hb : Measurable b) : MeasT fun z t => f (b z) t :=
  fun Y _ a t ha ht => hf Y (fun y => b (a y)) t (hb.comp ha) ht

/-- integrals over an interval whose ends depend on a parameter -/
theorem meas_Ico {a b : X → ℝ} (ha : Measurable a) (hb : Measurable b) {φ : X → ℝ → ENNReal} (hφ : Measurable fun q : X × ℝ => φ q.1 q.2) :
    Measurable fun x => ∫⁻ s in Set.Ico (a x) (b x), φ x s := by
  have e : (fun x => ∫⁻ s in Set.Ico (a x) (b x), φ x s) = fun x => ∫⁻ s, {q : X × ℝ | a q.1 ≤ q.2 ∧ q.2 < b q.1}.indicator (fun q : X × ℝ => φ q.1 q.2) (x, s) := by
    funext x
    rw [← lintegral_indicator measurableSet_Ico]
    refine lintegral_congr fun s => ?_
    simp only [Set.indicator, Set.mem_Ico, Set.mem_ofPred_eq]
  rw [e]
  refine Measurable.lintegral_prod_right' (hφ.indicator ?_)
  exact (measurableSet_le (ha.comp measurable_fst) measurable_snd).inter (measurableSet_lt measurable_snd (hb.comp measurable_fst))

theorem filter_meas (P : Point ℝ F L → ℝ → Bool) (hP : ∀ z, MeasurableSet {x | P z x = true}) :
    ∀ (pts l : List (Point ℝ F L)), MeasurableSet {x : ℝ | pts.filter (fun z => P z x) = l}
  | [], l => by simp
  | z :: pts, l => by
      have e : {x : ℝ | (z :: pts).filter (fun z => P z x) = l} = ({x | P z x = true} ∩ {x | z :: pts.filter (fun z => P z x) = l}) ∪
          ({x | P z x = true}ᶜ ∩ {x | pts.filter (fun z => P z x) = l}) := by
        ext x
        simp only [Set.mem_union, Set.mem_inter_iff, Set.mem_ofPred_eq, Set.mem_compl_iff]
        by_cases h : P z x = true
        · simp [h]
        · simp [h]
      rw [e]
      refine ((hP z).inter ?_).union ((hP z).compl.inter (filter_meas P hP pts l))
      cases l with
      | nil => simp
      | cons w l =>
        simp only [List.cons.injEq]
        exact (MeasurableSet.const (z = w)).inter (filter_meas P hP pts l)

open Classical in
/-- a function of one of finitely many lists -/
theorem meas_lists {c : X → List (Point ℝ F L)} {pts : List (Point ℝ F L)} (hc : ∀ l, MeasurableSet {x | c x = l}) (hs : ∀ x, (c x).Sublist pts)
    {g : List (Point ℝ F L) → X → ENNReal} (hg : ∀ l, Measurable (g l)) : Measurable fun x => g (c x) x := by
  have e : (fun x => g (c x) x) = fun x => ∑ l ∈ pts.sublists.toFinset, {x | c x = l}.indicator (g l) x := by
    funext x
    rw [Finset.sum_eq_single (c x)]
    · simp [Set.indicator]
    · intro l _ hne
      refine Set.indicator_of_notMem ?_ _
      intro h
      exact hne h.symm
    · intro h
      exact absurd (List.mem_toFinset.2 (List.mem_sublists.2 (hs x))) h
  rw [e]
  exact Finset.measurable_fun_sum _ fun l _ => (hg l).indicator (hc l)

theorem lefts_meas (pts : List (Point ℝ F L)) (d : Fin F) {x : X → ℝ} (hx : Measurable x) {g : List (Point ℝ F L) → X → ENNReal} (hg : ∀ l, Measurable (g l)) :
    Measurable fun y => g (lefts pts d (x y)) y := by
  refine meas_lists (c := fun y => lefts pts d (x y)) (pts := pts) (fun l => ?_) (fun y => List.filter_sublist) hg
  have := filter_meas (fun z x => decide (z.1 d ≤ x)) (fun z => by simp only [decide_eq_true_eq]; exact measurableSet_Ici) pts l
  exact hx this

theorem rights_meas (pts : List (Point ℝ F L)) (d : Fin F) {x : X → ℝ} (hx : Measurable x) {g : List (Point ℝ F L) → X → ENNReal} (hg : ∀ l, Measurable (g l)) :
    Measurable fun y => g (rights pts d (x y)) y := by
  refine meas_lists (c := fun y => rights pts d (x y)) (pts := pts) (fun l => ?_) (fun y => List.filter_sublist) hg
  have := filter_meas (fun z x => decide (¬ z.1 d ≤ x)) (fun z => by simp only [decide_eq_true_eq]; exact measurableSet_Ici.compl) pts l
  exact hx this

variable (life : ℝ)

/-- the trees after a split -/
noncomputable def halves (n : Nat) (pts : List (Point ℝ F L)) (d : Fin F) (f : Tree ℝ F L → ENNReal) (s x : ℝ) : ENNReal :=
  batch life n (lefts pts d x) s fun l => batch life n (rights pts d x) s fun r => f (.node 0 ⟨s, hull pts, fun _ => 0⟩ d x l r)

theorem batch_succ (n : Nat) (pts : List (Point ℝ F L)) (r : ℝ) (f : Tree ℝ F L → ENNReal) :
    batch life (n + 1) pts r f = ENNReal.ofReal (Real.exp (-((hull pts).size * (life - r)))) * f (.leaf 0 ⟨life, hull pts, histogram pts⟩) +
      ∫⁻ s in Set.Ico r life, ∑ d, ∫⁻ x in Set.Ico ((hull pts).lower d) ((hull pts).upper d), ENNReal.ofReal (Real.exp (-((hull pts).size * (s - r)))) *
        halves life n pts d f s x := rfl

/-- measurability of `batch` for the bound `n` -/
def BMeas (n : Nat) : Prop := ∀ {X : Type} [MeasurableSpace X] (pts : List (Point ℝ F L)) {r : X → ℝ} (_ : Measurable r) {f : X → Tree ℝ F L → ENNReal} (_ : MeasT f),
  Measurable fun x => batch life n pts (r x) (f x)

theorem halves_meas' {n : Nat} (ih : BMeas (F := F) (L := L) life n) (pts : List (Point ℝ F L)) (d : Fin F) {f : X → Tree ℝ F L → ENNReal} (hf : MeasT f)
    {a : Z → X} {s x : Z → ℝ} (ha : Measurable a) (hs : Measurable s) (hx : Measurable x) : Measurable fun z => halves life n pts d (f (a z)) (s z) (x z) := by
  unfold halves
  refine lefts_meas pts d hx (g := fun l z => batch life n l (s z) fun tl => batch life n (rights pts d (x z)) (s z) fun tr =>
    f (a z) (.node 0 ⟨s z, hull pts, fun _ => 0⟩ d (x z) tl tr)) fun l => ?_
  refine ih l hs (f := fun z tl => batch life n (rights pts d (x z)) (s z) fun tr => f (a z) (.node 0 ⟨s z, hull pts, fun _ => 0⟩ d (x z) tl tr)) ?_
  intro Y _ b t hb ht
  refine rights_meas pts d (hx.comp hb) (g := fun l y => batch life n l (s (b y)) fun tr => f (a (b y)) (.node 0 ⟨s (b y), hull pts, fun _ => 0⟩ d (x (b y)) (t y) tr)) fun l' => ?_
  refine ih l' (hs.comp hb) (f := fun y tr => f (a (b y)) (.node 0 ⟨s (b y), hull pts, fun _ => 0⟩ d (x (b y)) (t y) tr)) ?_
  intro Y' _ c t' hc ht'
  exact hf.at (.node 0 _ d (hs.comp (hb.comp hc)) (.const _) (hx.comp (hb.comp hc)) (ht.comp hc) ht') (ha.comp (hb.comp hc))

theorem expTerm_meas (w : ℝ) {a b : X → ℝ} (ha : Measurable a) (hb : Measurable b) : Measurable fun x => ENNReal.ofReal (Real.exp (-(w * (a x - b x)))) := by fun_prop

theorem batch_meas : ∀ n : Nat, BMeas (F := F) (L := L) life n
  | 0 => fun pts r hr f hf => measurable_const
  | n + 1 => by
      intro pts r hr f hf
      simp only [batch_succ]
      refine ((expTerm_meas _ measurable_const hr).mul ?_).add ?_
      · exact hf.at (.leaf 0 _ measurable_const (.const _)) measurable_id
      · refine meas_Ico hr measurable_const (Finset.measurable_fun_sum _ fun d _ => ?_)
        refine meas_Ico measurable_const measurable_const (Measurable.mul ?_ ?_)
        · exact expTerm_meas _ (measurable_snd.comp measurable_fst) (hr.comp (measurable_fst.comp measurable_fst))
        · exact halves_meas' life (batch_meas n) pts d hf (measurable_fst.comp measurable_fst) (measurable_snd.comp measurable_fst) measurable_snd

theorem halves_meas (n : Nat) (pts : List (Point ℝ F L)) (d : Fin F) {f : X → Tree ℝ F L → ENNReal} (hf : MeasT f)
    {a : Z → X} {s x : Z → ℝ} (ha : Measurable a) (hs : Measurable s) (hx : Measurable x) : Measurable fun z => halves life n pts d (f (a z)) (s z) (x z) :=
  halves_meas' life (batch_meas life n) pts d hf ha hs hx

theorem VTree.const : ∀ t : Tree ℝ F L, VTree fun _ : X => t
  | .leaf id d => .leaf id d.counts measurable_const (.const d.box)
  | .node id d dim sp l r => .node id d.counts dim measurable_const (.const d.box) measurable_const (VTree.const l) (VTree.const r)

theorem MeasT.node {f : X → Tree ℝ F L → ENNReal} (hf : MeasT f) {t : Y → Tree ℝ F L} (ht : VTree t) {a : Y → X} (ha : Measurable a) (id : Nat) (counts : Fin L → Nat) (dim : Fin F)
    {tau sp : Y → ℝ} {box : Y → Box ℝ F} (hτ : Measurable tau) (hb : VBox box) (hs : Measurable sp) :
    MeasT fun y tr => f (a y) (.node id ⟨tau y, box y, counts⟩ dim (sp y) (t y) tr) := fun _ _ _ _ hc ht' =>
  hf.at (.node id counts dim (hτ.comp hc) (fun i => ⟨(hb i).1.comp hc, (hb i).2.comp hc⟩) (hs.comp hc) (ht.comp hc) ht') (ha.comp hc)

theorem MeasT.node' {f : X → Tree ℝ F L → ENNReal} (hf : MeasT f) {t : Y → Tree ℝ F L} (ht : VTree t) {a : Y → X} (ha : Measurable a) (id : Nat) (counts : Fin L → Nat) (dim : Fin F)
    {tau sp : Y → ℝ} {box : Y → Box ℝ F} (hτ : Measurable tau) (hb : VBox box) (hs : Measurable sp) :
    MeasT fun y tl => f (a y) (.node id ⟨tau y, box y, counts⟩ dim (sp y) tl (t y)) := fun _ _ _ _ hc ht' =>
  hf.at (.node id counts dim (hτ.comp hc) (fun i => ⟨(hb i).1.comp hc, (hb i).2.comp hc⟩) (hs.comp hc) ht' (ht.comp hc)) (ha.comp hc)

/-- the inner of two trees -/
theorem MeasT.batch {f : X → Tree ℝ F L → Tree ℝ F L → ENNReal} (n : Nat) (pts : List (Point ℝ F L)) {r : X → ℝ} (hr : Measurable r)
    (hf : ∀ (Y : Type) [MeasurableSpace Y] (a : Y → X) (t : Y → Tree ℝ F L), Measurable a → VTree t → MeasT fun y => f (a y) (t y)) :
    MeasT fun x tl => Orp.Mondrian.batch life n pts (r x) (f x tl) := fun Y _ a t ha ht => batch_meas life n pts (hr.comp ha) (hf Y a t ha ht)

/-- Integrals over a parameter are exchanged with the expectation. -/
theorem batch_swap : ∀ (n : Nat) (pts : List (Point ℝ F L)) (r : ℝ) {Y : Type} [MeasurableSpace Y] (μ : Measure Y) [SFinite μ] {f : Y → Tree ℝ F L → ENNReal} (_ : MeasT f),
    batch life n pts r (fun t => ∫⁻ y, f y t ∂μ) = ∫⁻ y, batch life n pts r (f y) ∂μ
  | 0, pts, r, Y, _, μ, _, f, hf => by simp [batch]
  | n + 1, pts, r, Y, _, μ, _, f, hf => by
      have h1 : ∀ d s x, halves life n pts d (fun t => ∫⁻ y, f y t ∂μ) s x = ∫⁻ y, halves life n pts d (f y) s x ∂μ := by
        intro d s x
        unfold halves
        have e : (fun tl => batch life n (rights pts d x) s fun tr => ∫⁻ y, f y (.node 0 ⟨s, hull pts, fun _ => 0⟩ d x tl tr) ∂μ) =
            fun tl => ∫⁻ y, (batch life n (rights pts d x) s fun tr => f y (.node 0 ⟨s, hull pts, fun _ => 0⟩ d x tl tr)) ∂μ := by
          funext tl
          exact batch_swap n _ s μ (hf.node (VTree.const tl) measurable_id 0 (fun _ => 0) d measurable_const (.const _) measurable_const)
        rw [e]
        refine batch_swap n _ s μ (f := fun y tl => batch life n (rights pts d x) s fun tr => f y (.node 0 ⟨s, hull pts, fun _ => 0⟩ d x tl tr)) ?_
        exact MeasT.batch life n _ measurable_const fun Y _ a t ha ht => hf.node ht ha 0 (fun _ => 0) d measurable_const (.const _) measurable_const
      have hm : ∀ d, Measurable fun q : (Y × ℝ) × ℝ => ENNReal.ofReal (Real.exp (-((hull pts).size * (q.1.2 - r)))) * halves life n pts d (f q.1.1) q.1.2 q.2 := fun d =>
        (expTerm_meas _ (measurable_snd.comp measurable_fst) measurable_const).mul
          (halves_meas life n pts d hf (measurable_fst.comp measurable_fst) (measurable_snd.comp measurable_fst) measurable_snd)
      have hm' : ∀ d, Measurable fun q : Y × ℝ => ∫⁻ x in Set.Ico ((hull pts).lower d) ((hull pts).upper d), ENNReal.ofReal (Real.exp (-((hull pts).size * (q.2 - r)))) * halves life n pts d (f q.1) q.2 x :=
        fun d => meas_Ico measurable_const measurable_const (hm d)
      simp only [batch_succ, h1]
      have hl : Measurable fun y => ENNReal.ofReal (Real.exp (-((hull pts).size * (life - r)))) * f y (.leaf 0 ⟨life, hull pts, histogram pts⟩) :=
        Measurable.mul measurable_const (hf.at (.leaf 0 _ measurable_const (.const _)) measurable_id)
      rw [lintegral_add_left hl, lintegral_const_mul' _ _ ENNReal.ofReal_ne_top]
      congr 1
      rw [← lintegral_lintegral_swap (f := fun s y => ∑ d, ∫⁻ x in Set.Ico ((hull pts).lower d) ((hull pts).upper d),
        ENNReal.ofReal (Real.exp (-((hull pts).size * (s - r)))) * halves life n pts d (f y) s x)
        (Finset.measurable_fun_sum _ fun d _ => (hm' d).comp measurable_swap).aemeasurable]
      refine lintegral_congr fun s => ?_
      have hm3 : ∀ d, Measurable fun y => ∫⁻ x in Set.Ico ((hull pts).lower d) ((hull pts).upper d), ENNReal.ofReal (Real.exp (-((hull pts).size * (s - r)))) * halves life n pts d (f y) s x :=
        fun d => (hm' d).comp (measurable_id.prodMk (measurable_const (a := s)))
      rw [lintegral_finset_sum _ fun d _ => hm3 d]
      refine Finset.sum_congr rfl fun d _ => ?_
      rw [← lintegral_lintegral_swap (f := fun x y => ENNReal.ofReal (Real.exp (-((hull pts).size * (s - r)))) * halves life n pts d (f y) s x)
        ((hm d).comp ((measurable_snd.prodMk measurable_const).prodMk measurable_fst)).aemeasurable]
      refine lintegral_congr fun x => ?_
      rw [lintegral_const_mul' _ _ ENNReal.ofReal_ne_top]

/-- a function of the tree alone -/
def MeasF (f : Tree ℝ F L → ENNReal) : Prop := ∀ (Y : Type) [MeasurableSpace Y] (t : Y → Tree ℝ F L), VTree t → Measurable fun y => f (t y)

theorem MeasF.to {f : Tree ℝ F L → ENNReal} (hf : MeasF f) : MeasT fun (_ : X) t => f t := fun Y _ _ t _ ht => hf Y t ht

theorem MeasT.fix {f : X → Tree ℝ F L → ENNReal} (hf : MeasT f) (x : X) : MeasF (f x) := fun Y _ t ht => hf Y (fun _ => x) t measurable_const ht

theorem batch_zero (n : Nat) (pts : List (Point ℝ F L)) (r : ℝ) : batch life n pts r (fun _ => 0) = 0 := by
  have := batch_swap life n pts r (0 : Measure Unit) (f := fun _ _ => 0) (fun _ _ _ _ _ _ => measurable_const)
  simpa using this

theorem batch_sum {ι : Type} [Fintype ι] (n : Nat) (pts : List (Point ℝ F L)) (r : ℝ) {f : ι → Tree ℝ F L → ENNReal} (hf : ∀ i, MeasF (f i)) :
    batch life n pts r (fun t => ∑ i, f i t) = ∑ i, batch life n pts r (f i) := by
  letI : MeasurableSpace ι := ⊤
  haveI : MeasurableSingletonClass ι := ⟨fun _ => trivial⟩
  have h : MeasT f := by
    intro Y _ a t ha ht
    have : Measurable fun q : Y × ι => f q.2 (t q.1) := measurable_from_prod_countable_left fun i => hf i Y t ht
    exact this.comp (measurable_id.prodMk ha)
  have := batch_swap life n pts r Measure.count h
  simpa only [lintegral_count, tsum_fintype] using this

theorem batch_add (n : Nat) (pts : List (Point ℝ F L)) (r : ℝ) {f g : Tree ℝ F L → ENNReal} (hf : MeasF f) (hg : MeasF g) :
    batch life n pts r (fun t => f t + g t) = batch life n pts r f + batch life n pts r g := by
  have := batch_sum life n pts r (ι := Bool) (f := fun b => if b then f else g) (fun b => by cases b <;> simpa)
  simpa using this

theorem batch_mul (n : Nat) (pts : List (Point ℝ F L)) (r : ℝ) {f : Tree ℝ F L → ENNReal} (hf : MeasF f) (c : ENNReal) [SFinite (c • (Measure.dirac () : Measure Unit))] :
    batch life n pts r (fun t => c * f t) = c * batch life n pts r f := by
  have := batch_swap life n pts r (c • (Measure.dirac () : Measure Unit)) hf.to
  simpa [mul_comm] using this

/-- Two trees are exchanged. -/
theorem batch_batch : ∀ (n : Nat) (pts : List (Point ℝ F L)) (r : ℝ) (m : Nat) (pts' : List (Point ℝ F L)) (r' : ℝ) {f : Tree ℝ F L → Tree ℝ F L → ENNReal}
    (_ : ∀ (Y : Type) [MeasurableSpace Y] (t u : Y → Tree ℝ F L), VTree t → VTree u → Measurable fun y => f (t y) (u y)),
    batch life n pts r (fun t => batch life m pts' r' (f t)) = batch life m pts' r' fun u => batch life n pts r fun t => f t u
  | 0, pts, r, m, pts', r', f, hf => by simp only [batch]; rw [batch_zero]
  | n + 1, pts, r, m, pts', r', f, hf => by
      have hT : MeasT (X := Unit) fun _ u => batch life (n + 1) pts r fun t => f t u := by
        intro Y _ a t ha ht
        exact batch_meas life (n + 1) pts measurable_const (f := fun y u => f u (t y)) fun Y' _ a' t' ha' ht' => hf Y' t' _ ht' (ht.comp ha')
      have hh : ∀ d, ∀ (Y : Type) [MeasurableSpace Y] (s x : Y → ℝ) (u : Y → Tree ℝ F L), Measurable s → Measurable x → VTree u →
          Measurable fun y => halves life n pts d (fun t => f t (u y)) (s y) (x y) := by
        intro d Y _ s x u hs hx hu
        exact halves_meas life n pts d (X := Y) (f := fun y t => f t (u y)) (fun Y' _ a' t' ha' ht' => hf Y' t' _ ht' (hu.comp ha')) measurable_id hs hx
      have h1 : ∀ d s x, halves life n pts d (fun t => batch life m pts' r' (f t)) s x = batch life m pts' r' fun u => halves life n pts d (fun t => f t u) s x := by
        intro d s x
        unfold halves
        have e : (fun tl => batch life n (rights pts d x) s fun tr => batch life m pts' r' (f (.node 0 ⟨s, hull pts, fun _ => 0⟩ d x tl tr))) =
            fun tl => batch life m pts' r' fun u => batch life n (rights pts d x) s fun tr => f (.node 0 ⟨s, hull pts, fun _ => 0⟩ d x tl tr) u := by
          funext tl
          refine batch_batch n _ s m pts' r' (f := fun tr u => f (.node 0 ⟨s, hull pts, fun _ => 0⟩ d x tl tr) u) fun Y _ t u ht hu => ?_
          exact hf Y _ u (.node 0 _ d measurable_const (.const _) measurable_const (.const tl) ht) hu
        rw [e]
        refine batch_batch n _ s m pts' r' (f := fun tl u => batch life n (rights pts d x) s fun tr => f (.node 0 ⟨s, hull pts, fun _ => 0⟩ d x tl tr) u) fun Y _ t u ht hu => ?_
        refine batch_meas life n _ measurable_const (f := fun y tr => f (.node 0 ⟨s, hull pts, fun _ => 0⟩ d x (t y) tr) (u y)) fun Y' _ a' t' ha' ht' => ?_
        exact hf Y' _ _ (.node 0 _ d measurable_const (.const _) measurable_const (ht.comp ha') ht') (hu.comp ha')
      simp only [batch_succ, h1]
      have hleaf : MeasF fun u => f (.leaf 0 ⟨life, hull pts, histogram pts⟩) u := fun Y _ u hu => hf Y _ u (.const _) hu
      have hm : ∀ d, MeasT fun (q : ℝ × ℝ) u => ENNReal.ofReal (Real.exp (-((hull pts).size * (q.1 - r)))) * halves life n pts d (fun t => f t u) q.1 q.2 := by
        intro d Y _ a u ha hu
        exact (expTerm_meas _ (measurable_fst.comp ha) measurable_const).mul (hh d Y _ _ u (measurable_fst.comp ha) (measurable_snd.comp ha) hu)
      have hm1 : ∀ d, MeasT fun (s : ℝ) u => ∫⁻ x in Set.Ico ((hull pts).lower d) ((hull pts).upper d), ENNReal.ofReal (Real.exp (-((hull pts).size * (s - r)))) * halves life n pts d (fun t => f t u) s x := by
        intro d Y _ a u ha hu
        exact meas_Ico measurable_const measurable_const (hm d _ (fun q : Y × ℝ => (a q.1, q.2)) (fun q => u q.1) ((ha.comp measurable_fst).prodMk measurable_snd) (hu.comp measurable_fst))
      have hm2 : MeasT fun (s : ℝ) u => ∑ d, ∫⁻ x in Set.Ico ((hull pts).lower d) ((hull pts).upper d), ENNReal.ofReal (Real.exp (-((hull pts).size * (s - r)))) * halves life n pts d (fun t => f t u) s x := by
        intro Y _ a u ha hu
        exact Finset.measurable_fun_sum _ fun d _ => hm1 d Y a u ha hu
      rw [batch_add life m pts' r' (f := fun u => ENNReal.ofReal (Real.exp (-((hull pts).size * (life - r)))) * f (.leaf 0 ⟨life, hull pts, histogram pts⟩) u)
        (g := fun u => ∫⁻ s in Set.Ico r life, ∑ d, ∫⁻ x in Set.Ico ((hull pts).lower d) ((hull pts).upper d), ENNReal.ofReal (Real.exp (-((hull pts).size * (s - r)))) *
          halves life n pts d (fun t => f t u) s x) (fun Y _ u hu => Measurable.mul measurable_const (hleaf Y u hu)) ?_, batch_mul life m pts' r' hleaf, batch_swap life m pts' r' _ hm2]
      · congr 1
        refine lintegral_congr fun s => ?_
        rw [batch_sum life m pts' r' fun d => (hm1 d).fix s]
        refine Finset.sum_congr rfl fun d _ => ?_
        rw [batch_swap life m pts' r' (volume.restrict _) (f := fun x u => ENNReal.ofReal (Real.exp (-((hull pts).size * (s - r)))) * halves life n pts d (fun t => f t u) s x)
          ((hm d).comp (b := fun x : ℝ => (s, x)) (measurable_const.prodMk measurable_id))]
        refine lintegral_congr fun x => ?_
        rw [batch_mul life m pts' r' (f := fun u => halves life n pts d (fun t => f t u) s x) fun Y _ u hu => hh d Y _ _ u measurable_const measurable_const hu]
      · intro Y _ u hu
        exact meas_Ico measurable_const measurable_const (hm2 _ (fun q : Y × ℝ => q.2) (fun q => u q.1) measurable_snd (hu.comp measurable_fst))

end Orp.Mondrian
