import Verif.Mondrian.GrowProg
import Mathlib.MeasureTheory.Constructions.BorelSpace.Order
import Mathlib.MeasureTheory.Function.SpecialFunctions.Basic

/-!
The tree that a program grows depends measurably on the random numbers: on countably many measurable sets it has a fixed shape, and its numbers are
measurable functions.
-/

set_option linter.unusedSectionVars false

namespace Orp.Mondrian

open MeasureTheory Orp.Reservoir

variable {F L : Nat} {X Y : Type}

/-- On countably many measurable sets the function is one with the property `P`. -/
def Pieces (P : ((Nat → U01) → X) → Prop) (f : (Nat → U01) → X) : Prop :=
  ∃ (ι : Type) (_ : Countable ι) (A : ι → Set (Nat → U01)) (g : ι → (Nat → U01) → X), (∀ i, MeasurableSet (A i)) ∧ (∀ ω, ∃ i, ω ∈ A i) ∧
    ∀ i, P (g i) ∧ ∀ ω ∈ A i, f ω = g i ω

theorem Pieces.of {P : ((Nat → U01) → X) → Prop} {f : (Nat → U01) → X} (h : P f) : Pieces P f :=
  ⟨Unit, inferInstance, fun _ => Set.univ, fun _ => f, fun _ => MeasurableSet.univ, fun _ => ⟨(), trivial⟩, fun _ => ⟨h, fun _ _ => rfl⟩⟩

theorem Pieces.cases {P : ((Nat → U01) → X) → Prop} {f : (Nat → U01) → X} {ι : Type} [Countable ι] (A : ι → Set (Nat → U01)) (g : ι → (Nat → U01) → X)
    (hA : ∀ i, MeasurableSet (A i)) (hc : ∀ ω, ∃ i, ω ∈ A i) (hg : ∀ i, Pieces P (g i)) (he : ∀ i, ∀ ω ∈ A i, f ω = g i ω) : Pieces P f := by
  choose κ hκ B h hB hcB hh using hg
  refine ⟨Σ i, κ i, inferInstance, fun j => A j.1 ∩ B j.1 j.2, fun j => h j.1 j.2, fun j => (hA _).inter (hB _ _), fun ω => ?_, fun j => ⟨(hh _ _).1, fun ω hω => ?_⟩⟩
  · obtain ⟨i, hi⟩ := hc ω
    obtain ⟨k, hk⟩ := hcB i ω
    exact ⟨⟨i, k⟩, hi, hk⟩
  · rw [he _ _ hω.1]; exact (hh _ _).2 ω hω.2

theorem Pieces.bind {P : ((Nat → U01) → X) → Prop} {Q : ((Nat → U01) → Y) → Prop} {f : (Nat → U01) → X} (hf : Pieces P f) {k : (Nat → U01) → X → Y}
    (hk : ∀ g, P g → Pieces Q fun ω => k ω (g ω)) : Pieces Q fun ω => k ω (f ω) := by
  obtain ⟨ι, _, A, g, hA, hc, hg⟩ := hf
  exact Pieces.cases A (fun i ω => k ω (g i ω)) hA hc (fun i => hk _ (hg i).1) fun i ω hω => by rw [(hg i).2 ω hω]

theorem Pieces.ite {P : ((Nat → U01) → X) → Prop} {c : (Nat → U01) → Prop} (hc : MeasurableSet {ω | c ω}) {f f₁ f₂ : (Nat → U01) → X} (h1 : Pieces P f₁) (h2 : Pieces P f₂)
    (e1 : ∀ ω, c ω → f ω = f₁ ω) (e2 : ∀ ω, ¬ c ω → f ω = f₂ ω) : Pieces P f := by
  refine Pieces.cases (ι := Bool) (fun b => if b then {ω | c ω} else {ω | c ω}ᶜ) (fun b => if b then f₁ else f₂) (fun b => ?_) (fun ω => ?_) (fun b => ?_) fun b ω hω => ?_
  · cases b
    · exact hc.compl
    · exact hc
  · by_cases h : c ω
    · exact ⟨true, h⟩
    · exact ⟨false, h⟩
  · cases b
    · exact h2
    · exact h1
  · cases b
    · exact e2 ω hω
    · exact e1 ω hω

theorem Pieces.meas {P : ((Nat → U01) → X) → Prop} {f : (Nat → U01) → X} (hf : Pieces P f) {E : X → Prop} (h : ∀ g, P g → MeasurableSet {ω | E (g ω)}) :
    MeasurableSet {ω | E (f ω)} := by
  obtain ⟨ι, _, A, g, hA, hc, hg⟩ := hf
  have : {ω | E (f ω)} = ⋃ i, A i ∩ {ω | E (g i ω)} := by
    ext ω
    simp only [Set.mem_ofPred_eq, Set.mem_iUnion, Set.mem_inter_iff]
    constructor
    · intro h
      obtain ⟨i, hi⟩ := hc ω
      exact ⟨i, hi, by rw [← (hg i).2 ω hi]; exact h⟩
    · rintro ⟨i, hi, h⟩
      rw [(hg i).2 ω hi]; exact h
  rw [this]
  exact MeasurableSet.iUnion fun i => (hA i).inter (h _ (hg i).1)

/-! ### Boxes, cuts and trees -/

/-- a box with measurable bounds -/
def MBox (b : (Nat → U01) → Box ℝ F) : Prop := ∀ i, Measurable (fun ω => (b ω).lower i) ∧ Measurable fun ω => (b ω).upper i

/-- a cut of fixed dimension and side with measurable numbers -/
inductive MCut : ((Nat → U01) → Res (Option (Cut ℝ F)) × Nat) → Prop where
  | error (e : Err) (pos : Nat) : MCut fun _ => (.error e, pos)
  | none (pos : Nat) : MCut fun _ => (.ok Option.none, pos)
  | some (dim : Fin F) (right : Bool) {split tau : (Nat → U01) → ℝ} (hs : Measurable split) (ht : Measurable tau) (pos : Nat) :
      MCut fun ω => (.ok (Option.some ⟨dim, split ω, tau ω, right⟩), pos)

/-- a tree of fixed shape with measurable numbers -/
inductive MTree : ((Nat → U01) → Tree ℝ F L) → Prop where
  | leaf (id : Nat) (counts : Fin L → Nat) {tau : (Nat → U01) → ℝ} {box : (Nat → U01) → Box ℝ F} (ht : Measurable tau) (hb : MBox box) :
      MTree fun ω => .leaf id ⟨tau ω, box ω, counts⟩
  | node (id : Nat) (counts : Fin L → Nat) (dim : Fin F) {tau sp : (Nat → U01) → ℝ} {box : (Nat → U01) → Box ℝ F} {l r : (Nat → U01) → Tree ℝ F L}
      (ht : Measurable tau) (hb : MBox box) (hs : Measurable sp) (hl : MTree l) (hr : MTree r) : MTree fun ω => .node id ⟨tau ω, box ω, counts⟩ dim (sp ω) (l ω) (r ω)

/-- a result that is an error or a tree of fixed shape -/
inductive MRes : ((Nat → U01) → Res (Tree ℝ F L) × Nat) → Prop where
  | error (e : Err) (pos : Nat) : MRes fun _ => (.error e, pos)
  | ok {t : (Nat → U01) → Tree ℝ F L} (ht : MTree t) (pos : Nat) : MRes fun ω => (.ok (t ω), pos)

theorem MBox.distIn {b : (Nat → U01) → Box ℝ F} (hb : MBox b) (x : Fin F → ℝ) (i : Fin F) : Measurable fun ω => (b ω).distIn x i := by
  have h1 := (hb i).1
  have h2 := (hb i).2
  unfold Box.distIn
  fun_prop

theorem MBox.dist {b : (Nat → U01) → Box ℝ F} (hb : MBox b) (x : Fin F → ℝ) : Measurable fun ω => (b ω).dist x := by
  unfold Box.dist
  exact Finset.measurable_fun_sum _ fun i _ => hb.distIn x i

theorem MBox.extend {b : (Nat → U01) → Box ℝ F} (hb : MBox b) (x : Fin F → ℝ) : MBox fun ω => (b ω).extend x := by
  intro i
  have h1 := (hb i).1
  have h2 := (hb i).2
  simp only [Box.extend]
  exact ⟨Measurable.ite (measurableSet_lt measurable_const h1) measurable_const h1, Measurable.ite (measurableSet_lt h2 measurable_const) measurable_const h2⟩

theorem draw_measurable (pos : Nat) : Measurable fun ω : Nat → U01 => (ω pos).1 := measurable_subtype_coe.comp (measurable_pi_apply pos)

/-- the dimension that is picked, in terms of the cumulative distances -/
theorem picks_cum (e : Fin F → ℝ) (he : ∀ i, 0 ≤ e i) (hs : 0 < ∑ i, e i) (d : Fin F) (u : U01) :
    u ∈ picks e d ↔ (1 ≤ d.val → (∑ j with j.val < d.val, e j) / ∑ i, e i < u.1) ∧ u.1 ≤ (∑ j with j.val < d.val + 1, e j) / ∑ i, e i := by
  have hsum : (List.ofFn e).sum = ∑ i, e i := by rw [List.sum_ofFn]
  obtain ⟨r, a1, a2, a3, a4, a5, a6, a7⟩ := Utils.C29_cumulative (List.ofFn e) (by simpa [List.mem_ofFn] using he) (by rw [hsum]; exact hs)
  have a1' : Utils.turnIntoProbability (List.ofFn e) (∑ i, e i) = .ok r := by
    rw [← a1]
    unfold Utils.turnIntoProbability
    rw [if_neg (not_lt.2 hs.le), if_pos (by norm_num), Utils.foldl_add, zero_add, hsum]
  have hd : d.val < r.length := by rw [a2]; simp
  have := (Utils.C30_first_index_partial r a5 a7 u.2.2).2 d.val hd
  simp only [picks, a1', Set.mem_ofPred_eq, Except.ok.injEq, exists_eq_left']
  rw [this, a3 _ hd, hsum, List.sum_take_ofFn]
  refine and_congr (forall_congr' fun h => ?_) Iff.rfl
  rw [a3 (d.val - 1) (by omega), hsum, List.sum_take_ofFn, Nat.sub_add_cancel h]

theorem extent_measurable {b : (Nat → U01) → Box ℝ F} (hb : MBox b) (x : Fin F → ℝ) (i : Fin F) : Measurable fun ω => extent (b ω) x i := by
  simp only [extent_eq]; exact hb.distIn x i

theorem picks_measurable {b : (Nat → U01) → Box ℝ F} (hb : MBox b) (x : Fin F → ℝ) (pos : Nat) (d : Fin F) :
    MeasurableSet {ω | (b ω).dist x ≠ 0 ∧ ω pos ∈ picks (extent (b ω) x) d} := by
  have h1 : {ω : Nat → U01 | (b ω).dist x ≠ 0 ∧ ω pos ∈ picks (extent (b ω) x) d} = {ω | (b ω).dist x ≠ 0} ∩
      ({ω | 1 ≤ d.val → (∑ j with j.val < d.val, extent (b ω) x j) / ∑ i, extent (b ω) x i < (ω pos).1} ∩
        {ω | (ω pos).1 ≤ (∑ j with j.val < d.val + 1, extent (b ω) x j) / ∑ i, extent (b ω) x i}) := by
    ext ω
    simp only [Set.mem_inter_iff, Set.mem_ofPred_eq]
    refine and_congr_right fun h => ?_
    have hs : 0 < ∑ i, extent (b ω) x i := by rw [dist_eq]; exact lt_of_le_of_ne (dist_nonneg _ _) (Ne.symm h)
    exact picks_cum _ (extent_nonneg _ _) hs d _
  have hm : ∀ (s : Finset (Fin F)), Measurable fun ω => ∑ j ∈ s, extent (b ω) x j := fun s => Finset.measurable_fun_sum _ fun i _ => extent_measurable hb x i
  rw [h1]
  refine MeasurableSet.inter (measurableSet_eq_fun (hb.dist x) measurable_const).compl (MeasurableSet.inter ?_ ?_)
  · by_cases h : 1 ≤ d.val
    · simp only [h, forall_true_left]
      exact measurableSet_lt ((hm _).div (hm _)) (draw_measurable pos)
    · simp [h]
  · exact measurableSet_le (draw_measurable pos) ((hm _).div (hm _))

theorem cutOf_pick {b : Box ℝ F} {x : Fin F → ℝ} (hd : b.dist x ≠ 0) {u : U01} {d : Fin F} (hu : u ∈ picks (extent b x) d) (tau : ℝ) (v : U01) :
    cutOf b x tau u v = if b.upper d < x d then .ok (some ⟨d, v.1 * (x d - b.upper d) + b.upper d, tau, true⟩)
      else if x d < b.lower d then .ok (some ⟨d, v.1 * (b.lower d - x d) + x d, tau, false⟩) else .error .ub := by
  have hs : 0 < ∑ i, extent b x i := by rw [dist_eq]; exact lt_of_le_of_ne (dist_nonneg _ _) (Ne.symm hd)
  have := (pickDim_eq (fun _ => u) 0 (extent b x) (extent_nonneg b x) hs d 1).2 ⟨hu, rfl⟩
  have hn : nums (fun _ => u) = fun _ => u.1 := rfl
  rw [hn] at this
  simp only [cutOf, this, cutAt, bind, Except.bind, pure, Except.pure]
  by_cases h1 : b.upper d < x d
  · simp [h1]
  · by_cases h2 : x d < b.lower d
    · simp [h1, h2, h2.ne]
    · simp [h1, h2]

theorem cutOf_pieces {b : (Nat → U01) → Box ℝ F} (hb : MBox b) (x : Fin F → ℝ) {tau : (Nat → U01) → ℝ} (ht : Measurable tau) (i j pos : Nat)
    : Pieces MCut fun ω => if (b ω).dist x = 0 then (.ok none, pos) else (cutOf (b ω) x (tau ω) (ω i) (ω j), pos) := by
  refine Pieces.cases (ι := Option (Fin F)) (fun o => match o with
      | none => {ω | (b ω).dist x = 0}
      | some d => {ω | (b ω).dist x ≠ 0 ∧ ω i ∈ picks (extent (b ω) x) d})
    (fun o => match o with
      | none => fun _ => (.ok none, pos)
      | some d => fun ω => (if (b ω).upper d < x d then .ok (some ⟨d, (ω j).1 * (x d - (b ω).upper d) + (b ω).upper d, tau ω, true⟩)
          else if x d < (b ω).lower d then .ok (some ⟨d, (ω j).1 * ((b ω).lower d - x d) + x d, tau ω, false⟩) else .error .ub, pos)) ?_ ?_ ?_ ?_
  · intro o
    cases o with
    | none => exact measurableSet_eq_fun (hb.dist x) measurable_const
    | some d => exact picks_measurable hb x i d
  · intro ω
    by_cases h : (b ω).dist x = 0
    · exact ⟨none, h⟩
    · have hs : 0 < ∑ i, extent (b ω) x i := by rw [dist_eq]; exact lt_of_le_of_ne (dist_nonneg _ _) (Ne.symm h)
      obtain ⟨d, hd⟩ := pickDim_total (fun _ => ω i) 0 (extent (b ω) x) (extent_nonneg _ _) hs
      exact ⟨some d, h, ((pickDim_eq (fun _ => ω i) 0 _ (extent_nonneg _ _) hs d _).1 hd).1⟩
  · intro o
    cases o with
    | none => exact Pieces.of (.none pos)
    | some d =>
      have h1 := (hb d).1
      have h2 := (hb d).2
      have hj := draw_measurable j
      refine Pieces.ite (c := fun ω => (b ω).upper d < x d) (measurableSet_lt h2 measurable_const)
        (f₁ := fun ω => (.ok (some ⟨d, (ω j).1 * (x d - (b ω).upper d) + (b ω).upper d, tau ω, true⟩), pos))
        (f₂ := fun ω => (if x d < (b ω).lower d then .ok (some ⟨d, (ω j).1 * ((b ω).lower d - x d) + x d, tau ω, false⟩) else .error .ub, pos))
        (Pieces.of (.some d true (by fun_prop) ht pos)) ?_ (fun ω h => by simp [h]) (fun ω h => by simp [h])
      exact Pieces.ite (c := fun ω => x d < (b ω).lower d) (measurableSet_lt measurable_const h1)
        (f₁ := fun ω => (.ok (some ⟨d, (ω j).1 * ((b ω).lower d - x d) + x d, tau ω, false⟩), pos)) (f₂ := fun _ => (.error .ub, pos))
        (Pieces.of (.some d false (by fun_prop) ht pos)) (Pieces.of (.error _ pos)) (fun ω h => by simp [h]) (fun ω h => by simp [h])
  · intro o ω hω
    cases o with
    | none => simp only [Set.mem_ofPred_eq] at hω; simp [hω]
    | some d =>
      simp only [Set.mem_ofPred_eq] at hω
      simp only [hω.1, if_false]
      rw [cutOf_pick hω.1 hω.2]

theorem drawP_pieces {p : Params ℝ} (hlog : p.log = Real.log) {b : (Nat → U01) → Box ℝ F} (hb : MBox b) (x : Fin F → ℝ) {ptau tau : (Nat → U01) → ℝ}
    (hp : Measurable ptau) (ht : Measurable tau) (pos : Nat) : Pieces MCut fun ω => (drawP p (b ω) x (ptau ω) (tau ω)).eval ω pos := by
  have hd := hb.dist x
  have hu := draw_measurable pos
  have he : Measurable fun ω : Nat → U01 => p.log (1 - (ω pos).1) / (-(b ω).dist x) := by
    rw [hlog]
    exact (Real.measurable_log.comp (measurable_const.sub hu)).div hd.neg
  have hto : Measurable fun ω : Nat → U01 => timeOf p (b ω) x (ptau ω) (ω pos) := hp.add he
  refine Pieces.ite (c := fun ω => (b ω).dist x = 0) (measurableSet_eq_fun hd measurable_const) (f₁ := fun _ => (.ok none, pos))
    (f₂ := fun ω => if 0 ≤ p.log (1 - (ω pos).1) / (-(b ω).dist x) ∧ timeOf p (b ω) x (ptau ω) (ω pos) < tau ω then
      (if (b ω).dist x = 0 then (.ok none, pos + 3) else (cutOf (b ω) x (timeOf p (b ω) x (ptau ω) (ω pos)) (ω (pos + 1)) (ω (pos + 2)), pos + 3)) else (.ok none, pos + 1))
    (Pieces.of (.none pos)) ?_ (fun ω h => by simp [drawP, h, Prog.eval]) (fun ω h => ?_)
  · refine Pieces.ite (c := fun ω => 0 ≤ p.log (1 - (ω pos).1) / (-(b ω).dist x) ∧ timeOf p (b ω) x (ptau ω) (ω pos) < tau ω)
      ((measurableSet_le measurable_const he).inter (measurableSet_lt hto ht)) (cutOf_pieces hb x hto (pos + 1) (pos + 2) (pos + 3))
      (Pieces.of (.none (pos + 1))) (fun ω h => if_pos h) (fun ω h => if_neg h)
  · simp only [drawP, h, if_false, Prog.eval]
    split <;> rfl

theorem MTree.data {t : (Nat → U01) → Tree ℝ F L} (h : MTree t) : (Measurable fun ω => (t ω).data.tau) ∧ MBox fun ω => (t ω).data.box := by
  cases h with
  | leaf id counts ht hb => exact ⟨ht, hb⟩
  | node id counts dim ht hb hs hl hr => exact ⟨ht, hb⟩

theorem MTree.newLeaf (life : ℝ) (id : Nat) (x : Fin F → ℝ) (label : Fin L) : MTree fun _ => newLeaf life id x label :=
  .leaf id _ (tau := fun _ => life) (box := fun _ => Box.point x) measurable_const fun i => ⟨measurable_const, measurable_const⟩

theorem MTree.above (life : ℝ) (f : Nat × Nat) {t : (Nat → U01) → Tree ℝ F L} (h : MTree t) (x : Fin F → ℝ) (label : Fin L) (dim : Fin F) (right : Bool)
    {split tau : (Nat → U01) → ℝ} (hs : Measurable split) (ht : Measurable tau) : MTree fun ω => above life f ⟨dim, split ω, tau ω, right⟩ (t ω) x label := by
  cases right with
  | true => exact .node f.1 (fun _ => 0) dim ht (h.data.2.extend x) hs h (.newLeaf life f.2 x label)
  | false => exact .node f.1 (fun _ => 0) dim ht (h.data.2.extend x) hs (.newLeaf life f.2 x label) h

theorem growP_pieces {p : Params ℝ} (hlog : p.log = Real.log) (f : Nat × Nat) (x : Fin F → ℝ) (label : Fin L) {t : (Nat → U01) → Tree ℝ F L} (h : MTree t) :
    ∀ {ptau : (Nat → U01) → ℝ}, Measurable ptau → ∀ pos, Pieces MRes fun ω => (growP p f x label (t ω) (ptau ω)).eval ω pos := by
  induction h with
  | @leaf id counts tau box ht hb =>
    intro ptau hp pos
    simp only [growP, Prog.eval_bind]
    refine (drawP_pieces hlog hb x hp ht pos).bind (k := fun ω c => Prog.eval ω (match c.1 with
      | .error e => Prog.ret (Except.error e : Res (Tree ℝ F L))
      | .ok (some c) => .ret (.ok (Orp.Mondrian.above p.lifetime f c (.leaf id ⟨tau ω, box ω, counts⟩) x label))
      | .ok none => .ret (.ok (.leaf id ⟨tau ω, (box ω).extend x, bump counts label⟩))) c.2) fun g hg => ?_
    cases hg with
    | error e pos => exact Pieces.of (.error e pos)
    | none pos => exact Pieces.of (.ok (.leaf id _ ht (hb.extend x)) pos)
    | some dim right hs htau pos => exact Pieces.of (.ok (.above p.lifetime f (.leaf id counts ht hb) x label dim right hs htau) pos)
  | @node id counts dim tau sp box l r ht hb hs hl hr ihl ihr =>
    intro ptau hp pos
    simp only [growP, Prog.eval_bind]
    refine (drawP_pieces hlog hb x hp ht pos).bind (k := fun ω c => Prog.eval ω (match c.1 with
      | .error e => Prog.ret (Except.error e : Res (Tree ℝ F L))
      | .ok (some c) => .ret (.ok (Orp.Mondrian.above p.lifetime f c (.node id ⟨tau ω, box ω, counts⟩ dim (sp ω) (l ω) (r ω)) x label))
      | .ok none => if x dim ≤ sp ω then (growP p f x label (l ω) (tau ω)).bind fun q =>
          .ret (q.map fun l => .node id ⟨tau ω, (box ω).extend x, counts⟩ dim (sp ω) l (r ω))
        else (growP p f x label (r ω) (tau ω)).bind fun q =>
          .ret (q.map fun r => .node id ⟨tau ω, (box ω).extend x, counts⟩ dim (sp ω) (l ω) r)) c.2) fun g hg => ?_
    cases hg with
    | error e pos => exact Pieces.of (.error e pos)
    | some dim' right hs' htau pos => exact Pieces.of (.ok (.above p.lifetime f (.node id counts dim ht hb hs hl hr) x label dim' right hs' htau) pos)
    | none pos =>
      simp only
      refine Pieces.ite (c := fun ω => x dim ≤ sp ω) (measurableSet_le measurable_const hs)
        (f₁ := fun ω => (((growP p f x label (l ω) (tau ω)).eval ω pos).1.map fun l => .node id ⟨tau ω, (box ω).extend x, counts⟩ dim (sp ω) l (r ω),
          ((growP p f x label (l ω) (tau ω)).eval ω pos).2))
        (f₂ := fun ω => (((growP p f x label (r ω) (tau ω)).eval ω pos).1.map fun r => .node id ⟨tau ω, (box ω).extend x, counts⟩ dim (sp ω) (l ω) r,
          ((growP p f x label (r ω) (tau ω)).eval ω pos).2)) ?_ ?_ (fun ω h => ?_) (fun ω h => ?_)
      · refine (ihl ht pos).bind (k := fun ω q => (q.1.map fun l => Tree.node id ⟨tau ω, (box ω).extend x, counts⟩ dim (sp ω) l (r ω), q.2)) fun g hg => ?_
        cases hg with
        | error e pos => exact Pieces.of (.error e pos)
        | ok htr pos => exact Pieces.of (.ok (.node id counts dim ht (hb.extend x) hs htr hr) pos)
      · refine (ihr ht pos).bind (k := fun ω q => (q.1.map fun r => Tree.node id ⟨tau ω, (box ω).extend x, counts⟩ dim (sp ω) (l ω) r, q.2)) fun g hg => ?_
        cases hg with
        | error e pos => exact Pieces.of (.error e pos)
        | ok htr pos => exact Pieces.of (.ok (.node id counts dim ht (hb.extend x) hs hl htr) pos)
      · simp only [if_pos h, Prog.eval_bind, Prog.eval]
      · simp only [if_neg h, Prog.eval_bind, Prog.eval]

theorem MTree.ids {t : (Nat → U01) → Tree ℝ F L} (h : MTree t) : ∃ I, ∀ ω, (t ω).ids = I := by
  induction h with
  | leaf id counts ht hb => exact ⟨[id], fun _ => rfl⟩
  | node id counts dim ht hb hs hl hr ihl ihr =>
    obtain ⟨I, hI⟩ := ihl
    obtain ⟨J, hJ⟩ := ihr
    exact ⟨id :: (I ++ J), fun ω => by simp only [Tree.ids, hI, hJ]⟩

theorem MTree.leafOf {t : (Nat → U01) → Tree ℝ F L} (h : MTree t) (x : Fin F → ℝ) : Measurable fun ω => (t ω).leafOf x := by
  induction h with
  | leaf id counts ht hb => exact measurable_const
  | node id counts dim ht hb hs hl hr ihl ihr => exact Measurable.ite (measurableSet_le measurable_const hs) ihl ihr

end Orp.Mondrian
