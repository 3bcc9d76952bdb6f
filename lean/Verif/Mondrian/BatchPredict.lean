import Verif.Mondrian.BatchJoint

/-!
The label that a forest predicts is a measurable function of its trees.
-/

set_option linter.unusedSectionVars false

namespace Orp.Mondrian

open MeasureTheory Orp.Reservoir

variable {F L : Nat} {X : Type} [MeasurableSpace X]

/-- the value of a result, 0 for an error -/
def resVal : Res (Fin L → ℝ) → Fin L → ℝ
  | .ok v => v
  | .error _ => fun _ => 0

/-- a result that depends measurably on a parameter -/
def MVec (f : X → Res (Fin L → ℝ)) : Prop := MeasurableSet {y | ∃ v, f y = .ok v} ∧ ∀ l, Measurable fun y => resVal (f y) l

theorem MVec.ok {v : X → Fin L → ℝ} (h : ∀ l, Measurable fun y => v y l) : MVec fun y => .ok (v y) := ⟨by simp, h⟩

theorem MVec.error (e : Err) : MVec fun _ : X => (.error e : Res (Fin L → ℝ)) := ⟨by simp, fun _ => measurable_const⟩

theorem MVec.ite {C : X → Prop} [DecidablePred C] (hC : MeasurableSet {y | C y}) {f g : X → Res (Fin L → ℝ)} (hf : MVec f) (hg : MVec g) :
    MVec fun y => if C y then f y else g y := by
  constructor
  · have : {y | ∃ v, (if C y then f y else g y) = .ok v} = {y | C y} ∩ {y | ∃ v, f y = .ok v} ∪ {y | C y}ᶜ ∩ {y | ∃ v, g y = .ok v} := by
      ext y
      by_cases h : C y <;> simp [h]
    rw [this]
    exact (hC.inter hf.1).union (hC.compl.inter hg.1)
  · intro l
    have : (fun y => resVal (if C y then f y else g y) l) = fun y => if C y then resVal (f y) l else resVal (g y) l := by
      funext y
      split <;> rfl
    rw [this]
    exact Measurable.ite hC (hf.2 l) (hg.2 l)

theorem MVec.bind {f : X → Res (Fin L → ℝ)} {k : X → (Fin L → ℝ) → Res (Fin L → ℝ)} (hf : MVec f) (hk : MVec fun y => k y (resVal (f y))) :
    MVec fun y => (f y).bind (k y) := by
  constructor
  · have : {y | ∃ v, (f y).bind (k y) = .ok v} = {y | ∃ v, f y = .ok v} ∩ {y | ∃ v, k y (resVal (f y)) = .ok v} := by
      ext y
      simp only [Set.mem_ofPred_eq, Set.mem_inter_iff]
      cases f y with
      | error e => simp [Except.bind]
      | ok v => simp [Except.bind, resVal]
    rw [this]
    exact hf.1.inter hk.1
  · intro l
    have : (fun y => resVal ((f y).bind (k y)) l) = {y | ∃ v, f y = .ok v}.indicator fun y => resVal (k y (resVal (f y))) l := by
      funext y
      cases h : f y with
      | error e =>
        rw [Set.indicator_of_notMem (by simp [h])]
        rfl
      | ok v =>
        rw [Set.indicator_of_mem (by simp [h]), h]
        rfl
    rw [this]
    exact (hk.2 l).indicator hf.1

theorem MVec.comp {Y : Type} [MeasurableSpace Y] {f : X → Res (Fin L → ℝ)} (hf : MVec f) {a : Y → X} (ha : Measurable a) : MVec fun y => f (a y) :=
  ⟨ha hf.1, fun l => (hf.2 l).comp ha⟩

theorem utils_max_meas {f : X → ℝ} (hf : Measurable f) : Measurable fun y => Utils.max (f y) 0 := by
  have : (fun y => Utils.max (f y) 0) = fun y => max (f y) 0 := by
    funext y
    unfold Utils.max
    split <;> rename_i h
    · first | exact (max_eq_left (by linarith)).symm | exact (max_eq_right (by linarith)).symm
    · first | exact (max_eq_right (by linarith)).symm | exact (max_eq_left (by linarith)).symm
  rw [this]
  exact hf.max measurable_const

theorem eta_meas {b : X → Box ℝ F} (hb : VBox b) (x : Fin F → ℝ) : Measurable fun y => eta (b y) x := by
  unfold eta
  exact Finset.measurable_sum _ fun i _ => (utils_max_meas (measurable_const.sub (hb i).2)).add (utils_max_meas ((hb i).1.sub measurable_const))

theorem smooth_meas {p : Params ℝ} (hexp : Measurable p.exp) (counts : Fin L → Nat) {pb dt et ns : X → ℝ} {pm sm : X → Fin L → ℝ} (hpb : Measurable pb) (hdt : Measurable dt)
    (het : Measurable et) (hns : Measurable ns) (hpm : ∀ l, Measurable fun y => pm y l) (hsm : ∀ l, Measurable fun y => sm y l) :
    MVec fun y => smooth p ({ (blank : Node ℝ F L) with counts := counts }) (pb y) (dt y) (et y) (ns y) (pm y) (sm y) := by
  unfold smooth
  have hd1 : Measurable fun y => et y + p.discount := het.add_const _
  have hd2 : Measurable fun y => -(p.exp (-(et y * dt y)) - 1) := ((hexp.comp (het.mul hdt).neg).sub_const 1).neg
  have hd : Measurable fun y => (et y / (et y + p.discount)) * -(p.exp (-(et y + p.discount) * dt y) - 1) / -(p.exp (-(et y * dt y)) - 1) :=
    ((het.div hd1).mul ((hexp.comp (hd1.neg.mul hdt)).sub_const 1).neg).div hd2
  refine MVec.ite (measurableSet_lt measurable_const hpb) ?_ (MVec.ok hsm)
  refine MVec.ite ?_ (MVec.error _) (MVec.ok fun l => ?_)
  · have h1 : MeasurableSet {y | et y + p.discount = 0} := hd1 (measurableSet_singleton 0)
    have h2 : MeasurableSet {y | -(p.exp (-(et y * dt y)) - 1) = 0} := hd2 (measurableSet_singleton 0)
    exact h1.union (h2.union (MeasurableSet.const _))
  · exact (hsm l).add ((hns.mul hpb).mul (measurable_const.mul ((measurable_const.sub (hd.mul measurable_const)).add (measurable_const.mul (hpm l)))))

theorem meanOf_meas {p : Params ℝ} (hexp : Measurable p.exp) (counts : Fin L → Nat) {tau ptau : X → ℝ} {box : X → Box ℝ F} {pm : X → Fin L → ℝ} (ht : Measurable tau)
    (hpt : Measurable ptau) (hpm : ∀ l, Measurable fun y => pm y l) (l : Fin L) : Measurable fun y => meanOf p ⟨tau y, box y, counts⟩ (ptau y) (pm y) l := by
  have hd : Measurable fun y => p.exp (p.discount * (tau y - ptau y)) := hexp.comp (measurable_const.mul (ht.sub hpt))
  simp only [meanOf]
  split
  · exact ((measurable_const.sub (hd.mul measurable_const)).div measurable_const).add (((hd.mul measurable_const).mul (hpm l)).div measurable_const)
  · exact hpm l

theorem scores_meas {p : Params ℝ} (hexp : Measurable p.exp) (x : Fin F → ℝ) {t : X → Tree ℝ F L} (h : VTree t) : ∀ {ptau ns : X → ℝ} {pm sm : X → Fin L → ℝ}, Measurable ptau →
    Measurable ns → (∀ l, Measurable fun y => pm y l) → (∀ l, Measurable fun y => sm y l) → MVec fun y => scores p x (t y) (ptau y) (ns y) (pm y) (sm y) := by
  induction h with
  | @leaf id counts tau box ht hb =>
    intro ptau ns pm sm hpt hns hpm hsm
    have hpb : Measurable fun y => 1 - p.exp (-(tau y - 0) * eta (box y) x) := measurable_const.sub (hexp.comp ((ht.sub_const 0).neg.mul (eta_meas hb x)))
    have hs := smooth_meas (F := F) hexp counts hpb (ht.sub_const 0) (eta_meas hb x) hns hpm hsm
    simp only [scores]
    refine hs.bind (MVec.ok fun l => ?_)
    exact (hs.2 l).add ((hns.mul (measurable_const.sub hpb)).mul (meanOf_meas hexp counts ht hpt hpm l))
  | @node id counts dim tau sp box tl tr ht hb hs hl hr ihl ihr =>
    intro ptau ns pm sm hpt hns hpm hsm
    have hpb : Measurable fun y => 1 - p.exp (-(tau y - 0) * eta (box y) x) := measurable_const.sub (hexp.comp ((ht.sub_const 0).neg.mul (eta_meas hb x)))
    have hsm' := smooth_meas (F := F) hexp counts hpb (ht.sub_const 0) (eta_meas hb x) hns hpm hsm
    simp only [scores]
    refine hsm'.bind (MVec.ite (measurableSet_le measurable_const hs) ?_ ?_)
    · exact ihl ht (hns.mul (measurable_const.sub hpb)) (meanOf_meas hexp counts ht hpt hpm) hsm'.2
    · exact ihr ht (hns.mul (measurable_const.sub hpb)) (meanOf_meas hexp counts ht hpt hpm) hsm'.2

theorem VTree.recount {t : X → Tree ℝ F L} (h : VTree t) : VTree fun y => (t y).recount := by
  induction h with
  | leaf id counts ht hb => exact .leaf id counts ht hb
  | @node id counts dim tau sp box l r ht hb hs hl hr ihl ihr =>
    obtain ⟨cl, hcl⟩ := ihl.counts
    obtain ⟨cr, hcr⟩ := ihr.counts
    simp only [Tree.recount, hcl, hcr]
    exact .node id _ dim ht hb hs ihl ihr

theorem treeScores_meas {p : Params ℝ} (hexp : Measurable p.exp) (x : Fin F → ℝ) : MVec fun t : Tree ℝ F L => treeScores p x (some t.recount) := by
  have h : ∀ (Y : Type) [MeasurableSpace Y] (t : Y → Tree ℝ F L), VTree t → MVec fun y => treeScores p x (some (t y).recount) := fun Y _ t ht =>
    scores_meas hexp x ht.recount measurable_const measurable_const (fun _ => measurable_const) fun _ => measurable_const
  exact ⟨fun Y _ t ht => (h Y t ht).1, fun l => measurable_tree fun Y _ t ht => (h Y t ht).2 l⟩

theorem totals_meas {p : Params ℝ} (hexp : Measurable p.exp) (x : Fin F → ℝ) : ∀ (ts : List (X → Tree ℝ F L)) {acc : X → Fin L → ℝ}, (∀ t ∈ ts, Measurable t) → (∀ l, Measurable fun y => acc y l) →
    MVec fun y => totals p x (ts.map fun t => some (t y).recount) (acc y)
  | [], acc, _, ha => MVec.ok ha
  | t :: ts, acc, ht, ha => by
      have h1 := (treeScores_meas hexp x).comp (ht t (List.mem_cons_self ..))
      simp only [List.map_cons, totals]
      exact h1.bind (totals_meas hexp x ts (fun t h => ht t (List.mem_cons_of_mem _ h)) fun l => (ha l).add (h1.2 l))

theorem indexMaxFrom_meas (j : Nat) : ∀ (xs : List (X → ℝ)) (best i : Nat) {bv : X → ℝ}, (∀ v ∈ xs, Measurable v) → Measurable bv →
    MeasurableSet {y | Utils.indexMaxFrom best (bv y) i (xs.map fun v => v y) = j}
  | [], best, i, bv, _, _ => MeasurableSet.const (best = j)
  | v :: xs, best, i, bv, hx, hb => by
      have hv := hx v (List.mem_cons_self ..)
      have hlt : MeasurableSet {y | bv y < v y} := measurableSet_lt hb hv
      have h1 := indexMaxFrom_meas j xs i (i + 1) (fun v h => hx v (List.mem_cons_of_mem _ h)) hv
      have h2 := indexMaxFrom_meas j xs best (i + 1) (fun v h => hx v (List.mem_cons_of_mem _ h)) hb
      have : {y | Utils.indexMaxFrom best (bv y) i ((v :: xs).map fun v => v y) = j} = {y | bv y < v y} ∩ {y | Utils.indexMaxFrom i (v y) (i + 1) (xs.map fun v => v y) = j} ∪
          {y | bv y < v y}ᶜ ∩ {y | Utils.indexMaxFrom best (bv y) (i + 1) (xs.map fun v => v y) = j} := by
        ext y
        by_cases h : bv y < v y <;> simp [Utils.indexMaxFrom, h]
      rw [this]
      exact (hlt.inter h1).union (hlt.compl.inter h2)

theorem indexMax_meas (j : Nat) {v : X → Fin L → ℝ} (h : ∀ l, Measurable fun y => v y l) : MeasurableSet {y | Utils.indexMax (List.ofFn (v y)) = j} := by
  have e : ∀ y, List.ofFn (v y) = (List.ofFn fun l => fun y => v y l).map fun v => v y := fun y => by rw [List.map_ofFn]; rfl
  simp only [e]
  have hm : ∀ w ∈ List.ofFn (fun l => fun y => v y l), Measurable w := fun w hw => by
    obtain ⟨l, rfl⟩ := (List.mem_ofFn' _ _).1 hw
    exact h l
  revert hm
  generalize List.ofFn (fun l => fun y => v y l) = xs
  intro hm
  cases xs with
  | nil => exact MeasurableSet.const (0 = j)
  | cons w ws => exact indexMaxFrom_meas j ws 0 1 (fun v h => hm v (List.mem_cons_of_mem _ h)) (hm w (List.mem_cons_self ..))

/-- the trees of a tuple as a list -/
def tupleList {n : Nat} (T : Fin n → Tree ℝ F L) : List (Option (Tree ℝ F L)) := List.ofFn fun k => some (T k)

theorem label_meas {p : Params ℝ} (hexp : Measurable p.exp) (x : Fin F → ℝ) (n j : Nat) : MeasurableSet {T : Fin n → Tree ℝ F L | label p x (recountAll (tupleList T)) = .ok j} := by
  have e : ∀ T : Fin n → Tree ℝ F L, recountAll (tupleList T) = (List.ofFn fun k => fun T : Fin n → Tree ℝ F L => T k).map fun t => some (t T).recount := fun T => by
    rw [recountAll, tupleList, List.map_ofFn, List.map_ofFn]; rfl
  have h := totals_meas hexp x (List.ofFn fun k => fun T : Fin n → Tree ℝ F L => T k) (acc := fun _ _ => 0) (fun t ht => by
    obtain ⟨k, rfl⟩ := (List.mem_ofFn' _ _).1 ht
    exact measurable_pi_apply k) fun _ => measurable_const
  have hlen : ∀ T : Fin n → Tree ℝ F L, (recountAll (tupleList T)).length = n := fun T => by simp [recountAll, tupleList]
  rcases Nat.eq_zero_or_pos n with hn | hn
  · have : {T : Fin n → Tree ℝ F L | label p x (recountAll (tupleList T)) = .ok j} = ∅ := by
      ext T
      simp only [Set.mem_ofPred_eq, Set.mem_empty_iff_false, iff_false, label, hlen, hn, if_true]
      cases totals p x (recountAll (tupleList T)) fun _ => 0 <;> simp [bind, Except.bind]
    rw [this]
    exact MeasurableSet.empty
  · have : {T : Fin n → Tree ℝ F L | label p x (recountAll (tupleList T)) = .ok j} = {T | ∃ v, totals p x (recountAll (tupleList T)) (fun _ => 0) = .ok v} ∩
        {T | Utils.indexMax (List.ofFn fun k => resVal (totals p x (recountAll (tupleList T)) (fun _ => 0)) k / (n : ℝ)) = j} := by
      ext T
      simp only [Set.mem_ofPred_eq, Set.mem_inter_iff, label, hlen]
      cases totals p x (recountAll (tupleList T)) fun _ => 0 with
      | error e => simp [bind, Except.bind]
      | ok v => simp [bind, Except.bind, hn.ne', resVal, pure, Except.pure]
    rw [this]
    simp only [e]
    exact h.1.inter (indexMax_meas j fun l => (h.2 l).div_const _)

end Orp.Mondrian
