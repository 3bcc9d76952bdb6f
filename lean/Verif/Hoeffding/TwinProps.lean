import Verif.Hoeffding.Twin
import Verif.Hoeffding.EvidenceProps
import Mathlib.Tactic.FinCases

/-!
Properties C116 and C117: the Hoeffding tree does not depend on the units of the features and the names of the labels.
-/

namespace Orp.Hoeffding

set_option linter.unusedSectionVars false

variable {K : Type} [Field K] [LinearOrder K] [IsStrictOrderedRing K] {L : Nat}

theorem run_other {φ : Nat → K → K} (hφ : ∀ f, StrictMono (φ f)) {σ : Equiv.Perm (Fin L)} {p : Params K} (hp : p.Ok) : ∀ (ops : List (Op K L)) {s s' : Tree K L},
    Twins φ σ p s s' →
    (∃ t t', run p ops s = .ok t ∧ run p (ops.map (Op.other φ σ p.sizes)) s' = .ok t' ∧ Twins φ σ p t t') ∨
      (run p ops s = .error .ub ∧ run p (ops.map (Op.other φ σ p.sizes)) s' = .error .ub) := by
  intro ops
  induction ops with
  | nil => intro s s' h; exact .inl ⟨s, s', rfl, rfl, h⟩
  | cons op ops ih =>
      intro s s' h
      rcases exec_other hφ hp h op with ⟨t, t', e1, e2, e3⟩ | ⟨e1, e2⟩
      · simp only [List.map_cons, run, e1, e2, bind, Except.bind]
        exact ih e3
      · right
        simp only [List.map_cons, run, e1, e2, bind, Except.bind]
        exact ⟨trivial, trivial⟩

theorem Twins.length {φ : Nat → K → K} {σ : Equiv.Perm (Fin L)} {p : Params K} {s s' : Tree K L} (h : Twins φ σ p s s') : s'.nodes.length = s.nodes.length := by
  rcases h with ⟨h, h1, h2, -⟩ | ⟨h, h1, h2⟩
  · rw [h1.nodes_length, h2.nodes_length]
  · rw [h1.nodes_length, h2.nodes_length]

theorem Twins.gains {φ : Nat → K → K} {σ : Equiv.Perm (Fin L)} {p : Params K} {s s' : Tree K L} (h : Twins φ σ p s s') : rootGains p s' = rootGains p s := by
  rcases h with ⟨h, h1, h2, h3⟩ | ⟨h, h1, h2⟩
  · rw [h1.gains_block, h2.gains_block, h3.count, h3.bins, gains_ren]
  · obtain ⟨n, hn, hf⟩ := h1.root
    obtain ⟨n', hn', hf'⟩ := h2.root
    simp only [rootGains, hn, hn', getBlock, blockOf_split hf, blockOf_split hf', bind, Except.bind]

theorem Twins.predict {φ : Nat → K → K} {σ : Equiv.Perm (Fin L)} {p : Params K} (hp : p.Ok) {s s' : Tree K L} (h : Twins φ σ p s s') :
    ∃ k : Fin L → Nat, (∀ x, Hoeffding.predict p s x = .ok (argmax (scoresOf (fun l => (k l : Int)) : List (Dbl K)), scoresOf (fun l => (k l : Int)))) ∧
      ∀ x, Hoeffding.predict p s' x = .ok (argmax (scoresOf (fun l => ((ren σ k l : Nat) : Int)) : List (Dbl K)), scoresOf (fun l => ((ren σ k l : Nat) : Int))) := by
  rcases h with ⟨h, h1, h2, h3⟩ | ⟨h, h1, h2⟩
  · exact ⟨h, h1.predict hp, h2.predict hp⟩
  · exact ⟨h, h1.predict hp, h2.predict hp⟩

/-- the trees agree at the beginning, if the limits are set or zero stays zero -/
theorem twins_new {φ : Nat → K → K} {σ : Equiv.Perm (Fin L)} {p : Params K} (hp : p.Ok) {s0 : Tree K L} (h0 : new p = .ok s0) (hz : ∀ f, φ f 0 = 0) : Twins φ σ p s0 s0 := by
  obtain ⟨a1, a2, a3⟩ := OneLeaf.zero_info hp h0
  have hn := newNode_eq (p := p) (s := ({ nodes := [], blocks := fun _ => zeroBlock p, preset := p.maxSize } : Tree K L)) rfl
  simp only [List.length_nil, Nat.zero_add, Nat.one_mul] at hn
  rw [if_pos a1.mem] at hn
  rw [new, hn] at h0
  obtain rfl := Except.ok.inj h0
  refine .inl ⟨fun _ => 0, a1, a1, rfl, rfl, ?_, ?_⟩
  · have : ren σ (fun _ : Fin L => 0) = fun _ => 0 := rfl
    simp [zeroBlock, this]
  · intro i hi
    simp [zeroBlock, List.getElem?_replicate, hi, mapD, hz]

/-! ### C116: units -/

/-- A call in other units: feature `f` is measured by `φ f` instead, in points, limits and split values. -/
def Op.units (φ : Nat → K → K) (sizes : List Nat) : Op K L → Op K L
  | .train x l => .train (fun f => φ f (x f)) l
  | .predict x => .predict (fun f => φ f (x f))
  | .rootTrain x l => .rootTrain (fun f => φ f (x f)) l
  | .setLimits lims => .setLimits (fun i => mapD (φ (featureOf sizes i)) (lims i))
  | .rootSplit f v => .rootSplit f (mapD (φ f) v)

theorem Op.units_eq (φ : Nat → K → K) (sizes : List Nat) (op : Op K L) : op.units φ sizes = op.other φ (Equiv.refl _) sizes := by
  cases op <;> rfl

/-- **C116** If every feature is measured in another strictly increasing way, its limits in the same way, then a tree whose limits are set first behaves the same: it fails at the same time,
has the same number of nodes, reports the same information gains and predicts the same labels with the same scores. -/
theorem C116_units {p : Params K} (hp : p.Ok) {φ : Nat → K → K} (hφ : ∀ f, StrictMono (φ f)) {s0 : Tree K L} (h0 : new p = .ok s0) (lims : Nat → Dbl K) (ops : List (Op K L)) :
    (∃ s s', run p (.setLimits lims :: ops) s0 = .ok s ∧ run p ((.setLimits lims :: ops).map (Op.units φ p.sizes)) s0 = .ok s' ∧
      s'.nodes.length = s.nodes.length ∧ rootGains p s' = rootGains p s ∧ ∀ x, predict p s' (fun f => φ f (x f)) = predict p s x) ∨
    (run p (.setLimits lims :: ops) s0 = .error .ub ∧ run p ((.setLimits lims :: ops).map (Op.units φ p.sizes)) s0 = .error .ub) := by
  have hmap : ∀ l : List (Op K L), l.map (Op.units φ p.sizes) = l.map (Op.other φ (Equiv.refl _) p.sizes) := fun l => List.map_congr_left fun op _ => op.units_eq φ p.sizes
  rw [hmap]
  -- the first call makes the trees agree
  obtain ⟨t, t', e1, e2, e3⟩ : ∃ t t', setLimits p s0 lims = .ok t ∧ setLimits p s0 (fun i => mapD (φ (featureOf p.sizes i)) (lims i)) = .ok t' ∧ Twins φ (Equiv.refl (Fin L)) p t t' := by
    obtain ⟨a1, -, -⟩ := OneLeaf.zero_info hp h0
    obtain ⟨t, e1, e2⟩ := a1.setLimits hp lims
    obtain ⟨t', d1, d2⟩ := a1.setLimits hp (fun i => mapD (φ (featureOf p.sizes i)) (lims i))
    refine ⟨t, t', e1, d1, .inl ⟨_, e2, d2, ?_⟩⟩
    rw [a1.setLimits_eq] at e1 d1
    obtain rfl := Except.ok.inj e1
    obtain rfl := Except.ok.inj d1
    simp only [Function.update_self]
    refine ⟨rfl, rfl, ?_, fun i hi => by simp [List.getElem?_range hi]⟩
    conv_lhs => rw [← List.map_id (s0.blocks 0).bins]
    exact List.map_congr_left fun c _ => rfl
  simp only [List.map_cons, run, exec, Op.other, e1, e2, bind, Except.bind]
  rcases run_other hφ hp ops e3 with ⟨s, s', f1, f2, f3⟩ | ⟨f1, f2⟩
  · left
    refine ⟨s, s', f1, f2, f3.length, f3.gains, fun x => ?_⟩
    obtain ⟨k, g1, g2⟩ := f3.predict hp
    rw [g1, g2]
    rfl
  · exact .inr ⟨f1, f2⟩

/-! ### C117: names of the labels -/

/-- A call with the labels renamed -/
def Op.rename (σ : Equiv.Perm (Fin L)) : Op K L → Op K L
  | .train x l => .train x (σ l)
  | .rootTrain x l => .rootTrain x (σ l)
  | op => op

theorem mapD_id (d : Dbl K) : mapD id d = d := by cases d <;> rfl

theorem Op.rename_eq (σ : Equiv.Perm (Fin L)) (sizes : List Nat) (op : Op K L) : op.rename σ = op.other (fun _ => id) σ sizes := by
  cases op with
  | setLimits lims => simp only [Op.rename, Op.other, mapD_id]
  | rootSplit f v => simp only [Op.rename, Op.other, mapD_id]
  | _ => rfl

/-- **C117** Renaming the labels: the tree fails at the same time, has the same number of nodes, reports the same information gains, and gives every label the score of its old name. -/
theorem C117_scores {p : Params K} (hp : p.Ok) (σ : Equiv.Perm (Fin L)) {s0 : Tree K L} (h0 : new p = .ok s0) (ops : List (Op K L)) :
    (∃ s s', run p ops s0 = .ok s ∧ run p (ops.map (Op.rename σ)) s0 = .ok s' ∧ s'.nodes.length = s.nodes.length ∧ rootGains p s' = rootGains p s ∧
      ∀ x, ∃ k k' sc sc', predict p s x = .ok (k, sc) ∧ predict p s' x = .ok (k', sc') ∧ sc.length = L ∧ sc'.length = L ∧ ∀ l : Fin L, sc'[(σ l).val]? = sc[l.val]?) ∨
    (run p ops s0 = .error .ub ∧ run p (ops.map (Op.rename σ)) s0 = .error .ub) := by
  have hmap : ops.map (Op.rename σ) = ops.map (Op.other (fun _ => id) σ p.sizes) := List.map_congr_left fun op _ => op.rename_eq σ p.sizes
  rw [hmap]
  rcases run_other (φ := fun _ => id) (fun _ => strictMono_id) hp ops (twins_new (σ := σ) hp h0 (fun _ => rfl)) with ⟨s, s', f1, f2, f3⟩ | ⟨f1, f2⟩
  · left
    refine ⟨s, s', f1, f2, f3.length, f3.gains, fun x => ?_⟩
    obtain ⟨k, g1, g2⟩ := f3.predict hp
    refine ⟨_, _, _, _, g1 x, g2 x, by simp [scoresOf], by simp [scoresOf], fun l => ?_⟩
    have hs : ∑ j, ((ren σ k j : Nat) : K) = ∑ j, ((k j : Nat) : K) := Equiv.sum_comp σ.symm (fun j => ((k j : Nat) : K))
    simp only [scoresOf, List.getElem?_ofFn, Fin.is_lt, dif_pos, Int.cast_natCast, hs]
    simp [ren]
  · exact .inr ⟨f1, f2⟩

/-- **C117** If one label has a greater score than all others, the label predicted after renaming is its new name. What is missing are ties, where the smallest label is
returned, whatever its name (`C117_ties`). -/
theorem C117_rename_partial {p : Params K} (hp : p.Ok) (σ : Equiv.Perm (Fin L)) {s0 s s' : Tree K L} (h0 : new p = .ok s0) {ops : List (Op K L)} (hr : run p ops s0 = .ok s)
    (hr' : run p (ops.map (Op.rename σ)) s0 = .ok s') (x : Nat → K) {k k' : Nat} {sc sc' : List (Dbl K)} (hk : predict p s x = .ok (k, sc)) (hk' : predict p s' x = .ok (k', sc'))
    (l : Fin L) (hl : ∀ j : Fin L, j ≠ l → ∀ u v, sc[j.val]? = some u → sc[l.val]? = some v → u.lt v = true) (h2 : 2 ≤ L) : k = l ∧ k' = σ l := by
  have hmap : ops.map (Op.rename σ) = ops.map (Op.other (fun _ => id) σ p.sizes) := List.map_congr_left fun op _ => op.rename_eq σ p.sizes
  rw [hmap] at hr'
  rcases run_other (φ := fun _ => id) (fun _ => strictMono_id) hp ops (twins_new (σ := σ) hp h0 (fun _ => rfl)) with ⟨t, t', f1, f2, f3⟩ | ⟨f1, f2⟩
  · rw [hr] at f1
    rw [hr'] at f2
    obtain rfl := Except.ok.inj f1
    obtain rfl := Except.ok.inj f2
    obtain ⟨c, g1, g2⟩ := f3.predict hp
    rw [g1] at hk
    rw [g2] at hk'
    obtain ⟨rfl, rfl⟩ := Prod.mk.inj (Except.ok.inj hk)
    obtain ⟨rfl, rfl⟩ := Prod.mk.inj (Except.ok.inj hk')
    have hsum : ∑ j, ren σ c j = ∑ j, c j := Equiv.sum_comp σ.symm c
    rcases Nat.eq_zero_or_pos (∑ j, c j) with hz | hpos
    · exfalso
      have hc : ∀ j, c j = 0 := fun j => Finset.sum_eq_zero_iff.1 hz j (Finset.mem_univ _)
      have hc' : c = fun _ => 0 := funext hc
      subst hc'
      rw [scores_zero] at hl
      obtain ⟨j, hj⟩ : ∃ j : Fin L, j ≠ l := by
        by_cases c0 : l.val = 0
        · exact ⟨⟨1, by omega⟩, fun e => by rw [← e] at c0; simp at c0⟩
        · exact ⟨⟨0, by omega⟩, fun e => c0 (by rw [← e])⟩
      have := hl j hj .nan .nan (by simp) (by simp)
      simp [Dbl.lt] at this
    · have hq : ∀ j, j ≠ l → c j < c l := by
        intro j hj
        have hpos' : (0 : K) < ((∑ l, c l : Nat) : K) := by exact_mod_cast hpos
        rw [scores_pos hpos] at hl
        have := hl j hj _ _ (by rw [List.getElem?_map, List.getElem?_ofFn, dif_pos j.isLt]; rfl) (by rw [List.getElem?_map, List.getElem?_ofFn, dif_pos l.isLt]; rfl)
        simp only [Dbl.lt, decide_eq_true_eq, div_lt_div_iff_of_pos_right hpos'] at this
        exact_mod_cast this
      obtain ⟨a1, a2, -⟩ := majority (K := K) hpos
      obtain ⟨b1, b2, -⟩ := majority (K := K) (h := ren σ c) (by rw [hsum]; exact hpos)
      constructor
      · by_contra hne
        have h1 := hq ⟨_, a1⟩ (fun e => hne (by rw [← e]))
        have h2 := a2 l
        omega
      · by_contra hne
        have h1 := hq (σ.symm ⟨_, b1⟩) (fun e => hne (by rw [← e]; simp))
        have h2 := b2 (σ l)
        have h3 : ren σ c (σ l) = c l := by simp [ren]
        rw [h3] at h2
        exact absurd h2 (not_le.2 h1)
  · rw [hr] at f1; cases f1

/-- one feature with three bins, without splits -/
def small : Params ℚ := { sizes := [3], delta := 1 / 2, maxSize := 1000, nodeSize := 64, log := fun _ => 1000, log2 := fun _ => 0 }

/-- two points with different labels, or with the labels exchanged -/
def tied (a b : Fin 2) : List (Op ℚ 2) := [.setLimits (fun i => .fin i), .train (fun _ => 0) a, .train (fun _ => 1 / 2) b]

/-- the label predicted by a new tree after a history -/
def predicted (p : Params ℚ) (ops : List (Op ℚ 2)) (x : Nat → ℚ) : Res (Nat × List (Dbl ℚ)) := do
  let s0 ← new p
  let s ← run p ops s0
  predict p s x

/-- **C117** With a tie the predicted label is not renamed: label 0 is predicted before and after the labels are exchanged. -/
theorem C117_ties : (tied 0 1).map (Op.rename (Equiv.swap 0 1)) = tied 1 0 ∧ predicted small (tied 0 1) (fun _ => 0) = .ok (0, [.fin (1 / 2), .fin (1 / 2)]) ∧
    predicted small (tied 1 0) (fun _ => 0) = .ok (0, [.fin (1 / 2), .fin (1 / 2)]) := by
  refine ⟨?_, ?_, ?_⟩
  · simp [tied, Op.rename]
  · decide +kernel
  · decide +kernel

/-- the same without a tie: three points, two of label 0, in thousandths and with the labels exchanged -/
example : predicted small (tied 0 1 ++ [Op.train (fun _ => 3) 0]) (fun _ => 0) = .ok (0, [.fin (2 / 3), .fin (1 / 3)]) ∧
    predicted small ((tied 0 1 ++ [Op.train (fun _ => 3) 0]).map (Op.rename (Equiv.swap 0 1))) (fun _ => 0) = .ok (1, [.fin (1 / 3), .fin (2 / 3)]) ∧
    predicted small ((tied 0 1 ++ [Op.train (fun _ => 3) 0]).map (Op.units (fun _ x => 1000 * x + 7) [3])) (fun _ => 7) = .ok (0, [.fin (2 / 3), .fin (1 / 3)]) := by
  refine ⟨?_, ?_, ?_⟩ <;> decide +kernel

/-- the hypotheses of `C116_units` hold for two features measured in other units -/
example : (∀ f, StrictMono ((fun (f : Nat) (x : ℚ) => if f = 0 then 1000 * x + 7 else x ^ 3) f)) ∧ ∃ s0 : Tree ℚ 2, new small = .ok s0 := by
  constructor
  · intro f
    by_cases c : f = 0
    · simp only [c, if_true]
      intro a b h
      show 1000 * a + 7 < 1000 * b + 7
      linarith
    · simp only [c, if_false]
      exact Odd.strictMono_pow (by decide)
  · exact ⟨_, rfl⟩

end Orp.Hoeffding
