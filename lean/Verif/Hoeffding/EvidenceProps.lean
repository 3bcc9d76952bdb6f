import Verif.Hoeffding.Evidence
import Mathlib.Analysis.Complex.ExponentialBounds
import Mathlib.Tactic.FinCases

/-!
Property C115: when a Hoeffding tree splits.
-/

namespace Orp.Hoeffding

set_option linter.unusedSectionVars false

variable {K : Type} [Field K] [LinearOrder K] [IsStrictOrderedRing K] {L : Nat}

theorem OneLeaf.zero_info {p : Params K} (hp : p.Ok) {s0 : Tree K L} (h0 : new p = .ok s0) :
    OneLeaf p (fun _ => 0) s0 ∧ (s0.blocks 0).count = 0 ∧ (s0.blocks 0).infoSum = List.replicate p.limitCount 0 := by
  have hn := newNode_eq (p := p) (s := ({ nodes := [], blocks := fun _ => zeroBlock p, preset := p.maxSize } : Tree K L)) rfl
  have h := new_eq (L := L) p hp
  by_cases c : p.nodeSize + p.total L ≤ p.maxSize
  · obtain ⟨s1, e1, e2⟩ := h.1 c
    rw [h0] at e1
    obtain rfl := Except.ok.inj e1
    simp only [List.length_nil, Nat.zero_add, Nat.one_mul] at hn
    rw [if_pos c] at hn
    rw [new, hn] at h0
    obtain rfl := Except.ok.inj h0
    exact ⟨e2, by simp [zeroBlock], by simp [zeroBlock]⟩
  · rw [h.2 c] at h0; cases h0

/-- **C115** The split rule. Let the root be a leaf after a history `ops`. The next training point splits it exactly if, among the averages over all training points so far of
the information gains the root reports, the largest is positive and exceeds the second largest by more than the square root of `2 ln(1/delta) / n`. -/
theorem C115_split_rule {p : Params K} (hp : p.Ok) {ops : List (Op K L)} {s0 s s' : Tree K L} (h0 : new p = .ok s0) (hr : run p ops s0 = .ok s)
    (h1 : s.nodes.length = 1) (x : Nat → K) (label : Fin L) (ht : train p s x label = .ok s') :
    ∃ gs : List (List K), gainHistory p (ops ++ [.train x label]) s0 = .ok gs ∧ gs.length = (labels ops).length + 1 ∧ (∀ g ∈ gs.getLast?, g.length = p.limitCount) ∧
      (s'.nodes.length = 1 ∨ s'.nodes.length = 3) ∧
      (s'.nodes.length = 3 ↔ ∃ (i : Nat) (g0 g1 : K), (averages p gs)[i]? = some g0 ∧ (∀ y ∈ averages p gs, y ≤ g0) ∧ (∀ (j : Nat) (y : K), j ≠ i → (averages p gs)[j]? = some y → y ≤ g1) ∧
        (∃ j : Nat, j ≠ i ∧ (averages p gs)[j]? = some g1) ∧ 2 * p.log (1 / p.delta) / (gs.length : K) < (g0 - g1) ^ 2 ∧ 0 < g0) := by
  obtain ⟨a1, a2, a3⟩ := OneLeaf.zero_info hp h0
  obtain ⟨gs, b1, b2, b3, ⟨h', b4⟩, b5⟩ := a1.history hp ops hr h1
  obtain ⟨s1, r, g, e1, e2, e3, e4, e5, e6, e7, e8⟩ := b4.train_rule hp x label
  have hgh : gainHistory p (ops ++ [.train x label]) s0 = .ok (gs ++ [g]) := by
    rw [b1]
    simp only [gainHistory, e1, e3, bind, Except.bind, pure, Except.pure, Except.map]
  have hcount : (s1.blocks 0).count = (gs ++ [g]).length := by
    rw [e6, b3, a2, List.length_append, List.length_singleton]; omega
  have havg : (s1.blocks 0).infoSum.map (fun a => a / ((s1.blocks 0).count : K)) = averages p (gs ++ [g]) := by
    refine List.ext_getElem (by rw [List.length_map, e2.block.info, averages, List.length_map, List.length_range]) fun i h1 h2 => ?_
    have hi : i < p.limitCount := by rw [List.length_map, e2.block.info] at h1; exact h1
    have hg1 : (s1.blocks 0).infoSum.getD i 0 = ((gs ++ [g]).map (fun g => g.getD i 0)).sum := by
      have hz : (s0.blocks 0).infoSum.getD i 0 = 0 := by
        rw [a3, List.getD_eq_getElem?_getD, List.getElem?_replicate, if_pos hi]; rfl
      have := summed_cons (n := p.limitCount) (gs := []) (c := (s1.blocks 0).infoSum) b4.block.info e4 e5 (fun i _ => by simp) i hi
      rw [this, b5 i hi, hz]
      simp
    simp only [averages, List.getElem_map, List.getElem_range, ← hg1, hcount]
    congr 1
    rw [List.getD_eq_getElem?_getD, List.getElem?_eq_getElem (by rw [e2.block.info]; exact hi)]
    rfl
  refine ⟨gs ++ [g], hgh, by rw [List.length_append, b2]; rfl, by simp [e4], ?_⟩
  rw [havg, hcount] at e7 e8
  by_cases hd : Decides p (gs ++ [g]).length (averages p (gs ++ [g]))
  · have h3 := (e8 hd s' ht).nodes_length
    refine ⟨.inr h3, fun _ => ?_, fun _ => h3⟩
    obtain ⟨i, g0, g1, ⟨c1, c2, c3, c4⟩, c5, c6⟩ := hd
    exact ⟨i, g0, g1, c1, c2, c3, c4, c5, c6⟩
  · have := e7 hd
    rw [ht] at this
    obtain rfl := Except.ok.inj this
    have h3 := e2.nodes_length
    refine ⟨.inl h3, fun h => by omega, fun ⟨i, g0, g1, c1, c2, c3, c4, c5, c6⟩ => absurd ⟨i, g0, g1, ⟨c1, c2, c3, c4⟩, c5, c6⟩ hd⟩

/-! ### How many points are needed -/

theorem entropy_le {p : Params ℝ} (hlog : p.log2 = Real.logb 2) (h : Fin L → Nat) : leafEntropy p (∑ l, h l) (fun l => (h l : Int)) ≤ Real.logb 2 L := by
  have hl2 : 0 < Real.log 2 := Real.log_pos (by norm_num)
  set N := ∑ l, h l with hN
  have hr : ∀ l, 0 ≤ ratio (((h l : Nat) : Int) : ℝ) (N : ℝ) := fun l => ratio_nonneg (by positivity) (by positivity)
  have e1 : leafEntropy p N (fun l => (h l : Int)) = (∑ l, Real.negMulLog (ratio (((h l : Nat) : Int) : ℝ) (N : ℝ))) / Real.log 2 := by
    simp only [leafEntropy]
    rw [Finset.sum_congr rfl fun l _ => xlog_real hlog (hr l), ← Finset.sum_div, Finset.sum_neg_distrib]
    ring
  rw [e1, Real.logb]
  refine div_le_div_of_nonneg_right ?_ hl2.le
  rcases Nat.eq_zero_or_pos N with h0 | hpos
  · have : ∀ l, Real.negMulLog (ratio (((h l : Nat) : Int) : ℝ) (N : ℝ)) = 0 := by
      intro l
      rw [h0]
      simp [ratio]
    rw [Finset.sum_congr rfl fun l _ => this l]
    simp only [Finset.sum_const_zero]
    exact Real.log_natCast_nonneg L
  · have hN' : (0 : ℝ) < N := by exact_mod_cast hpos
    have hL : 0 < L := by
      rcases Nat.eq_zero_or_pos L with rfl | h
      · simp [hN] at hpos
      · exact h
    have hL' : (0 : ℝ) < L := by exact_mod_cast hL
    have hq : ∀ l, ratio (((h l : Nat) : Int) : ℝ) (N : ℝ) = (h l : ℝ) / N := by
      intro l
      rw [ratio, if_neg hN'.ne']
      simp
    have hle : ∀ l, Real.negMulLog (ratio (((h l : Nat) : Int) : ℝ) (N : ℝ)) ≤ (h l : ℝ) / N * Real.log L + (1 / L - (h l : ℝ) / N) := by
      intro l
      rw [hq]
      rcases Nat.eq_zero_or_pos (h l) with h0 | hp
      · rw [h0]
        simp
      · have hp' : (0 : ℝ) < h l := by exact_mod_cast hp
        have hx : (0 : ℝ) < h l / N := by positivity
        have hlog1 := Real.log_le_sub_one_of_pos (x := 1 / ((h l : ℝ) / N * L)) (by positivity)
        rw [one_div, Real.log_inv, Real.log_mul hx.ne' hL'.ne'] at hlog1
        have h2 := mul_le_mul_of_nonneg_left hlog1 hx.le
        have h3 : (h l : ℝ) / N * (((h l : ℝ) / N * L)⁻¹ - 1) = 1 / L - (h l : ℝ) / N := by
          field_simp
        rw [h3] at h2
        rw [Real.negMulLog]
        linarith
    refine le_trans (Finset.sum_le_sum fun l _ => hle l) ?_
    have hs : ∑ l, (h l : ℝ) / N = 1 := by
      rw [← Finset.sum_div, div_eq_one_iff_eq hN'.ne', hN]
      push_cast
      rfl
    rw [Finset.sum_add_distrib, ← Finset.sum_mul, Finset.sum_sub_distrib, hs]
    simp
    rw [mul_inv_cancel₀ hL'.ne']

theorem OneLeaf.gains_of {p : Params ℝ} (hlog : p.log2 = Real.logb 2) (hp : p.Ok) {h : Fin L → Nat} {s : Tree ℝ L} (hs : OneLeaf p h s) {g : List ℝ}
    (hg : rootGains p s = .ok g) : ∀ y ∈ g, 0 ≤ y ∧ y ≤ leafEntropy p (∑ l, h l) (fun l => (h l : Int)) := by
  obtain ⟨n, hn, hsp, _, _⟩ := hs.node
  have hm : s.nodes.length * p.nodeSize + p.total L ≤ p.maxSize := by rw [hs.nodes_length, Nat.one_mul]; exact hs.mem
  have hn0 : rd s.nodes 0 = .ok n := by rw [hn]; rfl
  obtain ⟨g', e1, e2, e3⟩ := hs.block.gains hlog hp
  simp only [Hoeffding.rootGains, hn0, hsp, getBlock_leaf hm, bind, Except.bind, e1] at hg
  obtain rfl := Except.ok.inj hg
  rw [hs.block.count] at e3
  exact e3

/-- no call of `split` on the root -/
def Op.noSplit : Op K L → Prop
  | .rootSplit _ _ => False
  | _ => True

theorem OneLeaf.waits {p : Params ℝ} (hlog : p.log2 = Real.logb 2) (hp : p.Ok) {E : ℝ} {N : Nat} {P : (Fin L → Nat) → Prop}
    (hE : ∀ h, P h → leafEntropy p (∑ l, h l) (fun l => (h l : Int)) ≤ E) (hN : E = 0 ∨ N * E ^ 2 ≤ 2 * p.log (1 / p.delta)) :
    ∀ (ops : List (Op ℝ L)) {h : Fin L → Nat} {s : Tree ℝ L}, OneLeaf p h s → (∀ a ∈ (s.blocks 0).infoSum, 0 ≤ a ∧ a ≤ (s.blocks 0).count * E) → P h →
    (∀ h l, P h → l ∈ labels ops → P (bump h l)) → ∑ l, h l + (labels ops).length ≤ N → (∀ op ∈ ops, op.noSplit) →
    ∃ s', Hoeffding.run p ops s = .ok s' ∧ s'.nodes.length = 1 := by
  intro ops
  induction ops with
  | nil =>
      intro h s hs _ _ _ _ _
      exact ⟨s, rfl, hs.nodes_length⟩
  | cons op ops ih =>
      intro h s hs hb hP hstep hlen hno
      have hno' := fun o ho => hno o (List.mem_cons_of_mem op ho)
      have next : ∀ {l : Fin L} {s1 : Tree ℝ L} {g : List ℝ}, labels (op :: ops) = l :: labels ops → OneLeaf p (bump h l) s1 → rootGains p s1 = .ok g → g.length = p.limitCount →
          (s1.blocks 0).infoSum = List.zipWith (· + ·) (s.blocks 0).infoSum g → (s1.blocks 0).count = (s.blocks 0).count + 1 →
          (∀ a ∈ (s1.blocks 0).infoSum, 0 ≤ a ∧ a ≤ (s1.blocks 0).count * E) ∧
          (¬ Decides p (s1.blocks 0).count ((s1.blocks 0).infoSum.map (fun a => a / ((s1.blocks 0).count : ℝ)))) ∧
          ∃ s', Hoeffding.run p ops s1 = .ok s' ∧ s'.nodes.length = 1 := by
        intro l s1 g hl h1 hg hgl hi hc
        have hP1 : P (bump h l) := hstep h l hP (by rw [hl]; simp)
        have hbd : ∀ a ∈ (s1.blocks 0).infoSum, 0 ≤ a ∧ a ≤ (s1.blocks 0).count * E := by
          intro a ha
          rw [hi] at ha
          obtain ⟨i, hi1, rfl⟩ := List.mem_iff_getElem.1 ha
          rw [List.getElem_zipWith]
          have hg1 := h1.gains_of hlog hp hg _ (List.getElem_mem (l := g) (n := i) (by simp at hi1; omega))
          have hb1 := hb _ (List.getElem_mem (l := (s.blocks 0).infoSum) (n := i) (by simp at hi1; omega))
          have := hE _ hP1
          rw [hc]
          push_cast
          constructor
          · linarith
          · linarith
        refine ⟨hbd, ?_, ?_⟩
        · rintro ⟨i, g0, g1, ⟨c1, c2, c3, j, c4, c5⟩, c6, c7⟩
          have hcp : (0 : ℝ) < ((s1.blocks 0).count : ℝ) := by rw [hc]; positivity
          have bd : ∀ y ∈ (s1.blocks 0).infoSum.map (fun a => a / ((s1.blocks 0).count : ℝ)), 0 ≤ y ∧ y ≤ E := by
            intro y hy
            obtain ⟨a, ha, rfl⟩ := List.mem_map.1 hy
            obtain ⟨b1, b2⟩ := hbd a ha
            exact ⟨by positivity, by rw [div_le_iff₀ hcp]; linarith⟩
          obtain ⟨d1, d2⟩ := bd g0 (List.mem_of_getElem? c1)
          obtain ⟨d3, d4⟩ := bd g1 (List.mem_of_getElem? c5)
          have d5 := c2 g1 (List.mem_of_getElem? c5)
          rcases hN with h0 | hN
          · linarith
          · have hsq : (g0 - g1) ^ 2 ≤ E ^ 2 := by nlinarith
            rw [div_lt_iff₀ hcp] at c6
            have hcN : ((s1.blocks 0).count : ℝ) ≤ N := by
              have : (s1.blocks 0).count ≤ N := by
                rw [hc, hs.block.count]
                rw [hl, List.length_cons] at hlen
                omega
              exact_mod_cast this
            nlinarith [sq_nonneg E, mul_le_mul_of_nonneg_right hcN (sq_nonneg E), mul_le_mul_of_nonneg_left hsq hcp.le]
        · refine ih h1 hbd hP1 (fun h' l' hp' hl' => hstep h' l' hp' (by rw [hl]; exact List.mem_cons_of_mem _ hl')) ?_ hno'
          rw [hl, List.length_cons] at hlen
          rw [sum_bump]
          omega
      cases op with
      | train x l =>
          obtain ⟨s1, r, g, e1, e2, e3, e4, e5, e6, e7, -⟩ := hs.train_rule hp x l
          obtain ⟨-, f1, s', f2, f3⟩ := next rfl e2 e3 e4 e5 e6
          refine ⟨s', ?_, f3⟩
          simp only [Hoeffding.run, exec, e7 f1, bind, Except.bind]
          exact f2
      | rootTrain x l =>
          obtain ⟨s1, r, g, e1, e2, e3, e4, e5, e6, -⟩ := hs.rule hp x l
          obtain ⟨-, -, s', f2, f3⟩ := next rfl e2 e3 e4 e5 e6
          refine ⟨s', ?_, f3⟩
          simp only [Hoeffding.run, exec, e1, bind, Except.bind, Except.map]
          exact f2
      | predict x =>
          obtain ⟨s', f1, f2⟩ := ih hs hb hP hstep hlen hno'
          refine ⟨s', ?_, f2⟩
          simp only [Hoeffding.run, exec, hs.predict hp x, bind, Except.bind, Except.map]
          exact f1
      | setLimits lims =>
          obtain ⟨s1, e1, e2⟩ := hs.setLimits hp lims
          have hb1 : (s1.blocks 0).infoSum = (s.blocks 0).infoSum ∧ (s1.blocks 0).count = (s.blocks 0).count := by
            obtain ⟨n, hn, hsp, -⟩ := hs.node
            have hm : s.nodes.length * p.nodeSize + p.total L ≤ p.maxSize := by rw [hs.nodes_length, Nat.one_mul]; exact hs.mem
            have h0 : rd s.nodes 0 = .ok n := by rw [hn]; rfl
            simp only [Hoeffding.setLimits, h0, hsp, getBlock_leaf hm, bind, Except.bind] at e1
            rw [setBlock_leaf hm] at e1
            obtain rfl := Except.ok.inj e1
            simp
          obtain ⟨s', f1, f2⟩ := ih e2 (by rw [hb1.1, hb1.2]; exact hb) hP hstep hlen hno'
          refine ⟨s', ?_, f2⟩
          simp only [Hoeffding.run, exec, e1, bind, Except.bind]
          exact f1
      | rootSplit f v => exact (hno (.rootSplit f v) List.mem_cons_self).elim

/-- **C115** The tree waits: without a call of `split` by the user the root stays a leaf as long as the number of training points times the square of the binary logarithm of
the number of labels is not larger than `2 ln(1/delta)`. -/
theorem C115_waits {p : Params ℝ} (hlog : p.log2 = Real.logb 2) (hp : p.Ok) (hm : p.nodeSize + p.total L ≤ p.maxSize) {ops : List (Op ℝ L)}
    (hno : ∀ op ∈ ops, op.noSplit) (hn : (labels ops).length * (Real.logb 2 L) ^ 2 ≤ 2 * p.log (1 / p.delta)) :
    ∃ s0 s : Tree ℝ L, new p = .ok s0 ∧ run p ops s0 = .ok s ∧ s.nodes.length = 1 := by
  obtain ⟨s0, h0, -⟩ := (new_eq (L := L) p hp).1 hm
  obtain ⟨a1, a2, a3⟩ := OneLeaf.zero_info hp h0
  obtain ⟨s, f1, f2⟩ := a1.waits hlog hp (P := fun _ => True) (fun h _ => entropy_le hlog h) (N := (labels ops).length) (.inr hn) ops
    (by rw [a2, a3]; intro a ha; simp at ha; simp [ha.2]) trivial (fun _ _ _ _ => trivial) (by simp) hno
  exact ⟨s0, s, h0, f1, f2⟩

theorem entropy_pure {p : Params ℝ} (hlog : p.log2 = Real.logb 2) {h : Fin L → Nat} {l0 : Fin L} (hz : ∀ l, l ≠ l0 → h l = 0) :
    leafEntropy p (∑ l, h l) (fun l => (h l : Int)) ≤ 0 := by
  have hs : ∑ l, h l = h l0 := Finset.sum_eq_single l0 (fun l _ hl => hz l hl) (fun hn => absurd (Finset.mem_univ _) hn)
  have hx : ∀ l, xlog p (ratio (((h l : Nat) : Int) : ℝ) ((∑ l, h l : Nat) : ℝ)) = 0 := by
    intro l
    rw [hs]
    by_cases c : l = l0
    · subst c
      rw [ratio]
      split
      · simp [xlog]
      · rename_i hne
        rw [show (((h l : Nat) : Int) : ℝ) = ((h l : Nat) : ℝ) by simp, div_self hne]
        simp [xlog, hlog]
    · rw [hz l c]
      simp [ratio, xlog]
  simp only [leafEntropy]
  rw [Finset.sum_congr rfl fun l _ => hx l]
  simp

/-- **C115** With points of a single label the tree never splits, whatever `delta` and however many points. -/
theorem C115_one_label {p : Params ℝ} (hlog : p.log2 = Real.logb 2) (hp : p.Ok) (hm : p.nodeSize + p.total L ≤ p.maxSize) {ops : List (Op ℝ L)}
    (hno : ∀ op ∈ ops, op.noSplit) {l0 : Fin L} (h1 : ∀ l ∈ labels ops, l = l0) :
    ∃ s0 s : Tree ℝ L, new p = .ok s0 ∧ run p ops s0 = .ok s ∧ s.nodes.length = 1 := by
  obtain ⟨s0, h0, -⟩ := (new_eq (L := L) p hp).1 hm
  obtain ⟨a1, a2, a3⟩ := OneLeaf.zero_info hp h0
  obtain ⟨s, f1, f2⟩ := a1.waits hlog hp (P := fun h => ∀ l, l ≠ l0 → h l = 0) (fun h hz => entropy_pure hlog hz) (N := (labels ops).length) (.inl rfl) ops
    (by rw [a2, a3]; intro a ha; simp at ha; simp [ha.2]) (fun _ _ => rfl)
    (fun h l hh hl k hk => by rw [bump, if_neg (by rw [h1 l hl]; exact hk)]; exact hh k hk) (by simp) hno
  exact ⟨s0, s, h0, f1, f2⟩

/-! ### Hoeffding's bound -/

/-- Hoeffding's bound for `n` values in an interval of length `R`: the difference exceeds `sqrt (R² ln(1/delta) / (2 n))`. -/
def ExceedsBound (R delta : ℝ) (n : Nat) (diff : ℝ) : Prop := R ^ 2 * Real.log (1 / delta) / (2 * n) < diff ^ 2

/-- **C115** With at most four labels a split means that the difference of the two best average gains exceeds Hoeffding's bound for information gains, whose range is the binary
logarithm of the number of labels. -/
theorem C115_bound_partial {p : Params ℝ} (hlog : p.log = Real.log) (hp : p.Ok) (hd : 0 < p.delta ∧ p.delta ≤ 1) (hL : 1 ≤ L ∧ L ≤ 4)
    {ops : List (Op ℝ L)} {s0 s s' : Tree ℝ L} (h0 : new p = .ok s0) (hr : run p ops s0 = .ok s)
    (h1 : s.nodes.length = 1) (x : Nat → ℝ) (label : Fin L) (ht : train p s x label = .ok s') (h3 : s'.nodes.length = 3) :
    ∃ (gs : List (List ℝ)) (i j : Nat) (g0 g1 : ℝ), gainHistory p (ops ++ [.train x label]) s0 = .ok gs ∧ i ≠ j ∧ (averages p gs)[i]? = some g0 ∧ (averages p gs)[j]? = some g1 ∧
      (∀ y ∈ averages p gs, y ≤ g0) ∧ (∀ (k : Nat) (y : ℝ), k ≠ i → (averages p gs)[k]? = some y → y ≤ g1) ∧ ExceedsBound (Real.logb 2 L) p.delta gs.length (g0 - g1) := by
  obtain ⟨gs, e1, e2, -, -, e3⟩ := C115_split_rule hp h0 hr h1 x label ht
  obtain ⟨i, g0, g1, c1, c2, c3, ⟨j, c4, c5⟩, c6, c7⟩ := e3.1 h3
  refine ⟨gs, i, j, g0, g1, e1, fun h => c4 h.symm, c1, c5, c2, c3, lt_of_le_of_lt ?_ c6⟩
  have hn : (0 : ℝ) < (gs.length : ℝ) := by rw [e2]; positivity
  have hlg : 0 ≤ Real.log (1 / p.delta) := Real.log_nonneg (by rw [le_div_iff₀ hd.1]; linarith)
  have hR : (Real.logb 2 L) ^ 2 ≤ 4 := by
    have h1 : Real.logb 2 L ≤ 2 := by
      rw [Real.logb_le_iff_le_rpow (by norm_num) (by exact_mod_cast hL.1)]
      norm_num
      exact hL.2
    have h2 : 0 ≤ Real.logb 2 L := Real.logb_nonneg (by norm_num) (by exact_mod_cast hL.1)
    nlinarith
  rw [hlog, div_le_div_iff₀ (by positivity) hn]
  nlinarith [mul_le_mul_of_nonneg_right hR (mul_nonneg hlg hn.le)]

end Orp.Hoeffding
