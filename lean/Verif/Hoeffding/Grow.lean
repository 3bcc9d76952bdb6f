import Verif.Hoeffding.SidesProps
import Verif.Hoeffding.Gain
import Mathlib.Analysis.SpecialFunctions.Log.NegMulLog
import Mathlib.Analysis.SpecialFunctions.Log.Base
import Mathlib.Analysis.Asymptotics.Lemmas

/-!
Lemmas for C153: on a stream of examples whose frequencies converge, the average gains of the limits converge to the gains of the limit frequencies.
-/

namespace Orp.Hoeffding

open Filter hiding bind
open Topology Finset

set_option linter.unusedSectionVars false

variable {L : Nat}

/-! ### Specification -/

/-- Shannon entropy in bits of a label with the weights `q l` -/
noncomputable def entropyOf (q : Fin L → ℝ) : ℝ := - ∑ l, q l / (∑ k, q k) * Real.logb 2 (q l / ∑ k, q k)

/-- Information gain in bits of learning the side, when label `l` has weight `q l` on the one side and `r l` on the other -/
noncomputable def gainOf (q r : Fin L → ℝ) : ℝ :=
  entropyOf (fun l => q l + r l) - ((∑ l, q l) / (∑ l, (q l + r l)) * entropyOf q + (∑ l, r l) / (∑ l, (q l + r l)) * entropyOf r)

/-- the calls that give the limits to the tree and then train it with the first `n` examples of a stream -/
def teach (lims : Nat → ℝ) (z : Nat → (Nat → ℝ) × Fin L) (n : Nat) : List (Op ℝ L) :=
  .setLimits (fun i => .fin (lims i)) :: (List.range n).map fun k => .train (z k).1 (z k).2

/-- the share, among the first `n` examples of a stream, of those with label `l` and on the side `b` of limit `i` (`true`: less than the limit) -/
noncomputable def frequency (p : Params ℝ) (lims : Nat → ℝ) (z : Nat → (Nat → ℝ) × Fin L) (i : Nat) (b : Bool) (l : Fin L) (n : Nat) : ℝ :=
  (∑ k ∈ range n, if decide ((z k).1 (featureOfLimit p.sizes i) < lims i) = b ∧ (z k).2 = l then (1 : ℝ) else 0) / n

/-! ### Gains as functions of frequencies -/

/-- the first `n` examples -/
def firstPoints (z : Nat → (Nat → ℝ) × Fin L) (n : Nat) : List ((Nat → ℝ) × Fin L) := (List.range n).map z

theorem firstPoints_succ (z : Nat → (Nat → ℝ) × Fin L) (n : Nat) : firstPoints z (n + 1) = firstPoints z n ++ [z n] := by
  simp [firstPoints, List.range_succ]

theorem countIf_first (z : Nat → (Nat → ℝ) × Fin L) (P : (Nat → ℝ) → Bool) (l : Fin L) :
    ∀ n, (countIf (firstPoints z n) P l : ℝ) = ∑ k ∈ range n, if P (z k).1 = true ∧ (z k).2 = l then (1 : ℝ) else 0
  | 0 => by simp [firstPoints, countIf]
  | n + 1 => by
      rw [firstPoints_succ, countIf_append, Nat.cast_add, countIf_first z P l n, Finset.sum_range_succ]
      congr 1
      by_cases h : P (z n).1 = true ∧ (z n).2 = l
      · simp [countIf, h.1, h.2]
      · rw [if_neg h]
        have : ¬ ((P (z n).1 && decide ((z n).2 = l)) = true) := by simpa using h
        simp [countIf, this]

theorem countIf_frequency (p : Params ℝ) (lims : Nat → ℝ) (z : Nat → (Nat → ℝ) × Fin L) (i : Nat) (l : Fin L) (n : Nat) :
    (countIf (firstPoints z n) (fun x => decide (x (featureOfLimit p.sizes i) < lims i)) l : ℝ) / n = frequency p lims z i true l n ∧
      (countIf (firstPoints z n) (fun x => !decide (x (featureOfLimit p.sizes i) < lims i)) l : ℝ) / n = frequency p lims z i false l n := by
  rw [countIf_first, countIf_first]
  simp only [frequency, Bool.not_eq_true', and_self]

theorem entropyOf_scale {c : ℝ} (hc : c ≠ 0) (q : Fin L → ℝ) : entropyOf (fun l => q l / c) = entropyOf q := by
  have e : ∀ l, q l / c / (∑ k, q k / c) = q l / ∑ k, q k := by
    intro l
    rw [← Finset.sum_div, div_div_div_cancel_right₀ hc]
  simp only [entropyOf, e]

theorem labelEntropy_of (h : Fin L → Nat) : labelEntropy (Real.logb 2) h = entropyOf (fun l => (h l : ℝ)) := by
  simp only [labelEntropy, entropyOf]
  congr 1
  refine Finset.sum_congr rfl fun l _ => ?_
  push_cast
  split
  · rename_i h0; simp [h0]
  · rfl

theorem gainOf_scale {c : ℝ} (hc : c ≠ 0) (q r : Fin L → ℝ) : gainOf (fun l => q l / c) (fun l => r l / c) = gainOf q r := by
  have e1 : (fun l => q l / c + r l / c) = fun l => (q l + r l) / c := by funext l; rw [add_div]
  have e2 : ∑ l, (q l + r l) / c = (∑ l, (q l + r l)) / c := by rw [Finset.sum_div]
  rw [gainOf, gainOf, e1, e2, entropyOf_scale hc, entropyOf_scale hc, entropyOf_scale hc, ← Finset.sum_div, ← Finset.sum_div, div_div_div_cancel_right₀ hc,
    div_div_div_cancel_right₀ hc]

theorem infoGain_of (h0 h1 : Fin L → Nat) : infoGain (Real.logb 2) h0 h1 = gainOf (fun l => (h0 l : ℝ)) (fun l => (h1 l : ℝ)) := by
  simp only [infoGain, gainOf, labelEntropy_of]
  push_cast
  rfl

theorem gainBy_frequency (p : Params ℝ) (lims : Nat → ℝ) (z : Nat → (Nat → ℝ) × Fin L) (i : Nat) {n : Nat} (hn : n ≠ 0) :
    gainBy (Real.logb 2) (firstPoints z n) (fun x => decide (x (featureOfLimit p.sizes i) < lims i)) =
      gainOf (fun l => frequency p lims z i true l n) (fun l => frequency p lims z i false l n) := by
  rw [gainBy, infoGain_of, ← gainOf_scale (c := (n : ℝ)) (by exact_mod_cast hn)]
  congr 1 <;> funext l
  · exact (countIf_frequency p lims z i l n).1
  · exact (countIf_frequency p lims z i l n).2

theorem gainBy_nonneg (pts : List ((Nat → ℝ) × Fin L)) (P : (Nat → ℝ) → Bool) : 0 ≤ gainBy (Real.logb 2) pts P := by
  have h := gain_nonneg (p := { sizes := [], delta := 0, maxSize := 0, nodeSize := 0, log := id, log2 := Real.logb 2 }) rfl
    (fun l => countIf pts P l + countIf pts (fun x => !P x) l) (countIf pts P) (countIf pts (fun x => !P x)) (fun _ => rfl)
  rw [leafEntropy_eq, cutEntropy_eq] at h
  exact h

/-! ### Continuity -/

/-- total weight times entropy, without divisions -/
noncomputable def bulk (q : Fin L → ℝ) : ℝ := ((∑ l, q l) * Real.log (∑ l, q l) - ∑ l, q l * Real.log (q l)) / Real.log 2

theorem bulk_eq {q : Fin L → ℝ} (hq : ∀ l, 0 ≤ q l) : (∑ l, q l) * entropyOf q = bulk q := by
  by_cases h0 : ∑ l, q l = 0
  · have : ∀ l, q l = 0 := fun l => (Finset.sum_eq_zero_iff_of_nonneg fun l _ => hq l).1 h0 l (Finset.mem_univ l)
    simp [bulk, this]
  · rw [entropyOf, bulk, mul_neg, Finset.mul_sum, ← Finset.sum_neg_distrib, eq_div_iff (Real.log_pos (by norm_num : (1 : ℝ) < 2)).ne', Finset.sum_mul, Finset.sum_mul,
      ← Finset.sum_sub_distrib]
    refine Finset.sum_congr rfl fun l _ => ?_
    by_cases hl : q l = 0
    · simp [hl]
    · rw [Real.logb, Real.log_div hl h0]
      have h2 : Real.log 2 ≠ 0 := (Real.log_pos (by norm_num : (1 : ℝ) < 2)).ne'
      field_simp
      ring

theorem gainOf_bulk {q r : Fin L → ℝ} (hq : ∀ l, 0 ≤ q l) (hr : ∀ l, 0 ≤ r l) (h1 : ∑ l, (q l + r l) = 1) :
    gainOf q r = bulk (fun l => q l + r l) - (bulk q + bulk r) := by
  rw [gainOf, h1, div_one, div_one, bulk_eq hq, bulk_eq hr, ← bulk_eq fun l => add_nonneg (hq l) (hr l), h1, one_mul]

theorem bulk_tendsto {u : Nat → Fin L → ℝ} {q : Fin L → ℝ} (h : ∀ l, Tendsto (fun n => u n l) atTop (𝓝 (q l))) :
    Tendsto (fun n => bulk (u n)) atTop (𝓝 (bulk q)) := by
  have hs : Tendsto (fun n => ∑ l, u n l) atTop (𝓝 (∑ l, q l)) := tendsto_finsetSum _ fun l _ => h l
  refine Tendsto.div_const (Tendsto.sub ?_ ?_) _
  · exact (Real.continuous_mul_log.tendsto _).comp hs
  · exact tendsto_finsetSum _ fun l _ => (Real.continuous_mul_log.tendsto _).comp (h l)

theorem frequency_nonneg (p : Params ℝ) (lims : Nat → ℝ) (z : Nat → (Nat → ℝ) × Fin L) (i : Nat) (b : Bool) (l : Fin L) (n : Nat) : 0 ≤ frequency p lims z i b l n :=
  div_nonneg (Finset.sum_nonneg fun k _ => by split <;> norm_num) (Nat.cast_nonneg n)

theorem frequency_total (p : Params ℝ) (lims : Nat → ℝ) (z : Nat → (Nat → ℝ) × Fin L) (i : Nat) {n : Nat} (hn : n ≠ 0) :
    ∑ l, (frequency p lims z i true l n + frequency p lims z i false l n) = 1 := by
  have h : ∀ k, ∑ l : Fin L, ((if decide ((z k).1 (featureOfLimit p.sizes i) < lims i) = true ∧ (z k).2 = l then (1 : ℝ) else 0) +
      (if decide ((z k).1 (featureOfLimit p.sizes i) < lims i) = false ∧ (z k).2 = l then (1 : ℝ) else 0)) = 1 := by
    intro k
    by_cases c : (z k).1 (featureOfLimit p.sizes i) < lims i <;> simp [c]
  simp only [frequency, ← add_div, ← Finset.sum_add_distrib]
  rw [← Finset.sum_div, Finset.sum_comm, Finset.sum_congr rfl fun k _ => h k]
  simp only [Finset.sum_const, Finset.card_range, nsmul_eq_mul, mul_one]
  exact div_self (by exact_mod_cast hn)

/-- If the frequencies converge, so do the gains. -/
theorem gains_tendsto (p : Params ℝ) (lims : Nat → ℝ) (z : Nat → (Nat → ℝ) × Fin L) (i : Nat) {q : Bool → Fin L → ℝ}
    (hq : ∀ b l, Tendsto (frequency p lims z i b l) atTop (𝓝 (q b l))) :
    Tendsto (fun n => gainBy (Real.logb 2) (firstPoints z n) (fun x => decide (x (featureOfLimit p.sizes i) < lims i))) atTop (𝓝 (gainOf (q true) (q false))) := by
  have hn : ∀ b l, 0 ≤ q b l := fun b l => ge_of_tendsto' (hq b l) fun n => frequency_nonneg p lims z i b l n
  have h1 : ∑ l, (q true l + q false l) = 1 := by
    refine tendsto_nhds_unique (tendsto_finsetSum _ fun l _ => (hq true l).add (hq false l)) (tendsto_const_nhds.congr' ?_)
    filter_upwards [eventually_ne_atTop 0] with n hn
    exact (frequency_total p lims z i hn).symm
  rw [gainOf_bulk (hn true) (hn false) h1]
  have := (bulk_tendsto (u := fun n l => frequency p lims z i true l n + frequency p lims z i false l n) fun l => (hq true l).add (hq false l)).sub
    ((bulk_tendsto (u := fun n l => frequency p lims z i true l n) fun l => hq true l).add (bulk_tendsto (u := fun n l => frequency p lims z i false l n) fun l => hq false l))
  refine this.congr' ?_
  filter_upwards [eventually_ne_atTop 0] with n hn
  rw [gainBy_frequency p lims z i hn, gainOf_bulk (fun l => frequency_nonneg ..) (fun l => frequency_nonneg ..) (frequency_total p lims z i hn)]

/-! ### The tree -/

/-- the gain of limit `i` on the first `n` examples -/
noncomputable def gainN (p : Params ℝ) (lims : Nat → ℝ) (z : Nat → (Nat → ℝ) × Fin L) (i n : Nat) : ℝ :=
  gainBy (Real.logb 2) (firstPoints z n) (fun x => decide (x (featureOfLimit p.sizes i) < lims i))

/-- the average gains after `n` examples -/
noncomputable def meanGains (p : Params ℝ) (lims : Nat → ℝ) (z : Nat → (Nat → ℝ) × Fin L) (n : Nat) : List ℝ :=
  (List.range p.limitCount).map fun i => (∑ k ∈ range n, gainN p lims z i (k + 1)) / n

/-- the tree is still one leaf, with the counters and sums of the first `n` examples -/
structure Tracks (p : Params ℝ) (lims : Nat → ℝ) (z : Nat → (Nat → ℝ) × Fin L) (n : Nat) (s : Tree ℝ L) : Prop where
  filled : Filled p lims (firstPoints z n) s
  count : (s.blocks 0).count = n
  sums : (s.blocks 0).infoSum = (List.range p.limitCount).map fun i => ∑ k ∈ range n, gainN p lims z i (k + 1)

variable {p : Params ℝ} {lims : Nat → ℝ} {z : Nat → (Nat → ℝ) × Fin L}

theorem Tracks.start (hp : p.Ok) {s0 : Tree ℝ L} (h0 : new p = .ok s0) : ∃ s, setLimits p s0 (fun i => .fin (lims i)) = .ok s ∧ Tracks p lims z 0 s := by
  obtain ⟨s, e1, e2⟩ := Filled.start hp h0 lims
  obtain ⟨a1, a2, a3⟩ := OneLeaf.zero_info hp h0
  suffices hh : (s.blocks 0).count = 0 ∧ (s.blocks 0).infoSum = List.replicate p.limitCount 0 from ⟨s, e1, e2, hh.1, by rw [hh.2]; simp⟩
  obtain ⟨n, hn, hsp, -, -⟩ := a1.node
  have hm : s0.nodes.length * p.nodeSize + p.total L ≤ p.maxSize := by rw [a1.nodes_length, Nat.one_mul]; exact a1.mem
  have hr : rd s0.nodes 0 = .ok n := by rw [hn]; rfl
  simp only [Hoeffding.setLimits, hr, hsp, getBlock_leaf hm, bind, Except.bind] at e1
  rw [setBlock_leaf hm] at e1
  obtain rfl := Except.ok.inj e1
  exact ⟨by simpa using a2, by simpa using a3⟩

/-- A training call on the leaf keeps it a leaf if the averages do not decide, and splits it if they do. -/
theorem Tracks.step (hp : p.Ok) (hlog : p.log2 = Real.logb 2) (hfit : Fits p L) (hl : SortedLimits p lims) {n : Nat} {s : Tree ℝ L} (hs : Tracks p lims z n s) :
    ∃ s', Hoeffding.train p s (z n).1 (z n).2 = .ok s' ∧
      ((¬ Decides p (n + 1) (meanGains p lims z (n + 1)) ∧ Tracks p lims z (n + 1) s') ∨ (Decides p (n + 1) (meanGains p lims z (n + 1)) ∧ ∃ h, Split p h s')) := by
  obtain ⟨h, hleaf⟩ := hs.filled.leaf
  obtain ⟨s1, r, g, e1, e2, e3, e4, e5, e6, e7, e8⟩ := hleaf.train_rule hp (z n).1 (z n).2
  have hf := hs.filled.train hp (z n).1 (z n).2 e1
  rw [show firstPoints z n ++ [((z n).1, (z n).2)] = firstPoints z (n + 1) from (firstPoints_succ z n).symm] at hf
  obtain ⟨-, hg⟩ := hf.gains hp hl e3
  have hsum : (s1.blocks 0).infoSum = (List.range p.limitCount).map fun i => ∑ k ∈ range (n + 1), gainN p lims z i (k + 1) := by
    rw [e5, hs.sums]
    refine List.ext_getElem? fun i => ?_
    rw [List.getElem?_zipWith]
    by_cases hi : i < p.limitCount
    · rw [hg i hi]
      simp [hi, gainN, hlog, Finset.sum_range_succ]
    · have : g[i]? = none := List.getElem?_eq_none (by omega)
      rw [this]
      simp [hi]
  have hcount : (s1.blocks 0).count = n + 1 := by rw [e6, hs.count]
  have hmean : (s1.blocks 0).infoSum.map (fun a => a / ((s1.blocks 0).count : ℝ)) = meanGains p lims z (n + 1) := by
    rw [hsum, hcount, meanGains, List.map_map]
    rfl
  rw [hcount] at e7 e8
  rw [hcount] at hmean
  rw [hmean] at e7 e8
  by_cases hd : Decides p (n + 1) (meanGains p lims z (n + 1))
  · rcases hleaf.train hp (z n).1 (z n).2 with ⟨s', t1, -⟩ | ⟨s', t1, -⟩ | ⟨t1, -⟩
    · exact ⟨s', t1, Or.inr ⟨hd, _, e8 hd s' t1⟩⟩
    · exact ⟨s', t1, Or.inr ⟨hd, _, e8 hd s' t1⟩⟩
    · exact absurd hfit t1
  · exact ⟨s1, e7 hd, Or.inl ⟨hd, hf, hcount, hsum⟩⟩

theorem run_snoc (p : Params ℝ) : ∀ (ops : List (Op ℝ L)) (op : Op ℝ L) (s : Tree ℝ L), Hoeffding.run p (ops ++ [op]) s = (Hoeffding.run p ops s).bind (exec p op)
  | [], op, s => by
      simp only [List.nil_append, Hoeffding.run, bind, Except.bind]
      cases exec p op s <;> rfl
  | o :: ops, op, s => by
      simp only [List.cons_append, Hoeffding.run, bind, Except.bind]
      cases exec p o s with
      | error e => rfl
      | ok s' => exact run_snoc p ops op s'

theorem teach_succ (lims : Nat → ℝ) (z : Nat → (Nat → ℝ) × Fin L) (n : Nat) : teach lims z (n + 1) = teach lims z n ++ [.train (z n).1 (z n).2] := by
  simp [teach, List.range_succ]

/-- After `n` examples the tree is a leaf with their counters, or split; it is split if the averages decided at any number of examples up to `n`. -/
theorem teach_state (hp : p.Ok) (hlog : p.log2 = Real.logb 2) (hfit : Fits p L) (hl : SortedLimits p lims) {s0 : Tree ℝ L} (h0 : new p = .ok s0) :
    ∀ n, ∃ s, Hoeffding.run p (teach lims z n) s0 = .ok s ∧
      ((Tracks p lims z n s ∧ ∀ k, 1 ≤ k → k ≤ n → ¬ Decides p k (meanGains p lims z k)) ∨
        ((∃ h, Split p h s) ∧ ∃ k, 1 ≤ k ∧ k ≤ n ∧ Decides p k (meanGains p lims z k)))
  | 0 => by
      obtain ⟨s, e1, e2⟩ := Tracks.start (lims := lims) (z := z) hp h0
      refine ⟨s, ?_, Or.inl ⟨e2, fun k h1 h2 => by omega⟩⟩
      simp [teach, Hoeffding.run, exec, e1, bind, Except.bind]
  | n + 1 => by
      obtain ⟨s, e1, e2⟩ := teach_state hp hlog hfit hl h0 n
      rw [teach_succ, run_snoc, e1]
      show ∃ s', Hoeffding.train p s (z n).1 (z n).2 = .ok s' ∧ _
      rcases e2 with ⟨e2, e3⟩ | ⟨⟨h, e2⟩, k, k1, k2, k3⟩
      · obtain ⟨s', f1, f2⟩ := e2.step hp hlog hfit hl
        refine ⟨s', f1, ?_⟩
        rcases f2 with ⟨f2, f3⟩ | ⟨f2, f3⟩
        · refine Or.inl ⟨f3, fun k h1 h2 => ?_⟩
          rcases Nat.lt_or_ge n k with c | c
          · obtain rfl : k = n + 1 := by omega
            exact f2
          · exact e3 k h1 c
        · exact Or.inr ⟨f3, n + 1, by omega, le_refl _, f2⟩
      · obtain ⟨s', f1, f2⟩ := e2.train hp (z n).1 (z n).2
        exact ⟨s', f1, Or.inr ⟨⟨_, f2⟩, k, k1, by omega, k3⟩⟩

/-! ### Averages decide -/

theorem meanGains_get (p : Params ℝ) (lims : Nat → ℝ) (z : Nat → (Nat → ℝ) × Fin L) (n : Nat) {i : Nat} (hi : i < p.limitCount) :
    (meanGains p lims z n)[i]? = some ((∑ k ∈ range n, gainN p lims z i (k + 1)) / n) := by
  simp [meanGains, hi]

/-- averages that are far enough apart decide -/
theorem decides_of (hp : p.Ok) {n : Nat} {avg : List ℝ} (hlen : avg.length = p.limitCount) {i : Nat} {g0 d : ℝ} (hi : avg[i]? = some g0) (hd : 0 ≤ d)
    (hgap : ∀ j y, j ≠ i → avg[j]? = some y → y + d ≤ g0) (h0 : 0 < g0) (he : 2 * p.log (1 / p.delta) / (n : ℝ) < d ^ 2) : Decides p n avg := by
  have hi' : i < avg.length := (List.getElem?_eq_some_iff.1 hi).1
  have hne : ((range avg.length).erase i).Nonempty := by
    rw [← Finset.card_pos, Finset.card_erase_of_mem (Finset.mem_range.2 hi'), Finset.card_range]
    have := hp.two
    omega
  obtain ⟨j, hj, hmax⟩ := Finset.exists_max_image ((range avg.length).erase i) (fun j => avg.getD j 0) hne
  have hji := (Finset.mem_erase.1 hj).1
  have hjl := Finset.mem_range.1 (Finset.mem_erase.1 hj).2
  have hjs : avg[j]? = some (avg.getD j 0) := by simp [List.getD_eq_getElem?_getD, hjl]
  refine ⟨i, g0, avg.getD j 0, ⟨hi, ?_, ?_, j, hji, hjs⟩, ?_, h0⟩
  · intro y hy
    obtain ⟨k, hk⟩ := List.mem_iff_getElem?.1 hy
    by_cases c : k = i
    · subst c
      rw [hi] at hk
      exact (Option.some.inj hk).ge
    · have := hgap k y c hk
      linarith
  · intro k y hk hy
    have hkl := (List.getElem?_eq_some_iff.1 hy).1
    have := hmax k (Finset.mem_erase.2 ⟨hk, Finset.mem_range.2 hkl⟩)
    rwa [List.getD_eq_getElem?_getD, hy, Option.getD_some] at this
  · have h1 := hgap j _ hji hjs
    have h2 : d ^ 2 ≤ (g0 - avg.getD j 0) ^ 2 := pow_le_pow_left₀ hd (by linarith) 2
    linarith

end Orp.Hoeffding
