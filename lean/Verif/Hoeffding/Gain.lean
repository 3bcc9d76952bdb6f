import Mathlib.Analysis.SpecialFunctions.Log.NegMulLog
import Mathlib.Analysis.SpecialFunctions.Log.Base
import Verif.Hoeffding.Leaf

/-!
Over the real numbers with the binary logarithm the information gain of a cut is at least 0 and at most the entropy of the leaf.
-/

namespace Orp.Hoeffding

set_option linter.unusedSectionVars false

variable {L : Nat}

theorem xlog_real {p : Params ℝ} (hlog : p.log2 = Real.logb 2) {x : ℝ} (hx : 0 ≤ x) : xlog p x = - Real.negMulLog x / Real.log 2 := by
  simp only [xlog, hlog, Real.logb, Real.negMulLog]
  split
  · ring
  · have : x = 0 := by linarith
    simp [this]

theorem ratio_nonneg {a b : ℝ} (ha : 0 ≤ a) (hb : 0 ≤ b) : 0 ≤ ratio a b := by
  simp only [ratio]
  split
  · exact le_refl 0
  · exact div_nonneg ha hb

theorem ratio_le_one {a b : ℝ} (ha : a ≤ b) (hb : 0 ≤ b) : ratio a b ≤ 1 := by
  simp only [ratio]
  split
  · exact zero_le_one
  · exact div_le_one_of_le₀ ha hb

/-- One label: the entropies of both sides, weighted, do not exceed the entropy of the whole. -/
theorem label_concave {a b A B : ℝ} (ha : 0 ≤ a) (hb : 0 ≤ b) (haA : a ≤ A) (hbB : b ≤ B) (h : 0 < A + B) :
    ratio A (A + B) * Real.negMulLog (ratio a A) + ratio B (A + B) * Real.negMulLog (ratio b B) ≤ Real.negMulLog (ratio (a + b) (A + B)) := by
  have hA : 0 ≤ A := le_trans ha haA
  have hB : 0 ≤ B := le_trans hb hbB
  have hne : A + B ≠ 0 := h.ne'
  have hconc := Real.concaveOn_negMulLog.2 (x := ratio a A) (y := ratio b B) (ratio_nonneg ha hA) (ratio_nonneg hb hB)
    (ratio_nonneg hA h.le) (ratio_nonneg hB h.le) (by simp only [ratio, if_neg hne]; field_simp)
  simp only [smul_eq_mul] at hconc
  have e : ratio A (A + B) * ratio a A + ratio B (A + B) * ratio b B = ratio (a + b) (A + B) := by
    have e1 : ratio A (A + B) * ratio a A = a / (A + B) := by
      simp only [ratio, if_neg hne]
      by_cases c : A = 0
      · have : a = 0 := by linarith
        simp [c, this]
      · rw [if_neg c]; field_simp
    have e2 : ratio B (A + B) * ratio b B = b / (A + B) := by
      simp only [ratio, if_neg hne]
      by_cases c : B = 0
      · have : b = 0 := by linarith
        simp [c, this]
      · rw [if_neg c]; field_simp
    rw [e1, e2]
    simp only [ratio, if_neg hne]
    ring
  rw [e] at hconc
  exact hconc

theorem cut_split (h h0 h1 : Fin L → Nat) (hh : ∀ l, h l = h0 l + h1 l) :
    (∑ l, (((h0 l : Nat) : Int) : ℝ)) + ∑ l, (((h1 l : Nat) : Int) : ℝ) = ((∑ l, h l : Nat) : ℝ) := by
  push_cast
  rw [← Finset.sum_add_distrib]
  apply Finset.sum_congr rfl
  intro l _
  rw [hh l]
  push_cast
  rfl

/-- The information gain of a cut is not negative. -/
theorem gain_nonneg {p : Params ℝ} (hlog : p.log2 = Real.logb 2) (h h0 h1 : Fin L → Nat) (hh : ∀ l, h l = h0 l + h1 l) :
    0 ≤ leafEntropy p (∑ l, h l) (fun l => (h l : Int)) - cutEntropy p (fun l => (h0 l : Int)) (fun l => (h1 l : Int)) := by
  have hl2 : 0 < Real.log 2 := Real.log_pos (by norm_num)
  have hs := cut_split h h0 h1 hh
  have hA : 0 ≤ ∑ l, (((h0 l : Nat) : Int) : ℝ) := Finset.sum_nonneg (fun l _ => by exact_mod_cast Nat.zero_le _)
  have hB : 0 ≤ ∑ l, (((h1 l : Nat) : Int) : ℝ) := Finset.sum_nonneg (fun l _ => by exact_mod_cast Nat.zero_le _)
  have h0le : ∀ l, (((h0 l : Nat) : Int) : ℝ) ≤ ∑ l, (((h0 l : Nat) : Int) : ℝ) := fun l =>
    Finset.single_le_sum (f := fun l => (((h0 l : Nat) : Int) : ℝ)) (fun i _ => by exact_mod_cast Nat.zero_le _) (Finset.mem_univ l)
  have h1le : ∀ l, (((h1 l : Nat) : Int) : ℝ) ≤ ∑ l, (((h1 l : Nat) : Int) : ℝ) := fun l =>
    Finset.single_le_sum (f := fun l => (((h1 l : Nat) : Int) : ℝ)) (fun i _ => by exact_mod_cast Nat.zero_le _) (Finset.mem_univ l)
  simp only [leafEntropy, cutEntropy]
  rw [hs]
  generalize hAe : ∑ l, (((h0 l : Nat) : Int) : ℝ) = A at *
  generalize hBe : ∑ l, (((h1 l : Nat) : Int) : ℝ) = B at *
  rw [← hs]
  by_cases c : 0 < A + B
  · have key : ∀ l, ratio A (A + B) * Real.negMulLog (ratio (((h0 l : Nat) : Int) : ℝ) A) + ratio B (A + B) * Real.negMulLog (ratio (((h1 l : Nat) : Int) : ℝ) B)
        ≤ Real.negMulLog (ratio (((h l : Nat) : Int) : ℝ) (A + B)) := by
      intro l
      have := label_concave (a := (((h0 l : Nat) : Int) : ℝ)) (b := (((h1 l : Nat) : Int) : ℝ)) (A := A) (B := B) (by exact_mod_cast Nat.zero_le _)
        (by exact_mod_cast Nat.zero_le _) (h0le l) (h1le l) c
      have e : (((h l : Nat) : Int) : ℝ) = (((h0 l : Nat) : Int) : ℝ) + (((h1 l : Nat) : Int) : ℝ) := by rw [hh l]; push_cast; rfl
      rw [e]; exact this
    have hsum := Finset.sum_le_sum (fun l (_ : l ∈ Finset.univ) => key l)
    rw [Finset.sum_add_distrib, ← Finset.mul_sum, ← Finset.mul_sum] at hsum
    have x1 : ∀ (f : Fin L → ℝ), (∀ l, 0 ≤ f l) → ∑ l, xlog p (f l) = - (∑ l, Real.negMulLog (f l)) / Real.log 2 := by
      intro f hf
      rw [← Finset.sum_neg_distrib, Finset.sum_div]
      exact Finset.sum_congr rfl (fun l _ => xlog_real hlog (hf l))
    rw [x1 _ (fun l => ratio_nonneg (by exact_mod_cast Nat.zero_le _) c.le), x1 _ (fun l => ratio_nonneg (by exact_mod_cast Nat.zero_le _) hA),
      x1 _ (fun l => ratio_nonneg (by exact_mod_cast Nat.zero_le _) hB)]
    have : ∀ (P Q R a b : ℝ), a * P + b * Q ≤ R → 0 ≤ -R / Real.log 2 * (-1) - ((-1) * (-P / Real.log 2) * a + (-1) * (-Q / Real.log 2) * b) := by
      intro P Q R a b hle
      have e : -R / Real.log 2 * (-1) - ((-1) * (-P / Real.log 2) * a + (-1) * (-Q / Real.log 2) * b) = (R - (a * P + b * Q)) / Real.log 2 := by
        field_simp
      rw [e]
      exact div_nonneg (by linarith) hl2.le
    exact this _ _ _ _ _ hsum
  · have hz : A + B = 0 := by linarith
    have hA0 : A = 0 := by linarith
    have hB0 : B = 0 := by linarith
    simp [hA0, hB0, ratio, xlog]

/-- The entropy after a cut is not negative. -/
theorem cutEntropy_nonneg {p : Params ℝ} (hlog : p.log2 = Real.logb 2) (h0 h1 : Fin L → Nat) :
    0 ≤ cutEntropy p (fun l => (h0 l : Int)) (fun l => (h1 l : Int)) := by
  have hl2 : 0 < Real.log 2 := Real.log_pos (by norm_num)
  have part : ∀ (g : Fin L → Nat), ∑ l, xlog p (ratio (((g l : Nat) : Int) : ℝ) (∑ l, (((g l : Nat) : Int) : ℝ))) ≤ 0 := by
    intro g
    apply Finset.sum_nonpos
    intro l _
    have hG : 0 ≤ ∑ l, (((g l : Nat) : Int) : ℝ) := Finset.sum_nonneg (fun l _ => by exact_mod_cast Nat.zero_le _)
    have hle := Finset.single_le_sum (f := fun l => (((g l : Nat) : Int) : ℝ)) (fun i _ => by exact_mod_cast Nat.zero_le _) (Finset.mem_univ l)
    have hr := ratio_nonneg (a := (((g l : Nat) : Int) : ℝ)) (by exact_mod_cast Nat.zero_le _) hG
    rw [xlog_real hlog hr, neg_div, neg_nonpos]
    exact div_nonneg (Real.negMulLog_nonneg hr (ratio_le_one hle hG)) hl2.le
  have hA : 0 ≤ ∑ l, (((h0 l : Nat) : Int) : ℝ) := Finset.sum_nonneg (fun l _ => by exact_mod_cast Nat.zero_le _)
  have hB : 0 ≤ ∑ l, (((h1 l : Nat) : Int) : ℝ) := Finset.sum_nonneg (fun l _ => by exact_mod_cast Nat.zero_le _)
  have p0 := part h0
  have p1 := part h1
  have r0 := ratio_nonneg hA (add_nonneg hA hB)
  have r1 := ratio_nonneg hB (add_nonneg hA hB)
  simp only [cutEntropy]
  have := mul_nonneg (neg_nonneg.mpr p0) r0
  have := mul_nonneg (neg_nonneg.mpr p1) r1
  linarith

theorem tally_take_drop (g : List (Fin L → Nat)) (n : Nat) (l : Fin L) : tally g l = tally (g.take n) l + tally (g.drop n) l := by
  rw [← tally_append, List.take_append_drop]

/-- All information gains computed from consistent counters are between 0 and the entropy of the leaf. -/
theorem Good.gains {p : Params ℝ} (hlog : p.log2 = Real.logb 2) (hp : p.Ok) {h : Fin L → Nat} {b : Block ℝ L} (hb : Good p h b) :
    ∃ g, gains p b.count b.bins = .ok g ∧ g.length = p.limitCount ∧ ∀ y ∈ g, 0 ≤ y ∧ y ≤ leafEntropy p b.count (fun l => (h l : Int)) := by
  obtain ⟨gs, lgs, e1, _, e3, _, e5⟩ := hb.parts
  have hne : gs ≠ [] := by rintro rfl; exact hp.ne e3.symm
  refine ⟨_, by rw [e1]; exact gains_eq p b.count gs h e3 hne e5, ?_, ?_⟩
  · have h1 := length_flatMap_gains p b.count h gs (by
      intro g hg
      apply hp.pos
      rw [← e3]
      exact List.mem_map_of_mem hg)
    have h2 : gs.length = p.sizes.length := by rw [← e3]; simp
    have := hp.limits
    rw [e3] at h1
    omega
  · intro y hy
    obtain ⟨g, hg, hy⟩ := List.mem_flatMap.mp hy
    obtain ⟨v, _, rfl⟩ := List.mem_map.mp hy
    rw [hb.count]
    have hh : ∀ l, h l = tally (g.take (v + 1)) l + tally (g.drop (v + 1)) l := by
      intro l; rw [← e5 g hg]; exact tally_take_drop g (v + 1) l
    refine ⟨gain_nonneg hlog h _ _ hh, ?_⟩
    have := cutEntropy_nonneg hlog (tally (g.take (v + 1))) (tally (g.drop (v + 1)))
    simp only [gainAt, cutAt]
    linarith

end Orp.Hoeffding
