import Verif.Coarse.LeavesProps
import Verif.Mondrian.LearnProps

/-!
Property C150 for the coarse forest with `EXTEND_ORIGINAL` and `PHOENIX_MANAGEMENT`: it learns classes that are apart.
-/

set_option linter.unusedSectionVars false

namespace Orp.Coarse

open MeasureTheory Orp.Reservoir
open Mondrian (Box Params Point ApartFrom draws nums draws_pos nums_range crowded_le pure_ways predict_pure exR pt2)

variable {F L : Nat}

/-- **C150, the coarse forest.** Discount factor 0, training points in the box `b`, among them `k` times `q` with the label `lab`, the points of other labels at least `d` away
from `q` in some feature, `2 ^ H < k * (1 - base_measure)` and memory for `2 * H + 2` nodes (two more with trimming): except with the given probability, which does not depend
on the number of the calls, the coarse forest predicts the label `lab` at `q`. -/
theorem C150_coarse (c : Config ℝ) (hx : c.extend = .original) (hm : c.management = .phoenix) (p : Params ℝ) (hlife : 0 ≤ p.lifetime) (hlog : p.log = Real.log)
    (h0 : p.exp 0 = 1) (hdisc : p.discount = 0) (hbase : 0 ≤ p.base) (hbase1 : p.base ≤ 1) (maxSize sizeNode sizeBase : Nat) (junk : List Int) (last : Nat) (hn : 0 < junk.length)
    (s0 : State ℝ F L) (hs0 : new c maxSize sizeNode sizeBase junk last = .ok s0) (ops : List (Op ℝ F L)) (hP : ∀ op ∈ ops, PlainUse c op)
    (b : Box ℝ F) (hb : ∀ z ∈ taught ops, ∀ d, b.lower d ≤ z.1 d ∧ z.1 d ≤ b.upper d)
    (q : Fin F → ℝ) (lab : Fin L) (k : Nat) (hk : 0 < k) (hsub : (List.replicate k (q, lab)).Sublist (taught ops)) (d : ℝ) (hd : 0 ≤ d) (ha : ApartFrom (taught ops) q lab d)
    (H : Nat) (hH : 2 ^ H < k * (1 - p.base)) (hroom : 2 * H + 2 + (if c.trim = .none then 0 else 2) ≤ s0.forest.nodes.length) :
    draws {ω | ¬ ∃ s pos, run c p (nums ω) ops s0 0 = .ok (s, pos) ∧ (predict c p s q none).map (fun r => r.2) = .ok lab.1} ≤
      ENNReal.ofReal (junk.length * (2 * F) * Real.exp (-(p.lifetime * d))) +
        junk.length * ENNReal.ofReal (2 * ∏ d, (1 + p.lifetime * (b.upper d - b.lower d)) - 1) / (2 * H + 3) := by
  have hq : (q, lab) ∈ taught ops := hsub.subset (List.mem_replicate.2 ⟨hk.ne', rfl⟩)
  have hne : taught ops ≠ [] := List.ne_nil_of_mem hq
  have ht := Mondrian.C148_tail p hlife hlog h0 hdisc.ge junk.length hn (ops.filterMap plainCall) hne b hb (2 * H + 2)
  have e : (((2 * H + 2 : Nat) : ENNReal) + 1) = 2 * H + 3 := by push_cast; ring
  rw [e] at ht
  refine le_trans (le_trans (measure_mono_ae (draws_pos.mono fun ω hω => ?_)) (measure_union_le _ _)) (add_le_add (crowded_le hlife hlog hq hd le_rfl) ht)
  intro hbad
  by_contra hnot
  have hnot1 := fun h => hnot (Or.inl h)
  have hnot2 := fun h => hnot (Or.inr h)
  obtain ⟨s, pos, trees, a1, a2, a3, -, a4, a5⟩ := pure_ways hlife h0 hdisc.ge hn hq hd ha le_rfl hω hnot1
  have hh : s.heap.length ≤ 2 * H + 2 := by
    by_contra hlt
    exact hnot2 ⟨s, pos, a1, not_le.1 hlt⟩
  obtain ⟨r1, -⟩ := predict_pure hlife h0 hdisc hbase hbase1 hn hk hsub hH a1 a2 a3 a4 a5 hh le_rfl
  obtain ⟨s', h1, -, h3⟩ := C113_coarse_follows c hx hm p hlife (nums ω) (nums_range ω) maxSize sizeNode sizeBase junk last s0 hs0 ops hP 0 s
    pos a1 (by omega) (fun ht => by rw [if_neg ht] at hroom; omega)
  exact hbad ⟨s', pos, h1, by rw [h3 q, r1]⟩

/-! ### Example -/

theorem taught_copies (k : Nat) : taught (.train (pt2 1 1) 0 :: List.replicate k (.train (pt2 0 0) 1) : List (Op ℝ 2 2)) = (pt2 1 1, 0) :: List.replicate k (pt2 0 0, 1) := by
  have : ∀ k, Mondrian.points ((List.replicate k (.train (pt2 0 0) 1) : List (Op ℝ 2 2)).filterMap plainCall) = List.replicate k (pt2 0 0, 1) := by
    intro k
    induction k with
    | zero => rfl
    | succ k ih => simp only [List.replicate_succ, List.filterMap_cons, plainCall, Mondrian.points, ih]
  simp only [taught, List.filterMap_cons, plainCall, Mondrian.points, this]

/-- two trees of lifetime 2 with discount factor 0: the label of a point at distance 1 from the point of the other label -/
example : ∃ s0 : State ℝ 2 2, new cfgR 700 10 5 [0, 0] 0 = .ok s0 ∧ ∀ k : Nat, 2 ^ 34 ≤ k →
    draws {ω | ¬ ∃ s pos, run cfgR { exR with discount := 0, base := 1 / 2 } (nums ω) (.train (pt2 1 1) 0 :: List.replicate k (.train (pt2 0 0) 1)) s0 0 = .ok (s, pos) ∧
      (predict cfgR { exR with discount := 0, base := 1 / 2 } s (pt2 0 0) none).map (fun r => r.2) = .ok 1} ≤ ENNReal.ofReal (8 * Real.exp (-2)) + 34 / 67 := by
  refine ⟨_, rfl, fun k hk => ?_⟩
  refine (C150_coarse cfgR rfl rfl { exR with discount := 0, base := 1 / 2 } (by norm_num [exR]) rfl Real.exp_zero rfl (by norm_num) (by norm_num) 700 10 5 [0, 0] 0 (by norm_num) _ rfl _ ?_
    ⟨fun _ => 0, fun _ => 1⟩ ?_ (pt2 0 0) 1 k (by omega) (by rw [taught_copies]; exact List.sublist_cons_self _ _) 1 zero_le_one ?_ 32 ?_ ?_).trans (add_le_add ?_ ?_)
  · intro op ho
    rcases List.mem_cons.1 ho with rfl | ho
    · simp [PlainUse]
    · rw [List.eq_of_mem_replicate ho]; simp [PlainUse]
  · intro z hz d
    rw [taught_copies] at hz
    rcases List.mem_cons.1 hz with rfl | hz
    · fin_cases d <;> norm_num [pt2]
    · rw [List.eq_of_mem_replicate hz]; fin_cases d <;> norm_num [pt2]
  · intro z hz hne
    rw [taught_copies] at hz
    rcases List.mem_cons.1 hz with rfl | hz
    · exact ⟨0, by norm_num [pt2]⟩
    · rw [List.eq_of_mem_replicate hz] at hne; exact absurd rfl hne
  · have : ((2 ^ 34 : Nat) : ℝ) ≤ k := by exact_mod_cast hk
    have h2 : (17179869184 : ℝ) ≤ k := le_trans (by norm_num) this
    norm_num
    linarith
  · simp [cfgR]
  · refine ENNReal.ofReal_le_ofReal (le_of_eq ?_)
    norm_num [exR]
  · norm_num [exR]

end Orp.Coarse
