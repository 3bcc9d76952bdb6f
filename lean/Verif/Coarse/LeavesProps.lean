import Verif.Coarse.LawProps
import Verif.Mondrian.LeavesProps

/-!
Property C148 for the coarse forest with `EXTEND_ORIGINAL` and `PHOENIX_MANAGEMENT`: the memory it needs does not grow with the stream.
-/

set_option linter.unusedSectionVars false

namespace Orp.Coarse

open MeasureTheory Orp.Reservoir
open Mondrian (Box Params Point HoldsAll SameTrees draws nums draws_pos nums_range exR pt2)

variable {F L : Nat}

/-- **C148, the coarse forest.** Except with a small probability that does not depend on the number of calls, the coarse forest has the trees and gives the answers of the
unlimited forest; with trimming two nodes have to stay free. -/
theorem C148_coarse (c : Config ℝ) (hx : c.extend = .original) (hm : c.management = .phoenix) (p : Params ℝ) (hlife : 0 ≤ p.lifetime) (hlog : p.log = Real.log)
    (h0 : p.exp 0 = 1) (hdisc : 0 ≤ p.discount) (maxSize sizeNode sizeBase : Nat) (junk : List Int) (last : Nat) (hn : 0 < junk.length) (s0 : State ℝ F L)
    (hs0 : new c maxSize sizeNode sizeBase junk last = .ok s0) (ops : List (Op ℝ F L)) (hP : ∀ op ∈ ops, PlainUse c op) (hz : taught ops ≠ [])
    (b : Box ℝ F) (hb : ∀ z ∈ taught ops, ∀ d, b.lower d ≤ z.1 d ∧ z.1 d ≤ b.upper d) (m : Nat) (hroom : m + (if c.trim = .none then 0 else 2) ≤ s0.forest.nodes.length) :
    draws {ω | ¬ ∃ s s' pos trees trees', Unbound.run p (nums ω) (ops.filterMap plainCall) (Unbound.new junk.length) 0 = .ok (s, pos) ∧ run c p (nums ω) ops s0 0 = .ok (s', pos) ∧
      HoldsAll ⟨s.heap, s.roots⟩ trees ∧ HoldsAll s'.forest trees' ∧ SameTrees trees trees' ∧ ∀ x, (predict c p s' x none).map (fun r => r.2) = Unbound.predict p s x} ≤
      junk.length * ENNReal.ofReal (2 * ∏ d, (1 + p.lifetime * (b.upper d - b.lower d)) - 1) / (m + 1) := by
  refine le_trans (measure_mono_ae (draws_pos.mono fun ω hω => ?_)) (Mondrian.C148_tail p hlife hlog h0 hdisc junk.length hn (ops.filterMap plainCall) hz b hb m)
  intro hnot
  obtain ⟨⟨s, pos⟩, hr⟩ := Unbound.run_ok p h0 hdisc (nums ω) (fun i => ⟨hω i, (nums_range ω i).2⟩) junk.length hn (ops.filterMap plainCall) 0
  refine ⟨s, pos, hr, ?_⟩
  by_contra hle
  obtain ⟨s', h1, ⟨trees, trees', h2, h3, h4⟩, h5⟩ := C113_coarse_follows c hx hm p hlife (nums ω) (nums_range ω) maxSize sizeNode sizeBase junk last s0 hs0 ops hP 0 s
    pos hr (by omega) (fun ht => by rw [if_neg ht] at hroom; omega)
  exact hnot ⟨s, s', pos, trees, trees', hr, h1, h2, h3, h4, h5⟩

/-! ### Example -/

/-- two trees of lifetime 2 in the unit square: with 67 nodes the coarse forest is the unlimited one with probability at least one half after any number of calls -/
example : ∃ s0 : State ℝ 2 2, new cfgR 700 10 5 [0, 0] 0 = .ok s0 ∧ ∀ k : Nat,
    draws {ω | ¬ ∃ s s' pos trees trees', Unbound.run exR (nums ω) ((.train (pt2 1 1) 0 :: List.replicate k (.train (pt2 0 0) 1) : List (Op ℝ 2 2)).filterMap plainCall) (Unbound.new 2) 0 = .ok (s, pos) ∧
      run cfgR exR (nums ω) (.train (pt2 1 1) 0 :: List.replicate k (.train (pt2 0 0) 1)) s0 0 = .ok (s', pos) ∧
      HoldsAll ⟨s.heap, s.roots⟩ trees ∧ HoldsAll s'.forest trees' ∧ SameTrees trees trees' ∧ ∀ x, (predict cfgR exR s' x none).map (fun r => r.2) = Unbound.predict exR s x} ≤ 1 / 2 := by
  refine ⟨_, rfl, fun k => ?_⟩
  have ht : taught (.train (pt2 1 1) 0 :: List.replicate k (.train (pt2 0 0) 1) : List (Op ℝ 2 2)) = (pt2 1 1, 0) :: List.replicate k (pt2 0 0, 1) := by
    have : ∀ k, Mondrian.points ((List.replicate k (.train (pt2 0 0) 1) : List (Op ℝ 2 2)).filterMap plainCall) = List.replicate k (pt2 0 0, 1) := by
      intro k
      induction k with
      | zero => rfl
      | succ k ih => simp only [List.replicate_succ, List.filterMap_cons, plainCall, Mondrian.points, ih]
    simp only [taught, List.filterMap_cons, plainCall, Mondrian.points, this]
  refine (C148_coarse cfgR rfl rfl exR (by norm_num [exR]) rfl Real.exp_zero (by norm_num [exR]) 700 10 5 [0, 0] 0 (by norm_num) _ rfl _ ?_ (by rw [ht]; simp)
    ⟨fun _ => 0, fun _ => 1⟩ ?_ 67 ?_).trans ?_
  · intro op ho
    rcases List.mem_cons.1 ho with rfl | ho
    · simp [PlainUse]
    · rw [List.eq_of_mem_replicate ho]; simp [PlainUse]
  · intro z hz d
    rw [ht] at hz
    rcases List.mem_cons.1 hz with rfl | hz
    · fin_cases d <;> norm_num [pt2]
    · rw [List.eq_of_mem_replicate hz]; fin_cases d <;> norm_num [pt2]
  · simp [cfgR]
  · norm_num [exR]
    rw [show (68 : ENNReal) = 34 * 2 by norm_num, div_eq_mul_inv, ENNReal.mul_inv (Or.inl (by norm_num)) (Or.inl (by norm_num)), ← mul_assoc,
      ENNReal.mul_inv_cancel (by norm_num) (by norm_num), one_mul, ENNReal.inv_mul_cancel (by norm_num) (by norm_num)]

end Orp.Coarse
