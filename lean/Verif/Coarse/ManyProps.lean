import Verif.Coarse.LawProps
import Verif.Mondrian.ManyProps

/-!
Property C158 for the coarse forest: with many trees it gives the label with the largest expected vote.
-/

set_option linter.unusedSectionVars false

namespace Orp.Coarse

open MeasureTheory Orp.Reservoir
open Mondrian (Params draws nums expectedVote maxVote answers_many exM pt2)

variable {F L : Nat}

/-- **C158** for the coarse forest with `EXTEND_ORIGINAL` and `PHOENIX_MANAGEMENT`, as long as there is memory -/
theorem C158_coarse (c : Config ℝ) (hx : c.extend = .original) (hm : c.management = .phoenix) (p : Params ℝ) (hlife : 0 ≤ p.lifetime) (hlog : p.log = Real.log)
    (hexp : p.exp = Real.exp) (hdisc : 0 ≤ p.discount) (maxSize sizeNode sizeBase : Nat) (junk : List Int) (last : Nat) (hn : 0 < junk.length) (s0 : State ℝ F L)
    (hs0 : new c maxSize sizeNode sizeBase junk last = .ok s0) (ops : List (Op ℝ F L)) (hP : ∀ op ∈ ops, PlainUse c op)
    (hroom : junk.length * (2 * (taught ops).length - 1) + (if c.trim = .none then 0 else 2) ≤ s0.forest.nodes.length) (hz : taught ops ≠ []) (x : Fin F → ℝ) (lab : Fin L) (gap : ℝ)
    (hgap : 0 < gap) (h : ∀ l, l ≠ lab → expectedVote p (taught ops) x l + gap ≤ expectedVote p (taught ops) x lab) :
    1 - L * Real.exp (-(junk.length * gap ^ 2 / (8 * maxVote p (taught ops).length ^ 2))) ≤
      draws.real {ω | ∃ s pos, run c p (nums ω) ops s0 0 = .ok (s, pos) ∧ (predict c p s x none).map (fun r => r.2) = .ok lab.val} := by
  have hem : Measurable p.exp := by rw [hexp]; exact Real.measurable_exp
  have h1 := C147_predictions c hx hm p hlife hlog (by rw [hexp, Real.exp_zero]) hdisc maxSize sizeNode sizeBase junk last hn s0 hs0 ops hP hroom hem hz [(x, lab.val)]
  have h2 := answers_many hlife hlog hexp hdisc hz hn x lab hgap h
  simp only [List.mem_singleton, forall_eq] at h1
  rw [measureReal_def, h1]
  exact h2

/-- the four points of the example for `MondrianForest`, with other calls in between -/
def manyCalls : List (Op ℝ 2 2) := [.train (pt2 0 0) 0, .train (pt2 0 0) 0, .other 3, .predict (pt2 1 1) none, .train (pt2 5 5) 1, .train (pt2 5 5) 1]

/-- two trees -/
example : ∃ s0 : State ℝ 2 2, new cfgR 180 10 5 [0, 0] 0 = .ok s0 ∧
    1 - (2 : Nat) * Real.exp (-(([0, 0] : List Int).length * ((1 - Real.exp (-20)) / 4) ^ 2 / (8 * maxVote exM (taught manyCalls).length ^ 2))) ≤
      draws.real {ω | ∃ s pos, run cfgR exM (nums ω) manyCalls s0 0 = .ok (s, pos) ∧ (predict cfgR exM s (pt2 0 0) none).map (fun r => r.2) = .ok (0 : Fin 2).val} := by
  obtain ⟨s0, h0, hlen⟩ : ∃ s0 : State ℝ 2 2, new cfgR 180 10 5 [0, 0] 0 = .ok s0 ∧ 16 ≤ s0.forest.nodes.length := ⟨_, rfl, by decide⟩
  have e : taught manyCalls = Mondrian.fourPts := rfl
  refine ⟨s0, h0, C158_coarse cfgR rfl rfl exM (by norm_num [exM]) rfl rfl le_rfl 180 10 5 [0, 0] 0 (by norm_num) s0 h0 manyCalls (by simp [PlainUse, manyCalls]) ?_ ?_ (pt2 0 0) (0 : Fin 2)
    ((1 - Real.exp (-20)) / 4) ?_ fun l hl => ?_⟩
  · rw [e]
    exact le_trans (by simp [Mondrian.fourPts, cfgR]) hlen
  · rw [e]
    simp [Mondrian.fourPts]
  · have : Real.exp (-20) < 1 := Real.exp_lt_one_iff.2 (by norm_num)
    linarith
  · have e1 : l = 1 := by omega
    subst e1
    rw [e]
    exact Mondrian.four_gap

end Orp.Coarse
