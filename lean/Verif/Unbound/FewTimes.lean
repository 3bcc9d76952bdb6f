import Verif.Mondrian.FewTimes
import Verif.Unbound.Props

/-!
C169: what a random function with only `R` different values does to the times of the splits of `MondrianForestUnbound` (mondrian_unbound.hpp:233-264).
-/

set_option linter.unusedSectionVars false

namespace Orp.Unbound

open MeasureTheory Set Mondrian
open Orp.Reservoir (U01 grid)

variable {F : Nat}

theorem firstω_le {t : ℝ} (ht : t ≤ 1) {v : Nat → ℝ} (hv : ∀ i, v i ≤ 1) (i : Nat) : (fun i => if i = 0 then t else v i) i ≤ 1 := by
  dsimp only
  split
  · exact ht
  · exact hv i

/-- **C169** As for the bounded forest: the probability that a point outside the box of a node joins the node at once is that of ideal random numbers or up to `1/R`
smaller. -/
theorem C169_unbound_close {R : Nat} (hR : 1 ≤ R) (p : Params ℝ) (hlog : p.log = Real.log) (b : Box ℝ F) (x : Fin F → ℝ) (ptau tau : ℝ) (htau : ptau ≤ tau)
    (v : Nat → ℝ) (hv : ∀ i, v i ≤ 1) (hs : 0 < ∑ i, extent b x i) :
    Real.exp (-((∑ i, extent b x i) * (tau - ptau))) - 1 / R ≤
      (volume {u : U01 | Unbound.draw p (fun i => if i = 0 then (grid R u).1 else v i) 0 b x ptau tau = .ok (none, 1)}).toReal ∧
    (volume {u : U01 | Unbound.draw p (fun i => if i = 0 then (grid R u).1 else v i) 0 b x ptau tau = .ok (none, 1)}).toReal ≤
      Real.exp (-((∑ i, extent b x i) * (tau - ptau))) := by
  have h : ∀ u : U01, Unbound.draw p (fun i => if i = 0 then (grid R u).1 else v i) 0 b x ptau tau =
      Mondrian.draw p (fun i => if i = 0 then (grid R u).1 else v i) 0 b x ptau tau :=
    fun u => draw_eq p _ (firstω_le (grid R u).2.2.le hv) 0 b x ptau tau
  simp only [h]
  exact C169_mondrian_close hR p hlog b x ptau tau htau v hs

/-- **C169** (violation) As for the bounded forest: a point that is far enough outside the box of a node is always given a split; with ideal random numbers it joins the
node with a positive probability. -/
theorem C169_unbound_always {R : Nat} (hR : 1 ≤ R) (p : Params ℝ) (hlog : p.log = Real.log) (b : Box ℝ F) (x : Fin F → ℝ) (ptau tau : ℝ) (v : Nat → ℝ)
    (hv : ∀ i, v i ≤ 1) (hs : 0 < ∑ i, extent b x i) (hfar : Real.log R < (tau - ptau) * ∑ i, extent b x i) :
    (∀ u : U01, Unbound.draw p (fun i => if i = 0 then (grid R u).1 else v i) 0 b x ptau tau ≠ .ok (none, 1)) ∧
    0 < volume {u : U01 | Unbound.draw p (fun i => if i = 0 then u.1 else v i) 0 b x ptau tau = .ok (none, 1)} := by
  have h : ∀ u : U01, Unbound.draw p (fun i => if i = 0 then u.1 else v i) 0 b x ptau tau =
      Mondrian.draw p (fun i => if i = 0 then u.1 else v i) 0 b x ptau tau :=
    fun u => draw_eq p _ (firstω_le u.2.2.le hv) 0 b x ptau tau
  obtain ⟨h1, h2⟩ := C169_mondrian_always hR p hlog b x ptau tau v hs hfar
  refine ⟨fun u => ?_, ?_⟩
  · rw [h (grid R u)]
    exact h1 u
  · simp only [h]
    exact h2

/-- the hypotheses are met: the box of the point 0, the point 1, two random values, a lifetime of 1 -/
example (v : Nat → ℝ) (hv : ∀ i, v i ≤ 1) (p : Params ℝ) (hlog : p.log = Real.log) :
    0 < volume {u : U01 | Unbound.draw p (fun i => if i = 0 then u.1 else v i) 0 (Box.point ![(0 : ℝ)]) ![1] 0 1 = .ok (none, 1)} := by
  have h1 : ∑ i, extent (Box.point ![(0 : ℝ)]) ![1] i = 1 := by simp [extent, Box.point]
  have := Real.log_lt_sub_one_of_pos (x := 2) two_pos (by norm_num)
  refine (C169_unbound_always (R := 2) (by norm_num) p hlog _ _ 0 1 v hv (by rw [h1]; exact one_pos) ?_).2
  rw [h1]
  push_cast
  linarith

end Orp.Unbound
