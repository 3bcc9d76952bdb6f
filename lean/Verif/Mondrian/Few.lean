import Verif.Mondrian.Closed
import Verif.Reservoir.Grid

/-!
C167: what a random function with only `R` different values, such as `rand()/(RAND_MAX+1.0)`, does to the choice of a split of the Mondrian trees
(mondrian.hpp:126-163).
-/

set_option linter.unusedSectionVars false

namespace Orp.Mondrian

open MeasureTheory Set
open Orp.Reservoir (U01 grid C162_grid_law)

variable {F : Nat}

/-- the random number 0 chooses the first dimension -/
theorem pickDim_zero {K : Type} [Field K] [LinearOrder K] [IsStrictOrderedRing K] [FloorRing K] (ω : Nat → K) (pos : Nat) (e : Fin (F + 1) → K)
    (he : ∀ i, 0 ≤ e i) (hs : 0 < ∑ i, e i) (h0 : ω pos = 0) : pickDim ω pos e (∑ i, e i) = .ok (0, pos + 1) := by
  have hp : Utils.turnIntoProbability (List.ofFn e) (∑ i, e i) = .ok ((e 0 / ∑ i, e i) :: Utils.cumulate (∑ i, e i) (e 0 / ∑ i, e i) (List.ofFn fun i : Fin F => e i.succ)) := by
    unfold Utils.turnIntoProbability
    rw [if_neg (not_lt.2 hs.le), List.ofFn_succ]
    simp only [if_neg hs.ne']
  have hle : (0 : K) ≤ e 0 / ∑ i, e i := div_nonneg (he 0) hs.le
  simp only [pickDim, hp, bind, Except.bind, Utils.pick, Utils.pickFrom, h0, if_pos hle, pure, Except.pure]
  rw [dif_pos (Nat.succ_pos F)]
  rfl

/-- **C167** (violation) A point that is outside the box of a node, but not in its first feature, makes a split of this node read uninitialised values with
probability `1/R`: whenever the number that chooses the feature is 0. `t` is the number that chooses the time of the split, `v` the one that chooses its place. -/
theorem C167_mondrian_split {R : Nat} (hR : 1 ≤ R) (p : Params ℝ) (b : Box ℝ (F + 1)) (x : Fin (F + 1) → ℝ) (ptau tau t v : ℝ)
    (hin : b.lower 0 ≤ x 0 ∧ x 0 ≤ b.upper 0) (hout : ∃ i, x i < b.lower i ∨ b.upper i < x i)
    (ht : 0 < t ∧ t < 1) (hv : 0 < v ∧ v < 1)
    (hacc : 0 ≤ p.log (1 - t) / (-∑ i, extent b x i) ∧ ptau + p.log (1 - t) / (-∑ i, extent b x i) < tau) :
    volume {u : U01 | draw p (fun i => if i = 0 then t else if i = 1 then (grid R u).1 else v) 0 b x ptau tau = .error .ub} = ENNReal.ofReal (1 / R) := by
  have hs : ∑ i, extent b x i ≠ 0 := by
    rw [Ne, sum_eq_zero_iff]
    obtain ⟨i, hi⟩ := hout
    intro h
    rcases hi with hi | hi
    · exact absurd (h i).1 (not_le.2 hi)
    · exact absurd (h i).2 (not_le.2 hi)
  have hs' : 0 < ∑ i, extent b x i := lt_of_le_of_ne (sum_nonneg' b x) (Ne.symm hs)
  rw [← C162_grid_law (j := 0) hR (by omega)]
  congr 1
  ext u
  simp only [mem_ofPred_eq, Nat.cast_zero, zero_div]
  constructor
  · intro h
    by_contra hne
    obtain ⟨r, hr⟩ := draw_ok p (fun i => if i = 0 then t else if i = 1 then (grid R u).1 else v) 0 b x ptau tau (fun i => by
      by_cases h0 : i = 0
      · simpa [h0] using ht
      · by_cases h1 : i = 1
        · simp only [h1, one_ne_zero, if_false, if_true]
          exact ⟨lt_of_le_of_ne (grid R u).2.1 (Ne.symm hne), (grid R u).2.2⟩
        · simpa [h0, h1] using hv)
    rw [hr] at h
    cases h
  · intro h0
    have hpick := pickDim_zero (fun i => if i = 0 then t else if i = 1 then (grid R u).1 else v) 1 (extent b x) (extent_nonneg b x) hs' (by simpa using h0)
    unfold draw
    simp only [if_neg hs, if_true, if_pos hacc, Nat.zero_add, hpick, bind, Except.bind, cutAt, if_neg (not_lt.2 hin.1), if_neg (not_lt.2 hin.2)]

/-- the hypotheses are met: the box of the point (0,0), the point (0,1), a lifetime of 2 -/
example : ∃ (p : Params ℝ) (b : Box ℝ 2) (x : Fin 2 → ℝ), (b.lower 0 ≤ x 0 ∧ x 0 ≤ b.upper 0) ∧ (∃ i, x i < b.lower i ∨ b.upper i < x i) ∧
    (0 ≤ p.log (1 - 1 / 2) / (-∑ i, extent b x i) ∧ 0 + p.log (1 - 1 / 2) / (-∑ i, extent b x i) < 2) := by
  refine ⟨⟨2, 0, 0, id, fun z => z - 1⟩, Box.point ![0, 0], ![0, 1], by simp [Box.point], ⟨1, by simp [Box.point]⟩, ?_⟩
  have : ∑ i, extent (Box.point ![0, 0]) ![(0 : ℝ), 1] i = 1 := by simp [Fin.sum_univ_two, extent, Box.point]
  rw [this]
  norm_num

/-- the random numbers `t`, `u`, `v`, `v`, … -/
def threeω (t u v : ℝ) (i : Nat) : ℝ := if i = 0 then t else if i = 1 then u else v

theorem draw_two_points {R : Nat} (hR : 1 ≤ R) (p : Params ℝ) (x y : Fin (F + 1) → ℝ) (hxy : x 0 = y 0) (hne : x ≠ y) (t v : ℝ)
    (ht : 0 < t ∧ t < 1) (hv : 0 < v ∧ v < 1)
    (hacc : 0 ≤ p.log (1 - t) / (-∑ i, |x i - y i|) ∧ p.log (1 - t) / (-∑ i, |x i - y i|) < p.lifetime) :
    volume {u : U01 | draw p (threeω t (grid R u).1 v) 0 (Box.point x) y 0 p.lifetime = .error .ub} = ENNReal.ofReal (1 / R) := by
  have hext : ∀ i, extent (Box.point x) y i = |x i - y i| := by
    intro i
    unfold extent Box.point
    rcases lt_trichotomy (x i) (y i) with h | h | h
    · rw [if_neg (by simp only; linarith), if_pos (by simp only; linarith), abs_of_neg (by linarith)]; simp only; ring
    · rw [if_neg (by simp only; linarith), if_neg (by simp only; linarith), h]; simp
    · rw [if_pos (by simp only; linarith), if_neg (by simp only; linarith), abs_of_pos (by linarith)]; simp only; ring
  have hsplit := C167_mondrian_split hR p (Box.point x) y 0 p.lifetime t v ⟨hxy.le, hxy.ge⟩ (by
    obtain ⟨i, hi⟩ := Function.ne_iff.1 hne
    rcases lt_or_gt_of_ne hi with h | h
    · exact ⟨i, Or.inr h⟩
    · exact ⟨i, Or.inl h⟩) ht hv (by simp only [hext, zero_add]; exact hacc)
  exact hsplit

/-- **C167** (violation) Two points with the same first feature are enough: a forest of one tree, whatever the size of its memory, has undefined behaviour with
probability `1/R` when it is trained with the second one, if the time that is drawn is before the end of the lifetime. -/
theorem C167_mondrian_two_points {L : Nat} {R : Nat} (hR : 1 ≤ R) (p : Params ℝ) (hlife : 0 ≤ p.lifetime) (m : Nat) (hm : 1 ≤ m)
    (x y : Fin (F + 1) → ℝ) (a b : Fin L) (hxy : x 0 = y 0) (hne : x ≠ y) (t v : ℝ) (ht : 0 < t ∧ t < 1) (hv : 0 < v ∧ v < 1)
    (hacc : 0 ≤ p.log (1 - t) / (-∑ i, |x i - y i|) ∧ p.log (1 - t) / (-∑ i, |x i - y i|) < p.lifetime) :
    volume {u : U01 | run p (threeω t (grid R u).1 v) [.train x a, .train y b] (new m 1) 0 = .error .ub} = ENNReal.ofReal (1 / R) := by
  rw [← draw_two_points hR p x y hxy hne t v ht hv hacc]
  congr 1
  ext u
  simp only [mem_ofPred_eq]
  generalize threeω t (grid R u).1 v = ω
  -- the first point
  have h1 := trainTreeWith_none p hlife (draw p ω) x a (new (F := F + 1) (L := L) m 1) [none] [] (inv_new m 1) 0 0 rfl
  rw [avail_new] at h1
  obtain ⟨k, rfl⟩ : ∃ k, m = k + 1 := ⟨m - 1, by omega⟩
  rw [List.range_succ_eq_map] at h1
  obtain ⟨s1, e1, e2, -, -⟩ := h1
  have hr1 : s1.roots.length = 1 := by rw [e2.all.roots]; rfl
  have hf : Fair (draw p ω) (fun _ => True) (fun _ => True) p.lifetime y := draw_fair_any p ω y
  -- the second one
  have h2 := trainTreeWith_some p hlife (draw p ω) y b hf s1 _ [] e2 0 0 (newLeaf p.lifetime 0 x a) rfl ⟨trivial, trivial⟩
  have hrun : run p ω [.train x a, .train y b] (new (k + 1) 1) 0 = (trainTreeWith p (draw p ω) y b 0 s1 0).map (fun r => (r.1, r.2.1)) := by
    have hn : (new (K := ℝ) (F := F + 1) (L := L) (k + 1) 1).roots.length = 1 := by simp [new]
    rw [trainTreeWith_draw] at e1 ⊢
    simp only [run, exec, train, hn, trainLoop, e1, bind, Except.bind, pure, Except.pure, hr1]
    cases trainTree p ω y b 0 s1 0 <;> rfl
  rw [hrun]
  simp only [newLeaf, growWith] at h2
  cases hd : draw p ω 0 (Box.point x) y 0 p.lifetime with
  | error e =>
      simp only [hd] at h2
      rw [h2]
      simp [Except.map]
  | ok q =>
      obtain ⟨c, pos1⟩ := q
      simp only [hd] at h2
      have hok : ∃ r, trainTreeWith p (draw p ω) y b 0 s1 0 = .ok r := by
        split at h2
        · rename_i heq
          split at heq <;> cases heq
        · obtain ⟨s', lost', h, -⟩ := h2
          exact ⟨_, h⟩
      obtain ⟨r, hr⟩ := hok
      rw [hr]
      simp [Except.map]

/-- the hypotheses are met by the points (0,0) and (0,1) -/
example : ∃ (p : Params ℝ) (x y : Fin 2 → ℝ), 0 ≤ p.lifetime ∧ x 0 = y 0 ∧ x ≠ y ∧
    0 ≤ p.log (1 - 1 / 2) / (-∑ i, |x i - y i|) ∧ p.log (1 - 1 / 2) / (-∑ i, |x i - y i|) < p.lifetime := by
  refine ⟨⟨2, 0, 0, id, fun z => z - 1⟩, ![0, 0], ![0, 1], by norm_num, rfl, fun h => ?_, ?_⟩
  · have := congrFun h 1
    simp at this
  · have : ∑ i, |(![0, 0] : Fin 2 → ℝ) i - ![(0 : ℝ), 1] i| = 1 := by simp [Fin.sum_univ_two]
    rw [this]
    norm_num

end Orp.Mondrian
