import Verif.Mondrian.Batch
import Verif.Mondrian.Kernel

/-!
Adding a point to a Mondrian tree of some points gives a Mondrian tree of all the points.
-/

set_option linter.unusedSectionVars false

namespace Orp.Mondrian

open MeasureTheory

variable {F L : Nat} {X Y Z : Type} [MeasurableSpace X] [MeasurableSpace Y] [MeasurableSpace Z]

/-! ### The smallest box -/

theorem hull_append {pts : List (Point ℝ F L)} (h : pts ≠ []) (z : Point ℝ F L) : hull (pts ++ [z]) = (hull pts).extend z.1 := by
  cases pts with
  | nil => exact absurd rfl h
  | cons w ws => simp [hull]

theorem hull_isHull : ∀ {pts : List (Point ℝ F L)}, pts ≠ [] → IsHull pts (hull pts) := by
  intro pts
  induction pts using List.reverseRecOn with
  | nil => exact fun h => absurd rfl h
  | append_singleton ws w ih =>
    intro _
    by_cases h : ws = []
    · subst h
      exact ⟨fun z hz i => by rw [List.mem_singleton.1 hz]; exact ⟨le_rfl, le_rfl⟩, fun i => ⟨⟨w, by simp, rfl⟩, ⟨w, by simp, rfl⟩⟩⟩
    · rw [hull_append h]
      exact (ih h).extend w

theorem size_extend {b : Box ℝ F} (hb : ∀ i, b.lower i ≤ b.upper i) (z : Fin F → ℝ) : (b.extend z).size = b.size + b.dist z := by
  unfold Box.size Box.dist
  rw [← Finset.sum_add_distrib]
  refine Finset.sum_congr rfl fun i _ => ?_
  have := hb i
  simp only [Box.extend, Box.distIn]
  split
  · rw [if_neg (by linarith), max_eq_right (by linarith), max_eq_left (by linarith)]; ring
  · split
    · rw [max_eq_left (by linarith), max_eq_right (by linarith)]; ring
    · rw [max_eq_right (by linarith), max_eq_right (by linarith)]; ring

theorem sides_length (pts : List (Point ℝ F L)) (d : Fin F) (x : ℝ) : (lefts pts d x).length + (rights pts d x).length = pts.length := by
  unfold lefts rights
  induction pts with
  | nil => rfl
  | cons z pts ih =>
    by_cases h : z.1 d ≤ x
    · rw [List.filter_cons_of_pos (by simpa using h), List.filter_cons_of_neg (by simpa using h), List.length_cons, List.length_cons]; omega
    · rw [List.filter_cons_of_neg (by simpa using h), List.filter_cons_of_pos (by simpa using h), List.length_cons, List.length_cons]; omega

theorem sides_ne {pts : List (Point ℝ F L)} (h : pts ≠ []) {d : Fin F} {x : ℝ} (hx : x ∈ Set.Ico ((hull pts).lower d) ((hull pts).upper d)) :
    lefts pts d x ≠ [] ∧ rights pts d x ≠ [] := by
  obtain ⟨⟨a, ha, ea⟩, ⟨b, hb, eb⟩⟩ := (hull_isHull h).2 d
  constructor
  · exact List.ne_nil_of_mem (List.mem_filter.2 ⟨ha, by simpa [ea] using hx.1⟩)
  · exact List.ne_nil_of_mem (List.mem_filter.2 ⟨hb, by simpa [eb] using hx.2⟩)

theorem sides_le {pts : List (Point ℝ F L)} (h : pts ≠ []) {d : Fin F} {x : ℝ} (hx : x ∈ Set.Ico ((hull pts).lower d) ((hull pts).upper d)) {n : Nat}
    (hn : pts.length ≤ n + 1) : (lefts pts d x).length ≤ n ∧ (rights pts d x).length ≤ n := by
  have h1 := sides_length pts d x
  have h2 := List.length_pos_of_ne_nil (sides_ne h hx).1
  have h3 := List.length_pos_of_ne_nil (sides_ne h hx).2
  omega

variable (life : ℝ)

/-- The bound on the depth does not matter. -/
theorem batch_more : ∀ (n : Nat) {pts : List (Point ℝ F L)} (_ : pts ≠ []) (_ : pts.length ≤ n) (r : ℝ) (f : Tree ℝ F L → ENNReal),
    batch life (n + 1) pts r f = batch life n pts r f
  | 0, pts, h, hn, r, f => absurd (List.length_eq_zero_iff.1 (Nat.le_zero.1 hn)) h
  | n + 1, pts, h, hn, r, f => by
      rw [batch_succ, batch_succ]
      congr 1
      refine lintegral_congr fun s => Finset.sum_congr rfl fun d _ => setLIntegral_congr_fun measurableSet_Ico fun x hx => ?_
      have h1 := sides_ne h hx
      have h2 := sides_le h hx hn
      congr 1
      unfold halves
      rw [batch_more n h1.1 h2.1]
      congr 1
      funext tl
      rw [batch_more n h1.2 h2.2]

theorem batch_congr {n : Nat} {pts : List (Point ℝ F L)} {r : ℝ} {f f' : Tree ℝ F L → ENNReal}
    (h : ∀ t, t.data.box = hull pts → t.data.tau ≤ life → f t = f' t) : batch life n pts r f = batch life n pts r f' := by
  cases n with
  | zero => rfl
  | succ n =>
    rw [batch_succ, batch_succ]
    congr 1
    · rw [h (.leaf 0 ⟨life, hull pts, histogram pts⟩) rfl le_rfl]
    · refine setLIntegral_congr_fun measurableSet_Ico fun s hs => Finset.sum_congr rfl fun d _ => lintegral_congr fun x => ?_
      congr 1
      unfold halves
      congr 1
      funext tl
      congr 1
      funext tr
      exact h _ rfl hs.2.le

/-- The time until the first split has no memory. -/
theorem batch_memory (n : Nat) (pts : List (Point ℝ F L)) {r u : ℝ} (hr : r ≤ u) (hu : u < life) (f : Tree ℝ F L → ENNReal) :
    batch life n pts r (fun t => if u < t.data.tau then f t else 0) = ENNReal.ofReal (Real.exp (-((hull pts).size * (u - r)))) * batch life n pts u fun t => if u < t.data.tau then f t else 0 := by
  cases n with
  | zero => simp [batch]
  | succ n =>
    rw [batch_succ, batch_succ, mul_add, ← mul_assoc, ← ENNReal.ofReal_mul (Real.exp_nonneg _), ← Real.exp_add]
    congr 1
    · congr 3; ring
    · rw [← Set.Ico_union_Ico_eq_Ico hr hu.le, lintegral_union measurableSet_Ico (Set.Ico_disjoint_Ico_same ..),
        setLIntegral_congr_fun (g := fun _ => 0) measurableSet_Ico, lintegral_zero, zero_add, ← lintegral_const_mul' _ _ ENNReal.ofReal_ne_top]
      · refine lintegral_congr fun s => ?_
        rw [Finset.mul_sum]
        refine Finset.sum_congr rfl fun d _ => ?_
        rw [← lintegral_const_mul' _ _ ENNReal.ofReal_ne_top]
        refine lintegral_congr fun x => ?_
        rw [← mul_assoc, ← ENNReal.ofReal_mul (Real.exp_nonneg _), ← Real.exp_add]
        congr 3; ring
      · intro s hs
        simp only
        refine Finset.sum_eq_zero fun d _ => ?_
        have : ∀ x, halves life n pts d (fun t => if u < t.data.tau then f t else 0) s x = 0 := by
          intro x
          unfold halves
          have hno : ¬ u < s := not_lt.2 hs.2.le
          simp only [Tree.data, hno, if_false, batch_zero]
        simp [this]

theorem batch_late (n : Nat) (pts : List (Point ℝ F L)) {u : ℝ} (hu : u < life) (f : Tree ℝ F L → ENNReal) :
    (batch life n pts u fun t => if u < t.data.tau then f t else 0) = batch life n pts u f := by
  cases n with
  | zero => rfl
  | succ n =>
    rw [batch_succ, batch_succ]
    congr 1
    · simp [Tree.data, hu]
    · rw [setLIntegral_congr Ioo_ae_eq_Ico.symm, setLIntegral_congr Ioo_ae_eq_Ico.symm]
      refine setLIntegral_congr_fun measurableSet_Ioo fun s hs => ?_
      have hyes : u < s := hs.1
      simp only [halves, Tree.data, hyes, if_true]

theorem batch_single (n : Nat) (z : Point ℝ F L) (r : ℝ) (f : Tree ℝ F L → ENNReal) : batch life (n + 1) [z] r f = f (newLeaf life 0 z.1 z.2) := by
  rw [batch_succ]
  have e : hull [z] = Box.point z.1 := rfl
  have h : histogram [z] = bump (fun _ => 0) z.2 := histogram_append [] z
  simp [e, Box.point, Box.size, newLeaf, h]

end Orp.Mondrian
