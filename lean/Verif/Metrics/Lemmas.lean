import Verif.Metrics.Spec
import Mathlib.Algebra.BigOperators.Group.Finset.Piecewise
import Mathlib.Algebra.BigOperators.Ring.Finset
import Mathlib.Algebra.Order.BigOperators.Group.Finset
import Mathlib.Data.List.Induction
import Mathlib.Tactic.Linarith
import Mathlib.Tactic.Positivity
import Mathlib.Tactic.FieldSimp
import Mathlib.Tactic.Ring

namespace Orp.Metrics

open Spec

theorem quot_ok {a b : ℚ} (h : b ≠ 0) : quot a b = some (a / b) := by simp [quot, h]

theorem foldl_range (n : Nat) (f : Nat → ℚ) :
    (List.range n).foldl (fun acc i => acc + f i) 0 = ∑ i ∈ Finset.range n, f i := by
  induction n with
  | zero => simp
  | succ n ih => rw [List.range_succ, List.foldl_append, ih, Finset.sum_range_succ]; rfl

/-! ### ErrorMetrics -/

theorem sinceReset_append_reset (ops : List Op) : sinceReset (ops ++ [.reset]) = [] := by
  simp [sinceReset]

theorem sinceReset_append_update (ops : List Op) (t p : Int) :
    sinceReset (ops ++ [.update t p]) = sinceReset ops ++ [.update t p] := by
  simp [sinceReset]

theorem sinceReset_append_inc (ops : List Op) (c : Nat) :
    sinceReset (ops ++ [.increaseError c]) = sinceReset ops ++ [.increaseError c] := by
  simp [sinceReset]

theorem err_run (ops : List Op) :
    (ops.foldl ErrState.apply {}).count = allItems (sinceReset ops) ∧
    (ops.foldl ErrState.apply {}).errorCount = allErrors (sinceReset ops) := by
  induction ops using List.reverseRecOn with
  | nil => simp [sinceReset, allItems, allErrors]
  | append_singleton ops o ih =>
      rw [List.foldl_append]
      obtain ⟨h1, h2⟩ := ih
      cases o with
      | update t p =>
          rw [sinceReset_append_update]
          simp only [List.foldl_cons, List.foldl_nil, ErrState.apply, ErrState.update, h1, h2, allItems,
            allErrors, List.map_append, List.sum_append, List.map_cons, List.map_nil, List.sum_cons,
            List.sum_nil, items, errors]
          by_cases h : t = p <;> simp [h]
      | increaseError c =>
          rw [sinceReset_append_inc]
          simp [ErrState.apply, ErrState.increaseError, h1, h2, allItems, allErrors, items, errors]
      | reset =>
          rw [sinceReset_append_reset]
          simp [ErrState.apply, ErrState.reset, allItems, allErrors]

theorem errors_le_items (o : Op) : errors o ≤ items o := by
  cases o with
  | update t p => simp only [errors, items]; split <;> omega
  | increaseError c => exact le_rfl
  | reset => exact le_rfl

theorem allErrors_le (ops : List Op) : allErrors ops ≤ allItems ops := by
  unfold allErrors allItems
  induction ops with
  | nil => simp
  | cons o os ih => simp; have := errors_le_items o; omega

/-! ### Kappa: the state in terms of the recorded pairs -/

/-- the state holds exactly the recorded pairs -/
structure Counts (n : Nat) (s : KappaState) (l : List (Nat × Nat)) : Prop where
  conf : ∀ i j, i < n → j < n → s.confusion i j = (l.count (i, j) : Int)
  tot : s.total = l.length
  lt : ∀ x ∈ l, x.1 < n ∧ x.2 < n

theorem counts_init (n : Nat) : Counts n KappaState.init [] :=
  ⟨fun _ _ _ _ => rfl, rfl, by simp⟩

theorem counts_bump {n : Nat} {s : KappaState} {l : List (Nat × Nat)} (h : Counts n s l) (i j c : Nat)
    (hi : i < n) (hj : j < n) :
    ∃ s', s.bump n i j c = .ok s' ∧ Counts n s' (l ++ List.replicate c (i, j)) := by
  refine ⟨_, by rw [KappaState.bump, if_pos ⟨by omega, by omega, by omega, by omega⟩], ?_, ?_, ?_⟩
  · intro a b ha hb
    simp only [Int.toNat_natCast, List.count_append, List.count_replicate, h.conf a b ha hb]
    by_cases hab : a = i ∧ b = j
    · obtain ⟨rfl, rfl⟩ := hab; simp
    · have : ¬ ((i, j) = (a, b)) := by
        intro h; apply hab
        simp only [Prod.mk.injEq] at h; exact ⟨h.1.symm, h.2.symm⟩
      simp only [hab, if_false]
      simp [this]
  · simp [h.tot]
  · intro x hx
    rcases List.mem_append.1 hx with h1 | h1
    · exact h.lt x h1
    · have := List.eq_of_mem_replicate h1
      subst this
      exact ⟨hi, hj⟩

/-! ### Sums over the confusion matrix -/

theorem sum_count_row (n i : Nat) (l : List (Nat × Nat)) (h : ∀ x ∈ l, x.1 < n ∧ x.2 < n) :
    ∑ j ∈ Finset.range n, ((l.count (i, j) : Nat) : ℚ) = ((l.filter (fun x => x.1 = i)).length : ℚ) := by
  induction l with
  | nil => simp
  | cons x l ih =>
      obtain ⟨a, b⟩ := x
      have hx := h (a, b) (by simp)
      simp only [List.count_cons, Nat.cast_add, Finset.sum_add_distrib,
        ih (fun y hy => h y (by simp [hy])), List.filter_cons]
      by_cases hai : a = i
      · subst hai
        have : ∑ j ∈ Finset.range n, ((if ((a, b) == (a, j)) = true then 1 else 0 : Nat) : ℚ) = 1 := by
          rw [Finset.sum_eq_single b]
          · simp
          · intro j _ hj; simp [Ne.symm hj]
          · intro hb; simp at hb; omega
        rw [this]; simp
      · have : ∑ j ∈ Finset.range n, ((if ((a, b) == (i, j)) = true then 1 else 0 : Nat) : ℚ) = 0 := by
          apply Finset.sum_eq_zero; intro j _; simp [hai]
        rw [this]; simp [hai]

theorem sum_count_col (n i : Nat) (l : List (Nat × Nat)) (h : ∀ x ∈ l, x.1 < n ∧ x.2 < n) :
    ∑ j ∈ Finset.range n, ((l.count (j, i) : Nat) : ℚ) = ((l.filter (fun x => x.2 = i)).length : ℚ) := by
  induction l with
  | nil => simp
  | cons x l ih =>
      obtain ⟨a, b⟩ := x
      have hx := h (a, b) (by simp)
      simp only [List.count_cons, Nat.cast_add, Finset.sum_add_distrib,
        ih (fun y hy => h y (by simp [hy])), List.filter_cons]
      by_cases hai : b = i
      · subst hai
        have : ∑ j ∈ Finset.range n, ((if ((a, b) == (j, b)) = true then 1 else 0 : Nat) : ℚ) = 1 := by
          rw [Finset.sum_eq_single a]
          · simp
          · intro j _ hj; simp [Ne.symm hj]
          · intro hb; simp at hb; omega
        rw [this]; simp
      · have : ∑ j ∈ Finset.range n, ((if ((a, b) == (j, i)) = true then 1 else 0 : Nat) : ℚ) = 0 := by
          apply Finset.sum_eq_zero; intro j _; simp [hai]
        rw [this]; simp [hai]

theorem sum_count_diag (n : Nat) (l : List (Nat × Nat)) (h : ∀ x ∈ l, x.1 < n ∧ x.2 < n) :
    ∑ j ∈ Finset.range n, ((l.count (j, j) : Nat) : ℚ) = ((l.filter (fun x => x.1 = x.2)).length : ℚ) := by
  induction l with
  | nil => simp
  | cons x l ih =>
      obtain ⟨a, b⟩ := x
      have hx := h (a, b) (by simp)
      simp only [List.count_cons, Nat.cast_add, Finset.sum_add_distrib,
        ih (fun y hy => h y (by simp [hy])), List.filter_cons]
      by_cases hai : a = b
      · subst hai
        have : ∑ j ∈ Finset.range n, ((if ((a, a) == (j, j)) = true then 1 else 0 : Nat) : ℚ) = 1 := by
          rw [Finset.sum_eq_single a]
          · simp
          · intro j _ hj; simp [Ne.symm hj]
          · intro hb; simp at hb; omega
        rw [this]; simp
      · have : ∑ j ∈ Finset.range n, ((if ((a, b) == (j, j)) = true then 1 else 0 : Nat) : ℚ) = 0 := by
          apply Finset.sum_eq_zero; intro j _
          have : ¬ ((a, b) = (j, j)) := by
            intro h; simp only [Prod.mk.injEq] at h; exact hai (h.1.trans h.2.symm)
          simp [this]
        rw [this]; simp [hai]

theorem sum_filter_fst (n : Nat) (l : List (Nat × Nat)) (h : ∀ x ∈ l, x.1 < n) :
    ∑ i ∈ Finset.range n, ((l.filter (fun x => x.1 = i)).length : ℚ) = (l.length : ℚ) := by
  induction l with
  | nil => simp
  | cons x l ih =>
      have hx := h x (by simp)
      have key : ∀ i, (((x :: l).filter (fun x => x.1 = i)).length : ℚ) =
          (if x.1 = i then 1 else 0) + ((l.filter (fun x => x.1 = i)).length : ℚ) := by
        intro i
        rw [List.filter_cons]
        by_cases hi : x.1 = i <;> simp [hi]; ring
      simp only [key, Finset.sum_add_distrib, ih (fun y hy => h y (by simp [hy]))]
      rw [Finset.sum_ite_eq, if_pos (by simpa using hx)]
      simp; ring

theorem sum_filter_snd (n : Nat) (l : List (Nat × Nat)) (h : ∀ x ∈ l, x.2 < n) :
    ∑ i ∈ Finset.range n, ((l.filter (fun x => x.2 = i)).length : ℚ) = (l.length : ℚ) := by
  induction l with
  | nil => simp
  | cons x l ih =>
      have hx := h x (by simp)
      have key : ∀ i, (((x :: l).filter (fun x => x.2 = i)).length : ℚ) =
          (if x.2 = i then 1 else 0) + ((l.filter (fun x => x.2 = i)).length : ℚ) := by
        intro i
        rw [List.filter_cons]
        by_cases hi : x.2 = i <;> simp [hi]; ring
      simp only [key, Finset.sum_add_distrib, ih (fun y hy => h y (by simp [hy]))]
      rw [Finset.sum_ite_eq, if_pos (by simpa using hx)]
      simp; ring

/-- row and column of label `i` overlap only in the diagonal cell -/
theorem row_add_col_le (l : List (Nat × Nat)) (i : Nat) :
    (l.filter (fun x => x.1 = i)).length + (l.filter (fun x => x.2 = i)).length ≤
      l.length + l.count (i, i) := by
  induction l with
  | nil => simp
  | cons x l ih =>
      obtain ⟨a, b⟩ := x
      simp only [List.filter_cons, List.count_cons, List.length_cons]
      by_cases ha : a = i <;> by_cases hb : b = i <;> simp [ha, hb] <;> omega

theorem mem_of_filter_len {l : List (Nat × Nat)} {x : Nat × Nat} (hx : x ∈ l) :
    1 ≤ (l.filter (fun y => y.1 = x.1)).length ∧ 1 ≤ (l.filter (fun y => y.2 = x.2)).length := by
  constructor
  · exact List.length_pos_iff.2 (List.ne_nil_of_mem (List.mem_filter.2 ⟨hx, by simp⟩))
  · exact List.length_pos_iff.2 (List.ne_nil_of_mem (List.mem_filter.2 ⟨hx, by simp⟩))

/-! ### integer form of kappa -/

/-- sum over the labels of (count among truths) * (count among predictions) -/
def crossSum (n : Nat) (l : List (Nat × Nat)) : ℚ :=
  ∑ i ∈ Finset.range n, ((l.filter (fun x => x.1 = i)).length : ℚ) * ((l.filter (fun x => x.2 = i)).length : ℚ)

def diag (l : List (Nat × Nat)) : ℚ := ((l.filter (fun x => x.1 = x.2)).length : ℚ)

theorem kappa_eq {n : Nat} {s : KappaState} {l : List (Nat × Nat)} (h : Counts n s l) :
    s.kappa n = quot ((l.length : ℚ) * diag l - crossSum n l) ((l.length : ℚ) * l.length - crossSum n l) := by
  have hd : (List.range n).foldl (fun acc i => acc + (s.confusion i i : ℚ)) 0 = diag l := by
    rw [foldl_range, diag, ← sum_count_diag n l h.lt]
    apply Finset.sum_congr rfl
    intro i hi
    have := Finset.mem_range.1 hi
    rw [h.conf i i this this]; simp
  have hc : ∀ i, i < n → s.sumCol n i = ((l.filter (fun x => x.1 = i)).length : ℚ) := by
    intro i hi
    rw [KappaState.sumCol, foldl_range, ← sum_count_row n i l h.lt]
    apply Finset.sum_congr rfl
    intro j hj
    rw [h.conf i j hi (Finset.mem_range.1 hj)]; simp
  have hr : ∀ i, i < n → s.sumRow n i = ((l.filter (fun x => x.2 = i)).length : ℚ) := by
    intro i hi
    rw [KappaState.sumRow, foldl_range, ← sum_count_col n i l h.lt]
    apply Finset.sum_congr rfl
    intro j hj
    rw [h.conf j i (Finset.mem_range.1 hj) hi]; simp
  have hs : (List.range n).foldl (fun acc i => acc + s.sumCol n i * s.sumRow n i) 0 = crossSum n l := by
    rw [foldl_range, crossSum]
    apply Finset.sum_congr rfl
    intro i hi
    rw [hc i (Finset.mem_range.1 hi), hr i (Finset.mem_range.1 hi)]
  unfold KappaState.kappa
  rw [hd, hs, h.tot]
  simp

theorem diag_le (l : List (Nat × Nat)) : diag l ≤ l.length := by
  unfold diag; exact_mod_cast List.length_filter_le _ _

theorem diag_nonneg (l : List (Nat × Nat)) : 0 ≤ diag l := by unfold diag; positivity

/-- `2 Σ RᵢCᵢ ≤ T² + T·D` -/
theorem two_cross_le (n : Nat) (l : List (Nat × Nat)) (h : ∀ x ∈ l, x.1 < n ∧ x.2 < n) :
    2 * crossSum n l ≤ (l.length : ℚ) * l.length + (l.length : ℚ) * diag l := by
  have key : ∀ i ∈ Finset.range n,
      4 * (((l.filter (fun x => x.1 = i)).length : ℚ) * ((l.filter (fun x => x.2 = i)).length : ℚ)) ≤
      (l.length : ℚ) * (((l.filter (fun x => x.1 = i)).length : ℚ) + ((l.filter (fun x => x.2 = i)).length : ℚ)) +
        2 * (l.length : ℚ) * ((l.count (i, i) : Nat) : ℚ) := by
    intro i _
    have h1 : (((l.filter (fun x => x.1 = i)).length : ℚ) + ((l.filter (fun x => x.2 = i)).length : ℚ)) ≤
        (l.length : ℚ) + ((l.count (i, i) : Nat) : ℚ) := by exact_mod_cast row_add_col_le l i
    have h2 : ((l.filter (fun x => x.1 = i)).length : ℚ) ≤ (l.length : ℚ) := by
      exact_mod_cast List.length_filter_le _ _
    have h3 : ((l.filter (fun x => x.2 = i)).length : ℚ) ≤ (l.length : ℚ) := by
      exact_mod_cast List.length_filter_le _ _
    have h4 : (0 : ℚ) ≤ ((l.filter (fun x => x.1 = i)).length : ℚ) := by positivity
    have h5 : (0 : ℚ) ≤ ((l.filter (fun x => x.2 = i)).length : ℚ) := by positivity
    have h6 : (0 : ℚ) ≤ ((l.count (i, i) : Nat) : ℚ) := by positivity
    generalize ((l.filter (fun x => x.1 = i)).length : ℚ) = R at *
    generalize ((l.filter (fun x => x.2 = i)).length : ℚ) = C at *
    generalize ((l.count (i, i) : Nat) : ℚ) = d at *
    generalize (l.length : ℚ) = T at *
    have a1 : 4 * (R * C) ≤ (R + C) * (R + C) := by nlinarith [sq_nonneg (R - C)]
    have a2 : (R + C) * (R + C) ≤ (R + C) * (T + d) := by
      apply mul_le_mul_of_nonneg_left h1; linarith
    have a3 : (R + C) * d ≤ (2 * T) * d := by
      apply mul_le_mul_of_nonneg_right _ h6; linarith
    nlinarith
  have hsum := Finset.sum_le_sum key
  rw [← Finset.mul_sum, Finset.sum_add_distrib, ← Finset.mul_sum, ← Finset.mul_sum, Finset.sum_add_distrib,
    sum_filter_fst n l (fun x hx => (h x hx).1), sum_filter_snd n l (fun x hx => (h x hx).2),
    sum_count_diag n l h] at hsum
  unfold crossSum diag
  linarith

/-- `Σ RᵢCᵢ ≤ T²`, with equality exactly when one single label occurs -/
theorem cross_le (n : Nat) (l : List (Nat × Nat)) (h : ∀ x ∈ l, x.1 < n ∧ x.2 < n) :
    crossSum n l ≤ (l.length : ℚ) * l.length := by
  have h1 : crossSum n l ≤ ∑ i ∈ Finset.range n, ((l.filter (fun x => x.1 = i)).length : ℚ) * l.length := by
    apply Finset.sum_le_sum
    intro i _
    apply mul_le_mul_of_nonneg_left
    · exact_mod_cast List.length_filter_le _ _
    · positivity
  rwa [← Finset.sum_mul, sum_filter_fst n l (fun x hx => (h x hx).1)] at h1

theorem cross_eq_iff (n : Nat) (l : List (Nat × Nat)) (h : ∀ x ∈ l, x.1 < n ∧ x.2 < n) :
    crossSum n l = (l.length : ℚ) * l.length ↔ ∃ a, ∀ x ∈ l, x = (a, a) := by
  constructor
  · intro he
    have hterm : ∀ i ∈ Finset.range n, ((l.filter (fun x => x.1 = i)).length : ℚ) *
        ((l.filter (fun x => x.2 = i)).length : ℚ) = ((l.filter (fun x => x.1 = i)).length : ℚ) * l.length := by
      have hle : ∀ i ∈ Finset.range n, ((l.filter (fun x => x.1 = i)).length : ℚ) *
        ((l.filter (fun x => x.2 = i)).length : ℚ) ≤ ((l.filter (fun x => x.1 = i)).length : ℚ) * l.length := by
        intro i _
        apply mul_le_mul_of_nonneg_left
        · exact_mod_cast List.length_filter_le _ _
        · positivity
      rw [← Finset.sum_eq_sum_iff_of_le hle, ← Finset.sum_mul, sum_filter_fst n l (fun x hx => (h x hx).1)]
      exact he
    -- every pair has every prediction equal to its truth
    have key : ∀ x ∈ l, ∀ y ∈ l, y.2 = x.1 := by
      intro x hx y hy
      have h1 := hterm x.1 (Finset.mem_range.2 (h x hx).1)
      have h2 : (0 : ℚ) < ((l.filter (fun y => y.1 = x.1)).length : ℚ) := by
        exact_mod_cast (mem_of_filter_len hx).1
      have h3 := mul_left_cancel₀ h2.ne' h1
      have h4 : (l.filter (fun y => y.2 = x.1)).length = l.length := by exact_mod_cast h3
      have := (List.length_filter_eq_length_iff.1 h4) y hy
      simpa using this
    cases l with
    | nil => exact ⟨0, by simp⟩
    | cons z l =>
        refine ⟨z.1, fun x hx => ?_⟩
        have h1 := key z (by simp) x hx
        have h2 := key x hx x hx
        exact Prod.ext (h2.symm.trans h1) h1
  · rintro ⟨a, ha⟩
    have h1 : ∀ i, ((l.filter (fun x => x.1 = i)).length : ℚ) = if i = a then (l.length : ℚ) else 0 := by
      intro i
      by_cases hi : i = a
      · rw [if_pos hi, List.length_filter_eq_length_iff.2]
        intro x hx; simp [ha x hx, hi]
      · rw [if_neg hi]
        have : l.filter (fun x => x.1 = i) = [] := by
          rw [List.filter_eq_nil_iff]; intro x hx; simp [ha x hx, Ne.symm hi]
        simp [this]
    have h2 : ∀ i, ((l.filter (fun x => x.2 = i)).length : ℚ) = if i = a then (l.length : ℚ) else 0 := by
      intro i
      by_cases hi : i = a
      · rw [if_pos hi, List.length_filter_eq_length_iff.2]
        intro x hx; simp [ha x hx, hi]
      · rw [if_neg hi]
        have : l.filter (fun x => x.2 = i) = [] := by
          rw [List.filter_eq_nil_iff]; intro x hx; simp [ha x hx, Ne.symm hi]
        simp [this]
    unfold crossSum
    simp only [h1, h2]
    cases l with
    | nil => simp
    | cons z l =>
        have han : a < n := by
          have := (h z (by simp)).1
          rw [ha z (by simp)] at this; exact this
        rw [Finset.sum_eq_single a]
        · simp
        · intro b _ hb; simp [hb]
        · intro hb; simp at hb; omega

end Orp.Metrics
