import Mathlib.Algebra.Order.Chebyshev
import Mathlib.Algebra.BigOperators.Field
import Mathlib.Algebra.BigOperators.Ring.Finset
import Mathlib.Data.Fintype.BigOperators
import Mathlib.Data.Fintype.Pi
import Mathlib.Logic.Equiv.Basic
import Mathlib.Tactic.FieldSimp
import Mathlib.Tactic.Linarith
import Mathlib.Tactic.Positivity
import Verif.Bloom.Props

/-!
Counting hash functions, for the rate of false positives of the Bloom filter (C91).
-/

namespace Orp.Bloom

set_option linter.unusedSectionVars false

open Finset

variable {E : Type} [Fintype E] [DecidableEq E] {k m : Nat}

/-- The share of the families of `k` functions from `E` to `m` places for which `A` holds: the probability of `A` for ideal hash functions, which send each element
independently of all others to each place with the same probability. -/
def chance (A : (Fin k → E → Fin m) → Prop) [DecidablePred A] : ℚ :=
  (#{h : Fin k → E → Fin m | A h} : ℚ) / Fintype.card (Fin k → E → Fin m)

/-- the places of the elements of a list -/
def placesOf (es : List E) (h : Fin k → E → Fin m) : Finset (Fin m) := univ.biUnion fun i => es.toFinset.image (h i)

theorem mem_placesOf {es : List E} {h : Fin k → E → Fin m} {j : Fin m} : j ∈ placesOf es h ↔ ∃ i, ∃ a ∈ es, h i a = j := by
  simp [placesOf]

theorem placesOf_card_le (es : List E) (h : Fin k → E → Fin m) : #(placesOf es h) ≤ k * #es.toFinset := by
  refine card_biUnion_le.trans ?_
  calc ∑ i : Fin k, #(es.toFinset.image (h i)) ≤ ∑ _i : Fin k, #es.toFinset := sum_le_sum fun i _ => card_image_le
    _ = k * #es.toFinset := by simp

/-- the places of `x` are exchanged -/
def exchange (x : E) : (Fin k → E → Fin m) × (Fin k → Fin m) ≃ (Fin k → E → Fin m) × (Fin k → Fin m) where
  toFun q := (fun i => Function.update (q.1 i) x (q.2 i), fun i => q.1 i x)
  invFun q := (fun i => Function.update (q.1 i) x (q.2 i), fun i => q.1 i x)
  left_inv q := by simp
  right_inv q := by simp

theorem placesOf_update {es : List E} {x : E} (hx : x ∉ es) (h : Fin k → E → Fin m) (u : Fin k → Fin m) :
    placesOf es (fun i => Function.update (h i) x (u i)) = placesOf es h := by
  ext j
  simp only [mem_placesOf]
  refine exists_congr fun i => exists_congr fun a => and_congr_right fun ha => ?_
  have hne : a ≠ x := fun e => hx (by rw [← e]; exact ha)
  rw [Function.update_of_ne hne]

/-- For each `h` the number of choices of the places of `x` with only places of `es`. -/
theorem card_positive {es : List E} {x : E} (hx : x ∉ es) :
    m ^ k * #{h : Fin k → E → Fin m | ∀ i, h i x ∈ placesOf es h} = ∑ h : Fin k → E → Fin m, #(placesOf es h) ^ k := by
  have e1 : ∑ q : (Fin k → E → Fin m) × (Fin k → Fin m), (if ∀ i, q.1 i x ∈ placesOf es q.1 then 1 else 0) =
      m ^ k * #{h : Fin k → E → Fin m | ∀ i, h i x ∈ placesOf es h} := by
    rw [Fintype.sum_prod_type]
    rw [card_filter, mul_sum]
    refine sum_congr rfl fun h _ => ?_
    by_cases hh : ∀ i, h i x ∈ placesOf es h
    · simp [hh]
    · simp [hh]
  rw [← e1, ← Equiv.sum_comp (exchange x), Fintype.sum_prod_type]
  refine sum_congr rfl fun h _ => ?_
  have e2 : (#(placesOf es h)) ^ k = #(Fintype.piFinset fun _ : Fin k => placesOf es h) := by simp
  rw [e2, ← card_filter]
  congr 1
  ext u
  simp only [exchange, Equiv.coe_fn_mk, mem_filter, mem_univ, true_and, Function.update_self, Fintype.mem_piFinset]
  rw [placesOf_update hx]

/-- The number of functions that do not hit a place. -/
theorem card_missed (es : List E) (j : Fin m) :
    #{h : Fin k → E → Fin m | j ∉ placesOf es h} * m ^ (k * #es.toFinset) = (m - 1) ^ (k * #es.toFinset) * Fintype.card (Fin k → E → Fin m) := by
  have e1 : ({h : Fin k → E → Fin m | j ∉ placesOf es h} : Finset _) =
      Fintype.piFinset fun _ : Fin k => Fintype.piFinset fun a : E => if a ∈ es.toFinset then univ.erase j else univ := by
    ext h
    simp only [mem_filter, mem_univ, true_and, mem_placesOf, not_exists, not_and, Fintype.mem_piFinset]
    refine forall_congr' fun i => forall_congr' fun a => ?_
    by_cases ha : a ∈ es
    · simp [ha]
    · simp [ha]
  rw [e1]
  have e2 : ∀ a : E, #(if a ∈ es.toFinset then univ.erase j else univ : Finset (Fin m)) = if a ∈ es.toFinset then m - 1 else m := by
    intro a
    split
    · rw [card_erase_of_mem (mem_univ _), card_univ, Fintype.card_fin]
    · rw [card_univ, Fintype.card_fin]
  simp only [Fintype.card_piFinset, e2, Fintype.card_pi, Fintype.card_fin, prod_const, card_univ]
  have e3 : (∏ a : E, if a ∈ es.toFinset then m - 1 else m) * m ^ #es.toFinset = (m - 1) ^ #es.toFinset * m ^ Fintype.card E := by
    rw [prod_ite, prod_const, prod_const]
    have h1 : #({a | a ∈ es.toFinset} : Finset E) = #es.toFinset := by congr 1; ext a; simp
    have h2 : #({a | a ∉ es.toFinset} : Finset E) + #es.toFinset = Fintype.card E := by
      rw [← card_univ, ← h1, add_comm]
      exact card_filter_add_card_filter_not _
    rw [h1, mul_assoc, ← pow_add, h2]
  rw [mul_comm k, pow_mul, ← mul_pow, e3, mul_pow, pow_mul]

/-- The mean number of places hit. -/
theorem sum_card_placesOf (hm : 1 ≤ m) (es : List E) :
    (∑ h : Fin k → E → Fin m, (#(placesOf es h) : ℚ)) = m * (1 - (1 - 1 / (m : ℚ)) ^ (k * #es.toFinset)) * Fintype.card (Fin k → E → Fin m) := by
  have hm0 : (m : ℚ) ≠ 0 := by positivity
  have e1 : ∀ h : Fin k → E → Fin m, (#(placesOf es h) : ℚ) = ∑ j : Fin m, (1 - if j ∉ placesOf es h then 1 else 0) := by
    intro h
    rw [sum_sub_distrib, sum_const, card_univ, Fintype.card_fin, nsmul_eq_mul, mul_one, sum_boole]
    have := card_filter_add_card_filter_not (s := (univ : Finset (Fin m))) (fun j => j ∈ placesOf es h)
    rw [card_univ, Fintype.card_fin, filter_mem_eq_inter, univ_inter] at this
    have := congrArg (Nat.cast (R := ℚ)) this
    push_cast at this
    linarith
  simp only [e1]
  rw [sum_comm]
  have e2 : ∀ j : Fin m, ∑ h : Fin k → E → Fin m, ((1 : ℚ) - if j ∉ placesOf es h then 1 else 0) =
      (1 - (1 - 1 / (m : ℚ)) ^ (k * #es.toFinset)) * Fintype.card (Fin k → E → Fin m) := by
    intro j
    rw [sum_sub_distrib, sum_const, card_univ, nsmul_eq_mul, mul_one, sum_boole]
    have h1 := congrArg (Nat.cast (R := ℚ)) (card_missed (k := k) es j)
    push_cast [hm] at h1
    have h2 : (1 - 1 / (m : ℚ)) ^ (k * #es.toFinset) = ((m : ℚ) - 1) ^ (k * #es.toFinset) / (m : ℚ) ^ (k * #es.toFinset) := by
      rw [← div_pow]
      congr 1
      field_simp
    rw [h2]
    have hp : ((m : ℚ)) ^ (k * #es.toFinset) ≠ 0 := pow_ne_zero _ hm0
    have hcard : (#{h : Fin k → E → Fin m | j ∉ placesOf es h} : ℚ) = ((m : ℚ) - 1) ^ (k * #es.toFinset) / (m : ℚ) ^ (k * #es.toFinset) * Fintype.card (Fin k → E → Fin m) := by
      rw [div_mul_eq_mul_div, eq_div_iff hp]
      rw [h1]
    rw [hcard]
    ring
  simp only [e2, sum_const, card_univ, Fintype.card_fin, nsmul_eq_mul]
  ring

/-- the chance that an element gets only places of others -/
theorem chance_eq (hm : 1 ≤ m) {es : List E} {x : E} (hx : x ∉ es) :
    chance (fun h : Fin k → E → Fin m => ∀ i, h i x ∈ placesOf es h) =
      (∑ h : Fin k → E → Fin m, ((#(placesOf es h) : ℚ) / m) ^ k) / Fintype.card (Fin k → E → Fin m) := by
  have hm0 : (m : ℚ) ≠ 0 := by positivity
  have h1 := congrArg (Nat.cast (R := ℚ)) (card_positive (k := k) (m := m) hx)
  push_cast at h1
  unfold chance
  simp only [div_pow]
  rw [← sum_div, ← h1, mul_div_cancel_left₀ _ (pow_ne_zero _ hm0)]

theorem chance_le (hm : 1 ≤ m) {es : List E} {x : E} (hx : x ∉ es) :
    chance (fun h : Fin k → E → Fin m => ∀ i, h i x ∈ placesOf es h) ≤ ((k * #es.toFinset : Nat) / (m : ℚ)) ^ k := by
  have hm0 : (0 : ℚ) < m := by positivity
  have : Nonempty (Fin m) := ⟨⟨0, hm⟩⟩
  have hc : (0 : ℚ) < Fintype.card (Fin k → E → Fin m) := by exact_mod_cast Fintype.card_pos
  rw [chance_eq hm hx, div_le_iff₀ hc]
  calc (∑ h : Fin k → E → Fin m, ((#(placesOf es h) : ℚ) / m) ^ k) ≤ ∑ _h : Fin k → E → Fin m, ((k * #es.toFinset : Nat) / (m : ℚ)) ^ k := by
        refine sum_le_sum fun h _ => pow_le_pow_left₀ (by positivity) ?_ k
        exact div_le_div_of_nonneg_right (by exact_mod_cast placesOf_card_le es h) hm0.le
    _ = _ := by rw [sum_const, card_univ, nsmul_eq_mul, mul_comm]

theorem le_chance (hm : 1 ≤ m) (hk : 1 ≤ k) {es : List E} {x : E} (hx : x ∉ es) :
    (1 - (1 - 1 / (m : ℚ)) ^ (k * #es.toFinset)) ^ k ≤ chance (fun h : Fin k → E → Fin m => ∀ i, h i x ∈ placesOf es h) := by
  have hm0 : (0 : ℚ) < m := by positivity
  have : Nonempty (Fin m) := ⟨⟨0, hm⟩⟩
  have hc : (0 : ℚ) < Fintype.card (Fin k → E → Fin m) := by exact_mod_cast Fintype.card_pos
  obtain ⟨k', rfl⟩ : ∃ k', k = k' + 1 := ⟨k - 1, by omega⟩
  rw [chance_eq hm hx, le_div_iff₀ hc]
  refine le_trans (le_of_eq ?_) (pow_sum_div_card_le_sum_pow (s := univ) (f := fun h : Fin (k' + 1) → E → Fin m => (#(placesOf es h) : ℚ) / m) (fun h _ => by positivity) k')
  rw [← sum_div, sum_card_placesOf hm, card_univ, mul_assoc, mul_div_cancel_left₀ _ hm0.ne', mul_pow, pow_succ (Fintype.card _ : ℚ) k']
  field_simp

end Orp.Bloom
