import Verif.Hoeffding.Leaf
import Verif.Hoeffding.Spec

/-!
When the feature found for a limit is the right one.
-/

namespace Orp.Hoeffding

set_option linter.unusedSectionVars false

theorem placeOfLimit_le : ∀ (sizes : List Nat) (i : Nat), placeOfLimit sizes i ≤ i := by
  intro sizes
  induction sizes with
  | nil => intro i; simp [placeOfLimit]
  | cons s rest ih =>
      intro i
      simp only [placeOfLimit]
      split
      · omega
      · have := ih (i - (s - 1)); omega

theorem decodeLoop_spec : ∀ (rest : List Nat) (sz i i' f S : Nat), (∀ z ∈ sz :: rest, 1 ≤ z) → i + f = S + i' → i' < ((sz :: rest).map (fun z => z - 1)).sum →
    (decodeLoop i f (S + sz) rest = f + featureOfLimit (sz :: rest) i' ↔
      featureOfLimit (sz :: rest) i' = 0 ∨ featureOfLimit (sz :: rest) i' + f ≤ placeOfLimit (sz :: rest) i') ∧
    decodeLoop i f (S + sz) rest ≤ f + featureOfLimit (sz :: rest) i' := by
  intro rest
  induction rest with
  | nil =>
      intro sz i i' f S hpos he hi
      simp only [List.map_cons, List.map_nil, List.sum_cons, List.sum_nil, Nat.add_zero] at hi
      simp [decodeLoop, featureOfLimit, hi]
  | cons z rest ih =>
      intro sz i i' f S hpos he hi
      have h1 := hpos sz (by simp)
      by_cases c : i' < sz - 1
      · have : i < S + sz := by omega
        simp [decodeLoop, featureOfLimit, c, this]
      · have hi' : i' - (sz - 1) < ((z :: rest).map (fun z => z - 1)).sum := by
          simp only [List.map_cons, List.sum_cons] at hi ⊢; omega
        by_cases c2 : i < S + sz
        · have hpl := placeOfLimit_le (z :: rest) (i' - (sz - 1))
          have e1 : featureOfLimit (sz :: z :: rest) i' = featureOfLimit (z :: rest) (i' - (sz - 1)) + 1 := by rw [featureOfLimit, if_neg c]
          have e2 : placeOfLimit (sz :: z :: rest) i' = placeOfLimit (z :: rest) (i' - (sz - 1)) := by rw [placeOfLimit, if_neg c]
          rw [e1, e2]
          simp only [decodeLoop, if_pos c2]
          constructor
          · constructor
            · intro h; omega
            · intro h; omega
          · omega
        · have := ih z i (i' - (sz - 1)) (f + 1) (S + sz) (fun y hy => hpos y (List.mem_cons_of_mem _ hy)) (by omega) hi'
          have e1 : featureOfLimit (sz :: z :: rest) i' = featureOfLimit (z :: rest) (i' - (sz - 1)) + 1 := by rw [featureOfLimit, if_neg c]
          have e2 : placeOfLimit (sz :: z :: rest) i' = placeOfLimit (z :: rest) (i' - (sz - 1)) := by rw [placeOfLimit, if_neg c]
          rw [e1, e2]
          simp only [decodeLoop, if_neg c2]
          have hz : featureOfLimit (z :: rest) (i' - (sz - 1)) = 0 → placeOfLimit (z :: rest) (i' - (sz - 1)) = i' - (sz - 1) := by
            intro h0
            simp only [featureOfLimit] at h0
            by_cases c3 : i' - (sz - 1) < z - 1
            · simp [placeOfLimit, c3]
            · rw [if_neg c3] at h0; omega
          constructor
          · have hiff := this.1
            constructor
            · intro h
              right
              rcases hiff.mp (by omega) with h | h
              · have := hz h; omega
              · omega
            · intro h
              have : decodeLoop i (f + 1) (S + sz + z) rest = f + 1 + featureOfLimit (z :: rest) (i' - (sz - 1)) := by
                apply hiff.mpr
                right; omega
              omega
          · have := this.2; omega

/-- The feature found for limit `i` is the one it belongs to iff the position of the limit in its feature is at least the number of the feature. -/
theorem decode_iff {sizes : List Nat} (hpos : ∀ z ∈ sizes, 1 ≤ z) {i : Nat} (hi : i < (sizes.map (fun z => z - 1)).sum) :
    decode sizes i = featureOfLimit sizes i ↔ featureOfLimit sizes i ≤ placeOfLimit sizes i := by
  match sizes, hi with
  | sz :: rest, hi =>
    have := (decodeLoop_spec rest sz i i 0 0 hpos (by omega) hi).1
    simp only [Nat.zero_add, Nat.add_zero] at this
    simp only [decode]
    rw [this]
    omega

theorem decode_le {sizes : List Nat} (hpos : ∀ z ∈ sizes, 1 ≤ z) {i : Nat} (hi : i < (sizes.map (fun z => z - 1)).sum) :
    decode sizes i ≤ featureOfLimit sizes i := by
  match sizes, hi with
  | sz :: rest, hi =>
    have := (decodeLoop_spec rest sz i i 0 0 hpos (by omega) hi).2
    simpa [decode] using this

theorem sum_pred : ∀ (sizes : List Nat), (∀ z ∈ sizes, 1 ≤ z) → (sizes.map (fun z => z - 1)).sum + sizes.length = sizes.sum := by
  intro sizes
  induction sizes with
  | nil => intro _; simp
  | cons s rest ih =>
      intro h
      have h1 := h s (by simp)
      have h2 := ih (fun z hz => h z (by simp [hz]))
      simp only [List.map_cons, List.sum_cons, List.length_cons]
      omega

end Orp.Hoeffding
