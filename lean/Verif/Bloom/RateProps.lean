import Verif.Bloom.Rate

/-!
Property C91: the rate of false positives of the Bloom filter for ideal hash functions.
-/

namespace Orp.Bloom

set_option linter.unusedSectionVars false

open Finset

variable {E : Type} [Fintype E] [DecidableEq E] {k m : Nat}

/-- a family of functions as the array of hash functions given to the constructor -/
def asHashs (h : Fin k → E → Fin m) : List (E → BitVec 32) := List.ofFn fun i e => BitVec.ofNat 32 (h i e).val

theorem asHashs_toNat (hm : m < 2 ^ 31) (h : Fin k → E → Fin m) (i : Fin k) (e : E) : (BitVec.ofNat 32 (h i e).val).toNat = (h i e).val := by
  rw [BitVec.toNat_ofNat]
  have := (h i e).isLt
  exact Nat.mod_eq_of_lt (by omega)

theorem asHashs_contract (hm1 : 1 ≤ m) (hm : m < 2 ^ 31) (hk : 1 ≤ k) (h : Fin k → E → Fin m) : Contract m (asHashs h) := by
  refine ⟨hm1, hm, by simp [asHashs, hk], fun f hf e => ?_⟩
  obtain ⟨i, rfl⟩ := (List.mem_ofFn' _ _).1 hf
  rw [asHashs_toNat hm]
  exact (h i e).isLt

theorem asHashs_position (hm : m < 2 ^ 31) (h : Fin k → E → Fin m) (e : E) (j : Nat) : Position (asHashs h) e j ↔ ∃ i, (h i e).val = j := by
  unfold Position asHashs
  constructor
  · rintro ⟨f, hf, rfl⟩
    obtain ⟨i, rfl⟩ := (List.mem_ofFn' _ _).1 hf
    exact ⟨i, (asHashs_toNat hm h i e).symm⟩
  · rintro ⟨i, rfl⟩
    exact ⟨_, (List.mem_ofFn' _ _).2 ⟨i, rfl⟩, asHashs_toNat hm h i e⟩

theorem chance_congr {A B : (Fin k → E → Fin m) → Prop} [DecidablePred A] [DecidablePred B] (h : ∀ x, A x ↔ B x) : chance A = chance B := by
  unfold chance
  congr 3
  ext x
  simp [h]

/-- `lookup` answers true for `x` after the calls -/
def Positive (garbage : List (BitVec 8)) (ops : List (Op E)) (x : E) (h : Fin k → E → Fin m) : Prop :=
  ∃ f, exec m garbage (asHashs h) ops = .ok f ∧ lookup f x = .ok true

theorem positive_iff (hm1 : 1 ≤ m) (hm : m < 2 ^ 31) (hk : 1 ≤ k) (garbage : List (BitVec 8)) (hg : garbage.length = m) (pre : List (Op E))
    (hv : ∀ op ∈ pre, op.Valid m) (es : List E) (x : E) (h : Fin k → E → Fin m) :
    Positive garbage (pre ++ .clear :: es.map .add) x h ↔ ∀ i, h i x ∈ placesOf es h := by
  obtain ⟨f, h1, h2⟩ := C02_exact_answer (asHashs_contract hm1 hm hk h) garbage hg pre hv es
  obtain ⟨r, h3, h4⟩ := h2 x
  have h5 : Positive garbage (pre ++ .clear :: es.map .add) x h ↔ r = true := by
    unfold Positive
    rw [h1]
    constructor
    · rintro ⟨f', e, hl⟩
      cases e
      rw [h3] at hl
      exact Except.ok.inj hl
    · rintro rfl
      exact ⟨f, rfl, h3⟩
  rw [h5, h4]
  simp only [asHashs_position hm, mem_placesOf]
  constructor
  · intro hh i
    obtain ⟨a, ha, i', e⟩ := hh _ ⟨i, rfl⟩
    exact ⟨i', a, ha, Fin.ext e⟩
  · rintro hh j ⟨i, rfl⟩
    obtain ⟨i', a, ha, e⟩ := hh i
    exact ⟨a, ha, i', congrArg Fin.val e⟩

open Classical in
/-- **C91** Ideal hash functions: for every history that ends with a `clear` and then calls of `add`, with `n` different elements, the chance that `lookup` answers true for
another element is at most `(k n / m) ^ k` and at least `(1 - (1 - 1/m) ^ (k n)) ^ k`. -/
theorem C91_false_positive_rate (hm1 : 1 ≤ m) (hm : m < 2 ^ 31) (hk : 1 ≤ k) (garbage : List (BitVec 8)) (hg : garbage.length = m) (pre : List (Op E))
    (hv : ∀ op ∈ pre, op.Valid m) (es : List E) (x : E) (hx : x ∉ es) :
    (1 - (1 - 1 / (m : ℚ)) ^ (k * #es.toFinset)) ^ k ≤ chance (fun h : Fin k → E → Fin m => Positive garbage (pre ++ .clear :: es.map .add) x h) ∧
    chance (fun h : Fin k → E → Fin m => Positive garbage (pre ++ .clear :: es.map .add) x h) ≤ ((k * #es.toFinset : Nat) / (m : ℚ)) ^ k := by
  rw [chance_congr (B := fun h : Fin k → E → Fin m => ∀ i, h i x ∈ placesOf es h) (positive_iff hm1 hm hk garbage hg pre hv es x)]
  exact ⟨le_chance hm1 hk hx, chance_le hm1 hx⟩

open Classical in
/-- **C91** The exact chance: the mean of the share of the bits that are set, to the power `k`. -/
theorem C91_exact (hm1 : 1 ≤ m) (hm : m < 2 ^ 31) (hk : 1 ≤ k) (garbage : List (BitVec 8)) (hg : garbage.length = m) (pre : List (Op E))
    (hv : ∀ op ∈ pre, op.Valid m) (es : List E) (x : E) (hx : x ∉ es) :
    chance (fun h : Fin k → E → Fin m => Positive garbage (pre ++ .clear :: es.map .add) x h) =
      (∑ h : Fin k → E → Fin m, ((#(univ.filter fun j : Fin m => ∃ i, ∃ a ∈ es, h i a = j) : ℚ) / m) ^ k) / Fintype.card (Fin k → E → Fin m) := by
  rw [chance_congr (B := fun h : Fin k → E → Fin m => ∀ i, h i x ∈ placesOf es h) (positive_iff hm1 hm hk garbage hg pre hv es x), chance_eq hm1 hx]
  congr 1
  refine sum_congr rfl fun h _ => ?_
  congr 4
  ext j
  simp only [mem_placesOf, mem_filter, mem_univ, true_and]

open Classical in
/-- **C91** With one hash function the chance is exactly `1 - (1 - 1/m) ^ n`. -/
theorem C91_one_hash (hm1 : 1 ≤ m) (hm : m < 2 ^ 31) (garbage : List (BitVec 8)) (hg : garbage.length = m) (pre : List (Op E))
    (hv : ∀ op ∈ pre, op.Valid m) (es : List E) (x : E) (hx : x ∉ es) :
    chance (fun h : Fin 1 → E → Fin m => Positive garbage (pre ++ .clear :: es.map .add) x h) = 1 - (1 - 1 / (m : ℚ)) ^ #es.toFinset := by
  rw [chance_congr (B := fun h : Fin 1 → E → Fin m => ∀ i, h i x ∈ placesOf es h) (positive_iff hm1 hm le_rfl garbage hg pre hv es x), chance_eq hm1 hx]
  have hm0 : (m : ℚ) ≠ 0 := by positivity
  have : Nonempty (Fin m) := ⟨⟨0, hm1⟩⟩
  have hc : (Fintype.card (Fin 1 → E → Fin m) : ℚ) ≠ 0 := by exact_mod_cast Fintype.card_ne_zero
  simp only [pow_one]
  rw [← sum_div, sum_card_placesOf hm1, one_mul]
  field_simp

theorem exChance : chance (fun h : Fin 2 → Fin 2 → Fin 2 => ∀ i, h i 1 ∈ placesOf [0] h) = 5 / 8 := by decide +kernel

open Classical in
/-- Two elements, two bits and two hash functions: an element is added, the filter is cleared, and the other element is added. `lookup` answers true for the first element
for 10 of the 16 families of functions; the bounds are 9/16 and 1. -/
example : chance (fun h : Fin 2 → Fin 2 → Fin 2 => Positive [7, 7] ([.add 1] ++ .clear :: [0].map .add) 1 h) = 5 / 8 :=
  (chance_congr (positive_iff (by decide) (by decide) (by decide) [7, 7] rfl [.add 1] (by simp [Op.Valid]) [0] 1)).trans exChance

end Orp.Bloom
