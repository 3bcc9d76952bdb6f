import Verif.Utils.Model
import Mathlib.Algebra.Order.Field.Basic
import Mathlib.Algebra.BigOperators.Group.List.Basic
import Mathlib.Algebra.Order.BigOperators.Group.List
import Mathlib.Data.List.Perm.Basic
import Mathlib.Tactic.Linarith
import Mathlib.Tactic.Positivity
import Mathlib.Tactic.FieldSimp
import Mathlib.Tactic.Ring

set_option linter.unusedSectionVars false

namespace Orp.Utils

variable {α : Type} {K : Type} [Field K] [LinearOrder K] [IsStrictOrderedRing K] [FloorRing K]

theorem trunc_nonneg {x : K} (h : 0 ≤ x) : trunc x = ⌊x⌋ := by simp [trunc, not_lt.2 h]

/-! ### pick -/

omit [IsStrictOrderedRing K] [FloorRing K] in
theorem pickFrom_spec (u : K) (ps : List K) (i : Nat) :
    ∃ m, pickFrom u i ps = i + m ∧ m ≤ ps.length ∧ (∀ j (h : j < ps.length), j < m → ps[j] < u) ∧
      (∀ h : m < ps.length, u ≤ ps[m]) := by
  induction ps generalizing i with
  | nil => exact ⟨0, rfl, le_rfl, by simp, by simp⟩
  | cons p ps ih =>
      unfold pickFrom
      by_cases h : u ≤ p
      · exact ⟨0, by simp [h], by simp, by simp, by simpa using h⟩
      · obtain ⟨m, h1, h2, h3, h4⟩ := ih (i + 1)
        refine ⟨m + 1, by simp [h, h1]; omega, by simpa using h2, ?_, ?_⟩
        · intro j hj hjm
          cases j with
          | zero => simpa using h
          | succ j => simpa using h3 j (by simpa using hj) (by omega)
        · intro hm; simpa using h4 (by simpa using hm)

omit [IsStrictOrderedRing K] [FloorRing K] in
theorem pick_eq_iff (ps : List K) (u : K) (i : Nat) (hi : i < ps.length) :
    pick ps u = i ↔ (∀ j (h : j < ps.length), j < i → ps[j] < u) ∧ u ≤ ps[i] := by
  obtain ⟨m, h1, h2, h3, h4⟩ := pickFrom_spec u ps 0
  unfold pick
  rw [h1, Nat.zero_add]
  constructor
  · rintro rfl; exact ⟨h3, h4 hi⟩
  · rintro ⟨a, b⟩
    rcases Nat.lt_trichotomy m i with h | h | h
    · exact absurd (a m (by omega) h) (not_lt.2 (h4 (by omega)))
    · exact h
    · exact absurd (h3 i hi h) (not_lt.2 b)

/-! ### cumulative distribution -/

omit [IsStrictOrderedRing K] [LinearOrder K] [FloorRing K] in
theorem cumulate_length (sum prev : K) (vs : List K) : (cumulate sum prev vs).length = vs.length := by
  induction vs generalizing prev with
  | nil => rfl
  | cons v vs ih => simp [cumulate, ih]

omit [IsStrictOrderedRing K] [LinearOrder K] [FloorRing K] in
theorem cumulate_getElem (sum prev : K) (vs : List K) (i : Nat) (h : i < (cumulate sum prev vs).length) :
    (cumulate sum prev vs)[i] = prev + (vs.take (i + 1)).sum / sum := by
  induction vs generalizing prev i with
  | nil => simp [cumulate] at h
  | cons v vs ih =>
      cases i with
      | zero => simp [cumulate]
      | succ i =>
          simp only [cumulate, List.getElem_cons_succ, List.take_succ_cons, List.sum_cons]
          rw [ih, add_div]; ring

omit [LinearOrder K] [IsStrictOrderedRing K] [FloorRing K] in
theorem foldl_add (vs : List K) (a : K) : vs.foldl (· + ·) a = a + vs.sum := by
  induction vs generalizing a with
  | nil => simp
  | cons v vs ih => simp [ih, add_assoc]

/-! ### index_max -/

theorem indexMaxFrom_spec {α : Type} [LinearOrder α] (l xs : List α) (best i : Nat) (bv : α)
    (hl : l.length = i) (hb : best < i) (hbv : l[best]? = some bv)
    (hmax : ∀ x ∈ l, x ≤ bv) (hfirst : ∀ j (h : j < l.length), j < best → l[j] < bv) :
    ∃ (h : indexMaxFrom best bv i xs < (l ++ xs).length),
      (∀ x ∈ l ++ xs, x ≤ (l ++ xs)[indexMaxFrom best bv i xs]) ∧
      ∀ j (h' : j < (l ++ xs).length), j < indexMaxFrom best bv i xs →
        (l ++ xs)[j] < (l ++ xs)[indexMaxFrom best bv i xs] := by
  induction xs generalizing l best bv i with
  | nil =>
      simp only [List.append_nil, indexMaxFrom]
      have hb' : best < l.length := by omega
      rw [List.getElem?_eq_getElem hb'] at hbv
      simp only [Option.some.injEq] at hbv
      exact ⟨hb', by rw [hbv]; exact hmax, by rw [hbv]; exact hfirst⟩
  | cons x xs ih =>
      unfold indexMaxFrom
      have e : l ++ x :: xs = (l ++ [x]) ++ xs := by simp
      by_cases h : bv < x
      · simp only [h, if_true]
        have := ih (l ++ [x]) i (i + 1) x (by simp [hl]) (by omega) (by simp [← hl]) ?_ ?_
        · rw [e]; exact this
        · intro y hy
          rcases List.mem_append.1 hy with hy | hy
          · exact (hmax y hy).trans h.le
          · simp at hy; exact hy.le
        · intro j hj hji
          rw [List.getElem_append_left (by omega)]
          exact (hmax _ (List.getElem_mem _)).trans_lt h
      · simp only [h, if_false]
        have hb' : best < l.length := by omega
        have := ih (l ++ [x]) best (i + 1) bv (by simp [hl]) (by omega)
          (by rw [List.getElem?_append_left hb']; exact hbv) ?_ ?_
        · rw [e]; exact this
        · intro y hy
          rcases List.mem_append.1 hy with hy | hy
          · exact hmax y hy
          · simp at hy; subst hy; exact not_lt.1 h
        · intro j hj hji
          rw [List.getElem_append_left (by omega)]
          exact hfirst _ _ hji

/-! ### shuffle -/

/-- exchange of two entries -/
def swapAt (l : List α) (i j : Nat) (hi : i < l.length) (hj : j < l.length) : List α :=
  (l.set i l[j]).set j l[i]

theorem swapAt_length (l : List α) (i j : Nat) (hi : i < l.length) (hj : j < l.length) :
    (swapAt l i j hi hj).length = l.length := by simp [swapAt]

theorem swapAt_perm (l : List α) (i j : Nat) (hi : i < l.length) (hj : j < l.length) :
    (swapAt l i j hi hj).Perm l := by
  exact List.set_set_perm hi hj

theorem swapAt_getElem (l : List α) (i j : Nat) (hi : i < l.length) (hj : j < l.length) (m : Nat)
    (hm : m < (swapAt l i j hi hj).length) :
    (swapAt l i j hi hj)[m] = if m = j then l[i] else if m = i then l[j]
      else l[m]'(by simpa [swapAt] using hm) := by
  simp only [swapAt, List.getElem_set]
  by_cases h1 : j = m
  · simp [h1]
  · by_cases h2 : i = m
    · simp [h1, h2, Ne.symm h1]
    · simp [h1, h2, Ne.symm h1, Ne.symm h2]

theorem trunc_range {u : K} (h0 : 0 ≤ u) (h1 : u < 1) {i : Nat} (hi : 1 ≤ i) :
    0 ≤ trunc (u * (i : K)) ∧ trunc (u * (i : K)) < i := by
  have hpos : (0 : K) < i := by exact_mod_cast hi
  rw [trunc_nonneg (mul_nonneg h0 hpos.le)]
  refine ⟨Int.floor_nonneg.2 (mul_nonneg h0 hpos.le), ?_⟩
  rw [Int.floor_lt]
  calc u * (i : K) < 1 * i := by nlinarith
    _ = ((i : Int) : K) := by simp

/-- one iteration exchanges entry `i` with an entry of smaller index -/
theorem shuffleStep_eq (l : List α) (i : Nat) (u : K) (h0 : 0 ≤ u) (h1 : u < 1) (hi1 : 1 ≤ i)
    (hi : i < l.length) :
    ∃ (j : Nat) (hj : j < l.length), j < i ∧ j = (trunc (u * (i : K))).toNat ∧
      shuffleStep l i u = .ok (swapAt l i j hi hj) := by
  obtain ⟨a, b⟩ := trunc_range h0 h1 hi1
  have hj : (trunc (u * (i : K))).toNat < l.length := by omega
  refine ⟨(trunc (u * (i : K))).toNat, hj, by omega, rfl, ?_⟩
  have hn : ¬ trunc (u * (i : K)) < 0 := by omega
  simp only [shuffleStep, rd_ok hi, bind, Except.bind, hn, if_false, rd_ok hj, wr_ok _ hi]
  rw [wr_ok _ (by simpa using hj)]
  rfl

theorem shuffleLoop_spec (u : Nat → K) (hu : ∀ i, 0 ≤ u i ∧ u i < 1) (i : Nat) (l : List α)
    (hi : i < l.length ∨ i = 0) :
    ∃ r, shuffleLoop u i l = .ok r ∧ r.Perm l ∧
      (∀ m, i < m → r[m]? = l[m]?) ∧
      (l.Nodup → 1 ≤ i → ∀ m, m ≤ i → r[m]? ≠ l[m]?) := by
  induction i generalizing l with
  | zero => exact ⟨l, rfl, List.Perm.refl _, fun _ _ => rfl, fun _ h => by omega⟩
  | succ i ih =>
      have hlt : i + 1 < l.length := by omega
      obtain ⟨j, hj, hji, _, h1⟩ := shuffleStep_eq l (i + 1) (u (i + 1)) (hu _).1 (hu _).2 (by omega) hlt
      obtain ⟨r, r1, r2, r3, r4⟩ := ih (swapAt l (i + 1) j hlt hj) (by rw [swapAt_length]; omega)
      have hlen : r.length = l.length := by rw [r2.length_eq, swapAt_length]
      have hsl := swapAt_length l (i + 1) j hlt hj
      have hget : ∀ m (hm : m < l.length), (swapAt l (i + 1) j hlt hj)[m]? =
          some (if m = j then l[i + 1] else if m = i + 1 then l[j] else l[m]) := by
        intro m hm
        rw [List.getElem?_eq_getElem (by omega), swapAt_getElem]
      refine ⟨r, by simp [shuffleLoop, h1, bind, Except.bind, r1], r2.trans (swapAt_perm ..), ?_, ?_⟩
      · intro m hm
        rw [r3 m (by omega)]
        by_cases hml : m < l.length
        · rw [hget m hml, List.getElem?_eq_getElem hml, if_neg (by omega), if_neg (by omega)]
        · rw [List.getElem?_eq_none (by omega), List.getElem?_eq_none (by omega)]
      · intro hn _ m hm
        have hnr : r.Nodup := (r2.trans (swapAt_perm ..)).nodup_iff.2 hn
        have hns : (swapAt l (i + 1) j hlt hj).Nodup := (swapAt_perm ..).nodup_iff.2 hn
        have hml : m < l.length := by omega
        by_cases hmi : m = i + 1
        · subst hmi
          rw [r3 _ (by omega), hget _ hml, List.getElem?_eq_getElem hml]
          have : ¬ i + 1 = j := by omega
          simp only [this, if_false, if_true]
          intro h
          simp only [Option.some.injEq] at h
          exact absurd ((List.Nodup.getElem_inj_iff hn).1 h) (by omega)
        · by_cases hmj : m = j
          · -- `l[j]` sits at `i+1` in the result
            have h5 : r[i + 1]? = l[m]? := by
              rw [r3 _ (by omega), hget _ hlt, List.getElem?_eq_getElem hml]
              have : ¬ i + 1 = j := by omega
              simp only [this, if_false, if_true, hmj]
            rw [← h5, List.getElem?_eq_getElem (by omega), List.getElem?_eq_getElem (by omega)]
            intro h
            simp only [Option.some.injEq] at h
            exact absurd ((List.Nodup.getElem_inj_iff hnr).1 h) (by omega)
          · have hi1 : 1 ≤ i := by omega
            have := r4 hns hi1 m (by omega)
            rw [hget m hml, if_neg hmj, if_neg hmi] at this
            rwa [List.getElem?_eq_getElem hml]

end Orp.Utils
