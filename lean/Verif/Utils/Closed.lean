import Verif.Utils.Props

/-!
C163: `shuffle` and `pick_from_distribution` with a random function that can also return 1, such as the
`(double)rand()/(double)RAND_MAX` of the README (README.md:26).
-/

set_option linter.unusedSectionVars false

namespace Orp.Utils

variable {α : Type} {K : Type} [Field K] [LinearOrder K] [IsStrictOrderedRing K] [FloorRing K]

theorem trunc_range_closed {u : K} (h0 : 0 ≤ u) (h1 : u ≤ 1) {i : Nat} (hi : 1 ≤ i) :
    0 ≤ trunc (u * (i : K)) ∧ trunc (u * (i : K)) ≤ i ∧ (trunc (u * (i : K)) = i ↔ u = 1) := by
  rcases lt_or_eq_of_le h1 with h | h
  · obtain ⟨a, b⟩ := trunc_range h0 h hi
    exact ⟨a, b.le, fun e => by omega, fun e => absurd e h.ne⟩
  · subst h
    have hpos : (0 : K) ≤ i := by exact_mod_cast Nat.zero_le i
    have : trunc (1 * (i : K)) = i := by rw [one_mul, trunc_nonneg hpos, Int.floor_natCast]
    rw [this]
    exact ⟨by omega, le_rfl, fun _ => rfl, fun _ => rfl⟩

/-- one iteration exchanges entry `i` with an entry of index at most `i`, and with itself only if the number is 1 -/
theorem shuffleStep_closed (l : List α) (i : Nat) (u : K) (h0 : 0 ≤ u) (h1 : u ≤ 1) (hi1 : 1 ≤ i) (hi : i < l.length) :
    ∃ (j : Nat) (hj : j < l.length), j ≤ i ∧ (j = i ↔ u = 1) ∧ shuffleStep l i u = .ok (swapAt l i j hi hj) := by
  obtain ⟨a, b, c⟩ := trunc_range_closed h0 h1 hi1
  have hj : (trunc (u * (i : K))).toNat < l.length := by omega
  refine ⟨(trunc (u * (i : K))).toNat, hj, by omega, ?_, ?_⟩
  · rw [← c]; omega
  · have hn : ¬ trunc (u * (i : K)) < 0 := by omega
    simp only [shuffleStep, rd_ok hi, bind, Except.bind, hn, if_false, rd_ok hj, wr_ok _ hi]
    rw [wr_ok _ (by simpa using hj)]
    rfl

theorem swapAt_self (l : List α) (i : Nat) (hi : i < l.length) : swapAt l i i hi hi = l := by
  simp [swapAt]

theorem shuffleLoop_closed (u : Nat → K) (hu : ∀ i, 0 ≤ u i ∧ u i ≤ 1) (i : Nat) (l : List α) (hi : i < l.length ∨ i = 0) :
    ∃ r, shuffleLoop u i l = .ok r ∧ r.Perm l ∧ (∀ m, i < m → r[m]? = l[m]?) ∧
      (l.Nodup → (r = l ↔ ∀ k, 1 ≤ k → k ≤ i → u k = 1)) := by
  induction i generalizing l with
  | zero => exact ⟨l, rfl, List.Perm.refl _, fun _ _ => rfl, fun _ => ⟨fun _ k h1 h2 => by omega, fun _ => rfl⟩⟩
  | succ i ih =>
      have hlt : i + 1 < l.length := by omega
      obtain ⟨j, hj, hji, hj1, h1⟩ := shuffleStep_closed l (i + 1) (u (i + 1)) (hu _).1 (hu _).2 (by omega) hlt
      obtain ⟨r, r1, r2, r3, r4⟩ := ih (swapAt l (i + 1) j hlt hj) (by rw [swapAt_length]; omega)
      have hget : ∀ m (hm : m < l.length), (swapAt l (i + 1) j hlt hj)[m]? =
          some (if m = j then l[i + 1] else if m = i + 1 then l[j] else l[m]) := by
        intro m hm
        rw [List.getElem?_eq_getElem (by rw [swapAt_length]; exact hm), swapAt_getElem]
      refine ⟨r, by simp [shuffleLoop, h1, bind, Except.bind, r1], r2.trans (swapAt_perm ..), ?_, ?_⟩
      · intro m hm
        rw [r3 m (by omega)]
        by_cases hml : m < l.length
        · rw [hget m hml, List.getElem?_eq_getElem hml, if_neg (by omega), if_neg (by omega)]
        · rw [List.getElem?_eq_none (by rw [swapAt_length]; omega), List.getElem?_eq_none (by omega)]
      · intro hn
        have hns : (swapAt l (i + 1) j hlt hj).Nodup := (swapAt_perm ..).nodup_iff.2 hn
        have hr4 := r4 hns
        constructor
        · intro hrl
          have hlast : j = i + 1 := by
            have h5 := r3 (i + 1) (by omega)
            rw [hrl, hget _ hlt, List.getElem?_eq_getElem hlt] at h5
            by_contra hne
            rw [if_neg (by omega), if_pos rfl, Option.some.injEq] at h5
            exact hne ((List.Nodup.getElem_inj_iff hn).1 h5).symm
          subst hlast
          rw [swapAt_self] at hr4
          intro k k1 k2
          rcases Nat.lt_or_ge i k with h | h
          · have : k = i + 1 := by omega
            subst this
            exact hj1.1 rfl
          · exact hr4.1 hrl k k1 h
        · intro hall
          have : j = i + 1 := hj1.2 (hall _ (by omega) le_rfl)
          subst this
          rw [swapAt_self] at hr4
          exact hr4.2 (fun k k1 k2 => hall k k1 (by omega))

/-- **C163** With random numbers between 0 and 1, both included, `shuffle` stays inside the array and returns an arrangement of its elements.
The array of distinct elements comes back unchanged if and only if every number drawn is 1. -/
theorem C163_shuffle (l : List α) (u : Nat → K) (hu : ∀ i, 0 ≤ u i ∧ u i ≤ 1) :
    ∃ r, shuffle l u = .ok r ∧ r.Perm l ∧ (l.Nodup → (r = l ↔ ∀ k, 1 ≤ k → k < l.length → u k = 1)) := by
  obtain ⟨r, h1, h2, _, h4⟩ := shuffleLoop_closed u hu (l.length - 1) l (by omega)
  refine ⟨r, h1, h2, fun hn => ?_⟩
  rw [h4 hn]
  exact ⟨fun h k k1 k2 => h k k1 (by omega), fun h k k1 k2 => h k k1 (by omega)⟩

/- an array of three, with 1 drawn once, and drawn each time -/
example : shuffle [1, 2, 3] (fun i => if i = 1 then 1 else (1 / 2 : ℚ)) = .ok [1, 3, 2] ∧
    shuffle [1, 2, 3] (fun _ => (1 : ℚ)) = .ok [1, 2, 3] := by decide +kernel

/-- **C163** With a random number of at most 1, `pick_from_distribution` returns an index in range, namely the first one whose cumulated probability
reaches the number. -/
theorem C163_pick (p : List K) (hmono : ∀ i j (_ : i ≤ j) (h : j < p.length), p[i] ≤ p[j]) (hlast : p.getLast? = some 1) {u : K} (hu : u ≤ 1) :
    pick p u < p.length ∧ ∀ i (hi : i < p.length), pick p u = i ↔ (∀ h : 1 ≤ i, p[i - 1] < u) ∧ u ≤ p[i] := by
  have hne : p ≠ [] := by rintro rfl; simp at hlast
  have hpos : 0 < p.length := List.length_pos_iff.2 hne
  have hl : p[p.length - 1] = 1 := by
    rw [List.getLast?_eq_getElem?, List.getElem?_eq_getElem (by omega)] at hlast
    simpa using hlast
  constructor
  · obtain ⟨m, h1, h2, h3, h4⟩ := pickFrom_spec u p 0
    unfold pick
    rw [h1]
    by_contra hge
    have := h3 (p.length - 1) (by omega) (by omega)
    rw [hl] at this
    exact absurd hu (not_le.2 this)
  · intro i hi
    rw [pick_eq_iff p u i hi]
    constructor
    · rintro ⟨a, b⟩; exact ⟨fun h => a (i - 1) (by omega) (by omega), b⟩
    · rintro ⟨a, b⟩
      refine ⟨fun j hj hji => ?_, b⟩
      exact (hmono j (i - 1) (by omega) (by omega)).trans_lt (a (by omega))

example : pick ([1 / 5, 1 / 2, 1, 1] : List ℚ) 1 = 2 := by decide +kernel

end Orp.Utils
