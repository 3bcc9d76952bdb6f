import Verif.Utils.Props
import Mathlib.GroupTheory.Perm.Cycle.Basic
import Mathlib.Data.Nat.Factorial.BigOperators

/-!
`shuffle` produces exactly the cyclic arrangements (Sattolo's algorithm), each with the same probability: C64.
-/

set_option linter.unusedSectionVars false

namespace Orp.Utils

open MeasureTheory Equiv
open Orp.Reservoir (U01)

variable {α : Type} {K : Type} [Field K] [LinearOrder K] [IsStrictOrderedRing K] [FloorRing K]

/-- `σ` is one single cycle through `0, …, n-1` and fixes everything else -/
def FullCycle (n : Nat) (σ : Perm Nat) : Prop :=
  σ.IsCycleOn {m | m < n} ∧ ∀ m, n ≤ m → σ m = m

/-- if two permutations agree along an orbit segment, so do their powers -/
theorem pow_agree (f g : Perm Nat) (x : Nat) (n : Nat) (h : ∀ m < n, g ((f ^ m) x) = f ((f ^ m) x)) :
    (g ^ n) x = (f ^ n) x := by
  induction n with
  | zero => rfl
  | succ n ih =>
      rw [pow_succ', pow_succ', Perm.mul_apply, Perm.mul_apply, ih (fun m hm => h m (by omega))]
      exact h n (by omega)

theorem fullCycle_pow {f : Perm Nat} {n : Nat} (hf : FullCycle n f) {x y : Nat} (hx : x < n) (hy : y < n) :
    ∃ m, (f ^ m) x = y ∧ ∀ m' < m, (f ^ m') x ≠ y := by
  classical
  have hfin : ({m | m < n} : Set Nat).Finite := Set.finite_lt_nat n
  have h : ∃ m, (f ^ m) x = y := hf.1.exists_pow_eq' hfin hx hy
  exact ⟨Nat.find h, Nat.find_spec h, fun m' hm => Nat.find_min h hm⟩

theorem fullCycle_lt {f : Perm Nat} {n : Nat} (hf : FullCycle n f) {x : Nat} : f x < n ↔ x < n := by
  constructor
  · intro h
    by_contra hx
    rw [hf.2 x (by omega)] at h
    exact hx h
  · intro h
    exact hf.1.1.mapsTo h

theorem fullCycle_pow_lt {f : Perm Nat} {n : Nat} (hf : FullCycle n f) {x : Nat} (hx : x < n) (m : Nat) :
    (f ^ m) x < n := by
  induction m with
  | zero => simpa
  | succ m ih => rw [pow_succ', Perm.mul_apply]; exact (fullCycle_lt hf).2 ih

/-- a permutation fixing everything from `n` on, all of whose points below `n` lead to `y`, is a full cycle -/
theorem fullCycle_of {f : Perm Nat} {n y : Nat} (hfix : ∀ m, n ≤ m → f m = m)
    (hall : ∀ x < n, ∃ m, (f ^ m) x = y) : FullCycle n f := by
  refine ⟨⟨?_, ?_⟩, hfix⟩
  · have hmaps : ∀ x, x < n → f x < n := by
      intro x hx
      by_contra h
      have h2 := hfix (f x) (by omega)
      have := f.injective h2
      omega
    refine ⟨fun x hx => hmaps x hx, f.injective.injOn, ?_⟩
    intro z hz
    refine ⟨f⁻¹ z, ?_, by simp⟩
    have hz : z < n := hz
    show f⁻¹ z < n
    by_contra h
    have h2 := hfix (f⁻¹ z) (by omega)
    have h3 : f (f⁻¹ z) = z := by simp
    omega
  · intro x hx z hz
    obtain ⟨a, ha⟩ := hall x hx
    obtain ⟨b, hb⟩ := hall z hz
    have h1 : f.SameCycle x y := ⟨a, by simpa using ha⟩
    have h2 : f.SameCycle z y := ⟨b, by simpa using hb⟩
    exact h1.trans h2.symm

/-- inserting `n` before `j` in a full cycle -/
theorem fullCycle_insert {f : Perm Nat} {n j : Nat} (hf : FullCycle n f) (hj : j < n) :
    FullCycle (n + 1) (swap n j * f) := by
  refine fullCycle_of (y := n) ?_ ?_
  · intro m hm
    rw [Perm.mul_apply, hf.2 m (by omega), swap_apply_of_ne_of_ne (by omega) (by omega)]
  · intro x hx
    by_cases hxn : x = n
    · exact ⟨0, by simp [hxn]⟩
    · have hxn : x < n := by omega
      have hpre : f⁻¹ j < n := by
        rw [← fullCycle_lt hf]; simpa
      obtain ⟨m, hm, hmin⟩ := fullCycle_pow hf hxn hpre
      refine ⟨m + 1, ?_⟩
      have hagree : ((swap n j * f) ^ m) x = (f ^ m) x := by
        apply pow_agree
        intro m' hm'
        have h1 := hmin m' hm'
        have h2 := fullCycle_pow_lt hf hxn m'
        have h3 := (fullCycle_lt hf).2 h2
        rw [Perm.mul_apply, swap_apply_of_ne_of_ne (by omega)]
        intro h4
        apply h1
        rw [← h4]; simp
      rw [pow_succ', Perm.mul_apply, hagree, hm]
      simp

/-- removing `n` from a full cycle through `0, …, n` -/
theorem fullCycle_remove {f : Perm Nat} {n : Nat} (hn : 1 ≤ n) (hf : FullCycle (n + 1) f) :
    f n < n ∧ FullCycle n (swap n (f n) * f) := by
  have hlt : f n < n := by
    have h1 : f n < n + 1 := (fullCycle_lt hf).2 (by omega)
    by_contra h
    have h2 : f n = n := by omega
    obtain ⟨m, hm, hmm⟩ := fullCycle_pow hf (x := n) (y := 0) (by omega) (by omega)
    clear hmm
    have : (f ^ m) n = n := by
      clear hm
      induction m with
      | zero => rfl
      | succ m ih => rw [pow_succ, Perm.mul_apply, h2]; exact ih
    omega
  refine ⟨hlt, fullCycle_of (y := f n) ?_ ?_⟩
  · intro m hm
    by_cases h : m = n
    · subst h; simp
    · rw [Perm.mul_apply, hf.2 m (by omega), swap_apply_of_ne_of_ne h (by omega)]
  · intro x hx
    obtain ⟨m, hm, hmin⟩ := fullCycle_pow hf (x := x) (y := n) (by omega) (by omega)
    obtain ⟨m, rfl⟩ : ∃ m', m = m' + 1 := by
      cases m with
      | zero => simp at hm; omega
      | succ m => exact ⟨m, rfl⟩
    refine ⟨m + 1, ?_⟩
    have hagree : ((swap n (f n) * f) ^ m) x = (f ^ m) x := by
      apply pow_agree
      intro m' hm'
      have h1 := hmin (m' + 1) (by omega)
      rw [pow_succ', Perm.mul_apply] at h1
      rw [Perm.mul_apply, swap_apply_of_ne_of_ne h1]
      intro h4
      exact hmin m' (by omega) (f.injective h4)
    rw [pow_succ', Perm.mul_apply] at hm
    rw [pow_succ', Perm.mul_apply, hagree, Perm.mul_apply, hm]
    simp

theorem fullCycle_one : FullCycle 1 (1 : Perm Nat) :=
  fullCycle_of (y := 0) (by simp) (fun x hx => ⟨0, by simp; omega⟩)

theorem fullCycle_one_eq {σ : Perm Nat} (h : FullCycle 1 σ) : σ = 1 := by
  ext m
  by_cases hm : m < 1
  · have := (fullCycle_lt h).2 hm
    simp; omega
  · simpa using h.2 m (by omega)

/-- the composition of the exchanges made by the iterations `i, …, 1` with swap indices `js` -/
def cycleOf (js : Nat → Nat) : Nat → Perm Nat
  | 0 => 1
  | i + 1 => swap (i + 1) (js (i + 1)) * cycleOf js i

theorem cycleOf_full (js : Nat → Nat) (i : Nat) (h : ∀ m, 1 ≤ m → m ≤ i → js m < m) :
    FullCycle (i + 1) (cycleOf js i) := by
  induction i with
  | zero => exact fullCycle_one
  | succ i ih =>
      exact fullCycle_insert (ih fun m h1 h2 => h m h1 (by omega)) (h (i + 1) (by omega) le_rfl)

theorem cycleOf_congr {js js' : Nat → Nat} {i : Nat} (h : ∀ m, 1 ≤ m → m ≤ i → js m = js' m) :
    cycleOf js i = cycleOf js' i := by
  induction i with
  | zero => rfl
  | succ i ih =>
      simp only [cycleOf]
      rw [ih fun m h1 h2 => h m h1 (by omega), h (i + 1) (by omega) le_rfl]

/-- every full cycle comes from exactly one sequence of swap indices -/
theorem cycleOf_surj (i : Nat) (σ : Perm Nat) (h : FullCycle (i + 1) σ) :
    ∃ js : Nat → Nat, (∀ m, 1 ≤ m → m ≤ i → js m < m) ∧
      ∀ js', (∀ m, 1 ≤ m → m ≤ i → js' m < m) →
        (cycleOf js' i = σ ↔ ∀ m, 1 ≤ m → m ≤ i → js' m = js m) := by
  induction i generalizing σ with
  | zero =>
      refine ⟨fun _ => 0, by intro m; omega, fun js' _ => ⟨fun _ m h1 h2 => by omega, fun _ => ?_⟩⟩
      exact (fullCycle_one_eq h).symm
  | succ i ih =>
      obtain ⟨hlt, hrem⟩ := fullCycle_remove (by omega) h
      obtain ⟨js, hjs, huniq⟩ := ih _ hrem
      refine ⟨fun m => if m = i + 1 then σ (i + 1) else js m, ?_, ?_⟩
      · intro m h1 h2
        by_cases hm : m = i + 1
        · subst hm; simpa using hlt
        · simpa [hm] using hjs m h1 (by omega)
      · intro js' hjs'
        have hb : ∀ m, 1 ≤ m → m ≤ i → js' m < m := fun m h1 h2 => hjs' m h1 (by omega)
        have hfix : cycleOf js' i (i + 1) = i + 1 := (cycleOf_full js' i hb).2 _ le_rfl
        constructor
        · intro he
          have hj : js' (i + 1) = σ (i + 1) := by
            rw [← he]; simp [cycleOf, hfix]
          have he2 : cycleOf js' i = swap (i + 1) (σ (i + 1)) * σ := by
            rw [← hj, ← he]; simp [cycleOf]
          have h3 := (huniq js' hb).1 he2
          intro m h1 h2
          by_cases hm : m = i + 1
          · subst hm; simpa using hj
          · simpa [hm] using h3 m h1 (by omega)
        · intro he
          have hj : js' (i + 1) = σ (i + 1) := by simpa using he (i + 1) (by omega) le_rfl
          have h3 := (huniq js' hb).2 fun m h1 h2 => by
            have hm : ¬ m = i + 1 := by omega
            simpa [hm] using he m h1 (by omega)
          rw [cycleOf, h3, hj]; simp

/-- swap index used in iteration `m` -/
def swapIdx (u : Nat → K) (m : Nat) : Nat := (trunc (u m * (m : K))).toNat

theorem swapIdx_lt {u : Nat → K} (hu : ∀ i, 0 ≤ u i ∧ u i < 1) (m : Nat) (hm : 1 ≤ m) : swapIdx u m < m := by
  have := trunc_range (hu m).1 (hu m).2 hm
  unfold swapIdx; omega

/-- the loop rearranges the array by the composition of its exchanges -/
theorem shuffleLoop_cycle (u : Nat → K) (hu : ∀ i, 0 ≤ u i ∧ u i < 1) (i : Nat) (l : List α)
    (hi : i < l.length ∨ i = 0) :
    ∃ r, shuffleLoop u i l = .ok r ∧ r.length = l.length ∧ ∀ m, r[m]? = l[cycleOf (swapIdx u) i m]? := by
  induction i generalizing l with
  | zero => exact ⟨l, rfl, rfl, fun m => by simp [cycleOf]⟩
  | succ i ih =>
      have hlt : i + 1 < l.length := by omega
      obtain ⟨j, hj, hji, hjs, h1⟩ := shuffleStep_eq l (i + 1) (u (i + 1)) (hu _).1 (hu _).2 (by omega) hlt
      have hsl := swapAt_length l (i + 1) j hlt hj
      obtain ⟨r, r1, r2, r3⟩ := ih (swapAt l (i + 1) j hlt hj) (by omega)
      refine ⟨r, by simp [shuffleLoop, h1, bind, Except.bind, r1], by omega, fun m => ?_⟩
      rw [r3]
      have hjs' : swapIdx u (i + 1) = j := by rw [swapIdx, hjs]
      rw [cycleOf, Perm.mul_apply, hjs']
      generalize cycleOf (swapIdx u) i m = x
      by_cases hx : x < l.length
      · have hx' : swap (i + 1) j x < l.length := by
          rcases swap_apply_eq_iff.1 (rfl : swap (i + 1) j x = _) with h
          by_cases h1 : x = i + 1
          · subst h1; simpa
          · by_cases h2 : x = j
            · subst h2; simpa
            · rwa [swap_apply_of_ne_of_ne h1 h2]
        rw [List.getElem?_eq_getElem (by omega), swapAt_getElem, List.getElem?_eq_getElem hx']
        congr 1
        by_cases h2 : x = j
        · subst h2; simp
        · by_cases h1 : x = i + 1
          · subst h1; simp [h2]
          · simp [h1, h2, swap_apply_of_ne_of_ne h1 h2]
      · rw [swap_apply_of_ne_of_ne (by omega) (by omega), List.getElem?_eq_none (by omega),
          List.getElem?_eq_none (by omega)]

/-- **C64** The arrangements `shuffle` can produce on an array of `n ≥ 1` elements are exactly the cyclic ones:
every result moves the elements along one single cycle through all `n` places, and every such cycle is the result
for some random numbers. -/
theorem C64_exactly_the_cyclic_permutations (l : List α) (hl : 1 ≤ l.length) :
    (∀ u : Nat → K, (∀ i, 0 ≤ u i ∧ u i < 1) → ∃ σ r, FullCycle l.length σ ∧ shuffle l u = .ok r ∧
        r.length = l.length ∧ ∀ m, r[m]? = l[σ m]?) ∧
    (∀ σ, FullCycle l.length σ → ∃ (u : Nat → K) (r : List α), (∀ i, 0 ≤ u i ∧ u i < 1) ∧ shuffle l u = .ok r ∧
        r.length = l.length ∧ ∀ m, r[m]? = l[σ m]?) := by
  have hlen : l.length - 1 + 1 = l.length := by omega
  constructor
  · intro u hu
    obtain ⟨r, h1, h2, h3⟩ := shuffleLoop_cycle u hu (l.length - 1) l (by omega)
    have hc := cycleOf_full (swapIdx u) (l.length - 1) fun m hm _ => swapIdx_lt hu m hm
    rw [hlen] at hc
    exact ⟨_, r, hc, h1, h2, h3⟩
  · intro σ hσ
    rw [← hlen] at hσ
    obtain ⟨js, hjs, huniq⟩ := cycleOf_surj (l.length - 1) σ hσ
    let u : Nat → K := fun m => if 1 ≤ m ∧ m ≤ l.length - 1 then (js m : K) / (m : K) else 0
    have hu : ∀ i, 0 ≤ u i ∧ u i < 1 := by
      intro i
      by_cases h : 1 ≤ i ∧ i ≤ l.length - 1
      · have hpos : (0 : K) < i := by exact_mod_cast h.1
        simp only [u, h, if_true, and_self]
        refine ⟨by positivity, ?_⟩
        rw [div_lt_one hpos]
        exact_mod_cast hjs i h.1 h.2
      · simp [u, h]
    have hidx : ∀ m, 1 ≤ m → m ≤ l.length - 1 → swapIdx u m = js m := by
      intro m h1 h2
      have hpos : (0 : K) < m := by exact_mod_cast h1
      have : u m * (m : K) = (js m : K) := by
        simp only [u, h1, h2, if_true, and_self]
        field_simp
      rw [swapIdx, this, trunc_nonneg (by positivity)]
      simp
    obtain ⟨r, h1, h2, h3⟩ := shuffleLoop_cycle u hu (l.length - 1) l (by omega)
    have he := (huniq (swapIdx u) fun m hm _ => swapIdx_lt hu m hm).2 hidx
    rw [he] at h3
    exact ⟨u, r, hu, h1, h2, h3⟩

/-- a full cycle on three places -/
example : FullCycle 3 (swap 2 0 * swap 1 0) :=
  fullCycle_insert (fullCycle_insert fullCycle_one (by decide) (j := 0)) (by decide)

/-- **C64** With ideal independent uniform random numbers every cyclic arrangement of an array of distinct elements
has the same probability `1/(n-1)!`. (`w i` is the number drawn in iteration `i`; iteration 0 does not exist.) -/
theorem C64_equal_probability (l : List α) (hl : 1 ≤ l.length) (hn : l.Nodup) (σ : Perm Nat)
    (hσ : FullCycle l.length σ) :
    volume {w : Fin l.length → U01 | ∃ r, r.length = l.length ∧ (∀ m, r[m]? = l[σ m]?) ∧
        shuffle l (fun i => if h : i < l.length then (w ⟨i, h⟩).1 else 0) = .ok r}
      = ENNReal.ofReal (1 / ((l.length - 1).factorial : ℝ)) := by
  have hlen : l.length - 1 + 1 = l.length := by omega
  have hσ' := hσ
  rw [← hlen] at hσ'
  obtain ⟨js, hjs, huniq⟩ := cycleOf_surj (l.length - 1) σ hσ'
  let U : (Fin l.length → U01) → Nat → ℝ := fun w i => if h : i < l.length then (w ⟨i, h⟩).1 else 0
  have hU : ∀ w i, 0 ≤ U w i ∧ U w i < 1 := by
    intro w i
    by_cases h : i < l.length
    · simp only [U, h, dif_pos]; exact (w ⟨i, h⟩).2
    · simp [U, h]
  let S : (i : Fin l.length) → Set U01 := fun i =>
    if 1 ≤ i.val then {v | ⌊v.1 * (i.val : ℝ)⌋.toNat = js i.val} else Set.univ
  have hset : {w : Fin l.length → U01 | ∃ r, r.length = l.length ∧ (∀ m, r[m]? = l[σ m]?) ∧
        shuffle l (fun i => if h : i < l.length then (w ⟨i, h⟩).1 else 0) = .ok r} = Set.univ.pi S := by
    ext w
    obtain ⟨r, h1, h2, h3⟩ := shuffleLoop_cycle (U w) (hU w) (l.length - 1) l (by omega)
    have hiff := huniq (swapIdx (U w)) fun m hm _ => swapIdx_lt (hU w) m hm
    have hS : w ∈ Set.univ.pi S ↔ ∀ m, 1 ≤ m → m ≤ l.length - 1 → swapIdx (U w) m = js m := by
      simp only [Set.mem_pi, Set.mem_univ, true_implies]
      have key : ∀ (m : Nat) (hm : m < l.length), 1 ≤ m →
          (w ⟨m, hm⟩ ∈ S ⟨m, hm⟩ ↔ swapIdx (U w) m = js m) := by
        intro m hm h1
        have hnn : 0 ≤ (w ⟨m, hm⟩).1 * (m : ℝ) := mul_nonneg (w ⟨m, hm⟩).2.1 (by positivity)
        simp only [S, h1, if_true, Set.mem_ofPred_eq, swapIdx, U, hm, dif_pos, trunc_nonneg hnn]
      constructor
      · intro h m h1 h2
        exact (key m (by omega) h1).1 (h ⟨m, by omega⟩)
      · intro h i
        by_cases h1 : 1 ≤ i.val
        · exact (key i.val i.2 h1).2 (h i.val h1 (by omega))
        · simp [S, h1]
    rw [hS, ← hiff]
    simp only [Set.mem_ofPred_eq]
    constructor
    · rintro ⟨r', hr1, hr2, hr3⟩
      have : r' = r := by
        have h4 : shuffleLoop (U w) (l.length - 1) l = .ok r' := hr3
        rw [h1] at h4
        cases h4; rfl
      subst this
      have hfull := cycleOf_full (swapIdx (U w)) (l.length - 1) fun m hm _ => swapIdx_lt (hU w) m hm
      rw [hlen] at hfull
      ext m
      by_cases hm : m < l.length
      · have a1 := (fullCycle_lt hfull).2 hm
        have a2 := (fullCycle_lt hσ).2 hm
        have h5 := h3 m
        rw [hr2 m, List.getElem?_eq_getElem a1, List.getElem?_eq_getElem a2] at h5
        simp only [Option.some.injEq] at h5
        exact ((List.Nodup.getElem_inj_iff hn).1 h5).symm
      · rw [hfull.2 m (by omega), hσ.2 m (by omega)]
    · intro he
      rw [he] at h3
      exact ⟨r, h2, h3, h1⟩
  rw [hset, volume_pi_pi]
  have hvol : ∀ i : Fin l.length, volume (S i) = ENNReal.ofReal (if 1 ≤ i.val then 1 / (i.val : ℝ) else 1) := by
    intro i
    by_cases h1 : 1 ≤ i.val
    · simp only [S, h1, if_true]
      exact Orp.Reservoir.vol_floor h1 (hjs i.val h1 (by omega))
    · simp only [S, h1, if_false]
      rw [measure_univ, ENNReal.ofReal_one]
  simp only [hvol]
  rw [← ENNReal.ofReal_prod_of_nonneg (fun i _ => by split <;> positivity)]
  congr 1
  rw [Fin.prod_univ_eq_prod_range (fun m : Nat => if 1 ≤ m then 1 / (m : ℝ) else 1) l.length, ← hlen]
  generalize l.length - 1 = k
  induction k with
  | zero => simp
  | succ k ih =>
      rw [Finset.prod_range_succ, ih, Nat.add_sub_cancel, Nat.add_sub_cancel, Nat.factorial_succ]
      rw [if_pos (by omega : 1 ≤ k + 1)]
      push_cast
      field_simp

end Orp.Utils
