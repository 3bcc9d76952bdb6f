import Verif.Chained.Long
import Verif.Reservoir.Joint
import Mathlib.Algebra.BigOperators.Fin
import Mathlib.Algebra.BigOperators.Intervals

/-!
C66: the exact law of what a chained reservoir shows when `obsolete` is not used. The program does not sample uniformly; these theorems say what it does instead.
-/

set_option linter.unusedSectionVars false

namespace Orp.Chained

open MeasureTheory Orp.Reservoir

variable {α K : Type} [Field K] [LinearOrder K] [FloorRing K] [IsStrictOrderedRing K]

/-! ### Which item a slot shows -/

/-- the item number `k` replaces what slot `i` shows -/
def Hit (n k : Nat) (c : Call α K) (i : Nat) : Prop := c.r1 < (n : K) / (k : K) ∧ draw n c.r2 = i

/-- slot `i` shows item `m`: the last one that replaced it, or the first one it was filled with -/
def ShowsItem (n : Nat) (cs : List (Call α K)) (i m : Nat) : Prop :=
  (m < n → m = i) ∧ (∀ c, n ≤ m → cs[m]? = some c → Hit n m c i) ∧ ∀ k c, n ≤ k → m < k → cs[k]? = some c → ¬ Hit n k c i

theorem map_added_length (cs : List (Call α K)) : (added (cs.map Op.add)).length = cs.length := by
  rw [added_map, List.length_map]

theorem absRun_item (g : List α) (hn1 : 1 ≤ g.length) (cs : List (Call α K)) (hv : ∀ c ∈ cs, c.Valid) (hts : ∀ c ∈ cs, c.ts ≠ 0) :
    ∀ j < min g.length cs.length, ∃ m c xs, cs[m]? = some c ∧ (absRun g.length (absNew g) (cs.map Op.add)).con j = (c.e, c.ts) :: xs ∧ ShowsItem g.length cs j m := by
  induction cs using List.reverseRecOn with
  | nil => simp
  | append_singleton cs c ih =>
      have ih := ih (fun c hc => hv c (by simp [hc])) (fun c hc => hts c (by simp [hc]))
      have hcnt : (absRun g.length (absNew g) (cs.map Op.add)).counter = cs.length := by
        rw [absRun_counter, map_added_length]
        simp [absNew]
      rw [List.map_append, List.map_singleton, absRun_snoc]
      generalize hA : absRun g.length (absNew g) (cs.map Op.add) = a at ih hcnt
      have new : (cs ++ [c])[cs.length]? = some c := by simp
      -- an item that is not replaced
      have old : ∀ j < min g.length cs.length, (g.length ≤ cs.length → ¬ Hit g.length cs.length c j) →
          ∃ m d xs, (cs ++ [c])[m]? = some d ∧ a.con j = (d.e, d.ts) :: xs ∧ ShowsItem g.length (cs ++ [c]) j m := by
        intro j hj hh
        obtain ⟨m, d, xs, h1, h2, h3, h4, h5⟩ := ih j hj
        have hm := (List.getElem?_eq_some_iff.1 h1).1
        refine ⟨m, d, xs, by rw [List.getElem?_append_left hm]; exact h1, h2, h3, ?_, ?_⟩
        · intro c' hm' hc'
          rw [List.getElem?_append_left hm] at hc'
          exact h4 c' hm' hc'
        · intro k c' hk hmk hc'
          rcases Nat.lt_or_ge k cs.length with hkl | hkl
          · rw [List.getElem?_append_left hkl] at hc'
            exact h5 k c' hk hmk hc'
          · have hkl' : k = cs.length := by
              have := (List.getElem?_eq_some_iff.1 hc').1
              simp at this
              omega
            subst hkl'
            rw [new] at hc'
            cases hc'
            exact hh hk
      have fresh : ∀ k d, cs.length < k → (cs ++ [c])[k]? = some d → False := by
        intro k d hk hd
        have := (List.getElem?_eq_some_iff.1 hd).1
        simp at this
        omega
      have hhead : ∀ j < min g.length (cs.length + 1), ∃ m d xs, (cs ++ [c])[m]? = some d ∧ (absHead g.length a c).con j = (d.e, d.ts) :: xs ∧
          ShowsItem g.length (cs ++ [c]) j m := by
        unfold absHead
        rw [hcnt]
        split
        · rename_i hlt
          intro j hj
          by_cases e : j = cs.length
          · subst e
            exact ⟨cs.length, c, [], new, by simp, fun _ => rfl, fun _ h => by omega, fun k d _ hk hd => (fresh k d hk hd).elim⟩
          · simp only [Function.update_of_ne e]
            exact old j (by omega) (fun h => by omega)
        · rename_i hlt
          split
          · rename_i hr
            intro j hj
            by_cases e : j = draw g.length c.r2
            · subst e
              refine ⟨cs.length, c, _, new, by simp only [Function.update_self]; rfl, fun h => by omega, ?_, fun k d _ hk hd => (fresh k d hk hd).elim⟩
              intro c' _ hc'
              rw [new] at hc'
              cases hc'
              exact ⟨hr, rfl⟩
            · simp only [Function.update_of_ne e]
              exact old j (by omega) (fun _ h => e h.2.symm)
          · rename_i hr
            exact fun j hj => old j (by omega) (fun _ h => hr h.1)
      intro j hj
      simp only [List.length_append, List.length_cons, List.length_nil] at hj
      obtain ⟨m, d, xs, h1, h2, h3⟩ := hhead j (by omega)
      have hd0 : d.ts ≠ 0 := hts d (List.mem_of_getElem? h1)
      simp only [absStep, absAdd, absPush]
      by_cases hp : j < g.length ∧ (absHead g.length a c).counter = (absHead g.length a c).nx j
      · rw [if_pos hp, h2, pushList_head hd0]; exact ⟨m, d, _, h1, rfl, h3⟩
      · rw [if_neg hp]; exact ⟨m, d, xs, h1, h2, h3⟩

/-- what the slots show after fewer than 5000 items -/
theorem run_item (g : List α) (hn : 1 ≤ g.length) (cs : List (Call α K)) (hv : ∀ c ∈ cs, c.Valid) (hts : ∀ c ∈ cs, c.ts ≠ 0) (hl : g.length ≤ cs.length) (hs : cs.length < 5000) :
    ∃ s, run g.length (new g) (cs.map Op.add) = .ok s ∧ ∀ i < g.length, ∃ m c, cs[m]? = some c ∧ get s i = .ok c.e ∧ ShowsItem g.length cs i m := by
  have hv' : ∀ op ∈ cs.map Op.add, op.Valid := by
    intro op hop
    obtain ⟨c, hc, rfl⟩ := List.mem_map.1 hop
    exact hv c hc
  obtain ⟨s, hr⟩ := C23_short g hn (cs.map Op.add) hv' (by rw [map_added_length]; exact hs)
  refine ⟨s, hr, fun i hi => ?_⟩
  rcases run_rep hn (cs.map Op.add) (new g) (absNew g) (new_rep g) hv' with ⟨h, _⟩ | ⟨s', h, hr'⟩
  · rw [h] at hr; cases hr
  · rw [h] at hr; cases hr
    obtain ⟨m, c, xs, h1, h2, h3⟩ := absRun_item g hn cs hv hts i (by omega)
    obtain ⟨x, ys, h4, h5⟩ := get_rep hr' hi
    rw [h2] at h4
    cases h4
    exact ⟨m, c, h1, h5, h3⟩

/-! ### The probabilities of the slots -/

/-- the probability with which an item that enters the sample replaces slot `i` -/
noncomputable def slotChance (n i : Nat) : ℝ := if n = 1 then 1 else if i = 0 ∨ i + 1 = n then 1 / (2 * ((n : ℝ) - 1)) else 1 / ((n : ℝ) - 1)

theorem draw_iff {n : Nat} (i : Nat) {u : ℝ} (h0 : 0 ≤ u) : draw n u = i ↔ (i : ℝ) - 1 / 2 ≤ u * ((n - 1 : Nat) : ℝ) ∧ u * ((n - 1 : Nat) : ℝ) < i + 1 / 2 := by
  have hnn : (0 : ℝ) ≤ u * ((n - 1 : Nat) : ℝ) := mul_nonneg h0 (Nat.cast_nonneg _)
  have hf : 0 ≤ ⌊u * ((n - 1 : Nat) : ℝ) + 1 / 2⌋ := Int.floor_nonneg.2 (by linarith)
  unfold draw round
  constructor
  · intro h
    have h' : ⌊u * ((n - 1 : Nat) : ℝ) + 1 / 2⌋ = (i : Int) := by omega
    rw [Int.floor_eq_iff] at h'
    obtain ⟨a, b⟩ := h'
    push_cast at a b
    constructor <;> linarith
  · rintro ⟨a, b⟩
    have h' : ⌊u * ((n - 1 : Nat) : ℝ) + 1 / 2⌋ = (i : Int) := by
      rw [Int.floor_eq_iff]
      push_cast
      constructor <;> linarith
    omega

theorem vol_Ico {a b : ℝ} (ha : 0 ≤ a) (hb : b ≤ 1) : volume {u : U01 | a ≤ u.1 ∧ u.1 < b} = ENNReal.ofReal (b - a) := by
  rw [vol_U01]
  have : Subtype.val '' {u : U01 | a ≤ u.1 ∧ u.1 < b} = Set.Ico a b := by
    ext x
    constructor
    · rintro ⟨u, hu, rfl⟩; exact hu
    · rintro ⟨h1, h2⟩; exact ⟨⟨x, ha.trans h1, lt_of_lt_of_le h2 hb⟩, ⟨h1, h2⟩, rfl⟩
  rw [this]; simp

theorem slotChance_nonneg {n : Nat} (hn : 1 ≤ n) (i : Nat) : 0 ≤ slotChance n i := by
  have h1 : (1 : ℝ) ≤ n := by exact_mod_cast hn
  unfold slotChance
  split
  · norm_num
  · split
    · exact div_nonneg zero_le_one (by linarith)
    · exact div_nonneg zero_le_one (by linarith)

theorem draw_chance {n i : Nat} (hi : i < n) : volume {u : U01 | draw n u.1 = i} = ENNReal.ofReal (slotChance n i) := by
  have e : {u : U01 | draw n u.1 = i} = {u : U01 | (i : ℝ) - 1 / 2 ≤ u.1 * ((n - 1 : Nat) : ℝ) ∧ u.1 * ((n - 1 : Nat) : ℝ) < i + 1 / 2} := by
    ext u
    exact draw_iff i u.2.1
  rw [e]
  unfold slotChance
  split
  · rename_i h1
    obtain rfl : i = 0 := by omega
    subst h1
    have : {u : U01 | ((0 : Nat) : ℝ) - 1 / 2 ≤ u.1 * ((1 - 1 : Nat) : ℝ) ∧ u.1 * ((1 - 1 : Nat) : ℝ) < ((0 : Nat) : ℝ) + 1 / 2} = Set.univ := by
      ext u
      norm_num
    rw [this, measure_univ, ENNReal.ofReal_one]
  · rename_i h1
    have h2 : (2 : ℝ) ≤ n := by exact_mod_cast (show 2 ≤ n by omega)
    have hc : ((n - 1 : Nat) : ℝ) = (n : ℝ) - 1 := by push_cast [Nat.cast_sub (show 1 ≤ n by omega)]; ring
    have hp : (0 : ℝ) < (n : ℝ) - 1 := by linarith
    rw [hc]
    split
    · rename_i h3
      rcases h3 with rfl | h3
      · have : {u : U01 | ((0 : Nat) : ℝ) - 1 / 2 ≤ u.1 * ((n : ℝ) - 1) ∧ u.1 * ((n : ℝ) - 1) < ((0 : Nat) : ℝ) + 1 / 2} = {u : U01 | 0 ≤ u.1 ∧ u.1 < 1 / (2 * ((n : ℝ) - 1))} := by
          ext u
          have := mul_nonneg u.2.1 hp.le
          simp only [Set.mem_ofPred_eq, lt_div_iff₀ (show (0 : ℝ) < 2 * ((n : ℝ) - 1) by linarith)]
          constructor
          · rintro ⟨-, b⟩
            push_cast at b
            exact ⟨u.2.1, by linarith⟩
          · rintro ⟨-, b⟩
            push_cast
            exact ⟨by linarith, by linarith⟩
        rw [this, vol_Ico le_rfl (by rw [div_le_one (by linarith)]; linarith), sub_zero]
      · have hi' : (i : ℝ) = (n : ℝ) - 1 := by
          rw [← h3]
          push_cast
          ring
        have : {u : U01 | (i : ℝ) - 1 / 2 ≤ u.1 * ((n : ℝ) - 1) ∧ u.1 * ((n : ℝ) - 1) < (i : ℝ) + 1 / 2} = {u : U01 | 1 - 1 / (2 * ((n : ℝ) - 1)) ≤ u.1 ∧ u.1 < 1} := by
          ext u
          have hu := mul_lt_mul_of_pos_right u.2.2 hp
          have e1 : (1 - 1 / (2 * ((n : ℝ) - 1))) * ((n : ℝ) - 1) = (n : ℝ) - 1 - 1 / 2 := by
            field_simp
          simp only [Set.mem_ofPred_eq]
          constructor
          · rintro ⟨a, -⟩
            refine ⟨le_of_mul_le_mul_right ?_ hp, u.2.2⟩
            rw [e1]
            linarith
          · rintro ⟨a, -⟩
            have := mul_le_mul_of_nonneg_right a hp.le
            rw [e1] at this
            exact ⟨by linarith, by linarith⟩
        rw [this, vol_Ico (by rw [sub_nonneg, div_le_one (by linarith)]; linarith) le_rfl]
        congr 1
        ring
    · rename_i h3
      push Not at h3
      have hi1 : (1 : ℝ) ≤ i := by exact_mod_cast (show 1 ≤ i by omega)
      have hi2 : (i : ℝ) + 2 ≤ n := by exact_mod_cast (show i + 2 ≤ n by omega)
      have : {u : U01 | (i : ℝ) - 1 / 2 ≤ u.1 * ((n : ℝ) - 1) ∧ u.1 * ((n : ℝ) - 1) < (i : ℝ) + 1 / 2} =
          {u : U01 | ((i : ℝ) - 1 / 2) / ((n : ℝ) - 1) ≤ u.1 ∧ u.1 < ((i : ℝ) + 1 / 2) / ((n : ℝ) - 1)} := by
        ext u
        simp only [Set.mem_ofPred_eq, div_le_iff₀ hp, lt_div_iff₀ hp]
      rw [this, vol_Ico (div_nonneg (by linarith) hp.le) (by rw [div_le_one hp]; linarith)]
      congr 1
      field_simp
      ring

theorem draw_meas (n : Nat) (S : Set Nat) : MeasurableSet {u : U01 | draw n u.1 ∈ S} := by
  have hm : Measurable fun u : U01 => ⌊u.1 * ((n - 1 : Nat) : ℝ) + 1 / 2⌋ := Int.measurable_floor.comp ((measurable_subtype_coe.mul_const _).add_const _)
  have : Measurable fun u : U01 => draw n u.1 := (measurable_from_top (f := Int.toNat)).comp hm
  exact this (MeasurableSpace.measurableSet_top (s := S))

theorem draw_chances {n : Nat} (hn : 1 ≤ n) (P : Nat → Prop) [DecidablePred P] :
    volume {u : U01 | P (draw n u.1)} = ENNReal.ofReal (∑ i : Fin n, if P i then slotChance n i else 0) := by
  have e : {u : U01 | P (draw n u.1)} = ⋃ i : Fin n, {u : U01 | draw n u.1 = i ∧ P i} := by
    ext u
    simp only [Set.mem_ofPred_eq, Set.mem_iUnion]
    constructor
    · intro h
      exact ⟨⟨draw n u.1, draw_lt hn u.2.2.le⟩, rfl, h⟩
    · rintro ⟨i, hi, h⟩
      rwa [hi]
  rw [e, measure_iUnion]
  · rw [tsum_fintype, ENNReal.ofReal_sum_of_nonneg]
    · refine Finset.sum_congr rfl fun i _ => ?_
      split
      · rename_i h
        simp only [h, and_true]
        exact draw_chance i.2
      · rename_i h
        simp [h]
    · intro i _
      split
      · exact slotChance_nonneg hn i
      · exact le_rfl
  · intro i j hij
    refine Set.disjoint_left.2 ?_
    rintro u ⟨h1, -⟩ ⟨h2, -⟩
    exact hij (Fin.ext (h1.symm.trans h2))
  · intro i
    exact draw_meas n {k | k = i.val ∧ P i}

theorem slotChance_sum {n : Nat} (hn : 1 ≤ n) : ∑ i : Fin n, slotChance n i = 1 := by
  have h := draw_chances hn (fun _ => True)
  have e : {u : U01 | True} = Set.univ := by simp
  rw [e, measure_univ] at h
  simp only [if_true] at h
  rw [eq_comm, ENNReal.ofReal_eq_one] at h
  exact h

theorem slotChance_le {n : Nat} (hn : 1 ≤ n) (i : Fin n) : slotChance n i ≤ 1 := by
  rw [← slotChance_sum hn]
  exact Finset.single_le_sum (f := fun j : Fin n => slotChance n j) (fun j _ => slotChance_nonneg hn j) (Finset.mem_univ i)

theorem slotChance_part {n : Nat} (hn : 1 ≤ n) (P : Fin n → Prop) [DecidablePred P] : 0 ≤ (∑ i : Fin n, if P i then slotChance n i else 0) ∧ (∑ i : Fin n, if P i then slotChance n i else 0) ≤ 1 := by
  refine ⟨Finset.sum_nonneg fun i _ => ?_, (Finset.sum_le_sum fun i _ => ?_).trans (slotChance_sum hn).le⟩
  · split
    · exact slotChance_nonneg hn i
    · exact le_rfl
  · split
    · exact le_rfl
    · exact slotChance_nonneg hn i

end Orp.Chained
