import Verif.Reservoir.Props
import Mathlib.Data.Nat.Choose.Basic
import Mathlib.Data.Finset.Powerset
import Mathlib.Tactic.Ring
import Mathlib.Tactic.FieldSimp

/-!
Property C93: the law of the whole sample of the plain reservoir.
-/

namespace Orp.Reservoir

open MeasureTheory Set

section Walk

variable {X : Type} [Countable X]

theorem walk_set_meas (x0 : X) (step : Nat → X → U01 × U01 → X)
    (hs : ∀ t x y, MeasurableSet {r | step t x r = y}) (N : Nat) (A : X → Prop) :
    MeasurableSet {ω : Draws N | A (walk x0 step N ω)} := by
  have : {ω : Draws N | A (walk x0 step N ω)} = ⋃ y : {y // A y}, {ω | walk x0 step N ω = y.1} := by
    ext r; simp
  rw [this]
  exact MeasurableSet.iUnion fun y => walk_meas x0 step hs N y.1

/-- If `A` can only be reached from states satisfying `C`, and from these with probability `q`, then the
probability of `A` after a call is `q` times the probability of `C` before. -/
theorem walk_mix (x0 : X) (step : Nat → X → U01 × U01 → X)
    (hs : ∀ t x y, MeasurableSet {r | step t x r = y}) (N : Nat) (A C : X → Prop) (q : ENNReal)
    (h1 : ∀ ω : Draws N, C (walk x0 step N ω) → volume {r | A (step N (walk x0 step N ω) r)} = q)
    (h0 : ∀ ω : Draws N, ¬ C (walk x0 step N ω) → ∀ r, ¬ A (step N (walk x0 step N ω) r)) :
    volume {ω : Draws (N + 1) | A (walk x0 step (N + 1) ω)} =
      q * volume {ω : Draws N | C (walk x0 step N ω)} := by
  classical
  rw [walk_succ x0 step hs, ← lintegral_indicator_const (walk_set_meas x0 step hs N C)]
  apply lintegral_congr
  intro ω
  by_cases h : C (walk x0 step N ω)
  · rw [h1 ω h, indicator_of_mem]; exact h
  · rw [indicator_of_notMem (show ω ∉ {ω : Draws N | C (walk x0 step N ω)} from h)]
    have : {r | A (step N (walk x0 step N ω) r)} = ∅ := by
      ext r; simpa using h0 ω h r
    rw [this]; simp

end Walk

/-- `P(u ≥ c) = 1 - c` among the pairs -/
theorem vol_not_lt_pair {c : ℝ} (h0 : 0 ≤ c) (h1 : c ≤ 1) :
    volume {r : U01 × U01 | ¬ r.1.1 < c} = ENNReal.ofReal (1 - c) := by
  have hm : MeasurableSet {r : U01 × U01 | r.1.1 < c} :=
    measurableSet_lt (measurable_subtype_coe.comp measurable_fst) measurable_const
  have hc := prob_compl_eq_one_sub (μ := (volume : Measure (U01 × U01))) hm
  rw [vol_lt_pair h1] at hc
  rw [ENNReal.ofReal_sub _ h0, ENNReal.ofReal_one, ← hc]
  rfl

/-- the set of a sample after slot `j` is overwritten with a new position -/
theorem toFinset_set {S : List Nat} (hn : S.Nodup) {j t : Nat} (hj : j < S.length) (ht : t ∉ S) :
    (S.set j t).toFinset = insert t (S.toFinset.erase S[j]) := by
  ext p
  simp only [List.mem_toFinset, Finset.mem_insert, Finset.mem_erase]
  constructor
  · intro h
    by_cases hp : p = t
    · exact .inl hp
    · refine .inr ⟨fun he => ?_, ?_⟩
      · exact (mem_set_iff hn hj rfl (by rw [← he]; exact hp)).1 (by rw [← he]; exact h) rfl
      · rcases List.mem_or_eq_of_mem_set h with h1 | h1
        · exact h1
        · exact absurd h1 hp
  · rintro (rfl | ⟨h1, h2⟩)
    · exact List.mem_set hj _
    · obtain ⟨i, hi, hpi⟩ := List.mem_iff_getElem.1 h2
      refine (mem_set_iff hn hi hpi (fun h => ht (by rw [← h]; exact h2))).2 ?_
      rintro rfl
      exact h1 hpi.symm

theorem joint_law {k : Nat} (hk : 1 ≤ k) (garbage : List Nat) (hg : garbage.length = k) (N : Nat)
    (hN : N < 2 ^ 32) (hkN : k ≤ N) (A : Finset Nat) (hA : A ⊆ Finset.range N) (hAk : A.card = k) :
    volume {ω : Draws N | (walk garbage (pstep k) N ω).toFinset = A} = ENNReal.ofReal (1 / (N.choose k : ℝ)) := by
  induction N, hkN using Nat.le_induction generalizing A with
  | base =>
      have hA' : A = Finset.range k := Finset.eq_of_subset_of_card_le hA (by simp [hAk])
      have : {ω : Draws k | (walk garbage (pstep k) k ω).toFinset = A} = univ := by
        ext ω
        obtain ⟨_, _, _, h⟩ := walk_facts hk garbage hg k hN le_rfl ω
        simp only [h rfl, hA', mem_ofPred_eq, mem_univ, iff_true]
        ext; simp
      rw [this, measure_univ]
      simp
  | succ N hkN ih =>
      have hNpos : (0 : ℝ) < N := by exact_mod_cast (by omega : 0 < N)
      have hkpos : (0 : ℝ) < k := by exact_mod_cast hk
      have hkN' : (k : ℝ) ≤ N := by exact_mod_cast hkN
      have hc0 : (0 : ℝ) ≤ (k : ℝ) / ((N : ℝ) + 1) := by positivity
      have hc1 : (k : ℝ) / ((N : ℝ) + 1) ≤ 1 := by rw [div_le_one (by linarith)]; linarith
      have hNk : ¬ N < k := by omega
      have hch : (0 : ℝ) < (N.choose k : ℝ) := by exact_mod_cast Nat.choose_pos hkN
      have hch1 : (0 : ℝ) < ((N + 1).choose k : ℝ) := by exact_mod_cast Nat.choose_pos (by omega)
      have hrec : ((N : ℝ) + 1) * (N.choose k : ℝ) = ((N + 1).choose k : ℝ) * ((N : ℝ) + 1 - k) := by
        have h := Nat.choose_mul_succ_eq N k
        have h' : ((N.choose k * (N + 1) : Nat) : ℝ) = (((N + 1).choose k * (N + 1 - k) : Nat) : ℝ) := by
          exact_mod_cast h
        rw [Nat.cast_mul, Nat.cast_mul, Nat.cast_sub (by omega)] at h'
        push_cast at h'
        rw [mul_comm]; exact h'
      have hval : (1 - (k : ℝ) / ((N : ℝ) + 1)) * (1 / (N.choose k : ℝ)) = 1 / ((N + 1).choose k : ℝ) := by
        field_simp
        linarith
      by_cases hAN : N ∈ A
      · -- the newest position is in the sample
        let B := A.erase N
        have hB : B.card = k - 1 := by simp [B, hAN, hAk]
        have hBN : B ⊆ Finset.range N := by
          intro x hx
          have h1 := hA (Finset.mem_of_mem_erase hx)
          have h2 := Finset.ne_of_mem_erase hx
          simp at h1 ⊢; omega
        rw [walk_mix garbage (pstep k) (pstep_meas k) N (fun S => S.toFinset = A) (fun S => B ⊆ S.toFinset)
          (ENNReal.ofReal ((k : ℝ) / ((N : ℝ) + 1) / k))]
        · have hun : {ω : Draws N | B ⊆ (walk garbage (pstep k) N ω).toFinset} =
              ⋃ x ∈ Finset.range N \ B, {ω : Draws N | (walk garbage (pstep k) N ω).toFinset = insert x B} := by
            ext ω
            obtain ⟨f1, f2, f3, _⟩ := walk_facts hk garbage hg N (by omega) hkN ω
            simp only [mem_ofPred_eq, mem_iUnion, exists_prop]
            generalize walk garbage (pstep k) N ω = S at *
            constructor
            · intro h
              have hcard : S.toFinset.card = k := by rw [List.toFinset_card_of_nodup f2, f1]
              have hd : (S.toFinset \ B).card = 1 := by rw [Finset.card_sdiff_of_subset h]; omega
              obtain ⟨x, hx⟩ := Finset.card_eq_one.1 hd
              have hx' : x ∈ S.toFinset \ B := by rw [hx]; simp
              simp only [Finset.mem_sdiff, List.mem_toFinset] at hx'
              refine ⟨x, by simp [f3 x hx'.1, hx'.2], ?_⟩
              rw [← Finset.sdiff_union_of_subset h, hx]; ext; simp
            · rintro ⟨x, _, hx⟩
              rw [hx]; exact Finset.subset_insert _ _
          rw [hun, measure_biUnion_finset]
          · rw [Finset.sum_congr rfl (g := fun _ => ENNReal.ofReal (1 / (N.choose k : ℝ)))]
            · rw [Finset.sum_const, Finset.card_sdiff_of_subset hBN, Finset.card_range, hB, nsmul_eq_mul,
                ← ENNReal.ofReal_natCast, ← ENNReal.ofReal_mul (by positivity), ← ENNReal.ofReal_mul (by positivity)]
              congr 1
              rw [← hval, Nat.cast_sub (by omega), Nat.cast_sub hk]
              field_simp
              push_cast
              ring
            · intro x hx
              simp only [Finset.mem_sdiff, Finset.mem_range] at hx
              apply ih (by omega)
              · intro y hy
                rcases Finset.mem_insert.1 hy with rfl | hy
                · simpa using hx.1
                · exact hBN hy
              · rw [Finset.card_insert_of_notMem hx.2]; omega
          · intro x hx y hy hxy
            simp only [Finset.coe_sdiff, Finset.coe_range, mem_sdiff, Finset.mem_coe] at hx hy
            refine Set.disjoint_left.2 fun ω h1 h2 => ?_
            simp only [mem_ofPred_eq] at h1 h2
            have : x ∈ insert y B := by rw [← h2, h1]; simp
            rcases Finset.mem_insert.1 this with h | h
            · exact hxy h
            · exact hx.2 h
          · intro x _
            exact walk_set_meas garbage (pstep k) (pstep_meas k) N (fun S => S.toFinset = insert x B)
        · intro ω hsub
          obtain ⟨f1, f2, f3, _⟩ := walk_facts hk garbage hg N (by omega) hkN ω
          generalize walk garbage (pstep k) N ω = S at *
          have hNS : N ∉ S := fun h => absurd (f3 N h) (by omega)
          have hcard : S.toFinset.card = k := by rw [List.toFinset_card_of_nodup f2, f1]
          have hd : (S.toFinset \ B).card = 1 := by rw [Finset.card_sdiff_of_subset hsub]; omega
          obtain ⟨x, hx⟩ := Finset.card_eq_one.1 hd
          have hx' : x ∈ S.toFinset \ B := by rw [hx]; simp
          simp only [Finset.mem_sdiff, List.mem_toFinset] at hx'
          obtain ⟨i, hi, hxi⟩ := List.mem_iff_getElem.1 hx'.1
          have hSB : S.toFinset.erase x = B := by
            rw [← Finset.sdiff_union_of_subset hsub, hx]
            ext y
            simp only [Finset.mem_erase, Finset.mem_union, Finset.mem_singleton]
            constructor
            · rintro ⟨h1, h2 | h2⟩
              · exact absurd h2 h1
              · exact h2
            · exact fun h => ⟨fun he => hx'.2 (he ▸ h), .inr h⟩
          rw [← vol_pick hk (j := i) (by omega) hc0 hc1]
          congr 1
          ext r
          simp only [pstep, hNk, if_false, mem_ofPred_eq]
          obtain ⟨ha, hb⟩ := floor_range hk r.2.2
          by_cases hr : r.1.1 < (k : ℝ) / ((N : ℝ) + 1)
          · simp only [hr, if_true, true_and]
            have hj : ⌊r.2.1 * (k : ℝ)⌋.toNat < S.length := by omega
            generalize ⌊r.2.1 * (k : ℝ)⌋.toNat = j at hj
            rw [toFinset_set f2 hj hNS]
            constructor
            · intro h
              have h2 : S.toFinset.erase S[j] = B := by
                have := congrArg (fun F => Finset.erase F N) h
                rw [Finset.erase_insert] at this
                · exact this
                · simp [hNS]
              have h3 : S[j] ∉ B := by rw [← h2]; simp
              have h4 : S[j] ∈ S.toFinset \ B := by simp [h3]
              rw [hx, Finset.mem_singleton, ← hxi] at h4
              exact (List.Nodup.getElem_inj_iff f2).1 h4
            · rintro rfl
              rw [hxi, hSB]
              exact Finset.insert_erase hAN
          · simp only [hr, if_false, false_and, iff_false]
            rintro rfl
            exact hNS (by simpa using hAN)
        · intro ω hsub r
          obtain ⟨f1, f2, f3, _⟩ := walk_facts hk garbage hg N (by omega) hkN ω
          generalize walk garbage (pstep k) N ω = S at *
          have hNS : N ∉ S := fun h => absurd (f3 N h) (by omega)
          simp only [pstep, hNk, if_false]
          obtain ⟨ha, hb⟩ := floor_range hk r.2.2
          split
          · have hj : ⌊r.2.1 * (k : ℝ)⌋.toNat < S.length := by omega
            generalize ⌊r.2.1 * (k : ℝ)⌋.toNat = j at hj
            rw [toFinset_set f2 hj hNS]
            intro h
            apply hsub
            intro y hy
            have h1 : y ∈ A := Finset.mem_of_mem_erase hy
            have h2 : y ≠ N := Finset.ne_of_mem_erase hy
            rw [← h] at h1
            rcases Finset.mem_insert.1 h1 with h3 | h3
            · exact absurd h3 h2
            · exact Finset.mem_of_mem_erase h3
          · rintro rfl
            exact hNS (by simpa using hAN)
      · -- the newest position is not in the sample
        have hAN' : A ⊆ Finset.range N := by
          intro x hx
          have h1 := hA hx
          have h2 : x ≠ N := fun h => hAN (h ▸ hx)
          simp at h1 ⊢; omega
        rw [walk_mix garbage (pstep k) (pstep_meas k) N (fun S => S.toFinset = A) (fun S => S.toFinset = A)
          (ENNReal.ofReal (1 - (k : ℝ) / ((N : ℝ) + 1))), ih (by omega) A hAN' hAk, ← ENNReal.ofReal_mul (by linarith), hval]
        · intro ω hS
          obtain ⟨f1, f2, f3, _⟩ := walk_facts hk garbage hg N (by omega) hkN ω
          generalize walk garbage (pstep k) N ω = S at *
          rw [← vol_not_lt_pair hc0 hc1]
          congr 1
          ext r
          simp only [pstep, hNk, if_false, mem_ofPred_eq]
          obtain ⟨ha, hb⟩ := floor_range hk r.2.2
          by_cases hr : r.1.1 < (k : ℝ) / ((N : ℝ) + 1)
          · simp only [hr, if_true, not_true_eq_false, iff_false]
            rintro rfl
            exact hAN (by simp; exact List.mem_set (by omega) _)
          · simp [hr, hS]
        · intro ω hS r
          obtain ⟨f1, f2, f3, _⟩ := walk_facts hk garbage hg N (by omega) hkN ω
          generalize walk garbage (pstep k) N ω = S at *
          simp only [pstep, hNk, if_false]
          obtain ⟨ha, hb⟩ := floor_range hk r.2.2
          split
          · rintro rfl
            exact hAN (by simp; exact List.mem_set (by omega) _)
          · exact hS

/-- **C93** With ideal independent uniform random numbers, after `N ≥ k` adds every set of `k` of the `N` stream positions is the sample
with the same probability, one over the number of such sets. (The stream is `0,1,2,…`, so that an item is its position.) -/
theorem C93_every_sample_equally_likely {k : Nat} (hk : 1 ≤ k) (garbage : List Nat) (hg : garbage.length = k) {N : Nat}
    (hkN : k ≤ N) (hN : N < 2 ^ 32) (A : Finset Nat) (hA : A ⊆ Finset.range N) (hAk : A.card = k) :
    volume {ω : Fin N → U01 × U01 | ∃ s,
        adds k (new garbage) (List.ofFn fun i : Fin N => ⟨i.val, (ω i).1.1, (ω i).2.1⟩) = .ok s ∧
        s.sample.length = k ∧ ∀ p, p ∈ s.sample ↔ p ∈ A}
      = ENNReal.ofReal (1 / (N.choose k : ℝ)) := by
  rw [← joint_law hk garbage hg N hN hkN A hA hAk]
  congr 1
  ext ω
  simp only [Set.mem_ofPred_eq]
  have := adds_walk hk garbage hg N hN ω
  rw [calls] at this
  rw [this]
  have hlen := (walk_facts hk garbage hg N hN hkN ω).1
  constructor
  · rintro ⟨s, h1, h2, h3⟩
    cases h1
    ext p; simpa using h3 p
  · intro h
    refine ⟨_, rfl, hlen, fun p => ?_⟩
    rw [← h]; simp

/-- Seven items and a sample of three: each of the 35 samples has probability 1/35, for example the items 1, 4 and 6. -/
example : volume {ω : Fin 7 → U01 × U01 | ∃ s,
    adds 3 (new [0, 0, 0]) (List.ofFn fun i : Fin 7 => ⟨i.val, (ω i).1.1, (ω i).2.1⟩) = .ok s ∧
      s.sample.length = 3 ∧ ∀ p, p ∈ s.sample ↔ p ∈ ({1, 4, 6} : Finset Nat)}
      = ENNReal.ofReal (1 / ((Nat.choose 7 3 : Nat) : ℝ)) :=
  C93_every_sample_equally_likely (by decide) _ rfl (by decide) (by decide) _ (by decide) (by decide)

end Orp.Reservoir
