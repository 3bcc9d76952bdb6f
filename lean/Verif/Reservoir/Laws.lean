import Verif.Reservoir.Prob
import Mathlib.Data.Countable.Basic
import Mathlib.Logic.Encodable.Basic
import Mathlib.Logic.Equiv.List

/-!
Laws of the two reservoirs under independent uniform random numbers.
-/

namespace Orp.Reservoir

open MeasureTheory Set

/-! ### Plain reservoir -/

/-- the sample after one more `add` of position `t`, as a function of the two draws -/
noncomputable def pstep (k : Nat) (t : Nat) (S : List Nat) (r : U01 × U01) : List Nat :=
  if t < k then S.set t t
  else if r.1.1 < (k : ℝ) / ((t : ℝ) + 1) then S.set ⌊r.2.1 * (k : ℝ)⌋.toNat t
  else S

theorem pstep_meas (k t : Nat) (S T : List Nat) : MeasurableSet {r | pstep k t S r = T} := by
  by_cases h : t < k
  · simp only [pstep, h, if_true]; exact MeasurableSet.const _
  · have h1 : MeasurableSet {r : U01 × U01 | r.1.1 < (k : ℝ) / ((t : ℝ) + 1)} :=
      measurableSet_lt (measurable_subtype_coe.comp measurable_fst) measurable_const
    have h2 : MeasurableSet {r : U01 × U01 | S.set ⌊r.2.1 * (k : ℝ)⌋.toNat t = T} :=
      (meas_floor k) (MeasurableSet.of_discrete (s := {j | S.set j t = T}))
    have : {r | pstep k t S r = T} =
        ({r : U01 × U01 | r.1.1 < (k : ℝ) / ((t : ℝ) + 1)} ∩ {r : U01 × U01 | S.set ⌊r.2.1 * (k : ℝ)⌋.toNat t = T}) ∪
        ({r : U01 × U01 | r.1.1 < (k : ℝ) / ((t : ℝ) + 1)}ᶜ ∩ {_r | S = T}) := by
      ext r
      simp only [pstep, h, if_false, mem_union, mem_inter_iff, mem_ofPred_eq, mem_compl_iff]
      by_cases hr : r.1.1 < (k : ℝ) / ((t : ℝ) + 1) <;> simp [hr]
    rw [this]
    exact (h1.inter h2).union (h1.compl.inter (MeasurableSet.const _))

theorem add_pstep {k : Nat} (hk : 1 ≤ k) (s : State Nat) (hs : s.sample.length = k)
    (hc : s.counter + 1 < 2 ^ 32) (r : U01 × U01) :
    ∃ i, add k s s.counter r.1.1 r.2.1 =
      .ok ({ sample := pstep k s.counter s.sample r, counter := s.counter + 1 }, i) := by
  have hin : incr s.counter = s.counter + 1 := by rw [incr, Nat.mod_eq_of_lt hc]
  have hcast : (((s.counter + 1 : Nat)) : ℝ) = (s.counter : ℝ) + 1 := by push_cast; rfl
  obtain ⟨ha, hb⟩ := floor_range hk r.2.2
  unfold add sampleIndex pstep ltQuot
  by_cases h1 : s.counter < k
  · have : s.counter < s.sample.length := by omega
    exact ⟨_, by simp [h1, wr_ok _ this, bind, Except.bind, pure, Except.pure, hin]; rfl⟩
  · by_cases h2 : r.1.1 < (k : ℝ) / ((s.counter : ℝ) + 1)
    · have : ⌊r.2.1 * (k : ℝ)⌋.toNat < s.sample.length := by omega
      exact ⟨_, by simp [h1, h2, wr_ok _ this, bind, Except.bind, pure, Except.pure, hin, ha]; rfl⟩
    · exact ⟨_, by simp [h1, h2, pure, Except.pure, hin]; rfl⟩

theorem adds_walk {k : Nat} (hk : 1 ≤ k) (garbage : List Nat) (hg : garbage.length = k) (N : Nat)
    (hN : N < 2 ^ 32) (ω : Draws N) :
    adds k (new garbage) (calls ω) = .ok { sample := walk garbage (pstep k) N ω, counter := N } := by
  induction N with
  | zero => rfl
  | succ N ih =>
      have h := ih (by omega) (Fin.init ω)
      obtain ⟨s, h1, _, h3, _⟩ := adds_inv hk garbage hg (calls (Fin.init ω : Draws N))
        (calls_valid _) (by simp; omega)
      rw [h] at h1
      cases h1
      rw [calls_succ, adds_append, h]
      obtain ⟨i, hi⟩ := add_pstep hk ⟨walk garbage (pstep k) N (Fin.init ω), N⟩ h3 (by simpa using hN) (ω (Fin.last N))
      simp only [Except.bind, adds, bind, Except.bind, hi]
      rfl

theorem walk_facts {k : Nat} (hk : 1 ≤ k) (garbage : List Nat) (hg : garbage.length = k) (N : Nat)
    (hN : N < 2 ^ 32) (hkN : k ≤ N) (ω : Draws N) :
    (walk garbage (pstep k) N ω).length = k ∧ (walk garbage (pstep k) N ω).Nodup ∧
      (∀ p ∈ walk garbage (pstep k) N ω, p < N) ∧
      (N = k → walk garbage (pstep k) N ω = List.range k) := by
  obtain ⟨s, h1, _, h3, pos, h4, h5, h6⟩ := adds_inv hk garbage hg (calls ω) (calls_valid _) (by simpa)
  rw [adds_walk hk garbage hg N hN] at h1
  cases h1
  simp only [calls_length, calls_e] at *
  have hp : pos = walk garbage (pstep k) N ω := by
    apply List.ext_getElem (by omega)
    intro i a b
    have := h5.val i a
    rw [List.getElem?_eq_getElem b] at this
    have hlt := h5.lt _ (List.getElem_mem a)
    rw [List.getElem?_eq_getElem hlt] at this
    simpa using this.symm
  subst hp
  exact ⟨h3, h5.nodup, fun p hp => by simpa using h5.lt p hp, fun h => by rw [h6 (by omega), h]⟩

/-- replacing the slot that holds `p` is the only way to lose `p` -/
theorem mem_set_iff {S : List Nat} (hn : S.Nodup) {j p t i : Nat} (hi : i < S.length) (hpi : S[i] = p)
    (hpt : p ≠ t) : p ∈ S.set j t ↔ j ≠ i := by
  constructor
  · rintro h rfl
    obtain ⟨m, hm, hm2⟩ := List.mem_iff_getElem.1 h
    rw [List.getElem_set] at hm2
    split at hm2
    · exact hpt hm2.symm
    · have hm' : m < S.length := by simpa using hm
      have := (List.Nodup.getElem_inj_iff hn (hi := hm') (hj := hi)).1 (by rw [hm2, hpi])
      omega
  · intro h
    rw [List.mem_iff_getElem]
    exact ⟨i, by simpa using hi, by rw [List.getElem_set_ne h]; exact hpi⟩

theorem not_mem_set {S : List Nat} {j p t : Nat} (h : p ∉ S) (hpt : p ≠ t) : p ∉ S.set j t := by
  intro hm
  rcases List.mem_or_eq_of_mem_set hm with h1 | h1
  · exact h h1
  · exact hpt h1

theorem plain_law {k : Nat} (hk : 1 ≤ k) (garbage : List Nat) (hg : garbage.length = k) (N : Nat)
    (hN : N < 2 ^ 32) (hkN : k ≤ N) (p : Nat) (hp : p < N) :
    volume {ω : Draws N | p ∈ walk garbage (pstep k) N ω} = ENNReal.ofReal ((k : ℝ) / N) := by
  induction N, hkN using Nat.le_induction with
  | base =>
      have hkpos : (0 : ℝ) < k := by exact_mod_cast hk
      have : {ω : Draws k | p ∈ walk garbage (pstep k) k ω} = univ := by
        ext ω
        obtain ⟨_, _, _, h⟩ := walk_facts hk garbage hg k hN le_rfl ω
        simp [h rfl, hp]
      rw [this, measure_univ, div_self hkpos.ne', ENNReal.ofReal_one]
  | succ N hkN ih =>
      have hNpos : (0 : ℝ) < N := by exact_mod_cast (by omega : 0 < N)
      have hkpos : (0 : ℝ) < k := by exact_mod_cast hk
      have hkN' : (k : ℝ) ≤ N := by exact_mod_cast hkN
      have hc0 : (0 : ℝ) ≤ (k : ℝ) / ((N : ℝ) + 1) := by positivity
      have hc1 : (k : ℝ) / ((N : ℝ) + 1) ≤ 1 := by rw [div_le_one (by linarith)]; linarith
      have hNk : ¬ N < k := by omega
      by_cases hpN : p < N
      · rw [walk_decay garbage (pstep k) (pstep_meas k) N (fun S => p ∈ S)
          (ENNReal.ofReal (1 - (k : ℝ) / ((N : ℝ) + 1) / k)), ih (by omega) hpN, ← ENNReal.ofReal_mul]
        · congr 1; push_cast; field_simp; ring
        · rw [sub_nonneg, div_div, div_le_one (by positivity)]; nlinarith
        · intro ω hmem
          obtain ⟨f1, f2, f3, _⟩ := walk_facts hk garbage hg N (by omega) hkN ω
          obtain ⟨i, hi, hpi⟩ := List.mem_iff_getElem.1 hmem
          rw [← vol_not_pick hk (j := i) (by omega) hc0 hc1]
          congr 1
          ext r
          simp only [pstep, hNk, if_false, mem_ofPred_eq]
          by_cases hr : r.1.1 < (k : ℝ) / ((N : ℝ) + 1)
          · simp only [hr, if_true, true_and]
            exact mem_set_iff f2 hi hpi (by omega)
          · simp [hr, hmem]
        · intro ω hmem r
          simp only [pstep, hNk, if_false]
          split
          · exact not_mem_set hmem (by omega)
          · exact hmem
      · have hpN : p = N := by omega
        subst hpN
        rw [walk_hit garbage (pstep k) (pstep_meas k) p (fun S => p ∈ S)
          (ENNReal.ofReal ((k : ℝ) / ((p : ℝ) + 1)))]
        · push_cast; rfl
        · intro ω
          obtain ⟨f1, f2, f3, _⟩ := walk_facts hk garbage hg p (by omega) hkN ω
          rw [← vol_lt_pair hc1]
          congr 1
          ext r
          simp only [pstep, hNk, if_false, mem_ofPred_eq]
          by_cases hr : r.1.1 < (k : ℝ) / ((p : ℝ) + 1)
          · simp only [hr, if_true, iff_true]
            have := floor_range hk r.2.2
            exact List.mem_set (by omega) _
          · simp only [hr, if_false, iff_false]
            intro h
            exact absurd (f3 _ h) (by omega)

/-! ### Exponential reservoir -/

/-- (sample, count) after one more `add` of position `t` -/
noncomputable def estep (k : Nat) (t : Nat) (x : List Nat × Nat) (r : U01 × U01) : List Nat × Nat :=
  if r.1.1 < (x.2 : ℝ) / (k : ℝ) then (x.1.set ⌊r.2.1 * (x.2 : ℝ)⌋.toNat t, x.2)
  else (x.1.set x.2 t, x.2 + 1)

theorem estep_meas (k t : Nat) (S T : List Nat × Nat) : MeasurableSet {r | estep k t S r = T} := by
  have h1 : MeasurableSet {r : U01 × U01 | r.1.1 < (S.2 : ℝ) / (k : ℝ)} :=
    measurableSet_lt (measurable_subtype_coe.comp measurable_fst) measurable_const
  have h2 : MeasurableSet {r : U01 × U01 | (S.1.set ⌊r.2.1 * (S.2 : ℝ)⌋.toNat t, S.2) = T} :=
    (meas_floor S.2) (MeasurableSet.of_discrete (s := {j | (S.1.set j t, S.2) = T}))
  have : {r | estep k t S r = T} =
      ({r : U01 × U01 | r.1.1 < (S.2 : ℝ) / (k : ℝ)} ∩
        {r : U01 × U01 | (S.1.set ⌊r.2.1 * (S.2 : ℝ)⌋.toNat t, S.2) = T}) ∪
      ({r : U01 × U01 | r.1.1 < (S.2 : ℝ) / (k : ℝ)}ᶜ ∩ {_r | (S.1.set S.2 t, S.2 + 1) = T}) := by
    ext r
    simp only [estep, mem_union, mem_inter_iff, mem_ofPred_eq, mem_compl_iff]
    by_cases hr : r.1.1 < (S.2 : ℝ) / (k : ℝ) <;> simp [hr]
  rw [this]
  exact (h1.inter h2).union (h1.compl.inter (MeasurableSet.const _))

theorem expAdd_estep {k : Nat} (hk : 1 ≤ k) (hk2 : k < 2 ^ 31) (s : State Nat) (hs : s.sample.length = k)
    (hc : s.counter ≤ k) (t : Nat) (r : U01 × U01) :
    ∃ i, expAdd k s t r.1.1 r.2.1 =
      .ok ({ sample := (estep k t (s.sample, s.counter) r).1,
             counter := (estep k t (s.sample, s.counter) r).2 }, i) := by
  have hne : ¬ k = 0 := by omega
  rcases expAdd_cases hk hk2 s hs hc t r.1.2 r.2.2 with ⟨i, a1, a2⟩ | ⟨a1, a2⟩
  · by_cases h2 : r.1.1 < (s.counter : ℝ) / (k : ℝ)
    · obtain ⟨ha, hb⟩ := floor_range (by omega : 1 ≤ s.counter) r.2.2
      have : ⌊r.2.1 * (s.counter : ℝ)⌋.toNat < s.sample.length := by omega
      exact ⟨_, by simp [expAdd, expSampleIndex, ltQuot, estep, hne, h2, wr_ok _ this, bind, Except.bind, pure, Except.pure, ha]; rfl⟩
    · have hin : incr s.counter = s.counter + 1 := by rw [incr, Nat.mod_eq_of_lt]; omega
      by_cases this : s.counter < s.sample.length
      · exact ⟨_, by simp [expAdd, expSampleIndex, ltQuot, estep, hne, h2, wr_ok _ this, bind, Except.bind, pure, Except.pure, hin]; rfl⟩
      · exfalso
        have hck : s.counter = k := by omega
        apply h2
        rw [hck, div_self (by exact_mod_cast hne)]
        exact r.1.2.2
  · by_cases h2 : r.1.1 < (s.counter : ℝ) / (k : ℝ)
    · have hcpos : 1 ≤ s.counter := by
        by_contra h0
        have h0 : s.counter = 0 := by omega
        rw [h0] at h2
        simp only [Nat.cast_zero, zero_div] at h2
        exact absurd r.1.2.1 (not_le.2 h2)
      obtain ⟨ha, hb⟩ := floor_range hcpos r.2.2
      have : ⌊r.2.1 * (s.counter : ℝ)⌋.toNat < s.sample.length := by omega
      exact ⟨_, by simp [expAdd, expSampleIndex, ltQuot, estep, hne, h2, wr_ok _ this, bind, Except.bind, pure, Except.pure, ha]; rfl⟩
    · exact ⟨_, by rw [a2]; simp [estep, h2]; rfl⟩

theorem expAdds_walk {k : Nat} (hk : 1 ≤ k) (hk2 : k < 2 ^ 31) (garbage : List Nat)
    (hg : garbage.length = k) (N : Nat) (ω : Draws N) :
    expAdds k (new garbage) (calls ω) =
      .ok { sample := (walk (garbage, 0) (estep k) N ω).1, counter := (walk (garbage, 0) (estep k) N ω).2 } := by
  induction N with
  | zero => rfl
  | succ N ih =>
      have h := ih (Fin.init ω)
      obtain ⟨s, h1, h2, h3, _⟩ := expAdds_inv hk hk2 garbage hg (calls (Fin.init ω : Draws N))
        (calls_valid _)
      rw [h] at h1
      cases h1
      rw [calls_succ, expAdds_append, h]
      obtain ⟨i, hi⟩ := expAdd_estep hk hk2 _ h2 h3 N (ω (Fin.last N))
      simp only [Except.bind, expAdds, bind, Except.bind, hi]
      rfl

theorem ewalk_facts {k : Nat} (hk : 1 ≤ k) (hk2 : k < 2 ^ 31) (garbage : List Nat)
    (hg : garbage.length = k) (N : Nat) (ω : Draws N) :
    let x := walk (garbage, 0) (estep k) N ω
    x.1.length = k ∧ x.2 ≤ k ∧ (x.1.take x.2).Nodup ∧ (∀ p ∈ x.1.take x.2, p < N) ∧
      (1 ≤ N → N - 1 ∈ x.1.take x.2) := by
  obtain ⟨s, h1, h2, h3, pos, h4, h5, h6⟩ := expAdds_inv hk hk2 garbage hg (calls ω) (calls_valid _)
  rw [expAdds_walk hk hk2 garbage hg N] at h1
  cases h1
  simp only [calls_length, calls_e] at *
  have hp : pos = (walk (garbage, 0) (estep k) N ω).1.take (walk (garbage, 0) (estep k) N ω).2 := by
    apply List.ext_getElem (by simp; omega)
    intro i a b
    have := h5.val i a
    have hb : i < (walk (garbage, 0) (estep k) N ω).1.length := by omega
    rw [List.getElem?_eq_getElem hb] at this
    have hlt := h5.lt _ (List.getElem_mem a)
    rw [List.getElem?_eq_getElem hlt] at this
    simpa using this.symm
  refine ⟨h2, h3, hp ▸ h5.nodup, fun p hm => ?_, fun h => ?_⟩
  · rw [← hp] at hm; simpa using h5.lt p hm
  · rw [← hp]
    exact h6 (by intro h0; have := congrArg List.length h0; simp at this; omega)

theorem exp_law {k : Nat} (hk : 1 ≤ k) (hk2 : k < 2 ^ 31) (garbage : List Nat)
    (hg : garbage.length = k) (N : Nat) (p : Nat) (hp : p < N) :
    volume {ω : Draws N | p ∈ (walk (garbage, 0) (estep k) N ω).1.take (walk (garbage, 0) (estep k) N ω).2} =
      ENNReal.ofReal ((1 - 1 / (k : ℝ)) ^ (N - 1 - p)) := by
  induction N with
  | zero => omega
  | succ N ih =>
      have hkpos : (0 : ℝ) < k := by exact_mod_cast hk
      have hq : (0 : ℝ) ≤ 1 - 1 / (k : ℝ) := by
        rw [sub_nonneg, div_le_one hkpos]; exact_mod_cast hk
      by_cases hpN : p < N
      · have e : N + 1 - 1 - p = (N - 1 - p) + 1 := by omega
        rw [walk_decay (garbage, 0) (estep k) (estep_meas k) N (fun x => p ∈ x.1.take x.2)
          (ENNReal.ofReal (1 - 1 / (k : ℝ))), ih hpN, ← ENNReal.ofReal_mul hq, e, pow_succ, mul_comm]
        · intro ω hmem
          obtain ⟨f1, f2, f3, f4, f5⟩ := ewalk_facts hk hk2 garbage hg N ω
          generalize walk (garbage, 0) (estep k) N ω = x at *
          obtain ⟨S, c⟩ := x
          simp only at *
          have hc : 1 ≤ c := by
            by_contra h
            have : c = 0 := by omega
            subst this
            simp at hmem
          have hcpos : (0 : ℝ) < c := by exact_mod_cast hc
          obtain ⟨i, hi, hpi⟩ := List.mem_iff_getElem.1 hmem
          have hi' : i < c := by simp at hi; omega
          have hc1 : (c : ℝ) / k ≤ 1 := by rw [div_le_one hkpos]; exact_mod_cast f2
          have := vol_not_pick hc (j := i) hi' (c := (c : ℝ) / k) (by positivity) hc1
          have e2 : (c : ℝ) / k / c = 1 / k := by field_simp
          rw [e2] at this
          rw [← this]
          congr 1
          ext r
          simp only [estep, mem_ofPred_eq]
          by_cases hr : r.1.1 < (c : ℝ) / k
          · simp only [hr, if_true, true_and]
            rw [List.take_set]
            exact mem_set_iff f3 hi hpi (by omega)
          · simp only [hr, if_false, false_and, not_false_eq_true, iff_true]
            have hlt : c < S.length := by
              by_contra h
              have : c = k := by omega
              apply hr; rw [this, div_self hkpos.ne']; exact r.1.2.2
            have h2 : (S.set c N).take c = S.take c := by
              rw [List.take_set_of_le le_rfl]
            have h3 := List.take_subset_take_left (S.set c N) (Nat.le_succ c)
            exact h3 (by rw [h2]; exact hmem)
        · intro ω hmem r
          obtain ⟨f1, f2, f3, f4, f5⟩ := ewalk_facts hk hk2 garbage hg N ω
          generalize walk (garbage, 0) (estep k) N ω = x at *
          obtain ⟨S, c⟩ := x
          simp only [estep] at *
          split
          · simp only
            rw [List.take_set]
            exact not_mem_set hmem (by omega)
          · rename_i hr
            have hlt : c < S.length := by
              by_contra h
              have : c = k := by omega
              apply hr; rw [this, div_self hkpos.ne']; exact r.1.2.2
            simp only
            rw [List.take_add_one, List.take_set_of_le le_rfl]
            simp only [List.mem_append, not_or]
            refine ⟨hmem, ?_⟩
            simp [hlt]
            omega
      · have hpN : p = N := by omega
        subst hpN
        have : {ω : Draws (p + 1) | p ∈ (walk (garbage, 0) (estep k) (p + 1) ω).1.take
            (walk (garbage, 0) (estep k) (p + 1) ω).2} = univ := by
          ext ω
          have := (ewalk_facts hk hk2 garbage hg (p + 1) ω).2.2.2.2 (by omega)
          simpa using this
        rw [this]
        simp

end Orp.Reservoir
