import Verif.Chained.Sample

/-!
Property C66, what is true of it: the joint law of the items that the slots of a chained reservoir show, without `obsolete`. The numbers that decide which item is
sampled and which slot it replaces are ideal draws; the other random numbers, which only decide what is chained behind the items, are arbitrary.
-/

set_option linter.unusedSectionVars false

namespace Orp.Chained

open MeasureTheory Orp.Reservoir

variable {α : Type}

/-- the calls of a stream: item `k` draws `ω k`, the item, its timestamp and the other random numbers are those of `rest k` -/
def sampleCalls {N : Nat} (rest : Fin N → Call α ℝ) (ω : Fin N → U01 × U01) : List (Call α ℝ) := List.ofFn fun k => { rest k with r1 := (ω k).1.1, r2 := (ω k).2.1 }

theorem sampleCalls_get {N : Nat} (rest : Fin N → Call α ℝ) (ω : Fin N → U01 × U01) (k : Fin N) :
    (sampleCalls rest ω)[k.val]? = some { rest k with r1 := (ω k).1.1, r2 := (ω k).2.1 } := by
  rw [sampleCalls, List.getElem?_ofFn, dif_pos k.2]

section

variable (g : List α) (hn : 1 ≤ g.length) {N : Nat} (hN : g.length ≤ N) (hs : N < 5000) (rest : Fin N → Call α ℝ) (hv : ∀ k, (rest k).Valid) (ht : ∀ k, (rest k).ts ≠ 0)
  (he : ∀ k l, (rest k).e = (rest l).e → k = l)

include hn hN hs hv ht in
/-- every slot shows an item -/
theorem sample_item (ω : Fin N → U01 × U01) : ∃ s, run g.length (new g) ((sampleCalls rest ω).map Op.add) = .ok s ∧
    ∀ i < g.length, ∃ m : Fin N, get s i = .ok (rest m).e ∧ ShowsItem g.length (sampleCalls rest ω) i m := by
  have hl : (sampleCalls rest ω).length = N := by simp [sampleCalls]
  obtain ⟨s, h1, h2⟩ := run_item g hn (sampleCalls rest ω)
    (by
      intro c hc
      obtain ⟨k, rfl⟩ := List.mem_ofFn.1 hc
      exact ⟨(ω k).1.2.1, (ω k).1.2.2.le, (ω k).2.2.1, (ω k).2.2.2.le, (hv k).2.2.2.2⟩)
    (by
      intro c hc
      obtain ⟨k, rfl⟩ := List.mem_ofFn.1 hc
      exact ht k) (by rw [hl]; exact hN) (by rw [hl]; exact hs)
  refine ⟨s, h1, fun i hi => ?_⟩
  obtain ⟨m, c, h3, h4, h5⟩ := h2 i hi
  have hm : m < N := by
    have := (List.getElem?_eq_some_iff.1 h3).1
    rwa [hl] at this
  have h6 := sampleCalls_get rest ω ⟨m, hm⟩
  rw [h6] at h3
  cases h3
  exact ⟨⟨m, hm⟩, h4, h5⟩

/-- a slot shows one of the first `J` items exactly if none of the later ones replaces it -/
theorem showsItem_lt {ω : Fin N → U01 × U01} {i m : Nat} (hm : m < N) (h : ShowsItem g.length (sampleCalls rest ω) i m) {J : Nat} (hJ : g.length ≤ J) :
    m < J ↔ ∀ k : Fin N, J ≤ k → ¬ ((ω k).1.1 < (g.length : ℝ) / (k.val : ℝ) ∧ draw g.length (ω k).2.1 = i) := by
  obtain ⟨h1, h2, h3⟩ := h
  constructor
  · intro hlt k hk hh
    exact h3 k _ (by omega) (by omega) (sampleCalls_get rest ω k) hh
  · intro hall
    by_contra hge
    exact hall ⟨m, hm⟩ (by simp only; omega) (h2 _ (by omega) (sampleCalls_get rest ω ⟨m, hm⟩))

include hn hN hs hv ht he in
/-- **C66** (partial: the law is not uniform) The joint law of what the slots show: after `N < 5000` different items with timestamps other than zero and without `obsolete`,
the probability that every slot `i` shows one of the first `J i` items is a product over the items. -/
theorem C66_joint_partial (J : Fin g.length → Nat) (hJ : ∀ i, g.length ≤ J i) :
    volume {ω : Fin N → U01 × U01 | ∃ s, run g.length (new g) ((sampleCalls rest ω).map Op.add) = .ok s ∧ ∀ i : Fin g.length, ∃ m : Fin N, m < J i ∧ get s i = .ok (rest m).e} =
      ∏ k ∈ Finset.Ico g.length N, ENNReal.ofReal (1 - (g.length : ℝ) / (k : ℝ) * ∑ i : Fin g.length, if J i ≤ k then slotChance g.length i else 0) := by
  have hset : {ω : Fin N → U01 × U01 | ∃ s, run g.length (new g) ((sampleCalls rest ω).map Op.add) = .ok s ∧ ∀ i : Fin g.length, ∃ m : Fin N, m < J i ∧ get s i = .ok (rest m).e} =
      Set.pi Set.univ fun k : Fin N => {r : U01 × U01 | ¬ (r.1.1 < (g.length : ℝ) / (k.val : ℝ) ∧ ∃ i : Fin g.length, J i ≤ k.val ∧ draw g.length r.2.1 = i)} := by
    ext ω
    obtain ⟨s, h1, h2⟩ := sample_item g hn hN hs rest hv ht ω
    simp only [Set.mem_ofPred_eq, h1, Except.ok.injEq, exists_eq_left', Set.mem_pi, Set.mem_univ, forall_const]
    constructor
    · rintro h k ⟨ha, i, hi, hb⟩
      obtain ⟨m, hm, hg⟩ := h i
      obtain ⟨m', hg', hs'⟩ := h2 i i.2
      rw [hg'] at hg
      have := he _ _ (Except.ok.inj hg)
      subst this
      exact (showsItem_lt g rest m'.2 hs' (hJ i)).1 hm k hi ⟨ha, hb⟩
    · intro h i
      obtain ⟨m, hg, hs'⟩ := h2 i i.2
      exact ⟨m, (showsItem_lt g rest m.2 hs' (hJ i)).2 fun k hk hh => h k ⟨hh.1, i, hk, hh.2⟩, hg⟩
  rw [hset, volume_pi_pi]
  have hone : ∀ k : Fin N, volume {r : U01 × U01 | ¬ (r.1.1 < (g.length : ℝ) / (k.val : ℝ) ∧ ∃ i : Fin g.length, J i ≤ k.val ∧ draw g.length r.2.1 = i)} =
      if g.length ≤ k.val then ENNReal.ofReal (1 - (g.length : ℝ) / (k.val : ℝ) * ∑ i : Fin g.length, if J i ≤ k.val then slotChance g.length i else 0) else 1 := by
    intro k
    split
    · rename_i hk
      have hk0 : (0 : ℝ) < k.val := by exact_mod_cast (show 0 < k.val by omega)
      have hle : (g.length : ℝ) / (k.val : ℝ) ≤ 1 := (div_le_one hk0).2 (by exact_mod_cast hk)
      have hnn : 0 ≤ (g.length : ℝ) / (k.val : ℝ) := div_nonneg (Nat.cast_nonneg _) hk0.le
      have hm1 : MeasurableSet {u : U01 | u.1 < (g.length : ℝ) / (k.val : ℝ)} := measurableSet_lt measurable_subtype_coe measurable_const
      have hm2 : MeasurableSet {u : U01 | ∃ i : Fin g.length, J i ≤ k.val ∧ draw g.length u.1 = i} := draw_meas g.length {d | ∃ i : Fin g.length, J i ≤ k.val ∧ d = i}
      have e : {r : U01 × U01 | ¬ (r.1.1 < (g.length : ℝ) / (k.val : ℝ) ∧ ∃ i : Fin g.length, J i ≤ k.val ∧ draw g.length r.2.1 = i)} =
          ({u : U01 | u.1 < (g.length : ℝ) / (k.val : ℝ)} ×ˢ {u : U01 | ∃ i : Fin g.length, J i ≤ k.val ∧ draw g.length u.1 = i})ᶜ := by
        ext r
        simp
      rw [e, prob_compl_eq_one_sub (hm1.prod hm2)]
      change 1 - (volume.prod volume) _ = _
      rw [Measure.prod_prod, vol_lt hle, draw_chances hn (fun d => ∃ i : Fin g.length, J i ≤ k.val ∧ d = i), ← ENNReal.ofReal_mul hnn]
      have e2 : (∑ i : Fin g.length, if ∃ j : Fin g.length, J j ≤ k.val ∧ i.val = j.val then slotChance g.length i else 0) =
          ∑ i : Fin g.length, if J i ≤ k.val then slotChance g.length i else 0 := by
        refine Finset.sum_congr rfl fun i _ => ?_
        refine if_congr ?_ rfl rfl
        constructor
        · rintro ⟨j, h1, h2⟩
          rwa [Fin.ext h2]
        · exact fun h => ⟨i, h, rfl⟩
      rw [e2, ENNReal.ofReal_sub _ (mul_nonneg hnn (slotChance_part hn fun i => J i ≤ k.val).1), ENNReal.ofReal_one]
    · rename_i hk
      have e : {r : U01 × U01 | ¬ (r.1.1 < (g.length : ℝ) / (k.val : ℝ) ∧ ∃ i : Fin g.length, J i ≤ k.val ∧ draw g.length r.2.1 = i)} = Set.univ := by
        ext r
        simp only [Set.mem_ofPred_eq, Set.mem_univ, iff_true]
        rintro ⟨-, i, hi, -⟩
        have := hJ i
        omega
      rw [e, measure_univ]
  rw [Finset.prod_congr rfl fun k _ => hone k,
    Fin.prod_univ_eq_prod_range (fun k => if g.length ≤ k then ENNReal.ofReal (1 - (g.length : ℝ) / (k : ℝ) * ∑ i : Fin g.length, if J i ≤ k then slotChance g.length i else 0) else 1) N,
    ← Finset.prod_filter]
  refine Finset.prod_congr ?_ fun _ _ => rfl
  ext k
  simp only [Finset.mem_filter, Finset.mem_range, Finset.mem_Ico]
  tauto

include hn hN hs hv ht he in
/-- **C66** (partial) A slot shows one of the first `J` items with the probability `∏ (1 - n * c / k)`, for `k` from `J` to `N - 1`, where `c` is the probability that a sampled
item replaces this slot: `1/(2(n-1))` for the first and the last slot, `1/(n-1)` for the others. -/
theorem C66_age_partial (i : Fin g.length) (J : Nat) (hJ : g.length ≤ J) (hJN : J ≤ N) :
    volume {ω : Fin N → U01 × U01 | ∃ s, run g.length (new g) ((sampleCalls rest ω).map Op.add) = .ok s ∧ ∃ m : Fin N, m < J ∧ get s i = .ok (rest m).e} =
      ENNReal.ofReal (∏ k ∈ Finset.Ico J N, (1 - (g.length : ℝ) / (k : ℝ) * slotChance g.length i)) := by
  classical
  have h := C66_joint_partial g hn hN hs rest hv ht he (fun j => if j = i then J else N) (fun j => by split <;> assumption)
  have hset : {ω : Fin N → U01 × U01 | ∃ s, run g.length (new g) ((sampleCalls rest ω).map Op.add) = .ok s ∧ ∃ m : Fin N, m < J ∧ get s i = .ok (rest m).e} =
      {ω : Fin N → U01 × U01 | ∃ s, run g.length (new g) ((sampleCalls rest ω).map Op.add) = .ok s ∧
        ∀ j : Fin g.length, ∃ m : Fin N, m < (if j = i then J else N) ∧ get s j = .ok (rest m).e} := by
    ext ω
    obtain ⟨s, h1, h2⟩ := sample_item g hn hN hs rest hv ht ω
    simp only [Set.mem_ofPred_eq, h1, Except.ok.injEq, exists_eq_left']
    constructor
    · intro h j
      by_cases e : j = i
      · subst e
        simpa using h
      · obtain ⟨m, hm, -⟩ := h2 j j.2
        exact ⟨m, by simp [e], hm⟩
    · intro h
      simpa using h i
  rw [hset, h]
  have hsum : ∀ k ∈ Finset.Ico g.length N, (∑ j : Fin g.length, if (if j = i then J else N) ≤ k then slotChance g.length j else 0) = if J ≤ k then slotChance g.length i else 0 := by
    intro k hk
    rw [Finset.sum_eq_single i]
    · simp
    · intro j _ hj
      rw [if_neg hj, if_neg (by have := (Finset.mem_Ico.1 hk).2; omega)]
    · simp
  rw [Finset.prod_congr rfl fun k hk => by rw [hsum k hk]]
  rw [← Finset.prod_Ico_consecutive _ hJ hJN, Finset.prod_congr (s₁ := Finset.Ico g.length J) (g := fun _ => 1) rfl, Finset.prod_const_one, one_mul,
    ENNReal.ofReal_prod_of_nonneg]
  · refine Finset.prod_congr rfl fun k hk => ?_
    rw [if_pos (Finset.mem_Ico.1 hk).1]
  · intro k hk
    have hk := Finset.mem_Ico.1 hk
    have hk0 : (0 : ℝ) < k := by exact_mod_cast (show 0 < k by omega)
    have h1 : (g.length : ℝ) / k ≤ 1 := (div_le_one hk0).2 (by exact_mod_cast (show g.length ≤ k by omega))
    have h2 : slotChance g.length i ≤ 1 := slotChance_le hn i
    have := mul_le_mul h1 h2 (slotChance_nonneg hn i) zero_le_one
    linarith
  · intro k hk
    rw [if_neg (by have := (Finset.mem_Ico.1 hk).2; omega)]
    simp

include hn hN hs hv ht he in
/-- **C66** (partial) A slot shows item number `j` (counted from zero), not one of the first `n`, with this probability. -/
theorem C66_item_partial (i : Fin g.length) (j : Fin N) (hj : g.length ≤ j.val) :
    volume {ω : Fin N → U01 × U01 | ∃ s, run g.length (new g) ((sampleCalls rest ω).map Op.add) = .ok s ∧ get s i = .ok (rest j).e} =
      ENNReal.ofReal ((g.length : ℝ) / (j.val : ℝ) * slotChance g.length i * ∏ k ∈ Finset.Ico (j.val + 1) N, (1 - (g.length : ℝ) / (k : ℝ) * slotChance g.length i)) := by
  have h1 := C66_age_partial g hn hN hs rest hv ht he i (j.val + 1) (by omega) j.2
  have h0 := C66_age_partial g hn hN hs rest hv ht he i j.val hj j.2.le
  have hfac : ∀ k, g.length ≤ k → 0 ≤ 1 - (g.length : ℝ) / (k : ℝ) * slotChance g.length i := by
    intro k hk
    have hk0 : (0 : ℝ) < k := by exact_mod_cast (show 0 < k by omega)
    have h1 : (g.length : ℝ) / k ≤ 1 := (div_le_one hk0).2 (by exact_mod_cast hk)
    have h2 : slotChance g.length i ≤ 1 := slotChance_le hn i
    have := mul_le_mul h1 h2 (slotChance_nonneg hn i) zero_le_one
    linarith
  -- the two events of `h1` and `h0` differ by this one
  have hd : {ω : Fin N → U01 × U01 | ∃ s, run g.length (new g) ((sampleCalls rest ω).map Op.add) = .ok s ∧ get s i = .ok (rest j).e} =
      {ω : Fin N → U01 × U01 | ∃ s, run g.length (new g) ((sampleCalls rest ω).map Op.add) = .ok s ∧ ∃ m : Fin N, m < j.val + 1 ∧ get s i = .ok (rest m).e} \
      {ω : Fin N → U01 × U01 | ∃ s, run g.length (new g) ((sampleCalls rest ω).map Op.add) = .ok s ∧ ∃ m : Fin N, m < j.val ∧ get s i = .ok (rest m).e} := by
    ext ω
    obtain ⟨s, e1, e2⟩ := sample_item g hn hN hs rest hv ht ω
    simp only [Set.mem_sdiff, Set.mem_ofPred_eq, e1, Except.ok.injEq, exists_eq_left']
    constructor
    · intro h
      refine ⟨⟨j, Nat.lt_succ_self _, h⟩, ?_⟩
      rintro ⟨m, hm, hg⟩
      rw [h] at hg
      have := he _ _ (Except.ok.inj hg)
      subst this
      omega
    · rintro ⟨⟨m, hm, hg⟩, h⟩
      rcases Nat.lt_or_ge m.val j.val with hlt | hge
      · exact (h ⟨m, hlt, hg⟩).elim
      · rwa [show j = m from Fin.ext (by omega)]
  have hmeas : NullMeasurableSet {ω : Fin N → U01 × U01 | ∃ s, run g.length (new g) ((sampleCalls rest ω).map Op.add) = .ok s ∧ ∃ m : Fin N, m < j.val ∧ get s i = .ok (rest m).e} volume := by
    have : {ω : Fin N → U01 × U01 | ∃ s, run g.length (new g) ((sampleCalls rest ω).map Op.add) = .ok s ∧ ∃ m : Fin N, m < j.val ∧ get s i = .ok (rest m).e} =
        ⋂ k : Fin N, {ω | j.val ≤ k.val → ¬ ((ω k).1.1 < (g.length : ℝ) / (k.val : ℝ) ∧ draw g.length (ω k).2.1 = i)} := by
      ext ω
      obtain ⟨s, e1, e2⟩ := sample_item g hn hN hs rest hv ht ω
      obtain ⟨m, hm1, hm2⟩ := e2 i i.2
      have := showsItem_lt g rest m.2 hm2 hj
      simp only [Set.mem_ofPred_eq, e1, Except.ok.injEq, exists_eq_left', Set.mem_iInter, ← this]
      constructor
      · rintro ⟨m', h1, h2⟩
        rw [hm1] at h2
        rwa [he _ _ (Except.ok.inj h2)]
      · exact fun h => ⟨m, h, hm1⟩
    rw [this]
    refine (MeasurableSet.iInter fun k => ?_).nullMeasurableSet
    by_cases hk : j.val ≤ k.val
    · have hm1 : MeasurableSet {u : U01 | u.1 < (g.length : ℝ) / (k.val : ℝ)} := measurableSet_lt measurable_subtype_coe measurable_const
      have hm2 : MeasurableSet {u : U01 | draw g.length u.1 = i} := draw_meas g.length {d | d = i.val}
      have := (measurableSet_preimage (measurable_pi_apply (X := fun _ : Fin N => U01 × U01) k) (hm1.prod hm2)).compl
      refine (congrArg MeasurableSet ?_).mpr this
      ext ω
      simp [hk]
    · simp [hk]
  rw [hd, measure_sdiff (fun ω => by
      rintro ⟨s, a, m, hm, b⟩
      exact ⟨s, a, m, Nat.lt_succ_of_lt hm, b⟩) hmeas (measure_ne_top _ _), h0, h1, ← ENNReal.ofReal_sub _ (Finset.prod_nonneg fun k hk => hfac k (by have := (Finset.mem_Ico.1 hk).1; omega)),
    Finset.prod_eq_prod_Ico_succ_bot j.2]
  congr 1
  ring

end

/-- `∏ (1 - 1/k)` telescopes -/
theorem prod_telescope {J N : Nat} (hJ : 2 ≤ J) (hN : J ≤ N) : ∏ k ∈ Finset.Ico J N, (1 - 1 / (k : ℝ)) = ((J : ℝ) - 1) / ((N : ℝ) - 1) := by
  induction N, hN using Nat.le_induction with
  | base =>
      have : (J : ℝ) - 1 ≠ 0 := by
        have : (2 : ℝ) ≤ J := by exact_mod_cast hJ
        linarith
      rw [Finset.Ico_self, Finset.prod_empty, div_self this]
  | succ N hN ih =>
      have h2 : (2 : ℝ) ≤ N := by exact_mod_cast hJ.trans hN
      rw [Finset.prod_Ico_succ_top hN, ih]
      have h3 : (N : ℝ) - 1 ≠ 0 := by linarith
      have h4 : (N : ℝ) ≠ 0 := by linarith
      have h5 : 1 - 1 / (N : ℝ) = ((N : ℝ) - 1) / N := by
        field_simp
      rw [h5, div_mul_div_cancel₀ h3]
      push_cast
      rw [add_sub_cancel_right]

/-- **C66** (partial) With a sample of one item, or of two, each slot shows each item but the first `n` with the same probability `1/(N-1)`. -/
theorem C66_small_partial (g : List α) (hg : g.length = 1 ∨ g.length = 2) {N : Nat} (hs : N < 5000) (rest : Fin N → Call α ℝ) (hv : ∀ k, (rest k).Valid)
    (ht : ∀ k, (rest k).ts ≠ 0) (he : ∀ k l, (rest k).e = (rest l).e → k = l) (i : Fin g.length) (j : Fin N) (hj : g.length ≤ j.val) :
    volume {ω : Fin N → U01 × U01 | ∃ s, run g.length (new g) ((sampleCalls rest ω).map Op.add) = .ok s ∧ get s i = .ok (rest j).e} = ENNReal.ofReal (1 / ((N : ℝ) - 1)) := by
  have hw : (g.length : ℝ) * slotChance g.length i = 1 := by
    have hi := i.2
    unfold slotChance
    rcases hg with h | h
    · simp [h]
    · rw [if_neg (by omega), if_pos (by omega), h]
      norm_num
  rw [C66_item_partial g (by omega) (by have := j.2; omega) hs rest hv ht he i j hj]
  have hj1 : (1 : ℝ) ≤ j.val := by exact_mod_cast (show 1 ≤ j.val by omega)
  have hfac : ∀ k : Nat, (g.length : ℝ) / (k : ℝ) * slotChance g.length i = 1 / (k : ℝ) := fun k => by rw [div_mul_eq_mul_div, hw]
  simp only [hfac]
  rw [prod_telescope (by omega) j.2]
  congr 1
  push_cast
  field_simp
  ring

/-- **C66** (negation) With a sample of one item the first item is never shown after a second one; with two, each of the first two items is shown with half the
probability of the later ones. -/
theorem C66_first_items (g : List α) (hg : g.length = 1 ∨ g.length = 2) {N : Nat} (hN : g.length < N) (hs : N < 5000) (rest : Fin N → Call α ℝ) (hv : ∀ k, (rest k).Valid)
    (ht : ∀ k, (rest k).ts ≠ 0) (he : ∀ k l, (rest k).e = (rest l).e → k = l) (i : Fin g.length) :
    volume {ω : Fin N → U01 × U01 | ∃ s, run g.length (new g) ((sampleCalls rest ω).map Op.add) = .ok s ∧ ∃ m : Fin N, m < g.length ∧ get s i = .ok (rest m).e} =
      ENNReal.ofReal (((g.length : ℝ) - 1) / ((N : ℝ) - 1)) := by
  have hw : (g.length : ℝ) * slotChance g.length i = 1 := by
    have hi := i.2
    unfold slotChance
    rcases hg with h | h
    · simp [h]
    · rw [if_neg (by omega), if_pos (by omega), h]
      norm_num
  rw [C66_age_partial g (by omega) hN.le hs rest hv ht he i g.length le_rfl hN.le]
  have hfac : ∀ k : Nat, (g.length : ℝ) / (k : ℝ) * slotChance g.length i = 1 / (k : ℝ) := fun k => by rw [div_mul_eq_mul_div, hw]
  simp only [hfac]
  rcases hg with h | h
  · rw [h] at hN ⊢
    rw [Finset.prod_eq_prod_Ico_succ_bot hN]
    simp
  · rw [prod_telescope (by omega) hN.le]

/-! ### Example -/

/-- the items `0, 1, 2, …` with timestamps `1, 2, 3, …` -/
noncomputable def counting (N : Nat) : Fin N → Call Nat ℝ := fun k => { e := k, ts := k + 1, r1 := 0, r2 := 0, r3 := 0, rs := fun _ => 0 }

theorem counting_valid (N : Nat) (k : Fin N) : (counting N k).Valid := by simp [Call.Valid, counting]

/-- three slots, five items: slot 1 shows the last item with probability 3/8, slot 0 with probability 3/16 -/
example : volume {ω : Fin 5 → U01 × U01 | ∃ s, run 3 (new [0, 0, 0]) ((sampleCalls (counting 5) ω).map Op.add) = .ok s ∧ get s 1 = .ok 4} = ENNReal.ofReal (3 / 8) := by
  refine (C66_item_partial [0, 0, 0] (by simp) (by simp) (by norm_num) (counting 5) (counting_valid 5) (by simp [counting]) (fun k l h => Fin.ext h) 1 4 (by simp)).trans ?_
  congr 1
  simp [slotChance]
  norm_num

example : volume {ω : Fin 5 → U01 × U01 | ∃ s, run 3 (new [0, 0, 0]) ((sampleCalls (counting 5) ω).map Op.add) = .ok s ∧ get s 0 = .ok 4} = ENNReal.ofReal (3 / 16) := by
  refine (C66_item_partial [0, 0, 0] (by simp) (by simp) (by norm_num) (counting 5) (counting_valid 5) (by simp [counting]) (fun k l h => Fin.ext h) 0 4 (by simp)).trans ?_
  congr 1
  simp [slotChance]
  norm_num

end Orp.Chained
