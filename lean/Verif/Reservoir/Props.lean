import Verif.Reservoir.Laws

/-!
Properties C14–C19 and C63 of the reservoirs.

`In01 r` : `r` is in `[0,1[`. `Holds sample xs pos` (Lemmas): slot `i` of the sample holds the stream item
number `pos[i]`, the positions are pairwise distinct and inside the stream.
-/

namespace Orp.Reservoir

open MeasureTheory

variable {α : Type} {K : Type} [Field K] [LinearOrder K] [IsStrictOrderedRing K] [FloorRing K]

/-- **C14** `add` returns -1 and leaves the sample unchanged, or returns a slot index, stores the item in that
slot and leaves the other slots unchanged. -/
theorem C14_add_valid_slot {k : Nat} (hk : 1 ≤ k) (s : State α) (hs : s.sample.length = k) (e : α)
    {r1 r2 : K} (h2 : In01 r2) :
    ∃ s' idx, add k s e r1 r2 = .ok (s', idx) ∧ s'.sample.length = k ∧
      ((idx = -1 ∧ s'.sample = s.sample) ∨
       (∃ i : Nat, idx = i ∧ i < k ∧ s'.sample[i]? = some e ∧ ∀ j, j ≠ i → s'.sample[j]? = s.sample[j]?)) := by
  rcases add_cases hk s hs e (r1 := r1) h2 with ⟨i, a1, _, a3⟩ | ⟨_, a2⟩
  · refine ⟨_, _, a3, by simpa using hs, Or.inr ⟨i, rfl, a1, ?_, ?_⟩⟩
    · have : i < s.sample.length := by omega
      simp [this]
    · intro j hj
      simp only
      rw [List.getElem?_set_ne (by omega)]
  · exact ⟨_, _, a2, hs, Or.inl ⟨rfl, rfl⟩⟩

example : add (K := ℚ) 2 ⟨[7, 8], 2⟩ 9 (1/2) (1/2) = .ok (⟨[7, 9], 3⟩, 1) := by decide +kernel

/-- **C14**, boundary: with a generator that can return exactly 1 (as `rand()/RAND_MAX` does), a full
reservoir writes outside its array. -/
theorem C14_random_one_out_of_bounds {k : Nat} (s : State α) (hs : s.sample.length = k)
    (hc : k ≤ s.counter) (hc2 : s.counter + 1 < 2 ^ 32) (e : α) (r1 : K)
    (h1 : r1 < (k : K) / ((s.counter + 1 : Nat) : K)) :
    add k s e r1 (1 : K) = .error .ub := by
  have hin : incr s.counter = s.counter + 1 := by rw [incr, Nat.mod_eq_of_lt hc2]
  have hn : ¬ s.counter < k := by omega
  have hq : ltQuot r1 k (s.counter + 1) = true := by simpa [ltQuot] using h1
  simp only [add, sampleIndex, hn, if_false, hin, hq, if_true, one_mul]
  simp [wr, hs, bind, Except.bind]

example : add (K := ℚ) 2 ⟨[7, 8], 2⟩ 9 (1/2) 1 = .error .ub :=
  C14_random_one_out_of_bounds _ rfl (by decide) (by decide) _ _ (by decide +kernel)

/-- **C15** After `N < 2^32` adds the first `min N k` slots hold stream items from pairwise distinct positions,
and while the reservoir fills up slot `i` holds item `i`. -/
theorem C15_distinct_positions {k : Nat} (hk : 1 ≤ k) (garbage : List α) (hg : garbage.length = k)
    (cs : List (Call α K)) (hv : ∀ c ∈ cs, In01 c.r1 ∧ In01 c.r2) (hN : cs.length < 2 ^ 32) :
    ∃ s, adds k (new garbage) cs = .ok s ∧ s.sample.length = k ∧
      ∃ pos : List Nat, pos.length = min cs.length k ∧ pos.Nodup ∧
        (∀ i (h : i < pos.length), pos[i] < cs.length ∧ s.sample[i]? = (cs.map Call.e)[pos[i]]?) ∧
        (cs.length ≤ k → ∀ i (h : i < pos.length), pos[i] = i) := by
  obtain ⟨s, h1, _, h3, pos, h4, h5, h6⟩ := adds_inv hk garbage hg cs hv hN
  refine ⟨s, h1, h3, pos, h4, h5.nodup, fun i h => ⟨?_, h5.val i h⟩, fun h i hi => ?_⟩
  · simpa using h5.lt _ (List.getElem_mem h)
  · simp [h6 h]

example : adds (K := ℚ) 2 (new [0, 0]) [⟨10, 0, 0⟩, ⟨11, 0, 0⟩, ⟨12, 1/2, 3/4⟩] = .ok ⟨[10, 12], 3⟩ := by
  decide +kernel

/-- **C16** With ideal independent uniform random numbers, after `N ≥ k` adds every stream position `p < N` is in
the sample with probability exactly `k/N`. (The stream is `0,1,2,…`, so that an item is its position.) -/
theorem C16_uniform {k : Nat} (hk : 1 ≤ k) (garbage : List Nat) (hg : garbage.length = k) {N : Nat}
    (hkN : k ≤ N) (hN : N < 2 ^ 32) {p : Nat} (hp : p < N) :
    volume {ω : Fin N → U01 × U01 | ∃ s,
        adds k (new garbage) (List.ofFn fun i : Fin N => ⟨i.val, (ω i).1.1, (ω i).2.1⟩) = .ok s ∧ p ∈ s.sample}
      = ENNReal.ofReal ((k : ℝ) / N) := by
  rw [← plain_law hk garbage hg N hN hkN p hp]
  congr 1
  ext ω
  simp only [Set.mem_ofPred_eq]
  have := adds_walk hk garbage hg N hN ω
  rw [calls] at this
  rw [this]
  simp

example : volume {ω : Fin 7 → U01 × U01 | ∃ s,
    adds 3 (new [0, 0, 0]) (List.ofFn fun i : Fin 7 => ⟨i.val, (ω i).1.1, (ω i).2.1⟩) = .ok s ∧ 5 ∈ s.sample}
      = ENNReal.ofReal (((3 : Nat) : ℝ) / ((7 : Nat) : ℝ)) :=
  C16_uniform (by decide) _ rfl (by decide) (by decide) (by decide)

/-- **C17** `count` is the number of `add` calls modulo `2^32`. -/
theorem C17_count {k : Nat} (hk : 1 ≤ k) (garbage : List α) (hg : garbage.length = k)
    (cs : List (Call α K)) (hv : ∀ c ∈ cs, In01 c.r1 ∧ In01 c.r2) :
    ∃ s, adds k (new garbage) cs = .ok s ∧ count s = cs.length % 2 ^ 32 := by
  obtain ⟨s, h1, h2, _⟩ := adds_counter hk garbage hg cs hv
  exact ⟨s, h1, h2⟩

omit [IsStrictOrderedRing K] in
/-- **C17** for `sample_index`: every call advances the count by one modulo `2^32`. -/
theorem C17_sample_index_count (k : Nat) (s : State α) (r1 r2 : K) :
    count (sampleIndex k s r1 r2).1 = (count s + 1) % 2 ^ 32 := rfl

example : count (sampleIndex (K := ℚ) 2 (⟨[1, 2], 2 ^ 32 - 1⟩ : State Nat) 0 0).1 = 0 := by decide +kernel

/-- **C18** In every reachable state of the exponential reservoir an `add` returns a slot index, stores the item
there, leaves the other slots unchanged; `count` never exceeds the size, never decreases, and grows (by one)
exactly when the item goes to the first unused slot. -/
theorem C18_exponential_keeps_newest {k : Nat} (hk : 1 ≤ k) (hk2 : k < 2 ^ 31) (garbage : List α)
    (hg : garbage.length = k) (cs : List (Call α K)) (hv : ∀ c ∈ cs, In01 c.r1 ∧ In01 c.r2)
    (e : α) {r1 r2 : K} (h1 : In01 r1) (h2 : In01 r2) :
    ∃ s s' i, expAdds k (new garbage) cs = .ok s ∧ expAdd k s e r1 r2 = .ok (s', (i : Nat)) ∧
      i < k ∧ s.sample.length = k ∧ s'.sample.length = k ∧
      s'.sample[i]? = some e ∧ (∀ j, j ≠ i → s'.sample[j]? = s.sample[j]?) ∧
      count s' ≤ k ∧
      ((i < count s ∧ count s' = count s) ∨ (i = count s ∧ count s' = count s + 1)) := by
  obtain ⟨s, g1, g2, g3, _⟩ := expAdds_inv hk hk2 garbage hg cs hv
  have key : ∀ i, i < k → (s.sample.set i e)[i]? = some e ∧
      ∀ j, j ≠ i → (s.sample.set i e)[j]? = s.sample[j]? := by
    intro i hi
    refine ⟨?_, fun j hj => by rw [List.getElem?_set_ne (by omega)]⟩
    have : i < s.sample.length := by omega
    simp [this]
  rcases expAdd_cases hk hk2 s g2 g3 e h1 h2 with ⟨i, a1, a2⟩ | ⟨a1, a2⟩
  · have hi : i < k := by omega
    exact ⟨s, _, i, g1, a2, hi, g2, by simpa using g2, (key i hi).1, (key i hi).2, g3, Or.inl ⟨a1, rfl⟩⟩
  · exact ⟨s, _, s.counter, g1, a2, a1, g2, by simpa using g2, (key _ a1).1, (key _ a1).2,
      Nat.succ_le_of_lt a1, Or.inr ⟨rfl, rfl⟩⟩

example : expAdds (K := ℚ) 2 (new [0, 0]) [⟨10, 0, 0⟩, ⟨11, 3/4, 0⟩, ⟨12, 1/2, 3/4⟩] = .ok ⟨[10, 12], 2⟩ := by
  decide +kernel

/-- **C18**, boundary: a draw equal to 1 makes a full exponential reservoir write past its array. -/
theorem C18_random_one_out_of_bounds {k : Nat} (hk : 1 ≤ k) (s : State α) (hs : s.sample.length = k)
    (hc : s.counter = k) (e : α) (r2 : K) : expAdd k s e (1 : K) r2 = .error .ub := by
  have hne : ¬ k = 0 := by omega
  have hkpos : (0 : K) < k := by exact_mod_cast hk
  have hq : ltQuot (1 : K) k k = false := by
    simp [ltQuot, hne]
  simp [expAdd, expSampleIndex, hc, hq, wr, hs, bind, Except.bind]

example : expAdd (K := ℚ) 2 ⟨[7, 8], 2⟩ 9 1 0 = .error .ub :=
  C18_random_one_out_of_bounds (by decide) _ rfl rfl _ _

/-- **C19** The first `count` slots of the exponential reservoir hold stream items from pairwise distinct
positions, one of which is the newest. -/
theorem C19_exponential_distinct {k : Nat} (hk : 1 ≤ k) (hk2 : k < 2 ^ 31) (garbage : List α)
    (hg : garbage.length = k) (cs : List (Call α K)) (hv : ∀ c ∈ cs, In01 c.r1 ∧ In01 c.r2) :
    ∃ s, expAdds k (new garbage) cs = .ok s ∧ count s ≤ k ∧
      ∃ pos : List Nat, pos.length = count s ∧ pos.Nodup ∧
        (∀ i (h : i < pos.length), pos[i] < cs.length ∧ s.sample[i]? = (cs.map Call.e)[pos[i]]?) ∧
        (1 ≤ cs.length → cs.length - 1 ∈ pos) := by
  obtain ⟨s, h1, _, h3, pos, h4, h5, h6⟩ := expAdds_inv hk hk2 garbage hg cs hv
  refine ⟨s, h1, h3, pos, h4, h5.nodup, fun i h => ⟨?_, h5.val i h⟩, fun h => h6 ?_⟩
  · simpa using h5.lt _ (List.getElem_mem h)
  · rintro rfl; simp at h

/-- **C63** With ideal independent uniform random numbers, the exponential reservoir holds the stream position `p`
after `N > p` adds with probability exactly `(1 - 1/k)^(N-1-p)`: the bias is exponential in the age. -/
theorem C63_exponential_bias {k : Nat} (hk : 1 ≤ k) (hk2 : k < 2 ^ 31) (garbage : List Nat)
    (hg : garbage.length = k) {N p : Nat} (hp : p < N) :
    volume {ω : Fin N → U01 × U01 | ∃ s,
        expAdds k (new garbage) (List.ofFn fun i : Fin N => ⟨i.val, (ω i).1.1, (ω i).2.1⟩) = .ok s ∧
        p ∈ s.sample.take (count s)}
      = ENNReal.ofReal ((1 - 1 / (k : ℝ)) ^ (N - 1 - p)) := by
  rw [← exp_law hk hk2 garbage hg N p hp]
  congr 1
  ext ω
  simp only [Set.mem_ofPred_eq]
  have := expAdds_walk hk hk2 garbage hg N ω
  rw [calls] at this
  rw [this]
  simp [count]

example : volume {ω : Fin 9 → U01 × U01 | ∃ s,
    expAdds 4 (new [0, 0, 0, 0]) (List.ofFn fun i : Fin 9 => ⟨i.val, (ω i).1.1, (ω i).2.1⟩) = .ok s ∧
        2 ∈ s.sample.take (count s)}
      = ENNReal.ofReal ((1 - 1 / ((4 : Nat) : ℝ)) ^ 6) :=
  C63_exponential_bias (by decide) (by decide) _ rfl (by decide)

end Orp.Reservoir
