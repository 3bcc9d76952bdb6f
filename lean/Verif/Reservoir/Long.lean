import Verif.Reservoir.Props

/-!
C122: reservoir sampling on streams that do not end. The number of items seen is an `unsigned int` (reservoir_sampling.hpp:39), which starts again at zero after
`2^32` items: the sampler then forgets the stream and fills its array anew.
-/

set_option linter.unusedSectionVars false

namespace Orp.Reservoir

open MeasureTheory

variable {α : Type} {K : Type} [Field K] [LinearOrder K] [IsStrictOrderedRing K] [FloorRing K]

/-- While the counter is below the size, items are stored one after the other. -/
theorem adds_fill {k : Nat} (cs : List (Call α K)) : ∀ (s : State α), s.sample.length = k → s.counter + cs.length ≤ k → k < 2 ^ 32 →
    adds k s cs = .ok { sample := s.sample.take s.counter ++ cs.map Call.e ++ s.sample.drop (s.counter + cs.length), counter := s.counter + cs.length } := by
  induction cs with
  | nil =>
      intro s hs _ _
      cases s
      simp [adds]
  | cons c cs ih =>
      intro s hs hc hk
      simp only [List.length_cons] at hc
      have hlt : s.counter < k := by omega
      have hw : wr s.sample s.counter c.e = .ok (s.sample.set s.counter c.e) := wr_ok _ (by omega)
      have hi : incr s.counter = s.counter + 1 := by rw [incr, Nat.mod_eq_of_lt (by omega)]
      have ha : add k s c.e c.r1 c.r2 = .ok ({ sample := s.sample.set s.counter c.e, counter := s.counter + 1 }, (s.counter : Int)) := by
        simp only [add, sampleIndex, hlt, if_true, hi]
        rw [if_pos (Int.natCast_nonneg _)]
        simp [hw, bind, Except.bind, pure, Except.pure]
      have hs' : (s.sample.set s.counter c.e).length = k := by simpa using hs
      rw [adds, ha]
      simp only [bind, Except.bind]
      rw [ih _ hs' (by simp only; omega) hk]
      have e1 : (s.sample.set s.counter c.e).take (s.counter + 1) = s.sample.take s.counter ++ [c.e] := by
        rw [List.take_add_one, List.take_set_of_le (le_refl _)]
        simp [hs, hlt]
      have e2 : (s.sample.set s.counter c.e).drop (s.counter + 1 + cs.length) = s.sample.drop (s.counter + (cs.length + 1)) := by
        rw [List.drop_set_of_lt (by omega)]
        congr 1
        omega
      simp only [e1, e2, List.map_cons, List.length_cons, List.append_assoc, List.cons_append, List.nil_append]
      congr 2
      omega

/-- A history from a sampler whose counter is zero: from `k` items on, what the array held before is gone. -/
theorem adds_forget {k : Nat} (s : State α) (hs : s.sample.length = k) (hc : s.counter = 0) (hk : k < 2 ^ 32) (g : List α) (hg : g.length = k) (cs : List (Call α K))
    (hn : k ≤ cs.length) : adds k s cs = adds k (new g) cs := by
  have h1 := adds_fill (cs.take k) s hs (by simp [hc]) hk
  have h2 := adds_fill (cs.take k) (new g) (by simpa [new] using hg) (by simp [new]) hk
  have hl : (cs.take k).length = k := by simp [hn]
  have e1 : s.sample.drop k = [] := by simp [hs]
  have e2 : (new g).sample.drop k = [] := by simp [new, hg]
  have e3 : (new g).counter = 0 := rfl
  rw [hl, hc, Nat.zero_add, e1] at h1
  rw [hl, e3, Nat.zero_add, e2] at h2
  rw [← List.take_append_drop k cs, adds_append, adds_append, h1, h2]
  rfl

/-- **C122** (negation of the full property) After `2^32` items the sampler starts again: whatever the first `2^32` items and the random numbers were, a history that
goes on with at least `k` items ends like the history of a new object that only sees these items. -/
theorem C122_restart {k : Nat} (hk : 1 ≤ k) (hk2 : k < 2 ^ 32) (g : List α) (hg : g.length = k) (m : Nat) (old recent : List (Call α K))
    (ho : ∀ c ∈ old, In01 c.r1 ∧ In01 c.r2) (hm : old.length = m * 2 ^ 32) (hr : k ≤ recent.length) :
    adds k (new g) (old ++ recent) = adds k (new g) recent := by
  obtain ⟨s, h1, h2, h3⟩ := adds_counter hk g hg old ho
  rw [adds_append, h1]
  exact adds_forget s h3 (by rw [h2, hm]; simp) hk2 g hg recent hr

/-- **C122** (negation of the full property) In particular the array then holds the `k` latest items, and only them, with certainty. -/
theorem C122_latest {k : Nat} (hk : 1 ≤ k) (hk2 : k < 2 ^ 32) (g : List α) (hg : g.length = k) (old recent : List (Call α K)) (ho : ∀ c ∈ old, In01 c.r1 ∧ In01 c.r2)
    (hm : old.length = 2 ^ 32) (hr : recent.length = k) :
    ∃ s, adds k (new g) (old ++ recent) = .ok s ∧ s.sample = recent.map Call.e ∧ count s = k := by
  rw [C122_restart hk hk2 g hg 1 old recent ho (by omega) hr.ge, adds_fill recent (new g) (by simpa [new] using hg) (by simp [new, hr]) hk2]
  refine ⟨_, rfl, ?_, ?_⟩
  · simp [new, hr, hg]
  · simp [new, count, hr]

/-- **C122** (negation of the full property) The item number `2^32` is always sampled: the threshold is a division by zero. -/
theorem C122_always_sampled {k : Nat} (hk : 1 ≤ k) (hk2 : k < 2 ^ 32) (s : State α) (hs : s.sample.length = k) (hc : s.counter = 2 ^ 32 - 1) (e : α) {r1 r2 : K}
    (h2 : In01 r2) : ∃ s' i, add k s e r1 r2 = .ok (s', (i : Nat)) ∧ s'.sample[i]? = some e := by
  have hi : incr s.counter = 0 := by
    rw [incr, hc]
    norm_num
  have hn : ¬ s.counter < k := by omega
  have hq : ltQuot r1 k 0 = true := by
    simp [ltQuot]
    omega
  have hf := floor_range hk h2
  have hw : wr s.sample ⌊r2 * (k : K)⌋.toNat e = .ok (s.sample.set ⌊r2 * (k : K)⌋.toNat e) := wr_ok _ (by omega)
  refine ⟨{ sample := s.sample.set ⌊r2 * (k : K)⌋.toNat e, counter := 0 }, ⌊r2 * (k : K)⌋.toNat, ?_, ?_⟩
  · simp only [add, sampleIndex, hn, if_false, hi, hq, if_true]
    rw [if_pos hf.1, Int.toNat_of_nonneg hf.1]
    simp [hw, bind, Except.bind, pure, Except.pure]
  · have : ⌊r2 * (k : K)⌋.toNat < s.sample.length := by omega
    simp [this]

/-- **C122** (negation of the full property) With ideal random numbers, the first item of a stream of `2^32 + k` items is in the sample with probability zero, and not
`k / (2^32 + k)`. -/
theorem C122_not_uniform {k : Nat} (hk : 1 ≤ k) (hk2 : k < 2 ^ 32) (garbage : List Nat) (hg : garbage.length = k) :
    volume {ω : Fin (2 ^ 32 + k) → U01 × U01 | ∃ s,
        adds k (new garbage) (List.ofFn fun i : Fin (2 ^ 32 + k) => ⟨i.val, (ω i).1.1, (ω i).2.1⟩) = .ok s ∧ 0 ∈ s.sample} = 0 := by
  rw [show {ω : Fin (2 ^ 32 + k) → U01 × U01 | ∃ s, adds k (new garbage) (List.ofFn fun i : Fin (2 ^ 32 + k) => ⟨i.val, (ω i).1.1, (ω i).2.1⟩) = .ok s ∧
    0 ∈ s.sample} = ∅ from ?_, measure_empty]
  ext ω
  simp only [Set.mem_ofPred_eq, Set.mem_empty_iff_false, iff_false, not_exists, not_and]
  intro s hs
  rw [List.ofFn_add] at hs
  obtain ⟨s', h1, h2, _⟩ := C122_latest (K := ℝ) hk hk2 garbage hg
    (List.ofFn fun i : Fin (2 ^ 32) => ⟨(Fin.castLE (Nat.le_add_right _ _) i : Fin (2 ^ 32 + k)).val, (ω (Fin.castLE (Nat.le_add_right _ _) i)).1.1, (ω (Fin.castLE (Nat.le_add_right _ _) i)).2.1⟩)
    (List.ofFn fun i : Fin k => ⟨(Fin.natAdd (2 ^ 32) i : Fin (2 ^ 32 + k)).val, (ω (Fin.natAdd (2 ^ 32) i)).1.1, (ω (Fin.natAdd (2 ^ 32) i)).2.1⟩)
    (by
      intro c hc
      obtain ⟨i, rfl⟩ := List.mem_ofFn.1 hc
      exact ⟨(ω _).1.2, (ω _).2.2⟩)
    (List.length_ofFn ..) (List.length_ofFn ..)
  rw [hs] at h1
  cases h1
  rw [h2]
  intro h0
  obtain ⟨c, hc, h0⟩ := List.mem_map.1 h0
  obtain ⟨i, rfl⟩ := List.mem_ofFn.1 hc
  simp at h0

/-- **C122** (partial) Up to `2^32 - 1` items the sample is uniform, over every prefix of the stream. -/
theorem C122_uniform_partial {k : Nat} (hk : 1 ≤ k) (garbage : List Nat) (hg : garbage.length = k) {N : Nat} (hkN : k ≤ N) (hN : N < 2 ^ 32) {p : Nat} (hp : p < N) :
    volume {ω : Fin N → U01 × U01 | ∃ s,
        adds k (new garbage) (List.ofFn fun i : Fin N => ⟨i.val, (ω i).1.1, (ω i).2.1⟩) = .ok s ∧ p ∈ s.sample} = ENNReal.ofReal ((k : ℝ) / N) :=
  C16_uniform hk garbage hg hkN hN hp

/-- **C122** (partial) The exponential reservoir has no such limit: its counter never exceeds the size, however long the stream is. -/
theorem C122_exponential_partial {k : Nat} (hk : 1 ≤ k) (hk2 : k < 2 ^ 31) (garbage : List α) (hg : garbage.length = k) (cs : List (Call α K))
    (hv : ∀ c ∈ cs, In01 c.r1 ∧ In01 c.r2) : ∃ s, expAdds k (new garbage) cs = .ok s ∧ count s ≤ k ∧ ∀ e, cs.getLast? = some e → e.e ∈ s.sample := by
  obtain ⟨s, h1, h2, pos, h3, h4, h5, h6⟩ := C19_exponential_distinct hk hk2 garbage hg cs hv
  refine ⟨s, h1, h2, fun e he => ?_⟩
  have hne : cs ≠ [] := by
    rintro rfl
    simp at he
  obtain ⟨i, hi, hp⟩ := List.getElem_of_mem (h6 (List.length_pos_of_ne_nil hne))
  have := (h5 i hi).2
  rw [hp, List.getElem?_map, ← List.getLast?_eq_getElem?, he] at this
  exact List.mem_of_getElem? this

/-- a history of `2^32 + 2` items, the hypotheses of `C122_latest` hold -/
example : ∃ s, adds (K := ℚ) 2 (new [0, 0]) (List.replicate (2 ^ 32) ⟨1, 0, 0⟩ ++ [⟨8, 0, 0⟩, ⟨9, 0, 0⟩]) = .ok s ∧ s.sample = [8, 9] ∧ count s = 2 :=
  C122_latest (by decide) (by decide) _ rfl _ _ (fun c hc => by
    obtain rfl := List.eq_of_mem_replicate hc
    exact ⟨⟨le_refl _, one_pos⟩, ⟨le_refl _, one_pos⟩⟩) (List.length_replicate ..) rfl

end Orp.Reservoir
