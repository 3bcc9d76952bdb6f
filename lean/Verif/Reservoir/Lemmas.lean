import Verif.Reservoir.Model
import Mathlib.Algebra.Order.Field.Basic
import Mathlib.Tactic.Linarith
import Mathlib.Tactic.Positivity
import Mathlib.Tactic.FieldSimp
import Mathlib.Data.List.Induction

namespace Orp.Reservoir

variable {α : Type} {K : Type} [Field K] [LinearOrder K] [IsStrictOrderedRing K] [FloorRing K]

/-- random number in `[0,1[` -/
def In01 (r : K) : Prop := 0 ≤ r ∧ r < 1

def Call.Valid (c : Call α K) : Prop := In01 c.r1 ∧ In01 c.r2

theorem floor_range {n : Nat} (hn : 1 ≤ n) {r : K} (h : In01 r) :
    0 ≤ ⌊r * (n : K)⌋ ∧ ⌊r * (n : K)⌋ < (n : Int) := by
  have hpos : (0 : K) < n := by exact_mod_cast hn
  refine ⟨Int.floor_nonneg.2 (mul_nonneg h.1 hpos.le), ?_⟩
  rw [Int.floor_lt]
  have := h.2
  calc r * (n : K) < 1 * n := by nlinarith
    _ = ((n : Int) : K) := by simp

/-- one add of the plain reservoir, draws in range -/
theorem add_cases {k : Nat} (hk : 1 ≤ k) (s : State α) (hs : s.sample.length = k) (e : α) {r1 r2 : K}
    (h2 : In01 r2) :
    (∃ i, i < k ∧ (s.counter < k → i = s.counter) ∧
        add k s e r1 r2 = .ok ({ sample := s.sample.set i e, counter := incr s.counter }, (i : Int))) ∨
    (k ≤ s.counter ∧ add k s e r1 r2 = .ok ({ s with counter := incr s.counter }, -1)) := by
  unfold add sampleIndex
  by_cases hc : s.counter < k
  · left
    refine ⟨s.counter, hc, fun _ => rfl, ?_⟩
    have : s.counter < s.sample.length := by omega
    simp [hc, wr_ok _ this, bind, Except.bind, pure, Except.pure]
  · by_cases hl : ltQuot r1 k (incr s.counter) = true
    · left
      obtain ⟨ha, hb⟩ := floor_range hk h2
      refine ⟨⌊r2 * (k : K)⌋.toNat, by omega, fun h => absurd h hc, ?_⟩
      have : ⌊r2 * (k : K)⌋.toNat < s.sample.length := by omega
      simp [hc, hl, wr_ok _ this, bind, Except.bind, pure, Except.pure, ha]
    · right
      exact ⟨by omega, by simp [hc, hl, pure, Except.pure]⟩

omit [IsStrictOrderedRing K] in
theorem adds_append {k : Nat} (s : State α) (a b : List (Call α K)) :
    adds k s (a ++ b) = (adds k s a).bind (fun s => adds k s b) := by
  induction a generalizing s with
  | nil => rfl
  | cons c cs ih =>
      simp only [List.cons_append, adds, bind, Except.bind]
      cases add k s c.e c.r1 c.r2 with
      | error x => rfl
      | ok p => simpa [Except.bind] using ih p.1

omit [IsStrictOrderedRing K] in
theorem expAdds_append {k : Nat} (s : State α) (a b : List (Call α K)) :
    expAdds k s (a ++ b) = (expAdds k s a).bind (fun s => expAdds k s b) := by
  induction a generalizing s with
  | nil => rfl
  | cons c cs ih =>
      simp only [List.cons_append, expAdds, bind, Except.bind]
      cases expAdd k s c.e c.r1 c.r2 with
      | error x => rfl
      | ok p => simpa [Except.bind] using ih p.1

/-- the sample slots `0..n-1` hold the stream items at positions `pos` -/
structure Holds (sample : List α) (xs : List α) (pos : List Nat) : Prop where
  nodup : pos.Nodup
  lt : ∀ p ∈ pos, p < xs.length
  le : pos.length ≤ sample.length
  val : ∀ i (h : i < pos.length), sample[i]? = xs[pos[i]]?

theorem Holds.replace {sample xs : List α} {pos : List Nat} (h : Holds sample xs pos) {i : Nat}
    (hi : i < pos.length) (e : α) :
    Holds (sample.set i e) (xs ++ [e]) (pos.set i xs.length) where
  nodup := by
    rw [List.nodup_iff_injective_getElem]
    intro a b hab
    simp only [List.getElem_set] at hab
    have hn := List.nodup_iff_injective_getElem.1 h.nodup
    have la : a.val < pos.length := by simpa using a.2
    have lb : b.val < pos.length := by simpa using b.2
    apply Fin.ext
    split at hab <;> split at hab
    · omega
    · have := h.lt _ (List.getElem_mem lb); omega
    · have := h.lt _ (List.getElem_mem la); omega
    · have := @hn ⟨a, la⟩ ⟨b, lb⟩ hab
      simpa using this
  lt := by
    intro p hp
    rcases List.mem_or_eq_of_mem_set hp with h1 | h1
    · have := h.lt p h1; simp; omega
    · subst h1; simp
  le := by simpa using h.le
  val := by
    intro j hj
    have hj' : j < pos.length := by simpa using hj
    have hle := h.le
    rw [List.getElem_set]
    by_cases hij : i = j
    · subst hij
      have : i < sample.length := by omega
      simp [this]
    · have := h.lt _ (List.getElem_mem hj')
      rw [if_neg hij, List.getElem?_set_ne hij, h.val j hj', List.getElem?_append_left this]

theorem Holds.push {sample xs : List α} {pos : List Nat} (h : Holds sample xs pos)
    (hi : pos.length < sample.length) (e : α) :
    Holds (sample.set pos.length e) (xs ++ [e]) (pos ++ [xs.length]) where
  nodup := by
    rw [List.nodup_append]
    refine ⟨h.nodup, by simp, ?_⟩
    intro a ha b hb
    simp only [List.mem_singleton] at hb
    have := h.lt a ha; omega
  lt := by
    intro p hp
    rcases List.mem_append.1 hp with h1 | h1
    · have := h.lt p h1; simp; omega
    · simp only [List.mem_singleton] at h1; subst h1; simp
  le := by simp; omega
  val := by
    intro j hj
    by_cases hij : j < pos.length
    · have := h.lt _ (List.getElem_mem hij)
      rw [List.getElem?_set_ne (by omega), List.getElem_append_left hij, h.val j hij,
        List.getElem?_append_left this]
    · have : j = pos.length := by simp at hj; omega
      subst this
      simp [hi]

theorem Holds.weaken {sample xs : List α} {pos : List Nat} (h : Holds sample xs pos) (e : α) :
    Holds sample (xs ++ [e]) pos where
  nodup := h.nodup
  lt := fun p hp => by have := h.lt p hp; simp; omega
  le := h.le
  val := fun i hi => by
    rw [h.val i hi, List.getElem?_append_left (h.lt _ (List.getElem_mem hi))]

/-- plain reservoir: main invariant for any stream shorter than 2^32 -/
theorem adds_inv {k : Nat} (hk : 1 ≤ k) (garbage : List α) (hg : garbage.length = k)
    (cs : List (Call α K)) : (∀ c ∈ cs, c.Valid) → cs.length < 2 ^ 32 →
    ∃ s, adds k (new garbage) cs = .ok s ∧ s.counter = cs.length ∧ s.sample.length = k ∧
      ∃ pos, pos.length = min cs.length k ∧ Holds s.sample (cs.map Call.e) pos ∧
        (cs.length ≤ k → pos = List.range cs.length) := by
  induction cs using List.reverseRecOn with
  | nil =>
      intro _ _
      exact ⟨new garbage, rfl, rfl, hg, [], rfl, ⟨by simp, by simp, by simp, by simp⟩, by simp⟩
  | append_singleton cs c ih =>
      intro hv hlen
      have hlen' : cs.length + 1 < 2 ^ 32 := by simpa using hlen
      obtain ⟨s, h1, h2, h3, pos, h4, h5, h6⟩ := ih (fun c hc => hv c (by simp [hc])) (by omega)
      have hincr : incr s.counter = cs.length + 1 := by
        rw [incr, h2, Nat.mod_eq_of_lt hlen']
      rw [adds_append, h1]
      simp only [Except.bind, adds, bind, Except.bind]
      rcases add_cases hk s h3 c.e (r1 := c.r1) (hv c (by simp)).2 with ⟨i, a1, a2, a3⟩ | ⟨a1, a2⟩
      · rw [a3]
        refine ⟨_, rfl, by simp [hincr], by simpa using h3, ?_⟩
        by_cases hc : cs.length < k
        · have hi : i = pos.length := by rw [a2 (by omega)]; omega
          refine ⟨pos ++ [cs.length], by simp; omega, ?_, fun _ => ?_⟩
          · subst hi
            have := h5.push (by omega) c.e
            simpa using this
          · rw [h6 (by omega)]; simp [List.range_succ]
        · refine ⟨pos.set i cs.length, by simp; omega, ?_, fun h => by simp at h; omega⟩
          have := h5.replace (i := i) (by omega) c.e
          simpa using this
      · rw [a2]
        refine ⟨_, rfl, by simp [hincr], h3, pos, by simp; omega, ?_, fun h => by simp at h; omega⟩
        simpa using h5.weaken c.e

/-- counter of the plain reservoir, any length -/
theorem adds_counter {k : Nat} (hk : 1 ≤ k) (garbage : List α) (hg : garbage.length = k)
    (cs : List (Call α K)) : (∀ c ∈ cs, c.Valid) →
    ∃ s, adds k (new garbage) cs = .ok s ∧ s.counter = cs.length % 2 ^ 32 ∧ s.sample.length = k := by
  induction cs using List.reverseRecOn with
  | nil => intro _; exact ⟨new garbage, rfl, rfl, hg⟩
  | append_singleton cs c ih =>
      intro hv
      obtain ⟨s, h1, h2, h3⟩ := ih (fun c hc => hv c (by simp [hc]))
      have hincr : incr s.counter = (cs ++ [c]).length % 2 ^ 32 := by
        rw [incr, h2]; simp
      rw [adds_append, h1]
      simp only [Except.bind, adds, bind, Except.bind]
      rcases add_cases hk s h3 c.e (r1 := c.r1) (hv c (by simp)).2 with ⟨i, a1, a2, a3⟩ | ⟨a1, a2⟩
      · rw [a3]; exact ⟨_, rfl, hincr, by simpa using h3⟩
      · rw [a2]; exact ⟨_, rfl, hincr, h3⟩

/-- one add of the exponential reservoir, draws in range -/
theorem expAdd_cases {k : Nat} (hk : 1 ≤ k) (hk2 : k < 2 ^ 31) (s : State α) (hs : s.sample.length = k)
    (hc : s.counter ≤ k) (e : α) {r1 r2 : K} (h1 : In01 r1) (h2 : In01 r2) :
    (∃ i, i < s.counter ∧
        expAdd k s e r1 r2 = .ok ({ s with sample := s.sample.set i e }, (i : Int))) ∨
    (s.counter < k ∧ expAdd k s e r1 r2 =
        .ok ({ sample := s.sample.set s.counter e, counter := s.counter + 1 }, (s.counter : Int))) := by
  have hkpos : (0 : K) < k := by exact_mod_cast hk
  unfold expAdd expSampleIndex
  by_cases hl : ltQuot r1 s.counter k = true
  · left
    have hcpos : 1 ≤ s.counter := by
      by_contra h0
      have h0 : s.counter = 0 := by omega
      have : ¬ k = 0 := by omega
      simp only [ltQuot, h0, this, if_false, decide_eq_true_eq] at hl
      simp at hl
      exact absurd h1.1 (not_le.2 hl)
    obtain ⟨ha, hb⟩ := floor_range hcpos h2
    refine ⟨⌊r2 * (s.counter : K)⌋.toNat, by omega, ?_⟩
    have : ⌊r2 * (s.counter : K)⌋.toNat < s.sample.length := by omega
    simp [hl, wr_ok _ this, bind, Except.bind, pure, Except.pure, ha]
  · right
    have hlt : s.counter < k := by
      by_contra h0
      have h0 : s.counter = k := by omega
      have hne : ¬ k = 0 := by omega
      apply hl
      simp only [ltQuot, h0, hne, if_false, decide_eq_true_eq]
      rw [div_self hkpos.ne']; exact h1.2
    refine ⟨hlt, ?_⟩
    have : s.counter < s.sample.length := by omega
    have hin : incr s.counter = s.counter + 1 := by rw [incr, Nat.mod_eq_of_lt]; omega
    simp [hl, wr_ok _ this, bind, Except.bind, pure, Except.pure, hin]

/-- exponential reservoir: main invariant for any stream -/
theorem expAdds_inv {k : Nat} (hk : 1 ≤ k) (hk2 : k < 2 ^ 31) (garbage : List α) (hg : garbage.length = k)
    (cs : List (Call α K)) : (∀ c ∈ cs, c.Valid) →
    ∃ s, expAdds k (new garbage) cs = .ok s ∧ s.sample.length = k ∧ s.counter ≤ k ∧
      ∃ pos, pos.length = s.counter ∧ Holds s.sample (cs.map Call.e) pos ∧
        (cs ≠ [] → cs.length - 1 ∈ pos) := by
  induction cs using List.reverseRecOn with
  | nil =>
      intro _
      exact ⟨new garbage, rfl, hg, by simp [new], [], rfl, ⟨by simp, by simp, by simp, by simp⟩, by simp⟩
  | append_singleton cs c ih =>
      intro hv
      obtain ⟨s, h1, h2, h3, pos, h4, h5, h6⟩ := ih (fun c hc => hv c (by simp [hc]))
      rw [expAdds_append, h1]
      simp only [Except.bind, expAdds, bind, Except.bind]
      obtain ⟨v1, v2⟩ := hv c (by simp)
      rcases expAdd_cases hk hk2 s h2 h3 c.e v1 v2 with ⟨i, a1, a2⟩ | ⟨a1, a2⟩
      · rw [a2]
        refine ⟨_, rfl, by simpa using h2, h3, pos.set i cs.length, by simpa using h4, ?_, fun _ => ?_⟩
        · have := h5.replace (i := i) (by omega) c.e
          simpa using this
        · simp only [List.length_append, List.length_singleton, Nat.add_sub_cancel]
          exact List.mem_set (by omega) _
      · rw [a2]
        refine ⟨_, rfl, by simpa using h2, Nat.succ_le_of_lt a1, pos ++ [cs.length], by simp [h4], ?_, fun _ => by simp⟩
        have := h5.push (by omega) c.e
        rw [h4] at this
        simpa using this

end Orp.Reservoir
