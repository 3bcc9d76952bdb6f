import Verif.Mcnn.Props
import Mathlib.Data.Rat.Floor

/-!
Property C132 for MC-NN: the getters of the thresholds after every training history.
-/

set_option linter.unusedSectionVars false

namespace Orp.Mcnn

variable {K : Type} [Field K] [LinearOrder K] [IsStrictOrderedRing K]

/-- `get_error_thr` (mc_nn.hpp:386-388): an `unsigned int`, as given to the constructor. -/
def getErrorThr (s : State K) : Nat := s.errorThr.toNat

/-- `get_performance_thr` (mc_nn.hpp:393-395): the return type is `unsigned int`, the `double` is converted. The conversion
drops the fraction; it is undefined behaviour when the result does not fit ([conv.fpint]). -/
def getPerformanceThr (s : State K) : Res Nat :=
  if -1 < s.perfThr ∧ s.perfThr < 2 ^ 32 then .ok ⌊s.perfThr⌋.toNat else .error .ub

/-- the three settings of the constructor are untouched -/
def SameSettings (s t : State K) : Prop := t.errorThr = s.errorThr ∧ t.perfThr = s.perfThr ∧ t.cleaning = s.cleaning

theorem SameSettings.trans {s t u : State K} (h : SameSettings s t) (g : SameSettings t u) : SameSettings s u :=
  ⟨g.1.trans h.1, g.2.1.trans h.2.1, g.2.2.trans h.2.2⟩

theorem splitInto_settings {sqrt : K → K} {s t : State K} {ci j : Nat} (h : splitInto sqrt s ci j = .ok t) :
    SameSettings s t := by
  simp only [splitInto, bind, Except.bind, pure, Except.pure] at h
  repeat' (split at h)
  all_goals (first | (cases h; done) | (cases h; exact ⟨rfl, rfl, rfl⟩))

theorem split_settings {sqrt : K → K} {s t : State K} {ci : Nat} (h : split sqrt s ci = .ok t) : SameSettings s t := by
  simp only [split, bind, Except.bind, pure, Except.pure] at h
  repeat' (split at h)
  all_goals (first | (cases h; done) | exact splitInto_settings h | (cases h; exact ⟨rfl, rfl, rfl⟩))

theorem insert_settings {s : State K} {x : List K} {l : Int} {r : State K × Bool} (h : insert s x l = .ok r) :
    SameSettings s r.1 := by
  simp only [insert, bind, Except.bind, pure, Except.pure] at h
  repeat' (split at h)
  all_goals (first | (cases h; done) | (cases h; exact ⟨rfl, rfl, rfl⟩))

theorem absorb_settings {sqrt : K → K} {s t : State K} {x : List K} {a b : Nat} (h : absorb sqrt s x a b = .ok t) :
    SameSettings s t := by
  simp only [absorb, bind, Except.bind, pure, Except.pure] at h
  split at h
  · repeat' (split at h)
    all_goals (first | (cases h; done) | (cases h; exact ⟨rfl, rfl, rfl⟩))
  · split at h
    · cases h
    split at h
    · cases h
    split at h
    · cases h
    split at h
    · cases h
    split at h
    · split at h
      · cases h
      rename_i u hu
      have h0 := split_settings hu
      replace h0 : SameSettings s u := h0
      split at h
      · cases h
      split at h
      · exact h0.trans (split_settings h)
      · cases h; exact h0
    · split at h
      · cases h
      split at h
      · have h0 := split_settings h
        exact h0
      · cases h; exact ⟨rfl, rfl, rfl⟩

theorem train_settings {sqrt : K → K} {s : State K} {x : List K} {l : Int} {r : State K × Bool}
    (h : train sqrt s x l = .ok r) : SameSettings s r.1 := by
  simp only [train, bind, Except.bind, pure, Except.pure] at h
  have h0 : ∀ (b : Prop) [Decidable b], SameSettings s { (if b then clean s else s) with timestamp := (if b then clean s else s).timestamp + 1 } := by
    intro b _
    split
    · exact ⟨rfl, rfl, rfl⟩
    · exact ⟨rfl, rfl, rfl⟩
  split at h
  · cases h
  split at h
  · exact (h0 _).trans (insert_settings h)
  · cases h
  · split at h
    · cases h
    · rename_i h1
      cases h
      exact (h0 _).trans (absorb_settings h1)

theorem run_settings {sqrt : K → K} (ps : List (List K × Int)) : ∀ {s t : State K}, run sqrt s ps = .ok t → SameSettings s t := by
  induction ps with
  | nil => intro s t h; cases h; exact ⟨rfl, rfl, rfl⟩
  | cons p ps ih =>
      intro s t h
      simp only [run, bind, Except.bind] at h
      split at h
      · cases h
      · rename_i h1
        exact (train_settings h1).trans (ih h)

/-- **C132** After every training history `get_error_thr` returns the number given to the constructor. -/
theorem C132_error_thr (sqrt : K → K) (garbage : List (Cluster K)) (errorThr cleaning : Nat) (perfThr : ℚ)
    (ps : List (List K × Int)) {s : State K} (h : run sqrt (new garbage errorThr cleaning perfThr) ps = .ok s) :
    getErrorThr s = errorThr := by
  have := (run_settings ps h).1
  simp [getErrorThr, this, new]

/-- **C132** (what holds) After every training history `get_performance_thr` returns the threshold given to the constructor, if that
is a whole number that fits in an `unsigned int`. Missing: other thresholds, see `C132_performance_thr_violated` and
`C132_performance_thr_ub`. -/
theorem C132_performance_thr_partial (sqrt : K → K) (garbage : List (Cluster K)) (errorThr cleaning : Nat) (thr : Nat)
    (hthr : thr < 2 ^ 32) (ps : List (List K × Int)) {s : State K}
    (h : run sqrt (new garbage errorThr cleaning (thr : ℚ)) ps = .ok s) : getPerformanceThr s = .ok thr := by
  have h1 := (run_settings ps h).2.1
  have h2 : s.perfThr = (thr : ℚ) := h1
  have h3 : -1 < (thr : ℚ) ∧ (thr : ℚ) < 2 ^ 32 := ⟨lt_of_lt_of_le (by norm_num) (Nat.cast_nonneg thr), by exact_mod_cast hthr⟩
  simp [getPerformanceThr, h2, h3]

/-- **C132** A threshold between 0 and 2^32 comes back without its fraction, after every training history. -/
theorem C132_performance_thr_truncated (sqrt : K → K) (garbage : List (Cluster K)) (errorThr cleaning : Nat) (thr : ℚ)
    (h0 : 0 ≤ thr) (hthr : thr < 2 ^ 32) (ps : List (List K × Int)) {s : State K}
    (h : run sqrt (new garbage errorThr cleaning thr) ps = .ok s) :
    ∃ n : Nat, getPerformanceThr s = .ok n ∧ (n : ℚ) ≤ thr ∧ thr < n + 1 := by
  have h2 : s.perfThr = thr := (run_settings ps h).2.1
  have h3 : -1 < thr ∧ thr < 2 ^ 32 := ⟨by linarith, hthr⟩
  have h4 : (0 : ℤ) ≤ ⌊thr⌋ := Int.floor_nonneg.2 h0
  have h5 : ((⌊thr⌋.toNat : ℚ)) = (⌊thr⌋ : ℚ) := by exact_mod_cast congrArg (Int.cast (R := ℚ)) (Int.toNat_of_nonneg h4)
  refine ⟨⌊thr⌋.toNat, by simp [getPerformanceThr, h2, h3], ?_, ?_⟩
  · rw [h5]; exact Int.floor_le thr
  · rw [h5]; exact Int.lt_floor_add_one thr

/-- **C132** is false of the code: a threshold with a fraction comes back smaller, after every training history. -/
theorem C132_performance_thr_violated (sqrt : K → K) (garbage : List (Cluster K)) (errorThr cleaning : Nat) (thr : ℚ)
    (h0 : 0 ≤ thr) (h32 : thr < 2 ^ 32) (hthr : ∀ n : Nat, thr ≠ n) (ps : List (List K × Int)) {s : State K}
    (h : run sqrt (new garbage errorThr cleaning thr) ps = .ok s) : ∃ n : Nat, getPerformanceThr s = .ok n ∧ (n : ℚ) < thr := by
  obtain ⟨n, h1, h2, _⟩ := C132_performance_thr_truncated sqrt garbage errorThr cleaning thr h0 h32 ps h
  exact ⟨n, h1, lt_of_le_of_ne h2 (fun e => hthr n e.symm)⟩

/-- **C132** is false of the code: for thresholds that are not between -1 and 2^32 the getter is undefined behaviour. -/
theorem C132_performance_thr_ub (sqrt : K → K) (garbage : List (Cluster K)) (errorThr cleaning : Nat) (thr : ℚ)
    (hthr : thr ≤ -1 ∨ 2 ^ 32 ≤ thr) (ps : List (List K × Int)) {s : State K}
    (h : run sqrt (new garbage errorThr cleaning thr) ps = .ok s) : getPerformanceThr s = .error .ub := by
  have h2 : s.perfThr = thr := (run_settings ps h).2.1
  have h3 : ¬ (-1 < thr ∧ thr < 2 ^ 32) := by
    rintro ⟨h3, h4⟩
    rcases hthr with h | h
    · exact absurd h3 (not_lt.2 h)
    · exact absurd h4 (not_lt.2 h)
  simp only [getPerformanceThr, h2, if_neg h3]

/-- a history with a split, for three thresholds: one that comes back, one that is truncated, one that cannot be read -/
example : (run (K := ℚ) id (new [junk, junk] 1 0 50) [([0], 1), ([10], 2), ([6], 1)]).map (fun s =>
    (getErrorThr s, getPerformanceThr s)) = .ok (1, .ok 50) ∧
    (run (K := ℚ) id (new [junk, junk] 1 0 (1 / 2)) [([0], 1), ([10], 2), ([6], 1)]).map (fun s =>
    (getErrorThr s, getPerformanceThr s)) = .ok (1, .ok 0) ∧
    (run (K := ℚ) id (new [junk, junk] 1 0 (-5)) [([0], 1), ([10], 2), ([6], 1)]).map (fun s =>
    (getErrorThr s, getPerformanceThr s)) = .ok (1, .error .ub) := by
  decide +kernel

end Orp.Mcnn
