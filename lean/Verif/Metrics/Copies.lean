import Verif.Metrics.Props

/-!
Property C160: copies of `KappaMetrics` objects (`operator=`, metrics.hpp:55-62), in programs with any number of objects.
-/

namespace Orp.Metrics

open Spec

/-- The inner loop of `operator=` (metrics.hpp:58-59): `confusion[i][j] = metric.confusion[i][j]` from column `j`, `k` columns left. -/
def copyRow (src : Nat → Nat → Int) (i : Nat) : Nat → Nat → (Nat → Nat → Int) → Nat → Nat → Int
  | _, 0, dst => dst
  | j, k + 1, dst => copyRow src i (j + 1) k (fun a b => if a = i ∧ b = j then src i j else dst a b)

/-- The outer loop of `operator=` (metrics.hpp:57-59) from row `i`, `k` rows left. -/
def copyRows (n : Nat) (src : Nat → Nat → Int) : Nat → Nat → (Nat → Nat → Int) → Nat → Nat → Int
  | _, 0, dst => dst
  | i, k + 1, dst => copyRows n src (i + 1) k (copyRow src i 0 n dst)

/-- `operator=` (metrics.hpp:55-62); `same` says that source and target are one object (`&metric == this`). -/
def KappaState.assign (n : Nat) (same : Bool) (dst src : KappaState) : KappaState :=
  if same then dst
  else { confusion := copyRows n src.confusion 0 n dst.confusion
         total := src.total }

/-- user actions in a program with several objects: construct one, call object `i`, assign object `j` to object `i` -/
inductive KappaOp where
  | construct
  | call (i : Nat) (op : Op)
  | assign (i j : Nat)

/-- One action (metrics.hpp:52-66, 91-99). An index without object is an invalid program: `ub`. -/
def kappaApply (n : Nat) (w : List KappaState) : KappaOp → Res (List KappaState)
  | .construct => .ok (w ++ [KappaState.init])
  | .call i op => do
      let s ← rd w i
      let s ← s.apply n op
      wr w i s
  | .assign i j => do
      let src ← rd w j
      let dst ← rd w i
      wr w i (dst.assign n (decide (i = j)) src)

/-- A history of actions -/
def kappaRun (n : Nat) (w : List KappaState) : List KappaOp → Res (List KappaState)
  | [] => .ok w
  | o :: os => do
      let w ← kappaApply n w o
      kappaRun n w os

namespace Spec

/-- The calls that count for each object: those made on it, where an assignment replaces what counts for the target by what counts for the source. -/
def counts (hs : List (List Op)) : KappaOp → List (List Op)
  | .construct => hs ++ [[]]
  | .call i op => hs.set i (hs.getD i [] ++ [op])
  | .assign i j => hs.set i (hs.getD j [])

/-- valid action in a program with `m` objects -/
def ValidKappa (n m : Nat) : KappaOp → Prop
  | .construct => True
  | .call i op => i < m ∧ ValidOp n op
  | .assign i j => i < m ∧ j < m

/-- the number of objects after an action -/
def objects (m : Nat) : KappaOp → Nat
  | .construct => m + 1
  | _ => m

/-- valid program: objects are constructed before they are used and labels are in range -/
def ValidProg (n : Nat) : Nat → List KappaOp → Prop
  | _, [] => True
  | m, o :: os => ValidKappa n m o ∧ ValidProg n (objects m o) os

end Spec

/-! ### the loops -/

theorem copyRow_eq (src : Nat → Nat → Int) (i : Nat) : ∀ (k j : Nat) (dst : Nat → Nat → Int) (a b : Nat),
    copyRow src i j k dst a b = if a = i ∧ j ≤ b ∧ b < j + k then src a b else dst a b
  | 0, j, dst, a, b => by
      rw [if_neg (by omega)]; rfl
  | k + 1, j, dst, a, b => by
      rw [copyRow, copyRow_eq src i k (j + 1)]
      by_cases h1 : a = i ∧ j + 1 ≤ b ∧ b < j + 1 + k
      · rw [if_pos h1, if_pos (by omega)]
      · rw [if_neg h1]
        by_cases h2 : a = i ∧ b = j
        · obtain ⟨rfl, rfl⟩ := h2
          rw [if_pos ⟨rfl, rfl⟩, if_pos (by omega)]
        · rw [if_neg h2, if_neg (by omega)]

theorem copyRows_eq (n : Nat) (src : Nat → Nat → Int) : ∀ (k i : Nat) (dst : Nat → Nat → Int) (a b : Nat),
    copyRows n src i k dst a b = if (i ≤ a ∧ a < i + k) ∧ b < n then src a b else dst a b
  | 0, i, dst, a, b => by
      rw [if_neg (by omega)]; rfl
  | k + 1, i, dst, a, b => by
      rw [copyRows, copyRows_eq n src k (i + 1), copyRow_eq]
      by_cases h1 : (i + 1 ≤ a ∧ a < i + 1 + k) ∧ b < n
      · rw [if_pos h1, if_pos (by omega)]
      · rw [if_neg h1]
        by_cases h2 : a = i ∧ 0 ≤ b ∧ b < 0 + n
        · rw [if_pos h2, if_pos (by omega)]
        · rw [if_neg h2, if_neg (by omega)]

/-! ### objects with the same members -/

/-- the members are the same, as far as they exist -/
def Same (n : Nat) (s t : KappaState) : Prop := s.total = t.total ∧ ∀ i j, i < n → j < n → s.confusion i j = t.confusion i j

theorem foldl_range_congr {α : Type} (n : Nat) (f g : α → Nat → α) (h : ∀ i, i < n → ∀ x, f x i = g x i) (x : α) :
    (List.range n).foldl f x = (List.range n).foldl g x := by
  apply List.foldl_ext
  intro a b hb
  exact h b (List.mem_range.1 hb) a

theorem Same.kappa {n : Nat} {s t : KappaState} (h : Same n s t) : s.kappa n = t.kappa n := by
  have hc : ∀ i, i < n → s.sumCol n i = t.sumCol n i := fun i hi =>
    foldl_range_congr n _ _ (fun j hj x => by rw [h.2 i j hi hj]) _
  have hr : ∀ i, i < n → s.sumRow n i = t.sumRow n i := fun i hi =>
    foldl_range_congr n _ _ (fun j hj x => by rw [h.2 j i hj hi]) _
  unfold KappaState.kappa
  rw [h.1, foldl_range_congr n (fun acc i => acc + (s.confusion i i : ℚ)) (fun acc i => acc + (t.confusion i i : ℚ)) (fun i hi x => by rw [h.2 i i hi hi]) 0,
    foldl_range_congr n (fun acc i => acc + s.sumCol n i * s.sumRow n i) (fun acc i => acc + t.sumCol n i * t.sumRow n i)
      (fun i hi x => by rw [hc i hi, hr i hi]) 0]

theorem Same.score {n : Nat} {s t : KappaState} (h : Same n s t) (ratio invert : Bool) (size : Int) :
    s.score n ratio invert size = t.score n ratio invert size := by
  unfold KappaState.score
  rw [h.kappa]

theorem Same.bump {n : Nat} {s t : KappaState} (h : Same n s t) {i j c : Int} (hi : 0 ≤ i ∧ i < n ∧ 0 ≤ j ∧ j < n) :
    ∃ s' t', s.bump n i j c = .ok s' ∧ t.bump n i j c = .ok t' ∧ Same n s' t' := by
  unfold KappaState.bump
  rw [if_pos hi, if_pos hi]
  refine ⟨_, _, rfl, rfl, ?_, fun a b ha hb => ?_⟩
  · simp only [h.1]
  · simp only [h.2 a b ha hb]

theorem Same.apply {n : Nat} {s t : KappaState} (h : Same n s t) {op : Op} (hv : ValidOp n op) :
    ∃ s' t', s.apply n op = .ok s' ∧ t.apply n op = .ok t' ∧ Same n s' t' := by
  cases op with
  | update a b => exact h.bump hv
  | increaseError c =>
      have : 2 ≤ n := hv
      exact h.bump ⟨le_refl _, by omega, by omega, by omega⟩
  | reset => exact ⟨_, _, rfl, rfl, rfl, fun _ _ _ _ => rfl⟩

theorem Same.assign {n : Nat} (dst src : KappaState) : Same n (dst.assign n false src) src := by
  refine ⟨rfl, fun a b ha hb => ?_⟩
  simp only [KappaState.assign, Bool.false_eq_true, if_false]
  rw [copyRows_eq, if_pos (by omega)]

theorem run_snoc (n : Nat) : ∀ (ops : List Op) (s : KappaState) (op : Op), s.run n (ops ++ [op]) = (s.run n ops).bind (fun s => s.apply n op)
  | [], s, op => by
      simp only [List.nil_append, KappaState.run, bind, Except.bind]
      cases s.apply n op <;> rfl
  | o :: os, s, op => by
      simp only [List.cons_append, KappaState.run, bind, Except.bind]
      cases s.apply n o with
      | error e => rfl
      | ok s' => exact run_snoc n os s' op

/-- every object has the members that the calls that count for it leave in a new object -/
def Replays (n : Nat) (w : List KappaState) (hs : List (List Op)) : Prop :=
  w.length = hs.length ∧ ∀ (i : Nat) (s : KappaState) (h : List Op), w[i]? = some s → hs[i]? = some h → ∃ t, KappaState.init.run n h = .ok t ∧ Same n s t

theorem replays_set {n : Nat} {w : List KappaState} {hs : List (List Op)} (h : Replays n w hs) (i : Nat) {s : KappaState} {l : List Op}
    (hn : ∃ t, KappaState.init.run n l = .ok t ∧ Same n s t) : Replays n (w.set i s) (hs.set i l) := by
  refine ⟨by simpa using h.1, fun k s' h' e1 e2 => ?_⟩
  by_cases hk : i = k
  · subst hk
    rw [List.getElem?_set] at e1 e2
    simp only [if_true] at e1 e2
    split at e1
    · split at e2
      · cases e1; cases e2; exact hn
      · simp at e2
    · simp at e1
  · rw [List.getElem?_set_ne hk] at e1 e2
    exact h.2 k s' h' e1 e2

theorem replays_step {n : Nat} {w : List KappaState} {hs : List (List Op)} (h : Replays n w hs) (o : KappaOp) (hv : ValidKappa n w.length o) :
    ∃ w', kappaApply n w o = .ok w' ∧ Replays n w' (counts hs o) ∧ w'.length = objects w.length o := by
  cases o with
  | construct =>
      refine ⟨_, rfl, ⟨by simp [counts, h.1], fun i s l e1 e2 => ?_⟩, by simp [objects]⟩
      by_cases hi : i < w.length
      · rw [List.getElem?_append_left hi] at e1
        rw [counts, List.getElem?_append_left (by rw [← h.1]; exact hi)] at e2
        exact h.2 i s l e1 e2
      · have h1 := (List.getElem?_eq_some_iff.1 e1).1
        simp only [List.length_append, List.length_singleton] at h1
        have hiw : i = w.length := by omega
        subst hiw
        rw [counts, h.1] at e2
        simp only [List.getElem?_concat_length, Option.some.injEq] at e1 e2
        subst e1 e2
        exact ⟨_, rfl, rfl, fun _ _ _ _ => rfl⟩
  | call i op =>
      obtain ⟨hi, hop⟩ := hv
      have h1 : w[i]? = some w[i] := List.getElem?_eq_getElem hi
      have hih : i < hs.length := by rw [← h.1]; exact hi
      have h2 : hs[i]? = some hs[i] := List.getElem?_eq_getElem hih
      obtain ⟨t, t1, t2⟩ := h.2 i _ _ h1 h2
      obtain ⟨s', t', a1, a2, a3⟩ := t2.apply hop
      refine ⟨w.set i s', ?_, ?_, by simp [objects]⟩
      · simp only [kappaApply, (rd_eq_ok_iff ..).2 h1, bind, Except.bind, a1]
        exact (wr_eq_ok_iff ..).2 ⟨hi, rfl⟩
      · refine replays_set h i ⟨t', ?_, a3⟩
        rw [run_snoc, List.getD_eq_getElem?_getD, h2, Option.getD_some, t1]
        exact a2
  | assign i j =>
      obtain ⟨hi, hj⟩ := hv
      have h1 : w[i]? = some w[i] := List.getElem?_eq_getElem hi
      have h2 : w[j]? = some w[j] := List.getElem?_eq_getElem hj
      have hjh : j < hs.length := by rw [← h.1]; exact hj
      have h3 : hs[j]? = some hs[j] := List.getElem?_eq_getElem hjh
      obtain ⟨t, t1, t2⟩ := h.2 j _ _ h2 h3
      refine ⟨w.set i (w[i].assign n (decide (i = j)) w[j]), ?_, ?_, by simp [objects]⟩
      · simp only [kappaApply, (rd_eq_ok_iff ..).2 h1, (rd_eq_ok_iff ..).2 h2, bind, Except.bind]
        exact (wr_eq_ok_iff ..).2 ⟨hi, rfl⟩
      · refine replays_set h i ⟨t, ?_, ?_⟩
        · rw [List.getD_eq_getElem?_getD, h3, Option.getD_some, t1]
        · by_cases hij : i = j
          · subst hij
            simp only [decide_true, KappaState.assign, if_true]
            exact t2
          · rw [decide_eq_false hij]
            have hs := Same.assign (n := n) w[i] w[j]
            exact ⟨hs.1.trans t2.1, fun a b ha hb => (hs.2 a b ha hb).trans (t2.2 a b ha hb)⟩

theorem replays_run {n : Nat} : ∀ (os : List KappaOp) (w : List KappaState) (hs : List (List Op)), Replays n w hs → ValidProg n w.length os →
    ∃ w', kappaRun n w os = .ok w' ∧ Replays n w' (os.foldl counts hs)
  | [], w, hs, h, _ => ⟨w, rfl, h⟩
  | o :: os, w, hs, h, hv => by
      obtain ⟨w1, a1, a2, a3⟩ := replays_step h o hv.1
      obtain ⟨w2, b1, b2⟩ := replays_run os w1 _ a2 (by rw [a3]; exact hv.2)
      exact ⟨w2, by simp only [kappaRun, a1, bind, Except.bind, b1], b2⟩

/-- **C160** After every valid program with any number of `KappaMetrics` objects, every object gives the kappa and the scores of a new object on which the calls that count for it were made:
those made on it since it was last assigned to, after those that counted for the source of that assignment at that time. -/
theorem C160_copies (n : Nat) (os : List KappaOp) (hv : ValidProg n 0 os) :
    ∃ w, kappaRun n [] os = .ok w ∧ w.length = (os.foldl counts []).length ∧
      ∀ (i : Nat) (s : KappaState) (h : List Op), w[i]? = some s → (os.foldl counts [])[i]? = some h → ∃ t, KappaState.init.run n h = .ok t ∧ s.kappa n = t.kappa n ∧
        ∀ ratio invert size, s.score n ratio invert size = t.score n ratio invert size := by
  obtain ⟨w, h1, h2⟩ := replays_run os [] [] (n := n) ⟨rfl, fun i s h e => by simp at e⟩ hv
  refine ⟨w, h1, h2.1, fun i s h e1 e2 => ?_⟩
  obtain ⟨t, t1, t2⟩ := h2.2 i s h e1 e2
  exact ⟨t, t1, t2.kappa, fun _ _ _ => t2.score _ _ _⟩

/-- **C160** In particular an assignment gives the target the scores of the source and changes no other object; assigning an object to itself changes nothing. -/
theorem C160_assignment (n : Nat) (w : List KappaState) (i j : Nat) (hi : i < w.length) (hj : j < w.length) :
    ∃ w', kappaApply n w (.assign i j) = .ok w' ∧ (∀ k, k ≠ i → w'[k]? = w[k]?) ∧ (i = j → w' = w) ∧
      ∀ s t : KappaState, w'[i]? = some s → w[j]? = some t → s.kappa n = t.kappa n ∧ ∀ ratio invert size, s.score n ratio invert size = t.score n ratio invert size := by
  have h1 : w[i]? = some w[i] := List.getElem?_eq_getElem hi
  have h2 : w[j]? = some w[j] := List.getElem?_eq_getElem hj
  refine ⟨w.set i (w[i].assign n (decide (i = j)) w[j]), ?_, fun k hk => List.getElem?_set_ne (Ne.symm hk), ?_, fun s t e1 e2 => ?_⟩
  · simp only [kappaApply, (rd_eq_ok_iff ..).2 h1, (rd_eq_ok_iff ..).2 h2, bind, Except.bind]
    exact (wr_eq_ok_iff ..).2 ⟨hi, rfl⟩
  · rintro rfl
    simp [KappaState.assign]
  · rw [List.getElem?_set_self hi] at e1
    rw [h2] at e2
    cases e1; cases e2
    have hs : Same n (w[i].assign n (decide (i = j)) w[j]) w[j] := by
      by_cases hij : i = j
      · subst hij
        simp only [decide_true, KappaState.assign, if_true]
        exact ⟨rfl, fun _ _ _ _ => rfl⟩
      · rw [decide_eq_false hij]
        exact Same.assign _ _
    exact ⟨hs.kappa, fun _ _ _ => hs.score _ _ _⟩

/-- two objects, one is copied to the other, then both go on -/
def copyProg : List KappaOp := [.construct, .call 0 (.update 1 1), .call 0 (.update 0 1), .construct, .call 1 (.update 0 0), .assign 1 0, .call 0 (.update 0 0), .assign 1 1,
  .call 1 (.increaseError 2)]

example : ValidProg 2 0 copyProg ∧ copyProg.foldl counts [] = [[.update 1 1, .update 0 1, .update 0 0], [.update 1 1, .update 0 1, .increaseError 2]] ∧
    (kappaRun 2 [] copyProg).map (fun w => w.map (fun s => s.score 2 false)) = .ok [some (3 / 10), some (1 / 2)] := by
  refine ⟨?_, rfl, by decide +kernel⟩
  simp [copyProg, ValidProg, ValidKappa, ValidOp, objects]

end Orp.Metrics
