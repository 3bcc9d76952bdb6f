import Verif.Metrics.Lemmas
import Mathlib.Algebra.BigOperators.Field

/-!
Properties C34–C36 of the metrics.
-/

namespace Orp.Metrics

open Spec

/-- **C34** After any history with at least one recorded item since the last reset, `score` is
errors / items, lies in `[0,1]`, and the inverted score is its complement to 1. -/
theorem C34_error_rate (ops : List Op) (h : 1 ≤ allItems (sinceReset ops)) :
    ∃ e i : ℚ, (ops.foldl ErrState.apply {}).score false = some e ∧
      (ops.foldl ErrState.apply {}).score false (invert := true) = some i ∧
      e = (allErrors (sinceReset ops) : ℚ) / (allItems (sinceReset ops) : ℚ) ∧
      0 ≤ e ∧ e ≤ 1 ∧ e + i = 1 := by
  obtain ⟨h1, h2⟩ := err_run ops
  have hpos : (0 : ℚ) < (allItems (sinceReset ops) : ℚ) := by exact_mod_cast h
  have hle : (allErrors (sinceReset ops) : ℚ) ≤ (allItems (sinceReset ops) : ℚ) := by
    exact_mod_cast allErrors_le _
  refine ⟨_, ((allItems (sinceReset ops) : ℚ) - allErrors (sinceReset ops)) / allItems (sinceReset ops),
    ?_, ?_, rfl, by positivity, by rw [div_le_one hpos]; exact hle, ?_⟩
  · simp only [ErrState.score, Bool.false_and, Bool.not_false, Bool.and_self, if_true, h1, h2]
    simp only [Int.cast_natCast]
    exact quot_ok hpos.ne'
  · simp only [ErrState.score, Bool.false_and, Bool.not_true, Bool.and_false, h1, h2]
    push_cast
    exact quot_ok hpos.ne'
  · field_simp; ring

example : 1 ≤ allItems (sinceReset [.update 0 1, .reset, .update 1 1, .update 2 1, .increaseError 2]) := by decide

example : ((([.update 0 1, .reset, .update 1 1, .update 2 1, .increaseError 2] : List Op)).foldl
    ErrState.apply {}).score false = some (3/4) := by decide +kernel

/-- **C34** With the size ratio the score is multiplied (divided when inverted) by the tree size. -/
theorem C34_ratio (ops : List Op) (h : 1 ≤ allItems (sinceReset ops)) (treeSize : Int) (ht : 0 < treeSize) :
    ∃ e i : ℚ, (ops.foldl ErrState.apply {}).score false = some e ∧
      (ops.foldl ErrState.apply {}).score false (invert := true) = some i ∧
      (ops.foldl ErrState.apply {}).score true (treeSize := treeSize) = some (e * treeSize) ∧
      (ops.foldl ErrState.apply {}).score true (invert := true) (treeSize := treeSize) = some (i / treeSize) := by
  obtain ⟨h1, h2⟩ := err_run ops
  have hpos : (0 : ℚ) < (allItems (sinceReset ops) : ℚ) := by exact_mod_cast h
  have hc : (((ops.foldl ErrState.apply {}).count : Int) : ℚ) ≠ 0 := by
    rw [h1]; exact_mod_cast hpos.ne'
  have ht' : (treeSize : ℚ) ≠ 0 := by exact_mod_cast ht.ne'
  refine ⟨(((ops.foldl ErrState.apply {}).errorCount : Int) : ℚ) / ((ops.foldl ErrState.apply {}).count : Int),
    ((((ops.foldl ErrState.apply {}).count - (ops.foldl ErrState.apply {}).errorCount) : Int) : ℚ) /
      ((ops.foldl ErrState.apply {}).count : Int), ?_, ?_, ?_, ?_⟩
  · simp [ErrState.score, quot, hc]
  · simp [ErrState.score, quot, hc]
  · simp [ErrState.score, quot, hc]
  · simp [ErrState.score, quot, hc, ht']

/-! ### Kappa -/

/-- The object holds exactly the recorded pairs, after any valid history. -/
theorem kappa_run (n : Nat) (ops : List Op) (hv : ∀ o ∈ ops, ValidOp n o) :
    ∃ s, KappaState.init.run n ops = .ok s ∧ Counts n s (recorded ops) := by
  have happ : ∀ (a b : List Op) (s : KappaState),
      s.run n (a ++ b) = (s.run n a).bind (fun s => s.run n b) := by
    intro a b
    induction a with
    | nil => intro s; rfl
    | cons o a ih =>
        intro s
        simp only [List.cons_append, KappaState.run, bind, Except.bind]
        cases s.apply n o with
        | error e => rfl
        | ok s' => simpa [Except.bind] using ih s'
  induction ops using List.reverseRecOn with
  | nil => exact ⟨_, rfl, counts_init n⟩
  | append_singleton ops o ih =>
      obtain ⟨s, h1, h2⟩ := ih fun o ho => hv o (by simp [ho])
      have hvo := hv o (by simp)
      rw [happ, h1]
      cases o with
      | update t p =>
          obtain ⟨a1, a2, a3, a4⟩ := hvo
          obtain ⟨s', b1, b2⟩ := counts_bump h2 t.toNat p.toNat 1 (by omega) (by omega)
          rw [Int.toNat_of_nonneg a1, Int.toNat_of_nonneg a3] at b1
          refine ⟨s', ?_, ?_⟩
          · simp only [Except.bind, KappaState.run, KappaState.apply, KappaState.update, bind]
            rw [Nat.cast_one] at b1
            rw [b1]
          · rw [recorded, sinceReset_append_update, List.flatMap_append]
            simpa [pairsOf, recorded] using b2
      | increaseError c =>
          have hn : 2 ≤ n := hvo
          obtain ⟨s', b1, b2⟩ := counts_bump h2 0 1 c (by omega) (by omega)
          refine ⟨s', ?_, ?_⟩
          · simp only [Except.bind, KappaState.run, KappaState.apply, KappaState.increaseError, bind]
            simp only [Nat.cast_zero, Nat.cast_one] at b1
            rw [b1]
          · rw [recorded, sinceReset_append_inc, List.flatMap_append]
            simpa [pairsOf, recorded] using b2
      | reset =>
          refine ⟨KappaState.init, rfl, ?_⟩
          rw [recorded, sinceReset_append_reset]
          exact counts_init n

/-- **C35** After any valid history with at least one recorded pair: kappa is a number exactly unless all recorded
truths and predictions are one single label; then it equals Cohen's `(po - pe)/(1 - pe)`, lies in `[-1,1]`, and is 1
exactly when all predictions are right; both scores are in `[0,1]` and complementary. -/
theorem C35_kappa (n : Nat) (ops : List Op) (hv : ∀ o ∈ ops, ValidOp n o) (hne : recorded ops ≠ []) :
    ∃ s, KappaState.init.run n ops = .ok s ∧
      (s.kappa n = none ↔ ∃ a, ∀ x ∈ recorded ops, x = (a, a)) ∧
      ∀ k, s.kappa n = some k →
        k = (po (recorded ops) - pe n (recorded ops)) / (1 - pe n (recorded ops)) ∧
        -1 ≤ k ∧ k ≤ 1 ∧ (k = 1 ↔ ∀ x ∈ recorded ops, x.1 = x.2) ∧
        ∃ a b, s.score n false = some a ∧ s.score n false (invert := true) = some b ∧
          a = (1 - k) / 2 ∧ b = (1 + k) / 2 ∧ 0 ≤ a ∧ a ≤ 1 ∧ 0 ≤ b ∧ b ≤ 1 := by
  obtain ⟨s, h1, h2⟩ := kappa_run n ops hv
  generalize recorded ops = l at *
  have hlpos : (0 : ℚ) < l.length := by exact_mod_cast List.length_pos_iff.2 hne
  have hle := cross_le n l h2.lt
  have hiff := cross_eq_iff n l h2.lt
  have hk := kappa_eq h2
  have htwo := two_cross_le n l h2.lt
  have hd := diag_le l
  refine ⟨s, h1, ?_, ?_⟩
  · rw [hk, ← hiff, quot]
    split
    · rename_i h; simp; linarith
    · rename_i h; simp; intro h'; apply h; linarith
  · intro k hkk
    rw [hk, quot] at hkk
    split at hkk
    · simp at hkk
    · rename_i hden
      simp only [Option.some.injEq] at hkk
      have hpos : 0 < (l.length : ℚ) * l.length - crossSum n l :=
        lt_of_le_of_ne (by linarith) (Ne.symm hden)
      have hk1 : -1 ≤ k := by
        rw [← hkk, le_div_iff₀ hpos]; nlinarith
      have hk2 : k ≤ 1 := by
        rw [← hkk, div_le_one hpos]
        have : (l.length : ℚ) * diag l ≤ (l.length : ℚ) * l.length := mul_le_mul_of_nonneg_left hd hlpos.le
        linarith
      have hpe : pe n l = crossSum n l / ((l.length : ℚ) * l.length) := by
        unfold pe crossSum freqTruth freqPred
        rw [Finset.sum_div]
        apply Finset.sum_congr rfl
        intro i _
        rw [div_mul_div_comm]
      refine ⟨?_, hk1, hk2, ?_, ?_⟩
      · rw [← hkk, hpe, po]
        change _ = (diag l / _ - _) / _
        have h3 : 1 - crossSum n l / ((l.length : ℚ) * l.length) ≠ 0 := by
          intro h0
          apply hden
          field_simp at h0
          linarith
        field_simp
      · rw [← hkk, div_eq_one_iff_eq hden]
        have hdl : diag l = (l.length : ℚ) ↔ ∀ x ∈ l, x.1 = x.2 := by
          unfold diag
          rw [Nat.cast_inj, List.length_filter_eq_length_iff]
          simp
        rw [← hdl]
        constructor
        · intro h
          have : (l.length : ℚ) * diag l = (l.length : ℚ) * l.length := by linarith
          exact mul_left_cancel₀ hlpos.ne' this
        · intro h; rw [h]
      · have hkap : s.kappa n = some k := by rw [hk, quot, if_neg hden, hkk]
        refine ⟨(1 - k) / 2, (1 + k) / 2, ?_, ?_, rfl, rfl, by linarith, by linarith, by linarith, by linarith⟩
        · simp [KappaState.score, hkap]; ring
        · simp [KappaState.score, hkap]; ring

/-- a history with kappa 1/7 -/
def exOps : List Op := [.update 0 1, .reset, .update 0 0, .update 1 2, .update 2 1, .update 1 1, .increaseError 1]

example : ∀ o ∈ exOps, ValidOp 3 o := by
  intro o ho
  simp only [exOps, List.mem_cons, List.not_mem_nil, or_false] at ho
  rcases ho with rfl | rfl | rfl | rfl | rfl | rfl | rfl <;> simp [ValidOp]

example : recorded exOps = [(0, 0), (1, 2), (2, 1), (1, 1), (0, 1)] := by decide

/-- **C35** The order of the recorded pairs does not matter. -/
theorem C35_order_independent (n : Nat) (ops ops' : List Op) (hv : ∀ o ∈ ops, ValidOp n o)
    (hv' : ∀ o ∈ ops', ValidOp n o) (hp : (recorded ops).Perm (recorded ops')) :
    ∃ s s', KappaState.init.run n ops = .ok s ∧ KappaState.init.run n ops' = .ok s' ∧ s.kappa n = s'.kappa n := by
  obtain ⟨s, h1, h2⟩ := kappa_run n ops hv
  obtain ⟨s', h1', h2'⟩ := kappa_run n ops' hv'
  refine ⟨s, s', h1, h1', ?_⟩
  rw [kappa_eq h2, kappa_eq h2']
  have hf : ∀ q : Nat × Nat → Bool, ((recorded ops).filter q).length = ((recorded ops').filter q).length :=
    fun q => (hp.filter q).length_eq
  unfold diag crossSum
  simp only [hf, hp.length_eq]

/-- **C35** With a single label a penalty writes outside the matrix. -/
theorem C35_penalty_single_label (s : KappaState) (c : Nat) : s.increaseError 1 c = .error .ub := by
  simp [KappaState.increaseError, KappaState.bump]

/-- **C35** With nothing recorded kappa is not a number. -/
theorem C35_nothing_recorded (n : Nat) (ops : List Op) (hv : ∀ o ∈ ops, ValidOp n o) (he : recorded ops = []) :
    ∃ s, KappaState.init.run n ops = .ok s ∧ s.kappa n = none := by
  obtain ⟨s, h1, h2⟩ := kappa_run n ops hv
  refine ⟨s, h1, ?_⟩
  rw [kappa_eq h2, he]
  simp [quot, crossSum]

/-! ### ReservoirSamplingMetrics -/

/-- a history of constructions and resets (no assignment) -/
def NoAssign : RsmOp → Prop
  | .assign _ _ => False
  | _ => True

theorem rsm_inv (ops : List RsmOp) (w : RsmWorld) (hna : ∀ o ∈ ops, NoAssign o)
    (h : RsmWorld.init.run ops = .ok w) :
    w.numbers.Nodup ∧ (∀ x ∈ w.numbers, 1 ≤ x ∧ x ≤ w.total) ∧ (w.numbers ≠ [] → w.total ∈ w.numbers) ∧
      (w.numbers.length : Int) ≤ w.total := by
  have gen : ∀ (ops : List RsmOp) (w0 w : RsmWorld), (∀ o ∈ ops, NoAssign o) → w0.run ops = .ok w →
      (w0.numbers.Nodup ∧ (∀ x ∈ w0.numbers, 1 ≤ x ∧ x ≤ w0.total) ∧
        (w0.numbers ≠ [] → w0.total ∈ w0.numbers) ∧ (w0.numbers.length : Int) ≤ w0.total) →
      (w.numbers.Nodup ∧ (∀ x ∈ w.numbers, 1 ≤ x ∧ x ≤ w.total) ∧
        (w.numbers ≠ [] → w.total ∈ w.numbers) ∧ (w.numbers.length : Int) ≤ w.total) := by
    intro ops
    induction ops with
    | nil => intro w0 w _ h hi; cases h; exact hi
    | cons o ops ih =>
        intro w0 w hna h ⟨i1, i2, i3, i4⟩
        simp only [RsmWorld.run, bind, Except.bind] at h
        have hno := hna o (by simp)
        cases o with
        | construct =>
            simp only [RsmWorld.apply] at h
            refine ih _ w (fun o ho => hna o (by simp [ho])) h ⟨?_, ?_, ?_, ?_⟩
            · simp only
              rw [List.nodup_append]
              refine ⟨i1, by simp, ?_⟩
              intro a ha b hb
              simp only [List.mem_singleton] at hb
              have := i2 a ha; omega
            · intro x hx
              simp only at hx ⊢
              rcases List.mem_append.1 hx with hx | hx
              · have := i2 x hx; omega
              · simp only [List.mem_singleton] at hx
                have : 0 ≤ w0.total := by have := i4; omega
                omega
            · intro _; simp
            · simp only [List.length_append, List.length_singleton]; push_cast; omega
        | reset i =>
            simp only [RsmWorld.apply, bind, Except.bind] at h
            by_cases hi : i < w0.numbers.length
            · rw [wr_ok _ hi] at h
              simp only [pure, Except.pure] at h
              refine ih _ w (fun o ho => hna o (by simp [ho])) h ⟨?_, ?_, ?_, ?_⟩
              · simp only
                rw [List.nodup_iff_injective_getElem]
                intro a b hab
                simp only [List.getElem_set] at hab
                have la : a.val < w0.numbers.length := by simpa using a.2
                have lb : b.val < w0.numbers.length := by simpa using b.2
                apply Fin.ext
                split at hab <;> split at hab
                · omega
                · have := i2 _ (List.getElem_mem lb); omega
                · have := i2 _ (List.getElem_mem la); omega
                · exact (List.Nodup.getElem_inj_iff i1).1 hab
              · intro x hx
                have h0 : 0 ≤ w0.total := by omega
                rcases List.mem_or_eq_of_mem_set hx with hx | hx
                · have := i2 x hx; simp only; omega
                · simp only; omega
              · intro _; exact List.mem_set hi _
              · simp only [List.length_set]; omega
            · simp only [wr, hi, if_false] at h; cases h
        | assign i j => exact absurd hno (by simp [NoAssign])
  exact gen ops RsmWorld.init w hna h ⟨by simp [RsmWorld.init], by simp [RsmWorld.init],
    by simp [RsmWorld.init], by simp [RsmWorld.init]⟩

theorem sum_scores (total k : Int) (l : List Int) (ht : total ≠ 0) (hn : l.Nodup) (hmem : total ∈ l) :
    ∃ f : Int → ℚ, (∀ x ∈ l, rsmScore total x k = some (f x)) ∧
      (l.map f).sum = ((l.length : ℚ) - 1 + (total - k)) / total := by
  have ht' : (total : ℚ) ≠ 0 := by exact_mod_cast ht
  refine ⟨fun x => if total = x then ((x - k : Int) : ℚ) / total else 1 / total, ?_, ?_⟩
  · intro x _
    unfold rsmScore
    split
    · rename_i h; subst h; simp [quot, ht']
    · rename_i h; simp [quot, ht', h]
  · have hout : ∀ m : List Int, total ∉ m →
        (m.map fun x => if total = x then ((x - k : Int) : ℚ) / total else 1 / total).sum = (m.length : ℚ) / total := by
      intro m hm
      induction m with
      | nil => simp
      | cons y m ih =>
          simp only [List.mem_cons, not_or] at hm
          simp only [List.map_cons, List.sum_cons, ih hm.2, hm.1, if_false, List.length_cons]
          push_cast; field_simp; ring
    induction l with
    | nil => simp at hmem
    | cons y l ih =>
        obtain ⟨h1, h2⟩ := List.nodup_cons.1 hn
        by_cases hy : total = y
        · subst hy
          simp only [List.map_cons, List.sum_cons, hout l h1, if_true, List.length_cons]
          push_cast; field_simp; ring
        · have hm : total ∈ l := by
            rcases List.mem_cons.1 hmem with h | h
            · exact absurd h hy
            · exact h
          simp only [List.map_cons, List.sum_cons, ih h2 hm, hy, if_false, List.length_cons]
          push_cast; field_simp; ring

/-- **C36** After any history of constructions and resets with `k+1` live objects: the numbers are distinct, exactly
one object is the newest, it scores `(n-k)/n` when asked with sample size `k` and the others `1/n` (`n` being the
number of constructions and resets); the scores are non-negative and sum to 1. -/
theorem C36_scores_are_a_distribution (ops : List RsmOp) (w : RsmWorld) (hna : ∀ o ∈ ops, NoAssign o)
    (h : RsmWorld.init.run ops = .ok w) (k : Nat) (hk : w.numbers.length = k + 1) :
    ∃ f : Int → ℚ, (∀ x ∈ w.numbers, rsmScore w.total x k = some (f x) ∧ 0 ≤ f x ∧
        f x = if x = w.total then ((w.total : ℚ) - k) / w.total else 1 / w.total) ∧
      w.numbers.Nodup ∧ w.total ∈ w.numbers ∧ (w.numbers.map f).sum = 1 := by
  obtain ⟨i1, i2, i3, i4⟩ := rsm_inv ops w hna h
  have hne : w.numbers ≠ [] := by intro h0; rw [h0] at hk; simp at hk
  have hpos : 0 < w.total := by omega
  have hposq : (0 : ℚ) < w.total := by exact_mod_cast hpos
  obtain ⟨f, hf, hsum⟩ := sum_scores w.total k w.numbers hpos.ne' i1 (i3 hne)
  refine ⟨f, ?_, i1, i3 hne, ?_⟩
  · intro x hx
    have hfx := hf x hx
    have hval : f x = if x = w.total then ((w.total : ℚ) - k) / w.total else 1 / w.total := by
      unfold rsmScore at hfx
      by_cases hxt : w.total = x
      · subst hxt
        simp only [if_true, quot, hposq.ne', if_false, Option.some.injEq] at hfx
        rw [← hfx]; simp
      · simp only [hxt, if_false, quot, hposq.ne', Option.some.injEq] at hfx
        rw [← hfx, if_neg (Ne.symm hxt)]
    refine ⟨hfx, ?_, hval⟩
    rw [hval]
    split
    · apply div_nonneg _ hposq.le
      have h3 : (k : ℤ) ≤ w.total := by omega
      have : (k : ℚ) ≤ w.total := by exact_mod_cast h3
      linarith
    · positivity
  · rw [hsum, hk]
    push_cast
    field_simp
    ring

example : ∃ w, RsmWorld.init.run [.construct, .construct, .reset 0, .construct] = .ok w ∧ w.numbers = [3, 2, 4] :=
  ⟨_, rfl, rfl⟩

/-- **C36** Assignment makes the object score like the one it was assigned from, whatever the sample size, and leaves the scores of all others unchanged. -/
theorem C36_assignment (w w' : RsmWorld) (i j : Nat) (h : w.run [.assign i j] = .ok w') :
    w'.total = w.total ∧ w'.numbers[i]? = w.numbers[j]? ∧ (∃ x, w.numbers[j]? = some x) ∧ (∀ k, k ≠ i → w'.numbers[k]? = w.numbers[k]?) := by
  simp only [RsmWorld.run, RsmWorld.apply, bind, Except.bind] at h
  cases hx : rd w.numbers j with
  | error e => rw [hx] at h; cases h
  | ok x =>
      rw [hx] at h
      cases hw : wr w.numbers i x with
      | error e => simp only [hw] at h; cases h
      | ok l =>
          simp only [hw, pure, Except.pure, Except.ok.injEq] at h
          subst h
          obtain ⟨hi, rfl⟩ := (wr_eq_ok_iff ..).1 hw
          have hj := (rd_eq_ok_iff ..).1 hx
          refine ⟨rfl, ?_, ⟨x, hj⟩, fun k hk => ?_⟩
          · rw [hj]; simp [hi]
          · simp [List.getElem?_set, Ne.symm hk]

/-- **C36** With assignments the scores need not be a distribution: when the newest object is overwritten with an older one,
the scores of the three objects sum to 3/4. -/
theorem C36_assignment_breaks : ∃ w, RsmWorld.init.run [.construct, .construct, .construct, .reset 2, .assign 2 0] = .ok w ∧
    w.numbers.map (fun x => rsmScore w.total x 2) = [some (1 / 4), some (1 / 4), some (1 / 4)] := by
  refine ⟨{ total := 4, numbers := [1, 2, 1] }, rfl, ?_⟩
  norm_num [rsmScore, quot]

end Orp.Metrics
