import Verif.Chained.Props
import Mathlib.MeasureTheory.Constructions.Pi
import Mathlib.Algebra.Order.Ring.Pow

/-!
C123: the chained reservoir on streams that do not end. Without `obsolete` the chains only get shorter when their slot is sampled again, which happens less and less
often, and the assertion of `push_on_chain` (chained_reservoir.hpp:78) fails as soon as an item has to be chained after 5000 others.
-/

set_option linter.unusedSectionVars false

namespace Orp.Chained

open MeasureTheory Orp.Reservoir

variable {α K : Type} [Field K] [LinearOrder K] [FloorRing K] [IsStrictOrderedRing K]

/-- the number of cells in use at the beginning of a chain -/
def used : List (α × Nat) → Nat
  | [] => 0
  | x :: xs => if x.2 = 0 then 0 else used xs + 1

theorem used_push (e : α) {t : Nat} (ht : t ≠ 0) : ∀ xs : List (α × Nat), used xs + 1 ≤ used (pushList e t xs)
  | [] => by simp [used, pushList, ht]
  | x :: xs => by
      by_cases hx : x.2 = 0
      · simp [used, pushList, hx, ht]
      · have := used_push e ht xs
        simp only [used, pushList, if_neg hx]
        omega

theorem used_spec : ∀ (xs : List (α × Nat)) (k : Nat), k < used xs → k < xs.length ∧ ∀ x ∈ xs.take k, x.2 ≠ 0
  | [], _, h => by simp [used] at h
  | x :: xs, k, h => by
      simp only [used] at h
      split at h
      · omega
      · rename_i hx
        cases k with
        | zero => simp
        | succ k =>
            have := used_spec xs k (by omega)
            refine ⟨by simpa using this.1, fun y hy => ?_⟩
            rw [List.take_succ_cons, List.mem_cons] at hy
            rcases hy with rfl | hy
            · exact hx
            · exact this.2 y hy

theorem jammed_of_used {xs : List (α × Nat)} (h : 5000 < used xs) : Jammed xs := used_spec xs 5000 h

/-- `add` does not sample the item: the sample is full and the random number is not below the threshold. -/
def Quiet (n counter : Nat) (c : Call α K) : Prop := n ≤ counter ∧ (n : K) / (counter : K) ≤ c.r1

/-- the calls of `cs`, made from `counter` items on, do not sample their items -/
def Quiets (n : Nat) : Nat → List (Call α K) → Prop
  | _, [] => True
  | counter, c :: cs => Quiet n counter c ∧ Quiets n (counter + 1) cs

theorem absHead_quiet {n : Nat} {a : Abs α} {c : Call α K} (h : Quiet n a.counter c) : absHead n a c = a := by
  unfold absHead
  rw [if_neg (by have := h.1; omega), if_neg (not_lt.2 h.2)]

theorem run_cons_ok {n : Nat} {s s' : State α} {c : Call α K} {cs : List (Call α K)} (h : run n s ((c :: cs).map Op.add) = .ok s') :
    ∃ s1, add n s c = .ok s1 ∧ run n s1 (cs.map Op.add) = .ok s' := by
  simp only [List.map_cons, run, step, bind, Except.bind] at h
  cases h1 : add n s c with
  | error e => rw [h1] at h; cases h
  | ok s1 => rw [h1] at h; exact ⟨s1, rfl, h⟩

/-- what one call that does not sample its item does to the chain of a slot -/
theorem quiet_step {n : Nat} (hn : 1 ≤ n) {s s1 : State α} {a : Abs α} (h : Rep n s a) {c : Call α K} (hv : c.Valid) (ht : c.ts ≠ 0) (hq : Quiet n a.counter c)
    (hs : add n s c = .ok s1) {j : Nat} (hj : j < n) (h1 : a.counter ≤ a.nx j) (h2 : a.nx j < a.counter + n) :
    ∃ b, Rep n s1 b ∧ b.counter = a.counter + 1 ∧ b.counter ≤ b.nx j ∧ b.nx j < b.counter + n ∧ used (a.con j) ≤ used (b.con j) ∧
      ((a.nx j = a.counter ∧ used (a.con j) ≤ 5000 ∧ used (a.con j) + 1 ≤ used (b.con j)) ∨ (b.nx j = a.nx j ∧ a.counter < a.nx j)) := by
  refine ⟨absAdd n a c, ?_, rfl, ?_⟩
  · rcases add_rep hn h c hv with ⟨e, _⟩ | ⟨s2, e, h3⟩
    · rw [e] at hs; cases hs
    · rw [e] at hs; cases hs; exact h3
  · have hnj := add_not_jammed hn h c hv hs j hj
    simp only [absAdd, absPush, absHead_quiet hq] at hnj ⊢
    by_cases hx : a.counter = a.nx j
    · have hu := used_push c.e ht (a.con j)
      have hd := draw_lt hn (hv.2.2.2.2.2.2 j).2
      simp only [if_pos (And.intro hj hx)]
      refine ⟨by omega, by omega, by omega, Or.inl ⟨hx.symm, ?_, hu⟩⟩
      by_contra hlt
      exact hnj hx (jammed_of_used (by omega))
    · have e : ¬ (j < n ∧ a.counter = a.nx j) := fun hh => hx hh.2
      simp only [if_neg e]
      exact ⟨by omega, by omega, le_rfl, Or.inr ⟨trivial, by omega⟩⟩

/-- Over calls that do not sample their items the chain of a slot grows by a cell every `n` calls. -/
theorem quiet_grow {n : Nat} (hn : 1 ≤ n) {j : Nat} (hj : j < n) (cs : List (Call α K)) : ∀ (s s' : State α) (a : Abs α), Rep n s a → (∀ c ∈ cs, c.Valid) →
    (∀ c ∈ cs, c.ts ≠ 0) → Quiets n a.counter cs → run n s (cs.map Op.add) = .ok s' → a.counter ≤ a.nx j → a.nx j < a.counter + n →
    ∃ b, Rep n s' b ∧ b.counter = a.counter + cs.length ∧ b.counter ≤ b.nx j ∧ b.nx j < b.counter + n ∧
      n * used (a.con j) + (a.counter + n - a.nx j) + cs.length ≤ n * used (b.con j) + (b.counter + n - b.nx j) := by
  induction cs with
  | nil =>
      intro s s' a h _ _ _ hr h1 h2
      cases hr
      exact ⟨a, h, rfl, h1, h2, le_rfl⟩
  | cons c cs ih =>
      intro s s' a h hv ht hq hr h1 h2
      obtain ⟨s1, r1, r2⟩ := run_cons_ok hr
      obtain ⟨b, b1, b2, b3, b4, b5, b6⟩ := quiet_step hn h (hv c (by simp)) (ht c (by simp)) hq.1 r1 hj h1 h2
      obtain ⟨d, d1, d2, d3, d4, d5⟩ := ih s1 s' b b1 (fun x hx => hv x (by simp [hx])) (fun x hx => ht x (by simp [hx])) (by rw [b2]; exact hq.2) r2 b3 b4
      refine ⟨d, d1, by rw [d2, b2, List.length_cons]; omega, d3, d4, le_trans ?_ d5⟩
      rw [List.length_cons]
      rcases b6 with ⟨e1, _, e2⟩ | ⟨e1, e2⟩
      · have : n * (used (a.con j) + 1) ≤ n * used (b.con j) := Nat.mul_le_mul_left n e2
        rw [Nat.mul_add, Nat.mul_one] at this
        omega
      · have : n * used (a.con j) ≤ n * used (b.con j) := Nat.mul_le_mul_left n b5
        omega

/-- From a chain with more than 5000 cells in use, the next item chained to it aborts. -/
theorem quiet_stuck {n : Nat} (hn : 1 ≤ n) {j : Nat} (hj : j < n) (cs : List (Call α K)) : ∀ (s : State α) (a : Abs α), Rep n s a → (∀ c ∈ cs, c.Valid) →
    (∀ c ∈ cs, c.ts ≠ 0) → Quiets n a.counter cs → a.counter ≤ a.nx j → a.nx j < a.counter + n → 5000 < used (a.con j) → a.nx j < a.counter + cs.length →
    ∀ s', run n s (cs.map Op.add) ≠ .ok s' := by
  induction cs with
  | nil =>
      intro s a _ _ _ _ h1 _ _ hl
      simp at hl
      omega
  | cons c cs ih =>
      intro s a h hv ht hq h1 h2 hu hl s' hr
      obtain ⟨s1, r1, r2⟩ := run_cons_ok hr
      obtain ⟨b, b1, b2, b3, b4, b5, b6⟩ := quiet_step hn h (hv c (by simp)) (ht c (by simp)) hq.1 r1 hj h1 h2
      rcases b6 with ⟨_, e1, _⟩ | ⟨e1, e2⟩
      · omega
      · refine ih s1 b b1 (fun x hx => hv x (by simp [hx])) (fun x hx => ht x (by simp [hx])) (by rw [b2]; exact hq.2) b3 b4 (by omega) ?_ s' r2
        rw [List.length_cons] at hl
        omega

/-- when the slots chain their next item -/
theorem absRun_next (g : List α) (hn : 1 ≤ g.length) (hmax : g.length ≤ never) (ops : List (Op α K)) (hv : ∀ op ∈ ops, op.Valid) :
    ∀ j < g.length, (j < (absRun g.length (absNew g) ops).counter → (absRun g.length (absNew g) ops).counter ≤ (absRun g.length (absNew g) ops).nx j ∧
        (absRun g.length (absNew g) ops).nx j < (absRun g.length (absNew g) ops).counter + g.length) ∧
      ((absRun g.length (absNew g) ops).counter ≤ j → (absRun g.length (absNew g) ops).nx j = never) := by
  induction ops using List.reverseRecOn with
  | nil =>
      intro j hj
      exact ⟨fun h => absurd h (by simp [absRun, absNew]), fun _ => rfl⟩
  | append_singleton ops op ih =>
      have ih := ih (fun o ho => hv o (by simp [ho]))
      have hvo := hv op (by simp)
      rw [absRun_snoc]
      generalize absRun g.length (absNew g) ops = a at ih
      cases op with
      | obsolete t => exact ih
      | add c =>
          intro j hj
          have hvc : c.Valid := hvo
          have d3 := draw_lt hn hvc.2.2.2.2.2.1
          have ds := draw_lt hn (hvc.2.2.2.2.2.2 j).2
          -- after the first half of the call
          have key : (j < a.counter + 1 → a.counter ≤ (absHead g.length a c).nx j ∧ (absHead g.length a c).nx j ≤ a.counter + g.length) ∧
              (a.counter < j → (absHead g.length a c).nx j = never) := by
            unfold absHead
            split
            · by_cases e : j = a.counter
              · subst e
                simp only [Function.update_self]
                omega
              · simp only [Function.update_of_ne e]
                have := ih j hj
                refine ⟨fun h => ?_, fun h => this.2 h.le⟩
                have := this.1 (by omega)
                omega
            · split
              · by_cases e : j = draw g.length c.r2
                · simp only [e, Function.update_self]
                  omega
                · simp only [Function.update_of_ne e]
                  have := ih j hj
                  refine ⟨fun h => ?_, fun h => this.2 h.le⟩
                  have := this.1 (by omega)
                  omega
              · have := ih j hj
                refine ⟨fun h => ?_, fun h => this.2 h.le⟩
                have := this.1 (by omega)
                omega
          simp only [absStep, absAdd, absPush, absHead_counter]
          split
          · refine ⟨fun _ => by omega, fun h => ?_⟩
            rename_i hx
            have := key.2 (by omega)
            omega
          · rename_i hx
            have hx' : a.counter ≠ (absHead g.length a c).nx j := fun e => hx ⟨hj, e⟩
            exact ⟨fun h => by have := key.1 h; omega, fun h => key.2 (by omega)⟩

theorem run_append {n : Nat} (a b : List (Op α K)) : ∀ s : State α, run n s (a ++ b) = (run n s a).bind (fun s => run n s b) := by
  induction a with
  | nil => intro s; rfl
  | cons op a ih =>
      intro s
      simp only [List.cons_append, run, bind, Except.bind]
      cases step n s op with
      | error e => rfl
      | ok s1 => exact ih s1

theorem quiets_split {n : Nat} : ∀ (a b : List (Call α K)) (k : Nat), Quiets n k (a ++ b) → Quiets n k a ∧ Quiets n (k + a.length) b
  | [], b, k, h => ⟨trivial, h⟩
  | c :: a, b, k, h => by
      have := quiets_split a b (k + 1) h.2
      refine ⟨⟨h.1, this.1⟩, ?_⟩
      rw [List.length_cons, show k + (a.length + 1) = k + 1 + a.length by omega]
      exact this.2

/-- **C123** (negation of the full property) After any history with at least as many adds as there are slots, `5002 · sample_size` items with timestamps other than zero,
none of which is sampled, abort the program. -/
theorem C123_abort (g : List α) (hn : 1 ≤ g.length) (hmax : g.length ≤ never) (ops : List (Op α K)) (hv : ∀ op ∈ ops, op.Valid) (hfull : g.length ≤ (added ops).length)
    (cs : List (Call α K)) (hvc : ∀ c ∈ cs, c.Valid) (ht : ∀ c ∈ cs, c.ts ≠ 0) (hq : Quiets g.length (added ops).length cs) (hlen : 5002 * g.length ≤ cs.length) :
    run g.length (new g) (ops ++ cs.map Op.add) = .error .assert := by
  have hall : ∀ op ∈ ops ++ cs.map Op.add, op.Valid := by
    intro op hop
    rcases List.mem_append.1 hop with h | h
    · exact hv op h
    · obtain ⟨c, hc, rfl⟩ := List.mem_map.1 h
      exact hvc c hc
  rcases run_rep hn (ops ++ cs.map Op.add) (new g) (absNew g) (new_rep g) hall with ⟨h, _⟩ | ⟨s', h, _⟩
  · exact h
  · exfalso
    rcases run_rep hn ops (new g) (absNew g) (new_rep g) hv with ⟨h0, _⟩ | ⟨s, h0, hr⟩
    · rw [run_append, h0] at h
      cases h
    · rw [run_append, h0] at h
      change run g.length s (cs.map Op.add) = .ok s' at h
      have hcnt : (absRun g.length (absNew g) ops).counter = (added ops).length := by rw [absRun_counter]; simp [absNew]
      have hnx := (absRun_next g hn hmax ops hv 0 (by omega)).1 (by omega)
      generalize absRun g.length (absNew g) ops = a at *
      rw [← hcnt] at hq
      have hl1 : (cs.take (5001 * g.length)).length = 5001 * g.length := by
        rw [List.length_take]
        omega
      have hl2 : g.length ≤ (cs.drop (5001 * g.length)).length := by
        rw [List.length_drop]
        omega
      have hm1 : ∀ c ∈ cs.take (5001 * g.length), c ∈ cs := fun c hc => List.mem_of_mem_take hc
      have hm2 : ∀ c ∈ cs.drop (5001 * g.length), c ∈ cs := fun c hc => List.mem_of_mem_drop hc
      rw [← List.take_append_drop (5001 * g.length) cs] at h hq
      generalize cs.take (5001 * g.length) = c1 at *
      generalize cs.drop (5001 * g.length) = c2 at *
      rw [List.map_append, run_append] at h
      obtain ⟨q1, q2⟩ := quiets_split _ _ _ hq
      cases h1 : run g.length s (c1.map Op.add) with
      | error e => rw [h1] at h; cases h
      | ok s1 =>
          rw [h1] at h
          change run g.length s1 (c2.map Op.add) = .ok s' at h
          obtain ⟨b, b1, b2, b3, b4, b5⟩ := quiet_grow hn (show 0 < g.length by omega) c1 s s1 a hr (fun c hc => hvc c (hm1 c hc)) (fun c hc => ht c (hm1 c hc)) q1 h1
            hnx.1 hnx.2
          rw [← b2] at q2
          refine quiet_stuck hn (show 0 < g.length by omega) c2 s1 b b1 (fun c hc => hvc c (hm2 c hc)) (fun c hc => ht c (hm2 c hc)) q2 b3 b4 ?_ (by omega) s' h
          by_contra hlt
          have : g.length * used (b.con 0) ≤ g.length * 5000 := Nat.mul_le_mul_left _ (by omega)
          omega

/-- **C123** (partial) Fewer than 5000 adds never fail. -/
theorem C123_short_partial (g : List α) (hn : 1 ≤ g.length) (ops : List (Op α K)) (hv : ∀ op ∈ ops, op.Valid) (hlen : (added ops).length < 5000) :
    ∃ s, run g.length (new g) ops = .ok s := C23_short g hn ops hv hlen

/-- the calls of a stream: the numbers that decide whether an item is sampled are `ω`, everything else is `rest` -/
def streamCalls {N : Nat} (rest : Fin N → Call α ℝ) (ω : Fin N → U01) : List (Call α ℝ) := List.ofFn fun i => { rest i with r1 := (ω i).1 }

theorem quiets_iff {n : Nat} : ∀ (cs : List (Call α K)) (k : Nat), (∀ (i : Nat) c, cs[i]? = some c → Quiet n (k + i) c) → Quiets n k cs
  | [], _, _ => trivial
  | c :: cs, k, h => ⟨h 0 c rfl, quiets_iff cs (k + 1) (fun i d hd => by
      have := h (i + 1) d hd
      rwa [show k + (i + 1) = k + 1 + i by omega] at this)⟩

theorem added_map (cs : List (Call α K)) : added (cs.map Op.add) = cs.map Call.e := by
  induction cs with
  | nil => rfl
  | cons c cs ih => simp [added, ih]

/-- **C123** (negation of the full property) On a stream of `m + 5002·n` items with timestamps other than zero and without `obsolete`, the program aborts with a
probability of at least `1 - 5002·n²/m`, whatever the other random numbers are: the longer the stream, the more certain the failure. -/
theorem C123_almost_surely (g : List α) (hn : 1 ≤ g.length) (hmax : g.length ≤ never) (m : Nat) (hm : g.length ≤ m) (rest : Fin (m + 5002 * g.length) → Call α ℝ)
    (hv : ∀ i, (rest i).Valid) (ht : ∀ i, (rest i).ts ≠ 0) :
    ENNReal.ofReal (1 - 5002 * (g.length : ℝ) ^ 2 / m) ≤
      volume {ω : Fin (m + 5002 * g.length) → U01 | run g.length (new g) ((streamCalls rest ω).map Op.add) = .error .assert} := by
  have hn0 : (0 : ℝ) < g.length := by exact_mod_cast hn
  have hm0 : (0 : ℝ) < m := by
    have : 0 < m := by omega
    exact_mod_cast this
  have hle : (g.length : ℝ) / m ≤ 1 := (div_le_one hm0).2 (by exact_mod_cast hm)
  -- no item after the first `m` is sampled
  have hsub : Set.pi Set.univ (fun i : Fin (m + 5002 * g.length) => if m ≤ i.val then {u : U01 | (g.length : ℝ) / m ≤ u.1} else Set.univ) ⊆
      {ω : Fin (m + 5002 * g.length) → U01 | run g.length (new g) ((streamCalls rest ω).map Op.add) = .error .assert} := by
    intro ω hω
    have hω' : ∀ i : Fin (m + 5002 * g.length), m ≤ i.val → (g.length : ℝ) / m ≤ (ω i).1 := by
      intro i hi
      have := hω i (Set.mem_univ _)
      dsimp only at this
      rwa [if_pos hi] at this
    show run _ _ _ = _
    have hl : (streamCalls rest ω).length = m + 5002 * g.length := by simp [streamCalls]
    have hval : ∀ c ∈ streamCalls rest ω, c.Valid ∧ c.ts ≠ 0 := by
      intro c hc
      obtain ⟨i, rfl⟩ := List.mem_ofFn.1 hc
      exact ⟨⟨(ω i).2.1, (ω i).2.2.le, (hv i).2.2⟩, ht i⟩
    have hget : ∀ (i : Nat) c, (streamCalls rest ω)[i]? = some c → m ≤ i → (g.length : ℝ) / m ≤ c.r1 := by
      intro i c hc hi
      have hil : i < m + 5002 * g.length := by
        rw [← hl]
        exact (List.getElem?_eq_some_iff.1 hc).1
      rw [streamCalls, List.getElem?_ofFn, dif_pos hil] at hc
      cases hc
      exact hω' ⟨i, hil⟩ hi
    generalize streamCalls rest ω = cs at *
    rw [← List.take_append_drop m cs, List.map_append]
    have hlt : (cs.take m).length = m := by
      rw [List.length_take]
      omega
    refine C123_abort g hn hmax ((cs.take m).map Op.add) ?_ ?_ (cs.drop m) (fun c hc => (hval c (List.mem_of_mem_drop hc)).1)
      (fun c hc => (hval c (List.mem_of_mem_drop hc)).2) ?_ ?_
    · intro op hop
      obtain ⟨c, hc, rfl⟩ := List.mem_map.1 hop
      exact (hval c (List.mem_of_mem_take hc)).1
    · rw [added_map, List.length_map, hlt]
      exact hm
    · rw [added_map, List.length_map, hlt]
      refine quiets_iff _ _ (fun i c hc => ⟨by omega, ?_⟩)
      rw [List.getElem?_drop] at hc
      refine le_trans ?_ (hget _ c hc (by omega))
      refine div_le_div_of_nonneg_left hn0.le hm0 ?_
      exact_mod_cast Nat.le_add_right m i
    · rw [List.length_drop, hl]
      omega
  refine le_trans ?_ (measure_mono hsub)
  rw [volume_pi_pi]
  have hone : ∀ i : Fin (m + 5002 * g.length), volume (if m ≤ i.val then {u : U01 | (g.length : ℝ) / m ≤ u.1} else Set.univ) =
      if m ≤ i.val then ENNReal.ofReal (1 - (g.length : ℝ) / m) else 1 := by
    intro i
    split
    · have hc : {u : U01 | (g.length : ℝ) / m ≤ u.1} = {u : U01 | u.1 < (g.length : ℝ) / m}ᶜ := by
        ext u
        simp
      rw [hc, prob_compl_eq_one_sub (measurableSet_lt measurable_subtype_coe measurable_const), vol_lt hle, ENNReal.ofReal_sub _ (div_nonneg hn0.le hm0.le),
        ENNReal.ofReal_one]
    · exact measure_univ
  rw [Finset.prod_congr rfl (fun i _ => hone i), Finset.prod_ite]
  rw [Finset.prod_const_one, mul_one, Finset.prod_const]
  have hcard : (Finset.univ.filter (fun i : Fin (m + 5002 * g.length) => m ≤ i.val)).card = 5002 * g.length := by
    rw [← Finset.card_map Fin.valEmbedding]
    have e : (Finset.univ.filter (fun i : Fin (m + 5002 * g.length) => m ≤ i.val)).map Fin.valEmbedding = Finset.Ico m (m + 5002 * g.length) := by
      ext x
      simp only [Finset.mem_map, Finset.mem_filter, Finset.mem_univ, true_and, Fin.valEmbedding_apply, Finset.mem_Ico]
      constructor
      · rintro ⟨i, hi, rfl⟩
        exact ⟨hi, i.2⟩
      · rintro ⟨h1, h2⟩
        exact ⟨⟨x, h2⟩, h1, rfl⟩
    rw [e, Nat.card_Ico]
    omega
  rw [hcard, ← ENNReal.ofReal_pow (by linarith)]
  refine ENNReal.ofReal_le_ofReal ?_
  have hb := one_add_mul_le_pow (a := -((g.length : ℝ) / m)) (by linarith) (5002 * g.length)
  refine le_trans (le_of_eq ?_) (le_trans hb (le_of_eq ?_))
  · push_cast
    field_simp
    ring
  · congr 1

/-- a history that meets the hypotheses of `C123_abort`: sample size 1, two items, then 5002 items that are not sampled -/
example : run 1 (new [0]) ([.add (repl 1), .add (repl 2)] ++ (List.replicate 5002 (keep 7)).map Op.add) = .error .assert :=
  C123_abort [0] (by decide) (by decide) [.add (repl 1), .add (repl 2)]
    (by
      intro op hop
      simp only [List.mem_cons, List.not_mem_nil, or_false] at hop
      rcases hop with rfl | rfl
      · exact repl_valid 1
      · exact repl_valid 2)
    (by decide) (List.replicate 5002 (keep 7))
    (fun c hc => by
      obtain rfl := List.eq_of_mem_replicate hc
      exact keep_valid 7)
    (fun c hc => by
      obtain rfl := List.eq_of_mem_replicate hc
      decide)
    (quiets_iff _ _ (fun i c hc => by
      obtain rfl := List.eq_of_mem_replicate (List.mem_of_getElem? hc)
      refine ⟨by simp [added]; omega, ?_⟩
      have h2 : (2 : ℚ) ≤ ((2 + i : Nat) : ℚ) := by exact_mod_cast Nat.le_add_right 2 i
      show ((1 : Nat) : ℚ) / ((2 + i : Nat) : ℚ) ≤ 9 / 10
      rw [div_le_iff₀ (by linarith)]
      have h1 : ((1 : Nat) : ℚ) = 1 := Nat.cast_one
      rw [h1]
      linarith))
    (by rw [List.length_replicate]; decide)

end Orp.Chained
