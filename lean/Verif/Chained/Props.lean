import Verif.Chained.Laws
import Verif.Reservoir.Prob

/-!
Properties C20–C24 and C66 of the chained reservoir.

`n = g.length` is `sample_size`; `g` are the indeterminate elements of a new object. `n ≤ never` : the sample size is
below 4294967294 (the loops of the class use `int`). `Op.Valid` : random numbers are in `[0,1]`.
-/

set_option linter.unusedSectionVars false

namespace Orp.Chained

variable {α K : Type} [Field K] [LinearOrder K] [FloorRing K] [IsStrictOrderedRing K]

/-! ### concrete calls for the examples -/

/-- adds `k` with timestamp `k`; does not replace a slot unless one or two items have been seen -/
def keep (k : Nat) : Call Nat ℚ := { e := k, ts := k, r1 := 9 / 10, r2 := 0, r3 := 0, rs := fun _ => 0 }
/-- adds `k` with timestamp `k`, replaces slot 0 -/
def repl (k : Nat) : Call Nat ℚ := { e := k, ts := k, r1 := 0, r2 := 0, r3 := 0, rs := fun _ => 0 }
/-- adds `k` with timestamp 0 -/
def zero (k : Nat) : Call Nat ℚ := { e := k, ts := 0, r1 := 9 / 10, r2 := 0, r3 := 0, rs := fun _ => 0 }

theorem keep_valid (k : Nat) : (keep k).Valid := by
  simp only [Call.Valid, keep]; norm_num
theorem repl_valid (k : Nat) : (repl k).Valid := by
  simp only [Call.Valid, repl]; norm_num
theorem zero_valid (k : Nat) : (zero k).Valid := by
  simp only [Call.Valid, zero]; norm_num

/-- **C20** Slot `i` shows an element that was passed to `add`, as soon as more than `i` adds were made, whatever adds
and obsolete calls were made. -/
theorem C20_shows_added (g : List α) (hn : 1 ≤ g.length) (hmax : g.length ≤ never) (ops : List (Op α K))
    (hv : ∀ op ∈ ops, op.Valid) {s : State α} (hrun : run g.length (new g) ops = .ok s)
    (i : Nat) (hi : i < g.length) (hadd : i < (added ops).length) :
    ∃ e ∈ added ops, get s i = .ok e := by
  rcases run_rep hn ops (new g) (absNew g) (new_rep g) hv with ⟨h, _⟩ | ⟨s', h, hr⟩
  · rw [h] at hrun; cases hrun
  · rw [h] at hrun; cases hrun
    obtain ⟨x, xs, h1, h2⟩ := get_rep hr hi
    refine ⟨x.1, ?_, h2⟩
    have := absRun_added g hmax ops hv i hi
    refine this.2 ?_ x (by rw [h1]; simp)
    rw [absRun_counter]; simpa [absNew] using hadd

example : (run 2 (new [100, 200]) [.add (keep 1), .add (keep 2), .add (keep 3), .add (keep 4), .obsolete 4]).map
    (fun s => (get s 0, get s 1)) = .ok (.ok 4, .ok 4) := by decide +kernel

/-! ### C21, C22 -/

/-- One sentence of C21: after `obsolete t`, a slot whose chain held an element with timestamp at least `t` shows the
oldest such element (the first one of the chain). -/
def ShowsOldestLive (n : Nat) (s : State α) (t : Nat) : Prop :=
  ∀ idx con s', Chains n s.heap idx con → obsolete n s t = .ok s' →
    ∀ i < n, ∀ x, (con i).find? (fun y => decide (t ≤ y.2)) = some x → get s' i = .ok x.1

/-- The state after a stream of four elements with timestamps 1 to 4, sample size 1. -/
theorem history4 : ∃ s, run 1 (new [100]) [.add (keep 1), .add (keep 2), .add (keep 3), .add (keep 4)] = .ok s ∧
    Chains 1 s.heap (fun _ => [0, 1, 2]) (fun _ => [(2, 2), (3, 3), (4, 4)]) := by
  refine ⟨⟨[⟨some 1, 2, 2⟩, ⟨some 2, 3, 3⟩, ⟨none, 4, 4⟩], [4], 4⟩, by decide +kernel, ?_⟩
  refine ⟨fun i _ => by simp [Chain], fun i hi => ?_, fun i _ => by simp, fun i hi j hj hij => by omega⟩
  have : i = 0 := by omega
  subst this; rfl

/-- **C21** is violated: with increasing positive timestamps, `obsolete` shows the newest element of the chain instead
of the oldest one that is not obsolete. -/
theorem C21_violated : ∃ (ops : List (Op Nat ℚ)) (s : State Nat) (t : Nat), (∀ op ∈ ops, op.Valid) ∧
    (stamps ops).Pairwise (· < ·) ∧ (∀ x ∈ stamps ops, 0 < x) ∧ run 1 (new [100]) ops = .ok s ∧
    ¬ ShowsOldestLive 1 s t := by
  obtain ⟨s, h1, h2⟩ := history4
  refine ⟨_, s, 3, ?_, ?_, ?_, h1, ?_⟩
  · intro op hop
    simp only [List.mem_cons, List.not_mem_nil, or_false] at hop
    rcases hop with rfl | rfl | rfl | rfl <;> exact keep_valid _
  · decide
  · decide
  · intro hall
    have hrun : run 1 (new [100]) [Op.add (keep 1), .add (keep 2), .add (keep 3), .add (keep 4)] =
        .ok ⟨[⟨some 1, 2, 2⟩, ⟨some 2, 3, 3⟩, ⟨none, 4, 4⟩], [4], 4⟩ := by decide +kernel
    rw [hrun] at h1; cases h1
    have := hall _ _ ⟨[⟨none, 4, 4⟩, ⟨none, 4, 4⟩, ⟨none, 4, 4⟩], [4], 4⟩ h2 (by decide +kernel) 0 (by omega) (3, 3) (by decide)
    revert this; decide

/-- The same defect can bring back an element that was already discarded: after the stream 1, 2, 3, 4, the element 5
replaces the only slot (its chain is cleared), 6 is chained; `obsolete 6` then shows 4. -/
theorem C21_stale_element : ∃ s s', run 1 (new [100])
      [.add (keep 1), .add (keep 2), .add (keep 3), .add (keep 4), .add (repl 5), .add (keep 6)] = .ok s ∧
    obsolete 1 s 6 = .ok s' ∧ get s 0 = .ok 5 ∧ get s' 0 = .ok 4 := by
  refine ⟨⟨[⟨some 1, 5, 5⟩, ⟨some 2, 6, 6⟩, ⟨none, 4, 0⟩], [6], 6⟩,
    ⟨[⟨none, 4, 0⟩, ⟨none, 4, 0⟩, ⟨none, 4, 0⟩], [6], 6⟩, ?_, ?_, ?_, ?_⟩ <;> decide +kernel

/-- **C21** (proved part) A slot whose element is not obsolete, or whose chain holds no element with timestamp at least `t`,
shows the same element after `obsolete t`. -/
theorem C21_unchanged_partial {n : Nat} {s : State α} {idx con} (hc : Chains n s.heap idx con) (t : Nat) :
    ∃ s', obsolete n s t = .ok s' ∧ ∀ i < n,
      ((∃ x xs, con i = x :: xs ∧ t ≤ x.2) ∨ ∀ x ∈ con i, x.2 < t) → get s' i = get s i := by
  obtain ⟨s', h1, h2⟩ := obsolete_slots hc t
  refine ⟨s', h1, fun i hi h => ?_⟩
  obtain ⟨x, xs, a1, a2⟩ := h2 i hi
  obtain ⟨y, ys, b1, b2⟩ := get_chains hc hi
  rw [a2, b2]
  rcases h with ⟨z, zs, c1, c2⟩ | h
  · rw [c1, obsList_head c2, ← c1, b1] at a1
    cases a1; rfl
  · rw [obsList_none h, b1] at a1
    cases a1; rfl

/-- What the code does in the remaining case: a slot whose element is obsolete and whose chain holds an element with
timestamp at least `t` shows the last element of its chain. -/
theorem C21_shows_last {n : Nat} {s : State α} {idx con} (hc : Chains n s.heap idx con) (t : Nat) :
    ∃ s', obsolete n s t = .ok s' ∧ ∀ i < n, ∀ x xs, con i = x :: xs → x.2 < t → (∃ y ∈ xs, t ≤ y.2) →
      ∀ z, (con i).getLast? = some z → get s' i = .ok z.1 := by
  obtain ⟨s', h1, h2⟩ := obsolete_slots hc t
  refine ⟨s', h1, fun i hi x xs hcon hx ⟨y, hy, hyt⟩ z hz => ?_⟩
  obtain ⟨x', xs', a1, a2⟩ := h2 i hi
  obtain ⟨w, hw⟩ := obsList_shift hx hy hyt
  rw [hcon] at a1 hz
  rw [hw] at a1
  rw [List.getLast?_eq_some_getLast (List.cons_ne_nil x xs)] at hz
  cases hz
  rw [a2]
  have := (List.cons.inj a1).1
  rw [← this]

/-- **C21** (proved part) If the timestamps of the chain are increasing (no recycled cell), the element shown after
`obsolete t` belongs to the chain and is not obsolete whenever the chain holds an element that is not. -/
theorem C21_shows_live_partial {n : Nat} {s : State α} {idx con} (hc : Chains n s.heap idx con) (t : Nat) :
    ∃ s', obsolete n s t = .ok s' ∧ ∀ i < n, (con i).Pairwise (fun a b => a.2 < b.2) → (∃ y ∈ con i, t ≤ y.2) →
      ∃ y ∈ con i, t ≤ y.2 ∧ get s' i = .ok y.1 := by
  obtain ⟨s', h1, h2⟩ := C21_unchanged_partial hc t
  obtain ⟨s'', h1', h3⟩ := C21_shows_last hc t
  rw [h1] at h1'; cases h1'
  refine ⟨s', h1, fun i hi hinc ⟨y, hy, hyt⟩ => ?_⟩
  obtain ⟨x, xs, b1, b2⟩ := get_chains hc hi
  by_cases hx : t ≤ x.2
  · refine ⟨x, by rw [b1]; simp, hx, ?_⟩
    rw [h2 i hi (.inl ⟨x, xs, b1, hx⟩), b2]
  · have hy' : y ∈ xs := by
      rw [b1] at hy
      rcases List.mem_cons.1 hy with rfl | hy
      · exact absurd hyt hx
      · exact hy
    have hne : con i ≠ [] := by rw [b1]; simp
    exact ⟨(con i).getLast hne, List.getLast_mem hne, getLast_live hinc hne hy hyt,
      h3 i hi x xs b1 (by omega) ⟨y, hy', hyt⟩ _ (List.getLast?_eq_some_getLast hne)⟩

/-- **C21** (proved part) With increasing timestamps, the property holds for the slots that have exactly one element that
is not obsolete. -/
theorem C21_one_live_partial {n : Nat} {s : State α} {idx con} (hc : Chains n s.heap idx con) (t : Nat) :
    ∃ s', obsolete n s t = .ok s' ∧ ∀ i < n, (con i).Pairwise (fun a b => a.2 < b.2) →
      ∀ x ∈ con i, t ≤ x.2 → (∀ y ∈ con i, t ≤ y.2 → y = x) → get s' i = .ok x.1 := by
  obtain ⟨s', h1, h2⟩ := C21_shows_live_partial hc t
  refine ⟨s', h1, fun i hi hinc x hx hxt hu => ?_⟩
  obtain ⟨y, hy, hyt, hg⟩ := h2 i hi hinc ⟨x, hx, hxt⟩
  rw [hg, hu y hy hyt]

/-- the hypotheses of the partial theorems hold for the state after the stream 1, 2, 3, 4 -/
example : ∃ s, run 1 (new [100]) [Op.add (keep 1), .add (keep 2), .add (keep 3), .add (keep 4)] = .ok s ∧
    ∃ idx con, Chains 1 s.heap idx con ∧ (con 0).Pairwise (fun a b => a.2 < b.2) ∧ (con 0).length = 3 := by
  obtain ⟨s, h1, h2⟩ := history4
  exact ⟨s, h1, _, _, h2, by decide, rfl⟩

/-- **C22** is violated: an element with timestamp exactly `t` is never removed by `obsolete t`, whatever its chain holds. -/
theorem C22_kept {n : Nat} {s : State α} {idx con} (hc : Chains n s.heap idx con) (t : Nat) :
    ∃ s', obsolete n s t = .ok s' ∧ ∀ i < n, ∀ x xs, con i = x :: xs → x.2 = t → get s' i = .ok x.1 := by
  obtain ⟨s', h1, h2⟩ := C21_unchanged_partial hc t
  refine ⟨s', h1, fun i hi x xs hcon hx => ?_⟩
  rw [h2 i hi (.inl ⟨x, xs, hcon, hx.ge⟩)]
  obtain ⟨y, ys, b1, b2⟩ := get_chains hc hi
  rw [hcon] at b1; cases b1; exact b2

/-- **C22** is violated: a history with the element of timestamp 2 shown after `obsolete 2`, although the newer elements
3 and 4 are chained. -/
theorem C22_violated : ∃ s s', run 1 (new [100]) [.add (keep 1), .add (keep 2), .add (keep 3), .add (keep 4)] = .ok s ∧
    Chains 1 s.heap (fun _ => [0, 1, 2]) (fun _ => [(2, 2), (3, 3), (4, 4)]) ∧
    obsolete 1 s 2 = .ok s' ∧ get s' 0 = .ok 2 := by
  obtain ⟨s, h1, h2⟩ := history4
  obtain ⟨s', h3, h4⟩ := C22_kept h2 2
  exact ⟨s, s', h1, h2, h3, h4 0 (by omega) (2, 2) _ rfl rfl⟩

/-- **C22** (proved part) What the documentation announces for `obsolete t` is what `obsolete (t+1)` does on chains with
increasing timestamps: a slot with an element newer than `t` shows an element newer than `t`. -/
theorem C22_next_partial {n : Nat} {s : State α} {idx con} (hc : Chains n s.heap idx con) (t : Nat) :
    ∃ s', obsolete n s (t + 1) = .ok s' ∧ ∀ i < n, (con i).Pairwise (fun a b => a.2 < b.2) → (∃ y ∈ con i, t < y.2) →
      ∃ y ∈ con i, t < y.2 ∧ get s' i = .ok y.1 :=
  C21_shows_live_partial hc (t + 1)

/-- **C23** In every history the calls terminate without undefined behaviour; the chains of the slots are finite,
acyclic and pairwise disjoint; the only failure is the assertion of `add`, and it needs a chain with 5000 cells in use. -/
theorem C23_pointer_safety (g : List α) (hn : 1 ≤ g.length) (ops : List (Op α K)) (hv : ∀ op ∈ ops, op.Valid) :
    (∃ s idx con, run g.length (new g) ops = .ok s ∧ Chains g.length s.heap idx con) ∨
    (run g.length (new g) ops = .error .assert ∧ ∃ pre post s idx con, ops = pre ++ post ∧
      run g.length (new g) pre = .ok s ∧ Chains g.length s.heap idx con ∧
      ∃ i < g.length, 5000 ≤ (con i).length ∧ ∀ x ∈ (con i).take 5000, x.2 ≠ 0) := by
  rcases run_rep hn ops (new g) (absNew g) (new_rep g) hv with
    ⟨h, pre, post, s, h1, h2, ⟨⟨idx, h3⟩, _⟩, i, hi, h4⟩ | ⟨s, h, ⟨idx, h3⟩, _⟩
  · exact .inr ⟨h, pre, post, s, idx, _, h1, h2, h3, i, hi, h4⟩
  · exact .inl ⟨s, idx, _, h, h3⟩

/-- **C23** A history with fewer than 5000 adds never fails. -/
theorem C23_short (g : List α) (hn : 1 ≤ g.length) (ops : List (Op α K)) (hv : ∀ op ∈ ops, op.Valid)
    (hlen : (added ops).length < 5000) : ∃ s, run g.length (new g) ops = .ok s := by
  have push_len : ∀ (e : α) t (xs : List (α × Nat)), (pushList e t xs).length ≤ xs.length + 1 := by
    intro e t xs; induction xs with
    | nil => simp [pushList]
    | cons x xs ih => simp only [pushList]; split <;> simp <;> omega
  have obs_len : ∀ t (xs : List (α × Nat)), (obsList t xs).length ≤ xs.length := by
    intro t xs; unfold obsList
    split
    · exact le_rfl
    · exact le_rfl
    · split
      · exact le_rfl
      · rename_i y hy
        have := List.mem_of_getLast? hy
        exact List.length_pos_of_mem this
  have bound : ∀ ops : List (Op α K), ∀ i, ((absRun g.length (absNew g) ops).con i).length ≤ (added ops).length + 1 := by
    intro ops
    induction ops using List.reverseRecOn with
    | nil =>
        intro i
        simp only [absRun, List.foldl_nil, absNew]
        split <;> simp
    | append_singleton ops op ih =>
        intro i
        rw [absRun_snoc, added_append]
        generalize absRun g.length (absNew g) ops = a at ih
        cases op with
        | obsolete t =>
            simp only [absStep, absObs, added, List.append_nil]
            split
            · exact (obs_len _ _).trans (ih i)
            · exact ih i
        | add c =>
            have hh : ((absHead g.length a c).con i).length ≤ (added ops).length + 1 := by
              unfold absHead
              split
              · by_cases e : i = a.counter
                · subst e; simp
                · simp only [Function.update_of_ne e]; exact ih i
              · split
                · by_cases e : i = draw g.length c.r2
                  · rw [e]
                    have := ih (draw g.length c.r2)
                    simp only [Function.update_self, List.length_cons, List.length_map, List.length_tail]
                    omega
                  · simp only [Function.update_of_ne e]; exact ih i
                · exact ih i
            simp only [absStep, absAdd, absPush, added, List.length_append, List.length_cons, List.length_nil]
            split
            · have := push_len c.e c.ts ((absHead g.length a c).con i); omega
            · omega
  rcases run_rep hn ops (new g) (absNew g) (new_rep g) hv with ⟨h, pre, post, s, h1, h2, h3, i, hi, h4⟩ | ⟨s, h, _⟩
  · exfalso
    -- the failing call is an add
    have hpost : (added post).length ≠ 0 := by
      intro h0
      have hall : ∀ op ∈ post, ∃ t, op = Op.obsolete t := by
        clear h1
        induction post with
        | nil => simp
        | cons op post ih =>
            cases op with
            | add c => simp [added] at h0
            | obsolete t =>
                intro op hop
                rcases List.mem_cons.1 hop with rfl | hop
                · exact ⟨t, rfl⟩
                · exact ih (by simpa [added] using h0) op hop
      have hok : ∀ (l : List (Op α K)) (s : State α) (a : Abs α), (∀ op ∈ l, ∃ t, op = Op.obsolete t) → Rep g.length s a →
          ∃ s', run g.length s l = .ok s' := by
        intro l
        induction l with
        | nil => intro s a _ _; exact ⟨s, rfl⟩
        | cons op l ih =>
            intro s a hl hr
            obtain ⟨t, rfl⟩ := hl op (by simp)
            obtain ⟨s1, c1, c2⟩ := obsolete_rep hr t
            obtain ⟨s2, c3⟩ := ih s1 _ (fun o ho => hl o (by simp [ho])) c2
            exact ⟨s2, by simp only [run, step, c1, c3, bind, Except.bind]⟩
      obtain ⟨s', hs'⟩ := hok post s _ hall h3
      have hcat : ∀ (l : List (Op α K)) (s0 : State α), run g.length s0 l = .ok s →
          run g.length s0 (l ++ post) = run g.length s post := by
        intro l
        induction l with
        | nil => intro s0 h; cases h; rfl
        | cons op l ih =>
            intro s0 h
            simp only [run, bind, Except.bind, List.cons_append] at h ⊢
            cases hst : step g.length s0 op with
            | error e => rw [hst] at h; cases h
            | ok s1 => rw [hst] at h; exact ih s1 h
      rw [h1, hcat pre _ h2, hs'] at h
      cases h
    have := bound pre i
    have h5 := h4.1
    rw [h1, added_append, List.length_append] at hlen
    omega
  · exact ⟨s, h⟩

/-- **C24** With nonzero timestamps and without `obsolete`, the sample after `cs` shows elements of pairwise distinct
stream positions `f i`, and the `i`-th add fills slot `i` while the sample is not full. -/
theorem C24_plain_reservoir (g : List α) (hn : 1 ≤ g.length) (hmax : g.length ≤ never) (cs : List (Call α K))
    (hv : ∀ c ∈ cs, c.Valid) (hts : ∀ c ∈ cs, c.ts ≠ 0) {s : State α}
    (hrun : run g.length (new g) (cs.map Op.add) = .ok s) :
    ∃ f : Nat → Nat, (∀ i < min g.length cs.length, ∃ c, cs[f i]? = some c ∧ get s i = .ok c.e) ∧
      (∀ i < min g.length cs.length, ∀ j < min g.length cs.length, f i = f j → i = j) ∧
      (cs.length ≤ g.length → ∀ i < cs.length, f i = i) := by
  rcases run_rep hn (cs.map Op.add) (new g) (absNew g) (new_rep g) (by
      intro op hop
      obtain ⟨c, hc, rfl⟩ := List.mem_map.1 hop
      exact hv c hc) with ⟨h, _⟩ | ⟨s', h, hr⟩
  · rw [h] at hrun; cases hrun
  · rw [h] at hrun; cases hrun
    obtain ⟨f, f1, f2, f3⟩ := absRun_heads g hmax hn cs hv hts
    refine ⟨f, fun i hi => ?_, f2, f3⟩
    obtain ⟨c, xs, h1, h2⟩ := f1 i hi
    obtain ⟨x, ys, h3, h4⟩ := get_rep hr (show i < g.length by omega)
    rw [h2] at h3; cases h3
    exact ⟨c, h1, h4⟩

example : (run 2 (new [100, 200]) ([keep 1, keep 2, repl 3].map Op.add)).map (fun s => (get s 0, get s 1)) =
    .ok (.ok 3, .ok 2) := by decide +kernel

/-- The hypothesis on timestamps is needed: timestamp 0 marks a free cell. With timestamps 0 the second element
overwrites the first one and the sample shows it twice. -/
theorem C24_timestamp_zero : ∃ s, run 2 (new [100, 200]) ([zero 1, zero 2].map Op.add) = .ok s ∧
    get s 0 = .ok 2 ∧ get s 1 = .ok 2 := by
  refine ⟨⟨[⟨none, 2, 0⟩, ⟨none, 2, 0⟩], [2, 2], 2⟩, ?_, ?_, ?_⟩ <;> decide +kernel

/-- `obsolete` can leave the shown element with the timestamp 0, so the next chained element overwrites it although it
is not obsolete: after 1, 2, 3 and `obsolete 3` the slot shows 3, which the next add replaces although its draw (0.9)
says not to. -/
theorem C24_overwrite_after_obsolete : ∃ s s', run 1 (new [100]) [.add (keep 1), .add (keep 2), .add (keep 3), .obsolete 3] = .ok s ∧
    get s 0 = .ok 3 ∧ run 1 s [.add (keep 4)] = .ok s' ∧ get s' 0 = .ok 4 := by
  refine ⟨⟨[⟨none, 3, 0⟩, ⟨none, 3, 3⟩], [3], 3⟩, ⟨[⟨none, 4, 4⟩, ⟨none, 3, 3⟩], [4], 4⟩, ?_, ?_, ?_, ?_⟩ <;> decide +kernel

/-! ### C66 -/

/-- **C66** is violated (1): with distinct items and nonzero timestamps, the item number `n+1` enters the sample whatever
the random number below 1 is; a uniform sample would hold it with probability `n/(n+1)`. -/
theorem C66_next_always_enters (g : List α) (hn : 1 ≤ g.length) (cs : List (Call α K)) (c : Call α K)
    (hlen : cs.length = g.length) (hv : ∀ d ∈ cs ++ [c], d.Valid) (hts : ∀ d ∈ cs ++ [c], d.ts ≠ 0) (hr : c.r1 < 1) {s : State α}
    (hrun : run g.length (new g) ((cs ++ [c]).map Op.add) = .ok s) :
    ∃ i < g.length, get s i = .ok c.e := by
  rcases run_rep hn ((cs ++ [c]).map Op.add) (new g) (absNew g) (new_rep g) (by
      intro op hop
      obtain ⟨c, hc, rfl⟩ := List.mem_map.1 hop
      exact hv c hc) with ⟨h, _⟩ | ⟨s', h, hr'⟩
  · rw [h] at hrun; cases hrun
  · rw [h] at hrun; cases hrun
    have hd : draw g.length c.r2 < g.length := draw_lt hn (hv c (by simp)).2.2.2.1
    refine ⟨draw g.length c.r2, hd, ?_⟩
    obtain ⟨x, ys, h3, h4⟩ := get_rep hr' hd
    have hcnt : (absRun g.length (absNew g) (cs.map Op.add)).counter = g.length := by
      rw [absRun_counter]
      have : ∀ l : List (Call α K), (added (l.map Op.add)).length = l.length := by
        intro l; induction l with
        | nil => rfl
        | cons d l ih => simp [added, ih]
      simp [this, absNew, hlen]
    rw [List.map_append, List.map_singleton, absRun_snoc] at h3
    generalize absRun g.length (absNew g) (cs.map Op.add) = a at h3 hcnt
    have hpos : (0 : K) < (g.length : K) := by exact_mod_cast hn
    have hthr : c.r1 < (g.length : K) / (a.counter : K) := by
      rw [hcnt, div_self hpos.ne']; exact hr
    have hh : absHead g.length a c = { a with
        con := Function.update a.con (draw g.length c.r2)
          ((c.e, c.ts) :: (a.con (draw g.length c.r2)).tail.map (fun x => (x.1, 0)))
        nx := Function.update a.nx (draw g.length c.r2) (a.counter + 1 + draw g.length c.r3) } := by
      simp only [absHead, hcnt, lt_irrefl, if_false]
      rw [hcnt] at hthr
      rw [if_pos hthr]
    simp only [absStep, absAdd, absPush, hh, Function.update_self] at h3
    rw [h4]
    have htc := hts c (by simp)
    split at h3
    · rw [pushList_head htc] at h3; cases h3; rfl
    · cases h3; rfl

example : ∃ s, run 2 (new [100, 200]) ([keep 1, keep 2, keep 3].map Op.add) = .ok s ∧ get s 0 = .ok 3 :=
  ⟨⟨[⟨some 2, 3, 3⟩, ⟨some 3, 2, 2⟩, ⟨none, 2, 0⟩, ⟨none, 3, 3⟩], [3, 3], 3⟩, by decide +kernel, by decide +kernel⟩

open MeasureTheory Orp.Reservoir in
/-- **C66** is violated (2): when an item enters the sample it replaces slot 0 with probability `1/(2(n-1))`; for
`n ≥ 3` this differs from `1/n`. -/
theorem C66_slot0_half {n : Nat} (hn : 2 ≤ n) :
    volume {r : U01 | draw n r.1 = 0} = ENNReal.ofReal (1 / (2 * (n - 1))) := by
  have h1 : ((n - 1 : Nat) : ℝ) = (n : ℝ) - 1 := by push_cast [Nat.cast_sub (show 1 ≤ n by omega)]; ring
  have hpos : (0 : ℝ) < (n : ℝ) - 1 := by
    have : (2 : ℝ) ≤ n := by exact_mod_cast hn
    linarith
  have hle : 1 / (2 * ((n : ℝ) - 1)) ≤ 1 := by
    have : (2 : ℝ) ≤ n := by exact_mod_cast hn
    rw [div_le_one (by linarith)]; linarith
  rw [← vol_lt hle]
  congr 1
  ext r
  simp only [draw, Chained.round, Set.mem_ofPred_eq, h1]
  have h0 : 0 ≤ r.1 := r.2.1
  have hnn : 0 ≤ ⌊r.1 * ((n : ℝ) - 1) + 1 / 2⌋ := Int.floor_nonneg.2 (by positivity)
  rw [lt_div_iff₀ (by linarith)]
  constructor
  · intro h
    have : ⌊r.1 * ((n : ℝ) - 1) + 1 / 2⌋ < 1 := by omega
    rw [Int.floor_lt] at this
    push_cast at this; linarith
  · intro h
    have : ⌊r.1 * ((n : ℝ) - 1) + 1 / 2⌋ < 1 := by rw [Int.floor_lt]; push_cast; linarith
    omega

theorem C66_slot0_biased {n : Nat} (hn : 3 ≤ n) : ENNReal.ofReal (1 / (2 * (n - 1))) < ENNReal.ofReal (1 / n) := by
  have h3 : (3 : ℝ) ≤ n := by exact_mod_cast hn
  rw [ENNReal.ofReal_lt_ofReal_iff (by positivity)]
  rw [div_lt_div_iff₀ (by linarith) (by linarith)]; linarith

end Orp.Chained
