import Verif.Ltc.Lemmas

/-!
Properties C25–C28 of LTC. In all theorems the time unit factor is 1 (the default), `epsilon ≥ 0`, timestamps strictly
increase and values are in the declared range. The initial content of the object's fields (`g`) is arbitrary.
-/

namespace Orp.Ltc

variable {c : Cfg}

theorem run_split (s : State) (ps more : List Point) {s1 os} (h : run c s ps = .ok (s1, os)) :
    run c s (ps ++ more) = (match run c s1 more with
      | .ok (s2, os2) => .ok (s2, os ++ os2)
      | .error e => .error e) := by
  induction ps generalizing s os with
  | nil =>
      simp only [run, Except.ok.injEq, Prod.mk.injEq] at h
      obtain ⟨rfl, rfl⟩ := h
      simp only [List.nil_append]
      cases run c s more <;> rfl
  | cons q ps ih =>
      simp only [run, bind, Except.bind, pure, Except.pure] at h
      cases h3 : add c s q.t q.v with
      | error e => simp [h3] at h
      | ok x =>
          obtain ⟨sa, ra⟩ := x
          simp only [h3] at h
          cases h4 : run c sa ps with
          | error e => simp [h4] at h
          | ok y =>
              obtain ⟨sb, ob⟩ := y
              simp only [h4, Except.ok.injEq, Prod.mk.injEq] at h
              obtain ⟨rfl, rfl⟩ := h
              simp only [List.cons_append, run, h3, ih sa h4, bind, Except.bind, pure, Except.pure]
              cases run c sb more <;> rfl

theorem next_sent (htud : c.tud = 1) (he : 0 ≤ c.eps) (hmono : Monotone c.conv) (more : List Point) :
    ∀ (ps : List Point) (s : State) (os : List (Option Point)), Inv c ps s os → ps ≠ [] →
    Increasing (ps ++ more) → InRange c more → ∀ s' os', run c s more = .ok (s', os') → transmitted os' ≠ [] →
    (transmitted os').head? = some s.last := by
  induction more with
  | nil =>
      intro ps s os _ _ _ _ s' os' h hne
      simp only [run, Except.ok.injEq, Prod.mk.injEq] at h
      obtain ⟨_, rfl⟩ := h
      simp [transmitted] at hne
  | cons p more ih =>
      intro ps s os hi hps hinc hr s' os' h hne
      have hinc' : Increasing ((ps ++ [p]) ++ more) := by simpa using hinc
      have h2 := increasing_snoc (List.pairwise_append.1 hinc').1
      simp only [run, bind, Except.bind, pure, Except.pure] at h
      rcases step_inv htud he hmono hi hps h2.2 (hr p (by simp)) with ⟨s1, a1, a2, a3⟩ | ⟨s1, a1, a2, a3, _⟩
      · simp only [a1] at h
        cases h4 : run c s1 more with
        | error e => simp [h4] at h
        | ok y =>
            obtain ⟨sb, ob⟩ := y
            simp only [h4, Except.ok.injEq, Prod.mk.injEq] at h
            obtain ⟨rfl, rfl⟩ := h
            have e : transmitted (observe s1 false :: ob) = transmitted ob := by simp [observe, transmitted]
            rw [e] at hne ⊢
            rw [ih _ _ _ a3 (by simp) hinc' (fun q hq => hr q (by simp [hq])) _ _ h4 hne, a2]
      · simp only [a1] at h
        cases h4 : run c s1 more with
        | error e => simp [h4] at h
        | ok y =>
            obtain ⟨sb, ob⟩ := y
            simp only [h4, Except.ok.injEq, Prod.mk.injEq] at h
            obtain ⟨rfl, rfl⟩ := h
            simp [observe, transmitted, a2]

/-- from the last answer back to the state before it -/
theorem last_step (htud : c.tud = 1) (he : 0 ≤ c.eps) (hmono : Monotone c.conv) (g : Point) {ps : List Point}
    {p : Point} (hinc : Increasing (ps ++ [p])) (hr : InRange c (ps ++ [p])) {s : State}
    {os : List (Option Point)} {P : Point} (h : run c (new g) (ps ++ [p]) = .ok (s, os ++ [some P])) :
    ps ≠ [] ∧ ∃ s0, run c (new g) ps = .ok (s0, os) ∧ Inv c ps s0 os ∧ P = s0.last ∧
      ∀ σ, Fits c.eps P σ (openSegment (ps.zip os) ++ [p]) →
       ¬ (∀ q ∈ openSegment (ps.zip os) ++ [p], c.conv (ray P σ q.t) = ray P σ q.t ∧
        (c.minValue : ℚ) ≤ ray P σ q.t ∧ ray P σ q.t ≤ c.maxValue) := by
  by_cases h0 : ps = []
  · subst h0
    obtain ⟨s0, h1, _⟩ := inv_one he g p
    rw [List.nil_append, h1] at h
    simp only [Except.ok.injEq, Prod.mk.injEq] at h
    have := h.2
    rcases os with _ | ⟨a, os⟩ <;> simp at this
  · refine ⟨h0, ?_⟩
    obtain ⟨h1, h2⟩ := increasing_snoc hinc
    obtain ⟨s0, os0, h3, h4⟩ := run_inv htud he hmono g ps h0 h1 (fun q hq => hr q (by simp [hq]))
    rcases step_inv htud he hmono h4 h0 h2 (hr p (by simp)) with ⟨s', a1, _, a3⟩ | ⟨s', a1, a2, a3, a4⟩
    · rw [run_append _ _ _ h3 a1] at h
      simp only [Except.ok.injEq, Prod.mk.injEq] at h
      have := List.append_inj' h.2 rfl
      simp [observe] at this
    · rw [run_append _ _ _ h3 a1] at h
      simp only [Except.ok.injEq, Prod.mk.injEq] at h
      obtain ⟨h5, h6⟩ := List.append_inj' h.2 rfl
      simp only [observe, if_true, List.cons.injEq, Option.some.injEq, and_true, a2] at h6
      subst h5; subst h6
      exact ⟨s0, h3, h4, rfl, a4⟩

/-! ### C25 -/

/-- **C25**, exact arithmetic: with consecutive timestamps every sample is within epsilon of the line joining the
transmitted points around it. (The code truncates instead: see `C25_error_unbounded`.) -/
theorem C25_error_bound_exact_partial (htud : c.tud = 1) (he : 0 ≤ c.eps) (hid : c.conv = id) (g : Point)
    (ps : List Point) (hcons : Consecutive ps) (hr : InRange c ps) :
    ∃ s os, run c (new g) ps = .ok (s, os) ∧ ErrorBounded c.eps ps (transmitted os) := by
  by_cases h0 : ps = []
  · subst h0; exact ⟨new g, [], rfl, fun _ _ _ _ _ p hp => absurd hp (by simp)⟩
  · obtain ⟨s, os, h1, h2⟩ := run_inv htud he (by rw [hid]; exact monotone_id) g ps h0
      (consecutive_increasing hcons) hr
    refine ⟨s, os, h1, ?_⟩
    intro l1 l2 P Q hl p hp hp1 hp2
    have h3 := h2.err hid hcons
    rw [hl] at h3
    simp only [List.append_assoc, List.cons_append] at h3
    exact (List.isChain_cons_cons.1 (List.isChain_append.1 h3).2.1).1 p hp hp1 hp2

/-- the LTC class with epsilon 1 and the default range, in exact arithmetic and as coded -/
def exExact : Cfg := { eps := 1, conv := id }
def exCode : Cfg := { eps := 1, conv := trunc }

/-- a stream with three transmissions -/
def exStream : List Point := [⟨0, 0⟩, ⟨1, 1⟩, ⟨2, 4⟩, ⟨3, 9⟩, ⟨4, 9⟩, ⟨5, 2⟩]

example : Consecutive exStream ∧ InRange exExact exStream ∧
    (run exExact (new ⟨0, 0⟩) exStream).map (fun x => transmitted x.2) =
      .ok [⟨0, 0⟩, ⟨2, 7 / 2⟩, ⟨3, 9⟩] := by
  refine ⟨by simp [Consecutive, exStream], ?_, by decide +kernel⟩
  intro p hp
  simp only [exStream, List.mem_cons, List.not_mem_nil, or_false] at hp
  rcases hp with rfl | rfl | rfl | rfl | rfl | rfl <;> norm_num [exExact]

/-- the values of the bad stream: up to `n` with slope 1, then constant until time `N`, then two jumps -/
def badValue (n N i : Nat) : ℚ :=
  if i ≤ n then i else if i ≤ N then n - 1 else if i = N + 1 then n + 3 else n - 1

def badStream (n N m : Nat) : List Point := (List.range m).map (fun i : Nat => (⟨(i : Int), badValue n N i⟩ : Point))

theorem badStream_consecutive (n N m : Nat) : Consecutive (badStream n N m) := by
  unfold Consecutive
  rw [List.isChain_iff_getElem]
  intro i hi
  simp [badStream]

theorem badStream_succ (n N m : Nat) : badStream n N (m + 1) = badStream n N m ++ [⟨m, badValue n N m⟩] := by
  simp [badStream, List.range_succ]

/-- one `add` on concrete limits, no transmission -/
theorem add_keep (c : Cfg) (htud : c.tud = 1) (s : State) (t : Int) (v : ℚ) (nul nll : Point)
    (hc : s.counter = 2) (hul : nul = newUl c t v) (hll : nll = newLl c t v)
    (h1 : s.ul.t ≠ s.last.t) (h2 : s.ll.t ≠ s.last.t) (h3 : t ≠ s.last.t)
    (h4 : ¬ (deriva c s.last s.ul < deriva c s.last nll)) (h5 : ¬ (deriva c s.last s.ll > deriva c s.last nul)) :
    add c s t v = .ok ({ s with
      ul := if deriva c s.last s.ul < deriva c s.last nul then extend c s.ul (deriva c s.last s.ul) t else nul
      ll := if deriva c s.last s.ll > deriva c s.last nll then extend c s.ll (deriva c s.last s.ll) t else nll },
      false) := by
  subst hul hll
  have hne : ¬ (s.ul.t = s.last.t ∨ s.ll.t = s.last.t ∨ (newUl c t v).t = s.last.t ∨
      (newLl c t v).t = s.last.t ∨ c.tud = 0) := by
    rw [newUl_t, newLl_t, htud]; push Not; exact ⟨h1, h2, h3, h3, by decide⟩
  have hn : needTransmit c s (newUl c t v) (newLl c t v) = .ok (some
      (if deriva c s.last s.ul < deriva c s.last (newUl c t v) then extend c s.ul (deriva c s.last s.ul) t
        else newUl c t v,
      if deriva c s.last s.ll > deriva c s.last (newLl c t v) then extend c s.ll (deriva c s.last s.ll) t
        else newLl c t v)) := by
    simp only [needTransmit, if_neg hne, if_neg (not_or.2 ⟨h4, h5⟩)]
    rfl
  have hc0 : ¬ s.counter = 0 := by rw [hc]; decide
  have hc1 : ¬ s.counter = 1 := by rw [hc]; decide
  simp only [add, hc0, hc1, if_false, hn, bind, Except.bind, pure, Except.pure]

theorem add_send (c : Cfg) (htud : c.tud = 1) (s : State) (t : Int) (v : ℚ) (hc : s.counter = 2)
    (h1 : s.ul.t ≠ s.last.t) (h2 : s.ll.t ≠ s.last.t) (h3 : t ≠ s.last.t)
    (h4 : deriva c s.last s.ul < deriva c s.last (newLl c t v) ∨
      deriva c s.last s.ll > deriva c s.last (newUl c t v)) :
    add c s t v = .ok (addSecond c { s with
      toTransmit := s.last
      last := ⟨t - 1, c.conv ((s.ul.v + s.ll.v) / 2)⟩
      counter := 1 } t v, true) := by
  have hne : ¬ (s.ul.t = s.last.t ∨ s.ll.t = s.last.t ∨ (newUl c t v).t = s.last.t ∨
      (newLl c t v).t = s.last.t ∨ c.tud = 0) := by
    rw [newUl_t, newLl_t, htud]; push Not; exact ⟨h1, h2, h3, h3, by decide⟩
  have hn : needTransmit c s (newUl c t v) (newLl c t v) = .ok none := by
    simp only [needTransmit, if_neg hne, if_pos h4]
  have hc0 : ¬ s.counter = 0 := by rw [hc]; decide
  have hc1 : ¬ s.counter = 1 := by rw [hc]; decide
  simp only [add, hc0, hc1, if_false, hn, bind, Except.bind, pure, Except.pure]

theorem trunc_of {x : ℚ} (n : Int) (h0 : 0 ≤ x) (h1 : (n : ℚ) ≤ x) (h2 : x < n + 1) : trunc x = n := by
  unfold trunc
  rw [if_neg (not_lt.2 h0), Int.floor_eq_iff.2 ⟨h1, h2⟩]

section bad

variable (c : Cfg) (n N : Nat)

/-- the object after the samples `0 … t` of the bad stream -/
def badState (g : Point) (u l : ℚ) (t : Nat) : State :=
  { last := ⟨0, 0⟩, ul := ⟨t, u⟩, ll := ⟨t, l⟩, toTransmit := g, counter := 2 }

theorem bad_deriva {c : Cfg} (htud : c.tud = 1) (t : Int) (x : ℚ) : deriva c ⟨0, 0⟩ ⟨t, x⟩ = x / t := by
  simp [deriva, htud]

/-- the ramp: samples `(1,1), …, (t,t)` -/
theorem bad_ramp (htud : c.tud = 1) (heps : c.eps = 1) (hmax : (n : Int) + 4 ≤ c.maxValue)
    (hmin : c.minValue ≤ -1) (g : Point) (t : Nat) (ht : t + 1 ≤ n) :
    run c (new g) (badStream n N (t + 2)) =
      .ok (badState g ((t + 1 : Nat) + 1) ((t + 1 : Nat) - 1) (t + 1), List.replicate (t + 2) none) := by
  have hmax' : (n : ℚ) + 4 ≤ c.maxValue := by exact_mod_cast hmax
  have hmin' : (c.minValue : ℚ) ≤ -1 := by exact_mod_cast hmin
  induction t with
  | zero =>
      have hn : (1 : ℚ) ≤ n := by exact_mod_cast ht
      have e : badStream n N (0 + 2) = [⟨0, 0⟩, ⟨1, 1⟩] := by
        simp [badStream, List.range_succ, badValue, ht]
      have h1 : ¬ ((1 : ℚ) + 1 > c.maxValue) := by linarith
      have h2 : ¬ ((1 : ℚ) - 1 < c.minValue) := by linarith
      have h2' : ¬ (0 < c.minValue) := by omega
      rw [e]
      simp [run, add, new, observe, addSecond, newUl, newLl, badState, heps, h2', bind, Except.bind, pure,
        Except.pure]
      intro h; exact absurd h h1
  | succ t ih =>
      have ih := ih (by omega)
      rw [badStream_succ]
      have hv : badValue n N (t + 2) = ((t : ℚ) + 2) := by simp [badValue, ht]
      have hn : (t : ℚ) + 2 ≤ n := by exact_mod_cast ht
      have h0 : (0 : ℚ) ≤ t := Nat.cast_nonneg t
      have hul : newUl c ((t + 2 : Nat) : Int) ((t : ℚ) + 2) = ⟨(t + 2 : Nat), (t : ℚ) + 3⟩ := by
        have : ¬ ((t : ℚ) + 2 + 1 > c.maxValue) := by linarith
        simp only [newUl, heps, Int.cast_one, if_neg this, Point.mk.injEq, true_and]; ring
      have hll : newLl c ((t + 2 : Nat) : Int) ((t : ℚ) + 2) = ⟨(t + 2 : Nat), (t : ℚ) + 1⟩ := by
        have : ¬ ((t : ℚ) + 2 - 1 < c.minValue) := by linarith
        simp only [newLl, heps, Int.cast_one, if_neg this, Point.mk.injEq, true_and]; ring
      have hstep := add_keep c htud (badState g ((t + 1 : Nat) + 1) ((t + 1 : Nat) - 1) (t + 1))
        ((t + 2 : Nat) : Int) ((t : ℚ) + 2) _ _ rfl hul.symm hll.symm
        (by simp only [badState]; omega) (by simp only [badState]; omega) (by simp only [badState]; omega)
        (by
          simp only [badState, bad_deriva htud]
          push_cast
          rw [div_lt_div_iff₀ (by linarith) (by linarith)]
          nlinarith)
        (by
          simp only [badState, bad_deriva htud, gt_iff_lt]
          push_cast
          rw [div_lt_div_iff₀ (by linarith) (by linarith)]
          nlinarith)
      have e1 : ¬ (deriva c (badState g ((t + 1 : Nat) + 1) ((t + 1 : Nat) - 1) (t + 1)).last
          (badState g ((t + 1 : Nat) + 1) ((t + 1 : Nat) - 1) (t + 1)).ul <
          deriva c (badState g ((t + 1 : Nat) + 1) ((t + 1 : Nat) - 1) (t + 1)).last ⟨(t + 2 : Nat), (t : ℚ) + 3⟩) := by
        simp only [badState, bad_deriva htud]
        push_cast
        rw [div_lt_div_iff₀ (by linarith) (by linarith)]
        nlinarith
      have e2 : ¬ (deriva c (badState g ((t + 1 : Nat) + 1) ((t + 1 : Nat) - 1) (t + 1)).last
          (badState g ((t + 1 : Nat) + 1) ((t + 1 : Nat) - 1) (t + 1)).ll >
          deriva c (badState g ((t + 1 : Nat) + 1) ((t + 1 : Nat) - 1) (t + 1)).last ⟨(t + 2 : Nat), (t : ℚ) + 1⟩) := by
        simp only [badState, bad_deriva htud, gt_iff_lt]
        push_cast
        rw [div_lt_div_iff₀ (by linarith) (by linarith)]
        nlinarith
      rw [if_neg e1, if_neg e2] at hstep
      have := run_append (c := c) (new g) (badStream n N (t + 2)) ⟨((t + 2 : Nat) : Int), badValue n N (t + 2)⟩ ih
        (s2 := badState g ((t + 1 + 1 : Nat) + 1) ((t + 1 + 1 : Nat) - 1) (t + 1 + 1)) (r := false) (by
          dsimp only
          rw [hv, hstep]
          simp only [badState]
          congr 3 <;> (push_cast; congr 1; ring))
      rw [this]
      simp only [observe, Bool.false_eq_true, if_false, List.replicate_succ', List.append_assoc]

/-- the flat part: the lower limit stays at `n - 1` because its extension is truncated -/
theorem bad_flat (htud : c.tud = 1) (heps : c.eps = 1) (hmax : (n : Int) + 4 ≤ c.maxValue)
    (hmin : c.minValue ≤ -1) (hconv : c.conv = trunc) (hn1 : 1 ≤ n) (g : Point) (k : Nat) (hk : n + k ≤ N) :
    ∃ u : ℚ, (u = n ∨ (k = 0 ∧ u = n + 1)) ∧ run c (new g) (badStream n N (n + k + 1)) =
      .ok (badState g u (n - 1) (n + k), List.replicate (n + k + 1) none) := by
  have hmax' : (n : ℚ) + 4 ≤ c.maxValue := by exact_mod_cast hmax
  have hmin' : (c.minValue : ℚ) ≤ -1 := by exact_mod_cast hmin
  have hn : (1 : ℚ) ≤ n := by exact_mod_cast hn1
  induction k with
  | zero =>
      obtain ⟨t, rfl⟩ : ∃ t, n = t + 1 := ⟨n - 1, by omega⟩
      exact ⟨_, .inr ⟨rfl, rfl⟩, bad_ramp c (t + 1) N htud heps hmax hmin g t le_rfl⟩
  | succ k ih =>
      obtain ⟨u, hu, ih⟩ := ih (by omega)
      refine ⟨n, .inl rfl, ?_⟩
      rw [show n + (k + 1) + 1 = (n + k + 1) + 1 from rfl, badStream_succ]
      have hk0 : (0 : ℚ) ≤ k := Nat.cast_nonneg k
      have hv : badValue n N (n + k + 1) = (n : ℚ) - 1 := by
        have h1 : ¬ (n + k + 1 ≤ n) := by omega
        have h2 : n + k + 1 ≤ N := by omega
        simp only [badValue, if_neg h1, if_pos h2]
      have hu1 : (n : ℚ) ≤ u := by rcases hu with rfl | ⟨_, rfl⟩ <;> linarith
      have hul : newUl c ((n + k + 1 : Nat) : Int) ((n : ℚ) - 1) = ⟨(n + k + 1 : Nat), (n : ℚ)⟩ := by
        have : ¬ ((n : ℚ) - 1 + 1 > c.maxValue) := by linarith
        simp only [newUl, heps, Int.cast_one, if_neg this, Point.mk.injEq, true_and]; ring
      have hll : newLl c ((n + k + 1 : Nat) : Int) ((n : ℚ) - 1) = ⟨(n + k + 1 : Nat), (n : ℚ) - 2⟩ := by
        have : ¬ ((n : ℚ) - 1 - 1 < c.minValue) := by linarith
        simp only [newLl, heps, Int.cast_one, if_neg this, Point.mk.injEq, true_and]; ring
      have hne : ((n + k : Nat) : Int) ≠ 0 := by omega
      have hne' : ((n + k + 1 : Nat) : Int) ≠ 0 := by omega
      have d1 : (0 : ℚ) < ((n + k : Nat) : Int) := by push_cast; linarith
      have d2 : (0 : ℚ) < ((n + k + 1 : Nat) : Int) := by push_cast; linarith
      have hstep := add_keep c htud (badState g u (n - 1) (n + k))
        ((n + k + 1 : Nat) : Int) ((n : ℚ) - 1) _ _ rfl hul.symm hll.symm hne hne hne'
        (by
          simp only [badState, bad_deriva htud]
          rw [div_lt_div_iff₀ d1 d2]
          push_cast
          nlinarith)
        (by
          simp only [badState, bad_deriva htud, gt_iff_lt]
          rw [div_lt_div_iff₀ d2 d1]
          push_cast
          nlinarith)
      simp only [badState, bad_deriva htud] at hstep
      have e1 : ¬ (u / (((n + k : Nat) : Int) : ℚ) < n / (((n + k + 1 : Nat) : Int) : ℚ)) := by
        rw [div_lt_div_iff₀ d1 d2]
        push_cast
        nlinarith
      have e2 : ((n : ℚ) - 1) / (((n + k : Nat) : Int) : ℚ) > (n - 2) / (((n + k + 1 : Nat) : Int) : ℚ) := by
        rw [gt_iff_lt, div_lt_div_iff₀ d2 d1]
        push_cast
        nlinarith
      have e3 : extend c ⟨((n + k : Nat) : Int), (n : ℚ) - 1⟩ (((n : ℚ) - 1) / (((n + k : Nat) : Int) : ℚ))
          ((n + k + 1 : Nat) : Int) = ⟨((n + k + 1 : Nat) : Int), (n : ℚ) - 1⟩ := by
        have hd : ((n + k + 1 : Nat) : Int) - ((n + k : Nat) : Int) = 1 := by omega
        simp only [extend, htud, Int.tdiv_one, hconv, hd, Point.mk.injEq, true_and]
        have p1 : 0 ≤ ((n : ℚ) - 1) / (((n + k : Nat) : Int) : ℚ) := div_nonneg (by linarith) d1.le
        have p2 : ((n : ℚ) - 1) / (((n + k : Nat) : Int) : ℚ) < 1 := by
          rw [div_lt_one d1]; push_cast; linarith
        have := trunc_of (x := ((1 : Int) : ℚ) * (((n : ℚ) - 1) / (((n + k : Nat) : Int) : ℚ)) + ((n : ℚ) - 1))
          ((n : Int) - 1) (by push_cast at *; linarith) (by push_cast at *; linarith) (by push_cast at *; linarith)
        rw [this]; push_cast; ring
      rw [if_neg e1, if_pos e2, e3] at hstep
      have := run_append (c := c) (new g) (badStream n N (n + k + 1))
        ⟨((n + k + 1 : Nat) : Int), badValue n N (n + k + 1)⟩ ih
        (s2 := badState g n (n - 1) (n + (k + 1))) (r := false) (by
          dsimp only
          rw [hv, badState, hstep]
          rfl)
      rw [this]
      simp only [observe, Bool.false_eq_true, if_false, List.replicate_succ', List.append_assoc]

/-- two jumps: both segment starts are transmitted -/
theorem bad_sent (htud : c.tud = 1) (heps : c.eps = 1) (hmax : (n : Int) + 4 ≤ c.maxValue)
    (hmin : c.minValue ≤ -1) (hconv : c.conv = trunc) (hn1 : 1 ≤ n) (g : Point) (hk : n < N) :
    ∃ s os, run c (new g) (badStream n N (N + 3)) = .ok (s, os) ∧
      transmitted os = [⟨0, 0⟩, ⟨N, n - 1⟩] := by
  have hmax' : (n : ℚ) + 4 ≤ c.maxValue := by exact_mod_cast hmax
  have hmin' : (c.minValue : ℚ) ≤ -1 := by exact_mod_cast hmin
  have hn : (1 : ℚ) ≤ n := by exact_mod_cast hn1
  obtain ⟨k, rfl⟩ : ∃ k, N = n + k := ⟨N - n, by omega⟩
  obtain ⟨u, hu, h⟩ := bad_flat c n (n + k) htud heps hmax hmin hconv hn1 g k le_rfl
  have hk1 : 1 ≤ k := by omega
  have hu : u = n := by
    rcases hu with h | ⟨h, _⟩
    · exact h
    · omega
  subst hu
  have hkq : (1 : ℚ) ≤ k := by exact_mod_cast hk1
  have hne : ((n + k : Nat) : Int) ≠ 0 := by omega
  have hne' : ((n + k + 1 : Nat) : Int) ≠ 0 := by omega
  have d1 : (0 : ℚ) < ((n + k : Nat) : Int) := by push_cast; linarith
  have d2 : (0 : ℚ) < ((n + k + 1 : Nat) : Int) := by push_cast; linarith
  have hv1 : badValue n (n + k) (n + k + 1) = (n : ℚ) + 3 := by
    have h1 : ¬ (n + k + 1 ≤ n) := by omega
    have h2 : ¬ (n + k + 1 ≤ n + k) := by omega
    simp only [badValue, if_neg h1, if_neg h2, if_true]
  have hv2 : badValue n (n + k) (n + k + 1 + 1) = (n : ℚ) - 1 := by
    have h1 : ¬ (n + k + 1 + 1 ≤ n) := by omega
    have h2 : ¬ (n + k + 1 + 1 ≤ n + k) := by omega
    have h3 : ¬ (n + k + 1 + 1 = n + k + 1) := by omega
    simp only [badValue, if_neg h1, if_neg h2, if_neg h3]
  have hll : newLl c ((n + k + 1 : Nat) : Int) ((n : ℚ) + 3) = ⟨(n + k + 1 : Nat), (n : ℚ) + 2⟩ := by
    have : ¬ ((n : ℚ) + 3 - 1 < c.minValue) := by linarith
    simp only [newLl, heps, Int.cast_one, if_neg this, Point.mk.injEq, true_and]; ring
  have hul : newUl c ((n + k + 1 : Nat) : Int) ((n : ℚ) + 3) = ⟨(n + k + 1 : Nat), (n : ℚ) + 4⟩ := by
    have : ¬ ((n : ℚ) + 3 + 1 > c.maxValue) := by linarith
    simp only [newUl, heps, Int.cast_one, if_neg this, Point.mk.injEq, true_and]; ring
  have hul2 : newUl c ((n + k + 1 + 1 : Nat) : Int) ((n : ℚ) - 1) = ⟨(n + k + 1 + 1 : Nat), (n : ℚ)⟩ := by
    have : ¬ ((n : ℚ) - 1 + 1 > c.maxValue) := by linarith
    simp only [newUl, heps, Int.cast_one, if_neg this, Point.mk.injEq, true_and]; ring
  have s1 := add_send c htud (badState g n (n - 1) (n + k)) ((n + k + 1 : Nat) : Int) ((n : ℚ) + 3) rfl hne hne hne'
    (by
      left
      simp only [badState, bad_deriva htud, hll]
      rw [div_lt_div_iff₀ d1 d2]
      push_cast
      nlinarith)
  have hmid : c.conv (((n : ℚ) + (n - 1)) / 2) = n - 1 := by
    rw [hconv, trunc_of ((n : Int) - 1)]
    · push_cast; ring
    · linarith
    · push_cast; linarith
    · push_cast; linarith
  have hprev : ((n + k + 1 : Nat) : Int) - 1 = ((n + k : Nat) : Int) := by omega
  simp only [badState, hmid, hprev, addSecond, hul, hll] at s1
  have r1 := run_append (c := c) (new g) (badStream n (n + k) (n + k + 1))
    ⟨((n + k + 1 : Nat) : Int), badValue n (n + k) (n + k + 1)⟩ h (r := true)
    (s2 := { last := ⟨((n + k : Nat) : Int), (n : ℚ) - 1⟩, ul := ⟨((n + k + 1 : Nat) : Int), (n : ℚ) + 4⟩,
             ll := ⟨((n + k + 1 : Nat) : Int), (n : ℚ) + 2⟩, toTransmit := ⟨0, 0⟩, counter := 2 })
    (by dsimp only; rw [hv1, badState, s1])
  rw [← badStream_succ] at r1
  have s2 := add_send c htud
    { last := ⟨((n + k : Nat) : Int), (n : ℚ) - 1⟩, ul := ⟨((n + k + 1 : Nat) : Int), (n : ℚ) + 4⟩,
      ll := ⟨((n + k + 1 : Nat) : Int), (n : ℚ) + 2⟩, toTransmit := ⟨0, 0⟩, counter := 2 }
    ((n + k + 1 + 1 : Nat) : Int) ((n : ℚ) - 1) rfl (by dsimp only; omega) (by dsimp only; omega)
    (by dsimp only; omega)
    (by
      right
      rw [hul2]
      have e1 : ((n + k + 1 : Nat) : Int) - ((n + k : Nat) : Int) = 1 := by omega
      have e2 : ((n + k + 1 + 1 : Nat) : Int) - ((n + k : Nat) : Int) = 2 := by omega
      simp only [deriva, htud, e1, e2]
      norm_num)
  have r2 := run_append (c := c) (new g) _ ⟨((n + k + 1 + 1 : Nat) : Int), badValue n (n + k) (n + k + 1 + 1)⟩ r1
    (r := true) (by dsimp only; rw [hv2]; exact s2)
  rw [← badStream_succ] at r2
  refine ⟨_, _, r2, ?_⟩
  simp [observe, transmitted, addSecond, List.filterMap_replicate]

end bad

/-- **C25 is false for the code**: the limits are extended with truncation, so a slope below 1 is lost. For every `E`
that fits in the value range there is a stream with consecutive timestamps and in-range integer values, compressed with
`epsilon = 1`, with a sample further than `E` from the line joining the transmitted points around it. -/
theorem C25_error_unbounded (c : Cfg) (htud : c.tud = 1) (heps : c.eps = 1) (hconv : c.conv = trunc) (E : Nat)
    (hmax : (E : Int) + 5 ≤ c.maxValue) (hmin : c.minValue ≤ -1) (g : Point) :
    ∃ ps : List Point, ps.length = (E + 1) ^ 2 + 4 ∧ Consecutive ps ∧ InRange c ps ∧ (∀ p ∈ ps, ∃ z : Int, p.v = z) ∧
      ∃ s os P Q p, run c (new g) ps = .ok (s, os) ∧ transmitted os = [P, Q] ∧ p ∈ ps ∧
        P.t ≤ p.t ∧ p.t ≤ Q.t ∧ (E : ℚ) < |lineAt P Q p.t - p.v| := by
  obtain ⟨n, hn⟩ : ∃ n, n = E + 1 := ⟨_, rfl⟩
  obtain ⟨N, hN⟩ : ∃ N, N = n * n + 1 := ⟨_, rfl⟩
  have hnN : n < N := by rw [hN]; nlinarith
  have hmax' : (E : ℚ) + 5 ≤ c.maxValue := by exact_mod_cast hmax
  have hmin' : (c.minValue : ℚ) ≤ -1 := by exact_mod_cast hmin
  have hnq : (n : ℚ) = E + 1 := by rw [hn]; push_cast; ring
  have hE : (0 : ℚ) ≤ E := Nat.cast_nonneg E
  obtain ⟨s, os, h1, h2⟩ := bad_sent c n N htud heps (by omega) hmin hconv (by omega) g hnN
  refine ⟨badStream n N (N + 3), by simp [badStream, hN, hn]; ring, badStream_consecutive _ _ _, ?_, ?_, s, os, _, _, ⟨n, badValue n N n⟩, h1, h2, ?_, ?_, ?_, ?_⟩
  · intro p hp
    simp only [badStream, List.mem_map, List.mem_range] at hp
    obtain ⟨i, _, rfl⟩ := hp
    simp only [badValue]
    split
    · rename_i hi
      have : (i : ℚ) ≤ n := by exact_mod_cast hi
      have : (0 : ℚ) ≤ i := Nat.cast_nonneg i
      constructor <;> linarith
    · split
      · constructor <;> linarith
      · split <;> constructor <;> linarith
  · intro p hp
    simp only [badStream, List.mem_map, List.mem_range] at hp
    obtain ⟨i, _, rfl⟩ := hp
    simp only [badValue]
    split
    · exact ⟨i, by simp⟩
    · split
      · exact ⟨n - 1, by simp⟩
      · split
        · exact ⟨n + 3, by simp⟩
        · exact ⟨n - 1, by simp⟩
  · simp only [badStream, List.mem_map, List.mem_range]
    exact ⟨n, by omega, rfl⟩
  · simp
  · dsimp only; exact_mod_cast hnN.le
  · have hv : badValue n N n = n := by simp [badValue]
    have hNq : (N : ℚ) = n * n + 1 := by rw [hN]; push_cast; ring
    have hNpos : (0 : ℚ) < N := by rw [hNq]; nlinarith
    have hval : lineAt ⟨0, 0⟩ ⟨N, n - 1⟩ n = (n - 1) * n / N := by
      simp only [lineAt, ray]
      have hN0 : (N : ℚ) ≠ 0 := hNpos.ne'
      push_cast; field_simp; ring
    dsimp only
    rw [hv, hval]
    have hsmall : ((n : ℚ) - 1) * n / N < 1 := by
      rw [div_lt_one hNpos, hNq]; nlinarith
    rw [abs_sub_comm]
    exact lt_of_lt_of_le (by linarith) (le_abs_self _)

/-- With the default template range the error can reach 32762 although epsilon is 1. -/
theorem C25_not_error_bounded : ∃ ps : List Point, Consecutive ps ∧ InRange exCode ps ∧
    ∃ s os, run exCode (new ⟨0, 0⟩) ps = .ok (s, os) ∧ ¬ ErrorBounded 32761 ps (transmitted os) := by
  obtain ⟨ps, _, h1, h2, _, s, os, P, Q, p, h3, h4, h5, h6, h7, h8⟩ :=
    C25_error_unbounded exCode rfl rfl rfl 32762 (by decide) (by decide) ⟨0, 0⟩
  refine ⟨ps, h1, h2, s, os, h3, fun hb => ?_⟩
  have := hb [] [] P Q (by simpa using h4) p h5 h6 h7
  norm_num at h8
  linarith

/-- Also in exact arithmetic the bound needs consecutive timestamps: the new segment starts at `t - 1`, but with the value
of the limits at the previous sample's time. -/
theorem C25_gaps_break_the_bound : ∃ ps : List Point, Increasing ps ∧ InRange exExact ps ∧
    ∃ s os, run exExact (new ⟨0, 0⟩) ps = .ok (s, os) ∧ ¬ ErrorBounded 1 ps (transmitted os) := by
  refine ⟨[⟨0, 0⟩, ⟨1, 5⟩, ⟨10, 1000⟩, ⟨11, -1000⟩], by simp [Increasing], ?_,
    ⟨⟨10, 1000⟩, ⟨11, -999⟩, ⟨11, -1001⟩, ⟨9, 5⟩, 2⟩, [none, none, some ⟨0, 0⟩, some ⟨9, 5⟩], by decide +kernel, ?_⟩
  · intro p hp
    simp only [List.mem_cons, List.not_mem_nil, or_false] at hp
    rcases hp with rfl | rfl | rfl | rfl <;> norm_num [exExact]
  · intro hb
    have := hb [] [] ⟨0, 0⟩ ⟨9, 5⟩ rfl ⟨1, 5⟩ (by simp) (by decide) (by decide)
    norm_num [lineAt, ray] at this

/-! ### C26 -/

/-- **C26** When `add` returns true and hands out the start `P` of the closed segment, no line through `P` that takes
integer values in the declared range at the sample times is within epsilon of all the samples of the segment and the new
one. (Timestamps need not be consecutive.) -/
theorem C26_no_needless_transmission (htud : c.tud = 1) (he : 0 ≤ c.eps) (hconv : c.conv = trunc) (g : Point)
    (ps : List Point) (p : Point) (hinc : Increasing (ps ++ [p])) (hr : InRange c (ps ++ [p])) {s : State}
    {os : List (Option Point)} {P : Point} (h : run c (new g) (ps ++ [p]) = .ok (s, os ++ [some P])) (σ : ℚ)
    (hint : ∀ q ∈ openSegment (ps.zip os) ++ [p], ∃ z : Int, ray P σ q.t = z ∧ c.minValue ≤ z ∧ z ≤ c.maxValue) :
    ¬ Fits c.eps P σ (openSegment (ps.zip os) ++ [p]) := by
  obtain ⟨_, s0, _, _, _, h4⟩ := last_step htud he (by rw [hconv]; exact trunc_mono) g hinc hr h
  intro hf
  refine h4 σ hf (fun q hq => ?_)
  obtain ⟨z, h5, h6, h7⟩ := hint q hq
  rw [h5, hconv, trunc_int]
  exact ⟨rfl, by exact_mod_cast h6, by exact_mod_cast h7⟩

/-- **C26** the same as a promise about the next call: if such a line through the pending point fits, `add` returns false. -/
theorem C26_add_returns_false (htud : c.tud = 1) (he : 0 ≤ c.eps) (hconv : c.conv = trunc) (g : Point)
    (ps : List Point) (hne : ps ≠ []) (p : Point) (hinc : Increasing (ps ++ [p])) (hr : InRange c (ps ++ [p])) :
    ∃ s os, run c (new g) ps = .ok (s, os) ∧ ∀ σ,
      (∀ q ∈ openSegment (ps.zip os) ++ [p], ∃ z : Int, ray s.last σ q.t = z ∧ c.minValue ≤ z ∧ z ≤ c.maxValue) →
      Fits c.eps s.last σ (openSegment (ps.zip os) ++ [p]) → ∃ s', add c s p.t p.v = .ok (s', false) := by
  have hmono : Monotone c.conv := by rw [hconv]; exact trunc_mono
  obtain ⟨h1, h2⟩ := increasing_snoc hinc
  obtain ⟨s, os, h3, h4⟩ := run_inv htud he hmono g ps hne h1 (fun q hq => hr q (by simp [hq]))
  refine ⟨s, os, h3, fun σ hint hf => ?_⟩
  rcases step_inv htud he hmono h4 hne h2 (hr p (by simp)) with ⟨s', a1, _, _⟩ | ⟨s', _, _, _, a4⟩
  · exact ⟨s', a1⟩
  · exfalso
    refine a4 σ hf (fun q hq => ?_)
    obtain ⟨z, h5, h6, h7⟩ := hint q hq
    rw [h5, hconv, trunc_int]
    exact ⟨rfl, by exact_mod_cast h6, by exact_mod_cast h7⟩

/-- a transmission really happens, and the integer line of slope 2 fits up to the sample before it -/
example : (run exCode (new ⟨0, 0⟩) (exStream.take 4)).map Prod.snd = .ok ([none, none, none] ++ [some ⟨0, 0⟩]) ∧
    Fits 1 ⟨0, 0⟩ 2 [⟨1, 1⟩, ⟨2, 4⟩] := by
  refine ⟨by decide +kernel, ?_⟩
  intro q hq
  simp only [List.mem_cons, List.not_mem_nil, or_false] at hq
  rcases hq with rfl | rfl <;> norm_num [ray]

/-! ### C27 -/

/-- **C27** In exact arithmetic, at any time some line through the point `P` that will be transmitted next stays within
epsilon of all samples of the open segment. So as soon as no line fits, `add` has returned true. -/
theorem C27_open_segment_fits (htud : c.tud = 1) (he : 0 ≤ c.eps) (hid : c.conv = id) (g : Point)
    (ps : List Point) (hlen : 2 ≤ ps.length) (hinc : Increasing ps) (hr : InRange c ps) :
    ∃ s os, run c (new g) ps = .ok (s, os) ∧ ∃ P σ, Fits c.eps P σ (openSegment (ps.zip os)) ∧
      ∀ more, Increasing (ps ++ more) → InRange c more → ∀ s' os', run c (new g) (ps ++ more) = .ok (s', os ++ os') →
        transmitted os' ≠ [] → (transmitted os').head? = some P := by
  have hmono : Monotone c.conv := by rw [hid]; exact monotone_id
  have hne : ps ≠ [] := by rintro rfl; simp at hlen
  obtain ⟨s, os, h1, h2⟩ := run_inv htud he hmono g ps hne hinc hr
  refine ⟨s, os, h1, s.last, ?_⟩
  obtain ⟨h3, _⟩ := h2.seg hlen
  obtain ⟨h4, h5⟩ := h3.exact hid
  have h6 := ray_at s.last s.ul.v h3.lt
  refine ⟨_, h5 _ (by rw [← h6]; exact h4) (by rw [← h6]), ?_⟩
  intro more hi hr' s' os' hrun hne'
  rw [run_split _ _ _ h1] at hrun
  cases h7 : run c s more with
  | error e => simp [h7] at hrun
  | ok y =>
      obtain ⟨sb, ob⟩ := y
      simp only [h7, Except.ok.injEq, Prod.mk.injEq] at hrun
      have := List.append_cancel_left hrun.2
      subst this
      exact next_sent htud he hmono more ps s os h2 hne hi hr' sb ob h7 hne'

/-- With truncation C27 fails: no line through the first sample fits, but `add` has always returned false. -/
theorem C27_fails_with_truncation : ∃ ps : List Point, Consecutive ps ∧ InRange exCode ps ∧ ∃ s,
    run exCode (new ⟨0, 0⟩) ps = .ok (s, ps.map (fun _ => none)) ∧ ∀ σ, ¬ Fits 1 ⟨0, 0⟩ σ ps.tail := by
  refine ⟨badStream 3 9 10, badStream_consecutive _ _ _, ?_, badState ⟨0, 0⟩ 3 2 9, by decide +kernel, ?_⟩
  · intro p hp
    have hp' : p ∈ [⟨0, 0⟩, ⟨1, 1⟩, ⟨2, 2⟩, ⟨3, 3⟩, ⟨4, 2⟩, ⟨5, 2⟩, ⟨6, 2⟩, ⟨7, 2⟩, ⟨8, 2⟩, (⟨9, 2⟩ : Point)] := by
      have : badStream 3 9 10 = [⟨0, 0⟩, ⟨1, 1⟩, ⟨2, 2⟩, ⟨3, 3⟩, ⟨4, 2⟩, ⟨5, 2⟩, ⟨6, 2⟩, ⟨7, 2⟩, ⟨8, 2⟩, (⟨9, 2⟩ : Point)] := by
        decide +kernel
      rwa [this] at hp
    simp only [List.mem_cons, List.not_mem_nil, or_false] at hp'
    rcases hp' with rfl | rfl | rfl | rfl | rfl | rfl | rfl | rfl | rfl | rfl <;> norm_num [exCode]
  · intro σ hf
    have h3 := abs_ray.1 (hf ⟨3, 3⟩ (by decide +kernel))
    have h9 := abs_ray.1 (hf ⟨9, 2⟩ (by decide +kernel))
    simp only [ray] at h3 h9
    norm_num at h3 h9
    linarith [h3.1, h9.2]

/-! ### C28 -/

/-- **C28** Protocol. For every stream with increasing timestamps no call fails; the first two calls return false;
the first transmitted point is the first sample; transmitted times strictly increase. -/
theorem C28_protocol (htud : c.tud = 1) (he : 0 ≤ c.eps) (hmono : Monotone c.conv) (g : Point)
    (ps : List Point) (hinc : Increasing ps) (hr : InRange c ps) :
    ∃ s os, run c (new g) ps = .ok (s, os) ∧ os.length = ps.length ∧ (∀ o ∈ os.take 2, o = none) ∧
      (transmitted os ≠ [] → (transmitted os).head? = ps.head?) ∧
      (transmitted os).Pairwise (fun P Q => P.t < Q.t) := by
  by_cases h0 : ps = []
  · subst h0; exact ⟨new g, [], rfl, rfl, by simp, by simp [transmitted], by simp [transmitted]⟩
  · obtain ⟨s, os, h1, h2⟩ := run_inv htud he hmono g ps h0 hinc hr
    exact ⟨s, os, h1, h2.len, h2.two, h2.sent, (List.pairwise_append.1 h2.incr).1⟩

/-- **C28** Segment starts: when `add p` returns true with point `P`, then `P` is the first sample if nothing was
transmitted before; otherwise `P` is at time `t - 1`, where `t` is the time of the sample whose `add` transmitted last. -/
theorem C28_segment_start (htud : c.tud = 1) (he : 0 ≤ c.eps) (hmono : Monotone c.conv) (g : Point)
    (ps : List Point) (p : Point) (hinc : Increasing (ps ++ [p])) (hr : InRange c (ps ++ [p])) {s : State}
    {os : List (Option Point)} {P : Point} (h : run c (new g) (ps ++ [p]) = .ok (s, os ++ [some P])) :
    (transmitted os = [] → ps.head? = some P) ∧
    ∀ (i : Nat) (q P' : Point), ps[i]? = some q → os[i]? = some (some P') →
      (∀ (k : Nat) (P'' : Point), i < k → os[k]? ≠ some (some P'')) → P.t = q.t - 1 := by
  obtain ⟨_, s0, _, h3, rfl, _⟩ := last_step htud he hmono g hinc hr h
  exact ⟨h3.first, h3.after⟩

/-- the code (with truncation) meets the hypotheses and transmits -/
example : Monotone exCode.conv ∧ Increasing exStream ∧
    (run exCode (new ⟨0, 0⟩) exStream).map Prod.snd =
      .ok [none, none, none, some ⟨0, 0⟩, some ⟨2, 3⟩, some ⟨3, 9⟩] := by
  exact ⟨trunc_mono, by simp [Increasing, exStream], by decide +kernel⟩

end Orp.Ltc
