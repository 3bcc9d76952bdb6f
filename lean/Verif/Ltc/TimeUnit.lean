import Verif.Ltc.Props

/-!
LTC with a time unit other than 1 (template parameter `time_unit_difference`, C104).
-/

namespace Orp.Ltc

variable {c : Cfg}

/-- what is known after the samples `ps` (not empty) with answers `os`, for any time unit -/
structure Steps (ps : List Point) (s : State) (os : List (Option Point)) : Prop where
  len : os.length = ps.length
  two : ∀ o ∈ os.take 2, o = none
  head : (transmitted os ++ [s.last]).head? = ps.head?
  incr : (transmitted os ++ [s.last]).Pairwise (fun P Q => P.t < Q.t)
  now : (s.counter = 1 ∧ ps.length = 1 ∧ ∀ p, ps.getLast? = some p → s.last.t = p.t) ∨
    (s.counter = 2 ∧ 2 ≤ ps.length ∧ ∀ p, ps.getLast? = some p → s.last.t < p.t ∧ s.ul.t = p.t ∧ s.ll.t = p.t)

theorem needTransmit_times {s : State} {nul nll nul' nll' : Point} (h : needTransmit c s nul nll = .ok (some (nul', nll'))) : nul'.t = nul.t ∧ nll'.t = nll.t := by
  unfold needTransmit at h
  split at h
  · cases h
  · dsimp only at h
    split at h
    · cases h
    · simp only [Except.ok.injEq, Option.some.injEq, Prod.mk.injEq] at h
      obtain ⟨rfl, rfl⟩ := h
      constructor <;> split <;> simp [extend]

theorem add_steps (hu : c.tud ≠ 0) {ps : List Point} {s : State} {os : List (Option Point)} (h : Steps ps s os) (hne : ps ≠ []) {p : Point}
    (hp : ∀ q, ps.getLast? = some q → q.t < p.t) : ∃ s' r, add c s p.t p.v = .ok (s', r) ∧ Steps (ps ++ [p]) s' (os ++ [observe s' r]) := by
  obtain ⟨q, hq⟩ : ∃ q, ps.getLast? = some q := by
    cases hl : ps.getLast? with
    | none => exact absurd (List.getLast?_eq_none_iff.1 hl) hne
    | some q => exact ⟨q, rfl⟩
  have hqp := hp q hq
  have hhead : (ps ++ [p]).head? = ps.head? := by
    cases ps with
    | nil => exact absurd rfl hne
    | cons a l => rfl
  have hlast : ∀ r, (ps ++ [p]).getLast? = some r → r = p := by intro r hr; simpa using hr.symm
  rcases h.now with ⟨h1, h2, h3⟩ | ⟨h1, h2, h3⟩
  · refine ⟨addSecond c s p.t p.v, false, ?_, ?_⟩
    · simp [add, h1]
    · have ht : transmitted (os ++ [observe (addSecond c s p.t p.v) false]) = transmitted os := by simp [transmitted, observe]
      refine ⟨by simp [h.len], ?_, ?_, ?_, .inr ⟨rfl, by simp; omega, ?_⟩⟩
      · intro o ho
        have : os.length = 1 := by rw [h.len, h2]
        obtain ⟨a, rfl⟩ := List.length_eq_one_iff.1 this
        have ha := h.two a (by simp)
        subst ha
        simpa [observe] using ho
      · rw [ht, hhead]; exact h.head
      · rw [ht]; exact h.incr
      · intro r hr
        rw [hlast r hr]
        have := h3 q hq
        exact ⟨by show s.last.t < p.t; omega, by simp [addSecond, newUl], by simp [addSecond, newLl]⟩
  · obtain ⟨h4, h5, h6⟩ := h3 q hq
    have hub : ¬ (s.ul.t = s.last.t ∨ s.ll.t = s.last.t ∨ (newUl c p.t p.v).t = s.last.t ∨ (newLl c p.t p.v).t = s.last.t ∨ c.tud = 0) := by
      simp only [newUl, newLl]
      omega
    have hok : ∃ o, needTransmit c s (newUl c p.t p.v) (newLl c p.t p.v) = .ok o := by
      unfold needTransmit
      rw [if_neg hub]
      dsimp only
      split
      · exact ⟨_, rfl⟩
      · exact ⟨_, rfl⟩
    obtain ⟨o, ho⟩ := hok
    have htake : ∀ o', (os ++ [o']).take 2 = os.take 2 := by
      intro o'
      rw [List.take_append_of_le_length]
      rw [h.len]; exact h2
    cases o with
    | some lims =>
        obtain ⟨nul, nll⟩ := lims
        obtain ⟨t1, t2⟩ := needTransmit_times ho
        refine ⟨{ s with ul := nul, ll := nll }, false, ?_, ?_⟩
        · simp [add, h1, ho, bind, Except.bind, pure, Except.pure]
        · have ht : transmitted (os ++ [observe { s with ul := nul, ll := nll } false]) = transmitted os := by simp [transmitted, observe]
          refine ⟨by simp [h.len], by rw [htake]; exact h.two, by rw [ht, hhead]; exact h.head, by rw [ht]; exact h.incr, .inr ⟨h1, by simp; omega, ?_⟩⟩
          intro r hr
          rw [hlast r hr]
          exact ⟨by show s.last.t < p.t; omega, by rw [t1]; simp [newUl], by rw [t2]; simp [newLl]⟩
    | none =>
        set s' := addSecond c { s with toTransmit := s.last, last := ⟨p.t - 1, c.conv ((s.ul.v + s.ll.v) / 2)⟩, counter := 1 } p.t p.v with hs'
        refine ⟨s', true, ?_, ?_⟩
        · simp [add, h1, ho, bind, Except.bind, pure, Except.pure, hs']
        · have ht : transmitted (os ++ [observe s' true]) = transmitted os ++ [s.last] := by simp [transmitted, observe, hs', addSecond]
          have hl : s'.last.t = p.t - 1 := rfl
          refine ⟨by simp [h.len], by rw [htake]; exact h.two, ?_, ?_, .inr ⟨rfl, by simp; omega, ?_⟩⟩
          · rw [ht, hhead, ← h.head]
            cases transmitted os <;> rfl
          · rw [ht, List.pairwise_append]
            refine ⟨h.incr, by simp, ?_⟩
            intro a ha b hb
            rw [List.mem_singleton.1 hb, hl]
            have hle : a.t ≤ s.last.t := by
              rcases List.mem_append.1 ha with ha | ha
              · exact ((List.pairwise_append.1 h.incr).2.2 a ha s.last (by simp)).le
              · rw [List.mem_singleton.1 ha]
            omega
          · intro r hr
            rw [hlast r hr]
            exact ⟨by rw [hl]; omega, by simp [hs', addSecond, newUl], by simp [hs', addSecond, newLl]⟩

theorem run_steps (hu : c.tud ≠ 0) (g : Point) (ps : List Point) : ps ≠ [] → Increasing ps → ∃ s os, run c (new g) ps = .ok (s, os) ∧ Steps ps s os := by
  induction ps using List.reverseRecOn with
  | nil => intro h; exact absurd rfl h
  | append_singleton ps p ih =>
      intro _ hinc
      by_cases h0 : ps = []
      · subst h0
        refine ⟨{ new g with last := ⟨p.t, p.v⟩, counter := 1 }, [none], rfl, ⟨rfl, by simp, by simp [transmitted], by simp [transmitted], .inl ⟨rfl, rfl, ?_⟩⟩⟩
        intro q hq
        simp only [List.nil_append, List.getLast?_singleton, Option.some.injEq] at hq
        rw [← hq]
      · obtain ⟨h1, -, h2⟩ := List.pairwise_append.1 hinc
        obtain ⟨s, os, h3, h4⟩ := ih h0 h1
        obtain ⟨s', r, h5, h6⟩ := add_steps hu h4 h0 (p := p) (fun q hq => h2 q (List.mem_of_getLast? hq) p (by simp))
        refine ⟨s', _, ?_, h6⟩
        rw [run_split _ _ _ h3]
        simp [run, h5, bind, Except.bind, pure, Except.pure]

/-- **C104** With any time unit but 0 the protocol is the same: for every stream with increasing timestamps no call fails, the first two calls return false,
the first transmitted point is the first sample and transmitted times strictly increase. What is missing is the bound on the error, which holds for the time
unit 1 (C25) and is false for every greater one (`C104_error_unbounded`). -/
theorem C104_protocol_partial (hu : c.tud ≠ 0) (g : Point) (ps : List Point) (hinc : Increasing ps) :
    ∃ s os, run c (new g) ps = .ok (s, os) ∧ os.length = ps.length ∧ (∀ o ∈ os.take 2, o = none) ∧
      (transmitted os ≠ [] → (transmitted os).head? = ps.head?) ∧ (transmitted os).Pairwise (fun P Q => P.t < Q.t) := by
  by_cases h0 : ps = []
  · subst h0; exact ⟨new g, [], rfl, rfl, by simp, by simp [transmitted], by simp [transmitted]⟩
  · obtain ⟨s, os, h1, h2⟩ := run_steps hu g ps h0 hinc
    refine ⟨s, os, h1, h2.len, h2.two, fun hne => ?_, (List.pairwise_append.1 h2.incr).1⟩
    rw [← h2.head]
    cases ht : transmitted os with
    | nil => exact absurd ht hne
    | cons a l => rfl

/-- consecutive samples on which the extended limit is too low -/
def unitStream (E : Nat) : List Point := [⟨0, 0⟩, ⟨1, 2 * E⟩, ⟨2, 4 * E + 2⟩, ⟨3, 0⟩, ⟨4, 0⟩]

/-- **C104** is false of the code, also in exact arithmetic: with any time unit greater than 1 the limits of consecutive samples are not extended at all
(`1 / time_unit_difference` is the integer 0), so the transmitted points can be further than any `E` from the samples, although epsilon is 1. -/
theorem C104_error_unbounded (hu : 2 ≤ c.tud) (heps : c.eps = 1) (hconv : ∀ z : Int, c.conv z = z) (E : Nat) (hE : 1 ≤ E) (hmax : 4 * (E : Int) + 3 ≤ c.maxValue)
    (hmin : c.minValue ≤ -1) (g : Point) :
    Consecutive (unitStream E) ∧ InRange c (unitStream E) ∧ ∃ s os P Q p, run c (new g) (unitStream E) = .ok (s, os) ∧ transmitted os = [P, Q] ∧
      p ∈ unitStream E ∧ P.t ≤ p.t ∧ p.t ≤ Q.t ∧ (E : ℚ) < |lineAt P Q p.t - p.v| := by
  have hEq : (1 : ℚ) ≤ E := by exact_mod_cast hE
  have hmax' : 4 * (E : ℚ) + 3 ≤ c.maxValue := by exact_mod_cast hmax
  have hmin' : (c.minValue : ℚ) ≤ -1 := by exact_mod_cast hmin
  have huq : (0 : ℚ) < c.tud := by exact_mod_cast (by omega : 0 < c.tud)
  refine ⟨by simp [Consecutive, unitStream], ?_, ?_⟩
  · intro p hp
    simp only [unitStream, List.mem_cons, List.not_mem_nil, or_false] at hp
    rcases hp with rfl | rfl | rfl | rfl | rfl <;> constructor <;> simp only <;> linarith
  · have ht : (1 : Int).tdiv c.tud = 0 := Int.tdiv_eq_zero_of_lt (by omega) (by omega)
    have up : ∀ v : ℚ, v + 1 ≤ c.maxValue → ∀ t, newUl c t v = ⟨t, v + 1⟩ := by
      intro v hv t
      simp only [newUl, heps, Int.cast_one, if_neg (not_lt.2 hv)]
    have low : ∀ v : ℚ, (c.minValue : ℚ) ≤ v - 1 → ∀ t, newLl c t v = ⟨t, v - 1⟩ := by
      intro v hv t
      simp only [newLl, heps, Int.cast_one, if_neg (not_lt.2 hv)]
    have hu0 : c.tud ≠ 0 := by omega
    -- second sample
    have s2 : addSecond c { new g with last := ⟨0, 0⟩, counter := 1 } 1 (2 * E) = { last := ⟨0, 0⟩, ul := ⟨1, 2 * E + 1⟩, ll := ⟨1, 2 * E - 1⟩, toTransmit := g, counter := 2 } := by
      simp only [addSecond, new, up (2 * E) (by linarith), low (2 * E) (by linarith)]
    -- third sample: the upper limit stays where it is
    have s3 : add c { last := ⟨0, 0⟩, ul := ⟨1, 2 * E + 1⟩, ll := ⟨1, 2 * E - 1⟩, toTransmit := g, counter := 2 } 2 (4 * E + 2) =
        .ok ({ last := ⟨0, 0⟩, ul := ⟨2, 2 * E + 1⟩, ll := ⟨2, 4 * E + 1⟩, toTransmit := g, counter := 2 }, false) := by
      have d1 : deriva c ⟨0, 0⟩ ⟨1, 2 * E + 1⟩ = (2 * E + 1) / c.tud := by simp [deriva]
      have d2 : deriva c ⟨0, 0⟩ ⟨1, 2 * E - 1⟩ = (2 * E - 1) / c.tud := by simp [deriva]
      have d3 : deriva c ⟨0, 0⟩ ⟨2, 4 * E + 2 + 1⟩ = ((4 * E + 3) / 2) / c.tud := by simp [deriva]; ring
      have d4 : deriva c ⟨0, 0⟩ ⟨2, 4 * E + 2 - 1⟩ = ((4 * E + 1) / 2) / c.tud := by simp [deriva]; ring
      have c1 : ¬ ((2 * (E : ℚ) + 1) / c.tud < ((4 * E + 1) / 2) / c.tud) := by rw [div_lt_div_iff_of_pos_right huq]; linarith
      have c2 : ¬ ((2 * (E : ℚ) - 1) / c.tud > ((4 * E + 3) / 2) / c.tud) := by rw [gt_iff_lt, div_lt_div_iff_of_pos_right huq]; linarith
      have c3 : (2 * (E : ℚ) + 1) / c.tud < ((4 * E + 3) / 2) / c.tud := by rw [div_lt_div_iff_of_pos_right huq]; linarith
      have c4 : ¬ ((2 * (E : ℚ) - 1) / c.tud > ((4 * E + 1) / 2) / c.tud) := by rw [gt_iff_lt, div_lt_div_iff_of_pos_right huq]; linarith
      have e1 : extend c ⟨1, 2 * E + 1⟩ ((2 * E + 1) / c.tud) 2 = ⟨2, 2 * E + 1⟩ := by
        have := hconv (2 * E + 1)
        push_cast at this
        simp [extend, ht, this]
      simp only [add, needTransmit, up (4 * E + 2) (by linarith), low (4 * E + 2) (by linarith), d1, d2, d3, d4, if_neg c4, if_pos c3, e1]
      simp only [c1, c2, hu0]
      simp [bind, Except.bind, pure, Except.pure]
      ring
    -- fourth sample: transmission
    have s4 : add c { last := ⟨0, 0⟩, ul := ⟨2, 2 * E + 1⟩, ll := ⟨2, 4 * E + 1⟩, toTransmit := g, counter := 2 } 3 0 =
        .ok ({ last := ⟨2, 3 * E + 1⟩, ul := ⟨3, 1⟩, ll := ⟨3, -1⟩, toTransmit := ⟨0, 0⟩, counter := 2 }, true) := by
      have d2 : deriva c ⟨0, 0⟩ ⟨2, 4 * E + 1⟩ = ((4 * E + 1) / 2) / c.tud := by simp [deriva]
      have d3 : deriva c ⟨0, 0⟩ ⟨3, 0 + 1⟩ = (1 / 3) / c.tud := by simp [deriva]
      have c2 : ((4 * (E : ℚ) + 1) / 2) / c.tud > (1 / 3) / c.tud := by rw [gt_iff_lt, div_lt_div_iff_of_pos_right huq]; linarith
      have hm : c.conv ((2 * E + 1 + (4 * E + 1)) / 2) = 3 * E + 1 := by
        have := hconv (3 * E + 1)
        push_cast at this
        rw [← this]
        congr 1
        ring
      simp only [add, needTransmit, up 0 (by linarith), low 0 (by linarith), d2, d3, c2, hm, addSecond]
      simp [hu0, bind, Except.bind, pure, Except.pure]
    -- fifth sample: transmission
    have s5 : add c { last := ⟨2, 3 * E + 1⟩, ul := ⟨3, 1⟩, ll := ⟨3, -1⟩, toTransmit := ⟨0, 0⟩, counter := 2 } 4 0 =
        .ok ({ last := ⟨3, 0⟩, ul := ⟨4, 1⟩, ll := ⟨4, -1⟩, toTransmit := ⟨2, 3 * E + 1⟩, counter := 2 }, true) := by
      have d1 : deriva c ⟨2, 3 * E + 1⟩ ⟨3, 1⟩ = (-(3 * E)) / c.tud := by simp [deriva]
      have d4 : deriva c ⟨2, 3 * E + 1⟩ ⟨4, 0 - 1⟩ = ((-(3 * E) - 2) / 2) / c.tud := by simp [deriva]; ring
      have c1 : (-(3 * (E : ℚ))) / c.tud < ((-(3 * E) - 2) / 2) / c.tud := by rw [div_lt_div_iff_of_pos_right huq]; linarith
      have hm : c.conv ((1 + (-1 : ℚ)) / 2) = 0 := by
        have := hconv 0
        simpa using this
      simp only [add, needTransmit, up 0 (by linarith), low 0 (by linarith), d1, d4, c1, hm, addSecond]
      simp [hu0, bind, Except.bind, pure, Except.pure]
    refine ⟨{ last := ⟨3, 0⟩, ul := ⟨4, 1⟩, ll := ⟨4, -1⟩, toTransmit := ⟨2, 3 * E + 1⟩, counter := 2 }, [none, none, none, some ⟨0, 0⟩, some ⟨2, 3 * E + 1⟩],
      ⟨0, 0⟩, ⟨2, 3 * E + 1⟩, ⟨2, 4 * E + 2⟩, ?_, rfl, by simp [unitStream], by simp, by simp, ?_⟩
    · have a1 : add c (new g) 0 0 = .ok ({ new g with last := ⟨0, 0⟩, counter := 1 }, false) := rfl
      have a2 : add c { new g with last := ⟨0, 0⟩, counter := 1 } 1 (2 * E) = .ok ({ last := ⟨0, 0⟩, ul := ⟨1, 2 * E + 1⟩, ll := ⟨1, 2 * E - 1⟩, toTransmit := g, counter := 2 }, false) := by
        rw [← s2]; rfl
      simp only [unitStream, run, a1, a2, s3, s4, s5, bind, Except.bind, pure, Except.pure, observe]
      rfl
    · have : lineAt ⟨0, 0⟩ ⟨2, 3 * E + 1⟩ 2 - (4 * E + 2) = -((E : ℚ) + 1) := by
        simp [lineAt, ray]; ring
      show (E : ℚ) < |lineAt ⟨0, 0⟩ ⟨2, 3 * E + 1⟩ 2 - (4 * E + 2)|
      rw [this, abs_neg]
      exact lt_of_lt_of_le (lt_add_one _) (le_abs_self _)

/-- the hypotheses are met by the code with a time unit of 1000 and the default range -/
example : ∃ c : Cfg, c.conv = trunc ∧ 2 ≤ c.tud ∧ c.eps = 1 ∧ (∀ z : Int, c.conv z = z) ∧ 4 * ((8000 : Nat) : Int) + 3 ≤ c.maxValue ∧ c.minValue ≤ -1 :=
  ⟨{ eps := 1, tud := 1000, conv := trunc }, rfl, by decide, rfl, trunc_int, by decide, by decide⟩

/-- with the time unit 1 the same stream is compressed within epsilon -/
example : (run exExact (new ⟨0, 0⟩) (unitStream 100)).map (fun x => transmitted x.2) = .ok [⟨0, 0⟩, ⟨2, 401.5⟩] := by decide +kernel

end Orp.Ltc
