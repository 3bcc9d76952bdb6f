import Verif.Ltc.Props

/-!
Where the transmitted points of the code lie. `C25_error_unbounded` shows that between two transmitted points the line
may be far from the samples; here: the transmitted points themselves never are, and with epsilon 0 nothing is lost.
-/

namespace Orp.Ltc

variable {c : Cfg}

/-- all values are integers (the elements of the class are integers) -/
def IntegerValued (ps : List Point) : Prop := ∀ p ∈ ps, ∃ n : Int, p.v = n

/-- `q` is the latest sample of the stream that is not later than time `t` -/
def Latest (ps : List Point) (t : Int) (q : Point) : Prop := q ∈ ps ∧ q.t ≤ t ∧ ∀ r ∈ ps, r.t ≤ q.t ∨ t < r.t

/-- `x` is an integer of the declared range, within epsilon of `v` -/
def CloseTo (c : Cfg) (v x : ℚ) : Prop :=
  (∃ n : Int, x = n) ∧ |x - v| ≤ c.eps ∧ (c.minValue : ℚ) ≤ x ∧ x ≤ c.maxValue

theorem trunc_isInt (x : ℚ) : ∃ n : Int, trunc x = n := by
  unfold trunc; split
  · exact ⟨_, rfl⟩
  · exact ⟨_, rfl⟩

theorem newUl_int {t : Int} {v : ℚ} (h : ∃ n : Int, v = n) : ∃ n : Int, (newUl c t v).v = n := by
  obtain ⟨n, rfl⟩ := h
  unfold newUl; dsimp only; split
  · exact ⟨_, rfl⟩
  · exact ⟨n + c.eps, by push_cast; rfl⟩

theorem newLl_int {t : Int} {v : ℚ} (h : ∃ n : Int, v = n) : ∃ n : Int, (newLl c t v).v = n := by
  obtain ⟨n, rfl⟩ := h
  unfold newLl; dsimp only; split
  · exact ⟨_, rfl⟩
  · exact ⟨n - c.eps, by push_cast; rfl⟩

theorem newUl_max {t : Int} {v : ℚ} : (newUl c t v).v ≤ c.maxValue := by
  unfold newUl; dsimp only; split
  · exact le_rfl
  · rename_i h; exact not_lt.1 h

theorem newLl_min {t : Int} {v : ℚ} : (c.minValue : ℚ) ≤ (newLl c t v).v := by
  unfold newLl; dsimp only; split
  · exact le_rfl
  · rename_i h; exact not_lt.1 h

/-- what is between the limits of a new sample is close to it -/
theorem closeTo_between {t : Int} {v x : ℚ} (hi : ∃ n : Int, x = n) (h1 : (newLl c t v).v ≤ x)
    (h2 : x ≤ (newUl c t v).v) : CloseTo c v x :=
  ⟨hi, abs_ray.2 ⟨le_newLl.trans h1, h2.trans newUl_le⟩, newLl_min.trans h1, h2.trans newUl_max⟩

theorem trunc_between {a b x : ℚ} (ha : ∃ n : Int, a = n) (hb : ∃ n : Int, b = n) (h1 : a ≤ x) (h2 : x ≤ b) :
    a ≤ trunc x ∧ trunc x ≤ b := by
  obtain ⟨n, rfl⟩ := ha
  obtain ⟨m, rfl⟩ := hb
  have h3 := trunc_mono h1
  have h4 := trunc_mono h2
  rw [trunc_int] at h3 h4
  exact ⟨h3, h4⟩

/-- object whose last sample is `q`: its limits are between the limits of that sample -/
structure Near (c : Cfg) (s : State) (q : Point) : Prop where
  cnt : s.counter = 2
  ul : s.ul.t = q.t
  ll : s.ll.t = q.t
  lt : s.last.t < q.t
  isInt : ∃ n : Int, q.v = n
  up : (newLl c q.t q.v).v ≤ s.ul.v ∧ s.ul.v ≤ (newUl c q.t q.v).v
  low : (newLl c q.t q.v).v ≤ s.ll.v ∧ s.ll.v ≤ (newUl c q.t q.v).v

theorem near_second (he : 0 ≤ c.eps) (s : State) (p : Point) (hlt : s.last.t < p.t) (hi : ∃ n : Int, p.v = n)
    (hr : (c.minValue : ℚ) ≤ p.v ∧ p.v ≤ c.maxValue) : Near c (addSecond c s p.t p.v) p := by
  have he' : (0 : ℚ) ≤ c.eps := by exact_mod_cast he
  have h : (newLl c p.t p.v).v ≤ (newUl c p.t p.v).v :=
    (newLl_le (x := p.v) (by linarith) hr.1).trans (newUl_ge (by linarith) hr.2)
  exact ⟨rfl, rfl, rfl, hlt, hi, ⟨h, le_rfl⟩, ⟨le_rfl, h⟩⟩

theorem add_near (htud : c.tud = 1) (he : 0 ≤ c.eps) (hconv : c.conv = trunc) {s : State} {q p : Point}
    (h : Near c s q) (hp : q.t < p.t) (hi : ∃ n : Int, p.v = n) (hr : (c.minValue : ℚ) ≤ p.v ∧ p.v ≤ c.maxValue) :
    (∃ s', add c s p.t p.v = .ok (s', false) ∧ s'.last = s.last ∧ Near c s' p) ∨
    (∃ s', add c s p.t p.v = .ok (s', true) ∧ s'.toTransmit = s.last ∧ s'.last.t = p.t - 1 ∧
      CloseTo c q.v s'.last.v ∧ Near c s' p) := by
  have hlt : s.last.t < s.ul.t := by rw [h.ul]; exact h.lt
  have hlp : s.last.t < p.t := h.lt.trans hp
  have hll : s.ll.t = s.ul.t := by rw [h.ll, h.ul]
  obtain ⟨u, hu⟩ : ∃ u, u = deriva c s.last s.ul := ⟨_, rfl⟩
  obtain ⟨l, hl⟩ : ∃ l, l = deriva c s.last s.ll := ⟨_, rfl⟩
  obtain ⟨nu, hnu⟩ : ∃ u, u = deriva c s.last (newUl c p.t p.v) := ⟨_, rfl⟩
  obtain ⟨nl, hnl⟩ : ∃ u, u = deriva c s.last (newLl c p.t p.v) := ⟨_, rfl⟩
  have eu : s.ul.v = ray s.last u s.ul.t := by
    rw [hu, deriva, htud]; simpa using ray_at s.last s.ul.v hlt
  have el : s.ll.v = ray s.last l s.ul.t := by
    rw [hl, deriva, htud, hll]; simpa using ray_at s.last s.ll.v hlt
  have enu : (newUl c p.t p.v).v = ray s.last nu p.t := by
    rw [hnu, deriva, htud, newUl_t]; simpa using ray_at s.last _ hlp
  have enl : (newLl c p.t p.v).v = ray s.last nl p.t := by
    rw [hnl, deriva, htud, newLl_t]; simpa using ray_at s.last _ hlp
  have hne : ¬ (s.ul.t = s.last.t ∨ s.ll.t = s.last.t ∨ (newUl c p.t p.v).t = s.last.t ∨
      (newLl c p.t p.v).t = s.last.t ∨ c.tud = 0) := by
    rw [newUl_t, newLl_t, htud, hll]; omega
  have exu : extend c s.ul u p.t = ⟨p.t, trunc (ray s.last u p.t)⟩ := by
    rw [extend, htud, Int.tdiv_one, eu, ray_extend, hconv]
  have exl : extend c s.ll l p.t = ⟨p.t, trunc (ray s.last l p.t)⟩ := by
    rw [extend, htud, Int.tdiv_one, el, hll, ray_extend, hconv]
  have hc0 : ¬ s.counter = 0 := by rw [h.cnt]; decide
  have hc1 : ¬ s.counter = 1 := by rw [h.cnt]; decide
  by_cases hcond : u < nl ∨ l > nu
  · right
    refine ⟨addSecond c
      { s with
        toTransmit := s.last
        last := ⟨p.t - 1, c.conv ((s.ul.v + s.ll.v) / 2)⟩
        counter := 1 } p.t p.v, ?_, rfl, rfl, ?_, near_second he _ _ (by simp) hi hr⟩
    · simp only [add, hc0, hc1, if_false, needTransmit, hne, ← hu, ← hl, ← hnu, ← hnl, hcond, if_true, bind,
        Except.bind, pure, Except.pure]
    · simp only [addSecond, hconv]
      have b := trunc_between (x := (s.ul.v + s.ll.v) / 2) (newLl_int (c := c) (t := q.t) h.isInt)
        (newUl_int (c := c) (t := q.t) h.isInt) (by linarith [h.up.1, h.low.1]) (by linarith [h.up.2, h.low.2])
      exact closeTo_between (trunc_isInt _) b.1 b.2
  · left
    push Not at hcond
    have he' : (0 : ℚ) ≤ c.eps := by exact_mod_cast he
    have hnn : (newLl c p.t p.v).v ≤ (newUl c p.t p.v).v :=
      (newLl_le (x := p.v) (by linarith) hr.1).trans (newUl_ge (by linarith) hr.2)
    refine ⟨{ s with
      ul := if u < nu then extend c s.ul u p.t else newUl c p.t p.v
      ll := if l > nl then extend c s.ll l p.t else newLl c p.t p.v }, ?_, rfl, ?_⟩
    · have hcond' : ¬ (u < nl ∨ l > nu) := by push Not; exact hcond
      have hn : needTransmit c s (newUl c p.t p.v) (newLl c p.t p.v) =
          .ok (some (if u < nu then extend c s.ul u p.t else newUl c p.t p.v,
            if l > nl then extend c s.ll l p.t else newLl c p.t p.v)) := by
        simp only [needTransmit, if_neg hne, ← hu, ← hl, ← hnu, ← hnl, if_neg hcond']
        rfl
      simp only [add, hc0, hc1, if_false, hn, bind, Except.bind, pure, Except.pure]
    · refine ⟨h.cnt, by dsimp only; split <;> rfl, by dsimp only; split <;> rfl, hlp, hi, ?_, ?_⟩
      · dsimp only; split
        · rename_i hh
          rw [exu]
          exact trunc_between (newLl_int hi) (newUl_int hi) (by rw [enl, ray_mono hlp]; exact hcond.1)
            (by rw [enu, ray_mono hlp]; exact hh.le)
        · exact ⟨hnn, le_rfl⟩
      · dsimp only; split
        · rename_i hh
          rw [exl]
          exact trunc_between (newLl_int hi) (newUl_int hi) (by rw [enl, ray_mono hlp]; exact le_of_lt hh)
            (by rw [enu, ray_mono hlp]; exact hcond.2)
        · exact ⟨le_rfl, hnn⟩

theorem latest_snoc {ps : List Point} {t : Int} {q p : Point} (h : Latest ps t q) (hp : t < p.t) :
    Latest (ps ++ [p]) t q := by
  refine ⟨by simp [h.1], h.2.1, ?_⟩
  intro r hr
  rcases List.mem_append.1 hr with hr | hr
  · exact h.2.2 r hr
  · simp only [List.mem_singleton] at hr; subst hr; exact .inr hp

/-- a point close to the latest sample at its time -/
def OnSignal (c : Cfg) (ps : List Point) (P : Point) : Prop := ∃ q, Latest ps P.t q ∧ CloseTo c q.v P.v

theorem onSignal_snoc {ps : List Point} {P p : Point} (h : OnSignal c ps P) (hp : P.t < p.t) :
    OnSignal c (ps ++ [p]) P := by
  obtain ⟨q, h1, h2⟩ := h
  exact ⟨q, latest_snoc h1 hp, h2⟩

/-- invariant of whole streams -/
theorem run_near (htud : c.tud = 1) (he : 0 ≤ c.eps) (hconv : c.conv = trunc) (g : Point) (ps : List Point)
    (hps : ps ≠ []) (hinc : Increasing ps) (hr : InRange c ps) (hi : IntegerValued ps) :
    ∃ s os q, run c (new g) ps = .ok (s, os) ∧ ps.getLast? = some q ∧
      (∀ P ∈ transmitted os, P.t < q.t ∧ OnSignal c ps P) ∧ OnSignal c ps s.last ∧
      (ps.length = 1 ∧ s.counter = 1 ∧ s.last = q ∨ Near c s q) := by
  have he' : (0 : ℚ) ≤ c.eps := by exact_mod_cast he
  induction ps using List.reverseRecOn with
  | nil => exact absurd rfl hps
  | append_singleton ps p ih =>
      have hip := hi p (by simp)
      have hrp := hr p (by simp)
      by_cases h0 : ps = []
      · subst h0
        refine ⟨{ new g with last := p, counter := 1 }, [none], p, ?_, rfl, by simp [transmitted], ?_, .inl ⟨rfl, rfl, rfl⟩⟩
        · simp [run, add, new, observe, bind, Except.bind, pure, Except.pure]
        · exact ⟨p, ⟨by simp, le_rfl, fun r hr => .inl (by simp only [List.nil_append, List.mem_singleton] at hr; rw [hr])⟩,
            hip, by simpa using he', hrp.1, hrp.2⟩
      · obtain ⟨h1, h2⟩ := increasing_snoc hinc
        obtain ⟨s, os, q, h3, h4, h5, h6, h7⟩ := ih h0 h1 (fun q hq => hr q (by simp [hq])) (fun q hq => hi q (by simp [hq]))
        have hqm := List.mem_of_getLast? h4
        have hqp := h2 q hqm
        have hsent : ∀ P ∈ transmitted os, P.t < p.t ∧ OnSignal c (ps ++ [p]) P := by
          intro P hP
          obtain ⟨a, b⟩ := h5 P hP
          exact ⟨a.trans hqp, onSignal_snoc b (a.trans hqp)⟩
        rcases h7 with ⟨_, a2, a3⟩ | hn
        · refine ⟨addSecond c s p.t p.v, os ++ [none], p, ?_, by simp, ?_, ?_, .inr ?_⟩
          · exact run_append (r := false) _ _ _ h3 (by simp [add, a2])
          · rw [transmitted_snoc]; simpa using hsent
          · exact onSignal_snoc h6 (show s.last.t < p.t by rw [a3]; exact hqp)
          · exact near_second he _ _ (by rw [a3]; exact hqp) hip hrp
        · rcases add_near htud he hconv hn hqp hip hrp with ⟨s', a1, a2, a3⟩ | ⟨s', a1, a2, a3, a4, a5⟩
          · refine ⟨s', os ++ [none], p, run_append (r := false) _ _ _ h3 a1, by simp, ?_, ?_, .inr a3⟩
            · rw [transmitted_snoc]; simpa using hsent
            · rw [a2]; exact onSignal_snoc h6 (hn.lt.trans hqp)
          · refine ⟨s', os ++ [some s.last], p, ?_, by simp, ?_, ?_, .inr a5⟩
            · rw [run_append _ _ _ h3 a1, observe, a2]; rfl
            · intro P hP
              rw [transmitted_snoc] at hP
              rcases List.mem_append.1 hP with hP | hP
              · exact hsent P hP
              · simp only [Option.toList_some, List.mem_singleton] at hP
                subst hP
                exact ⟨hn.lt.trans hqp, onSignal_snoc h6 (hn.lt.trans hqp)⟩
            · refine onSignal_snoc ⟨q, ⟨hqm, by omega, ?_⟩, a4⟩ (by omega)
              intro r hrm
              left
              -- `q` is the last sample
              obtain ⟨l, rfl⟩ : ∃ l, ps = l ++ [q] := by
                have := List.getLast?_eq_some_iff.1 h4
                exact this
              rcases List.mem_append.1 hrm with hrm | hrm
              · exact ((increasing_snoc h1).2 r hrm).le
              · simp only [List.mem_singleton] at hrm; rw [hrm]

/-- **C136** For every stream with increasing timestamps, every transmitted point is an integer of the declared range
within epsilon of the latest sample at its time. -/
theorem C136_points_on_signal (htud : c.tud = 1) (he : 0 ≤ c.eps) (hconv : c.conv = trunc) (g : Point)
    (ps : List Point) (hinc : Increasing ps) (hr : InRange c ps) (hi : IntegerValued ps) :
    ∃ s os, run c (new g) ps = .ok (s, os) ∧ ∀ P ∈ transmitted os, ∃ q, Latest ps P.t q ∧
      (∃ n : Int, P.v = n) ∧ |P.v - q.v| ≤ c.eps ∧ (c.minValue : ℚ) ≤ P.v ∧ P.v ≤ c.maxValue := by
  by_cases h0 : ps = []
  · subst h0; exact ⟨new g, [], rfl, by simp [transmitted]⟩
  · obtain ⟨s, os, _, h1, _, h2, _⟩ := run_near htud he hconv g ps h0 hinc hr hi
    exact ⟨s, os, h1, fun P hP => (h2 P hP).2⟩

/-- the time of a point of the object is the time of a sample, when the timestamps are consecutive -/
theorem latest_consecutive {ps : List Point} (h : Consecutive ps) {t : Int} {q : Point} (hq : Latest ps t q)
    {r : Point} (hr : r ∈ ps) (ht : t ≤ r.t) : q.t = t := by
  induction ps with
  | nil => simp at hr
  | cons a ps ih =>
      cases ps with
      | nil =>
          have h1 := hq.1
          simp only [List.mem_singleton] at h1 hr
          subst h1; subst hr
          have := hq.2.1
          omega
      | cons b ps =>
          have h' := List.isChain_cons_cons.1 h
          have hall : ∀ r ∈ b :: ps, b.t ≤ r.t := by
            intro r hr
            rcases List.mem_cons.1 hr with rfl | hr
            · exact le_rfl
            · exact ((List.pairwise_cons.1 (consecutive_increasing h'.2)).1 r hr).le
          rcases List.mem_cons.1 hq.1 with h1 | h1
          · subst h1
            have h2 := hq.2.2 b (by simp)
            have h3 := hq.2.1
            have h4 := h'.1
            omega
          · rcases List.mem_cons.1 hr with h2 | h2
            · subst h2
              have h3 := hall q h1
              have h4 := hq.2.1
              have h5 := h'.1
              omega
            · exact ih h'.2 ⟨h1, hq.2.1, fun r hr => hq.2.2 r (by simp [hr])⟩ h2

/-- **C136** With consecutive timestamps every transmitted point is at the time of a sample and within epsilon of it. -/
theorem C136_points_on_samples (htud : c.tud = 1) (he : 0 ≤ c.eps) (hconv : c.conv = trunc) (g : Point)
    (ps : List Point) (hcons : Consecutive ps) (hr : InRange c ps) (hi : IntegerValued ps) :
    ∃ s os, run c (new g) ps = .ok (s, os) ∧ ∀ P ∈ transmitted os, ∃ q ∈ ps, q.t = P.t ∧ |P.v - q.v| ≤ c.eps := by
  by_cases h0 : ps = []
  · subst h0; exact ⟨new g, [], rfl, by simp [transmitted]⟩
  · obtain ⟨s, os, l, h1, hl, h2, _⟩ := run_near htud he hconv g ps h0 (consecutive_increasing hcons) hr hi
    refine ⟨s, os, h1, fun P hP => ?_⟩
    obtain ⟨h3, q, h4, _, h5, _⟩ := h2 P hP
    exact ⟨q, h4.1, latest_consecutive hcons h4 (List.mem_of_getLast? hl) h3.le, h5⟩

/-! ### epsilon 0 -/

/-- both limits are the last sample -/
structure Exact (s : State) (q : Point) : Prop where
  cnt : s.counter = 2
  ul : s.ul = q
  ll : s.ll = q
  lt : s.last.t < q.t

theorem limits_zero (h0 : c.eps = 0) {p : Point} (hr : (c.minValue : ℚ) ≤ p.v ∧ p.v ≤ c.maxValue) :
    newUl c p.t p.v = p ∧ newLl c p.t p.v = p := by
  constructor
  · unfold newUl; rw [h0]; simp [not_lt.2 hr.2]
  · unfold newLl; rw [h0]; simp [not_lt.2 hr.1]

/-- with epsilon 0 nothing is rounded -/
theorem add_exact (htud : c.tud = 1) (h0 : c.eps = 0) (hconv : ∀ n : Int, c.conv n = n) {s : State} {q p : Point}
    (h : Exact s q) (hq : ∃ n : Int, q.v = n) (hp : q.t < p.t) (hr : (c.minValue : ℚ) ≤ p.v ∧ p.v ≤ c.maxValue) :
    ∃ s' r, add c s p.t p.v = .ok (s', r) ∧ add { c with conv := id } s p.t p.v = .ok (s', r) ∧ Exact s' p := by
  have hlp : s.last.t < p.t := h.lt.trans hp
  obtain ⟨eu, el⟩ := limits_zero h0 hr
  obtain ⟨eu', el'⟩ := limits_zero (c := { c with conv := id }) h0 hr
  have hne : ¬ (q.t = s.last.t ∨ q.t = s.last.t ∨ p.t = s.last.t ∨ p.t = s.last.t ∨ c.tud = 0) := by
    have := h.lt; rw [htud]; omega
  have hc0 : ¬ s.counter = 0 := by rw [h.cnt]; decide
  have hc1 : ¬ s.counter = 1 := by rw [h.cnt]; decide
  have hmid : c.conv ((q.v + q.v) / 2) = (q.v + q.v) / 2 := by
    obtain ⟨n, hn⟩ := hq
    rw [hn, show ((n : ℚ) + n) / 2 = n by ring, hconv]
  have hd : ∀ a b : Point, deriva { c with conv := id } a b = deriva c a b := fun _ _ => rfl
  by_cases hcond : deriva c s.last q < deriva c s.last p ∨ deriva c s.last q > deriva c s.last p
  · refine ⟨addSecond c
      { s with
        toTransmit := s.last
        last := ⟨p.t - 1, c.conv ((s.ul.v + s.ll.v) / 2)⟩
        counter := 1 } p.t p.v, true, ?_, ?_, ?_⟩
    · simp only [add, hc0, hc1, if_false, needTransmit, eu, el, h.ul, h.ll, hne, hcond, if_true, bind,
        Except.bind, pure, Except.pure]
    · simp only [add, hc0, hc1, if_false, needTransmit, eu', el', h.ul, h.ll, hne, hcond, if_true, bind,
        Except.bind, pure, Except.pure, hd, addSecond, eu, el, id_eq, hmid]
    · exact ⟨rfl, eu, el, by simp [addSecond]⟩
  · have hcond' := hcond
    push Not at hcond'
    have e : deriva c s.last q = deriva c s.last p := le_antisymm hcond'.2 hcond'.1
    refine ⟨{ s with ul := p, ll := p }, false, ?_, ?_, ⟨h.cnt, rfl, rfl, hlp⟩⟩
    · simp only [add, hc0, hc1, if_false, needTransmit, eu, el, h.ul, h.ll, hne, e, lt_irrefl, gt_iff_lt, or_self, bind,
        Except.bind, pure, Except.pure]
    · simp only [add, hc0, hc1, if_false, needTransmit, eu', el', h.ul, h.ll, hne, e, lt_irrefl, gt_iff_lt, or_self, bind,
        Except.bind, pure, Except.pure, hd]

theorem run_exact (htud : c.tud = 1) (h0 : c.eps = 0) (hconv : ∀ n : Int, c.conv n = n) (ps : List Point) :
    ∀ {s : State} {q : Point}, Exact s q → Increasing (q :: ps) → InRange c ps → IntegerValued (q :: ps) →
      run c s ps = run { c with conv := id } s ps := by
  induction ps with
  | nil => intro s q _ _ _ _; rfl
  | cons p ps ih =>
      intro s q h hinc hr hi
      obtain ⟨h1, h2⟩ := List.pairwise_cons.1 hinc
      obtain ⟨s', r, a1, a2, a3⟩ := add_exact htud h0 hconv h (hi q (by simp)) (h1 p (by simp)) (hr p (by simp))
      have := ih a3 h2 (fun x hx => hr x (by simp [hx])) (fun x hx => hi x (by simp only [List.mem_cons] at hx ⊢; tauto))
      rw [run, run, a1, a2]
      simp only [bind, Except.bind, this]

/-- with epsilon 0 the code does what exact arithmetic does -/
theorem run_lossless (htud : c.tud = 1) (h0 : c.eps = 0) (hconv : ∀ n : Int, c.conv n = n) (g : Point) (ps : List Point)
    (hinc : Increasing ps) (hr : InRange c ps) (hi : IntegerValued ps) :
    run c (new g) ps = run { c with conv := id } (new g) ps := by
  cases ps with
  | nil => rfl
  | cons p ps =>
      cases ps with
      | nil => rfl
      | cons q ps =>
          obtain ⟨h1, h2⟩ := List.pairwise_cons.1 hinc
          obtain ⟨eu, el⟩ := limits_zero h0 (hr q (by simp))
          have hex : Exact { new g with last := p, ul := q, ll := q, counter := 2 } q := ⟨rfl, rfl, rfl, h1 q (by simp)⟩
          have := run_exact htud h0 hconv ps hex h2 (fun x hx => hr x (by simp [hx]))
            (fun x hx => hi x (by simp only [List.mem_cons] at hx ⊢; tauto))
          obtain ⟨eu', el'⟩ := limits_zero (c := { c with conv := id }) h0 (hr q (by simp))
          simp only [run, add, new, if_true, bind, Except.bind, pure, Except.pure, addSecond, eu, el, eu', el'] at this ⊢
          simp [this]

/-- **C136** With epsilon 0 and consecutive timestamps nothing is lost: the lines joining the transmitted points go
through every sample between the first and the last of them. -/
theorem C136_lossless (htud : c.tud = 1) (h0 : c.eps = 0) (hconv : c.conv = trunc) (g : Point)
    (ps : List Point) (hcons : Consecutive ps) (hr : InRange c ps) (hi : IntegerValued ps) :
    ∃ s os, run c (new g) ps = .ok (s, os) ∧
      ∀ (before after : List Point) (P Q : Point), transmitted os = before ++ P :: Q :: after →
        ∀ p ∈ ps, P.t ≤ p.t → p.t ≤ Q.t → p.v = lineAt P Q p.t := by
  rw [run_lossless htud h0 (fun n => by rw [hconv, trunc_int]) g ps (consecutive_increasing hcons) hr hi]
  obtain ⟨s, os, h1, h2⟩ := C25_error_bound_exact_partial (c := { c with conv := id }) htud (by dsimp only; omega) rfl g ps hcons hr
  refine ⟨s, os, h1, fun l1 l2 P Q e p hp a b => ?_⟩
  have h3 := h2 l1 l2 P Q e p hp a b
  simp only [h0, Int.cast_zero] at h3
  have := abs_eq_zero.1 (le_antisymm h3 (abs_nonneg _))
  linarith

/-- epsilon 0, as coded -/
def exZero : Cfg := { eps := 0, conv := trunc }

/-- the hypotheses are met by streams with several transmissions -/
example : Consecutive exStream ∧ InRange exCode exStream ∧ InRange exZero exStream ∧ IntegerValued exStream ∧
    (run exCode (new ⟨0, 0⟩) exStream).map (fun x => transmitted x.2) = .ok [⟨0, 0⟩, ⟨2, 3⟩, ⟨3, 9⟩] ∧
    (run exZero (new ⟨0, 0⟩) exStream).map (fun x => transmitted x.2) = .ok [⟨0, 0⟩, ⟨1, 1⟩, ⟨2, 4⟩, ⟨3, 9⟩] := by
  refine ⟨by simp [Consecutive, exStream], ?_, ?_, ?_, by decide +kernel, by decide +kernel⟩
  · intro p hp
    simp only [exStream, List.mem_cons, List.not_mem_nil, or_false] at hp
    rcases hp with rfl | rfl | rfl | rfl | rfl | rfl <;> norm_num [exCode]
  · intro p hp
    simp only [exStream, List.mem_cons, List.not_mem_nil, or_false] at hp
    rcases hp with rfl | rfl | rfl | rfl | rfl | rfl <;> norm_num [exZero]
  · intro p hp
    simp only [exStream, List.mem_cons, List.not_mem_nil, or_false] at hp
    rcases hp with rfl | rfl | rfl | rfl | rfl | rfl
    exacts [⟨0, by norm_num⟩, ⟨1, by norm_num⟩, ⟨4, by norm_num⟩, ⟨9, by norm_num⟩, ⟨9, by norm_num⟩, ⟨2, by norm_num⟩]

end Orp.Ltc
