import Verif.Ltc.Props

/-!
Property C135: LTC does not depend on the origin of time, on the direction of the value axis, and (in part) on the origin of the values.
-/

set_option linter.unusedSectionVars false

namespace Orp.Ltc

/-! ### Moving the origin -/

/-- the point with other origins -/
def Point.move (τ β : Int) (p : Point) : Point := { t := p.t + τ, v := p.v + β }

/-- the configuration with the limits of the values moved -/
def Cfg.move (β : Int) (c : Cfg) : Cfg := { c with
  maxValue := c.maxValue + β
  minValue := c.minValue + β }

/-- the state with other origins -/
def State.move (τ β : Int) (s : State) : State :=
  { last := s.last.move τ β, ul := s.ul.move τ β, ll := s.ll.move τ β, toTransmit := s.toTransmit.move τ β, counter := s.counter }

section
variable {c : Cfg} {τ β : Int}

theorem newUl_move (t : Int) (v : ℚ) : newUl (c.move β) (t + τ) (v + β) = (newUl c t v).move τ β := by
  simp only [newUl, Cfg.move, Point.move]
  congr 1
  push_cast
  by_cases h : v + c.eps > (c.maxValue : ℚ)
  · rw [if_pos h, if_pos (by linarith)]
  · rw [if_neg h, if_neg (by linarith)]; ring

theorem newLl_move (t : Int) (v : ℚ) : newLl (c.move β) (t + τ) (v + β) = (newLl c t v).move τ β := by
  simp only [newLl, Cfg.move, Point.move]
  congr 1
  push_cast
  by_cases h : v - c.eps < (c.minValue : ℚ)
  · rw [if_pos h, if_pos (by linarith)]
  · rw [if_neg h, if_neg (by linarith)]; ring

theorem deriva_move (p q : Point) : deriva (c.move β) (p.move τ β) (q.move τ β) = deriva c p q := by
  simp only [deriva, Cfg.move, Point.move]
  rw [show q.v + (β : ℚ) - (p.v + β) = q.v - p.v by ring, show q.t + τ - (p.t + τ) = q.t - p.t by ring]

theorem extend_move (hc : ∀ x, c.conv (x + β) = c.conv x + β) (l : Point) (d : ℚ) (t : Int) :
    extend (c.move β) (l.move τ β) d (t + τ) = (extend c l d t).move τ β := by
  simp only [extend, Cfg.move, Point.move]
  rw [show t + τ - (l.t + τ) = t - l.t by ring, ← add_assoc, hc]

theorem needTransmit_move (hc : ∀ x, c.conv (x + β) = c.conv x + β) (s : State) (p q : Point) :
    needTransmit (c.move β) (s.move τ β) (p.move τ β) (q.move τ β) =
      (needTransmit c s p q).map (Option.map fun r => (r.1.move τ β, r.2.move τ β)) := by
  simp only [needTransmit, State.move, deriva_move]
  have h0 : ((Point.move τ β s.ul).t = (Point.move τ β s.last).t ∨ (Point.move τ β s.ll).t = (Point.move τ β s.last).t ∨
      (Point.move τ β p).t = (Point.move τ β s.last).t ∨ (Point.move τ β q).t = (Point.move τ β s.last).t ∨ (c.move β).tud = 0) ↔
      (s.ul.t = s.last.t ∨ s.ll.t = s.last.t ∨ p.t = s.last.t ∨ q.t = s.last.t ∨ c.tud = 0) := by
    simp only [Point.move, Cfg.move, add_left_inj]
  by_cases h : s.ul.t = s.last.t ∨ s.ll.t = s.last.t ∨ p.t = s.last.t ∨ q.t = s.last.t ∨ c.tud = 0
  · rw [if_pos h, if_pos (h0.2 h)]; rfl
  · rw [if_neg h, if_neg (mt h0.1 h)]
    by_cases h1 : deriva c s.last s.ul < deriva c s.last q ∨ deriva c s.last s.ll > deriva c s.last p
    · rw [if_pos h1, if_pos h1]; rfl
    · rw [if_neg h1, if_neg h1]
      simp only [Except.map, Option.map_some]
      congr 3
      · split
        · exact extend_move hc _ _ _
        · rfl
      · split
        · exact extend_move hc _ _ _
        · rfl

theorem addSecond_move (s : State) (t : Int) (v : ℚ) :
    addSecond (c.move β) (s.move τ β) (t + τ) (v + β) = (addSecond c s t v).move τ β := by
  simp only [addSecond, newUl_move, newLl_move, State.move]

theorem add_move (hc : ∀ x, c.conv (x + β) = c.conv x + β) (s : State) (t : Int) (v : ℚ) :
    add (c.move β) (s.move τ β) (t + τ) (v + β) = (add c s t v).map fun r => (r.1.move τ β, r.2) := by
  simp only [add]
  rw [show (s.move τ β).counter = s.counter from rfl]
  by_cases h0 : s.counter = 0
  · rw [if_pos h0, if_pos h0]; rfl
  · rw [if_neg h0, if_neg h0]
    by_cases h1 : s.counter = 1
    · rw [if_pos h1, if_pos h1, addSecond_move]; rfl
    · rw [if_neg h1, if_neg h1]
      simp only [bind, Except.bind, newUl_move, newLl_move, needTransmit_move hc]
      cases hn : needTransmit c s (newUl c t v) (newLl c t v) with
      | error e => rfl
      | ok o =>
          cases o with
          | some r => rfl
          | none =>
              simp only [Except.map, Option.map_none, pure, Except.pure]
              congr 2
              rw [← addSecond_move]
              congr 1
              simp only [State.move, Point.move]
              congr 2
              · ring
              · rw [← hc]
                show c.conv _ = c.conv _
                congr 1
                ring

theorem run_move (hc : ∀ x, c.conv (x + β) = c.conv x + β) (ps : List Point) : ∀ s : State,
    run (c.move β) (s.move τ β) (ps.map (Point.move τ β)) =
      (run c s ps).map fun r => (r.1.move τ β, r.2.map (Option.map (Point.move τ β))) := by
  induction ps with
  | nil => intro s; rfl
  | cons p ps ih =>
      intro s
      rw [List.map_cons, run, run, show (p.move τ β).t = p.t + τ from rfl, show (p.move τ β).v = p.v + β from rfl, add_move hc]
      simp only [bind, Except.bind]
      cases add c s p.t p.v with
      | error e => rfl
      | ok r =>
          simp only [Except.map]
          rw [ih]
          cases run c r.1 ps with
          | error e => rfl
          | ok q =>
              simp only [Except.map, pure, Except.pure, List.map_cons]
              congr 3
              simp only [observe]
              split <;> rfl

end

/-! ### Turning the value axis round -/

/-- the point mirrored -/
def Point.mirror (p : Point) : Point := { t := p.t, v := -p.v }

/-- the configuration mirrored -/
def Cfg.mirror (c : Cfg) : Cfg := { c with
  maxValue := -c.minValue
  minValue := -c.maxValue }

/-- the state mirrored: upper and lower limit change places -/
def State.mirror (s : State) : State :=
  { last := s.last.mirror, ul := s.ll.mirror, ll := s.ul.mirror, toTransmit := s.toTransmit.mirror, counter := s.counter }

section
variable {c : Cfg}

theorem newUl_mirror (t : Int) (v : ℚ) : newUl c.mirror t (-v) = (newLl c t v).mirror := by
  simp only [newUl, newLl, Cfg.mirror, Point.mirror]
  congr 1
  push_cast
  by_cases h : v - c.eps < (c.minValue : ℚ)
  · rw [if_pos h, if_pos (by linarith)]
  · rw [if_neg h, if_neg (by linarith)]; ring

theorem newLl_mirror (t : Int) (v : ℚ) : newLl c.mirror t (-v) = (newUl c t v).mirror := by
  simp only [newUl, newLl, Cfg.mirror, Point.mirror]
  congr 1
  push_cast
  by_cases h : v + c.eps > (c.maxValue : ℚ)
  · rw [if_pos h, if_pos (by linarith)]
  · rw [if_neg h, if_neg (by linarith)]; ring

theorem deriva_mirror (p q : Point) : deriva c.mirror p.mirror q.mirror = -deriva c p q := by
  simp only [deriva, Cfg.mirror, Point.mirror]
  rw [show -q.v - -p.v = -(q.v - p.v) by ring, neg_div, neg_div]

theorem extend_mirror (hc : ∀ x, c.conv (-x) = -c.conv x) (l : Point) (d : ℚ) (t : Int) :
    extend c.mirror l.mirror (-d) t = (extend c l d t).mirror := by
  simp only [extend, Cfg.mirror, Point.mirror]
  rw [← hc]
  congr 2
  ring

theorem needTransmit_mirror (hc : ∀ x, c.conv (-x) = -c.conv x) (s : State) (p q : Point) :
    needTransmit c.mirror s.mirror q.mirror p.mirror =
      (needTransmit c s p q).map (Option.map fun r => (r.2.mirror, r.1.mirror)) := by
  simp only [needTransmit, State.mirror, deriva_mirror]
  have h0 : (s.ll.mirror.t = s.last.mirror.t ∨ s.ul.mirror.t = s.last.mirror.t ∨
      q.mirror.t = s.last.mirror.t ∨ p.mirror.t = s.last.mirror.t ∨ c.mirror.tud = 0) ↔
      (s.ul.t = s.last.t ∨ s.ll.t = s.last.t ∨ p.t = s.last.t ∨ q.t = s.last.t ∨ c.tud = 0) := by
    simp only [Point.mirror, Cfg.mirror]
    tauto
  have h1' : (-deriva c s.last s.ll < -deriva c s.last p ∨ -deriva c s.last s.ul > -deriva c s.last q) ↔
      (deriva c s.last s.ul < deriva c s.last q ∨ deriva c s.last s.ll > deriva c s.last p) := by
    rw [neg_lt_neg_iff, gt_iff_lt, neg_lt_neg_iff, gt_iff_lt, or_comm]
  by_cases h : s.ul.t = s.last.t ∨ s.ll.t = s.last.t ∨ p.t = s.last.t ∨ q.t = s.last.t ∨ c.tud = 0
  · rw [if_pos h, if_pos (h0.2 h)]; rfl
  · rw [if_neg h, if_neg (mt h0.1 h)]
    by_cases h1 : deriva c s.last s.ul < deriva c s.last q ∨ deriva c s.last s.ll > deriva c s.last p
    · rw [if_pos h1, if_pos (h1'.2 h1)]; rfl
    · rw [if_neg h1, if_neg (mt h1'.1 h1)]
      simp only [Except.map, Option.map_some, neg_lt_neg_iff, gt_iff_lt]
      congr 3
      · split
        · exact extend_mirror hc _ _ _
        · rfl
      · split
        · exact extend_mirror hc _ _ _
        · rfl

theorem addSecond_mirror (s : State) (t : Int) (v : ℚ) : addSecond c.mirror s.mirror t (-v) = (addSecond c s t v).mirror := by
  simp only [addSecond, newUl_mirror, newLl_mirror, State.mirror]

theorem add_mirror (hc : ∀ x, c.conv (-x) = -c.conv x) (s : State) (t : Int) (v : ℚ) :
    add c.mirror s.mirror t (-v) = (add c s t v).map fun r => (r.1.mirror, r.2) := by
  simp only [add]
  rw [show s.mirror.counter = s.counter from rfl]
  by_cases h0 : s.counter = 0
  · rw [if_pos h0, if_pos h0]; rfl
  · rw [if_neg h0, if_neg h0]
    by_cases h1 : s.counter = 1
    · rw [if_pos h1, if_pos h1, addSecond_mirror]; rfl
    · rw [if_neg h1, if_neg h1]
      simp only [bind, Except.bind, newUl_mirror, newLl_mirror, needTransmit_mirror hc]
      cases hn : needTransmit c s (newUl c t v) (newLl c t v) with
      | error e => rfl
      | ok o =>
          cases o with
          | some r => rfl
          | none =>
              simp only [Except.map, Option.map_none, pure, Except.pure]
              congr 2
              rw [← addSecond_mirror]
              congr 1
              simp only [State.mirror, Point.mirror]
              congr 2
              rw [← hc]
              show c.conv _ = c.conv _
              congr 1
              ring

theorem run_mirror (hc : ∀ x, c.conv (-x) = -c.conv x) (ps : List Point) : ∀ s : State,
    run c.mirror s.mirror (ps.map Point.mirror) = (run c s ps).map fun r => (r.1.mirror, r.2.map (Option.map Point.mirror)) := by
  induction ps with
  | nil => intro s; rfl
  | cons p ps ih =>
      intro s
      rw [List.map_cons, run, run, show p.mirror.t = p.t from rfl, show p.mirror.v = -p.v from rfl, add_mirror hc]
      simp only [bind, Except.bind]
      cases add c s p.t p.v with
      | error e => rfl
      | ok r =>
          simp only [Except.map]
          rw [ih]
          cases run c r.1 ps with
          | error e => rfl
          | ok q =>
              simp only [Except.map, pure, Except.pure, List.map_cons]
              congr 3
              simp only [observe]
              split <;> rfl

end

/-! ### C135 -/

theorem trunc_neg (x : ℚ) : trunc (-x) = -trunc x := by
  unfold trunc
  rcases lt_trichotomy x 0 with h | rfl | h
  · rw [if_neg (by linarith), if_pos h, Int.floor_neg]; push_cast; rfl
  · simp
  · rw [if_pos (by linarith), if_neg (by linarith), Int.ceil_neg]; push_cast; rfl

/-- states that agree in what has been assigned -/
structure Alike (s t : State) : Prop where
  counter : s.counter = t.counter
  last : s.counter ≠ 0 → s.last = t.last
  limits : s.counter ≠ 0 → s.counter ≠ 1 → s.ul = t.ul ∧ s.ll = t.ll

theorem add_alike (c : Cfg) {s u : State} (h : Alike s u) (t : Int) (v : ℚ) :
    (∃ e, add c s t v = .error e ∧ add c u t v = .error e) ∨
      ∃ s' u' b, add c s t v = .ok (s', b) ∧ add c u t v = .ok (u', b) ∧ Alike s' u' ∧ (b = true → s'.toTransmit = u'.toTransmit) := by
  simp only [add]
  rw [← h.counter]
  by_cases h0 : s.counter = 0
  · rw [if_pos h0, if_pos h0]
    exact .inr ⟨_, _, _, rfl, rfl, ⟨rfl, fun _ => rfl, fun _ h1 => absurd rfl h1⟩, by simp⟩
  · rw [if_neg h0, if_neg h0]
    by_cases h1 : s.counter = 1
    · rw [if_pos h1, if_pos h1]
      exact .inr ⟨_, _, _, rfl, rfl, ⟨rfl, fun _ => h.last h0, fun _ _ => ⟨rfl, rfl⟩⟩, by simp⟩
    · rw [if_neg h1, if_neg h1]
      have hl := h.last h0
      obtain ⟨hu, hw⟩ := h.limits h0 h1
      have hn : needTransmit c u (newUl c t v) (newLl c t v) = needTransmit c s (newUl c t v) (newLl c t v) := by
        simp only [needTransmit, hl, hu, hw]
      simp only [bind, Except.bind, hn]
      cases needTransmit c s (newUl c t v) (newLl c t v) with
      | error e => exact .inl ⟨e, rfl, rfl⟩
      | ok o =>
          right
          cases o with
          | some r => exact ⟨_, _, _, rfl, rfl, ⟨rfl, fun _ => hl, fun _ _ => ⟨rfl, rfl⟩⟩, by simp⟩
          | none =>
              refine ⟨_, _, _, rfl, rfl, ⟨rfl, fun _ => ?_, fun _ _ => ⟨rfl, rfl⟩⟩, fun _ => ?_⟩
              · simp only [addSecond, hu, hw]
              · simp only [addSecond, hl]

theorem run_alike (c : Cfg) (ps : List Point) : ∀ {s u : State}, Alike s u → (run c s ps).map (·.2) = (run c u ps).map (·.2) := by
  induction ps with
  | nil => intro s u _; rfl
  | cons p ps ih =>
      intro s u h
      rw [run, run]
      rcases add_alike c h p.t p.v with ⟨e, h1, h2⟩ | ⟨s', u', b, h1, h2, h3, h4⟩
      · rw [h1, h2]
      · rw [h1, h2]
        have := ih h3
        simp only [bind, Except.bind]
        have ho : observe s' b = observe u' b := by
          cases b with
          | false => rfl
          | true => simp only [observe, h4 rfl]
        rw [ho]
        cases hr : run c s' ps with
        | error e =>
            rw [hr] at this
            cases hr' : run c u' ps with
            | error e' => rw [hr'] at this; cases this; rfl
            | ok q => rw [hr'] at this; cases this
        | ok q =>
            rw [hr] at this
            cases hr' : run c u' ps with
            | error e' => rw [hr'] at this; cases this
            | ok q' =>
                rw [hr'] at this
                simp only [Except.map, Except.ok.injEq] at this
                simp only [Except.map, pure, Except.pure, this]

/-- what the memory of a new object contains does not matter -/
theorem run_new_seen (c : Cfg) (g g' : Point) (ps : List Point) : (run c (new g) ps).map (·.2) = (run c (new g') ps).map (·.2) :=
  run_alike c ps ⟨rfl, fun h => absurd rfl h, fun h => absurd rfl h⟩

/-- What the user sees of a stream: for each call nothing, or the transmitted point. -/
def seen (c : Cfg) (g : Point) (ps : List Point) : Res (List (Option Point)) := (run c (new g) ps).map (·.2)

theorem seen_move {c : Cfg} {τ β : Int} (hc : ∀ x, c.conv (x + β) = c.conv x + β) (g g' : Point) (ps : List Point) :
    seen (c.move β) g' (ps.map (Point.move τ β)) = (seen c g ps).map (List.map (Option.map (Point.move τ β))) := by
  rw [seen, run_new_seen _ g' (g.move τ β), seen]
  have h := run_move (τ := τ) hc ps (new g)
  rw [show new (g.move τ β) = (new g).move τ β from rfl, h]
  cases run c (new g) ps <;> rfl

/-- **C135** The origin of time does not matter: the same stream later or earlier gives the same answers, with times moved likewise. For
the code and for every other conversion to `element_type`, every time unit, and every stream (whatever its timestamps). -/
theorem C135_time_origin (c : Cfg) (g g' : Point) (τ : Int) (ps : List Point) :
    seen c g' (ps.map fun p => { p with t := p.t + τ }) = (seen c g ps).map (List.map (Option.map fun p => { p with t := p.t + τ })) := by
  have h := seen_move (c := c) (τ := τ) (β := 0) (by simp) g g' ps
  have h1 : c.move 0 = c := by simp [Cfg.move]
  have h2 : Point.move τ 0 = fun p => { p with t := p.t + τ } := by funext p; simp [Point.move]
  rw [h1, h2] at h
  exact h

/-- **C135** Turning the values round (with the limits of the values turned round too) turns round what is transmitted. -/
theorem C135_mirror (c : Cfg) (hc : c.conv = trunc) (g g' : Point) (ps : List Point) :
    seen { c with
        maxValue := -c.minValue
        minValue := -c.maxValue } g' (ps.map fun p => { p with v := -p.v }) =
      (seen c g ps).map (List.map (Option.map fun p => { p with v := -p.v })) := by
  have h := run_mirror (c := c) (by rw [hc]; exact trunc_neg) ps (new g)
  show seen c.mirror g' (ps.map Point.mirror) = (seen c g ps).map (List.map (Option.map Point.mirror))
  rw [seen, run_new_seen _ g' g.mirror, seen, show new g.mirror = (new g).mirror from rfl, h]
  cases run c (new g) ps <;> rfl

/-- **C135** (what holds) In exact arithmetic, or with a conversion that rounds down, the origin of the values does not matter either
(the limits of the values move too). Missing: the code's conversion, which truncates toward zero, see `C135_value_origin_violated`. -/
theorem C135_value_origin_partial (c : Cfg) (hc : c.conv = id ∨ c.conv = fun x => (⌊x⌋ : ℚ)) (g g' : Point) (β : Int) (ps : List Point) :
    seen { c with
        maxValue := c.maxValue + β
        minValue := c.minValue + β } g' (ps.map fun p => { p with v := p.v + β }) =
      (seen c g ps).map (List.map (Option.map fun p => { p with v := p.v + β })) := by
  have h := seen_move (c := c) (τ := 0) (β := β) (by
    rcases hc with hc | hc
    · intro x; rw [hc]; rfl
    · intro x; rw [hc]; simp) g g' ps
  have h2 : Point.move 0 β = fun p => { p with v := p.v + β } := by funext p; simp [Point.move]
  rw [h2] at h
  exact h

/-- a signal around 0 -/
def lowStream : List Point := [⟨0, -2⟩, ⟨1, -2⟩, ⟨2, -2⟩, ⟨3, -1⟩, ⟨4, 1⟩]

/-- **C135** is false of the code for the origin of the values: the conversion to an integer rounds up below 0 and down above, so the
same signal one higher needs a transmission that the original does not need. -/
theorem C135_value_origin_violated (g : Point) : ∃ c : Cfg, c.conv = trunc ∧ c.eps = 1 ∧ seen c g lowStream = .ok [none, none, none, none, none] ∧
    seen { c with
        maxValue := c.maxValue + 1
        minValue := c.minValue + 1 } g (lowStream.map fun p => { p with v := p.v + 1 }) = .ok [none, none, none, none, some ⟨0, -1⟩] := by
  refine ⟨{ eps := 1, conv := trunc }, rfl, rfl, ?_, ?_⟩
  · rw [seen, run_new_seen _ g ⟨0, 0⟩]; decide +kernel
  · rw [seen, run_new_seen _ g ⟨0, 0⟩]; decide +kernel

/-- the three symmetries on a stream with a transmission -/
example : seen { eps := 1, conv := trunc } ⟨0, 0⟩ [⟨0, 5⟩, ⟨1, 6⟩, ⟨2, 12⟩, ⟨3, 18⟩] = .ok [none, none, some ⟨0, 5⟩, none] ∧
    seen { eps := 1, conv := trunc } ⟨3, 8⟩ [⟨70, 5⟩, ⟨71, 6⟩, ⟨72, 12⟩, ⟨73, 18⟩] = .ok [none, none, some ⟨70, 5⟩, none] ∧
    seen { eps := 1, maxValue := 32768, minValue := -32767, conv := trunc } ⟨3, 8⟩ [⟨0, -5⟩, ⟨1, -6⟩, ⟨2, -12⟩, ⟨3, -18⟩] =
      .ok [none, none, some ⟨0, -5⟩, none] := by
  decide +kernel

end Orp.Ltc
