import Verif.Ltc.Near

/-!
How many points are transmitted. A signal made of straight pieces costs at most one point for every place where its
slope changes, whatever its length.
-/

namespace Orp.Ltc

variable {c : Cfg}

/-- the number of samples at which the slope of the signal changes (timestamps one apart) -/
def bends : List Point → Nat
  | a :: b :: d :: l => (if d.v - b.v = b.v - a.v then 0 else 1) + bends (b :: d :: l)
  | _ => 0

theorem bends_snoc (a b p : Point) : ∀ l : List Point,
    bends (l ++ [a, b] ++ [p]) = bends (l ++ [a, b]) + (if p.v - b.v = b.v - a.v then 0 else 1)
  | [] => by simp [bends]
  | [x] => by simp [bends]
  | [x, y] => by simp [bends]; ring
  | x :: y :: z :: l => by
      have ih := bends_snoc a b p (y :: z :: l)
      simp only [List.cons_append] at ih ⊢
      rw [bends, bends, ih]; ring

/-- the samples of a stretch without bends are on one line, whose slope is a difference of two values -/
theorem straight : ∀ (l : List Point) (a b : Point), Consecutive (a :: b :: l) → bends (a :: b :: l) = 0 →
    ∀ q ∈ b :: l, q.v = ray a (b.v - a.v) q.t
  | [], a, b, hc, _, q, hq => by
      simp only [List.mem_singleton] at hq
      subst hq
      have := (List.isChain_cons_cons.1 hc).1
      unfold ray
      rw [this]; push_cast; ring
  | d :: l, a, b, hc, hb, q, hq => by
      obtain ⟨h1, h2⟩ := List.isChain_cons_cons.1 hc
      rw [bends] at hb
      have h3 : d.v - b.v = b.v - a.v := by
        by_contra hne
        rw [if_neg hne] at hb; omega
      have h4 : bends (b :: d :: l) = 0 := by omega
      rcases List.mem_cons.1 hq with rfl | hq
      · unfold ray; rw [h1]; push_cast; ring
      · rw [straight l b d h2 h4 q hq, h3]
        unfold ray; rw [h1]; push_cast; ring

theorem consecutive_right {pre l : List Point} (h : Consecutive (pre ++ l)) : Consecutive l :=
  (List.isChain_append.1 h).2.1

theorem same_time {ps : List Point} (h : Increasing ps) {a b : Point} (ha : a ∈ ps) (hb : b ∈ ps) (ht : a.t = b.t) :
    a = b := by
  induction ps with
  | nil => simp at ha
  | cons x ps ih =>
      obtain ⟨h1, h2⟩ := List.pairwise_cons.1 h
      rcases List.mem_cons.1 ha with ha | ha <;> rcases List.mem_cons.1 hb with hb | hb
      · rw [ha, hb]
      · have := h1 b hb; rw [ha] at ht; omega
      · have := h1 a ha; rw [hb] at ht; omega
      · exact ih h2 ha hb

/-- One `add` for a sample `p` one time unit after the last one, when the limits kept by the object leave room for a
corridor from `L`, `U` at the last sample to `L'`, `U'` at the new one: nothing is transmitted, and the limits leave
room for the corridor again. -/
theorem corridor_step (htud : c.tud = 1) (hmono : Monotone c.conv) {s : State} {q p : Point} (hcnt : s.counter = 2)
    (hul : s.ul.t = q.t) (hll : s.ll.t = q.t) (hlt : s.last.t < q.t) (hp : p.t = q.t + 1) {L U L' U' : ℚ}
    (h1 : s.ll.v ≤ L) (h2 : U ≤ s.ul.v)
    (hL : (L - s.last.v) / ((q.t - s.last.t : Int) : ℚ) ≤ (L' - s.last.v) / ((p.t - s.last.t : Int) : ℚ))
    (hU : (U' - s.last.v) / ((p.t - s.last.t : Int) : ℚ) ≤ (U - s.last.v) / ((q.t - s.last.t : Int) : ℚ))
    (cL : c.conv L' = L') (cU : c.conv U' = U')
    (nL : (newLl c p.t p.v).v ≤ L' ∧ L' ≤ (newUl c p.t p.v).v) (nU : (newLl c p.t p.v).v ≤ U' ∧ U' ≤ (newUl c p.t p.v).v) :
    ∃ s', add c s p.t p.v = .ok (s', false) ∧ s'.ll.v ≤ L' ∧ U' ≤ s'.ul.v := by
  have hn : (0 : ℚ) < ((q.t - s.last.t : Int) : ℚ) := by exact_mod_cast (by omega : (0 : Int) < q.t - s.last.t)
  have hn' : (0 : ℚ) < ((p.t - s.last.t : Int) : ℚ) := by exact_mod_cast (by omega : (0 : Int) < p.t - s.last.t)
  have hnn : ((p.t - s.last.t : Int) : ℚ) = ((q.t - s.last.t : Int) : ℚ) + 1 := by rw [hp]; push_cast; ring
  have ht : (1 : Int).tdiv 1 = 1 := rfl
  have eu : deriva c s.last s.ul = (s.ul.v - s.last.v) / ((q.t - s.last.t : Int) : ℚ) := by simp [deriva, htud, hul]
  have el : deriva c s.last s.ll = (s.ll.v - s.last.v) / ((q.t - s.last.t : Int) : ℚ) := by simp [deriva, htud, hll]
  have enu : deriva c s.last (newUl c p.t p.v) = ((newUl c p.t p.v).v - s.last.v) / ((p.t - s.last.t : Int) : ℚ) := by
    simp [deriva, htud, newUl]
  have enl : deriva c s.last (newLl c p.t p.v) = ((newLl c p.t p.v).v - s.last.v) / ((p.t - s.last.t : Int) : ℚ) := by
    simp [deriva, htud, newLl]
  have a1 : (U - s.last.v) / ((q.t - s.last.t : Int) : ℚ) ≤ deriva c s.last s.ul := by
    rw [eu]; exact div_le_div_of_nonneg_right (by linarith) hn.le
  have a2 : deriva c s.last s.ll ≤ (L - s.last.v) / ((q.t - s.last.t : Int) : ℚ) := by
    rw [el]; exact div_le_div_of_nonneg_right (by linarith) hn.le
  have a3 : deriva c s.last (newLl c p.t p.v) ≤ (U' - s.last.v) / ((p.t - s.last.t : Int) : ℚ) := by
    rw [enl]; exact div_le_div_of_nonneg_right (by linarith [nU.1]) hn'.le
  have a4 : (L' - s.last.v) / ((p.t - s.last.t : Int) : ℚ) ≤ deriva c s.last (newUl c p.t p.v) := by
    rw [enu]; exact div_le_div_of_nonneg_right (by linarith [nL.2]) hn'.le
  have hdef : ¬ (s.ul.t = s.last.t ∨ s.ll.t = s.last.t ∨ (newUl c p.t p.v).t = s.last.t ∨
      (newLl c p.t p.v).t = s.last.t ∨ c.tud = 0) := by
    rw [hul, hll, htud]; dsimp only [newUl, newLl]; omega
  have hno : ¬ (deriva c s.last s.ul < deriva c s.last (newLl c p.t p.v) ∨
      deriva c s.last s.ll > deriva c s.last (newUl c p.t p.v)) := by
    rintro (h | h)
    · linarith
    · have : deriva c s.last (newUl c p.t p.v) < deriva c s.last s.ll := h
      linarith
  have hadd : add c s p.t p.v = .ok ({ s with
      ul := if deriva c s.last s.ul < deriva c s.last (newUl c p.t p.v) then
        extend c s.ul (deriva c s.last s.ul) (newUl c p.t p.v).t else newUl c p.t p.v
      ll := if deriva c s.last s.ll > deriva c s.last (newLl c p.t p.v) then
        extend c s.ll (deriva c s.last s.ll) (newLl c p.t p.v).t else newLl c p.t p.v }, false) := by
    simp only [add, hcnt, needTransmit, if_neg hdef, if_neg hno, bind, Except.bind, pure, Except.pure]
    rfl
  -- the slopes from the kept point, carried one time unit further
  have c1 : (U' - s.last.v) ≤ deriva c s.last s.ul * ((p.t - s.last.t : Int) : ℚ) := by
    rw [← div_le_iff₀ hn']; exact hU.trans a1
  have c2 : deriva c s.last s.ll * ((p.t - s.last.t : Int) : ℚ) ≤ (L' - s.last.v) := by
    rw [← le_div_iff₀ hn']; exact a2.trans hL
  have d1 : deriva c s.last s.ul * ((q.t - s.last.t : Int) : ℚ) = s.ul.v - s.last.v := by
    rw [eu]; exact div_mul_cancel₀ _ hn.ne'
  have d2 : deriva c s.last s.ll * ((q.t - s.last.t : Int) : ℚ) = s.ll.v - s.last.v := by
    rw [el]; exact div_mul_cancel₀ _ hn.ne'
  rw [hnn] at c1 c2
  refine ⟨_, hadd, ?_, ?_⟩
  · dsimp only; split
    · have e : (extend c s.ll (deriva c s.last s.ll) (newLl c p.t p.v).t).v =
          c.conv (deriva c s.last s.ll + s.ll.v) := by
        simp only [extend, newLl, htud, hll, hp, add_sub_cancel_left, ht, Int.cast_one, one_mul]
      rw [e, ← cL]
      exact hmono (by nlinarith)
    · exact nL.1
  · dsimp only; split
    · have e : (extend c s.ul (deriva c s.last s.ul) (newUl c p.t p.v).t).v =
          c.conv (deriva c s.last s.ul + s.ul.v) := by
        simp only [extend, newUl, htud, hul, hp, add_sub_cancel_left, ht, Int.cast_one, one_mul]
      rw [e, ← cU]
      exact hmono (by nlinarith)
    · exact nU.2

/-- lower edge of the corridor between the line through the samples (slope `σ`, through `a`) and its parallel through
the kept point `P` -/
def lowEdge (c : Cfg) (P a : Point) (σ : ℚ) (t : Int) : ℚ :=
  if a.v ≤ P.v then ray a σ t else max (ray P σ t) c.minValue

/-- upper edge -/
def highEdge (c : Cfg) (P a : Point) (σ : ℚ) (t : Int) : ℚ :=
  if a.v ≤ P.v then min (ray P σ t) c.maxValue else ray a σ t

theorem ray_parallel {P a : Point} (ht : a.t = P.t) (σ : ℚ) (t : Int) : ray P σ t = ray a σ t + (P.v - a.v) := by
  unfold ray; rw [ht]; ring

theorem edges_near {P a p : Point} {σ : ℚ} (ht : a.t = P.t) (hd : |P.v - a.v| ≤ c.eps) (hp : p.v = ray a σ p.t)
    (hr : (c.minValue : ℚ) ≤ p.v ∧ p.v ≤ c.maxValue) :
    ((newLl c p.t p.v).v ≤ lowEdge c P a σ p.t ∧ lowEdge c P a σ p.t ≤ (newUl c p.t p.v).v) ∧
    ((newLl c p.t p.v).v ≤ highEdge c P a σ p.t ∧ highEdge c P a σ p.t ≤ (newUl c p.t p.v).v) := by
  obtain ⟨d1, d2⟩ := abs_le.1 hd
  have he : (0 : ℚ) ≤ c.eps := (abs_nonneg _).trans hd
  have hbox : ∀ x : ℚ, p.v - c.eps ≤ x → x ≤ p.v + c.eps → (c.minValue : ℚ) ≤ x → x ≤ c.maxValue →
      (newLl c p.t p.v).v ≤ x ∧ x ≤ (newUl c p.t p.v).v := by
    intro x x1 x2 x3 x4
    unfold newLl newUl
    dsimp only
    constructor
    · split <;> assumption
    · split <;> assumption
  have hpar := ray_parallel ht σ p.t
  rw [← hp] at hpar
  unfold lowEdge highEdge
  by_cases h : a.v ≤ P.v
  · rw [if_pos h, if_pos h, ← hp, hpar]
    refine ⟨hbox _ (by linarith) (by linarith) hr.1 hr.2, hbox _ ?_ ?_ ?_ (min_le_right _ _)⟩
    · exact le_min (by linarith) (by linarith [hr.2])
    · exact (min_le_left _ _).trans (by linarith)
    · exact le_min (by linarith [hr.1]) (by linarith [hr.1, hr.2])
  · rw [if_neg h, if_neg h, ← hp, hpar]
    rw [not_le] at h
    refine ⟨hbox _ ?_ ?_ (le_max_right _ _) ?_, hbox _ (by linarith) (by linarith) hr.1 hr.2⟩
    · exact le_trans (by linarith) (le_max_left _ _)
    · exact max_le (by linarith) (by linarith [hr.1])
    · exact max_le (by linarith [hr.2]) (by linarith [hr.1, hr.2])

theorem edges_slope {P a : Point} {σ : ℚ} {t t' : Int} (ht : a.t = P.t) (h1 : P.t < t) (h2 : t < t')
    (hP : (c.minValue : ℚ) ≤ P.v ∧ P.v ≤ c.maxValue) :
    (lowEdge c P a σ t - P.v) / ((t - P.t : Int) : ℚ) ≤ (lowEdge c P a σ t' - P.v) / ((t' - P.t : Int) : ℚ) ∧
    (highEdge c P a σ t' - P.v) / ((t' - P.t : Int) : ℚ) ≤ (highEdge c P a σ t - P.v) / ((t - P.t : Int) : ℚ) := by
  have n1 : (0 : ℚ) < ((t - P.t : Int) : ℚ) := by exact_mod_cast (by omega : (0 : Int) < t - P.t)
  have n2 : ((t - P.t : Int) : ℚ) < ((t' - P.t : Int) : ℚ) := by exact_mod_cast (by omega : t - P.t < t' - P.t)
  have ra : ∀ x, ray a σ x = P.v + σ * ((x - P.t : Int) : ℚ) - (P.v - a.v) := by intro x; unfold ray; rw [ht]; ring
  have rP : ∀ x, ray P σ x = P.v + σ * ((x - P.t : Int) : ℚ) := fun x => rfl
  have n0 : (0 : ℚ) < ((t' - P.t : Int) : ℚ) := n1.trans n2
  unfold lowEdge highEdge
  rw [div_le_div_iff₀ n1 n0, div_le_div_iff₀ n0 n1]
  by_cases h : a.v ≤ P.v
  · rw [if_pos h, if_pos h, if_pos h, if_pos h]
    constructor
    · rw [ra, ra]; nlinarith
    · rw [rP, rP]
      rcases min_choice (P.v + σ * ((t - P.t : Int) : ℚ)) (c.maxValue : ℚ) with e | e <;> rw [e]
      · have := min_le_left (P.v + σ * ((t' - P.t : Int) : ℚ)) (c.maxValue : ℚ)
        nlinarith
      · have := min_le_right (P.v + σ * ((t' - P.t : Int) : ℚ)) (c.maxValue : ℚ)
        have h3 : (min (P.v + σ * ((t' - P.t : Int) : ℚ)) (c.maxValue : ℚ) - P.v) * ((t - P.t : Int) : ℚ) ≤
            ((c.maxValue : ℚ) - P.v) * ((t - P.t : Int) : ℚ) := mul_le_mul_of_nonneg_right (by linarith) n1.le
        exact h3.trans (mul_le_mul_of_nonneg_left n2.le (by linarith [hP.2]))
  · rw [if_neg h, if_neg h, if_neg h, if_neg h]
    rw [not_le] at h
    constructor
    · rw [rP, rP]
      rcases max_choice (P.v + σ * ((t - P.t : Int) : ℚ)) (c.minValue : ℚ) with e | e <;> rw [e]
      · have := le_max_left (P.v + σ * ((t' - P.t : Int) : ℚ)) (c.minValue : ℚ)
        nlinarith
      · have := le_max_right (P.v + σ * ((t' - P.t : Int) : ℚ)) (c.minValue : ℚ)
        have h3 : ((c.minValue : ℚ) - P.v) * ((t - P.t : Int) : ℚ) ≤
            (max (P.v + σ * ((t' - P.t : Int) : ℚ)) (c.minValue : ℚ) - P.v) * ((t - P.t : Int) : ℚ) :=
          mul_le_mul_of_nonneg_right (by linarith) n1.le
        refine le_trans ?_ h3
        exact mul_le_mul_of_nonpos_left n2.le (by linarith [hP.1])
    · rw [ra, ra]; nlinarith

theorem edges_int {P a : Point} {σ : ℚ} (t : Int) (hP : ∃ n : Int, P.v = n) (ha : ∃ n : Int, a.v = n)
    (hσ : ∃ n : Int, σ = n) : trunc (lowEdge c P a σ t) = lowEdge c P a σ t ∧
      trunc (highEdge c P a σ t) = highEdge c P a σ t := by
  obtain ⟨n, hn⟩ := hP
  obtain ⟨m, hm⟩ := ha
  obtain ⟨k, rfl⟩ := hσ
  have hra : ∃ z : Int, ray a k t = z := ⟨m + k * (t - a.t), by unfold ray; rw [hm]; push_cast; ring⟩
  have hrP : ∃ z : Int, ray P k t = z := ⟨n + k * (t - P.t), by unfold ray; rw [hn]; push_cast; ring⟩
  have fix : ∀ x : ℚ, (∃ z : Int, x = z) → trunc x = x := by rintro _ ⟨z, rfl⟩; exact trunc_int z
  unfold lowEdge highEdge
  constructor <;> split
  · exact fix _ hra
  · rcases max_choice (ray P k t) (c.minValue : ℚ) with e | e <;> rw [e]
    · exact fix _ hrP
    · exact fix _ ⟨_, rfl⟩
  · rcases min_choice (ray P k t) (c.maxValue : ℚ) with e | e <;> rw [e]
    · exact fix _ hrP
    · exact fix _ ⟨_, rfl⟩
  · exact fix _ hra

/-- after a transmission the limits are those of the new sample -/
theorem add_true {s s' : State} {t : Int} {v : ℚ} (h : add c s t v = .ok (s', true)) :
    s'.ul = newUl c t v ∧ s'.ll = newLl c t v := by
  unfold add at h
  split at h
  · simp at h
  · split at h
    · simp at h
    · cases hn : needTransmit c s (newUl c t v) (newLl c t v) with
      | error e => rw [hn] at h; simp [bind, Except.bind] at h
      | ok r =>
          rw [hn] at h
          cases r with
          | none =>
              simp only [bind, Except.bind, pure, Except.pure, Except.ok.injEq, Prod.mk.injEq, and_true] at h
              rw [← h]; exact ⟨rfl, rfl⟩
          | some x => simp [bind, Except.bind, pure, Except.pure] at h

/-- what the limits of the object leave room for, while the samples since the kept point are on one line -/
def Roomy (c : Cfg) (s : State) (a : Point) (seg : List Point) (t : Int) : Prop :=
  ∀ b l, seg = b :: l → bends (a :: seg) = 0 →
    s.ll.v ≤ lowEdge c s.last a (b.v - a.v) t ∧ highEdge c s.last a (b.v - a.v) t ≤ s.ul.v

/-- invariant: the points sent so far and the bends of the open segment are paid for by the bends of the stream -/
theorem run_bends (htud : c.tud = 1) (he : 0 ≤ c.eps) (hconv : c.conv = trunc) (g : Point) (ps : List Point)
    (hps : ps ≠ []) (hcons : Consecutive ps) (hr : InRange c ps) (hi : IntegerValued ps) :
    ∃ s os pre a, run c (new g) ps = .ok (s, os) ∧ Inv c ps s os ∧ ps = pre ++ a :: openSegment (ps.zip os) ∧
      a.t = s.last.t ∧ CloseTo c a.v s.last.v ∧
      (transmitted os).length + bends (a :: openSegment (ps.zip os)) ≤ bends ps ∧
      (openSegment (ps.zip os) = [] → ps = [a] ∧ os = [none]) ∧
      ∀ q, ps.getLast? = some q → Roomy c s a (openSegment (ps.zip os)) q.t := by
  have hmono : Monotone c.conv := by rw [hconv]; exact trunc_mono
  induction ps using List.reverseRecOn with
  | nil => exact absurd rfl hps
  | append_singleton ps p ih =>
      have hrp := hr p (by simp)
      by_cases h0 : ps = []
      · subst h0
        obtain ⟨s, h1, h2⟩ := inv_one he g p
        have h3 := h2.first rfl
        simp only [List.head?_cons, Option.some.injEq] at h3
        refine ⟨s, [none], [], p, h1, h2, by simp [openSegment], by rw [h3], ?_, by simp [transmitted, bends, openSegment],
          fun _ => ⟨rfl, rfl⟩, fun q _ b l e => by simp [openSegment] at e⟩
        have he' : (0 : ℚ) ≤ c.eps := by exact_mod_cast he
        rw [← h3]
        exact ⟨hi p (by simp), by simpa using he', hrp.1, hrp.2⟩
      · have hc1 := consecutive_init hcons
        have hr1 : InRange c ps := fun q hq => hr q (by simp [hq])
        have hi1 : IntegerValued ps := fun q hq => hi q (by simp [hq])
        obtain ⟨s, os, pre, a, h1, h2, h3, h4, hclose, h5, h6, hroom⟩ := ih h0 hc1 hr1 hi1
        have hinc := (increasing_snoc (consecutive_increasing hcons)).2
        obtain ⟨q, hq⟩ : ∃ q, ps.getLast? = some q := ⟨_, List.getLast?_eq_some_getLast h0⟩
        have hpq := consecutive_last hcons hq
        have hzip : ps.zip os ≠ [] := by
          intro e
          have := congrArg List.length e
          simp only [List.length_zip, h2.len, min_self, List.length_nil, List.length_eq_zero_iff] at this
          exact h0 this
        have hstep : bends (a :: openSegment (ps.zip os)) ≤ bends (a :: openSegment (ps.zip os) ++ [p]) ∧
            (transmitted os).length + bends (a :: openSegment (ps.zip os) ++ [p]) ≤ bends (ps ++ [p]) := by
          rcases List.eq_nil_or_concat (openSegment (ps.zip os)) with e | ⟨l, b, e⟩
          · rw [e]
            have := (h6 e).2
            rw [this]; simp [transmitted, bends]
          · rw [e] at h5 h3 ⊢
            rcases List.eq_nil_or_concat l with e' | ⟨l', b', e'⟩
            · subst e'
              have e1 : ps ++ [p] = pre ++ [a, b] ++ [p] := by rw [h3]; simp
              have e2 : ps = pre ++ [a, b] := by rw [h3]; simp
              have e3 : a :: ([].concat b) ++ [p] = [] ++ [a, b] ++ [p] := rfl
              have e4 : a :: ([].concat b) = [] ++ [a, b] := rfl
              rw [e4, e2] at h5
              rw [e3, e1, e4, bends_snoc, bends_snoc]; omega
            · subst e'
              have e1 : ps ++ [p] = (pre ++ a :: l') ++ [b', b] ++ [p] := by rw [h3]; simp
              have e2 : ps = (pre ++ a :: l') ++ [b', b] := by rw [h3]; simp
              have e3 : a :: ((l'.concat b').concat b) = (a :: l') ++ [b', b] := by simp
              rw [e3, e2] at h5
              rw [e3, e1, bends_snoc, bends_snoc]; omega
        obtain ⟨hless, hgrow⟩ := hstep
        have ham : a ∈ ps := by rw [h3]; simp
        have happ : ps ++ [p] = pre ++ a :: (openSegment (ps.zip os) ++ [p]) := by
          conv_lhs => rw [h3]
          simp
        -- as long as there is no bend, `add` returns false and the limits stay roomy
        have hkey : bends (a :: (openSegment (ps.zip os) ++ [p])) = 0 → ∃ s', add c s p.t p.v = .ok (s', false) ∧
            ∀ b l, openSegment (ps.zip os) ++ [p] = b :: l →
              s'.ll.v ≤ lowEdge c s.last a (b.v - a.v) p.t ∧ highEdge c s.last a (b.v - a.v) p.t ≤ s'.ul.v := by
          intro hb0
          have hcc : Consecutive (a :: (openSegment (ps.zip os) ++ [p])) := by
            have := hcons
            rw [happ] at this
            exact consecutive_right this
          by_cases hone : ps.length = 1
          · have hseg : openSegment (ps.zip os) = [] := by
              obtain ⟨x, rfl⟩ := List.length_eq_one_iff.1 hone
              rw [(h2.one hone).2]; rfl
            refine ⟨addSecond c s p.t p.v, by simp [add, (h2.one hone).1], ?_⟩
            intro b l e
            rw [hseg] at e hb0 hcc
            obtain ⟨rfl, rfl⟩ : p = b ∧ [] = l := by simpa using e
            have hpv := straight [] a p hcc hb0 p (by simp)
            have hn := edges_near h4 hclose.2.1 hpv hrp
            exact ⟨hn.1.1, hn.2.2⟩
          · have hlen : 2 ≤ ps.length := by have := List.length_pos_iff.2 h0; omega
            obtain ⟨hs, _⟩ := h2.seg hlen
            obtain ⟨q', hq', hqt⟩ := h2.top hlen
            rw [hq] at hq'
            obtain rfl : q = q' := by simpa using hq'
            cases hsg : openSegment (ps.zip os) with
            | nil =>
                have := (h6 hsg).1
                rw [this] at hlen; simp at hlen
            | cons b l =>
                have hbm : b ∈ ps := by rw [h3, hsg]; simp
                rw [hsg] at hb0 hcc hless hs
                have hz : bends (a :: b :: l) = 0 := by
                  have : bends (a :: b :: l ++ [p]) = 0 := hb0
                  omega
                have hroom' := hroom q hq b l hsg (by rw [hsg]; exact hz)
                have hpv := straight (l ++ [p]) a b hcc hb0 p (by simp)
                obtain ⟨na, ha⟩ := hi1 a ham
                obtain ⟨nb, hb⟩ := hi1 b hbm
                have hint := edges_int (c := c) (σ := b.v - a.v) p.t hclose.1 ⟨na, ha⟩
                  ⟨nb - na, by rw [ha, hb]; push_cast; rfl⟩
                have hnear := edges_near h4 hclose.2.1 hpv hrp
                have hslope := edges_slope (c := c) (σ := b.v - a.v) h4 (by rw [hqt]; exact hs.lt : s.last.t < q.t)
                  (by omega : q.t < p.t) hclose.2.2
                obtain ⟨s', k1, k2, k3⟩ := corridor_step htud hmono hs.cnt hqt.symm (hs.tu.trans hqt.symm)
                  (by rw [hqt]; exact hs.lt) hpq hroom'.1 hroom'.2 hslope.1 hslope.2 (by rw [hconv]; exact hint.1)
                  (by rw [hconv]; exact hint.2) hnear.1 hnear.2
                refine ⟨s', k1, ?_⟩
                intro b' l' e
                obtain rfl : b = b' := by simpa using (List.cons.inj e).1
                exact ⟨k2, k3⟩
        rcases step_inv htud he hmono h2 h0 hinc hrp with ⟨s', a1, a2, a3⟩ | ⟨s', a1, a2, a3, a4⟩
        · have hz : openSegment ((ps ++ [p]).zip (os ++ [none])) = openSegment (ps.zip os) ++ [p] := by
            rw [zip_snoc h2.len, openSegment_snoc _ hzip]; simp
          refine ⟨s', os ++ [none], pre, a, run_append (r := false) _ _ _ h1 a1, a3, ?_, by rw [a2]; exact h4,
            by rw [a2]; exact hclose, ?_, ?_, ?_⟩
          · rw [hz]; exact happ
          · rw [hz, transmitted_snoc]; simpa using hgrow
          · rw [hz]; simp
          · rw [hz]
            intro r hrl b l e hb0
            obtain rfl : p = r := by simpa using hrl
            obtain ⟨s'', k1, k2⟩ := hkey hb0
            rw [a1] at k1
            obtain rfl : s' = s'' := by simpa using k1
            rw [a2]; exact k2 b l e
        · have hz : openSegment ((ps ++ [p]).zip (os ++ [some s.last])) = [p] := by
            rw [zip_snoc h2.len, openSegment_snoc _ hzip]; simp
          -- a bend has been seen since the last transmission
          have hb : 1 ≤ bends (a :: openSegment (ps.zip os) ++ [p]) := by
            by_contra hlt
            obtain ⟨s'', k1, _⟩ := hkey (by rw [List.cons_append] at hlt; omega)
            rw [a1] at k1
            simp at k1
          obtain ⟨l, hl⟩ := List.getLast?_eq_some_iff.1 hq
          have hrun : run c (new g) (ps ++ [p]) = .ok (s', os ++ [some s.last]) := by
            rw [run_append _ _ _ h1 a1, observe, a2]; rfl
          have hqt : q.t = s'.last.t := by
            have h7 := a3.after ps.length p s.last (by simp) (by rw [← h2.len]; simp) (by
              intro k P hk hh
              have := (List.getElem?_eq_some_iff.1 hh).1
              simp [h2.len] at this
              omega)
            omega
          have hcl : CloseTo c q.v s'.last.v := by
            obtain ⟨s'', os'', r, k1, k2, _, ⟨r', k4, k5⟩, _⟩ := run_near htud he hconv g (ps ++ [p]) (by simp)
              (consecutive_increasing hcons) hr hi
            rw [hrun] at k1
            simp only [Except.ok.injEq, Prod.mk.injEq] at k1
            obtain ⟨rfl, rfl⟩ := k1
            have hqm : q ∈ ps ++ [p] := by simp [List.mem_of_getLast? hq]
            have := latest_consecutive hcons k4 hqm hqt.ge
            rw [same_time (consecutive_increasing hcons) hqm k4.1 (by omega)]
            exact k5
          refine ⟨s', os ++ [some s.last], l, q, hrun, a3, ?_, hqt, hcl, ?_, ?_, ?_⟩
          · rw [hz]; conv_lhs => rw [hl]
            simp
          · rw [hz, transmitted_snoc]
            simp only [Option.toList_some, List.length_append, List.length_singleton, bends]
            omega
          · rw [hz]; simp
          · rw [hz]
            intro r hrl b l' e hb0
            obtain rfl : p = r := by simpa using hrl
            obtain ⟨rfl, rfl⟩ : p = b ∧ [] = l' := by simpa using e
            have hcc : Consecutive [q, p] := by
              rw [hl, List.append_assoc] at hcons
              exact consecutive_right hcons
            have hpv := straight [] q p hcc rfl p (by simp)
            have hn := edges_near hqt hcl.2.1 hpv hrp
            obtain ⟨k1, k2⟩ := add_true a1
            rw [k1, k2]
            exact ⟨hn.1.1, hn.2.2⟩

/-- **C151** For integer samples with consecutive timestamps the number of transmitted points is at most the number of
samples at which the slope of the signal changes, however long the stream is. -/
theorem C151_bends (htud : c.tud = 1) (he : 0 ≤ c.eps) (hconv : c.conv = trunc) (g : Point) (ps : List Point)
    (hcons : Consecutive ps) (hr : InRange c ps) (hi : IntegerValued ps) :
    ∃ s os, run c (new g) ps = .ok (s, os) ∧ (transmitted os).length ≤ bends ps := by
  by_cases h0 : ps = []
  · subst h0; exact ⟨new g, [], rfl, by simp [transmitted]⟩
  · obtain ⟨s, os, pre, a, h1, _, _, _, _, h2, _⟩ := run_bends htud he hconv g ps h0 hcons hr hi
    exact ⟨s, os, h1, by omega⟩

/-- **C151** a signal on one straight line is never transmitted before the end of the stream -/
theorem C151_straight (htud : c.tud = 1) (he : 0 ≤ c.eps) (hconv : c.conv = trunc) (g : Point) (ps : List Point)
    (hcons : Consecutive ps) (hr : InRange c ps) (hi : IntegerValued ps) (h0 : bends ps = 0) :
    ∃ s os, run c (new g) ps = .ok (s, os) ∧ ∀ o ∈ os, o = none := by
  obtain ⟨s, os, h1, h2⟩ := C151_bends htud he hconv g ps hcons hr hi
  refine ⟨s, os, h1, fun o ho => ?_⟩
  rw [h0, Nat.le_zero, List.length_eq_zero_iff] at h2
  cases o with
  | none => rfl
  | some P =>
      have : P ∈ transmitted os := List.mem_filterMap.2 ⟨some P, ho, rfl⟩
      rw [h2] at this
      simp at this

/-- the bound is attained: three changes of the slope, three points -/
def exBends : List Point := [⟨0, 0⟩, ⟨1, 0⟩, ⟨2, 4⟩, ⟨3, 0⟩, ⟨4, 0⟩]

example : Consecutive exBends ∧ InRange exCode exBends ∧ IntegerValued exBends ∧ bends exBends = 3 ∧
    (run exCode (new ⟨0, 0⟩) exBends).map (fun x => (transmitted x.2).length) = .ok 3 := by
  refine ⟨by simp [Consecutive, exBends], ?_, ?_, by decide +kernel, by decide +kernel⟩
  · intro p hp
    simp only [exBends, List.mem_cons, List.not_mem_nil, or_false] at hp
    rcases hp with rfl | rfl | rfl | rfl | rfl <;> norm_num [exCode]
  · intro p hp
    simp only [exBends, List.mem_cons, List.not_mem_nil, or_false] at hp
    rcases hp with rfl | rfl | rfl | rfl | rfl
    exacts [⟨0, by simp⟩, ⟨0, by simp⟩, ⟨4, by simp⟩, ⟨0, by simp⟩, ⟨0, by simp⟩]

end Orp.Ltc
