import Verif.Ltc.Spec
import Mathlib.Tactic.Linarith
import Mathlib.Tactic.Push
import Mathlib.Tactic.Ring
import Mathlib.Tactic.FieldSimp
import Mathlib.Tactic.Positivity
import Mathlib.Data.List.Induction
import Mathlib.Algebra.Order.Field.Basic

namespace Orp.Ltc

variable {c : Cfg}

/-- what is known of an object with an open segment `seg` (at least one sample) -/
structure Seg (c : Cfg) (s : State) (seg : List Point) : Prop where
  cnt : s.counter = 2
  tu : s.ll.t = s.ul.t
  lt : s.last.t < s.ul.t
  tm : ∀ p ∈ seg, s.last.t < p.t ∧ p.t ≤ s.ul.t
  fit : ∀ σ, Fits c.eps s.last σ seg →
    (∀ p ∈ seg, c.conv (ray s.last σ p.t) = ray s.last σ p.t ∧ (c.minValue : ℚ) ≤ ray s.last σ p.t ∧
      ray s.last σ p.t ≤ c.maxValue) → s.ll.v ≤ ray s.last σ s.ul.t ∧ ray s.last σ s.ul.t ≤ s.ul.v
  exact : c.conv = id → s.ll.v ≤ s.ul.v ∧
    ∀ σ, s.ll.v ≤ ray s.last σ s.ul.t → ray s.last σ s.ul.t ≤ s.ul.v → Fits c.eps s.last σ seg

theorem newUl_t (t v) : (newUl c t v).t = t := rfl
theorem newLl_t (t v) : (newLl c t v).t = t := rfl

theorem newUl_ge {t : Int} {v x : ℚ} (h : x ≤ v + c.eps) (h' : x ≤ c.maxValue) : x ≤ (newUl c t v).v := by
  simp only [newUl]; split <;> assumption

theorem newLl_le {t : Int} {v x : ℚ} (h : v - c.eps ≤ x) (h' : (c.minValue : ℚ) ≤ x) : (newLl c t v).v ≤ x := by
  simp only [newLl]; split <;> assumption

theorem newUl_le {t : Int} {v : ℚ} : (newUl c t v).v ≤ v + c.eps := by
  simp only [newUl]; split <;> linarith

theorem le_newLl {t : Int} {v : ℚ} : v - c.eps ≤ (newLl c t v).v := by
  simp only [newLl]; split <;> linarith

theorem abs_ray {x v e : ℚ} : |x - v| ≤ e ↔ v - e ≤ x ∧ x ≤ v + e := by
  rw [abs_le]; constructor <;> rintro ⟨h1, h2⟩ <;> constructor <;> linarith

/-- a segment with a single sample -/
theorem seg_single (he : 0 ≤ c.eps) (s : State) (p : Point) (hp : s.last.t < p.t)
    (hr : (c.minValue : ℚ) ≤ p.v ∧ p.v ≤ c.maxValue) : Seg c (addSecond c s p.t p.v) [p] := by
  have he' : (0 : ℚ) ≤ c.eps := by exact_mod_cast he
  refine ⟨rfl, rfl, hp, by simpa [addSecond, newUl] using hp, ?_, ?_⟩
  · intro σ hf hc
    have h1 := abs_ray.1 (hf p (by simp))
    have h2 := hc p (by simp)
    exact ⟨newLl_le h1.1 h2.2.1, newUl_ge h1.2 h2.2.2⟩
  · intro _
    refine ⟨(newLl_le (x := p.v) (by linarith) hr.1).trans (newUl_ge (by linarith) hr.2), ?_⟩
    intro σ h1 h2 q hq
    simp only [List.mem_singleton] at hq; subst hq
    exact abs_ray.2 ⟨le_newLl.trans h1, h2.trans newUl_le⟩

theorem ray_at (P : Point) {t : Int} (v : ℚ) (h : P.t < t) :
    v = ray P ((v - P.v) / ((t - P.t : Int) : ℚ) / 1) t := by
  have : ((t - P.t : Int) : ℚ) ≠ 0 := by
    have : t - P.t ≠ 0 := by omega
    exact_mod_cast this
  unfold ray; field_simp; ring

theorem ray_mono {P : Point} {a b : ℚ} {t : Int} (h : P.t < t) : ray P a t ≤ ray P b t ↔ a ≤ b := by
  have : (0 : ℚ) < ((t - P.t : Int) : ℚ) := by
    have : 0 < t - P.t := by omega
    exact_mod_cast this
  unfold ray
  constructor
  · intro h'; exact le_of_mul_le_mul_right (by linarith) this
  · intro h'; have := mul_le_mul_of_nonneg_right h' this.le; linarith

theorem ray_extend (P : Point) (a : ℚ) (t t' : Int) :
    ((t' - t : Int) : ℚ) * a + ray P a t = ray P a t' := by
  unfold ray; push_cast; ring

theorem step_seg (htud : c.tud = 1) (he : 0 ≤ c.eps) (hmono : Monotone c.conv) (s : State) (seg : List Point)
    (h : Seg c s seg) (p : Point) (hp : s.ul.t < p.t) (hr : (c.minValue : ℚ) ≤ p.v ∧ p.v ≤ c.maxValue) :
    (∃ s', add c s p.t p.v = .ok (s', false) ∧ s'.last = s.last ∧ s'.ul.t = p.t ∧ Seg c s' (seg ++ [p])) ∨
    (∃ s', add c s p.t p.v = .ok (s', true) ∧ s'.toTransmit = s.last ∧
      s'.last = ⟨p.t - 1, c.conv ((s.ul.v + s.ll.v) / 2)⟩ ∧ s'.ul.t = p.t ∧ Seg c s' [p] ∧
      ∀ σ, Fits c.eps s.last σ (seg ++ [p]) →
       ¬ (∀ q ∈ seg ++ [p], c.conv (ray s.last σ q.t) = ray s.last σ q.t ∧ (c.minValue : ℚ) ≤ ray s.last σ q.t ∧
        ray s.last σ q.t ≤ c.maxValue)) := by
  have hlt := h.lt
  have hlp : s.last.t < p.t := by omega
  have hll : s.ll.t = s.ul.t := h.tu
  -- the four slopes
  obtain ⟨u, hu⟩ : ∃ u, u = deriva c s.last s.ul := ⟨_, rfl⟩
  obtain ⟨l, hl⟩ : ∃ l, l = deriva c s.last s.ll := ⟨_, rfl⟩
  obtain ⟨nu, hnu⟩ : ∃ u, u = deriva c s.last (newUl c p.t p.v) := ⟨_, rfl⟩
  obtain ⟨nl, hnl⟩ : ∃ u, u = deriva c s.last (newLl c p.t p.v) := ⟨_, rfl⟩
  have eu : s.ul.v = ray s.last u s.ul.t := by
    rw [hu, deriva, htud]; simpa using ray_at s.last s.ul.v hlt
  have el : s.ll.v = ray s.last l s.ul.t := by
    rw [hl, deriva, htud, hll]; simpa using ray_at s.last s.ll.v hlt
  have enu : (newUl c p.t p.v).v = ray s.last nu p.t := by
    rw [hnu, deriva, htud, newUl_t]; simpa using ray_at s.last _ hlp
  have enl : (newLl c p.t p.v).v = ray s.last nl p.t := by
    rw [hnl, deriva, htud, newLl_t]; simpa using ray_at s.last _ hlp
  have hne : ¬ (s.ul.t = s.last.t ∨ s.ll.t = s.last.t ∨ (newUl c p.t p.v).t = s.last.t ∨
      (newLl c p.t p.v).t = s.last.t ∨ c.tud = 0) := by
    rw [newUl_t, newLl_t, htud, hll]; omega
  have exu : extend c s.ul u p.t = ⟨p.t, c.conv (ray s.last u p.t)⟩ := by
    rw [extend, htud, Int.tdiv_one, eu, ray_extend]
  have exl : extend c s.ll l p.t = ⟨p.t, c.conv (ray s.last l p.t)⟩ := by
    rw [extend, htud, Int.tdiv_one, el, hll, ray_extend]
  have hc0 : ¬ s.counter = 0 := by rw [h.cnt]; decide
  have hc1 : ¬ s.counter = 1 := by rw [h.cnt]; decide
  -- a fitting line has its slope between the old slopes and between the new ones
  have key : ∀ σ, Fits c.eps s.last σ (seg ++ [p]) →
      (∀ q ∈ seg ++ [p], c.conv (ray s.last σ q.t) = ray s.last σ q.t ∧ (c.minValue : ℚ) ≤ ray s.last σ q.t ∧
        ray s.last σ q.t ≤ c.maxValue) → (l ≤ σ ∧ σ ≤ u) ∧ nl ≤ σ ∧ σ ≤ nu := by
    intro σ h1 h2
    have h3 := h.fit σ (fun q hq => h1 q (by simp [hq])) (fun q hq => h2 q (by simp [hq]))
    rw [eu, el, ray_mono hlt, ray_mono hlt] at h3
    have h4 := abs_ray.1 (h1 p (by simp))
    have h5 := h2 p (by simp)
    have h6 := newUl_ge (t := p.t) h4.2 h5.2.2
    have h7 := newLl_le (t := p.t) h4.1 h5.2.1
    rw [enu, ray_mono hlp] at h6
    rw [enl, ray_mono hlp] at h7
    exact ⟨h3, h7, h6⟩
  by_cases hcond : u < nl ∨ l > nu
  · right
    refine ⟨addSecond c 
      { s with
        toTransmit := s.last
        last := ⟨p.t - 1, c.conv ((s.ul.v + s.ll.v) / 2)⟩
        counter := 1 } p.t p.v, ?_, rfl, rfl, rfl, seg_single he _ _ (by simp) hr, ?_⟩
    · simp only [add, hc0, hc1, if_false, needTransmit, hne, ← hu, ← hl, ← hnu, ← hnl, hcond, if_true, bind,
        Except.bind, pure, Except.pure]
    · intro σ h1 h2
      obtain ⟨⟨h3, h4⟩, h5, h6⟩ := key σ h1 h2
      rcases hcond with h7 | h7
      · exact absurd (h5.trans h4) (not_le.2 h7)
      · exact absurd (h3.trans h6) (not_le.2 h7)
  · left
    push Not at hcond
    refine ⟨{ s with
      ul := if u < nu then extend c s.ul u p.t else newUl c p.t p.v
      ll := if l > nl then extend c s.ll l p.t else newLl c p.t p.v }, ?_, rfl, ?_, ?_⟩
    · have hcond' : ¬ (u < nl ∨ l > nu) := by push Not; exact hcond
      have hn : needTransmit c s (newUl c p.t p.v) (newLl c p.t p.v) =
          .ok (some (if u < nu then extend c s.ul u p.t else newUl c p.t p.v,
            if l > nl then extend c s.ll l p.t else newLl c p.t p.v)) := by
        simp only [needTransmit, if_neg hne, ← hu, ← hl, ← hnu, ← hnl, if_neg hcond']
        rfl
      simp only [add, hc0, hc1, if_false, hn, bind, Except.bind, pure, Except.pure]
    · dsimp only; split <;> rfl
    · have tul : (if u < nu then extend c s.ul u p.t else newUl c p.t p.v).t = p.t := by split <;> rfl
      have tll : (if l > nl then extend c s.ll l p.t else newLl c p.t p.v).t = p.t := by split <;> rfl
      refine ⟨h.cnt, by dsimp only; rw [tul, tll], by dsimp only; rw [tul]; exact hlp, ?_, ?_, ?_⟩
      · intro q hq
        dsimp only; rw [tul]
        rcases List.mem_append.1 hq with hq | hq
        · have := h.tm q hq; omega
        · simp only [List.mem_singleton] at hq; subst hq; omega
      · intro σ h1 h2
        dsimp only at h1 h2 ⊢
        rw [tul]
        obtain ⟨⟨h3, h4⟩, h5, h6⟩ := key σ h1 h2
        have h7 := (h2 p (by simp)).1
        constructor
        · split
          · rw [exl]; dsimp only; rw [← h7]
            exact hmono ((ray_mono hlp).2 h3)
          · rw [enl]; exact (ray_mono hlp).2 h5
        · split
          · rw [exu]; dsimp only; rw [← h7]
            exact hmono ((ray_mono hlp).2 h4)
          · rw [enu]; exact (ray_mono hlp).2 h6
      · intro hid
        dsimp only
        rw [tul]
        obtain ⟨o1, o2⟩ := h.exact hid
        rw [eu, el, ray_mono hlt] at o1
        have o3 : nl ≤ nu := by
          rw [← ray_mono (P := s.last) hlp, ← enl, ← enu]
          have he' : (0 : ℚ) ≤ c.eps := by exact_mod_cast he
          exact (newLl_le (x := p.v) (by linarith) hr.1).trans (newUl_ge (by linarith) hr.2)
        have vu : (if u < nu then extend c s.ul u p.t else newUl c p.t p.v).v = ray s.last (min u nu) p.t := by
          split
          · rename_i hh; rw [exu, hid, min_eq_left hh.le]; rfl
          · rename_i hh; rw [enu, min_eq_right (not_lt.1 hh)]
        have vl : (if l > nl then extend c s.ll l p.t else newLl c p.t p.v).v = ray s.last (max l nl) p.t := by
          split
          · rename_i hh; rw [exl, hid, max_eq_left (le_of_lt hh)]; rfl
          · rename_i hh; rw [enl, max_eq_right (not_lt.1 hh)]
        rw [vu, vl, ray_mono hlp]
        refine ⟨max_le (le_min o1 hcond.2) (le_min hcond.1 o3), ?_⟩
        intro σ h1 h2 q hq
        rw [ray_mono hlp] at h1 h2
        have h3 := max_le_iff.1 h1
        have h4 := le_min_iff.1 h2
        rcases List.mem_append.1 hq with hq | hq
        · exact o2 σ (by rw [el, ray_mono hlt]; exact h3.1) (by rw [eu, ray_mono hlt]; exact h4.1) q hq
        · simp only [List.mem_singleton] at hq; subst hq
          refine abs_ray.2 ⟨le_newLl.trans (?_ : (newLl c q.t q.v).v ≤ _), 
            le_trans (b := (newUl c q.t q.v).v) ?_ newUl_le⟩
          · rw [enl, ray_mono hlp]; exact h3.2
          · rw [enu, ray_mono hlp]; exact h4.2

/-! ### whole streams -/

theorem run_append (s : State) (ps : List Point) (p : Point) {s1 os s2 r}
    (h : run c s ps = .ok (s1, os)) (h2 : add c s1 p.t p.v = .ok (s2, r)) :
    run c s (ps ++ [p]) = .ok (s2, os ++ [observe s2 r]) := by
  induction ps generalizing s os with
  | nil =>
      simp only [run, Except.ok.injEq, Prod.mk.injEq] at h
      obtain ⟨rfl, rfl⟩ := h
      simp [run, h2, bind, Except.bind, pure, Except.pure]
  | cons q ps ih =>
      simp only [run, bind, Except.bind, pure, Except.pure] at h
      cases h3 : add c s q.t q.v with
      | error e => simp [h3] at h
      | ok x =>
          obtain ⟨sa, ra⟩ := x
          simp only [h3] at h
          cases h4 : run c sa ps with
          | error e => simp [h4] at h
          | ok y =>
              obtain ⟨sb, ob⟩ := y
              simp only [h4, Except.ok.injEq, Prod.mk.injEq] at h
              obtain ⟨rfl, rfl⟩ := h
              simp [run, h3, ih sa h4, bind, Except.bind, pure, Except.pure]

theorem openSegment_snoc (h : List (Point × Option Point)) (hne : h ≠ []) (x : Point × Option Point) :
    openSegment (h ++ [x]) = if x.2.isSome then [x.1] else openSegment h ++ [x.1] := by
  cases h with
  | nil => exact absurd rfl hne
  | cons a h => simp [openSegment]

theorem transmitted_snoc (os : List (Option Point)) (o : Option Point) :
    transmitted (os ++ [o]) = transmitted os ++ o.toList := by
  cases o <;> simp [transmitted]

/-- what is known after a non-empty stream -/
structure Inv (c : Cfg) (ps : List Point) (s : State) (os : List (Option Point)) : Prop where
  len : os.length = ps.length
  one : ps.length = 1 → s.counter = 1 ∧ os = [none]
  seg : 2 ≤ ps.length → Seg c s (openSegment (ps.zip os)) ∧ ∀ q ∈ ps, q.t ≤ s.ul.t
  top : 2 ≤ ps.length → ∃ q, ps.getLast? = some q ∧ q.t = s.ul.t
  two : ∀ o ∈ os.take 2, o = none
  first : transmitted os = [] → ps.head? = some s.last
  sent : transmitted os ≠ [] → (transmitted os).head? = ps.head?
  after : ∀ (i : Nat) (q P : Point), ps[i]? = some q → os[i]? = some (some P) →
    (∀ (k : Nat) (P' : Point), i < k → os[k]? ≠ some (some P')) → s.last.t = q.t - 1
  incr : (transmitted os ++ [s.last]).Pairwise (fun P Q => P.t < Q.t)
  openIn : ∀ q ∈ ps, s.last.t < q.t → q ∈ openSegment (ps.zip os)
  pinned : c.conv = id → Consecutive ps → ∀ q ∈ ps, q.t = s.last.t → |s.last.v - q.v| ≤ c.eps
  err : c.conv = id → Consecutive ps → (transmitted os ++ [s.last]).IsChain
    (fun P Q => ∀ q ∈ ps, P.t ≤ q.t → q.t ≤ Q.t → |lineAt P Q q.t - q.v| ≤ c.eps)

theorem inv_one (he : 0 ≤ c.eps) (g : Point) (p : Point) : ∃ s, run c (new g) [p] = .ok (s, [none]) ∧
    Inv c [p] s [none] := by
  have he' : (0 : ℚ) ≤ c.eps := by exact_mod_cast he
  refine ⟨{ new g with last := p, counter := 1 }, ?_, ?_⟩
  · simp [run, add, new, observe, bind, Except.bind, pure, Except.pure]
  · refine ⟨rfl, fun _ => ⟨rfl, rfl⟩, by simp, by simp, by simp, fun _ => rfl, by simp [transmitted], ?_,
      by simp [transmitted], ?_, ?_, by simp [transmitted]⟩
    · intro i q P h1 h2; rcases i with _ | i <;> simp at h2
    · intro q hq; simp only [List.mem_singleton] at hq; subst hq; simp
    · intro _ _ q hq _; simp only [List.mem_singleton] at hq; subst hq; simpa using he'

theorem zip_snoc {ps : List Point} {os : List (Option Point)} (h : os.length = ps.length) (p o) :
    (ps ++ [p]).zip (os ++ [o]) = ps.zip os ++ [(p, o)] := by
  rw [List.zip_append h.symm]; rfl

theorem consecutive_init {ps : List Point} {p : Point} (h : Consecutive (ps ++ [p])) : Consecutive ps :=
  (List.isChain_append.1 h).1

theorem consecutive_last {ps : List Point} {p q : Point} (h : Consecutive (ps ++ [p]))
    (hq : ps.getLast? = some q) : p.t = q.t + 1 :=
  (List.isChain_append.1 h).2.2 q hq p (by simp)

theorem isChain_imp_mem {α : Type} {R S : α → α → Prop} : ∀ {l : List α}, l.IsChain R →
    (∀ a ∈ l, ∀ b ∈ l, R a b → S a b) → l.IsChain S
  | [], _, _ => .nil
  | [_], _, _ => .singleton _
  | a :: b :: l, h, hi => by
      rw [List.isChain_cons_cons] at h ⊢
      exact ⟨hi a (by simp) b (by simp) h.1, isChain_imp_mem h.2 (fun x hx y hy => hi x (by simp [hx]) y (by simp [hy]))⟩

/-- one more sample, `add` returns false -/
theorem inv_false {ps : List Point} {s s' : State} {os : List (Option Point)} (h : Inv c ps s os) {p : Point}
    (hps : ps ≠ []) (hinc : ∀ q ∈ ps, q.t < p.t) (hlast : s'.last = s.last) (hlt : s.last.t < p.t) (hul : s'.ul.t = p.t)
    (hseg : Seg c s' (openSegment (ps.zip os) ++ [p])) : Inv c (ps ++ [p]) s' (os ++ [none]) := by
  have hl := h.len
  have h1 : 1 ≤ ps.length := List.length_pos_iff.2 hps
  have hz : ps.zip os ≠ [] := by
    intro hc; have := congrArg List.length hc; simp [hl] at this; exact hps this
  have hos : openSegment ((ps ++ [p]).zip (os ++ [none])) = openSegment (ps.zip os) ++ [p] := by
    rw [zip_snoc hl, openSegment_snoc _ hz]; simp
  have htr : transmitted (os ++ [none]) = transmitted os := by rw [transmitted_snoc]; simp
  have hhead : (ps ++ [p]).head? = ps.head? := by
    cases ps with
    | nil => exact absurd rfl hps
    | cons => rfl
  refine ⟨by simp [hl], ?_, ?_, ?_, ?_, ?_, ?_, ?_, ?_, ?_, ?_, ?_⟩
  · intro h2; simp at h2; exact absurd h2 hps
  · intro _
    rw [hos]
    refine ⟨hseg, fun q hq => ?_⟩
    rw [hul]
    rcases List.mem_append.1 hq with hq | hq
    · exact (hinc q hq).le
    · simp at hq; subst hq; exact le_rfl
  · intro _; exact ⟨p, by simp, hul.symm⟩
  · intro o ho
    rw [List.take_append] at ho
    rcases List.mem_append.1 ho with ho | ho
    · exact h.two o ho
    · have := List.mem_of_mem_take ho; simpa using this
  · rw [htr, hlast, hhead]; exact h.first
  · rw [htr, hhead]; exact h.sent
  · intro i q P e1 e2 e3
    rw [hlast]
    by_cases hi : i < os.length
    · rw [List.getElem?_append_left (by omega)] at e1
      rw [List.getElem?_append_left hi] at e2
      refine h.after i q P e1 e2 (fun k P' hk hc => e3 k P' hk ?_)
      rw [List.getElem?_append_left]; exact hc
      exact (List.getElem?_eq_some_iff.1 hc).1
    · rw [List.getElem?_append_right (by omega)] at e2
      rcases hj : i - os.length with _ | j <;> simp [hj] at e2
  · rw [htr, hlast]; exact h.incr
  · intro q hq hqt
    rw [hos]; rw [hlast] at hqt
    rcases List.mem_append.1 hq with hq | hq
    · exact List.mem_append_left _ (h.openIn q hq hqt)
    · exact List.mem_append_right _ hq
  · intro hid hcons q hq hqt
    rw [hlast] at hqt ⊢
    rcases List.mem_append.1 hq with hq | hq
    · exact h.pinned hid (consecutive_init hcons) q hq hqt
    · simp at hq; subst hq; omega
  · intro hid hcons
    rw [htr, hlast]
    refine isChain_imp_mem (h.err hid (consecutive_init hcons)) ?_
    intro P _ Q hQ hPQ q hq h1 h2
    rcases List.mem_append.1 hq with hq | hq
    · exact hPQ q hq h1 h2
    · simp at hq; subst hq
      have : Q.t ≤ s.last.t := by
        rcases List.mem_append.1 hQ with hQ | hQ
        · exact ((List.pairwise_append.1 h.incr).2.2 Q hQ s.last (by simp)).le
        · simp at hQ; subst hQ; exact le_rfl
      omega

theorem lineAt_right {P Q : Point} (h : P.t < Q.t) : lineAt P Q Q.t = Q.v := by
  have := ray_at P Q.v h
  simp only [div_one] at this
  exact this.symm

theorem lineAt_left {P Q : Point} : lineAt P Q P.t = P.v := by simp [lineAt, ray]

/-- one more sample, `add` returns true -/
theorem inv_true {ps : List Point} {s s' : State} {os : List (Option Point)} (h : Inv c ps s os) {p : Point}
    (hps : 2 ≤ ps.length) (hinc : ∀ q ∈ ps, q.t < p.t)
    (hlast : s'.last = ⟨p.t - 1, c.conv ((s.ul.v + s.ll.v) / 2)⟩) (hul : s'.ul.t = p.t)
    (hseg : Seg c s' [p]) : Inv c (ps ++ [p]) s' (os ++ [some s.last]) := by
  have hl := h.len
  obtain ⟨hs, htop⟩ := h.seg hps
  have hps' : ps ≠ [] := by rintro rfl; simp at hps
  have hz : ps.zip os ≠ [] := by
    intro hc; have := congrArg List.length hc; simp [hl] at this; exact hps' this
  have hos : openSegment ((ps ++ [p]).zip (os ++ [some s.last])) = [p] := by
    rw [zip_snoc hl, openSegment_snoc _ hz]; simp
  have htr : transmitted (os ++ [some s.last]) = transmitted os ++ [s.last] := by rw [transmitted_snoc]; simp
  have hhead : (ps ++ [p]).head? = ps.head? := by
    cases ps with
    | nil => exact absurd rfl hps'
    | cons => rfl
  obtain ⟨lq, hlq, hlqt⟩ := h.top hps
  have hlqm : lq ∈ ps := List.mem_of_getLast? hlq
  have hlp : s.ul.t < p.t := by rw [← hlqt]; exact hinc lq hlqm
  have hlt := hs.lt
  -- the line to the new point stays in the cone
  have hfit : c.conv = id → Consecutive (ps ++ [p]) → ∀ q ∈ ps, s.last.t ≤ q.t →
      |lineAt s.last s'.last q.t - q.v| ≤ c.eps := by
    intro hid hcons q hq hqt
    have htt : s.ul.t = p.t - 1 := by
      have := consecutive_last hcons hlq; omega
    have hv : s'.last.v = (s.ul.v + s.ll.v) / 2 := by rw [hlast, hid]; rfl
    have ht : s'.last.t = s.ul.t := by rw [hlast, htt]
    have hat : lineAt s.last s'.last s.ul.t = (s.ul.v + s.ll.v) / 2 := by
      rw [← hv, ← ht]; exact lineAt_right (by rw [ht]; exact hlt)
    rcases lt_or_eq_of_le hqt with h1 | h1
    · have o := (hs.exact hid)
      refine o.2 _ ?_ ?_ q (h.openIn q hq h1)
      · have := hat; unfold lineAt at this; rw [this]; linarith [o.1]
      · have := hat; unfold lineAt at this; rw [this]; linarith [o.1]
    · rw [← h1, lineAt_left]; exact h.pinned hid (consecutive_init hcons) q hq h1.symm
  refine ⟨by simp [hl], ?_, ?_, ?_, ?_, ?_, ?_, ?_, ?_, ?_, ?_, ?_⟩
  · intro h2; simp at h2; exact absurd h2 hps'
  · intro _
    rw [hos]
    refine ⟨hseg, fun q hq => ?_⟩
    rw [hul]
    rcases List.mem_append.1 hq with hq | hq
    · exact (hinc q hq).le
    · simp at hq; subst hq; exact le_rfl
  · intro _; exact ⟨p, by simp, hul.symm⟩
  · intro o ho
    rw [List.take_append_of_le_length (by omega)] at ho
    exact h.two o ho
  · rw [htr]; simp
  · intro _
    rw [htr, hhead]
    by_cases h0 : transmitted os = []
    · rw [h0, h.first h0]; rfl
    · rw [← h.sent h0]
      cases hh : transmitted os with
      | nil => exact absurd hh h0
      | cons => rfl
  · intro i q P e1 e2 e3
    have hi : i = os.length := by
      by_contra hne
      rcases Nat.lt_or_gt_of_ne hne with h1 | h1
      · exact e3 os.length s.last h1 (by simp)
      · rw [List.getElem?_eq_none (by simp; omega)] at e2; simp at e2
    subst hi
    rw [hl, List.getElem?_append_right le_rfl] at e1
    simp at e1; subst e1
    rw [hlast]
  · rw [htr, List.pairwise_append]
    refine ⟨h.incr, by simp, ?_⟩
    intro P hP Q hQ
    simp only [List.mem_singleton] at hQ; subst hQ
    have hlst : s.last.t < p.t - 1 := by omega
    rw [hlast]
    rcases List.mem_append.1 hP with hP | hP
    · exact ((List.pairwise_append.1 h.incr).2.2 P hP s.last (by simp)).trans hlst
    · simp at hP; subst hP; exact hlst
  · intro q hq hqt
    rw [hos]; rw [hlast] at hqt; dsimp only at hqt
    rcases List.mem_append.1 hq with hq | hq
    · have := hinc q hq; omega
    · exact hq
  · intro hid hcons q hq hqt
    have hlst : s.last.t < s'.last.t := by rw [hlast]; dsimp only; omega
    rcases List.mem_append.1 hq with hq | hq
    · have := hfit hid hcons q hq (by omega)
      rwa [hqt, lineAt_right hlst] at this
    · simp at hq; subst hq; rw [hlast] at hqt; dsimp only at hqt; omega
  · intro hid hcons
    rw [htr, List.append_assoc]
    have hch := h.err hid (consecutive_init hcons)
    have hch' : (transmitted os ++ [s.last]).IsChain
        (fun P Q => ∀ q ∈ ps ++ [p], P.t ≤ q.t → q.t ≤ Q.t → |lineAt P Q q.t - q.v| ≤ c.eps) := by
      refine isChain_imp_mem hch ?_
      intro P _ Q hQ hPQ q hq h1 h2
      rcases List.mem_append.1 hq with hq | hq
      · exact hPQ q hq h1 h2
      · simp at hq; subst hq
        have : Q.t ≤ s.last.t := by
          rcases List.mem_append.1 hQ with hQ | hQ
          · exact ((List.pairwise_append.1 h.incr).2.2 Q hQ s.last (by simp)).le
          · simp at hQ; subst hQ; exact le_rfl
        omega
    rw [← List.append_assoc, List.isChain_append]
    refine ⟨hch', .singleton _, ?_⟩
    intro P hP Q hQ q hq h1 h2
    simp only [List.getLast?_append, List.getLast?_singleton, Option.some_or, Option.mem_def,
      Option.some.injEq] at hP
    simp only [List.head?_cons, Option.mem_def, Option.some.injEq] at hQ
    subst hP; subst hQ
    rcases List.mem_append.1 hq with hq | hq
    · exact hfit hid hcons q hq h1
    · simp at hq; subst hq; rw [hlast] at h2; dsimp only at h2; omega

/-- what one more `add` does -/
theorem step_inv (htud : c.tud = 1) (he : 0 ≤ c.eps) (hmono : Monotone c.conv) {ps : List Point} {s : State}
    {os : List (Option Point)} (h : Inv c ps s os) (hps : ps ≠ []) {p : Point} (hinc : ∀ q ∈ ps, q.t < p.t)
    (hr : (c.minValue : ℚ) ≤ p.v ∧ p.v ≤ c.maxValue) :
    (∃ s', add c s p.t p.v = .ok (s', false) ∧ s'.last = s.last ∧ Inv c (ps ++ [p]) s' (os ++ [none])) ∨
    (∃ s', add c s p.t p.v = .ok (s', true) ∧ s'.toTransmit = s.last ∧ Inv c (ps ++ [p]) s' (os ++ [some s.last]) ∧
      ∀ σ, Fits c.eps s.last σ (openSegment (ps.zip os) ++ [p]) →
       ¬ (∀ q ∈ openSegment (ps.zip os) ++ [p], c.conv (ray s.last σ q.t) = ray s.last σ q.t ∧
        (c.minValue : ℚ) ≤ ray s.last σ q.t ∧ ray s.last σ q.t ≤ c.maxValue)) := by
  by_cases h1 : ps.length = 1
  · left
    obtain ⟨h2, h3⟩ := h.one h1
    obtain ⟨q, rfl⟩ := List.length_eq_one_iff.1 h1
    have h4 : s.last = q := by have := h.first (by rw [h3]; rfl); simp at this; exact this.symm
    have hq := hinc q (by simp)
    refine ⟨addSecond c s p.t p.v, by simp [add, h2], rfl, ?_⟩
    refine inv_false h (by simp) hinc rfl (by rw [h4]; exact hq) rfl ?_
    rw [h3]
    exact seg_single he _ _ (by rw [h4]; exact hq) hr
  · have h2 : 2 ≤ ps.length := by
      have := List.length_pos_iff.2 hps; omega
    obtain ⟨hs, htop⟩ := h.seg h2
    obtain ⟨lq, hlq, hlqt⟩ := h.top h2
    have hlp : s.ul.t < p.t := by rw [← hlqt]; exact hinc lq (List.mem_of_getLast? hlq)
    rcases step_seg htud he hmono s _ hs p hlp hr with ⟨s', a1, a2, a3, a4⟩ | ⟨s', a1, a2, a3, a4, a5, a6⟩
    · exact .inl ⟨s', a1, a2, inv_false h hps hinc a2 (hs.lt.trans hlp) a3 a4⟩
    · exact .inr ⟨s', a1, a2, inv_true h h2 hinc a3 a4 a5, a6⟩

theorem increasing_snoc {ps : List Point} {p : Point} (h : Increasing (ps ++ [p])) :
    Increasing ps ∧ ∀ q ∈ ps, q.t < p.t := by
  have := List.pairwise_append.1 h
  exact ⟨this.1, fun q hq => this.2.2 q hq p (by simp)⟩

/-- every stream -/
theorem run_inv (htud : c.tud = 1) (he : 0 ≤ c.eps) (hmono : Monotone c.conv) (g : Point) (ps : List Point)
    (hps : ps ≠ []) (hinc : Increasing ps) (hr : InRange c ps) :
    ∃ s os, run c (new g) ps = .ok (s, os) ∧ Inv c ps s os := by
  induction ps using List.reverseRecOn with
  | nil => exact absurd rfl hps
  | append_singleton ps p ih =>
      by_cases h0 : ps = []
      · subst h0
        obtain ⟨s, h1, h2⟩ := inv_one he g p
        exact ⟨s, _, h1, h2⟩
      · obtain ⟨h1, h2⟩ := increasing_snoc hinc
        obtain ⟨s, os, h3, h4⟩ := ih h0 h1 (fun q hq => hr q (by simp [hq]))
        rcases step_inv htud he hmono h4 h0 h2 (hr p (by simp)) with ⟨s', a1, _, a3⟩ | ⟨s', a1, a2, a3, _⟩
        · exact ⟨s', _, run_append _ _ _ h3 a1, a3⟩
        · refine ⟨s', os ++ [some s.last], ?_, a3⟩
          rw [run_append _ _ _ h3 a1, observe, a2]; rfl

theorem consecutive_increasing : ∀ {ps : List Point}, Consecutive ps → Increasing ps
  | [], _ => List.Pairwise.nil
  | [_], _ => by simp [Increasing]
  | p :: q :: ps, h => by
      have h' := List.isChain_cons_cons.1 h
      have ih := consecutive_increasing (ps := q :: ps) h'.2
      refine List.pairwise_cons.2 ⟨?_, ih⟩
      intro r hr
      have h1 := h'.1
      rcases List.mem_cons.1 hr with rfl | hr
      · omega
      · have := (List.pairwise_cons.1 ih).1 r hr; omega

theorem trunc_mono : Monotone trunc := by
  intro x y h
  unfold trunc
  split <;> split
  · exact_mod_cast Int.ceil_mono h
  · rename_i h1 h2
    have a : (⌈x⌉ : ℚ) ≤ 0 := by
      have : ⌈x⌉ ≤ 0 := Int.ceil_le.2 (by simpa using h1.le)
      exact_mod_cast this
    have b : (0 : ℚ) ≤ (⌊y⌋ : ℚ) := by
      have : 0 ≤ ⌊y⌋ := Int.floor_nonneg.2 (not_lt.1 h2)
      exact_mod_cast this
    exact a.trans b
  · rename_i h1 h2; linarith [not_lt.1 h1]
  · exact_mod_cast Int.floor_mono h

theorem trunc_int (n : Int) : trunc n = n := by unfold trunc; split <;> simp

end Orp.Ltc
