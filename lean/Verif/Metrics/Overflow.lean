import Verif.Metrics.Props

/-!
C129 for the metrics: the counters are of type `int`; going over `2^31 - 1` is undefined behaviour. The programs below check every sum.
-/

namespace Orp.Metrics

open Orp.Metrics.Spec

/-- the values of the type `int` -/
def Fits (x : Int) : Prop := -2 ^ 31 ≤ x ∧ x < 2 ^ 31

instance (x : Int) : Decidable (Fits x) := inferInstanceAs (Decidable (_ ∧ _))

/-- one operation on `ErrorMetrics` with counters of type `int` (metrics.hpp:7-10, 20-28) -/
def ErrState.apply32 (s : ErrState) (o : Op) : Res ErrState :=
  if Fits (s.apply o).count ∧ Fits (s.apply o).errorCount then .ok (s.apply o) else .error .ub

/-- a history -/
def ErrState.run32 (s : ErrState) : List Op → Res ErrState
  | [] => .ok s
  | o :: os => do
      let s ← s.apply32 o
      s.run32 os

/-- one operation on `KappaMetrics<n>` with counters of type `int` (metrics.hpp:63-66, 91-100) -/
def KappaState.apply32 (n : Nat) (s : KappaState) (o : Op) : Res KappaState := do
  let s ← s.apply n o
  if Fits s.total ∧ ∀ i < n, ∀ j < n, Fits (s.confusion i j) then return s else .error .ub

/-- a history -/
def KappaState.run32 (n : Nat) (s : KappaState) : List Op → Res KappaState
  | [] => .ok s
  | o :: os => do
      let s ← s.apply32 n o
      s.run32 n os

/-- an action on `ReservoirSamplingMetrics` objects with a static counter of type `int` (metrics.hpp:106-116, 126-129) -/
def RsmWorld.apply32 (w : RsmWorld) (o : RsmOp) : Res RsmWorld := do
  let w ← w.apply o
  if Fits w.total then return w else .error .ub

/-- a history -/
def RsmWorld.run32 (w : RsmWorld) : List RsmOp → Res RsmWorld
  | [] => .ok w
  | o :: os => do
      let w ← w.apply32 o
      w.run32 os

/-- the actions that take a new number -/
def Spec.numbered : RsmOp → Bool
  | .assign _ _ => false
  | _ => true

theorem err_run32_append (a b : List Op) : ∀ s : ErrState, s.run32 (a ++ b) = (s.run32 a).bind (fun s => s.run32 b) := by
  induction a with
  | nil => intro s; rfl
  | cons o a ih =>
      intro s
      simp only [List.cons_append, ErrState.run32, bind, Except.bind]
      cases s.apply32 o with
      | error e => rfl
      | ok s' => simpa [Except.bind] using ih s'

/-- **C129** `ErrorMetrics`: if there are always fewer than `2^31` items since the last reset the counters are exact; otherwise the behaviour is undefined. -/
theorem C129_error (ops : List Op) :
    ((∀ k ≤ ops.length, allItems (sinceReset (ops.take k)) < 2 ^ 31) → ({} : ErrState).run32 ops = .ok (ops.foldl ErrState.apply {})) ∧
    ((∃ k ≤ ops.length, 2 ^ 31 ≤ allItems (sinceReset (ops.take k))) → ({} : ErrState).run32 ops = .error .ub) := by
  induction ops using List.reverseRecOn with
  | nil =>
      refine ⟨fun _ => rfl, ?_⟩
      rintro ⟨k, hk, h⟩
      simp [sinceReset, allItems] at h
  | append_singleton ops o ih =>
      have hcnt := err_run (ops ++ [o])
      have hle := allErrors_le (sinceReset (ops ++ [o]))
      have hfull : (ops ++ [o]).take (ops ++ [o]).length = ops ++ [o] := List.take_length
      rw [List.foldl_append] at hcnt ⊢
      simp only [List.foldl_cons, List.foldl_nil] at hcnt ⊢
      rw [err_run32_append]
      constructor
      · intro h
        have h1 := ih.1 fun k hk => by
          have := h k (by simp; omega)
          rwa [List.take_append_of_le_length hk] at this
        have h2 := h _ le_rfl
        rw [hfull] at h2
        rw [h1]
        simp only [Except.bind, ErrState.run32, ErrState.apply32, bind]
        rw [if_pos (by rw [hcnt.1, hcnt.2]; unfold Fits; omega)]
      · rintro ⟨k, hk, h⟩
        by_cases hk' : k ≤ ops.length
        · rw [List.take_append_of_le_length hk'] at h
          rw [ih.2 ⟨k, hk', h⟩]
          rfl
        · have : k = (ops ++ [o]).length := by simp at hk ⊢; omega
          rw [this, hfull] at h
          by_cases hb : ∃ k ≤ ops.length, 2 ^ 31 ≤ allItems (sinceReset (ops.take k))
          · rw [ih.2 hb]; rfl
          · rw [ih.1 fun k hk => by by_contra hc; exact hb ⟨k, hk, by omega⟩]
            simp only [Except.bind, ErrState.run32, ErrState.apply32, bind]
            rw [if_neg (by rw [hcnt.1, hcnt.2]; unfold Fits; omega)]

theorem kappa_run32_append (n : Nat) (a b : List Op) : ∀ s : KappaState, s.run32 n (a ++ b) = (s.run32 n a).bind (fun s => s.run32 n b) := by
  induction a with
  | nil => intro s; rfl
  | cons o a ih =>
      intro s
      simp only [List.cons_append, KappaState.run32, bind, Except.bind]
      cases s.apply32 n o with
      | error e => rfl
      | ok s' => simpa [Except.bind] using ih s'

theorem kappa_run_snoc (n : Nat) (a : List Op) (o : Op) : ∀ s : KappaState, s.run n (a ++ [o]) = (s.run n a).bind (fun s => s.apply n o) := by
  induction a with
  | nil =>
      intro s
      simp only [List.nil_append, KappaState.run, bind, Except.bind]
      cases s.apply n o <;> rfl
  | cons p a ih =>
      intro s
      simp only [List.cons_append, KappaState.run, bind, Except.bind]
      cases s.apply n p with
      | error e => rfl
      | ok s' => simpa [Except.bind] using ih s'

/-- **C129** `KappaMetrics`: if there are always fewer than `2^31` items since the last reset the counters are exact; otherwise the behaviour is undefined. -/
theorem C129_kappa (n : Nat) (ops : List Op) (hv : ∀ o ∈ ops, ValidOp n o) :
    ((∀ k ≤ ops.length, (recorded (ops.take k)).length < 2 ^ 31) → KappaState.init.run32 n ops = KappaState.init.run n ops) ∧
    ((∃ k ≤ ops.length, 2 ^ 31 ≤ (recorded (ops.take k)).length) → KappaState.init.run32 n ops = .error .ub) := by
  induction ops using List.reverseRecOn with
  | nil =>
      refine ⟨fun _ => rfl, ?_⟩
      rintro ⟨k, hk, h⟩
      simp [recorded, sinceReset] at h
  | append_singleton ops o ih =>
      have ih := ih fun o ho => hv o (by simp [ho])
      obtain ⟨s, hs, hc⟩ := kappa_run n (ops ++ [o]) hv
      obtain ⟨s0, hs0, -⟩ := kappa_run n ops fun o ho => hv o (by simp [ho])
      have ho : s0.apply n o = .ok s := by
        rw [kappa_run_snoc, hs0] at hs
        exact hs
      have hfull : (ops ++ [o]).take (ops ++ [o]).length = ops ++ [o] := List.take_length
      have hcell : ∀ i < n, ∀ j < n, 0 ≤ s.confusion i j ∧ s.confusion i j ≤ s.total := by
        intro i hi j hj
        have e1 := hc.conf i j hi hj
        have e2 := hc.tot
        have := List.count_le_length (a := (i, j)) (l := recorded (ops ++ [o]))
        rw [e1, e2]
        omega
      rw [kappa_run32_append, hs]
      constructor
      · intro h
        have h1 := ih.1 fun k hk => by
          have := h k (by simp; omega)
          rwa [List.take_append_of_le_length hk] at this
        have h2 := h _ le_rfl
        rw [hfull] at h2
        rw [h1, hs0]
        simp only [Except.bind, KappaState.run32, KappaState.apply32, bind, ho]
        have e2 := hc.tot
        rw [if_pos ⟨by rw [e2]; unfold Fits; omega, fun i hi j hj => by have := hcell i hi j hj; unfold Fits; omega⟩]
        rfl
      · rintro ⟨k, hk, h⟩
        by_cases hk' : k ≤ ops.length
        · rw [List.take_append_of_le_length hk'] at h
          rw [ih.2 ⟨k, hk', h⟩]
          rfl
        · have : k = (ops ++ [o]).length := by simp at hk ⊢; omega
          rw [this, hfull] at h
          by_cases hb : ∃ k ≤ ops.length, 2 ^ 31 ≤ (recorded (ops.take k)).length
          · rw [ih.2 hb]; rfl
          · rw [ih.1 fun k hk => by by_contra hc; exact hb ⟨k, hk, by omega⟩, hs0]
            simp only [Except.bind, KappaState.run32, KappaState.apply32, bind, ho]
            have e2 := hc.tot
            rw [if_neg (by rintro ⟨h1, -⟩; rw [e2] at h1; unfold Fits at h1; omega)]

/-- **C129** `ReservoirSamplingMetrics`: the static counter is exact for fewer than `2^31` constructions and resets in the whole program; a valid program with more of
them is undefined. -/
theorem C129_reservoir (ops : List RsmOp) (w : RsmWorld) (h : RsmWorld.init.run ops = .ok w) :
    (ops.countP numbered < 2 ^ 31 → RsmWorld.init.run32 ops = .ok w) ∧ (2 ^ 31 ≤ ops.countP numbered → RsmWorld.init.run32 ops = .error .ub) := by
  have gen : ∀ (ops : List RsmOp) (w0 w : RsmWorld), 0 ≤ w0.total → w0.total < 2 ^ 31 → w0.run ops = .ok w →
      (w0.total + ops.countP numbered < 2 ^ 31 → w0.run32 ops = .ok w) ∧ (2 ^ 31 ≤ w0.total + ops.countP numbered → w0.run32 ops = .error .ub) := by
    intro ops
    induction ops with
    | nil =>
        intro w0 w h0 h1 h
        exact ⟨fun _ => h, fun h2 => by simp at h2; omega⟩
    | cons o ops ih =>
        intro w0 w h0 h1 h
        simp only [RsmWorld.run, bind, Except.bind] at h
        cases hw : w0.apply o with
        | error e => rw [hw] at h; cases h
        | ok w1 =>
            rw [hw] at h
            have ht : w1.total = w0.total + if numbered o then 1 else 0 := by
              cases o with
              | construct => cases hw; simp [numbered]
              | reset i =>
                  simp only [RsmWorld.apply, bind, Except.bind] at hw
                  cases hx : wr w0.numbers i (w0.total + 1) with
                  | error e => rw [hx] at hw; cases hw
                  | ok l => rw [hx] at hw; cases hw; simp [numbered]
              | assign i j =>
                  simp only [RsmWorld.apply, bind, Except.bind] at hw
                  cases hx : rd w0.numbers j with
                  | error e => rw [hx] at hw; cases hw
                  | ok x =>
                      rw [hx] at hw
                      simp only at hw
                      cases hy : wr w0.numbers i x with
                      | error e => rw [hy] at hw; cases hw
                      | ok l => rw [hy] at hw; cases hw; simp [numbered]
            simp only [RsmWorld.run32, RsmWorld.apply32, bind, Except.bind, hw]
            rw [List.countP_cons]
            by_cases hf : w1.total < 2 ^ 31
            · have h2 : 0 ≤ w1.total := by rw [ht]; split <;> omega
              have hfit : Fits w1.total := by unfold Fits; omega
              simp only [if_pos hfit, pure, Except.pure]
              have := ih w1 w h2 hf h
              rw [ht] at this
              refine ⟨fun h3 => this.1 ?_, fun h3 => this.2 ?_⟩
              · revert h3; push_cast; split <;> omega
              · revert h3; push_cast; split <;> omega
            · have hfit : ¬ Fits w1.total := by unfold Fits; omega
              simp only [if_neg hfit]
              refine ⟨fun h3 => ?_, fun _ => trivial⟩
              exfalso
              rw [ht] at hf
              revert h3 hf
              push_cast
              split <;> omega
  have := gen ops RsmWorld.init w (by simp [RsmWorld.init]) (by simp [RsmWorld.init]) h
  simp only [RsmWorld.init, zero_add] at this
  refine ⟨fun h1 => this.1 (by exact_mod_cast h1), fun h1 => this.2 (by exact_mod_cast h1)⟩

/-- a history that is too long for both metrics -/
example : ({} : ErrState).run32 [.update 0 1, .increaseError (2 ^ 31 - 1)] = .error .ub ∧
    ({} : ErrState).run32 [.update 0 1, .increaseError (2 ^ 31 - 2), .reset, .increaseError 5] = .ok { count := 5, errorCount := 5 } := by decide +kernel

end Orp.Metrics
