import Verif.Mondrian.Law

/-!
Programs that draw random numbers, and their expectation as an iterated integral.
-/

set_option linter.unusedSectionVars false

namespace Orp.Mondrian

open MeasureTheory Orp.Reservoir

/-- a program that draws random numbers and then returns a value -/
inductive Prog (α : Type) where
  | ret (a : α)
  | ask (k : U01 → Prog α)

namespace Prog

variable {α β : Type}

def bind : Prog α → (α → Prog β) → Prog β
  | ret a, f => f a
  | ask k, f => ask fun u => (k u).bind f

/-- the value, with the draws from position `pos` on, and the position after -/
def eval (ω : Nat → U01) : Prog α → Nat → α × Nat
  | ret a, pos => (a, pos)
  | ask k, pos => (k (ω pos)).eval ω (pos + 1)

/-- the expectation of `φ` of the value -/
noncomputable def ex (φ : α → ENNReal) : Prog α → ENNReal
  | ret a => φ a
  | ask k => ∫⁻ u, (k u).ex φ

theorem eval_bind (ω : Nat → U01) : ∀ (P : Prog α) (f : α → Prog β) (pos : Nat), (P.bind f).eval ω pos = (f (P.eval ω pos).1).eval ω (P.eval ω pos).2
  | ret a, f, pos => rfl
  | ask k, f, pos => by simp only [bind, eval]; exact eval_bind ω (k (ω pos)) f (pos + 1)

theorem ex_bind (φ : β → ENNReal) : ∀ (P : Prog α) (f : α → Prog β), (P.bind f).ex φ = P.ex fun a => (f a).ex φ
  | ret a, f => rfl
  | ask k, f => by simp only [bind, ex]; exact lintegral_congr fun u => ex_bind φ (k u) f

theorem ex_const (c : ENNReal) : ∀ P : Prog α, (P.ex fun _ => c) = c
  | ret a => rfl
  | ask k => by simp only [ex, ex_const c]; simp

/-- a sequence of draws with one in front -/
def cons (q : U01 × (Nat → U01)) : Nat → U01
  | 0 => q.1
  | n + 1 => q.2 n

theorem eval_cons (u : U01) (ω : Nat → U01) : ∀ (P : Prog α) (pos : Nat), P.eval (cons (u, ω)) (pos + 1) = ((P.eval ω pos).1, (P.eval ω pos).2 + 1)
  | ret a, pos => rfl
  | ask k, pos => by simp only [eval, cons]; exact eval_cons u ω _ _

theorem eval_shift (ω : Nat → U01) : ∀ (P : Prog α) (pos i : Nat), (P.eval (fun i => ω (i + pos)) i).1 = (P.eval ω (i + pos)).1
  | ret a, pos, i => rfl
  | ask k, pos, i => by simp only [eval]; rw [eval_shift ω _ pos (i + 1), Nat.add_right_comm]

theorem cons_measurable : Measurable cons := by
  refine measurable_pi_lambda _ fun n => ?_
  cases n with
  | zero => exact measurable_fst
  | succ n => exact (measurable_pi_apply n).comp measurable_snd

/-- Independent draws: the first one is independent of the others. -/
theorem cons_law : (volume.prod draws).map cons = draws := by
  rw [draws]
  refine Measure.eq_infinitePi _ fun s t ht => ?_
  obtain ⟨N, hN⟩ := s.exists_nat_subset_range
  have hN' : s ⊆ Finset.range (N + 1) := hN.trans (Finset.range_subset_range.2 (Nat.le_succ N))
  classical
  let t' : Nat → Set U01 := fun i => if i ∈ s then t i else Set.univ
  have ht' : ∀ i, MeasurableSet (t' i) := fun i => by simp only [t']; split; exacts [ht i, MeasurableSet.univ]
  have e1 : Set.pi (s : Set Nat) t = Set.pi (Finset.range (N + 1) : Set Nat) t' := by
    ext ω
    simp only [Set.mem_pi, Finset.mem_coe, t']
    constructor
    · intro h i _
      split
      · exact h i ‹_›
      · trivial
    · intro h i hi
      have := h i (hN' hi)
      rwa [if_pos hi] at this
  have e2 : ∏ i ∈ s, (volume : Measure U01) (t i) = ∏ i ∈ Finset.range (N + 1), (volume : Measure U01) (t' i) := by
    rw [← Finset.prod_subset hN' fun i _ hi => by simp [t', hi]]
    exact Finset.prod_congr rfl fun i hi => by simp [t', hi]
  have e3 : cons ⁻¹' (Set.pi (Finset.range (N + 1) : Set Nat) t') = t' 0 ×ˢ Set.pi (Finset.range N : Set Nat) (fun i => t' (i + 1)) := by
    ext ⟨u, ω⟩
    simp only [Set.mem_preimage, Set.mem_pi, Finset.coe_range, Set.mem_Iio, Set.mem_prod]
    constructor
    · intro h
      exact ⟨h 0 (by omega), fun i hi => h (i + 1) (by omega)⟩
    · rintro ⟨h1, h2⟩ i hi
      cases i with
      | zero => exact h1
      | succ i => exact h2 i (by omega)
  rw [e1, e2, Measure.map_apply cons_measurable (MeasurableSet.pi (Finset.countable_toSet _) fun i _ => ht' i), e3, Measure.prod_prod,
    Measure.infinitePi_pi _ fun i _ => ht' (i + 1), Finset.prod_range_succ', mul_comm]

theorem ex_eval (φ : α → ENNReal) : ∀ (P : Prog α), Measurable (fun ω => φ (P.eval ω 0).1) → ∫⁻ ω, φ (P.eval ω 0).1 ∂draws = P.ex φ
  | ret a, _ => by simp [eval, ex]
  | ask k, hm => by
      have h1 : ∀ u ω, φ ((ask k).eval (cons (u, ω)) 0).1 = φ ((k u).eval ω 0).1 := by
        intro u ω
        simp only [eval]
        rw [show cons (u, ω) 0 = u from rfl, eval_cons u ω (k u) 0]
      rw [← cons_law, lintegral_map hm cons_measurable, lintegral_prod (fun q => φ ((ask k).eval (cons q) 0).1) (hm.comp cons_measurable).aemeasurable]
      simp only [ex]
      refine lintegral_congr fun u => ?_
      have hm' : Measurable fun ω => φ ((k u).eval ω 0).1 := by
        have := (hm.comp cons_measurable).comp (measurable_prodMk_left (x := u))
        exact (funext fun ω => (h1 u ω).symm : (fun ω => φ ((k u).eval ω 0).1) = _) ▸ this
      rw [← ex_eval φ (k u) hm']
      exact lintegral_congr fun ω => h1 u ω

end Prog

end Orp.Mondrian
