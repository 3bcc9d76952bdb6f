import Verif.Unbound.Compare
import Verif.Mondrian.Props

/-!
Two bounded forests that say the same go on saying the same: calls of `predict` do not influence what later calls do.
-/

set_option linter.unusedSectionVars false

namespace Orp.Mondrian

open Unbound (pool_count set_ids_length Young phase_set phase_end recountAll_ne recountAll_young)

variable {K : Type} [Field K] [LinearOrder K] [IsStrictOrderedRing K] [FloorRing K] {F L : Nat}

/-- Two states of the same size whose trees say the same; either all trees are there, or the first `i` are and no node is lost. -/
structure Twin (i : Nat) (s₁ s₂ : Forest K F L) (t₁ t₂ : List (Option (Tree K F L))) (l₁ l₂ : List Nat) : Prop where
  inv₁ : Inv s₁ t₁ l₁
  inv₂ : Inv s₂ t₂ l₂
  size : s₁.nodes.length = s₂.nodes.length
  same : SameTrees t₁ t₂
  phase₁ : (∀ o ∈ t₁, o ≠ none) ∨ Young t₁ l₁ i
  phase₂ : (∀ o ∈ t₂, o ≠ none) ∨ Young t₂ l₂ i

theorem freshOf_isSome (A : List Nat) : (freshOf A).isSome = decide (2 ≤ A.length) := by
  match A with
  | [] => rfl
  | [_] => rfl
  | _ :: _ :: _ => simp [freshOf]

theorem Twin.fresh {i : Nat} {s₁ s₂ : Forest K F L} {t₁ t₂ : List (Option (Tree K F L))} {l₁ l₂ : List Nat} (h : Twin i s₁ s₂ t₁ t₂ l₁ l₂) :
    (freshOf (avail s₁.nodes)).isSome = (freshOf (avail s₂.nodes)).isSome := by
  have c1 := pool_count h.inv₁
  have c2 := pool_count h.inv₂
  have e := h.same.ids_length
  have o1 := h.inv₁.one
  have o2 := h.inv₂.one
  have z : ∀ {s : Forest K F L} {t : List (Option (Tree K F L))} {l : List Nat}, Inv s t l → l.length = 0 ∨ (avail s.nodes).length = 0 := by
    intro s t l hI
    by_cases hl : l = []
    · left; rw [hl]; rfl
    · right; rw [hI.empty hl]; rfl
  have z1 := z h.inv₁
  have z2 := z h.inv₂
  have hs := h.size
  rw [freshOf_isSome, freshOf_isSome]
  congr 1
  apply propext
  omega

theorem trainTree_twin (p : Params K) (hlife : 0 ≤ p.lifetime) (ω : Nat → K) (hω : ∀ i, 0 ≤ ω i ∧ ω i < 1) (x : Fin F → K) (label : Fin L) (i pos : Nat)
    {s₁ s₂ : Forest K F L} {t₁ t₂ : List (Option (Tree K F L))} {l₁ l₂ : List Nat} (h : Twin i s₁ s₂ t₁ t₂ l₁ l₂) (hi : i < t₁.length)
    (r : Forest K F L × Nat × Bool) (hr : trainTree p ω x label i s₁ pos = .ok r) :
    ∃ s₂' t₁' t₂' l₁' l₂', trainTree p ω x label i s₂ pos = .ok (s₂', r.2.1, r.2.2) ∧ Twin (i + 1) r.1 s₂' t₁' t₂' l₁' l₂' ∧ t₁'.length = t₁.length := by
  obtain ⟨o, ho⟩ : ∃ o, t₁[i]? = some o := ⟨_, List.getElem?_eq_getElem hi⟩
  obtain ⟨u, hu, e⟩ := h.same.get ho
  cases o with
  | none =>
      cases u with
      | some _ => cases e
      | none =>
          have hl1 : l₁ = [] := by
            rcases h.phase₁ with h1 | h1
            · exact absurd rfl (h1 none (List.mem_of_getElem? ho))
            · exact h1.1
          have hl2 : l₂ = [] := by
            rcases h.phase₂ with h1 | h1
            · exact absurd rfl (h1 none (List.mem_of_getElem? hu))
            · exact h1.1
          have c1 := pool_count h.inv₁
          have c2 := pool_count h.inv₂
          have e1 := h.same.ids_length
          have hs := h.size
          rw [hl1] at c1
          rw [hl2] at c2
          have a1 := trainTree_none p hlife ω x label s₁ t₁ l₁ h.inv₁ i pos ho
          have a2 := trainTree_none p hlife ω x label s₂ t₂ l₂ h.inv₂ i pos hu
          cases hA1 : avail s₁.nodes with
          | nil => rw [hA1] at a1; simp only at a1; rw [a1] at hr; cases hr
          | cons a A =>
              cases hA2 : avail s₂.nodes with
              | nil =>
                  rw [hA1] at c1
                  rw [hA2] at c2
                  simp only [List.length_cons, List.length_nil] at c1 c2
                  omega
              | cons b B =>
                  rw [hA1] at a1
                  rw [hA2] at a2
                  obtain ⟨s₁', b1, b2, b3, -⟩ := a1
                  obtain ⟨s₂', d1, d2, d3, -⟩ := a2
                  rw [hr] at b1
                  have := Except.ok.inj b1
                  subst this
                  exact ⟨s₂', _, _, [], [], d1, ⟨b2, d2, by rw [b3, d3, hs], h.same.set i rfl, phase_set h.phase₁ ho (by simp) (fun _ => rfl),
                    phase_set h.phase₂ hu (by simp) (fun _ => rfl)⟩, by simp⟩
  | some t =>
      cases u with
      | none => cases e
      | some v =>
          have e : t.content = v.content := Option.some.inj e
          have a1 := trainTree_some p hlife ω hω x label s₁ t₁ l₁ h.inv₁ i pos t ho
          have a2 := trainTree_some p hlife ω hω x label s₂ t₂ l₂ h.inv₂ i pos v hu
          have hc := grow_content p ω x label h.fresh t v 0 pos e
          cases g1 : grow p ω (freshOf (avail s₁.nodes)) x label t 0 pos with
          | error er => rw [g1] at a1; simp only at a1; rw [a1] at hr; cases hr
          | ok q1 =>
              rw [g1] at a1 hc
              obtain ⟨s₁', l₁', b1, b2, b3, -⟩ := a1
              rw [hr] at b1
              have := Except.ok.inj b1
              subst this
              cases g2 : grow p ω (freshOf (avail s₂.nodes)) x label v 0 pos with
              | error er => rw [g2] at hc; cases hc
              | ok q2 =>
                  rw [g2] at a2 hc
                  obtain ⟨s₂', l₂', d1, d2, d3, -⟩ := a2
                  simp only [Except.map, Except.ok.injEq, Prod.mk.injEq] at hc
                  refine ⟨s₂', _, _, l₁', l₂', ?_, ⟨b2, d2, by rw [b3, d3, h.size], h.same.set i (by simp [hc.1]), phase_set h.phase₁ ho (by simp) (by simp),
                    phase_set h.phase₂ hu (by simp) (by simp)⟩, by simp⟩
                  rw [d1, hc.2]

theorem trainLoop_twin (p : Params K) (hlife : 0 ≤ p.lifetime) (ω : Nat → K) (hω : ∀ i, 0 ≤ ω i ∧ ω i < 1) (x : Fin F → K) (label : Fin L) :
    ∀ (k i pos : Nat) (res : Option Bool) {s₁ s₂ : Forest K F L} {t₁ t₂ : List (Option (Tree K F L))} {l₁ l₂ : List Nat}, i + k = t₁.length →
      Twin i s₁ s₂ t₁ t₂ l₁ l₂ → ∀ (r : Forest K F L × Nat × Option Bool), trainLoop p ω x label i k s₁ pos res = .ok r →
      ∃ s₂' t₁' t₂' l₁' l₂', trainLoop p ω x label i k s₂ pos res = .ok (s₂', r.2.1, r.2.2) ∧ Twin 0 r.1 s₂' t₁' t₂' l₁' l₂' ∧ t₁'.length = t₁.length
  | 0, i, pos, res, s₁, s₂, t₁, t₂, l₁, l₂, hk, h, r, hr => by
      simp only [trainLoop, Except.ok.injEq] at hr
      subst hr
      have e1 : i = t₁.length := by omega
      have e2 : i = t₂.length := by rw [← h.same.length]; omega
      refine ⟨s₂, t₁, t₂, l₁, l₂, rfl, ⟨h.inv₁, h.inv₂, h.size, h.same, Or.inl (phase_end (e1 ▸ h.phase₁)), Or.inl ?_⟩, rfl⟩
      have := h.phase₂
      rw [e2] at this
      exact phase_end this
  | k + 1, i, pos, res, s₁, s₂, t₁, t₂, l₁, l₂, hk, h, r, hr => by
      simp only [trainLoop, bind, Except.bind] at hr
      cases h1 : trainTree p ω x label i s₁ pos with
      | error e => rw [h1] at hr; cases hr
      | ok q =>
          rw [h1] at hr
          obtain ⟨s₂', t₁', t₂', l₁', l₂', a1, a2, a3⟩ := trainTree_twin p hlife ω hω x label i pos h (by omega) q h1
          obtain ⟨s₂'', t₁'', t₂'', l₁'', l₂'', b1, b2, b3⟩ := trainLoop_twin p hlife ω hω x label k (i + 1) q.2.1 _ (by rw [a3]; omega) a2 r hr
          refine ⟨s₂'', t₁'', t₂'', l₁'', l₂'', ?_, b2, b3.trans a3⟩
          simp only [trainLoop, bind, Except.bind, a1]
          exact b1

/-- the trainings of a history -/
def trainings : List (Op K F L) → List (Op K F L)
  | [] => []
  | .train x l :: ops => .train x l :: trainings ops
  | .predict _ :: ops => trainings ops

theorem run_twin (p : Params K) (hlife : 0 ≤ p.lifetime) (ω : Nat → K) (hω : ∀ i, 0 ≤ ω i ∧ ω i < 1) : ∀ (ops : List (Op K F L)) (pos : Nat)
    {s₁ s₂ : Forest K F L} {t₁ t₂ : List (Option (Tree K F L))} {l₁ l₂ : List Nat}, Twin 0 s₁ s₂ t₁ t₂ l₁ l₂ → ∀ (r : Forest K F L × Nat),
      run p ω ops s₁ pos = .ok r → ∃ s₂' t₁' t₂' l₁' l₂', run p ω (trainings ops) s₂ pos = .ok (s₂', r.2) ∧ Twin 0 r.1 s₂' t₁' t₂' l₁' l₂'
  | [], pos, s₁, s₂, t₁, t₂, l₁, l₂, h, r, hr => by
      simp only [run, Except.ok.injEq] at hr
      subst hr
      exact ⟨s₂, t₁, t₂, l₁, l₂, rfl, h⟩
  | .train x l :: ops, pos, s₁, s₂, t₁, t₂, l₁, l₂, h, r, hr => by
      have r1 : s₁.roots.length = t₁.length := by rw [h.inv₁.all.roots, List.length_map]
      have r2 : s₂.roots.length = t₁.length := by rw [h.inv₂.all.roots, List.length_map, h.same.length]
      simp only [run, exec, train, r1, bind, Except.bind, pure, Except.pure] at hr
      cases h1 : trainLoop p ω x l 0 t₁.length s₁ pos none with
      | error e => rw [h1] at hr; cases hr
      | ok q =>
          rw [h1] at hr
          obtain ⟨s₂', t₁', t₂', l₁', l₂', a1, a2, a3⟩ := trainLoop_twin p hlife ω hω x l t₁.length 0 pos none (by omega) h q h1
          obtain ⟨s₂'', t₁'', t₂'', l₁'', l₂'', b1, b2⟩ := run_twin p hlife ω hω ops q.2.1 a2 r hr
          refine ⟨s₂'', t₁'', t₂'', l₁'', l₂'', ?_, b2⟩
          simp only [trainings, run, exec, train, r2, a1, bind, Except.bind, pure, Except.pure]
          exact b1
  | .predict x :: ops, pos, s₁, s₂, t₁, t₂, l₁, l₂, h, r, hr => by
      obtain ⟨nodes', d1, d2, -, d4⟩ := h.inv₁.predict_eq p
      simp only [run, exec, d4 x, bind, Except.bind, pure, Except.pure] at hr
      cases hl : label p x (recountAll t₁) with
      | error e => rw [hl] at hr; cases hr
      | ok q =>
          rw [hl] at hr
          simp only [Except.map] at hr
          exact run_twin p hlife ω hω ops pos (s₁ := { s₁ with nodes := nodes' }) (t₁ := recountAll t₁) ⟨d1, h.inv₂, by
            show nodes'.length = _; rw [d2.1, h.size], (SameTrees.recount t₁).symm.trans h.same, h.phase₁.imp recountAll_ne recountAll_young, h.phase₂⟩ r hr

/-- **C71** Calls of `predict` do not influence later calls: a history and the same history without its calls of `predict` consume the same random numbers and
end in states with the same trees that predict the same labels, also when the pool is exhausted. -/
theorem C71_predict_is_pure (p : Params K) (hlife : 0 ≤ p.lifetime) (ω : Nat → K) (hω : ∀ i, 0 ≤ ω i ∧ ω i < 1) (m n : Nat) (ops : List (Op K F L)) (pos : Nat)
    (s : Forest K F L) (pos' : Nat) (h : run p ω ops (new m n) pos = .ok (s, pos')) :
    ∃ s', run p ω (trainings ops) (new m n) pos = .ok (s', pos') ∧ (∃ trees trees', HoldsAll s trees ∧ HoldsAll s' trees' ∧ SameTrees trees trees') ∧
      ∀ x, (predict p s x).map (fun r => r.2) = (predict p s' x).map (fun r => r.2) := by
  have hy : Young (List.replicate n (none : Option (Tree K F L))) [] 0 :=
    ⟨rfl, fun j o hj _ => List.eq_of_mem_replicate (List.mem_of_getElem? hj), fun j o _ hj => by omega⟩
  obtain ⟨s', t₁, t₂, l₁, l₂, a1, a2⟩ := run_twin p hlife ω hω ops pos ⟨inv_new m n, inv_new m n, rfl, SameTrees.refl _, Or.inr hy, Or.inr hy⟩ _ h
  refine ⟨s', a1, ⟨t₁, t₂, a2.inv₁.all, a2.inv₂.all, a2.same⟩, fun x => ?_⟩
  obtain ⟨n1, -, -, -, d1⟩ := a2.inv₁.predict_eq p
  obtain ⟨n2, -, -, -, d2⟩ := a2.inv₂.predict_eq p
  rw [d1 x, d2 x, label_congr p x a2.same]
  cases label p x (recountAll t₂) <;> rfl

example : trainings exOps = [.train (pt 0) 0, .train (pt 1) 1, .train (pt 2) 1] := rfl

example : (run exP (exω []) exOps (new 4 2) 0).map (fun r => r.2) = .ok 13 ∧ (run exP (exω []) (trainings exOps) (new 4 2) 0).map (fun r => r.2) = .ok 13 := by
  decide +kernel

end Orp.Mondrian
