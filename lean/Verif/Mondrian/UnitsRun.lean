import Verif.Mondrian.Units
import Verif.Unbound.Props

/-!
The Mondrian forests in other units, with another origin and with other names of the labels (C98, C99).
-/

set_option linter.unusedSectionVars false

namespace Orp.Mondrian

open Unbound (pool_count Young phase_set phase_end recountAll_ne recountAll_young)

variable {K : Type} [Field K] [LinearOrder K] [IsStrictOrderedRing K] [FloorRing K] {F L : Nat}

/-- Two states of the same size, the trees of the second being those of the first in the new units; either all trees are there, or the first `i` are and
no node is lost. -/
structure Conj (u : Change K F L) (i : Nat) (s₁ s₂ : Forest K F L) (t₁ t₂ : List (Option (Tree K F L))) (l₁ l₂ : List Nat) : Prop where
  inv₁ : Inv s₁ t₁ l₁
  inv₂ : Inv s₂ t₂ l₂
  size : s₁.nodes.length = s₂.nodes.length
  same : SameTrees (u.trees t₁) t₂
  phase₁ : (∀ o ∈ t₁, o ≠ none) ∨ Young t₁ l₁ i
  phase₂ : (∀ o ∈ t₂, o ≠ none) ∨ Young t₂ l₂ i

variable {u : Change K F L}

theorem Conj.ids_length {i : Nat} {s₁ s₂ : Forest K F L} {t₁ t₂ : List (Option (Tree K F L))} {l₁ l₂ : List Nat} (h : Conj u i s₁ s₂ t₁ t₂ l₁ l₂) :
    (allIds t₁).length = (allIds t₂).length := by
  rw [← trees_ids u t₁]; exact h.same.ids_length

theorem Conj.length {i : Nat} {s₁ s₂ : Forest K F L} {t₁ t₂ : List (Option (Tree K F L))} {l₁ l₂ : List Nat} (h : Conj u i s₁ s₂ t₁ t₂ l₁ l₂) :
    t₁.length = t₂.length := by
  have := h.same.length
  simpa [Change.trees] using this

theorem Conj.get {i j : Nat} {s₁ s₂ : Forest K F L} {t₁ t₂ : List (Option (Tree K F L))} {l₁ l₂ : List Nat} (h : Conj u i s₁ s₂ t₁ t₂ l₁ l₂)
    {o : Option (Tree K F L)} (ho : t₁[j]? = some o) : ∃ v, t₂[j]? = some v ∧ (o.map u.tree).map Tree.content = v.map Tree.content :=
  h.same.get (by simp [Change.trees, ho])

theorem Conj.fresh {i : Nat} {s₁ s₂ : Forest K F L} {t₁ t₂ : List (Option (Tree K F L))} {l₁ l₂ : List Nat} (h : Conj u i s₁ s₂ t₁ t₂ l₁ l₂) :
    (freshOf (avail s₁.nodes)).isSome = (freshOf (avail s₂.nodes)).isSome := by
  have c1 := pool_count h.inv₁
  have c2 := pool_count h.inv₂
  have e := h.ids_length
  have o1 := h.inv₁.one
  have o2 := h.inv₂.one
  have z : ∀ {s : Forest K F L} {t : List (Option (Tree K F L))} {l : List Nat}, Inv s t l → l.length = 0 ∨ (avail s.nodes).length = 0 := by
    intro s t l hI
    by_cases hl : l = []
    · left; rw [hl]; rfl
    · right; rw [hI.empty hl]; rfl
  have z1 := z h.inv₁
  have z2 := z h.inv₂
  have hs := h.size
  rw [freshOf_isSome, freshOf_isSome]
  congr 1
  apply propext
  omega

theorem par_life (ha : 0 < u.a) (p : Params K) (hlife : 0 ≤ p.lifetime) : 0 ≤ (u.par p).lifetime := div_nonneg hlife ha.le

theorem trainTree_conj (ha : 0 < u.a) (p : Params K) (hlife : 0 ≤ p.lifetime) (ω : Nat → K) (hω : ∀ i, 0 ≤ ω i ∧ ω i < 1) (x : Fin F → K) (label : Fin L)
    (i pos : Nat) {s₁ s₂ : Forest K F L} {t₁ t₂ : List (Option (Tree K F L))} {l₁ l₂ : List Nat} (h : Conj u i s₁ s₂ t₁ t₂ l₁ l₂) (hi : i < t₁.length)
    (r : Forest K F L × Nat × Bool) (hr : trainTree p ω x label i s₁ pos = .ok r) :
    ∃ s₂' t₁' t₂' l₁' l₂', trainTree (u.par p) ω (u.pt x) (u.σ label) i s₂ pos = .ok (s₂', r.2.1, r.2.2) ∧ Conj u (i + 1) r.1 s₂' t₁' t₂' l₁' l₂' ∧
      t₁'.length = t₁.length := by
  obtain ⟨o, ho⟩ : ∃ o, t₁[i]? = some o := ⟨_, List.getElem?_eq_getElem hi⟩
  obtain ⟨v, hv, e⟩ := h.get ho
  cases o with
  | none =>
      cases v with
      | some _ => cases e
      | none =>
          have hl1 : l₁ = [] := by
            rcases h.phase₁ with h1 | h1
            · exact absurd rfl (h1 none (List.mem_of_getElem? ho))
            · exact h1.1
          have hl2 : l₂ = [] := by
            rcases h.phase₂ with h1 | h1
            · exact absurd rfl (h1 none (List.mem_of_getElem? hv))
            · exact h1.1
          have c1 := pool_count h.inv₁
          have c2 := pool_count h.inv₂
          have e1 := h.ids_length
          have hs := h.size
          rw [hl1] at c1
          rw [hl2] at c2
          have a1 := trainTree_none p hlife ω x label s₁ t₁ l₁ h.inv₁ i pos ho
          have a2 := trainTree_none (u.par p) (par_life ha p hlife) ω (u.pt x) (u.σ label) s₂ t₂ l₂ h.inv₂ i pos hv
          cases hA1 : avail s₁.nodes with
          | nil => rw [hA1] at a1; simp only at a1; rw [a1] at hr; cases hr
          | cons a A =>
              cases hA2 : avail s₂.nodes with
              | nil =>
                  rw [hA1] at c1
                  rw [hA2] at c2
                  simp only [List.length_cons, List.length_nil] at c1 c2
                  omega
              | cons b B =>
                  rw [hA1] at a1
                  rw [hA2] at a2
                  obtain ⟨s₁', b1, b2, b3, -⟩ := a1
                  obtain ⟨s₂', d1, d2, d3, -⟩ := a2
                  rw [hr] at b1
                  have := Except.ok.inj b1
                  subst this
                  refine ⟨s₂', _, _, [], [], d1, ⟨b2, d2, by rw [b3, d3, hs], ?_, phase_set h.phase₁ ho (by simp) (fun _ => rfl),
                    phase_set h.phase₂ hv (by simp) (fun _ => rfl)⟩, by simp⟩
                  rw [trees_set]
                  refine h.same.set i ?_
                  simp only [Option.map_some, ← newLeaf_change]
                  rfl
  | some t =>
      cases v with
      | none => cases e
      | some v =>
          have e : (u.tree t).content = v.content := Option.some.inj e
          have a1 := trainTree_some p hlife ω hω x label s₁ t₁ l₁ h.inv₁ i pos t ho
          have a2 := trainTree_some (u.par p) (par_life ha p hlife) ω hω (u.pt x) (u.σ label) s₂ t₂ l₂ h.inv₂ i pos v hv
          have hc := grow_content (u.par p) ω (u.pt x) (u.σ label) h.fresh (u.tree t) v 0 pos e
          have hg := grow_change ha p ω (freshOf (avail s₁.nodes)) x label t 0 pos
          rw [zero_div] at hg
          rw [hg] at hc
          cases g1 : grow p ω (freshOf (avail s₁.nodes)) x label t 0 pos with
          | error er => rw [g1] at a1; simp only at a1; rw [a1] at hr; cases hr
          | ok q1 =>
              rw [g1] at a1 hc
              obtain ⟨s₁', l₁', b1, b2, b3, -⟩ := a1
              rw [hr] at b1
              have := Except.ok.inj b1
              subst this
              cases g2 : grow (u.par p) ω (freshOf (avail s₂.nodes)) (u.pt x) (u.σ label) v 0 pos with
              | error er => rw [g2] at hc; cases hc
              | ok q2 =>
                  rw [g2] at a2 hc
                  obtain ⟨s₂', l₂', d1, d2, d3, -⟩ := a2
                  simp only [Except.map, Except.ok.injEq, Prod.mk.injEq] at hc
                  refine ⟨s₂', _, _, l₁', l₂', ?_, ⟨b2, d2, by rw [b3, d3, h.size], ?_, phase_set h.phase₁ ho (by simp) (by simp),
                    phase_set h.phase₂ hv (by simp) (by simp)⟩, by simp⟩
                  · rw [d1, hc.2]
                  · rw [trees_set]
                    exact h.same.set i (by simp [hc.1])

theorem trainLoop_conj (ha : 0 < u.a) (p : Params K) (hlife : 0 ≤ p.lifetime) (ω : Nat → K) (hω : ∀ i, 0 ≤ ω i ∧ ω i < 1) (x : Fin F → K) (label : Fin L) :
    ∀ (k i pos : Nat) (res : Option Bool) {s₁ s₂ : Forest K F L} {t₁ t₂ : List (Option (Tree K F L))} {l₁ l₂ : List Nat}, i + k = t₁.length →
      Conj u i s₁ s₂ t₁ t₂ l₁ l₂ → ∀ (r : Forest K F L × Nat × Option Bool), trainLoop p ω x label i k s₁ pos res = .ok r →
      ∃ s₂' t₁' t₂' l₁' l₂', trainLoop (u.par p) ω (u.pt x) (u.σ label) i k s₂ pos res = .ok (s₂', r.2.1, r.2.2) ∧ Conj u 0 r.1 s₂' t₁' t₂' l₁' l₂' ∧
        t₁'.length = t₁.length
  | 0, i, pos, res, s₁, s₂, t₁, t₂, l₁, l₂, hk, h, r, hr => by
      simp only [trainLoop, Except.ok.injEq] at hr
      subst hr
      have e1 : i = t₁.length := by omega
      have e2 : i = t₂.length := by rw [← h.length]; omega
      refine ⟨s₂, t₁, t₂, l₁, l₂, rfl, ⟨h.inv₁, h.inv₂, h.size, h.same, Or.inl (phase_end (e1 ▸ h.phase₁)), Or.inl ?_⟩, rfl⟩
      have := h.phase₂
      rw [e2] at this
      exact phase_end this
  | k + 1, i, pos, res, s₁, s₂, t₁, t₂, l₁, l₂, hk, h, r, hr => by
      simp only [trainLoop, bind, Except.bind] at hr
      cases h1 : trainTree p ω x label i s₁ pos with
      | error e => rw [h1] at hr; cases hr
      | ok q =>
          rw [h1] at hr
          obtain ⟨s₂', t₁', t₂', l₁', l₂', a1, a2, a3⟩ := trainTree_conj ha p hlife ω hω x label i pos h (by omega) q h1
          obtain ⟨s₂'', t₁'', t₂'', l₁'', l₂'', b1, b2, b3⟩ := trainLoop_conj ha p hlife ω hω x label k (i + 1) q.2.1 _ (by rw [a3]; omega) a2 r hr
          refine ⟨s₂'', t₁'', t₂'', l₁'', l₂'', ?_, b2, b3.trans a3⟩
          simp only [trainLoop, bind, Except.bind, a1]
          exact b1

/-- A prediction is defined in the new units if it is in the old ones. -/
theorem label_new (ha : 0 < u.a) (p : Params K) (x : Fin F → K) (ts ts' : List (Option (Tree K F L))) (h : SameTrees (u.trees ts) ts') :
    label (u.par p) (u.pt x) (recountAll ts') = (totals p x (recountAll ts) (fun _ => 0)).bind (fun v => if ts.length = 0 then .error .ub else
      .ok (Utils.indexMax (List.ofFn (fun k => u.fn v k / (ts.length : K))))) := by
  have hl : ts.length = ts'.length := by have := h.length; simpa [Change.trees] using this
  unfold label
  rw [totals_new ha p x ts ts' h]
  simp only [recountAll, List.length_map, hl]
  cases totals p x (List.map (fun t => Option.map Tree.recount t) ts) (fun _ => 0) <;> rfl

theorem label_old (p : Params K) (x : Fin F → K) (ts : List (Option (Tree K F L))) :
    label p x (recountAll ts) = (totals p x (recountAll ts) (fun _ => 0)).bind (fun v => if ts.length = 0 then .error .ub else
      .ok (Utils.indexMax (List.ofFn (fun k => v k / (ts.length : K))))) := by
  unfold label
  simp only [recountAll, List.length_map]
  rfl

theorem label_defined (ha : 0 < u.a) (p : Params K) (x : Fin F → K) (ts ts' : List (Option (Tree K F L))) (h : SameTrees (u.trees ts) ts') {q : Nat}
    (hq : label p x (recountAll ts) = .ok q) : ∃ q', label (u.par p) (u.pt x) (recountAll ts') = .ok q' := by
  rw [label_new ha p x ts ts' h]
  rw [label_old] at hq
  cases hv : totals p x (recountAll ts) (fun _ => 0) with
  | error e => rw [hv] at hq; cases hq
  | ok v =>
      rw [hv] at hq
      simp only [Except.bind] at hq ⊢
      split at hq
      · cases hq
      · rename_i hne
        exact ⟨_, by rw [if_neg hne]⟩

theorem run_conj (ha : 0 < u.a) (p : Params K) (hlife : 0 ≤ p.lifetime) (ω : Nat → K) (hω : ∀ i, 0 ≤ ω i ∧ ω i < 1) : ∀ (ops : List (Op K F L)) (pos : Nat)
    {s₁ s₂ : Forest K F L} {t₁ t₂ : List (Option (Tree K F L))} {l₁ l₂ : List Nat}, Conj u 0 s₁ s₂ t₁ t₂ l₁ l₂ → ∀ (r : Forest K F L × Nat),
      run p ω ops s₁ pos = .ok r → ∃ s₂' t₁' t₂' l₁' l₂', run (u.par p) ω (ops.map u.op) s₂ pos = .ok (s₂', r.2) ∧ Conj u 0 r.1 s₂' t₁' t₂' l₁' l₂'
  | [], pos, s₁, s₂, t₁, t₂, l₁, l₂, h, r, hr => by
      simp only [run, Except.ok.injEq] at hr
      subst hr
      exact ⟨s₂, t₁, t₂, l₁, l₂, rfl, h⟩
  | .train x l :: ops, pos, s₁, s₂, t₁, t₂, l₁, l₂, h, r, hr => by
      have r1 : s₁.roots.length = t₁.length := by rw [h.inv₁.all.roots, List.length_map]
      have r2 : s₂.roots.length = t₁.length := by rw [h.inv₂.all.roots, List.length_map, h.length]
      simp only [run, exec, train, r1, bind, Except.bind, pure, Except.pure] at hr
      cases h1 : trainLoop p ω x l 0 t₁.length s₁ pos none with
      | error e => rw [h1] at hr; cases hr
      | ok q =>
          rw [h1] at hr
          obtain ⟨s₂', t₁', t₂', l₁', l₂', a1, a2, a3⟩ := trainLoop_conj ha p hlife ω hω x l t₁.length 0 pos none (by omega) h q h1
          obtain ⟨s₂'', t₁'', t₂'', l₁'', l₂'', b1, b2⟩ := run_conj ha p hlife ω hω ops q.2.1 a2 r hr
          refine ⟨s₂'', t₁'', t₂'', l₁'', l₂'', ?_, b2⟩
          simp only [List.map_cons, Change.op, run, exec, train, r2, a1, bind, Except.bind, pure, Except.pure]
          exact b1
  | .predict x :: ops, pos, s₁, s₂, t₁, t₂, l₁, l₂, h, r, hr => by
      obtain ⟨nodes₁, d1, d2, -, d4⟩ := h.inv₁.predict_eq p
      obtain ⟨nodes₂, e1, e2, -, e4⟩ := h.inv₂.predict_eq (u.par p)
      simp only [run, exec, d4 x, bind, Except.bind, pure, Except.pure] at hr
      cases hl : label p x (recountAll t₁) with
      | error e => rw [hl] at hr; cases hr
      | ok q =>
          rw [hl] at hr
          simp only [Except.map] at hr
          obtain ⟨q', hq'⟩ := label_defined ha p x t₁ t₂ h.same hl
          have hc : Conj u 0 { s₁ with nodes := nodes₁ } { s₂ with nodes := nodes₂ } (recountAll t₁) (recountAll t₂) l₁ l₂ := by
            refine ⟨d1, e1, ?_, ?_, h.phase₁.imp recountAll_ne recountAll_young, h.phase₂.imp recountAll_ne recountAll_young⟩
            · show nodes₁.length = nodes₂.length
              rw [d2.1, e2.1, h.size]
            · rw [← trees_recount]
              exact (SameTrees.recount _).symm.trans (h.same.trans (SameTrees.recount _))
          obtain ⟨s', t₁', t₂', l₁', l₂', b1, b2⟩ := run_conj ha p hlife ω hω ops pos hc r hr
          refine ⟨s', t₁', t₂', l₁', l₂', ?_, b2⟩
          simp only [List.map_cons, Change.op, run, exec, e4 (u.pt x), hq', Except.map, bind, Except.bind, pure, Except.pure]
          exact b1

theorem conj_new (u : Change K F L) (m n : Nat) : Conj u 0 (new m n) (new m n) (List.replicate n none) (List.replicate n none) [] [] := by
  have hy : Young (List.replicate n (none : Option (Tree K F L))) [] 0 :=
    ⟨rfl, fun j o hj _ => List.eq_of_mem_replicate (List.mem_of_getElem? hj), fun j o _ hj => by omega⟩
  refine ⟨inv_new m n, inv_new m n, rfl, ?_, Or.inr hy, Or.inr hy⟩
  simp [Change.trees, SameTrees]

/-- The sums over the trees that `predict` (mondrian.hpp:463-489) compares: the label with the greatest one, the first of them, is returned. -/
def votes (p : Params K) (s : Forest K F L) (x : Fin F → K) : Res (Fin L → K) := do
  let nodes ← updateCounts s.nodes.length s.roots s.nodes
  sumLoop p { s with nodes := nodes } x s.roots (fun _ => 0)

theorem predict_votes (p : Params K) (s : Forest K F L) (x : Fin F → K) : (predict p s x).map (fun r => r.2) = (votes p s x).bind (fun v =>
    if s.roots.length = 0 then .error .ub else .ok (Utils.indexMax (List.ofFn (fun k => v k / (s.roots.length : K))))) := by
  unfold predict votes
  cases updateCounts s.nodes.length s.roots s.nodes with
  | error e => rfl
  | ok nodes =>
      simp only [bind, Except.bind]
      cases sumLoop p { s with nodes := nodes } x s.roots (fun _ => 0) with
      | error e => rfl
      | ok v =>
          simp only
          split <;> rfl

theorem Inv.votes_eq {s : Forest K F L} {trees : List (Option (Tree K F L))} {lost : List Nat} (h : Inv s trees lost) (p : Params K) (x : Fin F → K) :
    votes p s x = totals p x (recountAll trees) (fun _ => 0) := by
  obtain ⟨nodes', a1, a2, a3, a4⟩ := h.recount
  have hr : s.roots = (recountAll trees).map (fun t => t.map Tree.id) := a2.all.roots
  have e := sumLoop_spec p { s with nodes := nodes' } x (recountAll trees) (fun _ => 0) (fun t ht => by
    obtain ⟨j, hj⟩ := List.mem_iff_getElem?.1 ht
    exact ⟨a2.height_le hj, a2.all.holds t ht⟩)
  rw [← hr] at e
  unfold votes
  simp only [bind, Except.bind, a1, e]

theorem Conj.votes {i : Nat} {s₁ s₂ : Forest K F L} {t₁ t₂ : List (Option (Tree K F L))} {l₁ l₂ : List Nat} (ha : 0 < u.a) (h : Conj u i s₁ s₂ t₁ t₂ l₁ l₂)
    (p : Params K) (x : Fin F → K) : Mondrian.votes (u.par p) s₂ (u.pt x) = (Mondrian.votes p s₁ x).map u.fn := by
  rw [h.inv₁.votes_eq, h.inv₂.votes_eq, totals_new ha p x t₁ t₂ h.same]

/-- **C98, C99** Training in other units, with another origin and other names of the labels: the same random numbers are consumed, and every label gets the
same votes under its new name. -/
theorem C99_votes (u : Change K F L) (ha : 0 < u.a) (p : Params K) (hlife : 0 ≤ p.lifetime) (ω : Nat → K) (hω : ∀ i, 0 ≤ ω i ∧ ω i < 1) (m n : Nat)
    (ops : List (Op K F L)) (pos : Nat) (s : Forest K F L) (pos' : Nat) (h : run p ω ops (new m n) pos = .ok (s, pos')) :
    ∃ s', run (u.par p) ω (ops.map u.op) (new m n) pos = .ok (s', pos') ∧ s'.roots.length = s.roots.length ∧
      ∀ x, votes (u.par p) s' (u.pt x) = (votes p s x).map (fun v l => v (u.σ.symm l)) := by
  obtain ⟨s', t₁, t₂, l₁, l₂, a1, a2⟩ := run_conj ha p hlife ω hω ops pos (conj_new u m n) _ h
  refine ⟨s', a1, ?_, fun x => a2.votes ha p x⟩
  rw [a2.inv₁.all.roots, a2.inv₂.all.roots, List.length_map, List.length_map, a2.length]

/-- a change of units and origin -/
def rescale (a : K) (b : Fin F → K) : Change K F L := { a := a, b := b, σ := Equiv.refl _ }

/-- **C98** The choice of the units and of the origin does not matter: if every feature value `v` of feature `i` is replaced by `a · v + b i`, with one factor
`a > 0` for all features, and `lifetime` is divided by `a` and `discount` multiplied by `a`, then the same random numbers are consumed and the same labels
predicted. -/
theorem C98_units (a : K) (ha : 0 < a) (b : Fin F → K) (p : Params K) (hlife : 0 ≤ p.lifetime) (ω : Nat → K) (hω : ∀ i, 0 ≤ ω i ∧ ω i < 1) (m n : Nat)
    (ops : List (Op K F L)) (pos : Nat) (s : Forest K F L) (pos' : Nat) (h : run p ω ops (new m n) pos = .ok (s, pos')) :
    ∃ s', run { p with lifetime := p.lifetime / a, discount := a * p.discount } ω (ops.map (rescale a b).op) (new m n) pos = .ok (s', pos') ∧
      ∀ x : Fin F → K, (predict { p with lifetime := p.lifetime / a, discount := a * p.discount } s' (fun i => a * x i + b i)).map (fun r => r.2) =
        (predict p s x).map (fun r => r.2) := by
  obtain ⟨s', h1, h2, h3⟩ := C99_votes (rescale a b : Change K F L) ha p hlife ω hω m n ops pos s pos' h
  refine ⟨s', h1, fun x => ?_⟩
  have h3 := h3 x
  rw [predict_votes, predict_votes]
  rw [show votes { p with lifetime := p.lifetime / a, discount := a * p.discount } s' (fun i => a * x i + b i) = _ from h3, h2]
  cases votes p s x <;> rfl

/-- **C98** The origin alone: adding a constant to every value of a feature changes nothing. -/
theorem C98_origin (b : Fin F → K) (p : Params K) (hlife : 0 ≤ p.lifetime) (ω : Nat → K) (hω : ∀ i, 0 ≤ ω i ∧ ω i < 1) (m n : Nat)
    (ops : List (Op K F L)) (pos : Nat) (s : Forest K F L) (pos' : Nat) (h : run p ω ops (new m n) pos = .ok (s, pos')) :
    ∃ s', run p ω (ops.map (rescale 1 b).op) (new m n) pos = .ok (s', pos') ∧
      ∀ x : Fin F → K, (predict p s' (fun i => x i + b i)).map (fun r => r.2) = (predict p s x).map (fun r => r.2) := by
  have := C98_units 1 one_pos b p hlife ω hω m n ops pos s pos' h
  simpa using this

theorem indexMax_unique (v : Fin L → K) (l : Fin L) (h : ∀ k, k ≠ l → v k < v l) : Utils.indexMax (List.ofFn v) = l := by
  have hne : List.ofFn v ≠ [] := by
    have := l.pos
    intro h
    have := congrArg List.length h
    simp at this
    omega
  obtain ⟨hb, h1, -⟩ := Utils.C32_index_max (List.ofFn v) hne
  have hL : Utils.indexMax (List.ofFn v) < L := by simpa using hb
  by_contra hx
  have h2 := h1 (v l) (List.mem_ofFn.2 ⟨l, rfl⟩)
  rw [List.getElem_ofFn] at h2
  exact absurd h2 (not_le.2 (h _ (fun e => hx (congrArg Fin.val e))))

/-- a renaming of the labels -/
def rename (σ : Equiv.Perm (Fin L)) : Change K F L := { a := 1, b := fun _ => 0, σ := σ }

theorem rename_pt (σ : Equiv.Perm (Fin L)) (x : Fin F → K) : (rename σ : Change K F L).pt x = x := by
  funext i
  simp [Change.pt, rename]

theorem rename_par (σ : Equiv.Perm (Fin L)) (p : Params K) : (rename σ : Change K F L).par p = p := by
  simp [Change.par, rename]

/-- the call with the labels renamed -/
def renamed (σ : Equiv.Perm (Fin L)) : Op K F L → Op K F L
  | .train x l => .train x (σ l)
  | .predict x => .predict x

theorem rename_op (σ : Equiv.Perm (Fin L)) : (rename σ : Change K F L).op = renamed σ := by
  funext o
  cases o with
  | train x l => show Op.train ((rename σ : Change K F L).pt x) (σ l) = _; rw [rename_pt]; rfl
  | predict x => show Op.predict ((rename σ : Change K F L).pt x) = _; rw [rename_pt]; rfl

/-- the winner is renamed with the labels -/
theorem winner_renamed (σ : Equiv.Perm (Fin L)) {v : Fin L → K} {l : Fin L} (hb : ∀ k, k ≠ l → v k < v l) {n : K} (hn : 0 < n) :
    Utils.indexMax (List.ofFn (fun k => v (σ.symm k) / n)) = (σ l).val := by
  apply indexMax_unique
  intro k hk
  have : σ.symm k ≠ l := by rintro rfl; simp at hk
  simpa using div_lt_div_of_pos_right (hb _ this) hn

/-- **C99** (partial) The names of the labels do not matter: if the labels of all training points are renamed by a permutation, the same random numbers are
consumed and, wherever one label has more votes than every other label, that label under its new name is predicted. Missing: ties, see `C99_ties`. -/
theorem C99_rename_partial (σ : Equiv.Perm (Fin L)) (p : Params K) (hlife : 0 ≤ p.lifetime) (ω : Nat → K) (hω : ∀ i, 0 ≤ ω i ∧ ω i < 1) (m n : Nat)
    (ops : List (Op K F L)) (pos : Nat) (s : Forest K F L) (pos' : Nat) (h : run p ω ops (new m n) pos = .ok (s, pos')) :
    ∃ s', run p ω (ops.map (renamed σ)) (new m n) pos = .ok (s', pos') ∧
      ∀ (x : Fin F → K) (v : Fin L → K) (l : Fin L), votes p s x = .ok v → (∀ k, k ≠ l → v k < v l) → 0 < n →
        (predict p s x).map (fun r => r.2) = .ok l.val ∧ (predict p s' x).map (fun r => r.2) = .ok (σ l).val := by
  obtain ⟨s', t₁, t₂, l₁, l₂, a1, a2⟩ := run_conj (u := (rename σ : Change K F L)) one_pos p hlife ω hω ops pos (conj_new _ m n) _ h
  rw [rename_par, rename_op] at a1
  refine ⟨s', a1, fun x v l hv hb hn => ?_⟩
  have hv' := a2.votes one_pos p x
  rw [rename_par, rename_pt] at hv'
  simp only at hv'
  have hlen : ∀ {ops : List (Op K F L)} {s : Forest K F L} {pos pos' : Nat}, run p ω ops (new m n) pos = .ok (s, pos') → s.roots.length = n := by
    intro ops s pos pos' hr
    obtain ⟨trees, lost, b1, -, b2, -⟩ := run_good p hlife ω hω (· ≤ ·) (fun a b h => h.le) (draw_le hω) m n ops pos _ hr
    have := b1.all.roots
    simp only at this
    rw [this, List.length_map, b2]
  have hn' : (0 : K) < (n : K) := by exact_mod_cast hn
  rw [predict_votes, predict_votes, hlen h, hlen a1, hv', hv]
  simp only [Except.bind, Except.map, if_neg (Nat.pos_iff_ne_zero.1 hn)]
  refine ⟨?_, ?_⟩
  · have := winner_renamed (Equiv.refl _) hb hn'
    simpa using this
  · have := winner_renamed σ hb hn'
    exact congrArg Except.ok this

/-- The same point with both labels: both have the same votes, and the first label is predicted, whatever the labels are called. -/
theorem C99_ties : ∃ (σ : Equiv.Perm (Fin 2)) (p : Params ℚ) (ω : Nat → ℚ) (ops : List (Op ℚ 1 2)) (x : Fin 1 → ℚ) (s s' : Forest ℚ 1 2) (pos : Nat),
    (∀ i, 0 ≤ ω i ∧ ω i < 1) ∧ run p ω ops (new 8 2) 0 = .ok (s, pos) ∧ run p ω (ops.map (renamed σ)) (new 8 2) 0 = .ok (s', pos) ∧
    (predict p s x).map (fun r => r.2) = .ok 0 ∧ (predict p s' x).map (fun r => r.2) = .ok 0 ∧ σ 0 = 1 := by
  have h1 : (run exP (exω []) [.train (pt 0) (0 : Fin 2), .train (pt 0) 1] (new 8 2) 0).bind (fun r => (predict exP r.1 (pt 3)).map (fun q => (r.2, q.2))) = .ok (0, 0) := by
    decide +kernel
  have h2 : (run exP (exω []) ([.train (pt 0) (0 : Fin 2), .train (pt 0) 1].map (renamed (Equiv.swap 0 1))) (new 8 2) 0).bind
      (fun r => (predict exP r.1 (pt 3)).map (fun q => (r.2, q.2))) = .ok (0, 0) := by
    decide +kernel
  have key : ∀ ops : List (Op ℚ 1 2), (run exP (exω []) ops (new 8 2) 0).bind (fun r => (predict exP r.1 (pt 3)).map (fun q => (r.2, q.2))) = .ok (0, 0) →
      ∃ s, run exP (exω []) ops (new 8 2) 0 = .ok (s, 0) ∧ (predict exP s (pt 3)).map (fun r => r.2) = .ok 0 := by
    intro ops h
    cases hr : run exP (exω []) ops (new 8 2) 0 with
    | error e => rw [hr] at h; cases h
    | ok r =>
        rw [hr] at h
        simp only [Except.bind] at h
        cases hp : predict exP r.1 (pt 3) with
        | error e => rw [hp] at h; cases h
        | ok q =>
            rw [hp] at h
            simp only [Except.map, Except.ok.injEq, Prod.mk.injEq] at h
            refine ⟨r.1, ?_, ?_⟩
            · rw [← h.1]
            · rw [hp]; simp only [Except.map, h.2]
  obtain ⟨s, a1, a2⟩ := key _ h1
  obtain ⟨s', b1, b2⟩ := key _ h2
  exact ⟨Equiv.swap 0 1, exP, exω [], _, pt 3, s, s', 0, exω_range _, a1, b1, a2, b2, by decide⟩

/-- a history in other units: 3 units of the old scale are one of the new one, the origin is moved by 5; labels are as before -/
example : (run { exP with lifetime := exP.lifetime / 3, discount := 3 * exP.discount } (exω []) (exOps.map (rescale 3 (fun _ => 5)).op) (new 8 2) 0).map
      (fun r => (r.2, r.1.nodes.map (fun n => n.tau))) =
    (run exP (exω []) exOps (new 8 2) 0).map (fun r => (r.2, r.1.nodes.map (fun n => if n.tau < 0 then n.tau else n.tau / 3))) := by
  decide +kernel

/-- a label with more votes than the other one, as in the hypotheses of `C99_rename_partial` -/
example : (run exP (exω []) exOps (new 8 2) 0).bind (fun r => (votes exP r.1 (pt 2)).map (fun v => decide (v 0 < v 1))) = .ok true := by
  decide +kernel

end Orp.Mondrian
