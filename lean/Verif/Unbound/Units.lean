import Verif.Mondrian.UnitsRun

/-!
The Mondrian forest with unlimited memory in other units, with another origin and with other names of the labels (C98, C99).
-/

set_option linter.unusedSectionVars false

namespace Orp.Unbound

open Mondrian

variable {K : Type} [Field K] [LinearOrder K] [IsStrictOrderedRing K] [FloorRing K] {F L : Nat} {u : Change K F L}

theorem idealTree_change (ha : 0 < u.a) (p : Params K) (ω : Nat → K) (x : Fin F → K) (l : Fin L) (pos : Nat) : ∀ o : Option (Mondrian.Tree K F L),
    idealTree (u.par p) ω (u.pt x) (u.σ l) (o.map u.tree) pos = (idealTree p ω x l o pos).map (fun r => (r.1.map u.tree, r.2))
  | none => by
      simp only [Option.map_none, idealTree, Except.map, Option.map_some, ← newLeaf_change]
      rfl
  | some t => by
      have hg := grow_change ha p ω (some (0, 0)) x l t 0 pos
      rw [zero_div] at hg
      simp only [Option.map_some, idealTree, hg]
      cases grow p ω (some (0, 0)) x l t 0 pos with
      | error e => rfl
      | ok q => simp only [Except.map, tree_content, Option.map_some]

theorem idealLoop_change (ha : 0 < u.a) (p : Params K) (ω : Nat → K) (x : Fin F → K) (l : Fin L) : ∀ (k i : Nat) (cs : List (Option (Mondrian.Tree K F L)))
    (pos : Nat), idealLoop (u.par p) ω (u.pt x) (u.σ l) i k (u.trees cs) pos = (idealLoop p ω x l i k cs pos).map (fun r => (u.trees r.1, r.2))
  | 0, i, cs, pos => rfl
  | k + 1, i, cs, pos => by
      have hj : ((u.trees cs)[i]?).join = ((cs[i]?).join).map u.tree := by
        simp only [Change.trees, List.getElem?_map]
        cases cs[i]? <;> rfl
      simp only [idealLoop, hj, idealTree_change ha]
      cases idealTree p ω x l (cs[i]?).join pos with
      | error e => rfl
      | ok q =>
          simp only [Except.map]
          rw [← trees_set]
          exact idealLoop_change ha p ω x l k (i + 1) (cs.set i q.1) q.2

theorem idealRun_change (ha : 0 < u.a) (p : Params K) (ω : Nat → K) (n : Nat) : ∀ (ops : List (Op K F L)) (cs : List (Option (Mondrian.Tree K F L))) (pos : Nat)
    (r : List (Option (Mondrian.Tree K F L)) × Nat), idealRun p ω n ops cs pos = .ok r →
    idealRun (u.par p) ω n (ops.map u.op) (u.trees cs) pos = .ok (u.trees r.1, r.2)
  | [], cs, pos, r, h => by
      simp only [idealRun, Except.ok.injEq] at h
      subst h
      rfl
  | .train x l :: ops, cs, pos, r, h => by
      simp only [idealRun] at h
      simp only [List.map_cons, Change.op, idealRun, idealLoop_change ha]
      cases hl : idealLoop p ω x l 0 n cs pos with
      | error e => rw [hl] at h; cases h
      | ok q =>
          rw [hl] at h
          simp only [Except.map]
          exact idealRun_change ha p ω n ops q.1 q.2 r h
  | .predict x :: ops, cs, pos, r, h => by
      simp only [idealRun] at h
      cases hl : label p x (recountAll cs) with
      | error e => rw [hl] at h; cases h
      | ok q =>
          rw [hl] at h
          obtain ⟨q', hq'⟩ := label_defined ha p x cs (u.trees cs) (SameTrees.refl _) hl
          simp only [List.map_cons, Change.op, idealRun, hq']
          exact idealRun_change ha p ω n ops cs pos r h

/-- The sums over the trees that `predict` (mondrian_unbound.hpp:475-499) compares: the label with the greatest one, the first of them, is returned. -/
def votes (p : Params K) (s : Forest K F L) (x : Fin F → K) : Res (Fin L → K) :=
  sumLoop p { nodes := s.heap, roots := s.roots } x s.roots (fun _ => 0)

theorem predict_votes (p : Params K) (s : Forest K F L) (x : Fin F → K) : predict p s x = (votes p s x).bind (fun v =>
    if s.roots.length = 0 then .error .ub else .ok (Utils.indexMax (List.ofFn (fun k => v k / (s.roots.length : K))))) := by
  unfold predict votes
  rfl

theorem Inv.votes_eq {s : Forest K F L} {trees : List (Option (Mondrian.Tree K F L))} (h : Inv s trees) (p : Params K) (x : Fin F → K) :
    votes p s x = totals p x (Mondrian.recountAll trees) (fun _ => 0) := by
  rw [h.recountAll]
  have hr : s.roots = trees.map (fun t => t.map Mondrian.Tree.id) := h.all.roots
  have e := sumLoop_spec p { nodes := s.heap, roots := s.roots } x trees (fun _ => 0) (fun t ht => by
    obtain ⟨j, hj⟩ := List.mem_iff_getElem?.1 ht
    exact ⟨h.height_le hj, h.all.holds t ht⟩)
  rw [← hr] at e
  exact e

/-- Training in other units, with another origin and other names of the labels: the same random numbers are consumed, and every label gets the same votes under
its new name. -/
theorem C99_votes (u : Change K F L) (ha : 0 < u.a) (p : Params K) (ω : Nat → K) (hω : ∀ i, 0 ≤ ω i ∧ ω i < 1) (n : Nat)
    (ops : List (Op K F L)) (pos : Nat) (s : Forest K F L) (pos' : Nat) (h : run p ω ops (new n) pos = .ok (s, pos')) :
    ∃ s', run (u.par p) ω (ops.map u.op) (new n) pos = .ok (s', pos') ∧ s.roots.length = n ∧ s'.roots.length = n ∧
      ∀ x, votes (u.par p) s' (u.pt x) = (votes p s x).map (fun v l => v (u.σ.symm l)) := by
  obtain ⟨trees, a1, a2, -, a4, -⟩ := run_good p ω hω (· ≤ ·) (fun a b h => h.le) (draw_le' hω) n ops pos _ h
  have b1 := idealRun_change ha p ω n ops _ pos _ a4
  rw [show u.trees (contents (List.replicate n none)) = contents (List.replicate n none) by simp [Change.trees, contents]] at b1
  have h1 := run_ideal (u.par p) ω hω (· ≤ ·) (fun a b h => h.le) (draw_le' hω) n (ops.map u.op) (new n) (List.replicate n none) pos [] (inv_new n) (by simp) (by
    intro o ho; rw [List.eq_of_mem_replicate ho]; rfl)
  rw [b1] at h1
  obtain ⟨s', trees', c1, c2, c3, c4, -⟩ := h1
  have hsame : SameTrees (u.trees trees) trees' := by
    have e : contents (u.trees trees) = u.trees (contents trees) := by
      simp only [contents, Change.trees, List.map_map]
      apply List.map_congr_left
      intro o _
      cases o with
      | none => rfl
      | some t => simp [tree_content]
    show contents (u.trees trees) = contents trees'
    rw [e, c3]
  refine ⟨s', c1, ?_, ?_, fun x => ?_⟩
  · rw [← a2]; exact a1.roots_length
  · rw [← c4]; exact c2.roots_length
  · rw [a1.votes_eq, c2.votes_eq, totals_new ha p x trees trees' hsame]
    rfl

/-- **C98** The choice of the units and of the origin does not matter (forest with unlimited memory). -/
theorem C98_units (a : K) (ha : 0 < a) (b : Fin F → K) (p : Params K) (ω : Nat → K) (hω : ∀ i, 0 ≤ ω i ∧ ω i < 1) (n : Nat)
    (ops : List (Op K F L)) (pos : Nat) (s : Forest K F L) (pos' : Nat) (h : run p ω ops (new n) pos = .ok (s, pos')) :
    ∃ s', run { p with lifetime := p.lifetime / a, discount := a * p.discount } ω (ops.map (rescale a b).op) (new n) pos = .ok (s', pos') ∧
      ∀ x : Fin F → K, predict { p with lifetime := p.lifetime / a, discount := a * p.discount } s' (fun i => a * x i + b i) = predict p s x := by
  obtain ⟨s', h1, h2, h2', h3⟩ := C99_votes (rescale a b : Change K F L) ha p ω hω n ops pos s pos' h
  refine ⟨s', h1, fun x => ?_⟩
  rw [predict_votes, predict_votes]
  rw [show votes { p with lifetime := p.lifetime / a, discount := a * p.discount } s' (fun i => a * x i + b i) = _ from h3 x, h2, h2']
  cases votes p s x <;> rfl

/-- **C99** (partial) The names of the labels do not matter, ties aside (forest with unlimited memory). -/
theorem C99_rename_partial (σ : Equiv.Perm (Fin L)) (p : Params K) (ω : Nat → K) (hω : ∀ i, 0 ≤ ω i ∧ ω i < 1) (n : Nat)
    (ops : List (Op K F L)) (pos : Nat) (s : Forest K F L) (pos' : Nat) (h : run p ω ops (new n) pos = .ok (s, pos')) :
    ∃ s', run p ω (ops.map (renamed σ)) (new n) pos = .ok (s', pos') ∧
      ∀ (x : Fin F → K) (v : Fin L → K) (l : Fin L), votes p s x = .ok v → (∀ k, k ≠ l → v k < v l) → 0 < n →
        predict p s x = .ok l.val ∧ predict p s' x = .ok (σ l).val := by
  obtain ⟨s', h1, h2, h2', h3⟩ := C99_votes (rename σ : Change K F L) one_pos p ω hω n ops pos s pos' h
  rw [rename_par, rename_op] at h1
  refine ⟨s', h1, fun x v l hv hb hn => ?_⟩
  have hv' := h3 x
  rw [rename_par, rename_pt] at hv'
  have hn' : (0 : K) < (n : K) := by exact_mod_cast hn
  rw [predict_votes, predict_votes, h2, h2', hv', hv]
  simp only [Except.bind, Except.map, if_neg (Nat.pos_iff_ne_zero.1 hn)]
  refine ⟨?_, ?_⟩
  · have := winner_renamed (Equiv.refl _) hb hn'
    simpa using this
  · have := winner_renamed σ hb hn'
    exact congrArg Except.ok this

example : (run { exP with lifetime := exP.lifetime / 3, discount := 3 * exP.discount } (exω []) (exOps.map (rescale 3 (fun _ => 5)).op) (new 2) 0).map
      (fun r => (r.2, r.1.heap.map (fun n => n.tau))) =
    (run exP (exω []) exOps (new 2) 0).map (fun r => (r.2, r.1.heap.map (fun n => if n.tau < 0 then n.tau else n.tau / 3))) := by
  decide +kernel

end Orp.Unbound
