import Verif.Unbound.Units

/-!
The labels that have no training point (C105): all of them get the base measure in every tree, whatever the query, so that only the smallest of them can
be predicted.
-/

set_option linter.unusedSectionVars false

namespace Orp.Mondrian

variable {K : Type} [Field K] [LinearOrder K] [IsStrictOrderedRing K] [FloorRing K] {F L : Nat}

/-- no node of the tree counts the label -/
def Lacks (l : Fin L) : Tree K F L → Prop
  | .leaf _ d => d.counts l = 0
  | .node _ d _ _ a b => d.counts l = 0 ∧ Lacks l a ∧ Lacks l b

theorem Lacks.data {l : Fin L} : ∀ {t : Tree K F L}, Lacks l t → t.data.counts l = 0
  | .leaf _ _, h => h
  | .node _ _ _ _ _ _, h => h.1

theorem Right.lacks {l : Fin L} : ∀ {t : Tree K F L} {pts : List (Point K F L)}, Right pts t → (∀ z ∈ pts, z.2 ≠ l) → Lacks l t.recount
  | .leaf _ d, pts, h, hl => by
      show d.counts l = 0
      rw [h.2.2, histogram, List.countP_eq_zero]
      intro z hz
      simpa using hl z hz
  | .node _ d dim sp a b, pts, h, hl => by
      have ha := h.2.1.lacks (fun z hz => hl z (List.mem_filter.1 hz).1)
      have hb := h.2.2.lacks (fun z hz => hl z (List.mem_filter.1 hz).1)
      refine ⟨?_, ha, hb⟩
      simp only
      rw [ha.data, hb.data]
      simp

/-- the times of all nodes are at least 0 -/
def Late : Tree K F L → Prop
  | .leaf _ d => 0 ≤ d.tau
  | .node _ d _ _ a b => 0 ≤ d.tau ∧ Late a ∧ Late b

theorem Times.late {life : K} (h0 : 0 ≤ life) : ∀ {t : Tree K F L} {ptau : K}, 0 ≤ ptau → Times (· ≤ ·) life ptau t → Late t.recount
  | .leaf _ d, _, _, h => by
      have : d.tau = life := h
      show 0 ≤ d.tau
      rw [this]; exact h0
  | .node _ d _ _ a b, ptau, hp, h => ⟨le_trans hp h.1, h.2.2.1.late h0 (le_trans hp h.1), h.2.2.2.late h0 (le_trans hp h.1)⟩

theorem smooth_unseen {p : Params K} {node : Node K F L} {l : Fin L} (hc : node.counts l = 0) {pb dt e ns : K} (hpb : 0 ≤ pb) {pm sm sm' : Fin L → K}
    (h : smooth p node pb dt e ns pm sm = .ok sm') : sm' l = sm l + ns * pb * pm l := by
  unfold smooth at h
  by_cases hp : 0 < pb
  · rw [if_pos hp] at h
    simp only at h
    split at h
    · cases h
    next hz =>
      push Not at hz
      rw [← Except.ok.inj h]
      simp only [hc]
      have : (Utils.min (0 : Nat) 1) = 0 := by simp [Utils.min]
      rw [this, Nat.cast_zero, mul_zero, sub_zero, zero_add, one_div, inv_mul_cancel_left₀ hz.2.2]
  · rw [if_neg hp] at h
    rw [← Except.ok.inj h, le_antisymm (not_lt.1 hp) hpb]
    ring

theorem scores_unseen (p : Params K) (hexp : ∀ y ≤ 0, p.exp y ≤ 1) (x : Fin F → K) (l : Fin L) : ∀ (t : Tree K F L) (ptau ns : K) (pm sm v : Fin L → K),
    Lacks l t → Late t → pm l = p.base → scores p x t ptau ns pm sm = .ok v → v l = sm l + ns * p.base
  | .leaf _ d, ptau, ns, pm, sm, v, hl, ht, hb, h => by
      have hl : d.counts l = 0 := hl
      have ht : 0 ≤ d.tau := ht
      have hpb : 0 ≤ 1 - p.exp (-(d.tau - 0) * eta d.box x) := sub_nonneg.2 (hexp _ (by
        rw [sub_zero, neg_mul]; exact neg_nonpos.2 (mul_nonneg ht (eta_nonneg _ _))))
      simp only [scores, bind, Except.bind] at h
      cases hs : smooth p { (blank : Node K F L) with counts := d.counts } (1 - p.exp (-(d.tau - 0) * eta d.box x)) (d.tau - 0) (eta d.box x) ns pm sm with
      | error e => rw [hs] at h; cases h
      | ok sm' =>
          rw [hs] at h
          rw [← Except.ok.inj h]
          have h1 := smooth_unseen (l := l) hl hpb hs
          simp only [h1, meanOf, hl, lt_irrefl, if_false, hb]
          ring
  | .node _ d dim sp a b, ptau, ns, pm, sm, v, hl, ht, hb, h => by
      have hpb : 0 ≤ 1 - p.exp (-(d.tau - 0) * eta d.box x) := sub_nonneg.2 (hexp _ (by
        rw [sub_zero, neg_mul]; exact neg_nonpos.2 (mul_nonneg ht.1 (eta_nonneg _ _))))
      simp only [scores, bind, Except.bind] at h
      cases hs : smooth p { (blank : Node K F L) with counts := d.counts } (1 - p.exp (-(d.tau - 0) * eta d.box x)) (d.tau - 0) (eta d.box x) ns pm sm with
      | error e => rw [hs] at h; cases h
      | ok sm' =>
          rw [hs] at h
          have h1 := smooth_unseen (l := l) hl.1 hpb hs
          have h2 : meanOf p d ptau pm l = p.base := by simp only [meanOf, hl.1, lt_irrefl, if_false, hb]
          by_cases hx : x dim ≤ sp
          · simp only [if_pos hx] at h
            rw [scores_unseen p hexp x l a _ _ _ _ v hl.2.1 ht.2.1 h2 h, h1, hb]
            ring
          · simp only [if_neg hx] at h
            rw [scores_unseen p hexp x l b _ _ _ _ v hl.2.2 ht.2.2 h2 h, h1, hb]
            ring

theorem totals_unseen (p : Params K) (hlife : 0 ≤ p.lifetime) (hexp : ∀ y ≤ 0, p.exp y ≤ 1) (x : Fin F → K) (l : Fin L) (pts : List (Point K F L))
    (hl : ∀ z ∈ pts, z.2 ≠ l) : ∀ (trees : List (Option (Tree K F L))) (acc v : Fin L → K), (∀ o ∈ trees, Good (· ≤ ·) p.lifetime pts o) →
    totals p x (recountAll trees) acc = .ok v → v l = acc l + trees.length * p.base
  | [], acc, v, _, h => by
      rw [← Except.ok.inj (show Except.ok acc = Except.ok v from h)]; simp
  | o :: os, acc, v, hg, h => by
      simp only [recountAll, List.map_cons, totals, bind, Except.bind] at h
      cases hs : treeScores p x (o.map Tree.recount) with
      | error e => rw [hs] at h; cases h
      | ok w =>
          rw [hs] at h
          have hw : w l = p.base := by
            cases o with
            | none =>
                simp only [Option.map_none, treeScores, Except.ok.injEq] at hs
                rw [← hs]
            | some t =>
                obtain ⟨g1, g2⟩ := hg _ (List.mem_cons_self ..)
                have := scores_unseen p hexp x l _ _ _ _ _ w (g1.lacks hl) (g2.late hlife le_rfl) rfl hs
                rw [this]; ring
          rw [totals_unseen p hlife hexp x l pts hl os _ v (fun o ho => hg o (List.mem_cons_of_mem _ ho)) h, hw, List.length_cons]
          push_cast
          ring

/-- of several labels with the same, greatest value the first one is chosen -/
theorem winner_first {v : Fin L → K} {n : Nat} {k : Nat} (hk : k = Utils.indexMax (List.ofFn (fun l => v l / (n : K)))) (hL : 0 < L)
    (seen : Fin L → Prop) (c : K) (hc : ∀ l, ¬ seen l → v l = c) : ∃ l : Fin L, l.val = k ∧ (seen l ∨ ∀ j < l, seen j) := by
  have hne : List.ofFn (fun l => v l / (n : K)) ≠ [] := by
    intro h
    have := congrArg List.length h
    simp at this
    omega
  obtain ⟨hb, -, h2⟩ := Utils.C32_index_max _ hne
  have hL : Utils.indexMax (List.ofFn (fun l => v l / (n : K))) < L := by simpa using hb
  subst hk
  refine ⟨⟨_, hL⟩, rfl, ?_⟩
  by_contra hx
  push Not at hx
  obtain ⟨h3, j, hj, h4⟩ := hx
  have h5 := h2 j.val (by simp) hj
  rw [List.getElem_ofFn, List.getElem_ofFn] at h5
  simp only [Fin.eta] at h5
  rw [hc _ h4, hc _ h3] at h5
  exact lt_irrefl _ h5

/-- **C105** After every history, a label without a training point gets the base measure from each of the trees, whatever the query: the new labels are
indistinguishable. -/
theorem C105_votes (p : Params K) (hlife : 0 ≤ p.lifetime) (hexp : ∀ y ≤ 0, p.exp y ≤ 1) (ω : Nat → K) (hω : ∀ i, 0 ≤ ω i ∧ ω i < 1) (m n : Nat)
    (ops : List (Op K F L)) (pos : Nat) (s : Forest K F L) (pos' : Nat) (h : run p ω ops (new m n) pos = .ok (s, pos')) (x : Fin F → K) (v : Fin L → K)
    (hv : votes p s x = .ok v) (l : Fin L) (hl : ∀ z ∈ points ops, z.2 ≠ l) : v l = n * p.base := by
  obtain ⟨trees, lost, a1, a2, a3, a4⟩ := run_good p hlife ω hω (· ≤ ·) (fun a b h => h.le) (draw_le hω) m n ops pos _ h
  rw [a1.votes_eq] at hv
  rw [totals_unseen p hlife hexp x l _ hl trees _ v a4 hv, zero_add, a3]

/-- **C105** After every history, the predicted label is the label of a training point or the smallest label that has none. -/
theorem C105_predicted (p : Params K) (hlife : 0 ≤ p.lifetime) (hexp : ∀ y ≤ 0, p.exp y ≤ 1) (ω : Nat → K) (hω : ∀ i, 0 ≤ ω i ∧ ω i < 1) (m n : Nat)
    (hL : 0 < L) (ops : List (Op K F L)) (pos : Nat) (s : Forest K F L) (pos' : Nat) (h : run p ω ops (new m n) pos = .ok (s, pos')) (x : Fin F → K)
    (r : Forest K F L × Nat) (hr : predict p s x = .ok r) :
    ∃ l : Fin L, l.val = r.2 ∧ ((∃ z ∈ points ops, z.2 = l) ∨ ∀ j < l, ∃ z ∈ points ops, z.2 = j) := by
  have h1 := predict_votes p s x
  rw [hr] at h1
  cases hv : votes p s x with
  | error e => rw [hv] at h1; cases h1
  | ok v =>
      rw [hv] at h1
      simp only [Except.map, Except.bind] at h1
      split at h1
      · cases h1
      · refine winner_first (n := s.roots.length) (v := v) (Except.ok.inj h1) hL (fun l => ∃ z ∈ points ops, z.2 = l) (n * p.base) fun l hl => ?_
        push Not at hl
        exact C105_votes p hlife hexp ω hω m n ops pos s pos' h x v hv l hl

/-- four labels, of which 0 and 2 have no training point -/
def fewOps : List (Op ℚ 1 4) := [.train (pt 0) 1, .train (pt 1) 3, .train (pt 2) 3]

example : (∀ y ≤ 0, exP.exp y ≤ 1) ∧ (run exP (exω []) fewOps (new 8 2) 0).bind (fun r => (votes exP r.1 (pt (1 / 3))).map (fun v => (v 0, v 2, decide (v 1 ≠ v 0)))) =
    .ok (1 / 5, 1 / 5, true) := by
  refine ⟨fun y hy => ?_, by decide +kernel⟩
  simp only [exP]
  split
  · rfl
  · rw [if_neg (not_lt.2 hy)]; norm_num

end Orp.Mondrian

namespace Orp.Unbound

open Mondrian

variable {K : Type} [Field K] [LinearOrder K] [IsStrictOrderedRing K] [FloorRing K] {F L : Nat}

/-- **C105** A label without a training point gets the base measure from each of the trees (forest with unlimited memory). -/
theorem C105_votes (p : Params K) (hlife : 0 ≤ p.lifetime) (hexp : ∀ y ≤ 0, p.exp y ≤ 1) (ω : Nat → K) (hω : ∀ i, 0 ≤ ω i ∧ ω i < 1) (n : Nat)
    (ops : List (Op K F L)) (pos : Nat) (s : Forest K F L) (pos' : Nat) (h : run p ω ops (new n) pos = .ok (s, pos')) (x : Fin F → K) (v : Fin L → K)
    (hv : votes p s x = .ok v) (l : Fin L) (hl : ∀ z ∈ points ops, z.2 ≠ l) : v l = n * p.base := by
  obtain ⟨trees, a1, a2, -, -, a3⟩ := run_good p ω hω (· ≤ ·) (fun a b h => h.le) (draw_le' hω) n ops pos _ h
  rw [a1.votes_eq] at hv
  rw [totals_unseen p hlife hexp x l _ hl trees _ v a3 hv, zero_add, a2]

/-- **C105** The predicted label is the label of a training point or the smallest label that has none (forest with unlimited memory). -/
theorem C105_predicted (p : Params K) (hlife : 0 ≤ p.lifetime) (hexp : ∀ y ≤ 0, p.exp y ≤ 1) (ω : Nat → K) (hω : ∀ i, 0 ≤ ω i ∧ ω i < 1) (n : Nat)
    (hL : 0 < L) (ops : List (Op K F L)) (pos : Nat) (s : Forest K F L) (pos' : Nat) (h : run p ω ops (new n) pos = .ok (s, pos')) (x : Fin F → K)
    (r : Nat) (hr : predict p s x = .ok r) :
    ∃ l : Fin L, l.val = r ∧ ((∃ z ∈ points ops, z.2 = l) ∨ ∀ j < l, ∃ z ∈ points ops, z.2 = j) := by
  have h1 := predict_votes p s x
  rw [hr] at h1
  cases hv : votes p s x with
  | error e => rw [hv] at h1; cases h1
  | ok v =>
      rw [hv] at h1
      simp only [Except.bind] at h1
      split at h1
      · cases h1
      · refine winner_first (n := s.roots.length) (v := v) (Except.ok.inj h1) hL (fun l => ∃ z ∈ points ops, z.2 = l) (n * p.base) fun l hl => ?_
        push Not at hl
        exact C105_votes p hlife hexp ω hω n ops pos s pos' h x v hv l hl

example : (run exP (exω []) fewOps (new 2) 0).bind (fun r => (votes exP r.1 (pt (1 / 3))).map (fun v => (v 0, v 2, decide (v 1 ≠ v 0)))) =
    .ok (1 / 5, 1 / 5, true) := by decide +kernel

end Orp.Unbound
