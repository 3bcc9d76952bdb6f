import Verif.Unbound.Cost

/-!
Property C171 for a whole history of calls of `MondrianForestUnbound` (mondrian_unbound.hpp:228-342, 460-469).
-/

set_option linter.unusedSectionVars false

namespace Orp.Unbound

open Mondrian

variable {K : Type} [Field K] [LinearOrder K] [IsStrictOrderedRing K] [FloorRing K] {F L : Nat}

theorem height_le_points {pts : List (Point K F L)} {t : Mondrian.Tree K F L} (h : Right pts t) : 1 ≤ t.height ∧ t.height ≤ pts.length := by
  induction t generalizing pts with
  | leaf id d =>
      have := List.length_pos_of_ne_nil h.1
      simp only [Mondrian.Tree.height]
      omega
  | node id d dim sp l r ihl ihr =>
      have h1 := ihl h.2.1
      have h2 := ihr h.2.2
      have := List.length_eq_length_filter_add (l := pts) (fun z => decide (z.1 dim ≤ sp))
      simp only [decide_not] at h2
      have hm : Nat.max l.height r.height + 1 ≤ pts.length := by
        rcases Nat.le_total l.height r.height with h | h
        · rw [show Nat.max l.height r.height = r.height from Nat.max_eq_right h]; omega
        · rw [show Nat.max l.height r.height = l.height from Nat.max_eq_left h]; omega
      simp only [Mondrian.Tree.height]
      omega

theorem levels_le {R : K → K → Prop} {life : K} {pts : List (Point K F L)} :
    ∀ {trees : List (Option (Mondrian.Tree K F L))}, (∀ o ∈ trees, Good R life pts o) → levels trees ≤ trees.length * pts.length
  | [], _ => by simp [levels]
  | o :: trees, h => by
      have ih := levels_le fun o ho => h o (List.mem_cons_of_mem _ ho)
      have ho := h o (List.mem_cons_self ..)
      have : levels (o :: trees) = treeLevels o + levels trees := by simp [levels]
      rw [this, List.length_cons, Nat.add_mul, one_mul]
      cases o with
      | none => simp only [treeLevels]; omega
      | some t =>
          have := (height_le_points ho.1).2
          simp only [treeLevels]
          omega

/-- **C171** A history with `N` training points uses at most `N·(N+3)/2` random numbers for each tree of the unbounded forest, and predictions use none. -/
theorem C171_unbound_history (p : Params K) (ω : Nat → K) (hω : ∀ i, 0 ≤ ω i ∧ ω i < 1) (n : Nat) :
    ∀ (ops : List (Op K F L)) (pos : Nat) (s : Forest K F L) (pos' : Nat), run p ω ops (new n) pos = .ok (s, pos') →
      pos ≤ pos' ∧ 2 * pos' ≤ 2 * pos + n * ((points ops).length * ((points ops).length + 3)) := by
  intro ops
  induction ops using List.reverseRecOn with
  | nil =>
      intro pos s pos' h
      simp only [run, Except.ok.injEq, Prod.mk.injEq] at h
      omega
  | append_singleton ops op ih =>
      intro pos s pos' h
      rw [run_snoc] at h
      cases h1 : run p ω ops (new n) pos with
      | error e => rw [h1] at h; cases h
      | ok q =>
          obtain ⟨s1, pos1⟩ := q
          rw [h1] at h
          obtain ⟨i1, i2⟩ := ih pos s1 pos1 h1
          rw [points_append, List.length_append]
          cases op with
          | predict x =>
              simp only [bind, Except.bind, exec] at h
              cases h2 : predict p s1 x with
              | error e => rw [h2] at h; cases h
              | ok q =>
                  rw [h2] at h
                  simp only [pure, Except.pure, Except.ok.injEq, Prod.mk.injEq] at h
                  simp only [points, List.length_nil, Nat.add_zero]
                  omega
          | train x label =>
              simp only [bind, Except.bind, exec] at h
              cases h2 : train p ω x label s1 pos1 with
              | error e => rw [h2] at h; cases h
              | ok q =>
                  obtain ⟨s2, pos2, r⟩ := q
                  rw [h2] at h
                  simp only [pure, Except.pure, Except.ok.injEq, Prod.mk.injEq] at h
                  obtain ⟨trees, a1, a2, -, -, a5⟩ := run_good p ω hω (· ≤ ·) (fun a b h => h.le) (draw_le' hω) n ops pos _ h1
                  obtain ⟨ts, b1, b2, b3⟩ := C171_unbound p ω hω n ops pos s1 pos1 h1
                  have hts : ts = trees := C52_trees_unique b2 a1.all
                  subst hts
                  obtain ⟨c1, c2⟩ := b3 ω (fun i => (hω i).2.le) x label pos1 s2 pos2 r h2
                  have hlev : levels ts ≤ n * (points ops).length := by
                    have := levels_le a5
                    rwa [b1] at this
                  simp only [points, List.length_cons, List.length_nil]
                  have : n * (((points ops).length + (0 + 1)) * ((points ops).length + (0 + 1) + 3)) =
                    n * ((points ops).length * ((points ops).length + 3)) + 2 * (n * (points ops).length) + 4 * n := by ring
                  rw [this]
                  omega

/-- the hypotheses are met: three points for two trees use 14 random numbers, no more than 2·3·6/2 -/
example : (run exP (exω []) exOps (new 2) 0).map (fun r => r.2) = .ok 14 ∧ (points exOps).length = 3 := by
  decide +kernel

end Orp.Unbound
