import Verif.Mondrian.Props
import Verif.Unbound.Extend

/-!
Property C171: how many random numbers, and how many nodes, a call of `train` needs (mondrian.hpp:126-189, 449-457).
-/

set_option linter.unusedSectionVars false

namespace Orp.Mondrian

variable {K : Type} [Field K] [LinearOrder K] [IsStrictOrderedRing K] [FloorRing K] {F L : Nat}

/-- the number of levels of a tree, 0 if there is none yet (specification) -/
def treeLevels : Option (Tree K F L) → Nat
  | some t => t.height
  | none => 0

/-- the number of levels of the trees together (specification) -/
def levels (trees : List (Option (Tree K F L))) : Nat := (trees.map treeLevels).sum

theorem unbound_draw_pos {p : Params K} {ω : Nat → K} {pos : Nat} {b : Box K F} {x : Fin F → K} {ptau tau : K} {r : Option (Cut K F) × Nat}
    (h : Unbound.draw p ω pos b x ptau tau = .ok r) : pos ≤ r.2 ∧ r.2 ≤ pos + 3 ∧ (r.1 = none → r.2 ≤ pos + 1) := by
  unfold Unbound.draw at h
  simp only at h
  by_cases hs : ∑ i, extent b x i = 0
  · rw [if_pos hs] at h
    cases h
    exact ⟨le_rfl, by simp, fun _ => by simp⟩
  · rw [if_neg hs] at h
    split at h
    · unfold Unbound.pickDim cutAt at h
      cases h1 : Utils.turnIntoProbability (List.ofFn (extent b x)) (∑ i, extent b x i) with
      | error e => simp [h1, bind, Except.bind] at h
      | ok probs =>
          simp only [h1, bind, Except.bind] at h
          by_cases hd : Utils.pick probs (ω (pos + 1)) < F
          · simp only [dif_pos hd, pure, Except.pure] at h
            split at h
            · cases h
            · rename_i v heq
              cases h
              split at heq
              · cases heq
              · cases heq
                exact ⟨by simp only; omega, by simp only; omega, fun h => by simp at h⟩
          · simp [dif_neg hd] at h
    · cases h
      exact ⟨by simp, by simp, fun _ => le_rfl⟩

theorem draw_pos {p : Params K} {ω : Nat → K} (hω : ∀ i, ω i ≤ 1) {pos : Nat} {b : Box K F} {x : Fin F → K} {ptau tau : K} {r : Option (Cut K F) × Nat}
    (h : draw p ω pos b x ptau tau = .ok r) : pos ≤ r.2 ∧ r.2 ≤ pos + 3 ∧ (r.1 = none → r.2 ≤ pos + 1) := by
  rw [← Unbound.draw_eq p ω hω] at h
  exact unbound_draw_pos h

theorem grow_pos (p : Params K) (ω : Nat → K) (hω : ∀ i, ω i ≤ 1) (fresh : Option (Nat × Nat)) (x : Fin F → K) (label : Fin L) :
    ∀ (t : Tree K F L) (ptau : K) (pos : Nat) (r : Tree K F L × Nat), grow p ω fresh x label t ptau pos = .ok r →
      pos ≤ r.2 ∧ r.2 ≤ pos + 3 * t.height ∧ (fresh ≠ none → r.2 ≤ pos + t.height + 2)
  | .leaf id d, ptau, pos, r, h => by
      simp only [grow] at h
      cases hd : draw p ω pos d.box x ptau d.tau with
      | error e => rw [hd] at h; cases h
      | ok q =>
          obtain ⟨c, pos1⟩ := q
          obtain ⟨a, b, -⟩ := draw_pos hω hd
          simp only at a b
          rw [hd] at h
          simp only at h
          have hr : r.2 = pos1 := by
            split at h <;> cases h <;> rfl
          rw [hr]
          exact ⟨a, by simpa [Tree.height] using b, fun _ => by simp only [Tree.height]; omega⟩
  | .node id d dim sp l r', ptau, pos, r, h => by
      simp only [grow] at h
      cases hd : draw p ω pos d.box x ptau d.tau with
      | error e => rw [hd] at h; cases h
      | ok q =>
          obtain ⟨c, pos1⟩ := q
          obtain ⟨a, b, hn⟩ := draw_pos hω hd
          simp only at a b hn
          rw [hd] at h
          simp only at h
          have m1 : l.height ≤ Nat.max l.height r'.height := Nat.le_max_left _ _
          have m2 : r'.height ≤ Nat.max l.height r'.height := Nat.le_max_right _ _
          simp only [Tree.height]
          cases hb : both c fresh with
          | some cf =>
              rw [hb] at h
              cases h
              exact ⟨a, by omega, fun _ => by omega⟩
          | none =>
              rw [hb] at h
              simp only at h
              have hfr : fresh ≠ none → pos1 ≤ pos + 1 := by
                intro hf
                refine hn ?_
                cases c with
                | none => rfl
                | some c =>
                    cases fresh with
                    | none => exact absurd rfl hf
                    | some f => simp [both] at hb
              by_cases hx : x dim ≤ sp
              · rw [if_pos hx] at h
                cases hl : grow p ω fresh x label l d.tau pos1 with
                | error e => rw [hl] at h; cases h
                | ok q =>
                    rw [hl] at h
                    cases h
                    obtain ⟨i1, i2, i3⟩ := grow_pos p ω hω fresh x label l d.tau pos1 _ hl
                    exact ⟨a.trans i1, by simp only; omega, fun hf => by have := i3 hf; have := hfr hf; simp only; omega⟩
              · rw [if_neg hx] at h
                cases hl : grow p ω fresh x label r' d.tau pos1 with
                | error e => rw [hl] at h; cases h
                | ok q =>
                    rw [hl] at h
                    cases h
                    obtain ⟨i1, i2, i3⟩ := grow_pos p ω hω fresh x label r' d.tau pos1 _ hl
                    exact ⟨a.trans i1, by simp only; omega, fun hf => by have := i3 hf; have := hfr hf; simp only; omega⟩

theorem levels_drop {trees : List (Option (Tree K F L))} {i : Nat} {o : Option (Tree K F L)} (hi : trees[i]? = some o) :
    levels (trees.drop i) = treeLevels o + levels (trees.drop (i + 1)) := by
  have hlt := lt_of_get hi
  rw [List.getElem?_eq_getElem hlt] at hi
  cases hi
  rw [List.drop_eq_getElem_cons hlt, levels, levels, List.map_cons, List.sum_cons]

theorem trainLoop_pos (p : Params K) (hlife : 0 ≤ p.lifetime) (ω : Nat → K) (hω : ∀ i, 0 ≤ ω i ∧ ω i < 1) (x : Fin F → K) (label : Fin L) :
    ∀ (k i : Nat) (s : Forest K F L) (trees : List (Option (Tree K F L))) (lost : List Nat) (pos : Nat) (res : Option Bool)
      (r : Forest K F L × Nat × Option Bool), i + k = trees.length → Inv s trees lost → trainLoop p ω x label i k s pos res = .ok r →
      pos ≤ r.2.1 ∧ r.2.1 ≤ pos + 3 * levels (trees.drop i)
  | 0, i, s, trees, lost, pos, res, r, hk, hI, h => by
      simp only [trainLoop, Except.ok.injEq] at h
      subst h
      exact ⟨le_rfl, Nat.le_add_right _ _⟩
  | k + 1, i, s, trees, lost, pos, res, r, hk, hI, h => by
      simp only [trainLoop, bind, Except.bind] at h
      have hlt : i < trees.length := by omega
      have hi := List.getElem?_eq_getElem hlt
      cases ht : trainTree p ω x label i s pos with
      | error e => rw [ht] at h; cases h
      | ok q =>
          obtain ⟨s1, pos1, ok⟩ := q
          rw [ht] at h
          obtain ⟨o1, lost1, a1, a2, a3, a4⟩ := trainTree_spec p hlife ω hω x label s trees lost hI i pos _ hi _ ht
          obtain ⟨b1, b2⟩ := trainLoop_pos p hlife ω hω x label k (i + 1) s1 _ lost1 pos1 _ r (by rw [List.length_set]; omega) a1 h
          rw [List.drop_set_of_lt (by omega)] at b2
          rw [levels_drop hi]
          have hpos : pos ≤ pos1 ∧ pos1 ≤ pos + 3 * treeLevels trees[i] := by
            cases ho : trees[i] with
            | none =>
                have := trainTree_none p hlife ω x label s trees lost hI i pos (by rw [hi, ho])
                cases hA : avail s.nodes with
                | nil => rw [hA] at this; simp only at this; rw [this] at ht; cases ht
                | cons c A =>
                    rw [hA] at this
                    obtain ⟨s', e1, -⟩ := this
                    rw [e1] at ht
                    cases ht
                    exact ⟨le_rfl, by simp⟩
            | some t =>
                have := trainTree_some p hlife ω hω x label s trees lost hI i pos t (by rw [hi, ho])
                cases hg : grow p ω (freshOf (avail s.nodes)) x label t 0 pos with
                | error e => rw [hg] at this; simp only at this; rw [this] at ht; cases ht
                | ok q =>
                    rw [hg] at this
                    obtain ⟨s', lost', e1, -⟩ := this
                    rw [e1] at ht
                    obtain ⟨c1, c2, -⟩ := grow_pos p ω (fun i => (hω i).2.le) _ x label t 0 pos _ hg
                    cases ht
                    exact ⟨c1, c2⟩
          constructor
          · omega
          · have := hpos.2
            omega

/-- **C171** After any history, a call of `train` uses at most three random numbers for each level of the trees: `q` and `q'` are the positions in the sequence of random
numbers before and after the call. -/
theorem C171_random_numbers (p : Params K) (hlife : 0 ≤ p.lifetime) (ω : Nat → K) (hω : ∀ i, 0 ≤ ω i ∧ ω i < 1) (m n : Nat) (ops : List (Op K F L))
    (pos : Nat) (s : Forest K F L) (pos' : Nat) (h : run p ω ops (new m n) pos = .ok (s, pos')) :
    ∃ trees : List (Option (Tree K F L)), trees.length = n ∧ HoldsAll s trees ∧
      ∀ (ω' : Nat → K) (_ : ∀ i, 0 ≤ ω' i ∧ ω' i < 1) (x : Fin F → K) (label : Fin L) (q : Nat) (s' : Forest K F L) (q' : Nat) (r : Option Bool),
        train p ω' x label s q = .ok (s', q', r) → q ≤ q' ∧ q' ≤ q + 3 * levels trees := by
  obtain ⟨trees, lost, a1, a2, a3, a4⟩ := run_good p hlife ω hω (· ≤ ·) (fun a b h => h.le) (draw_le hω) m n ops pos _ h
  refine ⟨trees, a3, a1.all, fun ω' hω' x label q s' q' r ht => ?_⟩
  have hl : s.roots.length = trees.length := by rw [a1.all.roots]; simp
  rw [train, hl] at ht
  simpa using trainLoop_pos p hlife ω' hω' x label _ 0 s trees lost q none _ (by simp) a1 ht

/-- **C171** Hence a history with `N` training points uses at most `3·N` random numbers for each node of the memory, and predictions use none. -/
theorem C171_history (p : Params K) (hlife : 0 ≤ p.lifetime) (ω : Nat → K) (hω : ∀ i, 0 ≤ ω i ∧ ω i < 1) (m n : Nat) :
    ∀ (ops : List (Op K F L)) (pos : Nat) (s : Forest K F L) (pos' : Nat), run p ω ops (new m n) pos = .ok (s, pos') →
      pos ≤ pos' ∧ pos' ≤ pos + 3 * m * (points ops).length := by
  intro ops
  induction ops using List.reverseRecOn with
  | nil =>
      intro pos s pos' h
      simp only [run, Except.ok.injEq, Prod.mk.injEq] at h
      omega
  | append_singleton ops op ih =>
      intro pos s pos' h
      rw [run_snoc] at h
      cases h1 : run p ω ops (new m n) pos with
      | error e => rw [h1] at h; cases h
      | ok q =>
          obtain ⟨s1, pos1⟩ := q
          rw [h1] at h
          obtain ⟨i1, i2⟩ := ih pos s1 pos1 h1
          rw [points_append, List.length_append]
          cases op with
          | predict x =>
              simp only [bind, Except.bind, exec] at h
              cases h2 : predict p s1 x with
              | error e => rw [h2] at h; cases h
              | ok q =>
                  rw [h2] at h
                  simp only [pure, Except.pure, Except.ok.injEq, Prod.mk.injEq] at h
                  simp only [points, List.length_nil, Nat.add_zero]
                  omega
          | train x label =>
              simp only [bind, Except.bind, exec] at h
              cases h2 : train p ω x label s1 pos1 with
              | error e => rw [h2] at h; cases h
              | ok q =>
                  obtain ⟨s2, pos2, r⟩ := q
                  rw [h2] at h
                  simp only [pure, Except.pure, Except.ok.injEq, Prod.mk.injEq] at h
                  obtain ⟨trees, lost, a1, a2, a3, a4⟩ := run_good p hlife ω hω (· ≤ ·) (fun a b h => h.le) (draw_le hω) m n ops pos _ h1
                  have hl : s1.roots.length = trees.length := by rw [a1.all.roots]; simp
                  rw [train, hl] at h2
                  have hb := trainLoop_pos p hlife ω hω x label _ 0 s1 trees lost pos1 none _ (by simp) a1 h2
                  simp only [List.drop_zero] at hb
                  have hlev : levels trees ≤ m := by
                    have h3 : levels trees ≤ (allIds trees).length := by
                      clear a1 a3 a4 hl h2 hb
                      induction trees with
                      | nil => simp [levels]
                      | cons o os ih =>
                          rw [allIds_cons, List.length_append]
                          have : levels (o :: os) = treeLevels o + levels os := by simp [levels]
                          rw [this]
                          refine Nat.add_le_add ?_ ih
                          cases o with
                          | none => exact Nat.zero_le _
                          | some t => exact height_le_ids t
                    have h4 := a1.cover.length_eq
                    simp only [List.length_append, List.length_range] at h4
                    have h5 : s1.nodes.length = m := a2
                    omega
                  simp only [points, List.length_cons, List.length_nil]
                  have : 3 * m * ((points ops).length + (0 + 1)) = 3 * m * (points ops).length + 3 * m := by ring
                  rw [this]
                  omega

/-- the hypotheses are met: the example history uses 14 random numbers for 3 points -/
example : (run exP (exω []) exOps (new 12 2) 0).map (fun r => r.2) = .ok 14 ∧ (points exOps).length = 3 := by
  decide +kernel

end Orp.Mondrian
