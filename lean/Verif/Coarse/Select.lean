import Verif.Coarse.Trim
import Verif.Coarse.Spec

/-!
Which leaf `tree_trim` chooses.
-/

set_option linter.unusedSectionVars false

namespace Orp.Coarse

open Finset
open Mondrian (Node Box Forest Params Cut upd init extent cutAt bump sampleBlock Tree Data Frame plug ctxPar ctxTau ctxIds HoldsCtx Holds Ready avail mem_avail
  avail_nodup upd_spec lt_of_get newLeaf holds_plug plug_ids holds_root id_mem_ids holds_mem relinked set_same)

variable {K : Type} [Field K] [LinearOrder K] [IsStrictOrderedRing K] [FloorRing K] {F L : Nat}

/-! ### Removing a leaf -/

theorem removes_plug (id : Nat) (d : Data K F L) : ∀ (fs : List (Frame K F L)) (t t' : Tree K F L), Removes id t t' → Removes id (plug fs t) (plug fs t')
  | [], _, _, h => h
  | f :: fs, t, t', h => by
      refine removes_plug id d fs _ _ ?_
      unfold Frame.fill
      split
      · exact .left h
      · exact .right h

theorem removes_cut (f : Frame K F L) (fs : List (Frame K F L)) (id : Nat) (d : Data K F L) : Removes id (plug (f :: fs) (.leaf id d)) (plug fs f.sib) := by
  refine removes_plug id d fs _ _ ?_
  unfold Frame.fill
  split
  · exact .atLeft
  · exact .atRight

theorem leaf_place : ∀ (t : Tree K F L) (z : Nat × Data K F L), z ∈ leaves t → ∀ fs : List (Frame K F L), ∃ gs : List (Frame K F L),
    plug gs (.leaf z.1 z.2) = plug fs t ∧ fs.length ≤ gs.length
  | .leaf id d, z, h, fs => by
      simp only [leaves, List.mem_singleton] at h
      subst h
      exact ⟨fs, rfl, le_rfl⟩
  | .node id d dim sp l r, z, h, fs => by
      simp only [leaves, List.mem_append] at h
      rcases h with h | h
      · obtain ⟨gs, e1, e2⟩ := leaf_place r z h (⟨id, d, dim, sp, false, l⟩ :: fs)
        exact ⟨gs, e1, by simp only [List.length_cons] at e2; omega⟩
      · obtain ⟨gs, e1, e2⟩ := leaf_place l z h (⟨id, d, dim, sp, true, r⟩ :: fs)
        exact ⟨gs, e1, by simp only [List.length_cons] at e2; omega⟩

theorem leaf_id : ∀ (t : Tree K F L) (z : Nat × Data K F L), z ∈ leaves t → z.1 ∈ t.ids
  | .leaf id d, z, h => by
      simp only [leaves, List.mem_singleton] at h
      subst h
      simp [Tree.ids]
  | .node id d dim sp l r, z, h => by
      simp only [leaves, List.mem_append] at h
      simp only [Tree.ids, List.mem_cons, List.mem_append]
      rcases h with h | h
      · exact Or.inr (Or.inr (leaf_id r z h))
      · exact Or.inr (Or.inl (leaf_id l z h))

theorem leaves_ne : ∀ t : Tree K F L, leaves t ≠ []
  | .leaf _ _ => by simp [leaves]
  | .node _ _ _ _ l r => by simp [leaves, leaves_ne r]

/-! ### The choice -/

/-- the local variables of `tree_trim` after the leaves `vs` -/
structure Best (c : Config K) (fading : List K) (vs : List (Nat × Data K F L)) (a : Search K) : Prop where
  leaves : a.leaves = vs.length
  start : vs = [] → a.smallest = -1
  found : vs ≠ [] → ∃ z ∈ vs, z.1 = a.id ∧ (c.trim ≠ .random → score c fading z = a.smallest ∧ ∀ y ∈ vs, a.smallest ≤ score c fading y)
  sum : a.sum = if c.trim = .random then 0 else (vs.map (score c fading)).sum

theorem Best.step {c : Config K} {fading : List K} (h0 : ∀ v ∈ fading, 0 ≤ v) {vs : List (Nat × Data K F L)} {a : Search K} (h : Best c fading vs a)
    (hr : c.trim ≠ .random) (ω : Nat → K) (z : Nat × Data K F L) :
    Best c fading (vs ++ [z])
      { smallest := if (better ω (score c fading z) a).1 then score c fading z else a.smallest
        id := if (better ω (score c fading z) a).1 then z.1 else a.id
        leaves := a.leaves + 1
        sum := a.sum + score c fading z
        pos := (better ω (score c fading z) a).2 } := by
  have hnn : ∀ y : Nat × Data K F L, 0 ≤ score c fading y := by
    intro y
    unfold score
    split
    · rw [List.getD_eq_getElem?_getD]
      cases hy : fading[y.1]? with
      | none => simp
      | some v => simpa using h0 v (List.mem_of_getElem? hy)
    · exact Finset.sum_nonneg fun i _ => Nat.cast_nonneg _
  refine ⟨by simp [h.leaves], by simp, fun _ => ?_, ?_⟩
  · by_cases hb : (better ω (score c fading z) a).1 = true
    · refine ⟨z, by simp, by simp [hb], fun _ => ⟨by simp [hb], fun y hy => ?_⟩⟩
      simp only [hb, if_true]
      rw [List.mem_append, List.mem_singleton] at hy
      rcases hy with hy | rfl
      · have hne : vs ≠ [] := List.ne_nil_of_mem hy
        obtain ⟨z0, hz0, -, hz2⟩ := h.found hne
        obtain ⟨e1, e2⟩ := hz2 hr
        have hs0 : 0 ≤ a.smallest := by rw [← e1]; exact hnn z0
        refine le_trans ?_ (e2 y hy)
        unfold better at hb
        rw [if_neg (not_lt.2 hs0)] at hb
        by_cases h1 : score c fading z < a.smallest
        · exact h1.le
        · rw [if_neg h1] at hb
          by_cases h2 : score c fading z = a.smallest
          · exact h2.le
          · rw [if_neg h2] at hb
            simp at hb
      · exact le_rfl
    · have hb' : (better ω (score c fading z) a).1 = false := by simpa using hb
      have hne : vs ≠ [] := by
        intro he
        have := h.start he
        unfold better at hb
        rw [if_pos (by rw [this]; linarith)] at hb
        exact hb rfl
      obtain ⟨z0, hz0, hz1, hz2⟩ := h.found hne
      obtain ⟨e1, e2⟩ := hz2 hr
      refine ⟨z0, by simp [hz0], by simp [hb', hz1], fun _ => ⟨by simp [hb', e1], fun y hy => ?_⟩⟩
      simp only [hb', Bool.false_eq_true, if_false]
      rw [List.mem_append, List.mem_singleton] at hy
      rcases hy with hy | rfl
      · exact e2 y hy
      · have hs0 : 0 ≤ a.smallest := by rw [← e1]; exact hnn z0
        unfold better at hb'
        rw [if_neg (not_lt.2 hs0)] at hb'
        by_contra hlt
        rw [if_pos (lt_of_not_ge hlt)] at hb'
        simp at hb'
  · rw [if_neg hr]
    have := h.sum
    rw [if_neg hr] at this
    simp [this]

theorem trimLeaf_spec (c : Config K) (hc : c.trim ≠ .none) (ω : Nat → K) (hω : ∀ i, 0 ≤ ω i ∧ ω i < 1) (fading : List K) (h0 : ∀ v ∈ fading, 0 ≤ v) {id : Nat}
    {n : Node K F L} {d : Data K F L} (hn : n.counts = d.counts) (hid : id < fading.length) {vs : List (Nat × Data K F L)} {a : Search K}
    (h : Best c fading vs a) : ∃ a', trimLeaf c ω fading id n a = .ok a' ∧ Best c fading (vs ++ [(id, d)]) a' := by
  unfold trimLeaf
  cases ht : c.trim with
  | none => exact absurd ht hc
  | count =>
      have hs : score c fading (id, d) = ∑ i, (n.counts i : K) := by unfold score; rw [if_neg (by rw [ht]; decide), hn]
      have := h.step h0 (by rw [ht]; decide) ω (id, d)
      rw [hs] at this
      exact ⟨_, rfl, this⟩
  | fading =>
      have hs : score c fading (id, d) = fading[id] := by
        unfold score
        rw [if_pos ht, List.getD_eq_getElem?_getD, List.getElem?_eq_getElem hid]
        rfl
      have := h.step h0 (by rw [ht]; decide) ω (id, d)
      rw [hs] at this
      simp only [rd_eq_ok_iff.2 (List.getElem?_eq_getElem hid), bind, Except.bind, pure, Except.pure]
      exact ⟨_, rfl, this⟩
  | random =>
      refine ⟨_, rfl, ⟨by simp [h.leaves], by simp, fun _ => ?_, by simp [h.sum, ht]⟩⟩
      by_cases hp : ω a.pos < 1 / ((a.leaves + 1 : Nat) : K)
      · exact ⟨(id, d), by simp, by simp only [hp, if_true], fun hne => absurd ht hne⟩
      · have hne : vs ≠ [] := by
          intro he
          have hl := h.leaves
          rw [he, List.length_nil] at hl
          rw [hl] at hp
          simp only [Nat.zero_add, Nat.cast_one, div_one] at hp
          exact hp (hω _).2
        obtain ⟨z, hz, hz1, -⟩ := h.found hne
        exact ⟨z, by simp [hz], by simp only [hp, if_false]; exact hz1, fun hne => absurd ht hne⟩

theorem foldLeaves_best (c : Config K) (hc : c.trim ≠ .none) (ω : Nat → K) (hω : ∀ i, 0 ≤ ω i ∧ ω i < 1) (fading : List K) (h0 : ∀ v ∈ fading, 0 ≤ v)
    (nodes : List (Node K F L)) (hl : fading.length = nodes.length) : ∀ (t : Tree K F L) (par : Option Nat) (vs : List (Nat × Data K F L)) (a : Search K),
    Holds nodes par t → Best c fading vs a → ∃ a', foldLeaves nodes (trimLeaf c ω fading) t a = .ok a' ∧ Best c fading (vs ++ leaves t) a'
  | .leaf id d, par, vs, a, ⟨n, h1, h2, _⟩, hb => by
      obtain ⟨a', e1, e2⟩ := trimLeaf_spec c hc ω hω fading h0 h2.2.2.2 (by rw [hl]; exact lt_of_get h1) hb
      exact ⟨a', by simp only [foldLeaves, rd_eq_ok_iff.2 h1, bind, Except.bind, e1], e2⟩
  | .node id d dim sp l r, par, vs, a, ⟨_, hl', hr'⟩, hb => by
      obtain ⟨a1, e1, e2⟩ := foldLeaves_best c hc ω hω fading h0 nodes hl r _ vs a hr' hb
      obtain ⟨a2, e3, e4⟩ := foldLeaves_best c hc ω hω fading h0 nodes hl l _ _ a1 hl' e2
      refine ⟨a2, by simp only [foldLeaves, e1, bind, Except.bind, e3], ?_⟩
      rw [leaves, ← List.append_assoc]
      exact e4

/-- A tree of height at most 100: a leaf is chosen, or the smallest leaf is too large. -/
theorem trimTree_spec (c : Config K) (hc : c.trim ≠ .none) (ω : Nat → K) (hω : ∀ i, 0 ≤ ω i ∧ ω i < 1) (s : State K F L) (tree pos : Nat) (t : Tree K F L)
    (hroot : s.forest.roots[tree]? = some (some t.id)) (hh : Holds s.forest.nodes none t) (hi : t.ids.length ≤ s.forest.nodes.length)
    (hl : s.fading.length = s.forest.nodes.length) (h0 : ∀ v ∈ s.fading, 0 ≤ v) :
    ∃ r pos', trimTree c ω s tree pos = .ok (r, pos') ∧ (∀ id, r = some id → ∃ z, z.1 = id ∧ Choice c s.fading t z) ∧
      (t.height ≤ 100 → (∃ z, Choice c s.fading t z) → r ≠ none) := by
  unfold trimTree
  simp only [rd_eq_ok_iff.2 hroot, bind, Except.bind]
  by_cases hht : t.height ≤ 100
  · obtain ⟨a, e1, e2⟩ := foldLeaves_best c hc ω hω s.fading h0 s.forest.nodes hl t none [] { smallest := -1, id := 0, leaves := 0, sum := 0, pos := pos } hh
      ⟨rfl, fun _ => rfl, by simp, by simp⟩
    rw [List.nil_append] at e2
    have hw := walk_root t _ a hh hht hi e1
    rw [Int.natCast_zero.symm] at hw
    simp only [Int.natCast_zero] at hw
    simp only [hw, ne_eq, not_true_eq_false, if_false]
    obtain ⟨z, hz, hz1, hz2⟩ := e2.found (leaves_ne t)
    by_cases hbig : 0 < a.sum ∧ c.maximumTrimSize < a.smallest / a.sum
    · rw [if_pos hbig]
      refine ⟨none, a.pos, rfl, by simp, fun _ => ?_⟩
      rintro ⟨y, hy1, hy2⟩
      exfalso
      have hsum := e2.sum
      by_cases hr : c.trim = .random
      · rw [if_pos hr] at hsum
        rw [hsum] at hbig
        exact lt_irrefl _ hbig.1
      · rw [if_neg hr] at hsum
        obtain ⟨y3, y4⟩ := hy2 hr
        obtain ⟨f1, f2⟩ := hz2 hr
        have := y4 (by rw [← hsum]; exact hbig.1)
        rw [← hsum] at this
        have hle : a.smallest ≤ score c s.fading y := f2 y hy1
        have : a.smallest / a.sum ≤ c.maximumTrimSize := le_trans (div_le_div_of_nonneg_right hle hbig.1.le) this
        exact absurd hbig.2 (not_lt.2 this)
    · rw [if_neg hbig]
      refine ⟨some a.id, a.pos, rfl, fun id hid => ?_, by simp⟩
      cases hid
      refine ⟨z, hz1, hz, fun hr => ?_⟩
      obtain ⟨f1, f2⟩ := hz2 hr
      have hsum := e2.sum
      rw [if_neg hr] at hsum
      refine ⟨fun y hy => by rw [f1]; exact f2 y hy, fun hpos => ?_⟩
      rw [f1, ← hsum]
      by_contra hgt
      exact hbig ⟨by rw [hsum]; exact hpos, not_le.1 hgt⟩
  · obtain ⟨a, e1, -⟩ := walk_root_deep (act := trimLeaf c ω s.fading) (fun _ => True) (fun id n a hn _ => by
      have hid : id < s.fading.length := by rw [hl]; exact lt_of_get hn
      unfold trimLeaf
      cases c.trim with
      | none => exact ⟨_, rfl, trivial⟩
      | count => exact ⟨_, rfl, trivial⟩
      | random => exact ⟨_, rfl, trivial⟩
      | fading =>
          simp only [rd_eq_ok_iff.2 (List.getElem?_eq_getElem hid), bind, Except.bind, pure, Except.pure]
          exact ⟨_, rfl, trivial⟩) t { smallest := -1, id := 0, leaves := 0, sum := 0, pos := pos } hh (by omega) hi trivial
    simp only [e1]
    rw [if_pos (by decide)]
    exact ⟨none, a.pos, rfl, by simp, fun h => absurd h hht⟩

theorem trimTree_empty (c : Config K) (ω : Nat → K) (s : State K F L) (tree pos : Nat) (hroot : s.forest.roots[tree]? = some none) :
    trimTree c ω s tree pos = .ok (none, pos) := by
  unfold trimTree
  simp only [rd_eq_ok_iff.2 hroot, bind, Except.bind, walk]
  rw [if_pos (by decide)]
  rfl

end Orp.Coarse
