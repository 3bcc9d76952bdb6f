import Verif.Mondrian.Law

/-!
Property C94: with ideal random numbers a call of `train` adds to every tree a split of the law of a Mondrian process, independently for the trees.

The specification is in `LawSpec`: `Growth` lists the events, `Growth.Happens` says what they mean for a tree before and after the call and
`Growth.chance` is their probability under a Mondrian process.
-/

set_option linter.unusedSectionVars false

namespace Orp.Mondrian

open MeasureTheory Orp.Reservoir

variable {F L : Nat}

theorem cover_length {s : Forest ℝ F L} {trees : List (Option (Tree ℝ F L))} {lost : List Nat} (h : Inv s trees lost) {k : Nat}
    (hk : (allIds trees).length + 2 * k ≤ s.nodes.length) : 2 * k ≤ (avail s.nodes).length := by
  have h1 := h.cover.length_eq
  simp only [List.length_append, List.length_range] at h1
  by_cases hl : lost = []
  · subst hl; simp at h1; omega
  · have h2 := h.empty hl
    have h3 := h.one
    rw [h2] at h1 ⊢
    simp at h1 ⊢
    omega

/-- **C94.** A forest is in any state that a history of calls can lead to, with trees `E.map Prod.fst` and with two free nodes for every tree. Then a
call of `train` with ideal random numbers ends, and the events `E.map Prod.snd` happen to the trees, with the product of the probabilities that they
have under a Mondrian process: every tree follows the law of a Mondrian process, and the trees are independent. -/
theorem C94_split_law (p : Params ℝ) (hlife : 0 ≤ p.lifetime) (hlog : p.log = Real.log) (ω₀ : Nat → ℝ) (hω₀ : ∀ i, 0 ≤ ω₀ i ∧ ω₀ i < 1) (m : Nat)
    (ops : List (Op ℝ F L)) (E : List (Tree ℝ F L × Growth F)) {s : Forest ℝ F L} {pos₀ : Nat} (hs : run p ω₀ ops (new m E.length) 0 = .ok (s, pos₀))
    (hE : HoldsAll s (E.map fun e => some e.1)) (hm : (allIds (E.map fun e => some e.1)).length + 2 * E.length ≤ m) (x : Fin F → ℝ) (label : Fin L)
    (hp : ∀ e ∈ E, e.2.Proper x e.1 0) (pos : Nat) :
    draws {ω | ∃ s' pos' r ts', train p (nums ω) x label s pos = .ok (s', pos', r) ∧ HoldsAll s' (ts'.map some) ∧
      List.Forall₂ (fun e t' => e.2.Happens x e.1 t') E ts'} = (E.map fun e => ENNReal.ofReal (e.2.chance x e.1 0)).prod := by
  obtain ⟨trees, lost, a1, a2, a3, a4⟩ := run_good p hlife ω₀ hω₀ (· ≤ ·) (fun a b h => h.le) (draw_le hω₀) m E.length ops 0 _ hs
  have hu := C52_trees_unique a1.all hE
  subst hu
  refine train_law hlife hlog x label E s lost pos a1 (cover_length a1 (by rw [a2]; exact hm)) hp fun e he q hq => ?_
  obtain ⟨g1, g2⟩ := a4 (some e.1) (List.mem_map.2 ⟨e, he, rfl⟩)
  exact path_right (fun a b h => h) x e.1 _ 0 g1 g2 hlife q hq

/-- One tree: no node is added with probability `exp (-∑ η Δ)`, the sum ranging over the nodes on the way of the point, with `η` the distance of the
point from the box of the node and `Δ` the time since its parent. -/
theorem C94_no_split (p : Params ℝ) (hlife : 0 ≤ p.lifetime) (hlog : p.log = Real.log) (ω₀ : Nat → ℝ) (hω₀ : ∀ i, 0 ≤ ω₀ i ∧ ω₀ i < 1) (m : Nat)
    (ops : List (Op ℝ F L)) (t : Tree ℝ F L) {s : Forest ℝ F L} {pos₀ : Nat} (hs : run p ω₀ ops (new m 1) 0 = .ok (s, pos₀))
    (ht : HoldsAll s [some t]) (hm : t.ids.length + 2 ≤ m) (x : Fin F → ℝ) (label : Fin L) (pos : Nat) :
    draws {ω | ∃ s' pos' r t', train p (nums ω) x label s pos = .ok (s', pos', r) ∧ HoldsAll s' [some t'] ∧ t'.ids.length = t.ids.length} =
      ENNReal.ofReal (Real.exp (-((t.path x 0).map fun q => q.2.box.dist x * (q.2.tau - q.1)).sum)) := by
  have h := C94_split_law p hlife hlog ω₀ hω₀ m ops [(t, .stays)] hs ht (by simpa [allIds] using hm) x label (by simp [Growth.Proper]) pos
  simp only [List.map_cons, List.map_nil, List.prod_cons, List.prod_nil, mul_one] at h
  have e : (Growth.stays : Growth F).chance x t 0 = Real.exp (-((t.path x 0).map fun q => q.2.box.dist x * (q.2.tau - q.1)).sum) := rfl
  rw [e] at h
  rw [← h]
  congr 1
  ext ω
  constructor
  · rintro ⟨s', pos', r, t', h1, h2, h3⟩
    exact ⟨s', pos', r, [t'], h1, h2, List.Forall₂.cons h3 List.Forall₂.nil⟩
  · rintro ⟨s', pos', r, ts', h1, h2, h3⟩
    cases h3 with
    | cons c1 c2 =>
      cases c2
      exact ⟨s', pos', r, _, h1, h2, c1⟩

/-! ### Examples -/

/-- a forest of one tree after one point -/
theorem one_point (p : Params ℝ) (hlife : 0 ≤ p.lifetime) (ω₀ : Nat → ℝ) (m : Nat) (z : Point ℝ F L) :
    ∃ s, run p ω₀ [.train z.1 z.2] (new (m + 1) 1) 0 = .ok (s, 0) ∧ HoldsAll s [some (newLeaf p.lifetime 0 z.1 z.2)] := by
  have h := trainTree_none p hlife ω₀ z.1 z.2 (new (m + 1) 1) [none] [] (inv_new (m + 1) 1) 0 0 rfl
  rw [avail_new, List.range_succ_eq_map] at h
  obtain ⟨s', e1, e2, -⟩ := h
  refine ⟨s', ?_, by simpa using e2.all⟩
  simp only [run, exec, train, bind, Except.bind]
  rw [show (new (m + 1) 1 : Forest ℝ F L).roots.length = 0 + 1 by simp [new]]
  simp only [trainLoop, bind, Except.bind, e1, pure, Except.pure]

/-- one tree, lifetime 2, the point `(0, 0)` was trained -/
noncomputable def exR : Params ℝ := { lifetime := 2, base := 1 / 2, discount := 1, exp := Real.exp, log := Real.log }

def pt2 (a b : ℝ) : Fin 2 → ℝ := ![a, b]

/-- The point `(1, 3)` leads to no split with probability `exp (-8)`. -/
example : ∃ s : Forest ℝ 2 2, draws {ω | ∃ s' pos' r t', train exR (nums ω) (pt2 1 3) 1 s 0 = .ok (s', pos', r) ∧ HoldsAll s' [some t'] ∧ t'.ids.length = 1} =
    ENNReal.ofReal (Real.exp (-8)) := by
  obtain ⟨s, h1, h2⟩ := one_point exR (by norm_num [exR]) (fun _ => 0) 2 (pt2 0 0, (0 : Fin 2))
  refine ⟨s, ?_⟩
  have h := C94_no_split exR (by norm_num [exR]) rfl (fun _ => 0) (by norm_num) 3 _ _ h1 h2 (by simp [newLeaf, Tree.ids]) (pt2 1 3) 1 0
  rw [show (newLeaf exR.lifetime 0 (pt2 0 0) (0 : Fin 2)).ids.length = 1 from rfl] at h
  rw [h]
  congr 2
  simp [newLeaf, Tree.path, Box.dist, Box.distIn, Box.point, exR, pt2, Fin.sum_univ_two]
  norm_num

/-- It leads to a split in the second dimension, before time 1 and with a value below 2, with probability `(1 - exp (-4)) / 2`. -/
example : ∃ (s : Forest ℝ 2 2) (t : Tree ℝ 2 2), draws {ω | ∃ s' pos' r ts', train exR (nums ω) (pt2 1 3) 1 s 0 = .ok (s', pos', r) ∧ HoldsAll s' (ts'.map some) ∧
      List.Forall₂ (fun e t' => e.2.Happens (pt2 1 3) e.1 t') [(t, Growth.splits 0 1 1 2)] ts'} = ENNReal.ofReal ((1 - Real.exp (-4)) * (1 / 2)) := by
  obtain ⟨s, h1, h2⟩ := one_point exR (by norm_num [exR]) (fun _ => 0) 2 (pt2 0 0, (0 : Fin 2))
  refine ⟨s, _, (C94_split_law exR (by norm_num [exR]) rfl (fun _ => 0) (by norm_num) 3 _ [(_, Growth.splits 0 1 1 2)] h1 h2
    (by simp [allIds, Tree.ids]) (pt2 1 3) 1 ?_ 0).trans ?_⟩
  · simp only [List.mem_singleton, forall_eq, Growth.Proper]
    refine ⟨_, rfl, ?_⟩
    simp [Box.distIn, Box.point, exR, pt2, Box.gapLow, Box.gapHigh]
    norm_num
  · simp only [List.map_cons, List.map_nil, List.prod_cons, List.prod_nil, mul_one]
    congr 1
    simp [Growth.chance, newLeaf, Tree.path, weight, Box.dist, Box.distIn, Box.point, exR, pt2, Fin.sum_univ_two, Box.gapLow]
    norm_num

end Orp.Mondrian
