import Verif.Coarse.Forced
import Verif.Coarse.SplitProps

/-!
C118 to C120: sending a point down a tree, moving the boxes of a tree to one side of a split, and the numbers of forced extensions.
-/

set_option linter.unusedSectionVars false

namespace Orp.Coarse

open Finset
open Mondrian (Node Box Forest Params Tree Data plug ctxPar Holds HoldsAll exω exP pt exω_range)

variable {K : Type} [Field K] [LinearOrder K] [IsStrictOrderedRing K] [FloorRing K] {F L : Nat}

/-! ### C118 -/

/-- **C118** After every history, `pass_data_point_down` from any node of any tree returns the leaf that the splits select for the point. The boxes of the nodes on the way have
grown just enough to contain the point, the leaf has counted the point for its label and its fading score is one larger. Nothing else has changed. -/
theorem C118_pass_down (c : Config K) (p : Params K) (ω : Nat → K) (maxSize sizeNode sizeBase : Nat) (junk : List Int) (last : Nat) (s0 : State K F L) (ops : List (Op K F L))
    (h : Setting c p ω maxSize sizeNode sizeBase junk last s0 ops) (pos : Nat) (s : State K F L) (pos' : Nat) (hr : run c p ω ops s0 pos = .ok (s, pos')) :
    ∃ trees, HoldsAll s.forest trees ∧ trees.length = junk.length ∧ ∀ (j : Nat) T t, trees[j]? = some (some T) → Part t T → ∀ (x : Fin F → K) (label : Fin L),
      ∃ s' t' par, passDown x label s.forest.nodes.length t.id s = .ok (t.leafOf x, s') ∧ Holds s.forest.nodes par t ∧ Received x label t t' ∧ Holds s'.forest.nodes par t' ∧
        (∀ i, i ∉ t.ids → s'.forest.nodes[i]? = s.forest.nodes[i]?) ∧ s'.forest.nodes.length = s.forest.nodes.length ∧
        (∀ i, s'.fading.getD i 0 = s.fading.getD i 0 + if i = t.leafOf x then 1 else 0) ∧
        s' = { s with forest := { s.forest with nodes := s'.forest.nodes }, fading := s'.fading } := by
  obtain ⟨trees, e2, e3⟩ := h.good hr
  refine ⟨trees, e2.inv.mem.all, e3, fun j T t hj hp x label => ?_⟩
  obtain ⟨fs, -, h1, h2, h3⟩ := part_holds e2 hj hp
  obtain ⟨nodes', g1, g2, g3, g4⟩ := passDown_tree x label s.forest.nodes.length t _ s (le_trans (Mondrian.height_le_ids t) h3) h2 h1 e2.inv.fading
  refine ⟨_, _, _, g4, h1, received_absorb x label t, g2, g3, g1, fun i => ?_, rfl⟩
  have hlt : t.leafOf x < s.fading.length := by rw [e2.inv.fading]; obtain ⟨n, hn⟩ := Mondrian.holds_mem h1 _ (Mondrian.leafOf_mem x t); exact Mondrian.lt_of_get hn
  by_cases hi : i = t.leafOf x
  · subst hi
    simp [List.getD_eq_getElem?_getD, List.getElem?_set_self hlt]
  · simp [List.getD_eq_getElem?_getD, List.getElem?_set_ne (fun e => hi e.symm), hi]

theorem received_root {x : Fin F → K} {label : Fin L} {t t' : Tree K F L} (h : Received x label t t') : Grown x t.data.box t'.data.box := by
  cases h with
  | leaf hb _ => exact hb
  | left hb _ _ => exact hb
  | right hb _ _ => exact hb

theorem received_all {x : Fin F → K} {label : Fin L} {P : Box K F → Prop} (hP : ∀ b b', Grown x b b' → P b → P b') {t t' : Tree K F L} (h : Received x label t t') :
    AllBoxes P t → AllBoxes P t' := by
  induction h with
  | leaf hb _ => exact hP _ _ hb
  | left hb _ _ ih => exact fun ⟨a, b, c⟩ => ⟨hP _ _ hb a, ih b, c⟩
  | right hb _ _ ih => exact fun ⟨a, b, c⟩ => ⟨hP _ _ hb a, b, ih c⟩

/-- **C118** In a tree that has received a point, as many points are counted as before, and one more for the label of the point. If every box was inside the box above it,
this is still so, and if the boxes were on their side of the splits above them, they still are. -/
theorem C118_counted {x : Fin F → K} {label : Fin L} {t t' : Tree K F L} (h : Received x label t t') :
    (∀ i, countOf t' i = countOf t i + if i = label then 1 else 0) ∧ (Nested t → Nested t') ∧ (Separated t → Separated t') := by
  have up : ∀ (dim : Fin F) (sp : K), x dim ≤ sp → ∀ b b' : Box K F, Grown x b b' → b.upper dim ≤ sp → b'.upper dim ≤ sp := fun dim sp hx b b' hg hb => by
    refine le_trans ((hg.2.2 (b.extend x) (grown_extend x b).1 (grown_extend x b).2.1) dim).2 ?_
    show (if b.upper dim < x dim then x dim else b.upper dim) ≤ sp
    split <;> assumption
  have low : ∀ (dim : Fin F) (sp : K), sp < x dim → ∀ b b' : Box K F, Grown x b b' → sp < b.lower dim → sp < b'.lower dim := fun dim sp hx b b' hg hb => by
    refine lt_of_lt_of_le ?_ ((hg.2.2 (b.extend x) (grown_extend x b).1 (grown_extend x b).2.1) dim).1
    show sp < (if x dim < b.lower dim then x dim else b.lower dim)
    split <;> assumption
  have keep : ∀ {b b' c : Box K F}, c.Inside b → Grown x b b' → c.Inside b' := fun h1 h2 i => ⟨le_trans (h2.1 i).1 (h1 i).1, le_trans (h1 i).2 (h2.1 i).2⟩
  have grow : ∀ {b b' c c' : Box K F}, c.Inside b → Grown x b b' → Grown x c c' → c'.Inside b' := fun h1 h2 h3 => h3.2.2 _ (keep h1 h2) h2.2.1
  induction h with
  | leaf hb hc =>
      refine ⟨fun i => ?_, fun _ => trivial, fun _ => trivial⟩
      simp only [countOf, leaves, List.map_cons, List.map_nil, List.sum_cons, List.sum_nil, hc]
      split <;> omega
  | left hb hx hl ih =>
      refine ⟨fun i => ?_, fun ⟨a, b, c, d⟩ => ⟨grow a hb (received_root hl), keep b hb, ih.2.1 c, d⟩, fun ⟨a, b, c, d⟩ => ⟨received_all (up _ _ hx) hl a, b, ih.2.2 c, d⟩⟩
      have := ih.1 i
      simp only [countOf, leaves, List.map_append, List.sum_append] at this ⊢
      omega
  | right hb hx hl ih =>
      refine ⟨fun i => ?_, fun ⟨a, b, c, d⟩ => ⟨keep a hb, grow b hb (received_root hl), c, ih.2.1 d⟩, fun ⟨a, b, c, d⟩ => ⟨a, received_all (low _ _ hx) hl b, c, ih.2.2 d⟩⟩
      have := ih.1 i
      simp only [countOf, leaves, List.map_append, List.sum_append] at this ⊢
      omega

/-- **C118** After every history, `count_fe_down` from any node of any tree returns the sum of the numbers of forced extensions of the nodes on the way of the point. -/
theorem C118_count_down (c : Config K) (p : Params K) (ω : Nat → K) (maxSize sizeNode sizeBase : Nat) (junk : List Int) (last : Nat) (s0 : State K F L) (ops : List (Op K F L))
    (h : Setting c p ω maxSize sizeNode sizeBase junk last s0 ops) (pos : Nat) (s : State K F L) (pos' : Nat) (hr : run c p ω ops s0 pos = .ok (s, pos')) :
    ∃ trees, HoldsAll s.forest trees ∧ trees.length = junk.length ∧ ∀ (j : Nat) T t, trees[j]? = some (some T) → Part t T → ∀ x : Fin F → K,
      countFe s x s.forest.nodes.length t.id = .ok (wayForced s.forced x t) := by
  obtain ⟨trees, e2, e3⟩ := h.good hr
  refine ⟨trees, e2.inv.mem.all, e3, fun j T t hj hp x => ?_⟩
  obtain ⟨fs, -, h1, h2, h3⟩ := part_holds e2 hj hp
  exact countFe_spec s e2.inv.forced x _ t _ (le_trans (Mondrian.height_le_ids t) h3) h1

/-- a case with splits: the point 5/2 with label 0 is sent down from the root 3, whose split is 2; it reaches leaf 4 -/
example : (∃ s0, Setting (cfg .phoenix 0 .original .none) exP (exω []) 85 10 5 [0] 0 s0 exOps) ∧
    ((exRun (cfg .phoenix 0 .original .none) [0] exOps).bind fun r => do
      let (leaf, s) ← passDown (pt (5 / 2)) 0 r.1.forest.nodes.length 3 r.1
      let n ← rd s.forest.nodes leaf
      return (leaf, n.box.map (fun b => (b.lower 0, b.upper 0)), List.ofFn n.counts)) = .ok (4, some (5 / 2, 3), [1, 1]) :=
  ⟨⟨_, exSetting _ _ _ rfl (by simp [exOps, Valid])⟩, by decide +kernel⟩

/-! ### C119 -/

/-- A point is on the side of the split that is kept. -/
def OnSide (onLeft : Bool) (dim : Fin F) (v : K) (x : Fin F → K) : Prop := if onLeft then x dim ≤ v else v ≤ x dim

/-- `t'` is `t` with every box replaced by its part on one side of the split. -/
inductive Confined (onLeft : Bool) (dim : Fin F) (v : K) : Tree K F L → Tree K F L → Prop where
  | leaf {id d b'} (hb : ∀ x, Has b' x ↔ Has d.box x ∧ OnSide onLeft dim v x) : Confined onLeft dim v (.leaf id d) (.leaf id { d with box := b' })
  | node {id d nd sp l r b' l' r'} (hb : ∀ x, Has b' x ↔ Has d.box x ∧ OnSide onLeft dim v x) (hl : Confined onLeft dim v l l') (hr : Confined onLeft dim v r r') :
      Confined onLeft dim v (.node id d nd sp l r) (.node id { d with box := b' } nd sp l' r')

/-- A box reaches into the side that is kept. -/
def Reaches (onLeft : Bool) (dim : Fin F) (v : K) (b : Box K F) : Prop := b.lower dim < b.upper dim ∧ if onLeft then b.lower dim < v else v < b.upper dim

theorem clip_wide {onLeft : Bool} {dim : Fin F} {v : K} {b : Box K F} (h : Reaches onLeft dim v b) : Wide onLeft dim v b := by
  obtain ⟨h1, h2⟩ := h
  unfold Wide clip
  cases onLeft
  · simp only [Bool.false_eq_true, if_false, Function.update_self, Utils.max] at h2 ⊢
    split_ifs <;> intro e <;> linarith
  · simp only [if_true, Function.update_self, Utils.min] at h2 ⊢
    split_ifs <;> intro e <;> linarith

theorem clip_has {onLeft : Bool} {dim : Fin F} {v : K} {b : Box K F} (h : Reaches onLeft dim v b) (x : Fin F → K) :
    Has (clip onLeft dim v b) x ↔ Has b x ∧ OnSide onLeft dim v x := by
  obtain ⟨h1, h2⟩ := h
  unfold Has clip OnSide
  cases onLeft
  · simp only [Bool.false_eq_true, if_false, Utils.max] at h2 ⊢
    constructor
    · intro hx
      have hd := hx dim
      simp only [Function.update_self] at hd
      refine ⟨fun i => ?_, ?_⟩
      · by_cases hi : i = dim
        · subst hi
          revert hd
          split_ifs <;> intro hd <;> constructor <;> linarith [hd.1, hd.2]
        · simpa [Function.update_of_ne hi] using hx i
      · revert hd
        split_ifs <;> intro hd <;> linarith [hd.1, hd.2]
    · rintro ⟨hx, hs⟩ i
      by_cases hi : i = dim
      · subst hi
        have := hx i
        simp only [Function.update_self]
        split_ifs <;> constructor <;> linarith [this.1, this.2]
      · simpa [Function.update_of_ne hi] using hx i
  · simp only [if_true, Utils.min] at h2 ⊢
    constructor
    · intro hx
      have hd := hx dim
      simp only [Function.update_self] at hd
      refine ⟨fun i => ?_, ?_⟩
      · by_cases hi : i = dim
        · subst hi
          revert hd
          split_ifs <;> intro hd <;> constructor <;> linarith [hd.1, hd.2]
        · simpa [Function.update_of_ne hi] using hx i
      · revert hd
        split_ifs <;> intro hd <;> linarith [hd.1, hd.2]
    · rintro ⟨hx, hs⟩ i
      by_cases hi : i = dim
      · subst hi
        have := hx i
        simp only [Function.update_self]
        split_ifs <;> constructor <;> linarith [this.1, this.2]
      · simpa [Function.update_of_ne hi] using hx i

theorem confined_clip {onLeft : Bool} {dim : Fin F} {v : K} : ∀ t : Tree K F L, AllBoxes (Reaches onLeft dim v) t →
    Confined onLeft dim v t (mapBoxes (clip onLeft dim v) t) ∧ AllBoxes (Wide onLeft dim v) t
  | .leaf _ _, h => ⟨.leaf fun x => clip_has h x, clip_wide h⟩
  | .node _ _ _ _ l r, ⟨h1, h2, h3⟩ =>
      ⟨.node (fun x => clip_has h1 x) (confined_clip l h2).1 (confined_clip r h3).1, clip_wide h1, (confined_clip l h2).2, (confined_clip r h3).2⟩

/-- **C119** (partial) After every history, if the boxes of a node with at most 100 levels and of all the nodes below it have a width in the dimension of the split and reach
into the side that is kept, then `adjust_boxes` replaces each of these boxes by its part on that side. Nothing else changes.
Missing: boxes that have no width or are on the other side, see `C119_wrong_side`. -/
theorem C119_confined_partial (c : Config K) (p : Params K) (ω : Nat → K) (maxSize sizeNode sizeBase : Nat) (junk : List Int) (last : Nat) (s0 : State K F L)
    (ops : List (Op K F L)) (h : Setting c p ω maxSize sizeNode sizeBase junk last s0 ops) (pos : Nat) (s : State K F L) (pos' : Nat)
    (hr : run c p ω ops s0 pos = .ok (s, pos')) :
    ∃ trees, HoldsAll s.forest trees ∧ trees.length = junk.length ∧ ∀ (j : Nat) T t, trees[j]? = some (some T) → Part t T → t.height ≤ 100 → ∀ (onLeft : Bool) (dim : Fin F) (v : K),
      AllBoxes (Reaches onLeft dim v) t → ∃ s' t' par, adjustBoxes s t.id dim v onLeft j = .ok s' ∧ Holds s.forest.nodes par t ∧ Confined onLeft dim v t t' ∧
        Holds s'.forest.nodes par t' ∧ (∀ i, i ∉ t.ids → s'.forest.nodes[i]? = s.forest.nodes[i]?) ∧ s'.forest.nodes.length = s.forest.nodes.length ∧
        s' = { s with forest := { s.forest with nodes := s'.forest.nodes } } := by
  obtain ⟨trees, e2, e3⟩ := h.good hr
  refine ⟨trees, e2.inv.mem.all, e3, fun j T t hj hp hd onLeft dim v hb => ?_⟩
  obtain ⟨fs, -, h1, h2, h3⟩ := part_holds e2 hj hp
  obtain ⟨nodes', g1, g2⟩ := adjustBoxes_tree (tree := j) s t _ h2 h1 hd h3 (confined_clip t hb).2
  exact ⟨_, _, _, g2, h1, (confined_clip t hb).1, g1.holds, g1.other, g1.length, rfl⟩

/-- whether a node is in use, the bounds of its box and its counters -/
structure SeenBox where
  used : Bool
  box : Option (ℚ × ℚ)
  counts : List Nat
deriving DecidableEq

/-- the nodes -/
def seeBoxes (s : State ℚ 1 2) : List SeenBox := s.forest.nodes.map fun n => ⟨!n.available, n.box.map (fun b => (b.lower 0, b.upper 0)), List.ofFn n.counts⟩

/-- **C119** (violation) The points 0, 1, 2 and 3 are in the leaves 0, 2, 6 and 4. The part of the tree below 7/4 is to be kept. Afterwards the leaves of the points 0, 1 and 2
have been given back, and only the leaf of the point 3 is left, which is not in that part. -/
theorem C119_wrong_side : let r := exRun (cfg .phoenix 0 .original .none) [0] exOps
    (r.map fun r => (r.1.forest.roots, seeBoxes r.1)) = .ok ([some 3],
      [⟨true, some (0, 0), [1, 0]⟩, ⟨true, some (0, 2), [1, 0]⟩, ⟨true, some (1, 1), [0, 1]⟩, ⟨true, some (0, 3), [1, 0]⟩, ⟨true, some (3, 3), [0, 1]⟩,
       ⟨true, some (1, 2), [0, 1]⟩, ⟨true, some (2, 2), [0, 1]⟩, ⟨false, some (0, 0), [0, 0]⟩]) ∧
    ((r.bind fun r => adjustBoxes r.1 3 0 (7 / 4) true 0).map fun s => (s.forest.roots, (seeBoxes s).map SeenBox.used, (seeBoxes s)[4]?)) =
      .ok ([some 4], [false, false, false, false, true, false, false, false], some ⟨true, some (7 / 4, 7 / 4), [0, 1]⟩) := ⟨by decide +kernel, by decide +kernel⟩

/-- a case with a leaf that has a width: the tree is one leaf with the bounds 0 and 3, of which the part below 3/2 is kept -/
example : (∃ s0, Setting (cfg .cobble 1 .original .none) exP (exω []) 85 10 5 [0] 0 s0 exOps) ∧
    ((exRun (cfg .cobble 1 .original .none) [0] exOps).bind fun r => do
      let n ← rd r.1.forest.nodes 0
      let s ← adjustBoxes r.1 0 0 (3 / 2) true 0
      let n' ← rd s.forest.nodes 0
      return (n.box.map (fun b => (b.lower 0, b.upper 0)), n'.box.map (fun b => (b.lower 0, b.upper 0)))) = .ok (some (0, 3), some (0, 3 / 2)) :=
  ⟨⟨_, exSetting _ _ _ rfl (by simp [exOps, Valid])⟩, by decide +kernel⟩

/-! ### C120 -/

/-- **C120** (partial) With every trigger of splits, every way to find the place of a split and every way to share the forced extensions, except that FE_DISTRIBUTION_DECREMENT
is used without a helper of splits, after every history no node has a negative number of forced extensions.
Missing: FE_DISTRIBUTION_DECREMENT with a helper, see `C120_negative`. -/
theorem C120_nonneg_partial (c : Config K) (sc : SplitConfig K) (hsc : sc.distribution = .decrement → sc.helper = .none) (p : Params K) (ω : Nat → K) (hω : ∀ i, 0 ≤ ω i)
    (maxSize sizeNode sizeBase : Nat) (junk : List Int) (last : Nat) (s0 : State K F L) (hn : new c maxSize sizeNode sizeBase junk last = .ok s0) (ops : List (Op K F L))
    (ex : Extra K F) (pos : Nat) (r : State K F L × Extra K F × Nat) (hr : runSplit c sc p ω ops s0 ex pos = .ok r) : ∀ f ∈ r.1.forced, 0 ≤ f :=
  fine_runSplit c sc hsc p ω hω ops s0 ex pos (fine_new c maxSize sizeNode sizeBase junk last s0 hn) r hr

/-- **C120** (partial) When a leaf with some forced extensions is split, the two parts together have at most that many, and neither has a negative number.
Missing: FE_DISTRIBUTION_DECREMENT for a leaf without forced extensions, see `C120_negative`. -/
theorem C120_shared_partial (dist : Distribution) (f left right : Int) (hf : 0 ≤ f) (hl : 0 ≤ left) (hr : 0 ≤ right) (hd : dist = .decrement → 0 < f) (node sibling : Int)
    (h : distribute (K := K) dist f left right = .ok (node, sibling)) : 0 ≤ node ∧ 0 ≤ sibling ∧ node + sibling ≤ f :=
  distribute_spec dist f left right hf hl hr hd _ h

/-- the numbers of forced extensions -/
def seeForced (r : Res (State ℚ 1 2 × Extra ℚ 1 × Nat)) : Res (List Int) := r.map fun r => r.1.forced

/-- 27 points, then a trim and a last point -/
def helpOps : List (Op ℚ 1 2) := [.train (pt 0) 1, .train (pt 8) 1, .train (pt 3) 1, .train (pt 6) 1, .train (pt 0) 1, .train (pt 0) 1, .train (pt (591 / 200)) 1] ++
  List.replicate 20 (.train (pt 3) 1) ++ [.trim, .train (pt (299 / 100)) 0]

/-- **C120** (violation) FE_DISTRIBUTION_DECREMENT with SPLIT_HELPER_AVG: the last point makes the helper split a leaf without forced extensions, which has -1 forced extensions
afterwards. -/
theorem C120_negative : let r := fun k => splitRun (cfg .cobble 3 .barycenter .count) ⟨.decrement, .none, .avg, 1⟩ 85 (exω []) (fun _ => 0) (helpOps.take k)
    seeForced (r 28) = .ok [0, 0, 0, 0, 0, 0, 0, 0] ∧ seeForced (r 29) = .ok [0, 0, 0, 0, -1, 0, 0, 0] := ⟨by decide +kernel, by decide +kernel⟩

/-- 30 points -/
def shareOps : List (Op ℚ 1 2) := [.train (pt 0) 0, .train (pt 8) 0, .train (pt 3) 0, .train (pt 6) 1, .train (pt 2) 1, .train (pt (7 / 4)) 1, .train (pt (13 / 8)) 1,
  .train (pt (25 / 16)) 1, .train (pt (7 / 2)) 1, .train (pt (15 / 4)) 1] ++ List.replicate 18 (.train (pt (11 / 4)) 1) ++ [.trim, .train (pt (7 / 4)) 0]

/-- **C120** (violation) FE_DISTRIBUTION_PROPORTIONAL: leaf 4 has the bounds 25/16 and 15/4, 25 points and 6 forced extensions. It is split at 2131/928. It keeps the right side
and two thirds of the box, and the new leaf 2 has one third. But leaf 4 gets 1 forced extension and leaf 2 gets 4. -/
theorem C120_wrong_share : let r := fun k => splitRun (cfg .cobble 3 .barycenter .count) ⟨.proportional, .none, .avg, 1⟩ 85 (exω []) (fun _ => 0) (shareOps.take k)
    seeLeaf (r 29) 4 = .ok ([1, 24], some (25 / 16, 15 / 4)) ∧ seeForced (r 29) = .ok [0, 0, 0, 0, 6, 0, 0, 0] ∧
    seeLeaf (r 30) 4 = .ok ([1, 24], some (2131 / 928, 15 / 4)) ∧ seeLeaf (r 30) 2 = .ok ([1, 0], some (25 / 16, 2131 / 928)) ∧
    seeForced (r 30) = .ok [0, 0, 4, 0, 1, 0, 0, 0] := ⟨by decide +kernel, by decide +kernel, by decide +kernel, by decide +kernel, by decide +kernel⟩

/-- a case with forced extensions: the hypotheses of `C120_nonneg_partial` hold, and leaf 4 has 6 forced extensions before it is split -/
example : (∀ i, 0 ≤ exω [] i) ∧ (∃ s0, new (F := 1) (L := 2) (cfg .cobble 3 .barycenter .count) 85 10 5 [0] 0 = .ok s0) ∧
    seeForced (splitRun (cfg .cobble 3 .barycenter .count) ⟨.split, .none, .avg, 1⟩ 85 (exω []) (fun _ => 0) shareOps) = .ok [0, 0, 3, 0, 3, 0, 0, 0] :=
  ⟨fun i => (exω_range [] i).1, ⟨_, rfl⟩, by decide +kernel⟩

end Orp.Coarse
