import Verif.Coarse.Tour
import Verif.Coarse.Public
import Verif.Coarse.PublicSpec
import Verif.Coarse.SplitProps
import Verif.Coarse.Boxes
import Verif.Utils.Props

/-!
Properties C85 – C89 of `CoarseMondrianForest`: further public functions.
-/

namespace Orp.Coarse

set_option linter.unusedSectionVars false

open Finset
open Mondrian (Node Box Forest Params Tree Data HoldsAll Holds exω exP pt avail allIds plug ctxPar init)

variable {K : Type} [Field K] [LinearOrder K] [IsStrictOrderedRing K] [FloorRing K] {F L : Nat}

/-! ### C85 -/

theorem foldl_best (score : Fin L → K) (label : Fin L) : ∀ (l : List (Fin L)) (idx : Fin L),
    let r := l.foldl (fun idx i => if i ≠ label ∧ score idx < score i then i else idx) idx
    (r = idx ∨ r ≠ label) ∧ score idx ≤ score r ∧ ∀ i ∈ l, i ≠ label → score i ≤ score r
  | [], idx => ⟨Or.inl rfl, le_rfl, fun i hi => by cases hi⟩
  | a :: l, idx => by
      obtain ⟨h1, h2, h3⟩ := foldl_best score label l (if a ≠ label ∧ score idx < score a then a else idx)
      simp only [List.foldl_cons]
      have hle : score idx ≤ score (if a ≠ label ∧ score idx < score a then a else idx) := by
        split
        · rename_i h; exact h.2.le
        · exact le_rfl
      refine ⟨?_, hle.trans h2, fun i hi hne => ?_⟩
      · by_cases ha : a ≠ label ∧ score idx < score a
        · rw [if_pos ha] at h1 ⊢
          rcases h1 with h1 | h1
          · right; rw [h1]; exact ha.1
          · exact Or.inr h1
        · rw [if_neg ha] at h1 ⊢
          exact h1
      · rcases List.mem_cons.1 hi with rfl | hi
        · refine le_trans ?_ h2
          split
          · exact le_rfl
          · rename_i h
            exact not_lt.1 fun h' => h ⟨hne, h'⟩
        · exact h3 i hi hne

theorem best_ofFn (score : Fin L → K) (label : Fin L) : ∃ b : Fin L, Utils.indexMax (List.ofFn score) = b.val ∧ (List.ofFn score).getD b.val 0 = score b ∧
    (∀ j, score j ≤ score b) ∧ ∀ j, j < b → score j < score b := by
  have hne : List.ofFn score ≠ [] := by
    have := label.pos
    intro h
    have := congrArg List.length h
    simp at this
    omega
  obtain ⟨h, h1, h2⟩ := Utils.C32_index_max (List.ofFn score) hne
  have hL : Utils.indexMax (List.ofFn score) < L := by simpa using h
  refine ⟨⟨_, hL⟩, rfl, ?_, fun j => ?_, fun j hj => ?_⟩
  · simp [hL]
  · have := h1 (score j) (List.mem_ofFn.2 ⟨j, rfl⟩)
    simpa using this
  · have := h2 j.val (by simp) hj
    simpa using this

/-- **C85** (partial) For at least two labels `eval_scores` returns the score of the label minus the best other score, unless the label is the first one and has the
greatest score. Missing: that case, see `C85_first_label`. -/
theorem C85_margin_partial (score : Fin L → K) (label : Fin L) (h2 : 2 ≤ L) (h : label.val = 0 → ∃ j, j ≠ label ∧ score label ≤ score j) :
    IsMargin score label (evalScores score label) := by
  obtain ⟨b, e1, e2, e3, e4⟩ := best_ofFn score label
  unfold evalScores
  simp only [e1, e2]
  by_cases hb : b = label
  · rw [if_pos (by rw [hb])]
    obtain ⟨h1, h5, h6⟩ := foldl_best score label ((List.finRange L).drop 1) ⟨0, label.pos⟩
    change (secondBest score label = _ ∨ _) at h1
    change (_ ≤ score (secondBest score label)) at h5
    change (∀ i ∈ _, _ → _ ≤ score (secondBest score label)) at h6
    have hall : ∀ j, j ≠ label → score j ≤ score (secondBest score label) := by
      intro j hj
      by_cases hj0 : j.val = 0
      · have : j = ⟨0, label.pos⟩ := Fin.ext hj0
        rw [this]; exact h5
      · refine h6 j ?_ hj
        rw [List.mem_iff_getElem]
        have hjl := j.isLt
        refine ⟨j.val - 1, by simp; omega, ?_⟩
        simp only [List.getElem_drop, List.getElem_finRange]
        exact Fin.ext (by simp; omega)
    by_cases hl0 : label.val = 0
    · obtain ⟨j, hj1, hj2⟩ := h hl0
      have hj3 : score j = score label := le_antisymm (hb ▸ e3 j) hj2
      refine ⟨j, hj1, fun i _ => by rw [hj3]; exact hb ▸ e3 i, ?_⟩
      have : score (secondBest score label) = score label :=
        le_antisymm (hb ▸ e3 _) (by rw [← hj3]; exact hall j hj1)
      rw [this, hj3]
    · refine ⟨secondBest score label, ?_, hall, rfl⟩
      rcases h1 with h1 | h1
      · rw [h1]
        intro h
        rw [← h] at hl0
        exact hl0 rfl
      · exact h1
  · rw [if_neg (fun h => hb (Fin.ext h))]
    exact ⟨b, hb, fun j _ => e3 j, rfl⟩

/-- **C85** (violation) If the first label has the greatest score, `eval_scores` returns 0 for it, and not the difference to the second best score. -/
theorem C85_first_label (score : Fin L → K) (label : Fin L) (h0 : label.val = 0) (h : ∀ j, j ≠ label → score j < score label) :
    evalScores score label = 0 ∧ ¬ IsMargin score label (evalScores score label) := by
  obtain ⟨b, e1, e2, e3, e4⟩ := best_ofFn score label
  have hb : b = label := by
    by_contra hb
    exact absurd (e3 label) (not_le.2 (h b hb))
  have hz : evalScores score label = 0 := by
    have hl : label = ⟨0, label.pos⟩ := Fin.ext h0
    obtain ⟨-, h5, -⟩ := foldl_best score label ((List.finRange L).drop 1) ⟨0, label.pos⟩
    change (_ ≤ score (secondBest score label)) at h5
    rw [← hl] at h5
    unfold evalScores
    simp only [e1]
    rw [if_pos (by rw [hb])]
    by_cases hs : secondBest score label = label
    · rw [hs, sub_self]
    · exact absurd (h _ hs) (not_lt.2 h5)
  refine ⟨hz, ?_⟩
  rintro ⟨o, ho, -, hm⟩
  rw [hz] at hm
  have := h o ho
  linarith

example : evalScores (![3, 1, 2] : Fin 3 → ℚ) 0 = 0 ∧ evalScores (![1, 3, 2] : Fin 3 → ℚ) 1 = 1 ∧ evalScores (![1, 3, 2] : Fin 3 → ℚ) 0 = -2 := by decide +kernel

/-! ### The nodes of a forest -/

theorem Part.plug {t T : Tree K F L} (h : Part t T) : ∃ fs, T = Mondrian.plug fs t := by
  suffices ∀ fs' : List (Mondrian.Frame K F L), ∃ fs, Mondrian.plug fs' T = Mondrian.plug fs t from this []
  induction h with
  | self => exact fun fs' => ⟨fs', rfl⟩
  | @left id d dim sp l r h ih =>
      intro fs'
      obtain ⟨fs, hf⟩ := ih (⟨id, d, dim, sp, true, r⟩ :: fs')
      exact ⟨fs, hf⟩
  | @right id d dim sp l r h ih =>
      intro fs'
      obtain ⟨fs, hf⟩ := ih (⟨id, d, dim, sp, false, l⟩ :: fs')
      exact ⟨fs, hf⟩

theorem part_holds {c : Config K} {few : Prop} {bases : List Base} {m : Nat} {s : State K F L} {trees : List (Option (Tree K F L))} (hg : Good c few bases m s trees)
    {j : Nat} {T t : Tree K F L} (hj : trees[j]? = some (some T)) (hp : Part t T) :
    ∃ fs, T = plug fs t ∧ Holds s.forest.nodes (ctxPar fs) t ∧ t.ids.Nodup ∧ t.ids.length ≤ s.forest.nodes.length := by
  obtain ⟨fs, rfl⟩ := hp.plug
  have hm := hg.inv.mem
  have hmem : some (plug fs t) ∈ trees := List.mem_iff_getElem?.2 ⟨j, hj⟩
  have hnd := hm.all.nodup
  have hlen := hm.cover.length_eq
  simp only [List.nil_append, List.length_append, List.length_range] at hlen
  obtain ⟨a, b, hab⟩ := List.append_of_mem hmem
  rw [hab] at hnd hlen
  simp only [Mondrian.allIds, List.flatMap_append, List.flatMap_cons, List.length_append] at hnd hlen
  have hperm := Mondrian.plug_ids fs t
  have h1 : (plug fs t).ids.Nodup := (List.nodup_append'.1 (List.nodup_append'.1 hnd).2.1).1
  have h2 := hperm.length_eq
  rw [List.length_append] at h2
  refine ⟨fs, rfl, (Mondrian.holds_plug.1 (hm.all.holds _ hmem)).2, (List.nodup_append'.1 (hperm.nodup_iff.1 h1)).1, ?_⟩
  omega

/-! ### C86 -/

theorem has_same {n : Node K F L} {par : Option Nat} {d : Data K F L} (h : n.Has par d) : { n with counts := d.counts } = n := by rw [← h.2.2.2]

theorem baryLeaf_acts : Acts (K := K) (F := F) (L := L) baryLeaf (fun d => d.counts)
    (fun d a => (fun i => a.1 i + (d.box.upper i + d.box.lower i) * (1 / 2) * ((∑ i, d.counts i : Nat) : K), a.2 + ((∑ i, d.counts i : Nat) : K))) := by
  intro n par d a h
  rw [has_same h]
  simp only [baryLeaf, h.2.2.1, init, bind, Except.bind, pure, Except.pure, total, h.2.2.2]

theorem bary_fold (l : List (Nat × Data K F L)) (a : (Fin F → K) × K) :
    l.foldl (fun a z => ((fun i => a.1 i + (z.2.box.upper i + z.2.box.lower i) * (1 / 2) * ((∑ i, z.2.counts i : Nat) : K), a.2 + ((∑ i, z.2.counts i : Nat) : K)) : (Fin F → K) × K)) a =
      (fun i => a.1 i + (l.map (fun z => (points1 z : K) * ((z.2.box.lower i + z.2.box.upper i) / 2))).sum, a.2 + ((l.map points1).sum : Nat)) := by
  induction l generalizing a with
  | nil => simp
  | cons z l ih =>
      rw [List.foldl_cons, ih]
      simp only [List.map_cons, List.sum_cons, points1, Nat.cast_add, add_assoc, Prod.mk.injEq, and_true]
      funext i
      ring

/-- **C86** After every history `find_barycenter`, called for any node of a tree with at most 100 levels below it, computes the mean of the centres of the boxes of the
leaves below the node, weighted with the numbers of points counted there (not a number if no point was counted). -/
theorem C86_barycenter (c : Config K) (p : Params K) (ω : Nat → K) (maxSize sizeNode sizeBase : Nat) (junk : List Int) (last : Nat) (s0 : State K F L)
    (ops : List (Op K F L)) (h : Setting c p ω maxSize sizeNode sizeBase junk last s0 ops) (pos : Nat) (s : State K F L) (pos' : Nat)
    (hr : run c p ω ops s0 pos = .ok (s, pos')) :
    ∃ trees, HoldsAll s.forest trees ∧ trees.length = junk.length ∧ ∀ (j : Nat) (T t : Tree K F L), trees[j]? = some (some T) → Part t T → t.height ≤ 100 →
      findBarycenter s.forest.nodes t.id = .ok (if pointsOf t = 0 then none else some (weightedMean t)) := by
  obtain ⟨trees, e2, e3⟩ := h.good hr
  refine ⟨trees, e2.inv.mem.all, e3, fun j T t hj hp hh => ?_⟩
  obtain ⟨fs, -, e4, e5, e6⟩ := part_holds e2 hj hp
  obtain ⟨nodes', -, e7⟩ := tourFrom_tree baryLeaf_acts t _ s.forest.nodes (fun _ => 0, 0) e5 e4 hh e6
  rw [bary_fold] at e7
  simp only [findBarycenter, e7, bind, Except.bind, pure, Except.pure, zero_add, Bool.true_eq_false, if_false, Nat.cast_eq_zero]
  change (if pointsOf t = 0 then _ else _) = _
  split <;> rfl

/-- **C86** The weighted mean is in every box that contains the boxes of the leaves. -/
theorem C86_inside (t : Tree K F L) (hp : pointsOf t ≠ 0) (i : Fin F) (a b : K)
    (hb : ∀ z ∈ leaves t, a ≤ z.2.box.lower i ∧ a ≤ z.2.box.upper i ∧ z.2.box.lower i ≤ b ∧ z.2.box.upper i ≤ b) : a ≤ weightedMean t i ∧ weightedMean t i ≤ b := by
  have hpos : (0 : K) < (pointsOf t : K) := by exact_mod_cast Nat.pos_of_ne_zero hp
  have key : ∀ l : List (Nat × Data K F L), (∀ z ∈ l, a ≤ z.2.box.lower i ∧ a ≤ z.2.box.upper i ∧ z.2.box.lower i ≤ b ∧ z.2.box.upper i ≤ b) →
      a * ((l.map points1).sum : Nat) ≤ (l.map (fun z => (points1 z : K) * ((z.2.box.lower i + z.2.box.upper i) / 2))).sum ∧
      (l.map (fun z => (points1 z : K) * ((z.2.box.lower i + z.2.box.upper i) / 2))).sum ≤ b * ((l.map points1).sum : Nat) := by
    intro l
    induction l with
    | nil => simp
    | cons z l ih =>
        intro hl
        obtain ⟨h1, h2⟩ := ih fun y hy => hl y (List.mem_cons_of_mem _ hy)
        obtain ⟨h3, h4, h5, h6⟩ := hl z List.mem_cons_self
        have hn : (0 : K) ≤ (points1 z : K) := Nat.cast_nonneg _
        simp only [List.map_cons, List.sum_cons, Nat.cast_add]
        constructor
        · nlinarith [mul_nonneg hn (show (0 : K) ≤ (z.2.box.lower i + z.2.box.upper i) / 2 - a by linarith)]
        · nlinarith [mul_nonneg hn (show (0 : K) ≤ b - (z.2.box.lower i + z.2.box.upper i) / 2 by linarith)]
  obtain ⟨h1, h2⟩ := key (leaves t) hb
  exact ⟨(le_div_iff₀ hpos).2 h1, (div_le_iff₀ hpos).2 h2⟩

/-- four points in two leaves: (1 · 0 + 3 · 2) / 4 at the root; and 2 for the right leaf alone -/
example : ((exRun (cfg .cobble 2 .original .none) [0] exOps).bind fun r => do
      let a ← findBarycenter r.1.forest.nodes 1
      let b ← findBarycenter r.1.forest.nodes 2
      return (a.map (· 0), b.map (· 0))) = .ok (some (3 / 2), some 2) := by decide +kernel

/-! ### C87 -/

/-- what `count_sides` does at a leaf -/
def sideOf (ω : Nat → K) (dim : Fin F) (v : K) (d : Data K F L) (a : Int × Int × Nat) : Int × Int × Nat :=
  let count : Int := (∑ i, d.counts i : Nat)
  if d.box.lower dim < v ∧ v < d.box.upper dim then
    let percent := (v - d.box.lower dim) / (d.box.upper dim - d.box.lower dim)
    let left := Utils.trunc ((count : K) * percent)
    let right := Utils.trunc ((count : K) * (1 - percent))
    let err := count - left - right
    if err = 0 then (a.1 + left, a.2.1 + right, a.2.2)
    else if ω a.2.2 < 1 / 2 then (a.1 + left + err, a.2.1 + right, a.2.2 + 1)
    else (a.1 + left, a.2.1 + right + err, a.2.2 + 1)
  else if v ≤ d.box.lower dim then (a.1 + count, a.2.1, a.2.2)
  else (a.1, a.2.1 + count, a.2.2)

theorem sideLeaf_acts (ω : Nat → K) (dim : Fin F) (v : K) : Acts (K := K) (F := F) (L := L) (sideLeaf ω dim v) (fun d => d.counts) (sideOf ω dim v) := by
  intro n par d a h
  rw [has_same h]
  obtain ⟨l, r, pos⟩ := a
  simp only [sideLeaf, sideOf, h.2.2.1, init, bind, Except.bind, pure, Except.pure, total, h.2.2.2]
  split_ifs <;> rfl

theorem trunc_share {n : Nat} {q : K} (h0 : 0 ≤ q) : 0 ≤ Utils.trunc ((n : K) * q) ∧ ((Utils.trunc ((n : K) * q) : Int) : K) ≤ n * q ∧
    (n : K) * q < (Utils.trunc ((n : K) * q) : Int) + 1 := by
  have h : (0 : K) ≤ n * q := mul_nonneg (Nat.cast_nonneg _) h0
  unfold Utils.trunc
  rw [if_neg (not_lt.2 h)]
  exact ⟨Int.floor_nonneg.2 h, Int.floor_le _, Int.lt_floor_add_one _⟩

/-- One leaf: all its points are counted, and on the left about the share of the box below the split if the split goes through the box, otherwise all or nothing. -/
theorem sideOf_spec (ω : Nat → K) (dim : Fin F) (v : K) (z : Nat × Data K F L) (a : Int × Int × Nat) :
    ∃ x y : Int, (sideOf ω dim v z.2 a).1 = a.1 + x ∧ (sideOf ω dim v z.2 a).2.1 = a.2.1 + y ∧ x + y = points1 z ∧ 0 ≤ x ∧ 0 ≤ y ∧
      (Crosses dim v z → |(x : K) - points1 z * partBelow dim v z| ≤ 1) ∧ (v ≤ z.2.box.lower dim → x = points1 z) ∧
      (¬ Crosses dim v z → z.2.box.lower dim < v → x = 0) := by
  unfold sideOf
  simp only [Int.cast_natCast]
  by_cases hx : z.2.box.lower dim < v ∧ v < z.2.box.upper dim
  · have hw : (0 : K) < z.2.box.upper dim - z.2.box.lower dim := by linarith [hx.1, hx.2]
    have hq : partBelow dim v z = (v - z.2.box.lower dim) / (z.2.box.upper dim - z.2.box.lower dim) := by
      unfold partBelow
      rw [if_neg (not_le.2 hx.2), if_neg (not_le.2 hx.1)]
    have hq0 : 0 ≤ partBelow dim v z := by rw [hq]; exact div_nonneg (by linarith [hx.1]) hw.le
    have hq1 : 0 ≤ 1 - partBelow dim v z := by rw [hq, sub_nonneg, div_le_one hw]; linarith [hx.2]
    rw [if_pos hx, ← hq]
    change ∃ x y : Int, _
    obtain ⟨l0, l1, l2⟩ := trunc_share (n := points1 z) hq0
    obtain ⟨r0, r1, r2⟩ := trunc_share (n := points1 z) hq1
    rw [show (∑ i, z.2.counts i) = points1 z from rfl]
    generalize Utils.trunc ((points1 z : K) * partBelow dim v z) = left at *
    generalize Utils.trunc ((points1 z : K) * (1 - partBelow dim v z)) = right at *
    have herr : 0 ≤ (points1 z : Int) - left - right := by
      have : ((left + right : Int) : K) ≤ ((points1 z : Int) : K) := by push_cast; linarith
      have := Int.cast_le.1 this
      omega
    have hno : ¬ v ≤ z.2.box.lower dim := not_le.2 hx.1
    split_ifs with e1 e2
    · refine ⟨left, right, rfl, rfl, by omega, l0, r0, fun _ => ?_, fun h => absurd h hno, fun h => absurd hx h⟩
      rw [abs_le]; constructor <;> linarith
    · refine ⟨left + (points1 z - left - right), right, by simp only [add_assoc], rfl, by omega, by omega, r0, fun _ => ?_, fun h => absurd h hno, fun h => absurd hx h⟩
      rw [abs_le]; push_cast; constructor <;> linarith
    · refine ⟨left, right + (points1 z - left - right), rfl, by simp only [add_assoc], by omega, l0, by omega, fun _ => ?_, fun h => absurd h hno, fun h => absurd hx h⟩
      rw [abs_le]; constructor <;> linarith
  · rw [if_neg hx]
    by_cases hv : v ≤ z.2.box.lower dim
    · rw [if_pos hv]
      exact ⟨points1 z, 0, rfl, (add_zero _).symm, by omega, by omega, le_rfl, fun h => absurd h hx, fun _ => rfl, fun _ h => absurd hv (not_le.2 h)⟩
    · rw [if_neg hv]
      exact ⟨0, points1 z, (add_zero _).symm, rfl, by omega, le_rfl, by omega, fun h => absurd h hx, fun h => absurd h hv, fun _ _ => rfl⟩

theorem sides_fold (ω : Nat → K) (dim : Fin F) (v : K) (l : List (Nat × Data K F L)) (a : Int × Int × Nat) :
    ∃ x y : Int, (l.foldl (fun a z => sideOf ω dim v z.2 a) a).1 = a.1 + x ∧ (l.foldl (fun a z => sideOf ω dim v z.2 a) a).2.1 = a.2.1 + y ∧
      x + y = (l.map points1).sum ∧ 0 ≤ x ∧ 0 ≤ y ∧
      ((∀ z ∈ l, Crosses dim v z) → |(x : K) - (l.map (fun z => points1 z * partBelow dim v z)).sum| ≤ l.length) ∧
      ((∀ z ∈ l, ¬ Crosses dim v z) → x = ((l.filter (fun z => v ≤ z.2.box.lower dim)).map points1).sum) := by
  induction l generalizing a with
  | nil => exact ⟨0, 0, by simp⟩
  | cons z l ih =>
      obtain ⟨x1, y1, a1, a2, a3, a4, a5, a6, a7, a8⟩ := sideOf_spec ω dim v z a
      obtain ⟨x2, y2, b1, b2, b3, b4, b5, b6, b7⟩ := ih (sideOf ω dim v z.2 a)
      refine ⟨x1 + x2, y1 + y2, ?_, ?_, ?_, by omega, by omega, fun hc => ?_, fun hc => ?_⟩
      · rw [List.foldl_cons, b1, a1, add_assoc]
      · rw [List.foldl_cons, b2, a2, add_assoc]
      · rw [List.map_cons, List.sum_cons]
        omega
      · have c1 := a6 (hc z List.mem_cons_self)
        have c2 := b6 fun y hy => hc y (List.mem_cons_of_mem _ hy)
        rw [List.map_cons, List.sum_cons, List.length_cons]
        push_cast
        rw [abs_le] at c1 c2 ⊢
        constructor <;> linarith
      · have c2 := b7 fun y hy => hc y (List.mem_cons_of_mem _ hy)
        rw [List.filter_cons]
        by_cases hv : v ≤ z.2.box.lower dim
        · rw [if_pos (by simpa using hv), List.map_cons, List.sum_cons, c2, a7 hv]
          push_cast
          rfl
        · rw [if_neg (by simpa using hv), c2, a8 (hc z List.mem_cons_self) (not_le.1 hv), zero_add]

/-- **C87** (partial) After every history `count_sides`, called for any node of a tree with at most 100 levels below it, succeeds, and the two counts add up to the number of
points counted below the node. If the split goes through the boxes of all the leaves, the first count is the number of points expected below the split, up to one point per leaf.
Missing: leaves on one side of the split, which are counted on the wrong side, see `C87_wrong_side`. -/
theorem C87_sides_partial (c : Config K) (p : Params K) (ω : Nat → K) (maxSize sizeNode sizeBase : Nat) (junk : List Int) (last : Nat) (s0 : State K F L)
    (ops : List (Op K F L)) (h : Setting c p ω maxSize sizeNode sizeBase junk last s0 ops) (pos : Nat) (s : State K F L) (pos' : Nat)
    (hr : run c p ω ops s0 pos = .ok (s, pos')) :
    ∃ trees, HoldsAll s.forest trees ∧ trees.length = junk.length ∧ ∀ (j : Nat) (T t : Tree K F L), trees[j]? = some (some T) → Part t T → t.height ≤ 100 →
      ∀ (dim : Fin F) (v : K) (pos : Nat), ∃ l r pos', countSides ω s t.id dim v pos = .ok (0, l, r, pos') ∧ l + r = pointsOf t ∧ 0 ≤ l ∧ 0 ≤ r ∧
        ((∀ z ∈ leaves t, Crosses dim v z) → |(l : K) - ((leaves t).map (fun z => points1 z * partBelow dim v z)).sum| ≤ (leaves t).length) := by
  obtain ⟨trees, e2, e3⟩ := h.good hr
  refine ⟨trees, e2.inv.mem.all, e3, fun j T t hj hp hh dim v pos => ?_⟩
  obtain ⟨fs, -, e4, e5, e6⟩ := part_holds e2 hj hp
  obtain ⟨nodes', -, e7⟩ := tourFrom_tree (sideLeaf_acts ω dim v) t _ s.forest.nodes (0, 0, pos) e5 e4 hh e6
  obtain ⟨x, y, b1, b2, b3, b4, b5, b6, -⟩ := sides_fold ω dim v (leaves t) (0, 0, pos)
  refine ⟨x, y, ((leaves t).foldl (fun a z => sideOf ω dim v z.2 a) (0, 0, pos)).2.2, ?_, b3, b4, b5, b6⟩
  simp only [countSides, e7, bind, Except.bind, pure, Except.pure, if_true]
  rw [b1, b2, zero_add, zero_add]

/-- **C87** (violation) If the split does not go through the box of any leaf, the count of the left side is the number of points in the leaves above the split, and the count
of the right side the number of points below. -/
theorem C87_wrong_side (c : Config K) (p : Params K) (ω : Nat → K) (maxSize sizeNode sizeBase : Nat) (junk : List Int) (last : Nat) (s0 : State K F L)
    (ops : List (Op K F L)) (h : Setting c p ω maxSize sizeNode sizeBase junk last s0 ops) (pos : Nat) (s : State K F L) (pos' : Nat)
    (hr : run c p ω ops s0 pos = .ok (s, pos')) :
    ∃ trees, HoldsAll s.forest trees ∧ trees.length = junk.length ∧ ∀ (j : Nat) (T t : Tree K F L), trees[j]? = some (some T) → Part t T → t.height ≤ 100 →
      ∀ (dim : Fin F) (v : K) (pos : Nat), (∀ z ∈ leaves t, ¬ Crosses dim v z) → ∃ l r pos', countSides ω s t.id dim v pos = .ok (0, l, r, pos') ∧
        l = (((leaves t).filter (fun z => v ≤ z.2.box.lower dim)).map points1).sum ∧ l + r = pointsOf t := by
  obtain ⟨trees, e2, e3⟩ := h.good hr
  refine ⟨trees, e2.inv.mem.all, e3, fun j T t hj hp hh dim v pos hc => ?_⟩
  obtain ⟨fs, -, e4, e5, e6⟩ := part_holds e2 hj hp
  obtain ⟨nodes', -, e7⟩ := tourFrom_tree (sideLeaf_acts ω dim v) t _ s.forest.nodes (0, 0, pos) e5 e4 hh e6
  obtain ⟨x, y, b1, b2, b3, -, -, -, b7⟩ := sides_fold ω dim v (leaves t) (0, 0, pos)
  refine ⟨x, y, ((leaves t).foldl (fun a z => sideOf ω dim v z.2 a) (0, 0, pos)).2.2, ?_, b7 hc, b3⟩
  simp only [countSides, e7, bind, Except.bind, pure, Except.pure, if_true]
  rw [b1, b2, zero_add, zero_add]

/-- The four points 0, 1, 3, 2 are in four leaves; of a split at 1/2 one point is below and three are above. For a leaf with the points 0, 1, 3, 2 and a split at 1 one point
is counted on the left and, as 4/3 is not an integer, the fourth on either side. -/
example : ((exRun (cfg .phoenix 0 .original .none) [0] exOps).bind fun r => countSides (exω []) r.1 3 0 (1 / 2) 0) = .ok (0, 3, 1, 0) ∧
    ((exRun (cfg .cobble 1 .original .none) [0] exOps).bind fun r => countSides (exω []) r.1 0 0 1 0) = .ok (0, 1, 3, 1) ∧
    ((exRun (cfg .cobble 1 .original .none) [0] exOps).bind fun r => countSides (exω [0]) r.1 0 0 1 0) = .ok (0, 2, 2, 1) := by decide +kernel

/-! ### C88 -/

/-- the part of the points of a leaf that is taken away -/
def taken (dim : Fin F) (v : K) (dischargeLeft : Bool) (d : Data K F L) : K := if dischargeLeft then share d.box dim v else 1 - share d.box dim v

theorem counterLeaf_acts (dim : Fin F) (v : K) (dl : Bool) : Acts (K := K) (F := F) (L := L) (counterLeaf dim v dl)
    (fun d i => (Utils.round ((d.counts i : K) * (1 - taken dim v dl d))).toNat)
    (fun d a i => a i + (Utils.round ((d.counts i : K) * taken dim v dl d)).toNat) := by
  intro n par d a h
  simp only [counterLeaf, h.2.2.1, init, bind, Except.bind, pure, Except.pure, h.2.2.2]
  rfl

theorem share_range (b : Box K F) (dim : Fin F) (v : K) : 0 ≤ share b dim v ∧ share b dim v ≤ 1 := by
  unfold share
  split
  · split <;> norm_num
  · rw [min_same, max_same]
    exact ⟨le_min (le_max_right _ _) zero_le_one, min_le_right _ _⟩

theorem taken_range (dim : Fin F) (v : K) (dl : Bool) (d : Data K F L) : 0 ≤ taken dim v dl d ∧ taken dim v dl d ≤ 1 := by
  have := share_range d.box dim v
  unfold taken
  split
  · exact this
  · constructor <;> linarith

/-- the share that the documentation of the code describes -/
theorem share_partBelow (dim : Fin F) (v : K) (z : Nat × Data K F L) (hb : z.2.box.lower dim ≤ z.2.box.upper dim) :
    (Crosses dim v z → share z.2.box dim v = partBelow dim v z) ∧ (v ≤ z.2.box.lower dim → share z.2.box dim v = 0) ∧
    (z.2.box.upper dim ≤ v → z.2.box.lower dim < v → share z.2.box dim v = 1) := by
  refine ⟨fun h => ?_, fun h => ?_, fun h1 h2 => ?_⟩
  · have hw : (0 : K) < z.2.box.upper dim - z.2.box.lower dim := by linarith [h.1, h.2]
    unfold share partBelow
    rw [if_neg hw.ne', if_neg (not_le.2 h.2), if_neg (not_le.2 h.1), min_same, max_same, max_eq_left, min_eq_left]
    · rw [div_le_one hw]; linarith [h.2]
    · exact div_nonneg (by linarith [h.1]) hw.le
  · unfold share
    split
    · rw [if_neg (not_lt.2 h)]
    · rename_i hne
      have hw : (0 : K) < z.2.box.upper dim - z.2.box.lower dim := lt_of_le_of_ne (by linarith) (Ne.symm hne)
      rw [min_same, max_same, max_eq_right, min_eq_left zero_le_one]
      exact div_nonpos_of_nonpos_of_nonneg (by linarith) hw.le
  · unfold share
    rw [if_pos h2]
    split
    · rfl
    · rename_i hne
      have hw : (0 : K) < z.2.box.upper dim - z.2.box.lower dim := lt_of_le_of_ne (by linarith) (Ne.symm hne)
      rw [min_same, max_same, min_eq_right]
      exact le_max_of_le_left ((one_le_div hw).2 (by linarith))

theorem round_spec {x : K} (h : 0 ≤ x) : 0 ≤ Utils.round x ∧ x - 1 / 2 < (Utils.round x : K) ∧ (Utils.round x : K) ≤ x + 1 / 2 := by
  unfold Utils.round Utils.trunc
  have h2 : (0 : K) < 1 / 2 := by norm_num
  rw [if_neg (not_lt.2 h), if_neg (by linarith)]
  refine ⟨Int.floor_nonneg.2 (by linarith), ?_, Int.floor_le _⟩
  have := Int.lt_floor_add_one (x + 1 / 2)
  have h3 : (1 : K) - 1 / 2 = 1 / 2 := by norm_num
  linarith

/-- The two rounded parts are together the number, or one more. -/
theorem round_parts (n : Nat) {q : K} (h0 : 0 ≤ q) (h1 : q ≤ 1) :
    let a := (Utils.round ((n : K) * (1 - q))).toNat
    let b := (Utils.round ((n : K) * q)).toNat
    n ≤ a + b ∧ a + b ≤ n + 1 ∧ |(a : K) - n * (1 - q)| ≤ 1 / 2 := by
  have hn : (0 : K) ≤ (n : K) := Nat.cast_nonneg _
  obtain ⟨a0, a1, a2⟩ := round_spec (mul_nonneg hn (sub_nonneg.2 h1))
  obtain ⟨b0, b1, b2⟩ := round_spec (mul_nonneg hn h0)
  generalize Utils.round ((n : K) * (1 - q)) = a at *
  generalize Utils.round ((n : K) * q) = b at *
  lift a to Nat using a0
  lift b to Nat using b0
  simp only [Int.toNat_natCast, Int.cast_natCast] at *
  refine ⟨?_, ?_, ?_⟩
  · have : (n : K) < ((a + b + 1 : Nat) : K) := by push_cast; linarith [show (1 : K) / 2 + 1 / 2 = 1 by norm_num]
    have := Nat.cast_lt.1 this
    omega
  · have : ((a + b : Nat) : K) ≤ ((n + 1 : Nat) : K) := by push_cast; linarith [show (1 : K) / 2 + 1 / 2 = 1 by norm_num]
    exact Nat.cast_le.1 this
  · rw [abs_le]; constructor <;> linarith

theorem round_all (n : Nat) : (Utils.round (n : K)).toNat = n := by rw [round_nat]; rfl

theorem round_none (n : Nat) : (Utils.round ((n : K) * 0)).toNat = 0 := by
  rw [mul_zero]
  simpa using congrArg Int.toNat (round_nat (K := K) 0)

theorem remove_fold (k : Data K F L → Fin L → Nat) (l : List (Nat × Data K F L)) (a : Fin L → Nat) (i : Fin L) :
    l.foldl (fun a z => (fun i => a i + k z.2 i)) a i = a i + (l.map (fun z => k z.2 i)).sum := by
  induction l generalizing a with
  | nil => simp
  | cons z l ih => rw [List.foldl_cons, ih, List.map_cons, List.sum_cons, add_assoc]

theorem AllBoxes.part {P : Box K F → Prop} {t T : Tree K F L} (h : Part t T) : AllBoxes P T → AllBoxes P t := by
  induction h with
  | self => exact fun h => h
  | left _ ih => exact fun h => ih h.2.1
  | right _ ih => exact fun h => ih h.2.2

theorem AllBoxes.leaf {P : Box K F → Prop} : ∀ {t : Tree K F L}, AllBoxes P t → ∀ z ∈ leaves t, P z.2.box
  | .leaf _ _, h, z, hz => by
      simp only [leaves, List.mem_singleton] at hz
      subst hz
      exact h
  | .node _ _ _ _ l r, h, z, hz => by
      simp only [leaves, List.mem_append] at hz
      rcases hz with hz | hz
      · exact h.2.2.leaf z hz
      · exact h.2.1.leaf z hz

/-- what one leaf keeps and gives away -/
theorem kept_of_leaf (dim : Fin F) (v : K) (dl : Bool) (z : Nat × Data K F L) (hb : z.2.box.lower dim ≤ z.2.box.upper dim) (i : Fin L) :
    let keep := (Utils.round ((z.2.counts i : K) * (1 - taken dim v dl z.2))).toNat
    let give := (Utils.round ((z.2.counts i : K) * taken dim v dl z.2)).toNat
    z.2.counts i ≤ keep + give ∧ keep + give ≤ z.2.counts i + (if Crosses dim v z then 1 else 0) ∧
    (v ≤ z.2.box.lower dim → keep = if dl then z.2.counts i else 0) ∧
    (z.2.box.upper dim ≤ v → z.2.box.lower dim < v → keep = if dl then 0 else z.2.counts i) ∧
    (Crosses dim v z → |(keep : K) - z.2.counts i * (if dl then 1 - partBelow dim v z else partBelow dim v z)| ≤ 1 / 2) := by
  obtain ⟨h1, h2, h3⟩ := share_partBelow dim v z hb
  obtain ⟨r0, r1⟩ := taken_range dim v dl z.2
  obtain ⟨p1, p2, p3⟩ := round_parts (z.2.counts i) r0 r1
  have hz : ∀ q : K, taken dim v dl z.2 = q → q = 0 ∨ q = 1 →
      (Utils.round ((z.2.counts i : K) * (1 - taken dim v dl z.2))).toNat + (Utils.round ((z.2.counts i : K) * taken dim v dl z.2)).toNat = z.2.counts i ∧
      (Utils.round ((z.2.counts i : K) * (1 - taken dim v dl z.2))).toNat = if q = 0 then z.2.counts i else 0 := by
    rintro q hq (rfl | rfl)
    · rw [hq, round_none, sub_zero, mul_one, round_all, if_pos rfl]; exact ⟨rfl, rfl⟩
    · rw [hq, sub_self, round_none, mul_one, round_all, if_neg one_ne_zero]; exact ⟨zero_add _, rfl⟩
  have hlow : v ≤ z.2.box.lower dim → taken dim v dl z.2 = if dl then 0 else 1 := fun h => by
    unfold taken; rw [h2 h, sub_zero]
  have hup : z.2.box.upper dim ≤ v → z.2.box.lower dim < v → taken dim v dl z.2 = if dl then 1 else 0 := fun h h' => by
    unfold taken; rw [h3 h h', sub_self]
  refine ⟨p1, ?_, fun h => ?_, fun h h' => ?_, fun h => ?_⟩
  · by_cases hc : Crosses dim v z
    · rw [if_pos hc]; exact p2
    · rw [if_neg hc]
      by_cases hv : v ≤ z.2.box.lower dim
      · have := hlow hv
        exact (hz _ this (by cases dl <;> simp)).1.le
      · have hv' := not_le.1 hv
        have := hup (not_lt.1 fun h => hc ⟨hv', h⟩) hv'
        exact (hz _ this (by cases dl <;> simp)).1.le
  · rw [(hz _ (hlow h) (by cases dl <;> simp)).2]
    cases dl <;> simp
  · rw [(hz _ (hup h h') (by cases dl <;> simp)).2]
    cases dl <;> simp
  · convert p3 using 4
    unfold taken
    rw [h1 h]
    cases dl <;> simp

theorem sum_between (P : Nat × Data K F L → Prop) [DecidablePred P] (k g : Nat × Data K F L → Nat) (n : Nat × Data K F L → Nat) : ∀ l : List (Nat × Data K F L),
    (∀ z ∈ l, n z ≤ k z + g z ∧ k z + g z ≤ n z + if P z then 1 else 0) →
    (l.map n).sum ≤ (l.map k).sum + (l.map g).sum ∧ (l.map k).sum + (l.map g).sum ≤ (l.map n).sum + l.countP (fun z => decide (P z))
  | [], _ => by simp
  | z :: l, h => by
      have h1 := h z List.mem_cons_self
      have h2 := sum_between P k g n l fun y hy => h y (List.mem_cons_of_mem _ hy)
      rw [List.countP_cons]
      simp only [List.map_cons, List.sum_cons, decide_eq_true_eq]
      split at h1 <;> rename_i hP <;> simp only [hP, if_true, if_false] <;> omega

/-- **C88** (partial) After every history `adjust_counters`, called for any node of a tree with at most 100 levels below it, succeeds and changes nothing but the counters of the
leaves below the node. A leaf whose box is on one side of the split keeps all its points or gives all of them away; a leaf whose box the split goes through keeps the part of
the points on its side, up to half a point. No point is lost.
Missing: the points kept and given away can be more than there were, one per label and leaf the split goes through, see `C88_duplicated`. -/
theorem C88_counters_partial (c : Config K) (hb : c.extend = .barycenter → 0 ≤ c.feParameter) (p : Params K) (ω : Nat → K) (maxSize sizeNode sizeBase : Nat) (junk : List Int)
    (last : Nat) (s0 : State K F L) (ops : List (Op K F L)) (h : Setting c p ω maxSize sizeNode sizeBase junk last s0 ops) (pos : Nat) (s : State K F L) (pos' : Nat)
    (hr : run c p ω ops s0 pos = .ok (s, pos')) :
    ∃ trees, HoldsAll s.forest trees ∧ trees.length = junk.length ∧ ∀ (j : Nat) (T t : Tree K F L), trees[j]? = some (some T) → Part t T → t.height ≤ 100 →
      ∀ (dim : Fin F) (v : K) (dischargeLeft : Bool), ∃ (s' : State K F L) (removed : Fin L → Nat) (keep : Data K F L → Fin L → Nat) (par : Option Nat),
        adjustCounters s t.id dim v dischargeLeft = .ok (0, s', removed) ∧
        -- only the counters of the leaves are new
        s' = { s with forest := { s.forest with nodes := s'.forest.nodes } } ∧ s'.forest.nodes.length = s.forest.nodes.length ∧
        Holds s.forest.nodes par t ∧ Holds s'.forest.nodes par (recountLeaves keep t) ∧ (∀ i, i ∉ t.ids → s'.forest.nodes[i]? = s.forest.nodes[i]?) ∧
        (∀ (i : Nat) (n : Node K F L), s.forest.nodes[i]? = some n → ∃ c, s'.forest.nodes[i]? = some { n with counts := c }) ∧
        -- the counters of a leaf
        (∀ z ∈ leaves t, ∀ i : Fin L,
          (v ≤ z.2.box.lower dim → keep z.2 i = if dischargeLeft then z.2.counts i else 0) ∧
          (z.2.box.upper dim ≤ v → z.2.box.lower dim < v → keep z.2 i = if dischargeLeft then 0 else z.2.counts i) ∧
          (Crosses dim v z → |(keep z.2 i : K) - z.2.counts i * (if dischargeLeft then 1 - partBelow dim v z else partBelow dim v z)| ≤ 1 / 2)) ∧
        -- nothing is lost
        ∀ i, countOf t i ≤ countOf (recountLeaves keep t) i + removed i ∧
          countOf (recountLeaves keep t) i + removed i ≤ countOf t i + (leaves t).countP (fun z => decide (Crosses dim v z)) := by
  obtain ⟨trees, e2, e3, e4⟩ := h.reach hr True (fun _ => trivial) _ (kept_proper c hb p.lifetime True junk.length)
  refine ⟨trees, e2.inv.mem.all, e3, fun j T t hj hp hh dim v dl => ?_⟩
  obtain ⟨b, hbj, -⟩ := e2.base (Mondrian.lt_of_get hj)
  have hbox := ((e4 j _ b hj hbj T rfl).part hp).leaf
  obtain ⟨fs, -, e4, e5, e6⟩ := part_holds e2 hj hp
  obtain ⟨nodes', e7, e8⟩ := tourFrom_tree (counterLeaf_acts dim v dl) t _ s.forest.nodes (fun _ => 0) e5 e4 hh e6
  refine ⟨{ s with forest := { s.forest with nodes := nodes' } },
    (leaves t).foldl (fun a z => (fun i => a i + (Utils.round ((z.2.counts i : K) * taken dim v dl z.2)).toNat)) (fun _ => 0),
    fun d i => (Utils.round ((d.counts i : K) * (1 - taken dim v dl d))).toNat, ctxPar fs, ?_, rfl, e7.length, e4, e7.holds, e7.other, e7.rest, fun z hz i => ?_, fun i => ?_⟩
  · simp only [adjustCounters, e8, bind, Except.bind, pure, Except.pure, if_true]
  · exact (kept_of_leaf dim v dl z (hbox z hz dim) i).2.2
  · rw [remove_fold (fun d i => (Utils.round ((d.counts i : K) * taken dim v dl d)).toNat)]
    simp only [zero_add, countOf, leaves_recount, List.map_map, Function.comp_def]
    exact sum_between (Crosses dim v) _ _ _ (leaves t) fun z hz =>
      ⟨(kept_of_leaf dim v dl z (hbox z hz dim) i).1, (kept_of_leaf dim v dl z (hbox z hz dim) i).2.1⟩

/-- **C88** (violation) The only leaf has four points, one with label 0 and three with label 1, and the split is in the middle of its box. It keeps three points and gives three
away. -/
theorem C88_duplicated : ((exRun (cfg .cobble 1 .original .none) [0] exOps).bind fun r => do
    let n ← rd r.1.forest.nodes 0
    let (v, s, removed) ← adjustCounters r.1 0 0 (3 / 2) true
    let n' ← rd s.forest.nodes 0
    return (v, List.ofFn n.counts, List.ofFn n'.counts, List.ofFn removed)) = .ok (0, [1, 3], [1, 2], [1, 2]) := by decide +kernel

/-! ### C89 -/

theorem Setting.proper {c : Config K} {p : Params K} {ω : Nat → K} {maxSize sizeNode sizeBase : Nat} {junk : List Int} {last : Nat} {s0 : State K F L} {ops : List (Op K F L)}
    (h : Setting c p ω maxSize sizeNode sizeBase junk last s0 ops) (P : Tree K F L → Prop)
    (hP : Kept c p.lifetime True junk.length (fun _ _ o => ∀ t, o = some t → P t)) {pos : Nat} {s : State K F L} {pos' : Nat}
    (hr : run c p ω ops s0 pos = .ok (s, pos')) : ∃ trees, HoldsAll s.forest trees ∧ trees.length = junk.length ∧ ∀ t, some t ∈ trees → P t := by
  obtain ⟨trees, e2, e3, e4⟩ := h.reach hr True (fun _ => trivial) _ hP
  refine ⟨trees, e2.inv.mem.all, e3, fun t ht => ?_⟩
  obtain ⟨j, hj⟩ := List.mem_iff_getElem?.1 ht
  obtain ⟨b, hb, -⟩ := e2.base (Mondrian.lt_of_get hj)
  exact e4 j _ b hj hb t rfl

/-- **C89** (partial) Unless the boxes are only partly extended (EXTEND_COUNTER_NO_UPDATE, EXTEND_BARYCENTER with a parameter other than 1), after every history the box of
every split node contains the boxes of the nodes below it, and the boxes of the nodes below a split are on their side of it.
Missing: the other cases, see `C89_no_update` and `C89_barycenter`. -/
theorem C89_boxes_partial (c : Config K) (hc : c.extend ≠ .counterNoUpdate ∧ (c.extend = .barycenter → c.feParameter = 1)) (p : Params K) (ω : Nat → K)
    (maxSize sizeNode sizeBase : Nat) (junk : List Int) (last : Nat) (s0 : State K F L) (ops : List (Op K F L))
    (h : Setting c p ω maxSize sizeNode sizeBase junk last s0 ops) (pos : Nat) (s : State K F L) (pos' : Nat) (hr : run c p ω ops s0 pos = .ok (s, pos')) :
    ∃ trees, HoldsAll s.forest trees ∧ trees.length = junk.length ∧ ∀ t, some t ∈ trees → Nested t ∧ Separated t :=
  h.proper _ (kept_nested c hc p.lifetime True junk.length) hr

/-- **C89** (partial) In all cases, with a parameter of EXTEND_BARYCENTER that is not negative, the lower bounds of all boxes are at most the upper bounds. -/
theorem C89_proper_partial (c : Config K) (hc : c.extend = .barycenter → 0 ≤ c.feParameter) (p : Params K) (ω : Nat → K)
    (maxSize sizeNode sizeBase : Nat) (junk : List Int) (last : Nat) (s0 : State K F L) (ops : List (Op K F L))
    (h : Setting c p ω maxSize sizeNode sizeBase junk last s0 ops) (pos : Nat) (s : State K F L) (pos' : Nat) (hr : run c p ω ops s0 pos = .ok (s, pos')) :
    ∃ trees, HoldsAll s.forest trees ∧ trees.length = junk.length ∧ ∀ t, some t ∈ trees → AllBoxes (fun b => ∀ i, b.lower i ≤ b.upper i) t :=
  h.proper _ (kept_proper c hc p.lifetime True junk.length) hr

/-- the split of a node, the nodes below it and its bounds -/
def seeNode (r : Res (State ℚ 1 2 × Nat)) (id : Nat) : Res (Option ℚ × Option Nat × Option Nat × Option (ℚ × ℚ)) := do
  let (s, _) ← r
  let n ← rd s.forest.nodes id
  return (n.split, n.left, n.right, n.box.map (fun b => (b.lower 0, b.upper 0)))

/-- a run with eight nodes -/
def boxRun (c : Config ℚ) (points : List ℚ) : Res (State ℚ 1 2 × Nat) := do
  let s ← new c 85 10 5 [0] 0
  run c exP (exω []) (points.map fun a => .train (pt a) 0) s 0

/-- **C89** (violation) EXTEND_COUNTER_NO_UPDATE and the points 0, 1, 3, 0: node 3 has the split 2, below it on the left is node 1 with the bounds 0 and 1, and below node 1 is
node 5 with the bounds 1 and 3: not inside the box of its parent, and on the wrong side of the split of node 3. -/
theorem C89_no_update : let r := boxRun (cfg .phoenix 0 .counterNoUpdate .none) [0, 1, 3, 0]
    seeNode r 3 = .ok (some 2, some 1, some 4, some (0, 3)) ∧ seeNode r 1 = .ok (some (1 / 2), some 0, some 5, some (0, 1)) ∧
    seeNode r 5 = .ok (some 2, some 2, some 6, some (1, 3)) := ⟨by decide +kernel, by decide +kernel, by decide +kernel⟩

/-- **C89** (violation) EXTEND_BARYCENTER. With the parameter 1/2 and the points 2, 1, 0: node 3 with the bounds 0 and 1 is below node 1 with the bounds 1/2 and 2. With the
parameter 0 and the points 3, 2, 1, 0: node 3 with the bounds 1 and 2 is below node 1 with the bounds 2 and 3, which is above the split 1 of node 5. -/
theorem C89_barycenter :
    (let r := boxRun ⟨.phoenix, 0, .barycenter, .none, 1 / 2, 1⟩ [2, 1, 0]
     seeNode r 1 = .ok (some (3 / 2), some 3, some 0, some (1 / 2, 2)) ∧ seeNode r 3 = .ok (some (1 / 2), some 4, some 2, some (0, 1))) ∧
    (let r := boxRun ⟨.phoenix, 0, .barycenter, .none, 0, 1⟩ [3, 2, 1, 0]
     seeNode r 5 = .ok (some 1, some 6, some 1, some (0, 3)) ∧ seeNode r 1 = .ok (some (5 / 2), some 3, some 0, some (2, 3)) ∧
     seeNode r 3 = .ok (some (3 / 2), some 4, some 2, some (1, 2))) := ⟨⟨by decide +kernel, by decide +kernel⟩, by decide +kernel, by decide +kernel, by decide +kernel⟩

/-- a case with splits: the hypotheses of the theorems hold, and nodes 1 and 5 are below node 3, inside its box and on their side of its split -/
example : (∃ s0, Setting (cfg .phoenix 0 .original .none) exP (exω []) 85 10 5 [0] 0 s0 exOps) ∧
    seeNode (exRun (cfg .phoenix 0 .original .none) [0] exOps) 3 = .ok (some 2, some 1, some 4, some (0, 3)) ∧
    seeNode (exRun (cfg .phoenix 0 .original .none) [0] exOps) 1 = .ok (some (1 / 2), some 0, some 5, some (0, 2)) :=
  ⟨⟨_, exSetting _ _ _ rfl (by simp [exOps, Valid])⟩, by decide +kernel, by decide +kernel⟩

end Orp.Coarse
