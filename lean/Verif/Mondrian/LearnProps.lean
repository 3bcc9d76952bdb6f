import Verif.Mondrian.Learn
import Verif.Mondrian.LeavesProps

/-!
Property C150: a Mondrian forest learns classes that are apart. If the training points with other labels differ from a training point `q` by at least `d` in some
feature, then the leaves of `q` have only points of its label, except with a probability of at most `n * 2 * F * exp (-lifetime * d)`, whatever the number of
training points; and, with discount factor 0, the forest predicts the label of `q` when it was given often enough.
-/

set_option linter.unusedSectionVars false

namespace Orp.Mondrian

open MeasureTheory Orp.Reservoir

variable {F L : Nat}

/-- The training points of `pts` in the leaf of `q` have the label `c`. -/
def Tree.PureAt (pts : List (Point ℝ F L)) (q : Fin F → ℝ) (c : Fin L) (t : Tree ℝ F L) : Prop := ∀ z ∈ pts, t.leafOf z.1 = t.leafOf q → z.2 = c

/-- The points of `pts` that do not have the label `c` differ from `q` by at least `d` in some feature. -/
def ApartFrom (pts : List (Point ℝ F L)) (q : Fin F → ℝ) (c : Fin L) (d : ℝ) : Prop := ∀ z ∈ pts, z.2 ≠ c → ∃ i, d ≤ |z.1 i - q i|

/-- a point with one feature moved by `d` -/
noncomputable def shift (q : Fin F → ℝ) (i : Fin F) (up : Bool) (d : ℝ) : Fin F → ℝ := Function.update q i (if up then q i + d else q i - d)

/-- the points around `q` -/
noncomputable def around (q : Fin F → ℝ) (c : Fin L) (d : ℝ) : List (Point ℝ F L) := (List.finRange F).flatMap fun i => [(shift q i true d, c), (shift q i false d, c)]

theorem mem_around (q : Fin F → ℝ) (c : Fin L) (d : ℝ) (i : Fin F) (up : Bool) : (shift q i up d, c) ∈ around q c d := by
  rw [around, List.mem_flatMap]
  exact ⟨i, List.mem_finRange i, by cases up <;> simp⟩

theorem shift_dist {d : ℝ} (hd : 0 ≤ d) (q : Fin F → ℝ) (i : Fin F) (up : Bool) : ∑ j, |q j - shift q i up d j| = d := by
  rw [Finset.sum_eq_single i]
  · unfold shift
    rw [Function.update_self]
    cases up <;> simp [abs_of_nonneg hd]
  · intro j _ hj
    simp [shift, Function.update_of_ne hj]
  · simp

/-- A point that differs from `q` by at least `d` has one of the points around `q` between. -/
theorem exists_between {d : ℝ} (hd : 0 ≤ d) {q x : Fin F → ℝ} {i : Fin F} (h : d ≤ |x i - q i|) :
    ∃ up, ∀ j, min (q j) (x j) ≤ shift q i up d j ∧ shift q i up d j ≤ max (q j) (x j) := by
  rcases le_total (q i) (x i) with hle | hle
  · rw [abs_of_nonneg (sub_nonneg.2 hle)] at h
    refine ⟨true, fun j => ?_⟩
    by_cases hj : j = i
    · subst hj
      rw [shift, Function.update_self, if_pos rfl, min_eq_left hle, max_eq_right hle]
      constructor <;> linarith
    · rw [shift, Function.update_of_ne hj]
      exact ⟨min_le_left _ _, le_max_left _ _⟩
  · rw [abs_of_nonpos (sub_nonpos.2 hle)] at h
    refine ⟨false, fun j => ?_⟩
    by_cases hj : j = i
    · subst hj
      rw [shift, Function.update_self, if_neg (by simp), min_eq_right hle, max_eq_left hle]
      constructor <;> linarith
    · rw [shift, Function.update_of_ne hj]
      exact ⟨min_le_left _ _, le_max_left _ _⟩

/-- The tree `k`, trained with the points `zs` and the points around `q`, has `q` and one of these in the same leaf. -/
def Crowded (p : Params ℝ) (m n : Nat) (zs : List (Point ℝ F L)) (q : Fin F → ℝ) (c : Fin L) (d : ℝ) (k : Fin n) (i : Fin F) (up : Bool) : Set (Nat → U01) :=
  {ω | ∃ s pos trees t, run p (nums ω) (trainAll (zs ++ around q c d)) (new m n) 0 = .ok (s, pos) ∧ HoldsAll s trees ∧ trees[k]? = some (some t) ∧
    t.leafOf (q, c).1 = t.leafOf (shift q i up d, c).1}

theorem crowded_le {p : Params ℝ} (hlife : 0 ≤ p.lifetime) (hlog : p.log = Real.log) {m n : Nat} {zs : List (Point ℝ F L)} {q : Fin F → ℝ} {c : Fin L} (hq : (q, c) ∈ zs) {d : ℝ} (hd : 0 ≤ d)
    (hm : n * (2 * (zs ++ around q c d).length - 1) ≤ m) :
    draws (⋃ j : Fin n × Fin F × Bool, Crowded p m n zs q c d j.1 j.2.1 j.2.2) ≤ ENNReal.ofReal (n * (2 * F) * Real.exp (-(p.lifetime * d))) := by
  refine (measure_iUnion_fintype_le _ _).trans ?_
  have h : ∀ j : Fin n × Fin F × Bool, draws (Crowded p m n zs q c d j.1 j.2.1 j.2.2) = ENNReal.ofReal (Real.exp (-(p.lifetime * d))) := fun j => by
    have := C95_laplace p hlife hlog m n (zs ++ around q c d) hm j.1 (q, c) (shift q j.2.1 j.2.2 d, c) (by simp [hq]) (by simp [mem_around])
    rw [shift_dist hd] at this
    exact this
  rw [Finset.sum_congr rfl fun j _ => h j, Finset.sum_const, Finset.card_univ, nsmul_eq_mul, ENNReal.ofReal_mul (by positivity)]
  refine mul_le_mul_left (le_of_eq ?_) _
  rw [Fintype.card_prod, Fintype.card_prod, Fintype.card_fin, Fintype.card_fin, Fintype.card_bool]
  rw [show (n : ℝ) * (2 * F) = ((n * (F * 2) : Nat) : ℝ) by push_cast; ring, ENNReal.ofReal_natCast]

/-- When `q` is alone among the points around it, its leaves have only points of its label. -/
theorem pure_ways {p : Params ℝ} (hlife : 0 ≤ p.lifetime) (h0 : p.exp 0 = 1) (hdisc : 0 ≤ p.discount) {n : Nat} (hn : 0 < n) {ops : List (Op ℝ F L)} {q : Fin F → ℝ} {c : Fin L}
    (hq : (q, c) ∈ points ops) {d : ℝ} (hd : 0 ≤ d) (ha : ApartFrom (points ops) q c d) {m : Nat} (hm : n * (2 * (points ops ++ around q c d).length - 1) ≤ m)
    {ω : Nat → U01} (hω : ∀ i, 0 < nums ω i) (hnot : ω ∉ ⋃ j : Fin n × Fin F × Bool, Crowded p m n (points ops) q c d j.1 j.2.1 j.2.2) :
    ∃ s pos trees, Unbound.run p (nums ω) ops (Unbound.new n) 0 = .ok (s, pos) ∧ HoldsAll ⟨s.heap, s.roots⟩ trees ∧ trees.length = n ∧
      (∀ o ∈ trees, Good (· ≤ ·) p.lifetime (points ops) o) ∧ (allIds trees).length = s.heap.length ∧
      ∀ o ∈ trees, ∃ t, o = some t ∧ ∀ z ∈ points ops, t.way z.1 = t.way q → z.2 = c := by
  have hω' : ∀ i, 0 < nums ω i ∧ nums ω i < 1 := fun i => ⟨hω i, (nums_range ω i).2⟩
  obtain ⟨⟨s, pos⟩, hr⟩ := Unbound.run_ok p h0 hdisc (nums ω) hω' n hn ops 0
  obtain ⟨trees₀, a1, a2, -, -, a5⟩ := Unbound.run_good p (nums ω) (nums_range ω) (· ≤ ·) (fun a b h => h.le) (Unbound.draw_le' (nums_range ω)) n ops 0 _ hr
  have hlen : s.heap.length ≤ m := by
    have h1 := allIds_le a5
    rw [a1.length, a2] at h1
    refine h1.trans (le_trans (Nat.mul_le_mul_left _ ?_) hm)
    rw [List.length_append]
    omega
  obtain ⟨s₁, h1, ⟨ts, ts₁, h2, h3, h4⟩, -⟩ := Unbound.C59_bounded_follows p hlife (nums ω) (nums_range ω) _ n ops 0 s pos hr hlen
  obtain ⟨s₂, g1, ⟨us, us₂, g2, g3, g4⟩, -⟩ := C71_predict_is_pure p hlife (nums ω) (nums_range ω) _ n ops 0 s₁ pos h1
  rw [trainings_all] at g1
  obtain ⟨vs, lost, b1, -, b3, b4⟩ := run_good p hlife (nums ω) (nums_range ω) (· ≤ ·) (fun a b h => h.le) (draw_le (nums_range ω)) m n _ 0 _ g1
  have hpts : points (trainAll (points ops)) = points ops := by
    rw [← trainings_all]
    clear * -
    induction ops with
    | nil => rfl
    | cons o os ih => cases o <;> simp [trainings, points, ih]
  rw [hpts] at b4
  have hsame : SameTrees trees₀ vs := by
    rw [C52_trees_unique a1.all h2]
    refine h4.trans ?_
    rw [C52_trees_unique h3 g2]
    refine g4.trans ?_
    rw [C52_trees_unique g3 b1.all]
    exact SameTrees.refl _
  refine ⟨s, pos, trees₀, hr, a1.all, a2, a5, a1.length, fun o ho => ?_⟩
  have hpos : 1 ≤ (points ops).length := List.length_pos_of_mem hq
  have hnm : n ≤ m := by
    refine le_trans ?_ hm
    rw [List.length_append]
    calc n = n * 1 := (mul_one n).symm
      _ ≤ _ := Nat.mul_le_mul_left _ (by omega)
  obtain ⟨⟨s₃, pos₃⟩, hr₃⟩ := run_ok p hlife h0 hdisc (nums ω) hω' m n hn hnm (trainAll (points ops ++ around q c d)) 0
  have hr₃' := hr₃
  rw [trainAll, List.map_append, run_append] at hr₃
  have g1' : run p (nums ω) (List.map (fun z => Op.train z.1 z.2) (points ops)) (new m n) 0 = .ok (s₂, pos) := g1
  rw [g1'] at hr₃
  obtain ⟨ws, lost', c1, c2⟩ := run_ways hlife (nums_range ω) (around q c d) s₂ pos vs lost (points ops) (s₃, pos₃) b1 b4 hr₃
  have hgo := a5 o ho
  cases o with
  | none =>
    have : points ops = [] := hgo
    rw [this] at hq
    cases hq
  | some t =>
    refine ⟨t, rfl, fun z hz hway => ?_⟩
    by_contra hne
    obtain ⟨j, hj⟩ := List.mem_iff_getElem?.1 ho
    obtain ⟨u, hu1, hu2⟩ := hsame.get hj
    have hjn : j < n := by rw [← a2]; exact lt_of_get hj
    cases u with
    | none => simp at hu2
    | some u =>
      simp only [Option.map_some, Option.some.injEq] at hu2
      obtain ⟨t', e1, e2⟩ := c2 j u hu1
      have hway' : u.way q = u.way z.1 := by
        rw [← way_content q u, ← way_content z.1 u, ← hu2, way_content, way_content, hway]
      have hfar : t'.way q = t'.way z.1 := e2 (q, c) hq z hz hway'
      obtain ⟨i, hi⟩ := ha z hz hne
      obtain ⟨up, hup⟩ := exists_between hd hi
      refine hnot (Set.mem_iUnion.2 ⟨(⟨j, hjn⟩, i, up), s₃, pos₃, ws, t', hr₃', c1.all, by simpa using e1, ?_⟩)
      exact (leafOf_way ((List.nodup_flatMap.1 c1.all.nodup).1 _ (List.mem_of_getElem? e1)) _ _).2 (way_between hup t' hfar)

/-- **C150, the leaves.** After any history of calls of `train` and `predict` on a new unlimited forest with `n` trees, with `(q, c)` among the training points and the
training points of other labels at least `d` away in some feature: except with probability at most `n * 2 * F * exp (-lifetime * d)`, the leaf of `q` in every
tree has only training points with the label `c`. The bound does not depend on the number of the training points. -/
theorem C150_pure (p : Params ℝ) (hlife : 0 ≤ p.lifetime) (hlog : p.log = Real.log) (h0 : p.exp 0 = 1) (hdisc : 0 ≤ p.discount) (n : Nat) (hn : 0 < n) (ops : List (Op ℝ F L))
    (q : Fin F → ℝ) (c : Fin L) (hq : (q, c) ∈ points ops) (d : ℝ) (hd : 0 ≤ d) (ha : ApartFrom (points ops) q c d) :
    draws {ω | ¬ ∃ s pos trees, Unbound.run p (nums ω) ops (Unbound.new n) 0 = .ok (s, pos) ∧ HoldsAll ⟨s.heap, s.roots⟩ trees ∧
      ∀ k : Fin n, ∃ t, trees[k]? = some (some t) ∧ t.PureAt (points ops) q c} ≤ ENNReal.ofReal (n * (2 * F) * Real.exp (-(p.lifetime * d))) := by
  refine le_trans (measure_mono_ae (draws_pos.mono fun ω hω => ?_)) (crowded_le hlife hlog hq hd le_rfl)
  intro hbad
  by_contra hnot
  obtain ⟨s, pos, trees, a1, a2, a3, -, -, a5⟩ := pure_ways hlife h0 hdisc hn hq hd ha le_rfl hω hnot
  refine hbad ⟨s, pos, trees, a1, a2, fun k => ?_⟩
  have hk : k.1 < trees.length := by rw [a3]; exact k.2
  obtain ⟨t, e1, e2⟩ := a5 _ (List.getElem_mem hk)
  refine ⟨t, by rw [Fin.getElem?_fin, List.getElem?_eq_getElem hk, e1], fun z hz hl => e2 z hz ?_⟩
  refine (leafOf_way ((List.nodup_flatMap.1 a2.nodup).1 (some t) ?_) _ _).1 hl
  rw [← e1]
  exact List.getElem_mem hk

/-- The forest predicts the label of `q` when its leaves have only points of this label, few splits and many points. -/
theorem predict_pure {p : Params ℝ} (hlife : 0 ≤ p.lifetime) (h0 : p.exp 0 = 1) (hdisc : p.discount = 0) (hbase : 0 ≤ p.base) (hbase1 : p.base ≤ 1) {n : Nat} (hn : 0 < n)
    {ops : List (Op ℝ F L)} {q : Fin F → ℝ} {c : Fin L} {k H : Nat} (hk : 0 < k) (hsub : (List.replicate k (q, c)).Sublist (points ops))
    (hH : 2 ^ H < k * (1 - p.base)) {ω : Nat → U01} {s : Unbound.Forest ℝ F L} {pos : Nat} {trees : List (Option (Tree ℝ F L))}
    (hr : Unbound.run p (nums ω) ops (Unbound.new n) 0 = .ok (s, pos)) (hA : HoldsAll ⟨s.heap, s.roots⟩ trees) (hlen : trees.length = n) 
    (hids : (allIds trees).length = s.heap.length) (hpure : ∀ o ∈ trees, ∃ t, o = some t ∧ ∀ z ∈ points ops, t.way z.1 = t.way q → z.2 = c) {m : Nat} (hm : s.heap.length ≤ 2 * H + 2)
    (hm' : 2 * H + 2 ≤ m) :
    Unbound.predict p s q = .ok c.1 ∧ ∃ s', run p (nums ω) ops (new m n) 0 = .ok (s', pos) ∧ (predict p s' q).map (fun r => r.2) = .ok c.1 := by
  obtain ⟨s₁, h1, ⟨ts, ts₁, h2, h3, h4⟩, h5⟩ := Unbound.C59_bounded_follows p hlife (nums ω) (nums_range ω) m n ops 0 s pos hr (hm.trans hm')
  obtain ⟨vs, lost, b1, -, b3, b4⟩ := run_good p hlife (nums ω) (nums_range ω) (· ≤ ·) (fun a b h => h.le) (draw_le (nums_range ω)) m n _ 0 _ h1
  rw [C52_trees_unique h2 hA, C52_trees_unique h3 b1.all] at h4
  have key : (predict p s₁ q).map (fun r => r.2) = .ok c.1 := by
    obtain ⟨nodes', -, -, -, e4⟩ := b1.predict_eq p
    rw [e4 q, label_wins (c := c) (by
      intro h
      have := congrArg List.length h
      simp [recountAll, b3] at this
      omega) ?_]
    · rfl
    · intro o ho
      obtain ⟨o0, ho0, rfl⟩ := List.mem_map.1 ho
      obtain ⟨j, hj⟩ := List.mem_iff_getElem?.1 ho0
      obtain ⟨u, hu1, hu2⟩ := h4.symm.get hj
      obtain ⟨t, rfl, ht⟩ := hpure u (List.mem_of_getElem? hu1)
      have hg := b4 o0 ho0
      cases o0 with
      | none => simp at hu2
      | some t₁ =>
        simp only [Option.map_some, Option.some.injEq] at hu2
        have hw : ∀ x, t₁.way x = t.way x := fun x => by rw [← way_content x t₁, hu2, way_content]
        refine scores_pure h0 hdisc hk t₁ (points ops) 0 (1 - p.base) (fun _ => p.base) hg.1 hsub (fun z hz => by rw [hw, hw]; exact ht z hz) (by linarith)
          (fun l => ⟨hbase, by linarith⟩) (lt_of_le_of_lt (pow_le_pow_right₀ (by norm_num) ?_) hH)
        rw [hw]
        have h6 := way_length q t
        have h7 : t.ids.length ≤ (allIds trees).length := by
          obtain ⟨i, hi⟩ := List.mem_iff_getElem?.1 (List.mem_of_getElem? hu1)
          obtain ⟨as, bs, e⟩ := List.append_of_mem (List.mem_of_getElem? hu1)
          rw [e, allIds, List.flatMap_append, List.flatMap_cons, List.length_append, List.length_append]
          simp only
          omega
        omega
  exact ⟨by rw [← h5]; exact key, s₁, h1, key⟩

/-- **C150, the predictions.** Discount factor 0, training points in the box `b`, among them `k` times `q` with the label `c`, the points of other labels at least `d` away
from `q` in some feature, and `2 ^ H < k * (1 - base_measure)`: except with the given probability, which does not depend on the number of the training points, the unlimited
forest predicts the label `c` at `q`, and so does every forest with at least `2 * H + 2` nodes. -/
theorem C150_predicts (p : Params ℝ) (hlife : 0 ≤ p.lifetime) (hlog : p.log = Real.log) (h0 : p.exp 0 = 1) (hdisc : p.discount = 0) (hbase : 0 ≤ p.base) (hbase1 : p.base ≤ 1)
    (n : Nat) (hn : 0 < n) (ops : List (Op ℝ F L)) (b : Box ℝ F) (hb : ∀ z ∈ points ops, ∀ d, b.lower d ≤ z.1 d ∧ z.1 d ≤ b.upper d)
    (q : Fin F → ℝ) (c : Fin L) (k : Nat) (hk : 0 < k) (hsub : (List.replicate k (q, c)).Sublist (points ops)) (d : ℝ) (hd : 0 ≤ d) (ha : ApartFrom (points ops) q c d)
    (H : Nat) (hH : 2 ^ H < k * (1 - p.base)) (m : Nat) (hm : 2 * H + 2 ≤ m) :
    draws {ω | ¬ ((∃ s pos, Unbound.run p (nums ω) ops (Unbound.new n) 0 = .ok (s, pos) ∧ Unbound.predict p s q = .ok c.1) ∧
      ∃ s pos, run p (nums ω) ops (new m n) 0 = .ok (s, pos) ∧ (predict p s q).map (fun r => r.2) = .ok c.1)} ≤
      ENNReal.ofReal (n * (2 * F) * Real.exp (-(p.lifetime * d))) + n * ENNReal.ofReal (2 * ∏ d, (1 + p.lifetime * (b.upper d - b.lower d)) - 1) / (2 * H + 3) := by
  have hq : (q, c) ∈ points ops := hsub.subset (List.mem_replicate.2 ⟨hk.ne', rfl⟩)
  have hne : points ops ≠ [] := List.ne_nil_of_mem hq
  have ht := C148_tail p hlife hlog h0 hdisc.ge n hn ops hne b hb (2 * H + 2)
  have e : (((2 * H + 2 : Nat) : ENNReal) + 1) = 2 * H + 3 := by push_cast; ring
  rw [e] at ht
  refine le_trans (le_trans (measure_mono_ae (draws_pos.mono fun ω hω => ?_)) (measure_union_le _ _)) (add_le_add (crowded_le hlife hlog hq hd le_rfl) ht)
  intro hbad
  by_contra hnot
  have hnot1 := fun h => hnot (Or.inl h)
  have hnot2 := fun h => hnot (Or.inr h)
  obtain ⟨s, pos, trees, a1, a2, a3, -, a4, a5⟩ := pure_ways hlife h0 hdisc.ge hn hq hd ha le_rfl hω hnot1
  have hh : s.heap.length ≤ 2 * H + 2 := by
    by_contra hlt
    exact hnot2 ⟨s, pos, a1, not_le.1 hlt⟩
  obtain ⟨r1, s', r2, r3⟩ := predict_pure hlife h0 hdisc hbase hbase1 hn hk hsub hH a1 a2 a3 a4 a5 hh hm
  exact hbad ⟨⟨s, pos, a1, r1⟩, s', pos, r2, r3⟩

/-- **C150, learning.** For a box, a distance `d`, a base measure below 1 and an error probability there are a lifetime, a number of repetitions and a number of nodes such that, whatever
the history in the box: a point that was given that often with its label, the points of other labels at least `d` away in some feature, gets its label from a forest with discount factor
0, up to the error probability. -/
theorem C150_learns (n : Nat) (hn : 0 < n) (b : Box ℝ F) {d : ℝ} (hd : 0 < d) {base : ℝ} (hbase : 0 ≤ base) (hbase1 : base < 1) {ε : ℝ} (hε : 0 < ε) :
    ∃ (life : ℝ) (k m : Nat), 0 < life ∧ ∀ p : Params ℝ, p.lifetime = life → p.base = base → p.discount = 0 → p.exp = Real.exp → p.log = Real.log → ∀ (ops : List (Op ℝ F L)),
      (∀ z ∈ points ops, ∀ i, b.lower i ≤ z.1 i ∧ z.1 i ≤ b.upper i) → ∀ (q : Fin F → ℝ) (c : Fin L), (List.replicate k (q, c)).Sublist (points ops) →
      ApartFrom (points ops) q c d →
      draws {ω | ¬ ((∃ s pos, Unbound.run p (nums ω) ops (Unbound.new n) 0 = .ok (s, pos) ∧ Unbound.predict p s q = .ok c.1) ∧
        ∃ s pos, run p (nums ω) ops (new m n) 0 = .ok (s, pos) ∧ (predict p s q).map (fun r => r.2) = .ok c.1)} ≤ ENNReal.ofReal ε := by
  obtain ⟨life, hl1, hl2⟩ : ∃ life : ℝ, 0 < life ∧ n * (2 * F) * Real.exp (-(life * d)) ≤ ε / 2 := by
    have h1 : Filter.Tendsto (fun x : ℝ => (n * (2 * F) : ℝ) * Real.exp (-(x * d))) Filter.atTop (nhds ((n * (2 * F) : ℝ) * 0)) := by
      refine Filter.Tendsto.const_mul _ (Real.tendsto_exp_neg_atTop_nhds_zero.comp (Filter.tendsto_id.atTop_mul_const hd))
    rw [mul_zero] at h1
    have h2 := (h1.eventually (gt_mem_nhds (half_pos hε))).and (Filter.eventually_gt_atTop 0)
    obtain ⟨x, hx1, hx2⟩ := h2.exists
    exact ⟨x, hx2, hx1.le⟩
  set M : ℝ := 2 * ∏ i, (1 + life * (b.upper i - b.lower i)) - 1 with hM
  obtain ⟨H, hH⟩ := exists_nat_gt (2 * (n * max M 0) / ε)
  obtain ⟨k, hk⟩ := exists_nat_gt (2 ^ H / (1 - base))
  have hb1 : 0 < 1 - base := by linarith
  have hk0 : 0 < k := by
    have : (0 : ℝ) < k := lt_trans (by positivity) hk
    exact_mod_cast this
  refine ⟨life, k, 2 * H + 2, hl1, fun p e1 e2 e3 e4 e5 ops hb q c hsub ha => ?_⟩
  subst e1 e2
  have h := C150_predicts p hl1.le e5 (by rw [e4, Real.exp_zero]) e3 hbase hbase1.le n hn ops b hb q c k hk0 hsub d hd.le ha H (by
    rwa [div_lt_iff₀ hb1] at hk) (2 * H + 2) le_rfl
  refine h.trans ?_
  rw [← add_halves ε, ENNReal.ofReal_add (half_pos hε).le (half_pos hε).le]
  refine add_le_add (ENNReal.ofReal_le_ofReal hl2) ?_
  rw [← hM]
  have e : (2 * (H : ENNReal) + 3) = ENNReal.ofReal (2 * H + 3) := by
    rw [show (2 * (H : ℝ) + 3) = ((2 * H + 3 : Nat) : ℝ) by push_cast; ring, ENNReal.ofReal_natCast]
    push_cast
    ring
  have e' : (n : ENNReal) = ENNReal.ofReal n := (ENNReal.ofReal_natCast n).symm
  rw [e, e', ← ENNReal.ofReal_mul (by positivity), ← ENNReal.ofReal_div_of_pos (by positivity)]
  refine ENNReal.ofReal_le_ofReal ?_
  rw [div_le_iff₀ (by positivity)]
  rw [div_lt_iff₀ hε] at hH
  have h3 : (n : ℝ) * M ≤ n * max M 0 := mul_le_mul_of_nonneg_left (le_max_left _ _) (by positivity)
  have h4 : (0 : ℝ) ≤ n * max M 0 := mul_nonneg (by positivity) (le_max_right _ _)
  have h5 : (0 : ℝ) ≤ H := by positivity
  nlinarith

/-! ### Examples -/

/-- two classes: copies of the point `(0, 0)` with label 0, and points of label 1 with a second feature of at least 1 -/
def twoClasses (k : Nat) : List (Op ℝ 2 2) := [.train (pt2 0 1) 1, .train (pt2 1 1) 1] ++ List.replicate k (.train (pt2 0 0) 0) ++ [.predict (pt2 1 0), .train (pt2 0 1) 1]

theorem twoClasses_points (k : Nat) : points (twoClasses k) = [(pt2 0 1, 1), (pt2 1 1, 1)] ++ List.replicate k (pt2 0 0, 0) ++ [(pt2 0 1, 1)] := by
  have : ∀ k, points (List.replicate k (Op.train (pt2 0 0) (0 : Fin 2))) = List.replicate k (pt2 0 0, (0 : Fin 2)) := fun k => by
    induction k with
    | zero => rfl
    | succ k ih => simp [List.replicate_succ, points, ih]
  simp [twoClasses, points_append, points, this]

theorem twoClasses_mem {k : Nat} {z : Point ℝ 2 2} (h : z ∈ points (twoClasses k)) : z = (pt2 0 1, 1) ∨ z = (pt2 1 1, 1) ∨ z = (pt2 0 0, 0) := by
  rw [twoClasses_points] at h
  simp only [List.mem_append, List.mem_cons, List.not_mem_nil, or_false, List.mem_replicate] at h
  tauto

theorem twoClasses_apart (k : Nat) : ApartFrom (points (twoClasses k)) (pt2 0 0) 0 1 := fun z hz hne => by
  rcases twoClasses_mem hz with rfl | rfl | rfl
  · exact ⟨1, by simp [pt2]⟩
  · exact ⟨1, by simp [pt2]⟩
  · exact absurd rfl hne

/-- The leaves of `(0, 0)` in three trees, with lifetime 2, are not pure with probability at most `12 * exp (-2)`, whatever the number of copies. -/
example (k : Nat) (hk : 0 < k) : draws {ω | ¬ ∃ s pos trees, Unbound.run exR (nums ω) (twoClasses k) (Unbound.new 3) 0 = .ok (s, pos) ∧ HoldsAll ⟨s.heap, s.roots⟩ trees ∧
    ∀ j : Fin 3, ∃ t, trees[j]? = some (some t) ∧ t.PureAt (points (twoClasses k)) (pt2 0 0) 0} ≤ ENNReal.ofReal (12 * Real.exp (-2)) := by
  refine (C150_pure exR (by norm_num [exR]) rfl Real.exp_zero (by norm_num [exR]) 3 (by norm_num) _ (pt2 0 0) 0 (by
    rw [twoClasses_points]
    simp [hk.ne']) 1 zero_le_one (twoClasses_apart k)).trans (ENNReal.ofReal_le_ofReal (le_of_eq ?_))
  norm_num [exR]

/-- A lifetime, a number of copies and a number of nodes with which a forest of three trees predicts the label of `(0, 0)` up to 1 percent. -/
example : ∃ (life : ℝ) (k m : Nat), ∀ p : Params ℝ, p.lifetime = life → p.base = 1 / 2 → p.discount = 0 → p.exp = Real.exp → p.log = Real.log →
    draws {ω | ¬ ((∃ s pos, Unbound.run p (nums ω) (twoClasses k) (Unbound.new 3) 0 = .ok (s, pos) ∧ Unbound.predict p s (pt2 0 0) = .ok (0 : Fin 2).1) ∧
      ∃ s pos, run p (nums ω) (twoClasses k) (new m 3) 0 = .ok (s, pos) ∧ (predict p s (pt2 0 0)).map (fun r => r.2) = .ok (0 : Fin 2).1)} ≤ ENNReal.ofReal (1 / 100) := by
  obtain ⟨life, k, m, -, h⟩ := C150_learns (F := 2) (L := 2) 3 (by norm_num) ⟨pt2 0 0, pt2 1 1⟩ one_pos (base := 1 / 2) (by norm_num) (by norm_num) (ε := 1 / 100) (by norm_num)
  refine ⟨life, k, m, fun p e1 e2 e3 e4 e5 => h p e1 e2 e3 e4 e5 (twoClasses k) (fun z hz i => ?_) (pt2 0 0) 0 ?_ (twoClasses_apart k)⟩
  · rcases twoClasses_mem hz with rfl | rfl | rfl <;> fin_cases i <;> simp [pt2]
  · rw [twoClasses_points]
    exact (List.sublist_append_right _ _).trans (List.sublist_append_left _ _)

end Orp.Mondrian
