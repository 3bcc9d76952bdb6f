import Verif.Mcnn.IntModel
import Verif.Mcnn.Lemmas
import Mathlib.Tactic.Linarith
import Mathlib.Tactic.Positivity
import Mathlib.Algebra.Order.Ring.Abs

/-! Specification and lemmas for MC-NN with integer features. -/

namespace Orp.McnnInt

open Orp.Mcnn (freeLoop splitLoop triangular freeLoop_spec)

/-- Cluster `i` is in use and is `c`. -/
def Active (s : State) (i : Nat) (c : Cluster) : Prop := s.active[i]? = some true ∧ s.clusters[i]? = some c

/-- Sum of coordinate `i` over points. -/
def colSum (pts : List (List Int)) (i : Nat) : Int := (pts.map (fun p => p.getD i 0)).sum

/-- Sum of the squares of coordinate `i` over points. -/
def colSq (pts : List (List Int)) (i : Nat) : Int := (pts.map (fun p => p.getD i 0 * p.getD i 0)).sum

/-- The points given with a label, in the order of the training. -/
def membersOf (tr : List (List Int × Int)) (l : Int) : List (List Int) :=
  (tr.filter (fun p => decide (p.2 = l))).map Prod.fst

/-- The centre of a non-empty set of points: in each coordinate the mean, truncated toward zero. -/
def truncMean (fc : Nat) (pts : List (List Int)) : List Int :=
  (List.range fc).map (fun i => (colSum pts i).tdiv (pts.length : Int))

/-- The squared euclidean distance of two points with `fc` coordinates. -/
def sqDist (fc : Nat) (x y : List Int) : Int :=
  ((List.range fc).map (fun i => (x.getD i 0 - y.getD i 0) * (x.getD i 0 - y.getD i 0))).sum

/-- A point with `fc` coordinates of size at most `B`. -/
def Small (fc : Nat) (B : Int) (x : List Int) : Prop := x.length = fc ∧ ∀ v ∈ x, |v| ≤ B

/-- The cluster was made of points given with its label. -/
def MadeOf (fc : Nat) (tr : List (List Int × Int)) (c : Cluster) (pts : List (List Int)) : Prop :=
  pts ≠ [] ∧ pts.Sublist (membersOf tr c.label) ∧ c.n = pts.length ∧ c.sum = (List.range fc).map (colSum pts) ∧
    c.sq = (List.range fc).map (colSq pts)

theorem int32_ok {z : Int} (h1 : -2147483648 ≤ z) (h2 : z ≤ 2147483647) : int32 z = .ok z := by
  rw [int32, if_pos ⟨h1, h2⟩]

theorem int32_ub {z : Int} (h : 2147483647 < z) : int32 z = .error .ub := by
  rw [int32, if_neg (by omega)]

theorem int32_cases (z : Int) : int32 z = .ok z ∨ int32 z = .error .ub := by
  unfold int32; split
  · exact .inl rfl
  · exact .inr rfl

/-- points as lists indexed by the coordinates -/
theorem eq_map_range {fc : Nat} {x : List Int} (h : x.length = fc) : x = (List.range fc).map (fun i => x.getD i 0) := by
  apply List.ext_getElem
  · simp [h]
  · intro i h1 h2
    simp [List.getD, List.getElem?_eq_getElem h1]

theorem small_get {fc : Nat} {B : Int} {x : List Int} (hB : 0 ≤ B) (h : Small fc B x) (i : Nat) : |x.getD i 0| ≤ B := by
  by_cases hi : i < x.length
  · have : x.getD i 0 = x[i] := by simp [List.getD, List.getElem?_eq_getElem hi]
    rw [this]; exact h.2 _ (List.getElem_mem hi)
  · have : x.getD i 0 = 0 := by simp [List.getD, List.getElem?_eq_none (Nat.le_of_not_lt hi)]
    rw [this]; simpa using hB

theorem sq_le {B v : Int} (h : |v| ≤ B) : 0 ≤ v * v ∧ v * v ≤ B * B := by
  refine ⟨mul_self_nonneg v, ?_⟩
  have := mul_self_le_mul_self (abs_nonneg v) h
  rwa [abs_mul_abs_self] at this

theorem colSum_bound {fc : Nat} {B : Int} (hB : 0 ≤ B) (i : Nat) : ∀ pts : List (List Int), (∀ p ∈ pts, Small fc B p) →
    |colSum pts i| ≤ pts.length * B
  | [], _ => by simp [colSum]
  | p :: pts, h => by
      have h1 := colSum_bound hB i pts (fun q hq => h q (by simp [hq]))
      have h2 := small_get hB (h p (by simp)) i
      have e : colSum (p :: pts) i = p.getD i 0 + colSum pts i := by simp [colSum]
      rw [e]
      have h3 := abs_add_le (p.getD i 0) (colSum pts i)
      have h4 : ((p :: pts).length : Int) * B = B + pts.length * B := by
        rw [List.length_cons]; push_cast; ring
      rw [h4]; linarith

theorem colSq_bound {fc : Nat} {B : Int} (hB : 0 ≤ B) (i : Nat) : ∀ pts : List (List Int), (∀ p ∈ pts, Small fc B p) →
    0 ≤ colSq pts i ∧ colSq pts i ≤ pts.length * (B * B)
  | [], _ => by simp [colSq]
  | p :: pts, h => by
      have h1 := colSq_bound hB i pts (fun q hq => h q (by simp [hq]))
      have h2 := sq_le (small_get hB (h p (by simp)) i)
      have e : colSq (p :: pts) i = p.getD i 0 * p.getD i 0 + colSq pts i := by simp [colSq]
      rw [e]
      have h4 : ((p :: pts).length : Int) * (B * B) = B * B + pts.length * (B * B) := by
        rw [List.length_cons]; push_cast; ring
      rw [h4]; constructor <;> linarith [h1.1, h1.2, h2.1, h2.2]

theorem colSum_append (pts : List (List Int)) (x : List Int) (i : Nat) : colSum (pts ++ [x]) i = colSum pts i + x.getD i 0 := by
  simp [colSum]

theorem colSq_append (pts : List (List Int)) (x : List Int) (i : Nat) :
    colSq (pts ++ [x]) i = colSq pts i + x.getD i 0 * x.getD i 0 := by
  simp [colSq]

/-! ### the arithmetic stays in range -/

theorem incLoop_map (f g h : Nat → Int) : ∀ l : List Nat,
    (∀ i ∈ l, int32 (f i + h i) = .ok (f i + h i) ∧ int32 (h i * h i) = .ok (h i * h i) ∧
      int32 (g i + h i * h i) = .ok (g i + h i * h i)) →
    incLoop (l.map f) (l.map g) (l.map h) = .ok (l.map (fun i => f i + h i), l.map (fun i => g i + h i * h i))
  | [], _ => rfl
  | a :: l, hr => by
      have ih := incLoop_map f g h l (fun i hi => hr i (by simp [hi]))
      obtain ⟨h1, h2, h3⟩ := hr a (by simp)
      simp only [List.map_cons, incLoop, h1, h2, h3, ih, bind, Except.bind, pure, Except.pure]

theorem squares_map (h : Nat → Int) : ∀ l : List Nat, (∀ i ∈ l, int32 (h i * h i) = .ok (h i * h i)) →
    squares (l.map h) = .ok (l.map (fun i => h i * h i))
  | [], _ => rfl
  | a :: l, hr => by
      have ih := squares_map h l (fun i hi => hr i (by simp [hi]))
      have h1 := hr a (by simp)
      simp only [List.map_cons, squares, h1, ih, bind, Except.bind, pure, Except.pure]

theorem distance_map (f g : Nat → Int) : ∀ l : List Nat,
    (∀ i ∈ l, int32 (f i - g i) = .ok (f i - g i) ∧ int32 ((f i - g i) * (f i - g i)) = .ok ((f i - g i) * (f i - g i))) →
    distance (l.map f) (l.map g) = .ok (l.map (fun i => (f i - g i) * (f i - g i))).sum
  | [], _ => rfl
  | a :: l, hr => by
      have ih := distance_map f g l (fun i hi => hr i (by simp [hi]))
      obtain ⟨h1, h2⟩ := hr a (by simp)
      simp only [List.map_cons, distance, h1, h2, ih, bind, Except.bind, pure, Except.pure, List.sum_cons]

theorem distance_small {fc : Nat} {B : Int} (hB : 0 ≤ B) (hB2 : 4 * (B * B) ≤ 2147483647) {x y : List Int} (hx : Small fc B x)
    (hy : Small fc B y) : distance x y = .ok (sqDist fc x y) := by
  conv_lhs => rw [eq_map_range hx.1, eq_map_range hy.1]
  rw [distance_map]
  · rfl
  · intro i _
    have h1 := small_get hB hx i
    have h2 := small_get hB hy i
    have h3 : |x.getD i 0 - y.getD i 0| ≤ 2 * B := by
      have := abs_sub (x.getD i 0) (y.getD i 0); linarith
    have h4 := sq_le h3
    have h5 := abs_le.1 h3
    have h6 : 2 * B * (2 * B) = 4 * (B * B) := by ring
    have h7 : 2 * B ≤ 2147483647 := by nlinarith
    exact ⟨int32_ok (by linarith) (by linarith), int32_ok (by linarith [h4.1]) (by linarith [h4.2])⟩

theorem tdiv_abs_le {s n B : Int} (hn : 0 < n) (h : |s| ≤ n * B) : |s.tdiv n| ≤ B := by
  have hB : 0 ≤ B := by
    by_contra hc
    have : n * B < 0 := mul_neg_of_pos_of_neg hn (not_le.1 hc)
    linarith [abs_nonneg s]
  rcases le_total 0 s with hs | hs
  · rw [Int.tdiv_eq_ediv_of_nonneg hs, abs_of_nonneg (Int.ediv_nonneg hs hn.le)]
    rw [abs_of_nonneg hs] at h
    exact Int.ediv_le_of_le_mul hn (by linarith)
  · have : s.tdiv n = -((-s) / n) := by
      rw [← Int.tdiv_eq_ediv_of_nonneg (by omega), Int.neg_tdiv, neg_neg]
    rw [this, abs_neg, abs_of_nonneg (Int.ediv_nonneg (by omega) hn.le)]
    rw [abs_of_nonpos hs] at h
    exact Int.ediv_le_of_le_mul hn (by linarith)

theorem MadeOf.members_small {fc : Nat} {B : Int} {tr : List (List Int × Int)} (hs : ∀ p ∈ tr, Small fc B p.1) {c : Cluster}
    {pts : List (List Int)} (h : MadeOf fc tr c pts) : ∀ p ∈ pts, Small fc B p := by
  intro p hp
  have := h.2.1.subset hp
  simp only [membersOf, List.mem_map, List.mem_filter] at this
  obtain ⟨q, ⟨h1, _⟩, rfl⟩ := this
  exact hs q h1

theorem MadeOf.length_le {fc : Nat} {tr : List (List Int × Int)} {c : Cluster} {pts : List (List Int)} (h : MadeOf fc tr c pts) :
    pts.length ≤ tr.length := by
  refine h.2.1.length_le.trans ?_
  rw [membersOf, List.length_map]
  exact List.length_filter_le _ _

theorem MadeOf.centroid {fc : Nat} {tr : List (List Int × Int)} {c : Cluster} {pts : List (List Int)} (h : MadeOf fc tr c pts) :
    centroid c = truncMean fc pts := by
  rw [McnnInt.centroid, h.2.2.2.1, h.2.2.1, truncMean, List.map_map]; rfl

theorem truncMean_small {fc : Nat} {B : Int} (hB : 0 ≤ B) {pts : List (List Int)} (h0 : pts ≠ [])
    (hs : ∀ p ∈ pts, Small fc B p) : Small fc B (truncMean fc pts) := by
  refine ⟨by simp [truncMean], ?_⟩
  intro v hv
  simp only [truncMean, List.mem_map, List.mem_range] at hv
  obtain ⟨i, _, rfl⟩ := hv
  have : 0 < pts.length := List.length_pos_iff.2 h0
  exact tdiv_abs_le (by exact_mod_cast this) (colSum_bound hB i pts hs)

/-- what is known of every cluster in use after the points `tr` -/
def Good (fc : Nat) (thr : Nat) (tr : List (List Int × Int)) (c : Cluster) : Prop :=
  (∃ pts, MadeOf fc tr c pts) ∧ (thr : Int) + 1 ≤ c.err + tr.length

theorem members_append (tr : List (List Int × Int)) (p : List Int × Int) (l : Int) :
    membersOf (tr ++ [p]) l = membersOf tr l ++ if p.2 = l then [p.1] else [] := by
  by_cases h : p.2 = l <;> simp [membersOf, h]

theorem MadeOf.mono {fc : Nat} {tr : List (List Int × Int)} {c : Cluster} {pts : List (List Int)} (h : MadeOf fc tr c pts)
    (p : List Int × Int) : MadeOf fc (tr ++ [p]) c pts := by
  refine ⟨h.1, h.2.1.trans ?_, h.2.2⟩
  rw [members_append]; exact List.sublist_append_left _ _

theorem Good.mono {fc thr : Nat} {tr : List (List Int × Int)} {c : Cluster} (h : Good fc thr tr c) (p : List Int × Int) :
    Good fc thr (tr ++ [p]) c := by
  obtain ⟨⟨pts, h1⟩, h2⟩ := h
  refine ⟨⟨pts, h1.mono p⟩, ?_⟩
  rw [List.length_append]; push_cast; simp only [List.length_singleton, Nat.cast_one]; omega

/-- changing the error count by at least -1 -/
theorem Good.err {fc thr : Nat} {tr : List (List Int × Int)} {c : Cluster} (h : Good fc thr tr c) (p : List Int × Int) {e : Int}
    (he : c.err - 1 ≤ e) : Good fc thr (tr ++ [p]) { c with err := e } := by
  obtain ⟨⟨pts, h1⟩, h2⟩ := h
  refine ⟨⟨pts, h1.mono p⟩, ?_⟩
  rw [List.length_append]; push_cast; simp only [List.length_singleton, Nat.cast_one]; omega

theorem incorporate_good {fc thr : Nat} {B : Int} (hB : 0 ≤ B) {tr : List (List Int × Int)} (hs : ∀ p ∈ tr, Small fc B p.1)
    (hN : ((tr.length : Int) + 1) * (B * B) ≤ 2147483647) {x : List Int} (hx : Small fc B x) {c : Cluster} (h : Good fc thr tr c)
    {e : Int} (he : c.err - 1 ≤ e) (t : Int) :
    ∃ c', incorporate { c with err := e } x t = .ok c' ∧ c'.err = e ∧ c'.label = c.label ∧ Good fc thr (tr ++ [(x, c.label)]) c' := by
  obtain ⟨⟨pts, h1⟩, h2⟩ := h
  have hsm := h1.members_small hs
  have hlen : (pts.length : Int) ≤ tr.length := by exact_mod_cast h1.length_le
  have hBB : B ≤ B * B := by nlinarith
  have hinc : incLoop c.sum c.sq x = .ok ((List.range fc).map (fun i => colSum pts i + x.getD i 0),
      (List.range fc).map (fun i => colSq pts i + x.getD i 0 * x.getD i 0)) := by
    rw [h1.2.2.2.1, h1.2.2.2.2]
    conv_lhs => rw [eq_map_range hx.1]
    apply incLoop_map
    intro i _
    have a1 := colSum_bound hB i pts hsm
    have a2 := colSq_bound hB i pts hsm
    have a3 := small_get hB hx i
    have a4 := sq_le a3
    have b1 : (pts.length : Int) * B ≤ tr.length * (B * B) := by nlinarith
    have b2 : (pts.length : Int) * (B * B) ≤ tr.length * (B * B) := by nlinarith
    have b3 : ((tr.length : Int) + 1) * (B * B) = tr.length * (B * B) + B * B := by ring
    have b4 : (0 : Int) ≤ tr.length * (B * B) := by positivity
    have a1' := abs_le.1 a1
    have a3' := abs_le.1 a3
    exact ⟨int32_ok (by linarith) (by linarith), int32_ok (by linarith [a4.1]) (by linarith [a4.2]),
      int32_ok (by linarith [a4.1, a2.1]) (by linarith [a4.2, a2.2])⟩
  have hstep : incorporate { c with err := e } x t = .ok { c with
      err := e
      tsSum := c.tsSum + t
      tsSq := c.tsSq + t * t
      n := c.n + 1
      sum := (List.range fc).map (fun i => colSum pts i + x.getD i 0)
      sq := (List.range fc).map (fun i => colSq pts i + x.getD i 0 * x.getD i 0) } := by
    simp only [incorporate, hinc, bind, Except.bind, pure, Except.pure]
  refine ⟨_, hstep, rfl, rfl, ⟨pts ++ [x], by simp, ?_, ?_, ?_, ?_⟩, ?_⟩
  · rw [members_append, if_pos rfl]; exact h1.2.1.append (List.Sublist.refl _)
  · simp [h1.2.2.1]
  · apply List.map_congr_left; intro i _; rw [colSum_append]
  · apply List.map_congr_left; intro i _; rw [colSq_append]
  · rw [List.length_append]; push_cast; simp only [List.length_singleton, Nat.cast_one]; omega

theorem initCluster_good {fc : Nat} {B : Int} (hB : 0 ≤ B) (hBB : B * B ≤ 2147483647) (tr : List (List Int × Int)) {x : List Int}
    (hx : Small fc B x) (label t : Int) (thr : Nat) :
    ∃ c, initCluster x label t (thr : Int) = .ok c ∧ Good fc thr (tr ++ [(x, label)]) c := by
  have hsq : squares x = .ok ((List.range fc).map (fun i => x.getD i 0 * x.getD i 0)) := by
    conv_lhs => rw [eq_map_range hx.1]
    apply squares_map
    intro i _
    have := sq_le (small_get hB hx i)
    exact int32_ok (by linarith [this.1]) (by linarith [this.2])
  have hstep : initCluster x label t (thr : Int) = .ok { init := t, tsSum := t, tsSq := t * t, n := 1, err := (thr : Int), label := label, sum := x, sq := (List.range fc).map (fun i => x.getD i 0 * x.getD i 0) } := by
    simp only [initCluster, hsq, bind, Except.bind, pure, Except.pure]
  refine ⟨_, hstep, ⟨[x], by simp, ?_, rfl, ?_, ?_⟩, ?_⟩
  · rw [members_append, if_pos rfl]; exact List.sublist_append_right _ _
  · show x = _
    conv_lhs => rw [eq_map_range hx.1]
    apply List.map_congr_left; intro i _; simp [colSum]
  · apply List.map_congr_left; intro i _; simp [colSq]
  · simp only [List.length_append, List.length_singleton]; push_cast; omega

end Orp.McnnInt
