import Verif.Mondrian.Unseen
import Mathlib.Analysis.Convex.SpecificFunctions.Basic

/-!
Are the averaged votes of the trees a probability distribution over the labels (C128)? They are nonnegative and add up to 1 before the training; they add up
to 1 at a point that was trained with every label. In general they are not: after a single training point the vote for its label may be negative, and the
votes add up to less than 1 at that point and to more than 1 away from the points.
-/

set_option linter.unusedSectionVars false

namespace Orp.Mondrian

variable {K : Type} [Field K] [LinearOrder K] [IsStrictOrderedRing K] [FloorRing K] {F L : Nat}

/-- On the way of `x`, every node has `x` in its box and counts every label. -/
def Full (x : Fin F → K) : Tree K F L → Prop
  | .leaf _ d => (∀ i, d.box.lower i ≤ x i ∧ x i ≤ d.box.upper i) ∧ ∀ l, 0 < d.counts l
  | .node _ d dim sp a b => ((∀ i, d.box.lower i ≤ x i ∧ x i ≤ d.box.upper i) ∧ ∀ l, 0 < d.counts l) ∧ if x dim ≤ sp then Full x a else Full x b

theorem Full.counts {x : Fin F → K} : ∀ {t : Tree K F L}, Full x t → ∀ l, 0 < t.data.counts l
  | .leaf _ _, h => h.2
  | .node _ _ _ _ _ _, h => h.1.2

theorem Right.full {x : Fin F → K} (hL : 0 < L) : ∀ {t : Tree K F L} {pts : List (Point K F L)}, Right pts t → (∀ l, (x, l) ∈ pts) → Full x t.recount
  | .leaf _ d, pts, h, hx => by
      refine ⟨fun i => h.2.1.1 _ (hx ⟨0, hL⟩) i, fun l => ?_⟩
      rw [h.2.2, histogram, List.countP_pos_iff]
      exact ⟨_, hx l, by simp⟩
  | .node _ d dim sp a b, pts, h, hx => by
      by_cases hs : x dim ≤ sp
      · have ha := h.2.1.full hL (x := x) (fun l => List.mem_filter.2 ⟨hx l, by simpa using hs⟩)
        refine ⟨⟨fun i => h.1.1 _ (hx ⟨0, hL⟩) i, fun l => ?_⟩, by rw [if_pos hs]; exact ha⟩
        have := ha.counts l
        simp only
        omega
      · have hb := h.2.2.full hL (x := x) (fun l => List.mem_filter.2 ⟨hx l, by simpa using hs⟩)
        refine ⟨⟨fun i => h.1.1 _ (hx ⟨0, hL⟩) i, fun l => ?_⟩, by rw [if_neg hs]; exact hb⟩
        have := hb.counts l
        simp only
        omega

theorem eta_inside {b : Box K F} {x : Fin F → K} (h : ∀ i, b.lower i ≤ x i ∧ x i ≤ b.upper i) : eta b x = 0 := by
  unfold eta
  refine Finset.sum_eq_zero fun i _ => ?_
  have h1 : x i - b.upper i ≤ 0 := sub_nonpos.2 (h i).2
  have h2 : b.lower i - x i ≤ 0 := sub_nonpos.2 (h i).1
  simp only [Utils.max]
  split <;> split <;> linarith

/-- the means of a node that counts every label add up to 1 if those of the parent do -/
theorem meanOf_sum (p : Params K) (d : Data K F L) (ptau : K) (pm : Fin L → K) (hL : 0 < L) (hc : ∀ l, 0 < d.counts l) (h : ∑ l, pm l = 1) :
    ∑ l, meanOf p d ptau pm l = 1 := by
  have hS : (0 : K) < ∑ i, (d.counts i : K) := Finset.sum_pos (fun i _ => by exact_mod_cast hc i) ⟨⟨0, hL⟩, Finset.mem_univ _⟩
  have htab : ∀ i, ((Utils.min (d.counts i) 1 : Nat) : K) = 1 := fun i => by
    rw [min_eq, Nat.min_eq_right (hc i), Nat.cast_one]
  simp only [meanOf, if_pos (hc _), htab, mul_one]
  rw [Finset.sum_add_distrib, ← Finset.sum_div, ← Finset.sum_div, Finset.sum_sub_distrib, ← Finset.mul_sum, h, ← add_div]
  simp only [Finset.sum_const, Finset.card_univ, Fintype.card_fin, nsmul_eq_mul, mul_one]
  rw [div_eq_one_iff_eq hS.ne']
  ring

theorem scores_full (p : Params K) (h0 : p.exp 0 = 1) (hL : 0 < L) (x : Fin F → K) : ∀ (t : Tree K F L) (ptau ns : K) (pm sm : Fin L → K), Full x t →
    ∑ l, pm l = 1 → ∃ v, scores p x t ptau ns pm sm = .ok v ∧ ∑ l, v l = ∑ l, sm l + ns
  | .leaf _ d, ptau, ns, pm, sm, hf, h => by
      simp only [scores, eta_inside hf.1, mul_zero, h0, sub_self, smooth, lt_irrefl, if_false, bind, Except.bind, pure, Except.pure]
      refine ⟨_, rfl, ?_⟩
      rw [Finset.sum_add_distrib, ← Finset.mul_sum, meanOf_sum p d ptau pm hL hf.2 h, sub_zero, mul_one, mul_one]
  | .node _ d dim sp a b, ptau, ns, pm, sm, hf, h => by
      simp only [scores, eta_inside hf.1.1, mul_zero, h0, sub_self, smooth, lt_irrefl, if_false, bind, Except.bind, pure, Except.pure, sub_zero, mul_one]
      have hm := meanOf_sum p d ptau pm hL hf.1.2 h
      have hf := hf.2
      by_cases hs : x dim ≤ sp
      · rw [if_pos hs] at hf ⊢
        exact scores_full p h0 hL x a _ _ _ _ hf hm
      · rw [if_neg hs] at hf ⊢
        exact scores_full p h0 hL x b _ _ _ _ hf hm

/-- If the votes of every tree add up to `c`, those of the forest add up to `c` times the number of trees. -/
theorem totals_sum (p : Params K) (x : Fin F → K) (c : K) : ∀ (trees : List (Option (Tree K F L))) (acc : Fin L → K),
    (∀ o ∈ trees, ∃ v, treeScores p x o = .ok v ∧ ∑ l, v l = c) → ∃ v, totals p x trees acc = .ok v ∧ ∑ l, v l = ∑ l, acc l + trees.length * c
  | [], acc, _ => ⟨acc, rfl, by simp⟩
  | o :: os, acc, h => by
      obtain ⟨w, h1, h2⟩ := h o (List.mem_cons_self ..)
      simp only [totals, h1, bind, Except.bind]
      obtain ⟨v, h3, h4⟩ := totals_sum p x c os (fun k => acc k + w k) (fun o ho => h o (List.mem_cons_of_mem _ ho))
      refine ⟨v, h3, ?_⟩
      rw [h4, Finset.sum_add_distrib, h2, List.length_cons]
      push_cast
      ring

theorem totals_full (p : Params K) (h0 : p.exp 0 = 1) (hb : L * p.base = 1) (x : Fin F → K) (pts : List (Point K F L))
    (hx : pts = [] ∨ ∀ l, (x, l) ∈ pts) (trees : List (Option (Tree K F L))) (hg : ∀ o ∈ trees, Good (· ≤ ·) p.lifetime pts o) :
    ∃ v, totals p x (recountAll trees) (fun _ => 0) = .ok v ∧ ∑ l, v l = trees.length := by
  have hL : 0 < L := by
    rcases Nat.eq_zero_or_pos L with h | h
    · rw [h] at hb; simp at hb
    · exact h
  have hs : ∑ _l : Fin L, p.base = 1 := by simpa using hb
  obtain ⟨v, h1, h2⟩ := totals_sum p x 1 (recountAll trees) (fun _ => 0) fun o ho => by
    obtain ⟨o0, ho0, rfl⟩ := List.mem_map.1 ho
    have g := hg o0 ho0
    cases o0 with
    | none => exact ⟨_, rfl, hs⟩
    | some t =>
        rcases hx with hx | hx
        · subst hx
          exact absurd rfl g.1.ne_nil
        · obtain ⟨v, a1, a2⟩ := scores_full p h0 hL x t.recount 0 1 (fun _ => p.base) (fun _ => 0) (g.1.full hL hx) hs
          exact ⟨v, a1, by rw [a2]; simp⟩
  exact ⟨v, h1, by rw [h2]; simp [recountAll]⟩

/-- A tree for points at one place is a leaf. -/
theorem Right.leaf_of_place {t : Tree K F L} {z : Fin F → K} {pts : List (Point K F L)} (h : Right pts t) (hz : ∀ q ∈ pts, q.1 = z) :
    ∃ id d, t = .leaf id d ∧ (∀ i, d.box.lower i = z i ∧ d.box.upper i = z i) ∧ d.counts = histogram pts := by
  cases t with
  | leaf id d =>
      refine ⟨id, d, rfl, fun i => ?_, h.2.2⟩
      obtain ⟨⟨a, ha, e1⟩, ⟨b, hb, e2⟩⟩ := h.2.1.2 i
      rw [hz a ha] at e1
      rw [hz b hb] at e2
      exact ⟨e1.symm, e2.symm⟩
  | node id d dim sp l r =>
      exfalso
      have h1 := h.2.1.ne_nil
      have h2 := h.2.2.ne_nil
      by_cases hx : z dim ≤ sp
      · refine h2 (List.filter_eq_nil_iff.2 fun q hq => ?_)
        simp [hz q hq, hx]
      · refine h1 (List.filter_eq_nil_iff.2 fun q hq => ?_)
        simp [hz q hq, hx]

/-- the discount of the hypothetical node above a node with time `tau`, for a query at distance `e` (mondrian.hpp:360-361) -/
def hypo (p : Params K) (e tau : K) : K := (e / (e + p.discount)) * -(p.exp (-(e + p.discount) * tau) - 1) / -(p.exp (-(e * tau)) - 1)

/-- the distance of two places: the sum of the differences of the features -/
def apart (z x : Fin F → K) : K := ∑ i, |x i - z i|

theorem eta_place {b : Box K F} {z x : Fin F → K} (h : ∀ i, b.lower i = z i ∧ b.upper i = z i) : eta b x = apart z x := by
  unfold eta apart
  refine Finset.sum_congr rfl fun i _ => ?_
  rw [(h i).1, (h i).2]
  simp only [Utils.max]
  rcases lt_trichotomy (x i) (z i) with h' | h' | h'
  · rw [abs_of_neg (by linarith)]
    split <;> split <;> linarith
  · rw [h']; simp
  · rw [abs_of_pos (by linarith)]
    split <;> split <;> linarith

theorem scores_place (p : Params K) (hL : 0 < L) (hbase : L * p.base = 1) {z x : Fin F → K} {pts : List (Point K F L)} (hz : ∀ q ∈ pts, q.1 = z)
    (hl : ∀ l, ∃ q ∈ pts, q.2 = l) (hd1 : apart z x + p.discount ≠ 0) (hd2 : p.exp (-(p.lifetime * apart z x)) < 1) {t : Tree K F L} (h : Right pts t)
    (ht : Times (· ≤ ·) p.lifetime 0 t) : ∃ v, scores p x t 0 1 (fun _ => p.base) (fun _ => 0) = .ok v ∧
      ∑ l, v l = 1 + (1 - p.exp (-(p.lifetime * apart z x))) * (1 - hypo p (apart z x) p.lifetime) := by
  obtain ⟨id, d, rfl, hb, hc⟩ := h.leaf_of_place hz
  have ht : d.tau = p.lifetime := ht
  have he := eta_place (x := x) hb
  have hcl : ∀ l, 0 < d.counts l := fun l => by
    rw [hc, histogram, List.countP_pos_iff]
    obtain ⟨q, h1, h2⟩ := hl l
    exact ⟨q, h1, by simpa using h2⟩
  have htab : ∀ i, ((Utils.min (d.counts i) 1 : Nat) : K) = 1 := fun i => by rw [min_eq, Nat.min_eq_right (hcl i), Nat.cast_one]
  have hL' : (L : K) ≠ 0 := by exact_mod_cast hL.ne'
  have hcs : ∑ l : Fin L, (1 : K) = L := by simp
  have hm := meanOf_sum p d 0 (fun _ => p.base) hL hcl (by simpa using hbase)
  have e1 : p.exp (-(apart z x * p.lifetime)) = p.exp (-(p.lifetime * apart z x)) := by rw [mul_comm]
  have hpb : 0 < 1 - p.exp (-(p.lifetime * apart z x)) := sub_pos.2 hd2
  simp only [scores, he, ht, sub_zero, smooth, neg_mul p.lifetime, if_pos hpb, htab, hcs, bind, Except.bind, pure, Except.pure]
  rw [if_neg]
  · refine ⟨_, rfl, ?_⟩
    simp only [zero_add, one_mul, mul_one]
    rw [Finset.sum_add_distrib, ← Finset.mul_sum, ← Finset.mul_sum, ← Finset.mul_sum, hm, hypo]
    simp only [Finset.sum_const, Finset.card_univ, Fintype.card_fin, nsmul_eq_mul, hbase]
    field_simp
    ring
  · rw [e1]
    push Not
    exact ⟨hd1, by intro h; linarith, hL'⟩

theorem totals_place (p : Params K) (hbase : L * p.base = 1) {z x : Fin F → K} {pts : List (Point K F L)} (hz : ∀ q ∈ pts, q.1 = z)
    (hl : ∀ l, ∃ q ∈ pts, q.2 = l) (hd1 : apart z x + p.discount ≠ 0) (hd2 : p.exp (-(p.lifetime * apart z x)) < 1)
    (trees : List (Option (Tree K F L))) (hg : ∀ o ∈ trees, Good (· ≤ ·) p.lifetime pts o) :
    ∃ v, totals p x (recountAll trees) (fun _ => 0) = .ok v ∧
      ∑ l, v l = trees.length * (1 + (1 - p.exp (-(p.lifetime * apart z x))) * (1 - hypo p (apart z x) p.lifetime)) := by
  have hL : 0 < L := by
    rcases Nat.eq_zero_or_pos L with h | h
    · rw [h] at hbase; simp at hbase
    · exact h
  obtain ⟨v, h1, h2⟩ := totals_sum p x _ (recountAll trees) (fun _ => 0) fun o ho => by
    obtain ⟨o0, ho0, rfl⟩ := List.mem_map.1 ho
    have g := (hg o0 ho0).recount
    cases o0 with
    | none =>
        have : pts = [] := hg _ ho0
        obtain ⟨q, hq, -⟩ := hl ⟨0, hL⟩
        rw [this] at hq; cases hq
    | some t => exact scores_place p hL hbase hz hl hd1 hd2 g.1 g.2
  exact ⟨v, h1, by rw [h2]; simp [recountAll]⟩

/-- `(1 - exp (-a t)) / a` decreases in `a`. -/
theorem hypo_lt_one (p : Params ℝ) (he : p.exp = Real.exp) (hdisc : 0 < p.discount) {e tau : ℝ} (h1 : 0 < e) (h2 : 0 < tau) : hypo p e tau < 1 := by
  have hs := strictConvexOn_exp.secant_strict_mono (a := 0) (x := -((e + p.discount) * tau)) (y := -(e * tau)) (Set.mem_univ _) (Set.mem_univ _)
    (Set.mem_univ _) (by have := mul_pos (add_pos h1 hdisc) h2; linarith [this]) (by have := mul_pos h1 h2; linarith [this]) (by
      have := mul_pos hdisc h2; nlinarith)
  have ha : 0 < (e + p.discount) * tau := mul_pos (add_pos h1 hdisc) h2
  have hb : 0 < e * tau := mul_pos h1 h2
  have hB : 0 < 1 - Real.exp (-(e * tau)) := by
    have : Real.exp (-(e * tau)) < 1 := by rw [← Real.exp_zero]; exact Real.exp_lt_exp.2 (by linarith)
    linarith
  rw [Real.exp_zero, sub_zero, sub_zero, div_neg, div_neg, neg_lt_neg_iff, div_lt_div_iff₀ hb ha] at hs
  have hd : 0 < e + p.discount := by linarith
  rw [hypo, he, neg_sub, neg_sub, div_lt_one hB, div_mul_eq_mul_div, div_lt_iff₀ hd, neg_mul]
  nlinarith

/-! ### The theorems -/

/-- **C128** (partial) If the base measure is the uniform distribution, then before the training, and at every point that was trained with every label, the votes of
the trees add up to the number of trees: their average is 1. Missing: other points, see `C128_less`, `C128_more`; votes may be negative, see `C128_negative`. -/
theorem C128_sum_partial (p : Params K) (hlife : 0 ≤ p.lifetime) (h0 : p.exp 0 = 1) (hb : L * p.base = 1) (ω : Nat → K) (hω : ∀ i, 0 ≤ ω i ∧ ω i < 1)
    (m n : Nat) (ops : List (Op K F L)) (pos : Nat) (s : Forest K F L) (pos' : Nat) (h : run p ω ops (new m n) pos = .ok (s, pos')) (x : Fin F → K)
    (hx : points ops = [] ∨ ∀ l, (x, l) ∈ points ops) : ∃ v, votes p s x = .ok v ∧ ∑ l, v l = n := by
  obtain ⟨trees, lost, a1, a2, a3, a4⟩ := run_good p hlife ω hω (· ≤ ·) (fun a b h => h.le) (draw_le hω) m n ops pos _ h
  rw [a1.votes_eq, ← a3]
  exact totals_full p h0 hb x _ hx trees a4

/-- after training on `k` copies of a point, at that point -/
theorem votes_copies (p : Params K) (hlife : 0 ≤ p.lifetime) (h0 : p.exp 0 = 1) (ω : Nat → K) (hω : ∀ i, 0 ≤ ω i ∧ ω i < 1) (m n : Nat)
    (ops : List (Op K F L)) (pos : Nat) (s : Forest K F L) (pos' : Nat) (h : run p ω ops (new m n) pos = .ok (s, pos')) (z : Point K F L) (k : Nat)
    (hk : 0 < k) (hp : points ops = List.replicate k z) : votes p s z.1 = .ok (fun l => n * copyScore p k z.2 l) := by
  obtain ⟨trees, lost, a1, a2, a3, a4⟩ := run_good p hlife ω hω (· ≤ ·) (fun a b h => h.le) (draw_le hω) m n ops pos _ h
  rw [hp] at a4
  rw [a1.votes_eq, totals_copies p z.1 (copyScore p k z.2)]
  · simp [recountAll, a3]
  · intro o ho
    obtain ⟨o0, ho0, rfl⟩ := List.mem_map.1 ho
    have hg := (a4 o0 ho0).recount
    cases o0 with
    | none => have : List.replicate k z = [] := a4 _ ho0; simp at this; omega
    | some t => exact scores_copies p h0 hk hg.1 hg.2

/-- **C128** (violation) After training on one point, the vote for its label at that point is negative if `exp (discount · lifetime) · (1 - base) > 1`. -/
theorem C128_negative (p : Params K) (hlife : 0 ≤ p.lifetime) (h0 : p.exp 0 = 1) (ω : Nat → K) (hω : ∀ i, 0 ≤ ω i ∧ ω i < 1) (m n : Nat) (hn : 0 < n)
    (ops : List (Op K F L)) (pos : Nat) (s : Forest K F L) (pos' : Nat) (h : run p ω ops (new m n) pos = .ok (s, pos')) (z : Point K F L)
    (hp : points ops = [z]) (hD : 1 < p.exp (p.discount * p.lifetime) * (1 - p.base)) : ∃ v, votes p s z.1 = .ok v ∧ v z.2 < 0 := by
  refine ⟨_, votes_copies p hlife h0 ω hω m n ops pos s pos' h z 1 one_pos hp, ?_⟩
  have hn' : (0 : K) < n := by exact_mod_cast hn
  rw [copyScore_self p 1 one_pos, Nat.cast_one, div_one]
  exact mul_neg_of_pos_of_neg hn' (by linarith)

/-- **C128** (violation) After training on `k` copies of one point, the votes at that point add up to `n (1 + (1 - base) (1 - D / k))` for `n` trees, where `D` is
`exp (discount · lifetime)`; for one copy this is less than `n` if `D > 1` and `base < 1`. -/
theorem C128_less (p : Params K) (hlife : 0 ≤ p.lifetime) (h0 : p.exp 0 = 1) (hb : L * p.base = 1) (ω : Nat → K) (hω : ∀ i, 0 ≤ ω i ∧ ω i < 1) (m n : Nat)
    (ops : List (Op K F L)) (pos : Nat) (s : Forest K F L) (pos' : Nat) (h : run p ω ops (new m n) pos = .ok (s, pos')) (z : Point K F L) (k : Nat)
    (hk : 0 < k) (hp : points ops = List.replicate k z) :
    ∃ v, votes p s z.1 = .ok v ∧ ∑ l, v l = n * (1 + (1 - p.base) * (1 - p.exp (p.discount * p.lifetime) / k)) := by
  refine ⟨_, votes_copies p hlife h0 ω hω m n ops pos s pos' h z k hk hp, ?_⟩
  have hk' : (k : K) ≠ 0 := by exact_mod_cast hk.ne'
  rw [← Finset.mul_sum]
  congr 1
  rw [← Finset.add_sum_erase _ _ (Finset.mem_univ z.2), copyScore_self p k hk]
  have : ∑ l ∈ Finset.univ.erase z.2, copyScore p k z.2 l = ∑ l ∈ Finset.univ.erase z.2, p.base :=
    Finset.sum_congr rfl fun l hl => by rw [copyScore, if_neg (Finset.ne_of_mem_erase hl)]
  rw [this, Finset.sum_const, Finset.card_erase_of_mem (Finset.mem_univ _), Finset.card_univ, Fintype.card_fin, nsmul_eq_mul]
  have hL : 0 < L := lt_of_le_of_lt (Nat.zero_le _) z.2.2
  have e : ((L : K) - 1) * p.base = 1 - p.base := by rw [sub_mul, hb, one_mul]
  rw [Nat.cast_sub hL, Nat.cast_one, e]
  field_simp
  ring

/-- **C128** (violation) With the real exponential function, positive discount and lifetime and the uniform base measure: after training on points at one place that
have all the labels, the votes add up to more than the number of trees for every query elsewhere. -/
theorem C128_more (p : Params ℝ) (he : p.exp = Real.exp) (hlife : 0 < p.lifetime) (hdisc : 0 < p.discount) (hb : L * p.base = 1) (ω : Nat → ℝ)
    (hω : ∀ i, 0 ≤ ω i ∧ ω i < 1) (m n : Nat) (hn : 0 < n) (ops : List (Op ℝ F L)) (pos : Nat) (s : Forest ℝ F L) (pos' : Nat)
    (h : run p ω ops (new m n) pos = .ok (s, pos')) (z x : Fin F → ℝ) (hz : ∀ q ∈ points ops, q.1 = z) (hl : ∀ l, ∃ q ∈ points ops, q.2 = l) (hx : x ≠ z) :
    ∃ v, votes p s x = .ok v ∧ (n : ℝ) < ∑ l, v l := by
  obtain ⟨trees, lost, a1, a2, a3, a4⟩ := run_good p hlife.le ω hω (· ≤ ·) (fun a b h => h.le) (draw_le hω) m n ops pos _ h
  have ha : 0 < apart z x := by
    obtain ⟨i, hi⟩ := Function.ne_iff.1 hx
    exact Finset.sum_pos' (fun j _ => abs_nonneg _) ⟨i, Finset.mem_univ _, abs_pos.2 (sub_ne_zero.2 hi)⟩
  have hlt : p.exp (-(p.lifetime * apart z x)) < 1 := by
    rw [he, ← Real.exp_zero]; exact Real.exp_lt_exp.2 (by have := mul_pos hlife ha; linarith)
  obtain ⟨v, h1, h2⟩ := totals_place p hb hz hl (by linarith) hlt trees a4
  refine ⟨v, by rw [a1.votes_eq]; exact h1, ?_⟩
  rw [h2, a3]
  have hn' : (0 : ℝ) < n := by exact_mod_cast hn
  have := mul_pos (sub_pos.2 hlt) (sub_pos.2 (hypo_lt_one p he hdisc ha hlife))
  nlinarith

/-- the parameters of the examples, with the uniform base measure for two labels -/
def exU : Params ℚ := { exP with base := 1 / 2 }

/-- two labels at the place 5 and one at the place 0: the votes of two trees add up to 2 at the place 5, and not at the place 0 -/
example : 2 * exU.base = 1 ∧ exU.exp 0 = 1 ∧
    (run exU (exω []) [.train (pt 5) (1 : Fin 2), .train (pt 0) 1, .train (pt 5) 0] (new 8 2) 0).bind (fun r => (votes exU r.1 (pt 5)).map (fun v => ∑ l, v l)) =
      .ok 2 ∧
    (run exU (exω []) [.train (pt 5) (1 : Fin 2), .train (pt 0) 1, .train (pt 5) 0] (new 8 2) 0).bind (fun r => (votes exU r.1 (pt 0)).map (fun v =>
      decide (∑ l, v l = 2))) = .ok false := by
  decide +kernel

/-- a negative vote, and votes that add up to less than the number of trees -/
example : 1 < exP.exp (exP.discount * exP.lifetime) * (1 - exP.base) ∧
    (run exP (exω []) [.train (pt 5) (1 : Fin 2)] (new 8 2) 0).bind (fun r => (votes exP r.1 (pt 5)).map (fun v => decide (v 1 < 0))) = .ok true ∧
    (run exU (exω []) [.train (pt 5) (1 : Fin 2)] (new 8 2) 0).bind (fun r => (votes exU r.1 (pt 5)).map (fun v => ∑ l, v l)) = .ok (3 / 2) := by
  decide +kernel

/-- the two labels at the place 0, and a query at the place 1 -/
example : ∃ (p : Params ℝ) (s : Forest ℝ 1 2) (pos : Nat), run p (fun _ => 1 / 2) [.train (fun _ => 0) 0, .train (fun _ => 0) 1] (new 8 3) 0 = .ok (s, pos) ∧
    ∃ v, votes p s (fun _ => 1) = .ok v ∧ (3 : ℝ) < ∑ l, v l := by
  let p : Params ℝ := { lifetime := 1, base := 1 / 2, discount := 1, exp := Real.exp, log := Real.log }
  obtain ⟨⟨s, pos⟩, hr⟩ := run_ok p zero_le_one Real.exp_zero zero_le_one (fun _ => 1 / 2) (fun _ => by norm_num) 8 3 (by norm_num) (by norm_num)
    [.train (fun _ => (0 : ℝ)) (0 : Fin 2), .train (fun _ : Fin 1 => 0) 1] 0
  refine ⟨p, s, pos, hr, ?_⟩
  have := C128_more p rfl one_pos one_pos (by norm_num [p]) (fun _ => 1 / 2) (fun _ => by norm_num) 8 3 (by norm_num) _ 0 s pos hr (fun _ => 0) (fun _ => 1)
    (by simp [points]) (by intro l; fin_cases l <;> simp [points]) (by intro h; have := congrFun h 0; norm_num at this)
  simpa using this

end Orp.Mondrian

namespace Orp.Unbound

open Mondrian

variable {K : Type} [Field K] [LinearOrder K] [IsStrictOrderedRing K] [FloorRing K] {F L : Nat}

/-- **C128** (partial) `C128_sum_partial` for the forest with unlimited memory -/
theorem C128_sum_partial (p : Params K) (h0 : p.exp 0 = 1) (hb : L * p.base = 1) (ω : Nat → K) (hω : ∀ i, 0 ≤ ω i ∧ ω i < 1)
    (n : Nat) (ops : List (Op K F L)) (pos : Nat) (s : Forest K F L) (pos' : Nat) (h : run p ω ops (new n) pos = .ok (s, pos')) (x : Fin F → K)
    (hx : points ops = [] ∨ ∀ l, (x, l) ∈ points ops) : ∃ v, votes p s x = .ok v ∧ ∑ l, v l = n := by
  obtain ⟨trees, a1, a2, -, -, a3⟩ := run_good p ω hω (· ≤ ·) (fun a b h => h.le) (draw_le' hω) n ops pos _ h
  rw [a1.votes_eq, ← a2]
  exact totals_full p h0 hb x _ hx trees a3

/-- **C128** (violation) `C128_negative` for the forest with unlimited memory -/
theorem C128_negative (p : Params K) (h0 : p.exp 0 = 1) (ω : Nat → K) (hω : ∀ i, 0 ≤ ω i ∧ ω i < 1) (n : Nat) (hn : 0 < n)
    (ops : List (Op K F L)) (pos : Nat) (s : Forest K F L) (pos' : Nat) (h : run p ω ops (new n) pos = .ok (s, pos')) (z : Point K F L)
    (hp : points ops = [z]) (hD : 1 < p.exp (p.discount * p.lifetime) * (1 - p.base)) : ∃ v, votes p s z.1 = .ok v ∧ v z.2 < 0 := by
  obtain ⟨trees, a1, a2, -, -, a3⟩ := run_good p ω hω (· ≤ ·) (fun a b h => h.le) (draw_le' hω) n ops pos _ h
  rw [hp] at a3
  have hv : votes p s z.1 = .ok (fun l => n * copyScore p 1 z.2 l) := by
    rw [a1.votes_eq, totals_copies p z.1 (copyScore p 1 z.2)]
    · simp [recountAll, a2]
    · intro o ho
      obtain ⟨o0, ho0, rfl⟩ := List.mem_map.1 ho
      have hg := (a3 o0 ho0).recount
      cases o0 with
      | none => have : [z] = [] := a3 _ ho0; simp at this
      | some t => exact scores_copies (k := 1) p h0 one_pos hg.1 hg.2
  refine ⟨_, hv, ?_⟩
  have hn' : (0 : K) < n := by exact_mod_cast hn
  rw [copyScore_self p 1 one_pos, Nat.cast_one, div_one]
  exact mul_neg_of_pos_of_neg hn' (by linarith)

/-- **C128** (violation) `C128_more` for the forest with unlimited memory -/
theorem C128_more (p : Params ℝ) (he : p.exp = Real.exp) (hlife : 0 < p.lifetime) (hdisc : 0 < p.discount) (hb : L * p.base = 1) (ω : Nat → ℝ)
    (hω : ∀ i, 0 ≤ ω i ∧ ω i < 1) (n : Nat) (hn : 0 < n) (ops : List (Op ℝ F L)) (pos : Nat) (s : Forest ℝ F L) (pos' : Nat)
    (h : run p ω ops (new n) pos = .ok (s, pos')) (z x : Fin F → ℝ) (hz : ∀ q ∈ points ops, q.1 = z) (hl : ∀ l, ∃ q ∈ points ops, q.2 = l) (hx : x ≠ z) :
    ∃ v, votes p s x = .ok v ∧ (n : ℝ) < ∑ l, v l := by
  obtain ⟨trees, a1, a2, -, -, a3⟩ := run_good p ω hω (· ≤ ·) (fun a b h => h.le) (draw_le' hω) n ops pos _ h
  have ha : 0 < apart z x := by
    obtain ⟨i, hi⟩ := Function.ne_iff.1 hx
    exact Finset.sum_pos' (fun j _ => abs_nonneg _) ⟨i, Finset.mem_univ _, abs_pos.2 (sub_ne_zero.2 hi)⟩
  have hlt : p.exp (-(p.lifetime * apart z x)) < 1 := by
    rw [he, ← Real.exp_zero]; exact Real.exp_lt_exp.2 (by have := mul_pos hlife ha; linarith)
  obtain ⟨v, h1, h2⟩ := totals_place p hb hz hl (by linarith) hlt trees a3
  refine ⟨v, by rw [a1.votes_eq]; exact h1, ?_⟩
  rw [h2, a2]
  have hn' : (0 : ℝ) < n := by exact_mod_cast hn
  have := mul_pos (sub_pos.2 hlt) (sub_pos.2 (hypo_lt_one p he hdisc ha hlife))
  nlinarith

example : (run exU (exω []) [.train (pt 5) (1 : Fin 2), .train (pt 0) 1, .train (pt 5) 0] (new 2) 0).bind (fun r =>
    (votes exU r.1 (pt 5)).map (fun v => ∑ l, v l)) = .ok 2 := by decide +kernel

end Orp.Unbound
