import Verif.Mondrian.Props
import Verif.Mondrian.Choose
import Verif.Utils.Closed

/-!
C163: `MondrianForest` with a random function that can also return 1, such as the `(double)rand()/(double)RAND_MAX` of the README (README.md:199).
-/

namespace Orp.Mondrian

set_option linter.unusedSectionVars false

variable {K : Type} [Field K] [LinearOrder K] [IsStrictOrderedRing K] [FloorRing K] {F L : Nat}

/-- The point and the box are on different sides of the split: what is at most `split` goes left, the rest goes right. -/
def Cut.Parts (c : Cut K F) (b : Box K F) (x : Fin F → K) : Prop :=
  if c.right then b.upper c.dim ≤ c.split ∧ c.split < x c.dim else x c.dim ≤ c.split ∧ c.split < b.lower c.dim

/-- **C163** With a random number between 0 and 1, both included, the split that training introduces has the new point and the old box on different
sides if and only if the number is not 1. -/
theorem C163_mondrian_split (ω : Nat → K) (pos : Nat) (hω : 0 ≤ ω pos ∧ ω pos ≤ 1) (b : Box K F) (hb : ∀ i, b.lower i ≤ b.upper i) (x : Fin F → K)
    (dim : Fin F) (tau : K) (c : Cut K F) (pos' : Nat) (h : cutAt ω pos b x dim tau = .ok (c, pos')) : c.Parts b x ↔ ω pos ≠ 1 := by
  have key : ∀ lo up : K, lo < up → (lo ≤ ω pos * (up - lo) + lo ∧ ω pos * (up - lo) + lo < up ↔ ω pos ≠ 1) := by
    intro lo up hlt
    have hd : 0 < up - lo := sub_pos.2 hlt
    constructor
    · rintro ⟨-, h2⟩ h1
      rw [h1] at h2
      linarith
    · intro h1
      have h3 : ω pos < 1 := lt_of_le_of_ne hω.2 h1
      exact ⟨by nlinarith [mul_nonneg hω.1 hd.le], by nlinarith⟩
  have hbd := hb dim
  unfold cutAt at h
  by_cases h1 : b.upper dim < x dim
  · simp only [h1, if_true, bind, Except.bind, pure, Except.pure, Except.ok.injEq, Prod.mk.injEq] at h
    obtain ⟨rfl, -⟩ := h
    simp only [Cut.Parts, decide_true, if_true]
    exact key _ _ h1
  · by_cases h2 : x dim < b.lower dim
    · simp only [h1, h2, if_true, if_false, bind, Except.bind, pure, Except.pure, Except.ok.injEq, Prod.mk.injEq] at h
      obtain ⟨rfl, -⟩ := h
      have hne : ¬ x dim = b.lower dim := h2.ne
      simp only [Cut.Parts, hne, decide_false, Bool.false_eq_true, if_false]
      exact key _ _ h2
    · simp [h1, h2, bind, Except.bind] at h

/-- every random number is 1/2 except those at the positions in `ones` -/
def oneω (ones : List Nat) (i : Nat) : ℚ := if i ∈ ones then 1 else 1 / 2

theorem oneω_range (ones : List Nat) (i : Nat) : 0 ≤ oneω ones i ∧ oneω ones i ≤ 1 := by
  unfold oneω
  split <;> norm_num

/- the hypotheses are met with both outcomes -/
example : (cutAt (F := 1) (oneω [0]) 0 ⟨pt 0, pt 0⟩ (pt 1) 0 3).map (fun r => (r.1.split, r.1.right)) = .ok (1, true) ∧
    (cutAt (F := 1) (oneω []) 0 ⟨pt 0, pt 0⟩ (pt 1) 0 3).map (fun r => (r.1.split, r.1.right)) = .ok (1 / 2, true) := by decide +kernel

def oneOps : List (Op ℚ 1 2) := [.train (pt 0) 0, .train (pt 1) 1]

/-- **C163** is violated by training: after two points, the number drawn for the split being 1, no tree with separating splits is in the forest. -/
theorem C163_mondrian_not_separated : ∃ (ω : Nat → ℚ) (ops : List (Op ℚ 1 2)) (s : Forest ℚ 1 2) (pos : Nat), (∀ i, 0 ≤ ω i ∧ ω i ≤ 1) ∧
    run exP ω ops (new 8 1) 0 = .ok (s, pos) ∧ ∀ trees, HoldsAll s trees → ∃ t, some t ∈ trees ∧ ¬ Separates t := by
  have h1 : (run exP (oneω [2]) oneOps (new 8 1) 0).map (fun r => r.1.roots) = .ok [some 1] := by decide +kernel
  have h2 : (run exP (oneω [2]) oneOps (new 8 1) 0).map (fun r => r.1.nodes.map (fun n => (n.dim, n.split, n.right))) =
      .ok [(none, none, none), (some 0, some 1, some 2), (none, none, none), (none, none, none), (none, none, none), (none, none, none),
        (none, none, none), (none, none, none)] := by decide +kernel
  have h3 : (run exP (oneω [2]) oneOps (new 8 1) 0).map (fun r => r.1.nodes.map (fun n => n.box.map (fun b => b.lower 0))) =
      .ok [some 0, some 0, some 1, none, none, none, none, none] := by decide +kernel
  cases h : run exP (oneω [2]) oneOps (new 8 1) 0 with
  | error e => rw [h] at h1; cases h1
  | ok q =>
      rw [h] at h1 h2 h3
      have h1 : q.1.roots = [some 1] := Except.ok.inj h1
      have h2 := congrArg (fun l => l[1]?) (Except.ok.inj h2)
      have h3 := congrArg (fun l => l[2]?) (Except.ok.inj h3)
      simp only [List.getElem?_map, List.getElem?_cons_succ, List.getElem?_cons_zero] at h2 h3
      refine ⟨oneω [2], oneOps, q.1, q.2, oneω_range _, h, fun trees ht => ?_⟩
      have hr := h1.symm.trans ht.roots
      have hl : trees.length = 1 := by simpa using (congrArg List.length hr).symm
      obtain ⟨o, rfl⟩ := List.length_eq_one_iff.1 hl
      cases o with
      | none => simp at hr
      | some t =>
          have hid : t.id = 1 := by simpa using hr.symm
          have hh := ht.holds t (by simp)
          refine ⟨t, by simp, fun hsep => ?_⟩
          cases t with
          | leaf id d =>
              simp only [Tree.id] at hid
              subst hid
              obtain ⟨n, e1, -, e3⟩ := hh
              rw [e1] at h2
              simp [e3] at h2
          | node id d dim sp l r =>
              simp only [Tree.id] at hid
              subst hid
              obtain ⟨⟨n, e1, -, -, e4, -, e6⟩, -, hr⟩ := hh
              rw [e1] at h2
              simp only [Option.map_some, Option.some.injEq, Prod.mk.injEq, e4, e6] at h2
              obtain ⟨-, hsp, hrid⟩ := h2
              have hbox : r.data.box.lower 0 = 1 := by
                cases r with
                | leaf id' d' =>
                    simp only [Tree.id] at hrid
                    subst hrid
                    obtain ⟨m, f1, f2, -⟩ := hr
                    rw [f1] at h3
                    simpa [f2.2.2.1, Tree.data] using h3
                | node id' d' dim' sp' l' r' =>
                    simp only [Tree.id] at hrid
                    subst hrid
                    obtain ⟨⟨m, f1, f2, -⟩, -⟩ := hr
                    rw [f1] at h3
                    simpa [f2.2.2.1, Tree.data] using h3
              have h7 := hsep.2.2.2.1
              rw [Subsingleton.elim dim 0, hbox, hsp] at h7
              exact lt_irrefl _ h7

/-! ### Training stays defined and the trees well formed -/

theorem draw_any {p : Params K} {ω : Nat → K} {pos : Nat} {b : Box K F} {x : Fin F → K} {ptau tau : K} {c : Cut K F} {pos' : Nat}
    (h : draw p ω pos b x ptau tau = .ok (some c, pos')) : ptau ≤ c.tau ∧ c.tau < tau := by
  unfold draw at h
  simp only at h
  by_cases hs : ∑ i, extent b x i = 0
  · rw [if_pos hs] at h; simp at h
  · rw [if_neg hs] at h
    by_cases he : 0 ≤ p.log (1 - ω pos) / (-∑ i, extent b x i) ∧ ptau + p.log (1 - ω pos) / (-∑ i, extent b x i) < tau
    · rw [if_pos he] at h
      cases hd : pickDim ω (pos + 1) (extent b x) (∑ i, extent b x i) with
      | error y => simp [hd, bind, Except.bind] at h
      | ok q =>
        obtain ⟨d, pos1⟩ := q
        simp only [hd, bind, Except.bind] at h
        cases hc : cutAt ω pos1 b x d (ptau + p.log (1 - ω pos) / (-∑ i, extent b x i)) with
        | error y => simp [hc] at h
        | ok q =>
          obtain ⟨c', pos2⟩ := q
          simp only [hc, pure, Except.pure, Except.ok.injEq, Prod.mk.injEq, Option.some.injEq] at h
          obtain ⟨rfl, rfl⟩ := h
          have ht : c'.tau = ptau + p.log (1 - ω pos) / (-∑ i, extent b x i) := by
            unfold cutAt at hc
            by_cases hu : b.upper d < x d
            · simp only [if_pos hu, bind, Except.bind, pure, Except.pure, Except.ok.injEq, Prod.mk.injEq] at hc
              obtain ⟨rfl, -⟩ := hc
              rfl
            · by_cases hl : x d < b.lower d
              · simp only [if_neg hu, if_pos hl, bind, Except.bind, pure, Except.pure, Except.ok.injEq, Prod.mk.injEq] at hc
                obtain ⟨rfl, -⟩ := hc
                rfl
              · simp [if_neg hu, if_neg hl, bind, Except.bind] at hc
          rw [ht]
          exact ⟨by linarith [he.1], he.2⟩
    · rw [if_neg he] at h; simp at h

theorem draw_fair_any (p : Params K) (ω : Nat → K) (x : Fin F → K) : Fair (draw p ω) (fun _ => True) (fun _ => True) p.lifetime x where
  cut := fun _ _ _ _ _ _ _ _ _ h => ⟨(draw_any h).1, (draw_any h).2, trivial⟩
  point := trivial
  extend := fun _ _ => trivial
  zero := trivial
  life := trivial

/-- `pickDim_ok` with a random number that may be 1 -/
theorem pickDim_closed (ω : Nat → K) (pos : Nat) (e : Fin F → K) (he : ∀ i, 0 ≤ e i) (hs : 0 < ∑ i, e i) (h0 : 0 < ω pos) (h1 : ω pos ≤ 1) :
    ∃ d : Fin F, pickDim ω pos e (∑ i, e i) = .ok (d, pos + 1) ∧ 0 < e d := by
  have hsum : (List.ofFn e).sum = ∑ i, e i := by rw [List.sum_ofFn]
  obtain ⟨r, a1, a2, a3, a4, a5, a6, a7⟩ := Utils.C29_cumulative (List.ofFn e) (by simpa [List.mem_ofFn] using he) (by rw [hsum]; exact hs)
  have a1' : Utils.turnIntoProbability (List.ofFn e) (∑ i, e i) = .ok r := by
    rw [← a1]
    unfold Utils.turnIntoProbability
    rw [if_neg (not_lt.2 hs.le), if_pos (by norm_num), Utils.foldl_add, zero_add, hsum]
  obtain ⟨b1, b2⟩ := Utils.C163_pick r a5 a7 h1
  have hlen : r.length = F := by rw [a2]; simp
  have hd : Utils.pick r (ω pos) < F := by omega
  obtain ⟨k, hk⟩ : ∃ k, Utils.pick r (ω pos) = k := ⟨_, rfl⟩
  rw [hk] at hd
  refine ⟨⟨k, hd⟩, ?_, ?_⟩
  · simp only [pickDim, a1', bind, Except.bind, hk, hd, dif_pos, pure, Except.pure]
  · by_contra hneg
    have hz : e ⟨k, hd⟩ = 0 := le_antisymm (not_lt.1 hneg) (he _)
    obtain ⟨c1, c2⟩ := (b2 k (by omega)).1 hk
    cases k with
    | zero =>
        have : (List.ofFn e).take 1 = [e ⟨0, by omega⟩] := by
          rw [List.take_one, List.head?_eq_getElem?, List.getElem?_ofFn]
          simp [show 0 < F by omega]
        rw [a3 0 (by omega), this, hz] at c2
        simp at c2
        linarith
    | succ m =>
        have h6 := a6 m (by omega) (by rw [List.length_ofFn]; omega)
        simp only [List.getElem_ofFn] at h6
        rw [hz, zero_div] at h6
        have c3 := c1 (by omega)
        simp only [Nat.add_sub_cancel] at c3
        linarith

theorem draw_closed (p : Params K) (ω : Nat → K) (hω : ∀ i, 0 < ω i ∧ ω i ≤ 1) (x : Fin F → K) : Total (draw p ω) (fun _ => True) (fun _ => True) x := by
  intro pos b ptau tau _ _ _
  unfold draw
  simp only
  by_cases hs : ∑ i, extent b x i = 0
  · exact ⟨_, by rw [if_pos hs]⟩
  · have hs' : 0 < ∑ i, extent b x i := lt_of_le_of_ne (sum_nonneg' b x) (Ne.symm hs)
    rw [if_neg hs]
    split
    · obtain ⟨d, a1, a2⟩ := pickDim_closed ω (pos + 1) (extent b x) (extent_nonneg b x) hs' (hω _).1 (hω _).2
      obtain ⟨c, c1⟩ := cutAt_ok ω (pos + 1 + 1) (ptau + p.log (1 - ω pos) / (-∑ i, extent b x i)) (extent_pos a2)
      exact ⟨_, by simp only [a1, c1, bind, Except.bind, pure, Except.pure]; rfl⟩
    · exact ⟨_, rfl⟩

/-- **C163** With random numbers that are positive and at most 1, training a forest that has a node for each tree ends without undefined behaviour, and
the trees are binary trees over distinct nodes of the pool with times that do not decrease on the way down. The logarithm of 0, drawn with the number 1, is
an arbitrary number here; the code gets minus infinity, which has the effect of a negative number that is large enough, namely that there is no split. -/
theorem C163_mondrian_training (p : Params K) (hlife : 0 ≤ p.lifetime) (ω : Nat → K) (hω : ∀ i, 0 < ω i ∧ ω i ≤ 1) (m n : Nat) (hmn : n ≤ m)
    (pts : List (Point K F L)) (pos : Nat) :
    ∃ (s : Forest K F L) (pos' : Nat) (trees : List (Option (Tree K F L))), run p ω (pts.map (fun z => Op.train z.1 z.2)) (new m n) pos = .ok (s, pos') ∧
      trees.length = n ∧ HoldsAll s trees ∧ (∀ i ∈ allIds trees, i < m) ∧ ∀ t, some t ∈ trees → Times (· ≤ ·) p.lifetime 0 t := by
  have hnew := shaped_new (F := F) (L := L) (fun _ : Box K F => True) (fun _ : K => True) p.lifetime m n
  obtain ⟨⟨s, pos'⟩, hr⟩ := trainAllWith_ok p hlife (draw p ω) hmn pts [] (new m n) _ [] pos
    (fun z _ => ⟨draw_fair_any p ω z.1, draw_closed p ω hω z.1⟩) hnew (fun _ => avail_new m n)
  obtain ⟨trees, lost, a1, -⟩ := trainAllWith_spec p hlife (draw p ω) pts [] (new m n) _ [] pos _ (fun z _ => draw_fair_any p ω z.1) hnew hr
  exact ⟨s, pos', trees, by rw [← trainAllWith_draw]; exact hr, a1.count, a1.inv.all, fun i hi => a1.pool ▸ a1.inv.ids_lt hi, a1.times⟩

example : ∀ i, 0 < oneω [2] i ∧ oneω [2] i ≤ 1 := by
  intro i
  unfold oneω
  split <;> norm_num

end Orp.Mondrian
