import Verif.Mondrian.Twin
import Mathlib.Tactic.FieldSimp
import Mathlib.Tactic.LinearCombination

/-!
Other units, another origin and other names of the labels: how the functions on trees behave when every point `x` is replaced by `a · x + b`, times are
divided by `a`, the discount is multiplied by `a`, and every label `l` by `σ l`.
-/

set_option linter.unusedSectionVars false

namespace Orp.Mondrian

variable {K : Type} [Field K] [LinearOrder K] [IsStrictOrderedRing K] [FloorRing K] {F L : Nat}

/-- A change of the data: a scale common to all features, an origin, and a renaming of the labels -/
structure Change (K : Type) (F L : Nat) where
  a : K
  b : Fin F → K
  σ : Equiv.Perm (Fin L)

/-- the point in the new units -/
def Change.pt (u : Change K F L) (x : Fin F → K) : Fin F → K := fun i => u.a * x i + u.b i

/-- the parameters in the new units: `lifetime` is measured in the inverse unit of the features, `discount` in the unit of the features -/
def Change.par (u : Change K F L) (p : Params K) : Params K := { p with
  lifetime := p.lifetime / u.a
  discount := u.a * p.discount }

/-- the call in the new units -/
def Change.op (u : Change K F L) : Op K F L → Op K F L
  | .train x l => .train (u.pt x) (u.σ l)
  | .predict x => .predict (u.pt x)

def Change.box (u : Change K F L) (b : Box K F) : Box K F := { lower := u.pt b.lower, upper := u.pt b.upper }

/-- a function of the labels in the new names -/
def Change.fn {α : Type} (u : Change K F L) (f : Fin L → α) : Fin L → α := fun l => f (u.σ.symm l)

def Change.data (u : Change K F L) (d : Data K F L) : Data K F L := { tau := d.tau / u.a, box := u.box d.box, counts := u.fn d.counts }

def Change.cut (u : Change K F L) (c : Cut K F) : Cut K F :=
  { dim := c.dim, split := u.a * c.split + u.b c.dim, tau := c.tau / u.a, right := c.right }

def Change.tree (u : Change K F L) : Tree K F L → Tree K F L
  | .leaf id d => .leaf id (u.data d)
  | .node id d dim sp l r => .node id (u.data d) dim (u.a * sp + u.b dim) (u.tree l) (u.tree r)

/-- the trees in the new units -/
def Change.trees (u : Change K F L) (ts : List (Option (Tree K F L))) : List (Option (Tree K F L)) := ts.map (fun t => t.map u.tree)

variable {u : Change K F L}

theorem Change.pt_lt (ha : 0 < u.a) (x y : Fin F → K) (i : Fin F) : u.pt x i < u.pt y i ↔ x i < y i := by
  simp only [Change.pt]
  constructor
  · intro h; nlinarith
  · intro h; nlinarith

theorem Change.pt_le (ha : 0 < u.a) (x : Fin F → K) (sp : K) (i : Fin F) : u.pt x i ≤ u.a * sp + u.b i ↔ x i ≤ sp := by
  simp only [Change.pt]
  constructor
  · intro h; nlinarith
  · intro h; nlinarith

theorem extent_change (ha : 0 < u.a) (b : Box K F) (x : Fin F → K) (i : Fin F) : extent (u.box b) (u.pt x) i = u.a * extent b x i := by
  have e1 : u.pt b.lower i - u.pt x i = u.a * (b.lower i - x i) := by simp only [Change.pt]; ring
  have e2 : u.pt x i - u.pt b.upper i = u.a * (x i - b.upper i) := by simp only [Change.pt]; ring
  unfold extent
  simp only [Change.box, e1, e2, gt_iff_lt, mul_pos_iff_of_pos_left ha]
  split <;> split <;> ring

theorem eta_change (ha : 0 < u.a) (b : Box K F) (x : Fin F → K) : eta (u.box b) (u.pt x) = u.a * eta b x := by
  unfold eta
  rw [Finset.mul_sum]
  refine Finset.sum_congr rfl fun i _ => ?_
  have e1 : u.pt b.lower i - u.pt x i = u.a * (b.lower i - x i) := by simp only [Change.pt]; ring
  have e2 : u.pt x i - u.pt b.upper i = u.a * (x i - b.upper i) := by simp only [Change.pt]; ring
  simp only [Change.box, e1, e2, Utils.max, mul_pos_iff_of_pos_left ha]
  split <;> split <;> ring

theorem extend_change (ha : 0 < u.a) (b : Box K F) (x : Fin F → K) : (u.box b).extend (u.pt x) = u.box (b.extend x) := by
  unfold Box.extend
  simp only [Change.box, Change.pt_lt ha, Box.mk.injEq]
  constructor
  · funext i
    simp only [Change.pt]
    split <;> rfl
  · funext i
    simp only [Change.pt]
    split <;> rfl

theorem cumulate_scale {a : K} (ha : 0 < a) (sum : K) : ∀ (vs : List K) (prev : K), Utils.cumulate (a * sum) prev (vs.map (a * ·)) = Utils.cumulate sum prev vs
  | [], _ => rfl
  | v :: vs, prev => by
      simp only [List.map_cons, Utils.cumulate, mul_div_mul_left _ _ ha.ne', cumulate_scale ha sum vs]

theorem turn_scale {a : K} (ha : 0 < a) {sum : K} (hs : 0 < sum) (vs : List K) :
    Utils.turnIntoProbability (vs.map (a * ·)) (a * sum) = Utils.turnIntoProbability vs sum := by
  have h1 : ¬ a * sum < 0 := not_lt.2 (mul_nonneg ha.le hs.le)
  unfold Utils.turnIntoProbability
  simp only [if_neg h1, if_neg (not_lt.2 hs.le)]
  cases vs with
  | nil => rfl
  | cons v vs => simp only [List.map_cons, mul_div_mul_left _ _ ha.ne', cumulate_scale ha, mul_eq_zero, ha.ne', false_or]

theorem pickDim_scale {a : K} (ha : 0 < a) (ω : Nat → K) (pos : Nat) (e : Fin F → K) {sum : K} (hs : 0 < sum) :
    pickDim ω pos (fun i => a * e i) (a * sum) = pickDim ω pos e sum := by
  unfold pickDim
  have : List.ofFn (fun i => a * e i) = (List.ofFn e).map (a * ·) := by rw [List.map_ofFn]; rfl
  rw [this, turn_scale ha hs]

theorem cutAt_change (ha : 0 < u.a) (ω : Nat → K) (pos : Nat) (b : Box K F) (x : Fin F → K) (dim : Fin F) (tau : K) :
    cutAt ω pos (u.box b) (u.pt x) dim (tau / u.a) = (cutAt ω pos b x dim tau).map (fun r => (u.cut r.1, r.2)) := by
  have inj : ∀ y : Fin F → K, (u.pt x dim = u.pt y dim) = (x dim = y dim) := by
    intro y
    apply propext
    simp only [Change.pt, add_left_inj]
    exact mul_right_inj' ha.ne'
  unfold cutAt
  simp only [Change.box, Change.pt_lt ha]
  split
  · simp only [bind, Except.bind, pure, Except.pure, Except.map, Change.cut, Except.ok.injEq, Prod.mk.injEq, Cut.mk.injEq, true_and, and_true, Change.pt]
    ring
  · split
    · simp only [bind, Except.bind, pure, Except.pure, Except.map, Change.cut, Except.ok.injEq, Prod.mk.injEq, Cut.mk.injEq, true_and, and_true, inj]
      simp only [Change.pt]
      ring
    · rfl

theorem draw_change (ha : 0 < u.a) (p : Params K) (ω : Nat → K) (pos : Nat) (b : Box K F) (x : Fin F → K) (ptau tau : K) :
    draw (u.par p) ω pos (u.box b) (u.pt x) (ptau / u.a) (tau / u.a) = (draw p ω pos b x ptau tau).map (fun r => (r.1.map u.cut, r.2)) := by
  have hs : ∑ i, extent (u.box b) (u.pt x) i = u.a * ∑ i, extent b x i := by
    rw [Finset.mul_sum]
    exact Finset.sum_congr rfl fun i _ => extent_change ha b x i
  have he : extent (u.box b) (u.pt x) = fun i => u.a * extent b x i := funext fun i => extent_change ha b x i
  unfold draw
  simp only [hs, mul_eq_zero, ha.ne', false_or]
  by_cases h0 : ∑ i, extent b x i = 0
  · simp only [if_pos h0, Except.map, Option.map_none]
  · have hpos : 0 < ∑ i, extent b x i := lt_of_le_of_ne (sum_nonneg' b x) (Ne.symm h0)
    simp only [if_neg h0]
    have hdiv : (u.par p).log (1 - ω pos) / (-(u.a * ∑ i, extent b x i)) = p.log (1 - ω pos) / (-∑ i, extent b x i) / u.a := by
      show p.log (1 - ω pos) / _ = _
      rw [div_div]
      congr 1
      ring
    rw [hdiv, ← add_div]
    have hiff : (0 ≤ p.log (1 - ω pos) / (-∑ i, extent b x i) / u.a ∧ (ptau + p.log (1 - ω pos) / (-∑ i, extent b x i)) / u.a < tau / u.a) =
        (0 ≤ p.log (1 - ω pos) / (-∑ i, extent b x i) ∧ ptau + p.log (1 - ω pos) / (-∑ i, extent b x i) < tau) := by
      rw [div_lt_div_iff_of_pos_right ha]
      congr 1
      apply propext
      exact ⟨fun h => by
        by_contra hn
        exact absurd h (not_le.2 (div_neg_of_neg_of_pos (not_le.1 hn) ha)), fun h => div_nonneg h ha.le⟩
    simp only [hiff]
    split
    · rw [he, pickDim_scale ha _ _ _ hpos]
      cases pickDim ω (pos + 1) (extent b x) (∑ i, extent b x i) with
      | error e => rfl
      | ok q =>
          simp only [bind, Except.bind, cutAt_change ha]
          cases cutAt ω q.2 b x q.1 (ptau + p.log (1 - ω pos) / (-∑ i, extent b x i)) with
          | error e => rfl
          | ok r => rfl
    · rfl

theorem bump_change (c : Fin L → Nat) (l : Fin L) : bump (u.fn c) (u.σ l) = u.fn (bump c l) := by
  funext k
  simp only [bump, Change.fn, Function.update_apply, Equiv.symm_apply_apply]
  by_cases h : k = u.σ l
  · subst h; simp
  · rw [if_neg h, if_neg (fun h' => h (by rw [← h']; simp))]

theorem newLeaf_change (u : Change K F L) (life : K) (id : Nat) (x : Fin F → K) (l : Fin L) :
    newLeaf (life / u.a) id (u.pt x) (u.σ l) = u.tree (newLeaf life id x l) := by
  show Tree.leaf id _ = Tree.leaf id _
  rw [show (fun _ : Fin L => 0) = u.fn (fun _ => 0) from rfl, bump_change]
  rfl

theorem tree_data : ∀ t : Tree K F L, (u.tree t).data = u.data t.data
  | .leaf _ _ => rfl
  | .node _ _ _ _ _ _ => rfl

theorem above_change (ha : 0 < u.a) (life : K) (f : Nat × Nat) (c : Cut K F) (t : Tree K F L) (x : Fin F → K) (l : Fin L) :
    above (life / u.a) f (u.cut c) (u.tree t) (u.pt x) (u.σ l) = u.tree (above life f c t x l) := by
  unfold above
  simp only [tree_data, newLeaf_change]
  show (if c.right = true then _ else _) = _
  have e : (u.data t.data).box.extend (u.pt x) = u.box (t.data.box.extend x) := extend_change ha _ _
  rw [e]
  split <;> rfl

theorem grow_change (ha : 0 < u.a) (p : Params K) (ω : Nat → K) (fresh : Option (Nat × Nat)) (x : Fin F → K) (l : Fin L) :
    ∀ (t : Tree K F L) (ptau : K) (pos : Nat), grow (u.par p) ω fresh (u.pt x) (u.σ l) (u.tree t) (ptau / u.a) pos =
      (grow p ω fresh x l t ptau pos).map (fun r => (u.tree r.1, r.2))
  | .leaf id d, ptau, pos => by
      simp only [Change.tree, grow]
      rw [show draw (u.par p) ω pos (u.data d).box (u.pt x) (ptau / u.a) (u.data d).tau = _ from draw_change ha p ω pos d.box x ptau d.tau]
      cases draw p ω pos d.box x ptau d.tau with
      | error e => rfl
      | ok q =>
          obtain ⟨c, pos1⟩ := q
          have leafCase : (Tree.leaf id { tau := (u.data d).tau, box := (u.data d).box.extend (u.pt x), counts := bump (u.data d).counts (u.σ l) } : Tree K F L) =
              u.tree (.leaf id { tau := d.tau, box := d.box.extend x, counts := bump d.counts l }) := by
            have e1 : (u.data d).box.extend (u.pt x) = u.box (d.box.extend x) := extend_change ha _ _
            have e2 : bump (u.data d).counts (u.σ l) = u.fn (bump d.counts l) := bump_change _ _
            rw [e1, e2]; rfl
          cases c with
          | none => simp only [Except.map, Option.map_none, both, leafCase]
          | some c =>
              cases fresh with
              | none => simp only [Except.map, Option.map_some, both, leafCase]
              | some f =>
                  simp only [Except.map, Option.map_some, both]
                  rw [← above_change ha]
                  rfl
  | .node id d dim sp tl tr, ptau, pos => by
      simp only [Change.tree, grow]
      rw [show draw (u.par p) ω pos (u.data d).box (u.pt x) (ptau / u.a) (u.data d).tau = _ from draw_change ha p ω pos d.box x ptau d.tau]
      cases draw p ω pos d.box x ptau d.tau with
      | error e => rfl
      | ok q =>
          obtain ⟨c, pos1⟩ := q
          have e1 : (u.data d).box.extend (u.pt x) = u.box (d.box.extend x) := extend_change ha _ _
          have key : both c fresh = none → (if u.pt x dim ≤ u.a * sp + u.b dim then
                match grow (u.par p) ω fresh (u.pt x) (u.σ l) (u.tree tl) (u.data d).tau pos1 with
                | .error e => .error e
                | .ok (tl, pos) => .ok (.node id { tau := (u.data d).tau, box := (u.data d).box.extend (u.pt x), counts := (u.data d).counts } dim (u.a * sp + u.b dim) tl (u.tree tr), pos)
              else
                match grow (u.par p) ω fresh (u.pt x) (u.σ l) (u.tree tr) (u.data d).tau pos1 with
                | .error e => .error e
                | .ok (tr, pos) => .ok (.node id { tau := (u.data d).tau, box := (u.data d).box.extend (u.pt x), counts := (u.data d).counts } dim (u.a * sp + u.b dim) (u.tree tl) tr, pos) :
                  Res (Tree K F L × Nat)) =
              ((if x dim ≤ sp then
                match grow p ω fresh x l tl d.tau pos1 with
                | .error e => .error e
                | .ok (l, pos) => .ok (.node id { tau := d.tau, box := d.box.extend x, counts := d.counts } dim sp l tr, pos)
              else
                match grow p ω fresh x l tr d.tau pos1 with
                | .error e => .error e
                | .ok (r, pos) => .ok (.node id { tau := d.tau, box := d.box.extend x, counts := d.counts } dim sp tl r, pos) :
                  Res (Tree K F L × Nat))).map (fun r => (u.tree r.1, r.2)) := by
            intro _
            simp only [Change.pt_le ha, e1]
            by_cases hx : x dim ≤ sp
            · simp only [if_pos hx]
              rw [show grow (u.par p) ω fresh (u.pt x) (u.σ l) (u.tree tl) (u.data d).tau pos1 = _ from grow_change ha p ω fresh x l tl d.tau pos1]
              cases grow p ω fresh x l tl d.tau pos1 with
              | error e => rfl
              | ok q => rfl
            · simp only [if_neg hx]
              rw [show grow (u.par p) ω fresh (u.pt x) (u.σ l) (u.tree tr) (u.data d).tau pos1 = _ from grow_change ha p ω fresh x l tr d.tau pos1]
              cases grow p ω fresh x l tr d.tau pos1 with
              | error e => rfl
              | ok q => rfl
          cases c with
          | none => exact key rfl
          | some c =>
              cases fresh with
              | none => exact key rfl
              | some f =>
                  simp only [Except.map, Option.map_some, both]
                  rw [← above_change ha]
                  rfl

/-! ### Scores -/

theorem sum_fn {M : Type} [AddCommMonoid M] (f : Fin L → M) : ∑ l, u.fn f l = ∑ l, f l :=
  Equiv.sum_comp u.σ.symm f

theorem meanOf_change (ha : 0 < u.a) (p : Params K) (d : Data K F L) (ptau : K) (pm : Fin L → K) :
    meanOf (u.par p) (u.data d) (ptau / u.a) (u.fn pm) = u.fn (meanOf p d ptau pm) := by
  have e1 : (u.par p).discount * ((u.data d).tau - ptau / u.a) = p.discount * (d.tau - ptau) := by
    show u.a * p.discount * (d.tau / u.a - ptau / u.a) = _
    field_simp
  have e2 : ∑ i, ((u.data d).counts i : K) = ∑ i, (d.counts i : K) := sum_fn (u := u) (fun i => (d.counts i : K))
  have e3 : ∑ i, ((Utils.min ((u.data d).counts i) 1 : Nat) : K) = ∑ i, ((Utils.min (d.counts i) 1 : Nat) : K) :=
    sum_fn (u := u) (fun i => ((Utils.min (d.counts i) 1 : Nat) : K))
  funext i
  unfold meanOf
  simp only [e1, e2, e3]
  rfl

theorem smooth_change (ha : 0 < u.a) (p : Params K) (c : Fin L → Nat) (pb dt e ns : K) (pm sm : Fin L → K) :
    smooth (u.par p) { (blank : Node K F L) with counts := u.fn c } pb (dt / u.a) (u.a * e) ns (u.fn pm) (u.fn sm) =
      (smooth p { (blank : Node K F L) with counts := c } pb dt e ns pm sm).map u.fn := by
  have e1 : u.a * e + (u.par p).discount = u.a * (e + p.discount) := by
    show u.a * e + u.a * p.discount = _
    ring
  have e2 : u.a * e * (dt / u.a) = e * dt := by field_simp
  have e3 : -(u.a * (e + p.discount)) * (dt / u.a) = -(e + p.discount) * dt := by field_simp
  have e4 : ∑ l, ((Utils.min (u.fn c l) 1 : Nat) : K) = ∑ l, ((Utils.min (c l) 1 : Nat) : K) := sum_fn (u := u) (fun i => ((Utils.min (c i) 1 : Nat) : K))
  unfold smooth
  split
  · simp only [e1, e2, e3, e4, mul_eq_zero, ha.ne', false_or, mul_div_mul_left _ _ ha.ne']
    rw [show (u.par p).exp = p.exp from rfl]
    by_cases h : e + p.discount = 0 ∨ -(p.exp (-(e * dt)) - 1) = 0 ∨ ∑ l, ((Utils.min (c l) 1 : Nat) : K) = 0
    · simp only [if_pos h]; rfl
    · simp only [if_neg h]; rfl
  · rfl

theorem scores_change (ha : 0 < u.a) (p : Params K) (x : Fin F → K) : ∀ (t : Tree K F L) (ptau ns : K) (pm sm : Fin L → K),
    scores (u.par p) (u.pt x) (u.tree t) (ptau / u.a) ns (u.fn pm) (u.fn sm) = (scores p x t ptau ns pm sm).map u.fn
  | .leaf id d, ptau, ns, pm, sm => by
      have h1 : (u.data d).tau - 0 = (d.tau - 0) / u.a := by show d.tau / u.a - 0 = _; simp
      have h2 : eta (u.data d).box (u.pt x) = u.a * eta d.box x := eta_change ha d.box x
      have h3 : -((d.tau - 0) / u.a) * (u.a * eta d.box x) = -(d.tau - 0) * eta d.box x := by field_simp
      simp only [Change.tree, scores, h1, h2, h3, meanOf_change ha]
      rw [show (u.par p).exp = p.exp from rfl, show (u.data d).counts = u.fn d.counts from rfl, smooth_change ha]
      cases smooth p { (blank : Node K F L) with counts := d.counts } (1 - p.exp (-(d.tau - 0) * eta d.box x)) (d.tau - 0) (eta d.box x) ns pm sm with
      | error e => rfl
      | ok q => rfl
  | .node id d dim sp l r, ptau, ns, pm, sm => by
      have h1 : (u.data d).tau - 0 = (d.tau - 0) / u.a := by show d.tau / u.a - 0 = _; simp
      have h2 : eta (u.data d).box (u.pt x) = u.a * eta d.box x := eta_change ha d.box x
      have h3 : -((d.tau - 0) / u.a) * (u.a * eta d.box x) = -(d.tau - 0) * eta d.box x := by field_simp
      simp only [Change.tree, scores, h1, h2, h3, meanOf_change ha]
      rw [show (u.par p).exp = p.exp from rfl, show (u.data d).counts = u.fn d.counts from rfl, smooth_change ha]
      cases smooth p { (blank : Node K F L) with counts := d.counts } (1 - p.exp (-(d.tau - 0) * eta d.box x)) (d.tau - 0) (eta d.box x) ns pm sm with
      | error e => rfl
      | ok q =>
          simp only [bind, Except.bind, Except.map, Change.pt_le ha]
          by_cases hx : x dim ≤ sp
          · simp only [if_pos hx]
            exact scores_change ha p x l d.tau _ _ _
          · simp only [if_neg hx]
            exact scores_change ha p x r d.tau _ _ _

theorem treeScores_change (ha : 0 < u.a) (p : Params K) (x : Fin F → K) : ∀ o : Option (Tree K F L),
    treeScores (u.par p) (u.pt x) (o.map u.tree) = (treeScores p x o).map u.fn
  | none => rfl
  | some t => by
      have := scores_change ha p x t 0 1 (fun _ => p.base) (fun _ => 0)
      rw [zero_div] at this
      exact this

theorem totals_change (ha : 0 < u.a) (p : Params K) (x : Fin F → K) : ∀ (ts : List (Option (Tree K F L))) (acc : Fin L → K),
    totals (u.par p) (u.pt x) (u.trees ts) (u.fn acc) = (totals p x ts acc).map u.fn
  | [], acc => rfl
  | o :: os, acc => by
      simp only [Change.trees, List.map_cons, totals, treeScores_change ha]
      cases treeScores p x o with
      | error e => rfl
      | ok q => exact totals_change ha p x os (fun k => acc k + q k)

/-! ### The trees of a forest -/

theorem tree_recount : ∀ t : Tree K F L, (u.tree t).recount = u.tree t.recount
  | .leaf _ _ => rfl
  | .node id d dim sp l r => by
      simp only [Change.tree, Tree.recount, tree_recount l, tree_recount r, tree_data]
      rfl

theorem tree_anon : ∀ t : Tree K F L, (u.tree t).anon = u.tree t.anon
  | .leaf _ _ => rfl
  | .node id d dim sp l r => by simp only [Change.tree, Tree.anon, tree_anon l, tree_anon r]

theorem tree_content (t : Tree K F L) : (u.tree t).content = u.tree t.content := by
  simp only [Tree.content, tree_recount, tree_anon]

theorem tree_ids : ∀ t : Tree K F L, (u.tree t).ids = t.ids
  | .leaf _ _ => rfl
  | .node id d dim sp l r => by simp only [Change.tree, Tree.ids, tree_ids l, tree_ids r]

theorem trees_ids (u : Change K F L) (ts : List (Option (Tree K F L))) : allIds (u.trees ts) = allIds ts := by
  induction ts with
  | nil => rfl
  | cons o os ih =>
      simp only [Change.trees, List.map_cons, allIds_cons] at ih ⊢
      rw [ih]
      cases o with
      | none => rfl
      | some t => simp only [Option.map_some, oids, tree_ids]

theorem trees_recount (ts : List (Option (Tree K F L))) : recountAll (u.trees ts) = u.trees (recountAll ts) := by
  simp only [recountAll, Change.trees, List.map_map]
  apply List.map_congr_left
  intro o _
  cases o with
  | none => rfl
  | some t => simp [tree_recount]

theorem trees_set (ts : List (Option (Tree K F L))) (i : Nat) (o : Option (Tree K F L)) : u.trees (ts.set i o) = (u.trees ts).set i (o.map u.tree) := by
  simp only [Change.trees, List.map_set]

/-- The scores of the forest, in the new names. -/
theorem totals_new (ha : 0 < u.a) (p : Params K) (x : Fin F → K) (ts ts' : List (Option (Tree K F L))) (h : SameTrees (u.trees ts) ts') :
    totals (u.par p) (u.pt x) (recountAll ts') (fun _ => 0) = (totals p x (recountAll ts) (fun _ => 0)).map u.fn := by
  rw [← totals_congr (u.par p) (u.pt x) _ _ _ h, trees_recount]
  exact totals_change ha p x (recountAll ts) (fun _ => 0)

end Orp.Mondrian
