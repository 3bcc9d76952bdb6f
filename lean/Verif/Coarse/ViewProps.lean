import Verif.Coarse.ViewRun
import Verif.Coarse.OptProps

/-!
Properties C125 – C127 of `CoarseMondrianForest`: other objects of the same type, the units and the origin of the features, and the names of the labels do not
matter.

The theorems range over every configuration (tree management, limit, way to extend, way to trim), every history of calls on a new object, every sequence of random
numbers in `[0, 1[`, every `log` and every ordered field. `p.lifetime` is not negative.
-/

namespace Orp.Coarse

set_option linter.unusedSectionVars false

open Mondrian (Node Box Forest Params Tree Data avail newLeaf allIds exω exP pt Change rescale rename)

variable {K : Type} [Field K] [LinearOrder K] [IsStrictOrderedRing K] [FloorRing K] {F L : Nat}

theorem RelR.map_eq {A B C : Type} {R : A → B → Prop} {f : A → C} {g : B → C} {r : Res A} {r' : Res B} (h : RelR R r r') (hf : ∀ a b, R a b → g b = f a) :
    r'.map g = r.map f := by
  cases r with
  | error e =>
      cases r' with
      | error e' =>
          have : e = e' := h
          rw [this]; rfl
      | ok b => exact h.elim
  | ok a =>
      cases r' with
      | error e' => exact h.elim
      | ok b => exact congrArg Except.ok (hf a b h)

theorem RelR.ok {A B : Type} {R : A → B → Prop} {r : Res A} {r' : Res B} (h : RelR R r r') {a : A} (e : r = .ok a) : ∃ b, r' = .ok b ∧ R a b := by
  subst e
  cases r' with
  | error e' => exact h.elim
  | ok b => exact ⟨b, rfl, h⟩

/-- the label is that with the most votes -/
theorem predict_ballot (c : Config K) (p : Params K) {s : State K F L} {trees : List (Option (Tree K F L))} (hI : Inv s trees) (x : Fin F → K) (use : Option Nat) :
    (predict c p s x use).map (fun r => r.2) = if trees.length < usedTrees trees.length use ∨ usedTrees trees.length use = 0 then .error .ub else
      (ballot c p s x (usedTrees trees.length use)).map (fun v => Utils.indexMax (List.ofFn (fun i => v i / (usedTrees trees.length use : K)))) := by
  obtain ⟨n1, -, -, a2, a3⟩ := predict_trees c p hI
  rw [a3, a2]
  split
  · rfl
  · cases Mondrian.totals p x ((trees.map (counted c)).take (usedTrees trees.length use)) (fun _ => 0) <;> rfl

/-- no label gets another name: the labels predicted are the same -/
theorem Couple.label {u : Change K F L} {π : Nat → Nat} (ha : 0 < u.a) (hσ : ∀ f : Fin L → K, u.fn f = f) (c : Config K) (p : Params K) {s s' : State K F L}
    {trees : List (Option (Tree K F L))} (h : Couple u π s s' trees) (x : Fin F → K) (use : Option Nat) :
    (predict c (u.par p) s' (u.pt x) use).map (fun r => r.2) = (predict c p s x use).map (fun r => r.2) := by
  rw [predict_ballot c p h.l, predict_ballot c (u.par p) h.r, seenAll_length, h.ballot ha]
  split
  · rfl
  · cases Coarse.ballot c p s x (usedTrees trees.length use) with
    | error e => rfl
    | ok v => simp only [Except.map, hσ]

/-! ### C125 -/

theorem rescale_one_pt (x : Fin F → K) : (rescale 1 (fun _ => 0) : Change K F L).pt x = x := by
  funext i
  simp [Change.pt, rescale]

theorem rescale_one_par (p : Params K) : (rescale 1 (fun _ => 0) : Change K F L).par p = p := by simp [Change.par, rescale]

theorem rescale_fn {α : Type} (a : K) (b : Fin F → K) (f : Fin L → α) : (rescale a b : Change K F L).fn f = f := rfl

theorem rescale_one_op (ops : List (Op K F L)) : ops.map (changeOp (rescale 1 (fun _ => 0))) = ops := by
  conv_rhs => rw [← List.map_id ops]
  refine List.map_congr_left fun op _ => ?_
  cases op <;> simp only [changeOp, rescale_one_pt, id] <;> rfl

theorem rescale_one_anon {π : Nat → Nat} : ∀ t : Tree K F L, (seen (rescale 1 (fun _ => 0)) π t).anon = t.anon := by
  have hb : ∀ b : Box K F, (rescale 1 (fun _ => 0) : Change K F L).box b = b := fun b => by simp only [Change.box, rescale_one_pt]
  have hd : ∀ d : Data K F L, (rescale 1 (fun _ => 0) : Change K F L).data d = d := fun d => by
    simp only [Change.data, hb, rescale_fn]
    simp [rescale]
  intro t
  induction t with
  | leaf id d => simp only [seen, Mondrian.Tree.anon, hd]
  | node id d dim sp l r ihl ihr =>
      simp only [seen, Mondrian.Tree.anon, hd, ihl, ihr]
      simp [rescale]

/-- **C125** Other objects of the same type do not matter. The objects of a type share the variable with the node that was given out last, from which the next search
starts. Take two new objects made in the same way with any values of this variable, and two histories with the same calls of member functions, between which the
variable is changed in any way (`Op.other`). Both histories end in undefined behaviour or both do not; they use the same random numbers; afterwards the same number of
nodes is available, the trees are the same up to the places of their nodes, `predict` returns the same label for every point and every number of trees, and `train`
returns the same and uses the same random numbers. -/
theorem C125_other_objects (c : Config K) (p : Params K) (hlife : 0 ≤ p.lifetime) (ω : Nat → K) (hω : ∀ i, 0 ≤ ω i ∧ ω i < 1) (maxSize sizeNode sizeBase : Nat)
    (junk : List Int) (last last' : Nat) (s0 s0' : State K F L) (h0 : new c maxSize sizeNode sizeBase junk last = .ok s0)
    (h0' : new c maxSize sizeNode sizeBase junk last' = .ok s0') (ops ops' : List (Op K F L)) (h : ops'.filter Op.own = ops.filter Op.own) (pos : Nat) :
    (run c p ω ops' s0' pos).map (fun r => r.2) = (run c p ω ops s0 pos).map (fun r => r.2) ∧
    ∀ s s' q q', run c p ω ops s0 pos = .ok (s, q) → run c p ω ops' s0' pos = .ok (s', q') → s'.free = s.free ∧
      (∃ trees trees', Inv s trees ∧ Inv s' trees' ∧ trees'.map (fun o => o.map Tree.anon) = trees.map (fun o => o.map Tree.anon)) ∧
      (∀ x use, (predict c p s' x use).map (fun r => r.2) = (predict c p s x use).map (fun r => r.2)) ∧
      ∀ x label, (train c p ω x label s' q).map (fun r => r.2) = (train c p ω x label s q).map (fun r => r.2) := by
  have key := run_seen (u := (rescale 1 (fun _ => 0) : Change K F L)) one_pos c p hlife ω hω _ ops ops' _ s0 s0' _ pos (le_refl _) (by rw [rescale_one_op, h])
    (couple_new _ h0 h0')
  rw [rescale_one_par] at key
  refine ⟨key.map_eq fun _ _ h => h.1, fun s s' q q' e e' => ?_⟩
  rw [e, e'] at key
  obtain ⟨-, π, trees, hp⟩ := key
  refine ⟨hp.free, ⟨trees, _, hp.l, hp.r, ?_⟩, fun x use => ?_, fun x label => ?_⟩
  · simp only [seenAll, List.map_map]
    refine List.map_congr_left fun o _ => ?_
    cases o with
    | none => rfl
    | some t => simp only [Function.comp, Option.map_some, rescale_one_anon]
  · have := hp.label one_pos (fun _ => rfl) c p x use
    rwa [rescale_one_par, rescale_one_pt] at this
  · have := train_seen one_pos c p hlife ω hω x label hp q
    rw [rescale_one_par, rescale_one_pt] at this
    exact this.map_eq fun _ _ h => h.1

/-- what can be seen of a forest with one feature and two labels: random numbers used, free nodes, places of the roots and the label of the point 3 -/
def look (c : Config ℚ) (last : Nat) (ops : List (Op ℚ 1 2)) : Res (Nat × Int × List (Option Nat) × Nat) := do
  let s ← new c 85 10 5 [0] last
  let (s, q) ← run c exP (exω []) ops s 0
  let (s, l) ← predict c exP s (pt 3) none
  return (q, s.free, s.forest.roots, l)

/-- the same calls and another object that has taken node 4 or 6 between them: the root is at another place -/
example : look (cfg .phoenix 0 .original .count) 0 (exOps ++ [.trim]) = .ok (13, 3, [some 1], 1) ∧
    look (cfg .phoenix 0 .original .count) 5 ([.other 4, .train (pt 0) 0, .other 6, .train (pt 1) 1, .train (pt 3) 1, .train (pt 2) 1, .trim]) =
      .ok (13, 3, [some 6], 1) := by decide +kernel

/-! ### C126 -/

/-- **C126** The choice of the units and of the origin does not matter: if every feature value `v` of feature `i` is replaced by `a · v + b i`, with one factor
`a > 0` for all features, and `lifetime` is divided by `a` and `discount` multiplied by `a`, then the same random numbers are used, `train` returns the same, the same
number of nodes is available and the same labels are predicted. -/
theorem C126_units (a : K) (ha : 0 < a) (b : Fin F → K) (c : Config K) (p : Params K) (hlife : 0 ≤ p.lifetime) (ω : Nat → K) (hω : ∀ i, 0 ≤ ω i ∧ ω i < 1)
    (maxSize sizeNode sizeBase : Nat) (junk : List Int) (last : Nat) (s0 : State K F L) (h0 : new c maxSize sizeNode sizeBase junk last = .ok s0)
    (ops : List (Op K F L)) (pos : Nat) :
    (run c { p with lifetime := p.lifetime / a, discount := a * p.discount } ω (ops.map (changeOp (rescale a b))) s0 pos).map (fun r => r.2) =
      (run c p ω ops s0 pos).map (fun r => r.2) ∧
    ∀ s s' q q', run c p ω ops s0 pos = .ok (s, q) →
      run c { p with lifetime := p.lifetime / a, discount := a * p.discount } ω (ops.map (changeOp (rescale a b))) s0 pos = .ok (s', q') → s'.free = s.free ∧
      (∀ (x : Fin F → K) use, (predict c { p with lifetime := p.lifetime / a, discount := a * p.discount } s' (fun i => a * x i + b i) use).map (fun r => r.2) =
        (predict c p s x use).map (fun r => r.2)) ∧
      ∀ (x : Fin F → K) label, (train c { p with lifetime := p.lifetime / a, discount := a * p.discount } ω (fun i => a * x i + b i) label s' q).map (fun r => r.2) =
        (train c p ω x label s q).map (fun r => r.2) := by
  have hu : 0 < (rescale a b : Change K F L).a := ha
  have key := run_seen (u := (rescale a b : Change K F L)) hu c p hlife ω hω _ ops (ops.map (changeOp (rescale a b))) _ s0 s0 _ pos (le_refl _) (by
    rw [List.filter_map]
    congr 1
    refine List.filter_congr fun op _ => ?_
    cases op <;> rfl) (couple_new _ h0 h0)
  refine ⟨key.map_eq fun _ _ h => h.1, fun s s' q q' e e' => ?_⟩
  obtain ⟨r', e1, e2, π, trees, hp⟩ := key.ok e
  have e3 := e'.symm.trans e1
  cases e3
  refine ⟨hp.free, fun x use => hp.label hu (fun _ => rfl) c p x use, fun x label => ?_⟩
  exact (train_seen hu c p hlife ω hω x label hp q).map_eq fun _ _ h => h.1

/-- three units of the old scale are one of the new one and the origin is moved by 5 -/
example : (do
    let s : State ℚ 1 2 ← new (cfg .phoenix 0 .original .count) 85 10 5 [0] 0
    let (s, q) ← run (cfg .phoenix 0 .original .count) { exP with lifetime := exP.lifetime / 3, discount := 3 * exP.discount } (exω [])
      ((exOps ++ [Op.trim]).map (changeOp (rescale 3 (fun _ => 5)))) s 0
    return (q, s.free, s.forest.nodes.map (fun n => n.tau)) : Res (Nat × Int × List ℚ)) = .ok (13, 3, [10 / 3, 1 / 6, 10 / 3, -1, -1, 1 / 3, 10 / 3, -1]) := by
  decide +kernel

/-- two features with different factors: the random choice of the dimension depends on them, and one common factor is needed -/
theorem C126_one_factor : ∃ (c : Config ℚ) (p : Params ℚ) (ω : Nat → ℚ) (ops ops' : List (Op ℚ 2 2)) (l l' : Nat), (∀ i, 0 ≤ ω i ∧ ω i < 1) ∧
    ops = [.train ![0, 0] 0, .train ![1, 4] 1] ∧ ops' = [.train ![0, 0] 0, .train ![9, 4] 1] ∧ l ≠ l' ∧
    (do let s ← new c 85 10 5 [0] 0
        let (s, _) ← run c p ω ops s 0
        let (_, l) ← predict c p s ![0, 4] none
        return l : Res Nat) = .ok l ∧
    (do let s ← new c 85 10 5 [0] 0
        let (s, _) ← run c p ω ops' s 0
        let (_, l) ← predict c p s ![0, 4] none
        return l : Res Nat) = .ok l' := by
  refine ⟨cfg .phoenix 0 .original .none, exP, exω [], _, _, 0, 1, Mondrian.exω_range [], rfl, rfl, by decide, ?_, ?_⟩
  · decide +kernel
  · decide +kernel

/-! ### C127 -/

/-- the call with the labels renamed -/
def renamedOp (σ : Equiv.Perm (Fin L)) : Op K F L → Op K F L
  | .train x label => .train x (σ label)
  | op => op

theorem rename_changeOp (σ : Equiv.Perm (Fin L)) : (changeOp (rename σ) : Op K F L → Op K F L) = renamedOp σ := by
  funext op
  cases op <;> simp only [changeOp, renamedOp, Mondrian.rename_pt] <;> rfl

/-- **C127** The labels of all training points are renamed by a permutation: the same random numbers are used, `train` returns the same, the same number of nodes is
available, and every label gets the same votes under its new name. -/
theorem C127_votes (σ : Equiv.Perm (Fin L)) (c : Config K) (p : Params K) (hlife : 0 ≤ p.lifetime) (ω : Nat → K) (hω : ∀ i, 0 ≤ ω i ∧ ω i < 1)
    (maxSize sizeNode sizeBase : Nat) (junk : List Int) (last : Nat) (s0 : State K F L) (h0 : new c maxSize sizeNode sizeBase junk last = .ok s0)
    (ops : List (Op K F L)) (pos : Nat) :
    (run c p ω (ops.map (renamedOp σ)) s0 pos).map (fun r => r.2) = (run c p ω ops s0 pos).map (fun r => r.2) ∧
    ∀ s s' q q', run c p ω ops s0 pos = .ok (s, q) → run c p ω (ops.map (renamedOp σ)) s0 pos = .ok (s', q') → s'.free = s.free ∧
      s'.forest.roots.length = s.forest.roots.length ∧ (∀ x k, ballot c p s' x k = (ballot c p s x k).map (fun v l => v (σ.symm l))) ∧
      ∀ x label, (train c p ω x (σ label) s' q).map (fun r => r.2) = (train c p ω x label s q).map (fun r => r.2) := by
  have hu : 0 < (rename σ : Change K F L).a := one_pos
  have key := run_seen (u := (rename σ : Change K F L)) hu c p hlife ω hω _ ops (ops.map (renamedOp σ)) _ s0 s0 _ pos (le_refl _) (by
    rw [List.filter_map, rename_changeOp]
    congr 1
    refine List.filter_congr fun op _ => ?_
    cases op <;> rfl) (couple_new _ h0 h0)
  rw [Mondrian.rename_par] at key
  refine ⟨key.map_eq fun _ _ h => h.1, fun s s' q q' e e' => ?_⟩
  rw [e, e'] at key
  obtain ⟨-, π, trees, hp⟩ := key
  refine ⟨hp.free, by rw [hp.roots.1, hp.roots.2], fun x k => ?_, fun x label => ?_⟩
  · have := hp.ballot hu c p x k
    rwa [Mondrian.rename_par, Mondrian.rename_pt] at this
  · have := train_seen hu c p hlife ω hω x label hp q
    rw [Mondrian.rename_par, Mondrian.rename_pt] at this
    exact this.map_eq fun _ _ h => h.1

/-- **C127** (partial) The names of the labels do not matter: if the labels of all training points are renamed by a permutation, then, wherever one label has more votes
than every other label, that label under its new name is predicted. Missing: ties, see `C127_ties`. -/
theorem C127_rename_partial (σ : Equiv.Perm (Fin L)) (c : Config K) (p : Params K) (hlife : 0 ≤ p.lifetime) (ω : Nat → K) (hω : ∀ i, 0 ≤ ω i ∧ ω i < 1)
    (maxSize sizeNode sizeBase : Nat) (junk : List Int) (last : Nat) (s0 : State K F L) (h0 : new c maxSize sizeNode sizeBase junk last = .ok s0)
    (ops : List (Op K F L)) (pos : Nat) (s s' : State K F L) (q q' : Nat) (e : run c p ω ops s0 pos = .ok (s, q))
    (e' : run c p ω (ops.map (renamedOp σ)) s0 pos = .ok (s', q')) (x : Fin F → K) (k : Nat) (hk : 1 ≤ k) (hk' : k ≤ s.forest.roots.length) (v : Fin L → K) (l : Fin L)
    (hv : ballot c p s x k = .ok v) (hl : ∀ j, j ≠ l → v j < v l) :
    (predict c p s x (some k)).map (fun r => r.2) = .ok l.val ∧ (predict c p s' x (some k)).map (fun r => r.2) = .ok (σ l).val := by
  obtain ⟨-, hn, hb, -⟩ := (C127_votes σ c p hlife ω hω maxSize sizeNode sizeBase junk last s0 h0 ops pos).2 s s' q q' e e'
  have hb := hb x k
  have hk0 : (0 : K) < (k : K) := by exact_mod_cast hk
  have hrl : ∀ (ops : List (Op K F L)) (s : State K F L) (q : Nat), run c p ω ops s0 pos = .ok (s, q) → ∃ trees, Inv s trees ∧ trees.length = s.forest.roots.length := by
    intro ops s q e
    have key := run_seen (u := (rescale 1 (fun _ => 0) : Change K F L)) one_pos c p hlife ω hω _ ops ops _ s0 s0 _ pos (le_refl _) (by rw [rescale_one_op])
      (couple_new _ h0 h0)
    obtain ⟨_, -, -, π, trees, hp⟩ := key.ok e
    exact ⟨trees, hp.l, hp.roots.1.symm⟩
  obtain ⟨trees, hI, h1⟩ := hrl ops s q e
  obtain ⟨trees', hI', h1'⟩ := hrl _ s' q' e'
  rw [predict_ballot c p hI, predict_ballot c p hI']
  simp only [usedTrees, h1, h1', hn, if_neg (show ¬ (s.forest.roots.length < k ∨ k = 0) by omega), hb, hv, Except.map]
  refine ⟨congrArg Except.ok ?_, congrArg Except.ok (Mondrian.winner_renamed σ hl hk0)⟩
  have := Mondrian.winner_renamed (Equiv.refl _) hl hk0
  simpa using this

/-- **C127** (violation) The same point with both labels: both have the same votes, and the first label is predicted, whatever the labels are called. -/
theorem C127_ties : ∃ (σ : Equiv.Perm (Fin 2)) (c : Config ℚ) (ops : List (Op ℚ 1 2)), σ 0 = 1 ∧
    look c 0 ops = .ok (0, 7, [some 0], 0) ∧ look c 0 (ops.map (renamedOp σ)) = .ok (0, 7, [some 0], 0) :=
  ⟨Equiv.swap 0 1, cfg .phoenix 0 .original .none, [.train (pt 0) 0, .train (pt 0) 1], by decide, by decide +kernel, by decide +kernel⟩

/-- the two labels exchanged: the other label is predicted -/
example : look (cfg .phoenix 0 .original .count) 0 ((exOps ++ [Op.trim]).map (renamedOp (Equiv.swap 0 1))) = .ok (13, 3, [some 1], 0) := by decide +kernel

end Orp.Coarse
