import Verif.Mondrian.Run

/-!
Trees that differ only in the places of their nodes and in the counters of split nodes grow in the same way and give the same predictions.
-/

namespace Orp.Mondrian

set_option linter.unusedSectionVars false

variable {K : Type} [Field K] [LinearOrder K] [IsStrictOrderedRing K] [FloorRing K] {F L : Nat}

theorem anon_data : ∀ t : Tree K F L, t.anon.data = t.data
  | .leaf _ _ => rfl
  | .node _ _ _ _ _ _ => rfl

theorem anon_length : ∀ t : Tree K F L, t.anon.ids.length = t.ids.length
  | .leaf _ _ => rfl
  | .node _ _ _ _ l r => by simp [Tree.anon, Tree.ids, anon_length l, anon_length r]

theorem content_length (t : Tree K F L) : t.content.ids.length = t.ids.length := by rw [Tree.content, anon_length, recount_ids]

theorem content_node (id : Nat) (d : Data K F L) (dim : Fin F) (sp : K) (l r : Tree K F L) : (Tree.node id d dim sp l r).content =
    .node 0 { tau := d.tau, box := d.box, counts := fun i => min 1 (l.content.data.counts i) + min 1 (r.content.data.counts i) } dim sp l.content r.content := by
  simp only [Tree.content, Tree.recount, Tree.anon, anon_data]

theorem content_leaf (id : Nat) (d : Data K F L) : (Tree.leaf id d).content = .leaf 0 d := rfl

theorem content_content : ∀ t : Tree K F L, t.content.content = t.content
  | .leaf _ _ => rfl
  | .node _ _ _ _ l r => by rw [content_node, content_node, content_content l, content_content r]

theorem content_recount (t : Tree K F L) : t.recount.content = t.content := by rw [Tree.content, recount_recount]; rfl

theorem above_content {lifetime : K} {f g : Nat × Nat} {c : Cut K F} {t u : Tree K F L} {x : Fin F → K} {label : Fin L} (h : t.content = u.content)
    (hb : t.data.box = u.data.box) : (above lifetime f c t x label).content = (above lifetime g c u x label).content := by
  unfold above
  simp only
  cases c.right
  · simp only [Bool.false_eq_true, if_false, content_node, h, hb, newLeaf, content_leaf]
  · simp only [if_true, content_node, h, hb, newLeaf, content_leaf]

theorem grow_content (p : Params K) (ω : Nat → K) (x : Fin F → K) (label : Fin L) {fresh fresh' : Option (Nat × Nat)} (hf : fresh.isSome = fresh'.isSome) :
    ∀ (t u : Tree K F L) (ptau : K) (pos : Nat), t.content = u.content →
      (grow p ω fresh x label t ptau pos).map (fun r => (r.1.content, r.2)) = (grow p ω fresh' x label u ptau pos).map (fun r => (r.1.content, r.2))
  | .leaf id d, .node _ _ _ _ _ _, ptau, pos, h => by rw [content_node, content_leaf] at h; cases h
  | .node id d dim sp l r, .leaf _ _, ptau, pos, h => by rw [content_node, content_leaf] at h; cases h
  | .leaf id d, .leaf id' d', ptau, pos, h => by
      rw [content_leaf, content_leaf] at h
      cases h
      unfold grow
      cases draw p ω pos d.box x ptau d.tau with
      | error e => rfl
      | ok q =>
          obtain ⟨c, pos1⟩ := q
          cases c with
          | none => rfl
          | some c =>
              cases fresh <;> cases fresh' <;> simp only [Option.isSome_none, Option.isSome_some, Bool.false_eq_true, Bool.true_eq_false] at hf
              · rfl
              · simp only [both, Except.map]
                rw [above_content (t := .leaf id d) (u := .leaf id' d) rfl rfl]
  | .node id d dim sp l r, .node id' d' dim' sp' l' r', ptau, pos, h => by
      have h' := h
      rw [content_node, content_node] at h
      simp only [Tree.node.injEq, true_and, Data.mk.injEq] at h
      obtain ⟨⟨h1, h2, h3⟩, rfl, rfl, h4, h5⟩ := h
      unfold grow
      rw [← h1, ← h2]
      cases draw p ω pos d.box x ptau d.tau with
      | error e => rfl
      | ok q =>
          obtain ⟨c, pos1⟩ := q
          have key : both c fresh = none → both c fresh' = none →
              ((if x dim ≤ sp then
                match grow p ω fresh x label l d.tau pos1 with
                | .error e => .error e
                | .ok (l, pos) => .ok (.node id { tau := d.tau, box := d.box.extend x, counts := d.counts } dim sp l r, pos)
              else
                match grow p ω fresh x label r d.tau pos1 with
                | .error e => .error e
                | .ok (r, pos) => .ok (.node id { tau := d.tau, box := d.box.extend x, counts := d.counts } dim sp l r, pos) :
                  Res (Tree K F L × Nat))).map (fun r => (r.1.content, r.2)) =
              ((if x dim ≤ sp then
                match grow p ω fresh' x label l' d.tau pos1 with
                | .error e => .error e
                | .ok (l, pos) => .ok (.node id' { tau := d.tau, box := d.box.extend x, counts := d'.counts } dim sp l r', pos)
              else
                match grow p ω fresh' x label r' d.tau pos1 with
                | .error e => .error e
                | .ok (r, pos) => .ok (.node id' { tau := d.tau, box := d.box.extend x, counts := d'.counts } dim sp l' r, pos) :
                  Res (Tree K F L × Nat))).map (fun r => (r.1.content, r.2)) := by
            intro _ _
            by_cases hx : x dim ≤ sp
            · rw [if_pos hx, if_pos hx]
              have ih := grow_content p ω x label hf l l' d.tau pos1 h4
              cases hg : grow p ω fresh x label l d.tau pos1 with
              | error e =>
                  rw [hg] at ih
                  cases hg' : grow p ω fresh' x label l' d.tau pos1 with
                  | error e' => rw [hg'] at ih; cases ih; rfl
                  | ok q' => rw [hg'] at ih; cases ih
              | ok q =>
                  rw [hg] at ih
                  cases hg' : grow p ω fresh' x label l' d.tau pos1 with
                  | error e' => rw [hg'] at ih; cases ih
                  | ok q' =>
                      rw [hg'] at ih
                      simp only [Except.map, Except.ok.injEq, Prod.mk.injEq] at ih ⊢
                      refine ⟨?_, ih.2⟩
                      rw [content_node, content_node, ih.1, h5]
            · rw [if_neg hx, if_neg hx]
              have ih := grow_content p ω x label hf r r' d.tau pos1 h5
              cases hg : grow p ω fresh x label r d.tau pos1 with
              | error e =>
                  rw [hg] at ih
                  cases hg' : grow p ω fresh' x label r' d.tau pos1 with
                  | error e' => rw [hg'] at ih; cases ih; rfl
                  | ok q' => rw [hg'] at ih; cases ih
              | ok q =>
                  rw [hg] at ih
                  cases hg' : grow p ω fresh' x label r' d.tau pos1 with
                  | error e' => rw [hg'] at ih; cases ih
                  | ok q' =>
                      rw [hg'] at ih
                      simp only [Except.map, Except.ok.injEq, Prod.mk.injEq] at ih ⊢
                      refine ⟨?_, ih.2⟩
                      rw [content_node, content_node, ih.1, h4]
          cases c with
          | none => exact key rfl rfl
          | some c =>
              cases hfr : fresh <;> cases hfr' : fresh' <;>
                simp only [hfr, hfr', Option.isSome_none, Option.isSome_some, Bool.false_eq_true, Bool.true_eq_false] at hf
              · subst hfr hfr'; exact key rfl rfl
              · simp only [both, Except.map]
                rw [above_content (t := .node id d dim sp l r) (u := .node id' d' dim sp l' r') h' h2]

/-- If the tree did not get new nodes, it would have grown in the same way without memory. -/
theorem grow_none (p : Params K) (ω : Nat → K) (x : Fin F → K) (label : Fin L) (f : Nat × Nat) :
    ∀ (t : Tree K F L) (ptau : K) (pos : Nat) (t' : Tree K F L) (pos' : Nat), grow p ω (some f) x label t ptau pos = .ok (t', pos') →
      (t'.ids.length = t.ids.length ∧ grow p ω none x label t ptau pos = .ok (t', pos')) ∨ t'.ids.length = t.ids.length + 2 := by
  intro t ptau pos t' pos' h
  have hg := grow_grows p ω (some f) x label t ptau pos t' pos' h
  clear h
  obtain ⟨fr, hfr⟩ : ∃ fr, fr = some f := ⟨_, rfl⟩
  rw [← hfr] at hg
  have bn : ∀ c : Option (Cut K F), both c fr = none → c = none := by
    intro c hc
    rw [hfr] at hc
    cases c
    · rfl
    · cases hc
  induction hg with
  | above hd hf => exact Or.inr (above_ids p.lifetime _ _ _ x label).length_eq
  | leaf hd hf =>
      left
      have := bn _ hf
      subst this
      exact ⟨rfl, by simp only [grow, hd, both]⟩
  | left hd hf hx hg ih =>
      have := bn _ hf
      subst this
      rcases ih with ⟨h1, h2⟩ | h1
      · left
        exact ⟨by simp [Tree.ids, h1], by simp only [grow, hd, both, if_pos hx, h2]⟩
      · right; simp only [Tree.ids, List.length_cons, List.length_append, h1]; omega
  | right hd hf hx hg ih =>
      have := bn _ hf
      subst this
      rcases ih with ⟨h1, h2⟩ | h1
      · left
        exact ⟨by simp [Tree.ids, h1], by simp only [grow, hd, both, if_neg hx, h2]⟩
      · right; simp only [Tree.ids, List.length_cons, List.length_append, h1]; omega

/-! ### Predictions -/

theorem scores_anon (p : Params K) (x : Fin F → K) : ∀ (t : Tree K F L) (ptau ns : K) (pm sm : Fin L → K),
    scores p x t.anon ptau ns pm sm = scores p x t ptau ns pm sm
  | .leaf _ d, ptau, ns, pm, sm => rfl
  | .node _ d dim sp l r, ptau, ns, pm, sm => by
      simp only [Tree.anon, scores, scores_anon p x l, scores_anon p x r]

theorem SameTrees.length {a b : List (Option (Tree K F L))} (h : SameTrees a b) : a.length = b.length := by
  have := congrArg List.length h
  simpa using this

theorem totals_congr (p : Params K) (x : Fin F → K) : ∀ (a b : List (Option (Tree K F L))) (acc : Fin L → K), SameTrees a b →
    totals p x (recountAll a) acc = totals p x (recountAll b) acc
  | [], [], acc, _ => rfl
  | [], _ :: _, acc, h => by cases h
  | _ :: _, [], acc, h => by cases h
  | o :: os, u :: us, acc, h => by
      simp only [SameTrees, List.map_cons, List.cons.injEq] at h
      obtain ⟨h1, h2⟩ := h
      have e : treeScores p x (o.map Tree.recount) = treeScores p x (u.map Tree.recount) := by
        cases o <;> cases u <;> simp only [Option.map_none, Option.map_some, reduceCtorEq, Option.some.injEq] at h1 ⊢
        simp only [treeScores]
        rw [← scores_anon, show Tree.anon (Tree.recount _) = _ from h1, ← scores_anon (t := Tree.recount _)]
        rfl
      simp only [recountAll, List.map_cons, totals, e]
      cases treeScores p x (u.map Tree.recount) with
      | error e => rfl
      | ok q => exact totals_congr p x os us _ h2

/-- The prediction depends on the content of the trees only. -/
theorem label_congr (p : Params K) (x : Fin F → K) {a b : List (Option (Tree K F L))} (h : SameTrees a b) :
    label p x (recountAll a) = label p x (recountAll b) := by
  unfold label
  rw [totals_congr p x a b _ h]
  simp only [recountAll, List.length_map, h.length]

theorem SameTrees.refl (a : List (Option (Tree K F L))) : SameTrees a a := rfl

theorem SameTrees.symm {a b : List (Option (Tree K F L))} (h : SameTrees a b) : SameTrees b a := Eq.symm h

theorem SameTrees.trans {a b c : List (Option (Tree K F L))} (h : SameTrees a b) (h' : SameTrees b c) : SameTrees a c := Eq.trans h h'

theorem SameTrees.recount (a : List (Option (Tree K F L))) : SameTrees a (recountAll a) := by
  simp only [SameTrees, recountAll, List.map_map]
  apply List.map_congr_left
  intro o _
  cases o with
  | none => rfl
  | some t => simp [content_recount]

theorem SameTrees.get {a b : List (Option (Tree K F L))} (h : SameTrees a b) {i : Nat} {o : Option (Tree K F L)} (hi : a[i]? = some o) :
    ∃ u, b[i]? = some u ∧ o.map Tree.content = u.map Tree.content := by
  have := congrArg (fun l => l[i]?) h
  simp only [List.getElem?_map, hi, Option.map_some] at this
  cases hb : b[i]? with
  | none => rw [hb] at this; cases this
  | some u => rw [hb] at this; exact ⟨u, rfl, by simpa using this⟩

theorem SameTrees.set {a b : List (Option (Tree K F L))} (h : SameTrees a b) (i : Nat) {o u : Option (Tree K F L)}
    (hu : o.map Tree.content = u.map Tree.content) : SameTrees (a.set i o) (b.set i u) := by
  simp only [SameTrees, List.map_set] at h ⊢
  rw [h, hu]

theorem SameTrees.ids_length {a b : List (Option (Tree K F L))} (h : SameTrees a b) : (allIds a).length = (allIds b).length := by
  induction a generalizing b with
  | nil => cases b with
    | nil => rfl
    | cons u us => cases h
  | cons o os ih => cases b with
    | nil => cases h
    | cons u us =>
        simp only [SameTrees, List.map_cons, List.cons.injEq] at h
        rw [allIds_cons, allIds_cons, List.length_append, List.length_append, ih h.2]
        congr 1
        have h1 := h.1
        cases o with
        | none => cases u with
          | none => rfl
          | some u => cases h1
        | some t => cases u with
          | none => cases h1
          | some u =>
              have := congrArg (fun t => (Tree.ids t).length) (Option.some.inj h1)
              simpa [content_length, oids] using this

end Orp.Mondrian
