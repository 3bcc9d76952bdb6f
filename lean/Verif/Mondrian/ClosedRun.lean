import Verif.Mondrian.Closed

/-!
C163: any history of training and predictions of `MondrianForest` with a random function that can also return 1.
-/

set_option linter.unusedSectionVars false

namespace Orp.Mondrian

variable {K : Type} [Field K] [LinearOrder K] [IsStrictOrderedRing K] [FloorRing K] {F L : Nat}

/-- every leaf has counted a point -/
def Fed : Tree K F L → Prop
  | .leaf _ d => ∃ l, 0 < d.counts l
  | .node _ _ _ _ l r => Fed l ∧ Fed r

theorem Fed.positive : ∀ {t : Tree K F L}, Fed t → Positive t.recount
  | .leaf _ _, h => h
  | .node _ _ _ _ l r, h => by
      have hl := Fed.positive h.1
      have hr := Fed.positive h.2
      obtain ⟨i, hi⟩ := hl.root
      refine ⟨⟨i, ?_⟩, hl, hr⟩
      show 0 < min 1 (l.recount.data.counts i) + min 1 (r.recount.data.counts i)
      have : min 1 (l.recount.data.counts i) = 1 := by omega
      omega

theorem Fed.recount : ∀ {t : Tree K F L}, Fed t → Fed t.recount
  | .leaf _ _, h => h
  | .node _ _ _ _ _ _, h => ⟨h.1.recount, h.2.recount⟩

theorem newLeaf_fed (life : K) (id : Nat) (x : Fin F → K) (label : Fin L) : Fed (newLeaf life id x label) :=
  ⟨label, by simp [bump]⟩

theorem above_fed (life : K) (f : Nat × Nat) (c : Cut K F) {t : Tree K F L} (h : Fed t) (x : Fin F → K) (label : Fin L) :
    Fed (above life f c t x label) := by
  unfold above
  dsimp only
  split
  · exact ⟨h, newLeaf_fed _ _ _ _⟩
  · exact ⟨newLeaf_fed _ _ _ _, h⟩

theorem GrowsWith.fed {p : Params K} {D : Chooser K F} {fresh : Option (Nat × Nat)} {x : Fin F → K} {label : Fin L} {t t' : Tree K F L} {ptau : K} {pos pos' : Nat}
    (h : GrowsWith p D fresh x label t ptau pos t' pos') : Fed t → Fed t' := by
  induction h with
  | above hc hf => exact fun ht => above_fed _ _ _ ht _ _
  | leaf hd hf => exact fun _ => ⟨label, by simp [bump]⟩
  | left hd hf hx hg ih => exact fun ht => ⟨ih ht.1, ht.2⟩
  | right hd hf hx hg ih => exact fun ht => ⟨ht.1, ih ht.2⟩

/-- what is true of a tree whatever the random numbers are -/
def Steady (life : K) : Option (Tree K F L) → Prop
  | none => True
  | some t => Fed t ∧ Times (· ≤ ·) life 0 t

theorem StepWith.steady {p : Params K} {ω : Nat → K} {z : Point K F L} {o o' : Option (Tree K F L)} (h : StepWith p (draw p ω) z o o') (ho : Steady p.lifetime o)
    (hQ : ∀ t : Tree K F L, t.All (fun _ => True) (fun _ => True)) : Steady p.lifetime o' := by
  cases o with
  | none =>
      obtain ⟨id, rfl⟩ := h
      exact ⟨newLeaf_fed _ _ _ _, rfl⟩
  | some t =>
      obtain ⟨fresh, pos, t', pos', hg, rfl⟩ := h
      exact ⟨hg.fed ho.1, hg.times (draw_fair_any p ω z.1) trivial (hQ t) ho.2⟩

theorem all_true : ∀ t : Tree K F L, t.All (fun _ => True) (fun _ => True)
  | .leaf _ _ => ⟨trivial, trivial⟩
  | .node _ _ _ _ l r => ⟨trivial, trivial, all_true l, all_true r⟩

theorem run_closed (p : Params K) (hlife : 0 ≤ p.lifetime) (h0 : p.exp 0 = 1) (hdisc : 0 ≤ p.discount) (ω : Nat → K) (hω : ∀ i, 0 < ω i ∧ ω i ≤ 1)
    (m n : Nat) (hn : 0 < n) (hmn : n ≤ m) (ops : List (Op K F L)) (pos : Nat) :
    ∃ s pos' trees lost, run p ω ops (new m n) pos = .ok (s, pos') ∧ Inv s trees lost ∧ trees.length = n ∧ s.nodes.length = m ∧ (∀ o ∈ trees, Steady p.lifetime o) ∧
      (points ops = [] → avail s.nodes = List.range m ∧ ∀ o ∈ trees, o = none) ∧ (points ops ≠ [] → ∀ o ∈ trees, o ≠ none) := by
  induction ops using List.reverseRecOn with
  | nil => exact ⟨_, _, _, [], rfl, inv_new m n, by simp, by simp [new], fun o ho => by rw [List.eq_of_mem_replicate ho]; trivial,
      fun _ => ⟨avail_new m n, fun o ho => List.eq_of_mem_replicate ho⟩, fun h => absurd rfl h⟩
  | append_singleton ops op ih =>
      obtain ⟨s, pos1, trees, lost, hq, a1, a2, a3, a4, a5, a6⟩ := ih
      have hroots : s.roots.length = trees.length := by rw [a1.all.roots, List.length_map]
      rw [run_snoc, hq]
      simp only [Except.bind]
      cases op with
      | train x l =>
          have hE : Enough s trees 0 s.roots.length := by
            by_cases hz : points ops = []
            · refine Or.inr ⟨?_, fun j o hj _ => (a5 hz).2 o (List.mem_of_getElem? hj), fun j o _ h => absurd h (Nat.not_lt_zero _)⟩
              rw [(a5 hz).1, List.length_range, hroots, a2]; exact hmn
            · exact Or.inl (a6 hz)
          have hAll : AllTrees (fun _ => True) (fun _ => True) trees := fun t _ => all_true t
          obtain ⟨u, hu⟩ := trainLoopWith_ok p hlife (draw p ω) x l (draw_fair_any p ω x) (draw_closed p ω hω x) s.roots.length 0 s trees lost pos1 none
            (by omega) a1 hAll hE
          obtain ⟨trees', lost', b1, -, b2, -, b4, b5⟩ := trainLoopWith_spec p hlife (draw p ω) x l (draw_fair_any p ω x) s.roots.length 0 s trees lost pos1 none u
            (by omega) a1 hAll hu
          have step : ∀ o' ∈ trees', ∃ o ∈ trees, StepWith p (draw p ω) (x, l) o o' := by
            intro o' ho'
            obtain ⟨j, hj⟩ := List.mem_iff_getElem?.1 ho'
            have hjlt : j < trees.length := by rw [← b4]; exact lt_of_get hj
            obtain ⟨o'', c1, -, c3⟩ := b5 j _ (List.getElem?_eq_getElem hjlt)
            rw [hj] at c1
            have := Option.some.inj c1
            subst this
            exact ⟨_, List.getElem_mem hjlt, c3 (Nat.zero_le _)⟩
          rw [trainLoopWith_draw] at hu
          refine ⟨u.1, u.2.1, trees', lost', ?_, b1, b4.trans a2, b2.trans a3, fun o ho => ?_, fun h => ?_, fun _ o ho => ?_⟩
          · simp only [exec, bind, Except.bind, train, hu, pure, Except.pure]
          · obtain ⟨o1, h1, h2⟩ := step o ho
            exact h2.steady (a4 o1 h1) all_true
          · rw [points_append] at h; simp [points] at h
          · obtain ⟨o1, h1, h2⟩ := step o ho
            exact h2.ne_none
      | predict x =>
          obtain ⟨nodes', b1, b2, -, b4⟩ := a1.predict_eq p
          obtain ⟨u, hu⟩ := label_ok p h0 hdisc x (recountAll trees) (by rw [recountAll, List.length_map]; omega) (fun t ht => by
            obtain ⟨o, ho, e⟩ := List.mem_map.1 ht
            cases o with
            | none => cases e
            | some t0 =>
                have := Option.some.inj e
                subst this
                exact (a4 _ ho).1.positive)
          have hp : points (ops ++ [Op.predict x]) = points ops := by rw [points_append]; simp [points]
          refine ⟨{ s with nodes := nodes' }, pos1, recountAll trees, lost, ?_, b1, by rw [recountAll, List.length_map]; exact a2, b2.1.trans a3, fun o ho => ?_, fun h => ?_, fun h o ho => ?_⟩
          · simp only [exec, bind, Except.bind, b4, hu, Except.map, pure, Except.pure]
          · obtain ⟨o1, h1, rfl⟩ := List.mem_map.1 ho
            cases o1 with
            | none => trivial
            | some t => exact ⟨(a4 _ h1).1.recount, recount_times (a4 _ h1).2⟩
          · rw [hp] at h
            refine ⟨b2.avail.trans (a5 h).1, fun o ho => ?_⟩
            obtain ⟨o1, h1, rfl⟩ := List.mem_map.1 ho
            rw [(a5 h).2 o1 h1]; rfl
          · rw [hp] at h
            obtain ⟨o1, h1, rfl⟩ := List.mem_map.1 ho
            cases o1 with
            | none => exact absurd rfl (a6 h _ h1)
            | some t => simp

/-- **C163** With random numbers that are positive and at most 1, no history of training and predictions of a forest that has a node for each tree has undefined
behaviour: the trees are binary trees over distinct nodes of the pool, split times are between 0 and `lifetime` and do not decrease on the way down, and `predict`
returns a label in range. -/
theorem C163_mondrian_history (p : Params K) (hlife : 0 ≤ p.lifetime) (h0 : p.exp 0 = 1) (hdisc : 0 ≤ p.discount) (ω : Nat → K) (hω : ∀ i, 0 < ω i ∧ ω i ≤ 1)
    (hL : 0 < L) (m n : Nat) (hn : 0 < n) (hmn : n ≤ m) (ops : List (Op K F L)) (pos : Nat) :
    ∃ (s : Forest K F L) (pos' : Nat) (trees : List (Option (Tree K F L))), run p ω ops (new m n) pos = .ok (s, pos') ∧ trees.length = n ∧ HoldsAll s trees ∧
      (∀ i ∈ allIds trees, i < m) ∧ (∀ t, some t ∈ trees → Times (· ≤ ·) p.lifetime 0 t) ∧
      ∀ x, ∃ (s' : Forest K F L) (l : Nat), l < L ∧ predict p s x = .ok (s', l) := by
  obtain ⟨s, pos', trees, lost, h1, a1, a2, a3, a4, -⟩ := run_closed p hlife h0 hdisc ω hω m n hn hmn ops pos
  refine ⟨s, pos', trees, h1, a2, a1.all, fun i hi => a3 ▸ a1.ids_lt hi, fun t ht => (a4 _ ht).2, fun x => ?_⟩
  obtain ⟨nodes', -, -, -, b4⟩ := a1.predict_eq p
  obtain ⟨u, hu⟩ := label_ok p h0 hdisc x (recountAll trees) (by rw [recountAll, List.length_map]; omega) (fun t ht => by
    obtain ⟨o, ho, e⟩ := List.mem_map.1 ht
    cases o with
    | none => cases e
    | some t0 =>
        have := Option.some.inj e
        subst this
        exact (a4 _ ho).1.positive)
  exact ⟨_, u, label_lt hL hu, by rw [b4, hu]; rfl⟩

/-- the hypotheses are met by random numbers of which one is 1 -/
example : 0 ≤ exP.lifetime ∧ exP.exp 0 = 1 ∧ 0 ≤ exP.discount ∧ ∀ i, 0 < oneω [2] i ∧ oneω [2] i ≤ 1 := by
  refine ⟨by decide +kernel, by decide +kernel, by decide +kernel, fun i => ?_⟩
  unfold oneω
  split <;> norm_num

end Orp.Mondrian
