import Verif.Coarse.PrintProps

/-!
Property C97, second part: the scores printed before the training, and the results with and without `print_nodes`.
-/

set_option linter.unusedSectionVars false

namespace Orp.Coarse

open Finset
open Mondrian (Node Box Forest Params Tree Holds HoldsAll allIds upd init OnlyCounts lt_of_get recountAll treeScores exω exP pt)

variable {K : Type} [Field K] [LinearOrder K] [IsStrictOrderedRing K] [FloorRing K] {F L : Nat}

/-! ### Specification -/

/-- a line for each tree from tree `i` on, with the scores of the point in the tree, and the label of the greatest one -/
def ScoreLines (p : Params K) (x : Fin F → K) (label : Fin L) (total : Nat) : (i : Nat) → List (Option (Tree K F L)) → List (Line K F L) → Prop
  | _, [], lines => lines = []
  | i, o :: os, lines => ∃ scores rest, treeScores p x o = .ok scores ∧ lines = .score total (some i) label (Utils.indexMax (List.ofFn scores)) scores :: rest ∧
      ScoreLines p x label total (i + 1) os rest

/-! ### The scores -/

theorem scoreLoop_spec (p : Params K) (s : Forest K F L) (x : Fin F → K) (label : Fin L) (total : Nat) : ∀ (ts : List (Option (Tree K F L))) (i : Nat)
    (sum : Option (Fin L → K)), (∀ t, some t ∈ ts → t.height ≤ s.nodes.length ∧ Holds s.nodes none t) → (∀ o ∈ ts, ∃ r, treeScores p x o = .ok r) →
    ∃ lines sum', scoreLoop p s x label total i (ts.map (fun t => t.map Tree.id)) sum = .ok (lines, sum') ∧ ScoreLines p x label total i ts lines ∧
      (ts = [] → sum' = sum) ∧ ∀ o, ts.getLast? = some o → ∃ r, treeScores p x o = .ok r ∧ sum' = some r
  | [], i, sum, _, _ => ⟨[], sum, rfl, rfl, fun _ => rfl, fun o ho => (by cases ho)⟩
  | o :: os, i, sum, h, hok => by
      have e : Mondrian.predictTree p s x (o.map Tree.id) = treeScores p x o := by
        cases o with
        | none => rw [treeScores, Mondrian.predictTree, Option.map_none]; cases s.nodes.length <;> rfl
        | some t => exact Mondrian.predictLoop_spec p s.nodes x t none 0 _ _ _ _ (h t (by simp)).1 (h t (by simp)).2 rfl
      obtain ⟨r, hr⟩ := hok o (List.mem_cons_self ..)
      obtain ⟨lines, sum', e1, e2, e3, e4⟩ := scoreLoop_spec p s x label total os (i + 1) (some r) (fun t ht => h t (List.mem_cons_of_mem _ ht))
        (fun o ho => hok o (List.mem_cons_of_mem _ ho))
      refine ⟨_, sum', ?_, ⟨r, lines, hr, rfl, e2⟩, fun hn => (by cases hn), fun o' ho' => ?_⟩
      · simp only [List.map_cons, scoreLoop, e, hr, e1, bind, Except.bind, pure, Except.pure]
      · cases os with
        | nil =>
            cases ho'
            exact ⟨r, hr, e3 rfl⟩
        | cons o2 os =>
            rw [List.getLast?_cons_cons] at ho'
            exact e4 o' ho'

/-- `scory` counts like a prediction does and changes nothing else. -/
theorem scory_spec {c : Config K} (hc : c.extend ≠ .ghost) {p : Params K} (h0 : p.exp 0 = 1) (hd : 0 ≤ p.discount) {few : Prop} {bases : List Base} {m : Nat}
    {s : State K F L} {trees : List (Option (Tree K F L))} (hg : Good c few bases m s trees) (hn : 1 ≤ trees.length) (x : Fin F → K) (label : Fin L) :
    ∃ s1 lines r, scory p s x label = .ok (s1, lines ++ [.score s.total none label (Utils.indexMax (List.ofFn r)) r]) ∧ Twin s s1 ∧ s1.total = s.total ∧
      Good c few bases m s1 (recountAll trees) ∧ ScoreLines p x label s.total 0 (recountAll trees) lines ∧
      ∃ o, (recountAll trees).getLast? = some o ∧ treeScores p x o = .ok r := by
  obtain ⟨nodes', a1, a2, a3, a4⟩ := hg.inv.mem.recount
  have hpos : ∀ t, some t ∈ recountAll trees → Mondrian.Positive t := by
    intro t ht
    obtain ⟨o, ho, e⟩ := List.mem_map.1 ht
    cases o with
    | none => cases e
    | some t0 =>
        cases e
        exact ((hg.pos t0 ho).recount hc).2
  obtain ⟨lines, sum', e1, e2, -, e4⟩ := scoreLoop_spec p { s.forest with nodes := nodes' } x label s.total (recountAll trees) 0 none (fun t ht => by
      obtain ⟨j, hj⟩ := List.mem_iff_getElem?.1 ht
      exact ⟨a2.height_le hj, a2.all.holds t ht⟩)
    (fun o ho => by
      cases o with
      | none => exact ⟨_, rfl⟩
      | some t => exact Mondrian.scores_ok p h0 hd x t _ _ _ _ (hpos t ho))
  have hroots : s.forest.roots = (recountAll trees).map (fun t => t.map Tree.id) := a2.all.roots
  obtain ⟨o, ho⟩ : ∃ o, (recountAll trees).getLast? = some o := by
    have hne : recountAll trees ≠ [] := by
      intro h
      have := congrArg List.length h
      rw [recountAll, List.length_map, List.length_nil] at this
      omega
    exact ⟨_, List.getLast?_eq_some_getLast hne⟩
  obtain ⟨r, hr1, rfl⟩ := e4 o ho
  have hcnt : trees.map (counted c) = recountAll trees := List.map_congr_left fun o _ => by unfold counted; rw [if_neg hc]
  have hv : Valid trees.length (.predict x none : Op K F L) := ⟨hn, le_rfl⟩
  obtain ⟨s1, l, p1, p2⟩ : ∃ s1 l, predict c p s x none = .ok (s1, l) ∧ s1 = { s with forest := { s.forest with nodes := nodes' } } := by
    obtain ⟨nodes1, l, b1, -⟩ := predict_spec c p h0 hd s trees hg.inv hg.pos x none hv.1 hv.2
    refine ⟨_, l, b1, ?_⟩
    unfold predict at b1
    rw [if_neg hc] at b1
    simp only [a1, bind, Except.bind] at b1
    split at b1
    · cases b1
    · split at b1
      · cases b1
      · exact (congrArg Prod.fst (Except.ok.inj b1)).symm
  refine ⟨{ s with forest := { s.forest with nodes := nodes' } }, lines, r, ?_, ⟨a3, rfl, rfl, rfl, rfl, rfl, rfl, rfl⟩, rfl, ?_, e2, o, ho, hr1⟩
  · rw [← hroots] at e1
    unfold scory
    simp only [a1, bind, Except.bind, e1, init, pure, Except.pure]
  · have hI : Inv { s with forest := { s.forest with nodes := nodes' } } (recountAll trees) := by
      obtain ⟨nodes1, l1, b1, b2, -⟩ := predict_spec c p h0 hd s trees hg.inv hg.pos x none hv.1 hv.2
      rw [p1] at b1
      have := congrArg Prod.fst (Except.ok.inj b1)
      simp only at this
      rw [← p2, ← hcnt, this]
      exact b2
    refine ⟨hI, hg.same, ?_, fun j o b hj hb => ?_, ?_⟩
    · rw [← hg.nodes]; exact a3.1
    · rw [recountAll, List.getElem?_map] at hj
      cases ho : trees[j]? with
      | none => rw [ho] at hj; cases hj
      | some o0 =>
          rw [ho] at hj
          cases hj
          have := (hg.tree j o0 b ho hb).counted
          unfold counted at this
          rw [if_neg hc] at this
          exact this
    · rcases hg.start with h | h | ⟨h, h'⟩
      · exact .inl h
      · refine .inr (.inl fun o ho => ?_)
        obtain ⟨o', ho', rfl⟩ := List.mem_map.1 ho
        cases o' with
        | none => exact absurd rfl (h _ ho')
        | some t => simp
      · refine .inr (.inr ⟨fun o ho => ?_, by rw [recountAll, List.length_map]; exact h'⟩)
        obtain ⟨o', ho', rfl⟩ := List.mem_map.1 ho
        rw [h o' ho']
        rfl

/-! ### Calls and histories with and without printing -/

/-- what `train` prints after the training -/
theorem printed_spec {c : Config K} {few : Prop} {bases : List Base} {m : Nat} {s : State K F L} {trees : List (Option (Tree K F L))} (hg : Good c few bases m s trees) :
    ((∀ o ∈ trees, Printable o) → ∃ lines, printy s = .ok lines ∧ lines.map shown = dump 0 trees ∧ ∀ line ∈ lines, Faithful s line) ∧
    (0 < s.forest.nodes.length → (∃ o ∈ trees, ¬ Printable o) → printy s = .error .ub) := by
  have := printRoots_spec hg.inv trees 0 (fun o ho => ho)
  unfold printy
  rw [hg.inv.mem.all.roots]
  exact this

/-- A tree is empty or too high for `tree_printy` after a call of `train`. -/
def Unprintable (c : Config K) (few : Prop) (bases : List Base) (m : Nat) : Prop :=
  ∃ (s : State K F L) (trees : List (Option (Tree K F L))), Good c few bases m s trees ∧ (¬ few → ∀ o ∈ trees, o ≠ none) ∧ ∃ o ∈ trees, ¬ Printable o

theorem execPrint_spec {c : Config K} (hc : c.extend ≠ .ghost) {p : Params K} (h0 : p.exp 0 = 1) (hd : 0 ≤ p.discount) (hlife : 0 ≤ p.lifetime) {ω : Nat → K}
    (hω : ∀ i, 0 ≤ ω i ∧ ω i < 1) {few : Prop} {bases : List Base} {m n : Nat} (hn1 : 1 ≤ n) (op : Op K F L) {s s' : State K F L} (h : Mates c few bases m n s s')
    (hv : Valid n op) (pos : Nat) :
    (∀ e, exec c p ω op s pos = .error e → execPrint c p ω op s' pos = .error e) ∧
    (∀ s1 pos1, exec c p ω op s pos = .ok (s1, pos1) → (∃ s1' out, execPrint c p ω op s' pos = .ok (s1', pos1, out) ∧ Mates c few bases m n s1 s1') ∨
      (∃ e, execPrint c p ω op s' pos = .error e) ∧ Unprintable (F := F) (L := L) c few bases m) := by
  obtain ⟨trees, hg, hn⟩ := h.left
  obtain ⟨trees', hg', hn'⟩ := h.right
  have hnear : ∀ {a b : State K F L}, Near c a b ↔ Twin a b := by
    intro a b
    unfold Near
    rw [if_neg hc]
  have hspec := exec_spec True c p h0 hd hlife ω hω (fun _ _ => trivial) few bases (fun _ _ _ => Or.inr trivial) m op s trees pos hg (by rw [hn]; exact hv)
  have plain : execPrint c p ω op s' pos = (do let (s, pos) ← exec c p ω op s' pos; return (s, pos, [])) → 
      (∀ e, exec c p ω op s pos = .error e → exec c p ω op s' pos = .error e) →
      (∀ s1 pos1, exec c p ω op s pos = .ok (s1, pos1) → ∃ s1', exec c p ω op s' pos = .ok (s1', pos1) ∧ Near c s1 s1') →
      (∀ e, exec c p ω op s pos = .error e → execPrint c p ω op s' pos = .error e) ∧
      (∀ s1 pos1, exec c p ω op s pos = .ok (s1, pos1) → (∃ s1' out, execPrint c p ω op s' pos = .ok (s1', pos1, out) ∧ Mates c few bases m n s1 s1') ∨
        (∃ e, execPrint c p ω op s' pos = .error e) ∧ Unprintable (F := F) (L := L) c few bases m) := by
    intro heq hA hB
    refine ⟨fun e he => by rw [heq, hA e he]; rfl, fun s1 pos1 he => .inl ?_⟩
    obtain ⟨s1', e1, e2⟩ := hB s1 pos1 he
    have hspec' := exec_spec True c p h0 hd hlife ω hω (fun _ _ => trivial) few bases (fun _ _ _ => Or.inr trivial) m op s' trees' pos hg' (by rw [hn']; exact hv)
    rcases hspec with ⟨-, e, hx⟩ | ⟨s2, pos2, treesP, g1, g2, g3, -⟩
    · rw [hx] at he; cases he
    rcases hspec' with ⟨-, e, hx⟩ | ⟨s2', pos2', treesP', g1', g2', g3', -⟩
    · rw [hx] at e1; cases e1
    rw [he] at g1
    rw [e1] at g1'
    cases g1
    cases g1'
    exact ⟨s1', [], by rw [heq, e1]; rfl, e2, ⟨treesP, g2, g3.trans hn⟩, ⟨treesP', g2', g3'.trans hn'⟩⟩
  have other : IsAct op = true → (∀ e, exec c p ω op s pos = .error e → exec c p ω op s' pos = .error e) ∧
      (∀ s1 pos1, exec c p ω op s pos = .ok (s1, pos1) → ∃ s1', exec c p ω op s' pos = .ok (s1', pos1) ∧ Near c s1 s1') := by
    intro hact
    have hrel := exec_near c p ω op hact h.near pos
    cases ha : exec c p ω op s pos <;> cases hb : exec c p ω op s' pos <;> rw [ha, hb] at hrel
    · refine ⟨fun e he => ?_, fun s1 pos1 he => by cases he⟩
      cases he
      exact congrArg Except.error (Eq.symm hrel)
    · exact hrel.elim
    · exact hrel.elim
    · rename_i a b
      refine ⟨fun e he => (by cases he), fun s1 pos1 he => ?_⟩
      cases he
      obtain ⟨b1, b2⟩ := b
      obtain ⟨r1, r2⟩ := hrel
      simp only at r1 r2
      subst r2
      exact ⟨b1, rfl, r1⟩
  cases op with
  | trim => exact plain rfl (other rfl).1 (other rfl).2
  | fade => exact plain rfl (other rfl).1 (other rfl).2
  | other last => exact plain rfl (other rfl).1 (other rfl).2
  | predict x use =>
      obtain ⟨a, l, q1, q2, -⟩ := predict_near h0 hd hg hn x use hv
      obtain ⟨a', l', q1', q2', -⟩ := predict_near h0 hd hg' hn' x use hv
      refine plain rfl (fun e he => ?_) (fun s1 pos1 he => ?_)
      · unfold exec at he
        simp only [q1, bind, Except.bind, pure, Except.pure] at he
        cases he
      · unfold exec at he ⊢
        simp only [q1, q1', bind, Except.bind, pure, Except.pure] at he ⊢
        cases he
        exact ⟨a', rfl, q2.symm.trans (h.near.trans q2')⟩
  | train x label =>
      obtain ⟨sc, lines, r, q1, q2, q3, q4, -⟩ := scory_spec hc h0 hd hg' (by omega) x label
      have htw : Twin s sc := (hnear.1 h.near).trans q2
      have hrel := like_train c p ω x label htw pos
      have hspec' := train_spec True c p hlife ω hω (fun _ _ => trivial) x label few bases (fun _ _ _ => Or.inr trivial) m sc _ pos q4
      have hlen : (recountAll trees').length = n := by rw [recountAll, List.length_map]; exact hn'
      constructor
      · intro e he
        unfold exec at he
        cases ha : train c p ω x label s pos with
        | error e' =>
            rw [ha] at hrel
            simp only [ha, bind, Except.bind] at he
            cases he
            cases hb : train c p ω x label sc pos with
            | ok b => rw [hb] at hrel; exact hrel.elim
            | error e' =>
                rw [hb] at hrel
                have hrel : e = e' := hrel
                subst hrel
                unfold execPrint trainPrint
                simp only [q1, hb, bind, Except.bind]
        | ok a => simp only [ha, bind, Except.bind, pure, Except.pure] at he; cases he
      · intro s1 pos1 he
        rcases hspec with ⟨-, e, hx⟩ | ⟨s2, pos2, treesP, g1, g2, g3, -⟩
        · rw [hx] at he; cases he
        rw [he] at g1
        cases g1
        unfold exec at he
        cases ha : train c p ω x label s pos with
        | error e' => simp only [ha, bind, Except.bind] at he; cases he
        | ok a =>
            obtain ⟨a1, a2, a3⟩ := a
            simp only [ha, bind, Except.bind, pure, Except.pure] at he
            cases he
            rw [ha] at hrel
            cases hb : train c p ω x label sc pos with
            | error e' => rw [hb] at hrel; exact hrel.elim
            | ok b =>
                rw [hb] at hrel hspec'
                rcases hspec' with ⟨-, e, hx⟩ | ⟨s2', pos2', r2', treesP', g1', g2', g3', g4', -, g6'⟩
                · cases hx
                cases g1'
                obtain ⟨r1, r2⟩ := hrel
                simp only [Prod.mk.injEq] at r1 r2
                obtain ⟨r2, r3⟩ := r2
                subst r2 r3
                have hM : Mates c few bases m n s1 s2' := ⟨hnear.2 r1, ⟨treesP, g2, g3.trans hn⟩, ⟨treesP', g2', g4'.trans hlen⟩⟩
                unfold execPrint trainPrint
                simp only [q1, hb, bind, Except.bind, pure, Except.pure]
                cases hprint : (if 0 < s2'.total ∧ (s2'.total ≤ 500 ∨ s2'.total % 5 = 0) then printy s2' else .ok [] : Res (List (Line K F L))) with
                | ok out => exact .inl ⟨s2', _, rfl, hM⟩
                | error e =>
                    refine .inr ⟨⟨e, rfl⟩, s2', treesP', g2', fun hfew o ho => ?_, ?_⟩
                    · obtain ⟨j, hj⟩ := List.mem_iff_getElem?.1 ho
                      have hjl : j < (recountAll trees').length := by rw [← g4']; exact lt_of_get hj
                      obtain ⟨b, hbb, -⟩ := q4.base hjl
                      obtain ⟨o1, o', w1, w2, w3⟩ := g6' j _ b (List.getElem?_eq_getElem hjl) hbb
                      rw [hj] at w1
                      cases w1
                      cases o1 with
                      | none =>
                          rcases w3 with ⟨z, rfl⟩ | ⟨hf, -⟩
                          · simp
                          · exact absurd hf hfew
                      | some t =>
                          obtain ⟨t', rfl, -⟩ := w3
                          simp
                    · by_contra hno
                      push Not at hno
                      obtain ⟨lines', y1, -⟩ := (printed_spec g2').1 hno
                      split at hprint
                      · rw [y1] at hprint; cases hprint
                      · cases hprint

theorem runPrint_spec {c : Config K} (hc : c.extend ≠ .ghost) {p : Params K} (h0 : p.exp 0 = 1) (hd : 0 ≤ p.discount) (hlife : 0 ≤ p.lifetime) {ω : Nat → K}
    (hω : ∀ i, 0 ≤ ω i ∧ ω i < 1) {few : Prop} {bases : List Base} {m n : Nat} (hn1 : 1 ≤ n) : ∀ (ops : List (Op K F L)) {s s' : State K F L},
    Mates c few bases m n s s' → (∀ op ∈ ops, Valid n op) → ∀ pos,
    (∀ e, run c p ω ops s pos = .error e → ∃ e', runPrint c p ω ops s' pos = .error e') ∧
    (∀ s1 pos1, run c p ω ops s pos = .ok (s1, pos1) → (∃ s1' out, runPrint c p ω ops s' pos = .ok (s1', pos1, out) ∧ Mates c few bases m n s1 s1') ∨
      (∃ e, runPrint c p ω ops s' pos = .error e) ∧ Unprintable (F := F) (L := L) c few bases m)
  | [], s, s', h, hv, pos => ⟨fun e he => (by cases he), fun s1 pos1 he => (by cases he; exact .inl ⟨s', [], rfl, h⟩)⟩
  | op :: ops, s, s', h, hv, pos => by
      obtain ⟨e1, e2⟩ := execPrint_spec hc h0 hd hlife hω hn1 op h (hv op (List.mem_cons_self ..)) pos
      rw [run, runPrint]
      cases ha : exec c p ω op s pos with
      | error e =>
          refine ⟨fun e' he => ?_, fun s1 pos1 he => (by cases he)⟩
          exact ⟨e, by rw [e1 e ha]; rfl⟩
      | ok a =>
          obtain ⟨a, pa⟩ := a
          rcases e2 a pa ha with ⟨a', out, hb, hM⟩ | ⟨⟨e', hb⟩, hU⟩
          · obtain ⟨i1, i2⟩ := runPrint_spec hc h0 hd hlife hω hn1 ops hM (fun o ho => hv o (List.mem_cons_of_mem _ ho)) pa
            simp only [hb, bind, Except.bind, pure, Except.pure]
            constructor
            · intro e he
              obtain ⟨e', he'⟩ := i1 e he
              exact ⟨e', by rw [he']⟩
            · intro s1 pos1 he
              rcases i2 s1 pos1 he with ⟨s1', out', z1, z2⟩ | ⟨⟨e', z1⟩, z2⟩
              · exact .inl ⟨s1', out ++ out', by rw [z1], z2⟩
              · exact .inr ⟨⟨e', by rw [z1]⟩, z2⟩
          · simp only [hb, bind, Except.bind]
            exact ⟨fun _ _ => ⟨e', rfl⟩, fun _ _ _ => .inr ⟨⟨e', rfl⟩, hU⟩⟩

end Orp.Coarse
