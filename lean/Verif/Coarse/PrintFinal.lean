import Verif.Coarse.PrintRun
import Verif.Coarse.Deep

/-!
Property C97: the theorems on results and output with `print_nodes`.
-/

set_option linter.unusedSectionVars false

namespace Orp.Coarse

open Finset
open Mondrian (Node Box Forest Params Tree Holds HoldsAll allIds upd init OnlyCounts lt_of_get recountAll treeScores exω exP pt)

variable {K : Type} [Field K] [LinearOrder K] [IsStrictOrderedRing K] [FloorRing K] {F L : Nat}

theorem height_ids : ∀ t : Tree K F L, 2 * t.height ≤ t.ids.length + 1
  | .leaf _ _ => le_rfl
  | .node _ _ _ _ l r => by
      have h1 := height_ids l
      have h2 := height_ids r
      have h3 := ids_pos l
      have h4 := ids_pos r
      simp only [Mondrian.Tree.height, Tree.ids, List.length_cons, List.length_append]
      have : Nat.max l.height r.height ≤ l.height ∨ Nat.max l.height r.height ≤ r.height := by
        rcases Nat.le_total l.height r.height with h | h
        · exact Or.inr (Nat.max_eq_right h).le
        · exact Or.inl (Nat.max_eq_left h).le
      omega

/-- **C97** (partial) Without `EXTEND_GHOST` and with at least one tree, `print_nodes` has no influence: a history that is defined with printing is defined without, and
takes the same random numbers; afterwards `train` returns the same value and uses the same random numbers, and `predict` returns the same label.
Missing: `EXTEND_GHOST`, see `C97_ghost`; no tree, see `C97_no_tree`. -/
theorem C97_no_influence_partial (c : Config K) (hc : c.extend ≠ .ghost) (p : Params K) (ω : Nat → K) (maxSize sizeNode sizeBase : Nat) (junk : List Int)
    (hj : junk ≠ []) (last : Nat) (s0 : State K F L) (ops : List (Op K F L)) (h : Setting c p ω maxSize sizeNode sizeBase junk last s0 ops) (pos : Nat)
    (s' : State K F L) (pos' : Nat) (out : List (Line K F L)) (hr : runPrint c p ω ops s0 pos = .ok (s', pos', out)) :
    ∃ s, run c p ω ops s0 pos = .ok (s, pos') ∧
      (∀ x label, (train c p ω x label s pos').map Prod.snd = (train c p ω x label s' pos').map Prod.snd) ∧
      (∀ x use, Valid junk.length (.predict x use : Op K F L) → ∃ s1 s1' l, predict c p s x use = .ok (s1, l) ∧ predict c p s' x use = .ok (s1', l)) := by
  obtain ⟨hnew, -⟩ := new_spec c maxSize sizeNode sizeBase junk last s0 h.made True (fun _ => trivial)
  have hM : Mates c True s0.bases s0.forest.nodes.length junk.length s0 s0 :=
    ⟨Near.refl c s0, ⟨_, hnew, List.length_replicate⟩, ⟨_, hnew, List.length_replicate⟩⟩
  obtain ⟨r1, r2⟩ := runPrint_spec hc h.exp0 h.discount h.lifetime h.random (List.length_pos_iff.2 hj) ops hM h.valid pos
  cases ha : run c p ω ops s0 pos with
  | error e =>
      obtain ⟨e', he⟩ := r1 e ha
      rw [hr] at he
      cases he
  | ok a =>
      obtain ⟨s, pa⟩ := a
      rcases r2 s pa ha with ⟨s1, out1, e1, e2⟩ | ⟨⟨e, e1⟩, -⟩
      · rw [hr] at e1
        cases e1
        refine ⟨s, rfl, fun x label => ?_, fun x use hv => e2.predict h.exp0 h.discount x use hv⟩
        have hrel := like_train c p ω x label e2.near.twin pos'
        cases hx : train c p ω x label s pos' <;> cases hy : train c p ω x label s' pos' <;> rw [hx, hy] at hrel
        · exact congrArg Except.error hrel
        · exact hrel.elim
        · exact hrel.elim
        · exact congrArg Except.ok hrel.2
      · rw [hr] at e1
        cases e1

/-- **C97** (partial) Every history that is defined without printing is defined with `print_nodes`, and takes the same random numbers, if there is a node for each tree and
no tree can get higher than 101, because there are at most 202 nodes or because of the depth limit.
Missing: the other cases, see `C97_ghost`, `C97_no_tree`, `C97_too_few_nodes` and `C97_deep`. -/
theorem C97_defined_partial (c : Config K) (hc : c.extend ≠ .ghost) (p : Params K) (ω : Nat → K) (maxSize sizeNode sizeBase : Nat) (junk : List Int)
    (hj : junk ≠ []) (last : Nat) (s0 : State K F L) (hfew : junk.length ≤ s0.forest.nodes.length)
    (hlow : s0.forest.nodes.length ≤ 202 ∨ c.isCobble = true ∧ c.sizeLimit ≤ 101)
    (ops : List (Op K F L)) (h : Setting c p ω maxSize sizeNode sizeBase junk last s0 ops) (pos : Nat)
    (s : State K F L) (pos' : Nat) (hr : run c p ω ops s0 pos = .ok (s, pos')) : ∃ s' out, runPrint c p ω ops s0 pos = .ok (s', pos', out) := by
  obtain ⟨hnew, -, -, hlim, -⟩ := new_spec c maxSize sizeNode sizeBase junk last s0 h.made False (fun h => by omega)
  have hM : Mates c False s0.bases s0.forest.nodes.length junk.length s0 s0 :=
    ⟨Near.refl c s0, ⟨_, hnew, List.length_replicate⟩, ⟨_, hnew, List.length_replicate⟩⟩
  obtain ⟨-, r2⟩ := runPrint_spec hc h.exp0 h.discount h.lifetime h.random (List.length_pos_iff.2 hj) ops hM h.valid pos
  rcases r2 s pos' hr with ⟨s1, out1, e1, -⟩ | ⟨-, s2, trees, e1, e2, o, ho, e3⟩
  · exact ⟨s1, out1, e1⟩
  · exfalso
    cases o with
    | none => exact e2 id _ ho rfl
    | some t =>
        refine e3 ⟨t, rfl, ?_⟩
        obtain ⟨j, hjj⟩ := List.mem_iff_getElem?.1 ho
        rcases hlow with hlow | ⟨hcob, hlow⟩
        · have h1 := ready_length (fs := []) (e1.inv.mem.ready hjj)
          have h2 := height_ids t
          have h3 := e1.nodes
          simp only [List.length_nil] at h1
          omega
        · obtain ⟨b, hb, hbm⟩ := e1.base (lt_of_get hjj)
          have h1 := (e1.tree j _ b hjj hb).1 t rfl hcob
          have h2 := hlim hcob b hbm
          rw [h2] at h1
          have : max 1 c.sizeLimit ≤ 101 := max_le (by norm_num) hlow
          have : (t.height : Int) ≤ 101 := h1.trans this
          omega

/-- a history with two trees -/
example : ∃ s0, Setting (cfg .phoenix 0 .original .none) exP (exω []) 85 10 5 [0, 0] 0 s0 exOps ∧ (cfg .phoenix 0 .original .none).extend ≠ .ghost ∧
    ([0, 0] : List Int).length ≤ s0.forest.nodes.length ∧ s0.forest.nodes.length ≤ 202 ∧
    (runPrint (cfg .phoenix 0 .original .none) exP (exω []) exOps s0 0).toOption.isSome = true :=
  ⟨_, ⟨by decide +kernel, by decide +kernel, by decide +kernel, fun i => ⟨(exω_pos i).1.le, (exω_pos i).2⟩, rfl, by simp [exOps, Valid]⟩, by decide, by decide +kernel,
    by decide +kernel, by decide +kernel⟩

/-- **C97** (partial) The output of a call of `train` with `print_nodes` after any history: first a line for each tree with its number, the scores of the new point in the
tree before the training, and the label of the greatest score; then a line for the forest; then, if the number of points is at most 500 or a multiple of 5, the nodes of all
trees after the training.
Missing: the line for the forest shows the scores of the last tree, see `C97_forest_line`. -/
theorem C97_output_partial (c : Config K) (hc : c.extend ≠ .ghost) (p : Params K) (ω : Nat → K) (maxSize sizeNode sizeBase : Nat) (junk : List Int)
    (hj : junk ≠ []) (last : Nat) (s0 : State K F L) (ops : List (Op K F L)) (h : Setting c p ω maxSize sizeNode sizeBase junk last s0 ops) (pos : Nat)
    (s : State K F L) (pos' : Nat) (out : List (Line K F L)) (hr : runPrint c p ω ops s0 pos = .ok (s, pos', out)) (x : Fin F → K) (label : Fin L)
    (s1 : State K F L) (pos1 : Nat) (ok : Bool) (out1 : List (Line K F L)) (ht : trainPrint c p ω x label s pos' = .ok (s1, pos1, ok, out1)) :
    ∃ trees trees1 scores r nodes, HoldsAll s.forest trees ∧ HoldsAll s1.forest trees1 ∧ trees.length = junk.length ∧ trees1.length = junk.length ∧
      s1.total = s.total + 1 ∧
      out1 = scores ++ [.score s.total none label (Utils.indexMax (List.ofFn r)) r] ++ nodes ∧
      ScoreLines p x label s.total 0 (recountAll trees) scores ∧ (∃ o, (recountAll trees).getLast? = some o ∧ treeScores p x o = .ok r) ∧
      (∀ line ∈ nodes, Faithful s1 line) ∧
      (s1.total ≤ 500 ∨ s1.total % 5 = 0 → 0 < s1.forest.nodes.length → (∀ o ∈ trees1, Printable o) ∧ nodes.map shown = dump 0 trees1) ∧
      (¬ (s1.total ≤ 500 ∨ s1.total % 5 = 0) → nodes = []) := by
  obtain ⟨hnew, -⟩ := new_spec c maxSize sizeNode sizeBase junk last s0 h.made True (fun _ => trivial)
  have hM : Mates c True s0.bases s0.forest.nodes.length junk.length s0 s0 :=
    ⟨Near.refl c s0, ⟨_, hnew, List.length_replicate⟩, ⟨_, hnew, List.length_replicate⟩⟩
  obtain ⟨r1, r2⟩ := runPrint_spec hc h.exp0 h.discount h.lifetime h.random (List.length_pos_iff.2 hj) ops hM h.valid pos
  obtain ⟨trees, hg, hn⟩ : ∃ trees, Good c True s0.bases s0.forest.nodes.length s trees ∧ trees.length = junk.length := by
    cases ha : run c p ω ops s0 pos with
    | error e =>
        obtain ⟨e', he⟩ := r1 e ha
        rw [hr] at he
        cases he
    | ok a =>
        obtain ⟨s', pa⟩ := a
        rcases r2 s' pa ha with ⟨s1, out1, e1, e2⟩ | ⟨⟨e, e1⟩, -⟩
        · rw [hr] at e1
          cases e1
          exact e2.right
        · rw [hr] at e1
          cases e1
  obtain ⟨sc, lines, r, q1, q2, q3, q4, q5, q6⟩ := scory_spec hc h.exp0 h.discount hg (by rw [hn]; exact List.length_pos_iff.2 hj) x label
  unfold trainPrint at ht
  simp only [q1, bind, Except.bind] at ht
  rcases train_spec True c p h.lifetime ω h.random (fun _ _ => trivial) x label True s0.bases (fun _ _ _ => Or.inr trivial) _ sc _ pos' q4 with
    ⟨-, e, he⟩ | ⟨s2, pos2, b2, trees1, g1, g2, g3, g4, -, -⟩
  · rw [he] at ht
    cases ht
  · rw [g1] at ht
    simp only [pure, Except.pure] at ht
    cases hp : (if 0 < s2.total ∧ (s2.total ≤ 500 ∨ s2.total % 5 = 0) then printy s2 else .ok [] : Res (List (Line K F L))) with
    | error e => rw [hp] at ht; cases ht
    | ok nodes =>
        rw [hp] at ht
        cases ht
        obtain ⟨w1, w2⟩ := printed_spec g2
        have hpos : 0 < s1.total := by omega
        have hall : ∀ lines : List (Line K F L), printy s1 = .ok lines → (0 < s1.forest.nodes.length → (∀ o ∈ trees1, Printable o) ∧ lines.map shown = dump 0 trees1) ∧
            ∀ line ∈ lines, Faithful s1 line := by
          intro lines hl
          by_cases hpr : ∀ o ∈ trees1, Printable o
          · obtain ⟨l2, z1, z2, z3⟩ := w1 hpr
            rw [hl] at z1
            cases z1
            exact ⟨fun _ => ⟨hpr, z2⟩, z3⟩
          · push Not at hpr
            by_cases h0 : 0 < s1.forest.nodes.length
            · rw [w2 h0 hpr] at hl
              cases hl
            · refine ⟨fun h => absurd h h0, ?_⟩
              have hlen : s1.forest.nodes.length = 0 := by omega
              have : ∀ (rs : List (Option Nat)) (i : Nat) (lines : List (Line K F L)), printRoots s1 i rs = .ok lines → lines = [] := by
                intro rs
                induction rs with
                | nil => intro i lines h; cases h; rfl
                | cons r rs ih =>
                    intro i lines h
                    unfold printRoots at h
                    rw [hlen, printLoop, if_neg (fun h => by rw [hlen] at h; omega)] at h
                    simp only [bind, Except.bind, pure, Except.pure] at h
                    cases hx : printRoots s1 (i + 1) rs with
                    | error e => rw [hx] at h; cases h
                    | ok l =>
                        rw [hx] at h
                        cases h
                        rw [ih _ _ hx]
                        rfl
              rw [this _ _ _ hl]
              intro line hm
              cases hm
        refine ⟨trees, trees1, lines, r, nodes, hg.inv.mem.all, g2.inv.mem.all, hn, ?_, by rw [g3, q3], by simp, q5, q6, ?_, ?_, ?_⟩
        · rw [g4, recountAll, List.length_map]
          exact hn
        · split at hp
          · exact (hall _ hp).2
          · cases hp
            intro line hm
            cases hm
        · intro ht h0
          rw [if_pos ⟨hpos, ht⟩] at hp
          exact (hall _ hp).1 h0
        · intro ht
          rw [if_neg (fun h => ht h.2)] at hp
          cases hp
          rfl

/-! ### Violations -/

theorem runPrint_append (c : Config K) (p : Params K) (ω : Nat → K) : ∀ (ops ops' : List (Op K F L)) (s : State K F L) (pos : Nat),
    runPrint c p ω (ops ++ ops') s pos = (do
      let (s, pos, out) ← runPrint c p ω ops s pos
      let (s, pos, out') ← runPrint c p ω ops' s pos
      return (s, pos, out ++ out'))
  | [], ops', s, pos => by
      rw [List.nil_append, runPrint]
      simp only [bind, Except.bind, pure, Except.pure, List.nil_append]
      cases runPrint c p ω ops' s pos <;> rfl
  | op :: ops, ops', s, pos => by
      rw [List.cons_append, runPrint, runPrint]
      simp only [bind, Except.bind, pure, Except.pure]
      cases execPrint c p ω op s pos with
      | error e => rfl
      | ok a =>
          obtain ⟨s1, pos1, out1⟩ := a
          simp only [runPrint_append c p ω ops ops' s1 pos1, bind, Except.bind, pure, Except.pure]
          cases runPrint c p ω ops s1 pos1 with
          | error e => rfl
          | ok b =>
              obtain ⟨s2, pos2, out2⟩ := b
              simp only
              cases runPrint c p ω ops' s2 pos2 with
              | error e => rfl
              | ok d => simp only [List.append_assoc]

/-- **C97** (violation) Whenever a call of `train` leaves an empty tree or a tree of height above 101, printing is undefined behaviour, although the history without printing
is defined. -/
theorem C97_unprintable (c : Config K) (hc : c.extend ≠ .ghost) (p : Params K) (ω : Nat → K) (maxSize sizeNode sizeBase : Nat) (junk : List Int)
    (hj : junk ≠ []) (last : Nat) (s0 : State K F L) (ops : List (Op K F L)) (x : Fin F → K) (label : Fin L)
    (h : Setting c p ω maxSize sizeNode sizeBase junk last s0 (ops ++ [.train x label])) (pos : Nat) (s : State K F L) (pos' : Nat)
    (hr : run c p ω (ops ++ [.train x label]) s0 pos = .ok (s, pos')) (h0 : 0 < s.forest.nodes.length) (ht : s.total ≤ 500 ∨ s.total % 5 = 0)
    (trees : List (Option (Tree K F L))) (hh : HoldsAll s.forest trees) (hx : ∃ o ∈ trees, ¬ Printable o) :
    ∀ r, runPrint c p ω (ops ++ [.train x label]) s0 pos ≠ .ok r := by
  intro r hrp
  have hops : Setting c p ω maxSize sizeNode sizeBase junk last s0 ops :=
    ⟨h.lifetime, h.exp0, h.discount, h.random, h.made, fun op ho => h.valid op (List.mem_append_left _ ho)⟩
  obtain ⟨hnew, -⟩ := new_spec c maxSize sizeNode sizeBase junk last s0 h.made True (fun _ => trivial)
  have hM : Mates c True s0.bases s0.forest.nodes.length junk.length s0 s0 :=
    ⟨Near.refl c s0, ⟨_, hnew, List.length_replicate⟩, ⟨_, hnew, List.length_replicate⟩⟩
  obtain ⟨-, r2⟩ := runPrint_spec hc h.exp0 h.discount h.lifetime h.random (List.length_pos_iff.2 hj) (ops ++ [.train x label]) hM h.valid pos
  rcases r2 s pos' hr with ⟨s1, out1, e1, e2⟩ | ⟨⟨e, e1⟩, -⟩
  · rw [runPrint_append] at e1
    cases ha : runPrint c p ω ops s0 pos with
    | error e => rw [ha] at e1; cases e1
    | ok a =>
        obtain ⟨sa, pa, oa⟩ := a
        rw [ha] at e1
        simp only [bind, Except.bind, pure, Except.pure, runPrint, execPrint] at e1
        cases hb : trainPrint c p ω x label sa pa with
        | error e => rw [hb] at e1; cases e1
        | ok b =>
            obtain ⟨sb, pb, okb, ob⟩ := b
            rw [hb] at e1
            cases e1
            obtain ⟨t0, t1, _, _, _, -, k2, -, -, -, -, -, -, -, k3, -⟩ :=
              C97_output_partial c hc p ω maxSize sizeNode sizeBase junk hj last s0 ops hops pos sa pa oa ha x label _ _ okb ob hb
            have htw := e2.near.twin
            obtain ⟨tl, gl, -⟩ := e2.left
            obtain ⟨tr, gr, -⟩ := e2.right
            have u1 := Mondrian.C52_trees_unique hh gl.inv.mem.all
            have u2 := Mondrian.C52_trees_unique k2 gr.inv.mem.all
            subst u1 u2
            have hmap := twin_trees hc htw gl.inv gr.inv
            obtain ⟨k4, -⟩ := k3 (by rw [htw.total]; exact ht) (by rw [gr.nodes, ← gl.nodes]; exact h0)
            obtain ⟨o, ho, hbad⟩ := hx
            obtain ⟨o', ho', he⟩ : ∃ o' ∈ t1, counted c o' = counted c o := by
              have : counted c o ∈ trees.map (counted c) := List.mem_map_of_mem ho
              rw [hmap] at this
              obtain ⟨o', ho', he⟩ := List.mem_map.1 this
              exact ⟨o', ho', he⟩
            obtain ⟨t', rfl, hle⟩ := k4 o' ho'
            unfold counted at he
            rw [if_neg hc, if_neg hc] at he
            cases o with
            | none => cases he
            | some t =>
                simp only [Option.map_some, Option.some.injEq] at he
                refine hbad ⟨t, rfl, ?_⟩
                rw [← Mondrian.recount_height t, ← he, Mondrian.recount_height]
                exact hle
  · rw [hrp] at e1
    cases e1

/-- the points 0, 1, 3, 7, ... -/
def farOps (k : Nat) : List (Op ℚ 1 2) := (List.range' 1 k).map (fun i => Op.train (far i) 0)

theorem deep_reach (c : Config ℚ) (hm : c.extend = .original) (ht : c.trim = .none) (hc : c.isCobble = true) (n : Nat) (limit : Int) (hlim : 102 ≤ limit) (hn : 203 ≤ n)
    (bases : List Base) (s : State ℚ 1 2) (pos : Nat) (h : Deep n limit 0 s) (hg : ∃ trees, Good c True bases n s trees) : ∀ k ≤ 101, ∃ s' pos',
      run c exP (exω []) (farOps k) s pos = .ok (s', pos') ∧ Deep n limit k s' ∧ s'.total = s.total + k ∧ ∃ trees, Good c True bases n s' trees
  | 0, _ => ⟨s, pos, rfl, h, rfl, hg⟩
  | k + 1, hk => by
      obtain ⟨s1, pos1, e1, e2, e3, trees, e4⟩ := deep_reach c hm ht hc n limit hlim hn bases s pos h hg k (by omega)
      obtain ⟨s2, pos2, e5, e6⟩ := deep_step c hm ht hc n limit k (by omega) (by omega) (by omega) s1 pos1 e2
      rcases train_spec True c exP (by norm_num [exP]) (exω []) (fun i => ⟨(exω_pos i).1.le, (exω_pos i).2⟩) (fun _ _ => trivial) (far (k + 1)) 0 True bases
        (fun _ _ _ => Or.inr trivial) n s1 trees pos1 e4 with ⟨-, e, hx⟩ | ⟨s3, pos3, r3, trees3, g1, g2, g3, -⟩
      · rw [e5] at hx; cases hx
      rw [e5] at g1
      cases g1
      refine ⟨s2, pos2, ?_, e6, by rw [g3, e3]; omega, trees3, g2⟩
      rw [farOps, List.range'_1_concat, List.map_append, List.map_singleton, run_snoc]
      rw [farOps] at e1
      simp only [e1, exec, bind, Except.bind, pure, Except.pure, Nat.add_comm 1 k, e5]

/-- **C97** (violation) After 102 points of one feature a tree can have height 102. Then printing is undefined behaviour; without it the history is defined. -/
theorem C97_deep : ∃ (c : Config ℚ) (s0 s : State ℚ 1 2) (pos' : Nat), Setting c exP (exω []) 2055 10 5 [0] 0 s0 ([.train (far 0) 0] ++ farOps 101) ∧
    run c exP (exω []) ([.train (far 0) 0] ++ farOps 101) s0 0 = .ok (s, pos') ∧
    ∀ r, runPrint c exP (exω []) ([.train (far 0) 0] ++ farOps 101) s0 0 ≠ .ok r := by
  obtain ⟨s0, h0⟩ : ∃ s0, new (cfg .cobble 200 .original .none) 2055 10 5 [0] 0 = .ok (s0 : State ℚ 1 2) := ⟨_, rfl⟩
  obtain ⟨g, gt, -, -, gn⟩ := new_spec (cfg .cobble 200 .original .none) 2055 10 5 [0] 0 s0 h0 True (fun _ => trivial)
  have hn : s0.forest.nodes.length = 205 := by cases h0; decide +kernel
  rw [hn] at g
  obtain ⟨s1, e1, e2⟩ := deep_first (cfg .cobble 200 .original .none) rfl rfl 205 (by omega) s0 10 5 2055 0 0 h0 hn 0
  rcases train_spec True (cfg .cobble 200 .original .none) exP (by norm_num [exP]) (exω []) (fun i => ⟨(exω_pos i).1.le, (exω_pos i).2⟩) (fun _ _ => trivial) (far 0) 0 True _
    (fun _ _ _ => Or.inr trivial) 205 s0 _ 0 g with ⟨-, e, hx⟩ | ⟨s3, pos3, r3, trees3, g1, g2, g3, -⟩
  · rw [e1] at hx; cases hx
  rw [e1] at g1
  cases g1
  obtain ⟨s2, pos2, f1, f2, f3, -⟩ := deep_reach (cfg .cobble 200 .original .none) rfl rfl rfl 205 200 (by omega) (by omega) _ s1 0 e2 ⟨_, g2⟩ 101 le_rfl
  have hset : Setting (cfg .cobble 200 .original .none) exP (exω []) 2055 10 5 [0] 0 s0 ([.train (far 0) 0] ++ farOps 101) := by
    refine ⟨by decide +kernel, by decide +kernel, by decide +kernel, fun i => ⟨(exω_pos i).1.le, (exω_pos i).2⟩, h0, fun op hop => ?_⟩
    rcases List.mem_append.1 hop with hop | hop
    · rw [List.mem_singleton] at hop
      subst hop
      trivial
    · obtain ⟨i, -, rfl⟩ := List.mem_map.1 hop
      trivial
  have hrun : run (cfg .cobble 200 .original .none) exP (exω []) ([.train (far 0) 0] ++ farOps 101) s0 0 = .ok (s2, pos2) := by
    rw [List.singleton_append, run]
    simp only [exec, e1, bind, Except.bind, pure, Except.pure, f1]
  refine ⟨_, s0, s2, pos2, hset, hrun, ?_⟩
  have hsplit : [.train (far 0) 0] ++ farOps 101 = ([.train (far 0) 0] ++ farOps 100) ++ [.train (far 101) 0] := by
    rw [List.append_assoc]
    rfl
  rw [hsplit] at hset hrun ⊢
  obtain ⟨t, b, hI, k1, k2, k3, k4, k5, -⟩ := f2
  exact C97_unprintable _ (by decide) _ _ _ _ _ _ (by simp) _ _ _ _ _ hset 0 s2 pos2 hrun (by omega) (.inl (by rw [f3, g3, gt]; norm_num)) _ hI.mem.all
    ⟨_, List.mem_singleton_self _, fun ⟨u, hu, hle⟩ => by cases hu; omega⟩

/-- a new object, with and without printing -/
def printRun (c : Config ℚ) (maxSize : Nat) (junk : List Int) (ops : List (Op ℚ 1 2)) : Res (State ℚ 1 2 × Nat × List (Line ℚ 1 2)) := do
  let s ← new c maxSize 10 5 junk 0
  runPrint c exP (exω []) ops s 0

/-- a new object without printing -/
def plainRun (c : Config ℚ) (maxSize : Nat) (junk : List Int) (ops : List (Op ℚ 1 2)) : Res (State ℚ 1 2 × Nat) := do
  let s ← new c maxSize 10 5 junk 0
  run c exP (exω []) ops s 0

/-- **C97** (violation) With more trees than nodes a tree stays empty, and printing it reads the node of index -1. Without printing the history is defined. -/
theorem C97_too_few_nodes : (plainRun (cfg .phoenix 0 .original .none) 20 [0, 0] [.train (pt 0) 0]).toOption.isSome = true ∧
    (printRun (cfg .phoenix 0 .original .none) 20 [0, 0] [.train (pt 0) 0]).toOption.isSome = false := by decide +kernel

/-- **C97** (violation) Without trees the scores of the forest are not initialised. Without printing the history is defined. -/
theorem C97_no_tree : (plainRun (cfg .phoenix 0 .original .none) 20 [] [.train (pt 0) 0]).toOption.isSome = true ∧
    (printRun (cfg .phoenix 0 .original .none) 20 [] [.train (pt 0) 0]).toOption.isSome = false := by decide +kernel

/-- **C97** (violation) With `EXTEND_GHOST` printing counts the points of split nodes anew, and labels change. -/
theorem C97_ghost :
    (plainRun (cfg .phoenix 0 .ghost .none) 85 [0] [.train (pt 1) 1, .train (pt 1) 1, .train (pt 0) 0, .train (pt 0) 0]).bind
      (fun r => (predict (cfg .phoenix 0 .ghost .none) exP r.1 (pt 1) none).map Prod.snd) = .ok 1 ∧
    (printRun (cfg .phoenix 0 .ghost .none) 85 [0] [.train (pt 1) 1, .train (pt 1) 1, .train (pt 0) 0, .train (pt 0) 0]).bind
      (fun r => (predict (cfg .phoenix 0 .ghost .none) exP r.1 (pt 1) none).map Prod.snd) = .ok 0 := by decide +kernel

/-- the label in the line for the forest -/
def forestLabel : List (Line K F L) → Option Nat
  | [] => none
  | .score _ none _ prediction _ :: _ => some prediction
  | _ :: lines => forestLabel lines

/-- **C97** (violation) The line for the forest shows the scores of the last tree, and another label than the one the forest predicts. -/
theorem C97_forest_line :
    (plainRun (cfg .phoenix 0 .original .none) 55 [0, 0] [.train (pt 1) 1, .train (pt 0) 1, .train (pt 0) 0, .train (pt 0) 0]).bind
      (fun r => (predict (cfg .phoenix 0 .original .none) exP r.1 (pt 2) none).map Prod.snd) = .ok 1 ∧
    (plainRun (cfg .phoenix 0 .original .none) 55 [0, 0] [.train (pt 1) 1, .train (pt 0) 1, .train (pt 0) 0, .train (pt 0) 0]).bind
      (fun r => (scory exP r.1 (pt 2) 0).map (fun q => forestLabel q.2)) = .ok (some 0) := by decide +kernel

end Orp.Coarse
