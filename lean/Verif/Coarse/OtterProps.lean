import Verif.Coarse.OtterRun

/-!
Property C112 of `CoarseMondrianForest`: `otter`, which judges the forest with a labelled point.
-/

set_option linter.unusedSectionVars false

namespace Orp.Coarse

open Finset
open Mondrian (Node Box Forest Params Tree Holds HoldsAll upd init OnlyCounts lt_of_get recountAll treeScores exω exP pt)

variable {K : Type} [Field K] [LinearOrder K] [IsStrictOrderedRing K] [FloorRing K] {F L : Nat}

/-! ### Specification -/

/-- the mean of the scores of some trees -/
def avg (l : List (Fin L → K)) : Fin L → K := fun j => (l.map (· j)).sum / l.length

/-- the mean over the trees of the margin of the forest without the tree -/
def marginWithout (l : List (Fin L → K)) (label : Fin L) : K := ((List.range l.length).map (fun i => evalScores (avg (l.eraseIdx i)) label)).sum / l.length

/-! ### Margins -/

theorem evalScores_zero (label : Fin L) : evalScores (fun _ => (0 : K)) label = 0 := by
  unfold evalScores
  obtain ⟨b, e1, e2, -⟩ := best_ofFn (fun _ : Fin L => (0 : K)) label
  simp only [e1, e2]
  split <;> simp

/-- the margin of a multiple -/
theorem evalScores_scale (a : K) (ha : 0 ≤ a) (score : Fin L → K) (label : Fin L) : evalScores (fun j => a * score j) label = a * evalScores score label := by
  rcases ha.lt_or_eq with ha | rfl
  · obtain ⟨b, e1, e2, e3, e4⟩ := best_ofFn score label
    obtain ⟨b', f1, f2, f3, f4⟩ := best_ofFn (fun j => a * score j) label
    have hb : b' = b := by
      rcases lt_trichotomy b' b with h | h | h
      · exact absurd ((mul_le_mul_iff_right₀ ha).1 (f3 b)) (not_le.2 (e4 b' h))
      · exact h
      · exact absurd (e3 b') (not_le.2 ((mul_lt_mul_iff_right₀ ha).1 (f4 b h)))
    subst hb
    have hs : secondBest (fun j => a * score j) label = secondBest score label := by
      unfold secondBest
      congr 1
      funext idx i
      simp only [mul_lt_mul_iff_right₀ ha]
    unfold evalScores
    simp only [e1, e2, f1, f2, hs]
    split <;> ring
  · simp only [zero_mul]
    exact evalScores_zero label

theorem sum_erase (l : List (Fin L → K)) (i : Nat) (hi : i < l.length) (j : Fin L) : (l.map (· j)).sum - l[i] j = ((l.eraseIdx i).map (· j)).sum := by
  have := ((List.getElem_cons_eraseIdx_perm hi).map (fun r : Fin L → K => r j)).sum_eq
  rw [← this, List.map_cons, List.sum_cons]
  ring

theorem avg_erase (l : List (Fin L → K)) (i : Nat) (hi : i < l.length) (j : Fin L) : ((l.map (· j)).sum - l[i] j) / ((l.length : K) - 1) = avg (l.eraseIdx i) j := by
  rw [avg, ← sum_erase l i hi, List.length_eraseIdx_of_lt hi, Nat.cast_sub (by omega), Nat.cast_one]

theorem avg_rows (rows : List ((Fin L → K) × (Fin L → K))) (i : Nat) (hi : i < rows.length) (j : Fin L) :
    ((rows.map (·.1 j)).sum - rows[i].1 j) / ((rows.length : K) - 1) = avg ((rows.map Prod.fst).eraseIdx i) j := by
  have := avg_erase (rows.map Prod.fst) i (by simpa using hi) j
  simpa only [List.map_map, List.length_map, List.getElem_map, Function.comp_def] using this

theorem comesOut_eq (rows : List ((Fin L → K) × (Fin L → K))) (label : Fin L) (h2 : 2 ≤ rows.length) :
    comesOut rows label = decide (marginWithout (rows.map Prod.fst) label < rows.length * evalScores (avg (rows.map Prod.snd)) label) := by
  have hne : rows.length ≠ 1 := by omega
  have hpos : (0 : K) < rows.length := by exact_mod_cast (by omega : 0 < rows.length)
  unfold comesOut
  simp only [if_neg hne]
  rw [← evalScores_scale _ hpos.le]
  have e1 : (fun j => (rows.length : K) * avg (rows.map Prod.snd) j) = fun j => (rows.map (·.2 j)).sum := by
    funext j
    rw [avg, List.length_map, List.map_map, mul_div_cancel₀ _ hpos.ne']
    rfl
  have e2 : rows.map (fun r => evalScores (fun j => ((rows.map (·.1 j)).sum - r.1 j) / ((rows.length : K) - 1)) label) =
      (List.range (rows.map Prod.fst).length).map (fun i => evalScores (avg ((rows.map Prod.fst).eraseIdx i)) label) := by
    refine List.ext_getElem (by simp) fun i h1 h3 => ?_
    rw [List.length_map] at h1
    simp only [List.getElem_map, List.getElem_range]
    congr 1
    funext j
    exact avg_rows rows i h1 j
  rw [e1, e2, marginWithout, List.length_map]

theorem changes_eq (rows : List ((Fin L → K) × (Fin L → K))) (label : Fin L) (i : Nat) (hi : i < rows.length) : (changes rows label)[i]? =
    some (((rows.length : K) - 1) / rows.length * evalScores (avg ((rows.map Prod.fst).eraseIdx i)) label - evalScores (avg (rows.map Prod.fst)) label) := by
  have hpos : (0 : K) < rows.length := by exact_mod_cast (by omega : 0 < rows.length)
  have h1 : (1 : K) ≤ rows.length := by exact_mod_cast (by omega : 1 ≤ rows.length)
  unfold changes
  rw [List.getElem?_map, List.getElem?_eq_getElem hi, Option.map_some]
  congr 2
  · rw [← evalScores_scale _ (div_nonneg (by linarith) hpos.le)]
    congr 1
    funext j
    rw [← avg_rows rows i hi]
    change (rows.map (·.1 j)).sum / (rows.length : K) - rows[i].1 j / rows.length = _ * (((rows.map (·.1 j)).sum - rows[i].1 j) / _)
    by_cases hn : rows.length = 1
    · obtain ⟨r, hr⟩ := List.length_eq_one_iff.1 hn
      subst hr
      have : i = 0 := by simp at hi; exact hi
      subst this
      simp
    · have : ((rows.length : K) - 1) ≠ 0 := by
        intro h
        apply hn
        have : (rows.length : K) = 1 := by linarith
        exact_mod_cast this
      field_simp
  · congr 1
    funext j
    rw [avg, List.length_map, List.map_map]
    rfl

/-! ### The theorems -/

theorem start_mates {c : Config K} {p : Params K} {ω : Nat → K} {maxSize sizeNode sizeBase : Nat} {junk : List Int} {last : Nat} {s0 : State K F L} {ops : List (Op K F L)}
    (h : Setting c p ω maxSize sizeNode sizeBase junk last s0 ops) : Mates c True s0.bases s0.forest.nodes.length junk.length s0 s0 := by
  obtain ⟨hnew, -⟩ := new_spec c maxSize sizeNode sizeBase junk last s0 h.made True (fun _ => trivial)
  exact ⟨Near.refl c s0, ⟨_, hnew, List.length_replicate⟩, ⟨_, hnew, List.length_replicate⟩⟩

/-- **C112** (partial) Without `EXTEND_GHOST` and with at least one tree, calls of `otter` have no influence: a history that is defined with them is defined without, and
takes the same random numbers; afterwards `train` returns the same value and uses the same random numbers, and `predict` returns the same label.
Missing: `EXTEND_GHOST`, see `C112_ghost`; no tree, see `C112_no_tree`. -/
theorem C112_no_influence_partial (c : Config K) (hc : c.extend ≠ .ghost) (p : Params K) (ω : Nat → K) (maxSize sizeNode sizeBase : Nat) (junk : List Int)
    (hj : junk ≠ []) (last : Nat) (s0 : State K F L) (calls : List (Call K F L)) (h : Setting c p ω maxSize sizeNode sizeBase junk last s0 (plainOps calls)) (pos : Nat)
    (s' : State K F L) (g : Gauge K) (pos' : Nat) (Ss : List (List K)) (hr : runJudge c p ω calls s0 (gauge0 junk.length) pos = .ok (s', g, pos', Ss)) :
    ∃ s, run c p ω (plainOps calls) s0 pos = .ok (s, pos') ∧
      (∀ x label, (train c p ω x label s pos').map Prod.snd = (train c p ω x label s' pos').map Prod.snd) ∧
      (∀ x use, Valid junk.length (.predict x use : Op K F L) → ∃ s1 s1' l, predict c p s x use = .ok (s1, l) ∧ predict c p s' x use = .ok (s1', l)) := by
  obtain ⟨s, e1, e2, -⟩ := (runJudge_spec hc h.exp0 h.discount h.lifetime h.random (List.length_pos_iff.2 hj) calls _ (start_mates h) h.valid pos).1 _ _ _ _ hr
  refine ⟨s, e1, fun x label => ?_, fun x use hv => e2.predict h.exp0 h.discount x use hv⟩
  have hrel := like_train c p ω x label e2.near.twin pos'
  cases hx : train c p ω x label s pos' <;> cases hy : train c p ω x label s' pos' <;> rw [hx, hy] at hrel
  · exact congrArg Except.error hrel
  · exact hrel.elim
  · exact hrel.elim
  · exact congrArg Except.ok hrel.2

/-- **C112** (partial) Every history that is defined without `otter` is defined with calls of it, and takes the same random numbers, if there is a tree and no tree can get
higher than 101, because there are at most 202 nodes or because of the depth limit.
Missing: the other cases, see `C112_ghost`, `C112_no_tree` and `C112_deep`. -/
theorem C112_defined_partial (c : Config K) (hc : c.extend ≠ .ghost) (p : Params K) (ω : Nat → K) (maxSize sizeNode sizeBase : Nat) (junk : List Int)
    (hj : junk ≠ []) (last : Nat) (s0 : State K F L) (hlow : s0.forest.nodes.length ≤ 202 ∨ c.isCobble = true ∧ c.sizeLimit ≤ 101)
    (calls : List (Call K F L)) (h : Setting c p ω maxSize sizeNode sizeBase junk last s0 (plainOps calls)) (pos : Nat)
    (s : State K F L) (pos' : Nat) (hr : run c p ω (plainOps calls) s0 pos = .ok (s, pos')) :
    ∃ s' g Ss, runJudge c p ω calls s0 (gauge0 junk.length) pos = .ok (s', g, pos', Ss) := by
  obtain ⟨-, -, -, hlim, -⟩ := new_spec c maxSize sizeNode sizeBase junk last s0 h.made True (fun _ => trivial)
  refine (runJudge_spec hc h.exp0 h.discount h.lifetime h.random (List.length_pos_iff.2 hj) calls _ (start_mates h) h.valid pos).2 ?_ s pos' hr
  rcases hlow with hlow | ⟨hcob, hlow⟩
  · exact .inl hlow
  · refine .inr ⟨hcob, fun b hb => ?_⟩
    rw [hlim hcob b hb]
    exact hlow

/-- **C112** The kept variables after any history: `count_direction` is the number of calls of `otter`, `sum_direction` is between its negative and itself, and for each
tree `sum_contribution` is the sum of the values of the calls where each call counts 0.95 times as much as the next one, and `count_contribution` is the sum of the weights. -/
theorem C112_kept (c : Config K) (hc : c.extend ≠ .ghost) (p : Params K) (ω : Nat → K) (maxSize sizeNode sizeBase : Nat) (junk : List Int)
    (hj : junk ≠ []) (last : Nat) (s0 : State K F L) (calls : List (Call K F L)) (h : Setting c p ω maxSize sizeNode sizeBase junk last s0 (plainOps calls)) (pos : Nat)
    (s' : State K F L) (g : Gauge K) (pos' : Nat) (Ss : List (List K)) (hr : runJudge c p ω calls s0 (gauge0 junk.length) pos = .ok (s', g, pos', Ss)) :
    Ss.length = judged calls ∧ g.count = judged calls ∧ |g.sum| ≤ judged calls ∧ g.trees.length = junk.length ∧
      ∀ i < junk.length, g.trees[i]? = some (faded (Ss.map (fun _ => 1)), faded (Ss.map (fun S => S.getD i 0))) := by
  obtain ⟨-, -, -, e⟩ := (runJudge_spec hc h.exp0 h.discount h.lifetime h.random (List.length_pos_iff.2 hj) calls _ (start_mates h) h.valid pos).1 _ _ _ _ hr
  obtain ⟨e1, e2⟩ := e.trees (by simp [gauge0])
  refine ⟨e.calls, by rw [e.count]; simp [gauge0], by simpa [gauge0] using e.sum, e1, fun i hi => ?_⟩
  rw [e2 i (0, 0) (by simp [gauge0, hi])]
  simp

/-- The contribution of a tree is a mean: it lies between the least and the greatest value of the calls. -/
theorem C112_mean (a b : K) : ∀ (l : List K), (∀ v ∈ l, a ≤ v ∧ v ≤ b) → a * faded (l.map (fun _ => 1)) ≤ faded l ∧ faded l ≤ b * faded (l.map (fun _ => 1))
  | [], _ => by simp [faded]
  | v :: l, h => by
      obtain ⟨i1, i2⟩ := C112_mean a b l (fun v hv => h v (List.mem_cons_of_mem _ hv))
      obtain ⟨h1, h2⟩ := h v (List.mem_cons_self ..)
      have hp : (0 : K) ≤ (95 / 100) ^ l.length := by positivity
      simp only [List.map_cons, faded, List.length_map]
      constructor
      · have := mul_le_mul_of_nonneg_right h1 hp
        linarith
      · have := mul_le_mul_of_nonneg_right h2 hp
        linarith

/-- **C112** (partial) One call of `otter` after any history. The value for a tree is the margin of the forest without the tree, times (n-1)/n for n trees, minus the margin of
the forest. `sum_direction` goes up if the margin of the forest of shorter trees, times n, is greater than the mean margin of the forests with one tree less; it goes down
otherwise, and for one tree.
Missing: the factor n, see `C112_direction_partial` and `C112_equal`. -/
theorem C112_values_partial (c : Config K) (hc : c.extend ≠ .ghost) (p : Params K) (ω : Nat → K) (maxSize sizeNode sizeBase : Nat) (junk : List Int)
    (hj : junk ≠ []) (last : Nat) (s0 : State K F L) (calls : List (Call K F L)) (h : Setting c p ω maxSize sizeNode sizeBase junk last s0 (plainOps calls)) (pos : Nat)
    (s : State K F L) (g : Gauge K) (pos' : Nat) (Ss : List (List K)) (hr : runJudge c p ω calls s0 (gauge0 junk.length) pos = .ok (s, g, pos', Ss))
    (x : Fin F → K) (label : Fin L) (s1 : State K F L) (g1 : Gauge K) (S : List K) (ho : otter p s g x label = .ok (s1, g1, S)) :
    ∃ trees rows, HoldsAll s.forest trees ∧ trees.length = junk.length ∧ rows.length = junk.length ∧ Rows p x (recountAll trees) rows ∧
      (∀ i < junk.length, S[i]? = some (((junk.length : K) - 1) / junk.length * evalScores (avg ((rows.map Prod.fst).eraseIdx i)) label -
        evalScores (avg (rows.map Prod.fst)) label)) ∧
      (junk.length = 1 → g1.sum = g.sum - 1) ∧
      (2 ≤ junk.length → g1.sum = if marginWithout (rows.map Prod.fst) label < junk.length * evalScores (avg (rows.map Prod.snd)) label then g.sum + 1 else g.sum - 1) := by
  obtain ⟨_, -, e2, -⟩ := (runJudge_spec hc h.exp0 h.discount h.lifetime h.random (List.length_pos_iff.2 hj) calls _ (start_mates h) h.valid pos).1 _ _ _ _ hr
  obtain ⟨trees, hg, hn⟩ := e2.right
  obtain ⟨o1, o2⟩ := otter_spec hc h.exp0 h.discount hg (by rw [hn]; exact List.length_pos_iff.2 hj) g x label
  by_cases hlow : ∀ t, some t ∈ trees → t.height ≤ 101
  · obtain ⟨s2, rows, f1, -, -, f4⟩ := o1 hlow
    rw [ho] at f1
    cases f1
    have hl := f4.length_eq
    rw [recountAll, List.length_map, hn] at hl
    refine ⟨trees, rows, hg.inv.mem.all, hn, hl.symm, f4, fun i hi => ?_, fun h1 => ?_, fun h2 => ?_⟩
    · rw [changes_eq rows label i (by omega), hl]
    · have : comesOut rows label = false := by
        unfold comesOut
        simp only [if_pos (hl.symm.trans h1)]
      rw [this]
      rfl
    · rw [comesOut_eq rows label (by omega), hl]
      simp only [Gauge.next, decide_eq_true_eq]
  · push Not at hlow
    obtain ⟨t, ht, hh⟩ := hlow
    rw [o2 ⟨t, ht, by omega⟩] at ho
    cases ho

/-- **C112** (partial) With at least two trees, if the margin of the forest of shorter trees is not negative and is greater than the mean margin of the forests with one tree less,
`sum_direction` goes up; if it is not positive and is not greater, `sum_direction` goes down.
Missing: the other two cases, see `C112_equal`. -/
theorem C112_direction_partial (c : Config K) (hc : c.extend ≠ .ghost) (p : Params K) (ω : Nat → K) (maxSize sizeNode sizeBase : Nat) (junk : List Int)
    (hj : 2 ≤ junk.length) (last : Nat) (s0 : State K F L) (calls : List (Call K F L)) (h : Setting c p ω maxSize sizeNode sizeBase junk last s0 (plainOps calls)) (pos : Nat)
    (s : State K F L) (g : Gauge K) (pos' : Nat) (Ss : List (List K)) (hr : runJudge c p ω calls s0 (gauge0 junk.length) pos = .ok (s, g, pos', Ss))
    (x : Fin F → K) (label : Fin L) (s1 : State K F L) (g1 : Gauge K) (S : List K) (ho : otter p s g x label = .ok (s1, g1, S)) :
    ∃ trees rows, HoldsAll s.forest trees ∧ trees.length = junk.length ∧ Rows p x (recountAll trees) rows ∧
      (0 ≤ evalScores (avg (rows.map Prod.snd)) label → marginWithout (rows.map Prod.fst) label < evalScores (avg (rows.map Prod.snd)) label → g1.sum = g.sum + 1) ∧
      (evalScores (avg (rows.map Prod.snd)) label ≤ 0 → evalScores (avg (rows.map Prod.snd)) label ≤ marginWithout (rows.map Prod.fst) label → g1.sum = g.sum - 1) := by
  have hne : junk ≠ [] := by
    rintro rfl
    simp at hj
  obtain ⟨trees, rows, e1, e2, -, e3, -, -, e4⟩ := C112_values_partial c hc p ω maxSize sizeNode sizeBase junk hne last s0 calls h pos s g pos' Ss hr x label s1 g1 S ho
  have hn : (1 : K) ≤ junk.length := by exact_mod_cast (by omega : 1 ≤ junk.length)
  refine ⟨trees, rows, e1, e2, e3, fun h0 hD => ?_, fun h0 hD => ?_⟩
  · rw [e4 hj, if_pos (lt_of_lt_of_le hD (by nlinarith))]
  · rw [e4 hj, if_neg (not_lt.2 (le_trans (by nlinarith) hD))]

/-- a new object with calls of `otter` -/
def judgeRun (c : Config ℚ) (maxSize : Nat) (junk : List Int) (calls : List (Call ℚ 1 2)) : Res (State ℚ 1 2 × Gauge ℚ × Nat × List (List ℚ)) := do
  let s ← new c maxSize 10 5 junk 0
  runJudge c exP (exω []) calls s (gauge0 junk.length) 0

/-- a history with three calls of `otter` -/
def exCalls : List (Call ℚ 1 2) := [.op (.train (pt 0) 0), .judge (pt 1) 1, .op (.train (pt 1) 1), .op (.train (pt 3) 1), .judge (pt 2) 1, .op (.predict (pt 2) none),
  .op (.train (pt 2) 1), .judge (pt 2) 0]

/-- a history with two trees -/
example : ∃ s0, Setting (cfg .phoenix 0 .original .none) exP (exω []) 85 10 5 [0, 0] 0 s0 (plainOps exCalls) ∧ (cfg .phoenix 0 .original .none).extend ≠ .ghost ∧
    s0.forest.nodes.length ≤ 202 ∧ (runJudge (cfg .phoenix 0 .original .none) exP (exω []) exCalls s0 (gauge0 2) 0).toOption.isSome = true :=
  ⟨_, ⟨by decide +kernel, by decide +kernel, by decide +kernel, fun i => ⟨(exω_pos i).1.le, (exω_pos i).2⟩, rfl, by simp [exCalls, plainOps, Valid, usedTrees]⟩, by decide, by decide +kernel,
    by decide +kernel⟩

/-! ### Violations -/

/-- **C112** (violation) If all trees give the same scores, also without their deepest levels, the forest of shorter trees has the same margin as a forest with one tree less.
Nevertheless `sum_direction` goes up whenever this margin is positive. -/
theorem C112_equal (r : (Fin L → K) × (Fin L → K)) (h : r.1 = r.2) (n : Nat) (h2 : 2 ≤ n) (label : Fin L) :
    evalScores (avg ((List.replicate n r).map Prod.snd)) label = marginWithout ((List.replicate n r).map Prod.fst) label ∧
    comesOut (List.replicate n r) label = decide (0 < evalScores r.1 label) := by
  have ha : ∀ (m : Nat), 1 ≤ m → avg (List.replicate m r.1) = r.1 := by
    intro m hm
    have : (m : K) ≠ 0 := by exact_mod_cast (by omega : m ≠ 0)
    funext j
    rw [avg, List.map_replicate, List.sum_replicate, List.length_replicate, nsmul_eq_mul, mul_div_cancel_left₀ _ this]
  have hn : (n : K) ≠ 0 := by exact_mod_cast (by omega : n ≠ 0)
  have hD : marginWithout ((List.replicate n r).map Prod.fst) label = evalScores r.1 label := by
    rw [marginWithout, List.map_replicate, List.length_replicate]
    have : (List.range n).map (fun i => evalScores (avg ((List.replicate n r.1).eraseIdx i)) label) = List.replicate n (evalScores r.1 label) := by
      refine List.ext_getElem (by simp) fun i h1 h3 => ?_
      rw [List.length_replicate] at h3
      simp only [List.getElem_map, List.getElem_range, List.getElem_replicate]
      rw [List.eraseIdx_replicate, if_pos h3, ha _ (by omega)]
    rw [this, List.sum_replicate, nsmul_eq_mul, mul_div_cancel_left₀ _ hn]
  have hM : avg ((List.replicate n r).map Prod.snd) = r.1 := by
    rw [List.map_replicate, ← h]
    exact ha n (by omega)
  refine ⟨by rw [hD, hM], ?_⟩
  rw [comesOut_eq _ _ (by simpa using h2), hD, hM, List.length_replicate]
  have h1 : (1 : K) < n := by exact_mod_cast (by omega : 1 < n)
  refine decide_eq_decide.2 ⟨fun hl => ?_, fun hl => ?_⟩
  · by_contra h0
    nlinarith
  · nlinarith

/-- This happens: two trees with one node each after two points. -/
theorem C112_equal_reached :
    (judgeRun (cfg .phoenix 0 .original .none) 85 [0, 0] [.op (.train (pt 0) 1), .op (.train (pt 0) 1), .judge (pt 0) 1]).map (fun r => r.2.1.sum) = .ok 1 ∧
    (judgeRun (cfg .phoenix 0 .original .none) 85 [0, 0] [.op (.train (pt 0) 1), .op (.train (pt 0) 1)]).bind
      (fun r => (judgeLoop exP r.1.forest (pt 0) r.1.forest.roots).map (fun rows => rows.map (fun q => (q.1 0, q.1 1, q.2 0, q.2 1)))) =
      .ok [(1 / 10, 13 / 40, 1 / 10, 13 / 40), (1 / 10, 13 / 40, 1 / 10, 13 / 40)] := by decide +kernel

/-- **C112** (violation) Without trees `otter` is undefined behaviour; without it the history is defined. -/
theorem C112_no_tree : (plainRun (cfg .phoenix 0 .original .none) 20 [] [.train (pt 0) 0]).toOption.isSome = true ∧
    (judgeRun (cfg .phoenix 0 .original .none) 20 [] [.op (.train (pt 0) 0), .judge (pt 0) 0]).toOption.isSome = false := by decide +kernel

/-- **C112** (violation) With `EXTEND_GHOST` `otter` counts the points of split nodes anew, and labels change. -/
theorem C112_ghost :
    (plainRun (cfg .phoenix 0 .ghost .none) 85 [0] [.train (pt 1) 1, .train (pt 1) 1, .train (pt 0) 0, .train (pt 0) 0]).bind
      (fun r => (predict (cfg .phoenix 0 .ghost .none) exP r.1 (pt 1) none).map Prod.snd) = .ok 1 ∧
    (judgeRun (cfg .phoenix 0 .ghost .none) 85 [0] [.op (.train (pt 1) 1), .op (.train (pt 1) 1), .op (.train (pt 0) 0), .judge (pt 0) 0, .op (.train (pt 0) 0)]).bind
      (fun r => (predict (cfg .phoenix 0 .ghost .none) exP r.1 (pt 1) none).map Prod.snd) = .ok 0 := by decide +kernel

/-- **C112** (violation) After 102 points of one feature a tree can have height 102. Then `otter` is undefined behaviour. -/
theorem C112_deep : ∃ (c : Config ℚ) (s0 s : State ℚ 1 2) (pos' : Nat), Setting c exP (exω []) 2055 10 5 [0] 0 s0 ([.train (far 0) 0] ++ farOps 101) ∧
    run c exP (exω []) ([.train (far 0) 0] ++ farOps 101) s0 0 = .ok (s, pos') ∧ ∀ g x label, otter exP s g x label = .error .ub := by
  obtain ⟨s0, h0⟩ : ∃ s0, new (cfg .cobble 200 .original .none) 2055 10 5 [0] 0 = .ok (s0 : State ℚ 1 2) := ⟨_, rfl⟩
  obtain ⟨g, gt, -, -, gn⟩ := new_spec (cfg .cobble 200 .original .none) 2055 10 5 [0] 0 s0 h0 True (fun _ => trivial)
  have hn : s0.forest.nodes.length = 205 := by cases h0; decide +kernel
  rw [hn] at g
  obtain ⟨s1, e1, e2⟩ := deep_first (cfg .cobble 200 .original .none) rfl rfl 205 (by omega) s0 10 5 2055 0 0 h0 hn 0
  rcases train_spec True (cfg .cobble 200 .original .none) exP (by norm_num [exP]) (exω []) (fun i => ⟨(exω_pos i).1.le, (exω_pos i).2⟩) (fun _ _ => trivial) (far 0) 0 True _
    (fun _ _ _ => Or.inr trivial) 205 s0 _ 0 g with ⟨-, e, hx⟩ | ⟨s3, pos3, r3, trees3, g1, g2, g3, -⟩
  · rw [e1] at hx; cases hx
  rw [e1] at g1
  cases g1
  obtain ⟨s2, pos2, f1, f2, f3, treesG, f4⟩ := deep_reach (cfg .cobble 200 .original .none) rfl rfl rfl 205 200 (by omega) (by omega) _ s1 0 e2 ⟨_, g2⟩ 101 le_rfl
  have hset : Setting (cfg .cobble 200 .original .none) exP (exω []) 2055 10 5 [0] 0 s0 ([.train (far 0) 0] ++ farOps 101) := by
    refine ⟨by decide +kernel, by decide +kernel, by decide +kernel, fun i => ⟨(exω_pos i).1.le, (exω_pos i).2⟩, h0, fun op hop => ?_⟩
    rcases List.mem_append.1 hop with hop | hop
    · rw [List.mem_singleton] at hop
      subst hop
      trivial
    · obtain ⟨i, -, rfl⟩ := List.mem_map.1 hop
      trivial
  have hrun : run (cfg .cobble 200 .original .none) exP (exω []) ([.train (far 0) 0] ++ farOps 101) s0 0 = .ok (s2, pos2) := by
    rw [List.singleton_append, run]
    simp only [exec, e1, bind, Except.bind, pure, Except.pure, f1]
  refine ⟨_, s0, s2, pos2, hset, hrun, fun g x label => ?_⟩
  obtain ⟨t, b, hI, k1, k2, k3, k4, k5, -⟩ := f2
  have htrees : treesG = [some t] := Mondrian.C52_trees_unique f4.inv.mem.all hI.mem.all
  subst htrees
  exact (otter_spec (by decide) hset.exp0 hset.discount f4 (by simp) g x label).2 ⟨t, by simp, by omega⟩

end Orp.Coarse
