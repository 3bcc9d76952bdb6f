import Verif.Hoeffding.Copies
import Verif.Hoeffding.Props

/-!
C138: a copy of a tree is another tree.
-/

namespace Orp.Hoeffding

set_option linter.unusedSectionVars false

variable {K : Type} [Field K] [LinearOrder K] [IsStrictOrderedRing K] {L : Nat}

/-- **C138**, the part that holds: a copy predicts what the original predicts when the copy is made. -/
theorem C138_same_when_copied_partial {p : Params K} (hp : p.Ok) {ops : List (Op K L)} {s0 s : Tree K L} (h0 : new p = .ok s0) (hr : run p ops s0 = .ok s) (x : Nat → K) :
    ∃ answer, copyPredict p (copyOf s) x = .ok answer ∧ predict p s x = .ok answer := by
  obtain ⟨h, hl, ht⟩ := Linked.start hp h0 hr
  exact ⟨answer h, (hl.predict_copy hp).1 ht x, hl.predict_one hp x⟩

/-- **C138** is violated, for every history: the original and the copy are never independent. Whatever the calls on the two, both predict what a single tree predicts
that has got all of these calls, unless a prediction of the copy is undefined behaviour. -/
theorem C138_never_independent {p : Params K} (hp : p.Ok) {ops : List (Op K L)} {s0 s : Tree K L} (h0 : new p = .ok s0) (hr : run p ops s0 = .ok s)
    {calls : List (PairOp K L)} {w : Pair K L} (hw : runPair p calls (copyOf s) = .ok w) :
    ∃ one, run p (ops ++ calls.map PairOp.asOne) s0 = .ok one ∧ (∀ x, predict p w.orig x = predict p one x) ∧
      ((∀ x, copyPredict p w x = predict p one x) ∨ ∀ x, copyPredict p w x = .error .ub) := by
  obtain ⟨h, hl, ht⟩ := Linked.start hp h0 hr
  obtain ⟨one, h', e1, e2, _, _⟩ := hl.runPair hp calls hw
  refine ⟨one, by rw [run_append ops _ hr]; exact e1, fun x => by rw [e2.predict_orig hp x, e2.predict_one hp x], ?_⟩
  by_cases c : Torn p w.copy
  · exact Or.inr ((e2.predict_copy hp).2 c).1
  · exact Or.inl (fun x => by rw [(e2.predict_copy hp).1 c x, e2.predict_one hp x])

/-- **C138** is violated: an original that has never been trained predicts the label its copy is trained with, for every point. -/
theorem C138_original_learns_from_copy {p : Params K} (hp : p.Ok) {ops : List (Op K L)} {s0 s : Tree K L} (h0 : new p = .ok s0) (hr : run p ops s0 = .ok s)
    (hn : labels ops = []) (x : Nat → K) (l : Fin L) {w : Pair K L} (hw : copyTrain p (copyOf s) x l = .ok w) (y : Nat → K) :
    ∃ scores, predict p w.orig y = .ok (l.val, scores) := by
  have hw' : runPair p [.trainCopy x l] (copyOf s) = .ok w := by simp only [runPair, execPair, hw, bind, Except.bind]
  obtain ⟨one, e1, e2, _⟩ := C138_never_independent hp h0 hr hw'
  have hlab : ∀ o : List (Op K L), labels o = [] → labels (o ++ [.train x l]) = [l] := by
    intro o
    induction o with
    | nil => intro _; rfl
    | cons a o ih =>
      intro ho
      cases a with
      | train _ _ => simp [labels] at ho
      | rootTrain _ _ => simp [labels] at ho
      | predict _ => simp only [labels, List.cons_append] at ho ⊢; exact ih ho
      | setLimits _ => simp only [labels, List.cons_append] at ho ⊢; exact ih ho
      | rootSplit _ _ => simp only [labels, List.cons_append] at ho ⊢; exact ih ho
  have hdrop : ∀ (o : List (Op K L)) (k : Nat), labels o = [] → labels (o.drop k) = [] := by
    intro o
    induction o with
    | nil => intro k _; simp [labels]
    | cons a o ih =>
      intro k ho
      cases k with
      | zero => exact ho
      | succ k =>
        rw [List.drop_succ_cons]
        apply ih
        cases a with
        | train _ _ => simp [labels] at ho
        | rootTrain _ _ => simp [labels] at ho
        | predict _ => exact ho
        | setLimits _ => exact ho
        | rootSplit _ _ => exact ho
  have hmap : ([.trainCopy x l] : List (PairOp K L)).map PairOp.asOne = [.train x l] := rfl
  rw [hmap] at e1
  have key : ∀ k, k ≤ ops.length → argmax (scoresOf (fun m => (hist ((ops ++ [(.train x l : Op K L)]).drop k) m : Int)) : List (Dbl K)) = l.val := by
    intro k hk
    have h1 : (ops ++ [(.train x l : Op K L)]).drop k = ops.drop k ++ [.train x l] := by rw [List.drop_append_of_le_length hk]
    have h2 := hlab _ (hdrop ops k hn)
    have hh : ∀ m, hist ((ops ++ [(.train x l : Op K L)]).drop k) m = if m = l then 1 else 0 := by
      intro m
      rw [h1]
      simp only [hist, h2, List.count_cons, List.count_nil]
      by_cases c : m = l
      · subst c; simp
      · have : ¬ (l == m) = true := by simpa using fun e => c e.symm
        simp [c, this]
    have hpos : 0 < ∑ m, hist ((ops ++ [(.train x l : Op K L)]).drop k) m := by
      have := Finset.single_le_sum (f := hist ((ops ++ [(.train x l : Op K L)]).drop k)) (fun i _ => Nat.zero_le _) (Finset.mem_univ l)
      rw [hh l] at this
      simp at this
      omega
    obtain ⟨hi, m1, m2⟩ := majority (K := K) hpos
    have m3 := m1 l
    rw [hh, hh] at m3
    simp only [if_true] at m3
    by_contra hne
    rw [if_neg (fun e => hne (congrArg Fin.val e))] at m3
    omega
  rcases run_cases hp h0 e1 with h | ⟨k, ⟨op, hop, _⟩, h⟩
  · have := key 0 (by omega)
    rw [List.drop_zero] at this
    refine ⟨scoresOf (fun m => (hist (ops ++ [(.train x l : Op K L)]) m : Int)), ?_⟩
    rw [e2 y, h.predict hp y, this]
  · have hk : k ≤ ops.length := by
      have := (List.getElem?_eq_some_iff.mp hop).1
      simp at this
      omega
    refine ⟨scoresOf (fun m => (hist ((ops ++ [(.train x l : Op K L)]).drop k) m : Int)), ?_⟩
    rw [e2 y, h.predict hp y, key k hk]

/-- **C138** is violated: when a training call on the copy makes the split (a single tree with the same calls gets it from one node to three), the copy is lost: every
later call on it is undefined behaviour. -/
theorem C138_split_destroys_copy {p : Params K} (hp : p.Ok) {ops : List (Op K L)} {s0 s : Tree K L} (h0 : new p = .ok s0) (hr : run p ops s0 = .ok s)
    {calls : List (PairOp K L)} {w w' : Pair K L} (hw : runPair p calls (copyOf s) = .ok w) (x : Nat → K) (l : Fin L) (hx : copyTrain p w x l = .ok w')
    {one one' : Tree K L} (h1 : run p (ops ++ calls.map PairOp.asOne) s0 = .ok one) (h2 : train p one x l = .ok one') (h3 : one.nodes.length = 1) (h4 : one'.nodes.length = 3) :
    (∀ y, copyPredict p w' y = .error .ub) ∧ ∀ y m, copyTrain p w' y m = .error .ub := by
  obtain ⟨h, hl, ht⟩ := Linked.start hp h0 hr
  obtain ⟨o, h', e1, e2, _, _⟩ := hl.runPair hp calls hw
  rw [run_append ops _ hr, e1] at h1
  have := Except.ok.inj h1; subst this
  obtain ⟨o', h'', f1, f2, f3⟩ := e2.step hp (op := .trainCopy x l) hx
  have : o' = one' := by
    have : train p o x l = .ok o' := f1
    rw [h2] at this
    exact (Except.ok.inj this).symm
  subst this
  exact (f2.predict_copy hp).2 (f3.mpr (Or.inr ⟨⟨x, l, rfl⟩, h3, h4⟩))

/-- **C138**, the part that holds: a copy that is not trained, or was made after the split, can always be used; it predicts what the original predicts. -/
theorem C138_copy_usable_partial {p : Params K} (hp : p.Ok) {ops : List (Op K L)} {s0 s : Tree K L} (h0 : new p = .ok s0) (hr : run p ops s0 = .ok s)
    {calls : List (PairOp K L)} {w : Pair K L} (hw : runPair p calls (copyOf s) = .ok w) (hc : (∀ x l, PairOp.trainCopy x l ∉ calls) ∨ s.nodes.length = 3) (x : Nat → K) :
    ∃ answer, copyPredict p w x = .ok answer ∧ predict p w.orig x = .ok answer := by
  obtain ⟨h, hl, ht⟩ := Linked.start hp h0 hr
  obtain ⟨one, h', e1, e2, e3, e4⟩ := hl.runPair hp calls hw
  have hn : ¬ Torn p w.copy := hc.elim (fun hc => e3 hc ht) (fun hc => e4 (by omega) ht)
  exact ⟨answer h', (e2.predict_copy hp).1 hn x, e2.predict_orig hp x⟩

/-- two points after which a single tree is split -/
theorem witness_states : ∃ s0 s one : Tree ℝ 2, new (Witness.params 284) = .ok s0 ∧
    run (Witness.params 284) [.setLimits Witness.limits, .train Witness.pointA 0] s0 = .ok s ∧ train (Witness.params 284) s Witness.pointB 1 = .ok one ∧
    s.nodes.length = 1 ∧ one.nodes.length = 3 := by
  have hp := Witness.params_ok 284
  obtain ⟨s0, t, root, right, left, h1, h2, h3, _⟩ := Witness.splits (size := 284) (le_refl _)
  have hcut : Witness.history = [.setLimits Witness.limits, .train Witness.pointA 0] ++ [.train Witness.pointB 1] := rfl
  cases hs : run (Witness.params 284) [.setLimits Witness.limits, .train Witness.pointA 0] s0 with
  | error e =>
    exfalso
    simp only [run, Witness.history, bind, Except.bind] at hs h2
    cases ha : exec (Witness.params 284) (.setLimits Witness.limits) s0 with
    | error e => rw [ha] at h2; cases h2
    | ok a =>
      simp only [ha] at hs h2
      cases hb : exec (Witness.params 284) (.train Witness.pointA 0) a with
      | error e => rw [hb] at h2; cases h2
      | ok b => simp only [hb] at hs; cases hs
  | ok s =>
    rw [hcut, run_append _ _ hs] at h2
    simp only [run, exec, bind, Except.bind] at h2
    cases ht : train (Witness.params 284) s Witness.pointB 1 with
    | error e => rw [ht] at h2; cases h2
    | ok one =>
      rw [ht] at h2
      have := Except.ok.inj h2; subst this
      refine ⟨s0, s, one, h1, hs, ht, ?_, by simp [h3]⟩
      obtain ⟨s0', s1, e0, e1, a1⟩ := Witness.start_at (size := 284) (by omega)
      rw [h1] at e0
      have := Except.ok.inj e0; subst this
      obtain ⟨s2, e2, a2⟩ := Witness.node_a (by omega) a1
      obtain ⟨s3, e3, _⟩ := Witness.node_b (by omega) a2
      obtain ⟨k1, o1, k2, o2, _⟩ := Witness.at_one (by omega) h1 e1 e2 e3
      have t1 : train (Witness.params 284) s1 Witness.pointA 0 = .ok s2 := by
        simp only [train, sort_one o1, e2, bind, Except.bind, pure, Except.pure]
      simp only [run, exec, e1, t1, bind, Except.bind] at hs
      have := Except.ok.inj hs; subst this
      exact o2.nodes_length

/-- the hypotheses of `C138_split_destroys_copy` are met: here the second point is given to a copy made after the first -/
example : ∃ (s0 s one : Tree ℝ 2) (w : Pair ℝ 2), new (Witness.params 284) = .ok s0 ∧
    run (Witness.params 284) [.setLimits Witness.limits, .train Witness.pointA 0] s0 = .ok s ∧ train (Witness.params 284) s Witness.pointB 1 = .ok one ∧
    s.nodes.length = 1 ∧ one.nodes.length = 3 ∧ copyTrain (Witness.params 284) (copyOf s) Witness.pointB 1 = .ok w ∧
    (∀ y, copyPredict (Witness.params 284) w y = .error .ub) ∧ ∀ y, ∃ answer, predict (Witness.params 284) w.orig y = .ok answer := by
  have hp := Witness.params_ok 284
  obtain ⟨s0, s, one, h1, h2, h3, h4, h5⟩ := witness_states
  obtain ⟨h, hl, ht⟩ := Linked.start hp h1 h2
  obtain ⟨w, hw⟩ := hl.copyTrain_ok hp (by rw [Fits, Witness.total_eq]; simp [Witness.params]) ht Witness.pointB 1
  have hd := C138_split_destroys_copy hp h1 h2 (calls := []) rfl Witness.pointB 1 hw (by simpa using h2) h3 h4 h5
  obtain ⟨_, h', _, e, _⟩ := hl.step hp (op := .trainCopy Witness.pointB 1) hw
  exact ⟨s0, s, one, w, h1, h2, h3, h4, h5, hw, hd.1, fun y => ⟨_, e.predict_orig hp y⟩⟩

/-- a new tree, copied, the copy trained with label 1 for a point: the original now predicts label 1 for it, not 0 as before -/
example : ∃ (s0 : Tree ℝ 2) (w : Pair ℝ 2) (scores : List (Dbl ℝ)), new (Witness.params 284) = .ok s0 ∧ copyTrain (Witness.params 284) (copyOf s0) Witness.pointA 1 = .ok w ∧
    predict (Witness.params 284) s0 Witness.pointA = .ok (0, List.replicate 2 .nan) ∧ predict (Witness.params 284) w.orig Witness.pointA = .ok (1, scores) := by
  have hp := Witness.params_ok 284
  obtain ⟨s0, _, _, h1, _⟩ := witness_states
  obtain ⟨h, hl, ht⟩ := Linked.start (ops := []) hp h1 rfl
  obtain ⟨w, hw⟩ := hl.copyTrain_ok hp (by rw [Fits, Witness.total_eq]; simp [Witness.params]) ht Witness.pointA 1
  obtain ⟨sc, h2⟩ := C138_original_learns_from_copy (ops := []) hp h1 rfl rfl Witness.pointA 1 hw Witness.pointA
  exact ⟨s0, w, sc, h1, hw, C51_untrained hp h1 Witness.pointA, h2⟩

end Orp.Hoeffding
