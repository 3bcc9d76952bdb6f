import Verif.Mondrian.Forest
import Verif.Utils.Lemmas

/-!
Prediction: the counters of the split nodes are recomputed, nothing else changes, and no division by zero is made.
-/

namespace Orp.Mondrian

set_option linter.unusedSectionVars false

variable {K : Type} [Field K] [LinearOrder K] [IsStrictOrderedRing K] [FloorRing K] {F L : Nat}

theorem recount_id : ∀ t : Tree K F L, t.recount.id = t.id
  | .leaf _ _ => rfl
  | .node _ _ _ _ _ _ => rfl

theorem recount_ids : ∀ t : Tree K F L, t.recount.ids = t.ids
  | .leaf _ _ => rfl
  | .node _ _ _ _ l r => by simp [Tree.recount, Tree.ids, recount_ids l, recount_ids r]

theorem recount_recount : ∀ t : Tree K F L, t.recount.recount = t.recount
  | .leaf _ _ => rfl
  | .node _ _ _ _ l r => by simp [Tree.recount, recount_recount l, recount_recount r]

theorem recount_height : ∀ t : Tree K F L, t.recount.height = t.height
  | .leaf _ _ => rfl
  | .node _ _ _ _ l r => by simp [Tree.recount, Tree.height, recount_height l, recount_height r]

theorem recount_right : ∀ {t : Tree K F L} {pts : List (Point K F L)}, Right pts t → Right pts t.recount
  | .leaf _ _, _, h => h
  | .node _ _ _ _ _ _, _, h => ⟨h.1, recount_right h.2.1, recount_right h.2.2⟩

theorem recount_times {R : K → K → Prop} {lifetime : K} : ∀ {t : Tree K F L} {ptau : K}, Times R lifetime ptau t → Times R lifetime ptau t.recount
  | .leaf _ _, _, h => h
  | .node _ _ _ _ _ _, _, h => ⟨h.1, h.2.1, recount_times h.2.2.1, recount_times h.2.2.2⟩

/-- the counters that a tree asks for are those of the pool -/
theorem holds_counts {nodes nodes' : List (Node K F L)} : ∀ {t : Tree K F L} {par : Option Nat}, Holds nodes par t → Holds nodes' par t → ∀ i ∈ t.ids,
    (nodes[i]?).map (fun n => n.counts) = (nodes'[i]?).map (fun n => n.counts)
  | .leaf id d, par, ⟨n, h1, h2, _⟩, ⟨n', h1', h2', _⟩, i, hi => by
      simp only [Tree.ids, List.mem_singleton] at hi
      subst hi
      rw [h1, h1']
      simp [h2.2.2.2, h2'.2.2.2]
  | .node id d dim sp l r, par, ⟨⟨n, h1, h2, _⟩, hl, hr⟩, ⟨⟨n', h1', h2', _⟩, hl', hr'⟩, i, hi => by
      simp only [Tree.ids, List.mem_cons, List.mem_append] at hi
      rcases hi with rfl | hi | hi
      · rw [h1, h1']
        simp [h2.2.2.2, h2'.2.2.2]
      · exact holds_counts hl hl' i hi
      · exact holds_counts hr hr' i hi

/-- only counters of split nodes differ -/
def OnlyCounts (nodes nodes' : List (Node K F L)) : Prop :=
  nodes'.length = nodes.length ∧ ∀ (i : Nat) (n : Node K F L), nodes[i]? = some n →
    ∃ c, nodes'[i]? = some { n with counts := c } ∧ (n.dim = none → c = n.counts)

theorem OnlyCounts.refl (nodes : List (Node K F L)) : OnlyCounts nodes nodes := ⟨rfl, fun _ n h => ⟨n.counts, h, fun _ => rfl⟩⟩

theorem OnlyCounts.trans {a b c : List (Node K F L)} (h1 : OnlyCounts a b) (h2 : OnlyCounts b c) : OnlyCounts a c := by
  refine ⟨h2.1.trans h1.1, fun i n hn => ?_⟩
  obtain ⟨d, hd, hd'⟩ := h1.2 i n hn
  obtain ⟨e, he, he'⟩ := h2.2 i _ hd
  exact ⟨e, he, fun h => (he' h).trans (hd' h)⟩

theorem min_eq (a b : Nat) : Utils.min a b = min a b := by
  unfold Utils.min
  split <;> omega

theorem updateCount_spec : ∀ (t : Tree K F L) (par : Option Nat) (fuel : Nat) (nodes : List (Node K F L)), t.height ≤ fuel → t.ids.Nodup →
    Holds nodes par t → ∃ nodes', updateCount fuel t.id nodes = .ok nodes' ∧ Holds nodes' par t.recount ∧ OnlyCounts nodes nodes' ∧
      ∀ i, i ∉ t.ids → nodes'[i]? = nodes[i]?
  | .leaf id d, par, 0, nodes, hf, _, _ => by simp [Tree.height] at hf
  | .node id d dim sp l r, par, 0, nodes, hf, _, _ => by simp [Tree.height] at hf
  | .leaf id d, par, fuel + 1, nodes, hf, _, h => by
      refine ⟨nodes, ?_, h, .refl _, fun _ _ => rfl⟩
      obtain ⟨n, h1, h2, h3⟩ := h
      simp only [updateCount, Tree.id, rd_eq_ok_iff.2 h1, bind, Except.bind, h3, pure, Except.pure]
  | .node id d dim sp l r, par, fuel + 1, nodes, hf, hnd, h => by
      obtain ⟨⟨n, h1, h2, h3, h4, h5, h6⟩, hl, hr⟩ := h
      simp only [Tree.height] at hf
      have hfl : l.height ≤ fuel := le_trans (Nat.le_max_left l.height r.height) (Nat.le_of_succ_le_succ hf)
      have hfr : r.height ≤ fuel := le_trans (Nat.le_max_right l.height r.height) (Nat.le_of_succ_le_succ hf)
      simp only [Tree.ids, List.nodup_cons] at hnd
      obtain ⟨hid, hnd⟩ := hnd
      obtain ⟨ndl, ndr, hdis⟩ := List.nodup_append'.1 hnd
      have hidl : id ∉ l.ids := fun h => hid (List.mem_append.2 (Or.inl h))
      have hidr : id ∉ r.ids := fun h => hid (List.mem_append.2 (Or.inr h))
      obtain ⟨n1, a1, a2, a3, a4⟩ := updateCount_spec l (some id) fuel nodes hfl ndl hl
      obtain ⟨n2, b1, b2, b3, b4⟩ := updateCount_spec r (some id) fuel n1 hfr ndr (holds_congr (fun i hi => a4 i (fun hi' => hdis hi' hi)) hr)
      have a2' : Holds n2 (some id) l.recount := holds_congr (fun i hi => b4 i (fun hi' => hdis (recount_ids l ▸ hi) hi')) a2
      obtain ⟨nl, hnl, el⟩ := holds_root a2'
      obtain ⟨nr, hnr, er⟩ := holds_root b2
      rw [recount_id] at hnl hnr
      have hid2 : n2[id]? = some n := by rw [b4 _ hidr, a4 _ hidl, h1]
      obtain ⟨n3, u1, l1, g1⟩ := upd_spec (fun (n : Node K F L) => { n with counts := fun i => Utils.min 1 (nl.counts i) + Utils.min 1 (nr.counts i) }) hid2
      refine ⟨n3, ?_, ⟨⟨{ n with counts := fun i => Utils.min 1 (nl.counts i) + Utils.min 1 (nr.counts i) }, by rw [g1, if_pos rfl],
        ⟨h2.1, h2.2.1, h2.2.2.1, ?_⟩, h3, h4, by rw [recount_id]; exact h5, by rw [recount_id]; exact h6⟩, ?_, ?_⟩, ?_, ?_⟩
      · show updateCount (fuel + 1) id nodes = _
        simp only [updateCount, rd_eq_ok_iff.2 h1, bind, Except.bind, h3, h5, h6, init, a1, b1, rd_eq_ok_iff.2 hnl, rd_eq_ok_iff.2 hnr, u1]
      · funext i
        simp only [min_eq, el.2.2.2, er.2.2.2]
      · refine holds_congr (fun i hi => ?_) a2'
        rw [g1, if_neg]; rintro rfl; exact hidl (recount_ids l ▸ hi)
      · refine holds_congr (fun i hi => ?_) b2
        rw [g1, if_neg]; rintro rfl; exact hidr (recount_ids r ▸ hi)
      · refine (a3.trans b3).trans ⟨l1, fun i m hm => ?_⟩
        by_cases hi : i = id
        · subst hi
          rw [hid2] at hm
          have := Option.some.inj hm
          subst this
          exact ⟨_, by rw [g1, if_pos rfl], fun h => by rw [h3] at h; cases h⟩
        · exact ⟨m.counts, by rw [g1, if_neg hi, hm], fun _ => rfl⟩
      · intro i hi
        simp only [Tree.ids, List.mem_cons, List.mem_append, not_or] at hi
        rw [g1, if_neg hi.1, b4 _ hi.2.2, a4 _ hi.2.1]

theorem updateCounts_spec (fuel : Nat) : ∀ (trees : List (Option (Tree K F L))) (nodes : List (Node K F L)), (∀ t, some t ∈ trees → t.height ≤ fuel) →
    (allIds trees).Nodup → (∀ t, some t ∈ trees → Holds nodes none t) →
    ∃ nodes', updateCounts fuel (trees.map (fun t => t.map Tree.id)) nodes = .ok nodes' ∧ (∀ t, some t ∈ trees → Holds nodes' none t.recount) ∧
      OnlyCounts nodes nodes' ∧ ∀ i, i ∉ allIds trees → nodes'[i]? = nodes[i]?
  | [], nodes, _, _, _ => ⟨nodes, rfl, by simp, .refl _, fun _ _ => rfl⟩
  | none :: trees, nodes, hf, hnd, hh => by
      obtain ⟨nodes', a1, a2, a3, a4⟩ := updateCounts_spec fuel trees nodes (fun t ht => hf t (List.mem_cons_of_mem _ ht)) hnd
        (fun t ht => hh t (List.mem_cons_of_mem _ ht))
      refine ⟨nodes', a1, fun t ht => ?_, a3, a4⟩
      rcases List.mem_cons.1 ht with h | h
      · cases h
      · exact a2 t h
  | some u :: trees, nodes, hf, hnd, hh => by
      rw [allIds_cons] at hnd
      obtain ⟨ndu, ndt, hdis⟩ := List.nodup_append'.1 hnd
      obtain ⟨n1, b1, b2, b3, b4⟩ := updateCount_spec u none fuel nodes (hf u (by simp)) ndu (hh u (by simp))
      have hne : ∀ t, some t ∈ trees → ∀ i ∈ t.ids, i ∉ u.ids := fun t ht i hi hi' =>
        hdis hi' (List.mem_flatMap.2 ⟨some t, ht, hi⟩)
      obtain ⟨nodes', a1, a2, a3, a4⟩ := updateCounts_spec fuel trees n1 (fun t ht => hf t (List.mem_cons_of_mem _ ht)) ndt
        (fun t ht => holds_congr (fun i hi => b4 i (hne t ht i hi)) (hh t (List.mem_cons_of_mem _ ht)))
      refine ⟨nodes', ?_, fun t ht => ?_, b3.trans a3, fun i hi => ?_⟩
      · simp only [List.map_cons, Option.map_some, updateCounts, bind, Except.bind, b1]
        exact a1
      · rcases List.mem_cons.1 ht with h | h
        · have := Option.some.inj h
          subst this
          exact holds_congr (fun i hi => a4 i (fun hi' => hdis (show i ∈ t.ids from recount_ids t ▸ hi) hi')) b2
        · exact a2 t h
      · rw [allIds_cons, List.mem_append, not_or] at hi
        rw [a4 i hi.2, b4 i hi.1]

theorem OnlyCounts.avail {nodes nodes' : List (Node K F L)} (h : OnlyCounts nodes nodes') : avail nodes' = avail nodes := by
  show (List.range nodes'.length).filter _ = (List.range nodes.length).filter _
  rw [h.1]
  apply List.filter_congr
  intro i hi
  have hi := List.mem_range.1 hi
  obtain ⟨c, hc, -⟩ := h.2 i _ (List.getElem?_eq_getElem hi)
  rw [hc, List.getElem?_eq_getElem hi]
  rfl

/-- the forest after a prediction -/
def recountAll (trees : List (Option (Tree K F L))) : List (Option (Tree K F L)) := trees.map (fun t => t.map Tree.recount)

theorem recountAll_ids (trees : List (Option (Tree K F L))) : allIds (recountAll trees) = allIds trees := by
  induction trees with
  | nil => rfl
  | cons o os ih =>
      rw [recountAll, List.map_cons, allIds_cons, allIds_cons]
      have : allIds (List.map (fun t => Option.map Tree.recount t) os) = allIds os := ih
      rw [this]
      cases o with
      | none => rfl
      | some t => simp only [Option.map_some, oids, recount_ids]

theorem Inv.recount {s : Forest K F L} {trees : List (Option (Tree K F L))} {lost : List Nat} (h : Inv s trees lost) :
    ∃ nodes', updateCounts s.nodes.length s.roots s.nodes = .ok nodes' ∧ Inv { s with nodes := nodes' } (recountAll trees) lost ∧
      OnlyCounts s.nodes nodes' ∧ ∀ i, i ∉ allIds trees → nodes'[i]? = s.nodes[i]? := by
  obtain ⟨nodes', a1, a2, a3, a4⟩ := updateCounts_spec s.nodes.length trees s.nodes
    (fun t ht => by obtain ⟨j, hj⟩ := List.mem_iff_getElem?.1 ht; exact h.height_le hj) h.all.nodup h.all.holds
  have hav := a3.avail
  refine ⟨nodes', by rw [h.all.roots]; exact a1, ⟨⟨?_, ?_, ?_⟩, ?_, ?_, h.one, fun hl => hav.trans (h.empty hl)⟩, a3, a4⟩
  · show s.roots = _
    rw [h.all.roots, recountAll, List.map_map]
    apply List.map_congr_left
    intro o _
    cases o with
    | none => rfl
    | some t => simp [recount_id]
  · intro t ht
    obtain ⟨o, ho, e⟩ := List.mem_map.1 ht
    cases o with
    | none => cases e
    | some u =>
        have := Option.some.inj e
        subst this
        exact a2 u ho
  · rw [recountAll_ids]; exact h.all.nodup
  · intro i n hn hneg
    have hi : i ∈ avail s.nodes := by rw [← hav]; exact mem_avail.2 ⟨n, hn, hneg⟩
    have : nodes'[i]? = s.nodes[i]? := a4 i (fun hi' => h.used hi' hi)
    have hn' : nodes'[i]? = some n := hn
    rw [this] at hn'
    exact h.clean i n hn' hneg
  · show List.Perm (avail nodes' ++ _) (List.range nodes'.length)
    rw [hav, recountAll_ids, a3.1]; exact h.cover

/-! ### The scores of a tree -/

/-- what `compute_posterior_mean` computes from the data of a node and the time of its parent -/
def meanOf (p : Params K) (d : Data K F L) (ptau : K) (pm : Fin L → K) : Fin L → K :=
  let disc := p.exp (p.discount * (d.tau - ptau))
  let sumC : K := ∑ i, (d.counts i : K)
  let tab : Fin L → K := fun i => ((Utils.min (d.counts i) 1 : Nat) : K)
  let sumTab := ∑ i, tab i
  fun i => if 0 < d.counts i then ((d.counts i : K) - disc * tab i) / sumC + (disc * sumTab * pm i) / sumC else pm i

/-- what `predict_tree` computes from a tree -/
def scores (p : Params K) (x : Fin F → K) : Tree K F L → (ptau notSep : K) → (pm sm : Fin L → K) → Res (Fin L → K)
  | .leaf _ d, ptau, notSep, pm, sm => do
      let pb := 1 - p.exp (-(d.tau - 0) * eta d.box x)
      let sm ← smooth p { (blank : Node K F L) with counts := d.counts } pb (d.tau - 0) (eta d.box x) notSep pm sm
      let pm := meanOf p d ptau pm
      return fun l => sm l + notSep * (1 - pb) * pm l
  | .node _ d dim sp l r, ptau, notSep, pm, sm => do
      let pb := 1 - p.exp (-(d.tau - 0) * eta d.box x)
      let sm ← smooth p { (blank : Node K F L) with counts := d.counts } pb (d.tau - 0) (eta d.box x) notSep pm sm
      let pm := meanOf p d ptau pm
      if x dim ≤ sp then scores p x l d.tau (notSep * (1 - pb)) pm sm else scores p x r d.tau (notSep * (1 - pb)) pm sm

theorem smooth_congr (p : Params K) {n m : Node K F L} (h : n.counts = m.counts) (pb dt e ns : K) (pm sm : Fin L → K) :
    smooth p n pb dt e ns pm sm = smooth p m pb dt e ns pm sm := by
  unfold smooth
  rw [h]

theorem posteriorMean_spec (p : Params K) {nodes : List (Node K F L)} {n : Node K F L} {par : Option Nat} {d : Data K F L} {ptau : K}
    (hpar : (match par with
      | some q => (rd nodes q).map (·.tau)
      | none => .ok 0 : Res K) = .ok ptau) (h : n.Has par d) (pm : Fin L → K) : computePosteriorMean p nodes n pm = .ok (meanOf p d ptau pm) := by
  unfold computePosteriorMean
  rw [h.1]
  cases par with
  | none =>
      have : (0 : K) = ptau := Except.ok.inj hpar
      subst this
      simp only [bind, Except.bind, pure, Except.pure, meanOf, h.2.1, h.2.2.2]
  | some q =>
      simp only at hpar
      simp only [hpar, bind, Except.bind, pure, Except.pure, meanOf, h.2.1, h.2.2.2]

theorem predictLoop_spec (p : Params K) (nodes : List (Node K F L)) (x : Fin F → K) : ∀ (t : Tree K F L) (par : Option Nat) (ptau : K) (fuel : Nat)
    (notSep : K) (pm sm : Fin L → K), t.height ≤ fuel → Holds nodes par t →
    (match par with
      | some q => (rd nodes q).map (·.tau)
      | none => .ok 0 : Res K) = .ok ptau →
    predictLoop p nodes x fuel (some t.id) notSep pm sm = scores p x t ptau notSep pm sm
  | .leaf id d, par, ptau, 0, notSep, pm, sm, hf, _, _ => by simp [Tree.height] at hf
  | .node id d dim sp l r, par, ptau, 0, notSep, pm, sm, hf, _, _ => by simp [Tree.height] at hf
  | .leaf id d, par, ptau, fuel + 1, notSep, pm, sm, hf, h, hpar => by
      obtain ⟨n, h1, h2, h3⟩ := h
      have e1 := posteriorMean_spec p hpar h2 pm
      show predictLoop p nodes x (fuel + 1) (some id) notSep pm sm = _
      simp only [predictLoop, scores, bind, Except.bind, rd_eq_ok_iff.2 h1, h2.2.2.1, init, h2.2.1]
      rw [smooth_congr p (m := { (blank : Node K F L) with counts := d.counts }) h2.2.2.2]
      cases smooth p { (blank : Node K F L) with counts := d.counts } (1 - p.exp (-(d.tau - 0) * eta d.box x)) (d.tau - 0) (eta d.box x) notSep pm sm with
      | error e => rfl
      | ok sm => simp only [e1, h3]
  | .node id d dim sp l r, par, ptau, fuel + 1, notSep, pm, sm, hf, h, hpar => by
      obtain ⟨⟨n, h1, h2, h3, h4, h5, h6⟩, hl, hr⟩ := h
      simp only [Tree.height] at hf
      have hfl : l.height ≤ fuel := le_trans (Nat.le_max_left l.height r.height) (Nat.le_of_succ_le_succ hf)
      have hfr : r.height ≤ fuel := le_trans (Nat.le_max_right l.height r.height) (Nat.le_of_succ_le_succ hf)
      have e1 := posteriorMean_spec p hpar h2 pm
      have e2 : (match (some id : Option Nat) with
        | some q => (rd nodes q).map (·.tau)
        | none => .ok 0 : Res K) = .ok d.tau := by
        simp only [rd_eq_ok_iff.2 h1, Except.map, h2.2.1]
      show predictLoop p nodes x (fuel + 1) (some id) notSep pm sm = _
      simp only [predictLoop, scores, bind, Except.bind, rd_eq_ok_iff.2 h1, h2.2.2.1, init, h2.2.1]
      rw [smooth_congr p (m := { (blank : Node K F L) with counts := d.counts }) h2.2.2.2]
      cases smooth p { (blank : Node K F L) with counts := d.counts } (1 - p.exp (-(d.tau - 0) * eta d.box x)) (d.tau - 0) (eta d.box x) notSep pm sm with
      | error e => rfl
      | ok sm =>
          simp only [e1, h3, h4]
          by_cases hx : x dim ≤ sp
          · simp only [if_pos hx, h5]
            exact predictLoop_spec p nodes x l (some id) d.tau fuel _ _ _ hfl hl e2
          · simp only [if_neg hx, h6]
            exact predictLoop_spec p nodes x r (some id) d.tau fuel _ _ _ hfr hr e2

/-- what `predict_tree` computes for a tree or a missing tree -/
def treeScores (p : Params K) (x : Fin F → K) : Option (Tree K F L) → Res (Fin L → K)
  | none => .ok (fun _ => p.base)
  | some t => scores p x t 0 1 (fun _ => p.base) (fun _ => 0)

/-- the sum over the trees -/
def totals (p : Params K) (x : Fin F → K) : List (Option (Tree K F L)) → (Fin L → K) → Res (Fin L → K)
  | [], acc => .ok acc
  | o :: os, acc => do
      let pm ← treeScores p x o
      totals p x os (fun k => acc k + pm k)

/-- the label that the forest predicts -/
def label (p : Params K) (x : Fin F → K) (trees : List (Option (Tree K F L))) : Res Nat := do
  let sum ← totals p x trees (fun _ => 0)
  if trees.length = 0 then .error .ub
  else return Utils.indexMax (List.ofFn (fun k => sum k / (trees.length : K)))

theorem sumLoop_spec (p : Params K) (s : Forest K F L) (x : Fin F → K) : ∀ (trees : List (Option (Tree K F L))) (acc : Fin L → K),
    (∀ t, some t ∈ trees → t.height ≤ s.nodes.length ∧ Holds s.nodes none t) →
    sumLoop p s x (trees.map (fun t => t.map Tree.id)) acc = totals p x trees acc
  | [], acc, _ => rfl
  | o :: os, acc, h => by
      have e : predictTree p s x (o.map Tree.id) = treeScores p x o := by
        cases o with
        | none => rw [treeScores, predictTree, Option.map_none]; cases s.nodes.length <;> rfl
        | some t => exact predictLoop_spec p s.nodes x t none 0 _ _ _ _ (h t (by simp)).1 (h t (by simp)).2 rfl
      simp only [List.map_cons, sumLoop, totals, e, bind, Except.bind]
      cases treeScores p x o with
      | error e => rfl
      | ok pm => exact sumLoop_spec p s x os _ (fun t ht => h t (List.mem_cons_of_mem _ ht))

theorem Inv.predict_eq {s : Forest K F L} {trees : List (Option (Tree K F L))} {lost : List Nat} (h : Inv s trees lost) (p : Params K) :
    ∃ nodes', Inv { s with nodes := nodes' } (recountAll trees) lost ∧ OnlyCounts s.nodes nodes' ∧ (∀ i, i ∉ allIds trees → nodes'[i]? = s.nodes[i]?) ∧
      ∀ x, predict p s x = (label p x (recountAll trees)).map (fun l => ({ s with nodes := nodes' }, l)) := by
  obtain ⟨nodes', a1, a2, a3, a4⟩ := h.recount
  refine ⟨nodes', a2, a3, a4, fun x => ?_⟩
  have hr : s.roots = (recountAll trees).map (fun t => t.map Tree.id) := a2.all.roots
  have hlen : s.roots.length = (recountAll trees).length := by rw [hr, List.length_map]
  have e := sumLoop_spec p { s with nodes := nodes' } x (recountAll trees) (fun _ => 0) (fun t ht => by
    obtain ⟨j, hj⟩ := List.mem_iff_getElem?.1 ht
    exact ⟨a2.height_le hj, a2.all.holds t ht⟩)
  rw [← hr] at e
  unfold predict label
  simp only [bind, Except.bind, a1, e, hlen]
  cases totals p x (recountAll trees) (fun _ => 0) with
  | error e => rfl
  | ok sum =>
      simp only
      split
      · rfl
      · rfl

theorem recountAll_recountAll (trees : List (Option (Tree K F L))) : recountAll (recountAll trees) = recountAll trees := by
  rw [recountAll, recountAll, List.map_map]
  apply List.map_congr_left
  intro o _
  cases o with
  | none => rfl
  | some t => simp [recount_recount]

/-- after a prediction the next one does not change anything -/
theorem same_nodes {s : Forest K F L} {trees : List (Option (Tree K F L))} {lost lost' : List Nat} {nodes' : List (Node K F L)}
    (h : Inv s (recountAll trees) lost) (h' : Inv { s with nodes := nodes' } (recountAll (recountAll trees)) lost')
    (ho : OnlyCounts s.nodes nodes') (hn : ∀ i, i ∉ allIds (recountAll trees) → nodes'[i]? = s.nodes[i]?) : nodes' = s.nodes := by
  rw [recountAll_recountAll] at h'
  refine List.ext_getElem? fun i => ?_
  by_cases hi : i ∈ allIds (recountAll trees)
  · obtain ⟨o, ho1, ho2⟩ := List.mem_flatMap.1 hi
    cases o with
    | none => simp at ho2
    | some t =>
        have hc := holds_counts (h.all.holds t ho1) (h'.all.holds t ho1) i ho2
        have hlt := h.ids_lt hi
        obtain ⟨c, hc', -⟩ := ho.2 i _ (List.getElem?_eq_getElem hlt)
        rw [List.getElem?_eq_getElem hlt, show ({ s with nodes := nodes' } : Forest K F L).nodes = nodes' from rfl, hc'] at hc
        simp only [Option.map_some, Option.some.injEq] at hc
        rw [hc', List.getElem?_eq_getElem hlt, ← hc]
  · exact hn i hi

/-- every node has a positive counter -/
def Positive : Tree K F L → Prop
  | .leaf _ d => ∃ l, 0 < d.counts l
  | .node _ d _ _ l r => (∃ i, 0 < d.counts i) ∧ Positive l ∧ Positive r

theorem Positive.root : ∀ {t : Tree K F L}, Positive t → ∃ l, 0 < t.data.counts l
  | .leaf _ _, h => h
  | .node _ _ _ _ _ _, h => h.1

theorem Right.positive : ∀ {t : Tree K F L} {pts : List (Point K F L)}, Right pts t → Positive t.recount
  | .leaf _ d, pts, h => by
      obtain ⟨hne, -, hc⟩ := h
      obtain ⟨z, hz⟩ := List.exists_mem_of_ne_nil pts hne
      refine ⟨z.2, ?_⟩
      show 0 < d.counts z.2
      rw [hc, histogram, List.countP_pos_iff]
      exact ⟨z, hz, by simp⟩
  | .node _ _ _ _ l r, pts, h => by
      have hl := Right.positive h.2.1
      have hr := Right.positive h.2.2
      obtain ⟨i, hi⟩ := hl.root
      refine ⟨⟨i, ?_⟩, hl, hr⟩
      show 0 < min 1 (l.recount.data.counts i) + min 1 (r.recount.data.counts i)
      have : min 1 (l.recount.data.counts i) = 1 := by omega
      omega

theorem eta_nonneg (b : Box K F) (x : Fin F → K) : 0 ≤ eta b x := by
  refine Finset.sum_nonneg fun i _ => add_nonneg ?_ ?_ <;>
  · unfold Utils.max
    split
    · rename_i h; exact h.le
    · exact le_rfl

theorem smooth_ok (p : Params K) (h0 : p.exp 0 = 1) (hd : 0 ≤ p.discount) (n : Node K F L) (hn : ∃ l, 0 < n.counts l) (dt : K) (b : Box K F)
    (x : Fin F → K) (ns : K) (pm sm : Fin L → K) : ∃ r, smooth p n (1 - p.exp (-dt * eta b x)) dt (eta b x) ns pm sm = .ok r := by
  unfold smooth
  split
  · rename_i hpb
    have heta : 0 < eta b x := by
      rcases (eta_nonneg b x).lt_or_eq with h | h
      · exact h
      · rw [← h, mul_zero, h0, sub_self] at hpb
        exact absurd hpb (lt_irrefl _)
    have h1 : eta b x + p.discount ≠ 0 := (add_pos_of_pos_of_nonneg heta hd).ne'
    have h2 : -(p.exp (-(eta b x * dt)) - 1) ≠ 0 := by
      have : -(p.exp (-(eta b x * dt)) - 1) = 1 - p.exp (-dt * eta b x) := by
        rw [show -(eta b x * dt) = -dt * eta b x by ring]; ring
      rw [this]; exact hpb.ne'
    have h3 : (∑ l, ((Utils.min (n.counts l) 1 : Nat) : K)) ≠ 0 := by
      obtain ⟨l, hl⟩ := hn
      have : (0 : K) < ∑ l, ((Utils.min (n.counts l) 1 : Nat) : K) := by
        refine Finset.sum_pos' (fun i _ => Nat.cast_nonneg _) ⟨l, Finset.mem_univ _, ?_⟩
        rw [min_eq]
        have : min (n.counts l) 1 = 1 := by omega
        rw [this]; simp
      exact this.ne'
    simp only
    rw [if_neg (by rintro (h | h | h); exacts [h1 h, h2 h, h3 h])]
    exact ⟨_, rfl⟩
  · exact ⟨_, rfl⟩

theorem scores_ok (p : Params K) (h0 : p.exp 0 = 1) (hd : 0 ≤ p.discount) (x : Fin F → K) : ∀ (t : Tree K F L) (ptau ns : K) (pm sm : Fin L → K),
    Positive t → ∃ r, scores p x t ptau ns pm sm = .ok r
  | .leaf _ d, ptau, ns, pm, sm, h => by
      obtain ⟨r, hr⟩ := smooth_ok p h0 hd { (blank : Node K F L) with counts := d.counts } h (d.tau - 0) d.box x ns pm sm
      simp only [scores, hr, bind, Except.bind, pure, Except.pure]
      exact ⟨_, rfl⟩
  | .node _ d dim sp l r, ptau, ns, pm, sm, h => by
      obtain ⟨q, hr⟩ := smooth_ok p h0 hd { (blank : Node K F L) with counts := d.counts } h.1 (d.tau - 0) d.box x ns pm sm
      simp only [scores, hr, bind, Except.bind]
      split
      · exact scores_ok p h0 hd x l _ _ _ _ h.2.1
      · exact scores_ok p h0 hd x r _ _ _ _ h.2.2

theorem totals_ok (p : Params K) (h0 : p.exp 0 = 1) (hd : 0 ≤ p.discount) (x : Fin F → K) : ∀ (trees : List (Option (Tree K F L))) (acc : Fin L → K),
    (∀ t, some t ∈ trees → Positive t) → ∃ r, totals p x trees acc = .ok r
  | [], acc, _ => ⟨_, rfl⟩
  | o :: os, acc, h => by
      have : ∃ r, treeScores p x o = .ok r := by
        cases o with
        | none => exact ⟨_, rfl⟩
        | some t => exact scores_ok p h0 hd x t _ _ _ _ (h t (by simp))
      obtain ⟨r, hr⟩ := this
      simp only [totals, hr, bind, Except.bind]
      exact totals_ok p h0 hd x os _ (fun t ht => h t (List.mem_cons_of_mem _ ht))

theorem label_ok (p : Params K) (h0 : p.exp 0 = 1) (hd : 0 ≤ p.discount) (x : Fin F → K) (trees : List (Option (Tree K F L))) (hne : trees.length ≠ 0)
    (h : ∀ t, some t ∈ trees → Positive t) : ∃ r, label p x trees = .ok r := by
  obtain ⟨r, hr⟩ := totals_ok p h0 hd x trees (fun _ => 0) h
  simp only [label, hr, bind, Except.bind, if_neg hne, pure, Except.pure]
  exact ⟨_, rfl⟩

theorem indexMax_lt {l : List K} (h : 0 < l.length) : Utils.indexMax l < l.length := by
  cases l with
  | nil => simp at h
  | cons x xs => exact (Utils.indexMaxFrom_spec [x] xs 0 1 x rfl (by omega) rfl (by simp) (by intro j _ h; omega)).1

theorem label_lt {p : Params K} {x : Fin F → K} {trees : List (Option (Tree K F L))} {r : Nat} (hL : 0 < L) (h : label p x trees = .ok r) : r < L := by
  simp only [label, bind, Except.bind] at h
  cases ht : totals p x trees (fun _ => 0) with
  | error e => rw [ht] at h; cases h
  | ok sum =>
      rw [ht] at h
      simp only at h
      split at h
      · cases h
      · simp only [pure, Except.pure, Except.ok.injEq] at h
        subst h
        have hlen : (List.ofFn (fun k => sum k / (trees.length : K))).length = L := by simp
        have hlt := indexMax_lt (l := List.ofFn (fun k => sum k / (trees.length : K))) (by omega)
        omega

end Orp.Mondrian
