import Verif.Hoeffding.Gain
import Verif.Hoeffding.Run
import Mathlib.Analysis.SpecialFunctions.Log.Deriv

/-!
When the root of a Hoeffding tree is split: the rule in terms of the information gains that the root reports, and bounds on the gains.
-/

namespace Orp.Hoeffding

set_option linter.unusedSectionVars false

variable {K : Type} [Field K] [LinearOrder K] [IsStrictOrderedRing K] {L : Nat}

theorem bestOf_unique {g : List K} {i j : Nat} {a b a' b' : K} (h : BestOf g i a b) (h' : BestOf g j a' b') : a = a' ∧ b = b' := by
  obtain ⟨h1, h2, h3, k, h4, h5⟩ := h
  obtain ⟨h1', h2', h3', k', h4', h5'⟩ := h'
  have ha : a = a' := le_antisymm (h2' a (List.mem_of_getElem? h1)) (h2 a' (List.mem_of_getElem? h1'))
  refine ⟨ha, ?_⟩
  by_cases c : i = j
  · subst c
    exact le_antisymm (h3' k b h4 h5) (h3 k' b' h4' h5')
  · have e1 := h3 j a' (fun e => c e.symm) h1'
    have e2 := h3' i a c h1
    have e3 := h2 b (List.mem_of_getElem? h5)
    have e4 := h2' b' (List.mem_of_getElem? h5')
    have e5 : b = a := le_antisymm e3 (ha ▸ e1)
    have e6 : b' = a' := le_antisymm e4 (ha ▸ e2)
    rw [e5, e6, ha]

/-- the condition for a split of a leaf with the average gains `avg` after `n` points -/
def Decides (p : Params K) (n : Nat) (avg : List K) : Prop :=
  ∃ i g0 g1, BestOf avg i g0 g1 ∧ 2 * p.log (1 / p.delta) / (n : K) < (g0 - g1) ^ 2 ∧ 0 < g0

theorem OneLeaf.rule_bins {p : Params K} (hp : p.Ok) {h : Fin L → Nat} {s : Tree K L} (hs : OneLeaf p h s) (x : Nat → K) (label : Fin L) :
    ∃ s' r g, Hoeffding.trainNode p s 0 x label = .ok (s', r) ∧ OneLeaf p (bump h label) s' ∧ rootGains p s' = .ok g ∧ g.length = p.limitCount ∧
      (s'.blocks 0).infoSum = List.zipWith (· + ·) (s.blocks 0).infoSum g ∧ (s'.blocks 0).count = (s.blocks 0).count + 1 ∧
      (s'.blocks 0).limits = (s.blocks 0).limits ∧ fillBins (s.blocks 0).limits x label 0 0 p.sizes (s.blocks 0).bins = .ok (s'.blocks 0).bins ∧
      (r.isSome ↔ Decides p (s'.blocks 0).count ((s'.blocks 0).infoSum.map (fun a => a / ((s'.blocks 0).count : K)))) := by
  obtain ⟨n, hn, hsp, hlb, hub⟩ := hs.node
  have hm : s.nodes.length * p.nodeSize + p.total L ≤ p.maxSize := by rw [hs.nodes_length, Nat.one_mul]; exact hs.mem
  obtain ⟨gs, lgs, e1, e2, e3, e4, e5⟩ := hs.block.parts
  have hfill := fillBins_eq x label [] gs lgs 0 [] [] (by rw [e3, e4]) rfl
  simp only [List.nil_append, List.append_nil, List.length_nil] at hfill
  rw [e3, ← e1, ← e2] at hfill
  have hlen : (addPoint x label 0 gs lgs).map List.length = p.sizes := by rw [addPoint_lengths x label gs lgs 0 (by rw [e3, e4]), e3]
  have htal := addPoint_tally x label h gs lgs 0 (by rw [e3, e4]) e5
  have hne : addPoint x label 0 gs lgs ≠ [] := by
    intro h0; rw [h0] at hlen; exact hp.ne hlen.symm
  have hg := gains_eq p ((s.blocks 0).count + 1) (addPoint x label 0 gs lgs) (bump h label) hlen hne htal
  generalize (addPoint x label 0 gs lgs).flatMap (gainsOf p ((s.blocks 0).count + 1) (bump h label)) = g at hg
  generalize (addPoint x label 0 gs lgs).flatten = bins at hg hfill
  have heq := trainNode_eq (n := n) (id := 0) (by rw [hn]; rfl) hsp hm hfill hg
  obtain ⟨s', r, f1, f2, -⟩ := hs.trainNode hp x label
  have hs' : s' = trained s 0 (grown x n) (filled (s.blocks 0) bins g) := by
    rw [heq] at f1
    cases hb : bestTwo ((filled (s.blocks 0) bins g).infoSum.map (fun a => a / (((s.blocks 0).count + 1 : Nat) : K))) with
    | error e => rw [hb] at f1; cases f1
    | ok q =>
        rw [hb] at f1
        simp only [bind, Except.bind, pure, Except.pure] at f1
        split at f1
        · split at f1
          · cases f1
          · exact (Prod.mk.inj (Except.ok.inj f1)).1.symm
        · exact (Prod.mk.inj (Except.ok.inj f1)).1.symm
  have hb' : s'.blocks 0 = filled (s.blocks 0) bins g := by rw [hs']; simp [trained]
  have hroot : rootGains p s' = .ok g := by
    obtain ⟨n', hn', hsp', -⟩ := f2.node
    have hm' : s'.nodes.length * p.nodeSize + p.total L ≤ p.maxSize := by rw [f2.nodes_length, Nat.one_mul]; exact f2.mem
    have h0 : rd s'.nodes 0 = .ok n' := by rw [hn']; rfl
    simp only [rootGains, h0, hsp', getBlock_leaf hm', bind, Except.bind, hb']
    exact hg
  have hil := f2.block.info
  have hgl : g.length = p.limitCount := by
    have h1 : (List.zipWith (· + ·) (s.blocks 0).infoSum g).length = p.limitCount := by rw [← hil, hb']; rfl
    have h2 := hs.block.info
    obtain ⟨g', c1, c2⟩ : ∃ g', gains p ((s.blocks 0).count + 1) bins = .ok g' ∧ g'.length = p.limitCount := by
      obtain ⟨gs', _, d1, _, d3, _, d5⟩ := f2.block.parts
      have d1' : bins = gs'.flatten := by rw [← d1, hb']; rfl
      have hne' : gs' ≠ [] := by rintro rfl; exact hp.ne d3.symm
      refine ⟨_, by rw [d1']; exact gains_eq p _ gs' _ d3 hne' d5, ?_⟩
      have h1 := length_flatMap_gains p ((s.blocks 0).count + 1) (bump h label) gs' (by
        intro g hg
        apply hp.pos
        rw [← d3]
        exact List.mem_map_of_mem hg)
      have h2 : gs'.length = p.sizes.length := by rw [← d3]; simp
      have := hp.limits
      rw [d3] at h1
      omega
    rw [c1] at hg
    exact (Except.ok.inj hg) ▸ c2
  refine ⟨s', r, g, f1, f2, hroot, hgl, by rw [hb']; rfl, by rw [hb']; rfl, by rw [hb']; rfl, by rw [hb']; exact hfill, ?_⟩
  obtain ⟨i, g0, g1, hbt, hbo⟩ := bestTwo_spec (g := (filled (s.blocks 0) bins g).infoSum.map (fun a => a / (((s.blocks 0).count + 1 : Nat) : K)))
    (by rw [List.length_map, ← hb', hil]; exact hp.two)
  have hi : i < (s.blocks 0).limits.length := by
    have := (List.getElem?_eq_some_iff.mp hbo.1).1
    rw [List.length_map, ← hb', hil] at this
    rw [hs.block.limits_length hp]; exact this
  rw [heq, hbt] at f1
  simp only [bind, Except.bind, pure, Except.pure, rd_ok hi] at f1
  have hcount : (s'.blocks 0).count = (s.blocks 0).count + 1 := by rw [hb']; rfl
  have hbo' : BestOf ((s'.blocks 0).infoSum.map (fun a => a / ((s'.blocks 0).count : K))) i g0 g1 := by rw [hcount, hb']; exact hbo
  have heps : 4 * p.log (1 / p.delta) / (2 * (((s.blocks 0).count + 1 : Nat) : K)) = 2 * p.log (1 / p.delta) / ((s'.blocks 0).count : K) := by
    rw [hcount]
    have : (((s.blocks 0).count + 1 : Nat) : K) ≠ 0 := Nat.cast_ne_zero.2 (Nat.succ_ne_zero _)
    rw [show (4 : K) * p.log (1 / p.delta) = 2 * (2 * p.log (1 / p.delta)) by ring]
    exact mul_div_mul_left _ _ two_ne_zero
  rw [heps, ← pow_two] at f1
  constructor
  · intro hr
    split at f1
    · rename_i c
      exact ⟨i, g0, g1, hbo', c⟩
    · obtain ⟨-, rfl⟩ := Prod.mk.inj (Except.ok.inj f1)
      simp at hr
  · rintro ⟨j, a, b, hb, hc⟩
    obtain ⟨rfl, rfl⟩ := bestOf_unique hbo' hb
    rw [if_pos hc] at f1
    obtain ⟨-, rfl⟩ := Prod.mk.inj (Except.ok.inj f1)
    rfl

theorem OneLeaf.rule {p : Params K} (hp : p.Ok) {h : Fin L → Nat} {s : Tree K L} (hs : OneLeaf p h s) (x : Nat → K) (label : Fin L) :
    ∃ s' r g, Hoeffding.trainNode p s 0 x label = .ok (s', r) ∧ OneLeaf p (bump h label) s' ∧ rootGains p s' = .ok g ∧ g.length = p.limitCount ∧
      (s'.blocks 0).infoSum = List.zipWith (· + ·) (s.blocks 0).infoSum g ∧ (s'.blocks 0).count = (s.blocks 0).count + 1 ∧
      (s'.blocks 0).limits = (s.blocks 0).limits ∧
      (r.isSome ↔ Decides p (s'.blocks 0).count ((s'.blocks 0).infoSum.map (fun a => a / ((s'.blocks 0).count : K)))) := by
  obtain ⟨s', r, g, e1, e2, e3, e4, e5, e6, e7, -, e8⟩ := hs.rule_bins hp x label
  exact ⟨s', r, g, e1, e2, e3, e4, e5, e6, e7, e8⟩

/-- `train` splits the root exactly if the rule says so. -/
theorem OneLeaf.train_rule {p : Params K} (hp : p.Ok) {h : Fin L → Nat} {s : Tree K L} (hs : OneLeaf p h s) (x : Nat → K) (label : Fin L) :
    ∃ s1 r g, Hoeffding.trainNode p s 0 x label = .ok (s1, r) ∧ OneLeaf p (bump h label) s1 ∧ rootGains p s1 = .ok g ∧ g.length = p.limitCount ∧
      (s1.blocks 0).infoSum = List.zipWith (· + ·) (s.blocks 0).infoSum g ∧ (s1.blocks 0).count = (s.blocks 0).count + 1 ∧
      (¬ Decides p (s1.blocks 0).count ((s1.blocks 0).infoSum.map (fun a => a / ((s1.blocks 0).count : K))) → Hoeffding.train p s x label = .ok s1) ∧
      (Decides p (s1.blocks 0).count ((s1.blocks 0).infoSum.map (fun a => a / ((s1.blocks 0).count : K))) →
        ∀ s', Hoeffding.train p s x label = .ok s' → Split p (bump (fun _ => 0) label) s') := by
  obtain ⟨s1, r, g, e1, e2, e3, e4, e5, e6, -, e7⟩ := hs.rule hp x label
  refine ⟨s1, r, g, e1, e2, e3, e4, e5, e6, fun hn => ?_, fun hd s' ht => ?_⟩
  · have : r = none := by
      cases r with
      | none => rfl
      | some _ => exact absurd (e7.1 rfl) hn
    subst this
    simp only [Hoeffding.train, sort_one hs, e1, bind, Except.bind, pure, Except.pure]
  · have hr := e7.2 hd
    obtain ⟨⟨f, v⟩, rfl⟩ := Option.isSome_iff_exists.1 hr
    rcases hs.train hp x label with ⟨s2, t1, t2⟩ | ⟨s2, t1, t2⟩ | ⟨-, t1⟩
    · exfalso
      rw [ht] at t1
      obtain rfl := Except.ok.inj t1
      obtain ⟨s3, r3, t3, -, t4⟩ := hs.trainNode hp x label
      rw [e1] at t3
      obtain ⟨rfl, rfl⟩ := Prod.mk.inj (Except.ok.inj t3)
      obtain ⟨hf, -⟩ := t4 f v rfl
      simp only [Hoeffding.train, sort_one hs, e1, bind, Except.bind] at ht
      have hsplit := splitNode_eq hp e2 hf v
      by_cases c : Fits p L
      · obtain ⟨s4, u1, u2, -⟩ := hsplit.1 c
        simp only [u1] at ht
        obtain ⟨root', right', left', v', hns, _, hv, hle, hri, hrs, hls⟩ := u2.node
        have hr0 : rd s4.nodes 0 = .ok root' := by rw [hns]; rfl
        simp only [hr0] at ht
        have hlen : s'.nodes.length = 1 := t2.nodes_length
        by_cases cx : Dbl.le (.fin (x f)) v = true
        · rw [if_pos cx, hle, if_neg (by omega)] at ht
          obtain ⟨s5, g1, g2⟩ := u2.trainNode hp (id := 2) (n := left') (Or.inr rfl) (by rw [hns]; rfl) hls x label
          have h2 : (2 : Int).toNat = 2 := rfl
          rw [h2, g1] at ht
          have := Except.ok.inj ht
          subst this
          rw [g2.nodes_length] at hlen
          omega
        · rw [if_neg cx, hri, if_neg (by omega)] at ht
          obtain ⟨s5, g1, g2⟩ := u2.trainNode hp (id := 1) (n := right') (Or.inl rfl) (by rw [hns]; rfl) hrs x label
          have h2 : (1 : Int).toNat = 1 := rfl
          rw [h2, g1] at ht
          have := Except.ok.inj ht
          subst this
          rw [g2.nodes_length] at hlen
          omega
      · rw [hsplit.2 c] at ht
        cases ht
    · rw [ht] at t1
      obtain rfl := Except.ok.inj t1
      exact t2
    · rw [ht] at t1; cases t1

/-! ### Gains reported by the root -/

/-- The information gains that `compute_information_gain` of the root gives after each training point of a history, when nothing is split -/
def gainHistory (p : Params K) : List (Op K L) → Tree K L → Res (List (List K))
  | [], _ => .ok []
  | .train x l :: ops, s => do
      let (s, _) ← trainNode p s 0 x l
      let g ← rootGains p s
      return g :: (← gainHistory p ops s)
  | .rootTrain x l :: ops, s => do
      let (s, _) ← trainNode p s 0 x l
      let g ← rootGains p s
      return g :: (← gainHistory p ops s)
  | .setLimits lims :: ops, s => do gainHistory p ops (← setLimits p s lims)
  | .predict _ :: ops, s => gainHistory p ops s
  | .rootSplit _ _ :: ops, s => gainHistory p ops s

/-- The average gains of the limits -/
def averages (p : Params K) (gs : List (List K)) : List K := (List.range p.limitCount).map (fun i => (gs.map (fun g => g.getD i 0)).sum / (gs.length : K))

/-- `b` holds the sums of `a` and the gains `gs` -/
def Summed (n : Nat) (a : List K) (gs : List (List K)) (b : List K) : Prop := ∀ i < n, b.getD i 0 = a.getD i 0 + (gs.map (fun g => g.getD i 0)).sum

theorem summed_cons {n : Nat} {a b c g : List K} {gs : List (List K)} (ha : a.length = n) (hg : g.length = n) (hb : b = List.zipWith (· + ·) a g)
    (h : Summed n b gs c) : Summed n a (g :: gs) c := by
  intro i hi
  rw [h i hi, hb]
  have h1 : (List.zipWith (· + ·) a g).getD i 0 = a.getD i 0 + g.getD i 0 := by
    rw [List.getD_eq_getElem?_getD, List.getElem?_zipWith, List.getElem?_eq_getElem (by omega), List.getElem?_eq_getElem (by omega)]
    simp [List.getD_eq_getElem?_getD, ha, hg, hi]
  rw [h1, List.map_cons, List.sum_cons, add_assoc]

/-- As long as the root is not split its sums are those of the reported gains. -/
theorem OneLeaf.history {p : Params K} (hp : p.Ok) : ∀ (ops : List (Op K L)) {h : Fin L → Nat} {s s' : Tree K L}, OneLeaf p h s → Hoeffding.run p ops s = .ok s' →
    s'.nodes.length = 1 → ∃ gs, (∀ more, gainHistory p (ops ++ more) s = (gainHistory p more s').map (gs ++ ·)) ∧ gs.length = (labels ops).length ∧
      (s'.blocks 0).count = (s.blocks 0).count + gs.length ∧
      (∃ h', OneLeaf p h' s') ∧ Summed p.limitCount (s.blocks 0).infoSum gs (s'.blocks 0).infoSum := by
  intro ops
  induction ops with
  | nil =>
      intro h s s' hs he _
      obtain rfl := Except.ok.inj he
      refine ⟨[], fun more => ?_, rfl, rfl, ⟨h, hs⟩, fun i _ => by simp⟩
      show gainHistory p more s = _
      cases gainHistory p more s <;> rfl
  | cons op ops ih =>
      intro h s s' hs he h1
      have he0 := he
      simp only [Hoeffding.run, bind, Except.bind] at he
      have map_map : ∀ (r : Res (List (List K))) (g : List K) (gs : List (List K)),
          Except.bind (r.map (gs ++ ·)) (fun y => .ok (g :: y)) = r.map (g :: gs ++ ·) := by
        intro r g gs; cases r <;> rfl
      cases op with
      | train x l =>
          obtain ⟨s1, r, g, e1, e2, e3, e4, e5, e6, e7, e8⟩ := hs.train_rule hp x l
          by_cases hd : Decides p (s1.blocks 0).count ((s1.blocks 0).infoSum.map (fun a => a / ((s1.blocks 0).count : K)))
          · exfalso
            simp only [exec] at he
            cases ht : Hoeffding.train p s x l with
            | error e => rw [ht] at he; cases he
            | ok s2 =>
                rw [ht] at he
                have := ((e8 hd s2 ht).run hp ops he).nodes_length
                omega
          · simp only [exec, e7 hd] at he
            obtain ⟨gs, f1, f2, f3, f4, f5⟩ := ih e2 he h1
            refine ⟨g :: gs, fun more => ?_, by simp [labels, f2], by rw [f3, e6, List.length_cons]; omega, f4, summed_cons hs.block.info e4 e5 f5⟩
            simp only [List.cons_append, gainHistory, e1, e3, bind, Except.bind, pure, Except.pure, f1]
            exact map_map _ _ _
      | rootTrain x l =>
          obtain ⟨s1, r, g, e1, e2, e3, e4, e5, e6, -⟩ := hs.rule hp x l
          simp only [exec, e1, Except.map] at he
          obtain ⟨gs, f1, f2, f3, f4, f5⟩ := ih e2 he h1
          refine ⟨g :: gs, fun more => ?_, by simp [labels, f2], by rw [f3, e6, List.length_cons]; omega, f4, summed_cons hs.block.info e4 e5 f5⟩
          simp only [List.cons_append, gainHistory, e1, e3, bind, Except.bind, pure, Except.pure, f1]
          exact map_map _ _ _
      | predict x =>
          simp only [exec, hs.predict hp x, Except.map] at he
          exact ih hs he h1
      | setLimits lims =>
          obtain ⟨s1, e1, e2⟩ := hs.setLimits hp lims
          simp only [exec, e1] at he
          obtain ⟨gs, f1, f2, f3, f4, f5⟩ := ih e2 he h1
          have hb : (s1.blocks 0).infoSum = (s.blocks 0).infoSum ∧ (s1.blocks 0).count = (s.blocks 0).count := by
            obtain ⟨n, hn, hsp, -⟩ := hs.node
            have hm : s.nodes.length * p.nodeSize + p.total L ≤ p.maxSize := by rw [hs.nodes_length, Nat.one_mul]; exact hs.mem
            have h0 : rd s.nodes 0 = .ok n := by rw [hn]; rfl
            simp only [Hoeffding.setLimits, h0, hsp, getBlock_leaf hm, bind, Except.bind] at e1
            rw [setBlock_leaf hm] at e1
            obtain rfl := Except.ok.inj e1
            simp
          refine ⟨gs, fun more => ?_, f2, by rw [f3, hb.2], f4, by rw [← hb.1]; exact f5⟩
          simp only [List.cons_append, gainHistory, e1, bind, Except.bind]
          exact f1 more
      | rootSplit f v =>
          exfalso
          by_cases hf : f < p.sizes.length
          · have hsp := splitNode_eq hp hs hf v
            by_cases c : 3 * p.nodeSize + p.total L ≤ p.maxSize
            · obtain ⟨s1, e1, e2, _⟩ := hsp.1 c
              simp only [exec, e1] at he
              have := (e2.run hp ops he).nodes_length
              omega
            · simp only [exec, hsp.2 c] at he; cases he
          · simp only [exec, hs.rootSplit_bad hf] at he; cases he

end Orp.Hoeffding
