import Verif.Hoeffding.EvidenceProps
import Verif.Hoeffding.Decode

/-!
The counters of the root in terms of the training points, and the two sides of a split.
-/

namespace Orp.Hoeffding

set_option linter.unusedSectionVars false

variable {K : Type} [Field K] [LinearOrder K] [IsStrictOrderedRing K] {L : Nat}

/-! ### Specification -/

/-- The training points of a history with their labels, in order -/
def points : List (Op K L) → List ((Nat → K) × Fin L)
  | [] => []
  | .train x l :: ops => (x, l) :: points ops
  | .rootTrain x l :: ops => (x, l) :: points ops
  | _ :: ops => points ops

/-- Number of points of each label that satisfy a condition -/
def countIf (pts : List ((Nat → K) × Fin L)) (P : (Nat → K) → Bool) (l : Fin L) : Nat := pts.countP (fun q => P q.1 && decide (q.2 = l))

/-- Shannon entropy of the labels when label `l` occurs `h l` times -/
def labelEntropy (log2 : K → K) (h : Fin L → Nat) : K :=
  - ∑ l, if h l = 0 then 0 else (h l : K) / ((∑ k, h k : Nat) : K) * log2 ((h l : K) / ((∑ k, h k : Nat) : K))

/-- Information gain of dividing points into two sides with `h0 l` and `h1 l` points of label `l` -/
def infoGain (log2 : K → K) (h0 h1 : Fin L → Nat) : K :=
  labelEntropy log2 (fun l => h0 l + h1 l) - (((∑ l, h0 l : Nat) : K) / ((∑ l, (h0 l + h1 l) : Nat) : K) * labelEntropy log2 h0
    + ((∑ l, h1 l : Nat) : K) / ((∑ l, (h0 l + h1 l) : Nat) : K) * labelEntropy log2 h1)

/-- Information gain of dividing points by a condition -/
def gainBy (log2 : K → K) (pts : List ((Nat → K) × Fin L)) (P : (Nat → K) → Bool) : K :=
  infoGain log2 (countIf pts P) (countIf pts (fun x => !P x))

/-! ### Entropies -/

theorem ratio_eq (a b : K) : ratio a b = a / b := by
  rw [ratio]
  split
  · rename_i h; rw [h, div_zero]
  · rfl

theorem xlog_count (p : Params K) (h : Fin L → Nat) (l : Fin L) :
    xlog p (ratio (((h l : Nat) : Int) : K) ((∑ k, h k : Nat) : K))
      = if h l = 0 then 0 else (h l : K) / ((∑ k, h k : Nat) : K) * p.log2 ((h l : K) / ((∑ k, h k : Nat) : K)) := by
  rw [ratio_eq, xlog]
  by_cases h0 : h l = 0
  · rw [if_pos h0, h0, if_neg (by simp)]
  · rw [if_neg h0]
    have hle : h l ≤ ∑ k, h k := Finset.single_le_sum (fun _ _ => Nat.zero_le _) (Finset.mem_univ l)
    have h1 : (0 : K) < (h l : K) := by exact_mod_cast Nat.pos_of_ne_zero h0
    have h2 : (0 : K) < ((∑ k, h k : Nat) : K) := by exact_mod_cast lt_of_lt_of_le (Nat.pos_of_ne_zero h0) hle
    rw [Int.cast_natCast, if_pos (div_pos h1 h2)]

theorem leafEntropy_eq (p : Params K) (h : Fin L → Nat) : leafEntropy p (∑ l, h l) (fun l => (h l : Int)) = labelEntropy p.log2 h := by
  simp only [leafEntropy, labelEntropy, mul_neg_one]
  congr 1
  exact Finset.sum_congr rfl fun l _ => xlog_count p h l

theorem sum_cast (h : Fin L → Nat) : ∑ l, (((h l : Nat) : Int) : K) = ((∑ l, h l : Nat) : K) := by
  push_cast
  rfl

theorem cutEntropy_eq (p : Params K) (h0 h1 : Fin L → Nat) :
    cutEntropy p (fun l => (h0 l : Int)) (fun l => (h1 l : Int))
      = ((∑ l, h0 l : Nat) : K) / ((∑ l, (h0 l + h1 l) : Nat) : K) * labelEntropy p.log2 h0
        + ((∑ l, h1 l : Nat) : K) / ((∑ l, (h0 l + h1 l) : Nat) : K) * labelEntropy p.log2 h1 := by
  have e : ((∑ l, h0 l : Nat) : K) + ((∑ l, h1 l : Nat) : K) = ((∑ l, (h0 l + h1 l) : Nat) : K) := by
    rw [Finset.sum_add_distrib, Nat.cast_add]
  simp only [cutEntropy, sum_cast, xlog_count]
  simp only [e, ratio_eq, labelEntropy]
  ring

theorem gainAt_eq (p : Params K) {h : Fin L → Nat} {g : List (Fin L → Nat)} (hg : tally g = h) (n : Nat) :
    gainAt p (∑ l, h l) h g n = infoGain p.log2 (tally (g.take n)) (tally (g.drop n)) := by
  have e : h = fun l => tally (g.take n) l + tally (g.drop n) l := by
    rw [← hg]
    funext l
    exact tally_take_drop g n l
  rw [gainAt, leafEntropy_eq, cutAt, cutEntropy_eq, infoGain, ← e]

/-! ### Limits and features -/

theorem flatten_at {α : Type} : ∀ (ls : List (List α)) (i : Nat),
    ls.flatten[i]? = (ls[featureOfLimit (ls.map (fun g => g.length + 1)) i]?).bind (fun g => g[placeOfLimit (ls.map (fun g => g.length + 1)) i]?) := by
  intro ls
  induction ls with
  | nil => intro i; simp
  | cons g ls ih =>
      intro i
      simp only [List.flatten_cons, List.map_cons, featureOfLimit, placeOfLimit, Nat.add_sub_cancel]
      by_cases c : i < g.length
      · rw [if_pos c, if_pos c, List.getElem?_append_left c]
        simp
      · rw [if_neg c, if_neg c, List.getElem?_append_right (by omega), ih]
        simp

/-- the limits before a limit of the same feature -/
theorem earlier : ∀ (sizes : List Nat) (i d : Nat), d ≤ placeOfLimit sizes i →
    featureOfLimit sizes (i - d) = featureOfLimit sizes i ∧ placeOfLimit sizes (i - d) = placeOfLimit sizes i - d := by
  intro sizes
  induction sizes with
  | nil => intro i d _; simp [featureOfLimit, placeOfLimit]
  | cons sz rest ih =>
      intro i d hd
      simp only [featureOfLimit, placeOfLimit] at hd ⊢
      by_cases c : i < sz - 1
      · simp only [if_pos c] at hd ⊢
        rw [if_pos (by omega), if_pos (by omega)]
        exact ⟨rfl, rfl⟩
      · simp only [if_neg c] at hd ⊢
        have hle := placeOfLimit_le rest (i - (sz - 1))
        rw [if_neg (by omega), if_neg (by omega)]
        have := ih (i - (sz - 1)) d hd
        rw [show i - d - (sz - 1) = i - (sz - 1) - d by omega]
        exact ⟨by rw [this.1], this.2⟩

/-- the limits of each feature are in increasing order -/
def SortedLimits (p : Params K) (lims : Nat → K) : Prop :=
  ∀ i j, i ≤ j → j < p.limitCount → featureOfLimit p.sizes i = featureOfLimit p.sizes j → lims i ≤ lims j

theorem binOf_sorted {p : Params K} {lims : Nat → K} (hl : SortedLimits p lims) {lgs : List (List (Dbl K))}
    (h1 : lgs.flatten = (List.range p.limitCount).map (fun i => .fin (lims i))) (h2 : lgs.map (fun g => g.length + 1) = p.sizes) {i : Nat} (hi : i < p.limitCount)
    {lg : List (Dbl K)} (hlg : lgs[featureOfLimit p.sizes i]? = some lg) (x : K) :
    binOf lg x < placeOfLimit p.sizes i + 1 ↔ x < lims i := by
  have hat : ∀ d, d ≤ placeOfLimit p.sizes i → lg[placeOfLimit p.sizes i - d]? = some (.fin (lims (i - d))) := by
    intro d hd
    have e := flatten_at lgs (i - d)
    rw [h1, h2] at e
    obtain ⟨e1, e2⟩ := earlier p.sizes i d hd
    rw [e1, e2, hlg] at e
    have hid : i - d < p.limitCount := by omega
    simp only [List.getElem?_map, List.getElem?_range hid, Option.map_some, Option.bind_some] at e
    exact e.symm
  have h0 := hat 0 (Nat.zero_le _)
  simp only [Nat.sub_zero] at h0
  obtain ⟨hlen, hval⟩ := List.getElem?_eq_some_iff.mp h0
  constructor
  · intro hb
    have hb' : binOf lg x < lg.length := by omega
    have hlt : Dbl.lt (.fin x) (lg[binOf lg x]) = true := List.findIdx_getElem (xs := lg) (p := fun l => Dbl.lt (.fin x) l) (w := hb')
    have hd := hat (placeOfLimit p.sizes i - binOf lg x) (by omega)
    rw [show placeOfLimit p.sizes i - (placeOfLimit p.sizes i - binOf lg x) = binOf lg x by omega, List.getElem?_eq_getElem hb'] at hd
    have hd := Option.some.inj hd
    rw [hd] at hlt
    simp only [Dbl.lt, decide_eq_true_eq] at hlt
    refine lt_of_lt_of_le hlt (hl _ _ (by omega) hi ?_)
    exact (earlier p.sizes i _ (by omega)).1
  · intro hx
    by_contra hb
    have hnot := List.not_of_lt_findIdx (p := fun l => Dbl.lt (.fin x) l) (xs := lg) (i := placeOfLimit p.sizes i) (by
      have : placeOfLimit p.sizes i + 1 ≤ binOf lg x := by omega
      simp only [binOf] at this
      omega)
    rw [hval] at hnot
    simp [Dbl.lt, hx] at hnot

/-! ### Counters -/

theorem addPoint_at (x : Nat → K) (label : Fin L) : ∀ (gs : List (List (Fin L → Nat))) (lgs : List (List (Dbl K))) (f k : Nat) {g' : List (Fin L → Nat)},
    (addPoint x label f gs lgs)[k]? = some g' → ∃ g lg, gs[k]? = some g ∧ lgs[k]? = some lg ∧ g' = addTo g (binOf lg (x (f + k))) label := by
  intro gs
  induction gs with
  | nil => intro lgs f k g' h; simp [addPoint] at h
  | cons g gs ih =>
      intro lgs f k g' h
      cases lgs with
      | nil => simp [addPoint] at h
      | cons lg lgs =>
          cases k with
          | zero =>
              simp only [addPoint, List.getElem?_cons_zero, Option.some.injEq] at h
              exact ⟨g, lg, rfl, rfl, h.symm⟩
          | succ k =>
              simp only [addPoint, List.getElem?_cons_succ] at h
              obtain ⟨g1, lg1, e1, e2, e3⟩ := ih lgs (f + 1) k h
              exact ⟨g1, lg1, by simpa using e1, by simpa using e2, by rw [e3]; congr 3; omega⟩

theorem tally_take_addTo : ∀ (g : List (Fin L → Nat)) (i n : Nat) (label l : Fin L), i < g.length →
    tally ((addTo g i label).take n) l = tally (g.take n) l + if i < n ∧ label = l then 1 else 0 := by
  intro g
  induction g with
  | nil => intro i n label l h; simp at h
  | cons c g ih =>
      intro i n label l h
      cases n with
      | zero => simp [tally]
      | succ n =>
          cases i with
          | zero =>
              simp only [addTo, List.modify_zero_cons, List.take_succ_cons, tally_cons, bump]
              by_cases e : l = label
              · subst e
                simp; omega
              · have e' : ¬ label = l := fun h => e h.symm
                simp [e, e']
          | succ i =>
              have := ih i n label l (by simpa using h)
              simp only [addTo, List.modify_succ_cons, List.take_succ_cons, tally_cons] at this ⊢
              rw [this]
              simp [Nat.add_assoc]

/-- The counters of the root are those of the points `pts`. -/
structure Filled (p : Params K) (lims : Nat → K) (pts : List ((Nat → K) × Fin L)) (s : Tree K L) : Prop where
  leaf : ∃ h, OneLeaf p h s
  limits : (s.blocks 0).limits = (List.range p.limitCount).map (fun i => .fin (lims i))
  bins : ∃ (gs : List (List (Fin L → Nat))) (lgs : List (List (Dbl K))), (s.blocks 0).bins = gs.flatten ∧ (s.blocks 0).limits = lgs.flatten ∧ gs.map List.length = p.sizes ∧
    lgs.map (fun g => g.length + 1) = p.sizes ∧
    ∀ (f : Nat) (g : List (Fin L → Nat)) (lg : List (Dbl K)), gs[f]? = some g → lgs[f]? = some lg →
      ∀ (n : Nat) (l : Fin L), tally (g.take n) l = countIf pts (fun x => decide (binOf lg (x f) < n)) l

theorem countIf_append (a b : List ((Nat → K) × Fin L)) (P : (Nat → K) → Bool) (l : Fin L) : countIf (a ++ b) P l = countIf a P l + countIf b P l := by
  simp [countIf]

theorem Filled.start {p : Params K} (hp : p.Ok) {s0 : Tree K L} (h0 : new p = .ok s0) (lims : Nat → K) :
    ∃ s, setLimits p s0 (fun i => .fin (lims i)) = .ok s ∧ Filled p lims [] s := by
  obtain ⟨a1, -, -⟩ := OneLeaf.zero_info hp h0
  obtain ⟨s, e1, e2⟩ := a1.setLimits hp (fun i => .fin (lims i))
  refine ⟨s, e1, ⟨⟨_, e2⟩, ?_, ?_⟩⟩
  · obtain ⟨n, hn, hsp, -, -⟩ := a1.node
    have hm : s0.nodes.length * p.nodeSize + p.total L ≤ p.maxSize := by rw [a1.nodes_length, Nat.one_mul]; exact a1.mem
    have hr : rd s0.nodes 0 = .ok n := by rw [hn]; rfl
    simp only [Hoeffding.setLimits, hr, hsp, getBlock_leaf hm, bind, Except.bind] at e1
    rw [setBlock_leaf hm] at e1
    obtain rfl := Except.ok.inj e1
    simp
  · obtain ⟨gs, lgs, b1, b2, b3, b4, b5⟩ := e2.block.parts
    refine ⟨gs, lgs, b1, b2, b3, b4, fun f g lg hg _ n l => ?_⟩
    have := congrFun (b5 g (List.mem_of_getElem? hg)) l
    rw [tally_take_drop g n l] at this
    simp only [countIf, List.countP_nil]
    omega

theorem Filled.train {p : Params K} (hp : p.Ok) {lims : Nat → K} {pts : List ((Nat → K) × Fin L)} {s : Tree K L} (hs : Filled p lims pts s) (x : Nat → K) (label : Fin L)
    {s' : Tree K L} {r : Option (Nat × Dbl K)} (ht : Hoeffding.trainNode p s 0 x label = .ok (s', r)) : Filled p lims (pts ++ [(x, label)]) s' := by
  obtain ⟨h, hl⟩ := hs.leaf
  obtain ⟨s1, r1, g, e1, e2, -, -, -, -, e6, e7, -⟩ := hl.rule_bins hp x label
  rw [ht] at e1
  obtain ⟨rfl, rfl⟩ := Prod.mk.inj (Except.ok.inj e1)
  obtain ⟨gs, lgs, b1, b2, b3, b4, b5⟩ := hs.bins
  have hfill := fillBins_eq x label [] gs lgs 0 [] [] (by rw [b3, b4]) rfl
  simp only [List.nil_append, List.append_nil, List.length_nil] at hfill
  rw [b3, ← b1, ← b2, e7] at hfill
  refine ⟨⟨_, e2⟩, by rw [e6, hs.limits], addPoint x label 0 gs lgs, lgs, Except.ok.inj hfill, by rw [e6, b2], ?_, b4, ?_⟩
  · rw [addPoint_lengths x label gs lgs 0 (by rw [b3, b4]), b3]
  · intro f g' lg hg' hlg n l
    obtain ⟨g0, lg0, c1, c2, rfl⟩ := addPoint_at x label gs lgs 0 f hg'
    rw [hlg] at c2
    obtain rfl := Option.some.inj c2
    have hlen : g0.length = lg.length + 1 := by
      have d1 : (gs.map List.length)[f]? = some g0.length := by simp [c1]
      have d2 : (lgs.map (fun g => g.length + 1))[f]? = some (lg.length + 1) := by simp [hlg]
      rw [b3, ← b4, d2] at d1
      exact (Option.some.inj d1).symm
    have hb := binOf_le lg (x (0 + f))
    rw [tally_take_addTo g0 _ n label l (by omega), b5 f g0 lg c1 hlg n l, countIf_append, Nat.zero_add]
    congr 1
    simp [countIf, List.countP_cons]

theorem Filled.gains {p : Params K} (hp : p.Ok) {lims : Nat → K} (hl : SortedLimits p lims) {pts : List ((Nat → K) × Fin L)} {s : Tree K L} (hs : Filled p lims pts s)
    {g : List K} (hg : rootGains p s = .ok g) :
    g.length = p.limitCount ∧ ∀ i < p.limitCount, g[i]? = some (gainBy p.log2 pts (fun x => decide (x (featureOfLimit p.sizes i) < lims i))) := by
  obtain ⟨h, h1⟩ := hs.leaf
  obtain ⟨gs, lgs, b1, b2, b3, b4, b5⟩ := hs.bins
  obtain ⟨gs', lgs', c1, -, c3, -, c5⟩ := h1.block.parts
  have hgs : gs' = gs := by
    have e : gs'.flatten = gs.flatten := by rw [← c1, ← b1]
    have el : gs'.map List.length = gs.map List.length := by rw [c3, b3]
    clear hs hg h1 b1 b2 b3 b4 b5 c1 c3 c5
    induction gs' generalizing gs with
    | nil =>
        cases gs with
        | nil => rfl
        | cons _ _ => simp at el
    | cons a gs' ih =>
        cases gs with
        | nil => simp at el
        | cons b gs =>
            simp only [List.map_cons, List.cons.injEq, List.flatten_cons] at el e
            obtain ⟨rfl, e2⟩ := List.append_inj e el.1
            rw [ih gs e2 el.2]
  subst hgs
  obtain ⟨n, hn, hsp, -, -⟩ := h1.node
  have hm : s.nodes.length * p.nodeSize + p.total L ≤ p.maxSize := by rw [h1.nodes_length, Nat.one_mul]; exact h1.mem
  have hn0 : rd s.nodes 0 = .ok n := by rw [hn]; rfl
  have hne : gs' ≠ [] := by rintro rfl; exact hp.ne b3.symm
  simp only [Hoeffding.rootGains, hn0, hsp, getBlock_leaf hm, bind, Except.bind] at hg
  rw [h1.block.count, b1, gains_eq p _ gs' h b3 hne c5] at hg
  obtain rfl := Except.ok.inj hg
  have hpos : ∀ g ∈ gs', 1 ≤ g.length := by
    intro g hg
    apply hp.pos
    rw [← b3]
    exact List.mem_map_of_mem hg
  have hlen : (gs'.flatMap (gainsOf p (∑ l, h l) h)).length = p.limitCount := by
    have e1 := length_flatMap_gains p (∑ l, h l) h gs' hpos
    have e2 : gs'.length = p.sizes.length := by rw [← b3]; simp
    have := hp.limits
    rw [b3] at e1
    omega
  refine ⟨hlen, fun i hi => ?_⟩
  have e1 := flatten_at (gs'.map (gainsOf p (∑ l, h l) h)) i
  have e2 : (gs'.map (gainsOf p (∑ l, h l) h)).map (fun g => g.length + 1) = p.sizes := by
    rw [List.map_map, ← b3]
    refine List.map_congr_left fun g hg => ?_
    have := hpos g hg
    simp only [Function.comp_apply, length_gainsOf]
    omega
  rw [e2] at e1
  rw [List.flatMap_def, e1]
  have hsome : (List.flatten (gs'.map (gainsOf p (∑ l, h l) h)))[i]?.isSome := by
    rw [← List.flatMap_def]
    rw [List.getElem?_eq_getElem (by rw [hlen]; exact hi)]
    rfl
  rw [e1] at hsome
  cases hf : gs'[featureOfLimit p.sizes i]? with
  | none => simp [hf] at hsome
  | some g =>
      simp only [List.getElem?_map, hf, Option.map_some, Option.bind_some] at hsome ⊢
      obtain ⟨lg, hlg⟩ : ∃ lg, lgs[featureOfLimit p.sizes i]? = some lg := by
        have h1 : gs'.length = lgs.length := by
          have := congrArg List.length (b3.trans b4.symm)
          simpa using this
        have h2 := (List.getElem?_eq_some_iff.mp hf).1
        exact ⟨_, List.getElem?_eq_getElem (by omega)⟩
      rw [Option.isSome_iff_exists] at hsome
      obtain ⟨y, hy⟩ := hsome
      have hpl : placeOfLimit p.sizes i < g.length - 1 := by
        have := (List.getElem?_eq_some_iff.mp hy).1
        rwa [length_gainsOf] at this
      simp only [gainsOf, List.getElem?_map, List.getElem?_range hpl, Option.map_some, Option.some.injEq]
      rw [gainAt_eq p (c5 g (List.mem_of_getElem? hf)), gainBy]
      have hb := fun x => binOf_sorted hl (by rw [← b2, hs.limits]) b4 hi hlg x
      have t0 : tally (g.take (placeOfLimit p.sizes i + 1)) = countIf pts (fun x => decide (x (featureOfLimit p.sizes i) < lims i)) := by
        funext l
        rw [b5 _ g lg hf hlg]
        simp only [hb]
      have t1 : tally (g.drop (placeOfLimit p.sizes i + 1)) = countIf pts (fun x => !decide (x (featureOfLimit p.sizes i) < lims i)) := by
        funext l
        have u1 := tally_take_drop g (placeOfLimit p.sizes i + 1) l
        have u2 : tally g l = countIf pts (fun _ => true) l := by
          have := b5 _ g lg hf hlg g.length l
          rw [List.take_length] at this
          rw [this]
          have hgl : g.length = lg.length + 1 := by
            have d1 : (gs'.map List.length)[featureOfLimit p.sizes i]? = some g.length := by simp [hf]
            have d2 : (lgs.map (fun g => g.length + 1))[featureOfLimit p.sizes i]? = some (lg.length + 1) := by simp [hlg]
            rw [b3.trans b4.symm, d2] at d1
            exact (Option.some.inj d1).symm
          have hbl : ∀ x : K, binOf lg x < g.length := fun x => by have := binOf_le lg x; omega
          simp [hbl]
        have u3 : countIf pts (fun _ => true) l = countIf pts (fun x => decide (x (featureOfLimit p.sizes i) < lims i)) l
            + countIf pts (fun x => !decide (x (featureOfLimit p.sizes i) < lims i)) l := by
          clear hs b5 t0 u1 u2
          induction pts with
          | nil => rfl
          | cons q pts ih =>
              simp only [countIf, List.countP_cons] at ih ⊢
              rw [ih]
              by_cases d1 : q.1 (featureOfLimit p.sizes i) < lims i <;> by_cases d2 : q.2 = l <;> simp [d1, d2] <;> omega
        rw [t0, u2, u3] at u1
        omega
      rw [t0, t1]

end Orp.Hoeffding
