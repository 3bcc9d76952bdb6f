import Verif.Hoeffding.Evidence
import Verif.Hoeffding.Props
import Mathlib.Algebra.BigOperators.Group.Finset.Basic

/-!
Two Hoeffding trees trained with the same points, in other units and with other names of the labels (C116, C117).
-/

namespace Orp.Hoeffding

set_option linter.unusedSectionVars false

variable {K : Type} [Field K] [LinearOrder K] [IsStrictOrderedRing K] {L : Nat}

/-- a limit in other units; infinities and NaN stay -/
def mapD (φ : K → K) : Dbl K → Dbl K
  | .fin x => .fin (φ x)
  | .pinf => .pinf
  | .ninf => .ninf
  | .nan => .nan

/-- The feature that limit number `i` belongs to, according to the number of bins of the features: a feature with `sz` bins has `sz - 1` limits. -/
def featureOf : List Nat → Nat → Nat
  | [], _ => 0
  | sz :: rest, i => if i < sz - 1 then 0 else featureOf rest (i - (sz - 1)) + 1

/-- A call in other units and with other names of the labels: feature `f` is measured by `φ f`, label `l` is called `σ l`. -/
def Op.other (φ : Nat → K → K) (σ : Equiv.Perm (Fin L)) (sizes : List Nat) : Op K L → Op K L
  | .train x l => .train (fun f => φ f (x f)) (σ l)
  | .predict x => .predict (fun f => φ f (x f))
  | .rootTrain x l => .rootTrain (fun f => φ f (x f)) (σ l)
  | .setLimits lims => .setLimits (fun i => mapD (φ (featureOf sizes i)) (lims i))
  | .rootSplit f v => .rootSplit f (mapD (φ f) v)

/-- counters per label with other names of the labels -/
def ren {α : Type} (σ : Equiv.Perm (Fin L)) (c : Fin L → α) : Fin L → α := fun l => c (σ.symm l)

theorem bump_ren (σ : Equiv.Perm (Fin L)) (c : Fin L → Nat) (l : Fin L) : bump (ren σ c) (σ l) = ren σ (bump c l) := by
  funext k
  simp only [bump, ren, Equiv.symm_apply_eq]

theorem lt_mapD {φ : K → K} (hφ : StrictMono φ) (x : K) (l : Dbl K) : Dbl.lt (.fin (φ x)) (mapD φ l) = Dbl.lt (.fin x) l := by
  cases l <;> simp [Dbl.lt, mapD, hφ.lt_iff_lt]

theorem rd_map_list {α β : Type} (f : α → β) (l : List α) (i : Nat) : rd (l.map f) i = (rd l i).map f := by
  by_cases h : i < l.length
  · rw [rd_ok h, rd_ok (by simpa using h)]; simp [Except.map]
  · simp [rd, h, Except.map]

theorem findBin_other {φ : K → K} (hφ : StrictMono φ) {lims lims' : List (Dbl K)} (base : Nat) (x : K) : ∀ (k i : Nat),
    (∀ j, i ≤ j → j < i + k → lims'[base + j]? = lims[base + j]?.map (mapD φ)) → findBin lims' base (φ x) i k = findBin lims base x i k := by
  intro k
  induction k with
  | zero => intro i _; rfl
  | succ k ih =>
      intro i h
      have h0 := h i (le_refl _) (by omega)
      have hr : rd lims' (base + i) = (rd lims (base + i)).map (mapD φ) := by
        simp only [rd, h0]
        cases lims[base + i]? <;> rfl
      simp only [findBin, hr]
      cases rd lims (base + i) with
      | error e => rfl
      | ok l =>
          simp only [Except.map, bind, Except.bind, lt_mapD hφ, ih (i + 1) (fun j h1 h2 => h j (by omega) (by omega))]

theorem fillBins_other {φ : Nat → K → K} (hφ : ∀ f, StrictMono (φ f)) (σ : Equiv.Perm (Fin L)) {lims lims' : List (Dbl K)} (x : Nat → K) (label : Fin L) :
    ∀ (sizes : List Nat) (f start : Nat) (bins : List (Fin L → Nat)), f ≤ start →
    (∀ i, i < (sizes.map (· - 1)).sum → lims'[start - f + i]? = lims[start - f + i]?.map (mapD (φ (f + featureOf sizes i)))) →
    fillBins lims' (fun f => φ f (x f)) (σ label) f start sizes (bins.map (ren σ)) = (fillBins lims x label f start sizes bins).map (List.map (ren σ)) := by
  intro sizes
  induction sizes with
  | nil => intro f start bins _ _; rfl
  | cons sz rest ih =>
      intro f start bins hfs h
      simp only [fillBins]
      by_cases h0 : sz = 0
      · rw [if_pos h0, if_pos h0]; rfl
      · rw [if_neg h0, if_neg h0]
        have hb : findBin lims' (start - f) (φ f (x f)) 0 (sz - 1) = findBin lims (start - f) (x f) 0 (sz - 1) := by
          refine findBin_other (hφ f) _ _ _ _ fun j _ hj => ?_
          have := h j (by simp; omega)
          simp only [featureOf, if_pos (show j < sz - 1 by omega), Nat.add_zero] at this
          exact this
        rw [hb]
        cases findBin lims (start - f) (x f) 0 (sz - 1) with
        | error e => rfl
        | ok i =>
            simp only [bind, Except.bind, rd_map_list]
            cases rd bins (start + i) with
            | error e => rfl
            | ok c =>
                simp only [Except.map]
                have hw : wr (bins.map (ren σ)) (start + i) (bump (ren σ c) (σ label)) = (wr bins (start + i) (bump c label)).map (List.map (ren σ)) := by
                  rw [bump_ren]
                  by_cases hlt : start + i < bins.length
                  · rw [wr_ok _ hlt, wr_ok _ (by simpa using hlt)]; simp [Except.map]
                  · simp [wr, hlt, Except.map]
                rw [hw]
                cases wr bins (start + i) (bump c label) with
                | error e => rfl
                | ok bins' =>
                    simp only [Except.map]
                    refine ih (f + 1) (start + sz) bins' (by omega) fun j hj => ?_
                    have := h (sz - 1 + j) (by simp; omega)
                    simp only [featureOf, if_neg (show ¬ sz - 1 + j < sz - 1 by omega), Nat.add_sub_cancel_left] at this
                    rw [show start + sz - (f + 1) + j = start - f + (sz - 1 + j) by omega, this]
                    rw [show f + (featureOf rest j + 1) = f + 1 + featureOf rest j by omega]

theorem sideSum_ren (σ : Equiv.Perm (Fin L)) (bins : List (Fin L → Nat)) (start : Nat) : ∀ (k v : Nat) (acc : Fin L → Int),
    sideSum (bins.map (ren σ)) start v k (ren σ acc) = (sideSum bins start v k acc).map (ren σ) := by
  intro k
  induction k with
  | zero => intro v acc; rfl
  | succ k ih =>
      intro v acc
      simp only [sideSum, rd_map_list]
      cases rd bins (start + v) with
      | error e => rfl
      | ok c =>
          simp only [Except.map, bind, Except.bind]
          exact ih (v + 1) (fun l => acc l + (c l : Int))

theorem cutEntropy_ren (p : Params K) (σ : Equiv.Perm (Fin L)) (a b : Fin L → Int) : cutEntropy p (ren σ a) (ren σ b) = cutEntropy p a b := by
  have h : ∀ f : Fin L → K, ∑ l, f (σ.symm l) = ∑ l, f l := fun f => Equiv.sum_comp σ.symm f
  simp only [cutEntropy, ren]
  rw [h (fun l => ((a l : Int) : K)), h (fun l => ((b l : Int) : K)), h (fun l => xlog p (ratio (a l) (∑ l, ((a l : Int) : K)))),
    h (fun l => xlog p (ratio (b l) (∑ l, ((b l : Int) : K))))]

theorem cutLoop_ren (p : Params K) (σ : Equiv.Perm (Fin L)) (bins : List (Fin L → Nat)) (start : Nat) : ∀ (k v : Nat) (a b : Fin L → Int),
    cutLoop p (bins.map (ren σ)) start v k (ren σ a) (ren σ b) = cutLoop p bins start v k a b := by
  intro k
  induction k with
  | zero => intro v a b; rfl
  | succ k ih =>
      intro v a b
      simp only [cutLoop, rd_map_list]
      cases rd bins (start + v) with
      | error e => rfl
      | ok c =>
          simp only [Except.map, bind, Except.bind]
          have h1 := ih (v + 1) (fun l => a l + (c l : Int)) (fun l => b l - (c l : Int))
          have h2 := cutEntropy_ren p σ (fun l => a l + (c l : Int)) (fun l => b l - (c l : Int))
          have e1 : (fun l => ren σ a l + ((ren σ c l : Nat) : Int)) = ren σ (fun l => a l + (c l : Int)) := rfl
          have e2 : (fun l => ren σ b l - ((ren σ c l : Nat) : Int)) = ren σ (fun l => b l - (c l : Int)) := rfl
          rw [e1, e2, h1, h2]

theorem entropies_ren (p : Params K) (σ : Equiv.Perm (Fin L)) (bins : List (Fin L → Nat)) : ∀ (sizes : List Nat) (start : Nat),
    entropies p (bins.map (ren σ)) start sizes = entropies p bins start sizes := by
  intro sizes
  induction sizes with
  | nil => intro start; rfl
  | cons sz rest ih =>
      intro start
      have h1 := sideSum_ren σ bins start sz 0 (fun _ => 0)
      have h0 : ren σ (fun _ : Fin L => (0 : Int)) = fun _ => 0 := rfl
      rw [h0] at h1
      simp only [entropies, featureEntropy, h1, ih]
      cases sideSum bins start 0 sz (fun _ => 0) with
      | error e => rfl
      | ok c =>
          simp only [Except.map, bind, Except.bind]
          have h2 := cutLoop_ren p σ bins start (sz - 1) 0 (fun _ => 0) c
          rw [h0] at h2
          rw [h2]

theorem gains_ren (p : Params K) (σ : Equiv.Perm (Fin L)) (count : Nat) (bins : List (Fin L → Nat)) : gains p count (bins.map (ren σ)) = gains p count bins := by
  simp only [gains, entropies_ren]
  cases rd p.sizes 0 with
  | error e => rfl
  | ok sz =>
      have h1 := sideSum_ren σ bins 0 sz 0 (fun _ => 0)
      have h0 : ren σ (fun _ : Fin L => (0 : Int)) = fun _ => 0 := rfl
      rw [h0] at h1
      simp only [bind, Except.bind, h1]
      cases sideSum bins 0 0 sz (fun _ => 0) with
      | error e => rfl
      | ok c =>
          have h2 : leafEntropy p count (ren σ c) = leafEntropy p count c := by
            simp only [leafEntropy, ren]
            rw [Equiv.sum_comp σ.symm (fun l => xlog p (ratio (c l) (count : K)))]
          simp only [Except.map, h2]

/-- The counters of the root of two trees that differ in the units and the names of the labels -/
structure Twin (φ : Nat → K → K) (σ : Equiv.Perm (Fin L)) (p : Params K) (b b' : Block K L) : Prop where
  count : b'.count = b.count
  info : b'.infoSum = b.infoSum
  bins : b'.bins = b.bins.map (ren σ)
  limits : ∀ i, i < p.limitCount → b'.limits[i]? = b.limits[i]?.map (mapD (φ (featureOf p.sizes i)))

/-- Two trees that differ in the units and the names of the labels: neither is split and the counters correspond, or both are split. -/
def Twins (φ : Nat → K → K) (σ : Equiv.Perm (Fin L)) (p : Params K) (s s' : Tree K L) : Prop :=
  (∃ h, OneLeaf p h s ∧ OneLeaf p (ren σ h) s' ∧ Twin φ σ p (s.blocks 0) (s'.blocks 0)) ∨ (∃ h, Split p h s ∧ Split p (ren σ h) s')

theorem limit_sum : ∀ (sizes : List Nat), (∀ sz ∈ sizes, 1 ≤ sz) → (sizes.map (· - 1)).sum + sizes.length = sizes.sum := by
  intro sizes
  induction sizes with
  | nil => intro _; rfl
  | cons a l ih =>
      intro h
      have h1 := ih (fun z hz => h z (by simp [hz]))
      have h2 := h a (by simp)
      simp
      omega

theorem OneLeaf.gains_block {p : Params K} {h : Fin L → Nat} {s : Tree K L} (hs : OneLeaf p h s) : rootGains p s = gains p (s.blocks 0).count (s.blocks 0).bins := by
  obtain ⟨n, hn, hsp, -⟩ := hs.node
  have hm : s.nodes.length * p.nodeSize + p.total L ≤ p.maxSize := by rw [hs.nodes_length, Nat.one_mul]; exact hs.mem
  have h0 : rd s.nodes 0 = .ok n := by rw [hn]; rfl
  simp only [rootGains, h0, hsp, getBlock_leaf hm, bind, Except.bind]

theorem OneLeaf.train_other {φ : Nat → K → K} (hφ : ∀ f, StrictMono (φ f)) {σ : Equiv.Perm (Fin L)} {p : Params K} (hp : p.Ok) {h : Fin L → Nat} {s s' : Tree K L}
    (hs : OneLeaf p h s) (hs' : OneLeaf p (ren σ h) s') (ht : Twin φ σ p (s.blocks 0) (s'.blocks 0)) (x : Nat → K) (label : Fin L) :
    ∃ s1 s1' r r', Hoeffding.trainNode p s 0 x label = .ok (s1, r) ∧ Hoeffding.trainNode p s' 0 (fun f => φ f (x f)) (σ label) = .ok (s1', r') ∧
      OneLeaf p (bump h label) s1 ∧ OneLeaf p (ren σ (bump h label)) s1' ∧ Twin φ σ p (s1.blocks 0) (s1'.blocks 0) ∧ r.isSome = r'.isSome := by
  obtain ⟨s1, r, g, e1, e2, e3, e4, e5, e6, e7, e8, e9⟩ := hs.rule_bins hp x label
  obtain ⟨s1', r', g', d1, d2, d3, d4, d5, d6, d7, d8, d9⟩ := hs'.rule_bins hp (fun f => φ f (x f)) (σ label)
  rw [bump_ren] at d2
  have hlim := limit_sum p.sizes hp.pos
  have hb : (s1'.blocks 0).bins = (s1.blocks 0).bins.map (ren σ) := by
    have := fillBins_other hφ σ x label p.sizes 0 0 (s.blocks 0).bins (le_refl _) (lims := (s.blocks 0).limits) (lims' := (s'.blocks 0).limits) (by
      intro i hi
      have h1 := hp.limits
      have := ht.limits i (by omega)
      simpa using this)
    rw [← ht.bins, d8, e8] at this
    exact Except.ok.inj this
  have hc : (s1'.blocks 0).count = (s1.blocks 0).count := by rw [d6, e6, ht.count]
  have hg : g' = g := by
    rw [e2.gains_block] at e3
    rw [d2.gains_block, hb, hc, gains_ren, e3] at d3
    exact (Except.ok.inj d3).symm
  have hi : (s1'.blocks 0).infoSum = (s1.blocks 0).infoSum := by rw [d5, e5, ht.info, hg]
  refine ⟨s1, s1', r, r', e1, d1, e2, d2, ⟨hc, hi, hb, ?_⟩, ?_⟩
  · intro i hi
    rw [d7, e7]
    exact ht.limits i hi
  · rw [hi, hc, ← e9] at d9
    exact Bool.eq_iff_iff.2 d9.symm

theorem bump_zero_ren (σ : Equiv.Perm (Fin L)) (l : Fin L) : bump (fun _ => 0) (σ l) = ren σ (bump (fun _ => 0) l) := by
  rw [← bump_ren]
  rfl

theorem OneLeaf.train_cases {p : Params K} (hp : p.Ok) {h : Fin L → Nat} {s s1 : Tree K L} {r : Option (Nat × Dbl K)} (hs : OneLeaf p h s) {x : Nat → K} {label : Fin L}
    (he : Hoeffding.trainNode p s 0 x label = .ok (s1, r)) :
    (r.isSome = false → Hoeffding.train p s x label = .ok s1) ∧ (r.isSome = true → Fits p L → ∃ t, Hoeffding.train p s x label = .ok t ∧ Split p (bump (fun _ => 0) label) t) ∧
      (r.isSome = true → ¬ Fits p L → Hoeffding.train p s x label = .error .ub) := by
  obtain ⟨t1, q, g, a1, a2, -, -, -, -, -, a7⟩ := hs.rule hp x label
  obtain ⟨t2, q2, g2, c1, -, -, -, -, -, c2, c3⟩ := hs.train_rule hp x label
  rw [he] at a1 c1
  obtain ⟨rfl, rfl⟩ := Prod.mk.inj (Except.ok.inj a1)
  obtain ⟨rfl, rfl⟩ := Prod.mk.inj (Except.ok.inj c1)
  refine ⟨fun hr => c2 (fun hd => ?_), fun hr hF => ?_, fun hr hF => ?_⟩
  · rw [a7.2 hd] at hr; cases hr
  · rcases hs.train hp x label with ⟨t, e1, e2⟩ | ⟨t, e1, e2⟩ | ⟨e1, -⟩
    · exact ⟨t, e1, c3 (a7.1 hr) t e1⟩
    · exact ⟨t, e1, e2⟩
    · exact absurd hF e1
  · rcases hs.train hp x label with ⟨t, e1, e2⟩ | ⟨t, e1, e2⟩ | ⟨-, e1⟩
    · exact absurd (c3 (a7.1 hr) t e1).mem hF
    · exact absurd e2.mem hF
    · exact e1

theorem OneLeaf.setLimits_eq {p : Params K} {h : Fin L → Nat} {s : Tree K L} (hs : OneLeaf p h s) (lims : Nat → Dbl K) :
    Hoeffding.setLimits p s lims = .ok { s with blocks := Function.update s.blocks 0 { s.blocks 0 with limits := (List.range p.limitCount).map lims } } := by
  obtain ⟨n, hn, hsp, -⟩ := hs.node
  have hm : s.nodes.length * p.nodeSize + p.total L ≤ p.maxSize := by rw [hs.nodes_length, Nat.one_mul]; exact hs.mem
  have h0 : rd s.nodes 0 = .ok n := by rw [hn]; rfl
  simp only [Hoeffding.setLimits, h0, hsp, getBlock_leaf hm, bind, Except.bind]
  rw [setBlock_leaf hm]

/-- One call on both trees: both fail, or both succeed and still correspond. -/
theorem exec_other {φ : Nat → K → K} (hφ : ∀ f, StrictMono (φ f)) {σ : Equiv.Perm (Fin L)} {p : Params K} (hp : p.Ok) {s s' : Tree K L} (ht : Twins φ σ p s s')
    (op : Op K L) :
    (∃ t t', exec p op s = .ok t ∧ exec p (op.other φ σ p.sizes) s' = .ok t' ∧ Twins φ σ p t t') ∨
      (exec p op s = .error .ub ∧ exec p (op.other φ σ p.sizes) s' = .error .ub) := by
  rcases ht with ⟨h, h1, h2, h3⟩ | ⟨h, h1, h2⟩
  · cases op with
    | train x l =>
        obtain ⟨s1, s1', r, r', e1, e2, e3, e4, e5, e6⟩ := h1.train_other hφ hp h2 h3 x l
        obtain ⟨a1, a2, a3⟩ := h1.train_cases hp e1
        obtain ⟨b1, b2, b3⟩ := h2.train_cases hp e2
        by_cases c : r.isSome = true
        · have c' : r'.isSome = true := by rw [← e6]; exact c
          by_cases hF : Fits p L
          · left
            obtain ⟨t, f1, f2⟩ := a2 c hF
            obtain ⟨t', f1', f2'⟩ := b2 c' hF
            rw [bump_zero_ren] at f2'
            exact ⟨t, t', f1, f1', .inr ⟨_, f2, f2'⟩⟩
          · exact .inr ⟨a3 c hF, b3 c' hF⟩
        · have c : r.isSome = false := by simpa using c
          exact .inl ⟨s1, s1', a1 c, b1 (by rw [← e6]; exact c), .inl ⟨_, e3, e4, e5⟩⟩
    | predict x =>
        left
        refine ⟨s, s', ?_, ?_, .inl ⟨h, h1, h2, h3⟩⟩
        · simp only [exec, h1.predict hp, Except.map]
        · simp only [exec, Op.other, h2.predict hp, Except.map]
    | rootTrain x l =>
        left
        obtain ⟨s1, s1', r, r', e1, e2, e3, e4, e5, e6⟩ := h1.train_other hφ hp h2 h3 x l
        refine ⟨s1, s1', ?_, ?_, .inl ⟨_, e3, e4, e5⟩⟩
        · simp only [exec, e1, Except.map]
        · simp only [exec, Op.other, e2, Except.map]
    | setLimits lims =>
        left
        obtain ⟨t, e1, e2⟩ := h1.setLimits hp lims
        obtain ⟨t', d1, d2⟩ := h2.setLimits hp (fun i => mapD (φ (featureOf p.sizes i)) (lims i))
        refine ⟨t, t', e1, d1, .inl ⟨h, e2, d2, ?_⟩⟩
        rw [h1.setLimits_eq] at e1
        rw [h2.setLimits_eq] at d1
        obtain rfl := Except.ok.inj e1
        obtain rfl := Except.ok.inj d1
        simp only [Function.update_self]
        exact ⟨h3.count, h3.info, h3.bins, fun i hi => by simp [List.getElem?_range hi]⟩
    | rootSplit f v =>
        by_cases hf : f < p.sizes.length
        · by_cases hF : Fits p L
          · left
            obtain ⟨t, e1, e2, -⟩ := (splitNode_eq hp h1 hf v).1 hF
            obtain ⟨t', d1, d2, -⟩ := (splitNode_eq hp h2 hf (mapD (φ f) v)).1 hF
            exact ⟨t, t', e1, d1, .inr ⟨_, e2, d2⟩⟩
          · exact .inr ⟨(splitNode_eq hp h1 hf v).2 hF, (splitNode_eq hp h2 hf (mapD (φ f) v)).2 hF⟩
        · exact .inr ⟨h1.rootSplit_bad hf v, h2.rootSplit_bad hf _⟩
  · cases op with
    | train x l =>
        left
        obtain ⟨t, e1, e2⟩ := h1.train hp x l
        obtain ⟨t', d1, d2⟩ := h2.train hp (fun f => φ f (x f)) (σ l)
        rw [bump_ren] at d2
        exact ⟨t, t', e1, d1, .inr ⟨_, e2, d2⟩⟩
    | predict x =>
        left
        refine ⟨s, s', ?_, ?_, .inr ⟨h, h1, h2⟩⟩
        · simp only [exec, h1.predict hp, Except.map]
        · simp only [exec, Op.other, h2.predict hp, Except.map]
    | rootTrain x l =>
        right
        simp only [exec, Op.other, h1.rootTrain, h2.rootTrain, Except.map]
        exact ⟨trivial, trivial⟩
    | setLimits lims => exact .inr ⟨h1.setLimits _, h2.setLimits _⟩
    | rootSplit f v => exact .inr ⟨h1.rootSplit f v, h2.rootSplit f _⟩

end Orp.Hoeffding
