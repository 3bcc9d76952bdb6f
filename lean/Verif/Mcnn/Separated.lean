import Verif.Mcnn.Props
import Mathlib.Data.List.Dedup
import Mathlib.Algebra.BigOperators.Group.List.Basic
import Mathlib.Algebra.BigOperators.Ring.List
import Mathlib.Tactic.Linarith

/-!
C130: MC-NN on well separated classes.
-/

set_option linter.unusedSectionVars false

namespace Orp.Mcnn

variable {K : Type} [Field K] [LinearOrder K] [IsStrictOrderedRing K]

/-- the training points with a label, in order -/
def ofLabel (ps : List (List K × Int)) (l : Int) : List (List K) := (ps.filter (fun p => p.2 = l)).map Prod.fst

/-- the labels of the training points, each once -/
def labelsOf (ps : List (List K × Int)) : List Int := (ps.map Prod.snd).dedup

/-- Classes are separated: the squared distance of two points is at most `A` if they have the same label, and at least `B` otherwise. -/
def Separated (fc : Nat) (A B : K) (ps : List (List K × Int)) : Prop :=
  ∀ p ∈ ps, ∀ q ∈ ps, (p.2 = q.2 → sqDist fc p.1 q.1 ≤ A) ∧ (p.2 ≠ q.2 → B ≤ sqDist fc p.1 q.1)

/-- The query is in the place of the label: at most `A` from the points of the label, and at least `B` from all others. -/
def Belongs (fc : Nat) (A B : K) (ps : List (List K × Int)) (x : List K) (l : Int) : Prop :=
  ∀ p ∈ ps, (p.2 = l → sqDist fc x p.1 ≤ A) ∧ (p.2 ≠ l → B ≤ sqDist fc x p.1)

/-! ### distances to a mean -/

theorem sqDist_succ (fc : Nat) (a b : List K) : sqDist (fc + 1) a b = sqDist fc a b + (a.getD fc 0 - b.getD fc 0) ^ 2 := by
  simp [sqDist, List.range_succ]

theorem sqDist_nonneg (fc : Nat) (a b : List K) : 0 ≤ sqDist fc a b := by
  induction fc with
  | zero => simp [sqDist]
  | succ fc ih => rw [sqDist_succ]; positivity

theorem sqDist_comm (fc : Nat) (a b : List K) : sqDist fc a b = sqDist fc b a := by
  induction fc with
  | zero => simp [sqDist]
  | succ fc ih => rw [sqDist_succ, sqDist_succ, ih]; ring

theorem sqDist_mean (fc : Nat) (pts : List (List K)) (hne : pts ≠ []) (c : List K) (hc : ∀ i < fc, c.getD i 0 = meanOf pts i) (x : List K) :
    (pts.length : K) * sqDist fc x c = (pts.map (fun p => sqDist fc x p)).sum - (pts.map (fun p => sqDist fc p c)).sum := by
  have hn : (pts.length : K) ≠ 0 := by
    have := List.length_pos_iff.2 hne
    exact_mod_cast this.ne'
  induction fc with
  | zero => simp [sqDist]
  | succ fc ih =>
      have ih := ih (fun i hi => hc i (by omega))
      have hc := hc fc (by omega)
      simp only [sqDist_succ, mul_add, List.sum_map_add, ih]
      have h1 := sq_dev_sum (pts.map (fun y => y.getD fc 0)) (x.getD fc 0)
      have h2 := sq_dev_sum (pts.map (fun y => y.getD fc 0)) (c.getD fc 0)
      rw [List.map_map, List.map_map, List.length_map] at h1 h2
      simp only [Function.comp_def] at h1 h2
      have e1 : (pts.map (fun p => (x.getD fc 0 - p.getD fc 0) ^ 2)).sum = (pts.map (fun p => (p.getD fc 0 - x.getD fc 0) ^ 2)).sum := by
        congr 1
        refine List.map_congr_left fun p _ => by ring
      rw [e1, h1, h2]
      have h3 : (pts.map (fun y => y.getD fc 0)).sum = (pts.length : K) * c.getD fc 0 := by
        rw [hc, meanOf]
        field_simp
      rw [h3]
      ring

theorem sum_le_mul (l : List K) (a : K) (h : ∀ v ∈ l, v ≤ a) : l.sum ≤ (l.length : K) * a := by
  induction l with
  | nil => simp
  | cons v l ih =>
      have := ih (fun w hw => h w (by simp [hw]))
      have hv := h v (by simp)
      simp only [List.sum_cons, List.length_cons]
      push_cast
      linarith

theorem mul_le_sum (l : List K) (a : K) (h : ∀ v ∈ l, a ≤ v) : (l.length : K) * a ≤ l.sum := by
  induction l with
  | nil => simp
  | cons v l ih =>
      have := ih (fun w hw => h w (by simp [hw]))
      have hv := h v (by simp)
      simp only [List.sum_cons, List.length_cons]
      push_cast
      linarith

/-- the sum of the squared distances to the mean is half the mean of the sum of all squared distances -/
theorem spread (fc : Nat) (pts : List (List K)) (hne : pts ≠ []) (c : List K) (hc : ∀ i < fc, c.getD i 0 = meanOf pts i) {A : K}
    (hA : ∀ p ∈ pts, ∀ q ∈ pts, sqDist fc p q ≤ A) : 2 * (pts.map (fun p => sqDist fc p c)).sum ≤ (pts.length : K) * A := by
  have hn : (0 : K) < (pts.length : K) := by
    have := List.length_pos_iff.2 hne
    exact_mod_cast this
  have h1 : (pts.map (fun q => (pts.length : K) * sqDist fc q c)).sum ≤ (pts.length : K) * ((pts.length : K) * A - (pts.map (fun p => sqDist fc p c)).sum) := by
    have := sum_le_mul (pts.map (fun q => (pts.length : K) * sqDist fc q c)) ((pts.length : K) * A - (pts.map (fun p => sqDist fc p c)).sum) (by
      intro v hv
      obtain ⟨q, hq, rfl⟩ := List.mem_map.1 hv
      rw [sqDist_mean fc pts hne c hc q]
      have := sum_le_mul (pts.map (fun p => sqDist fc q p)) A (by
        intro v hv
        obtain ⟨p, hp, rfl⟩ := List.mem_map.1 hv
        exact hA q hq p hp)
      rw [List.length_map] at this
      linarith)
    rwa [List.length_map] at this
  rw [show (pts.map (fun q => (pts.length : K) * sqDist fc q c)).sum = (pts.length : K) * (pts.map (fun q => sqDist fc q c)).sum from List.sum_map_mul_left _ _ _] at h1
  have := le_of_mul_le_mul_left h1 hn
  linarith

theorem near_own (fc : Nat) (pts : List (List K)) (hne : pts ≠ []) (c : List K) (hc : ∀ i < fc, c.getD i 0 = meanOf pts i) {A : K} (x : List K)
    (hx : ∀ p ∈ pts, sqDist fc x p ≤ A) : sqDist fc x c ≤ A := by
  have hn : (0 : K) < (pts.length : K) := by
    have := List.length_pos_iff.2 hne
    exact_mod_cast this
  have h1 := sqDist_mean fc pts hne c hc x
  have h2 := sum_le_mul (pts.map (fun p => sqDist fc x p)) A (by
    intro v hv
    obtain ⟨p, hp, rfl⟩ := List.mem_map.1 hv
    exact hx p hp)
  rw [List.length_map] at h2
  have h3 : 0 ≤ (pts.map (fun p => sqDist fc p c)).sum := List.sum_nonneg (by
    intro v hv
    obtain ⟨p, hp, rfl⟩ := List.mem_map.1 hv
    exact sqDist_nonneg fc p c)
  exact le_of_mul_le_mul_left (by linarith) hn

theorem far_other (fc : Nat) (pts : List (List K)) (hne : pts ≠ []) (c : List K) (hc : ∀ i < fc, c.getD i 0 = meanOf pts i) {A B : K} (x : List K)
    (hA : ∀ p ∈ pts, ∀ q ∈ pts, sqDist fc p q ≤ A) (hx : ∀ p ∈ pts, B ≤ sqDist fc x p) : 2 * B - A ≤ 2 * sqDist fc x c := by
  have hn : (0 : K) < (pts.length : K) := by
    have := List.length_pos_iff.2 hne
    exact_mod_cast this
  have h1 := sqDist_mean fc pts hne c hc x
  have h2 := mul_le_sum (pts.map (fun p => sqDist fc x p)) B (by
    intro v hv
    obtain ⟨p, hp, rfl⟩ := List.mem_map.1 hv
    exact hx p hp)
  rw [List.length_map] at h2
  have h3 := spread fc pts hne c hc hA
  exact le_of_mul_le_mul_left (by linarith) hn

/-! ### the invariant -/

/-- exactly one cluster per label, with all the points of the label -/
structure OneEach (fc m : Nat) (tr : List (List K × Int)) (s : State K) : Prop where
  clen : s.clusters.length = m
  alen : s.active.length = m
  cleaning : s.cleaning ≠ 1 ∧ s.cleaning ≠ 2
  summ : ∀ i c, Active s i c → Summarises fc c (ofLabel tr c.label) ∧ c.label ∈ labelsOf tr
  uniq : ∀ i j c d, Active s i c → Active s j d → c.label = d.label → i = j
  all : ∀ l ∈ labelsOf tr, ∃ i c, Active s i c ∧ c.label = l
  act : s.active.count true = (labelsOf tr).length
  count : s.count = (labelsOf tr).length

theorem mem_labelsOf {tr : List (List K × Int)} {l : Int} : l ∈ labelsOf tr ↔ ∃ p ∈ tr, p.2 = l := by
  simp [labelsOf]

theorem ofLabel_ne_nil {tr : List (List K × Int)} {l : Int} (h : l ∈ labelsOf tr) : ofLabel tr l ≠ [] := by
  obtain ⟨p, hp, rfl⟩ := mem_labelsOf.1 h
  intro e
  have : p.1 ∈ ofLabel tr p.2 := List.mem_map.2 ⟨p, List.mem_filter.2 ⟨hp, by simp⟩, rfl⟩
  rw [e] at this
  cases this

theorem ofLabel_snoc (tr : List (List K × Int)) (x : List K) (l l' : Int) : ofLabel (tr ++ [(x, l)]) l' = if l = l' then ofLabel tr l' ++ [x] else ofLabel tr l' := by
  by_cases h : l = l'
  · simp [ofLabel, List.filter_append, h]
  · simp [ofLabel, List.filter_append, h]

theorem labelsOf_snoc (tr : List (List K × Int)) (x : List K) (l : Int) : (labelsOf (tr ++ [(x, l)])).length = if l ∈ labelsOf tr then (labelsOf tr).length else (labelsOf tr).length + 1 := by
  unfold labelsOf
  rw [List.map_append, List.map_cons, List.map_nil]
  have e : ((tr.map Prod.snd) ++ [l]).dedup.length = (l :: tr.map Prod.snd).dedup.length := by
    refine (List.Perm.dedup ?_).length_eq
    exact List.perm_append_singleton _ _
  rw [e]
  by_cases h : l ∈ tr.map Prod.snd
  · rw [List.dedup_cons_of_mem h, if_pos (List.mem_dedup.2 h)]
  · rw [List.dedup_cons_of_notMem h, if_neg (fun h' => h (List.mem_dedup.1 h'))]
    rfl

theorem centroid_getD {fc : Nat} {c : Cluster K} {pts : List (List K)} (h : Summarises fc c pts) : ∀ i < fc, c.centroid.getD i 0 = meanOf pts i := by
  intro i hi
  rw [List.getD_eq_getElem?_getD, (summ_centroid h).2 i hi]
  rfl

theorem mem_ofLabel {tr : List (List K × Int)} {l : Int} {x : List K} : x ∈ ofLabel tr l ↔ (x, l) ∈ tr := by
  unfold ofLabel
  constructor
  · intro h
    obtain ⟨p, hp, rfl⟩ := List.mem_map.1 h
    obtain ⟨h1, h2⟩ := List.mem_filter.1 hp
    have : p.2 = l := by simpa using h2
    rw [← this]; exact h1
  · intro h
    exact List.mem_map.2 ⟨(x, l), List.mem_filter.2 ⟨h, by simp⟩, rfl⟩

/-- where the nearest cluster of a query is -/
theorem OneEach.dist {fc m : Nat} {tr : List (List K × Int)} {s : State K} (h : OneEach fc m tr s) {A B : K} (hsep : Separated fc A B tr) (hAB : 3 * A < 2 * B)
    {x : List K} (hx : x.length = fc) {l : Int} (hb : Belongs fc A B tr x l) :
    ∀ i c, Active s i c → (c.label = l → distance x c.centroid ≤ A) ∧ (c.label ≠ l → A < distance x c.centroid) := by
  intro i c hc
  obtain ⟨h1, h2⟩ := h.summ i c hc
  have hne := ofLabel_ne_nil h2
  have hcd := centroid_getD h1
  rw [distance_eq fc x _ hx (summ_centroid h1).1]
  constructor
  · intro hl
    refine near_own fc _ hne _ hcd x fun p hp => ?_
    exact (hb _ (mem_ofLabel.1 hp)).1 hl
  · intro hl
    have := far_other fc _ hne _ hcd (A := A) (B := B) x (fun p hp q hq => (hsep _ (mem_ofLabel.1 hp) _ (mem_ofLabel.1 hq)).1 rfl)
      (fun p hp => (hb _ (mem_ofLabel.1 hp)).2 hl)
    linarith

theorem oneEach_train (sqrt : K → K) {fc m : Nat} {tr : List (List K × Int)} {s : State K} (h : OneEach fc m tr s) {A B : K} {x : List K} {l : Int} (hx : x.length = fc)
    (hsep : Separated fc A B (tr ++ [(x, l)])) (hAB : 3 * A < 2 * B) (hA : A < 1000000) (hm : (labelsOf (tr ++ [(x, l)])).length ≤ m) :
    ∃ s', train sqrt s x l = .ok (s', true) ∧ OneEach fc m (tr ++ [(x, l)]) s' := by
  have hp : prepared s = { s with timestamp := s.timestamp + 1 } := by
    unfold prepared
    rw [if_neg (by have := h.cleaning; omega)]
  have hact : ∀ i c, Active (prepared s) i c ↔ Active s i c := by
    intro i c; rw [hp]; exact Iff.rfl
  have hsep' : Separated fc A B tr := fun p hp q hq => hsep p (by simp [hp]) q (by simp [hq])
  have hb : Belongs fc A B tr x l := fun p hp => by
    have := hsep (x, l) (by simp) p (by simp [hp])
    exact ⟨fun e => this.1 e.symm, fun e => this.2 (Ne.symm e)⟩
  have hd := h.dist hsep' hAB hx hb
  have hlen : (prepared s).clusters.length = (prepared s).active.length := by rw [hp]; exact h.clen.trans h.alen.symm
  have hsn := labelsOf_snoc tr x l
  rw [train_eq]
  by_cases hl : l ∈ labelsOf tr
  · obtain ⟨j, c, hc, hcl⟩ := h.all l hl
    rw [if_pos hl] at hsn
    rcases findNearestClass_spec (prepared s) x l hlen with ⟨near, a1, a2⟩ | ⟨i, j', c', d, a1, a2, a3, a4, a5, a6, a7, a8⟩
    · exfalso
      have := a2 j c ((hact j c).2 hc) (by simp [hcl])
      have := (hd j c hc).1 hcl
      linarith
    · rw [hact] at a2 a3
      have e1 : j' = j := h.uniq j' j c' c a3 hc (by rw [a4, hcl])
      have e2 : i = j := by
        by_cases hdl : d.label = l
        · exact h.uniq i j d c a2 hc (by rw [hdl, hcl])
        · exfalso
          have b1 := (hd i d a2).2 hdl
          have b2 := (hd j c hc).1 hcl
          have b3 := a7 j c ((hact j c).2 hc)
          linarith
      subst e1; subst e2
      have hl : i < s.clusters.length := (List.getElem?_eq_some_iff.1 hc.2).1
      have hr : rd s.clusters i = .ok c := rd_eq_ok_iff.2 hc.2
      have hab : absorb sqrt (prepared s) x i i = .ok { prepared s with
          clusters := s.clusters.set i (({ c with err := c.err + 1 } : Cluster K).incorporate x (s.timestamp + 1)) } := by
        rw [hp]
        unfold absorb
        simp only [if_true, bind, Except.bind, hr, wr_ok _ hl, pure, Except.pure]
      simp only [a1, bind, Except.bind, hab, pure, Except.pure]
      refine ⟨_, rfl, ?_⟩
      rw [hp]
      have hget : ∀ k e, Active ({ ({ s with timestamp := s.timestamp + 1 } : State K) with
          clusters := s.clusters.set i (({ c with err := c.err + 1 } : Cluster K).incorporate x (s.timestamp + 1)) } : State K) k e →
          (k = i ∧ e = ({ c with err := c.err + 1 } : Cluster K).incorporate x (s.timestamp + 1)) ∨ (k ≠ i ∧ Active s k e) := by
        rintro k e ⟨k1, k2⟩
        by_cases hk : k = i
        · subst hk
          simp only [List.getElem?_set_self hl, Option.some.injEq] at k2
          exact .inl ⟨rfl, k2.symm⟩
        · simp only [List.getElem?_set_ne (Ne.symm hk)] at k2
          exact .inr ⟨hk, k1, k2⟩
      refine ⟨by simpa using h.clen, h.alen, h.cleaning, ?_, ?_, ?_, by rw [hsn]; exact h.act, by rw [hsn]; exact h.count⟩
      · intro k e he
        rcases hget k e he with ⟨-, rfl⟩ | ⟨hk, he'⟩
        · refine ⟨?_, mem_labelsOf.2 ⟨(x, l), by simp, hcl.symm⟩⟩
          have := summ_incorporate (summ_err (h.summ i c hc).1 (c.err + 1)) hx (s.timestamp + 1)
          show Summarises fc _ (ofLabel (tr ++ [(x, l)]) c.label)
          rw [ofLabel_snoc, if_pos hcl.symm]
          exact this
        · obtain ⟨g1, g2⟩ := h.summ k e he'
          have hne : l ≠ e.label := fun e' => hk (h.uniq k i e c he' hc (by rw [← e', hcl]))
          rw [ofLabel_snoc, if_neg hne]
          obtain ⟨p, hp, e⟩ := mem_labelsOf.1 g2
          exact ⟨g1, mem_labelsOf.2 ⟨p, by simp [hp], e⟩⟩
      · intro k k' e e' he he' hlab
        rcases hget k e he with ⟨rfl, rfl⟩ | ⟨hk, he1⟩
        · rcases hget k' e' he' with ⟨rfl, rfl⟩ | ⟨hk', he1'⟩
          · rfl
          · exact h.uniq _ _ c e' hc he1' hlab
        · rcases hget k' e' he' with ⟨rfl, rfl⟩ | ⟨hk', he1'⟩
          · exact h.uniq _ _ e c he1 hc hlab
          · exact h.uniq _ _ e e' he1 he1' hlab
      · intro l' hl'
        have hl'' : l' ∈ labelsOf tr := by
          obtain ⟨p, hp, e⟩ := mem_labelsOf.1 hl'
          rcases List.mem_append.1 hp with hp | hp
          · exact mem_labelsOf.2 ⟨p, hp, e⟩
          · rw [List.mem_singleton.1 hp] at e
            rw [← e]; assumption
        obtain ⟨k, e, he, hel⟩ := h.all l' hl''
        by_cases hk : k = i
        · subst hk
          have : e = c := by have := he.2; rw [hc.2] at this; cases this; rfl
          subst this
          exact ⟨k, _, ⟨he.1, List.getElem?_set_self hl⟩, hel⟩
        · exact ⟨k, e, ⟨he.1, by simp only [List.getElem?_set_ne (Ne.symm hk)]; exact he.2⟩, hel⟩
  · rw [if_neg hl] at hsn
    rw [hsn] at hm
    rcases findNearestClass_spec (prepared s) x l hlen with ⟨near, a1, a2⟩ | ⟨i, j', c', d, a1, a2, a3, a4, -⟩
    swap
    · exact absurd (by rw [← a4]; exact (h.summ _ _ ((hact _ _).1 a3)).2) hl
    obtain ⟨i, f1, f2⟩ : ∃ i, insert (prepared s) x l = .ok ({ prepared s with
        active := (prepared s).active.set i true
        clusters := (prepared s).clusters.set i (initCluster x l (prepared s).timestamp (prepared s).errorThr)
        count := (prepared s).count + 1 }, true) ∧ (prepared s).active[i]? = some false := by
      rcases freeLoop_spec (prepared s).active none (prepared s).active.length 0 (by omega) with ⟨j, a1, _, a2, _⟩ | ⟨a1, a2⟩
      · have hj : j < (prepared s).active.length := (List.getElem?_eq_some_iff.1 a2).1
        have hj' : j < (prepared s).clusters.length := by rw [hlen]; exact hj
        refine ⟨j, ?_, a2⟩
        simp only [insert, hlen, a1, bind, Except.bind, wr_ok _ hj, wr_ok _ hj', pure, Except.pure]
      · exfalso
        have hall : ∀ i < (prepared s).active.length, (prepared s).active[i]? = some true := by
          intro i hi
          rcases a2 i (by omega) hi with h | h
          · exact h
          · cases h
        have := all_count _ hall
        rw [hp] at this
        have e := h.act
        have e2 := h.alen
        simp only at this
        omega
    have hstep : (match ((near, none) : Option Nat × Option Nat) with
      | (_, none) => insert (prepared s) x l
      | (none, some _) => .error .ub
      | (some near, some nc) => (match absorb sqrt (prepared s) x near nc with
          | .error err => .error err
          | .ok s => pure (s, true))) = insert (prepared s) x l := by
      cases near <;> rfl
    simp only [a1, bind, Except.bind]
    refine ⟨_, hstep.trans f1, ?_⟩
    have hil : i < s.active.length := by rw [hp] at f2; exact (List.getElem?_eq_some_iff.1 f2).1
    have hil' : i < s.clusters.length := by rw [h.clen, ← h.alen]; exact hil
    have hoff : s.active[i]? = some false := by rw [hp] at f2; exact f2
    rw [hp]
    have hget : ∀ k e, Active ({ ({ s with timestamp := s.timestamp + 1 } : State K) with
        active := s.active.set i true
        clusters := s.clusters.set i (initCluster x l (s.timestamp + 1) s.errorThr)
        count := s.count + 1 } : State K) k e →
        (k = i ∧ e = initCluster x l (s.timestamp + 1) s.errorThr) ∨ (k ≠ i ∧ Active s k e) := by
      rintro k e ⟨k1, k2⟩
      by_cases hk : k = i
      · subst hk
        simp only [List.getElem?_set_self hil', Option.some.injEq] at k2
        exact .inl ⟨rfl, k2.symm⟩
      · simp only [List.getElem?_set_ne (Ne.symm hk)] at k1 k2
        exact .inr ⟨hk, k1, k2⟩
    refine ⟨by simpa using h.clen, by simpa using h.alen, h.cleaning, ?_, ?_, ?_, ?_, ?_⟩
    · intro k e he
      rcases hget k e he with ⟨-, rfl⟩ | ⟨hk, he'⟩
      · refine ⟨?_, mem_labelsOf.2 ⟨(x, l), by simp, rfl⟩⟩
        show Summarises fc _ (ofLabel (tr ++ [(x, l)]) l)
        have hnil : ofLabel tr l = [] := by
          by_contra hne
          obtain ⟨y, hy⟩ := List.exists_mem_of_ne_nil _ hne
          exact hl (mem_labelsOf.2 ⟨_, mem_ofLabel.1 hy, rfl⟩)
        rw [ofLabel_snoc, if_pos rfl, hnil]
        exact summ_init fc x hx _ _ _
      · obtain ⟨g1, g2⟩ := h.summ k e he'
        have hne : l ≠ e.label := fun e' => hl (by rw [e']; exact g2)
        rw [ofLabel_snoc, if_neg hne]
        obtain ⟨p, hp, e⟩ := mem_labelsOf.1 g2
        exact ⟨g1, mem_labelsOf.2 ⟨p, by simp [hp], e⟩⟩
    · intro k k' e e' he he' hlab
      rcases hget k e he with ⟨rfl, rfl⟩ | ⟨hk, he1⟩
      · rcases hget k' e' he' with ⟨rfl, rfl⟩ | ⟨hk', he1'⟩
        · rfl
        · exact absurd (by show l ∈ _; rw [show l = e'.label from hlab]; exact (h.summ _ _ he1').2) hl
      · rcases hget k' e' he' with ⟨rfl, rfl⟩ | ⟨hk', he1'⟩
        · exact absurd (by show l ∈ _; rw [show l = e.label from hlab.symm]; exact (h.summ _ _ he1).2) hl
        · exact h.uniq _ _ e e' he1 he1' hlab
    · intro l' hl'
      obtain ⟨p, hp, e⟩ := mem_labelsOf.1 hl'
      rcases List.mem_append.1 hp with hp | hp
      · obtain ⟨k, d, hd', hdl⟩ := h.all l' (mem_labelsOf.2 ⟨p, hp, e⟩)
        have hk : k ≠ i := by
          rintro rfl
          rw [hd'.1] at hoff
          cases hoff
        exact ⟨k, d, ⟨by simp only [List.getElem?_set_ne (Ne.symm hk)]; exact hd'.1, by simp only [List.getElem?_set_ne (Ne.symm hk)]; exact hd'.2⟩, hdl⟩
      · rw [List.mem_singleton.1 hp] at e
        exact ⟨i, _, ⟨List.getElem?_set_self hil, List.getElem?_set_self hil'⟩, e⟩
    · show (s.active.set i true).count true = _
      rw [count_set_false _ _ hoff, hsn, h.act]
    · show s.count + 1 = _
      rw [hsn, h.count]; push_cast; rfl

theorem labelsOf_mono (a b : List (List K × Int)) : (labelsOf a).length ≤ (labelsOf (a ++ b)).length := by
  apply List.Subperm.length_le
  apply List.subperm_of_subset (List.nodup_dedup _)
  intro l hl
  obtain ⟨p, hp, e⟩ := mem_labelsOf.1 hl
  exact mem_labelsOf.2 ⟨p, by simp [hp], e⟩

theorem oneEach_run (sqrt : K → K) {fc m : Nat} {A B : K} (hAB : 3 * A < 2 * B) (hA : A < 1000000) : ∀ (ps tr : List (List K × Int)) (s : State K), OneEach fc m tr s →
    (∀ p ∈ ps, p.1.length = fc) → Separated fc A B (tr ++ ps) → (labelsOf (tr ++ ps)).length ≤ m → ∃ s', run sqrt s ps = .ok s' ∧ OneEach fc m (tr ++ ps) s'
  | [], tr, s, h, _, _, _ => ⟨s, rfl, by simpa using h⟩
  | (x, l) :: ps, tr, s, h, hp, hs, hm => by
      have e : tr ++ (x, l) :: ps = (tr ++ [(x, l)]) ++ ps := by simp
      rw [e] at hs hm ⊢
      obtain ⟨s1, h1, h2⟩ := oneEach_train sqrt h (hp (x, l) (by simp)) (fun p hp q hq => hs p (List.mem_append_left _ hp) q (List.mem_append_left _ hq)) hAB hA
        ((labelsOf_mono _ _).trans hm)
      obtain ⟨s2, h3, h4⟩ := oneEach_run sqrt hAB hA ps _ s1 h2 (fun p h => hp p (by simp [h])) hs hm
      exact ⟨s2, by simp only [run, h1, bind, Except.bind, h3], h4⟩

theorem oneEach_new (fc : Nat) (g : List (Cluster K)) (thr cl : Nat) (hcl : cl ≠ 1 ∧ cl ≠ 2) (pt : ℚ) : OneEach fc g.length [] (new g thr cl pt) := by
  have hoff : ∀ i : Nat, ¬ (new g thr cl pt).active[i]? = some true := by
    intro i hi
    simp only [new, List.getElem?_map] at hi
    cases hg : g[i]? <;> simp [hg] at hi
  refine ⟨rfl, by simp [new], hcl, fun i c h => absurd h.1 (hoff i), fun i j c d h => absurd h.1 (hoff i), by simp [labelsOf], ?_, by simp [new, labelsOf]⟩
  show (g.map (fun _ => false)).count true = 0
  rw [List.count_eq_zero]
  intro h
  obtain ⟨_, _, h⟩ := List.mem_map.1 h
  cases h

/-- **C130** Trained in any order on classes that are separated, without removal of low performance clusters and with room for one cluster per label, MC-NN keeps exactly one cluster per
label, whose centroid is the mean of all training points of the label, and counts them right. -/
theorem C130_one_cluster_per_label (sqrt : K → K) (garbage : List (Cluster K)) (fc : Nat) (errorThr cleaning : Nat) (hcl : cleaning ≠ 1 ∧ cleaning ≠ 2)
    (perfThr : ℚ) (ps : List (List K × Int)) (hp : ∀ p ∈ ps, p.1.length = fc) (A B : K) (hs : Separated fc A B ps) (hAB : 3 * A < 2 * B) (hA : A < 1000000)
    (hm : (labelsOf ps).length ≤ garbage.length) :
    ∃ s, run sqrt (new garbage errorThr cleaning perfThr) ps = .ok s ∧ countClusters s = (labelsOf ps).length ∧ activeCount s = (labelsOf ps).length ∧
      (∀ l ∈ labelsOf ps, ∃ i c, Active s i c ∧ c.label = l ∧ ∀ j d, Active s j d → d.label = l → j = i) ∧
      ∀ i c, Active s i c → c.label ∈ labelsOf ps ∧ c.n = (ofLabel ps c.label).length ∧ ∀ f < fc, c.centroid[f]? = some (meanOf (ofLabel ps c.label) f) := by
  obtain ⟨s, h1, h2⟩ := oneEach_run sqrt hAB hA ps [] _ (oneEach_new fc garbage errorThr cleaning hcl perfThr) hp (by simpa using hs) (by simpa using hm)
  rw [List.nil_append] at h2
  refine ⟨s, h1, h2.count, h2.act, fun l hl => ?_, fun i c hc => ?_⟩
  · obtain ⟨i, c, hc, hcl⟩ := h2.all l hl
    exact ⟨i, c, hc, hcl, fun j d hd hdl => h2.uniq j i d c hd hc (by rw [hdl, hcl])⟩
  · obtain ⟨g1, g2⟩ := h2.summ i c hc
    exact ⟨g2, g1.1, (summ_centroid g1).2⟩

/-- **C130** It then predicts the right label for every query in the place of a label. -/
theorem C130_predict (sqrt : K → K) (garbage : List (Cluster K)) (fc : Nat) (errorThr cleaning : Nat) (hcl : cleaning ≠ 1 ∧ cleaning ≠ 2)
    (perfThr : ℚ) (emptyClass : Int) (ps : List (List K × Int)) (hp : ∀ p ∈ ps, p.1.length = fc) (A B : K) (hs : Separated fc A B ps) (hAB : 3 * A < 2 * B) (hA : A < 1000000)
    (hm : (labelsOf ps).length ≤ garbage.length) :
    ∃ s, run sqrt (new garbage errorThr cleaning perfThr) ps = .ok s ∧ ∀ (x : List K) (l : Int), x.length = fc → l ∈ labelsOf ps → Belongs fc A B ps x l →
      predict emptyClass s x = .ok l := by
  obtain ⟨s, h1, h2⟩ := oneEach_run sqrt hAB hA ps [] _ (oneEach_new fc garbage errorThr cleaning hcl perfThr) hp (by simpa using hs) (by simpa using hm)
  rw [List.nil_append] at h2
  refine ⟨s, h1, fun x l hx hl hb => ?_⟩
  have hd := h2.dist hs hAB hx hb
  obtain ⟨k, c, hc, hcl⟩ := h2.all l hl
  have hk := (hd k c hc).1 hcl
  obtain ⟨best, d, a1, a2⟩ := findNearest_spec s x (h2.clen.trans h2.alen.symm)
  rcases a2 with ⟨rfl, _, a3⟩ | ⟨j, c', rfl, ⟨c'', b1, b2, b3, b4, b5⟩, b6, _⟩
  · have := a3 k c hc rfl
    linarith
  · have hcc : c'' = c' := by
      have := b1.2; rw [b6.2] at this; cases this; rfl
    subst hcc
    have : c''.label = l := by
      by_contra hne
      have := (hd j c'' b1).2 hne
      have := b4 k c hc rfl
      linarith
    simp only [predict, a1, bind, Except.bind, pure, Except.pure, rd_eq_ok_iff.2 b6.2, this]

/-- **C130** In particular it reproduces the label of every training point. -/
theorem C130_training_points (sqrt : K → K) (garbage : List (Cluster K)) (fc : Nat) (errorThr cleaning : Nat) (hcl : cleaning ≠ 1 ∧ cleaning ≠ 2)
    (perfThr : ℚ) (emptyClass : Int) (ps : List (List K × Int)) (hp : ∀ p ∈ ps, p.1.length = fc) (A B : K) (hs : Separated fc A B ps) (hAB : 3 * A < 2 * B) (hA : A < 1000000)
    (hm : (labelsOf ps).length ≤ garbage.length) :
    ∃ s, run sqrt (new garbage errorThr cleaning perfThr) ps = .ok s ∧ ∀ p ∈ ps, predict emptyClass s p.1 = .ok p.2 := by
  obtain ⟨s, h1, h2⟩ := C130_predict sqrt garbage fc errorThr cleaning hcl perfThr emptyClass ps hp A B hs hAB hA hm
  refine ⟨s, h1, fun p hpp => h2 p.1 p.2 (hp p hpp) (mem_labelsOf.2 ⟨p, hpp, rfl⟩) fun q hq => ?_⟩
  exact ⟨fun e => (hs p hpp q hq).1 e.symm, fun e => (hs p hpp q hq).2 (Ne.symm e)⟩

/-- three separated classes -/
def exSep : List (List ℚ × Int) := [([0, 0], 1), ([10, 0], 2), ([1, 2], 1), ([0, 10], 3), ([11, 1], 2), ([2, 0], 1)]

example : Separated 2 5 64 exSep ∧ (labelsOf exSep).length ≤ [junk, junk, junk].length := by
  refine ⟨?_, by decide +kernel⟩
  simp [Separated, exSep, sqDist, List.range_succ]
  norm_num

/-- The margin is needed: that points of the same label are closer together than points of different labels is not enough. -/
theorem C130_needs_margin : ∃ (ps : List (List ℚ × Int)) (x : List ℚ), Separated 2 4 (65 / 16) ps ∧ Belongs 2 4 (65 / 16) ps x 1 ∧ 1 ∈ labelsOf ps ∧
    (run id (new [junk, junk] 2 0 50) ps).bind (fun s => predict (-1) s x) = .ok 2 := by
  refine ⟨[([0, 1], 2), ([0, -1], 2), ([15 / 4, 0], 1)], [7 / 4, 0], ?_, ?_, by decide +kernel, by decide +kernel⟩
  · simp [Separated, sqDist, List.range_succ]
    norm_num
  · simp [Belongs, sqDist, List.range_succ]
    norm_num

/-- The condition on the cleaning method is needed: with method 1 and the default threshold the cluster of a separated label is removed, and its training points are given another label. -/
theorem C130_cleaning_forgets : (run id (new [junk, junk] 2 1 50) [([0], 1), ([0], 1), ([10], 2), ([10], 2)]).bind (fun s => predict (-1) s ([0] : List ℚ)) = .ok 2 := by
  decide +kernel

end Orp.Mcnn
