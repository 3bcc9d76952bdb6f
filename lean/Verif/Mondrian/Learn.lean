import Verif.Mondrian.KernelMore
import Verif.Mondrian.Distribution

/-!
For property C150: training keeps points together that are in the same leaf, points between two points of a leaf are in that leaf, and what a tree votes at a
point whose leaf has only points of one label.
-/

set_option linter.unusedSectionVars false

namespace Orp.Mondrian

variable {F L : Nat}

/-! ### Points that stay together -/

theorem above_way {life : ℝ} {f : Nat × Nat} {c : Cut ℝ F} {t : Tree ℝ F L} {pts : List (Point ℝ F L)} {z : Point ℝ F L} (hR : Right pts t) (hc : c.Ok t.data.box z.1) :
    ∃ b, ∀ a ∈ pts, (above life f c t z.1 z.2).way a.1 = b :: t.way a.1 := by
  have hb := hR.hull
  unfold above
  simp only
  rcases hc.sides with ⟨h1, h2, h3⟩ | ⟨h1, h2, h3⟩
  · refine ⟨true, fun a ha => ?_⟩
    rw [h1, if_pos rfl, Tree.way, if_pos ((hb.1 a ha c.dim).2.trans h2)]
  · refine ⟨false, fun a ha => ?_⟩
    rw [h1, if_neg (by simp), Tree.way, if_neg (not_le.2 (lt_of_lt_of_le h3 (hb.1 a ha c.dim).1))]

/-- Points that go the same way still do when the tree has grown. -/
theorem Grows.way {p : Params ℝ} {ω : Nat → ℝ} (hω : ∀ i, 0 ≤ ω i ∧ ω i < 1) {fresh : Option (Nat × Nat)} {z : Point ℝ F L} {t : Tree ℝ F L} {ptau : ℝ} {pos : Nat}
    {t' : Tree ℝ F L} {pos' : Nat} (h : Grows p ω fresh z.1 z.2 t ptau pos t' pos') : ∀ {pts : List (Point ℝ F L)}, Right pts t → ∀ a ∈ pts, ∀ b ∈ pts,
    t.way a.1 = t.way b.1 → t'.way a.1 = t'.way b.1 := by
  induction h with
  | above hd hf =>
      intro pts hr a ha b hb hab
      obtain ⟨d, hd⟩ := above_way (life := p.lifetime) (f := ‹Nat × Nat›) hr (draw_spec hω hd).1
      rw [hd a ha, hd b hb, hab]
  | leaf hd hf => intro pts hr a ha b hb hab; rfl
  | @left id d ptau pos pos' pos'' c dim sp l l' r hd hf hx hg ih =>
      intro pts hr a ha b hb hab
      simp only [Tree.way] at hab ⊢
      by_cases h1 : a.1 dim ≤ sp <;> by_cases h2 : b.1 dim ≤ sp <;> simp only [h1, h2, if_true, if_false, List.cons.injEq, true_and, reduceCtorEq, false_and] at hab ⊢
      · exact ih hr.2.1 a (List.mem_filter.2 ⟨ha, by simpa using h1⟩) b (List.mem_filter.2 ⟨hb, by simpa using h2⟩) hab
      · exact hab
  | @right id d ptau pos pos' pos'' c dim sp l r r' hd hf hx hg ih =>
      intro pts hr a ha b hb hab
      simp only [Tree.way] at hab ⊢
      by_cases h1 : a.1 dim ≤ sp <;> by_cases h2 : b.1 dim ≤ sp <;> simp only [h1, h2, if_true, if_false, List.cons.injEq, true_and, reduceCtorEq, false_and] at hab ⊢
      · exact hab
      · exact ih hr.2.2 a (List.mem_filter.2 ⟨ha, by simpa using h1⟩) b (List.mem_filter.2 ⟨hb, by simpa using h2⟩) hab

/-- A point between two points that go the same way goes that way. -/
theorem way_between {a b v : Fin F → ℝ} (h : ∀ i, min (a i) (b i) ≤ v i ∧ v i ≤ max (a i) (b i)) : ∀ t : Tree ℝ F L, t.way a = t.way b → t.way a = t.way v
  | .leaf _ _, _ => rfl
  | .node _ _ dim sp l r, hab => by
      have hv := h dim
      simp only [Tree.way] at hab ⊢
      by_cases h1 : a dim ≤ sp <;> by_cases h2 : b dim ≤ sp <;> simp only [h1, h2, if_true, if_false, List.cons.injEq, true_and, reduceCtorEq, false_and] at hab ⊢
      · rw [if_pos (hv.2.trans (max_le h1 h2)), way_between h l hab]
      · rw [if_neg (not_le.2 (lt_of_lt_of_le (lt_min (not_le.1 h1) (not_le.1 h2)) hv.1)), way_between h r hab]

/-- Further calls of `train` keep points together. -/
theorem run_ways {p : Params ℝ} (hlife : 0 ≤ p.lifetime) {ω : Nat → ℝ} (hω : ∀ i, 0 ≤ ω i ∧ ω i < 1) : ∀ (vs : List (Point ℝ F L)) (s : Forest ℝ F L) (pos : Nat)
    (trees : List (Option (Tree ℝ F L))) (lost : List Nat) (pts : List (Point ℝ F L)) (r : Forest ℝ F L × Nat), Inv s trees lost → (∀ o ∈ trees, Good (· ≤ ·) p.lifetime pts o) →
    run p ω (trainAll vs) s pos = .ok r → ∃ trees' lost', Inv r.1 trees' lost' ∧ ∀ (j : Nat) (t : Tree ℝ F L), trees[j]? = some (some t) →
      ∃ t', trees'[j]? = some (some t') ∧ ∀ a ∈ pts, ∀ b ∈ pts, t.way a.1 = t.way b.1 → t'.way a.1 = t'.way b.1
  | [], s, pos, trees, lost, pts, r, hI, hg, h => by
      simp only [trainAll, List.map_nil, run, Except.ok.injEq] at h
      subst h
      exact ⟨trees, lost, hI, fun j t hj => ⟨t, hj, fun a _ b _ hab => hab⟩⟩
  | v :: vs, s, pos, trees, lost, pts, r, hI, hg, h => by
      simp only [trainAll, List.map_cons, run, exec, bind, Except.bind] at h
      cases h2 : train p ω v.1 v.2 s pos with
      | error e => rw [h2] at h; cases h
      | ok u =>
          rw [h2] at h
          simp only at h
          obtain ⟨trees₁, lost₁, b1, -, -, b4, b5⟩ := train_spec p hlife ω hω v s trees lost hI pos u h2
          have hlt : ∀ {j : Nat} {o : Option (Tree ℝ F L)}, trees₁[j]? = some o → j < trees.length := fun hj => by rw [← b4]; exact lt_of_get hj
          obtain ⟨trees', lost', c1, c2⟩ := run_ways hlife hω vs u.1 u.2.1 trees₁ lost₁ (pts ++ [v]) r b1 (fun o ho => by
            obtain ⟨j, hj⟩ := List.mem_iff_getElem?.1 ho
            exact (b5 j _ _ (List.getElem?_eq_getElem (hlt hj)) hj).good (fun a b h => h.le) hω (draw_le hω) (hg _ (List.getElem_mem (hlt hj)))) h
          refine ⟨trees', lost', c1, fun j t hj => ?_⟩
          have hj1 : j < trees₁.length := by rw [b4]; exact lt_of_get hj
          have hstep := b5 j _ _ hj (List.getElem?_eq_getElem hj1)
          obtain ⟨fresh, pos1, t1, pos2, g1, g2⟩ := hstep
          obtain ⟨t', d1, d2⟩ := c2 j t1 (by rw [List.getElem?_eq_getElem hj1, g2])
          refine ⟨t', d1, fun a ha b hb hab => d2 a (by simp [ha]) b (by simp [hb]) ?_⟩
          exact g1.way hω (hg _ (List.mem_of_getElem? hj)).1 a ha b hb hab

/-! ### The length of a way -/

theorem way_length (x : Fin F → ℝ) : ∀ t : Tree ℝ F L, 2 * (t.way x).length + 1 ≤ t.ids.length
  | .leaf _ _ => by simp [Tree.way, Tree.ids]
  | .node _ _ dim sp l r => by
      have h1 := way_length x l
      have h2 := way_length x r
      simp only [Tree.way, Tree.ids, List.length_cons, List.length_append]
      split <;> simp only [List.length_cons] <;> omega

/-! ### The votes at a point whose leaf has one label -/

theorem node_mean {p : Params ℝ} (h0 : p.exp 0 = 1) (hd : p.discount = 0) {d : Data ℝ F L} (hc : ∀ l, d.counts l ≤ 2) {ptau w : ℝ} {pm : Fin L → ℝ} (hw : 0 ≤ w)
    (hpm : ∀ l, 0 ≤ pm l ∧ pm l ≤ 1 - w) (l : Fin L) : 0 ≤ meanOf p d ptau pm l ∧ meanOf p d ptau pm l ≤ 1 - w / 2 := by
  unfold meanOf
  simp only [hd, zero_mul, h0, one_mul]
  obtain ⟨h1, h2⟩ := hpm l
  by_cases hl : 0 < d.counts l
  · rw [if_pos hl]
    set S : ℝ := ∑ i, (d.counts i : ℝ) with hS
    set T : ℝ := ∑ i, ((Utils.min (d.counts i) 1 : Nat) : ℝ) with hT
    have htab : ((Utils.min (d.counts l) 1 : Nat) : ℝ) = 1 := by rw [min_eq, Nat.min_eq_right hl, Nat.cast_one]
    have hcl : (1 : ℝ) ≤ d.counts l := by exact_mod_cast hl
    have hST : (d.counts l : ℝ) - 1 ≤ S - T := by
      rw [hS, hT, ← Finset.sum_sub_distrib]
      have := Finset.single_le_sum (f := fun i => (d.counts i : ℝ) - ((Utils.min (d.counts i) 1 : Nat) : ℝ)) (s := Finset.univ) (fun i _ => by
        have : Utils.min (d.counts i) 1 ≤ d.counts i := by rw [min_eq]; exact min_le_left _ _
        have : ((Utils.min (d.counts i) 1 : Nat) : ℝ) ≤ d.counts i := by exact_mod_cast this
        linarith) (Finset.mem_univ l)
      rw [htab] at this
      exact this
    have hST2 : S ≤ 2 * T := by
      rw [hS, hT, Finset.mul_sum]
      refine Finset.sum_le_sum fun i _ => ?_
      have h3 := hc i
      have : d.counts i ≤ 2 * Utils.min (d.counts i) 1 := by rw [min_eq]; omega
      exact_mod_cast this
    have hSpos : 0 < S := by
      have := Finset.single_le_sum (f := fun i => (d.counts i : ℝ)) (s := Finset.univ) (fun i _ => by positivity) (Finset.mem_univ l)
      rw [hS]
      exact lt_of_lt_of_le (lt_of_lt_of_le one_pos hcl) this
    have hTpos : 0 < T := by linarith
    rw [htab, ← add_div]
    refine ⟨div_nonneg (add_nonneg (by linarith) (mul_nonneg hTpos.le h1)) hSpos.le, ?_⟩
    rw [div_le_iff₀ hSpos]
    have := mul_le_mul_of_nonneg_left h2 hTpos.le
    nlinarith
  · rw [if_neg hl]
    exact ⟨h1, by linarith⟩

theorem recount_counts (l r : Tree ℝ F L) (i : Fin L) : min 1 (l.recount.data.counts i) + min 1 (r.recount.data.counts i) ≤ 2 := by omega

/-- With discount factor 0, a tree votes for the label of the leaf, if that has `k` points and few splits above it. -/
theorem scores_pure {p : Params ℝ} (h0 : p.exp 0 = 1) (hd : p.discount = 0) {q : Fin F → ℝ} {c : Fin L} {k : Nat} (hk : 0 < k) : ∀ (t : Tree ℝ F L) (pts : List (Point ℝ F L))
    (ptau w : ℝ) (pm : Fin L → ℝ), Right pts t → (List.replicate k (q, c)).Sublist pts → (∀ z ∈ pts, t.way z.1 = t.way q → z.2 = c) → 0 ≤ w →
    (∀ l, 0 ≤ pm l ∧ pm l ≤ 1 - w) → 2 ^ (t.way q).length < k * w → ∃ v, scores p q t.recount ptau 1 pm (fun _ => 0) = .ok v ∧ ∀ l, l ≠ c → v l < v c
  | .leaf id d, pts, ptau, w, pm, hR, hsub, hpure, hw, hpm, hlt => by
      have hq : (q, c) ∈ pts := hsub.subset (List.mem_replicate.2 ⟨hk.ne', rfl⟩)
      have hin := hR.2.1.1 _ hq
      have hk' : (0 : ℝ) < k := by exact_mod_cast hk
      have hother : ∀ l, l ≠ c → d.counts l = 0 := fun l hl => by
        rw [hR.2.2, histogram, List.countP_eq_zero]
        intro z hz
        simp only [decide_eq_true_eq]
        rw [hpure z hz rfl]
        exact Ne.symm hl
      have hmine : k ≤ d.counts c := by
        rw [hR.2.2, histogram]
        refine le_trans (le_of_eq ?_) (hsub.countP_le (p := fun z => decide (z.2 = c)))
        simp [List.countP_replicate]
      have hpos : 0 < d.counts c := by omega
      simp only [Tree.recount, scores, eta_inside hin, mul_zero, h0, sub_self, smooth, lt_irrefl, if_false, bind, Except.bind, pure, Except.pure]
      refine ⟨_, rfl, fun l hl => ?_⟩
      simp only [sub_zero, mul_one, one_mul, zero_add]
      have e1 : meanOf p d ptau pm l = pm l := by
        unfold meanOf
        simp only
        rw [if_neg (by rw [hother l hl]; simp)]
      have hS : ∑ i, (d.counts i : ℝ) = d.counts c := Finset.sum_eq_single c (fun i _ hi => by rw [hother i hi]; simp) (by simp)
      have hT : ∑ i, ((Utils.min (d.counts i) 1 : Nat) : ℝ) = 1 := by
        rw [Finset.sum_eq_single c (fun i _ hi => by rw [hother i hi]; simp [min_eq]) (by simp), min_eq, Nat.min_eq_right hpos, Nat.cast_one]
      have e2 : meanOf p d ptau pm c = ((d.counts c : ℝ) - 1 + pm c) / d.counts c := by
        unfold meanOf
        simp only [hd, zero_mul, h0, one_mul, hS, hT]
        rw [if_pos hpos, min_eq, Nat.min_eq_right hpos, Nat.cast_one, ← add_div]
      rw [e1, e2]
      have hcc : (k : ℝ) ≤ d.counts c := by exact_mod_cast hmine
      have h1 := (hpm l).2
      have h2 := (hpm c).1
      simp only [Tree.way, List.length_nil, pow_zero] at hlt
      rw [lt_div_iff₀ (lt_of_lt_of_le hk' hcc)]
      have h3 := mul_le_mul_of_nonneg_right h1 (le_trans hk'.le hcc)
      have h4 := mul_le_mul_of_nonneg_right hcc hw
      nlinarith
  | .node id d dim sp l r, pts, ptau, w, pm, hR, hsub, hpure, hw, hpm, hlt => by
      have hq : (q, c) ∈ pts := hsub.subset (List.mem_replicate.2 ⟨hk.ne', rfl⟩)
      have hin := hR.1.1 _ hq
      simp only [Tree.recount, scores, eta_inside hin, mul_zero, h0, sub_self, smooth, lt_irrefl, if_false, bind, Except.bind, pure, Except.pure, sub_zero, mul_one]
      have hm := node_mean (d := { tau := d.tau, box := d.box, counts := fun i => min 1 (l.recount.data.counts i) + min 1 (r.recount.data.counts i) }) h0 hd
        (fun i => recount_counts l r i) (ptau := ptau) hw hpm
      by_cases hs : q dim ≤ sp
      · rw [if_pos hs]
        simp only [Tree.way, if_pos hs, List.length_cons, pow_succ] at hlt
        refine scores_pure h0 hd hk l _ d.tau (w / 2) _ hR.2.1 ?_ ?_ (by linarith) hm (by linarith)
        · have := hsub.filter (fun z => decide (z.1 dim ≤ sp))
          rwa [List.filter_replicate, if_pos (by simpa using hs)] at this
        · intro z hz hway
          obtain ⟨hz1, hz2⟩ := List.mem_filter.1 hz
          refine hpure z hz1 ?_
          rw [Tree.way, Tree.way, if_pos (by simpa using hz2), if_pos hs, hway]
      · rw [if_neg hs]
        simp only [Tree.way, if_neg hs, List.length_cons, pow_succ] at hlt
        refine scores_pure h0 hd hk r _ d.tau (w / 2) _ hR.2.2 ?_ ?_ (by linarith) hm (by linarith)
        · have := hsub.filter (fun z => decide (¬ z.1 dim ≤ sp))
          rwa [List.filter_replicate, if_pos (by simpa using hs)] at this
        · intro z hz hway
          obtain ⟨hz1, hz2⟩ := List.mem_filter.1 hz
          refine hpure z hz1 ?_
          rw [Tree.way, Tree.way, if_neg (by simpa using hz2), if_neg hs, hway]

/-- If every tree votes for a label, the forest does. -/
theorem totals_wins {p : Params ℝ} {q : Fin F → ℝ} {c : Fin L} : ∀ (trees : List (Option (Tree ℝ F L))) (acc : Fin L → ℝ), (∀ l, l ≠ c → acc l ≤ acc c) →
    (∀ o ∈ trees, ∃ v, treeScores p q o = .ok v ∧ ∀ l, l ≠ c → v l < v c) →
    ∃ v, totals p q trees acc = .ok v ∧ ∀ l, l ≠ c → v l ≤ v c ∧ (trees ≠ [] → v l < v c)
  | [], acc, ha, _ => ⟨acc, rfl, fun l hl => ⟨ha l hl, fun h => absurd rfl h⟩⟩
  | o :: os, acc, ha, h => by
      obtain ⟨u, h1, h2⟩ := h o (List.mem_cons_self ..)
      simp only [totals, h1, bind, Except.bind]
      have hacc : ∀ l, l ≠ c → acc l + u l < acc c + u c := fun l hl => add_lt_add_of_le_of_lt (ha l hl) (h2 l hl)
      obtain ⟨v, h3, h4⟩ := totals_wins os (fun k => acc k + u k) (fun l hl => (hacc l hl).le) fun o ho => h o (List.mem_cons_of_mem _ ho)
      refine ⟨v, h3, fun l hl => ⟨(h4 l hl).1, fun _ => ?_⟩⟩
      cases os with
      | nil =>
          simp only [totals, Except.ok.injEq] at h3
          rw [← h3]
          exact hacc l hl
      | cons o' os' => exact (h4 l hl).2 (by simp)

theorem label_wins {p : Params ℝ} {q : Fin F → ℝ} {c : Fin L} {trees : List (Option (Tree ℝ F L))} (hne : trees ≠ [])
    (h : ∀ o ∈ trees, ∃ v, treeScores p q o = .ok v ∧ ∀ l, l ≠ c → v l < v c) : label p q trees = .ok c.1 := by
  obtain ⟨v, h1, h2⟩ := totals_wins trees (fun _ => 0) (fun _ _ => le_rfl) h
  have hlen : 0 < trees.length := List.length_pos_of_ne_nil hne
  have hn : (0 : ℝ) < trees.length := by exact_mod_cast hlen
  unfold label
  simp only [h1, bind, Except.bind]
  rw [if_neg hlen.ne']
  have hL : 0 < L := lt_of_le_of_lt (Nat.zero_le _) c.2
  obtain ⟨hlt, hmax, -⟩ := Utils.C32_index_max (List.ofFn fun l => v l / (trees.length : ℝ)) (by
    intro hnil; have := congrArg List.length hnil; simp at this; omega)
  show Except.ok _ = Except.ok _
  congr 1
  by_contra hne'
  have h3 := hmax _ (List.mem_ofFn.2 ⟨c, rfl⟩)
  rw [List.getElem_ofFn] at h3
  have hlt' : Utils.indexMax (List.ofFn fun l => v l / (trees.length : ℝ)) < L := by simpa using hlt
  have h4 := (h2 ⟨_, hlt'⟩ fun e => hne' (congrArg Fin.val e)).2 hne
  rw [div_le_div_iff_of_pos_right hn] at h3
  exact absurd h4 (not_lt.2 h3)

end Orp.Mondrian
