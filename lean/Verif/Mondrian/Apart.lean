import Verif.Mondrian.KernelProps
import Verif.Mondrian.ApartSpec

/-!
Growth of a tree that is only looked at up to a time `T`.
-/

set_option linter.unusedSectionVars false

namespace Orp.Mondrian

open MeasureTheory Orp.Reservoir

variable {F L : Nat}

/-- the tree up to the time `T` -/
noncomputable def Tree.upTo (T : ℝ) : Tree ℝ F L → Tree ℝ F L
  | .leaf id d => .leaf id ⟨T, d.box, d.counts⟩
  | .node id d dim sp l r => if T ≤ d.tau then .leaf id ⟨T, d.box, d.counts⟩ else .node id d dim sp (l.upTo T) (r.upTo T)

theorem upTo_late {T : ℝ} : ∀ {t : Tree ℝ F L}, T ≤ t.data.tau → t.upTo T = .leaf t.id ⟨T, t.data.box, t.data.counts⟩
  | .leaf _ _, _ => rfl
  | .node _ _ _ _ _ _, h => by
      simp only [Tree.data] at h
      rw [Tree.upTo, if_pos h]; rfl

theorem upTo_box (T : ℝ) (t : Tree ℝ F L) : (t.upTo T).data.box = t.data.box := by
  cases t with
  | leaf id d => rfl
  | node id d dim sp l r => rw [Tree.upTo]; split <;> rfl

theorem upTo_times {T life : ℝ} : ∀ {t : Tree ℝ F L} {ptau : ℝ}, Times (· ≤ ·) life ptau t → Times (· ≤ ·) T ptau (t.upTo T)
  | .leaf _ _, _, _ => rfl
  | .node _ d _ _ l r, ptau, h => by
      rw [Tree.upTo]
      split
      · rfl
      · rename_i h1
        exact ⟨h.1, not_le.1 h1, upTo_times h.2.2.1, upTo_times h.2.2.2⟩

theorem upTo_step {T life : ℝ} (hT : T ≤ life) {t : Tree ℝ F L} {ptau : ℝ} (h : Times (· ≤ ·) life ptau t) (hp : ptau ≤ T) : ptau ≤ (t.upTo T).data.tau := by
  cases t with
  | leaf id d => exact hp
  | node id d dim sp l r =>
    rw [Tree.upTo]
    split
    · exact hp
    · exact h.1

theorem upTo_above {T life : ℝ} {c : Cut ℝ F} (hc : c.tau < T) (f : Nat × Nat) (t : Tree ℝ F L) (z : Fin F → ℝ) (label : Fin L) :
    (above life f c t z label).upTo T = above T f c (t.upTo T) z label := by
  unfold above
  rw [upTo_box]
  cases c.right
  · simp only [Bool.false_eq_true, if_false, Tree.upTo, not_le.2 hc]; rfl
  · simp only [if_true, Tree.upTo, not_le.2 hc, if_false]; rfl

theorem above_data (life : ℝ) (f : Nat × Nat) (c : Cut ℝ F) (t : Tree ℝ F L) (z : Fin F → ℝ) (label : Fin L) :
    (above life f c t z label).data.tau = c.tau ∧ (above life f c t z label).data.box = t.data.box.extend z := by
  unfold above
  cases c.right <;> exact ⟨rfl, rfl⟩

/-- the value of a tree that is looked at up to the time `T` -/
noncomputable def looksTo (q : Box ℝ F) (T : ℝ) (t : Tree ℝ F L) (r : ℝ) : ℝ := together q T (t.upTo T) r

theorem looksTo_late {q : Box ℝ F} {T : ℝ} {t : Tree ℝ F L} (h : T ≤ t.data.tau) (r : ℝ) :
    looksTo q T t r = val (t.data.box.outs q) (t.data.box.aways q) q.size T T 1 r := by
  rw [looksTo, upTo_late h]; rfl

theorem looksTo_nonneg (q : Box ℝ F) {T life : ℝ} (hT : T ≤ life) (t : Tree ℝ F L) (ptau r : ℝ) (ht : Times (· ≤ ·) life ptau t) (hr : r ≤ (t.upTo T).data.tau) :
    0 ≤ looksTo q T t r := together_nonneg q _ ptau r (upTo_times ht) hr

/-- Draws up to a time: what happens after the time `T` is worth the same as no split. -/
theorem drawP_upTo {p : Params ℝ} (hlog : p.log = Real.log) (b : Box ℝ F) (x : Fin F → ℝ) {ptau tau T : ℝ} (h1 : ptau ≤ T) (h2 : T ≤ tau) {Φ Φ' : Res (Option (Cut ℝ F)) → ENNReal}
    (hb : ∀ c : Cut ℝ F, c.tau < T → Φ (.ok (some c)) = Φ' (.ok (some c))) (ha : ∀ c : Cut ℝ F, T ≤ c.tau → Φ (.ok (some c)) = Φ' (.ok none))
    (hn : Φ (.ok none) = Φ' (.ok none)) : (drawP p b x ptau tau).ex Φ = (drawP p b x ptau T).ex Φ' := by
  rcases (dist_nonneg b x).eq_or_lt with h0 | hpos
  · simp [drawP, h0.symm, Prog.ex, hn]
  · have hS : ∀ s, MeasurableSet {u : U01 | u.1 < 1 - Real.exp (-(b.dist x * (s - ptau)))} := fun s => measurableSet_lt measurable_subtype_coe measurable_const
    have hiff : ∀ (s : ℝ) (u : U01), timeOf p b x ptau u < s ↔ u.1 < 1 - Real.exp (-(b.dist x * (s - ptau))) := by
      intro s u
      rw [timeOf, hlog, ← log_lt_iff hpos u.2.2]
      constructor <;> intro h <;> linarith
    have hexp : ∀ s, ptau ≤ s → Real.exp (-(b.dist x * (s - ptau))) ≤ 1 := fun s hs => Real.exp_le_one_iff.2 (by
      have := mul_nonneg hpos.le (sub_nonneg.2 hs); linarith)
    have hsum : ∑ d, ENNReal.ofReal (b.distIn x d / b.dist x) = 1 := by
      rw [← ENNReal.ofReal_sum_of_nonneg fun d _ => div_nonneg (distIn_nonneg b x d) hpos.le, ← Finset.sum_div,
        show (∑ i, b.distIn x i) / b.dist x = 1 from div_self hpos.ne', ENNReal.ofReal_one]
    rw [drawP_ex hlog hpos (h1.trans h2), drawP_ex hlog hpos h1]
    set S := {u : U01 | u.1 < 1 - Real.exp (-(b.dist x * (tau - ptau)))} with hSdef
    set S1 := {u : U01 | u.1 < 1 - Real.exp (-(b.dist x * (T - ptau)))} with hS1def
    have hsub : S1 ⊆ S := fun u hu => (hiff tau u).1 (((hiff T u).2 hu).trans_le h2)
    rw [show S = S1 ∪ (S \ S1) from (Set.union_diff_cancel hsub).symm, lintegral_union ((hS tau).diff (hS T)) Set.disjoint_sdiff_right, add_assoc]
    congr 1
    · refine setLIntegral_congr_fun (hS T) fun u hu => ?_
      have hlt := (hiff T u).2 hu
      refine Finset.sum_congr rfl fun d _ => ?_
      congr 1
      exact lintegral_congr fun w => hb _ hlt
    · rw [setLIntegral_congr_fun (g := fun _ => Φ' (.ok none)) ((hS tau).diff (hS T)) fun u hu => ?_]
      · rw [setLIntegral_const, hn, mul_comm, ← add_mul]
        congr 1
        have e : volume (S \ S1) = volume S - volume S1 := measure_sdiff hsub (hS T).nullMeasurableSet (measure_ne_top _ _)
        have v : ∀ s, ptau ≤ s → volume {u : U01 | u.1 < 1 - Real.exp (-(b.dist x * (s - ptau)))} = ENNReal.ofReal (1 - Real.exp (-(b.dist x * (s - ptau)))) := by
          intro s hs
          have hc : {u : U01 | u.1 < 1 - Real.exp (-(b.dist x * (s - ptau)))} = {u : U01 | 1 - Real.exp (-(b.dist x * (s - ptau))) ≤ u.1}ᶜ := by
            ext u
            rw [Set.mem_compl_iff, Set.mem_ofPred_eq, Set.mem_ofPred_eq, not_le]
          rw [hc, prob_compl_eq_one_sub (measurableSet_le measurable_const measurable_subtype_coe), vol_le (Real.exp_nonneg _) (hexp s hs),
            ENNReal.ofReal_sub _ (Real.exp_nonneg _), ENNReal.ofReal_one]
        rw [e, v tau (h1.trans h2), v T h1, ← ENNReal.ofReal_sub _ (by linarith [hexp T h1]), ← ENNReal.ofReal_add _ (Real.exp_nonneg _)]
        · congr 1; ring
        · have : Real.exp (-(b.dist x * (tau - ptau))) ≤ Real.exp (-(b.dist x * (T - ptau))) := Real.exp_le_exp.2 (by
            have := mul_le_mul_of_nonneg_left (sub_le_sub_right h2 ptau) hpos.le; linarith)
          linarith
      · have hge : T ≤ timeOf p b x ptau u := not_lt.1 fun h => hu.2 ((hiff T u).1 h)
        simp only
        have : ∀ d, ∫⁻ w, Φ (.ok (some (cutWith b x d (timeOf p b x ptau u) w))) = Φ' (.ok none) := by
          intro d
          rw [lintegral_congr fun w => ha (cutWith b x d (timeOf p b x ptau u) w) hge, lintegral_const, measure_univ, mul_one]
        simp only [this]
        rw [← Finset.sum_mul, hsum, one_mul]

/-- Draws before a time: only cuts before it matter. -/
theorem drawP_before {p : Params ℝ} (hlog : p.log = Real.log) (b : Box ℝ F) (x : Fin F → ℝ) {ptau tau : ℝ} (ht : ptau ≤ tau) {Φ Φ' : Res (Option (Cut ℝ F)) → ENNReal}
    (h : ∀ c : Cut ℝ F, c.tau < tau → Φ (.ok (some c)) = Φ' (.ok (some c))) (hn : Φ (.ok none) = Φ' (.ok none)) :
    (drawP p b x ptau tau).ex Φ = (drawP p b x ptau tau).ex Φ' := by
  let Φ1 : Res (Option (Cut ℝ F)) → ENNReal := fun r => match r with
    | .ok (some c) => if c.tau < tau then Φ' (.ok (some c)) else Φ' (.ok none)
    | r => Φ' r
  have e : ∀ Ψ : Res (Option (Cut ℝ F)) → ENNReal, (∀ c : Cut ℝ F, c.tau < tau → Ψ (.ok (some c)) = Φ' (.ok (some c))) → Ψ (.ok none) = Φ' (.ok none) →
      (drawP p b x ptau tau).ex Ψ = (drawP p b x ptau tau).ex Φ1 := by
    intro Ψ h1 h2
    rcases (dist_nonneg b x).eq_or_lt with h0 | hpos
    · simp [drawP, h0.symm, Prog.ex, h2, Φ1]
    · rw [drawP_ex hlog hpos ht, drawP_ex hlog hpos ht]
      congr 1
      · refine setLIntegral_congr_fun (measurableSet_lt measurable_subtype_coe measurable_const) fun u hu => ?_
        have hlt : timeOf p b x ptau u < tau := by
          have := (log_lt_iff hpos u.2.2 (w := tau - ptau)).2 hu
          rw [timeOf, hlog]; linarith
        refine Finset.sum_congr rfl fun d _ => ?_
        congr 1
        refine lintegral_congr fun w => ?_
        have hc : (cutWith b x d (timeOf p b x ptau u) w).tau < tau := hlt
        rw [h1 _ hc]
        simp only [Φ1, hc, if_true]
      · rw [h2]
  rw [e Φ h hn, e Φ' (fun _ _ => rfl) rfl]

/-- Looked at up to a time, the probability that points are together does not change in expectation either. -/
theorem grow_to {p : Params ℝ} (hlog : p.log = Real.log) {q : Box ℝ F} (hq : q.Ordered) (f : Nat × Nat) (z : Fin F → ℝ) (label : Fin L) {T : ℝ} (hT : T ≤ p.lifetime) :
    ∀ (t : Tree ℝ F L) (ptau : ℝ), Sound t → Times (· ≤ ·) p.lifetime ptau t → ptau ≤ t.data.tau → ptau ≤ T →
      (growP p f z label t ptau).ex (worth fun t => looksTo q T t ptau) = ENNReal.ofReal (looksTo q T t ptau) := by
  -- a tree that is not split before `T`
  have late : ∀ (t : Tree ℝ F L) (ptau : ℝ), Sound t → Times (· ≤ ·) p.lifetime ptau t → T ≤ t.data.tau → ptau ≤ T → ∀ Φ : Res (Option (Cut ℝ F)) → ENNReal,
      (∀ c, Φ (.ok (some c)) = ENNReal.ofReal (looksTo q T (above p.lifetime f c t z label) ptau)) →
      Φ (.ok none) = ENNReal.ofReal (val ((t.data.box.extend z).outs q) ((t.data.box.extend z).aways q) q.size T T 1 ptau) →
      (drawP p t.data.box z ptau t.data.tau).ex Φ = ENNReal.ofReal (looksTo q T t ptau) := by
    intro t ptau hs ht hlate hp Φ h1 h2
    let Φ' : Res (Option (Cut ℝ F)) → ENNReal := fun r => match r with
      | .ok (some c) => ENNReal.ofReal (together q T (above T f c (t.upTo T) z label) ptau)
      | _ => ENNReal.ofReal (val ((t.data.box.extend z).outs q) ((t.data.box.extend z).aways q) q.size T T 1 ptau)
    rw [drawP_upTo hlog _ _ hp hlate (Φ' := Φ') ?_ ?_ h2]
    · have := node_ex (p := { p with lifetime := T }) hlog hq f z label (t := t.upTo T) (ptau := ptau) (by rw [upTo_box]; exact hs.box) (upTo_times ht)
        (upTo_step hT ht hp) Φ' (fun c => rfl) (by rw [upTo_late hlate]; rfl)
      rw [upTo_box] at this
      rw [looksTo, ← this, upTo_late hlate]
      rfl
    · intro c hc
      rw [h1, looksTo, upTo_above hc]
    · intro c hc
      rw [h1, looksTo_late (by rw [(above_data _ _ _ _ _ _).1]; exact hc), (above_data _ _ _ _ _ _).2]
  intro t
  induction t with
  | leaf id d =>
    intro ptau hs ht hle hp
    simp only [growP, Prog.ex_bind]
    refine late (.leaf id d) ptau hs ht ?_ hp _ (fun c => rfl) rfl
    rw [Tree.data, show d.tau = p.lifetime from ht]; exact hT
  | node id d dim sp l r ihl ihr =>
    intro ptau hs ht hle hp
    simp only [growP, Prog.ex_bind]
    have hl := ht.2.2.1.step (fun a b h => h) ht.2.1
    have hr := ht.2.2.2.step (fun a b h => h) ht.2.1
    by_cases hlate : T ≤ d.tau
    · refine late (.node id d dim sp l r) ptau hs ht hlate hp _ (fun c => rfl) ?_
      have key : ∀ (u : Tree ℝ F L), Times (· ≤ ·) p.lifetime d.tau u → d.tau ≤ u.data.tau → (mk : Tree ℝ F L → Tree ℝ F L) →
          (∀ u', (mk u').data.tau = d.tau ∧ (mk u').data.box = d.box.extend z) →
          (growP p f z label u d.tau).ex (fun r => worth (fun t => looksTo q T t ptau) (r.map mk)) =
            ENNReal.ofReal (val ((d.box.extend z).outs q) ((d.box.extend z).aways q) q.size T T 1 ptau) := by
        intro u htu hlu mk hmk
        rw [growP_congr' hlog f z label (φ' := fun x => ENNReal.ofReal (val ((d.box.extend z).outs q) ((d.box.extend z).aways q) q.size T T 1 ptau)) u d.tau htu hlu ?_, Prog.ex_const]
        intro t' ho
        simp only [Except.map, worth]
        rw [looksTo_late (by rw [(hmk t').1]; exact hlate), (hmk t').2]
      simp only
      split
      · simp only [Prog.ex_bind, Prog.ex]
        exact key l ht.2.2.1 hl (fun l => .node id ⟨d.tau, d.box.extend z, d.counts⟩ dim sp l r) fun u' => ⟨rfl, rfl⟩
      · simp only [Prog.ex_bind, Prog.ex]
        exact key r ht.2.2.2 hr (fun r => .node id ⟨d.tau, d.box.extend z, d.counts⟩ dim sp l r) fun u' => ⟨rfl, rfl⟩
    · have hd := not_le.1 hlate
      have eT : (Tree.node id d dim sp l r).upTo T = .node id d dim sp (l.upTo T) (r.upTo T) := by rw [Tree.upTo, if_neg hlate]
      have htT := upTo_times (T := T) ht
      rw [looksTo, eT]
      rw [eT] at htT
      have hll := upTo_step hT ht.2.2.1 hd.le
      have hrr := upTo_step hT ht.2.2.2 hd.le
      let Φ' : Res (Option (Cut ℝ F)) → ENNReal := fun c => match c with
        | .ok (some c) => ENNReal.ofReal (together q T (above T f c (.node id d dim sp (l.upTo T) (r.upTo T)) z label) ptau)
        | _ => ENNReal.ofReal (val ((d.box.extend z).outs q) ((d.box.extend z).aways q) q.size T d.tau (goal q T (.node id d dim sp (l.upTo T) (r.upTo T))) ptau)
      rw [drawP_before (tau := d.tau) hlog _ _ hle (Φ' := Φ') ?_ ?_]
      · exact node_ex (p := { p with lifetime := T }) hlog hq f z label (t := .node id d dim sp (l.upTo T) (r.upTo T)) (ptau := ptau) hs.1 htT hle Φ' (fun c => rfl) rfl
      · intro c hc
        simp only [Prog.ex, worth, looksTo, Φ']
        rw [upTo_above (lt_trans hc hd), eT]
      · show _ = ENNReal.ofReal (val ((d.box.extend z).outs q) ((d.box.extend z).aways q) q.size T d.tau (goal q T (.node id d dim sp (l.upTo T) (r.upTo T))) ptau)
        simp only
        let α := Real.exp ((d.box.extend z).outs q * ptau) * Real.exp (-((d.box.extend z).outs q * d.tau))
        let β := val ((d.box.extend z).outs q) ((d.box.extend z).aways q) q.size T d.tau 0 ptau
        have hα : 0 ≤ α := mul_nonneg (Real.exp_nonneg _) (Real.exp_nonneg _)
        have hβ : 0 ≤ β := val_nonneg (Box.aways_nonneg _ _) le_rfl hle
        have key : ∀ (u : Tree ℝ F L), Times (· ≤ ·) p.lifetime d.tau u → (mk : Tree ℝ F L → Tree ℝ F L) → (g : Tree ℝ F L → ℝ) →
            (∀ u', looksTo q T (mk u') ptau = val ((d.box.extend z).outs q) ((d.box.extend z).aways q) q.size T d.tau (g u') ptau) →
            (g = (fun u' => looksTo q T u' d.tau) ∨ ∃ c, 0 ≤ c ∧ g = fun _ => c) →
            (growP p f z label u d.tau).ex (worth fun t => looksTo q T t d.tau) = ENNReal.ofReal (looksTo q T u d.tau) →
            (growP p f z label u d.tau).ex (fun r => worth (fun t => looksTo q T t ptau) (r.map mk)) =
              ENNReal.ofReal (val ((d.box.extend z).outs q) ((d.box.extend z).aways q) q.size T d.tau (g u) ptau) := by
          intro u htu mk g hmk hg ih
          have hlu := htu.step (fun a b h => h) ht.2.1
          rcases hg with rfl | ⟨c, hc, rfl⟩
          · rw [growP_congr' hlog f z label (φ' := fun x => ENNReal.ofReal α * worth (fun t => looksTo q T t d.tau) x + ENNReal.ofReal β) u d.tau htu hlu ?_,
              Prog.ex_affine _ ENNReal.ofReal_ne_top, ih, val_affine,
              ENNReal.ofReal_add (mul_nonneg hα (looksTo_nonneg q hT u _ _ htu (upTo_step hT htu hd.le))) hβ, ENNReal.ofReal_mul hα]
            intro t' ho
            have ht' := ho.times htu
            have hn := looksTo_nonneg q hT t' _ _ ht' (upTo_step hT ht' hd.le)
            simp only [Except.map, worth]
            rw [hmk, val_affine, ENNReal.ofReal_add (mul_nonneg hα hn) hβ, ENNReal.ofReal_mul hα]
          · rw [growP_congr' hlog f z label (φ' := fun x => ENNReal.ofReal (val ((d.box.extend z).outs q) ((d.box.extend z).aways q) q.size T d.tau c ptau))
              u d.tau htu hlu ?_, Prog.ex_const]
            intro t' ho
            simp only [Except.map, worth]
            rw [hmk]
        have hnode : ∀ l r : Tree ℝ F L, looksTo q T (.node id ⟨d.tau, d.box.extend z, d.counts⟩ dim sp l r) ptau =
            val ((d.box.extend z).outs q) ((d.box.extend z).aways q) q.size T d.tau (goal q T (.node id d dim sp (l.upTo T) (r.upTo T))) ptau := by
          intro l r
          rw [looksTo, Tree.upTo, if_neg hlate]; rfl
        split
        · simp only [Prog.ex_bind, Prog.ex]
          refine key l ht.2.2.1 (fun l => .node id ⟨d.tau, d.box.extend z, d.counts⟩ dim sp l r)
            (fun l => goal q T (.node id d dim sp (l.upTo T) (r.upTo T))) (fun u' => hnode _ _) ?_ (ihl d.tau hs.2.1 ht.2.2.1 hl hd.le)
          by_cases hside : q.upper dim ≤ sp
          · left; funext u'; simp [goal, hside, looksTo]
          · right
            by_cases hside' : sp < q.lower dim
            · exact ⟨looksTo q T r d.tau, looksTo_nonneg q hT r _ _ ht.2.2.2 hrr, by funext u'; simp [goal, hside, hside', looksTo]⟩
            · exact ⟨0, le_rfl, by funext u'; simp [goal, hside, hside']⟩
        · simp only [Prog.ex_bind, Prog.ex]
          refine key r ht.2.2.2 (fun r => .node id ⟨d.tau, d.box.extend z, d.counts⟩ dim sp l r)
            (fun r => goal q T (.node id d dim sp (l.upTo T) (r.upTo T))) (fun u' => hnode _ _) ?_ (ihr d.tau hs.2.2 ht.2.2.2 hr hd.le)
          by_cases hside : q.upper dim ≤ sp
          · right; exact ⟨looksTo q T l d.tau, looksTo_nonneg q hT l _ _ ht.2.2.1 hll, by funext u'; simp [goal, hside, looksTo]⟩
          · by_cases hside' : sp < q.lower dim
            · left; funext u'; simp [goal, hside, hside', looksTo]
            · right; exact ⟨0, le_rfl, by funext u'; simp [goal, hside, hside']⟩

end Orp.Mondrian
