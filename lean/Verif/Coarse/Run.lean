import Verif.Coarse.Forest

/-!
Histories of calls.
-/

set_option linter.unusedSectionVars false

namespace Orp.Coarse

open Finset
open Mondrian (Node Box Forest Params Cut upd init extent cutAt bump sampleBlock Tree Data Frame plug ctxPar ctxTau ctxIds HoldsCtx Holds Ready avail mem_avail
  avail_nodup avail_used upd_spec lt_of_get newLeaf holds_plug plug_ids holds_root id_mem_ids holds_mem relinked set_same oids allIds recountAll OnlyCounts Positive)

variable {K : Type} [Field K] [LinearOrder K] [IsStrictOrderedRing K] [FloorRing K] {F L : Nat}

/-! ### Counters that are not zero -/

/-- Every leaf has counted a point, with `EXTEND_GHOST` every node. -/
def Pos (c : Config K) : Tree K F L → Prop
  | .leaf _ d => ∃ i, 0 < d.counts i
  | .node _ d _ _ l r => (c.extend = .ghost → ∃ i, 0 < d.counts i) ∧ Pos c l ∧ Pos c r

theorem bump_pos (cnt : Fin L → Nat) (label : Fin L) : ∃ i, 0 < bump cnt label i := ⟨label, by simp [bump]⟩

theorem Pos.above {c : Config K} {lifetime : K} {np ns : Nat} {cut : Cut K F} {t : Tree K F L} {cnt : Fin L → Nat} {x : Fin F → K} {label : Fin L}
    (h : Pos c t) (hc : c.extend = .ghost → ∃ i, 0 < cnt i) : Pos c (aboveC lifetime np ns cut t cnt x label) := by
  unfold aboveC
  split
  · exact ⟨hc, h, bump_pos _ _⟩
  · exact ⟨hc, bump_pos _ _, h⟩

theorem wayCounts_pos (c : Config K) (cnt : Fin L → Nat) (label : Fin L) (hg : c.extend = .ghost) : ∃ i, 0 < wayCounts c cnt label i := by
  unfold wayCounts
  rw [if_pos hg]
  exact bump_pos _ _

theorem Grows.pos {c : Config K} {base : Base} {lifetime : K} {x : Fin F → K} {label : Fin L} {dist : Nat} {ptau : K} {t t' : Tree K F L}
    (h : Grows c base lifetime x label dist ptau t t') : Pos c t → Pos c t' := by
  induction h with
  | insert np ns h hm =>
      intro hp
      refine hp.above fun hg => ?_
      rw [hg]
      exact bump_pos _ _
  | insertLeaf np ns h hm => intro hp; exact Pos.above (bump_pos _ _) (fun hg => by rw [hg] at hm; cases hm)
  | insertLeft np ns h hm hx hg ih => intro hp; exact Pos.above ⟨hp.1, ih hp.2.1, hp.2.2⟩ (fun hg => by rw [hg] at hm; cases hm)
  | insertRight np ns h hm hx hg ih => intro hp; exact Pos.above ⟨hp.1, hp.2.1, ih hp.2.2⟩ (fun hg => by rw [hg] at hm; cases hm)
  | leaf b' hb => intro _; exact bump_pos _ _
  | left b' hb hx hg ih => intro hp; exact ⟨wayCounts_pos c _ _, ih hp.2.1, hp.2.2⟩
  | right b' hb hx hg ih => intro hp; exact ⟨wayCounts_pos c _ _, hp.2.1, ih hp.2.2⟩
  | ghost hm =>
      rename_i t
      intro hp
      cases t with
      | leaf => exact bump_pos _ _
      | node => exact ⟨fun _ => bump_pos _ _, hp.2⟩
  | drop hm => exact fun hp => hp

theorem Removes.pos {c : Config K} {id : Nat} {t t' : Tree K F L} (h : Removes id t t') : Pos c t → Pos c t' := by
  induction h with
  | atLeft => exact fun hp => hp.2.2
  | atRight => exact fun hp => hp.2.1
  | left h ih => exact fun hp => ⟨hp.1, ih hp.2.1, hp.2.2⟩
  | right h ih => exact fun hp => ⟨hp.1, hp.2.1, ih hp.2.2⟩

theorem Removes.height {id : Nat} {t t' : Tree K F L} (h : Removes id t t') : t'.height ≤ t.height := by
  induction h with
  | atLeft => simp only [Mondrian.Tree.height, Nat.max_def]; split <;> omega
  | atRight => simp only [Mondrian.Tree.height, Nat.max_def]; split <;> omega
  | left h ih => simp only [Mondrian.Tree.height, Nat.max_def]; split <;> split <;> omega
  | right h ih => simp only [Mondrian.Tree.height, Nat.max_def]; split <;> split <;> omega

theorem Pos.recount {c : Config K} (hc : c.extend ≠ .ghost) : ∀ {t : Tree K F L}, Pos c t → Pos c t.recount ∧ Positive t.recount
  | .leaf _ _, h => ⟨h, h⟩
  | .node _ d _ _ l r, h => by
      obtain ⟨l1, l2⟩ := h.2.1.recount hc
      obtain ⟨r1, r2⟩ := h.2.2.recount hc
      refine ⟨⟨fun hg => absurd hg hc, l1, r1⟩, ?_, l2, r2⟩
      obtain ⟨i, hi⟩ := l2.root
      refine ⟨i, ?_⟩
      show 0 < min 1 (l.recount.data.counts i) + min 1 (r.recount.data.counts i)
      have : min 1 (l.recount.data.counts i) = 1 := by omega
      omega

theorem Pos.ghost {c : Config K} (hc : c.extend = .ghost) : ∀ {t : Tree K F L}, Pos c t → Positive t
  | .leaf _ _, h => h
  | .node _ d _ _ l r, h => ⟨h.1 hc, h.2.1.ghost hc, h.2.2.ghost hc⟩

/-- What holds for every tree -/
def TreeOk (c : Config K) (base : Base) (o : Option (Tree K F L)) : Prop := Low c base o ∧ ∀ t, o = some t → Pos c t

theorem Step.ok {c : Config K} {lifetime : K} {few : Prop} {base : Base} {x : Fin F → K} {label : Fin L} {o o' : Option (Tree K F L)}
    (h : Step c lifetime few base x label o o') (hl : TreeOk c base o) : TreeOk c base o' := by
  refine ⟨h.low hl.1, fun t' ht' => ?_⟩
  cases o with
  | none =>
      rcases h with ⟨a, rfl⟩ | ⟨-, rfl⟩
      · cases ht'
        exact bump_pos _ _
      · cases ht'
  | some t =>
      obtain ⟨t1, rfl, hg⟩ := h
      cases ht'
      by_cases hm : c.extend = .none
      · rw [if_pos hm] at hg
        rw [hg]; exact hl.2 t rfl
      · rw [if_neg hm] at hg
        exact hg.pos (hl.2 t rfl)

theorem Trimmed.ok {c : Config K} {f : List K} {base : Base} {o o' : Option (Tree K F L)} (h : Trimmed c f o o') (hl : TreeOk c base o) : TreeOk c base o' := by
  cases o with
  | none => cases h; exact hl
  | some t =>
      rcases h with ⟨z, t', -, hr, rfl⟩ | ⟨rfl, -⟩
      · refine ⟨fun t1 ht1 hc => ?_, fun t1 ht1 => ?_⟩
        · cases ht1
          exact le_trans (by exact_mod_cast hr.height) (hl.1 t rfl hc)
        · cases ht1
          exact hr.pos (hl.2 t rfl)
      · exact hl

theorem Trimmed.ne_none {c : Config K} {f : List K} {o o' : Option (Tree K F L)} (h : Trimmed c f o o') : o = none ↔ o' = none := by
  cases o with
  | none => cases h; simp
  | some t =>
      rcases h with ⟨z, t', -, hr, rfl⟩ | ⟨rfl, -⟩ <;> simp

/-- the trees after `predict` -/
def counted (c : Config K) (o : Option (Tree K F L)) : Option (Tree K F L) := if c.extend = .ghost then o else o.map Tree.recount

theorem TreeOk.counted {c : Config K} {base : Base} {o : Option (Tree K F L)} (hl : TreeOk c base o) : TreeOk c base (counted c o) := by
  unfold Coarse.counted
  split
  · exact hl
  · rename_i hg
    refine ⟨fun t ht hc => ?_, fun t ht => ?_⟩
    · cases o with
      | none => cases ht
      | some t0 =>
          cases ht
          rw [Mondrian.recount_height]
          exact hl.1 t0 rfl hc
    · cases o with
      | none => cases ht
      | some t0 =>
          cases ht
          exact ((hl.2 t0 rfl).recount hg).1

/-! ### `predict` -/

/-- the number of trees used by `predict` -/
def usedTrees (n : Nat) : Option Nat → Nat
  | some k => k
  | none => n

theorem predict_spec (c : Config K) (p : Params K) (h0 : p.exp 0 = 1) (hd : 0 ≤ p.discount) (s : State K F L) (trees : List (Option (Tree K F L)))
    (hI : Inv s trees) (hpos : ∀ t, some t ∈ trees → Pos c t) (x : Fin F → K) (use : Option Nat) (h1 : 1 ≤ usedTrees trees.length use)
    (h2 : usedTrees trees.length use ≤ trees.length) :
    ∃ nodes' l, predict c p s x use = .ok ({ s with forest := { s.forest with nodes := nodes' } }, l) ∧
      Inv { s with forest := { s.forest with nodes := nodes' } } (trees.map (counted c)) ∧ OnlyCounts s.forest.nodes nodes' ∧
      (c.extend = .ghost → nodes' = s.forest.nodes) ∧ (∀ i, i ∉ allIds trees → nodes'[i]? = s.forest.nodes[i]?) ∧
      Mondrian.label p x ((trees.map (counted c)).take (usedTrees trees.length use)) = .ok l := by
  obtain ⟨nodes', a1, a2, a3, a4, a5⟩ : ∃ nodes', (if c.extend = .ghost then .ok s.forest.nodes
      else Mondrian.updateCounts s.forest.nodes.length s.forest.roots s.forest.nodes : Res (List (Node K F L))) = .ok nodes' ∧
      Mondrian.Inv { s.forest with nodes := nodes' } (trees.map (counted c)) [] ∧ OnlyCounts s.forest.nodes nodes' ∧
      (∀ i, i ∉ allIds trees → nodes'[i]? = s.forest.nodes[i]?) ∧ (c.extend = .ghost → nodes' = s.forest.nodes) := by
    by_cases hg : c.extend = .ghost
    · refine ⟨_, if_pos hg, ?_, .refl _, fun _ _ => rfl, fun _ => rfl⟩
      have : trees.map (counted c) = trees := by
        conv_rhs => rw [← List.map_id trees]
        refine List.map_congr_left fun o _ => ?_
        unfold counted
        rw [if_pos hg]; rfl
      rw [this]
      exact hI.mem
    · obtain ⟨nodes', b1, b2, b3, b4⟩ := hI.mem.recount
      refine ⟨nodes', by rw [if_neg hg]; exact b1, ?_, b3, b4, fun h => absurd h hg⟩
      have : trees.map (counted c) = recountAll trees := by
        refine List.map_congr_left fun o _ => ?_
        unfold counted
        rw [if_neg hg]
      rw [this]
      exact b2
  have hroots : s.forest.roots = (trees.map (counted c)).map (fun t => t.map Tree.id) := a2.all.roots
  have hlen : s.forest.roots.length = trees.length := by rw [hroots]; simp
  generalize hk : usedTrees trees.length use = k at h1 h2
  have e := Mondrian.sumLoop_spec p { s.forest with nodes := nodes' } x ((trees.map (counted c)).take k) (fun _ => 0) (fun t ht => by
    obtain ⟨j, hj⟩ := List.mem_iff_getElem?.1 (List.mem_of_mem_take ht)
    exact ⟨a2.height_le hj, a2.all.holds t (List.mem_of_mem_take ht)⟩)
  rw [List.map_take, ← hroots] at e
  have htk : ((trees.map (counted c)).take k).length = k := by rw [List.length_take, List.length_map]; omega
  obtain ⟨l, hl⟩ := Mondrian.label_ok p h0 hd x ((trees.map (counted c)).take k) (by omega) (fun t ht => by
    obtain ⟨o, ho, e⟩ := List.mem_map.1 (List.mem_of_mem_take ht)
    cases o with
    | none => unfold counted at e; split at e <;> cases e
    | some t0 =>
        have hp0 := hpos t0 ho
        unfold counted at e
        by_cases hg : c.extend = .ghost
        · rw [if_pos hg] at e; cases e; exact hp0.ghost hg
        · rw [if_neg hg] at e; cases e; exact (hp0.recount hg).2)
  have hav := a3.avail
  refine ⟨nodes', l, ?_, ⟨a2, ?_, ?_, ?_, hI.scores, ?_⟩, a3, a5, a4, hl⟩
  · unfold predict
    simp only [a1, bind, Except.bind]
    unfold Mondrian.label at hl
    cases ht : Mondrian.totals p x ((trees.map (counted c)).take k) (fun _ => 0) with
    | error err => rw [ht] at hl; cases hl
    | ok sum =>
        rw [ht] at hl e
        simp only [bind, Except.bind, htk] at hl
        rw [if_neg (by omega)] at hl
        have hl' := Except.ok.inj hl
        cases use with
        | none =>
            have hk' : s.forest.roots.length = k := by rw [hlen, ← hk]; rfl
            simp only [hk']
            rw [if_neg (by omega)]
            simp only [e, pure, Except.pure, hl']
        | some k' =>
            have hk' : k' = k := by rw [← hk]; rfl
            subst hk'
            simp only
            rw [if_neg (by omega)]
            simp only [e, pure, Except.pure, hl']
  · show s.free = ((avail nodes').length : Int)
    rw [hav]; exact hI.free
  · show s.fading.length = nodes'.length
    rw [a3.1]; exact hI.fading
  · show s.forced.length = nodes'.length
    rw [a3.1]; exact hI.forced
  · show s.bases.length = _
    rw [List.length_map]; exact hI.bases

end Orp.Coarse
