import Verif.Mondrian.Apart

/-!
The training of a forest whose trees are only looked at up to given times.
-/

set_option linter.unusedSectionVars false

namespace Orp.Mondrian

open MeasureTheory Orp.Reservoir

variable {F L : Nat}

/-- the value of a tree that may be empty: the probability that the points with box `c.1` are together at the time `c.2` -/
noncomputable def waits (c : Box ℝ F × ℝ) : Option (Tree ℝ F L) → ℝ
  | none => Real.exp (-(c.1.size * c.2))
  | some t => looksTo c.1 c.2 t 0

/-- the product over the trees -/
noncomputable def waitsAll (cs : List (Box ℝ F × ℝ)) (os : List (Option (Tree ℝ F L))) : ENNReal :=
  (List.zipWith (fun c o => ENNReal.ofReal (waits c o)) cs os).prod

theorem waitsAll_ne_top : ∀ (cs : List (Box ℝ F × ℝ)) (os : List (Option (Tree ℝ F L))), waitsAll cs os ≠ ⊤
  | [], os => by simp [waitsAll]
  | c :: cs, [] => by simp [waitsAll]
  | c :: cs, o :: os => by
      have := waitsAll_ne_top cs os
      simp only [waitsAll, List.zipWith_cons_cons, List.prod_cons] at this ⊢
      exact ENNReal.mul_ne_top ENNReal.ofReal_ne_top this

/-- the boxes and times are possible -/
def InTime (p : Params ℝ) (c : Box ℝ F × ℝ) : Prop := c.1.Ordered ∧ 0 ≤ c.2 ∧ c.2 ≤ p.lifetime

theorem stepP_to {p : Params ℝ} (hlog : p.log = Real.log) {c : Box ℝ F × ℝ} (hc : InTime p c) (x : Fin F → ℝ) (label : Fin L)
    {o : Option (Tree ℝ F L)} {pts : List (Point ℝ F L)} (hg : Good (· ≤ ·) p.lifetime pts o) {A : List Nat} (hA : need o ≤ A.length) :
    (stepP p x label o A).ex (fun r => match r with
      | .ok (t, _) => ENNReal.ofReal (waits c (some t))
      | .error _ => 0) = ENNReal.ofReal (waits c o) := by
  cases o with
  | none =>
    cases A with
    | nil => simp [need] at hA
    | cons a A =>
      simp only [stepP, Prog.ex, waits, looksTo]
      have e : (newLeaf p.lifetime a x label).upTo c.2 = newLeaf c.2 a x label := rfl
      rw [e, together_new c.1 hc.1, sub_zero]
  | some t =>
    match A, hA with
    | a :: b' :: A, _ =>
      simp only [stepP, Prog.ex_bind, Prog.ex, waits]
      have hle : 0 ≤ t.data.tau := by
        cases t with
        | leaf id d =>
          have := hg.2
          simp only [Times] at this
          simp only [Tree.data]
          linarith [hc.2.1, hc.2.2]
        | node id d dim sp l r => exact hg.2.1
      rw [growP_congr hlog (a, b') x label (φ' := worth fun t => looksTo c.1 c.2 t 0) (fun t => by simp [Except.map, worth]) t 0 hg.2 hle,
        grow_to hlog hc.1 (a, b') x label hc.2.2 t 0 hg.1.sound hg.2 hle hc.2.1]

theorem loopP_to {p : Params ℝ} (hlog : p.log = Real.log) (z : Point ℝ F L) {pts : List (Point ℝ F L)} :
    ∀ (cs : List (Box ℝ F × ℝ)) (os : List (Option (Tree ℝ F L))) (A : List Nat), (∀ c ∈ cs, InTime p c) → cs.length = os.length →
      (∀ o ∈ os, Good (· ≤ ·) p.lifetime pts o) → (os.map need).sum ≤ A.length →
      (loopP p z.1 z.2 os A).ex (fun r => match r with
        | .ok (ts, _) => waitsAll cs (ts.map some)
        | .error _ => 0) = waitsAll cs os
  | [], [], A, _, _, _, _ => by simp [loopP, Prog.ex, waitsAll]
  | c :: cs, o :: os, A, hc, hl, hg, hA => by
      simp only [List.map_cons, List.sum_cons] at hA
      have hgo := hg o (List.mem_cons_self ..)
      have e := stepP_to hlog (hc c (List.mem_cons_self ..)) z.1 z.2 hgo (A := A) (by omega)
      have eR : waitsAll (c :: cs) (o :: os) = waitsAll cs os * ENNReal.ofReal (waits c o) + 0 := by
        simp only [waitsAll, List.zipWith_cons_cons, List.prod_cons, add_zero]; rw [mul_comm]
      rw [eR, ← e, ← Prog.ex_affine _ (waitsAll_ne_top cs os)]
      simp only [loopP, Prog.ex_bind]
      refine Prog.ex_congr _ fun ω pos => ?_
      cases h1 : ((stepP p z.1 z.2 o A).eval ω pos).1 with
      | error e => simp [Prog.ex]
      | ok r =>
        obtain ⟨t, A1⟩ := r
        obtain ⟨a1, a2⟩ := stepP_out h1 hgo
        have ih := loopP_to hlog z cs os A1 (fun q h => hc q (List.mem_cons_of_mem _ h)) (by simpa using hl) (fun o ho => hg o (List.mem_cons_of_mem _ ho)) (by omega)
        simp only [Prog.ex_bind, Prog.ex]
        rw [← ih, mul_comm, ← Prog.ex_affine _ ENNReal.ofReal_ne_top]
        refine Prog.ex_congr _ fun ω pos => ?_
        cases ((loopP p z.1 z.2 os A1).eval ω pos).1 with
        | error e => simp [Except.map]
        | ok r => simp [Except.map, waitsAll]

theorem runP_to {p : Params ℝ} (hlog : p.log = Real.log) {cs : List (Box ℝ F × ℝ)} (hc : ∀ c ∈ cs, InTime p c) :
    ∀ (zs : List (Point ℝ F L)) (os : List (Option (Tree ℝ F L))) (A : List Nat) (pts : List (Point ℝ F L)), cs.length = os.length →
      (∀ o ∈ os, Good (· ≤ ·) p.lifetime pts o) → (zs ≠ [] → (os.map need).sum + 2 * os.length * (zs.length - 1) ≤ A.length) →
      (runP p zs os A).ex (fun r => match r with
        | .ok (os', _) => waitsAll cs os'
        | .error _ => 0) = waitsAll cs os
  | [], os, A, pts, hl, hg, hA => rfl
  | z :: zs, os, A, pts, hl, hg, hA => by
      have hA' := hA (by simp)
      simp only [List.length_cons, Nat.add_sub_cancel] at hA'
      rw [← loopP_to hlog z cs os A hc hl hg (by omega)]
      simp only [runP, Prog.ex_bind]
      refine Prog.ex_congr _ fun ω pos => ?_
      cases h1 : ((loopP p z.1 z.2 os A).eval ω pos).1 with
      | error e => rfl
      | ok r =>
        obtain ⟨ts, A1⟩ := r
        obtain ⟨o1, o2, o3⟩ := loopP_out h1 hg
        have hneed : ((ts.map some).map need).sum = 2 * os.length := by
          rw [List.map_map, show (need ∘ some : Tree ℝ F L → Nat) = fun _ => 2 from rfl, List.map_const', List.sum_replicate, o2]; simp [mul_comm]
        exact runP_to hlog hc zs (ts.map some) A1 (pts ++ [z]) (by rw [List.length_map, hl, o2]) (fun o ho => by
          obtain ⟨t, ht, rfl⟩ := List.mem_map.1 ho
          exact o1 t ht) (fun hne => by
            rw [hneed, List.length_map, o2]
            have : 1 ≤ zs.length := List.length_pos_of_ne_nil hne
            obtain ⟨k, hk⟩ := Nat.exists_eq_add_of_le this
            have e : 2 * os.length * zs.length = 2 * os.length + 2 * os.length * (zs.length - 1) := by
              rw [hk, Nat.add_sub_cancel_left]; ring
            omega)

/-! ### The value at the end -/

theorem apart_ge {life : ℝ} (Q : List (Point ℝ F L)) : ∀ {t : Tree ℝ F L} {ptau s : ℝ}, Times (· ≤ ·) life ptau t → t.apart Q = some s → t.data.tau ≤ s
  | .leaf _ _, _, _, _, h => by simp [Tree.apart] at h
  | .node id d dim sp l r, ptau, s, ht, h => by
      simp only [Tree.apart] at h
      split at h
      · exact (ht.2.2.1.step (fun a b h => h) ht.2.1).trans (apart_ge Q ht.2.2.1 h)
      · split at h
        · exact (ht.2.2.2.step (fun a b h => h) ht.2.1).trans (apart_ge Q ht.2.2.2 h)
        · exact (Option.some.inj h).le

open Classical in
theorem looksTo_all {Q : List (Point ℝ F L)} (hne : Q ≠ []) {q : Box ℝ F} (hq : IsHull Q q) {life T : ℝ} (hT : T ≤ life) : ∀ (t : Tree ℝ F L) (pts : List (Point ℝ F L)) (ptau r : ℝ),
    Right pts t → Times (· ≤ ·) life ptau t → (∀ z ∈ Q, z ∈ pts) → looksTo q T t r = if t.Until T Q then 1 else 0
  | t, pts, ptau, r, hR, ht, hsub => by
      have hin := inside_out (fun i => hull_proper hne hq i) (hull_inside hsub hq hR.hull)
      have hv : ∀ (s g : ℝ), val 0 0 q.size T s g r = g := by intro s g; simp [val]
      by_cases hlate : T ≤ t.data.tau
      · rw [looksTo_late hlate, hin.1, hin.2, hv, if_pos]
        intro s hs
        exact hlate.trans (apart_ge Q ht hs)
      · match t, hR, ht, hlate, hin with
        | .leaf id d, hR, ht, hlate, hin => exact absurd (hT.trans (show d.tau = life from ht).ge) hlate
        | .node id d dim sp lt rt, hR, ht, hlate, hin =>
          simp only [Tree.data] at hlate hin
          rw [looksTo, Tree.upTo, if_neg hlate, together_eq]
          simp only [Tree.data]
          rw [hin.1, hin.2, hv]
          simp only [goal]
          have hleft : (∀ z ∈ Q, z.1 dim ≤ sp) ↔ q.upper dim ≤ sp := by
            constructor
            · intro h
              obtain ⟨b, hb, eb⟩ := (hq.2 dim).2
              rw [← eb]; exact h b hb
            · exact fun h z hz => (hq.1 z hz dim).2.trans h
          have hright : (∀ z ∈ Q, ¬ z.1 dim ≤ sp) ↔ sp < q.lower dim := by
            constructor
            · intro h
              obtain ⟨b, hb, eb⟩ := (hq.2 dim).1
              rw [← eb]; exact not_le.1 (h b hb)
            · exact fun h z hz => not_le.2 (h.trans_le (hq.1 z hz dim).1)
          have eU : (Tree.node id d dim sp lt rt).Until T Q ↔ if q.upper dim ≤ sp then lt.Until T Q else if sp < q.lower dim then rt.Until T Q else False := by
            unfold Tree.Until
            simp only [Tree.apart, hleft, hright]
            split
            · rfl
            · split
              · rfl
              · simp only [Option.some.injEq, forall_eq', iff_false]; exact hlate
          by_cases h1 : q.upper dim ≤ sp
          · rw [if_pos h1] at eU ⊢
            have := looksTo_all hne hq hT lt _ d.tau d.tau hR.2.1 ht.2.2.1 (fun z hz => List.mem_filter.2 ⟨hsub z hz, by simpa using hleft.2 h1 z hz⟩)
            rw [looksTo] at this
            rw [this]
            exact if_congr eU.symm rfl rfl
          · rw [if_neg h1] at eU ⊢
            by_cases h2 : sp < q.lower dim
            · rw [if_pos h2] at eU ⊢
              have := looksTo_all hne hq hT rt _ d.tau d.tau hR.2.2 ht.2.2.2 (fun z hz => List.mem_filter.2 ⟨hsub z hz, by simpa using hright.2 h2 z hz⟩)
              rw [looksTo] at this
              rw [this]
              exact if_congr eU.symm rfl rfl
            · rw [if_neg h2] at eU ⊢
              rw [if_neg fun h => eU.1 h]

/-- the tree is not empty and does not separate the points before the time -/
def Waits (Q : List (Point ℝ F L) × ℝ) (o : Option (Tree ℝ F L)) : Prop := ∃ t, o = some t ∧ t.Until Q.2 Q.1

/-- a group of training points and a time, and its box and the same time -/
def Fits (p : Params ℝ) (pts : List (Point ℝ F L)) (Q : List (Point ℝ F L) × ℝ) (c : Box ℝ F × ℝ) : Prop :=
  Q.1 ≠ [] ∧ (∀ z ∈ Q.1, z ∈ pts) ∧ IsHull Q.1 c.1 ∧ Q.2 = c.2 ∧ 0 ≤ c.2 ∧ c.2 ≤ p.lifetime

theorem Fits.inTime {p : Params ℝ} {pts : List (Point ℝ F L)} {Q : List (Point ℝ F L) × ℝ} {c : Box ℝ F × ℝ} (h : Fits p pts Q c) : InTime p c :=
  ⟨fun i => hull_proper h.1 h.2.2.1 i, h.2.2.2.2⟩

open Classical in
theorem waitsAll_eq {p : Params ℝ} {pts : List (Point ℝ F L)} {Qs : List (List (Point ℝ F L) × ℝ)} {cs : List (Box ℝ F × ℝ)}
    (h : List.Forall₂ (Fits p pts) Qs cs) : ∀ (os : List (Option (Tree ℝ F L))), cs.length = os.length →
      (∀ o ∈ os, Good (· ≤ ·) p.lifetime pts o) → waitsAll cs os = if List.Forall₂ Waits Qs os then 1 else 0 := by
  induction h with
  | nil =>
    intro os hl hg
    have : os = [] := List.length_eq_zero_iff.1 (by simpa using hl.symm)
    subst this
    simp [waitsAll]
  | @cons Q c Qs cs h1 h2 ih =>
    intro os hl hg
    cases os with
    | nil => simp at hl
    | cons o os =>
      have hgo := hg o (List.mem_cons_self ..)
      cases o with
      | none =>
        obtain ⟨z, hz⟩ := List.exists_mem_of_ne_nil Q.1 h1.1
        have := h1.2.1 z hz
        rw [show pts = [] from hgo] at this
        simp at this
      | some t =>
        have e := ih os (by simpa using hl) (fun o ho => hg o (List.mem_cons_of_mem _ ho))
        have e1 := looksTo_all h1.1 h1.2.2.1 h1.2.2.2.2.2 t pts 0 0 hgo.1 hgo.2 h1.2.1
        simp only [waitsAll, List.zipWith_cons_cons, List.prod_cons, waits] at e ⊢
        rw [e, e1]
        have ek : Waits Q (some t) ↔ t.Until c.2 Q.1 := by simp [Waits, h1.2.2.2.1]
        simp only [List.forall₂_cons, ek]
        by_cases c1 : t.Until c.2 Q.1 <;> by_cases c2 : List.Forall₂ Waits Qs os <;> simp [c1, c2]

/-! ### The event can be measured -/

theorem until_meas {t : (Nat → U01) → Tree ℝ F L} (h : MTree t) (T : ℝ) (Q : List (Point ℝ F L)) : MeasurableSet {ω | (t ω).Until T Q} := by
  induction h with
  | leaf id counts ht hb =>
    simp [Tree.Until, Tree.apart]
  | @node id counts dim tau sp box l r ht hb hs hl hr ihl ihr =>
    have hA : MeasurableSet {ω | ∀ z ∈ Q, z.1 dim ≤ sp ω} := by
      have : {ω | ∀ z ∈ Q, z.1 dim ≤ sp ω} = ⋂ z ∈ {z | z ∈ Q}, {ω | z.1 dim ≤ sp ω} := by ext ω; simp
      rw [this]
      exact Q.finite_toSet.measurableSet_biInter fun z _ => measurableSet_le measurable_const hs
    have hB : MeasurableSet {ω | ∀ z ∈ Q, ¬ z.1 dim ≤ sp ω} := by
      have : {ω | ∀ z ∈ Q, ¬ z.1 dim ≤ sp ω} = ⋂ z ∈ {z | z ∈ Q}, {ω | z.1 dim ≤ sp ω}ᶜ := by ext ω; simp
      rw [this]
      exact Q.finite_toSet.measurableSet_biInter fun z _ => (measurableSet_le measurable_const hs).compl
    have hE : {ω | (Tree.node id ⟨tau ω, box ω, counts⟩ dim (sp ω) (l ω) (r ω)).Until T Q} =
        ({ω | ∀ z ∈ Q, z.1 dim ≤ sp ω} ∩ {ω | (l ω).Until T Q}) ∪ ({ω | ∀ z ∈ Q, z.1 dim ≤ sp ω}ᶜ ∩
          (({ω | ∀ z ∈ Q, ¬ z.1 dim ≤ sp ω} ∩ {ω | (r ω).Until T Q}) ∪ ({ω | ∀ z ∈ Q, ¬ z.1 dim ≤ sp ω}ᶜ ∩ {ω | T ≤ tau ω}))) := by
      ext ω
      simp only [Set.mem_union, Set.mem_inter_iff, Set.mem_compl_iff, Set.mem_ofPred_eq]
      by_cases h1 : ∀ z ∈ Q, z.1 dim ≤ sp ω
      · have : (Tree.node id ⟨tau ω, box ω, counts⟩ dim (sp ω) (l ω) (r ω)).apart Q = (l ω).apart Q := by rw [Tree.apart, if_pos h1]
        rw [Tree.Until, this]
        exact ⟨fun h => Or.inl ⟨h1, h⟩, fun h => h.elim And.right fun h => absurd h1 h.1⟩
      · by_cases h2 : ∀ z ∈ Q, ¬ z.1 dim ≤ sp ω
        · have : (Tree.node id ⟨tau ω, box ω, counts⟩ dim (sp ω) (l ω) (r ω)).apart Q = (r ω).apart Q := by rw [Tree.apart, if_neg h1, if_pos h2]
          rw [Tree.Until, this]
          exact ⟨fun h => Or.inr ⟨h1, Or.inl ⟨h2, h⟩⟩, fun h => h.elim (fun h => absurd h.1 h1) fun h => h.2.elim And.right fun h => absurd h2 h.1⟩
        · have : (Tree.node id ⟨tau ω, box ω, counts⟩ dim (sp ω) (l ω) (r ω)).apart Q = some (tau ω) := by rw [Tree.apart, if_neg h1, if_neg h2]
          rw [Tree.Until, this]
          simp only [Option.some.injEq, forall_eq']
          exact ⟨fun h => Or.inr ⟨h1, Or.inr ⟨h2, h⟩⟩, fun h => h.elim (fun h => absurd h.1 h1) fun h => h.2.elim (fun h => absurd h.1 h2) And.right⟩
    rw [hE]
    exact (hA.inter ihl).union (hA.compl.inter ((hB.inter ihr).union (hB.compl.inter (measurableSet_le measurable_const ht))))

theorem waits_meas {os : (Nat → U01) → List (Option (Tree ℝ F L))} (h : MOpts os) : ∀ Qs : List (List (Point ℝ F L) × ℝ), MeasurableSet {ω | List.Forall₂ Waits Qs (os ω)} := by
  induction h with
  | nil => intro Qs; exact MeasurableSet.const _
  | none hos ih =>
    intro Qs
    cases Qs with
    | nil => simp
    | cons Q Qs => simp [Waits]
  | @some t os ht hos ih =>
    intro Qs
    cases Qs with
    | nil => simp
    | cons Q Qs =>
      simp only [List.forall₂_cons, Waits, Option.some.injEq, exists_eq_left']
      exact (until_meas ht Q.2 Q.1).inter (ih Qs)

/-- the event for an outcome of the program -/
def WaitsAll (Qs : List (List (Point ℝ F L) × ℝ)) : Res (List (Option (Tree ℝ F L)) × List Nat) → Prop
  | .error _ => False
  | .ok r => List.Forall₂ Waits Qs r.1

theorem waitsAll_meas {p : Params ℝ} (hlog : p.log = Real.log) (Qs : List (List (Point ℝ F L) × ℝ)) (zs : List (Point ℝ F L)) (n : Nat) (A : List Nat) :
    MeasurableSet {ω | WaitsAll Qs ((runP p zs (List.replicate n none) A).eval ω 0).1} := by
  refine (runP_pieces hlog zs (mopts_new n) A 0).meas (E := fun r => WaitsAll Qs r.1) fun g hg => ?_
  cases hg with
  | error e pos => simp [WaitsAll]
  | ok ht A pos => exact waits_meas ht Qs

theorem waits_new {cs : List (Box ℝ F × ℝ)} : waitsAll (L := L) cs (List.replicate cs.length none) = ENNReal.ofReal (Real.exp (-(cs.map fun c => c.2 * c.1.size).sum)) := by
  induction cs with
  | nil => simp [waitsAll]
  | cons c cs ih =>
    simp only [waitsAll, List.length_cons, List.replicate_succ, List.zipWith_cons_cons, List.prod_cons, waits, List.map_cons, List.sum_cons] at ih ⊢
    rw [ih, ← ENNReal.ofReal_mul (Real.exp_nonneg _), ← Real.exp_add]
    congr 2
    ring

/-- The groups and times `Qs`, one for every tree -/
theorem waitsAll_law (p : Params ℝ) (hlife : 0 ≤ p.lifetime) (hlog : p.log = Real.log) (m : Nat) (zs : List (Point ℝ F L)) (Qs : List (List (Point ℝ F L) × ℝ))
    (cs : List (Box ℝ F × ℝ)) (hm : zs ≠ [] → cs.length + 2 * cs.length * (zs.length - 1) ≤ m) (h : List.Forall₂ (Fits p zs) Qs cs) :
    draws {ω | ∃ s pos trees, run p (nums ω) (trainAll zs) (new m cs.length) 0 = .ok (s, pos) ∧ HoldsAll s trees ∧ List.Forall₂ Waits Qs trees} =
      ENNReal.ofReal (Real.exp (-(cs.map fun c => c.2 * c.1.size).sum)) := by
  classical
  set n := cs.length with hn
  have hneed : ((List.replicate n (none : Option (Tree ℝ F L))).map need).sum = n := by simp [need]
  have hgood : ∀ o ∈ List.replicate n (none : Option (Tree ℝ F L)), Good (· ≤ ·) p.lifetime [] o := by
    intro o ho
    rw [List.eq_of_mem_replicate ho]
    rfl
  have hm' : zs ≠ [] → ((List.replicate n (none : Option (Tree ℝ F L))).map need).sum + 2 * (List.replicate n (none : Option (Tree ℝ F L))).length * (zs.length - 1) ≤ (List.range m).length := by
    intro hz
    rw [hneed, List.length_replicate, List.length_range]
    exact hm hz
  have hfair : ∀ c ∈ cs, InTime p c := by
    intro c hc
    obtain ⟨k, hk, rfl⟩ := List.mem_iff_getElem.1 hc
    exact ((List.forall₂_iff_get.1 h).2 k (by rw [h.length_eq]; exact hk) hk).inTime
  set P : Prog (Res (List (Option (Tree ℝ F L)) × List Nat)) := runP p zs (List.replicate n none) (List.range m) with hP
  have hrun := fun ω => runP_run hlife ω zs (List.replicate n none) (new m n) [] 0 [] (inv_new m n) hgood (by rw [avail_new]; exact hm')
  simp only [avail_new, ← hP, List.nil_append] at hrun
  -- the value of an outcome
  have hval : ∀ ω, (match (P.eval ω 0).1 with
      | .ok (os', _) => waitsAll cs os'
      | .error _ => 0) = {ω | WaitsAll Qs (P.eval ω 0).1}.indicator 1 ω := by
    intro ω
    have := hrun ω
    revert this
    generalize hE : P.eval ω 0 = E
    obtain ⟨r, pos'⟩ := E
    cases r with
    | error e => intro _; simp [hE, WaitsAll]
    | ok r =>
      obtain ⟨os', A'⟩ := r
      rintro ⟨s', lost', -, c2, -, c4, c5⟩
      rw [List.length_replicate] at c5
      have := waitsAll_eq h os' (by rw [c5]) c4
      simp only [this, Set.indicator_apply, Set.mem_ofPred_eq, hE, WaitsAll, Pi.one_apply]
  -- the event
  have hev : {ω | ∃ s pos trees, run p (nums ω) (trainAll zs) (new m n) 0 = .ok (s, pos) ∧ HoldsAll s trees ∧ List.Forall₂ Waits Qs trees} = {ω | WaitsAll Qs (P.eval ω 0).1} := by
    ext ω
    simp only [Set.mem_ofPred_eq]
    have := hrun ω
    revert this
    generalize P.eval ω 0 = E
    obtain ⟨r, pos'⟩ := E
    cases r with
    | error e =>
      intro h1
      simp only [WaitsAll, iff_false]
      rintro ⟨s, pos, trees, h2, -⟩
      rw [trainAll, h1] at h2
      simp at h2
    | ok r =>
      obtain ⟨os', A'⟩ := r
      rintro ⟨s', lost', c1, c2, -, -, -⟩
      constructor
      · rintro ⟨s, pos, trees, h2, h3, h4⟩
        rw [trainAll, c1] at h2
        simp only [Except.ok.injEq, Prod.mk.injEq] at h2
        obtain ⟨rfl, rfl⟩ := h2
        rw [C52_trees_unique h3 c2.all] at h4
        exact h4
      · intro h4
        exact ⟨s', pos', os', c1, c2.all, h4⟩
  have hmeas := waitsAll_meas hlog Qs zs n (List.range m)
  have hex := runP_to hlog hfair zs (List.replicate n none) (List.range m) [] (by rw [List.length_replicate]) hgood hm'
  rw [← hP] at hex hmeas
  rw [← Prog.ex_eval _ P (by
    have e : (fun ω => (match (P.eval ω 0).1 with
      | .ok (os', _) => waitsAll cs os'
      | .error _ => 0)) = {ω | WaitsAll Qs (P.eval ω 0).1}.indicator (1 : (Nat → U01) → ENNReal) := funext hval
    exact e ▸ measurable_one.indicator hmeas)] at hex
  rw [hev, ← waits_new (L := L), ← hex, ← lintegral_indicator_one hmeas]
  exact lintegral_congr fun ω => (hval ω).symm

end Orp.Mondrian
