import Verif.Mondrian.BatchDraw
import Verif.Mondrian.RunProg

/-!
The training of a forest: the trees are independent, each has the law of a Mondrian tree of all the points.
-/

set_option linter.unusedSectionVars false

namespace Orp.Mondrian

open MeasureTheory Orp.Reservoir

variable {F L : Nat}

/-- the expectation of `g` after the training of a tree with further points -/
noncomputable def later (life : ℝ) (g : Tree ℝ F L → ENNReal) : List (Point ℝ F L) → Tree ℝ F L → ENNReal
  | [], t => g t
  | z :: zs, t => addPt life z t 0 (later life g zs)

/-- the same for a tree that may be empty -/
noncomputable def laterOpt (life : ℝ) (g : Tree ℝ F L → ENNReal) : List (Point ℝ F L) → Option (Tree ℝ F L) → ENNReal
  | zs, some t => later life g zs t.anon
  | [], none => 0
  | z :: zs, none => later life g zs (newLeaf life 0 z.1 z.2)

theorem later_meas (life : ℝ) {g : Tree ℝ F L → ENNReal} (hg : MeasF g) : ∀ zs : List (Point ℝ F L), MeasF (later life g zs)
  | [] => hg
  | z :: zs => MeasF.addPt life (later_meas life hg zs) z 0

theorem batch_later (life : ℝ) {g : Tree ℝ F L → ENNReal} (hg : MeasF g) : ∀ (zs pts : List (Point ℝ F L)), pts ≠ [] →
    batch life pts.length pts 0 (later life g zs) = batch life (pts ++ zs).length (pts ++ zs) 0 g
  | [], pts, _ => by rw [List.append_nil]; rfl
  | z :: zs, pts, h => by
      have e := batch_addPt life z pts.length h le_rfl 0 (later_meas life hg zs)
      have ih := batch_later life hg zs (pts ++ [z]) (by simp)
      rw [show batch life pts.length pts 0 (later life g (z :: zs)) = batch life pts.length pts 0 (fun t => addPt life z t 0 (later life g zs)) from rfl, e]
      rw [List.length_append, List.length_singleton] at ih
      rw [ih, List.append_assoc, List.singleton_append]

/-- The value of an empty tree is the expectation over the Mondrian trees of the points. -/
theorem laterOpt_none (life : ℝ) {g : Tree ℝ F L → ENNReal} (hg : MeasF g) {zs : List (Point ℝ F L)} (h : zs ≠ []) : laterOpt life g zs none = batch life zs.length zs 0 g := by
  cases zs with
  | nil => exact absurd rfl h
  | cons z zs =>
    have := batch_later life hg zs [z] (by simp)
    rw [List.length_singleton, batch_single] at this
    exact this

theorem stepP_later {p : Params ℝ} (hlog : p.log = Real.log) (hlife : 0 ≤ p.lifetime) (g : Tree ℝ F L → ENNReal) (z : Point ℝ F L) (zs : List (Point ℝ F L))
    {o : Option (Tree ℝ F L)} {pts : List (Point ℝ F L)} (hg : Good (· ≤ ·) p.lifetime pts o) {A : List Nat} (hA : need o ≤ A.length) :
    (stepP p z.1 z.2 o A).ex (fun r => match r with
      | .ok (t, _) => laterOpt p.lifetime g zs (some t)
      | .error _ => 0) = laterOpt p.lifetime g (z :: zs) o := by
  cases o with
  | none =>
    cases A with
    | nil => simp [need] at hA
    | cons a A => rfl
  | some t =>
    match A, hA with
    | a :: b' :: A, _ =>
      simp only [stepP, Prog.ex_bind, Prog.ex]
      have hle : 0 ≤ t.data.tau := by
        cases t with
        | leaf id d =>
          have := hg.2
          simp only [Times] at this
          simp only [Tree.data]
          linarith
        | node id d dim sp l r => exact hg.2.1
      rw [growP_congr hlog (a, b') z.1 z.2 (φ' := onOk (later p.lifetime g zs)) (fun t => by simp [Except.map, onOk, laterOpt]) t 0 hg.2 hle,
        growP_addPt hlog (a, b') z t 0 hg.1.sound hg.2 hle]
      rfl

theorem Prog.ex_le {α : Type} {φ : α → ENNReal} : ∀ (P : Prog α), (∀ ω pos, φ (P.eval ω pos).1 ≤ 1) → P.ex φ ≤ 1 := by
  intro P h
  have : P.ex φ = P.ex fun x => min 1 (φ x) := Prog.ex_congr P fun ω pos => (min_eq_right (h ω pos)).symm
  rw [this]
  calc P.ex (fun x => min 1 (φ x)) ≤ P.ex (fun _ => 1) := mono P fun x => min_le_left _ _
    _ = 1 := Prog.ex_const 1 P
where
  mono {α : Type} {φ ψ : α → ENNReal} : ∀ (P : Prog α), (∀ x, φ x ≤ ψ x) → P.ex φ ≤ P.ex ψ
    | .ret x, h => h x
    | .ask k, h => by
        simp only [Prog.ex]
        exact lintegral_mono fun u => mono (k u) h

theorem laterOpt_le {p : Params ℝ} (hlog : p.log = Real.log) (hlife : 0 ≤ p.lifetime) {g : Tree ℝ F L → ENNReal} (hg1 : ∀ t, g t ≤ 1) : ∀ (zs : List (Point ℝ F L))
    {o : Option (Tree ℝ F L)} {pts : List (Point ℝ F L)}, Good (· ≤ ·) p.lifetime pts o → laterOpt p.lifetime g zs o ≤ 1
  | [], none, _, _ => by simp [laterOpt]
  | [], some t, _, _ => by simpa only [laterOpt, later] using hg1 _
  | z :: zs, o, pts, hg => by
      rw [← stepP_later hlog hlife g z zs hg (A := [0, 0]) (by cases o <;> simp [need])]
      refine Prog.ex_le _ fun ω pos => ?_
      cases h1 : ((stepP p z.1 z.2 o [0, 0]).eval ω pos).1 with
      | error e => simp
      | ok r =>
        obtain ⟨t, A1⟩ := r
        exact laterOpt_le hlog hlife hg1 zs (stepP_out h1 hg).1

/-- the product over the trees -/
noncomputable def laterAll (life : ℝ) (zs : List (Point ℝ F L)) (gs : List (Tree ℝ F L → ENNReal)) (os : List (Option (Tree ℝ F L))) : ENNReal :=
  (List.zipWith (fun g o => laterOpt life g zs o) gs os).prod

theorem laterAll_ne_top {p : Params ℝ} (hlog : p.log = Real.log) (hlife : 0 ≤ p.lifetime) (zs : List (Point ℝ F L)) {pts : List (Point ℝ F L)} :
    ∀ (gs : List (Tree ℝ F L → ENNReal)) (os : List (Option (Tree ℝ F L))), (∀ g ∈ gs, ∀ t, g t ≤ 1) → (∀ o ∈ os, Good (· ≤ ·) p.lifetime pts o) → laterAll p.lifetime zs gs os ≠ ⊤
  | [], os, _, _ => by simp [laterAll]
  | g :: gs, [], _, _ => by simp [laterAll]
  | g :: gs, o :: os, h1, hg => by
      have := laterAll_ne_top hlog hlife zs gs os (fun q h => h1 q (List.mem_cons_of_mem _ h)) (fun o ho => hg o (List.mem_cons_of_mem _ ho))
      simp only [laterAll, List.zipWith_cons_cons, List.prod_cons] at this ⊢
      exact ENNReal.mul_ne_top (ne_top_of_le_ne_top ENNReal.one_ne_top (laterOpt_le hlog hlife (h1 g (List.mem_cons_self ..)) zs (hg o (List.mem_cons_self ..)))) this

theorem loopP_later {p : Params ℝ} (hlog : p.log = Real.log) (hlife : 0 ≤ p.lifetime) (z : Point ℝ F L) (zs : List (Point ℝ F L)) {pts : List (Point ℝ F L)} :
    ∀ (gs : List (Tree ℝ F L → ENNReal)) (os : List (Option (Tree ℝ F L))) (A : List Nat), (∀ g ∈ gs, ∀ t, g t ≤ 1) → gs.length = os.length →
      (∀ o ∈ os, Good (· ≤ ·) p.lifetime pts o) → (os.map need).sum ≤ A.length →
      (loopP p z.1 z.2 os A).ex (fun r => match r with
        | .ok (ts, _) => laterAll p.lifetime zs gs (ts.map some)
        | .error _ => 0) = laterAll p.lifetime (z :: zs) gs os
  | [], [], A, _, _, _, _ => by simp [loopP, Prog.ex, laterAll]
  | c :: cs, o :: os, A, hc, hl, hg, hA => by
      simp only [List.map_cons, List.sum_cons] at hA
      have hgo := hg o (List.mem_cons_self ..)
      have e := stepP_later hlog hlife c z zs hgo (A := A) (by omega)
      have eR : laterAll p.lifetime (z :: zs) (c :: cs) (o :: os) = laterAll p.lifetime (z :: zs) cs os * laterOpt p.lifetime c (z :: zs) o + 0 := by
        simp only [laterAll, List.zipWith_cons_cons, List.prod_cons, add_zero]; rw [mul_comm]
      have htop := laterAll_ne_top hlog hlife (z :: zs) cs os (fun q h => hc q (List.mem_cons_of_mem _ h)) (fun o ho => hg o (List.mem_cons_of_mem _ ho))
      rw [eR, ← e, ← Prog.ex_affine _ htop]
      simp only [loopP, Prog.ex_bind]
      refine Prog.ex_congr _ fun ω pos => ?_
      cases h1 : ((stepP p z.1 z.2 o A).eval ω pos).1 with
      | error e => simp [Prog.ex]
      | ok r =>
        obtain ⟨t, A1⟩ := r
        obtain ⟨a1, a2⟩ := stepP_out h1 hgo
        have ih := loopP_later hlog hlife z zs cs os A1 (fun q h => hc q (List.mem_cons_of_mem _ h)) (by simpa using hl) (fun o ho => hg o (List.mem_cons_of_mem _ ho)) (by omega)
        have htop' : laterOpt p.lifetime c zs (some t) ≠ ⊤ := ne_top_of_le_ne_top ENNReal.one_ne_top (laterOpt_le hlog hlife (hc c (List.mem_cons_self ..)) zs a1)
        simp only [Prog.ex_bind, Prog.ex]
        rw [← ih, mul_comm, ← Prog.ex_affine _ htop']
        refine Prog.ex_congr _ fun ω pos => ?_
        cases ((loopP p z.1 z.2 os A1).eval ω pos).1 with
        | error e => simp [Except.map]
        | ok r => simp [Except.map, laterAll]

theorem runP_later {p : Params ℝ} (hlog : p.log = Real.log) (hlife : 0 ≤ p.lifetime) {gs : List (Tree ℝ F L → ENNReal)} (hc : ∀ g ∈ gs, ∀ t, g t ≤ 1) :
    ∀ (zs : List (Point ℝ F L)) (os : List (Option (Tree ℝ F L))) (A : List Nat) (pts : List (Point ℝ F L)), gs.length = os.length →
      (∀ o ∈ os, Good (· ≤ ·) p.lifetime pts o) → (zs ≠ [] → (os.map need).sum + 2 * os.length * (zs.length - 1) ≤ A.length) →
      (runP p zs os A).ex (fun r => match r with
        | .ok (os', _) => laterAll p.lifetime [] gs os'
        | .error _ => 0) = laterAll p.lifetime zs gs os
  | [], os, A, pts, hl, hg, hA => rfl
  | z :: zs, os, A, pts, hl, hg, hA => by
      have hA' := hA (by simp)
      simp only [List.length_cons, Nat.add_sub_cancel] at hA'
      rw [← loopP_later hlog hlife z zs gs os A hc hl hg (by omega)]
      simp only [runP, Prog.ex_bind]
      refine Prog.ex_congr _ fun ω pos => ?_
      cases h1 : ((loopP p z.1 z.2 os A).eval ω pos).1 with
      | error e => rfl
      | ok r =>
        obtain ⟨ts, A1⟩ := r
        obtain ⟨o1, o2, o3⟩ := loopP_out h1 hg
        have hneed : ((ts.map some).map need).sum = 2 * os.length := by
          rw [List.map_map, show (need ∘ some : Tree ℝ F L → Nat) = fun _ => 2 from rfl, List.map_const', List.sum_replicate, o2]; simp [mul_comm]
        exact runP_later hlog hlife hc zs (ts.map some) A1 (pts ++ [z]) (by rw [List.length_map, hl, o2]) (fun o ho => by
          obtain ⟨t, ht, rfl⟩ := List.mem_map.1 ho
          exact o1 t ht) (fun hne => by
            rw [hneed, List.length_map, o2]
            have : 1 ≤ zs.length := List.length_pos_of_ne_nil hne
            obtain ⟨k, hk⟩ := Nat.exists_eq_add_of_le this
            have e : 2 * os.length * zs.length = 2 * os.length + 2 * os.length * (zs.length - 1) := by
              rw [hk, Nat.add_sub_cancel_left]; ring
            omega)

/-! ### The value at the end -/

/-- the tree is there and, apart from the places of the nodes, in the set -/
def IsIn (E : Set (Tree ℝ F L)) (o : Option (Tree ℝ F L)) : Prop := ∃ t, o = some t ∧ t.anon ∈ E

open Classical in
/-- the indicator function of a set of trees -/
noncomputable def ind (E : Set (Tree ℝ F L)) (t : Tree ℝ F L) : ENNReal := if t ∈ E then 1 else 0

theorem ind_le (E : Set (Tree ℝ F L)) (t : Tree ℝ F L) : ind E t ≤ 1 := by unfold ind; split <;> simp

theorem ind_meas {E : Set (Tree ℝ F L)} (h : IsEvent E) : MeasF (ind E) := by
  intro Y _ t ht
  unfold ind
  exact Measurable.ite (h Y t ht) measurable_const measurable_const

open Classical in
theorem laterAll_end (life : ℝ) : ∀ (Es : List (Set (Tree ℝ F L))) (os : List (Option (Tree ℝ F L))), Es.length = os.length →
    laterAll life [] (Es.map ind) os = if List.Forall₂ IsIn Es os then 1 else 0
  | [], [], _ => by simp [laterAll]
  | E :: Es, o :: os, h => by
      have ih := laterAll_end life Es os (by simpa using h)
      simp only [laterAll, List.map_cons, List.zipWith_cons_cons, List.prod_cons, List.forall₂_cons] at ih ⊢
      rw [ih]
      cases o with
      | none => simp [laterOpt, IsIn]
      | some t =>
        by_cases h1 : t.anon ∈ E <;> by_cases h2 : List.Forall₂ IsIn Es os <;> simp [laterOpt, later, ind, IsIn, h1, h2]

theorem MTree.var {t : (Nat → U01) → Tree ℝ F L} (h : MTree t) : VTree fun ω => (t ω).anon := by
  induction h with
  | leaf id counts ht hb => exact .leaf 0 counts ht hb
  | node id counts dim ht hb hs hl hr ihl ihr => exact .node 0 counts dim ht hb hs ihl ihr

theorem isIn_meas {os : (Nat → U01) → List (Option (Tree ℝ F L))} (h : MOpts os) : ∀ Es : List (Set (Tree ℝ F L)), (∀ E ∈ Es, IsEvent E) → MeasurableSet {ω | List.Forall₂ IsIn Es (os ω)} := by
  induction h with
  | nil => intro Es _; exact MeasurableSet.const _
  | none hos ih =>
    intro Es _
    cases Es with
    | nil => simp
    | cons E Es => simp [IsIn]
  | @some t os ht hos ih =>
    intro Es hE
    cases Es with
    | nil => simp
    | cons E Es =>
      simp only [List.forall₂_cons, IsIn, Option.some.injEq, exists_eq_left']
      exact (hE E (List.mem_cons_self ..) _ _ ht.var).inter (ih Es fun E h => hE E (List.mem_cons_of_mem _ h))

/-- the event for an outcome of the program -/
def AllIn (Es : List (Set (Tree ℝ F L))) : Res (List (Option (Tree ℝ F L)) × List Nat) → Prop
  | .error _ => False
  | .ok r => List.Forall₂ IsIn Es r.1

theorem allIn_meas {p : Params ℝ} (hlog : p.log = Real.log) {Es : List (Set (Tree ℝ F L))} (hE : ∀ E ∈ Es, IsEvent E) (zs : List (Point ℝ F L)) (n : Nat) (A : List Nat) :
    MeasurableSet {ω | AllIn Es ((runP p zs (List.replicate n none) A).eval ω 0).1} := by
  refine (runP_pieces hlog zs (mopts_new n) A 0).meas (E := fun r => AllIn Es r.1) fun g hg => ?_
  cases hg with
  | error e pos => simp [AllIn]
  | ok ht A pos => exact isIn_meas ht Es hE

theorem laterAll_new (life : ℝ) {zs : List (Point ℝ F L)} (hz : zs ≠ []) : ∀ {Es : List (Set (Tree ℝ F L))}, (∀ E ∈ Es, IsEvent E) →
    laterAll life zs (Es.map ind) (List.replicate Es.length none) = (Es.map fun E => mondrian life zs E).prod
  | [], _ => by simp [laterAll]
  | E :: Es, hE => by
      have ih := laterAll_new life hz (Es := Es) fun E h => hE E (List.mem_cons_of_mem _ h)
      simp only [laterAll, List.length_cons, List.replicate_succ, List.map_cons, List.zipWith_cons_cons, List.prod_cons] at ih ⊢
      rw [ih, laterOpt_none life (ind_meas (hE E (List.mem_cons_self ..))) hz]
      rfl

theorem allIn_law (p : Params ℝ) (hlife : 0 ≤ p.lifetime) (hlog : p.log = Real.log) (m : Nat) {zs : List (Point ℝ F L)} (hz : zs ≠ []) {Es : List (Set (Tree ℝ F L))}
    (hE : ∀ E ∈ Es, IsEvent E) (hm : Es.length + 2 * Es.length * (zs.length - 1) ≤ m) :
    draws {ω | ∃ s pos trees, run p (nums ω) (trainAll zs) (new m Es.length) 0 = .ok (s, pos) ∧ HoldsAll s trees ∧ List.Forall₂ IsIn Es trees} =
      (Es.map fun E => mondrian p.lifetime zs E).prod := by
  classical
  set n := Es.length with hn
  have hneed : ((List.replicate n (none : Option (Tree ℝ F L))).map need).sum = n := by simp [need]
  have hgood : ∀ o ∈ List.replicate n (none : Option (Tree ℝ F L)), Good (· ≤ ·) p.lifetime [] o := by
    intro o ho
    rw [List.eq_of_mem_replicate ho]
    rfl
  have hm' : zs ≠ [] → ((List.replicate n (none : Option (Tree ℝ F L))).map need).sum + 2 * (List.replicate n (none : Option (Tree ℝ F L))).length * (zs.length - 1) ≤ (List.range m).length := by
    intro _
    rw [hneed, List.length_replicate, List.length_range]
    exact hm
  set P : Prog (Res (List (Option (Tree ℝ F L)) × List Nat)) := runP p zs (List.replicate n none) (List.range m) with hP
  have hrun := fun ω => runP_run hlife ω zs (List.replicate n none) (new m n) [] 0 [] (inv_new m n) hgood (by rw [avail_new]; exact hm')
  simp only [avail_new, ← hP, List.nil_append] at hrun
  -- the value of an outcome
  have hval : ∀ ω, (match (P.eval ω 0).1 with
      | .ok (os', _) => laterAll p.lifetime [] (Es.map ind) os'
      | .error _ => 0) = {ω | AllIn Es (P.eval ω 0).1}.indicator 1 ω := by
    intro ω
    have := hrun ω
    revert this
    generalize hE : P.eval ω 0 = E
    obtain ⟨r, pos'⟩ := E
    cases r with
    | error e => intro _; simp [hE, AllIn]
    | ok r =>
      obtain ⟨os', A'⟩ := r
      rintro ⟨s', lost', -, c2, -, c4, c5⟩
      rw [List.length_replicate] at c5
      have := laterAll_end p.lifetime Es os' (by rw [c5])
      simp only [this, Set.indicator_apply, Set.mem_ofPred_eq, hE, AllIn, Pi.one_apply]
  -- the event
  have hev : {ω | ∃ s pos trees, run p (nums ω) (trainAll zs) (new m n) 0 = .ok (s, pos) ∧ HoldsAll s trees ∧ List.Forall₂ IsIn Es trees} = {ω | AllIn Es (P.eval ω 0).1} := by
    ext ω
    simp only [Set.mem_ofPred_eq]
    have := hrun ω
    revert this
    generalize P.eval ω 0 = E
    obtain ⟨r, pos'⟩ := E
    cases r with
    | error e =>
      intro h1
      simp only [AllIn, iff_false]
      rintro ⟨s, pos, trees, h2, -⟩
      rw [trainAll, h1] at h2
      simp at h2
    | ok r =>
      obtain ⟨os', A'⟩ := r
      rintro ⟨s', lost', c1, c2, -, -, -⟩
      constructor
      · rintro ⟨s, pos, trees, h2, h3, h4⟩
        rw [trainAll, c1] at h2
        simp only [Except.ok.injEq, Prod.mk.injEq] at h2
        obtain ⟨rfl, rfl⟩ := h2
        rw [C52_trees_unique h3 c2.all] at h4
        exact h4
      · intro h4
        exact ⟨s', pos', os', c1, c2.all, h4⟩
  have hmeas := allIn_meas hlog hE zs n (List.range m)
  have hex := runP_later hlog hlife (gs := Es.map ind) (fun g hg t => by
    obtain ⟨E, -, rfl⟩ := List.mem_map.1 hg
    exact ind_le E t) zs (List.replicate n none) (List.range m) [] (by rw [List.length_replicate, List.length_map]) hgood hm'
  rw [← hP] at hex hmeas
  rw [← Prog.ex_eval _ P (by
    have e : (fun ω => (match (P.eval ω 0).1 with
      | .ok (os', _) => laterAll p.lifetime [] (Es.map ind) os'
      | .error _ => 0)) = {ω | AllIn Es (P.eval ω 0).1}.indicator (1 : (Nat → U01) → ENNReal) := funext hval
    exact e ▸ measurable_one.indicator hmeas)] at hex
  rw [hev, ← laterAll_new p.lifetime hz hE, ← hn, ← hex, ← lintegral_indicator_one hmeas]
  exact lintegral_congr fun ω => (hval ω).symm

end Orp.Mondrian
