import Verif.Mondrian.Kernel
import Verif.Mondrian.Pieces

/-!
The training of a forest as a program that draws random numbers.
-/

set_option linter.unusedSectionVars false

namespace Orp.Mondrian

open MeasureTheory Orp.Reservoir

variable {F L : Nat}

/-- the free places after a tree has grown -/
def left (A : List Nat) (t t' : Tree ℝ F L) : List Nat := if t'.ids.length = t.ids.length then A else A.drop 2

/-- one tree; `A` are the free places -/
noncomputable def stepP (p : Params ℝ) (x : Fin F → ℝ) (label : Fin L) : Option (Tree ℝ F L) → List Nat → Prog (Res (Tree ℝ F L × List Nat))
  | none, a :: A => .ret (.ok (newLeaf p.lifetime a x label, A))
  | some t, a :: b :: A => (growP p (a, b) x label t 0).bind fun r => .ret (r.map fun t' => (t', left (a :: b :: A) t t'))
  | _, _ => .ret (.error .ub)

/-- the trees of the forest -/
noncomputable def loopP (p : Params ℝ) (x : Fin F → ℝ) (label : Fin L) : List (Option (Tree ℝ F L)) → List Nat → Prog (Res (List (Tree ℝ F L) × List Nat))
  | [], A => .ret (.ok ([], A))
  | o :: os, A => (stepP p x label o A).bind fun r =>
      match r with
      | .error e => .ret (.error e)
      | .ok (t, A) => (loopP p x label os A).bind fun r => .ret (r.map fun q => (t :: q.1, q.2))

/-- a list of training points -/
noncomputable def runP (p : Params ℝ) : List (Point ℝ F L) → List (Option (Tree ℝ F L)) → List Nat → Prog (Res (List (Option (Tree ℝ F L)) × List Nat))
  | [], os, A => .ret (.ok (os, A))
  | z :: zs, os, A => (loopP p z.1 z.2 os A).bind fun r =>
      match r with
      | .error e => .ret (.error e)
      | .ok (ts, A) => runP p zs (ts.map some) A

/-- the places that a tree needs -/
def need : Option (Tree ℝ F L) → Nat
  | none => 1
  | some _ => 2

/-! ### The program does what the code does -/

theorem taken_left {A A' : List Nat} {t t' : Tree ℝ F L} (h : Taken A A' t.ids t'.ids) (h2 : 2 ≤ A.length) : A' = left A t t' := by
  unfold left
  cases h with
  | same h h' => rw [if_pos h'.length_eq, h]
  | two a b h h' =>
    have := h'.length_eq
    simp only [List.length_cons] at this
    rw [if_neg (by omega), h]; rfl
  | lost a h => rw [h] at h2; simp at h2

theorem fresh_cons (a b : Nat) (A : List Nat) : freshOf (a :: b :: A) = some (a, b) := rfl

theorem left_length (A : List Nat) (t t' : Tree ℝ F L) : A.length ≤ (left A t t').length + 2 := by
  unfold left; split
  · omega
  · rw [List.length_drop]; omega

/-- outcomes of one tree -/
theorem stepP_out {p : Params ℝ} {ω : Nat → U01} {z : Point ℝ F L} {o : Option (Tree ℝ F L)} {A : List Nat} {pos : Nat} {t' : Tree ℝ F L} {A' : List Nat}
    (h : ((stepP p z.1 z.2 o A).eval ω pos).1 = .ok (t', A')) {pts : List (Point ℝ F L)} (hg : Good (· ≤ ·) p.lifetime pts o) :
    Good (· ≤ ·) p.lifetime (pts ++ [z]) (some t') ∧ A.length ≤ A'.length + need o := by
  cases o with
  | none =>
    cases A with
    | nil => simp [stepP, Prog.eval] at h
    | cons a A =>
      simp only [stepP, Prog.eval, Except.ok.injEq, Prod.mk.injEq] at h
      obtain ⟨rfl, rfl⟩ := h
      have : pts = [] := hg
      subst this
      exact ⟨⟨newLeaf_right _ _ _, rfl⟩, by simp [need]⟩
  | some t =>
    match A, h with
    | [], h => simp [stepP, Prog.eval] at h
    | [a], h => simp [stepP, Prog.eval] at h
    | a :: b :: A, h =>
      simp only [stepP, Prog.eval_bind, Prog.eval] at h
      have h1 := growP_eval p ω (a, b) z.1 z.2 t 0 pos
      cases h2 : ((growP p (a, b) z.1 z.2 t 0).eval ω pos).1 with
      | error e => rw [h2] at h; simp [Except.map] at h
      | ok t1 =>
        rw [h2] at h
        simp only [Except.map, Except.ok.injEq, Prod.mk.injEq] at h
        obtain ⟨rfl, rfl⟩ := h
        rw [withPos, h2] at h1
        have hgr := grow_grows _ _ _ _ _ _ _ _ _ _ h1
        exact ⟨⟨hgr.right_tree (nums_range ω) hg.1, hgr.times (fun a b h => h.le) (nums_range ω) (fun pos b ptau tau c pos' => draw_le (nums_range ω) pos b z.1 ptau tau c pos') hg.2⟩,
          left_length _ _ _⟩

theorem loopP_out {p : Params ℝ} {ω : Nat → U01} {z : Point ℝ F L} {pts : List (Point ℝ F L)} : ∀ {os : List (Option (Tree ℝ F L))} {A : List Nat} {pos : Nat}
    {ts : List (Tree ℝ F L)} {A' : List Nat}, ((loopP p z.1 z.2 os A).eval ω pos).1 = .ok (ts, A') → (∀ o ∈ os, Good (· ≤ ·) p.lifetime pts o) →
    (∀ t ∈ ts, Good (· ≤ ·) p.lifetime (pts ++ [z]) (some t)) ∧ ts.length = os.length ∧ A.length ≤ A'.length + (os.map need).sum
  | [], A, pos, ts, A', h, hg => by
      simp only [loopP, Prog.eval, Except.ok.injEq, Prod.mk.injEq] at h
      obtain ⟨rfl, rfl⟩ := h
      simp
  | o :: os, A, pos, ts, A', h, hg => by
      simp only [loopP, Prog.eval_bind] at h
      cases h1 : ((stepP p z.1 z.2 o A).eval ω pos).1 with
      | error e => rw [h1] at h; simp [Prog.eval] at h
      | ok q =>
        obtain ⟨t, A1⟩ := q
        rw [h1] at h
        simp only [Prog.eval_bind, Prog.eval] at h
        cases h2 : ((loopP p z.1 z.2 os A1).eval ω ((stepP p z.1 z.2 o A).eval ω pos).2).1 with
        | error e => rw [h2] at h; simp [Except.map] at h
        | ok q =>
          rw [h2] at h
          simp only [Except.map, Except.ok.injEq, Prod.mk.injEq] at h
          obtain ⟨rfl, rfl⟩ := h
          obtain ⟨a1, a2⟩ := stepP_out h1 (hg o (List.mem_cons_self ..))
          obtain ⟨b1, b2, b3⟩ := loopP_out h2 fun o ho => hg o (List.mem_cons_of_mem _ ho)
          refine ⟨?_, by simp [b2], by simp only [List.map_cons, List.sum_cons]; omega⟩
          intro t' ht'
          rcases List.mem_cons.1 ht' with rfl | h
          · exact a1
          · exact b1 t' h

/-- the outcome of the program agrees with that of the code -/
def Agree (done : List (Option (Tree ℝ F L))) (res : Option Bool) (Q : Res (List (Tree ℝ F L) × List Nat) × Nat) (R : Res (Forest ℝ F L × Nat × Option Bool)) : Prop :=
  match Q with
  | (.error e, _) => R = .error e
  | (.ok (ts, A'), pos') => ∃ s' lost', R = .ok (s', pos', res) ∧ Inv s' (done ++ ts.map some) lost' ∧ avail s'.nodes = A'

theorem loopP_run {p : Params ℝ} (hlife : 0 ≤ p.lifetime) (ω : Nat → U01) (x : Fin F → ℝ) (label : Fin L) :
    ∀ (os done : List (Option (Tree ℝ F L))) (s : Forest ℝ F L) (lost : List Nat) (pos : Nat) (res : Option Bool),
      Inv s (done ++ os) lost → (os.map need).sum ≤ (avail s.nodes).length →
      Agree done res ((loopP p x label os (avail s.nodes)).eval ω pos) (trainLoop p (nums ω) x label done.length os.length s pos res)
  | [], done, s, lost, pos, res, hI, hA => by
      simp only [loopP, Prog.eval, List.length_nil, trainLoop]
      exact ⟨s, lost, rfl, by simpa using hI, rfl⟩
  | o :: os, done, s, lost, pos, res, hI, hA => by
      simp only [List.map_cons, List.sum_cons] at hA
      have hi := get_mid done o os
      have key : ∀ (s1 : Forest ℝ F L) (lost1 : List Nat) (t1 : Tree ℝ F L) (pos1 : Nat), trainTree p (nums ω) x label done.length s pos = .ok (s1, pos1, true) →
          Inv s1 ((done ++ o :: os).set done.length (some t1)) lost1 → (avail s.nodes).length ≤ (avail s1.nodes).length + need o →
          (stepP p x label o (avail s.nodes)).eval ω pos = (.ok (t1, avail s1.nodes), pos1) →
          Agree done res ((loopP p x label (o :: os) (avail s.nodes)).eval ω pos) (trainLoop p (nums ω) x label done.length (o :: os).length s pos res) := by
        intro s1 lost1 t1 pos1 h1 h2 h3 h4
        rw [set_mid] at h2
        have ih := loopP_run hlife ω x label os (done ++ [some t1]) s1 lost1 pos1 res h2 (by omega)
        rw [List.length_append, List.length_singleton] at ih
        simp only [loopP, Prog.eval_bind, List.length_cons, trainLoop, bind, Except.bind, h4, h1, Prog.eval, if_true]
        generalize (loopP p x label os (avail s1.nodes)).eval ω pos1 = Q at ih ⊢
        obtain ⟨r, pos2⟩ := Q
        cases r with
        | error e => exact ih
        | ok q =>
          obtain ⟨ts, A2⟩ := q
          obtain ⟨s', lost', c1, c2, c3⟩ := ih
          exact ⟨s', lost', c1, by simpa using c2, c3⟩
      cases o with
      | none =>
        have hT := trainTree_none p hlife (nums ω) x label s _ lost hI done.length pos hi
        cases hav : avail s.nodes with
        | nil => rw [hav] at hA; simp [need] at hA
        | cons a A =>
          rw [hav] at hT
          obtain ⟨s1, e1, e2, e3, e4⟩ := hT
          have := key s1 [] _ pos e1 e2 (by rw [hav, e4]; simp [need]) (by rw [hav, e4]; rfl)
          rw [hav] at this
          exact this
      | some t =>
        have hT := trainTree_some p hlife (nums ω) (nums_range ω) x label s _ lost hI done.length pos t hi
        have h2 : 2 ≤ (avail s.nodes).length := by simp only [need] at hA; omega
        obtain ⟨a, b, A, hav⟩ : ∃ a b A, avail s.nodes = a :: b :: A := by
          match avail s.nodes, h2 with
          | a :: b :: A, _ => exact ⟨a, b, A, rfl⟩
        rw [show freshOf (avail s.nodes) = some (a, b) by rw [hav]; rfl, growP_eval p ω (a, b) x label t 0 pos] at hT
        have hst : (stepP p x label (some t) (avail s.nodes)).eval ω pos = (((growP p (a, b) x label t 0).eval ω pos).1.map fun t' => (t', left (avail s.nodes) t t'),
            ((growP p (a, b) x label t 0).eval ω pos).2) := by
          rw [hav]; simp only [stepP, Prog.eval_bind, Prog.eval]
        cases hg : ((growP p (a, b) x label t 0).eval ω pos).1 with
        | error e =>
          simp only [withPos, hg, Except.map] at hT
          simp only [loopP, Prog.eval_bind, List.length_cons, trainLoop, bind, Except.bind, hst, hg, Except.map, Prog.eval, hT, Agree]
        | ok t' =>
          simp only [withPos, hg, Except.map] at hT
          obtain ⟨s1, lost1, e1, e2, e3, e4⟩ := hT
          have hl := taken_left e4 h2
          refine key s1 lost1 t' _ e1 e2 (by rw [hl]; exact left_length _ _ _) ?_
          rw [hst, hg, hl]
          rfl

theorem runP_run {p : Params ℝ} (hlife : 0 ≤ p.lifetime) (ω : Nat → U01) :
    ∀ (zs : List (Point ℝ F L)) (os : List (Option (Tree ℝ F L))) (s : Forest ℝ F L) (lost : List Nat) (pos : Nat) (pts : List (Point ℝ F L)),
      Inv s os lost → (∀ o ∈ os, Good (· ≤ ·) p.lifetime pts o) → (zs ≠ [] → (os.map need).sum + 2 * os.length * (zs.length - 1) ≤ (avail s.nodes).length) →
      match (runP p zs os (avail s.nodes)).eval ω pos with
      | (.error e, _) => run p (nums ω) (zs.map fun z => .train z.1 z.2) s pos = .error e
      | (.ok (os', A'), pos') => ∃ s' lost', run p (nums ω) (zs.map fun z => .train z.1 z.2) s pos = .ok (s', pos') ∧ Inv s' os' lost' ∧ avail s'.nodes = A' ∧
          (∀ o ∈ os', Good (· ≤ ·) p.lifetime (pts ++ zs) o) ∧ os'.length = os.length
  | [], os, s, lost, pos, pts, hI, hg, hA => by
      simp only [runP, Prog.eval, List.map_nil, run]
      exact ⟨s, lost, rfl, hI, rfl, by simpa using hg, trivial⟩
  | z :: zs, os, s, lost, pos, pts, hI, hg, hA => by
      have hA' := hA (by simp)
      simp only [List.length_cons, Nat.add_sub_cancel] at hA'
      have hroots : s.roots.length = os.length := by rw [hI.all.roots, List.length_map]
      have h1 := loopP_run hlife ω z.1 z.2 os [] s lost pos none (by simpa using hI) (by omega)
      simp only [runP, Prog.eval_bind, List.map_cons, run, exec, train, hroots, bind, Except.bind, pure, Except.pure]
      have hout := @loopP_out F L p ω z pts os (avail s.nodes) pos
      generalize (loopP p z.1 z.2 os (avail s.nodes)).eval ω pos = Q at h1 hout ⊢
      obtain ⟨r, pos1⟩ := Q
      cases r with
      | error e =>
        simp only [List.length_nil, Agree] at h1
        simp only [h1, Prog.eval]
      | ok q =>
        obtain ⟨ts, A1⟩ := q
        obtain ⟨s1, lost1, e1, e2, e3⟩ := h1
        obtain ⟨o1, o2, o3⟩ := hout rfl hg
        simp only [List.length_nil] at e1
        simp only [e1]
        have hneed : ((ts.map some).map need).sum = 2 * os.length := by
          rw [List.map_map, show (need ∘ some : Tree ℝ F L → Nat) = fun _ => 2 from rfl, List.map_const', List.sum_replicate, o2]; simp [mul_comm]
        have ih := runP_run hlife ω zs (ts.map some) s1 lost1 pos1 (pts ++ [z]) (by simpa using e2) (fun o ho => by
          obtain ⟨t, ht, rfl⟩ := List.mem_map.1 ho
          exact o1 t ht) (fun hne => by
            rw [hneed, e3, List.length_map, o2]
            have : 1 ≤ zs.length := List.length_pos_of_ne_nil hne
            obtain ⟨k, hk⟩ := Nat.exists_eq_add_of_le this
            have e : 2 * os.length * zs.length = 2 * os.length + 2 * os.length * (zs.length - 1) := by
              rw [hk, Nat.add_sub_cancel_left]; ring
            omega)
        rw [e3] at ih
        generalize (runP p zs (ts.map some) A1).eval ω pos1 = Q at ih ⊢
        obtain ⟨r, pos2⟩ := Q
        cases r with
        | error e => exact ih
        | ok q =>
          obtain ⟨os', A2⟩ := q
          obtain ⟨s', lost', c1, c2, c3, c4, c5⟩ := ih
          exact ⟨s', lost', c1, c2, c3, by simpa using c4, by rw [c5, List.length_map, o2]⟩

/-! ### Expectation -/

/-- the value of a tree that may be empty: the probability that the points with box `q` are together in the end -/
noncomputable def looks (life : ℝ) (q : Box ℝ F) : Option (Tree ℝ F L) → ℝ
  | none => Real.exp (-(q.size * life))
  | some t => together q life t 0

/-- the product over the trees -/
noncomputable def looksAll (life : ℝ) (qs : List (Box ℝ F)) (os : List (Option (Tree ℝ F L))) : ENNReal :=
  (List.zipWith (fun q o => ENNReal.ofReal (looks life q o)) qs os).prod

theorem looksAll_ne_top (life : ℝ) : ∀ (qs : List (Box ℝ F)) (os : List (Option (Tree ℝ F L))), looksAll life qs os ≠ ⊤
  | [], os => by simp [looksAll]
  | q :: qs, [] => by simp [looksAll]
  | q :: qs, o :: os => by
      have := looksAll_ne_top life qs os
      simp only [looksAll, List.zipWith_cons_cons, List.prod_cons] at this ⊢
      exact ENNReal.mul_ne_top ENNReal.ofReal_ne_top this

theorem stepP_ex {p : Params ℝ} (hlife : 0 ≤ p.lifetime) (hlog : p.log = Real.log) {q : Box ℝ F} (hq : q.Ordered) (x : Fin F → ℝ) (label : Fin L)
    {o : Option (Tree ℝ F L)} {pts : List (Point ℝ F L)} (hg : Good (· ≤ ·) p.lifetime pts o) {A : List Nat} (hA : need o ≤ A.length) :
    (stepP p x label o A).ex (fun r => match r with
      | .ok (t, _) => ENNReal.ofReal (together q p.lifetime t 0)
      | .error _ => 0) = ENNReal.ofReal (looks p.lifetime q o) := by
  cases o with
  | none =>
    cases A with
    | nil => simp [need] at hA
    | cons a A =>
      simp only [stepP, Prog.ex, looks]
      rw [together_new q hq, sub_zero]
  | some t =>
    match A, hA with
    | a :: b' :: A, _ =>
      simp only [stepP, Prog.ex_bind, Prog.ex, looks]
      have hle : 0 ≤ t.data.tau := by
        cases t with
        | leaf id d => have := hg.2; simp only [Times] at this; simp only [Tree.data]; linarith
        | node id d dim sp l r => exact hg.2.1
      rw [growP_congr hlog (a, b') x label (φ' := worth fun t => together q p.lifetime t 0) (fun t => by simp [Except.map, worth]) t 0 hg.2 hle,
        grow_ex hlog hq (a, b') x label t 0 hg.1.sound hg.2 hle]

theorem loopP_ex {p : Params ℝ} (hlife : 0 ≤ p.lifetime) (hlog : p.log = Real.log) (z : Point ℝ F L) {pts : List (Point ℝ F L)} :
    ∀ (qs : List (Box ℝ F)) (os : List (Option (Tree ℝ F L))) (A : List Nat), (∀ q ∈ qs, q.Ordered) → qs.length = os.length →
      (∀ o ∈ os, Good (· ≤ ·) p.lifetime pts o) → (os.map need).sum ≤ A.length →
      (loopP p z.1 z.2 os A).ex (fun r => match r with
        | .ok (ts, _) => looksAll p.lifetime qs (ts.map some)
        | .error _ => 0) = looksAll p.lifetime qs os
  | [], [], A, _, _, _, _ => by simp [loopP, Prog.ex, looksAll]
  | q :: qs, o :: os, A, hq, hl, hg, hA => by
      simp only [List.map_cons, List.sum_cons] at hA
      have hgo := hg o (List.mem_cons_self ..)
      have e := stepP_ex hlife hlog (hq q (List.mem_cons_self ..)) z.1 z.2 hgo (A := A) (by omega)
      have eR : looksAll p.lifetime (q :: qs) (o :: os) = looksAll p.lifetime qs os * ENNReal.ofReal (looks p.lifetime q o) + 0 := by
        simp only [looksAll, List.zipWith_cons_cons, List.prod_cons, add_zero]; rw [mul_comm]
      rw [eR, ← e, ← Prog.ex_affine _ (looksAll_ne_top p.lifetime qs os)]
      simp only [loopP, Prog.ex_bind]
      refine Prog.ex_congr _ fun ω pos => ?_
      cases h1 : ((stepP p z.1 z.2 o A).eval ω pos).1 with
      | error e => simp [Prog.ex]
      | ok r =>
        obtain ⟨t, A1⟩ := r
        obtain ⟨a1, a2⟩ := stepP_out h1 hgo
        have ih := loopP_ex hlife hlog z qs os A1 (fun q h => hq q (List.mem_cons_of_mem _ h)) (by simpa using hl) (fun o ho => hg o (List.mem_cons_of_mem _ ho)) (by omega)
        simp only [Prog.ex_bind, Prog.ex]
        rw [← ih, mul_comm, ← Prog.ex_affine _ ENNReal.ofReal_ne_top]
        refine Prog.ex_congr _ fun ω pos => ?_
        cases ((loopP p z.1 z.2 os A1).eval ω pos).1 with
        | error e => simp [Except.map]
        | ok r => simp [Except.map, looksAll, looks]

theorem runP_ex {p : Params ℝ} (hlife : 0 ≤ p.lifetime) (hlog : p.log = Real.log) {qs : List (Box ℝ F)} (hq : ∀ q ∈ qs, q.Ordered) :
    ∀ (zs : List (Point ℝ F L)) (os : List (Option (Tree ℝ F L))) (A : List Nat) (pts : List (Point ℝ F L)), qs.length = os.length →
      (∀ o ∈ os, Good (· ≤ ·) p.lifetime pts o) → (zs ≠ [] → (os.map need).sum + 2 * os.length * (zs.length - 1) ≤ A.length) →
      (runP p zs os A).ex (fun r => match r with
        | .ok (os', _) => looksAll p.lifetime qs os'
        | .error _ => 0) = looksAll p.lifetime qs os
  | [], os, A, pts, hl, hg, hA => rfl
  | z :: zs, os, A, pts, hl, hg, hA => by
      have hA' := hA (by simp)
      simp only [List.length_cons, Nat.add_sub_cancel] at hA'
      rw [← loopP_ex hlife hlog z qs os A hq hl hg (by omega)]
      simp only [runP, Prog.ex_bind]
      refine Prog.ex_congr _ fun ω pos => ?_
      cases h1 : ((loopP p z.1 z.2 os A).eval ω pos).1 with
      | error e => rfl
      | ok r =>
        obtain ⟨ts, A1⟩ := r
        obtain ⟨o1, o2, o3⟩ := loopP_out h1 hg
        have hneed : ((ts.map some).map need).sum = 2 * os.length := by
          rw [List.map_map, show (need ∘ some : Tree ℝ F L → Nat) = fun _ => 2 from rfl, List.map_const', List.sum_replicate, o2]; simp [mul_comm]
        exact runP_ex hlife hlog hq zs (ts.map some) A1 (pts ++ [z]) (by rw [List.length_map, hl, o2]) (fun o ho => by
          obtain ⟨t, ht, rfl⟩ := List.mem_map.1 ho
          exact o1 t ht) (fun hne => by
            rw [hneed, List.length_map, o2]
            have : 1 ≤ zs.length := List.length_pos_of_ne_nil hne
            obtain ⟨k, hk⟩ := Nat.exists_eq_add_of_le this
            have e : 2 * os.length * zs.length = 2 * os.length + 2 * os.length * (zs.length - 1) := by
              rw [hk, Nat.add_sub_cancel_left]; ring
            omega)

/-! ### Measurability -/

/-- trees of fixed shape -/
inductive MTrees : ((Nat → U01) → List (Tree ℝ F L)) → Prop where
  | nil : MTrees fun _ => []
  | cons {t : (Nat → U01) → Tree ℝ F L} {ts : (Nat → U01) → List (Tree ℝ F L)} (ht : MTree t) (hts : MTrees ts) : MTrees fun ω => t ω :: ts ω

/-- trees of fixed shape or empty -/
inductive MOpts : ((Nat → U01) → List (Option (Tree ℝ F L))) → Prop where
  | nil : MOpts fun _ => []
  | none {os : (Nat → U01) → List (Option (Tree ℝ F L))} (hos : MOpts os) : MOpts fun ω => Option.none :: os ω
  | some {t : (Nat → U01) → Tree ℝ F L} {os : (Nat → U01) → List (Option (Tree ℝ F L))} (ht : MTree t) (hos : MOpts os) : MOpts fun ω => Option.some (t ω) :: os ω

theorem MTrees.opts {ts : (Nat → U01) → List (Tree ℝ F L)} (h : MTrees ts) : MOpts fun ω => (ts ω).map some := by
  induction h with
  | nil => exact .nil
  | cons ht hts ih => exact .some ht ih

inductive MStep : ((Nat → U01) → Res (Tree ℝ F L × List Nat) × Nat) → Prop where
  | error (e : Err) (pos : Nat) : MStep fun _ => (.error e, pos)
  | ok {t : (Nat → U01) → Tree ℝ F L} (ht : MTree t) (A : List Nat) (pos : Nat) : MStep fun ω => (.ok (t ω, A), pos)

inductive MLoop : ((Nat → U01) → Res (List (Tree ℝ F L) × List Nat) × Nat) → Prop where
  | error (e : Err) (pos : Nat) : MLoop fun _ => (.error e, pos)
  | ok {ts : (Nat → U01) → List (Tree ℝ F L)} (ht : MTrees ts) (A : List Nat) (pos : Nat) : MLoop fun ω => (.ok (ts ω, A), pos)

inductive MRun : ((Nat → U01) → Res (List (Option (Tree ℝ F L)) × List Nat) × Nat) → Prop where
  | error (e : Err) (pos : Nat) : MRun fun _ => (.error e, pos)
  | ok {os : (Nat → U01) → List (Option (Tree ℝ F L))} (ht : MOpts os) (A : List Nat) (pos : Nat) : MRun fun ω => (.ok (os ω, A), pos)

theorem step_none_pieces (p : Params ℝ) (x : Fin F → ℝ) (label : Fin L) (A : List Nat) (pos : Nat) :
    Pieces MStep fun ω => (stepP p x label none A).eval ω pos := by
  cases A with
  | nil => exact Pieces.of (.error .ub pos)
  | cons a A => exact Pieces.of (.ok (.newLeaf p.lifetime a x label) A pos)

theorem step_some_pieces {p : Params ℝ} (hlog : p.log = Real.log) (x : Fin F → ℝ) (label : Fin L) {t : (Nat → U01) → Tree ℝ F L} (ht : MTree t) (A : List Nat) (pos : Nat) :
    Pieces MStep fun ω => (stepP p x label (some (t ω)) A).eval ω pos := by
  match A with
  | [] => exact Pieces.of (.error .ub pos)
  | [a] => exact Pieces.of (.error .ub pos)
  | a :: b :: A =>
    simp only [stepP, Prog.eval_bind, Prog.eval]
    refine (growP_pieces hlog (a, b) x label ht measurable_const pos).bind (k := fun ω r => (r.1.map fun t' => (t', left (a :: b :: A) (t ω) t'), r.2)) fun g hg => ?_
    cases hg with
    | error e pos => exact Pieces.of (.error e pos)
    | @ok t' ht' pos =>
      obtain ⟨I, hI⟩ := ht.ids
      obtain ⟨J, hJ⟩ := ht'.ids
      refine Pieces.of ?_
      have : (fun ω => (Except.map (fun t' => (t', left (a :: b :: A) (t ω) t')) (.ok (t' ω) : Res (Tree ℝ F L)), pos)) =
          fun ω => (.ok (t' ω, if J.length = I.length then a :: b :: A else A), pos) := by
        funext ω
        simp only [Except.map, left, hI, hJ]
        rfl
      rw [this]
      exact .ok ht' _ pos

theorem loopP_pieces {p : Params ℝ} (hlog : p.log = Real.log) (x : Fin F → ℝ) (label : Fin L) {os : (Nat → U01) → List (Option (Tree ℝ F L))} (h : MOpts os) :
    ∀ (A : List Nat) (pos : Nat), Pieces MLoop fun ω => (loopP p x label (os ω) A).eval ω pos := by
  have key : ∀ (o : (Nat → U01) → Option (Tree ℝ F L)) (os : (Nat → U01) → List (Option (Tree ℝ F L))) (A : List Nat) (pos : Nat),
      (Pieces MStep fun ω => (stepP p x label (o ω) A).eval ω pos) → (∀ (A : List Nat) (pos : Nat), Pieces MLoop fun ω => (loopP p x label (os ω) A).eval ω pos) →
      Pieces MLoop fun ω => (loopP p x label (o ω :: os ω) A).eval ω pos := by
    intro o os A pos h1 h2
    simp only [loopP, Prog.eval_bind]
    refine h1.bind (k := fun ω r => Prog.eval ω (match r.1 with
      | .error e => Prog.ret (Except.error e : Res (List (Tree ℝ F L) × List Nat))
      | .ok (t, A) => (loopP p x label (os ω) A).bind fun r => .ret (r.map fun q => (t :: q.1, q.2))) r.2) fun g hg => ?_
    cases hg with
    | error e pos => exact Pieces.of (.error e pos)
    | @ok t ht A pos =>
      simp only [Prog.eval_bind, Prog.eval]
      refine (h2 A pos).bind (k := fun ω r => (r.1.map fun q => (t ω :: q.1, q.2), r.2)) fun g hg => ?_
      cases hg with
      | error e pos => exact Pieces.of (.error e pos)
      | ok hts A pos => exact Pieces.of (.ok (.cons ht hts) A pos)
  induction h with
  | nil => intro A pos; exact Pieces.of (.ok .nil A pos)
  | none hos ih => intro A pos; exact key (fun _ => none) _ A pos (step_none_pieces p x label A pos) ih
  | some ht hos ih => intro A pos; exact key _ _ A pos (step_some_pieces hlog x label ht A pos) ih

theorem runP_pieces {p : Params ℝ} (hlog : p.log = Real.log) : ∀ (zs : List (Point ℝ F L)) {os : (Nat → U01) → List (Option (Tree ℝ F L))}, MOpts os → ∀ (A : List Nat) (pos : Nat),
    Pieces MRun fun ω => (runP p zs (os ω) A).eval ω pos
  | [], os, h, A, pos => Pieces.of (.ok h A pos)
  | z :: zs, os, h, A, pos => by
      simp only [runP, Prog.eval_bind]
      refine (loopP_pieces hlog z.1 z.2 h A pos).bind (k := fun ω r => Prog.eval ω (match r.1 with
        | .error e => Prog.ret (Except.error e : Res (List (Option (Tree ℝ F L)) × List Nat))
        | .ok (ts, A) => runP p zs (ts.map some) A) r.2) fun g hg => ?_
      cases hg with
      | error e pos => exact Pieces.of (.error e pos)
      | ok hts A pos => exact runP_pieces hlog zs hts.opts A pos

theorem mopts_new (n : Nat) : MOpts fun _ => (List.replicate n none : List (Option (Tree ℝ F L))) := by
  induction n with
  | zero => exact .nil
  | succ n ih => exact .none ih

end Orp.Mondrian
