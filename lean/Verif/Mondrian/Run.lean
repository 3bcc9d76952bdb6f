import Verif.Mondrian.Predict
import Mathlib.Data.List.Induction

/-!
Histories of calls of `train` and `predict`.
-/

namespace Orp.Mondrian

set_option linter.unusedSectionVars false

variable {K : Type} [Field K] [LinearOrder K] [IsStrictOrderedRing K] [FloorRing K] {F L : Nat}

theorem points_append : ∀ (as bs : List (Op K F L)), points (as ++ bs) = points as ++ points bs
  | [], bs => rfl
  | .train x l :: as, bs => by simp [points, points_append as bs]
  | .predict x :: as, bs => by simp [points, points_append as bs]

theorem run_append (p : Params K) (ω : Nat → K) : ∀ (as bs : List (Op K F L)) (s : Forest K F L) (pos : Nat),
    run p ω (as ++ bs) s pos = (run p ω as s pos).bind (fun r => run p ω bs r.1 r.2)
  | [], bs, s, pos => rfl
  | z :: as, bs, s, pos => by
      simp only [List.cons_append, run, bind, Except.bind]
      cases exec p ω z s pos with
      | error e => rfl
      | ok r => exact run_append p ω as bs r.1 r.2

theorem run_snoc (p : Params K) (ω : Nat → K) (as : List (Op K F L)) (b : Op K F L) (s : Forest K F L) (pos : Nat) :
    run p ω (as ++ [b]) s pos = (run p ω as s pos).bind (fun r => exec p ω b r.1 r.2) := by
  rw [run_append]
  congr 1
  funext r
  simp only [run, bind, Except.bind]
  cases exec p ω b r.1 r.2 <;> rfl

/-- what holds for a tree after a history of calls -/
def Good (R : K → K → Prop) (lifetime : K) (pts : List (Point K F L)) : Option (Tree K F L) → Prop
  | none => pts = []
  | some t => Right pts t ∧ Times R lifetime 0 t

theorem Step.good {p : Params K} {ω : Nat → K} {R : K → K → Prop} (hR : ∀ a b, a < b → R a b) (hω : ∀ i, 0 ≤ ω i ∧ ω i < 1)
    (hd : ∀ (pos : Nat) (b : Box K F) (x : Fin F → K) (ptau tau : K) (c : Cut K F) (pos' : Nat),
      draw p ω pos b x ptau tau = .ok (some c, pos') → R ptau c.tau) {z : Point K F L} {o o' : Option (Tree K F L)} {pts : List (Point K F L)}
    (h : Step p ω z o o') (hg : Good R p.lifetime pts o) : Good R p.lifetime (pts ++ [z]) o' := by
  cases o with
  | none =>
      obtain ⟨id, rfl⟩ := h
      have : pts = [] := hg
      subst this
      exact ⟨newLeaf_right _ _ _, rfl⟩
  | some t =>
      obtain ⟨fresh, pos, t', pos', h1, rfl⟩ := h
      exact ⟨h1.right_tree hω hg.1, h1.times hR hω (fun pos b ptau tau c pos' => hd pos b z.1 ptau tau c pos') hg.2⟩

theorem Good.recount {R : K → K → Prop} {lifetime : K} {pts : List (Point K F L)} {o : Option (Tree K F L)} (h : Good R lifetime pts o) :
    Good R lifetime pts (o.map Tree.recount) := by
  cases o with
  | none => exact h
  | some t => exact ⟨recount_right h.1, recount_times h.2⟩

/-- one call of `train` -/
theorem train_spec (p : Params K) (hlife : 0 ≤ p.lifetime) (ω : Nat → K) (hω : ∀ i, 0 ≤ ω i ∧ ω i < 1) (z : Point K F L) (s : Forest K F L)
    (trees : List (Option (Tree K F L))) (lost : List Nat) (hI : Inv s trees lost) (pos : Nat) (r : Forest K F L × Nat × Option Bool)
    (h : train p ω z.1 z.2 s pos = .ok r) : ∃ (trees' : List (Option (Tree K F L))) (lost' : List Nat), Inv r.1 trees' lost' ∧
      r.1.nodes.length = s.nodes.length ∧ r.2.2 = none ∧ trees'.length = trees.length ∧
      ∀ (j : Nat) (o o' : Option (Tree K F L)), trees[j]? = some o → trees'[j]? = some o' → Step p ω z o o' := by
  have hroots : s.roots.length = trees.length := by rw [hI.all.roots, List.length_map]
  obtain ⟨trees', lost', b1, b2, b3, b4, b5⟩ := trainLoop_spec p hlife ω hω z.1 z.2 s.roots.length 0 s trees lost pos none r (by omega) hI h
  refine ⟨trees', lost', b1, b2, b3, b4, fun j o o' hj hj' => ?_⟩
  obtain ⟨o'', c1, -, c3⟩ := b5 j o hj
  rw [hj'] at c1
  have := Option.some.inj c1
  subst this
  exact c3 (Nat.zero_le _)

/-- The state after a history of calls -/
theorem run_good (p : Params K) (hlife : 0 ≤ p.lifetime) (ω : Nat → K) (hω : ∀ i, 0 ≤ ω i ∧ ω i < 1) (R : K → K → Prop) (hR : ∀ a b, a < b → R a b)
    (hd : ∀ (pos : Nat) (b : Box K F) (x : Fin F → K) (ptau tau : K) (c : Cut K F) (pos' : Nat),
      draw p ω pos b x ptau tau = .ok (some c, pos') → R ptau c.tau) (m n : Nat) :
    ∀ (ops : List (Op K F L)) (pos : Nat) (r : Forest K F L × Nat), run p ω ops (new m n) pos = .ok r →
      ∃ (trees : List (Option (Tree K F L))) (lost : List Nat), Inv r.1 trees lost ∧ r.1.nodes.length = m ∧ trees.length = n ∧
        ∀ o ∈ trees, Good R p.lifetime (points ops) o := by
  intro ops
  induction ops using List.reverseRecOn with
  | nil =>
      intro pos r h
      simp only [run, Except.ok.injEq] at h
      subst h
      refine ⟨_, [], inv_new m n, by simp [new], by simp, fun o ho => ?_⟩
      rw [List.eq_of_mem_replicate ho]; rfl
  | append_singleton ops op ih =>
      intro pos r h
      rw [run_snoc] at h
      cases h1 : run p ω ops (new m n) pos with
      | error e => rw [h1] at h; cases h
      | ok q =>
          rw [h1] at h
          obtain ⟨trees, lost, a1, a2, a3, a4⟩ := ih pos q h1
          simp only [Except.bind] at h
          cases op with
          | train x l =>
              simp only [exec, bind, Except.bind] at h
              cases h2 : train p ω x l q.1 q.2 with
              | error e => rw [h2] at h; cases h
              | ok u =>
                  rw [h2] at h
                  cases h
                  obtain ⟨trees', lost', b1, b2, -, b4, b5⟩ := train_spec p hlife ω hω (x, l) q.1 trees lost a1 q.2 u h2
                  refine ⟨trees', lost', b1, b2.trans a2, b4.trans a3, fun o ho => ?_⟩
                  obtain ⟨j, hj⟩ := List.mem_iff_getElem?.1 ho
                  have hjlt : j < trees.length := by rw [← b4]; exact lt_of_get hj
                  rw [points_append]
                  exact (b5 j _ _ (List.getElem?_eq_getElem hjlt) hj).good hR hω hd (a4 _ (List.getElem_mem hjlt))
          | predict x =>
              obtain ⟨nodes', b1, b2, -, b4⟩ := a1.predict_eq p
              simp only [exec, bind, Except.bind, b4] at h
              cases h2 : label p x (recountAll trees) with
              | error e => rw [h2] at h; cases h
              | ok u =>
                  rw [h2] at h
                  cases h
                  refine ⟨recountAll trees, lost, b1, b2.1.trans a2, by simp [recountAll, a3], fun o ho => ?_⟩
                  obtain ⟨o0, ho0, rfl⟩ := List.mem_map.1 ho
                  rw [points_append, show points [Op.predict x] = ([] : List (Point K F L)) from rfl, List.append_nil]
                  exact (a4 o0 ho0).recount

theorem draw_le {p : Params K} {ω : Nat → K} (hω : ∀ i, 0 ≤ ω i ∧ ω i < 1) (pos : Nat) (b : Box K F) (x : Fin F → K) (ptau tau : K) (c : Cut K F)
    (pos' : Nat) (h : draw p ω pos b x ptau tau = .ok (some c, pos')) : ptau ≤ c.tau := (draw_spec hω h).2.1

/-- Histories end without undefined behaviour. -/
theorem run_ok (p : Params K) (hlife : 0 ≤ p.lifetime) (h0 : p.exp 0 = 1) (hdisc : 0 ≤ p.discount) (ω : Nat → K) (hω : ∀ i, 0 < ω i ∧ ω i < 1)
    (m n : Nat) (hn : 0 < n) (hmn : n ≤ m) : ∀ (ops : List (Op K F L)) (pos : Nat), ∃ r, run p ω ops (new m n) pos = .ok r := by
  have hω' : ∀ i, 0 ≤ ω i ∧ ω i < 1 := fun i => ⟨(hω i).1.le, (hω i).2⟩
  intro ops pos
  suffices h : ∃ r, run p ω ops (new m n) pos = .ok r ∧ (points ops = [] → avail r.1.nodes = List.range m) from ⟨h.choose, h.choose_spec.1⟩
  induction ops using List.reverseRecOn with
  | nil => exact ⟨_, rfl, fun _ => avail_new m n⟩
  | append_singleton ops op ih =>
      obtain ⟨q, hq, hav⟩ := ih
      obtain ⟨trees, lost, a1, a2, a3, a4⟩ := run_good p hlife ω hω' (· ≤ ·) (fun a b h => h.le) (draw_le hω') m n ops pos q hq
      have hroots : q.1.roots.length = trees.length := by rw [a1.all.roots, List.length_map]
      rw [run_snoc, hq]
      simp only [Except.bind]
      cases op with
      | train x l =>
          have hE : Enough q.1 trees 0 q.1.roots.length := by
            by_cases hz : points ops = []
            · refine Or.inr ⟨?_, fun j o hj _ => ?_, fun j o _ h => absurd h (Nat.not_lt_zero _)⟩
              · rw [hav hz, List.length_range, hroots, a3]; exact hmn
              · have := a4 o (List.mem_of_getElem? hj)
                cases o with
                | none => rfl
                | some t => exact absurd hz this.1.ne_nil
            · refine Or.inl fun o ho => ?_
              rintro rfl
              exact hz (a4 _ ho)
          obtain ⟨u, hu⟩ := trainLoop_ok p hlife ω hω x l q.1.roots.length 0 q.1 trees lost q.2 none (by omega) a1 hE
          refine ⟨(u.1, u.2.1), ?_, fun h => ?_⟩
          · simp only [exec, bind, Except.bind, train, hu, pure, Except.pure]
          · rw [points_append] at h; simp [points] at h
      | predict x =>
          obtain ⟨nodes', b1, b2, -, b4⟩ := a1.predict_eq p
          obtain ⟨u, hu⟩ := label_ok p h0 hdisc x (recountAll trees) (by rw [recountAll, List.length_map]; omega) (fun t ht => by
            obtain ⟨o, ho, e⟩ := List.mem_map.1 ht
            cases o with
            | none => cases e
            | some t0 =>
                have := Option.some.inj e
                subst this
                exact (a4 _ ho).1.positive)
          refine ⟨({ q.1 with nodes := nodes' }, q.2), ?_, fun h => ?_⟩
          · simp only [exec, bind, Except.bind, b4, hu, Except.map, pure, Except.pure]
          · rw [points_append] at h
            simp only [points, List.append_nil] at h
            exact b2.avail.trans (hav h)

end Orp.Mondrian
