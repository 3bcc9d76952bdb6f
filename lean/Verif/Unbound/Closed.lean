import Verif.Unbound.Props
import Verif.Mondrian.Closed

/-!
C163: `MondrianForestUnbound` with a random function that can also return 1.
-/

set_option linter.unusedSectionVars false

namespace Orp.Unbound

open Mondrian

variable {K : Type} [Field K] [LinearOrder K] [IsStrictOrderedRing K] [FloorRing K] {F L : Nat}

/-- every leaf has counted a point -/
def Filled : Mondrian.Tree K F L → Prop
  | .leaf _ d => ∃ l, 0 < d.counts l
  | .node _ _ _ _ l r => Filled l ∧ Filled r

theorem Filled.positive : ∀ {t : Mondrian.Tree K F L}, Filled t → Positive t.recount
  | .leaf _ _, h => h
  | .node _ _ _ _ l r, h => by
      have hl := Filled.positive h.1
      have hr := Filled.positive h.2
      obtain ⟨i, hi⟩ := hl.root
      refine ⟨⟨i, ?_⟩, hl, hr⟩
      show 0 < min 1 (l.recount.data.counts i) + min 1 (r.recount.data.counts i)
      have : min 1 (l.recount.data.counts i) = 1 := by omega
      omega

theorem Filled.recount : ∀ {t : Mondrian.Tree K F L}, Filled t → Filled t.recount
  | .leaf _ _, h => h
  | .node _ _ _ _ _ _, h => ⟨h.1.recount, h.2.recount⟩

theorem newLeaf_filled (life : K) (id : Nat) (x : Fin F → K) (label : Fin L) : Filled (newLeaf life id x label) :=
  ⟨label, by simp [bump]⟩

theorem above_filled (life : K) (f : Nat × Nat) (c : Cut K F) {t : Mondrian.Tree K F L} (h : Filled t) (x : Fin F → K) (label : Fin L) :
    Filled (above life f c t x label) := by
  unfold above
  dsimp only
  split
  · exact ⟨h, newLeaf_filled _ _ _ _⟩
  · exact ⟨newLeaf_filled _ _ _ _, h⟩

theorem grows_filled {p : Params K} {ω : Nat → K} {fresh : Option (Nat × Nat)} {x : Fin F → K} {label : Fin L} {t t' : Mondrian.Tree K F L} {ptau : K} {pos pos' : Nat}
    (h : Grows p ω fresh x label t ptau pos t' pos') : Filled t → Filled t' := by
  induction h with
  | above hc hf => exact fun ht => above_filled _ _ _ ht _ _
  | leaf hd hf => exact fun _ => ⟨label, by simp [bump]⟩
  | left hd hf hx hg ih => exact fun ht => ⟨ih ht.1, ht.2⟩
  | right hd hf hx hg ih => exact fun ht => ⟨ht.1, ih ht.2⟩

theorem grows_times {p : Params K} {ω : Nat → K} {fresh : Option (Nat × Nat)} {x : Fin F → K} {label : Fin L} {t t' : Mondrian.Tree K F L} {ptau : K} {pos pos' : Nat}
    (h : Grows p ω fresh x label t ptau pos t' pos') : Times (· ≤ ·) p.lifetime ptau t → Times (· ≤ ·) p.lifetime ptau t' := by
  induction h with
  | above hc hf => exact fun ht => above_times (fun a b h => h.le) _ x label ht (draw_any hc).1 (draw_any hc).2
  | leaf hd hf => exact fun ht => ht
  | left hd hf hx hg ih => exact fun ht => ⟨ht.1, ht.2.1, ih ht.2.2.1, ht.2.2.2⟩
  | right hd hf hx hg ih => exact fun ht => ⟨ht.1, ht.2.1, ht.2.2.1, ih ht.2.2.2⟩

/-- what is true of a tree whatever the random numbers are -/
def Sound (life : K) : Option (Mondrian.Tree K F L) → Prop
  | none => True
  | some t => Filled t ∧ Times (· ≤ ·) life 0 t

theorem Step.sound {p : Params K} {ω : Nat → K} {z : Point K F L} {o o' : Option (Mondrian.Tree K F L)} (h : Step p ω z o o') (ho : Sound p.lifetime o) :
    Sound p.lifetime o' := by
  obtain ⟨o1, h1, rfl⟩ := h
  cases o with
  | none =>
      obtain ⟨id, rfl⟩ := h1
      exact ⟨(newLeaf_filled _ _ _ _).recount, rfl⟩
  | some t =>
      obtain ⟨fresh, pos, t', pos', hg, rfl⟩ := h1
      exact ⟨(grows_filled hg ho.1).recount, recount_times (grows_times hg ho.2)⟩

/-- With positive random numbers up to 1 a tree can always grow. -/
theorem grow_closed (p : Params K) (ω : Nat → K) (hω : ∀ i, 0 < ω i ∧ ω i ≤ 1) (fresh : Option (Nat × Nat)) (x : Fin F → K) (label : Fin L) :
    ∀ (t : Mondrian.Tree K F L) (ptau : K) (pos : Nat), ∃ r, grow p ω fresh x label t ptau pos = .ok r
  | .leaf id d, ptau, pos => by
      obtain ⟨⟨c, pos1⟩, hd⟩ := draw_closed p ω hω x pos d.box ptau d.tau trivial trivial trivial
      unfold grow
      simp only [hd]
      split <;> exact ⟨_, rfl⟩
  | .node id d dim sp l r, ptau, pos => by
      obtain ⟨⟨c, pos1⟩, hd⟩ := draw_closed p ω hω x pos d.box ptau d.tau trivial trivial trivial
      unfold grow
      simp only [hd]
      obtain ⟨⟨l', pl⟩, hl⟩ := grow_closed p ω hω fresh x label l d.tau pos1
      obtain ⟨⟨r', pr⟩, hr⟩ := grow_closed p ω hω fresh x label r d.tau pos1
      split
      · exact ⟨_, rfl⟩
      · simp only [hl, hr]; split <;> exact ⟨_, rfl⟩

theorem idealLoop_closed (p : Params K) (ω : Nat → K) (hω : ∀ i, 0 < ω i ∧ ω i ≤ 1) (x : Fin F → K) (label : Fin L) :
    ∀ (k i : Nat) (cs : List (Option (Mondrian.Tree K F L))) (pos : Nat), ∃ r, idealLoop p ω x label i k cs pos = .ok r
  | 0, i, cs, pos => ⟨_, rfl⟩
  | k + 1, i, cs, pos => by
      have : ∀ o : Option (Mondrian.Tree K F L), ∃ r, idealTree p ω x label o pos = .ok r := by
        intro o
        cases o with
        | none => exact ⟨_, rfl⟩
        | some t =>
            obtain ⟨r, hr⟩ := grow_closed p ω hω (some (0, 0)) x label t 0 pos
            exact ⟨_, by unfold idealTree; simp only [hr, Except.map]; rfl⟩
      obtain ⟨r, hr⟩ := this (cs[i]?).join
      unfold idealLoop
      rw [hr]
      exact idealLoop_closed p ω hω x label k (i + 1) _ _

theorem run_closed (p : Params K) (h0 : p.exp 0 = 1) (hdisc : 0 ≤ p.discount) (ω : Nat → K) (hω : ∀ i, 0 < ω i ∧ ω i ≤ 1) (n : Nat) (hn : 0 < n)
    (ops : List (Op K F L)) (pos : Nat) :
    ∃ s pos' trees, run p ω ops (new n) pos = .ok (s, pos') ∧ Inv s trees ∧ trees.length = n ∧ ∀ o ∈ trees, Sound p.lifetime o := by
  induction ops using List.reverseRecOn with
  | nil => exact ⟨_, _, _, rfl, inv_new n, by simp, fun o ho => by rw [List.eq_of_mem_replicate ho]; trivial⟩
  | append_singleton ops op ih =>
      obtain ⟨s, pos1, trees, hq, a1, a2, a3⟩ := ih
      rw [run_snoc, hq]
      simp only [Except.bind]
      cases op with
      | train x l =>
          have h1 := trainLoop_ideal p ω (fun i => (hω i).2) x l n 0 s trees pos1 none (by omega) a1
          obtain ⟨u, hu⟩ := idealLoop_closed p ω hω x l n 0 (contents trees) pos1
          rw [hu] at h1
          obtain ⟨s', trees', e1, e2, -, -, e5, e6⟩ := h1
          simp only [exec, train, a1.roots_length, a2, e1, bind, Except.bind, pure, Except.pure]
          refine ⟨_, _, trees', rfl, e2.points _, e5.trans a2, fun o ho => ?_⟩
          obtain ⟨j, hj⟩ := List.mem_iff_getElem?.1 ho
          have hjlt : j < trees.length := by rw [← e5]; exact lt_of_get hj
          obtain ⟨o', c1, -, c3⟩ := e6 j _ (List.getElem?_eq_getElem hjlt)
          rw [hj] at c1
          have := Option.some.inj c1
          subst this
          exact (c3 (Nat.zero_le _)).sound (a3 _ (List.getElem_mem hjlt))
      | predict x =>
          obtain ⟨u, hu⟩ := label_ok p h0 hdisc x trees (by omega) (fun t ht => by
            have := (a3 _ ht).1.positive
            rwa [a1.right t ht] at this)
          simp only [exec, a1.predict_eq p x, hu, bind, Except.bind, pure, Except.pure]
          exact ⟨_, _, trees, rfl, a1, a2, a3⟩

/-- **C163** With random numbers that are positive and at most 1, no history of training and predictions of the unbounded forest has undefined behaviour: the nodes on
the heap make up the trees, split times are between 0 and `lifetime` and do not decrease on the way down, `predict` returns a label in range, and the destructor frees every
node once. -/
theorem C163_unbound (p : Params K) (h0 : p.exp 0 = 1) (hdisc : 0 ≤ p.discount) (ω : Nat → K) (hω : ∀ i, 0 < ω i ∧ ω i ≤ 1) (hL : 0 < L) (n : Nat) (hn : 0 < n)
    (ops : List (Op K F L)) (pos : Nat) :
    ∃ (s : Forest K F L) (pos' : Nat) (trees : List (Option (Mondrian.Tree K F L))), run p ω ops (new n) pos = .ok (s, pos') ∧ trees.length = n ∧
      HoldsAll { nodes := s.heap, roots := s.roots } trees ∧ List.Perm (allIds trees) (List.range s.heap.length) ∧
      (∀ t, some t ∈ trees → Times (· ≤ ·) p.lifetime 0 t) ∧ (∀ x, ∃ l < L, predict p s x = .ok l) ∧
      ∃ freed, destroy s s.roots [] = .ok freed ∧ List.Perm freed (List.range s.heap.length) := by
  obtain ⟨s, pos', trees, h1, a1, a2, a3⟩ := run_closed p h0 hdisc ω hω n hn ops pos
  refine ⟨s, pos', trees, h1, a2, a1.all, a1.cover, fun t ht => (a3 _ ht).2, fun x => ?_, ?_⟩
  · obtain ⟨u, hu⟩ := label_ok p h0 hdisc x trees (by omega) (fun t ht => by
      have := (a3 _ ht).1.positive
      rwa [a1.right t ht] at this)
    exact ⟨u, label_lt hL hu, (a1.predict_eq p x).trans hu⟩
  · obtain ⟨out, o1, o2⟩ := destroy_spec a1.bare trees [] (fun t ht => by
      obtain ⟨j, hj⟩ := List.mem_iff_getElem?.1 ht
      exact ⟨a1.all.holds t ht, a1.height_le hj⟩) a1.all.nodup (by simp)
    rw [List.append_nil] at o2
    have hr : s.roots = trees.map (fun t => t.map Mondrian.Tree.id) := a1.all.roots
    exact ⟨out, hr ▸ o1, o2.trans a1.cover⟩

/-- the hypotheses are met by random numbers of which one is 1 -/
example : exP.exp 0 = 1 ∧ 0 ≤ exP.discount ∧ ∀ i, 0 < oneω [2] i ∧ oneω [2] i ≤ 1 := by
  refine ⟨by decide +kernel, by decide +kernel, fun i => ?_⟩
  unfold oneω
  split <;> norm_num

end Orp.Unbound
