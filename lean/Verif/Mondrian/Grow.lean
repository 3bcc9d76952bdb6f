import Verif.Mondrian.Spec
import Verif.Utils.Props

/-!
The effect of `extend_block` on trees, and the proof that it keeps a tree right.
-/

set_option linter.unusedSectionVars false

namespace Orp.Mondrian

open Finset

variable {K : Type} [Field K] [LinearOrder K] [IsStrictOrderedRing K] [FloorRing K] {F L : Nat}

/-! ### The random choices -/

theorem extent_nonneg (b : Box K F) (x : Fin F → K) (i : Fin F) : 0 ≤ extent b x i := by
  unfold extent; split <;> split <;> linarith

theorem extent_pos {b : Box K F} {x : Fin F → K} {i : Fin F} (h : 0 < extent b x i) : b.upper i < x i ∨ x i < b.lower i := by
  unfold extent at h
  split at h
  · right; linarith
  · split at h
    · left; linarith
    · simp at h

theorem sum_nonneg' (b : Box K F) (x : Fin F → K) : 0 ≤ ∑ i, extent b x i := Finset.sum_nonneg fun i _ => extent_nonneg b x i

/-- the sum is zero exactly for the points of the box -/
theorem sum_eq_zero_iff (b : Box K F) (x : Fin F → K) : ∑ i, extent b x i = 0 ↔ ∀ i, b.lower i ≤ x i ∧ x i ≤ b.upper i := by
  rw [Finset.sum_eq_zero_iff_of_nonneg fun i _ => extent_nonneg b x i]
  constructor
  · intro h i
    have := h i (mem_univ i)
    unfold extent at this
    split at this
    · split at this <;> linarith
    · split at this
      · linarith
      · constructor <;> linarith
  · intro h i _
    have := h i
    unfold extent
    rw [if_neg (by linarith), if_neg (by linarith)]; ring

/-- With a positive random number below one, the dimension picked is one where the point is outside the box. -/
theorem pickDim_ok (ω : Nat → K) (pos : Nat) (e : Fin F → K) (he : ∀ i, 0 ≤ e i) (hs : 0 < ∑ i, e i) (h0 : 0 < ω pos) (h1 : ω pos < 1) :
    ∃ d : Fin F, pickDim ω pos e (∑ i, e i) = .ok (d, pos + 1) ∧ 0 < e d := by
  have hsum : (List.ofFn e).sum = ∑ i, e i := by rw [List.sum_ofFn]
  obtain ⟨r, a1, a2, a3, a4, a5, a6, a7⟩ := Utils.C29_cumulative (List.ofFn e) (by simpa [List.mem_ofFn] using he) (by rw [hsum]; exact hs)
  have a1' : Utils.turnIntoProbability (List.ofFn e) (∑ i, e i) = .ok r := by
    rw [← a1]
    unfold Utils.turnIntoProbability
    rw [if_neg (not_lt.2 hs.le), if_pos (by norm_num), Utils.foldl_add, zero_add, hsum]
  obtain ⟨b1, b2⟩ := Utils.C30_first_index_partial r a5 a7 h1
  have hlen : r.length = F := by rw [a2]; simp
  have hd : Utils.pick r (ω pos) < F := by omega
  refine ⟨⟨_, hd⟩, ?_, ?_⟩
  · simp only [pickDim, a1', bind, Except.bind, hd, dif_pos, pure, Except.pure]
  · by_contra hneg
    have hz : e ⟨_, hd⟩ = 0 := le_antisymm (not_lt.1 hneg) (he _)
    refine Utils.C30_no_zero_probability_partial r a5 a7 h0 h1 _ b1 ?_ rfl
    by_cases h : 1 ≤ Utils.pick r (ω pos)
    · rw [dif_pos h]
      obtain ⟨m, hm⟩ : ∃ m, Utils.pick r (ω pos) = m + 1 := ⟨_, (Nat.sub_add_cancel h).symm⟩
      have h6 := a6 m (by omega) (by rw [List.length_ofFn]; omega)
      simp only [hm, Nat.add_sub_cancel]
      rw [h6]
      simp only [List.getElem_ofFn]
      simp only [hm] at hz
      rw [hz, zero_div]
    · rw [dif_neg h]
      have hm : Utils.pick r (ω pos) = 0 := by omega
      simp only [hm]
      rw [a3 0 (by omega)]
      have : (List.ofFn e).take 1 = [e ⟨0, by omega⟩] := by
        rw [List.take_one, List.head?_eq_getElem?, List.getElem?_ofFn]
        simp [show 0 < F by omega]
      rw [this]
      simp only [hm] at hz
      simp [hz]

/-- what is known of a cut of a box -/
structure Cut.Ok (c : Cut K F) (b : Box K F) (x : Fin F → K) : Prop where
  sides : (c.right = true ∧ b.upper c.dim ≤ c.split ∧ c.split < x c.dim) ∨ (c.right = false ∧ x c.dim ≤ c.split ∧ c.split < b.lower c.dim)

theorem cutAt_spec {ω : Nat → K} {pos : Nat} {b : Box K F} {x : Fin F → K} {dim : Fin F} {tau : K} {c : Cut K F} {pos' : Nat}
    (h0 : 0 ≤ ω pos) (h1 : ω pos < 1) (h : cutAt ω pos b x dim tau = .ok (c, pos')) : c.Ok b x ∧ c.tau = tau ∧ pos' = pos + 1 := by
  unfold cutAt at h
  by_cases hu : b.upper dim < x dim
  · simp only [if_pos hu, bind, Except.bind, pure, Except.pure, Except.ok.injEq, Prod.mk.injEq] at h
    obtain ⟨rfl, rfl⟩ := h
    refine ⟨⟨Or.inl ⟨by simp, ?_, ?_⟩⟩, rfl, rfl⟩
    · show b.upper dim ≤ ω pos * (x dim - b.upper dim) + b.upper dim
      nlinarith
    · show ω pos * (x dim - b.upper dim) + b.upper dim < x dim
      nlinarith
  · by_cases hl : x dim < b.lower dim
    · simp only [if_neg hu, if_pos hl, bind, Except.bind, pure, Except.pure, Except.ok.injEq, Prod.mk.injEq] at h
      obtain ⟨rfl, rfl⟩ := h
      refine ⟨⟨Or.inr ⟨by simpa using hl.ne, ?_, ?_⟩⟩, rfl, rfl⟩
      · show x dim ≤ ω pos * (b.lower dim - x dim) + x dim
        nlinarith
      · show ω pos * (b.lower dim - x dim) + x dim < b.lower dim
        nlinarith
    · simp [if_neg hu, if_neg hl, bind, Except.bind] at h

theorem cutAt_ok (ω : Nat → K) (pos : Nat) {b : Box K F} {x : Fin F → K} {dim : Fin F} (tau : K) (h : b.upper dim < x dim ∨ x dim < b.lower dim) :
    ∃ c, cutAt ω pos b x dim tau = .ok (c, pos + 1) := by
  unfold cutAt
  by_cases hu : b.upper dim < x dim
  · simp [if_pos hu, bind, Except.bind, pure, Except.pure]
  · have hl := h.resolve_left hu
    simp [if_neg hu, if_pos hl, bind, Except.bind, pure, Except.pure]

/-- The cut is between the box and the point, and its time between that of the parent and that of the node. -/
theorem draw_spec {p : Params K} {ω : Nat → K} {pos : Nat} {b : Box K F} {x : Fin F → K} {ptau tau : K} {c : Cut K F} {pos' : Nat}
    (hω : ∀ i, 0 ≤ ω i ∧ ω i < 1) (h : draw p ω pos b x ptau tau = .ok (some c, pos')) : c.Ok b x ∧ ptau ≤ c.tau ∧ c.tau < tau ∧
      (p.log (1 - ω pos) < 0 → ptau < c.tau) := by
  unfold draw at h
  simp only at h
  by_cases hs : ∑ i, extent b x i = 0
  · rw [if_pos hs] at h; simp at h
  · have hs' : 0 < ∑ i, extent b x i := lt_of_le_of_ne (sum_nonneg' b x) (Ne.symm hs)
    rw [if_neg hs] at h
    by_cases he : 0 ≤ p.log (1 - ω pos) / (-∑ i, extent b x i) ∧ ptau + p.log (1 - ω pos) / (-∑ i, extent b x i) < tau
    · rw [if_pos he] at h
      cases hd : pickDim ω (pos + 1) (extent b x) (∑ i, extent b x i) with
      | error y => simp [hd, bind, Except.bind] at h
      | ok q =>
        obtain ⟨d, pos1⟩ := q
        simp only [hd, bind, Except.bind] at h
        cases hc : cutAt ω pos1 b x d (ptau + p.log (1 - ω pos) / (-∑ i, extent b x i)) with
        | error y => simp [hc] at h
        | ok q =>
          obtain ⟨c', pos2⟩ := q
          simp only [hc, pure, Except.pure, Except.ok.injEq, Prod.mk.injEq, Option.some.injEq] at h
          obtain ⟨rfl, rfl⟩ := h
          obtain ⟨a1, a2, a3⟩ := cutAt_spec (hω pos1).1 (hω pos1).2 hc
          refine ⟨a1, by rw [a2]; linarith [he.1], by rw [a2]; exact he.2, fun hl => ?_⟩
          have : 0 < p.log (1 - ω pos) / (-∑ i, extent b x i) := div_pos_of_neg_of_neg hl (by linarith)
          rw [a2]; linarith
    · rw [if_neg he] at h; simp at h

/-- With positive random numbers nothing uninitialised is read. -/
theorem draw_ok (p : Params K) (ω : Nat → K) (pos : Nat) (b : Box K F) (x : Fin F → K) (ptau tau : K) (hω : ∀ i, 0 < ω i ∧ ω i < 1) :
    ∃ r, draw p ω pos b x ptau tau = .ok r := by
  unfold draw
  simp only
  by_cases hs : ∑ i, extent b x i = 0
  · exact ⟨_, by rw [if_pos hs]⟩
  · have hs' : 0 < ∑ i, extent b x i := lt_of_le_of_ne (sum_nonneg' b x) (Ne.symm hs)
    rw [if_neg hs]
    split
    · obtain ⟨d, a1, a2⟩ := pickDim_ok ω (pos + 1) (extent b x) (extent_nonneg b x) hs' (hω _).1 (hω _).2
      obtain ⟨c, c1⟩ := cutAt_ok ω (pos + 1 + 1) (ptau + p.log (1 - ω pos) / (-∑ i, extent b x i)) (extent_pos a2)
      exact ⟨_, by simp only [a1, c1, bind, Except.bind, pure, Except.pure]; rfl⟩
    · exact ⟨_, rfl⟩

/-! ### Growing a tree -/

/-- the box of one point -/
def Box.point (x : Fin F → K) : Box K F := { lower := x, upper := x }

/-- a new leaf -/
def newLeaf (lifetime : K) (id : Nat) (x : Fin F → K) (label : Fin L) : Tree K F L :=
  .leaf id { tau := lifetime, box := Box.point x, counts := bump (fun _ => 0) label }

/-- the tree with a new node above it -/
def above (lifetime : K) (fresh : Nat × Nat) (c : Cut K F) (t : Tree K F L) (x : Fin F → K) (label : Fin L) : Tree K F L :=
  let d : Data K F L := { tau := c.tau, box := t.data.box.extend x, counts := fun _ => 0 }
  if c.right then .node fresh.1 d c.dim c.split t (newLeaf lifetime fresh.2 x label)
  else .node fresh.1 d c.dim c.split (newLeaf lifetime fresh.2 x label) t

/-- the cut and the places, if there are both -/
def both {α β : Type} : Option α → Option β → Option (α × β)
  | some a, some b => some (a, b)
  | _, _ => none

theorem both_some {α β : Type} {a : Option α} {b : Option β} {q : α × β} (h : both a b = some q) : a = some q.1 ∧ b = some q.2 := by
  cases a <;> cases b <;> simp [both] at h
  subst h; exact ⟨rfl, rfl⟩

/-- `extend_block` on trees; `fresh` are the places of two new nodes, if there are -/
def grow (p : Params K) (ω : Nat → K) (fresh : Option (Nat × Nat)) (x : Fin F → K) (label : Fin L) : Tree K F L → K → Nat → Res (Tree K F L × Nat)
  | .leaf id d, ptau, pos =>
      match draw p ω pos d.box x ptau d.tau with
      | .error e => .error e
      | .ok (c, pos) =>
        match both c fresh with
        | some (c, f) => .ok (above p.lifetime f c (.leaf id d) x label, pos)
        | none => .ok (.leaf id { tau := d.tau, box := d.box.extend x, counts := bump d.counts label }, pos)
  | .node id d dim sp l r, ptau, pos =>
      match draw p ω pos d.box x ptau d.tau with
      | .error e => .error e
      | .ok (c, pos) =>
        match both c fresh with
        | some (c, f) => .ok (above p.lifetime f c (.node id d dim sp l r) x label, pos)
        | none =>
          if x dim ≤ sp then
            match grow p ω fresh x label l d.tau pos with
            | .error e => .error e
            | .ok (l, pos) => .ok (.node id { tau := d.tau, box := d.box.extend x, counts := d.counts } dim sp l r, pos)
          else
            match grow p ω fresh x label r d.tau pos with
            | .error e => .error e
            | .ok (r, pos) => .ok (.node id { tau := d.tau, box := d.box.extend x, counts := d.counts } dim sp l r, pos)

/-- how a tree grows -/
inductive Grows (p : Params K) (ω : Nat → K) (fresh : Option (Nat × Nat)) (x : Fin F → K) (label : Fin L) :
    Tree K F L → K → Nat → Tree K F L → Nat → Prop where
  | above {t : Tree K F L} {ptau : K} {pos pos' : Nat} {c : Cut K F} {f : Nat × Nat} (hd : draw p ω pos t.data.box x ptau t.data.tau = .ok (some c, pos'))
      (hf : fresh = some f) : Grows p ω fresh x label t ptau pos (above p.lifetime f c t x label) pos'
  | leaf {id : Nat} {d : Data K F L} {ptau : K} {pos pos' : Nat} {c : Option (Cut K F)} (hd : draw p ω pos d.box x ptau d.tau = .ok (c, pos'))
      (hf : both c fresh = none) :
      Grows p ω fresh x label (.leaf id d) ptau pos (.leaf id { tau := d.tau, box := d.box.extend x, counts := bump d.counts label }) pos'
  | left {id : Nat} {d : Data K F L} {ptau : K} {pos pos' pos'' : Nat} {c : Option (Cut K F)} {dim : Fin F} {sp : K} {l l' r : Tree K F L}
      (hd : draw p ω pos d.box x ptau d.tau = .ok (c, pos')) (hf : both c fresh = none) (hx : x dim ≤ sp)
      (hg : Grows p ω fresh x label l d.tau pos' l' pos'') :
      Grows p ω fresh x label (.node id d dim sp l r) ptau pos (.node id { tau := d.tau, box := d.box.extend x, counts := d.counts } dim sp l' r) pos''
  | right {id : Nat} {d : Data K F L} {ptau : K} {pos pos' pos'' : Nat} {c : Option (Cut K F)} {dim : Fin F} {sp : K} {l r r' : Tree K F L}
      (hd : draw p ω pos d.box x ptau d.tau = .ok (c, pos')) (hf : both c fresh = none) (hx : ¬ x dim ≤ sp)
      (hg : Grows p ω fresh x label r d.tau pos' r' pos'') :
      Grows p ω fresh x label (.node id d dim sp l r) ptau pos (.node id { tau := d.tau, box := d.box.extend x, counts := d.counts } dim sp l r') pos''

theorem grow_grows (p : Params K) (ω : Nat → K) (fresh : Option (Nat × Nat)) (x : Fin F → K) (label : Fin L) :
    ∀ (t : Tree K F L) (ptau : K) (pos : Nat) (t' : Tree K F L) (pos' : Nat), grow p ω fresh x label t ptau pos = .ok (t', pos') →
      Grows p ω fresh x label t ptau pos t' pos'
  | .leaf id d, ptau, pos, t', pos', h => by
      unfold grow at h
      cases hd : draw p ω pos d.box x ptau d.tau with
      | error e => simp [hd] at h
      | ok q =>
        obtain ⟨c, pos1⟩ := q
        cases hb : both c fresh with
        | none =>
          simp only [hd, hb, Except.ok.injEq, Prod.mk.injEq] at h
          obtain ⟨rfl, rfl⟩ := h
          exact .leaf hd hb
        | some q =>
          simp only [hd, hb, Except.ok.injEq, Prod.mk.injEq] at h
          obtain ⟨rfl, rfl⟩ := h
          obtain ⟨rfl, hf⟩ := both_some hb
          exact .above hd hf
  | .node id d dim sp l r, ptau, pos, t', pos', h => by
      unfold grow at h
      cases hd : draw p ω pos d.box x ptau d.tau with
      | error e => simp [hd] at h
      | ok q =>
        obtain ⟨c, pos1⟩ := q
        cases hb : both c fresh with
        | some q =>
          simp only [hd, hb, Except.ok.injEq, Prod.mk.injEq] at h
          obtain ⟨rfl, rfl⟩ := h
          obtain ⟨rfl, hf⟩ := both_some hb
          exact .above hd hf
        | none =>
          simp only [hd, hb] at h
          by_cases hx : x dim ≤ sp
          · rw [if_pos hx] at h
            cases hg : grow p ω fresh x label l d.tau pos1 with
            | error e => simp [hg] at h
            | ok q =>
              obtain ⟨l', pos2⟩ := q
              simp only [hg, Except.ok.injEq, Prod.mk.injEq] at h
              obtain ⟨rfl, rfl⟩ := h
              exact .left hd hb hx (grow_grows p ω fresh x label l _ _ _ _ hg)
          · rw [if_neg hx] at h
            cases hg : grow p ω fresh x label r d.tau pos1 with
            | error e => simp [hg] at h
            | ok q =>
              obtain ⟨r', pos2⟩ := q
              simp only [hg, Except.ok.injEq, Prod.mk.injEq] at h
              obtain ⟨rfl, rfl⟩ := h
              exact .right hd hb hx (grow_grows p ω fresh x label r _ _ _ _ hg)

/-! ### Right trees -/

theorem Right.hull : ∀ {t : Tree K F L} {pts : List (Point K F L)}, Right pts t → IsHull pts t.data.box
  | .leaf _ _, _, h => h.2.1
  | .node _ _ _ _ _ _, _, h => h.1

theorem Right.ne_nil : ∀ {t : Tree K F L} {pts : List (Point K F L)}, Right pts t → pts ≠ []
  | .leaf _ _, _, h => h.1
  | .node _ _ _ _ l _, _, h => by rintro rfl; exact h.2.1.ne_nil rfl

theorem IsHull.extend {pts : List (Point K F L)} {b : Box K F} (h : IsHull pts b) (z : Point K F L) : IsHull (pts ++ [z]) (b.extend z.1) := by
  constructor
  · intro w hw i
    simp only [Box.extend]
    rcases List.mem_append.1 hw with hw | hw
    · obtain ⟨a, c⟩ := h.1 w hw i
      constructor <;> split <;> linarith
    · rw [List.mem_singleton.1 hw]
      constructor <;> split <;> linarith
  · intro i
    simp only [Box.extend]
    obtain ⟨⟨w, hw, ew⟩, ⟨v, hv, ev⟩⟩ := h.2 i
    constructor
    · split
      · exact ⟨z, by simp, rfl⟩
      · exact ⟨w, by simp [hw], ew⟩
    · split
      · exact ⟨z, by simp, rfl⟩
      · exact ⟨v, by simp [hv], ev⟩

theorem histogram_append (pts : List (Point K F L)) (z : Point K F L) : histogram (pts ++ [z]) = bump (histogram pts) z.2 := by
  funext l
  simp only [histogram, List.countP_append, bump, Function.update_apply]
  by_cases h : l = z.2
  · subst h; simp
  · rw [if_neg h]; simp [Ne.symm h]

theorem newLeaf_right (lifetime : K) (id : Nat) (z : Point K F L) : Right [z] (newLeaf lifetime id z.1 z.2) := by
  refine ⟨by simp, ⟨fun w hw i => ?_, fun i => ⟨⟨z, by simp, rfl⟩, ⟨z, by simp, rfl⟩⟩⟩, ?_⟩
  · rw [List.mem_singleton.1 hw]; exact ⟨le_rfl, le_rfl⟩
  · exact (histogram_append [] z).symm

theorem above_right (lifetime : K) (fresh : Nat × Nat) {c : Cut K F} {t : Tree K F L} {pts : List (Point K F L)} (z : Point K F L)
    (h : Right pts t) (hc : c.Ok t.data.box z.1) : Right (pts ++ [z]) (above lifetime fresh c t z.1 z.2) := by
  have hb := h.hull
  unfold above
  simp only
  rcases hc.sides with ⟨h1, h2, h3⟩ | ⟨h1, h2, h3⟩
  · rw [h1, if_pos rfl]
    refine ⟨hb.extend z, ?_, ?_⟩
    · rw [List.filter_append, List.filter_eq_self.2, List.filter_cons_of_neg, List.filter_nil, List.append_nil]
      · exact h
      · simpa using h3
      · intro w hw
        simpa using (hb.1 w hw c.dim).2.trans h2
    · rw [List.filter_append, List.filter_eq_nil_iff.2, List.filter_cons_of_pos, List.filter_nil, List.nil_append]
      · exact newLeaf_right _ _ z
      · simpa using h3
      · intro w hw
        simpa using (hb.1 w hw c.dim).2.trans h2
  · rw [h1, if_neg (by simp)]
    refine ⟨hb.extend z, ?_, ?_⟩
    · rw [List.filter_append, List.filter_eq_nil_iff.2, List.filter_cons_of_pos, List.filter_nil, List.nil_append]
      · exact newLeaf_right _ _ z
      · simpa using h2
      · intro w hw
        simpa using lt_of_lt_of_le h3 (hb.1 w hw c.dim).1
    · rw [List.filter_append, List.filter_eq_self.2, List.filter_cons_of_neg, List.filter_nil, List.append_nil]
      · exact h
      · simpa using h2
      · intro w hw
        simpa using lt_of_lt_of_le h3 (hb.1 w hw c.dim).1

/-- A tree that is right stays right. -/
theorem Grows.right_tree {p : Params K} {ω : Nat → K} (hω : ∀ i, 0 ≤ ω i ∧ ω i < 1) {fresh : Option (Nat × Nat)} {z : Point K F L}
    {t : Tree K F L} {ptau : K} {pos : Nat} {t' : Tree K F L} {pos' : Nat} (h : Grows p ω fresh z.1 z.2 t ptau pos t' pos') :
    ∀ {pts : List (Point K F L)}, Right pts t → Right (pts ++ [z]) t' := by
  induction h with
  | above hd hf => intro pts hr; exact above_right _ _ z hr (draw_spec hω hd).1
  | leaf hd hf =>
      intro pts hr
      refine ⟨by simp, hr.2.1.extend z, ?_⟩
      rw [histogram_append, ← hr.2.2]
  | left hd hf hx hg ih =>
      intro pts hr
      refine ⟨hr.1.extend z, ?_, ?_⟩
      · rw [List.filter_append, List.filter_cons_of_pos (by simpa using hx), List.filter_nil]
        exact ih hr.2.1
      · rw [List.filter_append, List.filter_cons_of_neg (by simpa using hx), List.filter_nil, List.append_nil]
        exact hr.2.2
  | right hd hf hx hg ih =>
      intro pts hr
      refine ⟨hr.1.extend z, ?_, ?_⟩
      · rw [List.filter_append, List.filter_cons_of_neg (by simpa using hx), List.filter_nil, List.append_nil]
        exact hr.2.1
      · rw [List.filter_append, List.filter_cons_of_pos (by simpa using hx), List.filter_nil]
        exact ih hr.2.2

/-! ### Times -/

theorem Times.tau_le {R : K → K → Prop} {lifetime ptau : K} : ∀ {t : Tree K F L}, Times R lifetime ptau t → t.data.tau ≤ lifetime
  | .leaf _ _, h => le_of_eq h
  | .node _ _ _ _ _ _, h => h.2.1.le

theorem Times.above {R : K → K → Prop} {lifetime ptau tau : K} : ∀ {t : Tree K F L}, Times R lifetime ptau t → R tau t.data.tau → Times R lifetime tau t
  | .leaf _ _, h, _ => h
  | .node _ _ _ _ _ _, h, h' => ⟨h', h.2⟩

theorem above_times {R : K → K → Prop} (hR : ∀ a b, a < b → R a b) {lifetime ptau : K} (fresh : Nat × Nat) {c : Cut K F} {t : Tree K F L}
    (x : Fin F → K) (label : Fin L) (h : Times R lifetime ptau t) (h1 : R ptau c.tau) (h2 : c.tau < t.data.tau) :
    Times R lifetime ptau (above lifetime fresh c t x label) := by
  unfold above
  simp only
  have := h.tau_le
  split
  · exact ⟨h1, lt_of_lt_of_le h2 this, h.above (hR _ _ h2), rfl⟩
  · exact ⟨h1, lt_of_lt_of_le h2 this, rfl, h.above (hR _ _ h2)⟩

theorem Grows.times {p : Params K} {ω : Nat → K} {fresh : Option (Nat × Nat)} {x : Fin F → K} {label : Fin L} {R : K → K → Prop}
    (hR : ∀ a b, a < b → R a b) (hω : ∀ i, 0 ≤ ω i ∧ ω i < 1) (hd : ∀ (pos : Nat) (b : Box K F) (ptau tau : K) (c : Cut K F) (pos' : Nat),
      draw p ω pos b x ptau tau = .ok (some c, pos') → R ptau c.tau)
    {t : Tree K F L} {ptau : K} {pos : Nat} {t' : Tree K F L} {pos' : Nat} (h : Grows p ω fresh x label t ptau pos t' pos') :
    Times R p.lifetime ptau t → Times R p.lifetime ptau t' := by
  induction h with
  | above hc hf => intro ht; exact above_times hR _ x label ht (hd _ _ _ _ _ _ hc) (draw_spec hω hc).2.2.1
  | leaf hd hf => intro ht; exact ht
  | left hd hf hx hg ih => intro ht; exact ⟨ht.1, ht.2.1, ih ht.2.2.1, ht.2.2.2⟩
  | right hd hf hx hg ih => intro ht; exact ⟨ht.1, ht.2.1, ht.2.2.1, ih ht.2.2.2⟩

/-- With positive random numbers a tree can always grow. -/
theorem grow_ok (p : Params K) (ω : Nat → K) (hω : ∀ i, 0 < ω i ∧ ω i < 1) (fresh : Option (Nat × Nat)) (x : Fin F → K) (label : Fin L) :
    ∀ (t : Tree K F L) (ptau : K) (pos : Nat), ∃ r, grow p ω fresh x label t ptau pos = .ok r
  | .leaf id d, ptau, pos => by
      obtain ⟨⟨c, pos1⟩, hd⟩ := draw_ok p ω pos d.box x ptau d.tau hω
      unfold grow
      simp only [hd]
      split <;> exact ⟨_, rfl⟩
  | .node id d dim sp l r, ptau, pos => by
      obtain ⟨⟨c, pos1⟩, hd⟩ := draw_ok p ω pos d.box x ptau d.tau hω
      unfold grow
      simp only [hd]
      obtain ⟨⟨l', pl⟩, hl⟩ := grow_ok p ω hω fresh x label l d.tau pos1
      obtain ⟨⟨r', pr⟩, hr⟩ := grow_ok p ω hω fresh x label r d.tau pos1
      split
      · exact ⟨_, rfl⟩
      · simp only [hl, hr]; split <;> exact ⟨_, rfl⟩

end Orp.Mondrian
