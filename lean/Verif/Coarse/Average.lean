import Verif.Coarse.SplitProps

/-!
Where `SPLIT_HELPER_AVG` splits: between the average of the training points and the new point.
-/

set_option linter.unusedSectionVars false

namespace Orp.Coarse

open Finset
open Mondrian (Node Box Forest Params Tree Data newLeaf HoldsAll exω)

variable {K : Type} [Field K] [LinearOrder K] [IsStrictOrderedRing K] [FloorRing K] {F L : Nat}

/-! ### Specification -/

/-- The splits of a tree: dimension and value -/
def cuts : Tree K F L → List (Fin F × K)
  | .leaf _ _ => []
  | .node _ _ dim v l r => (dim, v) :: (cuts l ++ cuts r)

/-- The boxes of the nodes of a tree -/
def boxesOf : Tree K F L → List (Box K F)
  | .leaf _ d => [d.box]
  | .node _ d _ _ l r => d.box :: (boxesOf l ++ boxesOf r)

/-- The sum of numbers given latest first, in which each number weighs `γ` times as much as the one that came after it -/
def fadedSum (γ : K) : List K → K
  | [] => 0
  | y :: ys => y + γ * fadedSum γ ys

/-- The average of points given latest first, older points fading by the factor `γ` -/
def average (γ : K) (ys : List (Fin F → K)) (i : Fin F) : K := fadedSum γ (ys.map (fun y => y i)) / fadedSum γ (ys.map (fun _ => 1))

/-- The value lies strictly between `a` and `b` -/
def Between (a v b : K) : Prop := min a b < v ∧ v < max a b

/-! ### Lemmas -/

/-- The training points of a history, latest first -/
def latest (ops : List (Op K F L)) : List (Fin F → K) := ((points ops).map Prod.fst).reverse

theorem latest_snoc (ops : List (Op K F L)) (op : Op K F L) : latest (ops ++ [op]) = latest [op] ++ latest ops := by
  unfold latest
  rw [points_snoc, List.map_append, List.reverse_append]

theorem data_box_mem (t : Tree K F L) : t.data.box ∈ boxesOf t := by cases t <;> simp [boxesOf, Mondrian.Tree.data]

/-- The splits after training: those from before, and perhaps one that separates the point from a box it is outside of, or from the barycenter -/
theorem GrowsS.cuts_new {M : (Fin F → K) → Prop} {c : Config K} {lifetime : K} {x : Fin F → K} {label : Fin L} {ptau : K} {t t' : Tree K F L}
    (h : GrowsS M c lifetime x label ptau t t') : ∀ q ∈ cuts t', q ∈ cuts t ∨
      (∃ b ∈ boxesOf t, (b.upper q.1 ≤ q.2 ∧ q.2 < x q.1) ∨ (x q.1 ≤ q.2 ∧ q.2 < b.lower q.1)) ∨
      ∃ z ∈ leaves t, ∃ m, M m ∧ (∀ i, z.2.box.lower i ≤ x i ∧ x i ≤ z.2.box.upper i) ∧ (z.2.box.lower q.1 < m q.1 ∧ m q.1 < z.2.box.upper q.1) ∧
        Between (m q.1) q.2 (x q.1) := by
  induction h with
  | @insert ptau t cut np ns hok hle hlt =>
      intro q hq
      unfold aboveC at hq
      have key : q = (cut.dim, cut.split) ∨ q ∈ cuts t := by
        split at hq <;> simpa [cuts, newLeaf] using hq
      rcases key with rfl | hq
      · refine .inr (.inl ⟨_, data_box_mem t, ?_⟩)
        rcases hok.sides with ⟨-, h⟩ | ⟨-, h⟩
        · exact .inl h
        · exact .inr h
      · exact .inl hq
  | leaf => intro q hq; simp [cuts] at hq
  | @split ptau id d np ns tau v dim onLeft m hM hm hv hx h1 h2 h3 h4 =>
      intro q hq
      have key : q = (dim, v) := by
        unfold splitTree at hq
        cases onLeft <;> by_cases hv : v < x dim <;> simpa [hv, give, cuts] using hq
      subst key
      exact .inr (.inr ⟨(id, d), by simp [leaves], m, hM, hx, hm, hv⟩)
  | @left ptau id d dim sp l l' r hx hg ih =>
      intro q hq
      simp only [cuts, List.mem_cons, List.mem_append] at hq
      rcases hq with rfl | hq | hq
      · exact .inl (by simp [cuts])
      · rcases ih q hq with h | ⟨b, h1, h2⟩ | ⟨z, h1, h2⟩
        · exact .inl (by simp [cuts, h])
        · exact .inr (.inl ⟨b, by simp [boxesOf, h1], h2⟩)
        · exact .inr (.inr ⟨z, by simp [leaves, h1], h2⟩)
      · exact .inl (by simp [cuts, hq])
  | @right ptau id d dim sp l r r' hx hg ih =>
      intro q hq
      simp only [cuts, List.mem_cons, List.mem_append] at hq
      rcases hq with rfl | hq | hq
      · exact .inl (by simp [cuts])
      · exact .inl (by simp [cuts, hq])
      · rcases ih q hq with h | ⟨b, h1, h2⟩ | ⟨z, h1, h2⟩
        · exact .inl (by simp [cuts, h])
        · exact .inr (.inl ⟨b, by simp [boxesOf, h1], h2⟩)
        · exact .inr (.inr ⟨z, by simp [leaves, h1], h2⟩)

theorem trainSplit_sums (c : Config K) (sc : SplitConfig K) (p : Params K) (ω : Nat → K) (x : Fin F → K) (label : Fin L) (s : State K F L) (ex : Extra K F) (pos : Nat)
    {s' : State K F L} {ex' : Extra K F} {pos' : Nat} {r : Bool} (h : trainSplit c sc p ω x label s ex pos = .ok (s', ex', pos', r)) :
    (∀ i, ex'.sum i = ex.sum i * sc.fadingCount + x i) ∧ ex'.count = ex.count * sc.fadingCount + 1 := by
  rw [trainSplit] at h
  dsimp only at h
  obtain ⟨s1, -, h⟩ := bind_ok h
  obtain ⟨⟨s2, pos2⟩, -, h⟩ := bind_ok h
  obtain ⟨⟨s3, pos3, ok⟩, -, h⟩ := bind_ok h
  cases h
  split <;> exact ⟨fun _ => rfl, rfl⟩

/-- What the object remembers of a history: the fadedSum sums, and what was found in the memory -/
theorem runSplit_sums (c : Config K) (sc : SplitConfig K) (p : Params K) (ω : Nat → K) (ops : List (Op K F L)) (s0 : State K F L) (ex0 : Extra K F) (pos : Nat) :
    ∀ {s : State K F L} {ex : Extra K F} {pos' : Nat}, runSplit c sc p ω ops s0 ex0 pos = .ok (s, ex, pos') →
      (∀ i, ex.sum i = fadedSum sc.fadingCount ((latest ops).map (fun y => y i)) + sc.fadingCount ^ (latest ops).length * ex0.sum i) ∧
      ex.count = fadedSum sc.fadingCount ((latest ops).map (fun _ => 1)) + sc.fadingCount ^ (latest ops).length * ex0.count := by
  induction ops using List.reverseRecOn with
  | nil =>
      intro s ex pos' h
      rw [runSplit] at h
      cases h
      simp [latest, points, fadedSum]
  | append_singleton ops op ih =>
      intro s ex pos' h
      rw [runSplit_snoc] at h
      obtain ⟨⟨s1, ex1, pos1⟩, e1, h⟩ := bind_ok h
      replace h : execSplit c sc p ω op s1 ex1 pos1 = .ok (s, ex, pos') := h
      obtain ⟨i1, i2⟩ := ih e1
      have keep : latest [op] = [] → ex = ex1 → (∀ i, ex.sum i = fadedSum sc.fadingCount ((latest (ops ++ [op])).map (fun y => y i)) +
          sc.fadingCount ^ (latest (ops ++ [op])).length * ex0.sum i) ∧
          ex.count = fadedSum sc.fadingCount ((latest (ops ++ [op])).map (fun _ => 1)) + sc.fadingCount ^ (latest (ops ++ [op])).length * ex0.count := by
        intro h1 h2
        rw [latest_snoc, h1, h2]
        exact ⟨i1, i2⟩
      have other : (∀ x label, op ≠ .train x label) → ex = ex1 := by
        intro hne
        cases op with
        | train x label => exact absurd rfl (hne x label)
        | predict x use =>
            rw [execSplit] at h
            · obtain ⟨⟨s2, pos2⟩, -, h⟩ := bind_ok h
              cases h; rfl
            · exact fun x l h => by cases h
        | trim =>
            rw [execSplit] at h
            · obtain ⟨⟨s2, pos2⟩, -, h⟩ := bind_ok h
              cases h; rfl
            · exact fun x l h => by cases h
        | fade =>
            rw [execSplit] at h
            · obtain ⟨⟨s2, pos2⟩, -, h⟩ := bind_ok h
              cases h; rfl
            · exact fun x l h => by cases h
        | other last =>
            rw [execSplit] at h
            · obtain ⟨⟨s2, pos2⟩, -, h⟩ := bind_ok h
              cases h; rfl
            · exact fun x l h => by cases h
      cases op with
      | train x label =>
          rw [execSplit] at h
          obtain ⟨⟨s2, ex2, pos2, r⟩, e2, h⟩ := bind_ok h
          cases h
          obtain ⟨t1, t2⟩ := trainSplit_sums c sc p ω x label s1 ex1 pos1 e2
          have hl : latest (ops ++ [.train x label]) = x :: latest ops := by rw [latest_snoc]; rfl
          rw [hl]
          refine ⟨fun i => ?_, ?_⟩
          · rw [t1, i1]; simp only [List.map_cons, fadedSum, List.length_cons, pow_succ]; ring
          · rw [t2, i2]; simp only [List.map_cons, fadedSum, List.length_cons, pow_succ]; ring
      | predict x use => exact keep rfl (other (fun _ _ e => by cases e))
      | trim => exact keep rfl (other (fun _ _ e => by cases e))
      | fade => exact keep rfl (other (fun _ _ e => by cases e))
      | other last => exact keep rfl (other (fun _ _ e => by cases e))

/-! ### C137 -/

/-- **C137** (partial) `SPLIT_HELPER_AVG` and `SPLIT_TRIGGER_NONE`, an object whose memory for `sum_features` held zeros when it was made. After every history of calls, whatever
splits a call of `train x` adds to a tree (after the trim that it may do, from `t` to `t1`) separate `x` either from a box that does not contain it, or from the average of all
training points, `x` included, when `x` is in the box of a leaf; the average is then inside the same box in the dimension of the split.
Missing: other contents of the memory, see `C137_violated`. -/
theorem C137_splits_at_average_partial (c : Config K) (hc : c.extend = .barycenter) (sc : SplitConfig K) (ht : sc.trigger = .none) (hh : sc.helper = .avg) (p : Params K)
    (hlife : 0 < p.lifetime) (hlog : ∀ u, 0 < u → u ≤ 1 → p.log u ≤ 0) (ω : Nat → K) (hω : ∀ i, 0 < ω i ∧ ω i < 1) (maxSize sizeNode sizeBase : Nat) (junk : List Int)
    (last : Nat) (s0 : State K F L) (hnew : new c maxSize sizeNode sizeBase junk last = .ok s0) (ops : List (Op K F L)) (full pos : Nat) (s : State K F L)
    (ex1 : Extra K F) (pos1 : Nat) (hr : runSplit c sc p ω ops s0 ⟨fun _ => 0, 0, full⟩ pos = .ok (s, ex1, pos1)) (x : Fin F → K) (label : Fin L) (s' : State K F L)
    (ex' : Extra K F) (pos' : Nat) (r : Bool) (hr' : trainSplit c sc p ω x label s ex1 pos1 = .ok (s', ex', pos', r)) :
    ∃ trees trees', HoldsAll s.forest trees ∧ HoldsAll s'.forest trees' ∧ trees.length = junk.length ∧ trees'.length = junk.length ∧
      ∀ (j : Nat) (t : Tree K F L), trees[j]? = some (some t) → ∃ t1 t', trees'[j]? = some (some t') ∧ Pruned c (some t) (some t1) ∧
        ∀ q ∈ cuts t', q ∈ cuts t1 ∨
          (∃ b ∈ boxesOf t1, (b.upper q.1 ≤ q.2 ∧ q.2 < x q.1) ∨ (x q.1 ≤ q.2 ∧ q.2 < b.lower q.1)) ∨
          ∃ z ∈ leaves t1, (∀ i, z.2.box.lower i ≤ x i ∧ x i ≤ z.2.box.upper i) ∧
            (let m := average sc.fadingCount (x :: ((points ops).map Prod.fst).reverse) q.1
             z.2.box.lower q.1 < m ∧ m < z.2.box.upper q.1 ∧ Between m q.2 (x q.1)) := by
  obtain ⟨trees, g, hlen, -⟩ := runSplit_spec c hc sc ht p hlife hlog ω hω True maxSize sizeNode sizeBase junk last s0 hnew (fun _ => trivial) _
    (keptS_true c p.lifetime True) _ pos ops s ex1 pos1 hr
  obtain ⟨i1, i2⟩ := runSplit_sums c sc p ω ops s0 _ pos hr
  simp only [mul_zero, add_zero] at i1 i2
  obtain ⟨trees', g', -, hlen', -, hstep⟩ := trainSplit_spec c hc sc ht p hlife hlog ω hω
    (fun m => ∀ i, m i = average sc.fadingCount (x :: ((points ops).map Prod.fst).reverse) i) True _ x label s ex1 pos1 trees g s' ex' pos' r
    (by
      intro s2 tree m hm i
      rw [barycenter, hh] at hm
      simp only [Except.ok.injEq] at hm
      split at hm
      · cases hm
      · have := Option.some.inj hm
        rw [← this]
        simp only [average, List.map_cons, fadedSum, i1, i2]
        unfold latest
        rw [mul_comm _ sc.fadingCount, mul_comm _ sc.fadingCount, add_comm, add_comm (1 : K)])
    hr'
  refine ⟨trees, trees', g.inv.mem.all, g'.inv.mem.all, hlen, hlen'.trans hlen, fun j t hj => ?_⟩
  obtain ⟨o1, o', h1, h2, h3⟩ := hstep j _ hj
  cases o1 with
  | none => exact absurd (h2.ne_none.2 rfl) (by simp)
  | some t1 =>
      obtain ⟨t', rfl, hg⟩ := h3
      refine ⟨t1, t', h1, h2, fun q hq => ?_⟩
      rcases hg.cuts_new q hq with h | h | ⟨z, z1, m, z2, z3, z4, z5⟩
      · exact .inl h
      · exact .inr (.inl h)
      · refine .inr (.inr ⟨z, z1, z3, ?_⟩)
        rw [z2] at z4 z5
        exact ⟨z4.1, z4.2, z5⟩

/-- the split of a node -/
def seeCut (r : Res (State ℚ 1 2 × Extra ℚ 1 × Nat)) (id : Nat) : Res (Option (Fin 1) × Option ℚ) := do
  let (s, _) ← r
  let n ← rd s.forest.nodes id
  return (n.dim, n.split)

/-- the hypotheses are met by a history whose last point 9/4 splits a leaf: at 519/208, between 9/4 and the average 285/104 -/
example : average (F := 1) (1 : ℚ) (latest leafOps) 0 = 285 / 104 ∧
    seeCut (splitRun (cfg .cobble 3 .barycenter .count) ⟨.zero, .none, .avg, 1⟩ 85 (exω []) (fun _ => 0) leafOps) 7 = .ok (some 0, some (519 / 208)) ∧
    Between (285 / 104 : ℚ) (519 / 208) (9 / 4) := by
  refine ⟨by decide +kernel, by decide +kernel, ?_⟩
  unfold Between
  norm_num

/-- **C137** (violation) The same history, with another value in the memory of `sum_features` when the object was made. -/
theorem C137_violated : ∃ junk v : ℚ,
    seeCut (splitRun (cfg .cobble 3 .barycenter .count) ⟨.zero, .none, .avg, 1⟩ 85 (exω []) (fun _ => junk) leafOps) 7 = .ok (some 0, some v) ∧
    ¬ Between (average (F := 1) (1 : ℚ) (latest leafOps) 0) v (9 / 4) := by
  refine ⟨-15, 459 / 208, by decide +kernel, ?_⟩
  rw [show average (F := 1) (1 : ℚ) (latest leafOps) 0 = 285 / 104 by decide +kernel]
  unfold Between
  norm_num

end Orp.Coarse
