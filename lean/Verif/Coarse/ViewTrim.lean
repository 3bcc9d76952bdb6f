import Verif.Coarse.ViewExtend

/-!
Two forests that differ in the places of their nodes, in the units and the origin of the features and in the names of the labels: the whole object, trimming and
fading.
-/

set_option linter.unusedSectionVars false

namespace Orp.Coarse

open Finset
open Mondrian (Node Box Forest Params Cut upd init extent cutAt bump sampleBlock Tree Data Frame plug ctxPar ctxTau ctxIds HoldsCtx Holds Ready avail mem_avail
  avail_nodup avail_used upd_spec lt_of_get newLeaf holds_plug plug_ids holds_root id_mem_ids holds_mem relinked set_same oids allIds allIds_split Change)

variable {K : Type} [Field K] [LinearOrder K] [IsStrictOrderedRing K] [FloorRing K] {F L : Nat} {u : Change K F L} {π : Nat → Nat}

/-- all trees, in the new units and with their nodes at other places -/
def seenAll (u : Change K F L) (π : Nat → Nat) (trees : List (Option (Tree K F L))) : List (Option (Tree K F L)) := trees.map (fun o => o.map (seen u π))

theorem seenAll_get {trees : List (Option (Tree K F L))} {i : Nat} {o : Option (Tree K F L)} (h : trees[i]? = some o) :
    (seenAll u π trees)[i]? = some (o.map (seen u π)) := by
  rw [seenAll, List.getElem?_map, h]; rfl

theorem seen_oids (o : Option (Tree K F L)) : oids (o.map (seen u π)) = (oids o).map π := by
  cases o with
  | none => rfl
  | some t => exact seen_ids t

theorem seenAll_ids (trees : List (Option (Tree K F L))) : allIds (seenAll u π trees) = (allIds trees).map π := by
  induction trees with
  | nil => rfl
  | cons o os ih =>
      have : seenAll u π (o :: os) = o.map (seen u π) :: seenAll u π os := rfl
      rw [this, Mondrian.allIds_cons, Mondrian.allIds_cons, ih, seen_oids, List.map_append]

/-- Two objects whose trees correspond -/
structure Couple (u : Change K F L) (π : Nat → Nat) (s s' : State K F L) (trees : List (Option (Tree K F L))) : Prop where
  l : Inv s trees
  r : Inv s' (seenAll u π trees)
  size : s'.forest.nodes.length = s.forest.nodes.length
  bases : s'.bases = s.bases
  total : s'.total = s.total
  zl : ∀ k ∈ avail s.forest.nodes, s.fading[k]? = some 0
  zr : ∀ k ∈ avail s'.forest.nodes, s'.fading[k]? = some 0
  fading : ∀ k ∈ allIds trees, s'.fading[π k]? = s.fading[k]?

theorem Couple.avail {s s' : State K F L} {trees : List (Option (Tree K F L))} (h : Couple u π s s' trees) :
    (avail s'.forest.nodes).length = (avail s.forest.nodes).length := by
  have e1 := Unbound.pool_count h.l.mem
  have e2 := Unbound.pool_count h.r.mem
  rw [seenAll_ids, List.length_map] at e2
  have := h.size
  simp only [List.length_nil] at e1 e2
  omega

theorem Couple.free {s s' : State K F L} {trees : List (Option (Tree K F L))} (h : Couple u π s s' trees) : s'.free = s.free := by
  rw [h.l.free, h.r.free, h.avail]

theorem Couple.inj {s s' : State K F L} {trees : List (Option (Tree K F L))} (h : Couple u π s s' trees) {i j : Nat} (hi : i ∈ allIds trees) (hj : j ∈ allIds trees)
    (e : π i = π j) : i = j := by
  have hnd := h.r.mem.all.nodup
  rw [seenAll_ids] at hnd
  exact List.inj_on_of_nodup_map hnd hi hj e

theorem Couple.both {s s' : State K F L} {trees : List (Option (Tree K F L))} (h : Couple u π s s' trees) {i : Nat} {t : Tree K F L} (hi : trees[i]? = some (some t)) :
    Both u π s s' i t := by
  have hi' := seenAll_get (u := u) (π := π) hi
  refine ⟨h.l.mem.ready hi, h.r.mem.ready hi', h.l.free, h.r.free, h.free, h.bases, ?_, h.l.fading, h.r.fading, h.l.forced, h.r.forced, h.zl, h.zr,
    fun k hk => h.fading k (Mondrian.mem_allIds hi hk)⟩
  have : i < s.bases.length := by rw [h.l.bases]; exact lt_of_get hi
  exact ⟨_, List.getElem?_eq_getElem this⟩

/-- one tree changes in both objects -/
theorem Couple.set {π1 : Nat → Nat} {s s' s1 s1' : State K F L} {trees : List (Option (Tree K F L))} (h : Couple u π s s' trees) {i : Nat} {o o1 : Option (Tree K F L)}
    (hi : trees[i]? = some o) (keep : ∀ k, k ∉ Mondrian.avail s.forest.nodes → π1 k = π k) (hl : Inv s1 (trees.set i o1))
    (hr : Inv s1' ((seenAll u π trees).set i (o1.map (seen u π1)))) (n1 : s1.forest.nodes.length = s.forest.nodes.length)
    (n1' : s1'.forest.nodes.length = s'.forest.nodes.length) (b1 : s1.bases = s.bases) (b1' : s1'.bases = s'.bases) (t1 : s1.total = s.total)
    (t1' : s1'.total = s'.total) (ol : ∀ k, k ∉ oids o → k ∉ Mondrian.avail s.forest.nodes → s1.fading[k]? = s.fading[k]?)
    (or : ∀ k, k ∉ (oids o).map π → k ∉ Mondrian.avail s'.forest.nodes → s1'.fading[k]? = s'.fading[k]?)
    (zl : ∀ k ∈ Mondrian.avail s1.forest.nodes, s1.fading[k]? = some 0) (zr : ∀ k ∈ Mondrian.avail s1'.forest.nodes, s1'.fading[k]? = some 0)
    (hf : ∀ k ∈ oids o1, s1'.fading[π1 k]? = s1.fading[k]?) : Couple u π1 s1 s1' (trees.set i o1) := by
  have hsee : seenAll u π1 (trees.set i o1) = (seenAll u π trees).set i (o1.map (seen u π1)) := by
    apply List.ext_getElem?
    intro j
    simp only [seenAll, List.getElem?_map, List.getElem?_set, List.length_map]
    by_cases hj : i = j
    · simp only [if_pos hj]
      split <;> rfl
    · simp only [if_neg hj]
      cases ho : trees[j]? with
      | none => rfl
      | some o2 =>
          cases o2 with
          | none => rfl
          | some t2 =>
              simp only [Option.map_some]
              rw [seen_congr fun k hk => keep k (h.l.mem.used (Mondrian.mem_allIds ho hk))]
  refine ⟨hl, by rw [hsee]; exact hr, by rw [n1, n1', h.size], by rw [b1, b1', h.bases], by rw [t1, t1', h.total], zl, zr, fun k hk => ?_⟩
  obtain ⟨rest, p1, p2, -⟩ := allIds_split trees i o hi
  have hk' := (p2 o1).mem_iff.1 hk
  rcases List.mem_append.1 hk' with hk' | hk'
  · exact hf k hk'
  · have hnd := List.nodup_append'.1 (p1.nodup_iff.1 h.l.mem.all.nodup)
    have hka : k ∈ allIds trees := p1.mem_iff.2 (List.mem_append_right _ hk')
    have hko : k ∉ oids o := fun h' => hnd.2.2 h' hk'
    have hu : k ∉ Mondrian.avail s.forest.nodes := h.l.mem.used hka
    rw [keep k hu, ol k hko hu, or (π k) (fun h' => ?_) (h.r.mem.used (by rw [seenAll_ids]; exact List.mem_map_of_mem hka)), h.fading k hka]
    obtain ⟨j, j1, j2⟩ := List.mem_map.1 h'
    exact hko (h.inj (p1.mem_iff.2 (List.mem_append_left _ j1)) hka j2 ▸ j1)

theorem Couple.moved {π1 : Nat → Nat} {s s' s1 s1' : State K F L} {trees : List (Option (Tree K F L))} (h : Couple u π s s' trees) {i : Nat} {t t1 : Tree K F L}
    (hi : trees[i]? = some (some t)) (m : Moved u π π1 s s' s1 s1' i t t1) : Couple u π1 s1 s1' (trees.set i (some t1)) :=
  h.set hi m.keep (h.l.done hi m.dl) (h.r.done (seenAll_get hi) m.dr) m.dl.length m.dr.length m.dl.bases m.dr.bases m.dl.total m.dr.total
    (fun k hk hk' => m.ol k hk hk') (fun k hk hk' => m.or k (by rw [seen_ids]; exact hk) hk') m.zl m.zr m.fading

/-! ### Walking through a tree -/

section
variable {A A' : Type} {nodes nodes' : List (Node K F L)} {act : Nat → Node K F L → A → Res A} {act' : Nat → Node K F L → A' → Res A'}

/-- what is done at a leaf is the same in both objects; `R` holds before, and `R1` after it -/
def ActV (u : Change K F L) (π : Nat → Nat) (nodes nodes' : List (Node K F L)) (act : Nat → Node K F L → A → Res A) (act' : Nat → Node K F L → A' → Res A')
    (S : List (Nat × Data K F L)) (R R1 : A → A' → Prop) : Prop :=
  ∀ id d n n' a a', (id, d) ∈ S → nodes[id]? = some n → nodes'[π id]? = some n' → n.counts = d.counts → n'.counts = u.fn d.counts → R a a' →
    ∃ a1 a1', act id n a = .ok a1 ∧ act' (π id) n' a' = .ok a1' ∧ R1 a1 a1'

theorem foldLeaves_pair {S : List (Nat × Data K F L)} {R R1 : A → A' → Prop} (hsub : ∀ a a', R1 a a' → R a a') (hact : ActV u π nodes nodes' act act' S R R1) :
    ∀ (t : Tree K F L) (par par' : Option Nat) (a : A) (a' : A'), leaves t ⊆ S → Holds nodes par t → Holds nodes' par' (seen u π t) → R a a' →
    ∃ a1 a1', foldLeaves nodes act t a = .ok a1 ∧ foldLeaves nodes' act' (seen u π t) a' = .ok a1' ∧ R1 a1 a1'
  | .leaf id d, par, par', a, a', hS, ⟨n, h1, h2, _⟩, ⟨n', h1', h2', _⟩, hR => by
      obtain ⟨a1, a1', e1, e2, e3⟩ := hact id d n n' a a' (hS (by simp [leaves])) h1 h1' h2.2.2.2 h2'.2.2.2 hR
      exact ⟨a1, a1', by simp only [foldLeaves, rd_eq_ok_iff.2 h1, bind, Except.bind, e1],
        by simp only [seen, foldLeaves, rd_eq_ok_iff.2 h1', bind, Except.bind, e2], e3⟩
  | .node id d dim sp l r, par, par', a, a', hS, ⟨_, hl, hr⟩, ⟨_, hl', hr'⟩, hR => by
      simp only [leaves, List.append_subset] at hS
      obtain ⟨a1, a1', e1, e2, e3⟩ := foldLeaves_pair hsub hact r _ _ a a' hS.1 hr hr' hR
      obtain ⟨a2, a2', e4, e5, e6⟩ := foldLeaves_pair hsub hact l _ _ a1 a1' hS.2 hl hl' (hsub _ _ e3)
      exact ⟨a2, a2', by simp only [foldLeaves, e1, bind, Except.bind, e4], by simp only [seen, foldLeaves, e2, bind, Except.bind, e5], e6⟩

theorem walk_deep_pair {S : List (Nat × Data K F L)} {R R1 : A → A' → Prop} (hsub : ∀ a a', R1 a a' → R a a') (hact : ActV u π nodes nodes' act act' S R R1) :
    ∀ (t : Tree K F L) (par par' : Option Nat) (fuel i d : Nat) (stack : List Int) (a : A) (a' : A'), leaves t ⊆ S → Holds nodes par t → Holds nodes' par' (seen u π t) →
      Clear stack d → d < 100 → 100 < d + t.height → i + t.ids.length ≤ nodes.length → i + t.ids.length ≤ nodes'.length → R a a' →
    ∃ a1 a1', walk nodes act (fuel + steps t) i (some t.id) d stack a = .ok (100, a1) ∧
      walk nodes' act' (fuel + steps t) i (some (seen u π t).id) d stack a' = .ok (100, a1') ∧ R a1 a1'
  | .leaf id dt, par, par', fuel, i, d, stack, a, a', _, _, _, hc, hd, hh, hi, hi', hR => by
      simp only [Mondrian.Tree.height] at hh
      omega
  | .node id dt dim sp l r, par, par', fuel, i, d, stack, a, a', hS, ⟨⟨n, h1, h2, h3, h4, h5, h6⟩, hl, hr⟩, ⟨⟨n', h1', h2', h3', h4', h5', h6'⟩, hl', hr'⟩, hc, hd, hh,
      hi, hi', hR => by
      simp only [Mondrian.Tree.height] at hh
      simp only [Tree.ids, List.length_cons, List.length_append] at hi hi'
      simp only [leaves, List.append_subset] at hS
      show ∃ a1 a1', walk nodes act (fuel + (3 + steps l + steps r)) i (some id) d stack a = _ ∧
        walk nodes' act' (fuel + (3 + steps l + steps r)) i (some (π id)) d stack a' = _ ∧ _
      rw [show fuel + (3 + steps l + steps r) = (fuel + 1 + steps l + 1 + steps r) + 1 by omega, walk_right h1 h3 h6 _ _ _ _ hc hd (by omega),
        walk_right h1' h3' h6' _ _ _ _ hc hd (by omega)]
      by_cases hd' : d = 99
      · exact ⟨a, a', by rw [if_pos hd'], by rw [if_pos hd'], hR⟩
      · rw [if_neg hd', if_neg hd']
        by_cases hr2 : 100 < d + 1 + r.height
        · exact walk_deep_pair hsub hact r (some id) _ _ i (d + 1) _ a a' hS.1 hr hr' (hc.set 0) (by omega) hr2 (by omega) (by omega) hR
        · have hmax : 100 < d + (l.height + 1) := by
            rcases Nat.le_total l.height r.height with h | h
            · rw [show Nat.max l.height r.height = r.height from Nat.max_eq_right h] at hh; omega
            · rw [show Nat.max l.height r.height = l.height from Nat.max_eq_left h] at hh; exact hh
          obtain ⟨a1, a1', e1, e2, e3⟩ := foldLeaves_pair hsub hact r _ _ a a' hS.1 hr hr' hR
          have c1 : ((d + 1 : Nat) : Int) - 1 = d := by omega
          have hst : steps (seen u π r) = steps r := by
            have : ∀ t : Tree K F L, steps (seen u π t) = steps t := by
              intro t
              induction t with
              | leaf => rfl
              | node id d dim sp l r ihl ihr => simp only [seen, steps, ihl, ihr]
            exact this r
          have w2 := walk_tree (seen u π r) (some (π id)) (fuel + 1 + steps l + 1) i (d + 1) (stack.set d 0) a' a1' hr' (hc.set 0)
            (by rw [seen_height]; omega) (by rw [seen_ids, List.length_map]; omega) e2
          rw [hst, seen_ids, List.length_map] at w2
          rw [walk_tree r (some id) (fuel + 1 + steps l + 1) i (d + 1) (stack.set d 0) a a1 hr (hc.set 0) (by omega) (by omega) e1, w2, c1,
            walk_left h1 h3 h5 _ _ _ _ hc (by omega) (by omega), walk_left h1' h3' h5' _ _ _ _ hc (by omega) (by omega)]
          exact walk_deep_pair hsub hact l (some id) _ (fuel + 1) _ (d + 1) _ a1 a1' hS.2 hl hl' (hc.set 1) (by omega) (by omega) (by omega) (by omega)
            (hsub _ _ e3)

/-- The loop started at the root, in both objects -/
theorem walk_pair {R R1 : A → A' → Prop} (hsub : ∀ a a', R1 a a' → R a a') {t : Tree K F L} (hact : ActV u π nodes nodes' act act' (leaves t) R R1)
    (h : Holds nodes none t) (h' : Holds nodes' none (seen u π t)) (hn : nodes'.length = nodes.length) (hi : t.ids.length ≤ nodes.length) {a : A} {a' : A'} (hR : R a a') :
    ∃ d a1 a1', walk nodes act (3 * nodes.length + 1) 0 (some t.id) 0 (List.replicate 100 (-1)) a = .ok (d, a1) ∧
      walk nodes' act' (3 * nodes'.length + 1) 0 (some (seen u π t).id) 0 (List.replicate 100 (-1)) a' = .ok (d, a1') ∧ R a1 a1' ∧ (d = -1 → R1 a1 a1') := by
  by_cases hh : t.height ≤ 100
  · obtain ⟨a1, a1', e1, e2, e3⟩ := foldLeaves_pair hsub hact t none none a a' (fun _ h => h) h h' hR
    exact ⟨-1, a1, a1', walk_root t a a1 h hh hi e1, walk_root (seen u π t) a' a1' h' (by rw [seen_height]; exact hh)
      (by rw [seen_ids, List.length_map, hn]; exact hi) e2, hsub _ _ e3, fun _ => e3⟩
  · have hs := steps_le t
    obtain ⟨a1, a1', e1, e2, e3⟩ := walk_deep_pair hsub hact t none none (3 * nodes.length + 1 - steps t) 0 0 (List.replicate 100 (-1)) a a' (fun _ h => h) h h'
      clear_replicate (by omega) (by omega) (by omega) (by omega) hR
    rw [Nat.sub_add_cancel (by omega)] at e1 e2
    rw [hn]
    exact ⟨100, a1, a1', e1, e2, e3, fun h => absurd h (by decide)⟩

end

/-! ### Trimming -/

/-- the local variables of `tree_trim` in both objects -/
structure SearchEq (a a' : Search K) : Prop where
  smallest : a'.smallest = a.smallest
  leaves : a'.leaves = a.leaves
  sum : a'.sum = a.sum
  pos : a'.pos = a.pos

/-- both have found the same leaf -/
def Hit (π : Nat → Nat) (S : List (Nat × Data K F L)) (a a' : Search K) : Prop := SearchEq a a' ∧ 0 < a.leaves ∧ ∃ z ∈ S, a.id = z.1 ∧ a'.id = π z.1

def NearHit (π : Nat → Nat) (S : List (Nat × Data K F L)) (a a' : Search K) : Prop := (SearchEq a a' ∧ a.leaves = 0 ∧ a.smallest < 0) ∨ Hit π S a a'

theorem better_seen (ω : Nat → K) (v : K) {a a' : Search K} (h : SearchEq a a') (n m : Nat) :
    better ω v { a' with leaves := n } = better ω v { a with leaves := m } := by
  unfold better
  simp only [h.smallest, h.pos]

/-- a leaf with the score `v` -/
theorem scored_near {S : List (Nat × Data K F L)} {a a' : Search K} (h : NearHit π S a a') (ω : Nat → K) (v : K) {z : Nat × Data K F L} (hz : z ∈ S) :
    Hit π S
      { smallest := if (better ω v { a with leaves := a.leaves + 1 }).1 then v else a.smallest
        id := if (better ω v { a with leaves := a.leaves + 1 }).1 then z.1 else a.id
        leaves := a.leaves + 1
        sum := a.sum + v
        pos := (better ω v { a with leaves := a.leaves + 1 }).2 }
      { smallest := if (better ω v { a' with leaves := a'.leaves + 1 }).1 then v else a'.smallest
        id := if (better ω v { a' with leaves := a'.leaves + 1 }).1 then π z.1 else a'.id
        leaves := a'.leaves + 1
        sum := a'.sum + v
        pos := (better ω v { a' with leaves := a'.leaves + 1 }).2 } := by
  have he : SearchEq a a' := by
    rcases h with h | h
    · exact h.1
    · exact h.1
  rw [better_seen ω v he (a'.leaves + 1) (a.leaves + 1)]
  cases hb : (better ω v { a with leaves := a.leaves + 1 }).1 with
  | true => exact ⟨⟨rfl, by simp [he.leaves], by simp [he.sum], rfl⟩, by simp, z, hz, rfl, rfl⟩
  | false =>
      rcases h with h | h
      · unfold better at hb
        rw [if_pos h.2.2] at hb
        cases hb
      · obtain ⟨h1, h2, y, hy, y1, y2⟩ := h
        exact ⟨⟨h1.smallest, by simp [h1.leaves], by simp [h1.sum], rfl⟩, by simp, y, hy, y1, y2⟩

theorem trimLeaf_seen (c : Config K) (hc : c.trim ≠ .none) (ω : Nat → K) (hω : ∀ i, 0 ≤ ω i ∧ ω i < 1) {nodes nodes' : List (Node K F L)} {fading fading' : List K}
    {S : List (Nat × Data K F L)} (hlen : fading.length = nodes.length) (hf : ∀ z ∈ S, fading'[π z.1]? = fading[z.1]?) :
    ActV u π nodes nodes' (trimLeaf c ω fading) (trimLeaf c ω fading') S (NearHit π S) (Hit π S) := by
  intro id d n n' a a' hz hn hn' hcnt hcnt' hR
  have he : SearchEq a a' := by
    rcases hR with h | h
    · exact h.1
    · exact h.1
  unfold trimLeaf
  cases ht : c.trim with
  | none => exact absurd ht hc
  | count =>
      simp only
      have hv : (∑ i, (n'.counts i : K)) = ∑ i, (n.counts i : K) := by
        rw [hcnt, hcnt']
        exact Equiv.sum_comp u.σ.symm (fun i => (d.counts i : K))
      rw [hv]
      exact ⟨_, _, rfl, rfl, scored_near hR ω _ (z := (id, d)) hz⟩
  | fading =>
      have hlt : id < fading.length := by rw [hlen]; exact lt_of_get hn
      have h1 := List.getElem?_eq_getElem hlt
      have h2 := hf _ hz
      rw [h1] at h2
      simp only [rd_eq_ok_iff.2 h1, rd_eq_ok_iff.2 h2, bind, Except.bind, pure, Except.pure]
      exact ⟨_, _, rfl, rfl, scored_near hR ω _ (z := (id, d)) hz⟩
  | random =>
      simp only
      refine ⟨_, _, rfl, rfl, ⟨he.smallest, by simp [he.leaves], he.sum, by simp [he.pos]⟩, by simp, ?_⟩
      simp only [he.leaves, he.pos]
      by_cases hh : ω a.pos < 1 / ((a.leaves + 1 : Nat) : K)
      · exact ⟨(id, d), hz, by rw [if_pos hh], by rw [if_pos hh]⟩
      · rcases hR with h | h
        · rw [h.2.1] at hh
          simp only [Nat.zero_add, Nat.cast_one, div_one] at hh
          exact absurd (hω _).2 hh
        · obtain ⟨-, -, y, hy, y1, y2⟩ := h
          exact ⟨y, hy, by rw [if_neg hh]; exact y1, by rw [if_neg hh]; exact y2⟩

theorem trimTree_seen (c : Config K) (hc : c.trim ≠ .none) (ω : Nat → K) (hω : ∀ i, 0 ≤ ω i ∧ ω i < 1) {s s' : State K F L} {trees : List (Option (Tree K F L))}
    (h : Couple u π s s' trees) {i : Nat} {t : Tree K F L} (hi : trees[i]? = some (some t)) (pos : Nat) :
    ∃ r r' pos', trimTree c ω s i pos = .ok (r, pos') ∧ trimTree c ω s' i pos = .ok (r', pos') ∧
      ((r = none ∧ r' = none) ∨ ∃ z ∈ leaves t, r = some z.1 ∧ r' = some (π z.1)) := by
  have hi' := seenAll_get (u := u) (π := π) hi
  have hroot := h.l.mem.root hi
  have hroot' := h.r.mem.root hi'
  rw [Option.map_some] at hroot hroot'
  rw [Option.map_some] at hroot'
  have hlen : t.ids.length ≤ s.forest.nodes.length := by
    have := ready_length (fs := []) (h.l.mem.ready hi)
    omega
  obtain ⟨d, a1, a1', e1, e2, e3, e4⟩ := walk_pair (R := NearHit π (leaves t)) (R1 := Hit π (leaves t)) (fun _ _ h => Or.inr h)
    (trimLeaf_seen c hc ω hω (nodes := s.forest.nodes) (nodes' := s'.forest.nodes) h.l.fading
      (fun z hz => h.fading _ (Mondrian.mem_allIds hi (leaf_id t z hz))))
    (h.l.mem.all.holds t (List.mem_of_getElem? hi)) (h.r.mem.all.holds _ (List.mem_of_getElem? hi')) h.size hlen
    (a := { smallest := -1, id := 0, leaves := 0, sum := 0, pos := pos }) (a' := { smallest := -1, id := 0, leaves := 0, sum := 0, pos := pos })
    (Or.inl ⟨⟨rfl, rfl, rfl, rfl⟩, rfl, by norm_num⟩)
  have he : SearchEq a1 a1' := by
    rcases e3 with h | h
    · exact h.1
    · exact h.1
  unfold trimTree
  simp only [rd_eq_ok_iff.2 hroot, rd_eq_ok_iff.2 hroot', e1, e2, bind, Except.bind, pure, Except.pure, he.smallest, he.sum, he.pos]
  by_cases hd : d ≠ -1
  · rw [if_pos hd, if_pos hd]
    exact ⟨_, _, _, rfl, rfl, Or.inl ⟨rfl, rfl⟩⟩
  · rw [if_neg hd, if_neg hd]
    by_cases hm : 0 < a1.sum ∧ c.maximumTrimSize < a1.smallest / a1.sum
    · rw [if_pos hm, if_pos hm]
      exact ⟨_, _, _, rfl, rfl, Or.inl ⟨rfl, rfl⟩⟩
    · rw [if_neg hm, if_neg hm]
      obtain ⟨-, -, z, hz, z1, z2⟩ := e4 (not_not.1 hd)
      exact ⟨_, _, _, rfl, rfl, Or.inr ⟨z, hz, by rw [z1], by rw [z2]⟩⟩

/-- one tree of `tree_trim()` -/
def trimOne (c : Config K) (ω : Nat → K) (s : State K F L) (i pos : Nat) : Res (State K F L × Nat) := do
  let (id, pos) ← trimTree c ω s i pos
  let root ← rd s.forest.roots i
  let s ← (match id with
    | none => .ok s
    | some id => if root ≠ some id ∧ id < s.forest.nodes.length then cutBlock s id i else .ok s : Res (State K F L))
  return (s, pos)

theorem trimLoop_one (c : Config K) (ω : Nat → K) (i k : Nat) (s : State K F L) (pos : Nat) :
    trimLoop c ω i (k + 1) s pos = (do
      let (s, pos) ← trimOne c ω s i pos
      trimLoop c ω (i + 1) k s pos) := by
  rw [trimLoop]
  unfold trimOne
  simp only [bind, Except.bind, pure, Except.pure]
  cases trimTree c ω s i pos with
  | error e => rfl
  | ok q =>
      simp only
      cases rd s.forest.roots i with
      | error e => rfl
      | ok r =>
          simp only
          cases q.1 with
          | none => rfl
          | some id =>
              simp only
              split
              · cases cutBlock s id i <;> rfl
              · rfl

theorem trimOne_seen (c : Config K) (hc : c.trim ≠ .none) (ω : Nat → K) (hω : ∀ i, 0 ≤ ω i ∧ ω i < 1) {s s' : State K F L} {trees : List (Option (Tree K F L))}
    (h : Couple u π s s' trees) {i : Nat} (hi : i < trees.length) (pos : Nat) :
    ∃ s1 s1' pos' o1, trimOne c ω s i pos = .ok (s1, pos') ∧ trimOne c ω s' i pos = .ok (s1', pos') ∧ Couple u π s1 s1' (trees.set i o1) := by
  obtain ⟨o, ho⟩ : ∃ o, trees[i]? = some o := ⟨_, List.getElem?_eq_getElem hi⟩
  have ho' := seenAll_get (u := u) (π := π) ho
  have hroot := h.l.mem.root ho
  have hroot' := h.r.mem.root ho'
  unfold trimOne
  cases o with
  | none =>
      rw [Option.map_none] at hroot
      rw [Option.map_none, Option.map_none] at hroot'
      simp only [trimTree_empty c ω s i pos hroot, trimTree_empty c ω s' i pos hroot', rd_eq_ok_iff.2 hroot, rd_eq_ok_iff.2 hroot', bind, Except.bind, pure, Except.pure]
      exact ⟨_, _, _, none, rfl, rfl, by rw [set_same ho]; exact h⟩
  | some t =>
      rw [Option.map_some] at hroot
      rw [Option.map_some, Option.map_some] at hroot'
      obtain ⟨r, r', pos', e1, e2, e3⟩ := trimTree_seen c hc ω hω h ho pos
      simp only [e1, e2, rd_eq_ok_iff.2 hroot, rd_eq_ok_iff.2 hroot', bind, Except.bind, pure, Except.pure]
      rcases e3 with ⟨rfl, rfl⟩ | ⟨z, hz, rfl, rfl⟩
      · exact ⟨_, _, _, some t, rfl, rfl, by rw [set_same ho]; exact h⟩
      · have hzi := Mondrian.mem_allIds ho (leaf_id t z hz)
        have hti := Mondrian.mem_allIds ho (id_mem_ids t)
        have hlt := h.l.mem.ids_lt hzi
        have hlt' : π z.1 < s'.forest.nodes.length := h.r.mem.ids_lt (by rw [seenAll_ids]; exact List.mem_map_of_mem hzi)
        simp only
        by_cases hne : t.id = z.1
        · rw [if_neg (fun h => h.1 (by rw [hne])), if_neg (fun h => h.1 (by rw [seen_id, hne]))]
          exact ⟨_, _, _, some t, rfl, rfl, by rw [set_same ho]; exact h⟩
        · rw [if_pos ⟨fun e => hne (Option.some.inj e), hlt⟩, if_pos ⟨fun e => hne (h.inj hti hzi (by
            have := Option.some.inj e
            rwa [seen_id] at this)), hlt'⟩]
          obtain ⟨gs, g1, -⟩ := leaf_place t z hz []
          have g1' : plug gs (.leaf z.1 z.2) = t := g1
          cases gs with
          | nil => exact absurd (by rw [← g1']; rfl) hne
          | cons f fs =>
              have hB := h.both ho
              have hl := hB.l
              have hr := hB.r
              rw [← g1'] at hl
              rw [← g1', seen_plug] at hr
              obtain ⟨s1, a1, a2, -, a4⟩ := cutBlock_spec s i hl h.l.free h.l.fading h.l.forced
              obtain ⟨s1', a1', a2', -, a4'⟩ := cutBlock_spec s' i (f := seenF u π f) (fs := fs.map (seenF u π)) (id := π z.1) (d := u.data z.2) hr h.r.free h.r.fading
                h.r.forced
              have d1 : Done s s1 i t (plug fs f.sib) := by rw [g1'] at a2; exact a2
              have d1' : Done s' s1' i (seen u π t) (seen u π (plug fs f.sib)) := by
                rw [← g1', seen_plug, seen_plug]
                exact a2'
              simp only [a1, a1']
              have hp := plug_ids (f :: fs) (Mondrian.Tree.leaf z.1 z.2)
              rw [g1'] at hp
              have hfid : f.id ∈ t.ids := hp.mem_iff.2 (by simp [ctxIds])
              have hzid : z.1 ∈ t.ids := leaf_id t z hz
              have hfi := Mondrian.mem_allIds ho hfid
              have hnd := hp.nodup_iff.1 hB.l.nodup
              simp only [Tree.ids, ctxIds, List.cons_append, List.nil_append, List.nodup_cons, List.mem_cons, List.mem_append, not_or] at hnd
              have f1 : ∀ k, k ≠ f.id → k ≠ z.1 → s1.fading[k]? = s.fading[k]? := by
                intro k k1 k2
                rw [a4, List.getElem?_set_ne (Ne.symm k2), List.getElem?_set_ne (Ne.symm k1)]
              have f1' : ∀ k, k ≠ π f.id → k ≠ π z.1 → s1'.fading[k]? = s'.fading[k]? := by
                intro k k1 k2
                rw [a4']
                show ((s'.fading.set (π f.id) 0).set (π z.1) 0)[k]? = _
                rw [List.getElem?_set_ne (Ne.symm k2), List.getElem?_set_ne (Ne.symm k1)]
              have zero : ∀ (l : List K) (a b k : Nat), k < l.length → k = a ∨ k = b → ((l.set a 0).set b 0)[k]? = some 0 := by
                intro l a b k hk hab
                by_cases e : k = b
                · rw [e, List.getElem?_set_self (by rw [List.length_set]; rw [← e]; exact hk)]
                · rw [List.getElem?_set_ne (Ne.symm e)]
                  rcases hab with e' | e'
                  · rw [e', List.getElem?_set_self (by rw [← e']; exact hk)]
                  · exact absurd e' e
              refine ⟨s1, s1', pos', some (plug fs f.sib), rfl, rfl, h.set ho (fun _ _ => rfl) (h.l.done ho d1) (h.r.done ho' d1') d1.length d1'.length d1.bases d1'.bases
                d1.total d1'.total (fun k hk _ => f1 k (fun e => hk (e ▸ hfid)) (fun e => hk (e ▸ hzid)))
                (fun k hk _ => f1' k (fun e => hk (e ▸ List.mem_map_of_mem hfid)) (fun e => hk (e ▸ List.mem_map_of_mem hzid))) (fun k hk => ?_) (fun k hk => ?_)
                (fun k hk => ?_)⟩
              · by_cases e : k = f.id ∨ k = z.1
                · rw [a4]
                  refine zero _ _ _ _ ?_ e
                  rw [h.l.fading]
                  rcases e with rfl | rfl
                  · exact h.l.mem.ids_lt hfi
                  · exact hlt
                · rw [not_or] at e
                  rw [f1 k e.1 e.2]
                  have hk2 : k ∉ (plug fs f.sib).ids := fun h' => d1.ready.used k h' hk
                  have : k ∈ Mondrian.avail s.forest.nodes ++ t.ids := d1.cover.mem_iff.1 (List.mem_append_left _ hk)
                  rcases List.mem_append.1 this with h' | h'
                  · exact h.zl k h'
                  · exfalso
                    apply hk2
                    rw [(plug_ids fs f.sib).mem_iff]
                    rw [hp.mem_iff] at h'
                    simp only [Tree.ids, ctxIds, List.cons_append, List.nil_append, List.mem_cons, List.mem_append] at h'
                    rcases h' with h' | h' | h' | h'
                    · exact absurd h' e.2
                    · exact absurd h' e.1
                    · exact List.mem_append_left _ h'
                    · exact List.mem_append_right _ h'
              · by_cases e : k = π f.id ∨ k = π z.1
                · rw [a4']
                  refine zero _ _ _ _ ?_ e
                  rw [h.r.fading]
                  rcases e with rfl | rfl
                  · exact h.r.mem.ids_lt (by rw [seenAll_ids]; exact List.mem_map_of_mem hfi)
                  · exact hlt'
                · rw [not_or] at e
                  rw [f1' k e.1 e.2]
                  have hk2 : k ∉ (seen u π (plug fs f.sib)).ids := fun h' => d1'.ready.used k h' hk
                  have : k ∈ Mondrian.avail s'.forest.nodes ++ (seen u π t).ids := d1'.cover.mem_iff.1 (List.mem_append_left _ hk)
                  rcases List.mem_append.1 this with h' | h'
                  · exact h.zr k h'
                  · exfalso
                    apply hk2
                    rw [seen_ids] at h' ⊢
                    obtain ⟨j, j1, rfl⟩ := List.mem_map.1 h'
                    refine List.mem_map_of_mem ?_
                    rw [(plug_ids fs f.sib).mem_iff]
                    rw [hp.mem_iff] at j1
                    simp only [Tree.ids, ctxIds, List.cons_append, List.nil_append, List.mem_cons, List.mem_append] at j1
                    rcases j1 with h' | h' | h' | h'
                    · exact absurd (congrArg π h') e.2
                    · exact absurd (congrArg π h') e.1
                    · exact List.mem_append_left _ h'
                    · exact List.mem_append_right _ h'
              · have hk0 : k ∈ (plug fs f.sib).ids := hk
                rw [(plug_ids fs f.sib).mem_iff, List.mem_append] at hk0
                have k1 : k ≠ f.id := by
                  rintro rfl
                  rcases hk0 with h' | h'
                  · exact hnd.2.1.1 h'
                  · exact hnd.2.1.2 h'
                have k2 : k ≠ z.1 := by
                  rintro rfl
                  rcases hk0 with h' | h'
                  · exact hnd.1.2.1 h'
                  · exact hnd.1.2.2 h'
                have hkt : k ∈ t.ids := by
                  rw [hp.mem_iff]
                  simp only [Tree.ids, ctxIds, List.cons_append, List.nil_append, List.mem_cons, List.mem_append]
                  exact Or.inr (Or.inr hk0)
                have hka := Mondrian.mem_allIds ho hkt
                rw [f1 k k1 k2, f1' (π k) (fun e => k1 (h.inj hka hfi e)) (fun e => k2 (h.inj hka hzi e)), h.fading k hka]

theorem trimLoop_seen (c : Config K) (hc : c.trim ≠ .none) (ω : Nat → K) (hω : ∀ i, 0 ≤ ω i ∧ ω i < 1) :
    ∀ (k i : Nat) (s s' : State K F L) (trees : List (Option (Tree K F L))) (pos : Nat), i + k = trees.length → Couple u π s s' trees →
      ∃ s1 s1' pos' trees1, trimLoop c ω i k s pos = .ok (s1, pos') ∧ trimLoop c ω i k s' pos = .ok (s1', pos') ∧ Couple u π s1 s1' trees1
  | 0, i, s, s', trees, pos, _, h => ⟨s, s', pos, trees, rfl, rfl, h⟩
  | k + 1, i, s, s', trees, pos, hk, h => by
      obtain ⟨s1, s1', pos1, o1, e1, e2, e3⟩ := trimOne_seen c hc ω hω h (i := i) (by omega) pos
      obtain ⟨s2, s2', pos2, trees2, f1, f2, f3⟩ := trimLoop_seen c hc ω hω k (i + 1) s1 s1' (trees.set i o1) pos1 (by rw [List.length_set]; omega) e3
      refine ⟨s2, s2', pos2, trees2, ?_, ?_, f3⟩
      · rw [trimLoop_one, e1]; exact f1
      · rw [trimLoop_one, e2]; exact f2

theorem Couple.roots {s s' : State K F L} {trees : List (Option (Tree K F L))} (h : Couple u π s s' trees) :
    s.forest.roots.length = trees.length ∧ s'.forest.roots.length = trees.length := by
  rw [h.l.mem.all.roots, h.r.mem.all.roots]
  simp [seenAll]

theorem treeTrim_seen (c : Config K) (ω : Nat → K) (hω : ∀ i, 0 ≤ ω i ∧ ω i < 1) {s s' : State K F L} {trees : List (Option (Tree K F L))} (h : Couple u π s s' trees) (pos : Nat) :
    ∃ s1 s1' pos' trees1, treeTrim c ω s pos = .ok (s1, pos') ∧ treeTrim c ω s' pos = .ok (s1', pos') ∧ Couple u π s1 s1' trees1 := by
  unfold treeTrim
  by_cases hc : c.trim = .none
  · rw [if_pos hc, if_pos hc]
    exact ⟨s, s', pos, trees, rfl, rfl, h⟩
  · rw [if_neg hc, if_neg hc, h.roots.1, h.roots.2]
    exact trimLoop_seen c hc ω hω trees.length 0 s s' trees pos (by omega) h

/-! ### Fading -/

/-- the scores of both objects -/
structure FadeEq (π : Nat → Nat) (S : List Nat) (m m' : Nat) (A A' : List Nat) (f f' : List K) : Prop where
  ll : f.length = m
  lr : f'.length = m'
  pl : ∀ v ∈ f, 0 ≤ v
  pr : ∀ v ∈ f', 0 ≤ v
  zl : ∀ k ∈ A, f[k]? = some 0
  zr : ∀ k ∈ A', f'[k]? = some 0
  same : ∀ k ∈ S, f'[π k]? = f[k]?

theorem fadeLeaf_seen {S : List Nat} {A A' : List Nat} {nodes nodes' : List (Node K F L)} {t : Tree K F L} (hS : ∀ z ∈ leaves t, z.1 ∈ S)
    (hinj : ∀ i ∈ S, ∀ j ∈ S, π i = π j → i = j) (hA : ∀ k ∈ S, k ∉ A) (hA' : ∀ k ∈ S, π k ∉ A') :
    ActV u π nodes nodes' fadeLeaf fadeLeaf (leaves t) (FadeEq (K := K) π S nodes.length nodes'.length A A') (FadeEq π S nodes.length nodes'.length A A') := by
  intro id d n n' f f' hz hn hn' _ _ h
  have hid := hS _ hz
  have h1 : id < f.length := by rw [h.ll]; exact lt_of_get hn
  have h1' : π id < f'.length := by rw [h.lr]; exact lt_of_get hn'
  have hv : f'[π id] = f[id] := by
    have := h.same id hid
    rw [List.getElem?_eq_getElem h1, List.getElem?_eq_getElem h1'] at this
    exact Option.some.inj this
  have hpos : (0 : K) ≤ 995 / 1000 := by norm_num
  refine ⟨f.set id (f[id] * (995 / 1000)), f'.set (π id) (f'[π id] * (995 / 1000)),
    by simp only [fadeLeaf, rd_eq_ok_iff.2 (List.getElem?_eq_getElem h1), wr_ok _ h1, bind, Except.bind],
    by simp only [fadeLeaf, rd_eq_ok_iff.2 (List.getElem?_eq_getElem h1'), wr_ok _ h1', bind, Except.bind],
    by rw [List.length_set]; exact h.ll, by rw [List.length_set]; exact h.lr, fun v hv => ?_, fun v hv => ?_, fun k hk => ?_, fun k hk => ?_, fun k hk => ?_⟩
  · rcases List.mem_or_eq_of_mem_set hv with hv | rfl
    · exact h.pl v hv
    · exact mul_nonneg (h.pl _ (List.getElem_mem h1)) hpos
  · rcases List.mem_or_eq_of_mem_set hv with hv | rfl
    · exact h.pr v hv
    · exact mul_nonneg (h.pr _ (List.getElem_mem h1')) hpos
  · have e : id ≠ k := fun e => hA id hid (by rw [e]; exact hk)
    rw [List.getElem?_set_ne e]
    exact h.zl k hk
  · have e : π id ≠ k := fun e => hA' id hid (by rw [e]; exact hk)
    rw [List.getElem?_set_ne e]
    exact h.zr k hk
  · by_cases e : k = id
    · subst e
      rw [List.getElem?_set_self h1, List.getElem?_set_self h1', hv]
    · rw [List.getElem?_set_ne (Ne.symm e), List.getElem?_set_ne (fun e' => e (hinj k hk id hid e'.symm))]
      exact h.same k hk

theorem fadeLoop_seen {S A A' : List Nat} {nodes nodes' : List (Node K F L)} (hn : nodes'.length = nodes.length)
    (hinj : ∀ i ∈ S, ∀ j ∈ S, π i = π j → i = j) (hA : ∀ k ∈ S, k ∉ A) (hA' : ∀ k ∈ S, π k ∉ A') : ∀ (trees : List (Option (Tree K F L))) (f f' : List K),
    (∀ t, some t ∈ trees → Holds nodes none t ∧ Holds nodes' none (seen u π t) ∧ t.ids.length ≤ nodes.length ∧ ∀ k ∈ t.ids, k ∈ S) →
    FadeEq π S nodes.length nodes'.length A A' f f' →
    ∃ f1 f1', fadeLoop nodes (trees.map (fun t => t.map Tree.id)) f = .ok f1 ∧ fadeLoop nodes' ((seenAll u π trees).map (fun t => t.map Tree.id)) f' = .ok f1' ∧
      FadeEq π S nodes.length nodes'.length A A' f1 f1'
  | [], f, f', _, h => ⟨f, f', rfl, rfl, h⟩
  | o :: trees, f, f', hall, h => by
      have hrest := fun t ht => hall t (List.mem_cons_of_mem _ ht)
      cases o with
      | none =>
          obtain ⟨f1, f1', e1, e2, e3⟩ := fadeLoop_seen hn hinj hA hA' trees f f' hrest h
          refine ⟨f1, f1', ?_, ?_, e3⟩
          · rw [List.map_cons, fadeLoop, Option.map_none, walk]
            exact e1
          · show fadeLoop nodes' (none :: _) f' = _
            rw [fadeLoop, walk]
            exact e2
      | some t =>
          obtain ⟨h1, h2, h3, h4⟩ := hall t (by simp)
          obtain ⟨d, g, g', w1, w2, w3, -⟩ := walk_pair (u := u) (π := π) (R := FadeEq π S nodes.length nodes'.length A A') (R1 := FadeEq π S nodes.length nodes'.length A A')
            (fun _ _ h => h) (fadeLeaf_seen (t := t) (fun z hz => h4 _ (leaf_id t z hz)) hinj hA hA') h1 h2 hn h3 h
          obtain ⟨f1, f1', e1, e2, e3⟩ := fadeLoop_seen hn hinj hA hA' trees g g' hrest w3
          refine ⟨f1, f1', ?_, ?_, e3⟩
          · rw [List.map_cons, fadeLoop, Option.map_some, w1]
            exact e1
          · show fadeLoop nodes' (some (seen u π t).id :: _) f' = _
            rw [fadeLoop, w2]
            exact e2

theorem treeFade_seen {s s' : State K F L} {trees : List (Option (Tree K F L))} (h : Couple u π s s' trees) :
    ∃ s1 s1', treeFade s = .ok s1 ∧ treeFade s' = .ok s1' ∧ Couple u π s1 s1' trees := by
  obtain ⟨f1, f1', e1, e2, e3⟩ := fadeLoop_seen (u := u) (π := π) (S := allIds trees) (A := Mondrian.avail s.forest.nodes) (A' := Mondrian.avail s'.forest.nodes)
    (nodes := s.forest.nodes) (nodes' := s'.forest.nodes) h.size (fun i hi j hj e => h.inj hi hj e) (fun k hk => h.l.mem.used hk)
    (fun k hk => h.r.mem.used (by rw [seenAll_ids]; exact List.mem_map_of_mem hk)) trees s.fading s'.fading (fun t ht => by
      obtain ⟨j, hj⟩ := List.mem_iff_getElem?.1 ht
      have := ready_length (fs := []) (h.l.mem.ready hj)
      exact ⟨h.l.mem.all.holds t ht, h.r.mem.all.holds _ (List.mem_of_getElem? (seenAll_get hj)), by omega, fun k hk => Mondrian.mem_allIds hj hk⟩)
    ⟨h.l.fading, h.r.fading, h.l.scores, h.r.scores, h.zl, h.zr, h.fading⟩
  rw [← h.l.mem.all.roots] at e1
  rw [← h.r.mem.all.roots] at e2
  refine ⟨{ s with fading := f1 }, { s' with fading := f1' }, by simp only [treeFade, e1, bind, Except.bind, pure, Except.pure],
    by simp only [treeFade, e2, bind, Except.bind, pure, Except.pure], ⟨h.l.mem, h.l.free, e3.ll, h.l.forced, e3.pl, h.l.bases⟩,
    ⟨h.r.mem, h.r.free, e3.lr, h.r.forced, e3.pr, h.r.bases⟩, h.size, h.bases, h.total, e3.zl, e3.zr, e3.same⟩

end Orp.Coarse
