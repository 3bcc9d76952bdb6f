import Verif.Coarse.Otter
import Verif.Coarse.PrintFinal
import Verif.Coarse.PublicProps

/-!
Property C112, first part: what `otter` computes, and histories with calls of it.
-/

set_option linter.unusedSectionVars false

namespace Orp.Coarse

open Finset
open Mondrian (Node Box Forest Params Tree Holds HoldsAll upd init OnlyCounts lt_of_get recountAll treeScores exω exP pt scores Positive)

variable {K : Type} [Field K] [LinearOrder K] [IsStrictOrderedRing K] [FloorRing K] {F L : Nat}

/-! ### Specification -/

/-- the tree without the nodes more than `n` levels below the root -/
def top : Nat → Tree K F L → Tree K F L
  | _, .leaf id d => .leaf id d
  | 0, .node id d _ _ _ _ => .leaf id d
  | n + 1, .node id d dim sp l r => .node id d dim sp (top n l) (top n r)

/-- the tree without its deepest level; the root always stays -/
def shorter (t : Tree K F L) : Tree K F L := top (t.height - 2) t

theorem top_height : ∀ (n : Nat) (t : Tree K F L), (top n t).height = min (n + 1) t.height
  | n, .leaf _ _ => by cases n <;> simp [top, Mondrian.Tree.height]
  | 0, .node _ _ _ _ _ _ => by simp [top, Mondrian.Tree.height]
  | n + 1, .node _ _ _ _ l r => by simp only [top, Mondrian.Tree.height, top_height n l, top_height n r, show ∀ a b : Nat, Nat.max a b = max a b from fun _ _ => rfl]; omega

/-- one level less, but at least one level -/
theorem shorter_height (t : Tree K F L) : (shorter t).height = max 1 (t.height - 1) := by
  have := height_pos t
  rw [shorter, top_height]
  omega

/-- for each tree the scores of the point in the tree, and in the tree without its deepest level -/
def Rows (p : Params K) (x : Fin F → K) : List (Option (Tree K F L)) → List ((Fin L → K) × (Fin L → K)) → Prop :=
  List.Forall₂ (fun o r => treeScores p x o = .ok r.1 ∧ treeScores p x (o.map shorter) = .ok r.2)

/-! ### The scores -/

theorem positive_top : ∀ (n : Nat) (t : Tree K F L), Positive t → Positive (top n t)
  | n, .leaf _ _, h => by cases n <;> exact h
  | 0, .node _ _ _ _ _ _, h => h.1
  | n + 1, .node _ _ _ _ l r, h => ⟨h.1, positive_top n l h.2.1, positive_top n r h.2.2⟩

theorem top_id : ∀ (n : Nat) (t : Tree K F L), (top n t).id = t.id
  | n, .leaf _ _ => by cases n <;> rfl
  | 0, .node _ _ _ _ _ _ => rfl
  | n + 1, .node _ _ _ _ l r => rfl

theorem limitLoop_spec (p : Params K) (nodes : List (Node K F L)) (x : Fin F → K) (limit : Int) (hlim : 0 ≤ limit) : ∀ (t : Tree K F L) (par : Option Nat) (ptau : K)
    (fuel depth : Nat) (notSep : K) (pm sm : Fin L → K), t.height ≤ fuel → Holds nodes par t →
    (match par with
      | some q => (rd nodes q).map (·.tau)
      | none => .ok 0 : Res K) = .ok ptau →
    limitLoop p nodes x limit fuel depth (some t.id) notSep pm sm = scores p x (top ((limit - 1 - depth).toNat) t) ptau notSep pm sm
  | .leaf id d, par, ptau, 0, _, notSep, pm, sm, hf, _, _ => by simp [Mondrian.Tree.height] at hf
  | .node id d dim sp l r, par, ptau, 0, _, notSep, pm, sm, hf, _, _ => by simp [Mondrian.Tree.height] at hf
  | .leaf id d, par, ptau, fuel + 1, depth, notSep, pm, sm, hf, h, hpar => by
      obtain ⟨n, h1, h2, h3⟩ := h
      have e1 := Mondrian.posteriorMean_spec p hpar h2 pm
      show limitLoop p nodes x limit (fuel + 1) depth (some id) notSep pm sm = _
      have et : top ((limit - 1 - depth).toNat) (.leaf id d : Tree K F L) = .leaf id d := by cases (limit - 1 - depth).toNat <;> rfl
      rw [et]
      simp only [limitLoop, scores, bind, Except.bind, rd_eq_ok_iff.2 h1, h2.2.2.1, init, h2.2.1]
      rw [Mondrian.smooth_congr p (m := { (Mondrian.blank : Node K F L) with counts := d.counts }) h2.2.2.2]
      cases Mondrian.smooth p { (Mondrian.blank : Node K F L) with counts := d.counts } (1 - p.exp (-(d.tau - 0) * Mondrian.eta d.box x)) (d.tau - 0)
        (Mondrian.eta d.box x) notSep pm sm with
      | error e => rfl
      | ok sm => simp only [e1, h3, ite_self]
  | .node id d dim sp l r, par, ptau, fuel + 1, depth, notSep, pm, sm, hf, h, hpar => by
      obtain ⟨⟨n, h1, h2, h3, h4, h5, h6⟩, hl, hr⟩ := h
      simp only [Mondrian.Tree.height] at hf
      have hfl : l.height ≤ fuel := le_trans (Nat.le_max_left l.height r.height) (Nat.le_of_succ_le_succ hf)
      have hfr : r.height ≤ fuel := le_trans (Nat.le_max_right l.height r.height) (Nat.le_of_succ_le_succ hf)
      have e1 := Mondrian.posteriorMean_spec p hpar h2 pm
      have e2 : (match (some id : Option Nat) with
        | some q => (rd nodes q).map (·.tau)
        | none => .ok 0 : Res K) = .ok d.tau := by
        simp only [rd_eq_ok_iff.2 h1, Except.map, h2.2.1]
      show limitLoop p nodes x limit (fuel + 1) depth (some id) notSep pm sm = _
      by_cases hd : limit ≤ (depth : Int) + 1
      · have et : top ((limit - 1 - depth).toNat) (.node id d dim sp l r : Tree K F L) = .leaf id d := by
          have : (limit - 1 - depth).toNat = 0 := by omega
          rw [this]
          rfl
        rw [et]
        simp only [limitLoop, scores, bind, Except.bind, rd_eq_ok_iff.2 h1, h2.2.2.1, init, h2.2.1]
        rw [Mondrian.smooth_congr p (m := { (Mondrian.blank : Node K F L) with counts := d.counts }) h2.2.2.2]
        cases Mondrian.smooth p { (Mondrian.blank : Node K F L) with counts := d.counts } (1 - p.exp (-(d.tau - 0) * Mondrian.eta d.box x)) (d.tau - 0)
          (Mondrian.eta d.box x) notSep pm sm with
        | error e => rfl
        | ok sm => simp only [e1, if_pos (And.intro hd hlim)]
      · have et : top ((limit - 1 - depth).toNat) (.node id d dim sp l r : Tree K F L) =
            .node id d dim sp (top ((limit - 1 - (depth + 1 : Nat)).toNat) l) (top ((limit - 1 - (depth + 1 : Nat)).toNat) r) := by
          have : (limit - 1 - depth).toNat = (limit - 1 - (depth + 1 : Nat)).toNat + 1 := by omega
          rw [this]
          rfl
        rw [et]
        simp only [limitLoop, scores, bind, Except.bind, rd_eq_ok_iff.2 h1, h2.2.2.1, init, h2.2.1]
        rw [Mondrian.smooth_congr p (m := { (Mondrian.blank : Node K F L) with counts := d.counts }) h2.2.2.2]
        cases Mondrian.smooth p { (Mondrian.blank : Node K F L) with counts := d.counts } (1 - p.exp (-(d.tau - 0) * Mondrian.eta d.box x)) (d.tau - 0)
          (Mondrian.eta d.box x) notSep pm sm with
        | error e => rfl
        | ok sm =>
            simp only [e1, if_neg (fun h : limit ≤ (depth : Int) + 1 ∧ 0 ≤ limit => hd h.1), h3, h4]
            by_cases hx : x dim ≤ sp
            · simp only [if_pos hx, h5]
              exact limitLoop_spec p nodes x limit hlim l (some id) d.tau fuel (depth + 1) _ _ _ hfl hl e2
            · simp only [if_neg hx, h6]
              exact limitLoop_spec p nodes x limit hlim r (some id) d.tau fuel (depth + 1) _ _ _ hfr hr e2

theorem judgeLoop_spec (p : Params K) (h0 : p.exp 0 = 1) (hd : 0 ≤ p.discount) (s : Forest K F L) (x : Fin F → K) : ∀ (ts : List (Option (Tree K F L))),
    (∀ t, some t ∈ ts → t.height ≤ s.nodes.length ∧ t.ids.length ≤ s.nodes.length ∧ Holds s.nodes none t ∧ Positive t) →
    ((∀ t, some t ∈ ts → t.height ≤ 101) → ∃ rows, judgeLoop p s x (ts.map (fun t => t.map Tree.id)) = .ok rows ∧ Rows p x ts rows) ∧
    ((∃ t, some t ∈ ts ∧ 102 ≤ t.height) → judgeLoop p s x (ts.map (fun t => t.map Tree.id)) = .error .ub)
  | [], _ => ⟨fun _ => ⟨[], rfl, List.Forall₂.nil⟩, fun ⟨t, ht, _⟩ => by cases ht⟩
  | o :: os, h => by
      obtain ⟨i1, i2⟩ := judgeLoop_spec p h0 hd s x os (fun t ht => h t (List.mem_cons_of_mem _ ht))
      have hone : (∀ t, o = some t → t.height ≤ 101) → ∃ (dep : Int) (r r' : Fin L → K), treeDepth s.nodes (o.map Tree.id) = .ok dep ∧
          Mondrian.predictTree p s x (o.map Tree.id) = .ok r ∧
          limitLoop p s.nodes x (dep - 1) s.nodes.length 0 (o.map Tree.id) 1 (fun _ => p.base) (fun _ => 0) = .ok r' ∧
          treeScores p x o = .ok r ∧ treeScores p x (o.map shorter) = .ok r' := by
        intro hlow
        cases o with
        | none =>
            refine ⟨0, _, _, rfl, ?_, ?_, rfl, rfl⟩
            · rw [Mondrian.predictTree, Option.map_none]; cases s.nodes.length <;> rfl
            · rw [Option.map_none]; cases s.nodes.length <;> rfl
        | some t =>
            obtain ⟨t1, t2, t3, t4⟩ := h t (by simp)
            have hp := height_pos t
            obtain ⟨r, hr⟩ := Mondrian.scores_ok p h0 hd x t 0 1 (fun _ => p.base) (fun _ => 0) t4
            obtain ⟨r', hr'⟩ := Mondrian.scores_ok p h0 hd x (shorter t) 0 1 (fun _ => p.base) (fun _ => 0) (positive_top _ _ t4)
            refine ⟨t.height, r, r', nodeDepth_spec t3 (hlow t rfl) t2, ?_, ?_, hr, hr'⟩
            · exact (Mondrian.predictLoop_spec p s.nodes x t none 0 _ _ _ _ t1 t3 rfl).trans hr
            · refine (limitLoop_spec p s.nodes x _ (by omega) t none 0 _ 0 _ _ _ t1 t3 rfl).trans ?_
              have : ((t.height : Int) - 1 - 1 - (0 : Nat)).toNat = t.height - 2 := by omega
              rw [this]
              exact hr'
      constructor
      · intro hlow
        obtain ⟨dep, r, r', a1, a2, a3, a4, a5⟩ := hone (fun t ht => hlow t (by rw [ht]; simp))
        obtain ⟨rows, b1, b2⟩ := i1 (fun t ht => hlow t (List.mem_cons_of_mem _ ht))
        exact ⟨(r, r') :: rows, by simp only [List.map_cons, judgeLoop, a1, a2, a3, b1, bind, Except.bind, pure, Except.pure], List.Forall₂.cons ⟨a4, a5⟩ b2⟩
      · rintro ⟨t, ht, hh⟩
        by_cases hlow : ∀ t, o = some t → t.height ≤ 101
        · obtain ⟨dep, r, r', a1, a2, a3, a4, a5⟩ := hone hlow
          have hos : some t ∈ os := by
            rcases List.mem_cons.1 ht with e | e
            · have := hlow t e.symm
              omega
            · exact e
          simp only [List.map_cons, judgeLoop, a1, a2, a3, i2 ⟨t, hos, hh⟩, bind, Except.bind]
        · push Not at hlow
          obtain ⟨u, rfl, hu⟩ := hlow
          obtain ⟨t1, t2, t3, t4⟩ := h u (by simp)
          have : treeDepth s.nodes (Option.map Tree.id (some u)) = .error .ub := nodeDepth_deep t3 (by omega) t2
          simp only [List.map_cons, judgeLoop, this, bind, Except.bind]

/-! ### The object afterwards -/

/-- counting the points of the split nodes changes nothing else -/
theorem recount_good {c : Config K} (hc : c.extend ≠ .ghost) {p : Params K} (h0 : p.exp 0 = 1) (hd : 0 ≤ p.discount) {few : Prop} {bases : List Base} {m : Nat}
    {s : State K F L} {trees : List (Option (Tree K F L))} (hg : Good c few bases m s trees) (hn : 1 ≤ trees.length) (x : Fin F → K) (label : Fin L) :
    ∃ nodes', Mondrian.updateCounts s.forest.nodes.length s.forest.roots s.forest.nodes = .ok nodes' ∧
      Twin s { s with forest := { s.forest with nodes := nodes' } } ∧ Good c few bases m { s with forest := { s.forest with nodes := nodes' } } (recountAll trees) := by
  obtain ⟨nodes', a1, -⟩ := hg.inv.mem.recount
  obtain ⟨s1, lines, r, q1, q2, -, q4, -⟩ := scory_spec hc h0 hd hg hn x label
  have : s1 = { s with forest := { s.forest with nodes := nodes' } } := by
    unfold scory at q1
    simp only [a1, bind, Except.bind] at q1
    split at q1
    · cases q1
    · split at q1
      · cases q1
      · exact (congrArg Prod.fst (Except.ok.inj q1)).symm
  subst this
  exact ⟨nodes', a1, q2, q4⟩

/-- `otter` counts like a prediction does and changes nothing else of the forest; it is defined unless a tree is higher than 101. -/
theorem otter_spec {c : Config K} (hc : c.extend ≠ .ghost) {p : Params K} (h0 : p.exp 0 = 1) (hd : 0 ≤ p.discount) {few : Prop} {bases : List Base} {m : Nat}
    {s : State K F L} {trees : List (Option (Tree K F L))} (hg : Good c few bases m s trees) (hn : 1 ≤ trees.length) (g : Gauge K) (x : Fin F → K) (label : Fin L) :
    ((∀ t, some t ∈ trees → t.height ≤ 101) → ∃ s1 rows, otter p s g x label = .ok (s1, g.next (comesOut rows label) (changes rows label), changes rows label) ∧ Twin s s1 ∧
      Good c few bases m s1 (recountAll trees) ∧ Rows p x (recountAll trees) rows) ∧
    ((∃ t, some t ∈ trees ∧ 102 ≤ t.height) → otter p s g x label = .error .ub) := by
  obtain ⟨nodes', a1, a2, a3⟩ := recount_good hc h0 hd hg hn x label
  have hmem := a3.inv.mem
  have hroots : s.forest.roots = (recountAll trees).map (fun t => t.map Tree.id) := hmem.all.roots
  have hlen : s.forest.roots.length ≠ 0 := by
    rw [hroots, List.length_map, recountAll, List.length_map]
    omega
  obtain ⟨i1, i2⟩ := judgeLoop_spec p h0 hd { s.forest with nodes := nodes' } x (recountAll trees) (fun t ht => by
    obtain ⟨j, hj⟩ := List.mem_iff_getElem?.1 ht
    have hl := ready_length (fs := []) (hmem.ready hj)
    refine ⟨hmem.height_le hj, by simpa using hl, hmem.all.holds t ht, ?_⟩
    obtain ⟨o, ho, e⟩ := List.mem_map.1 ht
    cases o with
    | none => cases e
    | some t0 =>
        cases e
        exact ((hg.pos t0 ho).recount hc).2)
  rw [← hroots] at i1 i2
  unfold otter
  simp only [if_neg hlen, a1, bind, Except.bind, pure, Except.pure]
  constructor
  · intro hlow
    obtain ⟨rows, b1, b2⟩ := i1 (fun t ht => by
      obtain ⟨o, ho, e⟩ := List.mem_map.1 ht
      cases o with
      | none => cases e
      | some t0 =>
          cases e
          rw [Mondrian.recount_height]
          exact hlow t0 ho)
    exact ⟨_, rows, by rw [b1], a2, a3, b2⟩
  · rintro ⟨t, ht, hh⟩
    rw [i2 ⟨t.recount, List.mem_map.2 ⟨some t, ht, rfl⟩, by rw [Mondrian.recount_height]; exact hh⟩]

/-! ### Calls and histories with and without `otter` -/

/-- a call for the two objects -/
theorem exec_mates {c : Config K} {p : Params K} (h0 : p.exp 0 = 1) (hd : 0 ≤ p.discount) (hlife : 0 ≤ p.lifetime) {ω : Nat → K}
    (hω : ∀ i, 0 ≤ ω i ∧ ω i < 1) {few : Prop} {bases : List Base} {m n : Nat} (op : Op K F L) {s s' : State K F L} (h : Mates c few bases m n s s')
    (hv : Valid n op) (pos : Nat) : RelR (fun a b => Mates c few bases m n a.1 b.1 ∧ a.2 = b.2) (exec c p ω op s pos) (exec c p ω op s' pos) := by
  obtain ⟨trees, hg, hn⟩ := h.left
  obtain ⟨trees', hg', hn'⟩ := h.right
  have hspec := exec_spec True c p h0 hd hlife ω hω (fun _ _ => trivial) few bases (fun _ _ _ => Or.inr trivial) m op s trees pos hg (by rw [hn]; exact hv)
  have hspec' := exec_spec True c p h0 hd hlife ω hω (fun _ _ => trivial) few bases (fun _ _ _ => Or.inr trivial) m op s' trees' pos hg' (by rw [hn']; exact hv)
  have hrel : RelR (fun a b => Near c a.1 b.1 ∧ a.2 = b.2) (exec c p ω op s pos) (exec c p ω op s' pos) := by
    cases ho : IsAct op with
    | true => exact exec_near c p ω op ho h.near pos
    | false =>
        cases op with
        | predict x use =>
            obtain ⟨a, l, q1, q2, -⟩ := predict_near h0 hd hg hn x use hv
            obtain ⟨a', l', q1', q2', -⟩ := predict_near h0 hd hg' hn' x use hv
            unfold exec
            simp only [q1, q1', bind, Except.bind, pure, Except.pure]
            exact ⟨q2.symm.trans (h.near.trans q2'), rfl⟩
        | train => cases ho
        | trim => cases ho
        | fade => cases ho
        | other => cases ho
  cases ha : exec c p ω op s pos with
  | error e =>
      cases hb : exec c p ω op s' pos with
      | error e' => rw [ha, hb] at hrel; exact hrel
      | ok b => rw [ha, hb] at hrel; exact hrel.elim
  | ok a =>
      cases hb : exec c p ω op s' pos with
      | error e' => rw [ha, hb] at hrel; exact hrel.elim
      | ok b =>
          rw [ha] at hrel hspec
          rw [hb] at hrel hspec'
          rcases hspec with ⟨-, e, hx⟩ | ⟨s2, pos2, treesP, g1, g2, g3, -⟩
          · cases hx
          rcases hspec' with ⟨-, e, hx⟩ | ⟨s2', pos2', treesP', g1', g2', g3', -⟩
          · cases hx
          cases g1
          cases g1'
          exact ⟨⟨hrel.1, ⟨treesP, g2, g3.trans hn⟩, ⟨treesP', g2', g3'.trans hn'⟩⟩, hrel.2⟩

/-- a history without its calls of `otter` -/
def plainOps : List (Call K F L) → List (Op K F L)
  | [] => []
  | .op o :: calls => o :: plainOps calls
  | .judge _ _ :: calls => plainOps calls

/-- the number of calls of `otter` -/
def judged : List (Call K F L) → Nat
  | [] => 0
  | .op _ :: calls => judged calls
  | .judge _ _ :: calls => judged calls + 1

/-- No tree can get higher than 101: there are at most 202 nodes, or there is a limit on the depth. -/
def Flat (c : Config K) (bases : List Base) (m : Nat) : Prop := m ≤ 202 ∨ c.isCobble = true ∧ ∀ b ∈ bases, b.limit ≤ 101

theorem Good.flat {c : Config K} {few : Prop} {bases : List Base} {m : Nat} {s : State K F L} {trees : List (Option (Tree K F L))} (hg : Good c few bases m s trees)
    (hlow : Flat c bases m) (t : Tree K F L) (ht : some t ∈ trees) : t.height ≤ 101 := by
  obtain ⟨j, hjj⟩ := List.mem_iff_getElem?.1 ht
  rcases hlow with hlow | ⟨hcob, hlow⟩
  · have h1 := ready_length (fs := []) (hg.inv.mem.ready hjj)
    have h2 := height_ids t
    have h3 := hg.nodes
    simp only [List.length_nil] at h1
    omega
  · obtain ⟨b, hb, hbm⟩ := hg.base (lt_of_get hjj)
    have h1 := (hg.tree j _ b hjj hb).1 t rfl hcob
    have := h1.trans (max_le (by norm_num) (hlow b hbm))
    omega

/-- the sum of a list where each number counts 0.95 times as much as the next one, and the last one fully -/
def faded : List K → K
  | [] => 0
  | a :: l => a * (95 / 100) ^ l.length + faded l

/-- the kept variables after `n` calls of `otter` with the arrays `Ss`, for `m` trees -/
structure Gauged (m n : Nat) (g g1 : Gauge K) (Ss : List (List K)) : Prop where
  calls : Ss.length = n
  count : g1.count = g.count + n
  sum : |g1.sum - g.sum| ≤ n
  trees : g.trees.length = m → g1.trees.length = m ∧ ∀ (i : Nat) (b : K × K), g.trees[i]? = some b → g1.trees[i]? =
    some (b.1 * (95 / 100) ^ n + faded (Ss.map (fun _ => 1)), b.2 * (95 / 100) ^ n + faded (Ss.map (fun S => S.getD i 0)))

theorem Gauged.refl (m : Nat) (g : Gauge K) : Gauged m 0 g g [] :=
  ⟨rfl, by simp, by simp, fun h => ⟨h, fun i b hb => by simp [hb, faded]⟩⟩

theorem Gauged.step {m n : Nat} {g g1 : Gauge K} {Ss : List (List K)} {up : Bool} {S : List K} (hS : S.length = m) (h : Gauged m n (g.next up S) g1 Ss) :
    Gauged m (n + 1) g g1 (S :: Ss) := by
  refine ⟨by simp [h.calls], ?_, ?_, fun hm => ?_⟩
  · rw [h.count, Gauge.next]
    push_cast
    ring
  · have h1 := h.sum
    rw [abs_le] at h1 ⊢
    have h2 : (g.next up S).sum = g.sum + 1 ∨ (g.next up S).sum = g.sum - 1 := by
      cases up
      · exact Or.inr rfl
      · exact Or.inl rfl
    push_cast
    rcases h2 with h2 | h2 <;> rw [h2] at h1 <;> constructor <;> linarith [h1.1, h1.2]
  · obtain ⟨t1, t2⟩ := h.trees (by simp [Gauge.next, hS, hm])
    refine ⟨t1, fun i b hb => ?_⟩
    have hi : i < g.trees.length := (List.getElem?_eq_some_iff.1 hb).1
    have hs : S[i]? = some (S.getD i 0) := by
      rw [List.getD_eq_getElem?_getD]
      rw [List.getElem?_eq_getElem (by omega)]
      rfl
    rw [t2 i (b.1 * (95 / 100) + 1, b.2 * (95 / 100) + S.getD i 0) (by
      simp only [Gauge.next, List.getElem?_zipWith, hb, hs])]
    have hc := h.calls
    simp only [List.map_cons, faded, List.length_map, hc]
    congr 2 <;> ring

theorem runJudge_spec {c : Config K} (hc : c.extend ≠ .ghost) {p : Params K} (h0 : p.exp 0 = 1) (hd : 0 ≤ p.discount) (hlife : 0 ≤ p.lifetime) {ω : Nat → K}
    (hω : ∀ i, 0 ≤ ω i ∧ ω i < 1) {few : Prop} {bases : List Base} {m n : Nat} (hn1 : 1 ≤ n) : ∀ (calls : List (Call K F L)) {s s' : State K F L} (g : Gauge K),
    Mates c few bases m n s s' → (∀ op ∈ plainOps calls, Valid n op) → ∀ pos,
    (∀ s1' g1 pos1 Ss, runJudge c p ω calls s' g pos = .ok (s1', g1, pos1, Ss) → ∃ s1, run c p ω (plainOps calls) s pos = .ok (s1, pos1) ∧ Mates c few bases m n s1 s1' ∧
      Gauged n (judged calls) g g1 Ss) ∧
    (Flat c bases m → ∀ s1 pos1, run c p ω (plainOps calls) s pos = .ok (s1, pos1) → ∃ s1' g1 Ss, runJudge c p ω calls s' g pos = .ok (s1', g1, pos1, Ss))
  | [], s, s', g, h, _, pos => by
      refine ⟨fun s1' g1 pos1 Ss he => ?_, fun _ s1 pos1 he => ?_⟩
      · cases he
        exact ⟨s, rfl, h, Gauged.refl n g⟩
      · cases he
        exact ⟨s', g, [], rfl⟩
  | .op o :: calls, s, s', g, h, hv, pos => by
      have hrel := exec_mates h0 hd hlife hω o h (hv o (List.mem_cons_self ..)) pos
      rw [plainOps, run, runJudge]
      cases ha : exec c p ω o s pos with
      | error e =>
          cases hb : exec c p ω o s' pos with
          | error e' => exact ⟨fun s1' g1 pos1 Ss he => (by cases he), fun _ s1 pos1 he => (by cases he)⟩
          | ok b => rw [ha, hb] at hrel; exact hrel.elim
      | ok a =>
          cases hb : exec c p ω o s' pos with
          | error e' => rw [ha, hb] at hrel; exact hrel.elim
          | ok b =>
              rw [ha, hb] at hrel
              obtain ⟨a, pa⟩ := a
              obtain ⟨b, pb⟩ := b
              obtain ⟨r1, r2⟩ := hrel
              simp only at r1 r2
              subst r2
              exact runJudge_spec hc h0 hd hlife hω hn1 calls g r1 (fun op ho => hv op (List.mem_cons_of_mem _ ho)) pa
  | .judge x label :: calls, s, s', g, h, hv, pos => by
      obtain ⟨trees', hg', hn'⟩ := h.right
      obtain ⟨o1, o2⟩ := otter_spec hc h0 hd hg' (by omega) g x label
      rw [plainOps, runJudge]
      by_cases hlow : ∀ t, some t ∈ trees' → t.height ≤ 101
      · obtain ⟨s2, rows, e1, e2, e3, e4⟩ := o1 hlow
        have hM : Mates c few bases m n s s2 := by
          refine ⟨h.near.trans ?_, h.left, ⟨_, e3, by rw [recountAll, List.length_map]; exact hn'⟩⟩
          unfold Near
          rw [if_neg hc]
          exact e2
        obtain ⟨i1, i2⟩ := runJudge_spec hc h0 hd hlife hω hn1 calls (g.next (comesOut rows label) (changes rows label)) hM hv pos
        simp only [e1, bind, Except.bind, pure, Except.pure]
        constructor
        · intro s1' g1 pos1 Ss he
          cases hx : runJudge c p ω calls s2 (g.next (comesOut rows label) (changes rows label)) pos with
          | error e => rw [hx] at he; cases he
          | ok r =>
              obtain ⟨r1, r2, r3, r4⟩ := r
              rw [hx] at he
              cases he
              obtain ⟨s1, z1, z2, z3⟩ := i1 _ _ _ _ hx
              refine ⟨s1, z1, z2, z3.step ?_⟩
              have := e4.length_eq
              rw [recountAll, List.length_map] at this
              simp only [changes, List.length_map]
              omega
        · intro hl s1 pos1 he
          obtain ⟨s1', g1, Ss, hx⟩ := i2 hl s1 pos1 he
          exact ⟨s1', g1, _, by rw [hx]⟩
      · push Not at hlow
        obtain ⟨t, ht, hh⟩ := hlow
        simp only [o2 ⟨t, ht, by omega⟩, bind, Except.bind]
        exact ⟨fun s1' g1 pos1 Ss he => (by cases he), fun hl => absurd (hg'.flat hl t ht) (by omega)⟩

end Orp.Coarse
