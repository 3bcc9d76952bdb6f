import Verif.Coarse.Run
import Verif.Coarse.OptTwin
import Verif.Mondrian.UnitsRun

/-!
Two forests that differ in the places of their nodes, in the units and the origin of the features and in the names of the labels: trees and single steps.
-/

set_option linter.unusedSectionVars false

namespace Orp.Coarse

open Finset
open Mondrian (Node Box Forest Params Cut upd init extent cutAt bump sampleBlock Tree Data Frame plug ctxPar ctxTau ctxIds HoldsCtx Holds Ready avail mem_avail
  avail_nodup avail_used upd_spec lt_of_get newLeaf holds_plug plug_ids holds_root id_mem_ids holds_mem relinked set_same oids allIds Change)

variable {K : Type} [Field K] [LinearOrder K] [IsStrictOrderedRing K] [FloorRing K] {F L : Nat}

/-- the tree in the new units and with its nodes at other places -/
def seen (u : Change K F L) (π : Nat → Nat) : Tree K F L → Tree K F L
  | .leaf id d => .leaf (π id) (u.data d)
  | .node id d dim sp l r => .node (π id) (u.data d) dim (u.a * sp + u.b dim) (seen u π l) (seen u π r)

def seenF (u : Change K F L) (π : Nat → Nat) (f : Frame K F L) : Frame K F L :=
  { id := π f.id, d := u.data f.d, dim := f.dim, sp := u.a * f.sp + u.b f.dim, left := f.left, sib := seen u π f.sib }

variable {u : Change K F L} {π : Nat → Nat}

theorem seen_id (t : Tree K F L) : (seen u π t).id = π t.id := by cases t <;> rfl

theorem seen_data (t : Tree K F L) : (seen u π t).data = u.data t.data := by cases t <;> rfl

theorem seen_ids : ∀ t : Tree K F L, (seen u π t).ids = t.ids.map π
  | .leaf _ _ => rfl
  | .node _ _ _ _ l r => by simp only [seen, Tree.ids, seen_ids l, seen_ids r, List.map_cons, List.map_append]

theorem seen_height : ∀ t : Tree K F L, (seen u π t).height = t.height
  | .leaf _ _ => rfl
  | .node _ _ _ _ l r => by simp only [seen, Mondrian.Tree.height, seen_height l, seen_height r]

theorem seen_congr {π' : Nat → Nat} : ∀ {t : Tree K F L}, (∀ k ∈ t.ids, π' k = π k) → seen u π' t = seen u π t
  | .leaf id _, h => by simp only [seen, h id (by simp [Tree.ids])]
  | .node id _ _ _ l r, h => by
      simp only [seen, h id (by simp [Tree.ids]), seen_congr (t := l) (fun k hk => h k (by simp [Tree.ids, hk])),
        seen_congr (t := r) (fun k hk => h k (by simp [Tree.ids, hk]))]

theorem seen_fill (f : Frame K F L) (t : Tree K F L) : seen u π (f.fill t) = (seenF u π f).fill (seen u π t) := by
  unfold Frame.fill seenF
  cases f.left <;> rfl

theorem seen_plug : ∀ (fs : List (Frame K F L)) (t : Tree K F L), seen u π (plug fs t) = plug (fs.map (seenF u π)) (seen u π t)
  | [], _ => rfl
  | f :: fs, t => by
      rw [plug, seen_plug fs, seen_fill, List.map_cons, plug]

theorem seen_ctxTau (fs : List (Frame K F L)) : ctxTau (fs.map (seenF u π)) = ctxTau fs / u.a := by
  cases fs with
  | nil => simp [ctxTau]
  | cons f fs => rfl

theorem seen_withData (d : Data K F L) (t : Tree K F L) : seen u π (t.withData d) = (seen u π t).withData (u.data d) := by cases t <;> rfl

theorem seen_newLeaf (life : K) (ns : Nat) (x : Fin F → K) (label : Fin L) :
    seen u π (newLeaf life ns x label) = newLeaf (life / u.a) (π ns) (u.pt x) (u.σ label) := by
  rw [Mondrian.newLeaf_change]
  rfl

theorem seen_aboveC (ha : 0 < u.a) (life : K) (np ns : Nat) (cut : Cut K F) (t : Tree K F L) (cnt : Fin L → Nat) (x : Fin F → K) (label : Fin L) :
    seen u π (aboveC life np ns cut t cnt x label) = aboveC (life / u.a) (π np) (π ns) (u.cut cut) (seen u π t) (u.fn cnt) (u.pt x) (u.σ label) := by
  unfold aboveC
  show seen u π (if cut.right = true then _ else _) = if cut.right = true then _ else _
  split
  · simp only [seen, seen_newLeaf, Change.data, seen_data, Mondrian.extend_change ha, Change.cut]
  · simp only [seen, seen_newLeaf, Change.data, seen_data, Mondrian.extend_change ha, Change.cut]

/-! ### The random choices -/

theorem extentSum_seen (ha : 0 < u.a) (b : Box K F) (x : Fin F → K) : extentSum (u.box b) (u.pt x) = u.a * extentSum b x := by
  unfold extentSum
  rw [Finset.mul_sum]
  exact Finset.sum_congr rfl fun i _ => Mondrian.extent_change ha b x i

theorem expo_seen (ha : 0 < u.a) (p : Params K) (ω : Nat → K) (pos : Nat) (b : Box K F) (x : Fin F → K) :
    (expo (u.par p) ω pos (u.box b) (u.pt x)).2 = (expo p ω pos b x).2 ∧
      ((expo (u.par p) ω pos (u.box b) (u.pt x)).1 = (expo p ω pos b x).1 / u.a ∨
        ((expo (u.par p) ω pos (u.box b) (u.pt x)).1 = -1 ∧ (expo p ω pos b x).1 = -1)) := by
  unfold expo
  rw [extentSum_seen ha]
  by_cases h : extentSum b x = 0
  · rw [if_pos h, if_pos (by rw [h, mul_zero])]
    exact ⟨rfl, Or.inr ⟨rfl, rfl⟩⟩
  · rw [if_neg h, if_neg (mul_ne_zero ha.ne' h)]
    refine ⟨rfl, Or.inl ?_⟩
    show p.log (1 - ω pos) / _ = p.log (1 - ω pos) / _ / _
    rw [div_div]
    congr 1
    ring

theorem drawCut_seen (ha : 0 < u.a) (ω : Nat → K) (pos : Nat) (b : Box K F) (x : Fin F → K) (tau : K) (hs : extentSum b x ≠ 0) :
    drawCut ω pos (u.box b) (u.pt x) (tau / u.a) = (drawCut ω pos b x tau).map (fun r => (u.cut r.1, r.2)) := by
  have hpos : 0 < extentSum b x := lt_of_le_of_ne (Mondrian.sum_nonneg' b x) (Ne.symm hs)
  have he : extent (u.box b) (u.pt x) = fun i => u.a * extent b x i := funext fun i => Mondrian.extent_change ha b x i
  have hp : pickDim ω pos (fun i => u.a * extent b x i) (u.a * extentSum b x) = pickDim ω pos (extent b x) (extentSum b x) := by
    unfold pickDim
    have : List.ofFn (fun i => u.a * extent b x i) = (List.ofFn (extent b x)).map (u.a * ·) := by rw [List.map_ofFn]; rfl
    rw [this, Mondrian.turn_scale ha hpos]
  unfold drawCut
  rw [extentSum_seen ha, he, hp]
  cases pickDim ω pos (extent b x) (extentSum b x) with
  | error e => rfl
  | ok q => exact Mondrian.cutAt_change ha ω q.2 b x q.1 tau

theorem newBox_seen (ha : 0 < u.a) (c : Config K) (b : Box K F) (x : Fin F → K) : newBox c (u.box b) (u.pt x) = u.box (newBox c b x) := by
  unfold newBox
  by_cases hc : c.extend = .barycenter
  · rw [if_pos hc, if_pos hc]
    simp only [Change.box, Change.pt_lt ha, Box.mk.injEq]
    constructor
    · funext i
      simp only [Change.pt]
      split <;> ring
    · funext i
      simp only [Change.pt]
      split <;> ring
  · rw [if_neg hc, if_neg hc]
    exact Mondrian.extend_change ha b x

theorem parentCounts_seen (e : Extend) (cnt : Fin L → Nat) (label : Fin L) :
    parentCounts e (fun _ => 0) (u.fn cnt) (u.σ label) = u.fn (parentCounts e (fun _ => 0) cnt label) := by
  cases e <;> first | rfl | exact Mondrian.bump_change cnt label

/-! ### Two states -/

/-- Two states whose trees with number `tree` are `T` and `T` seen in the other way -/
structure Both (u : Change K F L) (π : Nat → Nat) (s s' : State K F L) (tree : Nat) (T : Tree K F L) : Prop where
  l : Ready s.forest tree T
  r : Ready s'.forest tree (seen u π T)
  lf : s.free = (avail s.forest.nodes).length
  rf : s'.free = (avail s'.forest.nodes).length
  free : s'.free = s.free
  bases : s'.bases = s.bases
  base : ∃ b, s.bases[tree]? = some b
  l1 : s.fading.length = s.forest.nodes.length
  r1 : s'.fading.length = s'.forest.nodes.length
  l2 : s.forced.length = s.forest.nodes.length
  r2 : s'.forced.length = s'.forest.nodes.length
  zl : ∀ k ∈ avail s.forest.nodes, s.fading[k]? = some 0
  zr : ∀ k ∈ avail s'.forest.nodes, s'.fading[k]? = some 0
  fading : ∀ k ∈ T.ids, s'.fading[π k]? = s.fading[k]?

/-- What a step does to both states -/
structure Moved (u : Change K F L) (π π1 : Nat → Nat) (s s' s1 s1' : State K F L) (tree : Nat) (T T1 : Tree K F L) : Prop where
  keep : ∀ k, k ∉ avail s.forest.nodes → π1 k = π k
  dl : Done s s1 tree T T1
  dr : Done s' s1' tree (seen u π T) (seen u π1 T1)
  sl : ∀ k ∈ avail s1.forest.nodes, k ∈ avail s.forest.nodes
  ol : ∀ k, k ∉ T.ids → k ∉ avail s.forest.nodes → s1.fading[k]? = s.fading[k]?
  or : ∀ k, k ∉ (seen u π T).ids → k ∉ avail s'.forest.nodes → s1'.fading[k]? = s'.fading[k]?
  zl : ∀ k ∈ avail s1.forest.nodes, s1.fading[k]? = some 0
  zr : ∀ k ∈ avail s1'.forest.nodes, s1'.fading[k]? = some 0
  fading : ∀ k ∈ T1.ids, s1'.fading[π1 k]? = s1.fading[k]?

theorem Moved.both {π1 : Nat → Nat} {s s' s1 s1' : State K F L} {tree : Nat} {T T1 : Tree K F L} (h : Both u π s s' tree T)
    (m : Moved u π π1 s s' s1 s1' tree T T1) : Both u π1 s1 s1' tree T1 := by
  have e1 := m.dl.cover.length_eq
  have e2 := m.dr.cover.length_eq
  simp only [List.length_append, seen_ids, List.length_map] at e1 e2
  have f0 := h.free
  have f1 := h.lf
  have f2 := h.rf
  have f3 := m.dl.free
  have f4 := m.dr.free
  exact ⟨m.dl.ready, m.dr.ready, m.dl.free, m.dr.free, by omega, by rw [m.dl.bases, m.dr.bases, h.bases], by rw [m.dl.bases]; exact h.base,
    by rw [m.dl.fading, m.dl.length, h.l1], by rw [m.dr.fading, m.dr.length, h.r1], by rw [m.dl.forced, m.dl.length, h.l2],
    by rw [m.dr.forced, m.dr.length, h.r2], m.zl, m.zr, m.fading⟩

theorem Moved.refl {s s' : State K F L} {tree : Nat} {T : Tree K F L} (h : Both u π s s' tree T) : Moved u π π s s' s s' tree T T :=
  ⟨fun _ _ => rfl, Done.refl h.l h.lf, Done.refl h.r h.rf, fun _ h => h, fun _ _ _ => rfl, fun _ _ _ => rfl, h.zl, h.zr, h.fading⟩

theorem Moved.trans {π1 π2 : Nat → Nat} {s s' s1 s1' s2 s2' : State K F L} {tree : Nat} {T T1 T2 : Tree K F L}
    (m : Moved u π π1 s s' s1 s1' tree T T1) (m' : Moved u π1 π2 s1 s1' s2 s2' tree T1 T2) : Moved u π π2 s s' s2 s2' tree T T2 := by
  refine ⟨fun k hk => ?_, m.dl.trans m'.dl, m.dr.trans m'.dr, fun k hk => m.sl k (m'.sl k hk), fun k h1 h2 => ?_, fun k h1 h2 => ?_, m'.zl, m'.zr, m'.fading⟩
  · rw [m'.keep k (fun h => hk (m.sl k h)), m.keep k hk]
  · have hm : k ∉ avail s1.forest.nodes ++ T1.ids := by
      rw [m.dl.cover.mem_iff, List.mem_append]
      exact fun h => h.elim h2 h1
    rw [List.mem_append, not_or] at hm
    rw [m'.ol k hm.2 hm.1, m.ol k h1 h2]
  · have hm : k ∉ avail s1'.forest.nodes ++ (seen u π1 T1).ids := by
      rw [m.dr.cover.mem_iff, List.mem_append]
      exact fun h => h.elim h2 h1
    rw [List.mem_append, not_or] at hm
    rw [m'.or k hm.2 hm.1, m.or k h1 h2]

/-- the test of the tree management gives the same in both -/
theorem paused_seen (c : Config K) {s s' : State K F L} {tree : Nat} {fs : List (Frame K F L)} {t : Tree K F L} (h : Both u π s s' tree (plug fs t)) :
    paused c s' tree (seen u π t).id = paused c s tree t.id := by
  obtain ⟨base, hb⟩ := h.base
  have hb' : s'.bases[tree]? = some base := by rw [h.bases]; exact hb
  have hr := h.r
  rw [seen_plug] at hr
  have hlen := ready_length h.l
  have hlen' := ready_length hr
  by_cases hd : c.isCobble = true ∧ ¬ t.height ≤ 101
  · obtain ⟨-, ht, -, -, -, -⟩ := h.l.parts
    obtain ⟨-, ht', -, -, -, -⟩ := hr.parts
    unfold paused
    simp only [rd_eq_ok_iff.2 hb, rd_eq_ok_iff.2 hb', bind, Except.bind, hd.1, if_true, nodeDepth_deep ht (by omega) (by omega),
      nodeDepth_deep ht' (by rw [seen_height]; omega) (by omega)]
  · have hc : c.isCobble = true → t.height ≤ 101 := fun hcc => by
      by_contra hn
      exact hd ⟨hcc, hn⟩
    obtain ⟨b, e1, e2⟩ := paused_spec c s tree hb h.l hc
    obtain ⟨b', e1', e2'⟩ := paused_spec c s' tree hb' hr (fun hcc => by rw [seen_height]; exact hc hcc)
    rw [e1, e1']
    congr 1
    have : Room c base (fs.map (seenF u π)).length (seen u π t) = Room c base fs.length t := by
      unfold Room
      rw [seen_height, List.length_map]
    rw [this, ← e2] at e2'
    cases b <;> cases b' <;> simp_all

end Orp.Coarse
