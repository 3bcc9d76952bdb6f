import Verif.Coarse.History
import Verif.Mondrian.Props

/-!
Trees deeper than the stack of `node_depth`: the loop leaves its array of 100 entries, and training reaches such trees.
-/

set_option linter.unusedSectionVars false

namespace Orp.Coarse

open Finset
open Mondrian (Node Box Forest Params Cut init extent Tree Data Holds plug avail lt_of_get newLeaf exω exP pt)

variable {K : Type} [Field K] [LinearOrder K] [IsStrictOrderedRing K] [FloorRing K] {F L : Nat}

/-- Training is undefined behaviour if the depth of the tree is limited and the tree has height 102 or more. -/
theorem trainTree_deep (c : Config K) (hm : c.extend ≠ .none) (hc : c.isCobble = true) (p : Params K) (ω : Nat → K) (x : Fin F → K) (label : Fin L)
    (s : State K F L) (trees : List (Option (Tree K F L))) (hI : Inv s trees) (i pos : Nat) (t : Tree K F L) (hi : trees[i]? = some (some t))
    (hh : 102 ≤ t.height) : trainTree c p ω x label i s pos = .error .ub := by
  have hr := rd_eq_ok_iff.2 (hI.mem.root hi)
  have hrdy := hI.mem.ready hi
  have hlen := ready_length (fs := []) hrdy
  have hh2 := hI.mem.height_le hi
  obtain ⟨n, hn, hhas⟩ := Mondrian.holds_root hrdy.holds
  have hb : ∃ b, s.bases[i]? = some b := ⟨s.bases[i]'(by rw [hI.bases]; exact lt_of_get hi), List.getElem?_eq_getElem _⟩
  obtain ⟨b, hb⟩ := hb
  have hp : paused c s i t.id = .error .ub := by
    unfold paused
    simp only [rd_eq_ok_iff.2 hb, bind, Except.bind, hc, if_true, nodeDepth_deep hrdy.holds hh (by simp only [List.length_nil] at hlen; omega)]
  unfold trainTree
  simp only [hr, bind, Except.bind, Option.map_some]
  rw [if_neg hm]
  obtain ⟨f, hf⟩ : ∃ f, s.forest.nodes.length = f + 1 := ⟨s.forest.nodes.length - 1, by omega⟩
  rw [hf, extendBlock]
  simp only [rd_eq_ok_iff.2 hn, bind, Except.bind, hhas.1, hhas.2.2.1, init, hp]

/-! ### A history with deeper and deeper trees -/

/-- the points 0, 1, 3, 7, ... -/
def far (k : Nat) : Fin 1 → ℚ := pt (2 ^ k - 1)

/-- the state after `k + 1` of these points -/
def Deep (n : Nat) (limit : Int) (k : Nat) (s : State ℚ 1 2) : Prop :=
  ∃ t b, Inv s [some t] ∧ t.height = k + 1 ∧ t.ids.length = 2 * k + 1 ∧ t.data.box = ⟨pt 0, far k⟩ ∧ 1 / 2 / 2 ^ k < t.data.tau ∧
    s.forest.nodes.length = n ∧ s.bases = [b] ∧ b.limit = limit

theorem far_expo (pos k : Nat) : (expo exP (exω []) pos ⟨pt 0, far k⟩ (far (k + 1))).1 = 1 / 2 / 2 ^ k := by
  have h2 : (1 : ℚ) ≤ 2 ^ k := one_le_pow₀ (by norm_num)
  have hs : extentSum ⟨pt 0, far k⟩ (far (k + 1)) = 2 ^ k := by
    unfold extentSum extent far pt
    rw [Fin.sum_univ_one, pow_succ]
    simp only
    rw [if_neg (by linarith), if_pos (by linarith)]
    ring
  unfold expo
  rw [hs, if_neg (by linarith)]
  simp only [exP, exω, List.not_mem_nil, if_false]
  field_simp
  norm_num

theorem far_extend (k : Nat) : (⟨pt 0, far k⟩ : Box ℚ 1).extend (far (k + 1)) = ⟨pt 0, far (k + 1)⟩ := by
  have h2 : (1 : ℚ) ≤ 2 ^ k := one_le_pow₀ (by norm_num)
  unfold Box.extend far pt
  simp only [Box.mk.injEq]
  constructor <;> funext i <;> rw [pow_succ]
  · rw [if_neg (by linarith)]
  · rw [if_pos (by linarith)]

/-- training with one tree and without trimming -/
theorem train_one (c : Config ℚ) (ht : c.trim = .none) (x : Fin 1 → ℚ) (s : State ℚ 1 2) (pos : Nat) (o : Option (Tree ℚ 1 2)) (hI : Inv s [o]) :
    train c exP (exω []) x 0 s pos = (do
      let (s, pos, r) ← trainTree c exP (exω []) x 0 0 s pos
      return ({ s with total := s.total + 1 }, pos, r)) := by
  have hr : s.forest.roots.length = 1 := by rw [hI.mem.all.roots]; rfl
  unfold train
  simp only [ht, if_neg (show ¬ (Trim.none = Trim.fading) by decide), bind, Except.bind, ne_eq, not_true_eq_false, false_and, if_false, hr, trainLoop]
  cases trainTree c exP (exω []) x 0 0 s pos with
  | error e => rfl
  | ok r => simp only [Bool.true_and]

theorem deep_step (c : Config ℚ) (hm : c.extend = .original) (ht : c.trim = .none) (hc : c.isCobble = true) (n : Nat) (limit : Int) (k : Nat) (hk : k + 1 ≤ 101)
    (hlim : (k : Int) + 2 ≤ limit) (hn : 2 * k + 3 ≤ n) (s : State ℚ 1 2) (pos : Nat) (h : Deep n limit k s) :
    ∃ s' pos', train c exP (exω []) (far (k + 1)) 0 s pos = .ok (s', pos', true) ∧ Deep n limit (k + 1) s' := by
  obtain ⟨t, b, hI, h1, h2, h3, h4, h5, h6, h7⟩ := h
  have hi : ([some t] : List (Option (Tree ℚ 1 2)))[0]? = some (some t) := rfl
  have hrdy := hI.mem.ready hi
  have hb : s.bases[0]? = some b := by rw [h6]; rfl
  obtain ⟨nd, hn1, hhas⟩ := Mondrian.holds_root hrdy.holds
  obtain ⟨pause, hp1, hp2⟩ := paused_spec c s 0 (fs := []) hb hrdy (fun _ => by omega)
  have hroom : pause = false := hp2.2 (by
    unfold Room
    rw [if_pos hc, h7, h1, List.length_nil]
    push_cast
    linarith)
  have hcov : (avail s.forest.nodes ++ (t.ids ++ [])).length = _ := hI.mem.cover.length_eq
  simp only [List.length_append, List.length_range, List.length_nil] at hcov
  have hfree : 2 ≤ s.free := by
    rw [hI.free]
    omega
  have hE : (expo exP (exω []) pos t.data.box (far (k + 1))).1 = 1 / 2 / 2 ^ k := by rw [h3]; exact far_expo pos k
  have hpos : (0 : ℚ) < 1 / 2 / 2 ^ k := by positivity
  obtain ⟨cut, pos2, d1, d2, d3⟩ := drawCut_ok (exω []) (fun i => by unfold exω; norm_num) (expo exP (exω []) pos t.data.box (far (k + 1))).2 t.data.box (far (k + 1))
    (0 + (expo exP (exω []) pos t.data.box (far (k + 1))).1) (expo_nonneg (by rw [hE]; exact hpos.le))
  obtain ⟨np, ns, s1, i1, i2⟩ := insert_spec c exP (by norm_num [exP]) s 0 cut (far (k + 1)) 0 [] t hrdy hI.free hfree (by rw [d3, hE]; linarith)
  have hid := hI.done hi i2
  simp only [plug, List.set_cons_zero] at hid
  obtain ⟨f, hf⟩ : ∃ f, s.forest.nodes.length = f + 1 := ⟨s.forest.nodes.length - 1, by omega⟩
  have hext : extendBlock c exP (exω []) (far (k + 1)) 0 0 s.forest.nodes.length t.id pos s = .ok (s1, pos2) := by
    rw [hf, extendBlock_step c exP (exω []) (far (k + 1)) 0 0 f pos s (fs := []) hrdy hn1 hp1]
    simp only [Mondrian.ctxTau, bind, Except.bind]
    have hcond : 0 ≤ (expo exP (exω []) pos t.data.box (far (k + 1))).1 ∧ 0 + (expo exP (exω []) pos t.data.box (far (k + 1))).1 < t.data.tau ∧ 2 ≤ s.free ∧
        pause = false := ⟨by rw [hE]; exact hpos.le, by rw [hE]; linarith, hfree, hroom⟩
    simp only [d1, i1, hm, pure, Except.pure]
    rw [if_pos hcond]
    rfl
  refine ⟨{ s1 with total := s1.total + 1 }, pos2, ?_, _, b, ⟨hid.mem, hid.free, hid.fading, hid.forced, hid.scores, hid.bases⟩, ?_, ?_, ?_, ?_, ?_, ?_, h7⟩
  · rw [train_one c ht _ s pos _ hI]
    unfold trainTree
    simp only [rd_eq_ok_iff.2 (hI.mem.root hi), bind, Except.bind, Option.map_some, hm, hext, pure, Except.pure]
    rfl
  · rw [aboveC_height, h1]
  · rw [(aboveC_ids ..).length_eq]
    simp only [List.length_cons, h2]
    omega
  · rw [← far_extend, ← h3]
    unfold aboveC
    split <;> rfl
  · have : (aboveC exP.lifetime np ns cut t (parentCounts c.extend (fun _ => 0) t.data.counts 0) (far (k + 1)) 0).data.tau = cut.tau := by
      unfold aboveC
      split <;> rfl
    rw [this, d3, hE, pow_succ, zero_add]
    have h2 : (0 : ℚ) < 2 ^ k := by positivity
    rw [div_lt_div_iff_of_pos_left (by norm_num) (by positivity) h2]
    linarith
  · show s1.forest.nodes.length = n
    rw [i2.length]; exact h5
  · show s1.bases = [b]
    rw [i2.bases]; exact h6

theorem deep_run (c : Config ℚ) (hm : c.extend = .original) (ht : c.trim = .none) (hc : c.isCobble = true) (n : Nat) (limit : Int) (hlim : 102 ≤ limit) (hn : 203 ≤ n) :
    ∀ (m k : Nat) (s : State ℚ 1 2) (pos : Nat), k + m = 101 → Deep n limit k s →
      run c exP (exω []) ((List.range' (k + 1) (m + 1)).map (fun i => Op.train (far i) 0)) s pos = .error .ub
  | 0, k, s, pos, hk, h => by
      obtain ⟨t, b, hI, h1, h2, h3, h4, h5, h6, h7⟩ := h
      have hd := trainTree_deep c (by rw [hm]; decide) hc exP (exω []) (far (k + 1)) 0 s _ hI 0 pos t rfl (by omega)
      simp only [List.range'_succ, List.map_cons, run, exec, train_one c ht (far (k + 1)) s pos _ hI, hd, bind, Except.bind]
  | m + 1, k, s, pos, hk, h => by
      obtain ⟨s', pos', e1, e2⟩ := deep_step c hm ht hc n limit k (by omega) (by omega) (by omega) s pos h
      have ih := deep_run c hm ht hc n limit hlim hn m (k + 1) s' pos' (by omega) e2
      rw [List.range'_succ, List.map_cons, run]
      simp only [exec, e1, bind, Except.bind, pure, Except.pure]
      exact ih

theorem deep_first (c : Config ℚ) (ht : c.trim = .none) (hc : c.isCobble = true) (n : Nat) (hn : 0 < n) (s : State ℚ 1 2) (sizeNode sizeBase maxSize : Nat) (j : Int) (last : Nat)
    (h : new c maxSize sizeNode sizeBase [j] last = .ok s) (hs : s.forest.nodes.length = n) (pos : Nat) :
    ∃ s', train c exP (exω []) (far 0) 0 s pos = .ok (s', pos, true) ∧ Deep n c.sizeLimit 0 s' := by
  obtain ⟨g, -, g2, g3, -⟩ := new_spec c maxSize sizeNode sizeBase [j] last s h True (fun _ => trivial)
  have hI : Inv s [none] := g.inv
  have hcov : (avail s.forest.nodes ++ []).length = _ := hI.mem.cover.length_eq
  simp only [List.length_append, List.length_range, List.length_nil] at hcov
  rcases trainTree_none c exP (by norm_num [exP]) (exω []) (far 0) 0 s [none] hI 0 pos rfl with ⟨h1, -⟩ | ⟨s1, a, h1, h2, h3, h4, h5, -⟩
  · rw [h1, List.length_nil] at hcov; omega
  · obtain ⟨b, hb⟩ := List.length_eq_one_iff.1 g2
    refine ⟨{ s1 with total := s1.total + 1 }, ?_, _, b, ⟨h2.mem, h2.free, h2.fading, h2.forced, h2.scores, h2.bases⟩, rfl, rfl, ?_, ?_, ?_, ?_, g3 hc b (by rw [hb]; simp)⟩
    · rw [train_one c ht _ s pos _ hI, h1]; rfl
    · show Box.point (far 0) = _
      simp only [Box.point, far, pow_zero, sub_self]
    · norm_num [newLeaf, exP, Tree.data]
    · show s1.forest.nodes.length = n
      rw [h3, hs]
    · show s1.bases = [b]
      rw [h4, hb]

end Orp.Coarse
