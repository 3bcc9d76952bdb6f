import Verif.Hoeffding.Model
import Mathlib.Algebra.Order.BigOperators.Group.Finset
import Mathlib.Tactic.Ring
import Mathlib.Tactic.Linarith
import Mathlib.Tactic.FieldSimp

/-!
The counters of a leaf as one list of bins per feature, and closed forms of the functions that walk over them.
-/

namespace Orp.Hoeffding

set_option linter.unusedSectionVars false

variable {K : Type} [Field K] [LinearOrder K] {L : Nat}

theorem rd_append {α : Type} (pre : List α) (rest : List α) (i : Nat) : rd (pre ++ rest) (pre.length + i) = rd rest i := by
  simp [rd, List.getElem?_append_right]

theorem wr_append {α : Type} (pre : List α) (rest : List α) (i : Nat) (x : α) :
    wr (pre ++ rest) (pre.length + i) x = (wr rest i x).map (pre ++ ·) := by
  unfold wr
  by_cases h : i < rest.length
  · have h' : pre.length + i < (pre ++ rest).length := by simp [h]
    rw [if_pos h, if_pos h']
    simp [Except.map, List.set_append_right]
  · have h' : ¬ pre.length + i < (pre ++ rest).length := by simp at h ⊢; exact h
    rw [if_neg h, if_neg h']
    rfl

/-! ### Bins -/

/-- The bin of a value: the position of the first limit above it -/
def binOf (limits : List (Dbl K)) (x : K) : Nat := limits.findIdx (fun l => Dbl.lt (.fin x) l)

theorem binOf_le (limits : List (Dbl K)) (x : K) : binOf limits x ≤ limits.length := List.findIdx_le_length

theorem findBin_eq (pre post : List (Dbl K)) (x : K) : ∀ (lims : List (Dbl K)) (before : List (Dbl K)),
    findBin (pre ++ before ++ lims ++ post) pre.length x before.length lims.length = .ok (before.length + binOf lims x) := by
  intro lims
  induction lims with
  | nil => intro before; simp [findBin, binOf]
  | cons l rest ih =>
      intro before
      have h1 : rd (pre ++ before ++ l :: rest ++ post) (pre.length + before.length) = .ok l := by
        simp [rd_eq_ok_iff]
      have h2 := ih (before ++ [l])
      simp only [List.length_cons, findBin, h1, bind, Except.bind, pure, Except.pure]
      by_cases hl : Dbl.lt (.fin x) l = true
      · rw [if_pos hl]
        simp [binOf, List.findIdx_cons, hl]
      · rw [if_neg hl]
        simp only [List.length_append, List.length_cons, List.length_nil, List.append_assoc, List.cons_append, List.nil_append] at h2 ⊢
        rw [h2]
        simp [binOf, List.findIdx_cons, hl]
        omega

/-- The bins of one feature with one more point -/
def addTo (g : List (Fin L → Nat)) (i : Nat) (label : Fin L) : List (Fin L → Nat) := g.modify i (fun c => bump c label)

/-- The bins of all features, from feature `f` on, with one more point -/
def addPoint (x : Nat → K) (label : Fin L) : Nat → List (List (Fin L → Nat)) → List (List (Dbl K)) → List (List (Fin L → Nat))
  | f, g :: gs, lg :: lgs => addTo g (binOf lg (x f)) label :: addPoint x label (f + 1) gs lgs
  | _, _, _ => []

theorem length_addTo (g : List (Fin L → Nat)) (i : Nat) (label : Fin L) : (addTo g i label).length = g.length := by
  simp [addTo]

theorem wr_addTo {g : List (Fin L → Nat)} {i : Nat} (label : Fin L) (h : i < g.length) (post : List (Fin L → Nat)) :
    ∃ c, rd (g ++ post) i = .ok c ∧ wr (g ++ post) i (bump c label) = .ok (addTo g i label ++ post) := by
  refine ⟨g[i], ?_, ?_⟩
  · rw [rd_eq_ok_iff, List.getElem?_append_left h]; simp
  · rw [wr_ok _ (by simp; omega)]
    congr 1
    rw [List.set_append_left _ _ h]
    congr 1
    simp [addTo, List.modify_eq_set_getElem?, h]

theorem fillBins_eq (x : Nat → K) (label : Fin L) (post : List (Dbl K)) : ∀ (gs : List (List (Fin L → Nat))) (lgs : List (List (Dbl K))) (f : Nat)
    (pre : List (Fin L → Nat)) (lpre : List (Dbl K)), gs.map List.length = lgs.map (fun g => g.length + 1) → lpre.length + f = pre.length →
    fillBins (lpre ++ lgs.flatten ++ post) x label f pre.length (gs.map List.length) (pre ++ gs.flatten) = .ok (pre ++ (addPoint x label f gs lgs).flatten) := by
  intro gs
  induction gs with
  | nil => intro lgs f pre lpre h1 h2; simp [fillBins, addPoint]
  | cons g gs ih =>
      intro lgs f pre lpre h1 h2
      match lgs, h1 with
      | lg :: lgs, h1 =>
        simp only [List.map_cons, List.cons.injEq] at h1
        obtain ⟨hg, hgs⟩ := h1
        have hf : pre.length - f = lpre.length := by omega
        have hbin := findBin_eq lpre (lgs.flatten ++ post) (x f) lg []
        have hlt : binOf lg (x f) < g.length := by have := binOf_le lg (x f); omega
        obtain ⟨c, hc1, hc2⟩ := wr_addTo label hlt gs.flatten
        simp only [List.map_cons, fillBins, List.flatten_cons, hf]
        rw [if_neg (by omega)]
        have hk : g.length - 1 = lg.length := by omega
        simp only [List.append_nil, List.length_nil, Nat.zero_add, List.append_assoc] at hbin
        simp only [hk, List.append_assoc, hbin, bind, Except.bind, rd_append, hc1, wr_append, hc2, Except.map]
        have := ih lgs (f + 1) (pre ++ addTo g (binOf lg (x f)) label) (lpre ++ lg) hgs (by simp [length_addTo]; omega)
        simp only [List.length_append, length_addTo, List.append_assoc] at this
        simp only [addPoint, List.flatten_cons]
        exact this

/-! ### Counts and information gain -/

/-- Number of points per label in some bins -/
def tally (g : List (Fin L → Nat)) (l : Fin L) : Nat := (g.map (fun c => c l)).sum

theorem tally_append (a b : List (Fin L → Nat)) (l : Fin L) : tally (a ++ b) l = tally a l + tally b l := by simp [tally]

theorem tally_cons (c : Fin L → Nat) (b : List (Fin L → Nat)) (l : Fin L) : tally (c :: b) l = c l + tally b l := by simp [tally]

theorem sideSum_eq (pre post : List (Fin L → Nat)) : ∀ (g before : List (Fin L → Nat)) (acc : Fin L → Int),
    sideSum (pre ++ before ++ g ++ post) pre.length before.length g.length acc = .ok (fun l => acc l + (tally g l : Int)) := by
  intro g
  induction g with
  | nil => intro before acc; simp [sideSum, tally]
  | cons c g ih =>
      intro before acc
      have h1 : rd (pre ++ before ++ c :: g ++ post) (pre.length + before.length) = .ok c := by
        simp [rd_eq_ok_iff]
      have h2 := ih (before ++ [c]) (fun l => acc l + (c l : Int))
      simp only [List.length_cons, sideSum, h1, bind, Except.bind]
      simp only [List.length_append, List.length_cons, List.length_nil, List.append_assoc, List.cons_append, List.nil_append] at h2 ⊢
      rw [h2]
      congr 1
      funext l
      rw [tally_cons]
      push_cast
      omega

/-- Entropy after the cut in front of bin `n` -/
def cutAt (p : Params K) (g : List (Fin L → Nat)) (n : Nat) : K :=
  cutEntropy p (fun l => (tally (g.take n) l : Int)) (fun l => (tally (g.drop n) l : Int))

/-- Entropies of the cuts of one feature: in front of each bin but the first -/
def cutsOf (p : Params K) (g : List (Fin L → Nat)) : List K := (List.range (g.length - 1)).map (fun v => cutAt p g (v + 1))

theorem cutLoop_eq (p : Params K) (pre post : List (Fin L → Nat)) (g : List (Fin L → Nat)) : ∀ (k v : Nat), v + k ≤ g.length →
    cutLoop p (pre ++ g ++ post) pre.length v k (fun l => (tally (g.take v) l : Int)) (fun l => (tally (g.drop v) l : Int))
      = .ok ((List.range k).map (fun i => cutAt p g (v + i + 1))) := by
  intro k
  induction k with
  | zero => intro v _; simp [cutLoop]
  | succ k ih =>
      intro v hv
      have hlt : v < g.length := by omega
      have h1 : rd (pre ++ g ++ post) (pre.length + v) = .ok g[v] := by
        simp [rd_eq_ok_iff, List.getElem?_append_right, List.getElem?_append_left, hlt]
      have e0 : (fun l => (tally (g.take v) l : Int) + (g[v] l : Int)) = (fun l => (tally (g.take (v + 1)) l : Int)) := by
        funext l
        rw [List.take_add_one, tally_append]
        simp [tally, hlt]
      have e1 : (fun l => (tally (g.drop v) l : Int) - (g[v] l : Int)) = (fun l => (tally (g.drop (v + 1)) l : Int)) := by
        funext l
        rw [List.drop_eq_getElem_cons hlt, tally_cons]
        push_cast
        omega
      have h2 := ih (v + 1) (by omega)
      simp only [cutLoop, h1, bind, Except.bind, e0, e1, h2, pure, Except.pure]
      congr 1
      rw [List.range_succ_eq_map]
      simp only [List.map_cons, List.map_map, Nat.add_zero, cutAt]
      congr 1
      apply List.map_congr_left
      intro i _
      simp only [Function.comp_apply, Nat.succ_eq_add_one]
      have : v + 1 + i + 1 = v + (i + 1) + 1 := by omega
      rw [this]

theorem featureEntropy_eq (p : Params K) (pre post : List (Fin L → Nat)) (g : List (Fin L → Nat)) :
    featureEntropy p (pre ++ g ++ post) pre.length g.length = .ok (cutsOf p g) := by
  have h1 := sideSum_eq pre post g [] (fun _ => 0)
  have h2 := cutLoop_eq p pre post g (g.length - 1) 0 (by omega)
  simp only [List.append_nil, List.length_nil, Int.zero_add] at h1
  simp only [List.take_zero, List.drop_zero, tally, List.map_nil, List.sum_nil, Nat.cast_zero, Nat.zero_add] at h2
  simp only [featureEntropy, h1, bind, Except.bind, tally]
  exact h2

theorem entropies_eq (p : Params K) : ∀ (gs : List (List (Fin L → Nat))) (pre : List (Fin L → Nat)),
    entropies p (pre ++ gs.flatten) pre.length (gs.map List.length) = .ok (gs.flatMap (cutsOf p)) := by
  intro gs
  induction gs with
  | nil => intro pre; simp [entropies]
  | cons g gs ih =>
      intro pre
      have h1 := featureEntropy_eq p pre gs.flatten g
      have h2 := ih (pre ++ g)
      simp only [List.length_append, List.append_assoc] at h1 h2
      simp only [List.map_cons, List.flatten_cons, entropies, h1, h2, bind, Except.bind, pure, Except.pure, List.flatMap_cons]

/-- Information gain of the cut in front of bin `n` of a feature, in a leaf with `count` points, `h l` of them with label `l` -/
def gainAt (p : Params K) (count : Nat) (h : Fin L → Nat) (g : List (Fin L → Nat)) (n : Nat) : K :=
  leafEntropy p count (fun l => (h l : Int)) - cutAt p g n

/-- Information gains of the cuts of one feature -/
def gainsOf (p : Params K) (count : Nat) (h : Fin L → Nat) (g : List (Fin L → Nat)) : List K :=
  (List.range (g.length - 1)).map (fun v => gainAt p count h g (v + 1))

theorem gains_eq (p : Params K) (count : Nat) (gs : List (List (Fin L → Nat))) (h : Fin L → Nat) (hs : gs.map List.length = p.sizes) (hne : gs ≠ [])
    (hh : ∀ g ∈ gs, tally g = h) : gains p count gs.flatten = .ok (gs.flatMap (gainsOf p count h)) := by
  have h2 := entropies_eq p gs []
  match gs, hne with
  | g :: gs, _ =>
    have h1 := sideSum_eq [] gs.flatten g [] (fun _ => 0)
    have hg := hh g (by simp)
    simp only [List.append_nil, List.nil_append, List.length_nil, Int.zero_add] at h1 h2
    have h0 : rd p.sizes 0 = .ok g.length := by rw [← hs]; simp [rd]
    rw [hs] at h2
    have h3 : (fun l => (tally g l : Int)) = (fun l => (h l : Int)) := by rw [hg]
    rw [h3] at h1
    simp only [gains, h0, bind, Except.bind, List.flatten_cons, h1]
    simp only [List.flatten_cons] at h2
    simp only [h2, pure, Except.pure, List.map_flatMap]
    congr 2
    funext a
    simp [cutsOf, gainsOf, gainAt, Function.comp_def]

theorem length_gainsOf (p : Params K) (count : Nat) (h : Fin L → Nat) (g : List (Fin L → Nat)) : (gainsOf p count h g).length = g.length - 1 := by
  simp [gainsOf]

theorem length_flatMap_gains (p : Params K) (count : Nat) (h : Fin L → Nat) : ∀ (gs : List (List (Fin L → Nat))), (∀ g ∈ gs, 1 ≤ g.length) →
    (gs.flatMap (gainsOf p count h)).length + gs.length = (gs.map List.length).sum := by
  intro gs
  induction gs with
  | nil => intro _; simp
  | cons g gs ih =>
      intro hg
      have := ih (fun g' h' => hg g' (by simp [h']))
      have h1 := hg g (by simp)
      simp only [List.flatMap_cons, List.length_append, length_gainsOf, List.length_cons, List.map_cons, List.sum_cons]
      omega

/-! ### A point is added once to each feature -/

theorem tally_addTo {g : List (Fin L → Nat)} {i : Nat} (label : Fin L) (h : i < g.length) : tally (addTo g i label) = bump (tally g) label := by
  funext l
  induction g generalizing i with
  | nil => simp at h
  | cons c g ih =>
      cases i with
      | zero =>
          simp only [addTo, List.modify_zero_cons, tally_cons, bump]
          split <;> omega
      | succ i =>
          have := ih (i := i) (by simpa using h)
          simp only [addTo] at this
          simp only [addTo, List.modify_succ_cons, tally_cons, this, bump]
          split <;> omega

theorem addPoint_lengths (x : Nat → K) (label : Fin L) : ∀ (gs : List (List (Fin L → Nat))) (lgs : List (List (Dbl K))) (f : Nat),
    gs.map List.length = lgs.map (fun g => g.length + 1) → (addPoint x label f gs lgs).map List.length = gs.map List.length := by
  intro gs
  induction gs with
  | nil => intro lgs f h; simp [addPoint]
  | cons g gs ih =>
      intro lgs f h
      match lgs, h with
      | lg :: lgs, h =>
        simp only [List.map_cons, List.cons.injEq] at h
        simp [addPoint, length_addTo, ih lgs (f + 1) h.2]

theorem addPoint_tally (x : Nat → K) (label : Fin L) (h : Fin L → Nat) : ∀ (gs : List (List (Fin L → Nat))) (lgs : List (List (Dbl K))) (f : Nat),
    gs.map List.length = lgs.map (fun g => g.length + 1) → (∀ g ∈ gs, tally g = h) → ∀ g ∈ addPoint x label f gs lgs, tally g = bump h label := by
  intro gs
  induction gs with
  | nil => intro lgs f _ _ g hg; simp [addPoint] at hg
  | cons g gs ih =>
      intro lgs f hl ht g' hg'
      match lgs, hl with
      | lg :: lgs, hl =>
        simp only [List.map_cons, List.cons.injEq] at hl
        simp only [addPoint, List.mem_cons] at hg'
        rcases hg' with rfl | hg'
        · rw [tally_addTo label (by have := binOf_le lg (x f); omega), ht g (by simp)]
        · exact ih lgs (f + 1) hl.2 (fun g'' h'' => ht g'' (by simp [h''])) g' hg'

theorem sum_bump (h : Fin L → Nat) (label : Fin L) : ∑ l, bump h label l = (∑ l, h l) + 1 := by
  have : ∀ l, bump h label l = h l + (if l = label then 1 else 0) := by
    intro l; simp only [bump]; split <;> omega
  simp [this, Finset.sum_add_distrib]

end Orp.Hoeffding
