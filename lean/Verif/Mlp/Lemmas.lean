import Verif.Mlp.Spec
import Mathlib.Tactic.Ring
import Mathlib.Tactic.Linarith
import Mathlib.Tactic.LinearCombination
import Mathlib.Algebra.BigOperators.Ring.Finset

/-! Helper lemmas for the perceptron. -/

set_option linter.unusedSectionVars false

open Finset

namespace Orp.Mlp

variable {K : Type} [Field K]

/-! ### addresses -/

theorem wB_mono (n : Nat → Nat) {a b : Nat} (h : a ≤ b) : wB n a ≤ wB n b := by
  induction h with
  | refl => exact le_rfl
  | step _ ih => exact ih.trans (by simp [wB])

theorem oB_mono (n : Nat → Nat) {a b : Nat} (h : a ≤ b) : oB n a ≤ oB n b := by
  induction h with
  | refl => exact le_rfl
  | step _ ih => exact ih.trans (by simp [oB])

theorem addr_lt_next {n : Nat → Nat} {last l j i : Nat} (h : Valid n last l j i) : addr n l j i < wB n (l + 1) := by
  obtain ⟨_, h2, h3⟩ := h
  have : j * (n l + 1) + (n l + 1) ≤ (n l + 1) * n (l + 1) := by
    calc j * (n l + 1) + (n l + 1) = (n l + 1) * (j + 1) := by ring
      _ ≤ _ := Nat.mul_le_mul_left _ h2
  simp only [addr, wB]; omega

theorem addr_lt {n : Nat → Nat} {last l j i : Nat} (h : Valid n last l j i) : addr n l j i < wB n last :=
  lt_of_lt_of_le (addr_lt_next h) (wB_mono n h.1)

theorem addr_inj {n : Nat → Nat} {last l j i l' j' i' : Nat} (h : Valid n last l j i) (h' : Valid n last l' j' i')
    (he : addr n l j i = addr n l' j' i') : l = l' ∧ j = j' ∧ i = i' := by
  have hl : l = l' := by
    rcases lt_trichotomy l l' with hl | hl | hl
    · have h1 := addr_lt_next h
      have h2 : wB n (l + 1) ≤ wB n l' := wB_mono n hl
      have h3 : wB n l' ≤ addr n l' j' i' := by simp only [addr]; omega
      omega
    · exact hl
    · have h1 := addr_lt_next h'
      have h2 : wB n (l' + 1) ≤ wB n l := wB_mono n hl
      have h3 : wB n l ≤ addr n l j i := by simp only [addr]; omega
      omega
  subst hl
  have he' : j * (n l + 1) + i = j' * (n l + 1) + i' := by simp only [addr] at he; omega
  have hi : i < n l + 1 := Nat.lt_succ_of_le h.2.2
  have hi' : i' < n l + 1 := Nat.lt_succ_of_le h'.2.2
  have hj : j = j' := by
    have h1 : (j * (n l + 1) + i) / (n l + 1) = j := by
      rw [Nat.mul_comm, Nat.mul_add_div (by omega), Nat.div_eq_of_lt hi]; rfl
    have h2 : (j' * (n l + 1) + i') / (n l + 1) = j' := by
      rw [Nat.mul_comm, Nat.mul_add_div (by omega), Nat.div_eq_of_lt hi']; rfl
    rw [← h1, ← h2, he']
  subst hj
  exact ⟨rfl, rfl, by omega⟩

theorem oaddr_lt {n : Nat → Nat} {last l j : Nat} (hl : l ≤ last) (hj : j < n l) : oB n l + j < oB n (last + 1) := by
  have h1 : oB n (l + 1) ≤ oB n (last + 1) := oB_mono n (by omega)
  simp only [oB] at h1 ⊢; omega

theorem oaddr_inj {n : Nat → Nat} {l j l' j' : Nat} (hj : j < n l) (hj' : j' < n l') (he : oB n l + j = oB n l' + j') :
    l = l' ∧ j = j' := by
  have hl : l = l' := by
    rcases lt_trichotomy l l' with hl | hl | hl
    · have h2 : oB n (l + 1) ≤ oB n l' := oB_mono n hl
      simp only [oB] at h2; omega
    · exact hl
    · have h2 : oB n (l' + 1) ≤ oB n l := oB_mono n hl
      simp only [oB] at h2; omega
  subst hl
  exact ⟨rfl, by omega⟩

/-! ### loops without arithmetic -/

theorem copyLoop_spec (src : List K) (sb db : Nat) : ∀ (k i : Nat) (dst : List K), sb + i + k ≤ src.length → db + i + k ≤ dst.length →
    ∃ r, copyLoop src sb db i k dst = .ok r ∧ r.length = dst.length ∧
      ∀ p, r[p]? = if db + i ≤ p ∧ p < db + i + k then src[sb + (p - db)]? else dst[p]?
  | 0, i, dst, _, _ => ⟨dst, rfl, rfl, fun p => by rw [if_neg (by omega)]⟩
  | k + 1, i, dst, h1, h2 => by
      have hs : sb + i < src.length := by omega
      have hd : db + i < dst.length := by omega
      obtain ⟨r, a1, a2, a3⟩ := copyLoop_spec src sb db k (i + 1) (dst.set (db + i) src[sb + i]) (by omega) (by simp; omega)
      refine ⟨r, by simp only [copyLoop, rd_ok hs, wr_ok _ hd, bind, Except.bind, a1], by simpa using a2, fun p => ?_⟩
      rw [a3 p]
      by_cases hp : db + (i + 1) ≤ p ∧ p < db + (i + 1) + k
      · rw [if_pos hp, if_pos (by omega)]
      · rw [if_neg hp]
        by_cases he : p = db + i
        · subst he
          rw [if_pos (by omega), List.getElem?_set_self hd, show sb + (db + i - db) = sb + i by omega, List.getElem?_eq_getElem hs]
        · rw [if_neg (by omega), List.getElem?_set_ne (by omega)]

theorem n_rd (net : Net K) {l : Nat} (h : l < net.sizes.length) : rd net.sizes l = .ok (net.n l) := by
  rw [rd_eq_ok_iff, List.getElem?_eq_getElem h]; simp [Net.n, h]

theorem baseLoop_spec (net : Net K) : ∀ (k i : Nat), i + k < net.sizes.length →
    baseLoop net.sizes (i + 1) k (wB net.n i) = .ok (wB net.n (i + k))
  | 0, i, _ => rfl
  | k + 1, i, h => by
      simp only [baseLoop, Nat.add_sub_cancel, n_rd net (show i < net.sizes.length by omega),
        n_rd net (show i + 1 < net.sizes.length by omega), bind, Except.bind]
      have := baseLoop_spec net k (i + 1) (by omega)
      rw [show i + 1 + k = i + (k + 1) by omega] at this
      rw [← this]; rfl

theorem outLoop_spec (net : Net K) : ∀ (k i : Nat), i + k ≤ net.sizes.length →
    outLoop net.sizes i k (oB net.n i) = .ok (oB net.n (i + k))
  | 0, i, _ => rfl
  | k + 1, i, h => by
      simp only [outLoop, n_rd net (show i < net.sizes.length by omega), bind, Except.bind]
      have := outLoop_spec net k (i + 1) (by omega)
      rw [show i + 1 + k = i + (k + 1) by omega] at this
      rw [← this]; rfl

/-! ### feed forward -/

/-- `out` holds the values `v l j` for the neurons of the layers up to `last` -/
def Outs (n : Nat → Nat) (last : Nat) (out : List K) (v : Nat → Nat → K) : Prop :=
  oB n (last + 1) ≤ out.length ∧ ∀ l j, l ≤ last → j < n l → out[oB n l + j]? = some (v l j)

/-- `w` holds the weights `W` -/
def Weights (n : Nat → Nat) (last : Nat) (w : List K) (W : Nat → Nat → Nat → K) : Prop :=
  wB n last ≤ w.length ∧ ∀ l j i, Valid n last l j i → w[addr n l j i]? = some (W l j i)

def set2 (v : Nat → Nat → K) (l j : Nat) (x : K) : Nat → Nat → K := fun l' j' => if l' = l ∧ j' = j then x else v l' j'

theorem outs_set {n : Nat → Nat} {last : Nat} {out : List K} {v : Nat → Nat → K} (h : Outs n last out v) {l j : Nat} (hl : l ≤ last)
    (hj : j < n l) (x : K) : wr out (oB n l + j) x = .ok (out.set (oB n l + j) x) ∧ Outs n last (out.set (oB n l + j) x) (set2 v l j x) := by
  have hlt : oB n l + j < out.length := lt_of_lt_of_le (oaddr_lt hl hj) h.1
  refine ⟨wr_ok _ hlt, by simpa using h.1, fun l' j' hl' hj' => ?_⟩
  by_cases he : l' = l ∧ j' = j
  · obtain ⟨rfl, rfl⟩ := he
    rw [List.getElem?_set_self hlt]; simp [set2]
  · rw [List.getElem?_set_ne, h.2 l' j' hl' hj']
    · simp [set2, he]
    · intro h'
      have := oaddr_inj hj hj' h'
      exact he ⟨this.1.symm, this.2.symm⟩

theorem weights_set {n : Nat → Nat} {last : Nat} {w : List K} {W : Nat → Nat → Nat → K} (h : Weights n last w W) {l j i : Nat}
    (hv : Valid n last l j i) (x : K) :
    wr w (addr n l j i) x = .ok (w.set (addr n l j i) x) ∧ Weights n last (w.set (addr n l j i) x) (setW W l j i x) := by
  have hlt : addr n l j i < w.length := lt_of_lt_of_le (addr_lt hv) h.1
  refine ⟨wr_ok _ hlt, by simpa using h.1, fun l' j' i' hv' => ?_⟩
  by_cases he : l' = l ∧ j' = j ∧ i' = i
  · obtain ⟨rfl, rfl, rfl⟩ := he
    rw [List.getElem?_set_self hlt]; simp [setW]
  · rw [List.getElem?_set_ne, h.2 l' j' i' hv']
    · simp [setW, he]
    · intro h'
      obtain ⟨a, b, c⟩ := addr_inj hv hv' h'
      exact he ⟨a.symm, b.symm, c.symm⟩

theorem net_weights (net : Net K) (h : wB net.n net.last ≤ net.weights.length) : Weights net.n net.last net.weights net.W := by
  refine ⟨h, fun l j i hv => ?_⟩
  have hlt : addr net.n l j i < net.weights.length := lt_of_lt_of_le (addr_lt hv) h
  rw [List.getElem?_eq_getElem hlt]; simp [Net.W, hlt]

theorem sumLoop_spec {n : Nat → Nat} {last : Nat} {w out : List K} {W : Nat → Nat → Nat → K} {v : Nat → Nat → K} {l j : Nat}
    (hw : Weights n last w W) (ho : Outs n last out v) (hl : l < last) (hj : j < n (l + 1)) : ∀ (k i : Nat) (s : K), i + k = n l →
    s = (∑ m ∈ range i, W l j m * v l m) →
    sumLoop w out (wB n l + j * (n l + 1)) (oB n l) i k s = .ok (∑ m ∈ range (n l), W l j m * v l m)
  | 0, i, s, h, hs => by
      have : i = n l := by omega
      subst this
      simp only [sumLoop, hs]
  | k + 1, i, s, h, hs => by
      have h1 : rd w (wB n l + j * (n l + 1) + i) = .ok (W l j i) := rd_eq_ok_iff.2 (hw.2 l j i ⟨hl, hj, by omega⟩)
      have h2 : rd out (oB n l + i) = .ok (v l i) := rd_eq_ok_iff.2 (ho.2 l i (by omega) (by omega))
      simp only [sumLoop, h1, h2, bind, Except.bind]
      exact sumLoop_spec hw ho hl hj k (i + 1) _ (by omega) (by rw [hs, sum_range_succ])

theorem neuronLoop_spec (act : K → K) {n : Nat → Nat} {last : Nat} {w : List K} {W : Nat → Nat → Nat → K} {l : Nat} {a : Nat → K}
    (hw : Weights n last w W) (hl : l < last) : ∀ (k j : Nat) (out : List K) (v : Nat → Nat → K), j + k = n (l + 1) → Outs n last out v →
    (∀ i < n l, v l i = a i) →
    ∃ out' v', neuronLoop act w (n l) (wB n l) (oB n l) j k out = .ok out' ∧ Outs n last out' v' ∧ out'.length = out.length ∧
      (∀ l' ≤ l, v' l' = v l') ∧ (∀ i < j, v' (l + 1) i = v (l + 1) i) ∧
      (∀ i, j ≤ i → i < n (l + 1) → v' (l + 1) i = act (preact W n l a i))
  | 0, j, out, v, h, ho, ha => ⟨out, v, rfl, ho, rfl, fun _ _ => rfl, fun _ _ => rfl, fun i h1 h2 => by omega⟩
  | k + 1, j, out, v, h, ho, ha => by
      have hj : j < n (l + 1) := by omega
      have h1 := sumLoop_spec hw ho hl hj (n l) 0 0 (by omega) (by simp)
      have h2 : rd w (wB n l + j * (n l + 1) + n l) = .ok (W l j (n l)) := rd_eq_ok_iff.2 (hw.2 l j (n l) ⟨hl, hj, le_rfl⟩)
      have hs : (∑ m ∈ range (n l), W l j m * v l m) + W l j (n l) = preact W n l a j := by
        unfold preact
        congr 1
        apply sum_congr rfl
        intro m hm; rw [ha m (mem_range.1 hm)]
      obtain ⟨b1, b2⟩ := outs_set ho (show l + 1 ≤ last from hl) hj (act (preact W n l a j))
      have b1' : wr out (oB n l + n l + j) (act (preact W n l a j)) = .ok (out.set (oB n (l + 1) + j) (act (preact W n l a j))) := b1
      have hne : ∀ l' ≤ l, set2 v (l + 1) j (act (preact W n l a j)) l' = v l' := by
        intro l' hl'; funext i
        simp only [set2]; rw [if_neg (by omega)]
      obtain ⟨out', v', c1, c2, c2', c3, c4, c5⟩ := neuronLoop_spec act (a := a) hw hl k (j + 1) _ _ (by omega) b2
        (fun i hi => by rw [hne l le_rfl]; exact ha i hi)
      refine ⟨out', v', ?_, c2, by simpa using c2', fun l' hl' => by rw [c3 l' hl', hne l' hl'], fun i hi => ?_, fun i h1 h2 => ?_⟩
      · simp only [neuronLoop, h1, h2, bind, Except.bind, hs, b1', c1]
      · rw [c4 i (by omega)]; simp only [set2]; rw [if_neg (by omega)]
      · rcases h1.eq_or_lt with rfl | h1
        · rw [c4 j (by omega)]; simp [set2]
        · exact c5 i h1 h2

theorem layerLoop_spec (act : K → K) (net : Net K) {w : List K} {W : Nat → Nat → Nat → K} (hw : Weights net.n net.last w W) (x : Nat → K)
    (hL : 1 ≤ net.sizes.length) : ∀ (k l : Nat) (out : List K) (v : Nat → Nat → K), l + k = net.last → Outs net.n net.last out v →
    (∀ l' ≤ l, ∀ i < net.n l', v l' i = layerOut act W net.n x l' i) →
    ∃ out', layerLoop act net.sizes w (l + 1) k (wB net.n l) (oB net.n l) out = .ok (out', oB net.n net.last) ∧ out'.length = out.length ∧
      Outs net.n net.last out' (layerOut act W net.n x)
  | 0, l, out, v, h, ho, hv => by
      have : l = net.last := by omega
      subst this
      exact ⟨out, rfl, rfl, ho.1, fun l' j hl' hj => by rw [ho.2 l' j hl' hj, hv l' hl' j hj]⟩
  | k + 1, l, out, v, h, ho, hv => by
      have hll : net.last = net.sizes.length - 1 := rfl
      have hl : l < net.last := by omega
      obtain ⟨out1, v1, c1, c2, c2', c3, c4, c5⟩ := neuronLoop_spec act (a := layerOut act W net.n x l) hw hl (net.n (l + 1)) 0 out v (by omega) ho
        (hv l le_rfl)
      obtain ⟨out', d1, d2, d3⟩ := layerLoop_spec act net hw x hL k (l + 1) out1 v1 (by omega) c2 (by
        intro l' hl' i hi
        rcases hl'.eq_or_lt with rfl | hl'
        · rw [c5 i (by omega) hi]; rfl
        · rw [c3 l' (by omega)]; exact hv l' (by omega) i hi)
      refine ⟨out', ?_, by rw [d2, c2'], d3⟩
      simp only [layerLoop, Nat.add_sub_cancel, n_rd net (show l < net.sizes.length by omega),
        n_rd net (show l + 1 < net.sizes.length by omega), bind, Except.bind, c1]
      have e1 : wB net.n l + net.n (l + 1) * (net.n l + 1) = wB net.n (l + 1) := by simp only [wB]; ring
      have e2 : oB net.n l + net.n l = oB net.n (l + 1) := rfl
      rw [e1, e2]
      exact d1

theorem readLoop_spec (out : List K) (ob : Nat) : ∀ (k i : Nat) (acc : List K), ob + i + k ≤ out.length →
    readLoop out ob i k acc = .ok (acc ++ (List.range' i k).map (fun m => out.getD (ob + m) 0))
  | 0, i, acc, _ => by simp [readLoop]
  | k + 1, i, acc, h => by
      have hi : ob + i < out.length := by omega
      simp only [readLoop, rd_ok hi, bind, Except.bind]
      rw [readLoop_spec out ob k (i + 1) _ (by omega)]
      simp [List.range'_succ, hi]

theorem net_outs (net : Net K) (h : oB net.n (net.last + 1) ≤ net.out.length) :
    Outs net.n net.last net.out (fun l j => net.out.getD (oB net.n l + j) 0) := by
  refine ⟨h, fun l j hl hj => ?_⟩
  have hlt : oB net.n l + j < net.out.length := lt_of_lt_of_le (oaddr_lt hl hj) h
  rw [List.getElem?_eq_getElem hlt]; simp [hlt]

theorem feedForward_spec (act : K → K) (net : Net K) (hf : Fits net) (input : List K) (hi : net.n 0 ≤ input.length) :
    ∃ out', feedForward act net input = .ok ({ net with out := out' },
        (List.range (net.n net.last)).map (layerOut act net.W net.n (fun i => input.getD i 0) net.last)) ∧
      out'.length = net.out.length ∧ Outs net.n net.last out' (layerOut act net.W net.n (fun i => input.getD i 0)) := by
  have hL := hf.layers
  have hll : net.last = net.sizes.length - 1 := rfl
  have hn0 : net.n 0 ≤ net.out.length := by
    have h1 : oB net.n 1 ≤ oB net.n (net.last + 1) := oB_mono _ (by omega)
    have := hf.outs
    have h2 : oB net.n 1 = net.n 0 := by simp [oB]
    omega
  obtain ⟨out0, a1, a2, a3⟩ := copyLoop_spec input 0 0 (net.n 0) 0 net.out (by omega) (by omega)
  have hout0 : Outs net.n net.last out0 (fun l j => out0.getD (oB net.n l + j) 0) := by
    refine ⟨by rw [a2]; exact hf.outs, fun l j hl hj => ?_⟩
    have hlt : oB net.n l + j < out0.length := lt_of_lt_of_le (oaddr_lt hl hj) (by rw [a2]; exact hf.outs)
    rw [List.getElem?_eq_getElem hlt]; simp [hlt]
  obtain ⟨out', b1, b2, b3⟩ := layerLoop_spec act net (net_weights net hf.weights) (fun i => input.getD i 0) hL net.last 0 out0 _ (by omega) hout0 (by
    intro l' hl' i hi'
    obtain rfl : l' = 0 := by omega
    have := a3 i
    rw [if_pos (by omega)] at this
    simp only [oB, Nat.zero_add, List.getD_eq_getElem?_getD, this, layerOut]
    simp)
  refine ⟨out', ?_, by rw [b2, a2], b3⟩
  have hr := readLoop_spec out' (oB net.n net.last) (net.n net.last) 0 [] (by
    have := b3.1
    simp only [oB] at this; omega)
  have b1' : layerLoop act net.sizes net.weights 1 (net.sizes.length - 1) 0 0 out0 = .ok (out', oB net.n net.last) := b1
  simp only [feedForward, n_rd net (show 0 < net.sizes.length by omega), a1, b1', n_rd net (show net.sizes.length - 1 < net.sizes.length by omega),
    bind, Except.bind, pure, Except.pure]
  rw [← hll, hr]
  simp only [List.nil_append, Except.ok.injEq, Prod.mk.injEq, true_and]
  rw [← List.range_eq_range']
  apply List.map_congr_left
  intro m hm
  have := b3.2 net.last m le_rfl (List.mem_range.1 hm)
  simp [List.getD_eq_getElem?_getD, this]

/-! ### back propagation -/

theorem rdz_nat (a : List K) (p : Nat) : rdz a (p : Int) = rd a p := by simp [rdz]

theorem wrz_nat (a : List K) (p : Nat) (v : K) : wrz a (p : Int) v = wr a p v := by simp [wrz]

/-- The errors of the neurons: `D l j`, with the outputs `v`, the weights `W` and the expected values `e`. -/
structure Deltas (deriv : K → K) (W : Nat → Nat → Nat → K) (n : Nat → Nat) (last : Nat) (v : Nat → Nat → K) (e : Nat → K)
    (D : Nat → Nat → K) : Prop where
  top : ∀ j, D last j = deriv (v last j) * (v last j - e j)
  step : ∀ l i, l < last → D l i = (∑ m ∈ range (n (l + 1)), D (l + 1) m * W l m i) * deriv (v l i)

/-- output that a weight multiplies -/
def inp (n : Nat → Nat) (v : Nat → Nat → K) (l i : Nat) : K := if i < n l then v l i else 1

theorem errLoop_spec {n : Nat → Nat} {last : Nat} {w out : List K} {W : Nat → Nat → Nat → K} {v D : Nat → Nat → K} {l j : Nat}
    {ob wb sPrev s : Int} (hw : Weights n last w W) (ho : Outs n last out v) (hl : l < last) (hj : j ≤ n l) (hob : ob = oB n l)
    (hs : s = n l) (hwb : wb + (sPrev + 1) * s = wB n l) (hD : ∀ m < n (l + 1), v (l + 1) m = D (l + 1) m) :
    ∀ (k i : Nat) (e : K), i + k = n (l + 1) → e = (∑ m ∈ range i, D (l + 1) m * W l m j) →
    errLoop w out ob wb sPrev s j i k e = .ok (∑ m ∈ range (n (l + 1)), D (l + 1) m * W l m j)
  | 0, i, e, h, he => by
      have : i = n (l + 1) := by omega
      subst this
      simp only [errLoop, he]
  | k + 1, i, e, h, he => by
      have hi : i < n (l + 1) := by omega
      have e1 : ob + s + (i : Int) = ((oB n (l + 1) + i : Nat) : Int) := by rw [hob, hs]; simp only [oB]; push_cast; ring
      have e2 : wb + (sPrev + 1) * s + (i : Int) * (s + 1) + (j : Int) = ((addr n l i j : Nat) : Int) := by
        rw [hwb, hs]; simp only [addr]; push_cast; ring
      have h1 : rdz out (ob + s + (i : Int)) = .ok (D (l + 1) i) := by
        rw [e1, rdz_nat, rd_eq_ok_iff, ho.2 (l + 1) i hl hi, hD i hi]
      have h2 : rdz w (wb + (sPrev + 1) * s + (i : Int) * (s + 1) + (j : Int)) = .ok (W l i j) := by
        rw [e2, rdz_nat, rd_eq_ok_iff, hw.2 l i j ⟨hl, hi, hj⟩]
      simp only [errLoop, h1, h2, bind, Except.bind]
      exact errLoop_spec hw ho hl hj hob hs hwb hD k (i + 1) _ (by omega) (by rw [he, sum_range_succ])

theorem adjLoop_spec (rate cur : K) {n : Nat → Nat} {last : Nat} {out : List K} {v D : Nat → Nat → K} {l j : Nat}
    {ob wb sPrev s : Int} (ho : Outs n last out v) (hl : l < last) (hj : j ≤ n l) (hob : ob = oB n l)
    (hs : s = n l) (hwb : wb + (sPrev + 1) * s = wB n l) (hD : ∀ m < n (l + 1), v (l + 1) m = D (l + 1) m) :
    ∀ (k i : Nat) (w : List K) (W : Nat → Nat → Nat → K), i + k = n (l + 1) → Weights n last w W →
    ∃ w' W', adjLoop rate cur out ob wb sPrev s j i k w = .ok w' ∧ Weights n last w' W' ∧ w'.length = w.length ∧
      (∀ p, wB n last ≤ p → w'[p]? = w[p]?) ∧
      (∀ l' m i', ¬ (l' = l ∧ i' = j) → W' l' m i' = W l' m i') ∧ (∀ m < i, W' l m j = W l m j) ∧
      (∀ m, i ≤ m → m < n (l + 1) → W' l m j = W l m j + -rate * cur * D (l + 1) m)
  | 0, i, w, W, h, hw => ⟨w, W, rfl, hw, rfl, fun _ _ => rfl, fun _ _ _ _ => rfl, fun _ _ => rfl, fun m h1 h2 => by omega⟩
  | k + 1, i, w, W, h, hw => by
      have hi : i < n (l + 1) := by omega
      have e1 : ob + s + (i : Int) = ((oB n (l + 1) + i : Nat) : Int) := by rw [hob, hs]; simp only [oB]; push_cast; ring
      have e2 : wb + (sPrev + 1) * s + (i : Int) * (s + 1) + (j : Int) = ((addr n l i j : Nat) : Int) := by
        rw [hwb, hs]; simp only [addr]; push_cast; ring
      have hv : Valid n last l i j := ⟨hl, hi, hj⟩
      have h1 : rdz out (ob + s + (i : Int)) = .ok (D (l + 1) i) := by
        rw [e1, rdz_nat, rd_eq_ok_iff, ho.2 (l + 1) i hl hi, hD i hi]
      have h2 : rdz w (wb + (sPrev + 1) * s + (i : Int) * (s + 1) + (j : Int)) = .ok (W l i j) := by
        rw [e2, rdz_nat, rd_eq_ok_iff, hw.2 l i j hv]
      obtain ⟨a1, a2⟩ := weights_set hw hv (W l i j + -rate * cur * D (l + 1) i)
      have h3 : wrz w (wb + (sPrev + 1) * s + (i : Int) * (s + 1) + (j : Int)) (W l i j + -rate * cur * D (l + 1) i) =
          .ok (w.set (addr n l i j) (W l i j + -rate * cur * D (l + 1) i)) := by
        rw [e2, wrz_nat]; exact a1
      obtain ⟨w', W', b1, b2, b3, b4, b5, b6, b7⟩ := adjLoop_spec rate cur ho hl hj hob hs hwb hD k (i + 1) _ _ (by omega) a2
      refine ⟨w', W', by simp only [adjLoop, h1, h2, h3, bind, Except.bind, b1], b2, by simpa using b3, fun p hp => ?_, ?_, ?_, ?_⟩
      · rw [b4 p hp, List.getElem?_set_ne]
        have := addr_lt hv
        omega
      · intro l' m i' hn
        rw [b5 l' m i' hn]; simp only [setW]; rw [if_neg]
        rintro ⟨x, _, y⟩; exact hn ⟨x, y⟩
      · intro m hm
        rw [b6 m (by omega)]; simp only [setW]; rw [if_neg]; omega
      · intro m h4 h5
        rcases h4.eq_or_lt with rfl | h4
        · rw [b6 i (by omega)]; simp [setW]
        · rw [b7 m h4 h5]
          simp only [setW]; rw [if_neg]; omega

theorem backNeurons_spec (deriv : K → K) (rate : K) {n : Nat → Nat} {last : Nat} {W : Nat → Nat → Nat → K} {v D : Nat → Nat → K} {e : Nat → K}
    (hDl : Deltas deriv W n last v e D) {l : Nat} {ob wb sPrev : Int} (hl : l < last) (hob : ob = oB n l)
    (hwb : wb + (sPrev + 1) * (n l : Int) = wB n l) :
    ∀ (k j : Nat) (w out : List K) (W0 : Nat → Nat → Nat → K) (v0 : Nat → Nat → K), j + k = n l + 1 → Weights n last w W0 → Outs n last out v0 →
    (∀ m < n (l + 1), v0 (l + 1) m = D (l + 1) m) → (∀ i, j ≤ i → i < n l → v0 l i = v l i) →
    (∀ m < n (l + 1), ∀ i, j ≤ i → i ≤ n l → W0 l m i = W l m i) →
    ∃ w' out' W' v', backNeurons deriv rate ob wb sPrev (n l) (n (l + 1)) j k w out = .ok (w', out') ∧ Weights n last w' W' ∧ Outs n last out' v' ∧
      w'.length = w.length ∧ out'.length = out.length ∧ (∀ p, wB n last ≤ p → w'[p]? = w[p]?) ∧
      (∀ l' m i, l' ≠ l → W' l' m i = W0 l' m i) ∧ (∀ m i, i < j → W' l m i = W0 l m i) ∧
      (∀ m i, j ≤ i → i ≤ n l → m < n (l + 1) → W' l m i = W l m i + -rate * inp n v l i * D (l + 1) m) ∧
      (∀ l' i, l' ≠ l → v' l' i = v0 l' i) ∧ (∀ i < j, v' l i = v0 l i) ∧ (∀ i, j ≤ i → i < n l → v' l i = D l i)
  | 0, j, w, out, W0, v0, h, hw, ho, h1, h2, h3 =>
      ⟨w, out, W0, v0, rfl, hw, ho, rfl, rfl, fun _ _ => rfl, fun _ _ _ _ => rfl, fun _ _ _ => rfl, fun m i a b => by omega, fun _ _ _ => rfl,
        fun _ _ => rfl, fun i a b => by omega⟩
  | k + 1, j, w, out, W0, v0, h, hw, ho, h1, h2, h3 => by
      have hj : j ≤ n l := by omega
      have hcur : (if j < n l then rdz out (ob + (j : Int)) else .ok 1) = (.ok (inp n v l j) : Res K) := by
        by_cases hc : j < n l
        · rw [if_pos hc, hob, show ((oB n l : Nat) : Int) + (j : Int) = ((oB n l + j : Nat) : Int) by push_cast; ring, rdz_nat, rd_eq_ok_iff,
            ho.2 l j hl.le hc, h2 j le_rfl hc, inp, if_pos hc]
        · rw [if_neg hc, inp, if_neg hc]
      have herr := errLoop_spec hw ho hl hj hob rfl hwb h1 (n (l + 1)) 0 0 (by omega) (by simp)
      have hsum : (∑ m ∈ range (n (l + 1)), D (l + 1) m * W0 l m j) = ∑ m ∈ range (n (l + 1)), D (l + 1) m * W l m j := by
        apply sum_congr rfl
        intro m hm; rw [h3 m (mem_range.1 hm) j le_rfl hj]
      rw [hsum] at herr
      obtain ⟨w1, W1, a1, a2, a3, a4, a5, a6, a7⟩ := adjLoop_spec rate (inp n v l j) ho hl hj hob rfl hwb h1 (n (l + 1)) 0 w W0 (by omega) hw
      have hout : ∃ out1 v1, (if j < n l then wrz out (ob + (j : Int)) ((∑ m ∈ range (n (l + 1)), D (l + 1) m * W l m j) * deriv (inp n v l j))
          else .ok out) = (.ok out1 : Res (List K)) ∧ Outs n last out1 v1 ∧ out1.length = out.length ∧ (∀ l' i, ¬ (l' = l ∧ i = j) → v1 l' i = v0 l' i) ∧
          (j < n l → v1 l j = D l j) := by
        by_cases hc : j < n l
        · obtain ⟨b1, b2⟩ := outs_set ho hl.le hc ((∑ m ∈ range (n (l + 1)), D (l + 1) m * W l m j) * deriv (inp n v l j))
          refine ⟨_, _, ?_, b2, by simp, ?_, ?_⟩
          · rw [if_pos hc, hob, show ((oB n l : Nat) : Int) + (j : Int) = ((oB n l + j : Nat) : Int) by push_cast; ring, wrz_nat]; exact b1
          · intro l' i hn; simp only [set2]; rw [if_neg hn]
          · intro _; simp only [set2, and_self, if_true]; rw [hDl.step l j hl, inp, if_pos hc]
        · exact ⟨out, v0, by rw [if_neg hc], ho, rfl, fun _ _ _ => rfl, fun h => absurd h hc⟩
      obtain ⟨out1, v1, b1, b2, b3, b4, b5⟩ := hout
      obtain ⟨w', out', W', v', c1, c2, c3, c4, c5, c6, c7, c8, c9, c10, c11, c12⟩ :=
        backNeurons_spec deriv rate hDl hl hob hwb k (j + 1) w1 out1 W1 v1 (by omega) a2 b2
          (fun m hm => by rw [b4 _ _ (by omega)]; exact h1 m hm)
          (fun i x y => by rw [b4 _ _ (by omega)]; exact h2 i (by omega) y)
          (fun m hm i x y => by rw [a5 _ _ _ (by omega)]; exact h3 m hm i (by omega) y)
      refine ⟨w', out', W', v', ?_, c2, c3, by rw [c4, a3], by rw [c5, b3], fun p hp => by rw [c6 p hp, a4 p hp], ?_, ?_, ?_, ?_, ?_, ?_⟩
      · simp only [backNeurons, hcur, herr, a1, b1, bind, Except.bind, c1]
      · intro l' m i hn; rw [c7 l' m i hn, a5 _ _ _ (by omega)]
      · intro m i hi; rw [c8 m i (by omega), a5 _ _ _ (by omega)]
      · intro m i x y z
        rcases x.eq_or_lt with rfl | x
        · rw [c8 m j (by omega), a7 m (by omega) z, h3 m z j le_rfl hj]
        · exact c9 m i x y z
      · intro l' i hn; rw [c10 l' i hn, b4 _ _ (by omega)]
      · intro i hi; rw [c11 i (by omega), b4 _ _ (by omega)]
      · intro i x y
        rcases x.eq_or_lt with rfl | x
        · rw [c11 j (by omega), b5 y]
        · exact c12 i x y

theorem sizeAt_nat (oob : Option Int) (net : Net K) {i : Nat} (h : i < net.sizes.length) :
    sizeAt oob net.sizes (i : Int) = .ok (net.n i : Int) := by
  simp [sizeAt, n_rd net h, Except.map]

theorem backLayers_spec (g : Int) (deriv : K → K) (rate : K) (net : Net K) {W : Nat → Nat → Nat → K} {v D : Nat → Nat → K} {e : Nat → K}
    (hDl : Deltas deriv W net.n net.last v e D) (hL : 1 ≤ net.sizes.length) :
    ∀ (l : Nat) (ob wb : Int) (w out : List K) (W0 : Nat → Nat → Nat → K) (v0 : Nat → Nat → K), l ≤ net.last → ob = oB net.n l →
    (∀ m, l = m + 1 → wb = wB net.n m) → Weights net.n net.last w W0 → Outs net.n net.last out v0 →
    (∀ m < net.n l, v0 l m = D l m) → (∀ l' < l, ∀ i < net.n l', v0 l' i = v l' i) →
    (∀ l' < l, ∀ m i, W0 l' m i = W l' m i) →
    ∃ w' out' W', backLayers (some g) deriv rate net.sizes l ob wb w out = .ok (w', out') ∧ Weights net.n net.last w' W' ∧
      w'.length = w.length ∧ out'.length = out.length ∧ (∀ p, wB net.n net.last ≤ p → w'[p]? = w[p]?) ∧
      (∀ l' m i, l ≤ l' → W' l' m i = W0 l' m i) ∧
      (∀ l' m i, l' < l → i ≤ net.n l' → m < net.n (l' + 1) → W' l' m i = W l' m i + -rate * inp net.n v l' i * D (l' + 1) m)
  | 0, ob, wb, w, out, W0, v0, _, _, _, hw, _, _, _, _ =>
      ⟨w, out, W0, rfl, hw, rfl, rfl, fun _ _ => rfl, fun _ _ _ _ => rfl, fun _ _ _ h => by omega⟩
  | l + 1, ob, wb, w, out, W0, v0, hl, hob, hwb, hw, ho, h1, h2, h3 => by
      have hll : net.last = net.sizes.length - 1 := rfl
      have hwb' := hwb l rfl
      obtain ⟨sp, hsp, hsp2⟩ : ∃ sp, sizeAt (some g) net.sizes ((l : Int) - 1) = .ok sp ∧
          (∀ m, l = m + 1 → wb - (sp + 1) * (net.n l : Int) = wB net.n m) := by
        cases l with
        | zero => exact ⟨g, by simp [sizeAt], fun m hm => by omega⟩
        | succ m =>
            refine ⟨net.n m, ?_, ?_⟩
            · rw [show ((m + 1 : Nat) : Int) - 1 = (m : Int) by push_cast; ring]
              exact sizeAt_nat _ net (by omega)
            · intro m' hm'
              obtain rfl : m' = m := by omega
              rw [hwb']; simp only [wB]; push_cast; ring
      obtain ⟨w1, out1, W1, v1, c1, c2, c3, c4, c5, c6, c7, c8, c9, c10, c11, c12⟩ :=
        backNeurons_spec deriv rate hDl (l := l) (ob := ob - (net.n l : Int)) (wb := wb - (sp + 1) * (net.n l : Int)) (sPrev := sp) (by omega)
          (by rw [hob]; simp only [oB]; push_cast; ring) (by rw [hwb']; ring) (net.n l + 1) 0 w out W0 v0 (by omega) hw ho h1
          (fun i _ hi => h2 l (by omega) i hi) (fun m _ i _ _ => h3 l (by omega) m i)
      obtain ⟨w', out', W', d1, d2, d3, d4, d5, d6, d7⟩ :=
        backLayers_spec g deriv rate net hDl hL l (ob - (net.n l : Int)) (wb - (sp + 1) * (net.n l : Int)) w1 out1 W1 v1 (by omega)
          (by rw [hob]; simp only [oB]; push_cast; ring) hsp2 c2 c3 (fun m hm => c12 m (by omega) hm)
          (fun l' hl' i hi => by rw [c10 l' i (by omega)]; exact h2 l' (by omega) i hi)
          (fun l' hl' m i => by rw [c7 l' m i (by omega)]; exact h3 l' (by omega) m i)
      refine ⟨w', out', W', ?_, d2, by rw [d3, c4], by rw [d4, c5], fun p hp => by rw [d5 p hp, c6 p hp], ?_, ?_⟩
      · simp only [backLayers, n_rd net (show l < net.sizes.length by omega), hsp, n_rd net (show l + 1 < net.sizes.length by omega),
          bind, Except.bind, c1, d1]
      · intro l' m i h; rw [d6 l' m i (by omega), c7 l' m i (by omega)]
      · intro l' m i h x y
        rcases Nat.lt_succ_iff_lt_or_eq.1 h with h | rfl
        · exact d7 l' m i h x y
        · rw [d6 l' m i le_rfl]; exact c9 m i (by omega) x y

theorem lastLoop_spec (deriv : K → K) (expected : List K) {n : Nat → Nat} {last : Nat} {v : Nat → Nat → K} {ob : Int} (hob : ob = oB n last)
    (he : n last ≤ expected.length) : ∀ (k i : Nat) (e : K) (out : List K) (v0 : Nat → Nat → K), i + k = n last → Outs n last out v0 →
    (∀ j, i ≤ j → j < n last → v0 last j = v last j) →
    e = (∑ j ∈ range i, (v last j - expected.getD j 0) ^ 2) →
    ∃ out' v', lastLoop deriv expected ob i k e out = .ok (∑ j ∈ range (n last), (v last j - expected.getD j 0) ^ 2, out') ∧
      out'.length = out.length ∧
      Outs n last out' v' ∧ (∀ l' j, l' ≠ last → v' l' j = v0 l' j) ∧ (∀ j < i, v' last j = v0 last j) ∧
      (∀ j, i ≤ j → j < n last → v' last j = deriv (v last j) * (v last j - expected.getD j 0))
  | 0, i, e, out, v0, h, ho, _, hs => by
      have : i = n last := by omega
      subst this
      exact ⟨out, v0, by rw [hs]; rfl, rfl, ho, fun _ _ _ => rfl, fun _ _ => rfl, fun j a b => by omega⟩
  | k + 1, i, e, out, v0, h, ho, hv, hs => by
      have hi : i < n last := by omega
      have e1 : ob + (i : Int) = ((oB n last + i : Nat) : Int) := by rw [hob]; push_cast; ring
      have h1 : rdz out (ob + (i : Int)) = .ok (v last i) := by
        rw [e1, rdz_nat, rd_eq_ok_iff, ho.2 last i le_rfl hi, hv i le_rfl hi]
      have hlt : i < expected.length := by omega
      have h2 : rd expected i = .ok (expected.getD i 0) := by
        rw [rd_eq_ok_iff, List.getElem?_eq_getElem hlt]; simp [hlt]
      obtain ⟨a1, a2⟩ := outs_set ho le_rfl hi (deriv (v last i) * (v last i - expected.getD i 0))
      have h3 : wrz out (ob + (i : Int)) (deriv (v last i) * (v last i - expected.getD i 0)) =
          .ok (out.set (oB n last + i) (deriv (v last i) * (v last i - expected.getD i 0))) := by
        rw [e1, wrz_nat]; exact a1
      obtain ⟨out', v', b1, b2, b3, b4, b5, b6⟩ := lastLoop_spec deriv expected (v := v) hob he k (i + 1)
        (e + (v last i - expected.getD i 0) * (v last i - expected.getD i 0)) _ _ (by omega) a2
        (fun j x y => by simp only [set2]; rw [if_neg (by omega)]; exact hv j (by omega) y)
        (by rw [hs, sum_range_succ]; ring)
      refine ⟨out', v', by simp only [lastLoop, h1, h2, h3, bind, Except.bind, b1], by simpa using b2, b3, ?_, ?_, ?_⟩
      · intro l' j hn; rw [b4 l' j hn]; simp only [set2]; rw [if_neg (by omega)]
      · intro j hj; rw [b5 j (by omega)]; simp only [set2]; rw [if_neg (by omega)]
      · intro j x y
        rcases x.eq_or_lt with rfl | x
        · rw [b5 i (by omega)]; simp [set2]
        · exact b6 j x y

/-- the errors, computed from the last layer down: `k` layers below the last one -/
def deltaAux (deriv : K → K) (W : Nat → Nat → Nat → K) (n : Nat → Nat) (last : Nat) (v : Nat → Nat → K) (e : Nat → K) : Nat → Nat → K
  | 0 => fun j => deriv (v last j) * (v last j - e j)
  | k + 1 => fun i => (∑ m ∈ range (n (last - k)), deltaAux deriv W n last v e k m * W (last - (k + 1)) m i) * deriv (v (last - (k + 1)) i)

theorem deltas_exist (deriv : K → K) (W : Nat → Nat → Nat → K) (n : Nat → Nat) (last : Nat) (v : Nat → Nat → K) (e : Nat → K) :
    Deltas deriv W n last v e (fun l => deltaAux deriv W n last v e (last - l)) := by
  refine ⟨fun j => by simp [deltaAux], fun l i hl => ?_⟩
  obtain ⟨k, hk⟩ : ∃ k, last - l = k + 1 := ⟨last - l - 1, by omega⟩
  have h1 : last - (l + 1) = k := by omega
  have h2 : last - k = l + 1 := by omega
  have h3 : last - (k + 1) = l := by omega
  simp only [hk, h1, deltaAux, h2, h3]

theorem backpropagate_spec (g : Int) (deriv : K → K) (net : Net K) (hf : Fits net) (expected : List K)
    (he : net.n net.last ≤ expected.length) {v D : Nat → Nat → K} (ho : Outs net.n net.last net.out v)
    (hD : Deltas deriv net.W net.n net.last v (fun j => expected.getD j 0) D) :
    ∃ w' out', backpropagate (some g) deriv net expected = .ok ({ net with
        weights := w'
        out := out' }, (∑ j ∈ range (net.n net.last), (v net.last j - expected.getD j 0) ^ 2) / (net.n net.last : K)) ∧
      w'.length = net.weights.length ∧ out'.length = net.out.length ∧ (∀ p, wB net.n net.last ≤ p → w'[p]? = net.weights[p]?) ∧
      ∀ l j i, Valid net.n net.last l j i →
        w'[addr net.n l j i]? = some (net.W l j i + -net.rate * inp net.n v l i * D (l + 1) j) := by
  have hL := hf.layers
  have hll : net.last = net.sizes.length - 1 := rfl
  have h1 := outLoop_spec net net.last 0 (by omega)
  have h2 : weightBase net.sizes net.last = .ok (wB net.n (net.last - 1)) := by
    have := baseLoop_spec net (net.last - 1) 0 (by omega)
    simp only [Nat.zero_add] at this
    exact this
  have h3 := n_rd net (show net.last < net.sizes.length by omega)
  obtain ⟨out1, v1, a1, a2, a3, a4, _, a6⟩ := lastLoop_spec deriv expected (v := v) (ob := (oB net.n net.last : Int)) rfl he (net.n net.last) 0 0 net.out v
    (by omega) ho (fun _ _ _ => rfl) (by simp)
  obtain ⟨w', out', W', b1, b2, b3, b4, b5, b6, b7⟩ := backLayers_spec g deriv net.rate net hD hL net.last (oB net.n net.last) (wB net.n (net.last - 1))
    net.weights out1 net.W v1 le_rfl rfl (fun m hm => by rw [show net.last - 1 = m by omega]) (net_weights net hf.weights) a3
    (fun m hm => by rw [a6 m (by omega) hm, hD.top]) (fun l' hl' i _ => a4 l' i (by omega)) (fun _ _ _ _ => rfl)
  refine ⟨w', out', ?_, b3, by rw [b4, a2], b5, fun l j i hv => by rw [b2.2 l j i hv, b7 l j i hv.1 hv.2.2 hv.2.1]⟩
  simp only [Nat.zero_add, oB] at h1
  simp only [backpropagate, ← hll, h1, h2, h3, a1, b1, bind, Except.bind, pure, Except.pure]

end Orp.Mlp
