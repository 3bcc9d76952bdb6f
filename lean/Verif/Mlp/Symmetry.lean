import Verif.Mlp.Converge
import Verif.Mlp.Props
import Mathlib.Algebra.BigOperators.Group.Finset.Basic
import Mathlib.Logic.Equiv.Basic
import Mathlib.Tactic.IntervalCases

/-!
C140: symmetries of the perceptron. The order of the neurons of a layer does not matter, and with an odd activation function neither does the sign of
a neuron. Neurons that start with the same weights stay the same for ever.
-/

open Finset

namespace Orp.Mlp

variable {K : Type} [Field K]

/-- Training and asking: `feed_forward` and `backpropagate` (perceptron.hpp:62-101, 152-196) for one example after the other; the second
component lists what `feed_forward` answered and the error that `backpropagate` returned. -/
def drill (act deriv : K → K) : Net K → List (Example K) → Res (Net K × List (List K × K))
  | net, [] => .ok (net, [])
  | net, e :: es => do
      let (net, r) ← feedForward act net e.x
      let (net, err) ← backpropagate (some e.g) deriv net e.y
      let (net, rs) ← drill act deriv net es
      return (net, (r, err) :: rs)

/-- A rearrangement of a network with layers of sizes `n`: neuron `j` of layer `l` becomes neuron `π l j`, with the sign `σ l j` (1 or -1). The position
after the last neuron, which stands for the bias, stays where it is and keeps its sign. -/
structure Rearrangement (K : Type) [Field K] (n : Nat → Nat) where
  π : Nat → Equiv.Perm Nat
  σ : Nat → Nat → K
  fixed : ∀ l i, n l ≤ i → π l i = i
  square : ∀ l j, σ l j * σ l j = 1
  bias : ∀ l i, n l ≤ i → σ l i = 1

/-- `b` is the network `a` rearranged. -/
structure Rearranged {n : Nat → Nat} (ρ : Rearrangement K n) (a b : Net K) : Prop where
  n_eq : a.n = n
  sizes : b.sizes = a.sizes
  rate : b.rate = a.rate
  weights : ∀ l j i, Valid a.n a.last l j i → b.W l (ρ.π (l + 1) j) (ρ.π l i) = ρ.σ (l + 1) j * a.W l j i * ρ.σ l i

/-- The numbers of the list `y` are those of `x` rearranged as layer `l`. -/
def SameList {n : Nat → Nat} (ρ : Rearrangement K n) (l : Nat) (x y : List K) : Prop :=
  n l ≤ x.length ∧ n l ≤ y.length ∧ ∀ i < n l, y.getD (ρ.π l i) 0 = ρ.σ l i * x.getD i 0

/-- The activation function and its derivative respect the signs used. -/
def Respects {n : Nat → Nat} (ρ : Rearrangement K n) (act deriv : K → K) : Prop :=
  ∀ l j t, act (ρ.σ l j * t) = ρ.σ l j * act t ∧ deriv (ρ.σ l j * t) = deriv t

namespace Rearrangement

variable {n : Nat → Nat} (ρ : Rearrangement K n)

theorem lt (l : Nat) {i : Nat} (h : i < n l) : ρ.π l i < n l := by
  by_contra hc
  have h1 := ρ.fixed l (ρ.π l i) (Nat.le_of_not_lt hc)
  have := (ρ.π l).injective h1
  omega

theorem le (l : Nat) {i : Nat} (h : i ≤ n l) : ρ.π l i ≤ n l := by
  rcases h.lt_or_eq with h | h
  · exact (ρ.lt l h).le
  · rw [ρ.fixed l i h.ge]; exact h.le

theorem sum (l : Nat) (f : Nat → K) : ∑ i ∈ range (n l), f (ρ.π l i) = ∑ i ∈ range (n l), f i := by
  refine Finset.sum_bij (fun i _ => ρ.π l i) (fun i hi => ?_) (fun i _ j _ h => (ρ.π l).injective h) (fun j hj => ?_) (fun _ _ => rfl)
  · exact mem_range.2 (ρ.lt l (mem_range.1 hi))
  · refine ⟨(ρ.π l).symm j, ?_, by simp⟩
    rw [mem_range] at hj ⊢
    by_contra hc
    have := ρ.fixed l ((ρ.π l).symm j) (Nat.le_of_not_lt hc)
    rw [Equiv.apply_symm_apply] at this
    omega

end Rearrangement

variable {n : Nat → Nat} {ρ : Rearrangement K n} {a b : Net K} {act deriv : K → K}

theorem Rearranged.bn (h : Rearranged ρ a b) : b.n = a.n := by
  funext l; simp [Net.n, h.sizes]

theorem Rearranged.blast (h : Rearranged ρ a b) : b.last = a.last := by simp [Net.last, h.sizes]

/-- the outputs of the layers are rearranged -/
theorem layerOut_rearranged (h : Rearranged ρ a b) (hr : Respects ρ act deriv) {x y : Nat → K}
    (hxy : ∀ i < n 0, y (ρ.π 0 i) = ρ.σ 0 i * x i) : ∀ l, l ≤ a.last → ∀ j < n l,
    layerOut act b.W b.n y l (ρ.π l j) = ρ.σ l j * layerOut act a.W a.n x l j
  | 0, _, j, hj => hxy j hj
  | l + 1, hl, j, hj => by
      have ih := layerOut_rearranged h hr hxy l (by omega)
      simp only [layerOut]
      rw [← (hr (l + 1) j _).1]
      congr 1
      simp only [preact, h.bn]
      rw [mul_add, mul_sum, h.n_eq]
      congr 1
      · rw [← ρ.sum l]
        refine sum_congr rfl fun i hi => ?_
        have hi' := mem_range.1 hi
        have hv : Valid a.n a.last l j i := ⟨by omega, by rw [h.n_eq]; exact hj, by rw [h.n_eq]; exact hi'.le⟩
        rw [h.weights l j i hv]
        have := ih i hi'
        rw [h.bn, h.n_eq] at this
        rw [this]
        have hs := ρ.square l i
        calc ρ.σ (l + 1) j * a.W l j i * ρ.σ l i * (ρ.σ l i * layerOut act a.W n x l i)
            = ρ.σ (l + 1) j * (a.W l j i * layerOut act a.W n x l i) * (ρ.σ l i * ρ.σ l i) := by ring
          _ = _ := by rw [hs, mul_one]
      · have hv : Valid a.n a.last l j (n l) := ⟨by omega, by rw [h.n_eq]; exact hj, by rw [h.n_eq]⟩
        have := h.weights l j (n l) hv
        rw [ρ.fixed l (n l) le_rfl, ρ.bias l (n l) le_rfl, mul_one] at this
        exact this

/-- the errors of the neurons are rearranged -/
theorem deltas_rearranged (h : Rearranged ρ a b) (hr : Respects ρ act deriv) {va vb : Nat → Nat → K} {ea eb : Nat → K} {Da Db : Nat → Nat → K}
    (hv : ∀ l, l ≤ a.last → ∀ j < n l, vb l (ρ.π l j) = ρ.σ l j * va l j) (he : ∀ j < n a.last, eb (ρ.π a.last j) = ρ.σ a.last j * ea j)
    (hDa : Deltas deriv a.W a.n a.last va ea Da) (hDb : Deltas deriv b.W b.n b.last vb eb Db) :
    ∀ k l, l + k = a.last → ∀ j < n l, Db l (ρ.π l j) = ρ.σ l j * Da l j
  | 0, l, hl, j, hj => by
      obtain rfl : l = a.last := by omega
      have hb := hDb.top
      rw [h.blast] at hb
      rw [hb, hDa.top, hv _ le_rfl j hj, he j hj, (hr _ _ _).2]
      ring
  | k + 1, l, hl, j, hj => by
      have ih := deltas_rearranged h hr hv he hDa hDb k (l + 1) (by omega)
      rw [hDb.step l _ (by rw [h.blast]; omega), hDa.step l j (by omega), hv l (by omega) j hj, (hr _ _ _).2, h.bn, h.n_eq, ← ρ.sum (l + 1), ← mul_assoc, mul_sum]
      congr 1
      refine sum_congr rfl fun m hm => ?_
      have hm' := mem_range.1 hm
      have hval : Valid a.n a.last l m j := ⟨by omega, by rw [h.n_eq]; exact hm', by rw [h.n_eq]; exact hj.le⟩
      rw [h.weights l m j hval, ih m hm']
      have hs := ρ.square (l + 1) m
      calc ρ.σ (l + 1) m * Da (l + 1) m * (ρ.σ (l + 1) m * a.W l m j * ρ.σ l j)
          = ρ.σ l j * (Da (l + 1) m * a.W l m j) * (ρ.σ (l + 1) m * ρ.σ (l + 1) m) := by ring
        _ = _ := by rw [hs, mul_one]

/-- what one example does -/
theorem example_step (net : Net K) (hf : Fits net) (e : Example K) (hx : net.n 0 ≤ e.x.length) (hy : net.n net.last ≤ e.y.length)
    {D : Nat → Nat → K} (hD : Deltas deriv net.W net.n net.last (layerOut act net.W net.n (fun i => e.x.getD i 0)) (fun j => e.y.getD j 0) D) :
    ∃ net1 net2, feedForward act net e.x =
        .ok (net1, (List.range (net.n net.last)).map (layerOut act net.W net.n (fun i => e.x.getD i 0) net.last)) ∧
      backpropagate (some e.g) deriv net1 e.y = .ok (net2,
        (∑ j ∈ range (net.n net.last), (layerOut act net.W net.n (fun i => e.x.getD i 0) net.last j - e.y.getD j 0) ^ 2) / (net.n net.last : K)) ∧
      Fits net2 ∧ net2.sizes = net.sizes ∧ net2.rate = net.rate ∧
      ∀ l j i, Valid net.n net.last l j i → net2.W l j i = net.W l j i +
        -net.rate * inp net.n (layerOut act net.W net.n (fun i => e.x.getD i 0)) l i * D (l + 1) j := by
  obtain ⟨out', a1, a2, a3⟩ := feedForward_spec act net hf e.x hx
  let net1 : Net K := { net with out := out' }
  have hf1 : Fits net1 := ⟨hf.layers, hf.weights, by rw [show net1.out = out' from rfl, a2]; exact hf.outs⟩
  obtain ⟨w', out2, b1, b2, b3, b4, b5⟩ := backpropagate_spec e.g deriv net1 hf1 e.y hy a3 hD
  refine ⟨net1, _, a1, b1, ⟨hf.layers, le_of_le_of_eq hf.weights b2.symm, le_of_le_of_eq hf1.outs b3.symm⟩, rfl, rfl, fun l j i hv => ?_⟩
  have h : w'[addr net.n l j i]? = some (net.W l j i + -net.rate * inp net.n _ l i * _) := b5 l j i hv
  show w'.getD (addr net.n l j i) 0 = _
  rw [List.getD_eq_getElem?_getD, h]
  simp only [Option.getD_some]

/-- An example for the rearranged network. -/
def SameExample {n : Nat → Nat} (ρ : Rearrangement K n) (last : Nat) (e f : Example K) : Prop := SameList ρ 0 e.x f.x ∧ SameList ρ last e.y f.y

/-- The same answer, rearranged, and the same error. -/
def SameReply {n : Nat → Nat} (ρ : Rearrangement K n) (last : Nat) (r s : List K × K) : Prop := SameList ρ last r.1 s.1 ∧ r.2 = s.2

theorem getD_map_range (f : Nat → K) {m i : Nat} (h : i < m) : ((List.range m).map f).getD i 0 = f i := by
  simp [h]

theorem step_rearranged (h : Rearranged ρ a b) (ha : Fits a) (hb : Fits b) (hr : Respects ρ act deriv) {e f : Example K}
    (hef : SameExample ρ a.last e f) :
    ∃ a1 a2 r b1 b2 s, feedForward act a e.x = .ok (a1, r.1) ∧ backpropagate (some e.g) deriv a1 e.y = .ok (a2, r.2) ∧
      feedForward act b f.x = .ok (b1, s.1) ∧ backpropagate (some f.g) deriv b1 f.y = .ok (b2, s.2) ∧
      Fits a2 ∧ Fits b2 ∧ a2.sizes = a.sizes ∧ Rearranged ρ a2 b2 ∧ SameReply ρ a.last r s := by
  obtain ⟨⟨x1, x2, x3⟩, y1, y2, y3⟩ := hef
  have hv := layerOut_rearranged h hr (x := fun i => e.x.getD i 0) (y := fun i => f.x.getD i 0) x3
  have hDa := deltas_exist deriv a.W a.n a.last (layerOut act a.W a.n (fun i => e.x.getD i 0)) (fun j => e.y.getD j 0)
  have hDb := deltas_exist deriv b.W b.n b.last (layerOut act b.W b.n (fun i => f.x.getD i 0)) (fun j => f.y.getD j 0)
  have hD := deltas_rearranged h hr hv y3 hDa hDb
  obtain ⟨a1, a2, p1, p2, p3, p4, p5, p6⟩ := example_step a ha e (by rw [h.n_eq]; exact x1) (by rw [h.n_eq]; exact y1) hDa
  obtain ⟨b1, b2, q1, q2, q3, q4, q5, q6⟩ := example_step b hb f (by rw [h.bn, h.n_eq]; exact x2) (by rw [h.blast, h.bn, h.n_eq]; exact y2) hDb
  have hn2 : a2.n = a.n := by funext l; simp [Net.n, p4]
  have hl2 : a2.last = a.last := by simp [Net.last, p4]
  refine ⟨a1, a2, (_, _), b1, b2, (_, _), p1, p2, q1, q2, p3, q3, p4, ⟨by rw [hn2, h.n_eq], by rw [q4, p4, h.sizes], by rw [q5, p5, h.rate], ?_⟩, ⟨?_, ?_, ?_⟩, ?_⟩
  · intro l j i hval
    rw [hn2, hl2] at hval
    have hj : j < n (l + 1) := by have := hval.2.1; rwa [h.n_eq] at this
    have hi : i ≤ n l := by have := hval.2.2; rwa [h.n_eq] at this
    have hvalb : Valid b.n b.last l (ρ.π (l + 1) j) (ρ.π l i) :=
      ⟨by rw [h.blast]; exact hval.1, by rw [h.bn, h.n_eq]; exact ρ.lt _ hj, by rw [h.bn, h.n_eq]; exact ρ.le _ hi⟩
    have hdel := hD (a.last - (l + 1)) (l + 1) (by have := hval.1; omega) j hj
    have hinp : inp b.n (layerOut act b.W b.n (fun i => f.x.getD i 0)) l (ρ.π l i) =
        ρ.σ l i * inp a.n (layerOut act a.W a.n (fun i => e.x.getD i 0)) l i := by
      unfold inp
      rw [h.bn, h.n_eq]
      by_cases hin : i < n l
      · rw [if_pos (ρ.lt l hin), if_pos hin]
        have := hv l hval.1.le i hin
        rw [h.bn, h.n_eq] at this
        exact this
      · have hin' : n l ≤ i := Nat.le_of_not_lt hin
        rw [ρ.fixed l i hin', if_neg hin, if_neg hin, ρ.bias l i hin', mul_one]
    rw [q6 _ _ _ hvalb, p6 _ _ _ hval, hinp, h.weights l j i hval, h.rate]
    have hdel' : deltaAux deriv b.W b.n b.last (layerOut act b.W b.n fun i => f.x.getD i 0) (fun j => f.y.getD j 0) (b.last - (l + 1)) (ρ.π (l + 1) j) =
        ρ.σ (l + 1) j * deltaAux deriv a.W a.n a.last (layerOut act a.W a.n fun i => e.x.getD i 0) (fun j => e.y.getD j 0) (a.last - (l + 1)) j := hdel
    rw [hdel']
    ring
  · simp [h.n_eq]
  · simp [h.bn, h.n_eq, h.blast]
  · intro i hi
    show ((List.range (b.n b.last)).map _).getD (ρ.π a.last i) 0 = ρ.σ a.last i * ((List.range (a.n a.last)).map _).getD i 0
    rw [getD_map_range _ (by rw [h.bn, h.n_eq, h.blast]; exact ρ.lt _ hi), getD_map_range _ (by rw [h.n_eq]; exact hi), h.blast]
    exact hv _ le_rfl i hi
  · show _ / _ = _ / _
    rw [h.blast, h.bn, h.n_eq]
    congr 1
    rw [← ρ.sum a.last (fun j => (layerOut act b.W n (fun i => f.x.getD i 0) a.last j - f.y.getD j 0) ^ 2)]
    refine sum_congr rfl fun j hj => ?_
    have hj' := mem_range.1 hj
    have := hv _ le_rfl j hj'
    rw [h.bn, h.n_eq] at this
    rw [this, y3 j hj']
    have hs := ρ.square a.last j
    calc (layerOut act a.W n (fun i => e.x.getD i 0) a.last j - e.y.getD j 0) ^ 2
        = (ρ.σ a.last j * ρ.σ a.last j) * (layerOut act a.W n (fun i => e.x.getD i 0) a.last j - e.y.getD j 0) ^ 2 := by rw [hs, one_mul]
      _ = _ := by ring

/-- **C140** Two networks that differ in the order of the neurons of the layers (inputs and outputs included), and in the signs of some neurons if the
activation function is odd, trained with examples rearranged in the same way, answer the same, rearranged, and report the same errors, at every
moment of every history; the trained networks still differ only in the order and the signs. -/
theorem C140_symmetry (hr : Respects ρ act deriv) (es fs : List (Example K)) : ∀ (a b : Net K), Rearranged ρ a b → Fits a → Fits b →
    List.Forall₂ (SameExample ρ a.last) es fs →
    ∃ a' b' rs ss, drill act deriv a es = .ok (a', rs) ∧ drill act deriv b fs = .ok (b', ss) ∧ Rearranged ρ a' b' ∧ a'.sizes = a.sizes ∧ Fits a' ∧ Fits b' ∧
      List.Forall₂ (SameReply ρ a.last) rs ss := by
  induction es generalizing fs with
  | nil =>
      intro a b h ha hb hef
      cases hef
      exact ⟨a, b, [], [], rfl, rfl, h, rfl, ha, hb, .nil⟩
  | cons e es ih =>
      intro a b h ha hb hef
      cases hef with
      | cons h1 h2 =>
          rename_i f fs
          obtain ⟨a1, a2, r, b1, b2, s, p1, p2, q1, q2, p3, q3, hs, h', hrs⟩ := step_rearranged h ha hb hr h1
          have hl : a2.last = a.last := by simp [Net.last, hs]
          obtain ⟨a', b', rs, ss, c1, c2, c3, c0, c4, c5, c6⟩ := ih fs a2 b2 h' p3 q3 (by rw [hl]; exact h2)
          refine ⟨a', b', r :: rs, s :: ss, ?_, ?_, c3, c0.trans hs, c4, c5, .cons hrs (by rw [hl] at c6; exact c6)⟩
          · simp only [drill, p1, p2, c1, bind, Except.bind, pure, Except.pure]
          · simp only [drill, q1, q2, c2, bind, Except.bind, pure, Except.pure]

/-- A rearrangement that only changes the order. -/
def ofOrder (n : Nat → Nat) (π : Nat → Equiv.Perm Nat) (h : ∀ l i, n l ≤ i → π l i = i) : Rearrangement K n :=
  { π := π, σ := fun _ _ => 1, fixed := h, square := fun _ _ => one_mul 1, bias := fun _ _ _ => rfl }

/-- **C140** The order of the neurons matters for no activation function. -/
theorem C140_order (n : Nat → Nat) (π : Nat → Equiv.Perm Nat) (h : ∀ l i, n l ≤ i → π l i = i) (act deriv : K → K) :
    Respects (ofOrder n π h : Rearrangement K n) act deriv := fun l j t => by
  simp [ofOrder]

/-- **C140** The signs do not matter if the activation function is odd (and its derivative even). -/
theorem C140_signs (ρ : Rearrangement K n) (act deriv : K → K) (h1 : ∀ t, act (-t) = -act t) (h2 : ∀ t, deriv (-t) = deriv t) :
    Respects ρ act deriv := fun l j t => by
  have : ρ.σ l j = 1 ∨ ρ.σ l j = -1 := by
    have := ρ.square l j
    have h : (ρ.σ l j - 1) * (ρ.σ l j + 1) = 0 := by ring_nf; rw [pow_two, this]; ring
    rcases mul_eq_zero.1 h with h | h
    · exact .inl (by linear_combination h)
    · exact .inr (by linear_combination h)
  rcases this with h | h <;> simp [h, h1, h2]

/-- Neurons `p` and `q` of the hidden layer `l + 1` have the same weights. -/
def Twins (net : Net K) (l p q : Nat) : Prop :=
  (∀ i ≤ net.n l, net.W l p i = net.W l q i) ∧ ∀ j < net.n (l + 2), net.W (l + 1) j p = net.W (l + 1) j q

/-- exchanging two neurons of one layer -/
def swapOrder (n : Nat → Nat) (l p q : Nat) (hp : p < n l) (hq : q < n l) : Rearrangement K n :=
  ofOrder n (fun k => if k = l then Equiv.swap p q else 1) (by
    intro k i hi
    by_cases hk : k = l
    · subst hk
      simp only [if_true]
      exact Equiv.swap_apply_of_ne_of_ne (by omega) (by omega)
    · simp only [if_neg hk, Equiv.Perm.coe_one, id_eq])

theorem twins_rearranged {net : Net K} {l p q : Nat} (hl : l + 1 < net.last) (hp : p < net.n (l + 1)) (hq : q < net.n (l + 1)) :
    Twins net l p q → Rearranged (swapOrder net.n (l + 1) p q hp hq : Rearrangement K net.n) net net := by
    intro ht
    refine ⟨rfl, rfl, rfl, ?_⟩
    intro k j i hv
    simp only [swapOrder, ofOrder, one_mul, mul_one]
    by_cases h1 : k = l
    · subst h1
      rw [if_pos rfl, if_neg (by omega)]
      simp only [Equiv.Perm.coe_one, id_eq]
      rcases eq_or_ne j p with rfl | hjp
      · rw [Equiv.swap_apply_left]; exact (ht.1 i hv.2.2).symm
      · rcases eq_or_ne j q with rfl | hjq
        · rw [Equiv.swap_apply_right]; exact ht.1 i hv.2.2
        · rw [Equiv.swap_apply_of_ne_of_ne hjp hjq]
    · rw [if_neg (by omega)]
      simp only [Equiv.Perm.coe_one, id_eq]
      by_cases h2 : k = l + 1
      · subst h2
        rw [if_pos rfl]
        rcases eq_or_ne i p with rfl | hip
        · rw [Equiv.swap_apply_left]; exact (ht.2 j hv.2.1).symm
        · rcases eq_or_ne i q with rfl | hiq
          · rw [Equiv.swap_apply_right]; exact ht.2 j hv.2.1
          · rw [Equiv.swap_apply_of_ne_of_ne hip hiq]
      · rw [if_neg h2]; simp

theorem rearranged_twins {m : Nat → Nat} {net : Net K} {l p q : Nat} (hl : l + 1 < net.last) (hp : p < m (l + 1)) (hq : q < m (l + 1))
    (h : Rearranged (swapOrder m (l + 1) p q hp hq : Rearrangement K m) net net) : Twins net l p q := by
  have hn := h.n_eq
  constructor
  · intro i hi
    have := h.weights l q i ⟨by omega, by rw [hn]; exact hq, hi⟩
    simp only [swapOrder, ofOrder, one_mul, mul_one, if_true] at this
    rw [if_neg (by omega), Equiv.swap_apply_right] at this
    simpa using this
  · intro j hj
    have := h.weights (l + 1) j q ⟨hl, hj, by rw [hn]; exact hq.le⟩
    simp only [swapOrder, ofOrder, one_mul, mul_one, if_true] at this
    rw [if_neg (by omega), Equiv.swap_apply_right] at this
    simpa using this

/-- **C140** Two neurons of a hidden layer that have the same weights have the same weights after every training: the layer never gets
to use both. (So a network must not start with equal weights.) -/
theorem C140_twins (net : Net K) (hf : Fits net) (act deriv : K → K) (l p q : Nat) (hl : l + 1 < net.last) (hp : p < net.n (l + 1))
    (hq : q < net.n (l + 1)) (ht : Twins net l p q) (es : List (Example K))
    (hes : ∀ e ∈ es, net.n 0 ≤ e.x.length ∧ net.n net.last ≤ e.y.length) :
    ∃ net' rs, drill act deriv net es = .ok (net', rs) ∧ Twins net' l p q := by
  have h := twins_rearranged hl hp hq ht
  have hfor : List.Forall₂ (SameExample (swapOrder net.n (l + 1) p q hp hq : Rearrangement K net.n) net.last) es es := by
    rw [List.forall₂_same]
    intro e he
    refine ⟨⟨(hes e he).1, (hes e he).1, fun i _ => ?_⟩, (hes e he).2, (hes e he).2, fun i _ => ?_⟩
    · simp [swapOrder, ofOrder]
    · simp only [swapOrder, ofOrder, one_mul]
      rw [if_neg (by omega)]; simp
  obtain ⟨a', b', rs, ss, c1, c2, c3, c4, _, _, _⟩ := C140_symmetry (C140_order _ _ _ act deriv) es es net net h hf hf hfor
  have hab : b' = a' := by
    rw [c1] at c2; cases c2; rfl
  subst hab
  exact ⟨b', rs, c1, rearranged_twins (by rw [show b'.last = net.last by simp [Net.last, c4]]; exact hl) hp hq c3⟩

/-! The hypotheses are met. -/

def leftNet : Net ℚ := { sizes := [2, 2, 1], weights := [1, 2, 3, 4, 5, 6, 7, 8, 9], out := [0, 0, 0, 0, 0], rate := 1 / 10 }

/-- the hidden neurons exchanged, and the new second one with the other sign -/
def rightNet : Net ℚ := { sizes := [2, 2, 1], weights := [4, 5, 6, -1, -2, -3, 8, -7, 9], out := [0, 0, 0, 0, 0], rate := 1 / 10 }

/-- exchanges the hidden neurons and changes the sign of the first -/
def turn : Rearrangement ℚ leftNet.n :=
  { π := fun k => if k = 1 then Equiv.swap 0 1 else 1
    σ := fun k j => if k = 1 ∧ j = 0 then -1 else 1
    fixed := by
      intro l i h
      by_cases hl : l = 1
      · subst hl
        have h' : 2 ≤ i := h
        simp only [if_true]
        exact Equiv.swap_apply_of_ne_of_ne (by omega) (by omega)
      · simp [hl]
    square := by intro l j; split <;> norm_num
    bias := by
      intro l i h
      split
      · rename_i hh
        obtain ⟨rfl, rfl⟩ := hh
        exact absurd h (by decide)
      · rfl }

theorem turn_rearranged : Rearranged turn leftNet rightNet := by
  refine ⟨rfl, rfl, rfl, ?_⟩
  intro l j i hv
  obtain ⟨h1, h2, h3⟩ := hv
  have hl : l < 2 := h1
  interval_cases l
  · have hj : j < 2 := h2
    have hi : i ≤ 2 := h3
    interval_cases j <;> interval_cases i <;> decide +kernel
  · have hj : j < 1 := h2
    have hi : i ≤ 2 := h3
    interval_cases j
    interval_cases i <;> decide +kernel

example : Fits leftNet ∧ Fits rightNet ∧ Respects turn (fun t => t) (fun _ => 1) ∧
    List.Forall₂ (SameExample turn leftNet.last) [⟨[1, -1], [2], 5⟩, ⟨[3, 1], [0], 7⟩] [⟨[1, -1], [2], 8⟩, ⟨[3, 1], [0], 9⟩] := by
  refine ⟨⟨by decide, by decide, by decide⟩, ⟨by decide, by decide, by decide⟩, C140_signs _ _ _ (fun _ => rfl) (fun _ => rfl),
    .cons ⟨⟨by decide, by decide, ?_⟩, by decide, by decide, ?_⟩ (.cons ⟨⟨by decide, by decide, ?_⟩, by decide, by decide, ?_⟩ .nil)⟩ <;>
    simp [turn, leftNet, Net.last]

/-- a run: the two networks give the same answers and errors, and the second is still the first rearranged -/
example : ((drill (fun t => t) (fun _ => 1) leftNet [⟨[1, -1], [2], 5⟩]).map (fun r => (r.1.weights, r.2)),
      (drill (fun t => t) (fun _ => 1) rightNet [⟨[1, -1], [2], 5⟩]).map (fun r => (r.1.weights, r.2))) =
    (.ok ([-417 / 10, 447 / 10, -397 / 10, -224 / 5, 269 / 5, -214 / 5, -26 / 5, -45 / 2, 29 / 10], [([63], 3721)]),
     .ok ([-224 / 5, 269 / 5, -214 / 5, 417 / 10, -447 / 10, 397 / 10, -45 / 2, 26 / 5, 29 / 10], [([63], 3721)])) := by
  decide +kernel

/-- neurons that start with the same weights -/
example : Twins exNet 0 0 1 ∧ Fits exNet ∧ 0 + 1 < exNet.last ∧ 1 < exNet.n (0 + 1) := by
  refine ⟨⟨?_, ?_⟩, exNet_fits, by decide, by decide⟩
  · intro i hi
    have hi : i ≤ 2 := hi
    interval_cases i <;> decide +kernel
  · intro j hj
    have hj : j < 1 := hj
    interval_cases j; decide +kernel

end Orp.Mlp
