import Verif.Mlp.Gradient
import Mathlib.Analysis.SpecialFunctions.Sigmoid
import Mathlib.Algebra.Field.Rat

/-!
Properties C40–C43 and C68 of the perceptron. `Fits net` says that the weights and the neurons fit into the arrays of the object.
-/

set_option linter.unusedSectionVars false

open Finset

namespace Orp.Mlp

variable {K : Type} [Field K]

/-! ### C40 -/

/-- C40: the weights of distinct (layer, neuron, input) triples have distinct addresses inside the array. -/
theorem C40_addresses (net : Net K) (hf : Fits net) {l j i l' j' i' : Nat} (h : Valid net.n net.last l j i) (h' : Valid net.n net.last l' j' i') :
    addr net.n l j i < net.weights.length ∧ (addr net.n l j i = addr net.n l' j' i' → l = l' ∧ j = j' ∧ i = i') :=
  ⟨lt_of_lt_of_le (addr_lt h) hf.weights, addr_inj h h'⟩

/-- C40: the addresses of the weights are all the numbers below the number of weights, no place is wasted. -/
theorem C40_dense (n : Nat → Nat) (last : Nat) : ∀ p < wB n last, ∃ l j i, Valid n last l j i ∧ addr n l j i = p := by
  induction last with
  | zero => intro p hp; simp [wB] at hp
  | succ last ih =>
      intro p hp
      by_cases h : p < wB n last
      · obtain ⟨l, j, i, ⟨h1, h2, h3⟩, h4⟩ := ih p h
        exact ⟨l, j, i, ⟨by omega, h2, h3⟩, h4⟩
      · simp only [wB] at hp
        have hd := Nat.div_add_mod (p - wB n last) (n last + 1)
        have hm := Nat.mod_lt (p - wB n last) (show n last + 1 > 0 by omega)
        refine ⟨last, (p - wB n last) / (n last + 1), (p - wB n last) % (n last + 1), ⟨by omega, ?_, by omega⟩, ?_⟩
        · rw [Nat.div_lt_iff_lt_mul (by omega), Nat.mul_comm]; omega
        · simp only [addr]; rw [Nat.mul_comm] at hd; omega

/-- C40: `set_weights(layer, neuron, ws)` stores exactly the given values as the weights of this neuron and changes nothing else. -/
theorem C40_set_neuron (net : Net K) (hf : Fits net) (l j : Nat) (hl : l < net.last) (hj : j < net.n (l + 1)) (ws : List K)
    (hw : net.n l + 1 ≤ ws.length) :
    ∃ w', setNeuron net (l + 1) j ws = .ok { net with weights := w' } ∧ w'.length = net.weights.length ∧
      (∀ i ≤ net.n l, w'[addr net.n l j i]? = ws[i]?) ∧
      (∀ p, (∀ i ≤ net.n l, p ≠ addr net.n l j i) → w'[p]? = net.weights[p]?) := by
  have hll : net.last = net.sizes.length - 1 := rfl
  have h1 := baseLoop_spec net l 0 (by omega)
  simp only [Nat.zero_add, wB] at h1
  have hend : addr net.n l j (net.n l) < net.weights.length := lt_of_lt_of_le (addr_lt ⟨hl, hj, le_rfl⟩) hf.weights
  have he : wB net.n l + (net.n l + 1) * j = addr net.n l j 0 := by simp only [addr]; ring
  obtain ⟨w', a1, a2, a3⟩ := copyLoop_spec ws 0 (wB net.n l + (net.n l + 1) * j) (net.n l + 1) 0 net.weights (by omega)
    (by rw [he]; simp only [addr] at hend ⊢; omega)
  refine ⟨w', ?_, a2, fun i hi => ?_, fun p hp => ?_⟩
  · simp only [setNeuron, Nat.add_sub_cancel, h1, n_rd net (show l < net.sizes.length by omega), a1, bind, Except.bind, pure, Except.pure]
  · rw [a3, he, if_pos (by simp only [addr]; omega)]
    congr 1; simp only [addr]; omega
  · rw [a3, he, if_neg]
    rintro ⟨x, y⟩
    refine hp (p - addr net.n l j 0) (by omega) ?_
    simp only [addr] at x ⊢; omega

/-- C40: `set_weights(layer, ws)` stores exactly the given values as the weights of this layer, row by row, and changes nothing else. -/
theorem C40_set_layer (net : Net K) (hf : Fits net) (l : Nat) (hl : l < net.last) (ws : List K)
    (hw : (net.n l + 1) * net.n (l + 1) ≤ ws.length) :
    ∃ w', setLayer net (l + 1) ws = .ok { net with weights := w' } ∧ w'.length = net.weights.length ∧
      (∀ j < net.n (l + 1), ∀ i ≤ net.n l, w'[addr net.n l j i]? = ws[j * (net.n l + 1) + i]?) ∧
      (∀ p, (∀ j < net.n (l + 1), ∀ i ≤ net.n l, p ≠ addr net.n l j i) → w'[p]? = net.weights[p]?) := by
  have hll : net.last = net.sizes.length - 1 := rfl
  have h1 := baseLoop_spec net l 0 (by omega)
  simp only [Nat.zero_add, wB] at h1
  have hend : wB net.n (l + 1) ≤ net.weights.length := (wB_mono net.n hl).trans hf.weights
  simp only [wB] at hend
  obtain ⟨w', a1, a2, a3⟩ := copyLoop_spec ws 0 (wB net.n l) ((net.n l + 1) * net.n (l + 1)) 0 net.weights (by omega) (by omega)
  refine ⟨w', ?_, a2, fun j hj i hi => ?_, fun p hp => ?_⟩
  · simp only [setLayer, Nat.add_sub_cancel, h1, n_rd net (show l < net.sizes.length by omega), n_rd net (show l + 1 < net.sizes.length by omega), a1,
      bind, Except.bind, pure, Except.pure]
  · have hlt := addr_lt_next (n := net.n) (last := net.last) (l := l) (j := j) (i := i) ⟨hl, hj, hi⟩
    simp only [wB] at hlt
    rw [a3, if_pos ⟨by simp only [addr]; omega, by omega⟩]
    congr 1; simp only [addr]; omega
  · rw [a3, if_neg]
    rintro ⟨x, y⟩
    have hd := Nat.div_add_mod (p - wB net.n l) (net.n l + 1)
    have hm := Nat.mod_lt (p - wB net.n l) (show net.n l + 1 > 0 by omega)
    refine hp ((p - wB net.n l) / (net.n l + 1)) ?_ ((p - wB net.n l) % (net.n l + 1)) (by omega) ?_
    · rw [Nat.div_lt_iff_lt_mul (by omega), Nat.mul_comm]; omega
    · simp only [addr]; rw [Nat.mul_comm] at hd; omega

theorem setAllLoop_spec (net : Net K) (ws : List K) (hw : wB net.n net.last ≤ ws.length) : ∀ (k l : Nat) (w : List K),
    l + k = net.last → wB net.n net.last ≤ w.length → 1 ≤ net.sizes.length →
    ∃ w', setAllLoop net.sizes ws (l + 1) k (wB net.n l) w = .ok w' ∧ w'.length = w.length ∧
      ∀ p, w'[p]? = if wB net.n l ≤ p ∧ p < wB net.n net.last then ws[p]? else w[p]?
  | 0, l, w, h, _, _ => ⟨w, rfl, rfl, fun p => by rw [if_neg]; intro h'; have : l = net.last := by omega
                                                  subst this; omega⟩
  | k + 1, l, w, h, hw', hL => by
      have hll : net.last = net.sizes.length - 1 := rfl
      have hm : wB net.n (l + 1) ≤ wB net.n net.last := wB_mono net.n (by omega)
      have hm' : wB net.n (l + 1) = wB net.n l + (net.n l + 1) * net.n (l + 1) := rfl
      obtain ⟨w1, a1, a2, a3⟩ := copyLoop_spec ws (wB net.n l) (wB net.n l) ((net.n l + 1) * net.n (l + 1)) 0 w (by omega) (by omega)
      obtain ⟨w2, b1, b2, b3⟩ := setAllLoop_spec net ws hw k (l + 1) w1 (by omega) (by omega) hL
      refine ⟨w2, ?_, by rw [b2, a2], fun p => ?_⟩
      · simp only [setAllLoop, Nat.add_sub_cancel, n_rd net (show l < net.sizes.length by omega), n_rd net (show l + 1 < net.sizes.length by omega),
          a1, bind, Except.bind]
        exact b1
      · rw [b3 p]
        by_cases h1 : wB net.n (l + 1) ≤ p ∧ p < wB net.n net.last
        · rw [if_pos h1, if_pos (by omega)]
        · rw [if_neg h1, a3 p]
          by_cases h2 : wB net.n l + 0 ≤ p ∧ p < wB net.n l + 0 + (net.n l + 1) * net.n (l + 1)
          · rw [if_pos h2, if_pos (by omega), show wB net.n l + (p - wB net.n l) = p by omega]
          · rw [if_neg h2, if_neg (by omega)]

/-- C40: `set_weights(ws)` stores exactly the given values as the weights of the network, in the order of the layers, and changes nothing else. -/
theorem C40_set_all (net : Net K) (hf : Fits net) (ws : List K) (hw : wB net.n net.last ≤ ws.length) :
    ∃ w', setAll net ws = .ok { net with weights := w' } ∧ w'.length = net.weights.length ∧
      (∀ l j i, Valid net.n net.last l j i → w'[addr net.n l j i]? = ws[addr net.n l j i]?) ∧
      (∀ p, (∀ l j i, Valid net.n net.last l j i → p ≠ addr net.n l j i) → w'[p]? = net.weights[p]?) := by
  obtain ⟨w', a1, a2, a3⟩ := setAllLoop_spec net ws hw net.last 0 net.weights (by omega) hf.weights hf.layers
  refine ⟨w', ?_, a2, fun l j i hv => ?_, fun p hp => ?_⟩
  · have a1' : setAllLoop net.sizes ws 1 (net.sizes.length - 1) 0 net.weights = .ok w' := a1
    simp only [setAll, a1', bind, Except.bind, pure, Except.pure]
  · rw [a3, if_pos ⟨by simp [wB], addr_lt hv⟩]
  · rw [a3, if_neg]
    rintro ⟨_, h⟩
    obtain ⟨l, j, i, hv, he⟩ := C40_dense net.n net.last p h
    exact hp l j i hv he.symm

/-- C40: an object created with a memory budget for its weights and its neurons fits. -/
theorem C40_new_fits (maxSize : Nat) (sizes : List Nat) (rate : K) (rand garbage : Nat → K) (hL : 1 ≤ sizes.length)
    (hw : wB (fun l => sizes.getD l 0) (sizes.length - 1) ≤ ((maxSize + 8 - maxSize % 8) / 8) / 2)
    (ho : oB (fun l => sizes.getD l 0) sizes.length ≤ ((maxSize + 8 - maxSize % 8) / 8) / 2) :
    Fits (new maxSize sizes rate rand garbage) := by
  refine ⟨hL, ?_, ?_⟩
  · simp only [new, totalCount, Net.last, List.length_map, List.length_range]
    exact hw
  · have : sizes.length - 1 + 1 = sizes.length := by omega
    simp only [new, totalCount, Net.last, this, List.length_map, List.length_range]
    exact ho

/-- the network of the project's tests: layers 2, 2, 1 -/
def exNet : Net ℚ := { sizes := [2, 2, 1], weights := [1, 1, 1, 1, 1, 1, 1, 1, 1, 77], out := [8, 8, 8, 8, 8, 8], rate := 1 / 10 }

theorem exNet_fits : Fits exNet := ⟨by decide, by decide, by decide⟩

example : (setNeuron exNet 1 1 [5, 6, 7]).map (·.weights) = .ok [1, 1, 1, 5, 6, 7, 1, 1, 1, 77] := by decide +kernel
example : (setLayer exNet 2 [5, 6, 7]).map (·.weights) = .ok [1, 1, 1, 1, 1, 1, 5, 6, 7, 77] := by decide +kernel
example : (setAll exNet [1, 2, 3, 4, 5, 6, 7, 8, 9]).map (·.weights) = .ok [1, 2, 3, 4, 5, 6, 7, 8, 9, 77] := by decide +kernel

/-! ### C41 -/

/-- C41: `feed_forward` writes the outputs of the last layer of the network function, and does not change the weights. -/
theorem C41_feed_forward (act : K → K) (net : Net K) (hf : Fits net) (input : List K) (hi : net.n 0 ≤ input.length) :
    ∃ net', feedForward act net input = .ok (net',
        (List.range (net.n net.last)).map (layerOut act net.W net.n (fun i => input.getD i 0) net.last)) ∧
      net'.weights = net.weights ∧ net'.sizes = net.sizes ∧ net'.rate = net.rate ∧ Fits net' := by
  obtain ⟨out', a1, a2, _⟩ := feedForward_spec act net hf input hi
  exact ⟨_, a1, rfl, rfl, rfl, hf.layers, hf.weights, by rw [show ({ net with out := out' } : Net K).out = out' from rfl, a2]; exact hf.outs⟩

example : (feedForward (fun y => y) exNet [3 / 2, 3]).map (·.2) = .ok [12] := by decide +kernel

/-! ### C42 -/

/-- C42: after `feed_forward(x)`, `backpropagate(expected)` changes every weight by minus the learning rate times the partial derivative of half
the squared error, and returns the mean squared error. The activation function must have the derivative supplied by the user, as a function of
the output, at the points where it is evaluated. The integer `g` read out of bounds does not matter. -/
theorem C42_gradient_step (g : Int) (act deriv : ℝ → ℝ) (net : Net ℝ) (hf : Fits net) (input expected : List ℝ) (hi : net.n 0 ≤ input.length)
    (he : net.n net.last ≤ expected.length)
    (hact : ∀ l j, l < net.last → j < net.n (l + 1) →
      HasDerivAt act (deriv (layerOut act net.W net.n (fun i => input.getD i 0) (l + 1) j))
        (preact net.W net.n l (layerOut act net.W net.n (fun i => input.getD i 0) l) j)) :
    ∃ net1 result net2 err, feedForward act net input = .ok (net1, result) ∧ backpropagate (some g) deriv net1 expected = .ok (net2, err) ∧
      net2.sizes = net.sizes ∧ net2.rate = net.rate ∧ net2.weights.length = net.weights.length ∧
      err = (∑ j ∈ range (net.n net.last), (result.getD j 0 - expected.getD j 0) ^ 2) / (net.n net.last : ℝ) ∧
      (∀ p, wB net.n net.last ≤ p → net2.weights[p]? = net.weights[p]?) ∧
      ∀ l j i, Valid net.n net.last l j i → ∃ d,
        HasDerivAt (fun t => halfError act net.n net.last (fun i => input.getD i 0) (fun j => expected.getD j 0) (setW net.W l j i t)) d (net.W l j i) ∧
        net2.W l j i = net.W l j i - net.rate * d := by
  obtain ⟨out', a1, a2, a3⟩ := feedForward_spec act net hf input hi
  let net1 : Net ℝ := { net with out := out' }
  have hf1 : Fits net1 := ⟨hf.layers, hf.weights, by rw [show net1.out = out' from rfl, a2]; exact hf.outs⟩
  have hD := deltas_exist deriv net.W net.n net.last (layerOut act net.W net.n (fun i => input.getD i 0)) (fun j => expected.getD j 0)
  obtain ⟨w', out2, b1, b2, b3, b4, b5⟩ := backpropagate_spec g deriv net1 hf1 expected he a3 hD
  refine ⟨net1, _, _, _, a1, b1, rfl, rfl, b2, ?_, b4, fun l j i hv => ⟨_, halfError_hasDerivAt act deriv net.W net.n net.last _ _ hact hD hv, ?_⟩⟩
  · show (∑ j ∈ range (net.n net.last), _) / (net.n net.last : ℝ) = _
    congr 1
    apply sum_congr rfl
    intro j hj
    have hj' := mem_range.1 hj
    simp [hj']
    rfl
  · have h : w'[addr net.n l j i]? = some (net.W l j i + -net.rate * inp net.n _ l i * _) := b5 l j i hv
    show w'.getD (addr net.n l j i) 0 = _
    rw [List.getD_eq_getElem?_getD, h]
    simp only [Option.getD_some]
    ring

/-- the hypothesis about the activation function holds for the sigmoid with the derivative `y * (1 - y)` -/
example (z : ℝ) : HasDerivAt Real.sigmoid ((fun y => y * (1 - y)) (Real.sigmoid z)) z := Real.hasDerivAt_sigmoid z

/-- and for the functions of the project's tests -/
example (z : ℝ) : HasDerivAt (fun y : ℝ => y) ((fun _ => 1) z) z := hasDerivAt_id z

example : (feedForward (fun y => y) exNet [3 / 2, 3]).bind (fun r => (backpropagate (some 1234) (fun _ => 1) r.1 [4]).map (fun q => (q.1.weights, q.2))) =
    .ok ([-1 / 5, -7 / 5, 1 / 5, -1 / 5, -7 / 5, 1 / 5, -17 / 5, -17 / 5, 1 / 5, 77], 64) := by decide +kernel

/-! ### C43 -/

theorem backLayers_none (g : Int) (deriv : K → K) (rate : K) (sizes : List Nat) : ∀ (l : Nat) (ob wb : Int) (w out : List K) (r : List K × List K),
    backLayers (some g) deriv rate sizes (l + 1) ob wb w out = .ok r → backLayers none deriv rate sizes (l + 1) ob wb w out = .error .ub
  | 0, ob, wb, w, out, r, h => by
      cases h0 : rd sizes 0 with
      | error x => simp [backLayers, h0, bind, Except.bind] at h
      | ok s => simp [backLayers, h0, sizeAt, bind, Except.bind]
  | l + 1, ob, wb, w, out, r, h => by
      have hs : ∀ o, sizeAt o sizes (((l + 1 : Nat) : Int) - 1) = (rd sizes l).map (fun (n : Nat) => (n : Int)) := by
        intro o
        rw [show ((l + 1 : Nat) : Int) - 1 = (l : Int) by push_cast; ring]
        simp [sizeAt]
      rw [backLayers] at h ⊢
      cases h1 : rd sizes (l + 1) with
      | error x => simp [h1, bind, Except.bind] at h
      | ok s =>
        cases h2 : rd sizes l with
        | error x => simp only [h1, hs, h2, bind, Except.bind, Except.map] at h; cases h
        | ok sp =>
          cases h3 : rd sizes (l + 1 + 1) with
          | error x => simp only [h1, hs, h2, h3, bind, Except.bind, Except.map] at h; cases h
          | ok nx =>
            simp only [h1, hs, h2, h3, bind, Except.bind, Except.map] at h ⊢
            cases h4 : backNeurons deriv rate (ob - (s : Int)) (wb - ((sp : Int) + 1) * (s : Int)) (sp : Int) s nx 0 (s + 1) w out with
            | error x => rw [h4] at h; simp at h
            | ok q =>
                rw [h4] at h
                simp only at h ⊢
                exact backLayers_none g deriv rate sizes l _ _ _ _ r h

/-- C43 is violated by every network with at least two layers: `backpropagate` reads `layer_size[-1]`. -/
theorem C43_violated (deriv : K → K) (net : Net K) (hf : Fits net) (h2 : 2 ≤ net.sizes.length) (expected : List K)
    (he : net.n net.last ≤ expected.length) : backpropagate none deriv net expected = .error .ub := by
  have hll : net.last = net.sizes.length - 1 := rfl
  obtain ⟨w', out', a1, _⟩ := backpropagate_spec 0 deriv net hf expected he (net_outs net hf.outs) (deltas_exist deriv net.W net.n net.last _ _)
  obtain ⟨l, hl⟩ : ∃ l, net.sizes.length - 1 = l + 1 := ⟨net.sizes.length - 2, by omega⟩
  rw [backpropagate] at a1 ⊢
  cases h1 : outLoop net.sizes 0 (net.sizes.length - 1) 0 with
  | error x => simp [h1, bind, Except.bind] at a1
  | ok ob =>
    cases h3 : weightBase net.sizes (net.sizes.length - 1) with
    | error x => simp [h1, h3, bind, Except.bind] at a1
    | ok wb =>
      cases h4 : rd net.sizes (net.sizes.length - 1) with
      | error x => simp [h1, h3, h4, bind, Except.bind] at a1
      | ok n =>
        cases h5 : lastLoop deriv expected (ob : Int) 0 n 0 net.out with
        | error x => simp [h1, h3, h4, h5, bind, Except.bind] at a1
        | ok q =>
          simp only [h1, h3, h4, h5, bind, Except.bind] at a1 ⊢
          rw [hl] at a1 ⊢
          cases h6 : backLayers (some 0) deriv net.rate net.sizes (l + 1) (ob : Int) (wb : Int) net.weights q.2 with
          | error x => rw [h6] at a1; simp at a1
          | ok r => rw [backLayers_none 0 deriv net.rate net.sizes l _ _ _ _ r h6]

/-- C43, what holds: the read of `layer_size[-1]` is the only out of bounds access, and its value has no influence on the result. -/
theorem C43_only_one_partial (deriv : K → K) (net : Net K) (hf : Fits net) (expected : List K)
    (he : net.n net.last ≤ expected.length) : ∃ (net' : Net K) (err : K), ∀ g : Int, ∃ out', backpropagate (some g) deriv net expected =
      .ok ({ net' with out := out' }, err) := by
  obtain ⟨w0, out0, a1, a2, a3, a4, a5⟩ := backpropagate_spec 0 deriv net hf expected he (net_outs net hf.outs) (deltas_exist deriv net.W net.n net.last _ _)
  refine ⟨{ net with weights := w0 }, (∑ j ∈ range (net.n net.last), (net.out.getD (oB net.n net.last + j) 0 - expected.getD j 0) ^ 2) /
    (net.n net.last : K), fun g => ?_⟩
  obtain ⟨w', out', b1, b2, b3, b4, b5⟩ := backpropagate_spec g deriv net hf expected he (net_outs net hf.outs) (deltas_exist deriv net.W net.n net.last _ _)
  refine ⟨out', ?_⟩
  rw [b1]
  have : w' = w0 := by
    apply List.ext_getElem?
    intro p
    by_cases hp : p < wB net.n net.last
    · obtain ⟨l, j, i, hv, rfl⟩ := C40_dense net.n net.last p hp
      rw [a5 l j i hv, b5 l j i hv]
    · rw [a4 p (by omega), b4 p (by omega)]
  rw [this]

example : (feedForward (fun y => y) exNet [3 / 2, 3]).bind (fun r => (backpropagate none (fun _ => 1) r.1 [4]).map (fun q => q.2)) = .error .ub := by
  decide +kernel

/-! ### C68 -/

/-- C68 is violated: with a maximal size of 8 bytes the two arrays alone take 16 bytes. -/
theorem C68_violated : 8 < 2 * 8 * totalCount 8 := by decide

/-- C68, what holds: the two arrays take at most 8 bytes more than the maximal size. -/
theorem C68_arrays_partial (maxSize : Nat) : 2 * 8 * totalCount maxSize ≤ maxSize + 8 := by
  unfold totalCount; omega

end Orp.Mlp
