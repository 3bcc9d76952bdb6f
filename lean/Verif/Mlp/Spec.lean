import Verif.Mlp.Model
import Mathlib.Algebra.BigOperators.Group.Finset.Basic

/-!
Specification vocabulary for the perceptron. Layers and neurons are numbered from 0; `W l j i` is the weight with which neuron `j` of layer
`l + 1` takes neuron `i` of layer `l`, and `W l j (n l)` is its bias.
-/

open Finset

namespace Orp.Mlp

variable {K : Type} [Field K]

/-- size of layer `l` -/
def Net.n (net : Net K) (l : Nat) : Nat := net.sizes.getD l 0

/-- index of the last layer -/
def Net.last (net : Net K) : Nat := net.sizes.length - 1

/-- number of weights before those between layers `l` and `l + 1` -/
def wB (n : Nat → Nat) : Nat → Nat
  | 0 => 0
  | l + 1 => wB n l + (n l + 1) * n (l + 1)

/-- number of neurons before layer `l` -/
def oB (n : Nat → Nat) : Nat → Nat
  | 0 => 0
  | l + 1 => oB n l + n l

/-- position of the weight from neuron `i` of layer `l` (the bias if `i = n l`) to neuron `j` of layer `l + 1` -/
def addr (n : Nat → Nat) (l j i : Nat) : Nat := wB n l + j * (n l + 1) + i

/-- the weights of a network with last layer `last` -/
def Valid (n : Nat → Nat) (last l j i : Nat) : Prop := l < last ∧ j < n (l + 1) ∧ i ≤ n l

/-- The network has a layer, and its weights and outputs fit into the arrays. -/
structure Fits (net : Net K) : Prop where
  layers : 1 ≤ net.sizes.length
  weights : wB net.n net.last ≤ net.weights.length
  outs : oB net.n (net.last + 1) ≤ net.out.length

/-- a weight of the network -/
def Net.W (net : Net K) (l j i : Nat) : K := net.weights.getD (addr net.n l j i) 0

/-- input of the activation function of neuron `j` of layer `l + 1`, `a` being the outputs of layer `l` -/
def preact (W : Nat → Nat → Nat → K) (n : Nat → Nat) (l : Nat) (a : Nat → K) (j : Nat) : K :=
  (∑ i ∈ range (n l), W l j i * a i) + W l j (n l)

/-- outputs of layer `l` for the input `x` -/
def layerOut (act : K → K) (W : Nat → Nat → Nat → K) (n : Nat → Nat) (x : Nat → K) : Nat → Nat → K
  | 0 => x
  | l + 1 => fun j => act (preact W n l (layerOut act W n x l) j)

/-- half the squared error of the network -/
def halfError (act : K → K) (n : Nat → Nat) (last : Nat) (x e : Nat → K) (W : Nat → Nat → Nat → K) : K :=
  (∑ j ∈ range (n last), (layerOut act W n x last j - e j) ^ 2) / 2

/-- replace one weight -/
def setW (W : Nat → Nat → Nat → K) (l j i : Nat) (t : K) : Nat → Nat → Nat → K :=
  fun l' j' i' => if l' = l ∧ j' = j ∧ i' = i then t else W l' j' i'

end Orp.Mlp
