import Verif.Basic
import Mathlib.Algebra.Field.Basic

/-!
Model of `MultiLayerPerceptron` (`/repo/src/perceptron.hpp`, whole class).

* Numbers are elements of a field `K`; the activation function and its derivative (which the code applies to the output of a neuron, not to its
  input) are parameters.
* `backpropagate` reads `layer_size[-1]` (lines 168, 177, 186). The argument `oob` says what this read does: `none`, undefined behaviour;
  `some g`, it returns the integer `g`. The index arithmetic of `backpropagate` is done in `Int`, without overflow.
* The array `input`, `expected` and `new_weights` arguments are lists; reading past their end is undefined behaviour.
-/

namespace Orp.Mlp

variable {K : Type} [Field K]

/-- Object state (perceptron.hpp:12-20) -/
structure Net (K : Type) where
  sizes : List Nat
  weights : List K
  /-- `neuron_output` -/
  out : List K
  rate : K

/-- `total_weight_count` (perceptron.hpp:12) -/
def totalCount (maxSize : Nat) : Nat := ((maxSize + 8 - maxSize % 8) / 8) / 2

/-- Constructor (perceptron.hpp:48-56): `rand i` is the i-th random number, `garbage i` the indeterminate initial content of `neuron_output` -/
def new (maxSize : Nat) (sizes : List Nat) (rate : K) (rand garbage : Nat → K) : Net K :=
  { sizes := sizes, weights := (List.range (totalCount maxSize)).map rand,
    out := (List.range (totalCount maxSize)).map garbage, rate := rate }

/-- A loop `dst[db + i] = src[sb + i]` from `i`, `k` iterations left (perceptron.hpp:64-66, 114-115, 127-128, 137-138). -/
def copyLoop (src : List K) (sb db : Nat) : Nat → Nat → List K → Res (List K)
  | _, 0, dst => .ok dst
  | i, k + 1, dst => do
      let v ← rd src (sb + i)
      let dst ← wr dst (db + i) v
      copyLoop src sb db (i + 1) k dst

/-- Inner loop of `feed_forward` (perceptron.hpp:78-83) -/
def sumLoop (w out : List K) (wb ob : Nat) : Nat → Nat → K → Res K
  | _, 0, s => .ok s
  | i, k + 1, s => do
      let a ← rd w (wb + i)
      let b ← rd out (ob + i)
      sumLoop w out wb ob (i + 1) k (s + a * b)

/-- Loop over the neurons of a layer (perceptron.hpp:75-92); `np` is the size of the previous layer. -/
def neuronLoop (act : K → K) (w : List K) (np wb ob : Nat) : Nat → Nat → List K → Res (List K)
  | _, 0, out => .ok out
  | j, k + 1, out => do
      let s ← sumLoop w out (wb + j * (np + 1)) ob 0 np 0
      let b ← rd w (wb + j * (np + 1) + np)
      let out ← wr out (ob + np + j) (act (s + b))
      neuronLoop act w np wb ob (j + 1) k out

/-- Loop over the layers (perceptron.hpp:73-95), returns `neuron_output` and `output_base` -/
def layerLoop (act : K → K) (sizes : List Nat) (w : List K) : Nat → Nat → Nat → Nat → List K → Res (List K × Nat)
  | _, 0, _, ob, out => .ok (out, ob)
  | l, k + 1, wb, ob, out => do
      let np ← rd sizes (l - 1)
      let n ← rd sizes l
      let out ← neuronLoop act w np wb ob 0 n out
      layerLoop act sizes w (l + 1) k (wb + n * (np + 1)) (ob + np) out

/-- Reading the result of the last layer (perceptron.hpp:98-100) -/
def readLoop (out : List K) (ob : Nat) : Nat → Nat → List K → Res (List K)
  | _, 0, acc => .ok acc
  | i, k + 1, acc => do
      let v ← rd out (ob + i)
      readLoop out ob (i + 1) k (acc ++ [v])

/-- `feed_forward` (perceptron.hpp:62-101); the second component is what is written to `output` -/
def feedForward (act : K → K) (net : Net K) (input : List K) : Res (Net K × List K) := do
  let n0 ← rd net.sizes 0
  let out ← copyLoop input 0 0 0 n0 net.out
  let (out, ob) ← layerLoop act net.sizes net.weights 1 (net.sizes.length - 1) 0 0 out
  let n ← rd net.sizes (net.sizes.length - 1)
  let res ← readLoop out ob 0 n []
  return ({ net with out := out }, res)

/-- The loops that compute a weight base: `get_weight_base` (perceptron.hpp:26-31), and lines 109-111, 123-125; from `i`, `k` iterations left. -/
def baseLoop (sizes : List Nat) : Nat → Nat → Nat → Res Nat
  | _, 0, b => .ok b
  | i, k + 1, b => do
      let np ← rd sizes (i - 1)
      let n ← rd sizes i
      baseLoop sizes (i + 1) k (b + (np + 1) * n)

/-- `get_weight_base` (perceptron.hpp:26-31) -/
def weightBase (sizes : List Nat) (layer : Nat) : Res Nat := baseLoop sizes 1 (layer - 1) 0

/-- `get_output_base` (perceptron.hpp:36-41), from `i`, `k` iterations left -/
def outLoop (sizes : List Nat) : Nat → Nat → Nat → Res Nat
  | _, 0, b => .ok b
  | i, k + 1, b => do
      let n ← rd sizes i
      outLoop sizes (i + 1) k (b + n)

/-- `set_weights` of one neuron (perceptron.hpp:108-116) -/
def setNeuron (net : Net K) (layer neuron : Nat) (ws : List K) : Res (Net K) := do
  let base ← baseLoop net.sizes 1 (layer - 1) 0
  let np ← rd net.sizes (layer - 1)
  let w ← copyLoop ws 0 (base + (np + 1) * neuron) 0 (np + 1) net.weights
  return { net with weights := w }

/-- `set_weights` of one layer (perceptron.hpp:122-129) -/
def setLayer (net : Net K) (layer : Nat) (ws : List K) : Res (Net K) := do
  let base ← baseLoop net.sizes 1 (layer - 1) 0
  let np ← rd net.sizes (layer - 1)
  let n ← rd net.sizes layer
  let w ← copyLoop ws 0 base 0 ((np + 1) * n) net.weights
  return { net with weights := w }

/-- Loop of `set_weights` of the network (perceptron.hpp:136-140), from layer `l`, `k` layers left -/
def setAllLoop (sizes : List Nat) (ws : List K) : Nat → Nat → Nat → List K → Res (List K)
  | _, 0, _, w => .ok w
  | l, k + 1, base, w => do
      let np ← rd sizes (l - 1)
      let n ← rd sizes l
      let w ← copyLoop ws base base 0 ((np + 1) * n) w
      setAllLoop sizes ws (l + 1) k (base + (np + 1) * n) w

/-- `set_weights` of the network (perceptron.hpp:134-141) -/
def setAll (net : Net K) (ws : List K) : Res (Net K) := do
  let w ← setAllLoop net.sizes ws 1 (net.sizes.length - 1) 0 net.weights
  return { net with weights := w }

/-- A read `layer_size[i]` in `backpropagate`, see the head of the file. -/
def sizeAt (oob : Option Int) (sizes : List Nat) (i : Int) : Res Int :=
  if 0 ≤ i then (rd sizes i.toNat).map (fun (n : Nat) => (n : Int))
  else if i = -1 then
    match oob with
    | some g => .ok g
    | none => .error .ub
  else .error .ub

/-- `a[i]` with an `int` index -/
def rdz (a : List K) (i : Int) : Res K := if 0 ≤ i then rd a i.toNat else .error .ub

/-- `a[i] = v` with an `int` index -/
def wrz (a : List K) (i : Int) (v : K) : Res (List K) := if 0 ≤ i then wr a i.toNat v else .error .ub

/-- First loop of `backpropagate` (perceptron.hpp:158-164): error of the last layer -/
def lastLoop (deriv : K → K) (expected : List K) (ob : Int) : Nat → Nat → K → List K → Res (K × List K)
  | _, 0, e, out => .ok (e, out)
  | i, k + 1, e, out => do
      let o ← rdz out (ob + i)
      let x ← rd expected i
      let err := o - x
      let out ← wrz out (ob + i) (deriv o * err)
      lastLoop deriv expected ob (i + 1) k (e + err * err) out

/-- First inner loop (perceptron.hpp:174-179). `sPrev` is `layer_size[layer_idx-1]`, `s` is `layer_size[layer_idx]`. -/
def errLoop (w out : List K) (ob wb sPrev s : Int) (j : Nat) : Nat → Nat → K → Res K
  | _, 0, e => .ok e
  | i, k + 1, e => do
      let d ← rdz out (ob + s + i)
      let v ← rdz w (wb + (sPrev + 1) * s + i * (s + 1) + j)
      errLoop w out ob wb sPrev s j (i + 1) k (e + d * v)

/-- Second inner loop (perceptron.hpp:183-189) -/
def adjLoop (rate cur : K) (out : List K) (ob wb sPrev s : Int) (j : Nat) : Nat → Nat → List K → Res (List K)
  | _, 0, w => .ok w
  | i, k + 1, w => do
      let d ← rdz out (ob + s + i)
      let v ← rdz w (wb + (sPrev + 1) * s + i * (s + 1) + j)
      let w ← wrz w (wb + (sPrev + 1) * s + i * (s + 1) + j) (v + -rate * cur * d)
      adjLoop rate cur out ob wb sPrev s j (i + 1) k w

/-- Loop over the neurons of a layer and the bias (perceptron.hpp:169-192); `next` is `layer_size[layer_idx+1]`. -/
def backNeurons (deriv : K → K) (rate : K) (ob wb sPrev : Int) (s next : Nat) : Nat → Nat → List K → List K → Res (List K × List K)
  | _, 0, w, out => .ok (w, out)
  | j, k + 1, w, out => do
      let cur ← (if j < s then rdz out (ob + j) else .ok 1 : Res K)
      let e ← errLoop w out ob wb sPrev s j 0 next 0
      let w ← adjLoop rate cur out ob wb sPrev s j 0 next w
      let out ← (if j < s then wrz out (ob + j) (e * deriv cur) else .ok out : Res (List K))
      backNeurons deriv rate ob wb sPrev s next (j + 1) k w out

/-- Loop over the layers from the last but one to the first (perceptron.hpp:166-193), `l` layers left, the next one is `l - 1`. -/
def backLayers (oob : Option Int) (deriv : K → K) (rate : K) (sizes : List Nat) : Nat → Int → Int → List K → List K → Res (List K × List K)
  | 0, _, _, w, out => .ok (w, out)
  | l + 1, ob, wb, w, out => do
      let s ← rd sizes l
      let sPrev ← sizeAt oob sizes ((l : Int) - 1)
      let next ← rd sizes (l + 1)
      let ob := ob - s
      let wb := wb - (sPrev + 1) * s
      let (w, out) ← backNeurons deriv rate ob wb sPrev s next 0 (s + 1) w out
      backLayers oob deriv rate sizes l ob wb w out

/-- `backpropagate` (perceptron.hpp:152-196): new object and returned error -/
def backpropagate (oob : Option Int) (deriv : K → K) (net : Net K) (expected : List K) : Res (Net K × K) := do
  let ob ← outLoop net.sizes 0 (net.sizes.length - 1) 0
  let wb ← weightBase net.sizes (net.sizes.length - 1)
  let n ← rd net.sizes (net.sizes.length - 1)
  let (e, out) ← lastLoop deriv expected ob 0 n 0 net.out
  let (w, out) ← backLayers oob deriv net.rate net.sizes (net.sizes.length - 1) ob wb net.weights out
  return ({ net with
    weights := w
    out := out }, e / (n : K))

end Orp.Mlp
