import Verif.Mlp.Props
import Mathlib.Algebra.Order.BigOperators.Ring.Finset

/-!
Properties C133 and C134: what a network without hidden layers learns. C133: with a step function as activation the number of wrong
answers is bounded, whatever the order of the examples (the perceptron convergence theorem). C134: with a linear activation the sum of
the squared errors is bounded.
-/

set_option linter.unusedSectionVars false

open Finset

namespace Orp.Mlp

variable {K : Type} [Field K] [LinearOrder K] [IsStrictOrderedRing K]

/-- An example: input, expected output, and the number that `backpropagate` reads out of bounds (see `Model.lean`). -/
structure Example (K : Type) where
  x : List K
  y : List K
  g : Int

/-- Online learning: `feed_forward` and `backpropagate` (perceptron.hpp:62-101, 152-196) for one example after the other; the second
component lists what `feed_forward` answered. -/
def learn (act deriv : K → K) : Net K → List (Example K) → Res (Net K × List (List K))
  | net, [] => .ok (net, [])
  | net, e :: es => do
      let (net, r) ← feedForward act net e.x
      let (net, _) ← backpropagate (some e.g) deriv net e.y
      let (net, rs) ← learn act deriv net es
      return (net, r :: rs)

/-- the input followed by the 1 of the bias -/
def ext (d : Nat) (x : List K) (i : Nat) : K := if i < d then x.getD i 0 else 1

/-- scalar product of two vectors with `d + 1` components -/
def dot (d : Nat) (a b : Nat → K) : K := ∑ i ∈ range (d + 1), a i * b i

/-- the weights of neuron `j` of the last layer of a network with two layers, the last one being its bias -/
def Net.row (net : Net K) (j : Nat) : Nat → K := fun i => net.W 0 j i

theorem dot_comm (d : Nat) (a b : Nat → K) : dot d a b = dot d b a := sum_congr rfl fun _ _ => mul_comm _ _

theorem dot_add (d : Nat) (a b c : Nat → K) (t : K) : dot d (fun i => a i + t * b i) c = dot d a c + t * dot d b c := by
  unfold dot
  rw [mul_sum, ← sum_add_distrib]
  exact sum_congr rfl fun _ _ => by ring

theorem dot_congr (d : Nat) {a a' : Nat → K} (c : Nat → K) (h : ∀ i ≤ d, a i = a' i) : dot d a c = dot d a' c :=
  sum_congr rfl fun i hi => by rw [h i (Nat.lt_succ_iff.1 (mem_range.1 hi))]

theorem dot_self_nonneg (d : Nat) (a : Nat → K) : 0 ≤ dot d a a := sum_nonneg fun i _ => mul_self_nonneg _

theorem dot_sq_le (d : Nat) (a b : Nat → K) : dot d a b ^ 2 ≤ dot d a a * dot d b b := by
  have h := sum_mul_sq_le_sq_mul_sq (range (d + 1)) a b
  simpa only [dot, ← pow_two] using h

theorem preact_dot (net : Net K) (x : List K) (j : Nat) :
    preact net.W net.n 0 (fun i => x.getD i 0) j = dot (net.n 0) (net.row j) (ext (net.n 0) x) := by
  rw [preact, dot, sum_range_succ]
  congr 1
  · exact sum_congr rfl fun i hi => by rw [ext, if_pos (mem_range.1 hi)]; rfl
  · simp [ext, Net.row]

/-- one example: the answer and the new weights -/
theorem one_step (act deriv : K → K) (net : Net K) (hf : Fits net) (h2 : net.last = 1) (e : Example K) (hx : net.n 0 ≤ e.x.length)
    (hy : net.n 1 ≤ e.y.length) :
    ∃ net1 net2 err, feedForward act net e.x =
        .ok (net1, (List.range (net.n 1)).map fun j => act (dot (net.n 0) (net.row j) (ext (net.n 0) e.x))) ∧
      backpropagate (some e.g) deriv net1 e.y = .ok (net2, err) ∧ Fits net2 ∧ net2.sizes = net.sizes ∧ net2.rate = net.rate ∧
      err = (∑ j ∈ range (net.n 1), (act (dot (net.n 0) (net.row j) (ext (net.n 0) e.x)) - e.y.getD j 0) ^ 2) / (net.n 1 : K) ∧
      ∀ j < net.n 1, ∀ i ≤ net.n 0, net2.row j i = net.row j i +
        -(net.rate * (deriv (act (dot (net.n 0) (net.row j) (ext (net.n 0) e.x))) *
          (act (dot (net.n 0) (net.row j) (ext (net.n 0) e.x)) - e.y.getD j 0))) * ext (net.n 0) e.x i := by
  obtain ⟨out', a1, a2, a3⟩ := feedForward_spec act net hf e.x hx
  let net1 : Net K := { net with out := out' }
  have hf1 : Fits net1 := ⟨hf.layers, hf.weights, by rw [show net1.out = out' from rfl, a2]; exact hf.outs⟩
  have hD := deltas_exist deriv net.W net.n net.last (layerOut act net.W net.n (fun i => e.x.getD i 0)) (fun j => e.y.getD j 0)
  have hlast : ∀ j, layerOut act net.W net.n (fun i => e.x.getD i 0) 1 j = act (dot (net.n 0) (net.row j) (ext (net.n 0) e.x)) := by
    intro j
    rw [← preact_dot]
    rfl
  obtain ⟨w', out2, b1, b2, b3, b4, b5⟩ := backpropagate_spec e.g deriv net1 hf1 e.y (by rw [show net1.last = net.last from rfl, h2]; exact hy) a3 hD
  refine ⟨net1, _, _, ?_, b1, ?_, rfl, rfl, ?_, fun j hj i hi => ?_⟩
  · rw [a1, h2]
    congr 2
    exact List.map_congr_left fun j _ => hlast j
  · exact ⟨hf.layers, le_of_le_of_eq hf.weights b2.symm, le_of_le_of_eq hf1.outs b3.symm⟩
  · show (∑ j ∈ range (net.n net.last), _) / (net.n net.last : K) = _
    rw [h2]
    congr 1
    exact sum_congr rfl fun j _ => by rw [show net1.last = 1 from h2, hlast]
  · have h := b5 0 j i ⟨by rw [show net1.last = net.last from rfl, h2]; exact Nat.one_pos, hj, hi⟩
    have ht := hD.top j
    rw [h2] at ht
    show w'.getD (addr net.n 0 j i) 0 = _
    have h' : w'[addr net.n 0 j i]? = _ := h
    rw [List.getD_eq_getElem?_getD, h']
    simp only [Option.getD_some]
    rw [show net1.W = net.W from rfl, show net1.rate = net.rate from rfl, show net1.n = net.n from rfl, h2, Nat.zero_add, ht, hlast]
    have hi' : inp net.n (layerOut act net.W net.n fun i => e.x.getD i 0) 0 i = ext (net.n 0) e.x i := rfl
    rw [hi']
    show net.W 0 j i + _ = net.W 0 j i + _
    ring

/-- what a neuron with the weights `r` answers -/
def reply (act : K → K) (d : Nat) (r : Nat → K) (e : Example K) : K := act (dot d r (ext d e.x))

/-- the weights of neuron `j` after an example -/
def upd (act deriv : K → K) (d j : Nat) (rate : K) (r : Nat → K) (e : Example K) : Nat → K := fun i =>
  r i + -(rate * (deriv (reply act d r e) * (reply act d r e - e.y.getD j 0))) * ext d e.x i

/-- the answers of a neuron during learning -/
def replies (act deriv : K → K) (d j : Nat) (rate : K) : (Nat → K) → List (Example K) → List K
  | _, [] => []
  | r, e :: es => reply act d r e :: replies act deriv d j rate (upd act deriv d j rate r e) es

theorem reply_congr (act : K → K) (d : Nat) {r r' : Nat → K} (h : ∀ i ≤ d, r i = r' i) (e : Example K) :
    reply act d r e = reply act d r' e := by
  rw [reply, reply, dot_congr d _ h]

theorem upd_congr (act deriv : K → K) (d j : Nat) (rate : K) {r r' : Nat → K} (h : ∀ i ≤ d, r i = r' i) (e : Example K) :
    ∀ i ≤ d, upd act deriv d j rate r e i = upd act deriv d j rate r' e i := by
  intro i hi
  rw [upd, upd, h i hi, reply_congr act d h]

theorem replies_congr (act deriv : K → K) (d j : Nat) (rate : K) (es : List (Example K)) : ∀ {r r' : Nat → K},
    (∀ i ≤ d, r i = r' i) → replies act deriv d j rate r es = replies act deriv d j rate r' es ∧
      ∀ i ≤ d, es.foldl (upd act deriv d j rate) r i = es.foldl (upd act deriv d j rate) r' i := by
  induction es with
  | nil => intro r r' h; exact ⟨rfl, h⟩
  | cons e es ih =>
      intro r r' h
      have := ih (upd_congr act deriv d j rate h e)
      exact ⟨by rw [replies, replies, reply_congr act d h, this.1], this.2⟩

/-- the example has enough numbers for the network -/
def Suits (net : Net K) (e : Example K) : Prop := net.n 0 ≤ e.x.length ∧ net.n 1 ≤ e.y.length

/-- learning is learning of each neuron for itself -/
theorem learn_rows (act deriv : K → K) (es : List (Example K)) : ∀ (net : Net K), Fits net → net.last = 1 → (∀ e ∈ es, Suits net e) →
    ∃ net' rs, learn act deriv net es = .ok (net', rs) ∧ Fits net' ∧ net'.sizes = net.sizes ∧ net'.rate = net.rate ∧
      rs.length = es.length ∧ ∀ j < net.n 1, (∀ i ≤ net.n 0, net'.row j i = es.foldl (upd act deriv (net.n 0) j net.rate) (net.row j) i) ∧
        rs.map (fun r => r.getD j 0) = replies act deriv (net.n 0) j net.rate (net.row j) es := by
  induction es with
  | nil => intro net hf _ _; exact ⟨net, [], rfl, hf, rfl, rfl, rfl, fun j _ => ⟨fun _ _ => rfl, rfl⟩⟩
  | cons e es ih =>
      intro net hf h2 hs
      obtain ⟨hx, hy⟩ := hs e (List.mem_cons_self ..)
      obtain ⟨net1, net2, err, a1, a2, a3, a4, a5, -, a7⟩ := one_step act deriv net hf h2 e hx hy
      have hn : net2.n = net.n := by funext l; simp only [Net.n, a4]
      have hl : net2.last = 1 := by rw [← h2]; simp only [Net.last, a4]
      obtain ⟨net', rs, b1, b2, b3, b4, b5, b6⟩ := ih net2 a3 hl (fun e' he' => by
        have := hs e' (List.mem_cons_of_mem _ he')
        rw [Suits, hn]; exact this)
      refine ⟨net', (List.range (net.n 1)).map (fun j => act (dot (net.n 0) (net.row j) (ext (net.n 0) e.x))) :: rs, ?_, b2, b3.trans a4, b4.trans a5, by rw [List.length_cons, List.length_cons, b5], fun j hj => ?_⟩
      · simp only [learn, a1, a2, b1, bind, Except.bind, pure, Except.pure]
      · rw [hn, a5] at b6
        have h6 := b6 j hj
        have hrow : ∀ i ≤ net.n 0, net2.row j i = upd act deriv (net.n 0) j net.rate (net.row j) e i := fun i hi => a7 j hj i hi
        have hc := replies_congr act deriv (net.n 0) j net.rate es hrow
        refine ⟨fun i hi => (h6.1 i hi).trans (hc.2 i hi), ?_⟩
        rw [List.map_cons, replies, h6.2, hc.1]
        congr 1
        rw [List.getD_eq_getElem?_getD, List.getElem?_map, List.getElem?_range hj]
        rfl

/-! ### C133 -/

/-- The number of examples for which the answer of output neuron `j` was wrong; `rs` lists the answers. -/
def mistakes (j : Nat) (es : List (Example K)) (rs : List (List K)) : Nat :=
  (es.zip rs).countP fun p => decide (p.2.getD j 0 ≠ p.1.y.getD j 0)

/-- A step function with the values `lo` and `hi`; which of them it takes at 0 does not matter. -/
structure Step (act : K → K) (lo hi : K) : Prop where
  lt : lo < hi
  two : ∀ s, (act s = hi ∧ 0 ≤ s) ∨ (act s = lo ∧ s ≤ 0)

/-- The examples are separated for output `j` by the hyperplane with the coefficients `w` (the last one is the constant) with margin `γ`. -/
def Separates (d j : Nat) (lo hi : K) (w : Nat → K) (γ : K) (es : List (Example K)) : Prop :=
  ∀ e ∈ es, (e.y.getD j 0 = hi ∧ γ ≤ dot d w (ext d e.x)) ∨ (e.y.getD j 0 = lo ∧ dot d w (ext d e.x) ≤ -γ)

/-- number of wrong answers of a neuron -/
def wrong (act deriv : K → K) (d j : Nat) (rate : K) : (Nat → K) → List (Example K) → Nat
  | _, [] => 0
  | r, e :: es => (if reply act d r e ≠ e.y.getD j 0 then 1 else 0) + wrong act deriv d j rate (upd act deriv d j rate r e) es

theorem wrong_eq (act deriv : K → K) (d j : Nat) (rate : K) (es : List (Example K)) : ∀ (r : Nat → K) (rs : List (List K)),
    rs.map (fun r => r.getD j 0) = replies act deriv d j rate r es → mistakes j es rs = wrong act deriv d j rate r es := by
  induction es with
  | nil => intro r rs _; simp [mistakes, wrong]
  | cons e es ih =>
      intro r rs h
      cases rs with
      | nil => simp [replies] at h
      | cons q rs =>
          rw [List.map_cons, replies, List.cons.injEq] at h
          have := ih _ rs h.2
          rw [mistakes] at this
          rw [mistakes, List.zip_cons_cons, List.countP_cons, this, wrong, h.1]
          simp only [decide_eq_true_eq]
          omega

theorem sub_upd (act deriv : K → K) (d j : Nat) (rate : K) (r r0 : Nat → K) (e : Example K) :
    (fun i => upd act deriv d j rate r e i - r0 i) = fun i => (fun i => r i - r0 i) i +
      -(rate * (deriv (reply act d r e) * (reply act d r e - e.y.getD j 0))) * ext d e.x i := by
  funext i
  simp only [upd]
  ring

theorem dot_sub (d : Nat) (a b c : Nat → K) : dot d (fun i => a i - b i) c = dot d a c - dot d b c := by
  unfold dot
  rw [← sum_sub_distrib]
  exact sum_congr rfl fun _ _ => by ring

theorem dot_add_self (d : Nat) (a b : Nat → K) (t : K) : dot d (fun i => a i + t * b i) (fun i => a i + t * b i) =
    dot d a a + 2 * t * dot d a b + t ^ 2 * dot d b b := by
  rw [dot_add, dot_comm d a, dot_comm d b, dot_add, dot_add, dot_comm d b a]
  ring

/-- the two quantities of the convergence theorem -/
theorem wrong_bounds {act : K → K} {lo hi : K} (hs : Step act lo hi) {d j : Nat} {rate : K} (hr : 0 < rate) {w r0 : Nat → K} {γ R B : K}
    (es : List (Example K)) : ∀ (r : Nat → K) (k : Nat), Separates d j lo hi w γ es → (∀ e ∈ es, dot d (ext d e.x) (ext d e.x) ≤ R) →
    (∀ e ∈ es, |dot d r0 (ext d e.x)| ≤ B) →
    (k : K) * (rate * (hi - lo) * γ) ≤ dot d (fun i => r i - r0 i) w →
    dot d (fun i => r i - r0 i) (fun i => r i - r0 i) ≤ (k : K) * (2 * (rate * (hi - lo)) * B + (rate * (hi - lo)) ^ 2 * R) →
    ∃ r' : Nat → K, ((k + wrong act (fun _ => 1) d j rate r es : Nat) : K) * (rate * (hi - lo) * γ) ≤ dot d r' w ∧
      dot d r' r' ≤ ((k + wrong act (fun _ => 1) d j rate r es : Nat) : K) * (2 * (rate * (hi - lo)) * B + (rate * (hi - lo)) ^ 2 * R) := by
  induction es with
  | nil => intro r k _ _ _ h1 h2; exact ⟨_, by simpa [wrong] using h1, by simpa [wrong] using h2⟩
  | cons e es ih =>
      intro r k hsep hR hB h1 h2
      have hη : 0 < rate * (hi - lo) := mul_pos hr (sub_pos.2 hs.lt)
      have hsep' : Separates d j lo hi w γ es := fun e' he' => hsep e' (List.mem_cons_of_mem _ he')
      have hR' := hR e (List.mem_cons_self ..)
      have hB' := abs_le.1 (hB e (List.mem_cons_self ..))
      have key : ∀ t : K, (t = rate * (hi - lo) ∨ t = -(rate * (hi - lo))) →
          γ * (rate * (hi - lo)) ≤ t * dot d (ext d e.x) w → t * dot d r (ext d e.x) ≤ 0 →
          -(rate * (1 * (reply act d r e - e.y.getD j 0))) = t → reply act d r e ≠ e.y.getD j 0 →
          ∃ r' : Nat → K, ((k + wrong act (fun _ => 1) d j rate r (e :: es) : Nat) : K) * (rate * (hi - lo) * γ) ≤ dot d r' w ∧
            dot d r' r' ≤ ((k + wrong act (fun _ => 1) d j rate r (e :: es) : Nat) : K) *
              (2 * (rate * (hi - lo)) * B + (rate * (hi - lo)) ^ 2 * R) := by
        intro t ht hg hneg hco hne
        have hsq : t ^ 2 = (rate * (hi - lo)) ^ 2 := by rcases ht with rfl | rfl <;> ring
        have hb : -(t * dot d r0 (ext d e.x)) ≤ rate * (hi - lo) * B := by
          rcases ht with rfl | rfl
          · nlinarith [hB'.1]
          · nlinarith [hB'.2]
        obtain ⟨r', c1, c2⟩ := ih (upd act (fun _ => 1) d j rate r e) (k + 1) hsep' (fun e' he' => hR e' (List.mem_cons_of_mem _ he'))
          (fun e' he' => hB e' (List.mem_cons_of_mem _ he')) (by
            rw [sub_upd, hco, dot_add]
            push_cast
            nlinarith) (by
            rw [sub_upd, hco, dot_add_self, hsq, dot_sub d r r0 (ext d e.x)]
            push_cast
            have : (rate * (hi - lo)) ^ 2 * dot d (ext d e.x) (ext d e.x) ≤ (rate * (hi - lo)) ^ 2 * R :=
              mul_le_mul_of_nonneg_left hR' (sq_nonneg _)
            nlinarith)
        refine ⟨r', ?_, ?_⟩
        · rw [wrong, if_pos hne, ← add_assoc]; exact c1
        · rw [wrong, if_pos hne, ← add_assoc]; exact c2
      by_cases hne : reply act d r e = e.y.getD j 0
      · have hu : upd act (fun _ => 1) d j rate r e = r := by
          funext i
          simp [upd, hne]
        rw [wrong, if_neg (not_not.2 hne), hu, zero_add]
        exact ih r k hsep' (fun e' he' => hR e' (List.mem_cons_of_mem _ he')) (fun e' he' => hB e' (List.mem_cons_of_mem _ he')) h1 h2
      · rcases hs.two (dot d r (ext d e.x)) with ⟨ho, hp⟩ | ⟨ho, hp⟩
        · rcases hsep e (List.mem_cons_self ..) with ⟨hy, hg⟩ | ⟨hy, hg⟩
          · exact absurd (by rw [reply, ho, hy]) hne
          · refine key (-(rate * (hi - lo))) (.inr rfl) ?_ ?_ ?_ hne
            · rw [dot_comm]; nlinarith
            · nlinarith
            · rw [reply, ho, hy]; ring
        · rcases hsep e (List.mem_cons_self ..) with ⟨hy, hg⟩ | ⟨hy, hg⟩
          · refine key (rate * (hi - lo)) (.inl rfl) ?_ ?_ ?_ hne
            · rw [dot_comm]; nlinarith
            · nlinarith
            · rw [reply, ho, hy]; ring
          · exact absurd (by rw [reply, ho, hy]) hne

theorem wrong_le {act : K → K} {lo hi : K} (hs : Step act lo hi) {d j : Nat} {rate : K} (hr : 0 < rate) {w r0 : Nat → K} {γ R B : K}
    (hγ : 0 < γ) (hR0 : 0 ≤ R) (hB0 : 0 ≤ B) (es : List (Example K)) (hsep : Separates d j lo hi w γ es)
    (hR : ∀ e ∈ es, dot d (ext d e.x) (ext d e.x) ≤ R) (hB : ∀ e ∈ es, |dot d r0 (ext d e.x)| ≤ B) :
    (wrong act (fun _ => 1) d j rate r0 es : K) * γ ^ 2 ≤ dot d w w * (R + 2 * B / (rate * (hi - lo))) := by
  have hη : 0 < rate * (hi - lo) := mul_pos hr (sub_pos.2 hs.lt)
  obtain ⟨r', c1, c2⟩ := wrong_bounds hs hr es r0 0 hsep hR hB (by simp [dot]) (by simp [dot])
  rw [Nat.zero_add] at c1 c2
  generalize (wrong act (fun _ => 1) d j rate r0 es : Nat) = k at *
  have hk : (0 : K) ≤ k := Nat.cast_nonneg k
  have h1 := dot_sq_le d r' w
  have hw := dot_self_nonneg d w
  have h2 : ((k : K) * (rate * (hi - lo) * γ)) ^ 2 ≤ dot d r' w ^ 2 :=
    pow_le_pow_left₀ (by positivity) c1 2
  have h3 : dot d r' r' * dot d w w ≤ ((k : K) * (2 * (rate * (hi - lo)) * B + (rate * (hi - lo)) ^ 2 * R)) * dot d w w :=
    mul_le_mul_of_nonneg_right c2 hw
  rcases Nat.eq_zero_or_pos k with rfl | hpos
  · have : 0 ≤ 2 * B / (rate * (hi - lo)) := by positivity
    simp only [Nat.cast_zero, zero_mul]
    positivity
  · have hkp : (0 : K) < k := by exact_mod_cast hpos
    have h4 : ((k : K) * (rate * (hi - lo)) ^ 2) * (k * γ ^ 2) ≤
        ((k : K) * (rate * (hi - lo)) ^ 2) * (dot d w w * (R + 2 * B / (rate * (hi - lo)))) := by
      have h5 : ((k : K) * (rate * (hi - lo)) ^ 2) * (dot d w w * (R + 2 * B / (rate * (hi - lo)))) =
          ((k : K) * (2 * (rate * (hi - lo)) * B + (rate * (hi - lo)) ^ 2 * R)) * dot d w w := by
        have hz : rate * (hi - lo) ≠ 0 := ne_of_gt hη
        generalize rate * (hi - lo) = η at hz
        field_simp
        ring
      rw [h5]
      nlinarith
    exact le_of_mul_le_mul_left h4 (by positivity)

/-- **C133** The perceptron convergence theorem. A network without hidden layers, whose activation is a step function (with 1 as its
derivative), is trained on any sequence of examples, in any order and with any repetitions. If some hyperplane separates the examples
with high and with low expected output with margin `γ`, the number of wrong answers it ever gives is bounded, by a number that depends on
the hyperplane, the size of the inputs and the initial weights, but not on the length of the sequence. -/
theorem C133_mistakes {act : K → K} {lo hi : K} (hs : Step act lo hi) (net : Net K) (hf : Fits net) (h2 : net.last = 1)
    (hr : 0 < net.rate) (es : List (Example K)) (hes : ∀ e ∈ es, Suits net e) {j : Nat} (hj : j < net.n 1) {w : Nat → K} {γ R B : K}
    (hγ : 0 < γ) (hR0 : 0 ≤ R) (hB0 : 0 ≤ B) (hsep : Separates (net.n 0) j lo hi w γ es)
    (hR : ∀ e ∈ es, dot (net.n 0) (ext (net.n 0) e.x) (ext (net.n 0) e.x) ≤ R)
    (hB : ∀ e ∈ es, |dot (net.n 0) (net.row j) (ext (net.n 0) e.x)| ≤ B) :
    ∃ net' rs, learn act (fun _ => 1) net es = .ok (net', rs) ∧ rs.length = es.length ∧
      (mistakes j es rs : K) * γ ^ 2 ≤ dot (net.n 0) w w * (R + 2 * B / (net.rate * (hi - lo))) := by
  obtain ⟨net', rs, a1, -, -, -, a5, a6⟩ := learn_rows act (fun _ => 1) es net hf h2 hes
  refine ⟨net', rs, a1, a5, ?_⟩
  rw [wrong_eq act (fun _ => 1) (net.n 0) j net.rate es (net.row j) rs (a6 j hj).2]
  exact wrong_le hs hr hγ hR0 hB0 es hsep hR hB

theorem upd_right (act deriv : K → K) (d j : Nat) (rate : K) {r : Nat → K} {e : Example K} (h : reply act d r e = e.y.getD j 0) :
    upd act deriv d j rate r e = r := by
  funext i
  simp [upd, h]

theorem wrong_zero (act deriv : K → K) (d j : Nat) (rate : K) (es : List (Example K)) : ∀ r : Nat → K,
    wrong act deriv d j rate r es = 0 → es.foldl (upd act deriv d j rate) r = r ∧ ∀ e ∈ es, reply act d r e = e.y.getD j 0 := by
  induction es with
  | nil => intro r _; exact ⟨rfl, by simp⟩
  | cons e es ih =>
      intro r h
      rw [wrong] at h
      have he : reply act d r e = e.y.getD j 0 := by
        by_contra hne
        rw [if_pos hne] at h
        omega
      rw [upd_right act deriv d j rate he] at h
      obtain ⟨h1, h2⟩ := ih r (by omega)
      refine ⟨by rw [List.foldl_cons, upd_right act deriv d j rate he, h1], fun e' he' => ?_⟩
      rcases List.mem_cons.1 he' with rfl | he'
      · exact he
      · exact h2 e' he'

theorem right_stays (act deriv : K → K) (d j : Nat) (rate : K) (es : List (Example K)) (r : Nat → K)
    (h : ∀ e ∈ es, reply act d r e = e.y.getD j 0) : es.foldl (upd act deriv d j rate) r = r := by
  induction es with
  | nil => rfl
  | cons e es ih =>
      rw [List.foldl_cons, upd_right act deriv d j rate (h e (List.mem_cons_self ..))]
      exact ih fun e' he' => h e' (List.mem_cons_of_mem _ he')

theorem wrong_append (act deriv : K → K) (d j : Nat) (rate : K) (es fs : List (Example K)) : ∀ r : Nat → K,
    wrong act deriv d j rate r (es ++ fs) = wrong act deriv d j rate r es + wrong act deriv d j rate (es.foldl (upd act deriv d j rate) r) fs := by
  induction es with
  | nil => intro r; simp [wrong]
  | cons e es ih => intro r; rw [List.cons_append, wrong, wrong, ih, List.foldl_cons, add_assoc]

theorem passes_wrong (act deriv : K → K) (d j : Nat) (rate : K) (data : List (Example K)) : ∀ (N : Nat) (r : Nat → K),
    N ≤ wrong act deriv d j rate r (List.replicate N data).flatten ∨
      ∀ e ∈ data, reply act d ((List.replicate N data).flatten.foldl (upd act deriv d j rate) r) e = e.y.getD j 0
  | 0, r => .inl (Nat.zero_le _)
  | N + 1, r => by
      rw [List.replicate_succ, List.flatten_cons, wrong_append, List.foldl_append]
      rcases Nat.eq_zero_or_pos (wrong act deriv d j rate r data) with h | h
      · obtain ⟨h1, h2⟩ := wrong_zero act deriv d j rate data r h
        right
        rw [h1, right_stays]
        · exact h2
        · intro e he
          obtain ⟨l, hl, he⟩ := List.mem_flatten.1 he
          rw [(List.mem_replicate.1 hl).2] at he
          exact h2 e he
      · rcases passes_wrong act deriv d j rate data N (data.foldl (upd act deriv d j rate) r) with g | g
        · left; omega
        · exact .inr g

/-- **C133** After enough passes over a separable set of examples the network answers all of them right. The number of passes is given by
the bound of `C133_mistakes`. -/
theorem C133_passes {act : K → K} {lo hi : K} (hs : Step act lo hi) (net : Net K) (hf : Fits net) (h2 : net.last = 1)
    (hr : 0 < net.rate) (data : List (Example K)) (hes : ∀ e ∈ data, Suits net e) {j : Nat} (hj : j < net.n 1) {w : Nat → K} {γ R B : K}
    (hγ : 0 < γ) (hR0 : 0 ≤ R) (hB0 : 0 ≤ B) (hsep : Separates (net.n 0) j lo hi w γ data)
    (hR : ∀ e ∈ data, dot (net.n 0) (ext (net.n 0) e.x) (ext (net.n 0) e.x) ≤ R)
    (hB : ∀ e ∈ data, |dot (net.n 0) (net.row j) (ext (net.n 0) e.x)| ≤ B) (N : Nat)
    (hN : dot (net.n 0) w w * (R + 2 * B / (net.rate * (hi - lo))) < N * γ ^ 2) :
    ∃ net' rs, learn act (fun _ => 1) net (List.replicate N data).flatten = .ok (net', rs) ∧
      ∀ e ∈ data, ∃ net'' r, feedForward act net' e.x = .ok (net'', r) ∧ r[j]? = some (e.y.getD j 0) := by
  have hmem : ∀ e ∈ (List.replicate N data).flatten, e ∈ data := by
    intro e he
    obtain ⟨l, hl, he⟩ := List.mem_flatten.1 he
    rwa [(List.mem_replicate.1 hl).2] at he
  obtain ⟨net', rs, a1, a2, a3, a4, a5, a6⟩ := learn_rows act (fun _ => 1) (List.replicate N data).flatten net hf h2
    fun e he => hes e (hmem e he)
  refine ⟨net', rs, a1, ?_⟩
  have hn : net'.n = net.n := by funext l; simp only [Net.n, a3]
  have hl : net'.last = 1 := by rw [← h2]; simp only [Net.last, a3]
  have hw := wrong_le hs hr hγ hR0 hB0 (List.replicate N data).flatten (fun e he => hsep e (hmem e he)) (fun e he => hR e (hmem e he))
    (r0 := net.row j) (fun e he => hB e (hmem e he))
  rcases passes_wrong act (fun _ => 1) (net.n 0) j net.rate data N (net.row j) with h | h
  · exfalso
    have h' : (N : K) ≤ wrong act (fun _ => 1) (net.n 0) j net.rate (net.row j) (List.replicate N data).flatten := by exact_mod_cast h
    have := mul_le_mul_of_nonneg_right h' (sq_nonneg γ)
    exact absurd (lt_of_lt_of_le hN (this.trans hw)) (lt_irrefl _)
  · intro e he
    obtain ⟨hx, hy⟩ := hes e he
    obtain ⟨net1, net2, err, b1, -⟩ := one_step act (fun _ => 1) net' a2 hl e (by rw [hn]; exact hx) (by rw [hn]; exact hy)
    refine ⟨net1, _, b1, ?_⟩
    rw [hn, List.getElem?_map, List.getElem?_range hj, Option.map_some]
    congr 1
    rw [← h e he]
    exact reply_congr act (net.n 0) (fun i hi => (a6 j hj).1 i hi) e

/-- the conjunction of two inputs -/
def andData : List (Example ℚ) := [⟨[0, 0], [0], 7⟩, ⟨[0, 1], [0], 7⟩, ⟨[1, 0], [0], 7⟩, ⟨[1, 1], [1], 7⟩]

/-- a network with two inputs and one output -/
def andNet : Net ℚ := { sizes := [2, 1], weights := [1, 0, 2], out := [5, 5, 5], rate := 1 / 2 }

def stepQ (s : ℚ) : ℚ := if 0 ≤ s then 1 else 0

/-- the hypotheses of C133 are met: the conjunction is separated by `2 x + 2 y - 3` with margin 1 -/
example : Step stepQ 0 1 ∧ Fits andNet ∧ andNet.last = 1 ∧ 0 < andNet.rate ∧ (∀ e ∈ andData, Suits andNet e) ∧
    Separates (andNet.n 0) 0 0 1 (fun i => [2, 2, -3].getD i 0) 1 andData ∧
    (∀ e ∈ andData, dot (andNet.n 0) (ext (andNet.n 0) e.x) (ext (andNet.n 0) e.x) ≤ 3) ∧
    (∀ e ∈ andData, |dot (andNet.n 0) (andNet.row 0) (ext (andNet.n 0) e.x)| ≤ 3) := by
  refine ⟨⟨by norm_num, fun s => ?_⟩, ⟨by decide, by decide, by decide⟩, by decide, by norm_num [andNet], ?_, ?_, ?_, ?_⟩
  · unfold stepQ
    split
    · exact .inl ⟨rfl, by assumption⟩
    · rename_i h; exact .inr ⟨rfl, (not_le.1 h).le⟩
  · unfold Suits; decide +kernel
  · unfold Separates; decide +kernel
  · decide +kernel
  · decide +kernel

/-- seventeen wrong answers later the network knows the conjunction -/
example : (learn stepQ (fun _ => 1) andNet (List.replicate 12 andData).flatten).map (fun r =>
    (mistakes 0 (List.replicate 12 andData).flatten r.2, r.1.weights)) =
      .ok (17, [1, 1 / 2, -3 / 2]) := by decide +kernel

/-! ### C134 -/

/-- The sum of the squares of the errors of output neuron `j`; `rs` lists the answers. -/
def squaredErrors (j : Nat) (es : List (Example K)) (rs : List (List K)) : K :=
  ((es.zip rs).map fun p => (p.2.getD j 0 - p.1.y.getD j 0) ^ 2).sum

/-- sum of the squared errors of a neuron -/
def loss (act deriv : K → K) (d j : Nat) (rate : K) : (Nat → K) → List (Example K) → K
  | _, [] => 0
  | r, e :: es => (reply act d r e - e.y.getD j 0) ^ 2 + loss act deriv d j rate (upd act deriv d j rate r e) es

theorem loss_eq (act deriv : K → K) (d j : Nat) (rate : K) (es : List (Example K)) : ∀ (r : Nat → K) (rs : List (List K)),
    rs.map (fun r => r.getD j 0) = replies act deriv d j rate r es → squaredErrors j es rs = loss act deriv d j rate r es := by
  induction es with
  | nil => intro r rs _; simp [squaredErrors, loss]
  | cons e es ih =>
      intro r rs h
      cases rs with
      | nil => simp [replies] at h
      | cons q rs =>
          rw [List.map_cons, replies, List.cons.injEq] at h
          have := ih _ rs h.2
          rw [squaredErrors] at this
          rw [squaredErrors, List.zip_cons_cons, List.map_cons, List.sum_cons, this, loss, h.1]

/-- one step brings the weights closer to every solution -/
theorem lms_step (d j : Nat) (rate : K) (r w : Nat → K) (e : Example K) (h : dot d w (ext d e.x) = e.y.getD j 0) :
    dot d (fun i => upd (fun s => s) (fun _ => 1) d j rate r e i - w i) (fun i => upd (fun s => s) (fun _ => 1) d j rate r e i - w i) =
      dot d (fun i => r i - w i) (fun i => r i - w i) -
        rate * (2 - rate * dot d (ext d e.x) (ext d e.x)) * (reply (fun s => s) d r e - e.y.getD j 0) ^ 2 := by
  rw [sub_upd, dot_add_self, dot_sub d r w (ext d e.x), h]
  simp only [reply]
  ring

theorem loss_le {d j : Nat} {rate : K} (hr : 0 ≤ rate) {w : Nat → K} {R : K} (es : List (Example K)) : ∀ (r : Nat → K),
    (∀ e ∈ es, dot d w (ext d e.x) = e.y.getD j 0) → (∀ e ∈ es, dot d (ext d e.x) (ext d e.x) ≤ R) →
    dot d (fun i => es.foldl (upd (fun s => s) (fun _ => 1) d j rate) r i - w i)
        (fun i => es.foldl (upd (fun s => s) (fun _ => 1) d j rate) r i - w i) +
      rate * (2 - rate * R) * loss (fun s => s) (fun _ => 1) d j rate r es ≤ dot d (fun i => r i - w i) (fun i => r i - w i) := by
  induction es with
  | nil => intro r _ _; simp [loss]
  | cons e es ih =>
      intro r hw hR
      have h1 := ih (upd (fun s => s) (fun _ => 1) d j rate r e) (fun e' he' => hw e' (List.mem_cons_of_mem _ he'))
        (fun e' he' => hR e' (List.mem_cons_of_mem _ he'))
      rw [lms_step d j rate r w e (hw e (List.mem_cons_self ..))] at h1
      rw [List.foldl_cons, loss]
      have h2 := hR e (List.mem_cons_self ..)
      have h3 : rate * (rate * dot d (ext d e.x) (ext d e.x)) * (reply (fun s => s) d r e - e.y.getD j 0) ^ 2 ≤
          rate * (rate * R) * (reply (fun s => s) d r e - e.y.getD j 0) ^ 2 := by gcongr
      linarith

/-- **C134** A network without hidden layers and with a linear activation is trained on any sequence of examples that some weights `w`
explain exactly. If the learning rate is less than `2 / R`, where `R` bounds the squared length of the inputs (with the 1 of the bias), the
sum of all squared errors it makes is at most `‖initial weights - w‖² / (rate (2 - rate R))`, however long the sequence is, and it never gets
farther from `w`. -/
theorem C134_total_error (net : Net K) (hf : Fits net) (h2 : net.last = 1) (hr : 0 < net.rate) (es : List (Example K))
    (hes : ∀ e ∈ es, Suits net e) {j : Nat} (hj : j < net.n 1) {w : Nat → K} {R : K} (hrR : net.rate * R < 2)
    (hw : ∀ e ∈ es, dot (net.n 0) w (ext (net.n 0) e.x) = e.y.getD j 0)
    (hR : ∀ e ∈ es, dot (net.n 0) (ext (net.n 0) e.x) (ext (net.n 0) e.x) ≤ R) :
    ∃ net' rs, learn (fun s => s) (fun _ => 1) net es = .ok (net', rs) ∧ rs.length = es.length ∧
      squaredErrors j es rs ≤ dot (net.n 0) (fun i => net.row j i - w i) (fun i => net.row j i - w i) / (net.rate * (2 - net.rate * R)) ∧
      dot (net.n 0) (fun i => net'.row j i - w i) (fun i => net'.row j i - w i) ≤
        dot (net.n 0) (fun i => net.row j i - w i) (fun i => net.row j i - w i) := by
  obtain ⟨net', rs, a1, -, -, -, a5, a6⟩ := learn_rows (fun s => s) (fun _ => 1) es net hf h2 hes
  obtain ⟨a6, a7⟩ := a6 j hj
  have h := loss_le hr.le es (net.row j) hw hR
  have hd : ∀ i ≤ net.n 0, net'.row j i - w i = es.foldl (upd (fun s => s) (fun _ => 1) (net.n 0) j net.rate) (net.row j) i - w i :=
    fun i hi => by rw [a6 i hi]
  have hd2 : dot (net.n 0) (fun i => net'.row j i - w i) (fun i => net'.row j i - w i) =
      dot (net.n 0) (fun i => es.foldl (upd (fun s => s) (fun _ => 1) (net.n 0) j net.rate) (net.row j) i - w i)
        (fun i => es.foldl (upd (fun s => s) (fun _ => 1) (net.n 0) j net.rate) (net.row j) i - w i) := by
    rw [dot_congr (net.n 0) _ hd, dot_comm, dot_congr (net.n 0) _ hd]
  have hpos : 0 < net.rate * (2 - net.rate * R) := mul_pos hr (by linarith)
  have hl : 0 ≤ loss (fun s => s) (fun _ => 1) (net.n 0) j net.rate (net.row j) es := by
    generalize net.row j = r
    clear * -
    induction es generalizing r with
    | nil => exact le_rfl
    | cons e es ih => exact add_nonneg (sq_nonneg _) (ih _)
  refine ⟨net', rs, a1, a5, ?_, ?_⟩
  · rw [loss_eq _ _ (net.n 0) j net.rate es (net.row j) rs a7, le_div_iff₀ hpos]
    have := dot_self_nonneg (net.n 0) (fun i => es.foldl (upd (fun s => s) (fun _ => 1) (net.n 0) j net.rate) (net.row j) i - w i)
    linarith
  · rw [hd2]
    have := mul_nonneg hpos.le hl
    linarith

theorem reply_upd (d j : Nat) (rate : K) (r : Nat → K) (e : Example K) :
    reply (fun s => s) d (upd (fun s => s) (fun _ => 1) d j rate r e) e - e.y.getD j 0 =
      (1 - rate * dot d (ext d e.x) (ext d e.x)) * (reply (fun s => s) d r e - e.y.getD j 0) := by
  have : dot d (upd (fun s => s) (fun _ => 1) d j rate r e) (ext d e.x) = dot d r (ext d e.x) +
      -(rate * (1 * (reply (fun s => s) d r e - e.y.getD j 0))) * dot d (ext d e.x) (ext d e.x) := dot_add d r _ _ _
  simp only [reply] at *
  rw [this]
  ring

theorem reply_repeat (d j : Nat) (rate : K) (e : Example K) : ∀ (N : Nat) (r : Nat → K),
    reply (fun s => s) d ((List.replicate N e).foldl (upd (fun s => s) (fun _ => 1) d j rate) r) e - e.y.getD j 0 =
      (1 - rate * dot d (ext d e.x) (ext d e.x)) ^ N * (reply (fun s => s) d r e - e.y.getD j 0)
  | 0, r => by simp
  | N + 1, r => by
      rw [List.replicate_succ, List.foldl_cons, reply_repeat d j rate e N, reply_upd]
      ring

/-- **C134** The same example again and again: each presentation multiplies the error of every output neuron by exactly
`1 - rate (1 + ‖x‖²)`. -/
theorem C134_repeated_example (net : Net K) (hf : Fits net) (h2 : net.last = 1) (e : Example K) (he : Suits net e) (N : Nat) :
    ∃ net0 r0 net1 rs net2 r, feedForward (fun s => s) net e.x = .ok (net0, r0) ∧
      learn (fun s => s) (fun _ => 1) net (List.replicate N e) = .ok (net1, rs) ∧
      feedForward (fun s => s) net1 e.x = .ok (net2, r) ∧ ∀ j < net.n 1,
        r.getD j 0 - e.y.getD j 0 = (1 - net.rate * (1 + ∑ i ∈ range (net.n 0), e.x.getD i 0 ^ 2)) ^ N * (r0.getD j 0 - e.y.getD j 0) := by
  obtain ⟨net0, _, _, b1, -⟩ := one_step (fun s => s) (fun _ => 1) net hf h2 e he.1 he.2
  obtain ⟨net', rs, a1, a2, a3, a4, a5, a6⟩ := learn_rows (fun s => s) (fun _ => 1) (List.replicate N e) net hf h2
    fun e' he' => by rw [(List.mem_replicate.1 he').2]; exact he
  have hn : net'.n = net.n := by funext l; simp only [Net.n, a3]
  have hl : net'.last = 1 := by rw [← h2]; simp only [Net.last, a3]
  obtain ⟨net2, _, _, c1, -⟩ := one_step (fun s => s) (fun _ => 1) net' a2 hl e (by rw [hn]; exact he.1) (by rw [hn]; exact he.2)
  refine ⟨net0, _, net', rs, net2, _, b1, a1, c1, fun j hj => ?_⟩
  have hx : dot (net.n 0) (ext (net.n 0) e.x) (ext (net.n 0) e.x) = 1 + ∑ i ∈ range (net.n 0), e.x.getD i 0 ^ 2 := by
    rw [dot, sum_range_succ, add_comm]
    congr 1
    · simp [ext]
    · exact sum_congr rfl fun i hi => by rw [ext, if_pos (mem_range.1 hi), pow_two]
  rw [← hx]
  have h := reply_repeat (net.n 0) j net.rate e N (net.row j)
  rw [← reply_congr _ _ (fun i hi => (a6 j hj).1 i hi)] at h
  simp only [List.getD_eq_getElem?_getD, List.getElem?_map, List.getElem?_range hj, hn, Option.map_some, Option.getD_some] at h ⊢
  exact h

/-- the hypotheses of C134 are met: three examples of `x + 2 y + 1` -/
def linData : List (Example ℚ) := [⟨[0, 1], [3], 7⟩, ⟨[1, 0], [2], 7⟩, ⟨[1, 1], [4], 7⟩]

example : Fits andNet ∧ andNet.last = 1 ∧ (∀ e ∈ linData, Suits andNet e) ∧ andNet.rate * 3 < 2 ∧
    (∀ e ∈ linData, dot (andNet.n 0) (fun i => [1, 2, 1].getD i 0) (ext (andNet.n 0) e.x) = e.y.getD 0 0) ∧
    (∀ e ∈ linData, dot (andNet.n 0) (ext (andNet.n 0) e.x) (ext (andNet.n 0) e.x) ≤ 3) := by
  refine ⟨⟨by decide, by decide, by decide⟩, by decide, ?_, by norm_num [andNet], ?_, ?_⟩
  · unfold Suits; decide +kernel
  · decide +kernel
  · decide +kernel

/-- with these the sum of the squared errors of twelve presentations stays below the bound -/
example : (learn (fun s => s) (fun _ => 1) andNet (List.replicate 4 linData).flatten).map (fun r =>
    decide (squaredErrors 0 (List.replicate 4 linData).flatten r.2 ≤
      dot 2 (fun i => andNet.row 0 i - [1, 2, 1].getD i 0) (fun i => andNet.row 0 i - [1, 2, 1].getD i 0) / (1 / 2 * (2 - 1 / 2 * 3)))) =
    .ok true := by decide +kernel

end Orp.Mlp
