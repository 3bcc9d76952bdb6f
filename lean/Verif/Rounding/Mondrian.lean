import Verif.Rounding.Probability
import Verif.Mondrian.Choose
import Verif.Mondrian.Props

/-!
Training of `MondrianForest` with rounded arithmetic (C108). Of the functions that `train` calls only `extend_block` computes with `double`s, in
the random choices (mondrian.hpp:126-163); the rest is `extendBlockWith`.
-/

set_option linter.unusedSectionVars false

namespace Orp.Rounding

open Mondrian

variable {f : Fmt} {fl : ℚ → ℚ} {F L : Nat}

/-- `e_lower[i] + e_upper[i]` (mondrian.hpp:135-137) with rounding -/
def extentR (fl : ℚ → ℚ) (b : Box ℚ F) (x : Fin F → ℚ) (i : Fin F) : ℚ :=
  fl ((if fl (b.lower i - x i) > 0 then fl (b.lower i - x i) else 0) + (if fl (x i - b.upper i) > 0 then fl (x i - b.upper i) else 0))

/-- The choice of the dimension (mondrian.hpp:144-149) with rounding -/
def pickDimR (fl : ℚ → ℚ) (ω : Nat → ℚ) (pos : Nat) (e : Fin F → ℚ) (sum : ℚ) : Res (Fin F × Nat) := do
  let probs ← turnR fl (List.ofFn e) sum
  let d := Utils.pick probs (ω pos)
  if h : d < F then return (⟨d, h⟩, pos + 1)
  else
    let k := Utils.trunc (fl (ω (pos + 1) * (F : ℚ)))
    if h : 0 ≤ k ∧ k.toNat < F then return (⟨k.toNat, h.2⟩, pos + 2)
    else .error .ub

/-- The value of the split (mondrian.hpp:163) with rounding -/
def splitR (fl : ℚ → ℚ) (u lo up : ℚ) : ℚ := fl (fl (u * fl (up - lo)) + lo)

/-- The choice of the split (mondrian.hpp:152-163, 207) with rounding; see `cutAt` -/
def cutAtR (fl : ℚ → ℚ) (ω : Nat → ℚ) (pos : Nat) (b : Box ℚ F) (x : Fin F → ℚ) (dim : Fin F) (tau : ℚ) : Res (Cut ℚ F × Nat) := do
  let (lo, up) ← (if b.upper dim < x dim then .ok (b.upper dim, x dim)
    else if x dim < b.lower dim then .ok (x dim, b.lower dim) else .error .ub : Res (ℚ × ℚ))
  return ({ dim := dim, split := splitR fl (ω pos) lo up, tau := tau, right := decide (x dim = up) }, pos + 1)

/-- The random choices of `extend_block` (mondrian.hpp:126-163) with rounding; see `draw` -/
def drawR (fl : ℚ → ℚ) (p : Params ℚ) (ω : Nat → ℚ) : Chooser ℚ F := fun pos b x parentTau tau =>
  let sum := sumR fl (List.ofFn (extentR fl b x))
  if sum = 0 then .ok (none, pos)
  else
    let e := fl (p.log (fl (1 - ω pos)) / (-sum))
    if 0 ≤ e ∧ fl (parentTau + e) < tau then do
      let (dim, pos) ← pickDimR fl ω (pos + 1) (extentR fl b x) sum
      let (cut, pos) ← cutAtR fl ω pos b x dim (fl (parentTau + e))
      return (some cut, pos)
    else .ok (none, pos + 1)

/-- A history of calls of `train` (mondrian.hpp:449-457) with rounding -/
def trainAllR (fl : ℚ → ℚ) (p : Params ℚ) (ω : Nat → ℚ) : List (Point ℚ F L) → Forest ℚ F L → Nat → Res (Forest ℚ F L × Nat) :=
  trainAllWith p (drawR fl p ω)

/-! ### Without rounding -/

theorem foldl_id : ∀ (l : List ℚ) (a : ℚ), l.foldl (fun a v => id (a + v)) a = a + l.sum
  | [], a => by simp
  | v :: l, a => by rw [List.foldl_cons, foldl_id l, List.sum_cons]; simp only [id]; ring

/-- Without rounding these are the random choices of the model. -/
theorem drawR_id (p : Params ℚ) (ω : Nat → ℚ) : drawR id p ω = draw (F := F) p ω := by
  funext pos b x ptau tau
  have he : extentR id b x = extent b x := by funext i; rfl
  have hs : sumR id (List.ofFn (extent b x)) = ∑ i, extent b x i := by
    unfold sumR
    rw [foldl_id, zero_add, List.sum_ofFn]
  unfold drawR draw
  simp only [he, hs]
  by_cases h0 : ∑ i, extent b x i = 0
  · rw [if_pos h0, if_pos h0]
  · rw [if_neg h0, if_neg h0]
    have hp : pickDimR id ω (pos + 1) (extent b x) (∑ i, extent b x i) = pickDim ω (pos + 1) (extent b x) (∑ i, extent b x i) := by
      unfold pickDimR pickDim
      rw [turnR_id]; rfl
    rw [hp]
    rfl

theorem trainAllR_id (p : Params ℚ) (ω : Nat → ℚ) (zs : List (Point ℚ F L)) (s : Forest ℚ F L) (pos : Nat) :
    trainAllR id p ω zs s pos = run p ω (zs.map (fun z => Op.train z.1 z.2)) s pos := by
  unfold trainAllR
  rw [drawR_id, trainAllWith_draw]

/-! ### The extents -/

theorem sub_pos_iff (h : IsRounding f fl) {a b : ℚ} (ha : IsFloat f a) (hb : IsFloat f b) : 0 < fl (a - b) ↔ b < a := by
  constructor
  · intro hpos
    by_contra hle
    have := h.le (isFloat_zero f) (x := a - b) (by linarith)
    linarith
  · intro hlt
    obtain ⟨n, hn⟩ := ha.multiple
    obtain ⟨m, hm⟩ := hb.multiple
    have hpos := two_zpow_pos f.emin
    have hnm : m < n := by
      rw [hn, hm] at hlt
      exact_mod_cast lt_of_mul_lt_mul_right hlt hpos.le
    by_cases hp : 1 ≤ f.prec
    · have hfl : IsFloat f ((2 : ℚ) ^ f.emin) := by
        have := isFloat_grid (f := f) hp (n := 1) (e := f.emin) (by simpa using one_le_pow₀ (by norm_num)) le_rfl
        simpa using this
      have : (2 : ℚ) ^ f.emin ≤ a - b := by
        rw [hn, hm, ← sub_mul]
        have : (1 : ℚ) ≤ (n : ℚ) - m := by
          have : m + 1 ≤ n := hnm
          have : ((m + 1 : Int) : ℚ) ≤ n := by exact_mod_cast this
          push_cast at this; linarith
        nlinarith
      exact lt_of_lt_of_le hpos (h.ge hfl this)
    · -- with no digits every number is zero
      have h0 : f.prec = 0 := by omega
      have z : ∀ y, IsFloat f y → y = 0 := by
        rintro y ⟨m, e, h1, -, rfl⟩
        rw [h0] at h1
        have : m = 0 := by
          have : |m| < 1 := by simpa using h1
          exact Int.abs_lt_one_iff.1 this
        simp [this]
      rw [z a ha, z b hb] at hlt
      exact absurd hlt (lt_irrefl _)

/-- the extent of the code is positive exactly where the point is outside of the box -/
theorem extentR_pos (h : IsRounding f fl) {b : Box ℚ F} {x : Fin F → ℚ} {i : Fin F} (hl : IsFloat f (b.lower i)) (hu : IsFloat f (b.upper i))
    (hx : IsFloat f (x i)) : 0 ≤ extentR fl b x i ∧ (0 < extentR fl b x i → b.upper i < x i ∨ x i < b.lower i) := by
  have h1 : (0 : ℚ) ≤ (if fl (b.lower i - x i) > 0 then fl (b.lower i - x i) else 0) := by split <;> linarith
  have h2 : (0 : ℚ) ≤ (if fl (x i - b.upper i) > 0 then fl (x i - b.upper i) else 0) := by split <;> linarith
  refine ⟨h.nonneg (by linarith), fun hpos => ?_⟩
  by_cases ha : fl (b.lower i - x i) > 0
  · exact Or.inr ((sub_pos_iff h hl hx).1 ha)
  · by_cases hb : fl (x i - b.upper i) > 0
    · exact Or.inl ((sub_pos_iff h hx hu).1 hb)
    · unfold extentR at hpos
      rw [if_neg ha, if_neg hb, add_zero, h.fix (isFloat_zero f)] at hpos
      exact absurd hpos (lt_irrefl _)

/-! ### The split -/

/-- **C108** The split value is between the two ends, ends included. -/
theorem C108_split_between (h : IsRounding f fl) (hp : 1 ≤ f.prec) {u lo up : ℚ} (hu : Draw f u) (hlo : IsFloat f lo) (hup : IsFloat f up) (hlt : lo < up) :
    lo ≤ splitR fl u lo up ∧ splitR fl u lo up ≤ up := by
  have hd : 0 < fl (up - lo) := (sub_pos_iff h hup hlo).2 hlt
  have hq0 : 0 ≤ fl (u * fl (up - lo)) := h.nonneg (mul_nonneg hu.2.1 hd.le)
  refine ⟨h.ge hlo (by linarith), h.le hup ?_⟩
  suffices hq : fl (u * fl (up - lo)) ≤ up - lo by linarith
  obtain ⟨n, hn⟩ := hup.multiple
  obtain ⟨m, hm⟩ := hlo.multiple
  have hs : up - lo = ((n - m : Int) : ℚ) * (2 : ℚ) ^ f.emin := by rw [hn, hm]; push_cast; ring
  by_cases hsmall : |n - m| ≤ 2 ^ f.prec
  · have hfd : IsFloat f (up - lo) := by rw [hs]; exact isFloat_grid hp hsmall le_rfl
    rw [h.fix hfd]
    exact h.le hfd (by nlinarith [hu.2.2, hu.2.1])
  · push Not at hsmall
    have hbigf : IsFloat f ((2 : ℚ) ^ (f.emin + f.prec)) := by
      have := isFloat_grid (f := f) hp (n := 2 ^ f.prec) (e := f.emin) (by rw [abs_of_nonneg (by positivity)]) le_rfl
      rw [zpow_add₀ (by norm_num), zpow_natCast, mul_comm]
      push_cast at this
      exact this
    have hbig : (2 : ℚ) ^ (f.emin + f.prec) ≤ fl (up - lo) := by
      refine h.ge hbigf ?_
      have : |up - lo| = up - lo := abs_of_pos (by linarith)
      rw [← this, hs, abs_mul, abs_of_pos (two_zpow_pos f.emin), zpow_add₀ (by norm_num), mul_comm]
      refine mul_le_mul_of_nonneg_right ?_ (two_zpow_pos _).le
      rw [zpow_natCast]; exact_mod_cast hsmall.le
    have hlt2 := h.mul_lt hp hu.1 hu.2.2 (h.float (up - lo)) hbig
    by_contra hcon
    push Not at hcon
    have hnear := (h (up - lo)).2 _ (h.float (u * fl (up - lo)))
    rw [abs_of_pos (by linarith), abs_of_pos (by linarith)] at hnear
    linarith

/-- Two points on different sides of a rounded split are really on different sides: for every random number of the sequence and any two training points
that differ in a feature the split value computed between them is below the larger one. -/
def Inside (fl : ℚ → ℚ) (ω : Nat → ℚ) (pts : List (Point ℚ F L)) : Prop :=
  ∀ i, ∀ z ∈ pts, ∀ w ∈ pts, ∀ d, z.1 d < w.1 d → splitR fl (ω i) (z.1 d) (w.1 d) < w.1 d

/-- `Inside` holds if nothing is rounded: the features are multiples of `2^g` of absolute value at most `2^(g+a)`, the random numbers are
multiples of `2^-k` and `a + k` is below the precision. -/
theorem inside_grid (h : IsRounding f fl) (hp : 1 ≤ f.prec) {g : Int} {a k : Nat} (hak : a + 1 + k ≤ f.prec) (hg : f.emin ≤ g - k) {ω : Nat → ℚ}
    (hω : ∀ i, 0 ≤ ω i ∧ ω i < 1 ∧ ∃ n : Int, ω i = n * (2 : ℚ) ^ (-(k : Int))) {pts : List (Point ℚ F L)}
    (hpts : ∀ z ∈ pts, ∀ d, ∃ n : Int, |n| ≤ 2 ^ a ∧ z.1 d = n * (2 : ℚ) ^ g) : Inside fl ω pts := by
  intro i z hz w hw d hlt
  obtain ⟨n, hn, en⟩ := hpts z hz d
  obtain ⟨m, hm, em⟩ := hpts w hw d
  obtain ⟨u0, u1, r, er⟩ := hω i
  set u := ω i
  have hgp := two_zpow_pos g
  have hkp := two_zpow_pos (-(k : Int))
  have hnm : n < m := by
    rw [en, em] at hlt
    exact_mod_cast lt_of_mul_lt_mul_right hlt hgp.le
  have hr0 : 0 ≤ r := by
    rw [er] at u0
    exact_mod_cast nonneg_of_mul_nonneg_left u0 hkp
  have hr1 : r < 2 ^ k := by
    rw [er] at u1
    have e1 : ((2 ^ k : Int) : ℚ) * (2 : ℚ) ^ (-(k : Int)) = 1 := by
      rw [zpow_neg, zpow_natCast]; push_cast
      exact mul_inv_cancel₀ (by positivity)
    rw [← e1] at u1
    exact_mod_cast lt_of_mul_lt_mul_right u1 hkp.le
  have hA : (2 : Int) ^ a + 2 ^ a = 2 ^ (a + 1) := by rw [pow_succ]; ring
  obtain ⟨n1, n2⟩ := abs_le.1 hn
  obtain ⟨m1, m2⟩ := abs_le.1 hm
  have hd : |m - n| ≤ 2 ^ (a + 1) := by rw [abs_le]; omega
  have hpw : ∀ {j : Nat}, j ≤ f.prec → (2 : Int) ^ j ≤ 2 ^ f.prec := fun hj => pow_le_pow_right₀ (by norm_num) hj
  -- the difference is exact
  have f1 : IsFloat f (w.1 d - z.1 d) := by
    have : w.1 d - z.1 d = ((m - n : Int) : ℚ) * (2 : ℚ) ^ g := by rw [en, em]; push_cast; ring
    rw [this]
    exact isFloat_grid hp (hd.trans (hpw (by omega))) (by omega)
  -- the product is exact
  have esplit : (2 : ℚ) ^ (g - k) = (2 : ℚ) ^ g * (2 : ℚ) ^ (-(k : Int)) := by rw [sub_eq_add_neg, zpow_add₀ (by norm_num)]
  have e2 : u * (w.1 d - z.1 d) = ((r * (m - n) : Int) : ℚ) * (2 : ℚ) ^ (g - k) := by
    rw [er, en, em, esplit]; push_cast; ring
  have f2 : IsFloat f (u * (w.1 d - z.1 d)) := by
    rw [e2]
    refine isFloat_grid hp ?_ hg
    rw [abs_mul, abs_of_nonneg hr0]
    have c1 : r * |m - n| ≤ 2 ^ k * 2 ^ (a + 1) := mul_le_mul hr1.le hd (abs_nonneg _) (by positivity)
    rw [← pow_add] at c1
    exact c1.trans (hpw (by omega))
  -- the sum is exact
  have e3 : u * (w.1 d - z.1 d) + z.1 d = ((r * (m - n) + 2 ^ k * n : Int) : ℚ) * (2 : ℚ) ^ (g - k) := by
    have : ((2 : ℚ) ^ k) * (2 : ℚ) ^ (-(k : Int)) = 1 := by
      rw [zpow_neg, zpow_natCast]; exact mul_inv_cancel₀ (by positivity)
    rw [e2, en, esplit]; push_cast
    linear_combination -(n * (2 : ℚ) ^ g) * this
  have f3 : IsFloat f (u * (w.1 d - z.1 d) + z.1 d) := by
    rw [e3]
    refine isFloat_grid hp ?_ hg
    have hk : (0 : Int) < 2 ^ k := by positivity
    have c1 : 2 ^ k * n ≤ r * (m - n) + 2 ^ k * n := by nlinarith
    have c2 : r * (m - n) + 2 ^ k * n ≤ 2 ^ k * m := by nlinarith
    have c3 : (2 : Int) ^ k * 2 ^ a ≤ 2 ^ f.prec := by rw [← pow_add]; exact hpw (by omega)
    rw [abs_le]
    constructor <;> nlinarith
  unfold splitR
  rw [h.fix f1, h.fix f2, h.fix f3]
  nlinarith

/-! ### The choices are fair -/

/-- the boxes have their bounds from the training points -/
def FromPoints (pts : List (Point ℚ F L)) (b : Box ℚ F) : Prop := ∀ i, (∃ z ∈ pts, b.lower i = z.1 i) ∧ (∃ z ∈ pts, b.upper i = z.1 i)

theorem drawR_some {p : Params ℚ} {ω : Nat → ℚ} {pos : Nat} {b : Box ℚ F} {x : Fin F → ℚ} {ptau tau : ℚ} {c : Cut ℚ F} {pos' : Nat}
    (h : drawR fl p ω pos b x ptau tau = .ok (some c, pos')) :
    ∃ e : ℚ, 0 ≤ e ∧ c.tau = fl (ptau + e) ∧ c.tau < tau ∧ ∃ i : Nat,
      (b.upper c.dim < x c.dim ∧ c.right = true ∧ c.split = splitR fl (ω i) (b.upper c.dim) (x c.dim)) ∨
      (x c.dim < b.lower c.dim ∧ c.right = false ∧ c.split = splitR fl (ω i) (x c.dim) (b.lower c.dim)) := by
  unfold drawR at h
  simp only at h
  by_cases hs : sumR fl (List.ofFn (extentR fl b x)) = 0
  · rw [if_pos hs] at h; simp at h
  · rw [if_neg hs] at h
    set e := fl (p.log (fl (1 - ω pos)) / (-sumR fl (List.ofFn (extentR fl b x)))) with he
    by_cases hc : 0 ≤ e ∧ fl (ptau + e) < tau
    · rw [if_pos hc] at h
      cases hd : pickDimR fl ω (pos + 1) (extentR fl b x) (sumR fl (List.ofFn (extentR fl b x))) with
      | error y => simp [hd, bind, Except.bind] at h
      | ok q =>
        obtain ⟨d, pos1⟩ := q
        simp only [hd, bind, Except.bind] at h
        unfold cutAtR at h
        by_cases hu : b.upper d < x d
        · simp only [if_pos hu, bind, Except.bind, pure, Except.pure, Except.ok.injEq, Prod.mk.injEq, Option.some.injEq] at h
          obtain ⟨rfl, rfl⟩ := h
          exact ⟨e, hc.1, rfl, hc.2, pos1, Or.inl ⟨hu, by simp, rfl⟩⟩
        · by_cases hl : x d < b.lower d
          · simp only [if_neg hu, if_pos hl, bind, Except.bind, pure, Except.pure, Except.ok.injEq, Prod.mk.injEq, Option.some.injEq] at h
            obtain ⟨rfl, rfl⟩ := h
            exact ⟨e, hc.1, rfl, hc.2, pos1, Or.inr ⟨hl, by simpa using hl.ne, rfl⟩⟩
          · simp [if_neg hu, if_neg hl, bind, Except.bind] at h
    · rw [if_neg hc] at h; simp at h

theorem drawR_fair (h : IsRounding f fl) (p : Params ℚ) (hl : IsFloat f p.lifetime) (ω : Nat → ℚ) {pts : List (Point ℚ F L)} {z : Point ℚ F L} (hz : z ∈ pts) :
    Fair (drawR fl p ω) (FromPoints pts) (IsFloat f) p.lifetime z.1 where
  cut := by
    intro pos b ptau tau c pos' _ hp _ hd
    obtain ⟨e, e0, e1, e2, -⟩ := drawR_some hd
    refine ⟨?_, e2, ?_⟩
    · rw [e1]; exact h.ge hp (by linarith)
    · rw [e1]; exact h.float _
  point := fun i => ⟨⟨z, hz, rfl⟩, ⟨z, hz, rfl⟩⟩
  extend := by
    intro b hb i
    simp only [Box.extend]
    constructor
    · split
      · exact ⟨z, hz, rfl⟩
      · exact (hb i).1
    · split
      · exact ⟨z, hz, rfl⟩
      · exact (hb i).2
  zero := isFloat_zero f
  life := hl

theorem drawR_between (h : IsRounding f fl) (hp : 1 ≤ f.prec) (p : Params ℚ) {ω : Nat → ℚ} (hω : ∀ i, Draw f (ω i)) {pts : List (Point ℚ F L)}
    (hf : ∀ z ∈ pts, ∀ d, IsFloat f (z.1 d)) (hi : Inside fl ω pts) {z : Point ℚ F L} (hz : z ∈ pts) :
    Between (drawR fl p ω) (FromPoints pts) (IsFloat f) z.1 := by
  intro pos b ptau tau c pos' hb _ _ hd
  obtain ⟨e, -, -, -, i, hc⟩ := drawR_some hd
  obtain ⟨⟨v, hv, ev⟩, ⟨w, hw, ew⟩⟩ := hb c.dim
  rcases hc with ⟨h1, h2, h3⟩ | ⟨h1, h2, h3⟩
  · refine ⟨Or.inl ⟨h2, ?_, ?_⟩⟩
    · rw [h3]; exact (C108_split_between h hp (hω i) (by rw [ew]; exact hf w hw _) (hf z hz _) h1).1
    · rw [h3, ew]; exact hi i w hw z hz _ (by rw [← ew]; exact h1)
  · refine ⟨Or.inr ⟨h2, ?_, ?_⟩⟩
    · rw [h3]; exact (C108_split_between h hp (hω i) (hf z hz _) (by rw [ev]; exact hf v hv _) h1).1
    · rw [h3, ev]; exact hi i z hz v hv _ (by rw [← ev]; exact h1)

theorem turnR_sum {vs : List ℚ} (hs : 0 < sumR fl vs) : turnR fl vs (sumR fl vs) = turnR fl vs := by
  unfold turnR
  rw [if_neg (not_lt.2 hs.le), if_pos (by norm_num)]

theorem drawR_total (h : IsRounding f fl) (hp : 1 ≤ f.prec) (p : Params ℚ) {ω : Nat → ℚ} (hω : ∀ i, 0 < ω i ∧ ω i ≤ 1 - F * (2 * ulp f + tiny f))
    {pts : List (Point ℚ F L)} (hf : ∀ z ∈ pts, ∀ d, IsFloat f (z.1 d)) {z : Point ℚ F L} (hz : z ∈ pts) :
    Total (drawR fl p ω) (FromPoints pts) (IsFloat f) z.1 := by
  intro pos b ptau tau hb _ _
  have hx : ∀ i, 0 ≤ extentR fl b z.1 i ∧ (0 < extentR fl b z.1 i → b.upper i < z.1 i ∨ z.1 i < b.lower i) := by
    intro i
    obtain ⟨⟨v, hv, ev⟩, ⟨w, hw, ew⟩⟩ := hb i
    exact extentR_pos h (by rw [ev]; exact hf v hv _) (by rw [ew]; exact hf w hw _) (hf z hz _)
  have hval : ∀ v ∈ List.ofFn (extentR fl b z.1), IsFloat f v ∧ 0 ≤ v := by
    intro v hv
    obtain ⟨i, rfl⟩ := List.mem_ofFn.1 hv
    exact ⟨h.float _, (hx i).1⟩
  unfold drawR
  simp only
  by_cases hs : sumR fl (List.ofFn (extentR fl b z.1)) = 0
  · exact ⟨_, by rw [if_pos hs]⟩
  rw [if_neg hs]
  split
  · have hpos : 0 < (List.ofFn (extentR fl b z.1)).sum := by
      have h0 : 0 ≤ (List.ofFn (extentR fl b z.1)).sum := List.sum_nonneg (fun v hv => (hval v hv).2)
      rcases h0.lt_or_eq with h1 | h1
      · exact h1
      · have hb := sumR_bounds h hp hval
        rw [← h1, mul_zero, mul_zero] at hb
        exact absurd (le_antisymm hb.2 hb.1) hs
    obtain ⟨q, e1, e2, -⟩ := turnR_bounds h hp hval hpos
    have hlen : (List.ofFn (extentR fl b z.1)).length = F := List.length_ofFn
    have hin := C107_in_range_partial h hp hval hpos e1 (u := ω (pos + 1)) (by rw [hlen]; exact (hω _).2)
    rw [hlen] at hin
    have hgt : 0 < extentR fl b z.1 ⟨_, hin⟩ := by
      rcases (hx ⟨_, hin⟩).1.lt_or_eq with h1 | h1
      · exact h1
      · refine absurd rfl (C107_no_zero_weight h hp hval hpos e1 (hω (pos + 1)).1 _ ?_)
        rw [List.getElem?_ofFn, dif_pos hin, ← h1]
    have hpd : pickDimR fl ω (pos + 1) (extentR fl b z.1) (sumR fl (List.ofFn (extentR fl b z.1))) = .ok (⟨_, hin⟩, pos + 1 + 1) := by
      unfold pickDimR
      rw [turnR_sum (sumR_pos h hp hval hpos), e1]
      simp only [bind, Except.bind, hin, dif_pos, pure, Except.pure]
    rw [hpd]
    simp only [bind, Except.bind, cutAtR]
    rcases (hx ⟨_, hin⟩).2 hgt with hu | hl
    · simp [if_pos hu, pure, Except.pure]
    · by_cases hu : b.upper ⟨_, hin⟩ < z.1 ⟨_, hin⟩
      · simp [if_pos hu, pure, Except.pure]
      · simp [if_neg hu, if_pos hl, pure, Except.pure]
  · exact ⟨_, rfl⟩

/-! ### The properties -/

/-- **C108** With rounding the trees are binary trees over distinct nodes of the pool, with right links and times that do not decrease (C52). -/
theorem C108_structure (h : IsRounding f fl) (p : Params ℚ) (hlife : 0 ≤ p.lifetime) (hl : IsFloat f p.lifetime) (ω : Nat → ℚ) (m n : Nat)
    (pts : List (Point ℚ F L)) (pos : Nat) (s : Forest ℚ F L) (pos' : Nat) (hrun : trainAllR fl p ω pts (new m n) pos = .ok (s, pos')) :
    ∃ trees : List (Option (Tree ℚ F L)), trees.length = n ∧ HoldsAll s trees ∧ (∀ i ∈ allIds trees, i < m) ∧
      ∀ t, some t ∈ trees → Times (· ≤ ·) p.lifetime 0 t := by
  obtain ⟨trees, lost, a1, -⟩ := trainAllWith_spec p hlife (drawR fl p ω) pts [] (new m n) _ [] pos _ (fun z hz => drawR_fair h p hl ω hz)
    (shaped_new (FromPoints pts) (IsFloat f) p.lifetime m n) hrun
  exact ⟨trees, a1.count, a1.inv.all, fun i hi => a1.pool ▸ a1.inv.ids_lt hi, a1.times⟩

/-- **C108** (partial) If no split value is rounded up to the larger of the two points it separates, every training point is in the box of the leaf that it is
routed to, and the counters of the leaves count the training points that are routed to them (C53), and the splits separate (C54). -/
theorem C108_points_in_leaves_partial (h : IsRounding f fl) (hp : 1 ≤ f.prec) (p : Params ℚ) (hlife : 0 ≤ p.lifetime) (hl : IsFloat f p.lifetime) (ω : Nat → ℚ)
    (hω : ∀ i, Draw f (ω i)) (m n : Nat) (pts : List (Point ℚ F L)) (hf : ∀ z ∈ pts, ∀ d, IsFloat f (z.1 d)) (hi : Inside fl ω pts) (hne : pts ≠ [])
    (pos : Nat) (s : Forest ℚ F L) (pos' : Nat) (hrun : trainAllR fl p ω pts (new m n) pos = .ok (s, pos')) :
    ∃ trees : List (Tree ℚ F L), trees.length = n ∧ HoldsAll s (trees.map some) ∧ ∀ t ∈ trees, Separates t ∧
      (∀ z ∈ pts, ∀ i, (t.route z.1).box.lower i ≤ z.1 i ∧ z.1 i ≤ (t.route z.1).box.upper i) ∧
      ∀ (x : Fin F → ℚ) (l : Fin L), (t.route x).counts l = pts.countP (fun w => t.leafOf w.1 = t.leafOf x ∧ w.2 = l) := by
  obtain ⟨trees, lost, a1, a2⟩ := trainAllWith_spec p hlife (drawR fl p ω) pts [] (new m n) _ [] pos _ (fun z hz => drawR_fair h p hl ω hz)
    (shaped_new (FromPoints pts) (IsFloat f) p.lifetime m n) hrun
  obtain ⟨ts, rfl⟩ := all_some trees (fun o ho => a1.full (by simpa using hne) o ho)
  refine ⟨ts, by simpa using a1.count, a1.inv.all, fun t ht => ?_⟩
  have hm : some t ∈ ts.map some := List.mem_map.2 ⟨t, ht, rfl⟩
  have hR := a2 (fun z hz => drawR_between h hp p hω hf hi hz) (fun t ht => by cases List.eq_of_mem_replicate ht) t hm
  rw [List.nil_append] at hR
  obtain ⟨j, hj⟩ := List.mem_iff_getElem?.1 hm
  exact ⟨hR.separates, fun z hz i => hR.leaf_box z hz i, fun x l => hR.leaf_counts (a1.inv.ready hj).nodup x l⟩

/-- **C108** (partial) With random numbers that are positive and not too near to 1 training never reads uninitialised values or leaves the pool (C57). -/
theorem C108_no_undefined_behaviour_partial (h : IsRounding f fl) (hp : 1 ≤ f.prec) (p : Params ℚ) (hlife : 0 ≤ p.lifetime) (hl : IsFloat f p.lifetime)
    (ω : Nat → ℚ) (hω : ∀ i, 0 < ω i ∧ ω i ≤ 1 - F * (2 * ulp f + tiny f)) (m n : Nat) (hmn : n ≤ m) (pts : List (Point ℚ F L))
    (hf : ∀ z ∈ pts, ∀ d, IsFloat f (z.1 d)) (pos : Nat) : ∃ r, trainAllR fl p ω pts (new m n) pos = .ok r :=
  trainAllWith_ok p hlife (drawR fl p ω) hmn pts [] (new m n) _ [] pos (fun _ hz => ⟨drawR_fair h p hl ω hz, drawR_total h hp p hω hf hz⟩)
    (shaped_new (FromPoints pts) (IsFloat f) p.lifetime m n) (fun _ => avail_new m n)

/-- **C108** (partial) With integer features of absolute value at most `2^20` and random numbers of 32 bits nothing is rounded when splits are chosen, so that the hypotheses
above hold for doubles. -/
theorem C108_integers (h : IsRounding double fl) {ω : Nat → ℚ} (hω : ∀ i, ∃ n : Nat, 0 < n ∧ n < 2 ^ 32 ∧ ω i = n / 2 ^ 32) {pts : List (Point ℚ F L)}
    (hpts : ∀ z ∈ pts, ∀ d, ∃ n : Int, |n| ≤ 2 ^ 20 ∧ z.1 d = n) (hF : F < 2 ^ 18) :
    Inside fl ω pts ∧ (∀ i, Draw double (ω i)) ∧ (∀ i, 0 < ω i ∧ ω i ≤ 1 - F * (2 * ulp double + tiny double)) ∧ ∀ z ∈ pts, ∀ d, IsFloat double (z.1 d) := by
  have hω' : ∀ i, 0 < ω i ∧ ω i ≤ 1 - 1 / 2 ^ 32 := by
    intro i
    obtain ⟨n, h0, h1, e⟩ := hω i
    have a0 : (1 : ℚ) ≤ n := by exact_mod_cast h0
    have a1 : (n : ℚ) + 1 ≤ 2 ^ 32 := by exact_mod_cast h1
    rw [e]
    constructor
    · positivity
    · rw [div_le_iff₀ (by norm_num)]
      norm_num at a1 ⊢
      linarith
  refine ⟨inside_grid h (by decide) (g := 0) (a := 20) (k := 32) (by decide) (by decide) (fun i => ?_) (fun z hz d => ?_), fun i => ?_, fun i => ⟨(hω' i).1, ?_⟩, fun z hz d => ?_⟩
  · obtain ⟨n, -, -, e⟩ := hω i
    refine ⟨(hω' i).1.le, lt_of_le_of_lt (hω' i).2 (by norm_num), n, ?_⟩
    rw [e, zpow_neg, div_eq_mul_inv]; norm_num
  · obtain ⟨n, h1, e⟩ := hpts z hz d
    exact ⟨n, h1, by rw [e]; simp⟩
  · obtain ⟨n, h0, h1, e⟩ := hω i
    refine ⟨?_, (hω' i).1.le, lt_of_le_of_lt (hω' i).2 (by norm_num)⟩
    have := isFloat_grid (f := double) (by decide) (n := n) (e := -32) (by
      rw [abs_of_nonneg (by positivity)]
      have : (n : Int) < 2 ^ 32 := by exact_mod_cast h1
      exact this.le.trans (by decide)) (by decide)
    rw [e]
    convert this using 1
    push_cast
    rw [zpow_neg, div_eq_mul_inv]; norm_num
  · refine (hω' i).2.trans ?_
    have hF' : (F : ℚ) ≤ 2 ^ 18 := by exact_mod_cast hF.le
    have h1 : (2 * ulp double + tiny double) ≤ 1 / 2 ^ 52 * 2 := by
      have a1 : ulp double = 1 / 2 ^ 53 := by norm_num [ulp, double]
      have a2 : tiny double ≤ 1 / 2 ^ 52 := by
        have : (1 : ℚ) / 2 ^ 52 = (2 : ℚ) ^ (-52 : Int) := by norm_num
        rw [this]; exact two_zpow_le (by decide)
      rw [a1]; linarith
    have h2 : (0 : ℚ) ≤ 2 * ulp double + tiny double := by
      have := ulp_pos double
      have := tiny_pos double
      linarith
    have h3 : (F : ℚ) * (2 * ulp double + tiny double) ≤ 2 ^ 18 * (1 / 2 ^ 52 * 2) := mul_le_mul hF' h1 h2 (by norm_num)
    norm_num at h3 ⊢
    linarith
  · obtain ⟨n, h1, e⟩ := hpts z hz d
    rw [e]
    exact isFloat_int (by decide) (by decide) (h1.trans (by decide))

/-! ### Violations -/

/-- parameters of the witnesses -/
def wP : Params ℚ := { lifetime := 2 ^ 53, base := 1, discount := 1, exp := fun _ => 1, log := fun x => 1 - 1 / x }

/-- random numbers of the witnesses -/
def wω (l : List ℚ) (i : Nat) : ℚ := l.getD i (1 / 2)

/-- two neighbouring doubles -/
def wPts : List (Point ℚ 1 2) := [(fun _ => 1, 0), (fun _ => 1 + 1 / 2 ^ 52, 1)]

/-- five features, the last of which does not vary -/
def wPts5 : List (Point ℚ 5 2) := [(fun _ => 0, 0), (![1, 4, 1, 1, 0], 1)]

theorem isFloat_dyadic (n : Int) (k : Nat) (hk : k ≤ 1074) (hn : |n| ≤ 2 ^ 53) {x : ℚ} (hx : x * 2 ^ k = n) : IsFloat double x := by
  have := isFloat_grid (f := double) (by decide) (n := n) (e := -(k : Int)) hn (by simp only [double]; omega)
  rw [← hx, zpow_neg, zpow_natCast, mul_assoc, mul_inv_cancel₀ (by positivity), mul_one] at this
  exact this

theorem wω_draw {l : List ℚ} (h : ∀ u ∈ l, Draw double u ∧ 0 < u) (i : Nat) : Draw double (wω l i) ∧ 0 < wω l i := by
  unfold wω
  rw [List.getD_eq_getElem?_getD]
  cases hi : l[i]? with
  | none => exact ⟨⟨isFloat_dyadic (1) 1 (by decide) (by decide) (by norm_num), by norm_num, by norm_num⟩, by norm_num⟩
  | some v => exact h v (List.mem_of_getElem? hi)

/-- **C108** (violation) A split value may be rounded up to the larger of the two points that it separates. With `double`s and the training points `1` and
`1 + 2^-52` the second point is counted in the right leaf and routed to the left one, which has not seen its label. -/
theorem C108_wrong_leaf : ∃ (p : Params ℚ) (ω : Nat → ℚ) (pts : List (Point ℚ 1 2)) (s : Forest ℚ 1 2) (pos : Nat), (∀ i, Draw double (ω i) ∧ 0 < ω i) ∧
    IsFloat double p.lifetime ∧ 0 ≤ p.lifetime ∧ (∀ z ∈ pts, ∀ d, IsFloat double (z.1 d)) ∧ trainAllR (rn double) p ω pts (new 3 1) 0 = .ok (s, pos) ∧
    (∃ t, HoldsAll s [some t]) ∧ ∃ z ∈ pts, ∀ t, HoldsAll s [some t] → (t.route z.1).counts z.2 = 0 := by
  have h1 : (trainAllR (rn double) wP (wω [1 / 2, 1 / 2, 3 / 4]) wPts (new 3 1) 0).map (fun r => r.1.roots) = .ok [some 1] := by decide +kernel
  have h2 : (trainAllR (rn double) wP (wω [1 / 2, 1 / 2, 3 / 4]) wPts (new 3 1) 0).map (fun r => r.1.nodes.map (fun n => (n.dim, n.split))) =
      .ok [(none, none), (some 0, some (1 + 1 / 2 ^ 52)), (none, none)] := by decide +kernel
  have h3 : (trainAllR (rn double) wP (wω [1 / 2, 1 / 2, 3 / 4]) wPts (new 3 1) 0).map (fun r => r.1.nodes.map (fun n => (n.left, n.counts 1))) =
      .ok [(none, 0), (some 0, 0), (none, 1)] := by decide +kernel
  have hl : IsFloat double wP.lifetime := isFloat_int (n := 2 ^ 53) (by decide) (by decide) (by decide)
  cases h : trainAllR (rn double) wP (wω [1 / 2, 1 / 2, 3 / 4]) wPts (new 3 1) 0 with
  | error e => rw [h] at h2; cases h2
  | ok r =>
    rw [h] at h1 h2 h3
    have h1 : r.1.roots = _ := Except.ok.inj h1
    have h2 := Except.ok.inj h2
    have h3 := Except.ok.inj h3
    have hf : ∀ z ∈ wPts, ∀ d, IsFloat double (z.1 d) := by
      intro z hz d
      simp only [wPts, List.mem_cons, List.not_mem_nil, or_false] at hz
      rcases hz with rfl | rfl
      · exact isFloat_dyadic (1) 0 (by decide) (by decide) (by norm_num)
      · exact isFloat_dyadic (2 ^ 52 + 1) 52 (by decide) (by decide) (by norm_num)
    refine ⟨wP, _, wPts, r.1, r.2, wω_draw ?_, hl, by norm_num [wP], hf, h, ?_, (fun _ => 1 + 1 / 2 ^ 52, 1), by simp [wPts], ?_⟩
    · intro u hu
      have : u = 1 / 2 ∨ u = 3 / 4 := by simpa using hu
      rcases this with rfl | rfl
      · exact ⟨⟨isFloat_dyadic (1) 1 (by decide) (by decide) (by norm_num), by norm_num, by norm_num⟩, by norm_num⟩
      · exact ⟨⟨isFloat_dyadic (3) 2 (by decide) (by decide) (by norm_num), by norm_num, by norm_num⟩, by norm_num⟩
    · obtain ⟨trees, a1, a2, -⟩ := C108_structure (rn_isRounding double (by decide)) wP (by norm_num [wP]) hl _ 3 1 wPts 0 r.1 r.2 h
      obtain ⟨o, rfl⟩ := List.length_eq_one_iff.1 a1
      cases o with
      | none => have := h1.symm.trans a2.roots; simp at this
      | some t => exact ⟨t, a2⟩
    · intro t ht
      have hid : t.id = 1 := by
        have := h1.symm.trans ht.roots
        simpa using this.symm
      have hh := ht.holds t (by simp)
      have n0 : ∀ n, r.1.nodes[0]? = some n → n.dim = none ∧ n.counts 1 = 0 := by
        intro n hn
        have c2 := congrArg (fun l => l[0]?) h2
        have c3 := congrArg (fun l => l[0]?) h3
        simp only [List.getElem?_map, hn, Option.map_some, List.getElem?_cons_zero, Option.some.injEq, Prod.mk.injEq] at c2 c3
        exact ⟨c2.1, c3.2⟩
      have n1 : ∀ n, r.1.nodes[1]? = some n → n.dim = some 0 ∧ n.split = some (1 + 1 / 2 ^ 52) ∧ n.left = some 0 := by
        intro n hn
        have c2 := congrArg (fun l => l[1]?) h2
        have c3 := congrArg (fun l => l[1]?) h3
        simp only [List.getElem?_map, hn, Option.map_some, List.getElem?_cons_succ, List.getElem?_cons_zero, Option.some.injEq, Prod.mk.injEq] at c2 c3
        exact ⟨c2.1, c2.2, c3.1⟩
      cases t with
      | leaf id d =>
        simp only [Tree.id] at hid
        subst hid
        obtain ⟨n, e1, -, e3⟩ := hh
        rw [(n1 n e1).1] at e3
        cases e3
      | node id d dim sp l rr =>
        simp only [Tree.id] at hid
        subst hid
        obtain ⟨⟨n, e1, -, e3, e4, e5, e6⟩, hl, hr⟩ := hh
        obtain ⟨b1, b2, b3⟩ := n1 n e1
        have hsp : sp = 1 + 1 / 2 ^ 52 := by rw [b2] at e4; exact (Option.some.inj e4).symm
        have hli : l.id = 0 := by rw [b3] at e5; exact (Option.some.inj e5).symm
        have hroute : (Mondrian.Tree.node 1 d dim sp l rr).route (fun _ => 1 + 1 / 2 ^ 52) = l.route (fun _ => 1 + 1 / 2 ^ 52) := by
          simp only [Tree.route]; rw [if_pos (by rw [hsp])]
        rw [hroute]
        cases l with
        | leaf id d =>
          simp only [Tree.id] at hli
          subst hli
          obtain ⟨n, e1, e2, e3⟩ := hl
          have := (n0 n e1).2
          simp only [Tree.route]
          rw [← this, e2.2.2.2]
        | node id d dim sp l rr =>
          simp only [Tree.id] at hli
          subst hli
          obtain ⟨⟨n, e1, -, e3, -⟩, -⟩ := hl
          rw [(n0 n e1).1] at e3
          cases e3

/-- **C108** (violation) A random number just below 1 may be above all cumulative probabilities; the dimension is then drawn among all, and the split values are
not initialised if the chosen one is constant so far. -/
theorem C108_uninitialised : ∃ (p : Params ℚ) (ω : Nat → ℚ) (pts : List (Point ℚ 5 2)), (∀ i, Draw double (ω i) ∧ 0 < ω i) ∧
    IsFloat double p.lifetime ∧ 0 ≤ p.lifetime ∧ (∀ z ∈ pts, ∀ d, IsFloat double (z.1 d)) ∧
    (trainAllR (rn double) p ω pts (new 3 1) 0).map (fun r => r.2) = .error .ub := by
  refine ⟨wP, wω [1 / 2, 1 - 1 / 2 ^ 53, 15 / 16], wPts5, wω_draw ?_, isFloat_int (n := 2 ^ 53) (by decide) (by decide) (by decide), by norm_num [wP], ?_, by decide +kernel⟩
  · intro u hu
    have : u = 1 / 2 ∨ u = 1 - 1 / 2 ^ 53 ∨ u = 15 / 16 := by simpa using hu
    rcases this with rfl | rfl | rfl
    · exact ⟨⟨isFloat_dyadic (1) 1 (by decide) (by decide) (by norm_num), by norm_num, by norm_num⟩, by norm_num⟩
    · exact ⟨⟨isFloat_dyadic (2 ^ 53 - 1) 53 (by decide) (by decide) (by norm_num), by norm_num, by norm_num⟩, by norm_num⟩
    · exact ⟨⟨isFloat_dyadic (15) 4 (by decide) (by decide) (by norm_num), by norm_num, by norm_num⟩, by norm_num⟩
  · intro z hz d
    simp only [wPts5, List.mem_cons, List.not_mem_nil, or_false] at hz
    rcases hz with rfl | rfl
    · exact isFloat_zero _
    · have : ∀ d : Fin 5, ∃ n : Int, |n| ≤ 2 ^ 53 ∧ (![1, 4, 1, 1, 0] : Fin 5 → ℚ) d = n := by
        intro d
        fin_cases d
        · exact ⟨1, by decide, by simp⟩
        · exact ⟨4, by decide, by simp⟩
        · exact ⟨1, by decide, by simp⟩
        · exact ⟨1, by decide, by simp⟩
        · exact ⟨0, by decide, by simp⟩
      obtain ⟨n, h1, h2⟩ := this d
      simp only at *
      rw [h2]
      exact isFloat_int (by decide) (by decide) h1

/-! ### Example: integer points -/

example : ∃ (s : Forest ℚ 1 2) (pos : Nat) (trees : List (Tree ℚ 1 2)), trainAllR (rn double) exP (fun _ => 1 / 2) [(pt 0, 0), (pt 1, 1), (pt 3, 1)] (new 10 2) 0 = .ok (s, pos) ∧
    trees.length = 2 ∧ HoldsAll s (trees.map some) ∧ ∀ t ∈ trees, Separates t ∧ (t.route (pt 3)).counts 0 = [(pt 0, (0 : Fin 2)), (pt 1, 1), (pt 3, 1)].countP (fun w => t.leafOf w.1 = t.leafOf (pt 3) ∧ w.2 = 0) := by
  have hr := rn_isRounding double (by decide)
  have hl : IsFloat double exP.lifetime := isFloat_int (n := 10) (by decide) (by decide) (by decide)
  obtain ⟨i1, i2, i3, i4⟩ := C108_integers hr (ω := fun _ => 1 / 2) (pts := [(pt 0, (0 : Fin 2)), (pt 1, 1), (pt 3, 1)]) (fun i => ⟨2 ^ 31, by decide, by decide, by norm_num⟩)
    (fun z hz d => by
      simp only [List.mem_cons, List.not_mem_nil, or_false] at hz
      rcases hz with rfl | rfl | rfl
      · exact ⟨0, by decide, by simp [pt]⟩
      · exact ⟨1, by decide, by simp [pt]⟩
      · exact ⟨3, by decide, by simp [pt]⟩) (by decide)
  obtain ⟨r, hrun⟩ := C108_no_undefined_behaviour_partial hr (by decide) exP (by norm_num [exP]) hl _ i3 10 2 (by decide) _ i4 0
  obtain ⟨ts, a1, a2, a3⟩ := C108_points_in_leaves_partial hr (by decide) exP (by norm_num [exP]) hl _ i2 10 2 _ i4 i1 (by simp) 0 r.1 r.2 hrun
  exact ⟨r.1, r.2, ts, hrun, a1, a2, fun t ht => ⟨(a3 t ht).1, (a3 t ht).2.2 _ _⟩⟩

end Orp.Rounding
