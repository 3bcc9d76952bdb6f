import Verif.Chained.Props

/-!
C131: copies of a chained reservoir. The class has no copy constructor, so a copy has its own array `sample`, `next` and
`counter`, but its array cells point to the very cells that the original allocated.
-/

set_option linter.unusedSectionVars false

namespace Orp.Chained

variable {α K : Type} [Field K] [LinearOrder K] [FloorRing K] [IsStrictOrderedRing K]

/-- What an object holds itself (chained_reservoir.hpp:25-29): the array of cells, `next` and `counter`. -/
structure Obj (α : Type) where
  heads : List (Cell α)
  next : List Nat
  counter : Nat
  deriving DecidableEq

/-- Two objects and the cells allocated with `malloc` (chained_reservoir.hpp:71). The first of these cells is number
`sample_size`, for both objects. -/
structure World (α : Type) where
  a : Obj α
  b : Obj α
  tail : List (Cell α)
  deriving DecidableEq

/-- An object with the allocated cells, as one `State`. -/
def Obj.state (o : Obj α) (tail : List (Cell α)) : State α := ⟨o.heads ++ tail, o.next, o.counter⟩

/-- the part of a state that belongs to the object -/
def objOf (n : Nat) (s : State α) : Obj α := ⟨s.heap.take n, s.next, s.counter⟩

/-- The implicit copy constructor of the class (chained_reservoir.hpp:13-29: no copy constructor is declared): the members are
copied, pointers as they are. `a` is the original and `b` the copy. -/
def copyOf (n : Nat) (s : State α) : World α := ⟨objOf n s, objOf n s, s.heap.drop n⟩

/-- a call on the original -/
def stepA (n : Nat) (w : World α) (op : Op α K) : Res (World α) := do
  let s ← step n (w.a.state w.tail) op
  return ⟨objOf n s, w.b, s.heap.drop n⟩

/-- a call on the copy -/
def stepB (n : Nat) (w : World α) (op : Op α K) : Res (World α) := do
  let s ← step n (w.b.state w.tail) op
  return ⟨w.a, objOf n s, s.heap.drop n⟩

/-- Calls on both objects, in any order: `inl` on the original, `inr` on the copy. -/
def runBoth (n : Nat) (w : World α) : List (Op α K ⊕ Op α K) → Res (World α)
  | [] => .ok w
  | .inl op :: ops => do
      let w ← stepA n w op
      runBoth n w ops
  | .inr op :: ops => do
      let w ← stepB n w op
      runBoth n w ops

/-- the calls on the original -/
def opsA (ops : List (Op α K ⊕ Op α K)) : List (Op α K) := ops.filterMap (fun o => match o with | .inl op => some op | .inr _ => none)

/-- the calls on the copy -/
def opsB (ops : List (Op α K ⊕ Op α K)) : List (Op α K) := ops.filterMap (fun o => match o with | .inl _ => none | .inr op => some op)

/-! ### what pointers can point to -/

/-- Every pointer of the cells goes to a later cell, never to an array cell, and stays in the family `cls`. The family of array cell `i` is `b + i`. -/
structure Lin (n b : Nat) (cls : Nat → Nat) (h : List (Cell α)) : Prop where
  len : n ≤ h.length
  heads : ∀ i < n, cls i = b + i
  ptr : ∀ p c q, h[p]? = some c → c.next = some q → p < q ∧ n ≤ q ∧ q < h.length ∧ cls q = cls p

/-- `h'` is what `h` becomes by writes to the families `b … b+n-1` only -/
structure Grow (n b : Nat) (cls cls' : Nat → Nat) (h h' : List (Cell α)) : Prop where
  lin : Lin n b cls' h'
  old : ∀ p < h.length, cls' p = cls p
  le : h.length ≤ h'.length
  frame : ∀ p < h.length, (cls p < b ∨ b + n ≤ cls p) → h'[p]? = h[p]?

theorem Grow.rfl' {n b : Nat} {cls : Nat → Nat} {h : List (Cell α)} (hl : Lin n b cls h) : Grow n b cls cls h h :=
  ⟨hl, fun _ _ => rfl, le_rfl, fun _ _ _ => rfl⟩

theorem Grow.trans {n b : Nat} {cls cls' cls'' : Nat → Nat} {h h' h'' : List (Cell α)} (h1 : Grow n b cls cls' h h') (h2 : Grow n b cls' cls'' h' h'') :
    Grow n b cls cls'' h h'' := by
  refine ⟨h2.lin, fun p hp => (h2.old p (hp.trans_le h1.le)).trans (h1.old p hp), h1.le.trans h2.le, fun p hp hc => ?_⟩
  rw [h2.frame p (hp.trans_le h1.le) (by rw [h1.old p hp]; exact hc), h1.frame p hp hc]

/-- a write to a cell of the families, of a cell whose pointer is good -/
theorem Grow.write {n b : Nat} {cls : Nat → Nat} {h h' : List (Cell α)} (hl : Lin n b cls h) {p : Nat} {c : Cell α} (hw : wr h p c = .ok h')
    (hp : b ≤ cls p ∧ cls p < b + n) (hc : ∀ q, c.next = some q → p < q ∧ n ≤ q ∧ q < h.length ∧ cls q = cls p) : Grow n b cls cls h h' := by
  obtain ⟨hlt, rfl⟩ := wr_eq_ok_iff.1 hw
  refine ⟨⟨by simpa using hl.len, hl.heads, fun p' c' q' h1 h2 => ?_⟩, fun _ _ => rfl, by simp, fun p' _ hcl => ?_⟩
  · by_cases e : p' = p
    · subst e
      rw [List.getElem?_set_self hlt] at h1
      cases h1
      simpa using hc q' h2
    · rw [List.getElem?_set_ne (Ne.symm e)] at h1
      simpa using hl.ptr p' c' q' h1 h2
  · rw [List.getElem?_set_ne]
    rintro rfl; omega

/-- a pointer of a cell that was read -/
theorem Lin.of_rd {n b : Nat} {cls : Nat → Nat} {h : List (Cell α)} (hl : Lin n b cls h) {p : Nat} {c : Cell α} (hr : rd h p = .ok c) :
    ∀ q, c.next = some q → p < q ∧ n ≤ q ∧ q < h.length ∧ cls q = cls p :=
  fun q hq => hl.ptr p c q (rd_eq_ok_iff.1 hr) hq

theorem clearChain_grow {n b : Nat} {cls : Nat → Nat} : ∀ (fuel : Nat) (h h' : List (Cell α)) (o : Option Nat), Lin n b cls h → clearChain fuel h o = .ok h' →
    (∀ p, o = some p → b ≤ cls p ∧ cls p < b + n) → Grow n b cls cls h h'
  | fuel, h, h', none, hl, hr, _ => by
      rw [clearChain_none] at hr; cases hr; exact Grow.rfl' hl
  | 0, h, h', some p, hl, hr, _ => by cases hr
  | fuel + 1, h, h', some p, hl, hr, hp => by
      have hp := hp p rfl
      rw [clearChain] at hr
      cases h1 : rd h p with
      | error e => rw [h1] at hr; cases hr
      | ok c =>
          rw [h1] at hr
          simp only [bind, Except.bind] at hr
          cases h2 : wr h p { c with ts := 0 } with
          | error e => rw [h2] at hr; cases hr
          | ok h1' =>
              rw [h2] at hr
              have g := Grow.write hl h2 hp (fun q hq => hl.of_rd h1 q hq)
              refine g.trans (clearChain_grow fuel h1' h' c.next g.lin hr fun q hq => ?_)
              rw [(hl.of_rd h1 q hq).2.2.2]; exact hp

theorem pushLoop_grow {n b : Nat} {cls : Nat → Nat} (e : α) (t : Nat) : ∀ (fuel : Nat) (h h' : List (Cell α)) (p : Nat), Lin n b cls h → pushLoop e t fuel h p = .ok h' →
    (b ≤ cls p ∧ cls p < b + n) → ∃ cls', Grow n b cls cls' h h'
  | 0, h, h', p, hl, hr, _ => by cases hr
  | fuel + 1, h, h', p, hl, hr, hp => by
      rw [pushLoop] at hr
      cases h1 : rd h p with
      | error e => rw [h1] at hr; cases hr
      | ok c =>
          rw [h1] at hr
          simp only [bind, Except.bind] at hr
          split at hr
          · exact ⟨cls, Grow.write hl hr hp (fun q hq => hl.of_rd h1 q hq)⟩
          · cases hn : c.next with
            | some q =>
                rw [hn] at hr
                exact pushLoop_grow e t fuel h h' q hl hr (by rw [(hl.of_rd h1 q hn).2.2.2]; exact hp)
            | none =>
                rw [hn] at hr
                have hplt : p < h.length := (List.getElem?_eq_some_iff.1 (rd_eq_ok_iff.1 h1)).1
                have hlen := hl.len
                refine ⟨Function.update cls h.length (cls p), ?_⟩
                have g1 : Grow n b cls (Function.update cls h.length (cls p)) h (h ++ [{ next := none, elem := e, ts := t }]) := by
                  refine ⟨⟨by simp; omega, fun i hi => ?_, fun p' c' q' a1 a2 => ?_⟩, fun p' hp' => ?_, by simp, fun p' hp' _ => ?_⟩
                  · rw [Function.update_of_ne (by omega)]; exact hl.heads i hi
                  · by_cases hp' : p' < h.length
                    · rw [List.getElem?_append_left hp'] at a1
                      obtain ⟨d1, d2, d3, d4⟩ := hl.ptr p' c' q' a1 a2
                      refine ⟨d1, d2, by simp; omega, ?_⟩
                      rw [Function.update_of_ne (by omega), Function.update_of_ne (by omega)]; exact d4
                    · have hlt := (List.getElem?_eq_some_iff.1 a1).1
                      simp only [List.length_append, List.length_cons, List.length_nil] at hlt
                      have : p' = h.length := by omega
                      subst this
                      simp at a1
                      subst a1
                      cases a2
                  · rw [Function.update_of_ne (by omega)]
                  · rw [List.getElem?_append_left hp']
                refine g1.trans (Grow.write g1.lin hr ?_ fun q hq => ?_)
                · rw [Function.update_of_ne (by omega)]; exact hp
                · simp only [Option.some.injEq] at hq
                  subst hq
                  refine ⟨hplt, hlen, by simp, ?_⟩
                  rw [Function.update_self, Function.update_of_ne (by omega)]

theorem shiftLoop1_grow {n b : Nat} {cls : Nat → Nat} {head cur : Nat} (hh : b ≤ cls head ∧ cls head < b + n) (hk : b ≤ cls cur ∧ cls cur < b + n) :
    ∀ (fuel : Nat) (h h' : List (Cell α)), Lin n b cls h → shiftLoop1 fuel h head cur = .ok h' → Grow n b cls cls h h'
  | 0, h, h', hl, hr => by cases hr
  | fuel + 1, h, h', hl, hr => by
      rw [shiftLoop1] at hr
      cases h1 : rd h cur with
      | error e => rw [h1] at hr; cases hr
      | ok m =>
      rw [h1] at hr
      simp only [bind, Except.bind] at hr
      cases h2 : rd h head with
      | error e => rw [h2] at hr; cases hr
      | ok r =>
      rw [h2] at hr
      simp only at hr
      cases h3 : wr h head { r with elem := m.elem, ts := m.ts } with
      | error e => rw [h3] at hr; cases hr
      | ok ha =>
      rw [h3] at hr
      simp only at hr
      have g1 := Grow.write hl h3 hh (fun q hq => hl.of_rd h2 q hq)
      cases hm : m.next with
      | none => rw [hm] at hr; cases hr; exact g1
      | some mn =>
      rw [hm] at hr
      simp only at hr
      have pm := hl.of_rd h1 mn hm
      cases h4 : rd ha mn with
      | error e => rw [h4] at hr; cases hr
      | ok c =>
      rw [h4] at hr
      simp only at hr
      cases h5 : wr ha cur c with
      | error e => rw [h5] at hr; cases hr
      | ok hb =>
      rw [h5] at hr
      simp only at hr
      have g2 := Grow.write g1.lin h5 hk (fun q hq => by
        obtain ⟨d1, d2, d3, d4⟩ := g1.lin.of_rd h4 q hq
        exact ⟨pm.1.trans d1, d2, d3, d4.trans pm.2.2.2⟩)
      cases hrn : r.next with
      | none => rw [hrn] at hr; cases hr
      | some rn =>
      rw [hrn] at hr
      simp only at hr
      have pr := hl.of_rd h2 rn hrn
      cases h6 : rd hb rn with
      | error e => rw [h6] at hr; cases hr
      | ok c' =>
      rw [h6] at hr
      simp only at hr
      cases h7 : wr hb head c' with
      | error e => rw [h7] at hr; cases hr
      | ok hc =>
      rw [h7] at hr
      have g3 := Grow.write g2.lin h7 hh (fun q hq => by
        obtain ⟨d1, d2, d3, d4⟩ := g2.lin.of_rd h6 q hq
        exact ⟨pr.1.trans d1, d2, d3, d4.trans pr.2.2.2⟩)
      exact ((g1.trans g2).trans g3).trans (shiftLoop1_grow hh hk fuel hc h' g3.lin hr)

theorem shiftLoop2_grow {n b : Nat} {cls : Nat → Nat} {head : Nat} (hh : b ≤ cls head ∧ cls head < b + n) :
    ∀ (fuel : Nat) (h h' : List (Cell α)), Lin n b cls h → shiftLoop2 fuel h head = .ok h' → Grow n b cls cls h h'
  | 0, h, h', hl, hr => by cases hr
  | fuel + 1, h, h', hl, hr => by
      rw [shiftLoop2] at hr
      cases h2 : rd h head with
      | error e => rw [h2] at hr; cases hr
      | ok r =>
      rw [h2] at hr
      simp only [bind, Except.bind] at hr
      cases hrn : r.next with
      | none => rw [hrn] at hr; cases hr; exact Grow.rfl' hl
      | some rn =>
      rw [hrn] at hr
      simp only at hr
      have pr := hl.of_rd h2 rn hrn
      cases h6 : rd h rn with
      | error e => rw [h6] at hr; cases hr
      | ok c' =>
      rw [h6] at hr
      simp only at hr
      cases h7 : wr h head { c' with ts := 0 } with
      | error e => rw [h7] at hr; cases hr
      | ok hc =>
      rw [h7] at hr
      have g3 := Grow.write hl h7 hh (fun q hq => by
        obtain ⟨d1, d2, d3, d4⟩ := hl.of_rd h6 q hq
        exact ⟨pr.1.trans d1, d2, d3, d4.trans pr.2.2.2⟩)
      exact g3.trans (shiftLoop2_grow hh fuel hc h' g3.lin hr)

theorem findLive_cls {n b : Nat} {cls : Nat → Nat} (t : Nat) : ∀ (fuel : Nat) (h : List (Cell α)) (p cur : Nat), Lin n b cls h → findLive t fuel h p = .ok (some cur) →
    cls cur = cls p
  | 0, h, p, cur, hl, hr => by cases hr
  | fuel + 1, h, p, cur, hl, hr => by
      rw [findLive] at hr
      cases h1 : rd h p with
      | error e => rw [h1] at hr; cases hr
      | ok c =>
      rw [h1] at hr
      simp only [bind, Except.bind] at hr
      split at hr
      · cases hn : c.next with
        | none => rw [hn] at hr; cases hr
        | some q =>
            rw [hn] at hr
            rw [findLive_cls t fuel h q cur hl hr, (hl.of_rd h1 q hn).2.2.2]
      · cases hr; rfl

theorem obsoleteLoop_grow {n b : Nat} {cls : Nat → Nat} (t : Nat) : ∀ (k i : Nat) (h h' : List (Cell α)), i + k = n → Lin n b cls h → obsoleteLoop t i k h = .ok h' →
    Grow n b cls cls h h'
  | 0, i, h, h', hk, hl, hr => by
      rw [obsoleteLoop] at hr; cases hr; exact Grow.rfl' hl
  | k + 1, i, h, h', hk, hl, hr => by
      rw [obsoleteLoop] at hr
      have hi : b ≤ cls i ∧ cls i < b + n := by rw [hl.heads i (by omega)]; omega
      cases h1 : findLive t (h.length + 1) h i with
      | error e => rw [h1] at hr; cases hr
      | ok o =>
      rw [h1] at hr
      simp only [bind, Except.bind, pure, Except.pure] at hr
      cases o with
      | none => exact obsoleteLoop_grow t k (i + 1) h h' (by omega) hl hr
      | some cur =>
      simp only at hr
      have hcur := findLive_cls t _ h i cur hl h1
      split at hr
      · cases h3 : shiftChain h i cur with
        | error e => rw [h3] at hr; cases hr
        | ok hx =>
        rw [h3] at hr
        rw [shiftChain] at h3
        cases h2 : shiftLoop1 (h.length + 1) h i cur with
        | error e => rw [h2] at h3; cases h3
        | ok ha =>
        rw [h2] at h3
        simp only [bind, Except.bind] at h3
        have g1 := shiftLoop1_grow hi (by rw [hcur]; exact hi) _ h ha hl h2
        have g2 := shiftLoop2_grow hi _ ha hx g1.lin h3
        exact (g1.trans g2).trans (obsoleteLoop_grow t k (i + 1) hx h' (by omega) g2.lin hr)
      · exact obsoleteLoop_grow t k (i + 1) h h' (by omega) hl hr

theorem addLoop_grow {n b : Nat} (e : α) (ts : Nat) (rs : Nat → K) : ∀ (k i : Nat) (cls : Nat → Nat) (s s' : State α), i + k = n → Lin n b cls s.heap →
    addLoop n e ts rs i k s = .ok s' → ∃ cls', Grow n b cls cls' s.heap s'.heap
  | 0, i, cls, s, s', hk, hl, hr => by
      rw [addLoop] at hr; cases hr; exact ⟨cls, Grow.rfl' hl⟩
  | k + 1, i, cls, s, s', hk, hl, hr => by
      rw [addLoop] at hr
      have hi : b ≤ cls i ∧ cls i < b + n := by rw [hl.heads i (by omega)]; omega
      cases h1 : rd s.next i with
      | error e => rw [h1] at hr; cases hr
      | ok nx =>
      rw [h1] at hr
      simp only [bind, Except.bind] at hr
      split at hr
      · cases h2 : pushOnChain s.heap i e ts with
        | error e => rw [h2] at hr; cases hr
        | ok ha =>
        rw [h2] at hr
        simp only at hr
        cases h3 : wr s.next i (s.counter + 1 + draw n (rs i)) with
        | error e => rw [h3] at hr; cases hr
        | ok na =>
        rw [h3] at hr
        obtain ⟨cls1, g1⟩ := pushLoop_grow e ts _ s.heap ha i hl h2 hi
        obtain ⟨cls2, g2⟩ := addLoop_grow e ts rs k (i + 1) cls1 { s with heap := ha, next := na } s' (by omega) g1.lin hr
        exact ⟨cls2, g1.trans g2⟩
      · exact addLoop_grow e ts rs k (i + 1) cls s s' (by omega) hl hr

theorem addHead_grow {n b : Nat} (hn : 1 ≤ n) {cls : Nat → Nat} {s s' : State α} (c : Call α K) (hv : c.Valid) (hl : Lin n b cls s.heap) (hr : addHead n s c = .ok s') :
    Grow n b cls cls s.heap s'.heap := by
  rw [addHead] at hr
  split at hr
  · rename_i hlt
    have hi : b ≤ cls s.counter ∧ cls s.counter < b + n := by rw [hl.heads _ hlt]; omega
    cases h1 : wr s.heap s.counter { next := none, elem := c.e, ts := c.ts } with
    | error e => rw [h1] at hr; cases hr
    | ok ha =>
    rw [h1] at hr
    simp only [bind, Except.bind] at hr
    cases h3 : wr s.next s.counter (s.counter + 1 + draw n c.r3) with
    | error e => rw [h3] at hr; cases hr
    | ok na =>
    rw [h3] at hr
    cases hr
    exact Grow.write hl h1 hi (fun q hq => by cases hq)
  · split at hr
    · have hd : draw n c.r2 < n := draw_lt hn hv.2.2.2.1
      have hi : b ≤ cls (draw n c.r2) ∧ cls (draw n c.r2) < b + n := by rw [hl.heads _ hd]; omega
      cases h1 : rd s.heap (draw n c.r2) with
      | error e => simp only [h1, bind, Except.bind] at hr; cases hr
      | ok x =>
      simp only [h1, bind, Except.bind] at hr
      cases h2 : wr s.heap (draw n c.r2) { x with elem := c.e, ts := c.ts } with
      | error e => rw [h2] at hr; cases hr
      | ok ha =>
      rw [h2] at hr
      simp only at hr
      have g1 := Grow.write hl h2 hi (fun q hq => hl.of_rd h1 q hq)
      cases h3 : clearChain (ha.length + 1) ha x.next with
      | error e => rw [h3] at hr; cases hr
      | ok hb =>
      rw [h3] at hr
      simp only at hr
      have g2 := clearChain_grow _ ha hb x.next g1.lin h3 (fun q hq => by rw [(hl.of_rd h1 q hq).2.2.2]; exact hi)
      cases h4 : wr s.next (draw n c.r2) (s.counter + 1 + draw n c.r3) with
      | error e => rw [h4] at hr; cases hr
      | ok na =>
      rw [h4] at hr
      cases hr
      exact g1.trans g2
    · cases hr; exact Grow.rfl' hl

theorem step_grow {n b : Nat} (hn : 1 ≤ n) {cls : Nat → Nat} {s s' : State α} (op : Op α K) (hv : op.Valid) (hl : Lin n b cls s.heap) (hr : step n s op = .ok s') :
    ∃ cls', Grow n b cls cls' s.heap s'.heap := by
  cases op with
  | obsolete t =>
      simp only [step, obsolete] at hr
      cases h1 : obsoleteLoop t 0 n s.heap with
      | error e => rw [h1] at hr; cases hr
      | ok ha =>
      rw [h1] at hr
      cases hr
      exact ⟨cls, obsoleteLoop_grow t n 0 s.heap ha (by omega) hl h1⟩
  | add c =>
      simp only [step, add] at hr
      cases h1 : addHead n s c with
      | error e => rw [h1] at hr; cases hr
      | ok s1 =>
      rw [h1] at hr
      simp only [bind, Except.bind] at hr
      cases h2 : addLoop n c.e c.ts c.rs 0 n s1 with
      | error e => rw [h2] at hr; cases hr
      | ok s2 =>
      rw [h2] at hr
      cases hr
      have g1 := addHead_grow hn c hv hl h1
      obtain ⟨cls2, g2⟩ := addLoop_grow c.e c.ts c.rs n 0 cls s1 s2 (by omega) g1.lin h2
      exact ⟨cls2, g1.trans g2⟩

/-! ### chains from pointers -/

theorem chain_exists {n b : Nat} {cls : Nat → Nat} {h : List (Cell α)} (hl : Lin n b cls h) : ∀ (k p : Nat), h.length - p ≤ k → p < h.length →
    ∃ l xs, Chain h (p :: l) xs ∧ (p :: l).Pairwise (· < ·) ∧ ∀ a ∈ p :: l, cls a = cls p
  | 0, p, hk, hp => by omega
  | k + 1, p, hk, hp => by
      have hget : h[p]? = some h[p] := List.getElem?_eq_getElem hp
      cases hn : h[p].next with
      | none =>
          refine ⟨[], [(h[p].elem, h[p].ts)], ?_, by simp, by simp⟩
          rw [chain_single, hget, ← hn]
      | some q =>
          obtain ⟨a1, a2, a3, a4⟩ := hl.ptr p _ q hget hn
          obtain ⟨l, xs, h1, h2, h3⟩ := chain_exists hl k q (by omega) a3
          refine ⟨q :: l, (h[p].elem, h[p].ts) :: xs, ?_, ?_, ?_⟩
          · rw [chain_cons_cons]; exact ⟨by rw [hget, ← hn], h1⟩
          · rw [List.pairwise_cons]
            refine ⟨fun a ha => ?_, h2⟩
            rcases List.mem_cons.1 ha with rfl | ha
            · exact a1
            · exact a1.trans ((List.pairwise_cons.1 h2).1 a ha)
          · intro a ha
            rcases List.mem_cons.1 ha with rfl | ha
            · rfl
            · rw [h3 a ha, a4]

theorem rep_of_lin {n b : Nat} {cls : Nat → Nat} {s : State α} (hl : Lin n b cls s.heap) (hnext : s.next.length = n) : ∃ a, Rep n s a := by
  have hex : ∀ i, ∃ l : List Nat, ∃ xs : List (α × Nat), i < n → Chain s.heap (i :: l) xs ∧ (i :: l).Pairwise (· < ·) ∧ ∀ a ∈ i :: l, cls a = cls i := by
    intro i
    by_cases hi : i < n
    · obtain ⟨l, xs, h⟩ := chain_exists hl _ i le_rfl (hi.trans_le hl.len)
      exact ⟨l, xs, fun _ => h⟩
    · exact ⟨[], [], fun h => absurd h hi⟩
  choose l xs hx using hex
  refine ⟨⟨xs, fun j => s.next.getD j 0, s.counter⟩, ⟨fun i => i :: l i, ?_, ?_, ?_, ?_⟩, hnext, ?_, rfl⟩
  · exact fun i hi => (hx i hi).1
  · exact fun i _ => rfl
  · exact fun i hi => (hx i hi).2.1.imp (fun h => h.ne)
  · intro i hi j hj hij a ha hb
    have e1 := (hx i hi).2.2 a ha
    have e2 := (hx j hj).2.2 a hb
    rw [hl.heads i hi] at e1
    rw [hl.heads j hj] at e2
    omega
  · intro j hj
    show s.next[j]? = some (s.next.getD j 0)
    rw [List.getD_eq_getElem?_getD, List.getElem?_eq_getElem (by omega)]; rfl

theorem chain_cls {n b : Nat} {cls : Nat → Nat} {h : List (Cell α)} (hl : Lin n b cls h) : ∀ {p : Nat} {l : List Nat} {xs}, Chain h (p :: l) xs → ∀ a ∈ p :: l, cls a = cls p := by
  intro p l
  induction l generalizing p with
  | nil => intro xs _ a ha; simp at ha; rw [ha]
  | cons q l ih =>
      intro xs hc a ha
      rcases chain_cases hc with ⟨_, h0, _⟩ | ⟨q', l', x, xs', h0, rfl, he, hc'⟩
      · cases h0
      · cases h0
        rcases List.mem_cons.1 ha with rfl | ha
        · rfl
        · rw [ih hc' a ha, (hl.ptr p _ q he rfl).2.2.2]

/-! ### two objects -/

theorem objOf_state {n : Nat} (s : State α) : (objOf n s).state (s.heap.drop n) = s := by
  simp [objOf, Obj.state]

theorem step_rep {n : Nat} (hn : 1 ≤ n) {s : State α} {a : Abs α} (h : Rep n s a) (op : Op α K) (hv : op.Valid) :
    step n s op = .error .assert ∨ ∃ s', step n s op = .ok s' ∧ Rep n s' (absStep n a op) := by
  cases op with
  | obsolete t => exact .inr (obsolete_rep h t)
  | add c =>
      rcases add_rep hn h c hv with ⟨h1, _⟩ | h1
      · exact .inl h1
      · exact .inr h1

/-- Two objects `o` and `o'` over the same allocated cells. -/
structure Both (n b b' : Nat) (cls cls' : Nat → Nat) (o o' : Obj α) (tail : List (Cell α)) : Prop where
  heads : o.heads.length = n
  heads' : o'.heads.length = n
  next : o.next.length = n
  next' : o'.next.length = n
  lin : Lin n b cls (o.heads ++ tail)
  lin' : Lin n b' cls' (o'.heads ++ tail)
  agree : ∀ p, n ≤ p → cls p = cls' p

theorem Both.symm {n b b' : Nat} {cls cls' : Nat → Nat} {o o' : Obj α} {tail : List (Cell α)} (h : Both n b b' cls cls' o o' tail) : Both n b' b cls' cls o' o tail :=
  ⟨h.heads', h.heads, h.next', h.next, h.lin', h.lin, fun p hp => (h.agree p hp).symm⟩

theorem getElem?_drop_of_le {β : Type} (x : List β) (h : List β) {n p : Nat} (hx : x.length = n) (hp : n ≤ p) : (x ++ h.drop n)[p]? = h[p]? := by
  rw [List.getElem?_append_right (by omega), List.getElem?_drop, hx]
  congr 1; omega

theorem getElem?_tail {β : Type} (x y tail : List β) {n p : Nat} (hx : x.length = n) (hy : y.length = n) (hp : n ≤ p) : (x ++ tail)[p]? = (y ++ tail)[p]? := by
  rw [List.getElem?_append_right (by omega), List.getElem?_append_right (by omega), hx, hy]

/-- A call on one object keeps the pair in order, and leaves the array of the other object alone. -/
theorem Both.step {n b b' : Nat} (hn : 1 ≤ n) {cls cls' : Nat → Nat} {o o' : Obj α} {tail : List (Cell α)} (h : Both n b b' cls cls' o o' tail) (op : Op α K) (hv : op.Valid)
    {s : State α} (hs : Chained.step n (o.state tail) op = .ok s) :
    ∃ cls1 cls1', Both n b b' cls1 cls1' (objOf n s) o' (s.heap.drop n) ∧ Grow n b cls cls1 (o.heads ++ tail) s.heap := by
  obtain ⟨a, ha⟩ := rep_of_lin (s := o.state tail) h.lin h.next
  have hnext : s.next.length = n := by
    rcases step_rep hn ha op hv with h1 | ⟨s', h1, h2⟩
    · rw [h1] at hs; cases hs
    · rw [h1] at hs; cases hs; exact h2.2.1
  obtain ⟨cls1, g⟩ := step_grow hn op hv (s := o.state tail) h.lin hs
  have g : Grow n b cls cls1 (o.heads ++ tail) s.heap := g
  have hlen : (o.heads ++ tail).length = n + tail.length := by rw [List.length_append, h.heads]
  have hle := g.le
  refine ⟨cls1, fun p => if p < n then cls' p else cls1 p, ⟨?_, h.heads', hnext, h.next', ?_, ⟨?_, ?_, ?_⟩, ?_⟩, g⟩
  · simp only [objOf, List.length_take]; have := g.lin.len; omega
  · rw [objOf, List.take_append_drop]; exact g.lin
  · simp [h.heads']
  · intro i hi
    simp only [hi, if_true]; exact h.lin'.heads i hi
  · intro p c q hp hq
    have hl : (o'.heads ++ s.heap.drop n).length = s.heap.length := by
      rw [List.length_append, List.length_drop, h.heads']; omega
    rw [hl]
    by_cases hpn : p < n
    · rw [List.getElem?_append_left (by rw [h.heads']; exact hpn)] at hp
      obtain ⟨d1, d2, d3, d4⟩ := h.lin'.ptr p c q (by rw [List.getElem?_append_left (by rw [h.heads']; exact hpn)]; exact hp) hq
      rw [List.length_append, h.heads'] at d3
      refine ⟨d1, d2, by omega, ?_⟩
      rw [if_neg (by omega), if_pos hpn, g.old q (by omega), h.agree q d2, d4]
    · rw [getElem?_drop_of_le _ _ h.heads' (by omega)] at hp
      obtain ⟨d1, d2, d3, d4⟩ := g.lin.ptr p c q hp hq
      refine ⟨d1, d2, d3, ?_⟩
      rw [if_neg (by omega), if_neg hpn, d4]
  · intro p hp
    show cls1 p = if p < n then cls' p else cls1 p
    rw [if_neg (by omega)]

theorem run_lin {n b : Nat} (hn : 1 ≤ n) (ops : List (Op α K)) : ∀ (cls : Nat → Nat) (s s' : State α), (∀ op ∈ ops, op.Valid) → Lin n b cls s.heap → run n s ops = .ok s' →
    ∃ cls', Lin n b cls' s'.heap := by
  induction ops with
  | nil => intro cls s s' _ hl hr; cases hr; exact ⟨cls, hl⟩
  | cons op ops ih =>
      intro cls s s' hv hl hr
      rw [run] at hr
      cases h1 : step n s op with
      | error e => rw [h1] at hr; cases hr
      | ok s1 =>
      rw [h1] at hr
      obtain ⟨cls1, g⟩ := step_grow hn op (hv op (by simp)) hl h1
      exact ih cls1 s1 s' (fun o ho => hv o (by simp [ho])) g.lin hr

theorem new_lin (g : List α) (b : Nat) : Lin g.length b (fun i => b + i) (new g).heap := by
  refine ⟨by simp [new], fun _ _ => rfl, fun p c q hp hq => ?_⟩
  simp only [new, List.getElem?_map, Option.map_eq_some_iff] at hp
  obtain ⟨x, _, rfl⟩ := hp
  cases hq

/-- the state that is copied: what histories lead to -/
theorem copy_both (g : List α) (hn : 1 ≤ g.length) (ops : List (Op α K)) (hv : ∀ op ∈ ops, op.Valid) {s : State α} (hrun : run g.length (new g) ops = .ok s) :
    ∃ cls, Both g.length 0 0 cls cls (copyOf g.length s).a (copyOf g.length s).b (copyOf g.length s).tail := by
  obtain ⟨cls, hl⟩ := run_lin hn ops _ _ _ hv (new_lin g 0) hrun
  have hnext : s.next.length = g.length := by
    rcases run_rep hn ops (new g) (absNew g) (new_rep g) hv with ⟨h, _⟩ | ⟨s', h, hr⟩
    · rw [h] at hrun; cases hrun
    · rw [h] at hrun; cases hrun; exact hr.2.1
  have hlen := hl.len
  have e : (objOf g.length s).heads ++ s.heap.drop g.length = s.heap := List.take_append_drop _ _
  refine ⟨cls, ?_, ?_, hnext, hnext, ?_, ?_, fun _ _ => rfl⟩
  · simp [copyOf, objOf, hlen]
  · simp [copyOf, objOf, hlen]
  · show Lin _ _ _ ((objOf g.length s).heads ++ s.heap.drop g.length); rw [e]; exact hl
  · show Lin _ _ _ ((objOf g.length s).heads ++ s.heap.drop g.length); rw [e]; exact hl

/-- **C131** The copy shows what the original shows, and the original shows what it showed. -/
theorem C131_copy_shows {n : Nat} (s : State α) (i : Nat) :
    get ((copyOf n s).a.state (copyOf n s).tail) i = get s i ∧ get ((copyOf n s).b.state (copyOf n s).tail) i = get s i := by
  simp only [copyOf, objOf_state, and_self]

/-- **C131** (safety) Whatever is called on the original and on the copy, in any order, there is no undefined behaviour; the only failure is the assertion of `add`. -/
theorem C131_safe (g : List α) (hn : 1 ≤ g.length) (ops : List (Op α K)) (hv : ∀ op ∈ ops, op.Valid) {s : State α} (hrun : run g.length (new g) ops = .ok s)
    (both : List (Op α K ⊕ Op α K)) (hvA : ∀ op ∈ opsA both, op.Valid) (hvB : ∀ op ∈ opsB both, op.Valid) :
    (∃ w, runBoth g.length (copyOf g.length s) both = .ok w) ∨ runBoth g.length (copyOf g.length s) both = .error .assert := by
  obtain ⟨cls, hb⟩ := copy_both g hn ops hv hrun
  have main : ∀ (both : List (Op α K ⊕ Op α K)) (w : World α) (c1 c2 : Nat → Nat), (∀ op ∈ opsA both, op.Valid) → (∀ op ∈ opsB both, op.Valid) →
      Both g.length 0 0 c1 c2 w.a w.b w.tail → (∃ w', runBoth g.length w both = .ok w') ∨ runBoth g.length w both = .error .assert := by
    intro both
    induction both with
    | nil => intro w _ _ _ _ _; exact .inl ⟨w, rfl⟩
    | cons o both ih =>
        intro w c1 c2 hvA hvB hb
        cases o with
        | inl op =>
            have hop : op.Valid := hvA op (by simp [opsA])
            obtain ⟨a, ha⟩ := rep_of_lin (s := w.a.state w.tail) hb.lin hb.next
            rcases step_rep hn ha op hop with h1 | ⟨s', h1, _⟩
            · exact .inr (by simp only [runBoth, stepA, h1, bind, Except.bind])
            · obtain ⟨d1, d2, hb', _⟩ := hb.step hn op hop h1
              simp only [runBoth, stepA, h1, bind, Except.bind, pure, Except.pure]
              exact ih ⟨objOf g.length s', w.b, s'.heap.drop g.length⟩ d1 d2 (fun o ho => hvA o (List.mem_cons_of_mem _ ho)) (fun o ho => hvB o (by simpa [opsB] using ho)) hb'
        | inr op =>
            have hop : op.Valid := hvB op (by simp [opsB])
            obtain ⟨a, ha⟩ := rep_of_lin (s := w.b.state w.tail) hb.lin' hb.next'
            rcases step_rep hn ha op hop with h1 | ⟨s', h1, _⟩
            · exact .inr (by simp only [runBoth, stepB, h1, bind, Except.bind])
            · obtain ⟨d1, d2, hb', _⟩ := hb.symm.step hn op hop h1
              simp only [runBoth, stepB, h1, bind, Except.bind, pure, Except.pure]
              exact ih ⟨w.a, objOf g.length s', s'.heap.drop g.length⟩ d2 d1 (fun o ho => hvA o (by simpa [opsA] using ho)) (fun o ho => hvB o (List.mem_cons_of_mem _ ho)) hb'.symm
  exact main both _ _ _ hvA hvB hb

/-! ### the elements shown as long as the copy is only added to -/

/-- The same elements and timestamps in the array, the same `next` and `counter`. -/
def Same (n : Nat) (s t : State α) : Prop :=
  s.next = t.next ∧ s.counter = t.counter ∧ ∀ j < n, (s.heap[j]?).map (fun c => (c.elem, c.ts)) = (t.heap[j]?).map (fun c => (c.elem, c.ts))

theorem Same.get {n : Nat} {s t : State α} (h : Same n s t) {i : Nat} (hi : i < n) : get s i = get t i := by
  have h1 := h.2.2 i hi
  unfold Chained.get
  cases hs : s.heap[i]? with
  | none =>
      cases ht : t.heap[i]? with
      | none => simp [rd, hs, ht]
      | some d => rw [hs, ht] at h1; cases h1
  | some c =>
      cases ht : t.heap[i]? with
      | none => rw [hs, ht] at h1; cases h1
      | some d =>
          rw [hs, ht] at h1
          simp only [Option.map_some, Option.some.injEq, Prod.mk.injEq] at h1
          simp only [rd_eq_ok_iff.2 hs, rd_eq_ok_iff.2 ht, bind, Except.bind, pure, Except.pure, h1.1]

theorem rep_head {n : Nat} {s : State α} {a : Abs α} (h : Rep n s a) {j : Nat} (hj : j < n) : (a.con j).head? = (s.heap[j]?).map (fun c => (c.elem, c.ts)) := by
  obtain ⟨⟨idx, hc⟩, _⟩ := h
  obtain ⟨l, hl⟩ := chains_cons hc hj
  have hch := hc.chain j hj
  rw [hl] at hch
  rcases chain_cases hch with ⟨x, _, hx, he⟩ | ⟨b, l', x, xs', _, hx, he, _⟩ <;> rw [hx, he] <;> rfl

/-- the same on contents -/
def SameHeads (n : Nat) (a b : Abs α) : Prop := a.counter = b.counter ∧ ∀ j < n, a.nx j = b.nx j ∧ (a.con j).head? = (b.con j).head?

theorem same_iff {n : Nat} {s t : State α} {a b : Abs α} (hs : Rep n s a) (ht : Rep n t b) : Same n s t ↔ SameHeads n a b := by
  constructor
  · rintro ⟨h1, h2, h3⟩
    refine ⟨by rw [← hs.2.2.2, ← ht.2.2.2, h2], fun j hj => ⟨?_, by rw [rep_head hs hj, rep_head ht hj, h3 j hj]⟩⟩
    have e1 := hs.2.2.1 j hj
    have e2 := ht.2.2.1 j hj
    rw [h1, e2] at e1
    exact (Option.some.inj e1).symm
  · rintro ⟨h1, h2⟩
    refine ⟨?_, by rw [hs.2.2.2, ht.2.2.2, h1], fun j hj => by rw [← rep_head hs hj, ← rep_head ht hj, (h2 j hj).2]⟩
    refine List.ext_getElem? fun j => ?_
    by_cases hj : j < n
    · rw [hs.2.2.1 j hj, ht.2.2.1 j hj, (h2 j hj).1]
    · rw [List.getElem?_eq_none (by rw [hs.2.1]; omega), List.getElem?_eq_none (by rw [ht.2.1]; omega)]

theorem head?_pushList (e : α) (t : Nat) {xs ys : List (α × Nat)} (h : xs.head? = ys.head?) : (pushList e t xs).head? = (pushList e t ys).head? := by
  cases xs with
  | nil =>
      cases ys with
      | nil => rfl
      | cons y ys => cases h
  | cons x xs =>
      cases ys with
      | nil => cases h
      | cons y ys =>
          simp only [List.head?_cons, Option.some.injEq] at h
          subst h
          simp only [pushList]
          split <;> rfl

theorem sameHeads_head {n : Nat} {a b : Abs α} (h : SameHeads n a b) (c : Call α K) : SameHeads n (absHead n a c) (absHead n b c) := by
  refine ⟨by rw [absHead_counter, absHead_counter, h.1], fun j hj => ?_⟩
  have h2 := h.2 j hj
  unfold absHead
  rw [← h.1]
  split
  · by_cases e : j = a.counter
    · subst e; simp
    · simp only [Function.update_of_ne e]; exact h2
  · split
    · by_cases e : j = draw n c.r2
      · subst e; simp
      · simp only [Function.update_of_ne e]; exact h2
    · exact h2

theorem sameHeads_add {n : Nat} {a b : Abs α} (h : SameHeads n a b) (c : Call α K) : SameHeads n (absAdd n a c) (absAdd n b c) := by
  have h1 := sameHeads_head h c
  refine ⟨by simp only [absAdd, h.1], fun j hj => ?_⟩
  obtain ⟨e1, e2⟩ := h1.2 j hj
  simp only [absAdd, absPush, h1.1, e1]
  by_cases hc : j < n ∧ (absHead n b c).counter = (absHead n b c).nx j
  · simp only [if_pos hc]
    exact ⟨trivial, head?_pushList c.e c.ts e2⟩
  · simp only [if_neg hc]
    exact ⟨trivial, e2⟩

theorem same_add {n : Nat} (hn : 1 ≤ n) {s t s' t' : State α} {a b : Abs α} (hs : Rep n s a) (ht : Rep n t b) (h : Same n s t) (c : Call α K) (hv : c.Valid)
    (h1 : add n s c = .ok s') (h2 : add n t c = .ok t') : Same n s' t' ∧ Rep n t' (absAdd n b c) := by
  rcases add_rep hn hs c hv with ⟨e1, _⟩ | ⟨s1, e1, hs'⟩
  · rw [e1] at h1; cases h1
  rcases add_rep hn ht c hv with ⟨e2, _⟩ | ⟨t1, e2, ht'⟩
  · rw [e2] at h2; cases h2
  rw [e1] at h1; cases h1
  rw [e2] at h2; cases h2
  exact ⟨(same_iff hs' ht').2 (sameHeads_add ((same_iff hs ht).1 h) c), ht'⟩

theorem same_left {n : Nat} {o : Obj α} {tail tail' : List (Cell α)} {t : State α} (ho : o.heads.length = n) (h : Same n (o.state tail) t) : Same n (o.state tail') t := by
  refine ⟨h.1, h.2.1, fun j hj => ?_⟩
  rw [← h.2.2 j hj]
  simp only [Obj.state]
  rw [List.getElem?_append_left (by omega), List.getElem?_append_left (by omega)]

/-- **C131** (proved part) As long as `obsolete` is not called on the copy, it shows what it would show without the original: the calls on the original (also `obsolete`) have no effect on it. -/
theorem C131_only_adds_partial (g : List α) (hn : 1 ≤ g.length) (ops : List (Op α K)) (hv : ∀ op ∈ ops, op.Valid) {s : State α} (hrun : run g.length (new g) ops = .ok s)
    (both : List (Op α K ⊕ Op α K)) (cs : List (Call α K)) (hcs : opsB both = cs.map Op.add) (hvA : ∀ op ∈ opsA both, op.Valid) (hvB : ∀ c ∈ cs, c.Valid)
    {w : World α} (hw : runBoth g.length (copyOf g.length s) both = .ok w) {t : State α} (ht : run g.length s (cs.map Op.add) = .ok t) :
    ∀ i < g.length, get (w.b.state w.tail) i = get t i := by
  obtain ⟨cls, hb⟩ := copy_both g hn ops hv hrun
  have hrep : ∃ a, Rep g.length s a := by
    rcases run_rep hn ops (new g) (absNew g) (new_rep g) hv with ⟨h, _⟩ | ⟨s', h, hr⟩
    · rw [h] at hrun; cases hrun
    · rw [h] at hrun; cases hrun; exact ⟨_, hr⟩
  obtain ⟨a0, ha0⟩ := hrep
  have main : ∀ (both : List (Op α K ⊕ Op α K)) (cs : List (Call α K)) (w w' : World α) (t t' : State α) (a : Abs α) (c1 c2 : Nat → Nat), opsB both = cs.map Op.add →
      (∀ op ∈ opsA both, op.Valid) → (∀ c ∈ cs, c.Valid) → Both g.length 0 0 c1 c2 w.a w.b w.tail → Rep g.length t a → Same g.length (w.b.state w.tail) t →
      runBoth g.length w both = .ok w' → run g.length t (cs.map Op.add) = .ok t' → Same g.length (w'.b.state w'.tail) t' := by
    intro both
    induction both with
    | nil =>
        intro cs w w' t t' a _ _ hcs _ _ _ _ hsame hw ht
        simp only [opsB, List.filterMap_nil] at hcs
        rw [← hcs] at ht
        cases ht; cases hw; exact hsame
    | cons o both ih =>
        intro cs w w' t t' a c1 c2 hcs hvA hvB hb ha hsame hw ht
        cases o with
        | inl op =>
            simp only [runBoth, stepA] at hw
            cases h1 : step g.length (w.a.state w.tail) op with
            | error e => rw [h1] at hw; cases hw
            | ok s1 =>
            rw [h1] at hw
            obtain ⟨d1, d2, hb', _⟩ := hb.step hn op (hvA op (by simp [opsA])) h1
            exact ih cs ⟨objOf g.length s1, w.b, s1.heap.drop g.length⟩ w' t t' a d1 d2 (by simpa [opsB] using hcs) (fun o ho => hvA o (List.mem_cons_of_mem _ ho)) hvB hb' ha
              (same_left hb.heads' hsame) hw ht
        | inr op =>
            cases cs with
            | nil => simp [opsB] at hcs
            | cons c cs =>
            have hcs' : op = Op.add c ∧ opsB both = cs.map Op.add := by simpa [opsB] using hcs
            obtain ⟨rfl, hcs'⟩ := hcs'
            simp only [runBoth, stepB] at hw
            cases h1 : step g.length (w.b.state w.tail) (Op.add c) with
            | error e => rw [h1] at hw; cases hw
            | ok s1 =>
            rw [h1] at hw
            simp only [List.map_cons, run] at ht
            cases h2 : step g.length t (Op.add c) with
            | error e => rw [h2] at ht; cases ht
            | ok t1 =>
            rw [h2] at ht
            have hc := hvB c (by simp)
            obtain ⟨d1, d2, hb', _⟩ := hb.symm.step hn (Op.add c) hc h1
            obtain ⟨b, hbr⟩ := rep_of_lin (s := w.b.state w.tail) hb.lin' hb.next'
            obtain ⟨e1, e2⟩ := same_add hn hbr ha hsame c hc h1 h2
            refine ih cs ⟨w.a, objOf g.length s1, s1.heap.drop g.length⟩ w' t1 t' _ d2 d1 hcs' (fun o ho => hvA o (by simpa [opsA] using ho)) (fun c' hc' => hvB c' (by simp [hc'])) hb'.symm
              e2 ?_ hw ht
            simp only [objOf_state]; exact e1
  have h0 : Same g.length ((copyOf g.length s).b.state (copyOf g.length s).tail) s := by
    simp only [copyOf, objOf_state]; exact ⟨rfl, rfl, fun _ _ => rfl⟩
  exact fun i hi => (main both cs _ w s t a0 cls cls hcs hvA hvB hb ha0 h0 hw ht).get hi

theorem runBoth_swap (n : Nat) (both : List (Op α K ⊕ Op α K)) : ∀ (w w' : World α), runBoth n w both = .ok w' →
    runBoth n ⟨w.b, w.a, w.tail⟩ (both.map Sum.swap) = .ok ⟨w'.b, w'.a, w'.tail⟩ := by
  induction both with
  | nil => intro w w' h; cases h; rfl
  | cons o both ih =>
      intro w w' h
      cases o with
      | inl op =>
          simp only [runBoth, stepA] at h
          simp only [List.map_cons, Sum.swap_inl, runBoth, stepB]
          cases h1 : step n (w.a.state w.tail) op with
          | error e => rw [h1] at h; cases h
          | ok s1 => rw [h1] at h; exact ih _ _ h
      | inr op =>
          simp only [runBoth, stepB] at h
          simp only [List.map_cons, Sum.swap_inr, runBoth, stepA]
          cases h1 : step n (w.b.state w.tail) op with
          | error e => rw [h1] at h; cases h
          | ok s1 => rw [h1] at h; exact ih _ _ h

theorem ops_swap (both : List (Op α K ⊕ Op α K)) : opsA (both.map Sum.swap) = opsB both ∧ opsB (both.map Sum.swap) = opsA both := by
  induction both with
  | nil => exact ⟨rfl, rfl⟩
  | cons o both ih =>
      cases o with
      | inl op => exact ⟨ih.1, congrArg (op :: ·) ih.2⟩
      | inr op => exact ⟨congrArg (op :: ·) ih.1, ih.2⟩

/-- **C131** (proved part) The same for the original: as long as `obsolete` is not called on it, the calls on the copy have no effect on what it shows. -/
theorem C131_only_adds_original_partial (g : List α) (hn : 1 ≤ g.length) (ops : List (Op α K)) (hv : ∀ op ∈ ops, op.Valid) {s : State α} (hrun : run g.length (new g) ops = .ok s)
    (both : List (Op α K ⊕ Op α K)) (cs : List (Call α K)) (hcs : opsA both = cs.map Op.add) (hvA : ∀ c ∈ cs, c.Valid) (hvB : ∀ op ∈ opsB both, op.Valid)
    {w : World α} (hw : runBoth g.length (copyOf g.length s) both = .ok w) {t : State α} (ht : run g.length s (cs.map Op.add) = .ok t) :
    ∀ i < g.length, get (w.a.state w.tail) i = get t i := by
  obtain ⟨e1, e2⟩ := ops_swap both
  exact C131_only_adds_partial g hn ops hv hrun (both.map Sum.swap) cs (by rw [e2, hcs]) (by rw [e1]; exact hvB) hvA (runBoth_swap _ both _ w hw) ht

/-! ### copies of an object without allocated cells -/

/-- Objects whose cells are in different families do not see each other. -/
theorem Both.other {n b b' : Nat} (hsep : b + n ≤ b' ∨ b' + n ≤ b) {cls cls' cls1 : Nat → Nat} {o o' : Obj α} {tail h : List (Cell α)} (hb : Both n b b' cls cls' o o' tail)
    (g : Grow n b cls cls1 (o.heads ++ tail) h) {a : Abs α} (ha : Rep n (o'.state tail) a) : Rep n (o'.state (h.drop n)) a := by
  obtain ⟨⟨idx, hc⟩, h2, h3, h4⟩ := ha
  refine ⟨⟨idx, fun i hi => ?_, hc.head, hc.nodup, hc.disjoint⟩, h2, h3, h4⟩
  refine chain_congr (hc.chain i hi) fun p hp => ?_
  obtain ⟨l, hl⟩ := chains_cons hc hi
  have hch := hc.chain i hi
  rw [hl] at hch hp
  have hcl : cls' p = b' + i := by rw [chain_cls hb.lin' hch p hp, hb.lin'.heads i hi]
  have hlt := chain_lt hch p hp
  simp only [Obj.state] at hlt ⊢
  by_cases hpn : p < n
  · rw [List.getElem?_append_left (by rw [hb.heads']; exact hpn), List.getElem?_append_left (by rw [hb.heads']; exact hpn)]
  · rw [List.length_append, hb.heads'] at hlt
    rw [getElem?_drop_of_le _ _ hb.heads' (by omega), getElem?_tail _ o.heads _ hb.heads' hb.heads (by omega)]
    refine g.frame p (by rw [List.length_append, hb.heads]; exact hlt) ?_
    rw [hb.agree p (by omega), hcl]
    omega

/-- **C131** (proved part) A copy of an object that has not allocated any cell yet, for instance a new one, is independent: after any calls on both, each of the two shows what it would show alone. -/
theorem C131_nothing_allocated_partial (g : List α) (hn : 1 ≤ g.length) (ops : List (Op α K)) (hv : ∀ op ∈ ops, op.Valid) {s : State α} (hrun : run g.length (new g) ops = .ok s)
    (hlen : s.heap.length = g.length) (both : List (Op α K ⊕ Op α K)) (hvA : ∀ op ∈ opsA both, op.Valid) (hvB : ∀ op ∈ opsB both, op.Valid)
    {w : World α} (hw : runBoth g.length (copyOf g.length s) both = .ok w) :
    (∀ t, run g.length s (opsA both) = .ok t → ∀ i < g.length, get (w.a.state w.tail) i = get t i) ∧
    (∀ t, run g.length s (opsB both) = .ok t → ∀ i < g.length, get (w.b.state w.tail) i = get t i) := by
  obtain ⟨cls, hl⟩ := run_lin hn ops _ _ _ hv (new_lin g 0) hrun
  have hrep : ∃ a, Rep g.length s a := by
    rcases run_rep hn ops (new g) (absNew g) (new_rep g) hv with ⟨h, _⟩ | ⟨s', h, hr⟩
    · rw [h] at hrun; cases hrun
    · rw [h] at hrun; cases hrun; exact ⟨_, hr⟩
  obtain ⟨a0, ha0⟩ := hrep
  have hnone : ∀ (p : Nat) (c : Cell α) (q : Nat), s.heap[p]? = some c → c.next ≠ some q := fun p c q hp hq => by
    have := hl.ptr p c q hp hq; omega
  have e : (objOf g.length s).heads ++ s.heap.drop g.length = s.heap := List.take_append_drop _ _
  have hheads : (objOf g.length s).heads.length = g.length := by simp [objOf, hlen]
  have hb : Both g.length 0 g.length (fun p => if p < g.length then p else 0) (fun p => if p < g.length then g.length + p else 0)
      (copyOf g.length s).a (copyOf g.length s).b (copyOf g.length s).tail := by
    refine ⟨hheads, hheads, ha0.2.1, ha0.2.1, ?_, ?_, fun p hp => ?_⟩
    · show Lin _ _ _ ((objOf g.length s).heads ++ s.heap.drop g.length)
      rw [e]
      exact ⟨hlen.ge, fun i hi => by simp [hi], fun p c q hp hq => absurd hq (hnone p c q hp)⟩
    · show Lin _ _ _ ((objOf g.length s).heads ++ s.heap.drop g.length)
      rw [e]
      exact ⟨hlen.ge, fun i hi => by simp [hi], fun p c q hp hq => absurd hq (hnone p c q hp)⟩
    · simp only [if_neg (show ¬ p < g.length by omega)]
  have main : ∀ (both : List (Op α K ⊕ Op α K)) (w w' : World α) (a b : Abs α) (c1 c2 : Nat → Nat), (∀ op ∈ opsA both, op.Valid) → (∀ op ∈ opsB both, op.Valid) →
      Both g.length 0 g.length c1 c2 w.a w.b w.tail → Rep g.length (w.a.state w.tail) a → Rep g.length (w.b.state w.tail) b → runBoth g.length w both = .ok w' →
      Rep g.length (w'.a.state w'.tail) (absRun g.length a (opsA both)) ∧ Rep g.length (w'.b.state w'.tail) (absRun g.length b (opsB both)) := by
    intro both
    induction both with
    | nil => intro w w' a b _ _ _ _ _ ha hb hw; cases hw; exact ⟨ha, hb⟩
    | cons o both ih =>
        intro w w' a b c1 c2 hvA hvB hb ha hb0 hw
        cases o with
        | inl op =>
            have hop : op.Valid := hvA op (by simp [opsA])
            simp only [runBoth, stepA] at hw
            cases h1 : step g.length (w.a.state w.tail) op with
            | error e => rw [h1] at hw; cases hw
            | ok s1 =>
            rw [h1] at hw
            obtain ⟨d1, d2, hb', hg⟩ := hb.step hn op hop h1
            have ha' : Rep g.length s1 (absStep g.length a op) := by
              rcases step_rep hn ha op hop with e1 | ⟨s2, e1, e2⟩
              · rw [e1] at h1; cases h1
              · rw [e1] at h1; cases h1; exact e2
            have := ih ⟨objOf g.length s1, w.b, s1.heap.drop g.length⟩ w' (absStep g.length a op) b d1 d2 (fun o ho => hvA o (List.mem_cons_of_mem _ ho))
              (fun o ho => hvB o (by simpa [opsB] using ho)) hb' (by simp only [objOf_state]; exact ha') (hb.other (.inl (by omega)) hg hb0) hw
            simpa [opsA, opsB, absRun] using this
        | inr op =>
            have hop : op.Valid := hvB op (by simp [opsB])
            simp only [runBoth, stepB] at hw
            cases h1 : step g.length (w.b.state w.tail) op with
            | error e => rw [h1] at hw; cases hw
            | ok s1 =>
            rw [h1] at hw
            obtain ⟨d1, d2, hb', hg⟩ := hb.symm.step hn op hop h1
            have hb1 : Rep g.length s1 (absStep g.length b op) := by
              rcases step_rep hn hb0 op hop with e1 | ⟨s2, e1, e2⟩
              · rw [e1] at h1; cases h1
              · rw [e1] at h1; cases h1; exact e2
            have := ih ⟨w.a, objOf g.length s1, s1.heap.drop g.length⟩ w' a (absStep g.length b op) d2 d1 (fun o ho => hvA o (by simpa [opsA] using ho))
              (fun o ho => hvB o (List.mem_cons_of_mem _ ho)) hb'.symm (hb.symm.other (.inr (by omega)) hg ha) (by simp only [objOf_state]; exact hb1) hw
            simpa [opsA, opsB, absRun] using this
  have h0 : (copyOf g.length s).a.state (copyOf g.length s).tail = s := by simp only [copyOf, objOf_state]
  have h0' : (copyOf g.length s).b.state (copyOf g.length s).tail = s := by simp only [copyOf, objOf_state]
  obtain ⟨r1, r2⟩ := main both _ w a0 a0 _ _ hvA hvB hb (by rw [h0]; exact ha0) (by rw [h0']; exact ha0) hw
  have alone : ∀ (l : List (Op α K)) (t u : State α), (∀ op ∈ l, op.Valid) → run g.length s l = .ok t → Rep g.length u (absRun g.length a0 l) → ∀ i < g.length, get u i = get t i := by
    intro l t u hvl ht hu i hi
    rcases run_rep hn l s a0 ha0 hvl with ⟨e1, _⟩ | ⟨t', e1, hr⟩
    · rw [e1] at ht; cases ht
    · rw [e1] at ht; cases ht
      obtain ⟨x, xs, f1, f2⟩ := get_rep hu hi
      obtain ⟨y, ys, f3, f4⟩ := get_rep hr hi
      rw [f1] at f3
      cases f3
      rw [f2, f4]
  exact ⟨fun t ht => alone _ t _ hvA ht r1, fun t ht => alone _ t _ hvB ht r2⟩

/-- the hypotheses are met by a copy of a new object -/
example : run 1 (new [100]) ([] : List (Op Nat ℚ)) = .ok (new [100]) ∧ (new [100]).heap.length = 1 ∧
    (runBoth 1 (copyOf 1 (new [100])) [.inl (.add (keep 1)), .inr (.add (keep 7)), .inl (.add (keep 2)), .inr (.add (keep 8)), .inl (.add (keep 3)), .inl (.obsolete 3)]).map
      (fun w => (get (w.a.state w.tail) 0, get (w.b.state w.tail) 0)) = .ok (.ok 3, .ok 8) := by
  refine ⟨rfl, rfl, by decide +kernel⟩

/-- **C131** is violated: after the stream 1, 2, 3 a copy is made, then 4 is added to the original only. `obsolete 3` on the copy shows 4, which was never added to it; without the
call on the original it shows 3. -/
theorem C131_violated : ∃ (s : State Nat) (w w' : World Nat), run 1 (new [100]) [.add (keep 1), .add (keep 2), .add (keep 3)] = .ok s ∧
    runBoth 1 (copyOf 1 s) [.inl (.add (keep 4)), .inr (.obsolete 3)] = .ok w ∧ get (w.b.state w.tail) 0 = .ok 4 ∧
    runBoth 1 (copyOf 1 s) [.inr (.obsolete 3 : Op Nat ℚ)] = .ok w' ∧ get (w'.b.state w'.tail) 0 = .ok 3 := by
  refine ⟨⟨[⟨some 1, 2, 2⟩, ⟨none, 3, 3⟩], [3], 3⟩,
    ⟨⟨[⟨some 1, 2, 2⟩], [4], 4⟩, ⟨[⟨none, 4, 4⟩], [3], 3⟩, [⟨none, 4, 4⟩, ⟨none, 4, 4⟩]⟩,
    ⟨⟨[⟨some 1, 2, 2⟩], [3], 3⟩, ⟨[⟨none, 3, 0⟩], [3], 3⟩, [⟨none, 3, 3⟩]⟩, ?_, ?_, ?_, ?_, ?_⟩ <;> decide +kernel

/-- The original is affected as well: an add on the copy that replaces an element clears the chain of the original, which then keeps an obsolete element
although it has a newer one. -/
theorem C131_violated_original : ∃ (s : State Nat) (w w' : World Nat), run 1 (new [100]) [.add (keep 1), .add (keep 2), .add (keep 3), .add (keep 4)] = .ok s ∧
    runBoth 1 (copyOf 1 s) [.inr (.add (repl 5)), .inl (.obsolete 4)] = .ok w ∧ get (w.a.state w.tail) 0 = .ok 2 ∧
    runBoth 1 (copyOf 1 s) [.inl (.obsolete 4 : Op Nat ℚ)] = .ok w' ∧ get (w'.a.state w'.tail) 0 = .ok 4 := by
  refine ⟨⟨[⟨some 1, 2, 2⟩, ⟨some 2, 3, 3⟩, ⟨none, 4, 4⟩], [4], 4⟩,
    ⟨⟨[⟨some 1, 2, 2⟩], [4], 4⟩, ⟨[⟨some 1, 5, 5⟩], [5], 5⟩, [⟨some 2, 3, 0⟩, ⟨none, 4, 0⟩]⟩,
    ⟨⟨[⟨none, 4, 0⟩], [4], 4⟩, ⟨[⟨some 1, 2, 2⟩], [4], 4⟩, [⟨some 2, 3, 3⟩, ⟨none, 4, 4⟩]⟩, ?_, ?_, ?_, ?_, ?_⟩ <;> decide +kernel

end Orp.Chained
