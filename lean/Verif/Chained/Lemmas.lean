import Verif.Chained.Spec
import Mathlib.Data.List.Nodup
import Mathlib.Data.List.Perm.Subperm
import Mathlib.Logic.Function.Basic
import Mathlib.Tactic.Linarith
import Mathlib.Algebra.Order.Field.Basic

set_option linter.unusedSectionVars false

namespace Orp.Chained

variable {α : Type}

/-! ### chains in memory -/

theorem chain_cons_cons {h : List (Cell α)} {a b : Nat} {l : List Nat} {x : α × Nat} {xs} :
    Chain h (a :: b :: l) (x :: xs) ↔ h[a]? = some ⟨some b, x.1, x.2⟩ ∧ Chain h (b :: l) xs := Iff.rfl

theorem chain_single {h : List (Cell α)} {a : Nat} {x : α × Nat} :
    Chain h [a] [x] ↔ h[a]? = some ⟨none, x.1, x.2⟩ := Iff.rfl

theorem chain_congr {h h' : List (Cell α)} : ∀ {l : List Nat} {xs}, Chain h l xs → (∀ a ∈ l, h'[a]? = h[a]?) →
    Chain h' l xs
  | [a], [x], hc, he => by rw [chain_single] at *; rw [he a (by simp)]; exact hc
  | a :: b :: l, x :: xs, hc, he => by
      rw [chain_cons_cons] at *
      exact ⟨by rw [he a (by simp)]; exact hc.1, chain_congr hc.2 (fun c hm => he c (by simp [List.mem_cons.1 hm]))⟩
  | [], _, hc, _ => by simp [Chain] at hc
  | [_], [], hc, _ => by simp [Chain] at hc
  | [_], _ :: _ :: _, hc, _ => by simp [Chain] at hc
  | _ :: _ :: _, [], hc, _ => by simp [Chain] at hc

theorem chain_length {h : List (Cell α)} : ∀ {l : List Nat} {xs}, Chain h l xs → l.length = xs.length
  | [a], [x], _ => rfl
  | a :: b :: l, x :: xs, hc => by simp [← chain_length hc.2]
  | [], _, hc => by simp [Chain] at hc
  | [_], [], hc => by simp [Chain] at hc
  | [_], _ :: _ :: _, hc => by simp [Chain] at hc
  | _ :: _ :: _, [], hc => by simp [Chain] at hc

theorem chain_lt {h : List (Cell α)} : ∀ {l : List Nat} {xs}, Chain h l xs → ∀ a ∈ l, a < h.length
  | [a], [x], hc, c, hm => by
      simp only [List.mem_singleton] at hm; subst hm
      exact (List.getElem?_eq_some_iff.1 hc).1
  | a :: b :: l, x :: xs, hc, c, hm => by
      rcases List.mem_cons.1 hm with rfl | hm
      · exact (List.getElem?_eq_some_iff.1 hc.1).1
      · exact chain_lt hc.2 c hm
  | [], _, hc, _, _ => by simp [Chain] at hc
  | [_], [], hc, _, _ => by simp [Chain] at hc
  | [_], _ :: _ :: _, hc, _, _ => by simp [Chain] at hc
  | _ :: _ :: _, [], hc, _, _ => by simp [Chain] at hc

theorem chain_fuel {h : List (Cell α)} {l : List Nat} {xs} (hc : Chain h l xs) (hn : l.Nodup) :
    l.length ≤ h.length := by
  have : l ⊆ List.range h.length := fun a ha => List.mem_range.2 (chain_lt hc a ha)
  simpa using (hn.subperm this).length_le

/-- the shapes a chain can have -/
theorem chain_cases {h : List (Cell α)} {a : Nat} {l : List Nat} {xs : List (α × Nat)} (hc : Chain h (a :: l) xs) :
    (∃ x, l = [] ∧ xs = [x] ∧ h[a]? = some ⟨none, x.1, x.2⟩) ∨
    (∃ b l' x xs', l = b :: l' ∧ xs = x :: xs' ∧ h[a]? = some ⟨some b, x.1, x.2⟩ ∧ Chain h (b :: l') xs') := by
  cases l with
  | nil =>
      cases xs with
      | nil => simp [Chain] at hc
      | cons x xs =>
          cases xs with
          | nil => exact .inl ⟨x, rfl, rfl, hc⟩
          | cons => simp [Chain] at hc
  | cons b l' =>
      cases xs with
      | nil => simp [Chain] at hc
      | cons x xs => exact .inr ⟨b, l', x, xs, rfl, rfl, hc.1, hc.2⟩

theorem rd_get {h : List (Cell α)} {a : Nat} {c : Cell α} (e : h[a]? = some c) : rd h a = .ok c :=
  rd_eq_ok_iff.2 e

theorem wr_get {h : List (Cell α)} {a : Nat} {c : Cell α} (e : h[a]? = some c) (x : Cell α) :
    wr h a x = .ok (h.set a x) := wr_ok x (List.getElem?_eq_some_iff.1 e).1

theorem set_get {h : List (Cell α)} {a : Nat} {c : Cell α} (e : h[a]? = some c) (x : Cell α) :
    (h.set a x)[a]? = some x := by
  rw [List.getElem?_set_self]; exact (List.getElem?_eq_some_iff.1 e).1

/-! ### clear_chain -/

theorem clearChain_spec : ∀ (l : List Nat) (xs : List (α × Nat)) (fuel : Nat) (h : List (Cell α)) (p : Nat),
    Chain h (p :: l) xs → (p :: l).Nodup → l.length < fuel →
    ∃ h', clearChain fuel h (some p) = .ok h' ∧ h'.length = h.length ∧
      Chain h' (p :: l) (xs.map (fun x => (x.1, 0))) ∧ ∀ j, j ∉ p :: l → h'[j]? = h[j]?
  | [], xs, fuel + 1, h, p, hc, hn, hf => by
      rcases chain_cases hc with ⟨x, _, rfl, he⟩ | ⟨b, l', _, _, h0, _⟩
      · refine ⟨h.set p ⟨none, x.1, 0⟩, ?_, by simp, ?_, ?_⟩
        · simp [clearChain, rd_get he, wr_get he, bind, Except.bind]
        · exact set_get he _
        · intro j hj; simp only [List.mem_singleton] at hj
          rw [List.getElem?_set_ne (Ne.symm hj)]
      · cases h0
  | q :: l, xs, fuel + 1, h, p, hc, hn, hf => by
      rcases chain_cases hc with ⟨_, h0, _⟩ | ⟨b, l', x, xs', h0, rfl, he, hc'⟩
      · cases h0
      · cases h0
        have hpn := (List.nodup_cons.1 hn).1
        have hc2 : Chain (h.set p ⟨some q, x.1, 0⟩) (q :: l) xs' := chain_congr hc' (fun a ha => by
          rw [List.getElem?_set_ne]; rintro rfl; exact hpn ha)
        obtain ⟨h', a1, a2, a3, a4⟩ := clearChain_spec l xs' fuel _ q hc2 (List.nodup_cons.1 hn).2
          (by simp at hf ⊢; omega)
        refine ⟨h', ?_, by simpa using a2, ?_, ?_⟩
        · simp [clearChain, rd_get he, wr_get he, bind, Except.bind, a1]
        · refine ⟨?_, a3⟩
          rw [a4 p hpn]; exact set_get he _
        · intro j hj
          simp only [List.mem_cons, not_or] at hj
          rw [a4 j (by simp [hj.2]), List.getElem?_set_ne (Ne.symm hj.1)]

theorem clearChain_none (fuel : Nat) (h : List (Cell α)) : clearChain fuel h none = .ok h := by
  cases fuel <;> rfl

/-! ### push_on_chain -/

theorem pushList_length (e : α) (t : Nat) : ∀ xs : List (α × Nat), xs.length ≤ (pushList e t xs).length
  | [] => by simp
  | x :: xs => by simp only [pushList]; split <;> simp [pushList_length e t xs]

theorem pushLoop_spec (e : α) (t : Nat) : ∀ (l : List Nat) (xs : List (α × Nat)) (fuel : Nat) (h : List (Cell α)) (p : Nat),
    Chain h (p :: l) xs → (p :: l).Nodup →
    (pushLoop e t fuel h p = .error .assert ∧ fuel ≤ xs.length ∧ ∀ x ∈ xs.take fuel, x.2 ≠ 0) ∨
    ∃ h' l', pushLoop e t fuel h p = .ok h' ∧ h.length ≤ h'.length ∧ (l' = l ∨ l' = l ++ [h.length]) ∧
      Chain h' (p :: l') (pushList e t xs) ∧ ∀ j, j ∉ p :: l → j < h.length → h'[j]? = h[j]?
  | l, xs, 0, h, p, hc, hn => .inl ⟨rfl, by simp, by simp⟩
  | [], xs, fuel + 1, h, p, hc, hn => by
      rcases chain_cases hc with ⟨x, _, rfl, he⟩ | ⟨b, l', _, _, h0, _⟩
      · right
        by_cases hz : x.2 = 0
        · refine ⟨h.set p ⟨none, e, t⟩, [], ?_, by simp, .inl rfl, ?_, ?_⟩
          · simp [pushLoop, rd_get he, wr_get he, bind, Except.bind, hz]
          · simp only [pushList, hz, if_true]; exact set_get he _
          · intro j hj _; simp only [List.mem_singleton] at hj
            rw [List.getElem?_set_ne (Ne.symm hj)]
        · have hp := (List.getElem?_eq_some_iff.1 he).1
          have hp' : p < (h ++ [(⟨none, e, t⟩ : Cell α)]).length := by simp; omega
          refine ⟨(h ++ [(⟨none, e, t⟩ : Cell α)]).set p ⟨some h.length, x.1, x.2⟩, [h.length], ?_, by simp, .inr rfl, ?_, ?_⟩
          · simp only [pushLoop, rd_get he, bind, Except.bind, if_neg hz]
            exact wr_ok _ hp'
          · simp only [pushList, hz, if_false]
            refine ⟨by rw [List.getElem?_set_self hp'], ?_⟩
            rw [chain_single, List.getElem?_set_ne (by omega)]
            simp
          · intro j hj hjl; simp only [List.mem_singleton] at hj
            rw [List.getElem?_set_ne (Ne.symm hj), List.getElem?_append_left hjl]
      · cases h0
  | q :: l, xs, fuel + 1, h, p, hc, hn => by
      rcases chain_cases hc with ⟨_, h0, _⟩ | ⟨b, l', x, xs', h0, rfl, he, hc'⟩
      · cases h0
      · cases h0
        have hpn := (List.nodup_cons.1 hn).1
        have hp := (List.getElem?_eq_some_iff.1 he).1
        by_cases hz : x.2 = 0
        · right
          refine ⟨h.set p ⟨some q, e, t⟩, q :: l, ?_, by simp, .inl rfl, ?_, ?_⟩
          · simp [pushLoop, rd_get he, wr_get he, bind, Except.bind, hz]
          · simp only [pushList, hz, if_true]
            refine ⟨set_get he _, chain_congr hc' (fun a ha => ?_)⟩
            rw [List.getElem?_set_ne]; rintro rfl; exact hpn ha
          · intro j hj _
            rw [List.getElem?_set_ne]; rintro rfl; exact hj (by simp)
        · have hstep : pushLoop e t (fuel + 1) h p = pushLoop e t fuel h q := by
            simp only [pushLoop, rd_get he, bind, Except.bind, if_neg hz]
          rcases pushLoop_spec e t l xs' fuel h q hc' (List.nodup_cons.1 hn).2 with ⟨a1, a2, a3⟩ | ⟨h', l', a1, a2, a3, a4, a5⟩
          · left
            refine ⟨by rw [hstep, a1], by simp; omega, ?_⟩
            intro y hy
            rw [List.take_succ_cons] at hy
            rcases List.mem_cons.1 hy with rfl | hy
            · exact hz
            · exact a3 y hy
          · right
            refine ⟨h', q :: l', by rw [hstep, a1], a2, ?_, ?_, ?_⟩
            · rcases a3 with rfl | rfl
              · exact .inl rfl
              · exact .inr rfl
            · simp only [pushList, hz, if_false]
              refine ⟨?_, a4⟩
              rw [a5 p hpn hp, he]
            · intro j hj hjl
              exact a5 j (fun hm => hj (List.mem_cons_of_mem _ hm)) hjl

/-! ### search -/

theorem findLive_spec (t : Nat) (h : List (Cell α)) : ∀ (l : List Nat) (xs : List (α × Nat)) (fuel : Nat) (p : Nat),
    Chain h (p :: l) xs → l.length < fuel →
    (findLive t fuel h p = .ok none ∧ ∀ x ∈ xs, x.2 < t) ∨
    ∃ q cur ls zs ys, findLive t fuel h p = .ok (some cur) ∧ p :: l = q ++ cur :: ls ∧ xs = zs ++ ys ∧
      zs.length = q.length ∧ (∀ x ∈ zs, x.2 < t) ∧ ∃ y ys', ys = y :: ys' ∧ t ≤ y.2
  | l, xs, 0, p, hc, hf => by omega
  | l, xs, fuel + 1, p, hc, hf => by
      rcases chain_cases hc with ⟨x, rfl, rfl, he⟩ | ⟨b, l', x, xs', rfl, rfl, he, hc'⟩
      · by_cases hx : x.2 < t
        · left
          exact ⟨by simp [findLive, rd_get he, bind, Except.bind, hx, pure, Except.pure], by simpa using hx⟩
        · right
          exact ⟨[], p, [], [], [x], by simp [findLive, rd_get he, bind, Except.bind, hx, pure, Except.pure], rfl, rfl,
            rfl, by simp, x, [], rfl, by omega⟩
      · by_cases hx : x.2 < t
        · have hstep : findLive t (fuel + 1) h p = findLive t fuel h b := by
            simp only [findLive, rd_get he, bind, Except.bind, if_pos hx]
          rcases findLive_spec t h l' xs' fuel b hc' (by simp at hf; omega) with ⟨a1, a2⟩ | ⟨q, cur, ls, zs, ys, a1, a2, a3, a4, a5, a6⟩
          · left
            exact ⟨by rw [hstep, a1], by simpa using ⟨hx, fun a b hm => a2 (a, b) hm⟩⟩
          · right
            refine ⟨p :: q, cur, ls, x :: zs, ys, by rw [hstep, a1], by simp [a2], by simp [a3], by simp [a4], ?_, a6⟩
            intro y hy
            rcases List.mem_cons.1 hy with rfl | hy
            · exact hx
            · exact a5 y hy
        · right
          exact ⟨[], p, b :: l', [], x :: xs', by simp [findLive, rd_get he, bind, Except.bind, hx, pure, Except.pure],
            rfl, rfl, rfl, by simp, x, xs', rfl, by omega⟩

/-! ### shift_chain -/

/-- from cell `r` the links lead through the cells `q` to the cell `k` -/
def Reach (h : List (Cell α)) : Nat → List Nat → Nat → Prop
  | r, [], k => r = k
  | r, a :: q, k => r = a ∧ ∃ c b, h[a]? = some c ∧ c.next = some b ∧ Reach h b q k

theorem reach_congr {h h' : List (Cell α)} : ∀ {q : List Nat} {r k}, Reach h r q k → (∀ a ∈ q, h'[a]? = h[a]?) →
    Reach h' r q k
  | [], _, _, hr, _ => hr
  | a :: q, _, _, ⟨e, c, b, h1, h2, h3⟩, he =>
      ⟨e, c, b, by rw [he a (by simp)]; exact h1, h2, reach_congr h3 (fun x hx => he x (by simp [hx]))⟩

theorem chain_split {h : List (Cell α)} : ∀ {q : List Nat} {cur : Nat} {ls : List Nat} {zs}, Chain h (q ++ cur :: ls) zs →
    ∃ z1 z2, zs = z1 ++ z2 ∧ z1.length = q.length ∧ Chain h (cur :: ls) z2 ∧
      ∃ r, (q ++ cur :: ls).head? = some r ∧ Reach h r q cur
  | [], cur, ls, zs, hc => ⟨[], zs, rfl, rfl, hc, cur, rfl, rfl⟩
  | a :: q, cur, ls, zs, hc => by
      rcases chain_cases (by simpa using hc : Chain h (a :: (q ++ cur :: ls)) zs) with ⟨_, h0, _⟩ | ⟨b, l', x, xs', h0, rfl, he, hc'⟩
      · simp at h0
      · rw [← h0] at hc'
        obtain ⟨z1, z2, e1, e2, e3, r, e4, e5⟩ := chain_split hc'
        refine ⟨x :: z1, z2, by simp [e1], by simp [e2], e3, a, rfl, rfl, _, b, he, rfl, ?_⟩
        rw [h0] at e4
        simp at e4
        rw [e4]; exact e5

theorem shiftLoop1_B {head cur : Nat} (hne : head ≠ cur) : ∀ (ls : List Nat) (ys : List (α × Nat)) (fuel : Nat) (h : List (Cell α)),
    Chain h (cur :: ls) ys → head ∉ ls → cur ∉ ls → ls.length < fuel →
    (∃ r c, h[head]? = some r ∧ h[cur]? = some c ∧ r.next = c.next) →
    ∃ h' y, shiftLoop1 fuel h head cur = .ok h' ∧ h'.length = h.length ∧ ys.getLast? = some y ∧
      h'[head]? = some ⟨none, y.1, y.2⟩ ∧ ∀ j, j ≠ head → j ≠ cur → h'[j]? = h[j]?
  | ls, ys, 0, h, hc, hh, hk, hf, hr => by omega
  | ls, ys, fuel + 1, h, hc, hh, hk, hf, ⟨r, c, hr, hcur, hrc⟩ => by
      rcases chain_cases hc with ⟨x, rfl, rfl, he⟩ | ⟨b, l', x, xs', rfl, rfl, he, hc'⟩
      · rw [he] at hcur; cases hcur
        refine ⟨h.set head ⟨none, x.1, x.2⟩, x, ?_, by simp, rfl, set_get hr _, ?_⟩
        · have hrc' : r.next = none := hrc
          simp only [shiftLoop1, rd_get he, rd_get hr, wr_get hr, bind, Except.bind, pure, Except.pure, hrc']
        · intro j hj _; rw [List.getElem?_set_ne (Ne.symm hj)]
      · rw [he] at hcur; cases hcur
        have hrn : r.next = some b := hrc
        simp only [List.mem_cons, not_or] at hh hk
        -- the cell after `cur`
        obtain ⟨cb, hcb⟩ : ∃ cb, h[b]? = some cb := ⟨_, List.getElem?_eq_getElem (chain_lt hc' b (by simp))⟩
        obtain ⟨h1, hh1⟩ : ∃ h1, h1 = h.set head ⟨r.next, x.1, x.2⟩ := ⟨_, rfl⟩
        obtain ⟨h2, hh2⟩ : ∃ h2, h2 = h1.set cur cb := ⟨_, rfl⟩
        obtain ⟨h3, hh3⟩ : ∃ h3, h3 = h2.set head cb := ⟨_, rfl⟩
        have g1b : h1[b]? = some cb := by rw [hh1, List.getElem?_set_ne hh.1]; exact hcb
        have g1c : h1[cur]? = some ⟨some b, x.1, x.2⟩ := by rw [hh1, List.getElem?_set_ne hne]; exact he
        have g2b : h2[b]? = some cb := by rw [hh2, List.getElem?_set_ne hk.1]; exact g1b
        have g2h : h2[head]? = some ⟨r.next, x.1, x.2⟩ := by
          rw [hh2, List.getElem?_set_ne hne.symm, hh1]; exact set_get hr _
        have hstep : shiftLoop1 (fuel + 1) h head cur = shiftLoop1 fuel h3 head cur := by
          simp only [shiftLoop1, rd_get he, rd_get hr, wr_get hr, bind, Except.bind, hrn]
          simp only [hrn] at g2h hh1
          simp only [← hh1, rd_get g1b, wr_get g1c, ← hh2, rd_get g2b, wr_get g2h, ← hh3]
        have g3h : h3[head]? = some cb := by rw [hh3]; exact set_get g2h _
        have g3c : h3[cur]? = some cb := by
          rw [hh3, List.getElem?_set_ne hne, hh2]; exact set_get g1c _
        have same : ∀ j, j ≠ head → j ≠ cur → h3[j]? = h[j]? := by
          intro j j1 j2
          rw [hh3, List.getElem?_set_ne (Ne.symm j1), hh2, List.getElem?_set_ne (Ne.symm j2), hh1,
            List.getElem?_set_ne (Ne.symm j1)]
        have hc3 : Chain h3 (cur :: l') xs' := by
          rcases chain_cases hc' with ⟨x', rfl, rfl, he'⟩ | ⟨b', l'', x', xs'', rfl, rfl, he', hc''⟩
          · rw [he'] at hcb; cases hcb
            exact g3c
          · rw [he'] at hcb; cases hcb
            refine ⟨g3c, chain_congr hc'' (fun a ha => same a ?_ ?_)⟩
            · rintro rfl; exact hh.2 ha
            · rintro rfl; exact hk.2 ha
        obtain ⟨h', y, a1, a2, a3, a4, a5⟩ := shiftLoop1_B hne l' xs' fuel h3 hc3 hh.2 hk.2
          (by simp at hf; omega) ⟨cb, cb, g3h, g3c, rfl⟩
        have hlen3 : h3.length = h.length := by simp [hh3, hh2, hh1]
        refine ⟨h', y, by rw [hstep, a1], by rw [a2, hlen3], ?_, a4, ?_⟩
        · have : xs' ≠ [] := by rintro rfl; simp at a3
          rw [List.getLast?_cons, a3]; rfl
        · intro j j1 j2; rw [a5 j j1 j2, same j j1 j2]

theorem shiftLoop1_A {head cur : Nat} (hne : head ≠ cur) : ∀ (q ls : List Nat) (ys : List (α × Nat)) (fuel : Nat)
    (h : List (Cell α)), Chain h (cur :: ls) ys → head ∉ ls → cur ∉ ls → ls.length < fuel →
    (∀ a ∈ q, a ≠ head ∧ a ≠ cur) → (∃ c r, h[head]? = some c ∧ c.next = some r ∧ Reach h r q cur) →
    ∃ h' y, shiftLoop1 fuel h head cur = .ok h' ∧ h'.length = h.length ∧ ys.getLast? = some y ∧
      (∀ j, j ≠ head → j ≠ cur → h'[j]? = h[j]?) ∧
      ((q.length + 1 ≤ ls.length ∧ h'[head]? = some ⟨none, y.1, y.2⟩) ∨
       (ls.length < q.length + 1 ∧ ∃ r q', h'[head]? = some ⟨some r, y.1, y.2⟩ ∧ h'[cur]? = some ⟨none, y.1, y.2⟩ ∧
        q'.length ≤ q.length ∧ (∀ a ∈ q', a ≠ head ∧ a ≠ cur) ∧ Reach h' r q' cur))
  | q, ls, ys, 0, h, hc, hh, hk, hf, hq, hr => by omega
  | q, ls, ys, fuel + 1, h, hc, hh, hk, hf, hq, ⟨c, r, hr, hrn, hre⟩ => by
      rcases chain_cases hc with ⟨x, rfl, rfl, he⟩ | ⟨b, l', x, xs', rfl, rfl, he, hc'⟩
      · have same : ∀ j, j ≠ head → (h.set head ⟨c.next, x.1, x.2⟩)[j]? = h[j]? := by
          intro j hj; rw [List.getElem?_set_ne (Ne.symm hj)]
        refine ⟨h.set head ⟨c.next, x.1, x.2⟩, x, ?_, by simp, rfl, fun j hj _ => same j hj, .inr ⟨by simp, r, q, ?_, ?_, le_rfl,
          hq, reach_congr hre (fun a ha => same a (hq a ha).1)⟩⟩
        · simp only [shiftLoop1, rd_get he, rd_get hr, wr_get hr, bind, Except.bind, pure, Except.pure]
        · rw [← hrn]; exact set_get hr _
        · rw [same cur hne.symm]; exact he
      · simp only [List.mem_cons, not_or] at hh hk
        obtain ⟨cb, hcb⟩ : ∃ cb, h[b]? = some cb := ⟨_, List.getElem?_eq_getElem (chain_lt hc' b (by simp))⟩
        obtain ⟨h1, hh1⟩ : ∃ h1, h1 = h.set head ⟨some r, x.1, x.2⟩ := ⟨_, rfl⟩
        obtain ⟨h2, hh2⟩ : ∃ h2, h2 = h1.set cur cb := ⟨_, rfl⟩
        have g1b : h1[b]? = some cb := by rw [hh1, List.getElem?_set_ne hh.1]; exact hcb
        have g1c : h1[cur]? = some ⟨some b, x.1, x.2⟩ := by rw [hh1, List.getElem?_set_ne hne]; exact he
        have g2h : h2[head]? = some ⟨some r, x.1, x.2⟩ := by
          rw [hh2, List.getElem?_set_ne hne.symm, hh1]; exact set_get hr _
        have g2c : h2[cur]? = some cb := by rw [hh2]; exact set_get g1c _
        have same2 : ∀ j, j ≠ head → j ≠ cur → h2[j]? = h[j]? := by
          intro j j1 j2
          rw [hh2, List.getElem?_set_ne (Ne.symm j2), hh1, List.getElem?_set_ne (Ne.symm j1)]
        -- the cell the receiver is copied from
        have hstep : ∀ cr, h2[r]? = some cr →
            shiftLoop1 (fuel + 1) h head cur = shiftLoop1 fuel (h2.set head cr) head cur := by
          intro cr hcr
          simp only [shiftLoop1, rd_get he, rd_get hr, wr_get hr, bind, Except.bind, hrn, ← hh1, rd_get g1b,
            wr_get g1c, ← hh2, rd_get hcr, wr_get g2h]
        have chain3 : ∀ cr, Chain (h2.set head cr) (cur :: l') xs' := by
          intro cr
          have g3c : (h2.set head cr)[cur]? = some cb := by rw [List.getElem?_set_ne hne]; exact g2c
          have same3 : ∀ j, j ≠ head → j ≠ cur → (h2.set head cr)[j]? = h[j]? := fun j j1 j2 => by
            rw [List.getElem?_set_ne (Ne.symm j1)]; exact same2 j j1 j2
          rcases chain_cases hc' with ⟨x', rfl, rfl, he'⟩ | ⟨b', l'', x', xs'', rfl, rfl, he', hc''⟩
          · rw [he'] at hcb; cases hcb
            exact g3c
          · rw [he'] at hcb; cases hcb
            refine ⟨g3c, chain_congr hc'' (fun a ha => same3 a ?_ ?_)⟩
            · rintro rfl; exact hh.2 ha
            · rintro rfl; exact hk.2 ha
        have hlen2 : h2.length = h.length := by simp [hh2, hh1]
        have hxs : xs' ≠ [] := by rintro rfl; simp [Chain] at hc'
        cases q with
        | nil =>
            have hrc : r = cur := hre
            subst hrc
            obtain ⟨h', y, a1, a2, a3, a4, a5⟩ := shiftLoop1_B hne l' xs' fuel (h2.set head cb) (chain3 cb) hh.2 hk.2
              (by simp at hf; omega)
              ⟨cb, cb, set_get g2h _, by rw [List.getElem?_set_ne hne]; exact g2c, rfl⟩
            refine ⟨h', y, by rw [hstep cb g2c, a1], by rw [a2, List.length_set, hlen2], ?_, ?_, .inl ⟨by simp, a4⟩⟩
            · rw [List.getLast?_cons, a3]; rfl
            · intro j j1 j2
              rw [a5 j j1 j2, List.getElem?_set_ne (Ne.symm j1)]; exact same2 j j1 j2
        | cons a q =>
            obtain ⟨hra, ca, nb, hca, hcan, hre'⟩ := hre
            subst hra
            have hqr := hq r (by simp)
            have g2r : h2[r]? = some ca := by rw [same2 r hqr.1 hqr.2]; exact hca
            have same3 : ∀ j, j ≠ head → j ≠ cur → (h2.set head ca)[j]? = h[j]? := fun j j1 j2 => by
              rw [List.getElem?_set_ne (Ne.symm j1)]; exact same2 j j1 j2
            obtain ⟨h', y, a1, a2, a3, a4, a5⟩ := shiftLoop1_A hne q l' xs' fuel (h2.set head ca) (chain3 ca) hh.2 hk.2
              (by simp at hf; omega) (fun z hz => hq z (by simp [hz]))
              ⟨ca, nb, set_get g2h _, hcan, reach_congr hre' (fun z hz =>
                same3 z (hq z (by simp [hz])).1 (hq z (by simp [hz])).2)⟩
            refine ⟨h', y, by rw [hstep ca g2r, a1], by rw [a2, List.length_set, hlen2], ?_, ?_, ?_⟩
            · rw [List.getLast?_cons, a3]; rfl
            · intro j j1 j2; rw [a4 j j1 j2, same3 j j1 j2]
            · rcases a5 with ⟨b1, b2⟩ | ⟨b1, r', q', b2, b3, b4, b5, b6⟩
              · exact .inl ⟨by simp; omega, b2⟩
              · exact .inr ⟨by simp; omega, r', q', b2, b3, by simp; omega, b5, b6⟩

theorem shiftLoop2_spec {head cur : Nat} {e : α} {t : Nat} (hne : head ≠ cur) : ∀ (q : List Nat) (fuel : Nat) (h : List (Cell α))
    (r : Nat), (∃ c, h[head]? = some c ∧ c.next = some r) → Reach h r q cur → (∀ a ∈ q, a ≠ head ∧ a ≠ cur) →
    h[cur]? = some ⟨none, e, t⟩ → q.length + 1 < fuel →
    ∃ h', shiftLoop2 fuel h head = .ok h' ∧ h'.length = h.length ∧ h'[head]? = some ⟨none, e, 0⟩ ∧
      ∀ j, j ≠ head → h'[j]? = h[j]?
  | q, 0, h, r, hr, hre, hq, hc, hf => by omega
  | [], fuel + 1, h, r, ⟨c, hr, hrn⟩, hre, hq, hc, hf => by
      have hrc : r = cur := hre
      subst hrc
      cases fuel with
      | zero => simp at hf
      | succ fuel =>
          refine ⟨h.set head ⟨none, e, 0⟩, ?_, by simp, set_get hr _, ?_⟩
          · simp only [shiftLoop2, rd_get hr, bind, Except.bind, hrn, rd_get hc, wr_get hr]
            simp [rd_get (set_get hr _), pure, Except.pure]
          · intro j hj; rw [List.getElem?_set_ne (Ne.symm hj)]
  | a :: q, fuel + 1, h, r, ⟨c, hr, hrn⟩, hre, hq, hc, hf => by
      obtain ⟨hra, ca, nb, hca, hcan, hre'⟩ := hre
      subst hra
      have hqr := hq r (by simp)
      have same : ∀ j, j ≠ head → (h.set head { ca with ts := 0 })[j]? = h[j]? := by
        intro j hj; rw [List.getElem?_set_ne (Ne.symm hj)]
      obtain ⟨h', a1, a2, a3, a4⟩ := shiftLoop2_spec hne q fuel (h.set head { ca with ts := 0 }) nb
        ⟨_, set_get hr _, hcan⟩ (reach_congr hre' (fun z hz => same z (hq z (by simp [hz])).1))
        (fun z hz => hq z (by simp [hz])) (by rw [same cur hne.symm]; exact hc) (by simp at hf; omega)
      refine ⟨h', ?_, by simpa using a2, a3, ?_⟩
      · simp only [shiftLoop2, rd_get hr, bind, Except.bind, hrn, rd_get hca, wr_get hr]
        exact a1
      · intro j hj; rw [a4 j hj, same j hj]

/-- What `shift_chain` really does: the head keeps only the content of the *last* cell of the chain; its timestamp is
kept if at least as many cells follow `cur` as lie between the head and `cur` (inclusive), otherwise it is set to 0. -/
theorem shiftChain_spec (h : List (Cell α)) (head : Nat) (q : List Nat) (cur : Nat) (ls : List Nat)
    (zs : List (α × Nat)) (hc : Chain h (head :: q ++ cur :: ls) zs) (hn : (head :: q ++ cur :: ls).Nodup) :
    ∃ h' y, shiftChain h head cur = .ok h' ∧ h'.length = h.length ∧ zs.getLast? = some y ∧
      h'[head]? = some ⟨none, y.1, if q.length + 1 ≤ ls.length then y.2 else 0⟩ ∧
      ∀ j, j ≠ head → j ≠ cur → h'[j]? = h[j]? := by
  have hfuel := chain_fuel hc hn
  obtain ⟨z1, z2, e1, e2, e3, r0, e4, e5⟩ := chain_split hc
  obtain ⟨hhead, cc, nb, hcc, hccn, hre⟩ := e5
  subst hhead
  have hn' := hn
  simp only [List.cons_append, List.nodup_cons, List.mem_append, List.mem_cons, not_or, List.nodup_append] at hn'
  obtain ⟨⟨n1, n2, n3⟩, n4, ⟨n5, n6⟩, n7⟩ := hn'
  have hq : ∀ a ∈ q, a ≠ r0 ∧ a ≠ cur := fun a ha =>
    ⟨fun e => n1 (e ▸ ha), fun e => n7 a ha cur (by simp) e⟩
  obtain ⟨h1, y, a1, a2, a3, a4, a5⟩ := shiftLoop1_A n2 q ls z2 (h.length + 1) h e3 n3 n5
    (by simp at hfuel; omega) hq ⟨cc, nb, hcc, hccn, hre⟩
  have hlast : zs.getLast? = some y := by rw [e1, List.getLast?_append, a3]; rfl
  rcases a5 with ⟨b1, b2⟩ | ⟨b1, r, q', b2, b3, b4, b5, b6⟩
  · refine ⟨h1, y, ?_, a2, hlast, by rw [if_pos b1]; exact b2, a4⟩
    simp only [shiftChain, a1, bind, Except.bind, shiftLoop2, rd_get b2, pure, Except.pure]
  · obtain ⟨h', c1, c2, c3, c4⟩ := shiftLoop2_spec n2 q' (h1.length + 1) h1 r ⟨_, b2, rfl⟩ b6 b5 b3
      (by rw [a2]; simp at hfuel; omega)
    refine ⟨h', y, ?_, by rw [c2, a2], hlast, by rw [if_neg (by omega)]; exact c3, ?_⟩
    · simp only [shiftChain, a1, bind, Except.bind, c1]
    · intro j j1 j2; rw [c4 j j1, a4 j j1 j2]

/-! ### whole calls, on the contents of the chains -/

/-- what `obsolete t` does to the content of one chain -/
def obsList (t : Nat) (xs : List (α × Nat)) : List (α × Nat) :=
  match xs.findIdx? (fun x => decide (t ≤ x.2)) with
  | none => xs
  | some 0 => xs
  | some (k + 1) => match xs.getLast? with
      | none => xs
      | some y => [(y.1, if 2 * (k + 1) + 1 ≤ xs.length then y.2 else 0)]

/-- contents of the chains, `next` and `counter` -/
structure Abs (α : Type) where
  con : Nat → List (α × Nat)
  nx : Nat → Nat
  counter : Nat

variable {K : Type} [Field K] [LinearOrder K] [FloorRing K]

def absHead (n : Nat) (a : Abs α) (c : Call α K) : Abs α :=
  if a.counter < n then
    { a with
      con := Function.update a.con a.counter [(c.e, c.ts)]
      nx := Function.update a.nx a.counter (a.counter + 1 + draw n c.r3) }
  else if c.r1 < (n : K) / (a.counter : K) then
    { a with
      con := Function.update a.con (draw n c.r2)
        ((c.e, c.ts) :: (a.con (draw n c.r2)).tail.map (fun x => (x.1, 0)))
      nx := Function.update a.nx (draw n c.r2) (a.counter + 1 + draw n c.r3) }
  else a

def absPush (n : Nat) (a : Abs α) (c : Call α K) : Abs α :=
  { a with
    con := fun j => if j < n ∧ a.counter = a.nx j then pushList c.e c.ts (a.con j) else a.con j
    nx := fun j => if j < n ∧ a.counter = a.nx j then a.counter + 1 + draw n (c.rs j) else a.nx j }

def absAdd (n : Nat) (a : Abs α) (c : Call α K) : Abs α :=
  { absPush n (absHead n a c) c with counter := a.counter + 1 }

def absObs (n : Nat) (a : Abs α) (t : Nat) : Abs α :=
  { a with con := fun j => if j < n then obsList t (a.con j) else a.con j }

def absStep (n : Nat) (a : Abs α) : Op α K → Abs α
  | .add c => absAdd n a c
  | .obsolete t => absObs n a t

def absRun (n : Nat) (a : Abs α) (ops : List (Op α K)) : Abs α := ops.foldl (absStep n) a

def Rep (n : Nat) (s : State α) (a : Abs α) : Prop :=
  (∃ idx, Chains n s.heap idx a.con) ∧ s.next.length = n ∧ (∀ j < n, s.next[j]? = some (a.nx j)) ∧
    s.counter = a.counter

theorem chains_update {n : Nat} {h h' : List (Cell α)} {idx : Nat → List Nat} {con} (hc : Chains n h idx con)
    {i : Nat} (hi : i < n) {l' : List Nat} {xs'} (h1 : Chain h' l' xs') (h2 : l'.head? = some i) (h3 : l'.Nodup)
    (h4 : ∀ x ∈ l', x ∈ idx i ∨ h.length ≤ x) (h5 : ∀ j, j ∉ idx i → j < h.length → h'[j]? = h[j]?) :
    Chains n h' (Function.update idx i l') (Function.update con i xs') := by
  refine ⟨?_, ?_, ?_, ?_⟩
  · intro j hj
    by_cases e : j = i
    · subst e; simpa using h1
    · rw [Function.update_of_ne e, Function.update_of_ne e]
      have := hc.chain j hj
      exact chain_congr this (fun x hx => h5 x (hc.disjoint j hj i hi e x hx) (chain_lt this x hx))
  · intro j hj
    by_cases e : j = i
    · subst e; simpa using h2
    · rw [Function.update_of_ne e]; exact hc.head j hj
  · intro j hj
    by_cases e : j = i
    · subst e; simpa using h3
    · rw [Function.update_of_ne e]; exact hc.nodup j hj
  · have fresh : ∀ j < n, j ≠ i → ∀ x ∈ l', x ∉ idx j := by
      intro j hj e x hx hxj
      rcases h4 x hx with h6 | h6
      · exact hc.disjoint j hj i hi e x hxj h6
      · exact absurd (chain_lt (hc.chain j hj) x hxj) (by omega)
    intro j hj k hk hjk x hx hxk
    by_cases e : j = i
    · subst e
      have e' : k ≠ j := Ne.symm hjk
      rw [Function.update_self] at hx
      rw [Function.update_of_ne e'] at hxk
      exact fresh k hk e' x hx hxk
    · rw [Function.update_of_ne e] at hx
      by_cases e' : k = i
      · subst e'
        rw [Function.update_self] at hxk
        exact fresh j hj e x hxk hx
      · rw [Function.update_of_ne e'] at hxk
        exact hc.disjoint j hj k hk hjk x hx hxk

theorem chains_cons {n : Nat} {h : List (Cell α)} {idx : Nat → List Nat} {con} (hc : Chains n h idx con)
    {i : Nat} (hi : i < n) : ∃ l, idx i = i :: l := by
  have := hc.head i hi
  cases h1 : idx i with
  | nil => simp [h1] at this
  | cons a l => simp [h1] at this; subst this; exact ⟨l, rfl⟩

theorem obsList_none {t : Nat} {xs : List (α × Nat)} (h : ∀ x ∈ xs, x.2 < t) : obsList t xs = xs := by
  have : xs.findIdx? (fun x => decide (t ≤ x.2)) = none := by
    rw [List.findIdx?_eq_none_iff]; intro x hx; have := h x hx; simp; omega
  simp [obsList, this]

theorem findIdx_split {t : Nat} {zs : List (α × Nat)} {y : α × Nat} {ys} (h : ∀ x ∈ zs, x.2 < t) (hy : t ≤ y.2) :
    (zs ++ y :: ys).findIdx? (fun x => decide (t ≤ x.2)) = some zs.length := by
  induction zs with
  | nil => simp [List.findIdx?_cons, hy]
  | cons z zs ih =>
      have hz := h z (by simp)
      have : ¬ t ≤ z.2 := by omega
      simp [List.findIdx?_cons, this, ih (fun x hx => h x (by simp [hx]))]

/-- one slot of `obsolete` -/
theorem obsolete_slot {n : Nat} {h : List (Cell α)} {idx : Nat → List Nat} {con} (hc : Chains n h idx con)
    {i : Nat} (hi : i < n) (t : Nat) :
    ∃ h' idx', (do match ← findLive t (h.length + 1) h i with
        | none => pure h
        | some cur => if i ≠ cur then shiftChain h i cur else pure h) = Except.ok h' ∧
      Chains n h' idx' (Function.update con i (obsList t (con i))) := by
  obtain ⟨l, hl⟩ := chains_cons hc hi
  have hch := hc.chain i hi
  have hnd := hc.nodup i hi
  rw [hl] at hch hnd
  have hfuel := chain_fuel hch hnd
  rcases findLive_spec t h l (con i) (h.length + 1) i hch (by simp at hfuel; omega) with
    ⟨a1, a2⟩ | ⟨q, cur, ls, zs, ys, a1, a2, a3, a4, a5, y, ys', a6, a7⟩
  · refine ⟨h, idx, ?_, ?_⟩
    · simp only [a1, bind, Except.bind, pure, Except.pure]
    · rw [obsList_none a2, Function.update_eq_self]; exact hc
  · subst a6
    cases q with
    | nil =>
        have hz : zs = [] := List.length_eq_zero_iff.1 (by simpa using a4)
        subst hz
        simp only [List.nil_append, List.cons.injEq] at a2
        obtain ⟨rfl, _⟩ := a2
        refine ⟨h, idx, ?_, ?_⟩
        · simp only [a1, bind, Except.bind, pure, Except.pure, ne_eq, not_true_eq_false, if_false]
        · have : obsList t (con i) = con i := by
            simp only [obsList, a3, findIdx_split a5 a7, List.length_nil]
          rw [this, Function.update_eq_self]; exact hc
    | cons p q =>
        simp only [List.cons_append, List.cons.injEq] at a2
        obtain ⟨rfl, a2⟩ := a2
        rw [a2] at hch hnd hl
        have hne : i ≠ cur := by
          have := (List.nodup_cons.1 hnd).1
          rintro rfl; exact this (by simp)
        obtain ⟨h', w, b1, b2, b3, b4, b5⟩ := shiftChain_spec h i q cur ls (con i) hch hnd
        refine ⟨h', Function.update idx i [i], ?_, ?_⟩
        · simp only [a1, bind, Except.bind, pure, Except.pure, if_pos hne, b1]
        · have hlen := chain_length hch
          have hobs : obsList t (con i) = [(w.1, if q.length + 1 ≤ ls.length then w.2 else 0)] := by
            have hz : zs.length = q.length + 1 := by simpa using a4
            have hf := findIdx_split (ys := ys') a5 a7
            rw [← a3, hz] at hf
            simp only [obsList, hf, b3]
            simp at hlen
            have : (2 * (q.length + 1) + 1 ≤ (con i).length) ↔ (q.length + 1 ≤ ls.length) := by omega
            simp only [this]
          rw [hobs]
          refine chains_update hc hi (by rw [chain_single]; exact b4) rfl (by simp) ?_ ?_
          · intro x hx; simp at hx; subst hx; left; rw [hl]; simp
          · intro j hj _
            rw [hl] at hj
            simp at hj
            exact b5 j hj.1 hj.2.2.1

theorem obsoleteLoop_spec (n t : Nat) : ∀ (k i : Nat) (h : List (Cell α)) (idx : Nat → List Nat) (con),
    Chains n h idx con → i + k = n →
    ∃ h' idx', obsoleteLoop t i k h = .ok h' ∧
      Chains n h' idx' (fun j => if i ≤ j ∧ j < n then obsList t (con j) else con j)
  | 0, i, h, idx, con, hc, hk => by
      refine ⟨h, idx, rfl, ?_⟩
      have : (fun j => if i ≤ j ∧ j < n then obsList t (con j) else con j) = con := by
        funext j; rw [if_neg]; omega
      rw [this]; exact hc
  | k + 1, i, h, idx, con, hc, hk => by
      have hi : i < n := by omega
      obtain ⟨h1, idx1, a1, a2⟩ := obsolete_slot hc hi t
      obtain ⟨h2, idx2, b1, b2⟩ := obsoleteLoop_spec n t k (i + 1) h1 idx1 _ a2 (by omega)
      refine ⟨h2, idx2, ?_, ?_⟩
      · cases hf : findLive t (h.length + 1) h i with
        | error e => simp only [hf, bind, Except.bind] at a1; cases a1
        | ok o =>
            simp only [hf, bind, Except.bind] at a1
            simp only [obsoleteLoop, hf, bind, Except.bind]
            cases o with
            | none => simp only [pure, Except.pure] at a1 ⊢; cases a1; exact b1
            | some cur =>
                simp only at a1 ⊢
                by_cases hic : i = cur
                · subst hic
                  simp only [ne_eq, not_true_eq_false, if_false, pure, Except.pure] at a1 ⊢
                  cases a1; exact b1
                · simp only [ne_eq, hic, not_false_eq_true, if_true] at a1 ⊢
                  rw [a1]; exact b1
      · have : (fun j => if i + 1 ≤ j ∧ j < n then obsList t (Function.update con i (obsList t (con i)) j)
            else Function.update con i (obsList t (con i)) j) =
            (fun j => if i ≤ j ∧ j < n then obsList t (con j) else con j) := by
          funext j
          by_cases e : j = i
          · subst e; simp [hi]
          · rw [Function.update_of_ne e]
            have : (i + 1 ≤ j ∧ j < n) ↔ (i ≤ j ∧ j < n) := by omega
            simp only [this]
        rw [this] at b2; exact b2

theorem obsolete_rep {n : Nat} {s : State α} {a : Abs α} (h : Rep n s a) (t : Nat) :
    ∃ s', obsolete n s t = .ok s' ∧ Rep n s' (absObs n a t) := by
  obtain ⟨⟨idx, hc⟩, h2, h3, h4⟩ := h
  obtain ⟨h', idx', b1, b2⟩ := obsoleteLoop_spec n t n 0 s.heap idx a.con hc (by omega)
  refine ⟨{ s with heap := h' }, by simp only [obsolete, b1, bind, Except.bind, pure, Except.pure], ⟨idx', ?_⟩, h2, h3, h4⟩
  simpa [absObs] using b2

variable [IsStrictOrderedRing K]

theorem draw_lt {n : Nat} (hn : 1 ≤ n) {r : K} (h1 : r ≤ 1) : draw n r < n := by
  unfold draw round
  have hk : (0 : K) ≤ ((n - 1 : Nat) : K) := Nat.cast_nonneg _
  have : ⌊r * ((n - 1 : Nat) : K) + 1 / 2⌋ ≤ ((n - 1 : Nat) : Int) := by
    have hlt : r * ((n - 1 : Nat) : K) + 1 / 2 < ((n - 1 : Nat) : K) + 1 := by
      have := mul_le_mul_of_nonneg_right h1 hk
      linarith
    have : ⌊r * ((n - 1 : Nat) : K) + 1 / 2⌋ < ((n - 1 : Nat) : Int) + 1 := by
      rw [Int.floor_lt]; push_cast; exact hlt
    omega
  omega

theorem addHead_rep {n : Nat} (hn : 1 ≤ n) {s : State α} {a : Abs α} (h : Rep n s a) (c : Call α K) (hv : c.Valid) :
    ∃ s', addHead n s c = .ok s' ∧ Rep n s' (absHead n a c) := by
  obtain ⟨⟨idx, hc⟩, h2, h3, h4⟩ := h
  by_cases hlt : a.counter < n
  · obtain ⟨l, hl⟩ := chains_cons hc hlt
    have hch := hc.chain _ hlt
    rw [hl] at hch
    have hlen := chain_lt hch a.counter (by simp)
    refine ⟨{ s with
      heap := s.heap.set a.counter ⟨none, c.e, c.ts⟩
      next := s.next.set a.counter (a.counter + 1 + draw n c.r3) }, ?_, ⟨Function.update idx a.counter [a.counter], ?_⟩, ?_, ?_, ?_⟩
    · simp only [addHead, h4, if_pos hlt, wr_ok _ hlen, wr_ok _ (show a.counter < s.next.length by omega), bind, Except.bind,
        pure, Except.pure]
    · simp only [absHead, if_pos hlt]
      refine chains_update hc hlt ?_ rfl (by simp) ?_ ?_
      · rw [chain_single, List.getElem?_set_self hlen]
      · intro x hx; simp at hx; subst hx; left; rw [hl]; simp
      · intro j hj _
        rw [List.getElem?_set_ne]; rintro rfl; exact hj (by rw [hl]; simp)
    · simpa using h2
    · intro j hj
      simp only [absHead, if_pos hlt]
      by_cases e : j = a.counter
      · subst e; rw [Function.update_self, List.getElem?_set_self (by omega)]
      · rw [Function.update_of_ne e, List.getElem?_set_ne (Ne.symm e)]; exact h3 j hj
    · simp only [absHead, if_pos hlt]; exact h4
  · by_cases hr : c.r1 < (n : K) / (a.counter : K)
    · have hd : draw n c.r2 < n := draw_lt hn hv.2.2.2.1
      obtain ⟨l, hl⟩ := chains_cons hc hd
      have hch := hc.chain _ hd
      have hnd := hc.nodup _ hd
      rw [hl] at hch hnd
      have hfuel := chain_fuel hch hnd
      have hpn := (List.nodup_cons.1 hnd).1
      have hdn : draw n c.r2 < s.next.length := by omega
      have key : ∃ heap', (∃ x, s.heap[draw n c.r2]? = some x ∧
          clearChain (s.heap.length + 1) (s.heap.set (draw n c.r2) { x with elem := c.e, ts := c.ts }) x.next = .ok heap') ∧
          Chain heap' (draw n c.r2 :: l) ((c.e, c.ts) :: (a.con (draw n c.r2)).tail.map (fun x => (x.1, 0))) ∧
          (∀ j, j ∉ draw n c.r2 :: l → heap'[j]? = s.heap[j]?) := by
        rcases chain_cases hch with ⟨x, rfl, hx, he⟩ | ⟨b, l', x, xs', rfl, hx, he, hc'⟩
        · refine ⟨_, ⟨_, he, clearChain_none _ _⟩, ?_, ?_⟩
          · rw [hx]; simp only [List.tail_cons, List.map_nil]; exact set_get he _
          · intro j hj; simp only [List.mem_singleton] at hj; rw [List.getElem?_set_ne (Ne.symm hj)]
        · have hc2 : Chain (s.heap.set (draw n c.r2) ⟨some b, c.e, c.ts⟩) (b :: l') xs' := chain_congr hc' (fun y hy => by
            rw [List.getElem?_set_ne]; rintro rfl; exact hpn hy)
          obtain ⟨h', b1, b2, b3, b4⟩ := clearChain_spec l' xs' (s.heap.length + 1) _ b hc2 (List.nodup_cons.1 hnd).2
            (by simp at hfuel; omega)
          refine ⟨h', ⟨_, he, b1⟩, ?_, ?_⟩
          · rw [hx]
            refine ⟨?_, b3⟩
            rw [b4 _ hpn]; exact set_get he _
          · intro j hj
            simp only [List.mem_cons, not_or] at hj
            rw [b4 j (by simp [hj.2]), List.getElem?_set_ne (Ne.symm hj.1)]
      obtain ⟨heap', ⟨x, k1, k2⟩, k3, k4⟩ := key
      refine ⟨{ s with
        heap := heap'
        next := s.next.set (draw n c.r2) (a.counter + 1 + draw n c.r3) }, ?_, ⟨Function.update idx (draw n c.r2) (draw n c.r2 :: l), ?_⟩, ?_, ?_, ?_⟩
      · simp only [addHead, h4, if_neg hlt, if_pos hr, rd_get k1, wr_get k1, List.length_set, k2, wr_ok _ hdn, bind, Except.bind,
          pure, Except.pure]
      · simp only [absHead, if_neg hlt, if_pos hr]
        refine chains_update hc hd k3 rfl hnd ?_ ?_
        · intro y hy; left; rw [hl]; exact hy
        · intro j hj _; exact k4 j (by rw [← hl]; exact hj)
      · simpa using h2
      · intro j hj
        simp only [absHead, if_neg hlt, if_pos hr]
        by_cases e : j = draw n c.r2
        · subst e; rw [Function.update_self, List.getElem?_set_self (by omega)]
        · rw [Function.update_of_ne e, List.getElem?_set_ne (Ne.symm e)]; exact h3 j hj
      · simp only [absHead, if_neg hlt, if_pos hr]; exact h4
    · refine ⟨s, ?_, ?_⟩
      · simp only [addHead, h4, if_neg hlt, if_neg hr, pure, Except.pure]
      · simp only [absHead, if_neg hlt, if_neg hr]
        exact ⟨⟨idx, hc⟩, h2, h3, h4⟩

/-- A chain that goes on after `fuel` cells that are all in use makes the assertion of `push_on_chain` fail. -/
theorem pushLoop_full (e : α) (t : Nat) : ∀ (l : List Nat) (xs : List (α × Nat)) (fuel : Nat) (h : List (Cell α)) (p : Nat),
    Chain h (p :: l) xs → fuel < xs.length → (∀ x ∈ xs.take fuel, x.2 ≠ 0) → pushLoop e t fuel h p = .error .assert
  | _, _, 0, _, _, _, _, _ => rfl
  | l, xs, fuel + 1, h, p, hc, hf, hx => by
      rcases chain_cases hc with ⟨x, rfl, rfl, he⟩ | ⟨b, l', x, xs', rfl, rfl, he, hc'⟩
      · simp at hf
      · have hn : x.2 ≠ 0 := hx x (by simp)
        simp only [pushLoop, rd_get he, bind, Except.bind, if_neg hn]
        exact pushLoop_full e t l' xs' fuel h b hc' (by simpa using hf) (fun y hy => hx y (by simp [hy]))

/-- a chain that goes on after 5000 cells that are all in use -/
def Jammed (xs : List (α × Nat)) : Prop := 5000 < xs.length ∧ ∀ x ∈ xs.take 5000, x.2 ≠ 0

/-- a chain whose first 5000 cells are all in use -/
def Full (xs : List (α × Nat)) : Prop := 5000 ≤ xs.length ∧ ∀ x ∈ xs.take 5000, x.2 ≠ 0

theorem addLoop_rep {n : Nat} (c : Call α K) (a : Abs α) : ∀ (k i : Nat) (s : State α) (b : Abs α), i + k = n → Rep n s b →
    (∀ j, i ≤ j → b.con j = a.con j ∧ b.nx j = a.nx j) → b.counter = a.counter →
    (addLoop n c.e c.ts c.rs i k s = .error .assert ∧ ∃ j < n, Full (a.con j)) ∨
    ∃ s', addLoop n c.e c.ts c.rs i k s = .ok s' ∧ Rep n s'
      { a with
        con := fun j => if i ≤ j then (absPush n a c).con j else b.con j
        nx := fun j => if i ≤ j then (absPush n a c).nx j else b.nx j } ∧
      ∀ j, i ≤ j → j < n → a.counter = a.nx j → ¬ Jammed (a.con j)
  | 0, i, s, b, hk, hr, hab, hcnt => by
      right
      refine ⟨s, rfl, ?_⟩
      obtain ⟨⟨idx, hc⟩, h2, h3, h4⟩ := hr
      refine ⟨⟨⟨idx, ?_⟩, h2, ?_, h4.trans hcnt⟩, fun j hj hjn => absurd hjn (by omega)⟩
      · have : ∀ j < n, (if i ≤ j then (absPush n a c).con j else b.con j) = b.con j := by
          intro j hj; rw [if_neg]; omega
        exact ⟨fun j hj => by
          show Chain s.heap (idx j) (if i ≤ j then (absPush n a c).con j else b.con j)
          rw [this j hj]; exact hc.chain j hj, hc.head, hc.nodup, hc.disjoint⟩
      · intro j hj
        show s.next[j]? = some (if i ≤ j then (absPush n a c).nx j else b.nx j)
        rw [h3 j hj, if_neg (by omega)]
  | k + 1, i, s, b, hk, hr, hab, hcnt => by
      have hi : i < n := by omega
      obtain ⟨⟨idx, hc⟩, h2, h3, h4⟩ := hr
      obtain ⟨e1, e2⟩ := hab i le_rfl
      by_cases hx : s.counter = b.nx i
      · obtain ⟨l, hl⟩ := chains_cons hc hi
        have hch := hc.chain _ hi
        have hnd := hc.nodup _ hi
        rw [hl] at hch hnd
        have hin : i < s.next.length := by omega
        rcases pushLoop_spec c.e c.ts l (b.con i) 5000 s.heap i hch hnd with ⟨a1, a2, a3⟩ | ⟨h', l', a1, a2, a3, a4, a5⟩
        · left
          refine ⟨?_, i, hi, ?_⟩
          · simp only [addLoop, rd_eq_ok_iff.2 (h3 i hi), bind, Except.bind, if_pos hx, pushOnChain, a1]
          · rw [← e1]; exact ⟨a2, a3⟩
        · have hrep : Rep n { s with
              heap := h'
              next := s.next.set i (s.counter + 1 + draw n (c.rs i)) }
              { b with
                con := Function.update b.con i (pushList c.e c.ts (b.con i))
                nx := Function.update b.nx i (s.counter + 1 + draw n (c.rs i)) } := by
            refine ⟨⟨Function.update idx i (i :: l'), ?_⟩, by simpa using h2, ?_, h4⟩
            · refine chains_update hc hi a4 rfl ?_ ?_ ?_
              · rcases a3 with rfl | rfl
                · exact hnd
                · have : s.heap.length ∉ i :: l := fun hm => absurd (chain_lt hch _ hm) (by omega)
                  rw [← List.cons_append, List.nodup_append]
                  refine ⟨hnd, by simp, ?_⟩
                  intro x hx y hy
                  simp at hy; subst hy; rintro rfl; exact this hx
              · intro x hxm
                rw [hl]
                rcases a3 with rfl | rfl
                · exact .inl hxm
                · rcases List.mem_cons.1 hxm with rfl | hxm
                  · simp
                  · rcases List.mem_append.1 hxm with hxm | hxm
                    · left; simp [hxm]
                    · simp at hxm; subst hxm; exact .inr le_rfl
              · intro j hj hjl; exact a5 j (by rw [← hl]; exact hj) hjl
            · intro j hj
              by_cases e : j = i
              · subst e; simp [hin]
              · simp only [Function.update_of_ne e, List.getElem?_set_ne (Ne.symm e)]; exact h3 j hj
          have hstep : addLoop n c.e c.ts c.rs i (k + 1) s = addLoop n c.e c.ts c.rs (i + 1) k { s with
              heap := h'
              next := s.next.set i (s.counter + 1 + draw n (c.rs i)) } := by
            simp only [addLoop, rd_eq_ok_iff.2 (h3 i hi), bind, Except.bind, if_pos hx, pushOnChain, a1,
              wr_ok _ hin]
          have hrec := addLoop_rep c a k (i + 1) _ _ (by omega) hrep (by
            intro j hj
            have e : j ≠ i := by omega
            simp only [Function.update_of_ne e]
            exact hab j (by omega)) hcnt
          rw [hstep]
          rcases hrec with hrec | ⟨s', c1, c2, c3⟩
          · exact .inl hrec
          · right
            refine ⟨s', c1, ?_, fun j hj hjn hjx hf => ?_⟩
            rotate_left
            · by_cases e : j = i
              · subst e
                rw [pushLoop_full c.e c.ts l (b.con j) 5000 s.heap j hch (by rw [e1]; exact hf.1) (by rw [e1]; exact hf.2)] at a1
                cases a1
              · exact c3 j (by omega) hjn hjx hf
            have hax : a.counter = a.nx i := by rw [← hcnt, ← h4, ← e2]; exact hx
            have hcon : (fun j => if i + 1 ≤ j then (absPush n a c).con j else
                Function.update b.con i (pushList c.e c.ts (b.con i)) j) =
                (fun j => if i ≤ j then (absPush n a c).con j else b.con j) := by
              funext j
              by_cases e : j = i
              · subst e
                simp only [Function.update_self, le_refl, if_true, if_neg (show ¬ j + 1 ≤ j by omega)]
                simp only [absPush, if_pos (And.intro hi hax), e1]
              · simp only [Function.update_of_ne e]
                have : (i + 1 ≤ j) ↔ (i ≤ j) := by omega
                simp only [this]
            have hnx : (fun j => if i + 1 ≤ j then (absPush n a c).nx j else
                Function.update b.nx i (s.counter + 1 + draw n (c.rs i)) j) =
                (fun j => if i ≤ j then (absPush n a c).nx j else b.nx j) := by
              funext j
              by_cases e : j = i
              · subst e
                simp only [Function.update_self, le_refl, if_true, if_neg (show ¬ j + 1 ≤ j by omega)]
                simp only [absPush, if_pos (And.intro hi hax), h4, hcnt]
              · simp only [Function.update_of_ne e]
                have : (i + 1 ≤ j) ↔ (i ≤ j) := by omega
                simp only [this]
            simp only [hcon, hnx] at c2
            exact c2
      · have hstep : addLoop n c.e c.ts c.rs i (k + 1) s = addLoop n c.e c.ts c.rs (i + 1) k s := by
          simp only [addLoop, rd_eq_ok_iff.2 (h3 i hi), bind, Except.bind, if_neg hx]
        have hrec := addLoop_rep c a k (i + 1) s b (by omega) ⟨⟨idx, hc⟩, h2, h3, h4⟩
          (fun j hj => hab j (by omega)) hcnt
        rw [hstep]
        rcases hrec with hrec | ⟨s', c1, c2, c3⟩
        · exact .inl hrec
        · right
          have hax : ¬ (a.counter = a.nx i) := by rw [← hcnt, ← h4, ← e2]; exact hx
          refine ⟨s', c1, ?_, fun j hj hjn hjx hf => ?_⟩
          rotate_left
          · by_cases e : j = i
            · subst e
              exact hax hjx
            · exact c3 j (by omega) hjn hjx hf
          have hcon : (fun j => if i + 1 ≤ j then (absPush n a c).con j else b.con j) =
              (fun j => if i ≤ j then (absPush n a c).con j else b.con j) := by
            funext j
            by_cases e : j = i
            · subst e
              simp only [le_refl, if_true, if_neg (show ¬ j + 1 ≤ j by omega)]
              simp only [absPush]
              rw [if_neg (fun h => hax h.2), e1]
            · have : (i + 1 ≤ j) ↔ (i ≤ j) := by omega
              simp only [this]
          have hnx : (fun j => if i + 1 ≤ j then (absPush n a c).nx j else b.nx j) =
              (fun j => if i ≤ j then (absPush n a c).nx j else b.nx j) := by
            funext j
            by_cases e : j = i
            · subst e
              simp only [le_refl, if_true, if_neg (show ¬ j + 1 ≤ j by omega)]
              simp only [absPush]
              rw [if_neg (fun h => hax h.2), e2]
            · have : (i + 1 ≤ j) ↔ (i ≤ j) := by omega
              simp only [this]
          simp only [hcon, hnx] at c2
          exact c2

theorem absHead_counter (n : Nat) (a : Abs α) (c : Call α K) : (absHead n a c).counter = a.counter := by
  unfold absHead; split
  · rfl
  · split <;> rfl

/-- a slot that was just written by `add` has no second cell in use -/
theorem full_head {n : Nat} {a : Abs α} {c : Call α K} {j : Nat} (h : Full ((absHead n a c).con j)) : Full (a.con j) := by
  unfold absHead at h
  split at h
  · dsimp only at h
    by_cases e : j = a.counter
    · subst e; rw [Function.update_self] at h; have := h.1; simp at this
    · rwa [Function.update_of_ne e] at h
  · split at h
    · dsimp only at h
      by_cases e : j = draw n c.r2
      · rw [e, Function.update_self] at h
        exfalso
        obtain ⟨h1, h2⟩ := h
        cases hx : (a.con (draw n c.r2)).tail with
        | nil => rw [hx] at h1; simp at h1
        | cons x xs =>
            rw [hx] at h2
            exact h2 (x.1, 0) (by simp) rfl
      · rwa [Function.update_of_ne e] at h
    · exact h

theorem add_rep {n : Nat} (hn : 1 ≤ n) {s : State α} {a : Abs α} (h : Rep n s a) (c : Call α K) (hv : c.Valid) :
    (add n s c = .error .assert ∧ ∃ j < n, Full (a.con j)) ∨
    ∃ s', add n s c = .ok s' ∧ Rep n s' (absAdd n a c) := by
  obtain ⟨s1, h1, h2⟩ := addHead_rep hn h c hv
  rcases addLoop_rep c (absHead n a c) n 0 s1 (absHead n a c) (by omega) h2 (fun j _ => ⟨rfl, rfl⟩) rfl with
    ⟨a1, j, hj, a2⟩ | ⟨s', a1, ⟨⟨idx, a2⟩, a3, a4, a5⟩, _⟩
  · exact .inl ⟨by simp only [add, h1, a1, bind, Except.bind], j, hj, full_head a2⟩
  · right
    refine ⟨{ s' with counter := s'.counter + 1 }, by simp only [add, h1, a1, bind, Except.bind, pure, Except.pure],
      ⟨idx, ?_⟩, a3, ?_, ?_⟩
    · simpa [absAdd] using a2
    · simpa [absAdd] using a4
    · simp only [absAdd, a5, absHead_counter]

/-- An `add` that succeeds has not met a chain that goes on after 5000 cells in use. -/
theorem add_not_jammed {n : Nat} (hn : 1 ≤ n) {s s' : State α} {a : Abs α} (h : Rep n s a) (c : Call α K) (hv : c.Valid) (hs : add n s c = .ok s') :
    ∀ j < n, a.counter = (absHead n a c).nx j → ¬ Jammed ((absHead n a c).con j) := by
  obtain ⟨s1, h1, h2⟩ := addHead_rep hn h c hv
  rcases addLoop_rep c (absHead n a c) n 0 s1 (absHead n a c) (by omega) h2 (fun j _ => ⟨rfl, rfl⟩) rfl with ⟨a1, _⟩ | ⟨s2, a1, _, a2⟩
  · simp only [add, h1, a1, bind, Except.bind] at hs
    cases hs
  · intro j hj hx
    exact a2 j (Nat.zero_le _) hj (by rw [absHead_counter]; exact hx)

def absNew (g : List α) : Abs α :=
  { con := fun j => match g[j]? with | some e => [(e, 0)] | none => []
    nx := fun _ => never
    counter := 0 }

theorem new_rep (g : List α) : Rep g.length (new g) (absNew g) := by
  refine ⟨⟨fun j => [j], ?_⟩, by simp [new], ?_, rfl⟩
  · refine ⟨?_, by simp, by simp, ?_⟩
    · intro i hi
      simp only [absNew, new, List.getElem?_eq_getElem hi, chain_single]
      simp [hi]
    · intro i _ j _ hij a ha hb; simp at ha hb; omega
  · intro j hj; simp [new, absNew, hj]

theorem run_rep {n : Nat} (hn : 1 ≤ n) (ops : List (Op α K)) : ∀ (s : State α) (a : Abs α), Rep n s a →
    (∀ op ∈ ops, op.Valid) →
    (run n s ops = .error .assert ∧ ∃ pre post s', ops = pre ++ post ∧ run n s pre = .ok s' ∧
      Rep n s' (absRun n a pre) ∧ ∃ j < n, Full ((absRun n a pre).con j)) ∨
    ∃ s', run n s ops = .ok s' ∧ Rep n s' (absRun n a ops) := by
  induction ops with
  | nil => intro s a h _; exact .inr ⟨s, rfl, h⟩
  | cons op ops ih =>
      intro s a h hv
      have hstep : (step n s op = .error .assert ∧ ∃ j < n, Full (a.con j)) ∨
          ∃ s', step n s op = .ok s' ∧ Rep n s' (absStep n a op) := by
        cases op with
        | add c => exact add_rep hn h c (hv (.add c) (by simp))
        | obsolete t => obtain ⟨s', h1, h2⟩ := obsolete_rep h t; exact .inr ⟨s', h1, h2⟩
      rcases hstep with ⟨h1, h2⟩ | ⟨s1, h1, h2⟩
      · left
        exact ⟨by simp only [run, h1, bind, Except.bind], [], op :: ops, s, rfl, rfl, h, h2⟩
      · rcases ih s1 _ h2 (fun o ho => hv o (by simp [ho])) with ⟨a1, pre, post, s', a2, a3, a4, a5⟩ | ⟨s', a1, a2⟩
        · left
          exact ⟨by simp only [run, h1, a1, bind, Except.bind], op :: pre, post, s', by simp [a2],
            by simp only [run, h1, a3, bind, Except.bind], a4, a5⟩
        · right
          exact ⟨s', by simp only [run, h1, a1, bind, Except.bind], a2⟩

theorem get_rep {n : Nat} {s : State α} {a : Abs α} (h : Rep n s a) {i : Nat} (hi : i < n) :
    ∃ x xs, a.con i = x :: xs ∧ get s i = .ok x.1 := by
  obtain ⟨⟨idx, hc⟩, _⟩ := h
  obtain ⟨l, hl⟩ := chains_cons hc hi
  have hch := hc.chain _ hi
  rw [hl] at hch
  rcases chain_cases hch with ⟨x, rfl, hx, he⟩ | ⟨b, l', x, xs', rfl, hx, he, hc'⟩
  · exact ⟨x, [], hx, by simp only [get, rd_get he, bind, Except.bind, pure, Except.pure]⟩
  · exact ⟨x, xs', hx, by simp only [get, rd_get he, bind, Except.bind, pure, Except.pure]⟩

end Orp.Chained
