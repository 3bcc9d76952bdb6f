import Verif.Mcnn.Spec
import Mathlib.Algebra.BigOperators.Group.List.Basic
import Mathlib.Algebra.Order.BigOperators.Group.List
import Mathlib.Data.List.Induction
import Mathlib.Tactic.FieldSimp
import Mathlib.Tactic.Ring
import Mathlib.Tactic.Linarith
import Mathlib.Tactic.Positivity

/-! Helper lemmas for MC-NN. -/

set_option linter.unusedSectionVars false

namespace Orp.Mcnn

variable {K : Type} [Field K] [LinearOrder K] [IsStrictOrderedRing K]

/-! ### searches -/

theorem freeLoop_spec (active : List Bool) (skip : Option Nat) : ∀ (k i : Nat), i + k = active.length →
    (∃ j, freeLoop active skip i k = .ok (some j) ∧ i ≤ j ∧ active[j]? = some false ∧ some j ≠ skip) ∨
    (freeLoop active skip i k = .ok none ∧ ∀ j, i ≤ j → j < active.length → active[j]? = some true ∨ some j = skip)
  | 0, i, h => .inr ⟨rfl, fun j h1 h2 => by omega⟩
  | k + 1, i, h => by
      have hi : i < active.length := by omega
      by_cases hc : active[i] = false ∧ some i ≠ skip
      · left
        refine ⟨i, ?_, le_rfl, by rw [List.getElem?_eq_getElem hi, hc.1], hc.2⟩
        simp only [freeLoop, rd_ok hi, bind, Except.bind, if_pos hc, pure, Except.pure]
      · have hstep : freeLoop active skip i (k + 1) = freeLoop active skip (i + 1) k := by
          simp only [freeLoop, rd_ok hi, bind, Except.bind, if_neg hc]
        rw [hstep]
        rcases freeLoop_spec active skip k (i + 1) (by omega) with ⟨j, a, b, c, d⟩ | ⟨a, b⟩
        · exact .inl ⟨j, a, by omega, c, d⟩
        · refine .inr ⟨a, fun j h1 h2 => ?_⟩
          rcases h1.eq_or_lt with rfl | h1
          · rw [List.getElem?_eq_getElem hi]
            cases hb : active[i]
            · right
              by_contra hn
              exact hc ⟨hb, hn⟩
            · left; rfl
          · exact b j h1 h2

theorem lt_trans_not {a b c : Dbl ℚ} (h1 : a.lt b = true) (h2 : b.lt c = true) : a.lt c = true :=
  Dbl.lt_of_lt_of_le h1 (Dbl.le_of_lt h2)

theorem lt_asymm' {a b : Dbl ℚ} (h1 : a.lt b = true) : b.lt a = false := by
  cases h : b.lt a with
  | false => rfl
  | true =>
      have := lt_trans_not h1 h
      cases a <;> simp [Dbl.lt] at this

/-- state of the search for the lowest participation after the clusters below `i` -/
def LowInv (s : State K) (i : Nat) (low : Option Nat) (val : Dbl ℚ) : Prop :=
  match low with
  | none => ∀ j, j < i → s.active[j]? ≠ some true
  | some j => ∃ c, Active s j c ∧ val = c.performance s.timestamp ∧
      ∀ k d, k < i → Active s k d → (d.performance s.timestamp).lt val = false

theorem lowestLoop_spec (s : State K) (hlen : s.clusters.length = s.active.length) : ∀ (k i : Nat) (low : Option Nat) (val : Dbl ℚ),
    i + k = s.active.length → LowInv s i low val →
    ∃ r v, lowestLoop s i k low val = .ok r ∧ LowInv s s.active.length r v
  | 0, i, low, val, h, hi => ⟨low, val, rfl, by rw [← h]; exact hi⟩
  | k + 1, i, low, val, h, hinv => by
      have hi : i < s.active.length := by omega
      have hic : i < s.clusters.length := by omega
      cases ha : s.active[i]
      · have hstep : lowestLoop s i (k + 1) low val = lowestLoop s (i + 1) k low val := by
          simp only [lowestLoop, rd_ok hi, bind, Except.bind, ha]; rfl
        rw [hstep]
        apply lowestLoop_spec s hlen k (i + 1) low val (by omega)
        have hno : s.active[i]? ≠ some true := by rw [List.getElem?_eq_getElem hi, ha]; simp
        cases low with
        | none =>
            intro j hj
            rcases Nat.lt_succ_iff_lt_or_eq.1 hj with hj | rfl
            · exact hinv j hj
            · exact hno
        | some l =>
            obtain ⟨c, a1, a2, a3⟩ := hinv
            refine ⟨c, a1, a2, fun j d hj hd => ?_⟩
            rcases Nat.lt_succ_iff_lt_or_eq.1 hj with hj | rfl
            · exact a3 j d hj hd
            · exact absurd hd.1 hno
      · have hA : Active s i s.clusters[i] := ⟨by rw [List.getElem?_eq_getElem hi, ha], List.getElem?_eq_getElem hic⟩
        have hAct : ∀ d, Active s i d → d = s.clusters[i] := by
          rintro d ⟨_, h2⟩; rw [List.getElem?_eq_getElem hic] at h2; cases h2; rfl
        have hself : ((s.clusters[i]).performance s.timestamp).lt ((s.clusters[i]).performance s.timestamp) = false := by
          cases hq : ((s.clusters[i]).performance s.timestamp) <;> simp [Dbl.lt]
        by_cases hcond : low = none ∨ ((s.clusters[i]).performance s.timestamp).lt val = true
        · have hstep : lowestLoop s i (k + 1) low val =
              lowestLoop s (i + 1) k (some i) ((s.clusters[i]).performance s.timestamp) := by
            simp only [lowestLoop, rd_ok hi, rd_ok hic, bind, Except.bind, ha, if_true, if_pos hcond]
          rw [hstep]
          apply lowestLoop_spec s hlen k (i + 1) (some i) _ (by omega)
          refine ⟨_, hA, rfl, fun j d hj hd => ?_⟩
          rcases Nat.lt_succ_iff_lt_or_eq.1 hj with hj | rfl
          · cases low with
            | none => exact absurd hd.1 (hinv j hj)
            | some l =>
                obtain ⟨c, a1, a2, a3⟩ := hinv
                have hlt : ((s.clusters[i]).performance s.timestamp).lt val = true := by
                  rcases hcond with h | h
                  · cases h
                  · exact h
                cases hq : (d.performance s.timestamp).lt ((s.clusters[i]).performance s.timestamp) with
                | false => rfl
                | true =>
                    have := lt_trans_not hq hlt
                    rw [a3 j d hj hd] at this; cases this
          · rw [hAct d hd]; exact hself
        · have hstep : lowestLoop s i (k + 1) low val = lowestLoop s (i + 1) k low val := by
            simp only [lowestLoop, rd_ok hi, rd_ok hic, bind, Except.bind, ha, if_true, if_neg hcond]
          rw [hstep]
          apply lowestLoop_spec s hlen k (i + 1) low val (by omega)
          cases low with
          | none => exact absurd (.inl rfl) hcond
          | some l =>
              obtain ⟨c, a1, a2, a3⟩ := hinv
              refine ⟨c, a1, a2, fun j d hj hd => ?_⟩
              rcases Nat.lt_succ_iff_lt_or_eq.1 hj with hj | rfl
              · exact a3 j d hj hd
              · rw [hAct d hd]
                cases hq : ((s.clusters[j]).performance s.timestamp).lt val with
                | false => rfl
                | true => exact absurd (.inr hq) hcond

theorem lowest_spec (s : State K) (hlen : s.clusters.length = s.active.length) {i : Nat} (hi : s.active[i]? = some true) :
    ∃ j, lowest s = .ok (some j) ∧ s.active[j]? = some true ∧ IsLowest s j := by
  obtain ⟨r, v, a, b⟩ := lowestLoop_spec s hlen s.active.length 0 none (.fin 101) (by omega) (fun j hj => by omega)
  rw [← hlen] at a
  cases r with
  | none => exact absurd hi (b i (List.getElem?_eq_some_iff.1 hi).1)
  | some j =>
      obtain ⟨c, b1, b2, b3⟩ := b
      exact ⟨j, a, b1.1, c, b1, fun k d hd => by rw [← b2]; exact b3 k d (List.getElem?_eq_some_iff.1 hd.1).1 hd⟩

/-- state of a nearest search over the clusters below `l` -/
def NearInv (s : State K) (x : List K) (p : Cluster K → Bool) (cap : K) (l : Nat) (best : Option Nat) (d : K) : Prop :=
  match best with
  | none => d = cap ∧ ∀ i c, i < l → Active s i c → p c = true → cap ≤ distance x c.centroid
  | some j => j < l ∧ d < cap ∧ ∃ c, Active s j c ∧ p c = true ∧ distance x c.centroid = d ∧
      (∀ i e, i < l → Active s i e → p e = true → d ≤ distance x e.centroid) ∧
      (∀ i e, i < j → Active s i e → p e = true → d < distance x e.centroid)

theorem nearestLoop_spec (s : State K) (x : List K) (p : Cluster K → Bool) (cap : K) (hlen : s.clusters.length = s.active.length) :
    ∀ (k l : Nat) (best : Option Nat) (d : K), l + k = s.active.length → NearInv s x p cap l best d →
    ∃ best' d', nearestLoop s x p l k best d = .ok (best', d') ∧ NearInv s x p cap s.active.length best' d'
  | 0, l, best, d, h, hi => ⟨best, d, rfl, by rw [← h]; exact hi⟩
  | k + 1, l, best, d, h, hi => by
      have hl : l < s.active.length := by omega
      have hlc : l < s.clusters.length := by omega
      have hAct : ∀ c, Active s l c → c = s.clusters[l] := by
        rintro c ⟨_, h2⟩; rw [List.getElem?_eq_getElem hlc] at h2; cases h2; rfl
      by_cases hsel : (s.active[l] && p s.clusters[l]) = true
      · have hsel' : s.active[l] = true ∧ p s.clusters[l] = true := by simpa using hsel
        have hA : Active s l s.clusters[l] := ⟨by rw [List.getElem?_eq_getElem hl, hsel'.1], List.getElem?_eq_getElem hlc⟩
        by_cases hd : distance x (s.clusters[l]).centroid < d
        · have hstep : nearestLoop s x p l (k + 1) best d = nearestLoop s x p (l + 1) k (some l) (distance x (s.clusters[l]).centroid) := by
            simp only [nearestLoop, rd_ok hl, rd_ok hlc, bind, Except.bind, if_pos hsel, if_pos hd]
          rw [hstep]
          apply nearestLoop_spec s x p cap hlen k (l + 1) _ _ (by omega)
          have hold : d ≤ cap ∧ ∀ i e, i < l → Active s i e → p e = true → d ≤ distance x e.centroid := by
            cases best with
            | none => exact ⟨hi.1.le, fun i e h1 h2 h3 => by rw [hi.1]; exact hi.2 i e h1 h2 h3⟩
            | some j => exact ⟨hi.2.1.le, hi.2.2.choose_spec.2.2.2.1⟩
          refine ⟨by omega, lt_of_lt_of_le hd hold.1, _, hA, hsel'.2, rfl, ?_, ?_⟩
          · intro i e h1 h2 h3
            rcases Nat.lt_succ_iff_lt_or_eq.1 h1 with h1 | rfl
            · exact hd.le.trans (hold.2 i e h1 h2 h3)
            · rw [hAct e h2]
          · intro i e h1 h2 h3; exact lt_of_lt_of_le hd (hold.2 i e h1 h2 h3)
        · have hstep : nearestLoop s x p l (k + 1) best d = nearestLoop s x p (l + 1) k best d := by
            simp only [nearestLoop, rd_ok hl, rd_ok hlc, bind, Except.bind, if_pos hsel, if_neg hd]
          rw [hstep]
          apply nearestLoop_spec s x p cap hlen k (l + 1) _ _ (by omega)
          cases best with
          | none =>
              refine ⟨hi.1, fun i e h1 h2 h3 => ?_⟩
              rcases Nat.lt_succ_iff_lt_or_eq.1 h1 with h1 | rfl
              · exact hi.2 i e h1 h2 h3
              · rw [hAct e h2, ← hi.1]; exact not_lt.1 hd
          | some j =>
              obtain ⟨b1, b2, c, b3, b4, b5, b6, b7⟩ := hi
              refine ⟨by omega, b2, c, b3, b4, b5, fun i e h1 h2 h3 => ?_, b7⟩
              rcases Nat.lt_succ_iff_lt_or_eq.1 h1 with h1 | rfl
              · exact b6 i e h1 h2 h3
              · rw [hAct e h2]; exact not_lt.1 hd
      · have hstep : nearestLoop s x p l (k + 1) best d = nearestLoop s x p (l + 1) k best d := by
          simp only [nearestLoop, rd_ok hl, rd_ok hlc, bind, Except.bind, if_neg hsel]
        rw [hstep]
        apply nearestLoop_spec s x p cap hlen k (l + 1) _ _ (by omega)
        have hno : ∀ e, Active s l e → p e = true → False := by
          intro e h2 h3
          apply hsel
          have := h2.1
          rw [List.getElem?_eq_getElem hl] at this
          rw [hAct e h2] at h3
          simp only [Option.some.injEq] at this
          simp [this, h3]
        cases best with
        | none =>
            refine ⟨hi.1, fun i e h1 h2 h3 => ?_⟩
            rcases Nat.lt_succ_iff_lt_or_eq.1 h1 with h1 | rfl
            · exact hi.2 i e h1 h2 h3
            · exact (hno e h2 h3).elim
        | some j =>
            obtain ⟨b1, b2, c, b3, b4, b5, b6, b7⟩ := hi
            refine ⟨by omega, b2, c, b3, b4, b5, fun i e h1 h2 h3 => ?_, b7⟩
            rcases Nat.lt_succ_iff_lt_or_eq.1 h1 with h1 | rfl
            · exact b6 i e h1 h2 h3
            · exact (hno e h2 h3).elim

theorem active_lt {s : State K} {i : Nat} {c : Cluster K} (h : Active s i c) : i < s.active.length :=
  (List.getElem?_eq_some_iff.1 h.1).1

theorem nearest_full (s : State K) (x : List K) (p : Cluster K → Bool) (cap : K) (hlen : s.clusters.length = s.active.length) :
    ∃ best d, nearestLoop s x p 0 s.clusters.length none cap = .ok (best, d) ∧
      ((best = none ∧ d = cap ∧ NoneNear s x p cap) ∨
       ∃ j c, best = some j ∧ IsNearest s x p cap j ∧ Active s j c ∧ p c = true ∧ distance x c.centroid = d ∧ d < cap) := by
  rw [hlen]
  obtain ⟨best, d, h1, h2⟩ := nearestLoop_spec s x p cap hlen s.active.length 0 none cap (by omega)
    ⟨rfl, fun i c h => by omega⟩
  refine ⟨best, d, h1, ?_⟩
  cases best with
  | none => exact .inl ⟨rfl, h2.1, fun i c h3 h4 => h2.2 i c (active_lt h3) h3 h4⟩
  | some j =>
      obtain ⟨b1, b2, c, b3, b4, b5, b6, b7⟩ := h2
      refine .inr ⟨j, c, rfl, ⟨c, b3, b4, by rw [b5]; exact b2, fun i e h3 h4 => by rw [b5]; exact b6 i e (active_lt h3) h3 h4,
        fun i e h3 h4 h5 => by rw [b5]; exact b7 i e h5 h3 h4⟩, b3, b4, b5, b2⟩

theorem findNearest_spec (s : State K) (x : List K) (hlen : s.clusters.length = s.active.length) :
    ∃ best d, findNearest s x = .ok (best, d) ∧
      ((best = none ∧ d = 1000000 ∧ NoneNear s x (fun _ => true) 1000000) ∨
       ∃ j c, best = some j ∧ IsNearest s x (fun _ => true) 1000000 j ∧ Active s j c ∧ distance x c.centroid = d ∧ d < 1000000) := by
  obtain ⟨best, d, h1, h2⟩ := nearest_full s x (fun _ => true) 1000000 hlen
  refine ⟨best, d, h1, ?_⟩
  rcases h2 with h2 | ⟨j, c, a1, a2, a3, _, a4, a5⟩
  · exact .inl h2
  · exact .inr ⟨j, c, a1, a2, a3, a4, a5⟩

/-- the two searches of `train` -/
theorem findNearestClass_spec (s : State K) (x : List K) (label : Int) (hlen : s.clusters.length = s.active.length) :
    (∃ near, findNearestClass s x label = .ok (near, none) ∧ NoneNear s x (fun c => decide (c.label = label)) 1000000) ∨
    (∃ i j c d, findNearestClass s x label = .ok (some i, some j) ∧ Active s i d ∧ Active s j c ∧ c.label = label ∧
      distance x d.centroid < 1000000 ∧ distance x c.centroid < 1000000 ∧
      (∀ k e, Active s k e → distance x d.centroid ≤ distance x e.centroid) ∧
      (∀ k e, Active s k e → e.label = label → distance x c.centroid ≤ distance x e.centroid)) := by
  obtain ⟨near, dn, h1, h2⟩ := findNearest_spec s x hlen
  obtain ⟨nc, dc, h3, h4⟩ := nearest_full s x (fun c => decide (c.label = label)) 1000000 hlen
  rcases h2 with ⟨rfl, rfl, h5⟩ | ⟨j, c, rfl, ⟨c', b1, b2, b3, b4, b5⟩, h6, h7, h8⟩
  · left
    rcases h4 with ⟨rfl, rfl, h6⟩ | ⟨j, c, rfl, _, h6, h7, h8, h9⟩
    · refine ⟨none, ?_, h6⟩
      simp only [findNearestClass, h1, h3, bind, Except.bind, pure, Except.pure, if_true]
      simp
    · exact absurd (h5 j c h6 rfl) (by rw [h8]; exact not_le.2 h9)
  · have hcc : c' = c := by
      have := b1.2; rw [h6.2] at this; cases this; rfl
    subst hcc
    have hrd : rd s.clusters j = .ok c' := rd_eq_ok_iff.2 h6.2
    by_cases hl : c'.label = label
    · right
      refine ⟨j, j, c', c', ?_, h6, h6, hl, b3, b3, fun k e he => b4 k e he rfl, fun k e he _ => b4 k e he rfl⟩
      simp only [findNearestClass, h1, hrd, bind, Except.bind, pure, Except.pure, hl, decide_true, if_true]
    · have hstep : findNearestClass s x label = if dc = dn then .ok (nc, nc) else .ok (some j, nc) := by
        simp only [findNearestClass, h1, hrd, h3, bind, Except.bind, pure, Except.pure, hl, decide_false]
        rfl
      rcases h4 with ⟨rfl, rfl, h9⟩ | ⟨j', c, rfl, ⟨e', e1, e2, e3, e4, e5⟩, h9, h10, h11, h12⟩
      · left
        refine ⟨some j, ?_, h9⟩
        rw [hstep, if_neg]; intro h; rw [← h] at h8; exact lt_irrefl _ h8
      · right
        have hce : e' = c := by
          have := e1.2; rw [h9.2] at this; cases this; rfl
        subst hce
        by_cases hd : dc = dn
        · refine ⟨j', j', e', e', by rw [hstep, if_pos hd], h9, h9, by simpa using h10, e3, e3, ?_, fun k e he hl => e4 k e he (by simpa using hl)⟩
          intro k e he
          rw [h11, hd, ← h7]; exact b4 k e he rfl
        · exact ⟨j, j', e', c', by rw [hstep, if_neg hd], h6, h9, by simpa using h10, b3, e3, fun k e he => b4 k e he rfl,
            fun k e he hl => e4 k e he (by simpa using hl)⟩

/-! ### clusters -/

theorem summ_init (fc : Nat) (x : List K) (hx : x.length = fc) (label t thr : Int) : Summarises fc (initCluster x label t thr) [x] := by
  refine ⟨rfl, hx, by simp [initCluster, hx], fun i hi => ?_⟩
  have : i < x.length := by omega
  simp [initCluster, this]

theorem summ_incorporate {fc : Nat} {c : Cluster K} {pts : List (List K)} (h : Summarises fc c pts) {x : List K} (hx : x.length = fc)
    (t : Int) : Summarises fc (c.incorporate x t) (pts ++ [x]) := by
  obtain ⟨h1, h2, h3, h4⟩ := h
  refine ⟨by simp [Cluster.incorporate, h1], by simp [Cluster.incorporate, h2, hx], by simp [Cluster.incorporate, h3, hx], ?_⟩
  intro i hi
  obtain ⟨a, b⟩ := h4 i hi
  have hxi : x[i]? = some (x.getD i 0) := by
    have : i < x.length := by omega
    simp [this]
  simp only [Cluster.incorporate, List.getElem?_zipWith, a, b, hxi, List.map_append, List.map_cons, List.map_nil, List.sum_append,
    List.sum_cons, List.sum_nil, add_zero, and_self]

theorem summ_err {fc : Nat} {c : Cluster K} {pts : List (List K)} (h : Summarises fc c pts) (e : Int) :
    Summarises fc { c with err := e } pts := h

theorem summ_pos {fc : Nat} {c : Cluster K} {pts : List (List K)} (h : Summarises fc c pts) (hne : pts ≠ []) : 1 ≤ c.n := by
  rw [h.1]; exact List.length_pos_iff.2 hne

theorem summ_centroid {fc : Nat} {c : Cluster K} {pts : List (List K)} (h : Summarises fc c pts) :
    c.centroid.length = fc ∧ ∀ i < fc, c.centroid[i]? = some ((pts.map (fun x => x.getD i 0)).sum / (pts.length : K)) := by
  obtain ⟨h1, h2, h3, h4⟩ := h
  refine ⟨by simp [Cluster.centroid, h2], fun i hi => ?_⟩
  simp [Cluster.centroid, (h4 i hi).1, h1]

theorem splitLoop_spec (all : List K) : ∀ (vs : List K) (i : Nat) (idx : Option Nat) (hv : K), all.drop i = vs → (all ≠ [] ) →
    (match idx with
      | none => i = 0
      | some j => all[j]? = some hv ∧ ∀ (g : Nat) (w : K), g < i → all[g]? = some w → w ≤ hv) →
    ∃ j v, splitLoop vs i idx hv = (some j, v) ∧ all[j]? = some v ∧ ∀ (g : Nat) (w : K), all[g]? = some w → w ≤ v := by
  intro vs
  induction vs with
  | nil =>
      intro i idx hv hd hne h
      have hi : all.length ≤ i := List.drop_eq_nil_iff.1 hd
      cases idx with
      | none =>
          simp only at h
          exact absurd (List.length_eq_zero_iff.1 (by omega)) hne
      | some j =>
          refine ⟨j, hv, rfl, h.1, fun g w hg => h.2 g w ?_ hg⟩
          have := (List.getElem?_eq_some_iff.1 hg).1
          omega
  | cons v vs ih =>
      intro i idx hv hd hne h
      have hiv : all[i]? = some v := by
        have := congrArg (fun l => l[0]?) hd
        simpa using this
      have hd' : all.drop (i + 1) = vs := by
        rw [← List.drop_drop, hd]; rfl
      simp only [splitLoop]
      split
      · rename_i hc
        apply ih _ _ _ hd' hne
        refine ⟨hiv, fun g w hg hw => ?_⟩
        rcases Nat.lt_succ_iff_lt_or_eq.1 hg with hg | rfl
        · cases idx with
          | none => simp only at h; omega
          | some j =>
              rcases hc with hc | hc
              · exact (h.2 g w hg hw).trans hc.le
              · cases hc
        · rw [hiv] at hw; cases hw; exact le_rfl
      · rename_i hc
        apply ih _ _ _ hd' hne
        cases idx with
        | none => exact absurd (.inr rfl) hc
        | some j =>
            refine ⟨h.1, fun g w hg hw => ?_⟩
            rcases Nat.lt_succ_iff_lt_or_eq.1 hg with hg | rfl
            · exact h.2 g w hg hw
            · rw [hiv] at hw; cases hw
              exact not_lt.1 (fun h' => hc (.inl h'))

/-! ### splitting -/

theorem splitInto_spec (sqrt : K → K) (s : State K) {fc : Nat} (hfc : 1 ≤ fc) (hlen : s.clusters.length = s.active.length)
    {ci j : Nat} {c : Cluster K} {pts} (hc : s.clusters[ci]? = some c) (hs : Summarises fc c pts) (hj : j < s.active.length) :
    ∃ f v, splitInto sqrt s ci j = .ok (splitState s ci j (c.centroid.modify f (fun y => y - sqrt v))
      (c.centroid.modify f (fun y => y + sqrt v)) c.label (c.tsSum.tdiv (c.n : Int))) ∧ f < fc ∧ IsWidest c f v := by
  have hvl : c.variances.length = fc := by simp [Cluster.variances, hs.2.1, hs.2.2.1]
  have hvar : c.variances ≠ [] := by
    intro h; rw [h] at hvl; simp at hvl; omega
  obtain ⟨si, hv, h1, h1a, h1b⟩ := splitLoop_spec c.variances c.variances 0 none 0 rfl hvar rfl
  have hci : ci < s.clusters.length := (List.getElem?_eq_some_iff.1 hc).1
  refine ⟨si, hv, ?_, by rw [← hvl]; exact (List.getElem?_eq_some_iff.1 h1a).1, h1a, h1b⟩
  have hj' : j < s.clusters.length := by omega
  obtain ⟨C, hC⟩ : ∃ C, C = s.clusters.set j (initCluster (c.centroid.modify si (fun v => v - sqrt hv)) c.label (c.tsSum.tdiv (c.n : Int))
    s.errorThr) := ⟨_, rfl⟩
  have hCci : ci < C.length := by rw [hC]; simpa using hci
  have hlab : (C[ci]).label = c.label := by
    by_cases e : ci = j
    · subst e
      have : C[ci]? = some (initCluster (c.centroid.modify si (fun v => v - sqrt hv)) c.label (c.tsSum.tdiv (c.n : Int)) s.errorThr) := by
        rw [hC, List.getElem?_set_self hci]
      rw [List.getElem?_eq_getElem hCci] at this
      simp only [Option.some.injEq] at this
      rw [this]; rfl
    · have : C[ci]? = some c := by rw [hC, List.getElem?_set_ne (Ne.symm e)]; exact hc
      rw [List.getElem?_eq_getElem hCci] at this
      simp only [Option.some.injEq] at this
      rw [this]
  simp only [splitInto, rd_eq_ok_iff.2 hc, bind, Except.bind, h1, wr_ok _ hj']
  rw [← hC]
  simp only [rd_ok hCci, wr_ok _ hCci, wr_ok _ hj, pure, Except.pure, hlab, splitState]
  rw [hC]

theorem split_spec (sqrt : K → K) (s : State K) {fc : Nat} (hfc : 1 ≤ fc) (hlen : s.clusters.length = s.active.length)
    {ci : Nat} {c : Cluster K} {pts} (hc : Active s ci c) (hs : Summarises fc c pts) :
    ∃ s', split sqrt s ci = .ok s' ∧ SplitStep sqrt fc s ci s' := by
  rcases freeLoop_spec s.active (some ci) s.active.length 0 (by omega) with ⟨j, a1, _, a2, a3⟩ | ⟨a1, a2⟩
  · have hj : j < s.active.length := (List.getElem?_eq_some_iff.1 a2).1
    obtain ⟨f, v, b1, b2, b3⟩ := splitInto_spec sqrt s hfc hlen hc.2 hs hj
    refine ⟨_, by simp only [split, hlen, a1, bind, Except.bind, b1], .inr ⟨c, j, f, v, hc.2, hj, b2, b3, rfl, .inl ⟨a2, ?_⟩⟩⟩
    rintro rfl; exact a3 rfl
  · have hall : ∀ i < s.active.length, s.active[i]? = some true := by
      intro i hi
      rcases a2 i (by omega) hi with h | h
      · exact h
      · cases h; exact hc.1
    by_cases hcl : s.cleaning = 0 ∨ s.cleaning = 2
    · obtain ⟨j, h1, h2, h3⟩ := lowest_spec s hlen hc.1
      have hj : j < s.active.length := (List.getElem?_eq_some_iff.1 h2).1
      obtain ⟨f, v, b1, b2, b3⟩ := splitInto_spec sqrt s hfc hlen hc.2 hs hj
      exact ⟨_, by simp only [split, hlen, a1, bind, Except.bind, if_pos hcl, h1, b1],
        .inr ⟨c, j, f, v, hc.2, hj, b2, b3, rfl, .inr ⟨hall, hcl, h3⟩⟩⟩
    · refine ⟨s, by simp only [split, hlen, a1, bind, Except.bind, if_neg hcl, pure, Except.pure], .inl ⟨rfl, hall, ?_, ?_⟩⟩
      · exact fun h => hcl (.inl h)
      · exact fun h => hcl (.inr h)

/-! ### invariant -/

structure Inv (fc m : Nat) (tr : List (List K × Int)) (s : State K) : Prop where
  clen : s.clusters.length = m
  alen : s.active.length = m
  good : ∀ i c, Active s i c → Good fc tr c

theorem Inv.hlen {fc m : Nat} {tr} {s : State K} (h : Inv fc m tr s) : s.clusters.length = s.active.length := by rw [h.clen, h.alen]

theorem good_mono {fc : Nat} {tr : List (List K × Int)} {c : Cluster K} (h : Good fc tr c) (p : List K × Int) : Good fc (tr ++ [p]) c := by
  obtain ⟨⟨q, h1, h2⟩, f, r, h3, h4, h5, h6⟩ := h
  refine ⟨⟨q, by simp [h1], h2⟩, f, r, h3, h4, fun q hq => ?_, h6⟩
  have := h5 q hq
  rw [List.getElem?_append_left (List.getElem?_eq_some_iff.1 this).1]; exact this

theorem inv_mono {fc m : Nat} {tr} {s : State K} (h : Inv fc m tr s) (p : List K × Int) : Inv fc m (tr ++ [p]) s :=
  ⟨h.clen, h.alen, fun i c hc => good_mono (h.good i c hc) p⟩

theorem good_seed {fc : Nat} {tr : List (List K × Int)} {c : Cluster K} (h : Good fc tr c) {x : List K} (hx : x.length = fc) (old thr : Int) :
    Good fc tr (initCluster x c.label old thr) :=
  ⟨h.1, x, [], summ_init fc x hx _ _ _, hx, by simp, by simp, by simp [initCluster]⟩

theorem good_new {fc : Nat} {tr : List (List K × Int)} {x : List K} (hx : x.length = fc) {label : Int} (hm : (x, label) ∈ tr) (t thr : Int) :
    Good fc tr (initCluster x label t thr) :=
  ⟨⟨_, hm, rfl⟩, x, [], summ_init fc x hx _ _ _, hx, by simp, by simp, by simp [initCluster]⟩

theorem good_incorporate {fc : Nat} {tr : List (List K × Int)} {c : Cluster K} (h : Good fc tr c) {x : List K} (hx : x.length = fc)
    (e : Int) {t : Int} (ht : t = (tr.length : Int)) :
    Good fc (tr ++ [(x, c.label)]) (({ c with err := e } : Cluster K).incorporate x t) := by
  have hm := good_mono h (x, c.label)
  obtain ⟨h1, f, r, h3, h4, h5, h6, h7⟩ := h
  refine ⟨hm.1, f, r ++ [(x, tr.length)], ?_, h4, ?_, ?_, ?_⟩
  · have := summ_incorporate (summ_err h3 e) hx t
    simpa using this
  · intro q hq
    rcases List.mem_append.1 hq with hq | hq
    · have := h5 q hq
      rw [List.getElem?_append_left (List.getElem?_eq_some_iff.1 this).1]; exact this
    · simp at hq; subst hq; simp [Cluster.incorporate]
  · rw [List.map_append, List.pairwise_append]
    refine ⟨h6, by simp, fun a ha b hb => ?_⟩
    simp at hb; subst hb
    obtain ⟨q, hq, rfl⟩ := List.mem_map.1 ha
    exact (List.getElem?_eq_some_iff.1 (h5 q hq)).1
  · simp only [Cluster.incorporate, h7, ht, List.map_append, List.sum_append, List.map_cons, List.map_nil, List.sum_cons, List.sum_nil]
    ring

theorem good_err {fc : Nat} {tr : List (List K × Int)} {c : Cluster K} (h : Good fc tr c) (e : Int) : Good fc tr { c with err := e } := h

/-- replace a cluster that is in use -/
theorem inv_set {fc m : Nat} {tr : List (List K × Int)} {s : State K} (h : Inv fc m tr s) {i : Nat} {c : Cluster K}
    (hg : Good fc tr c) : Inv fc m tr { s with clusters := s.clusters.set i c } := by
  refine ⟨by simpa using h.clen, h.alen, ?_⟩
  rintro j d ⟨h1, h2⟩
  by_cases e : i = j
  · subst e
    have hi : i < s.clusters.length := by
      have := (List.getElem?_eq_some_iff.1 h2).1; simpa using this
    simp only [List.getElem?_set_self hi, Option.some.injEq] at h2
    rw [← h2]; exact hg
  · simp only [List.getElem?_set_ne e] at h2
    exact h.good j d ⟨h1, h2⟩

theorem active_set {s : State K} {i j : Nat} {c d : Cluster K} (ha : Active s j d) :
    ∃ d', Active { s with clusters := s.clusters.set i c } j d' := by
  have hj : j < (s.clusters.set i c).length := by
    have := (List.getElem?_eq_some_iff.1 ha.2).1; simpa using this
  exact ⟨(s.clusters.set i c)[j], ha.1, List.getElem?_eq_getElem hj⟩

theorem inv_split {sqrt : K → K} {fc m : Nat} {tr : List (List K × Int)} {s s' : State K} (h : Inv fc m tr s) {ci : Nat} {c : Cluster K} (hc : Active s ci c)
    (hs : SplitStep sqrt fc s ci s') : Inv fc m tr s' ∧ ∀ i d, Active s i d → ∃ d', Active s' i d' := by
  rcases hs with ⟨rfl, _⟩ | ⟨c', j, f, v, h1, h2, _, _, rfl, _⟩
  · exact ⟨h, fun i d hd => ⟨d, hd⟩⟩
  · have : c' = c := by have := hc.2; rw [h1] at this; cases this; rfl
    subst this
    have hg := h.good ci c' hc
    have hlen : c'.centroid.length = fc := (summ_centroid hg.2.choose_spec.choose_spec.1).1
    have h4 : (c'.centroid.modify f (fun y => y - sqrt v)).length = fc := by simp [hlen]
    have h5 : (c'.centroid.modify f (fun y => y + sqrt v)).length = fc := by simp [hlen]
    have hciL : ci < s.clusters.length := (List.getElem?_eq_some_iff.1 h1).1
    refine ⟨⟨by simpa [splitState] using h.clen, by simpa [splitState] using h.alen, ?_⟩, ?_⟩
    · rintro i d ⟨a1, a2⟩
      simp only [splitState] at a1 a2
      by_cases e : ci = i
      · subst e
        rw [List.getElem?_set_self (by simpa using hciL)] at a2
        simp only [Option.some.injEq] at a2
        rw [← a2]; exact good_seed hg h5 _ _
      · rw [List.getElem?_set_ne e] at a2
        by_cases e' : j = i
        · subst e'
          rw [List.getElem?_set_self (by rw [h.hlen]; exact h2)] at a2
          simp only [Option.some.injEq] at a2
          rw [← a2]; exact good_seed hg h4 _ _
        · rw [List.getElem?_set_ne e'] at a2
          rw [List.getElem?_set_ne e'] at a1
          exact h.good i d ⟨a1, a2⟩
    · rintro i d ⟨a1, a2⟩
      have hi : i < s.clusters.length := (List.getElem?_eq_some_iff.1 a2).1
      refine ⟨((splitState s ci j (c'.centroid.modify f (fun y => y - sqrt v)) (c'.centroid.modify f (fun y => y + sqrt v)) c'.label
        (c'.tsSum.tdiv (c'.n : Int))).clusters)[i]'(by simpa [splitState] using hi), ?_, List.getElem?_eq_getElem _⟩
      simp only [splitState]
      by_cases e : j = i
      · subst e; rw [List.getElem?_set_self h2]
      · rw [List.getElem?_set_ne e]; exact a1

theorem splitStep_ts {sqrt : K → K} {fc : Nat} {s s' : State K} {ci : Nat} (h : SplitStep sqrt fc s ci s') : s'.timestamp = s.timestamp := by
  rcases h with ⟨rfl, _⟩ | ⟨c, j, f, v, _, _, _, _, rfl, _⟩
  · rfl
  · rfl

/-- the effects of `absorb`, as a sequence of simple steps -/
theorem absorb_spec (sqrt : K → K) {fc m : Nat} (hfc : 1 ≤ fc) {tr : List (List K × Int)} {s : State K} (h : Inv fc m tr s) {x : List K}
    (hx : x.length = fc) {i j : Nat} {c d : Cluster K} (hi : Active s i d) (hj : Active s j c)
    (ht : s.timestamp = (tr.length : Int)) :
    ∃ s' mid s2, absorb sqrt s x i j = .ok s' ∧ Inv fc m (tr ++ [(x, c.label)]) s' ∧ s'.timestamp = s.timestamp ∧ (∀ k e, Active s k e → ∃ e', Active s' k e') ∧
      mid.active = s.active ∧ mid.count = s.count ∧ mid.cleaning = s.cleaning ∧ mid.timestamp = s.timestamp ∧
      (∃ e, Active mid j (({ c with err := e } : Cluster K).incorporate x s.timestamp)) ∧
      (∀ k e, k ≠ j → Active mid k e → ∃ e0, Active s k e0 ∧ ∃ er, e = { e0 with err := er }) ∧
      (s2 = mid ∨ SplitStep sqrt fc mid j s2) ∧ (s' = s2 ∨ SplitStep sqrt fc s2 i s') := by
  by_cases e : i = j
  · subst e
    have hcd : d = c := by have := hi.2; rw [hj.2] at this; cases this; rfl
    subst hcd
    have hil : i < s.clusters.length := (List.getElem?_eq_some_iff.1 hi.2).1
    obtain ⟨mid, hmid⟩ : ∃ mid : State K, mid = { s with
      clusters := s.clusters.set i (({ d with err := d.err + 1 } : Cluster K).incorporate x s.timestamp) } := ⟨_, rfl⟩
    have hinv : Inv fc m (tr ++ [(x, d.label)]) mid := by
      rw [hmid]; exact inv_set (inv_mono h _) (good_incorporate (h.good i d hi) hx _ ht)
    refine ⟨mid, mid, mid, ?_, hinv, by rw [hmid], ?_, by rw [hmid], by rw [hmid], by rw [hmid], by rw [hmid], ⟨d.err + 1, ?_⟩, ?_, .inl rfl, .inl rfl⟩
    · simp only [absorb, if_true, rd_eq_ok_iff.2 hi.2, wr_ok _ hil, bind, Except.bind, pure, Except.pure, hmid]
    · intro k e he; rw [hmid]; exact active_set he
    · rw [hmid]; exact ⟨hi.1, by simp [hil]⟩
    · intro k e hk he
      rw [hmid] at he
      refine ⟨e, ⟨he.1, ?_⟩, e.err, rfl⟩
      have := he.2
      simp only [List.getElem?_set_ne (Ne.symm hk)] at this
      exact this
  · have hil : i < s.clusters.length := (List.getElem?_eq_some_iff.1 hi.2).1
    have hjl : j < s.clusters.length := (List.getElem?_eq_some_iff.1 hj.2).1
    obtain ⟨mid, hmid⟩ : ∃ mid : State K, mid = { s with
      clusters := (s.clusters.set i { d with err := d.err - 1 }).set j (({ c with err := c.err - 1 } : Cluster K).incorporate x s.timestamp) } :=
      ⟨_, rfl⟩
    have hinv : Inv fc m (tr ++ [(x, c.label)]) mid := by
      have h1 := inv_set (i := i) (inv_mono h (x, c.label)) (good_err (good_mono (h.good i d hi) (x, c.label)) (d.err - 1))
      have h2 := inv_set (i := j) h1 (good_incorporate (h.good j c hj) hx (c.err - 1) ht)
      rw [hmid]; exact h2
    have hmj : Active mid j (({ c with err := c.err - 1 } : Cluster K).incorporate x s.timestamp) := by
      rw [hmid]; exact ⟨hj.1, by simp [hjl]⟩
    have hkeep : ∀ k e, Active s k e → ∃ e', Active mid k e' := by
      intro k e he
      obtain ⟨e1, he1⟩ := active_set (i := i) (c := { d with err := d.err - 1 }) he
      obtain ⟨e2, he2⟩ := active_set (i := j) (c := ({ c with err := c.err - 1 } : Cluster K).incorporate x s.timestamp) he1
      rw [hmid]; exact ⟨e2, he2⟩
    have hback : ∀ k e, k ≠ j → Active mid k e → ∃ e0, Active s k e0 ∧ ∃ er, e = { e0 with err := er } := by
      intro k e hk he
      rw [hmid] at he
      have h2 := he.2
      simp only [List.getElem?_set_ne (Ne.symm hk)] at h2
      by_cases e' : i = k
      · subst e'
        simp only [List.getElem?_set_self hil, Option.some.injEq] at h2
        exact ⟨d, hi, _, h2.symm⟩
      · simp only [List.getElem?_set_ne e'] at h2
        exact ⟨e, ⟨he.1, h2⟩, e.err, rfl⟩
    have hrdj : rd (s.clusters.set i { d with err := d.err - 1 }) j = .ok c := by
      rw [rd_eq_ok_iff, List.getElem?_set_ne e]; exact hj.2
    have hwrj : wr (s.clusters.set i { d with err := d.err - 1 }) j (({ c with err := c.err - 1 } : Cluster K).incorporate x s.timestamp) =
        .ok ((s.clusters.set i { d with err := d.err - 1 }).set j (({ c with err := c.err - 1 } : Cluster K).incorporate x s.timestamp)) :=
      wr_ok _ (by simpa using hjl)
    have first : ∃ s2, (if c.err - 1 ≤ 0 then split sqrt mid j else .ok mid) = .ok s2 ∧ Inv fc m (tr ++ [(x, c.label)]) s2 ∧
        (∀ k e, Active mid k e → ∃ e', Active s2 k e') ∧ (s2 = mid ∨ SplitStep sqrt fc mid j s2) := by
      by_cases hle : c.err - 1 ≤ 0
      · obtain ⟨_, f, r, hsum, _⟩ := hinv.good j _ hmj
        obtain ⟨s2, a1, a2⟩ := split_spec sqrt mid hfc hinv.hlen hmj hsum
        obtain ⟨b1, b2⟩ := inv_split hinv hmj a2
        exact ⟨s2, by rw [if_pos hle]; exact a1, b1, b2, .inr a2⟩
      · exact ⟨mid, by rw [if_neg hle], hinv, fun k e he => ⟨e, he⟩, .inl rfl⟩
    obtain ⟨s2, c1, c2, c3, c4⟩ := first
    obtain ⟨d1, hd1⟩ := hkeep i d hi
    obtain ⟨d2, hd2⟩ := c3 i d1 hd1
    have second : ∃ s', (if d2.err ≤ 0 then split sqrt s2 i else .ok s2) = .ok s' ∧ Inv fc m (tr ++ [(x, c.label)]) s' ∧
        (∀ k e, Active s2 k e → ∃ e', Active s' k e') ∧ (s' = s2 ∨ SplitStep sqrt fc s2 i s') := by
      by_cases hle : d2.err ≤ 0
      · obtain ⟨_, f, r, hsum, _⟩ := c2.good i _ hd2
        obtain ⟨s3, a1, a2⟩ := split_spec sqrt s2 hfc c2.hlen hd2 hsum
        obtain ⟨b1, b2⟩ := inv_split c2 hd2 a2
        exact ⟨s3, by rw [if_pos hle]; exact a1, b1, b2, .inr a2⟩
      · exact ⟨s2, by rw [if_neg hle], c2, fun k e he => ⟨e, he⟩, .inl rfl⟩
    obtain ⟨s', e1, e2, e3, e4⟩ := second
    refine ⟨s', mid, s2, ?_, e2, ?_, ?_, by rw [hmid], by rw [hmid], by rw [hmid], by rw [hmid], ⟨_, hmj⟩, hback, c4, e4⟩
    · simp only [absorb, if_neg e, rd_eq_ok_iff.2 hi.2, wr_ok _ hil, hrdj, hwrj, bind, Except.bind, pure, Except.pure]
      rw [← hmid]
      by_cases hle : c.err - 1 ≤ 0
      · rw [if_pos hle] at c1
        rw [if_pos hle, c1]
        simp only [rd_eq_ok_iff.2 hd2.2]
        exact e1
      · rw [if_neg hle, Except.ok.injEq] at c1
        rw [if_neg hle]
        subst c1
        have hr := rd_eq_ok_iff.2 hd2.2
        rw [hmid] at hr
        simp only [hr]
        exact e1
    · have g1 : s2.timestamp = mid.timestamp := by
        rcases c4 with rfl | c4
        · rfl
        · exact splitStep_ts c4
      have g2 : s'.timestamp = s2.timestamp := by
        rcases e4 with rfl | e4
        · rfl
        · exact splitStep_ts e4
      rw [g2, g1, hmid]
    · intro k e' he
      obtain ⟨f1, g1⟩ := hkeep k e' he
      obtain ⟨f2, g2⟩ := c3 k f1 g1
      exact e3 k f2 g2

/-! ### cleaning -/

theorem clean_active {s : State K} {i : Nat} {c : Cluster K} (h : Active (clean s) i c) : Active s i c := by
  obtain ⟨h1, h2⟩ := h
  refine ⟨?_, h2⟩
  simp only [clean, List.getElem?_zipWith] at h1
  cases ha : s.active[i]? with
  | none => simp [ha] at h1
  | some a =>
      cases hc : s.clusters[i]? with
      | none => simp [ha, hc] at h1
      | some c' =>
          simp only [ha, hc, Option.some.injEq] at h1
          split at h1
          · cases h1
          · rw [h1]

theorem clean_inv {fc m : Nat} {tr : List (List K × Int)} {s : State K} (h : Inv fc m tr s) : Inv fc m tr (clean s) :=
  ⟨h.clen, by simp [clean, h.clen, h.alen], fun i c hc => h.good i c (clean_active hc)⟩

theorem clean_count_le (s : State K) : activeCount (clean s) ≤ activeCount s := by
  simp only [activeCount, clean]
  generalize s.active = a
  generalize s.clusters = cl
  induction a generalizing cl with
  | nil => simp
  | cons b a ih =>
      cases cl with
      | nil => simp
      | cons c cl =>
          have := ih cl
          simp only [List.zipWith_cons_cons, List.count_cons]
          by_cases hq : (b && decide (c.n > 1) && (c.performance s.timestamp).lt (.fin s.perfThr)) = true
          · simp only [if_pos hq]
            refine this.trans ?_
            simp
          · simp only [if_neg hq]; omega

/-- the state in which the searches of `train` are made -/
def prepared (s : State K) : State K :=
  { (if s.cleaning = 1 ∨ s.cleaning = 2 then clean s else s) with timestamp := s.timestamp + 1 }

theorem prepared_inv {fc m : Nat} {tr : List (List K × Int)} {s : State K} (h : Inv fc m tr s) : Inv fc m tr (prepared s) := by
  unfold prepared
  split
  · have := clean_inv h
    exact ⟨this.clen, this.alen, this.good⟩
  · exact ⟨h.clen, h.alen, h.good⟩

theorem train_eq (sqrt : K → K) (s : State K) (x : List K) (label : Int) : train sqrt s x label =
    (do match ← findNearestClass (prepared s) x label with
      | (_, none) => insert (prepared s) x label
      | (none, some _) => .error .ub
      | (some near, some nc) => do
          let s ← absorb sqrt (prepared s) x near nc
          return (s, true)) := by
  unfold train prepared
  by_cases h : s.cleaning = 1 ∨ s.cleaning = 2
  · simp only [if_pos h]; rfl
  · simp only [if_neg h]; rfl

theorem insert_spec {fc m : Nat} (hm1 : 1 ≤ m) {tr : List (List K × Int)} {s : State K} (h : Inv fc m tr s) (x : List K) (label : Int) :
    (∃ i, insert s x label = .ok ({ s with
        active := s.active.set i true
        clusters := s.clusters.set i (initCluster x label s.timestamp s.errorThr)
        count := s.count + 1 }, true) ∧ s.active[i]? = some false) ∨
    (∃ i, insert s x label = .ok ({ s with clusters := s.clusters.set i (initCluster x label s.timestamp s.errorThr) }, true) ∧
      (∀ i < m, s.active[i]? = some true) ∧ (s.cleaning = 0 ∨ s.cleaning = 2) ∧ i < m ∧ IsLowest s i) ∨
    (insert s x label = .ok (s, false) ∧ (∀ i < m, s.active[i]? = some true) ∧ s.cleaning ≠ 0 ∧ s.cleaning ≠ 2) := by
  rcases freeLoop_spec s.active none s.active.length 0 (by omega) with ⟨j, a1, _, a2, _⟩ | ⟨a1, a2⟩
  · left
    have hj : j < s.active.length := (List.getElem?_eq_some_iff.1 a2).1
    have hj' : j < s.clusters.length := by rw [h.hlen]; exact hj
    refine ⟨j, ?_, a2⟩
    simp only [insert, h.hlen, a1, bind, Except.bind, wr_ok _ hj, wr_ok _ hj', pure, Except.pure]
  · right
    have hall : ∀ i < m, s.active[i]? = some true := by
      intro i hi
      rcases a2 i (by omega) (by rw [h.alen]; exact hi) with h | h
      · exact h
      · cases h
    by_cases hcl : s.cleaning = 0 ∨ s.cleaning = 2
    · left
      obtain ⟨j, h1, h2, h3⟩ := lowest_spec s h.hlen (hall 0 (by omega))
      have hj : j < s.active.length := (List.getElem?_eq_some_iff.1 h2).1
      have hj' : j < s.clusters.length := by rw [h.hlen]; exact hj
      refine ⟨j, ?_, hall, hcl, by rw [← h.alen]; exact hj, h3⟩
      simp only [insert, h.hlen, a1, bind, Except.bind, if_pos hcl, h1, wr_ok _ hj', pure, Except.pure]
    · right
      refine ⟨?_, hall, fun h => hcl (.inl h), fun h => hcl (.inr h)⟩
      simp only [insert, h.hlen, a1, bind, Except.bind, if_neg hcl, pure, Except.pure]

/-- all outcomes of `train` -/
theorem train_spec (sqrt : K → K) {fc m : Nat} (hfc : 1 ≤ fc) (hm1 : 1 ≤ m) {tr : List (List K × Int)} {s : State K} (h : Inv fc m tr s)
    (ht : s.timestamp + 1 = (tr.length : Int)) {x : List K} (hx : x.length = fc) (label : Int) :
    ∃ s' r, train sqrt s x label = .ok (s', r) ∧ Inv fc m (tr ++ [(x, label)]) s' ∧ s'.timestamp = s.timestamp + 1 ∧ (∃ i c, Active s' i c) ∧
      ((NoneNear (prepared s) x (fun c => decide (c.label = label)) 1000000 ∧
          ((∃ i, r = true ∧ s' = { prepared s with
              active := (prepared s).active.set i true
              clusters := (prepared s).clusters.set i (initCluster x label (prepared s).timestamp (prepared s).errorThr)
              count := (prepared s).count + 1 } ∧ (prepared s).active[i]? = some false) ∨
           (∃ i, r = true ∧ s' = { prepared s with
              clusters := (prepared s).clusters.set i (initCluster x label (prepared s).timestamp (prepared s).errorThr) } ∧
              (∀ i < m, (prepared s).active[i]? = some true) ∧ (s.cleaning = 0 ∨ s.cleaning = 2) ∧ i < m ∧ IsLowest (prepared s) i) ∨
           (r = false ∧ s' = prepared s ∧ (∀ i < m, (prepared s).active[i]? = some true) ∧ s.cleaning ≠ 0 ∧ s.cleaning ≠ 2))) ∨
       (r = true ∧ ∃ i j c d mid s2, Active (prepared s) i d ∧ Active (prepared s) j c ∧ c.label = label ∧
          (∀ k e, Active (prepared s) k e → distance x d.centroid ≤ distance x e.centroid) ∧
          (∀ k e, Active (prepared s) k e → e.label = label → distance x c.centroid ≤ distance x e.centroid) ∧
          distance x c.centroid < 1000000 ∧
          mid.active = (prepared s).active ∧ mid.count = (prepared s).count ∧ mid.cleaning = s.cleaning ∧
          (∃ e, Active mid j (({ c with err := e } : Cluster K).incorporate x (prepared s).timestamp)) ∧
          (∀ k e, k ≠ j → Active mid k e → ∃ e0, Active (prepared s) k e0 ∧ ∃ er, e = { e0 with err := er }) ∧
          (s2 = mid ∨ SplitStep sqrt fc mid j s2) ∧ (s' = s2 ∨ SplitStep sqrt fc s2 i s'))) := by
  have hp := prepared_inv h
  have hcl : (prepared s).cleaning = s.cleaning := by unfold prepared; split <;> rfl
  have hpt : (prepared s).timestamp = s.timestamp + 1 := rfl
  rw [train_eq]
  rcases findNearestClass_spec (prepared s) x label hp.hlen with ⟨near, a1, a2⟩ | ⟨i, j, c, d, a1, a2, a3, a4, a5, a6, a7, a8⟩
  · simp only [a1, bind, Except.bind]
    have hstep : (match ((near, none) : Option Nat × Option Nat) with
      | (_, none) => insert (prepared s) x label
      | (none, some _) => .error .ub
      | (some near, some nc) => (match absorb sqrt (prepared s) x near nc with
          | .error err => .error err
          | .ok s => pure (s, true))) = insert (prepared s) x label := by
      cases near <;> rfl
    have hstep' : ∀ r, insert (prepared s) x label = r → (match ((near, none) : Option Nat × Option Nat) with
      | (_, none) => insert (prepared s) x label
      | (none, some _) => .error .ub
      | (some near, some nc) => (match absorb sqrt (prepared s) x near nc with
          | .error err => .error err
          | .ok s => pure (s, true))) = r := fun r hr => hstep.trans hr
    have hgood : Good fc (tr ++ [(x, label)]) (initCluster x label (prepared s).timestamp (prepared s).errorThr) := good_new hx (by simp) _ _
    rcases insert_spec hm1 hp x label with ⟨i, b1, b2⟩ | ⟨i, b1, b2, b3, b4, b5⟩ | ⟨b1, b2, b3, b4⟩
    · have hi : i < (prepared s).active.length := (List.getElem?_eq_some_iff.1 b2).1
      have hi' : i < (prepared s).clusters.length := by rw [hp.hlen]; exact hi
      refine ⟨_, _, hstep' _ b1, ?_, hpt, ?_, .inl ⟨a2, .inl ⟨i, rfl, rfl, b2⟩⟩⟩
      · refine ⟨by simpa using hp.clen, by simpa using hp.alen, ?_⟩
        rintro k e ⟨c1, c2⟩
        by_cases hk : i = k
        · subst hk
          simp only [List.getElem?_set_self hi', Option.some.injEq] at c2
          rw [← c2]; exact hgood
        · simp only [List.getElem?_set_ne hk] at c1 c2
          exact good_mono (hp.good k e ⟨c1, c2⟩) _
      · exact ⟨i, _, by simp [hi], List.getElem?_set_self hi'⟩
    · have hi' : i < (prepared s).clusters.length := by rw [hp.clen]; exact b4
      refine ⟨_, _, hstep' _ b1, inv_set (inv_mono hp _) hgood, hpt, ?_, .inl ⟨a2, .inr (.inl ⟨i, rfl, rfl, b2, by rwa [hcl] at b3, b4, b5⟩)⟩⟩
      exact ⟨i, _, b2 i b4, List.getElem?_set_self hi'⟩
    · refine ⟨_, _, hstep' _ b1, inv_mono hp _, hpt, ?_, .inl ⟨a2, .inr (.inr ⟨rfl, rfl, b2, by rwa [hcl] at b3, by rwa [hcl] at b4⟩)⟩⟩
      exact ⟨0, (prepared s).clusters[0]'(by rw [hp.clen]; omega), b2 0 (by omega), List.getElem?_eq_getElem _⟩
  · obtain ⟨s', mid, s2, b1, b2, bt, b3, b4, b5, b6, b7, b8, b9, b10, b11⟩ := absorb_spec sqrt hfc hp hx a2 a3 (hpt.trans ht)
    refine ⟨s', true, ?_, by rw [← a4]; exact b2, by rw [bt, hpt], ?_, .inr ⟨rfl, i, j, c, d, mid, s2, a2, a3, a4, a7, a8, a6, b4, b5, by rw [b6, hcl], b8, b9, b10, b11⟩⟩
    · simp only [a1, b1, bind, Except.bind, pure, Except.pure]
    · obtain ⟨e, he⟩ := b3 i d a2
      exact ⟨i, e, he⟩

theorem new_inv (fc : Nat) (g : List (Cluster K)) (thr cl : Nat) (pt : ℚ) : Inv fc g.length [] (new g thr cl pt) := by
  refine ⟨rfl, by simp [new], ?_⟩
  rintro i c ⟨h1, _⟩
  simp only [new, List.getElem?_map] at h1
  cases hg : g[i]? <;> simp [hg] at h1

theorem run_inv (sqrt : K → K) {fc m : Nat} (hfc : 1 ≤ fc) (hm1 : 1 ≤ m) (ps : List (List K × Int)) : ∀ (s : State K) (tr : List (List K × Int)),
    Inv fc m tr s → s.timestamp + 1 = (tr.length : Int) → (∀ p ∈ ps, p.1.length = fc) →
    ∃ s', run sqrt s ps = .ok s' ∧ Inv fc m (tr ++ ps) s' ∧ s'.timestamp + 1 = ((tr ++ ps).length : Int) ∧ (ps ≠ [] → ∃ i c, Active s' i c) := by
  induction ps with
  | nil => intro s tr h ht _; exact ⟨s, rfl, by simpa using h, by simpa using ht, by simp⟩
  | cons p ps ih =>
      intro s tr h ht hv
      obtain ⟨s1, r, a1, a2, a2', a3, _⟩ := train_spec sqrt hfc hm1 h ht (hv p (by simp)) p.2
      obtain ⟨s2, b1, b2, b2', b3⟩ := ih s1 (tr ++ [p]) a2 (by rw [a2', ht]; simp) (fun q hq => hv q (by simp [hq]))
      refine ⟨s2, by simp only [run, a1, bind, Except.bind, b1], by simpa using b2, by simpa using b2', fun _ => ?_⟩
      by_cases hps : ps = []
      · subst hps
        simp only [run, Except.ok.injEq] at b1
        subst b1; exact a3
      · exact b3 hps

end Orp.Mcnn
