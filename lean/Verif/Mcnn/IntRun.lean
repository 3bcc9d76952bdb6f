import Verif.Mcnn.IntLemmas

/-! Runs of MC-NN with integer features in which nothing overflows. -/

set_option linter.unusedSectionVars false

namespace Orp.McnnInt

open Orp.Mcnn (freeLoop splitLoop triangular freeLoop_spec lt_trans_not)

/-- Cluster `j` is the first of the active clusters selected by `p` with the smallest value of `D`, which is below `cap`. -/
def IsNearest (s : State) (D : Cluster → Int) (p : Cluster → Bool) (cap : Int) (j : Nat) : Prop :=
  ∃ c, Active s j c ∧ p c = true ∧ D c < cap ∧ (∀ i e, Active s i e → p e = true → D c ≤ D e) ∧
    (∀ i e, Active s i e → p e = true → i < j → D c < D e)

/-- No selected active cluster has a value of `D` below `cap`. -/
def NoneNear (s : State) (D : Cluster → Int) (p : Cluster → Bool) (cap : Int) : Prop :=
  ∀ i c, Active s i c → p c = true → cap ≤ D c

/-- state of the search for the lowest participation after the clusters below `i` -/
def LowInv (s : State) (i : Nat) (low : Option Nat) (val : Dbl ℚ) : Prop :=
  match low with
  | none => ∀ j, j < i → s.active[j]? ≠ some true
  | some j => ∃ c, Active s j c ∧ val = performance c s.timestamp ∧
      ∀ k d, k < i → Active s k d → (performance d s.timestamp).lt val = false

theorem lowestLoop_spec (s : State) (hlen : s.clusters.length = s.active.length) : ∀ (k i : Nat) (low : Option Nat) (val : Dbl ℚ),
    i + k = s.active.length → LowInv s i low val →
    ∃ r v, lowestLoop s i k low val = .ok r ∧ LowInv s s.active.length r v
  | 0, i, low, val, h, hi => ⟨low, val, rfl, by rw [← h]; exact hi⟩
  | k + 1, i, low, val, h, hinv => by
      have hi : i < s.active.length := by omega
      have hic : i < s.clusters.length := by omega
      cases ha : s.active[i]
      · have hstep : lowestLoop s i (k + 1) low val = lowestLoop s (i + 1) k low val := by
          simp only [lowestLoop, rd_ok hi, bind, Except.bind, ha]; rfl
        rw [hstep]
        apply lowestLoop_spec s hlen k (i + 1) low val (by omega)
        have hno : s.active[i]? ≠ some true := by rw [List.getElem?_eq_getElem hi, ha]; simp
        cases low with
        | none =>
            intro j hj
            rcases Nat.lt_succ_iff_lt_or_eq.1 hj with hj | rfl
            · exact hinv j hj
            · exact hno
        | some l =>
            obtain ⟨c, a1, a2, a3⟩ := hinv
            refine ⟨c, a1, a2, fun j d hj hd => ?_⟩
            rcases Nat.lt_succ_iff_lt_or_eq.1 hj with hj | rfl
            · exact a3 j d hj hd
            · exact absurd hd.1 hno
      · have hA : Active s i s.clusters[i] := ⟨by rw [List.getElem?_eq_getElem hi, ha], List.getElem?_eq_getElem hic⟩
        have hAct : ∀ d, Active s i d → d = s.clusters[i] := by
          rintro d ⟨_, h2⟩; rw [List.getElem?_eq_getElem hic] at h2; cases h2; rfl
        have hself : (performance (s.clusters[i]) s.timestamp).lt (performance (s.clusters[i]) s.timestamp) = false := by
          cases hq : (performance (s.clusters[i]) s.timestamp) <;> simp [Dbl.lt]
        by_cases hcond : low = none ∨ (performance (s.clusters[i]) s.timestamp).lt val = true
        · have hstep : lowestLoop s i (k + 1) low val =
              lowestLoop s (i + 1) k (some i) (performance (s.clusters[i]) s.timestamp) := by
            simp only [lowestLoop, rd_ok hi, rd_ok hic, bind, Except.bind, ha, if_true, if_pos hcond]
          rw [hstep]
          apply lowestLoop_spec s hlen k (i + 1) (some i) _ (by omega)
          refine ⟨_, hA, rfl, fun j d hj hd => ?_⟩
          rcases Nat.lt_succ_iff_lt_or_eq.1 hj with hj | rfl
          · cases low with
            | none => exact absurd hd.1 (hinv j hj)
            | some l =>
                obtain ⟨c, a1, a2, a3⟩ := hinv
                have hlt : (performance (s.clusters[i]) s.timestamp).lt val = true := by
                  rcases hcond with h | h
                  · cases h
                  · exact h
                cases hq : (performance d s.timestamp).lt (performance (s.clusters[i]) s.timestamp) with
                | false => rfl
                | true =>
                    have := lt_trans_not hq hlt
                    rw [a3 j d hj hd] at this; cases this
          · rw [hAct d hd]; exact hself
        · have hstep : lowestLoop s i (k + 1) low val = lowestLoop s (i + 1) k low val := by
            simp only [lowestLoop, rd_ok hi, rd_ok hic, bind, Except.bind, ha, if_true, if_neg hcond]
          rw [hstep]
          apply lowestLoop_spec s hlen k (i + 1) low val (by omega)
          cases low with
          | none => exact absurd (.inl rfl) hcond
          | some l =>
              obtain ⟨c, a1, a2, a3⟩ := hinv
              refine ⟨c, a1, a2, fun j d hj hd => ?_⟩
              rcases Nat.lt_succ_iff_lt_or_eq.1 hj with hj | rfl
              · exact a3 j d hj hd
              · rw [hAct d hd]
                cases hq : (performance (s.clusters[j]) s.timestamp).lt val with
                | false => rfl
                | true => exact absurd (.inr hq) hcond

theorem lowest_spec (s : State) (hlen : s.clusters.length = s.active.length) {i : Nat} (hi : s.active[i]? = some true) :
    ∃ j, lowest s = .ok (some j) ∧ s.active[j]? = some true := by
  obtain ⟨r, v, a, b⟩ := lowestLoop_spec s hlen s.active.length 0 none (.fin 101) (by omega) (fun j hj => by omega)
  rw [← hlen] at a
  cases r with
  | none => exact absurd hi (b i (List.getElem?_eq_some_iff.1 hi).1)
  | some j =>
      obtain ⟨c, b1, b2, b3⟩ := b
      exact ⟨j, a, b1.1⟩

/-- state of a nearest search over the clusters below `l` -/
def NearInv (s : State) (D : Cluster → Int) (p : Cluster → Bool) (cap : Int) (l : Nat) (best : Option Nat) (d : Int) : Prop :=
  match best with
  | none => d = cap ∧ ∀ i c, i < l → Active s i c → p c = true → cap ≤ D c
  | some j => j < l ∧ d < cap ∧ ∃ c, Active s j c ∧ p c = true ∧ D c = d ∧
      (∀ i e, i < l → Active s i e → p e = true → d ≤ D e) ∧
      (∀ i e, i < j → Active s i e → p e = true → d < D e)

theorem nearestLoop_spec (s : State) (x : List Int) (D : Cluster → Int) (hD : ∀ i c, Active s i c → distance x (centroid c) = .ok (D c)) (p : Cluster → Bool) (cap : Int) (hlen : s.clusters.length = s.active.length) :
    ∀ (k l : Nat) (best : Option Nat) (d : Int), l + k = s.active.length → NearInv s D p cap l best d →
    ∃ best' d', nearestLoop s x p l k best d = .ok (best', d') ∧ NearInv s D p cap s.active.length best' d'
  | 0, l, best, d, h, hi => ⟨best, d, rfl, by rw [← h]; exact hi⟩
  | k + 1, l, best, d, h, hi => by
      have hl : l < s.active.length := by omega
      have hlc : l < s.clusters.length := by omega
      have hAct : ∀ c, Active s l c → c = s.clusters[l] := by
        rintro c ⟨_, h2⟩; rw [List.getElem?_eq_getElem hlc] at h2; cases h2; rfl
      by_cases hsel : (s.active[l] && p s.clusters[l]) = true
      · have hsel' : s.active[l] = true ∧ p s.clusters[l] = true := by simpa using hsel
        have hA : Active s l s.clusters[l] := ⟨by rw [List.getElem?_eq_getElem hl, hsel'.1], List.getElem?_eq_getElem hlc⟩
        by_cases hd : D s.clusters[l] < d
        · have hstep : nearestLoop s x p l (k + 1) best d = nearestLoop s x p (l + 1) k (some l) (D s.clusters[l]) := by
            simp only [nearestLoop, rd_ok hl, rd_ok hlc, bind, Except.bind, if_pos hsel, hD l _ hA, if_pos hd]
          rw [hstep]
          apply nearestLoop_spec s x D hD p cap hlen k (l + 1) _ _ (by omega)
          have hold : d ≤ cap ∧ ∀ i e, i < l → Active s i e → p e = true → d ≤ D e := by
            cases best with
            | none => exact ⟨hi.1.le, fun i e h1 h2 h3 => by rw [hi.1]; exact hi.2 i e h1 h2 h3⟩
            | some j => exact ⟨hi.2.1.le, hi.2.2.choose_spec.2.2.2.1⟩
          refine ⟨by omega, lt_of_lt_of_le hd hold.1, _, hA, hsel'.2, rfl, ?_, ?_⟩
          · intro i e h1 h2 h3
            rcases Nat.lt_succ_iff_lt_or_eq.1 h1 with h1 | rfl
            · exact hd.le.trans (hold.2 i e h1 h2 h3)
            · rw [hAct e h2]
          · intro i e h1 h2 h3; exact lt_of_lt_of_le hd (hold.2 i e h1 h2 h3)
        · have hstep : nearestLoop s x p l (k + 1) best d = nearestLoop s x p (l + 1) k best d := by
            simp only [nearestLoop, rd_ok hl, rd_ok hlc, bind, Except.bind, if_pos hsel, hD l _ hA, if_neg hd]
          rw [hstep]
          apply nearestLoop_spec s x D hD p cap hlen k (l + 1) _ _ (by omega)
          cases best with
          | none =>
              refine ⟨hi.1, fun i e h1 h2 h3 => ?_⟩
              rcases Nat.lt_succ_iff_lt_or_eq.1 h1 with h1 | rfl
              · exact hi.2 i e h1 h2 h3
              · rw [hAct e h2, ← hi.1]; exact not_lt.1 hd
          | some j =>
              obtain ⟨b1, b2, c, b3, b4, b5, b6, b7⟩ := hi
              refine ⟨by omega, b2, c, b3, b4, b5, fun i e h1 h2 h3 => ?_, b7⟩
              rcases Nat.lt_succ_iff_lt_or_eq.1 h1 with h1 | rfl
              · exact b6 i e h1 h2 h3
              · rw [hAct e h2]; exact not_lt.1 hd
      · have hstep : nearestLoop s x p l (k + 1) best d = nearestLoop s x p (l + 1) k best d := by
          simp only [nearestLoop, rd_ok hl, rd_ok hlc, bind, Except.bind, if_neg hsel]
        rw [hstep]
        apply nearestLoop_spec s x D hD p cap hlen k (l + 1) _ _ (by omega)
        have hno : ∀ e, Active s l e → p e = true → False := by
          intro e h2 h3
          apply hsel
          have := h2.1
          rw [List.getElem?_eq_getElem hl] at this
          rw [hAct e h2] at h3
          simp only [Option.some.injEq] at this
          simp [this, h3]
        cases best with
        | none =>
            refine ⟨hi.1, fun i e h1 h2 h3 => ?_⟩
            rcases Nat.lt_succ_iff_lt_or_eq.1 h1 with h1 | rfl
            · exact hi.2 i e h1 h2 h3
            · exact (hno e h2 h3).elim
        | some j =>
            obtain ⟨b1, b2, c, b3, b4, b5, b6, b7⟩ := hi
            refine ⟨by omega, b2, c, b3, b4, b5, fun i e h1 h2 h3 => ?_, b7⟩
            rcases Nat.lt_succ_iff_lt_or_eq.1 h1 with h1 | rfl
            · exact b6 i e h1 h2 h3
            · exact (hno e h2 h3).elim

theorem active_lt {s : State} {i : Nat} {c : Cluster} (h : Active s i c) : i < s.active.length :=
  (List.getElem?_eq_some_iff.1 h.1).1

theorem active_unique {s : State} {i : Nat} {c d : Cluster} (h : Active s i c) (h' : Active s i d) : d = c := by
  have := h'.2; rw [h.2] at this; cases this; rfl

theorem nearest_full (s : State) (x : List Int) (D : Cluster → Int) (hD : ∀ i c, Active s i c → distance x (centroid c) = .ok (D c))
    (p : Cluster → Bool) (cap : Int) (hlen : s.clusters.length = s.active.length) :
    ∃ best d, nearestLoop s x p 0 s.clusters.length none cap = .ok (best, d) ∧
      ((best = none ∧ d = cap ∧ NoneNear s D p cap) ∨
       ∃ j c, best = some j ∧ IsNearest s D p cap j ∧ Active s j c ∧ p c = true ∧ D c = d ∧ d < cap) := by
  rw [hlen]
  obtain ⟨best, d, h1, h2⟩ := nearestLoop_spec s x D hD p cap hlen s.active.length 0 none cap (by omega)
    ⟨rfl, fun i c h => by omega⟩
  refine ⟨best, d, h1, ?_⟩
  cases best with
  | none => exact .inl ⟨rfl, h2.1, fun i c h3 h4 => h2.2 i c (active_lt h3) h3 h4⟩
  | some j =>
      obtain ⟨b1, b2, c, b3, b4, b5, b6, b7⟩ := h2
      refine .inr ⟨j, c, rfl, ⟨c, b3, b4, by rw [b5]; exact b2, fun i e h3 h4 => by rw [b5]; exact b6 i e (active_lt h3) h3 h4,
        fun i e h3 h4 h5 => by rw [b5]; exact b7 i e h5 h3 h4⟩, b3, b4, b5, b2⟩

/-- the outcomes of the two searches of `train` -/
theorem findNearestClass_spec (s : State) (x : List Int) (D : Cluster → Int)
    (hD : ∀ i c, Active s i c → distance x (centroid c) = .ok (D c)) (label : Int) (hlen : s.clusters.length = s.active.length) :
    (∃ near, findNearestClass s x label = .ok (near, none)) ∨
    (∃ i j c d, findNearestClass s x label = .ok (some i, some j) ∧ Active s i d ∧ Active s j c ∧ c.label = label) := by
  obtain ⟨near, dn, h1, h2⟩ := nearest_full s x D hD (fun _ => true) 1000000 hlen
  obtain ⟨nc, dc, h3, h4⟩ := nearest_full s x D hD (fun c => decide (c.label = label)) 1000000 hlen
  have h1' : findNearest s x = .ok (near, dn) := h1
  rcases h2 with ⟨rfl, rfl, h5⟩ | ⟨j, c, rfl, _, h6, _, h7, h8⟩
  · left
    rcases h4 with ⟨rfl, rfl, h6⟩ | ⟨j, c, rfl, _, h6, h7, h8, h9⟩
    · refine ⟨none, ?_⟩
      simp only [findNearestClass, h1', h3, bind, Except.bind, pure, Except.pure, if_true]
      simp
    · exact absurd (h5 j c h6 rfl) (by rw [h8]; exact not_le.2 h9)
  · have hrd : rd s.clusters j = .ok c := rd_eq_ok_iff.2 h6.2
    by_cases hl : c.label = label
    · right
      refine ⟨j, j, c, c, ?_, h6, h6, hl⟩
      simp only [findNearestClass, h1', hrd, bind, Except.bind, pure, Except.pure, hl, decide_true, if_true]
    · have hstep : findNearestClass s x label = if dc = dn then .ok (nc, nc) else .ok (some j, nc) := by
        simp only [findNearestClass, h1', hrd, h3, bind, Except.bind, pure, Except.pure, hl, decide_false]
        rfl
      rcases h4 with ⟨rfl, rfl, h9⟩ | ⟨j', c', rfl, _, h9, h10, h11, h12⟩
      · left
        refine ⟨some j, ?_⟩
        rw [hstep, if_neg]; intro h; rw [← h] at h8; exact lt_irrefl _ h8
      · right
        by_cases hd : dc = dn
        · exact ⟨j', j', c', c', by rw [hstep, if_pos hd], h9, h9, by simpa using h10⟩
        · exact ⟨j, j', c', c, by rw [hstep, if_neg hd], h6, h9, by simpa using h10⟩

/-! ### the invariant -/

structure Inv (fc m thr : Nat) (tr : List (List Int × Int)) (s : State) : Prop where
  clen : s.clusters.length = m
  alen : s.active.length = m
  ethr : s.errorThr = (thr : Int)
  good : ∀ i c, Active s i c → Good fc thr tr c

theorem Inv.hlen {fc m thr : Nat} {tr} {s : State} (h : Inv fc m thr tr s) : s.clusters.length = s.active.length := by
  rw [h.clen, h.alen]

theorem inv_mono {fc m thr : Nat} {tr} {s : State} (h : Inv fc m thr tr s) (p : List Int × Int) : Inv fc m thr (tr ++ [p]) s :=
  ⟨h.clen, h.alen, h.ethr, fun i c hc => (h.good i c hc).mono p⟩

theorem inv_set {fc m thr : Nat} {tr : List (List Int × Int)} {s : State} (h : Inv fc m thr tr s) {i : Nat} {c : Cluster}
    (hg : Good fc thr tr c) : Inv fc m thr tr { s with clusters := s.clusters.set i c } := by
  refine ⟨by simpa using h.clen, h.alen, h.ethr, ?_⟩
  rintro j d ⟨h1, h2⟩
  by_cases e : i = j
  · subst e
    have hi : i < s.clusters.length := by
      have := (List.getElem?_eq_some_iff.1 h2).1; simpa using this
    simp only [List.getElem?_set_self hi, Option.some.injEq] at h2
    rw [← h2]; exact hg
  · simp only [List.getElem?_set_ne e] at h2
    exact h.good j d ⟨h1, h2⟩

theorem clean_active {s : State} {i : Nat} {c : Cluster} (h : Active (clean s) i c) : Active s i c := by
  obtain ⟨h1, h2⟩ := h
  refine ⟨?_, h2⟩
  simp only [clean, List.getElem?_zipWith] at h1
  cases ha : s.active[i]? with
  | none => simp [ha] at h1
  | some a =>
      cases hc : s.clusters[i]? with
      | none => simp [ha, hc] at h1
      | some c' =>
          simp only [ha, hc, Option.some.injEq] at h1
          split at h1
          · cases h1
          · rw [h1]

/-- the state in which the searches of `train` are made -/
def prepared (s : State) : State :=
  { (if s.cleaning = 1 ∨ s.cleaning = 2 then clean s else s) with timestamp := s.timestamp + 1 }

theorem prepared_inv {fc m thr : Nat} {tr : List (List Int × Int)} {s : State} (h : Inv fc m thr tr s) : Inv fc m thr tr (prepared s) := by
  unfold prepared
  split
  · exact ⟨h.clen, by simp [clean, h.clen, h.alen], h.ethr, fun i c hc => h.good i c (clean_active hc)⟩
  · exact ⟨h.clen, h.alen, h.ethr, h.good⟩

theorem train_eq (sqrt : ℚ → ℚ) (s : State) (x : List Int) (label : Int) : train sqrt s x label =
    (do match ← findNearestClass (prepared s) x label with
      | (_, none) => insert (prepared s) x label
      | (none, some _) => .error .ub
      | (some near, some nc) => do
          let s ← absorb sqrt (prepared s) x near nc
          return (s, true)) := by
  unfold train prepared
  by_cases h : s.cleaning = 1 ∨ s.cleaning = 2
  · simp only [if_pos h]; rfl
  · simp only [if_neg h]; rfl

theorem insert_spec {fc m thr : Nat} (hm1 : 1 ≤ m) {B : Int} (hB : 0 ≤ B) (hBB : B * B ≤ 2147483647) {tr : List (List Int × Int)} {s : State}
    (h : Inv fc m thr tr s) {x : List Int} (hx : Small fc B x) (label : Int) :
    ∃ s' r, insert s x label = .ok (s', r) ∧ Inv fc m thr (tr ++ [(x, label)]) s' := by
  obtain ⟨c, hc, hg⟩ := initCluster_good hB hBB tr hx label s.timestamp thr
  rw [← h.ethr] at hc
  rcases freeLoop_spec s.active none s.active.length 0 (by omega) with ⟨j, a1, _, a2, _⟩ | ⟨a1, a2⟩
  · have hj : j < s.active.length := (List.getElem?_eq_some_iff.1 a2).1
    have hj' : j < s.clusters.length := by rw [h.hlen]; exact hj
    refine ⟨{ s with active := s.active.set j true, clusters := s.clusters.set j c, count := s.count + 1 }, true, ?_, ?_⟩
    · simp only [insert, h.hlen, a1, bind, Except.bind, wr_ok _ hj, hc, wr_ok _ hj', pure, Except.pure]
    · refine ⟨by simpa using h.clen, by simpa using h.alen, h.ethr, ?_⟩
      rintro k e ⟨c1, c2⟩
      by_cases hk : j = k
      · subst hk
        simp only [List.getElem?_set_self hj', Option.some.injEq] at c2
        rw [← c2]; exact hg
      · simp only [List.getElem?_set_ne hk] at c1 c2
        exact (h.good k e ⟨c1, c2⟩).mono _
  · have hall : ∀ i < m, s.active[i]? = some true := by
      intro i hi
      rcases a2 i (by omega) (by rw [h.alen]; exact hi) with h | h
      · exact h
      · cases h
    by_cases hcl : s.cleaning = 0 ∨ s.cleaning = 2
    · obtain ⟨j, h1, h2⟩ := lowest_spec s h.hlen (hall 0 (by omega))
      have hj' : j < s.clusters.length := by rw [h.hlen]; exact (List.getElem?_eq_some_iff.1 h2).1
      refine ⟨{ s with clusters := s.clusters.set j c }, true, ?_, inv_set (inv_mono h _) hg⟩
      simp only [insert, h.hlen, a1, bind, Except.bind, if_pos hcl, h1, hc, wr_ok _ hj', pure, Except.pure]
    · refine ⟨s, false, ?_, inv_mono h _⟩
      simp only [insert, h.hlen, a1, bind, Except.bind, if_neg hcl, pure, Except.pure]

theorem absorb_spec (sqrt : ℚ → ℚ) {fc m thr : Nat} {B : Int} (hB : 0 ≤ B) {tr : List (List Int × Int)} {s : State}
    (h : Inv fc m thr tr s) (hs : ∀ p ∈ tr, Small fc B p.1) (hN : ((tr.length : Int) + 1) * (B * B) ≤ 2147483647)
    (hthr : tr.length + 1 ≤ thr) {x : List Int} (hx : Small fc B x) {i j : Nat} {c d : Cluster} (hi : Active s i d)
    (hj : Active s j c) : ∃ s', absorb sqrt s x i j = .ok s' ∧ Inv fc m thr (tr ++ [(x, c.label)]) s' := by
  have hil : i < s.clusters.length := (List.getElem?_eq_some_iff.1 hi.2).1
  have hjl : j < s.clusters.length := (List.getElem?_eq_some_iff.1 hj.2).1
  by_cases e : i = j
  · subst e
    obtain rfl : d = c := active_unique hj hi
    obtain ⟨c', h1, _, _, h2⟩ := incorporate_good hB hs hN hx (h.good i d hi) (e := d.err + 1) (by omega) s.timestamp
    refine ⟨{ s with clusters := s.clusters.set i c' }, ?_, inv_set (inv_mono h _) h2⟩
    simp only [absorb, if_true, rd_eq_ok_iff.2 hi.2, h1, wr_ok _ hil, bind, Except.bind, pure, Except.pure]
  · obtain ⟨c', h1, h2, _, h3⟩ := incorporate_good hB hs hN hx (h.good j c hj) (e := c.err - 1) (by omega) s.timestamp
    have hd' := (h.good i d hi).err (x, c.label) (e := d.err - 1) (by omega)
    have g1 := inv_set (i := i) (inv_mono h (x, c.label)) hd'
    have g2 := inv_set (i := j) g1 h3
    have hrdj : rd (s.clusters.set i { d with err := d.err - 1 }) j = .ok c := by
      rw [rd_eq_ok_iff, List.getElem?_set_ne e]; exact hj.2
    have hwrj : wr (s.clusters.set i { d with err := d.err - 1 }) j c' = .ok ((s.clusters.set i { d with err := d.err - 1 }).set j c') :=
      wr_ok _ (by simpa using hjl)
    have hrdi : rd ((s.clusters.set i { d with err := d.err - 1 }).set j c') i = .ok { d with err := d.err - 1 } := by
      rw [rd_eq_ok_iff, List.getElem?_set_ne (Ne.symm e), List.getElem?_set_self hil]
    have e1 : ¬ c.err - 1 ≤ 0 := by
      have := (h.good j c hj).2; omega
    have e2 : ¬ d.err - 1 ≤ 0 := by
      have := (h.good i d hi).2; omega
    refine ⟨_, ?_, g2⟩
    simp only [absorb, if_neg e, rd_eq_ok_iff.2 hi.2, wr_ok _ hil, hrdj, h1, hwrj, bind, Except.bind, pure, Except.pure, if_neg e1, hrdi, if_neg e2]

/-- distances from a small point to the clusters in use -/
theorem Inv.distance {fc m thr : Nat} {B : Int} (hB : 0 ≤ B) (hB2 : 4 * (B * B) ≤ 2147483647) {tr : List (List Int × Int)} {s : State}
    (h : Inv fc m thr tr s) (hs : ∀ p ∈ tr, Small fc B p.1) {x : List Int} (hx : Small fc B x) :
    ∀ i c, Active s i c → McnnInt.distance x (centroid c) = .ok (sqDist fc x (centroid c)) := by
  intro i c hc
  obtain ⟨⟨pts, h1⟩, _⟩ := h.good i c hc
  apply distance_small hB hB2 hx
  rw [h1.centroid]
  exact truncMean_small hB h1.1 (h1.members_small hs)

theorem train_spec (sqrt : ℚ → ℚ) {fc m thr : Nat} (hm1 : 1 ≤ m) {B : Int} (hB : 0 ≤ B) (hB2 : 4 * (B * B) ≤ 2147483647)
    {tr : List (List Int × Int)} {s : State} (h : Inv fc m thr tr s) (hs : ∀ p ∈ tr, Small fc B p.1)
    (hN : ((tr.length : Int) + 1) * (B * B) ≤ 2147483647) (hthr : tr.length + 1 ≤ thr) {x : List Int} (hx : Small fc B x) (label : Int) :
    ∃ s' r, train sqrt s x label = .ok (s', r) ∧ Inv fc m thr (tr ++ [(x, label)]) s' := by
  have hp := prepared_inv h
  rw [train_eq]
  have hBB : B * B ≤ 2147483647 := by nlinarith
  rcases findNearestClass_spec (prepared s) x _ (hp.distance hB hB2 hs hx) label hp.hlen with ⟨near, a1⟩ | ⟨i, j, c, d, a1, a2, a3, a4⟩
  · obtain ⟨s', r, b1, b2⟩ := insert_spec hm1 hB hBB hp hx label
    refine ⟨s', r, ?_, b2⟩
    simp only [a1, bind, Except.bind]
    cases near <;> exact b1
  · obtain ⟨s', b1, b2⟩ := absorb_spec sqrt hB hp hs hN hthr hx a2 a3
    refine ⟨s', true, ?_, by rw [← a4]; exact b2⟩
    simp only [a1, b1, bind, Except.bind, pure, Except.pure]

theorem new_inv (fc : Nat) (g : List Cluster) (thr cl : Nat) (pt : ℚ) : Inv fc g.length thr [] (new g thr cl pt) := by
  refine ⟨rfl, by simp [new], rfl, ?_⟩
  rintro i c ⟨h1, _⟩
  simp only [new, List.getElem?_map] at h1
  cases hg : g[i]? <;> simp [hg] at h1

theorem run_spec (sqrt : ℚ → ℚ) {fc m thr : Nat} (hm1 : 1 ≤ m) {B : Int} (hB : 0 ≤ B) (hB2 : 4 * (B * B) ≤ 2147483647)
    (ps : List (List Int × Int)) : ∀ (s : State) (tr : List (List Int × Int)), Inv fc m thr tr s → (∀ p ∈ tr ++ ps, Small fc B p.1) →
    ((tr ++ ps).length : Int) * (B * B) ≤ 2147483647 → (tr ++ ps).length ≤ thr →
    ∃ s', run sqrt s ps = .ok s' ∧ Inv fc m thr (tr ++ ps) s' := by
  induction ps with
  | nil => intro s tr h _ _ _; exact ⟨s, rfl, by simpa using h⟩
  | cons p ps ih =>
      intro s tr h hs hN hthr
      have hl : (tr ++ p :: ps).length = tr.length + 1 + ps.length := by simp; omega
      have hN' : ((tr.length : Int) + 1) * (B * B) ≤ 2147483647 := by
        rw [hl] at hN; push_cast at hN
        have : (0 : Int) ≤ ps.length * (B * B) := by positivity
        nlinarith
      obtain ⟨s1, r, a1, a2⟩ := train_spec sqrt hm1 hB hB2 h (fun q hq => hs q (by simp [hq])) hN' (by omega) (hs p (by simp)) p.2
      have e : tr ++ [p] ++ ps = tr ++ p :: ps := by simp
      obtain ⟨s2, b1, b2⟩ := ih s1 (tr ++ [p]) a2 (by rw [e]; exact hs) (by rw [e]; exact hN) (by rw [e]; exact hthr)
      exact ⟨s2, by simp only [run, a1, bind, Except.bind, b1], by rw [← e]; exact b2⟩

/-! ### undefined behaviour -/

/-- a coordinate whose square does not fit -/
theorem squares_ub : ∀ (x : List Int), (∃ v ∈ x, 46341 ≤ |v|) → squares x = .error .ub
  | [], h => by simp at h
  | v :: vs, h => by
      by_cases hv : 46341 ≤ |v|
      · have : int32 (v * v) = .error .ub := by
          apply int32_ub
          have := mul_self_le_mul_self (by norm_num) hv
          rw [abs_mul_abs_self] at this; linarith
        simp only [squares, this, bind, Except.bind]
      · have ih := squares_ub vs (by
          obtain ⟨w, h1, h2⟩ := h
          rcases List.mem_cons.1 h1 with rfl | h1
          · exact absurd h2 hv
          · exact ⟨w, h1, h2⟩)
        rcases int32_cases (v * v) with h | h <;> simp only [squares, h, ih, bind, Except.bind]

theorem squares_err : ∀ (x : List Int) {e : Err}, squares x = .error e → e = .ub
  | [], e, h => by simp [squares] at h
  | v :: vs, e, h => by
      rcases int32_cases (v * v) with h1 | h1
      · cases h2 : squares vs with
        | ok _ => simp [squares, h1, h2, bind, Except.bind, pure, Except.pure] at h
        | error e' =>
            simp only [squares, h1, h2, bind, Except.bind, Except.error.injEq] at h
            rw [← h]; exact squares_err vs h2
      · simp only [squares, h1, bind, Except.bind, Except.error.injEq] at h
        exact h.symm

theorem initCluster_ub {x : List Int} (h : ∃ v ∈ x, 46341 ≤ |v|) (label t thr : Int) : initCluster x label t thr = .error .ub := by
  simp only [initCluster, squares_ub x h, bind, Except.bind]

/-- the quotient of line 178 for a negative sum of two to forty thousand points -/
theorem unsignedDiv_neg {s : Int} {n : Nat} (h1 : -2147483648 ≤ s) (h2 : s < 0) (h3 : 2 ≤ n) (h4 : n ≤ 40000) :
    53687 ≤ unsignedDiv s n := by
  have e : s % 4294967296 = s + 4294967296 := by omega
  have hn : (0 : Int) < n := by omega
  have hlow : 53687 ≤ (s + 4294967296) / (n : Int) := by
    rw [Int.le_ediv_iff_mul_le hn]
    have : (n : Int) ≤ 40000 := by exact_mod_cast h4
    nlinarith
  have hup : (s + 4294967296) / (n : Int) < 2147483648 := by
    rw [Int.ediv_lt_iff_lt_mul hn]
    have : (2 : Int) ≤ n := by exact_mod_cast h3
    nlinarith
  simp only [unsignedDiv, e, if_pos hup]
  exact hlow

theorem trunc_ge {q : ℚ} {z : Int} (hz : 0 ≤ z) (h : (z : ℚ) ≤ q) : z ≤ trunc q := by
  have : (0 : ℚ) ≤ q := le_trans (by exact_mod_cast hz) h
  rw [trunc, if_pos this]
  exact Int.le_floor.2 h

theorem rd_cases {α : Type} (l : List α) (i : Nat) : (∃ v, rd l i = .ok v) ∨ rd l i = .error .ub := by
  unfold rd; cases l[i]? with
  | none => exact .inr rfl
  | some v => exact .inl ⟨v, rfl⟩

theorem wr_cases {α : Type} (l : List α) (i : Nat) (v : α) : (∃ l', wr l i v = .ok l') ∨ wr l i v = .error .ub := by
  unfold wr; split
  · exact .inl ⟨_, rfl⟩
  · exact .inr rfl

theorem splitInto_ub {sqrt : ℚ → ℚ} (hsq : ∀ q, 0 ≤ sqrt q) (s : State) (ci newIdx : Nat) {c : Cluster} (hc : s.clusters[ci]? = some c)
    (hn : 2 ≤ c.n ∧ c.n ≤ 40000) {i : Nat} {v : Int} (hv : c.sum[i]? = some v) (h1 : -2147483648 ≤ v) (h2 : v < 0) :
    splitInto sqrt s ci newIdx = .error .ub := by
  have hbig := unsignedDiv_neg h1 h2 hn.1 hn.2
  obtain ⟨center, hcen⟩ : ∃ center, center = c.sum.map (fun v => unsignedDiv v c.n) := ⟨_, rfl⟩
  have hci : center[i]? = some (unsignedDiv v c.n) := by rw [hcen, List.getElem?_map, hv]; rfl
  rcases hsl : splitLoop (variances c) 0 none 0 with ⟨_ | si, hvv⟩
  · simp only [splitInto, rd_eq_ok_iff.2 hc, bind, Except.bind, hsl]
  · simp only [splitInto, rd_eq_ok_iff.2 hc, bind, Except.bind, hsl]
    rw [← hcen]
    rcases rd_cases center si with ⟨w, hw⟩ | hw
    · simp only [hw]
      rcases int32_cases (trunc ((w : ℚ) - sqrt hvv)) with hl | hl
      · simp only [hl]
        rcases int32_cases (trunc ((w : ℚ) + sqrt hvv)) with hu | hu
        · simp only [hu]
          by_cases hsi : si = i
          · subst hsi
            rw [rd_eq_ok_iff, hci, Option.some.injEq] at hw
            have hup : unsignedDiv v c.n ≤ trunc ((w : ℚ) + sqrt hvv) :=
              trunc_ge (by omega) (by rw [hw]; linarith [hsq hvv])
            have hlt : si < center.length := (List.getElem?_eq_some_iff.1 hci).1
            have hbad : ∀ l t th, initCluster (center.set si (trunc ((w : ℚ) + sqrt hvv))) l t th = .error .ub := by
              intro l t th
              apply initCluster_ub
              refine ⟨_, List.mem_iff_getElem?.2 ⟨si, List.getElem?_set_self hlt⟩, ?_⟩
              exact le_trans (by omega) (le_abs_self _)
            cases ha : initCluster (center.set si (trunc ((w : ℚ) - sqrt hvv))) c.label (c.tsSum.tdiv (c.n : Int)) s.errorThr with
            | error e =>
                have : e = .ub := by
                  revert ha
                  unfold initCluster
                  cases hq : squares (center.set si (trunc ((w : ℚ) - sqrt hvv))) with
                  | ok _ => simp [bind, Except.bind, pure, Except.pure]
                  | error e' =>
                      simp only [bind, Except.bind, Except.error.injEq]
                      rintro rfl
                      exact squares_err _ hq
                rw [this]
            | ok a =>
                simp only []
                rcases wr_cases s.clusters newIdx a with ⟨cl, hcl⟩ | hcl
                · simp only [hcl]
                  rcases rd_cases cl ci with ⟨c2, h⟩ | h
                  · simp only [h, hbad]
                  · simp only [h]
                · simp only [hcl]
          · have hbad : ∀ l t th, initCluster (center.set si (trunc ((w : ℚ) - sqrt hvv))) l t th = .error .ub := by
              intro l t th
              apply initCluster_ub
              refine ⟨unsignedDiv v c.n, List.mem_iff_getElem?.2 ⟨i, by rw [List.getElem?_set_ne hsi]; exact hci⟩, ?_⟩
              exact le_trans (by omega) (le_abs_self _)
            simp only [hbad]
        · simp only [hu]
      · simp only [hl]
    · simp only [hw]

end Orp.McnnInt
