import Verif.Mcnn.Participation

/-!
C129 for MC-NN: how large the counters of the clusters and their sums of times get. `data_count` is an `unsigned int`, `error_count` an `int` and the times are `double`s.
-/

set_option linter.unusedSectionVars false

namespace Orp.Mcnn

variable {K : Type} [Field K] [LinearOrder K] [IsStrictOrderedRing K]

/-- all clusters in use are as described -/
def Each (P : Cluster K → Prop) (s : State K) : Prop := ∀ i c, Active s i c → P c

theorem each_write {P : Cluster K → Prop} {s : State K} (h : Each P s) (i : Nat) {c : Cluster K} (hc : P c) (s' : State K)
    (e1 : s'.clusters = s.clusters.set i c) (e2 : ∀ k, k ≠ i → s'.active[k]? = s.active[k]?) : Each P s' := by
  rintro k d ⟨d1, d2⟩
  by_cases hk : k = i
  · subst hk
    rw [e1] at d2
    by_cases hlt : k < s.clusters.length
    · rw [List.getElem?_set_self hlt] at d2
      rw [← Option.some.inj d2]
      exact hc
    · rw [List.getElem?_eq_none (by rw [List.length_set]; omega)] at d2
      cases d2
  · rw [e1, List.getElem?_set_ne (fun e => hk e.symm)] at d2
    rw [e2 k hk] at d1
    exact h k d ⟨d1, d2⟩

/-- the counters of a cluster at time `T`, when the error threshold is `thr` -/
def Small (T thr : Int) (c : Cluster K) : Prop :=
  TimeOk T c ∧ 2 * c.tsSum ≤ T * (T + 1) ∧ (c.n : Int) ≤ T + 1 ∧ thr - T ≤ c.err ∧ c.err ≤ thr + T

theorem small_init {T t thr : Int} (h0 : 0 ≤ t) (h1 : t ≤ T) (x : List K) (label : Int) : Small T thr (initCluster x label t thr) := by
  refine ⟨timeOk_init h0 h1 _ _ _, ?_, ?_, ?_, ?_⟩
  · show 2 * t ≤ T * (T + 1)
    by_cases h : T = 0
    · subst h; omega
    · have : 1 ≤ T := by omega
      nlinarith
  · show ((1 : Nat) : Int) ≤ T + 1
    push_cast; omega
  · show thr - T ≤ thr
    omega
  · show thr ≤ thr + T
    omega

theorem Small.mono {T thr : Int} {c : Cluster K} (h : Small T thr c) (h0 : 0 ≤ T + 1) : Small (T + 1) thr c := by
  obtain ⟨a, b, d, e, f⟩ := h
  exact ⟨a.mono (by omega), by nlinarith, by omega, by omega, by omega⟩

/-- a point is counted at the next time -/
theorem Small.count {T thr : Int} {c : Cluster K} (h : Small T thr c) (h0 : 0 ≤ T + 1) (x : List K) (e : Int) (he : c.err - 1 ≤ e ∧ e ≤ c.err + 1) :
    Small (T + 1) thr (({ c with err := e } : Cluster K).incorporate x (T + 1)) := by
  obtain ⟨a, b, d, f, g⟩ := h
  refine ⟨(a.mono (by omega)).incorporate h0 x e, ?_, ?_, ?_, ?_⟩
  · show 2 * (c.tsSum + (T + 1)) ≤ _
    nlinarith
  · show ((c.n + 1 : Nat) : Int) ≤ _
    push_cast; omega
  · show _ ≤ e
    omega
  · show e ≤ _
    omega

/-- only the error counter changes, by one -/
theorem Small.error {T thr : Int} {c : Cluster K} (h : Small T thr c) (h0 : 0 ≤ T + 1) : Small (T + 1) thr ({ c with err := c.err - 1 } : Cluster K) := by
  obtain ⟨a, b, d, f, g⟩ := h
  have a' := a.mono (show T ≤ T + 1 by omega)
  exact ⟨a', by show 2 * c.tsSum ≤ _; nlinarith, by show (c.n : Int) ≤ _; omega, by show _ ≤ c.err - 1; omega, by show c.err - 1 ≤ _; omega⟩

theorem splitInto_eq {sqrt : K → K} {s s' : State K} {ci j : Nat} (h : splitInto sqrt s ci j = .ok s') : ∃ (c : Cluster K) (x y : List K) (l l' : Int),
    s.clusters[ci]? = some c ∧ s'.clusters = (s.clusters.set j (initCluster x l (c.tsSum.tdiv (c.n : Int)) s.errorThr)).set ci
      (initCluster y l' (c.tsSum.tdiv (c.n : Int)) s.errorThr) ∧ s'.active = s.active.set j true ∧ s'.errorThr = s.errorThr ∧ s'.timestamp = s.timestamp ∧
      j < s.active.length := by
  unfold splitInto at h
  simp only [bind, Except.bind, pure, Except.pure] at h
  split at h
  · cases h
  · rename_i c hc
    split at h
    · cases h
    · split at h
      · cases h
      · rename_i cl1 h1
        split at h
        · cases h
        · rename_i c2 hc2
          split at h
          · cases h
          · rename_i cl2 h2
            split at h
            · cases h
            · rename_i ac h3
              obtain rfl := Except.ok.inj h
              have h1 := (wr_eq_ok_iff.1 h1).2
              have h2 := (wr_eq_ok_iff.1 h2).2
              have h3' := (wr_eq_ok_iff.1 h3)
              subst h1
              exact ⟨c, _, _, _, _, rd_eq_ok_iff.1 hc, h2.symm, h3'.2.symm, rfl, rfl, h3'.1⟩

theorem small_splitInto {sqrt : K → K} {T thr : Int} {s s' : State K} {ci j : Nat} (h : splitInto sqrt s ci j = .ok s') (ht : s.errorThr = thr)
    (hs : Each (Small T thr) s) (hc : s.active[ci]? = some true) : Each (Small T thr) s' ∧ (∀ i : Nat, s.active[i]? = some true → s'.active[i]? = some true) := by
  obtain ⟨c, x, y, l, l', a1, a2, a3, a4, a5, a6⟩ := splitInto_eq h
  have hm := (hs ci c ⟨hc, a1⟩).1.mean
  have s1 : Each (Small T thr) { s with
      clusters := s.clusters.set j (initCluster x l (c.tsSum.tdiv (c.n : Int)) s.errorThr)
      active := s.active.set j true } :=
    each_write hs j (by rw [ht]; exact small_init hm.1 hm.2 x l) _ rfl (fun k hk => List.getElem?_set_ne (fun e => hk e.symm))
  refine ⟨each_write s1 ci (small_init hm.1 hm.2 y l') s' (by rw [a2, ht]) (fun k _ => by rw [a3]), fun i hi => ?_⟩
  rw [a3]
  by_cases e2 : i = j
  · subst e2
    exact List.getElem?_set_self a6
  · rw [List.getElem?_set_ne (fun e => e2 e.symm)]
    exact hi

theorem splitInto_errThr {sqrt : K → K} {s s' : State K} {ci j : Nat} (h : splitInto sqrt s ci j = .ok s') : s'.errorThr = s.errorThr := by
  obtain ⟨c, x, y, l, l', a1, a2, a3, a4, a5, a6⟩ := splitInto_eq h
  exact a4

theorem small_split {sqrt : K → K} {T thr : Int} {s s' : State K} {ci : Nat} (h : split sqrt s ci = .ok s') (ht : s.errorThr = thr)
    (hs : Each (Small T thr) s) (hc : s.active[ci]? = some true) :
    Each (Small T thr) s' ∧ (∀ i : Nat, s.active[i]? = some true → s'.active[i]? = some true) ∧ s'.errorThr = thr := by
  unfold split at h
  simp only [bind, Except.bind, pure, Except.pure] at h
  repeat' split at h
  all_goals first
    | exact ⟨(small_splitInto h ht hs hc).1, (small_splitInto h ht hs hc).2, (splitInto_errThr h).trans ht⟩
    | (obtain rfl := Except.ok.inj h; exact ⟨hs, fun _ hi => hi, ht⟩)
    | cases h

theorem small_insert {T thr : Int} {s s' : State K} {x : List K} {label : Int} {r : Bool} (h : insert s x label = .ok (s', r)) (hT : s.timestamp = T) (h0 : 0 ≤ T)
    (ht : s.errorThr = thr) (hs : Each (Small T thr) s) : Each (Small T thr) s' ∧ s'.errorThr = thr := by
  unfold insert at h
  simp only [bind, Except.bind, pure, Except.pure] at h
  have hi := small_init (K := K) (thr := thr) h0 (le_refl T) x label
  split at h
  · cases h
  · split at h
    · split at h
      · cases h
      · rename_i ac h1
        split at h
        · cases h
        · rename_i cl h2
          obtain ⟨rfl, -⟩ := Prod.mk.inj (Except.ok.inj h)
          obtain ⟨-, h1⟩ := wr_eq_ok_iff.1 h1
          obtain ⟨-, h2⟩ := wr_eq_ok_iff.1 h2
          rw [hT, ht] at h2
          exact ⟨each_write hs _ hi _ h2.symm (fun k hk => by rw [← h1]; exact List.getElem?_set_ne (fun e => hk e.symm)), ht⟩
    · split at h
      · split at h
        · cases h
        · split at h
          · split at h
            · cases h
            · rename_i cl h2
              obtain ⟨rfl, -⟩ := Prod.mk.inj (Except.ok.inj h)
              obtain ⟨-, h2⟩ := wr_eq_ok_iff.1 h2
              rw [hT, ht] at h2
              exact ⟨each_write hs _ hi _ h2.symm (fun k hk => rfl), ht⟩
          · cases h
      · obtain ⟨rfl, -⟩ := Prod.mk.inj (Except.ok.inj h)
        exact ⟨hs, ht⟩

theorem small_absorb {sqrt : K → K} {T thr : Int} {s s' : State K} {x : List K} {near nc : Nat} (h : absorb sqrt s x near nc = .ok s') (hT : s.timestamp = T + 1)
    (h0 : 0 ≤ T + 1) (ht : s.errorThr = thr) (hs : Each (Small T thr) s) (h1 : s.active[near]? = some true) (h2 : s.active[nc]? = some true) :
    Each (Small (T + 1) thr) s' ∧ s'.errorThr = thr := by
  have hs' : Each (Small (T + 1) thr) s := fun i c hc => (hs i c hc).mono h0
  unfold absorb at h
  simp only [bind, Except.bind, pure, Except.pure] at h
  split at h
  · split at h
    · cases h
    · rename_i c hc
      split at h
      · cases h
      · rename_i cl hw
        obtain rfl := Except.ok.inj h
        obtain ⟨-, hw⟩ := wr_eq_ok_iff.1 hw
        rw [hT] at hw
        exact ⟨each_write hs' near ((hs near c ⟨h1, rd_eq_ok_iff.1 hc⟩).count h0 x _ (by omega)) _ hw.symm (fun _ _ => rfl), ht⟩
  · rename_i hne
    split at h
    · cases h
    · rename_i a ha
      split at h
      · cases h
      · rename_i cl1 hw1
        obtain ⟨-, hw1⟩ := wr_eq_ok_iff.1 hw1
        split at h
        · cases h
        · rename_i b hb
          split at h
          · cases h
          · rename_i cl2 hw2
            obtain ⟨-, hw2⟩ := wr_eq_ok_iff.1 hw2
            rw [hT] at hw2
            have hb' : s.clusters[nc]? = some b := by
              have := rd_eq_ok_iff.1 hb
              rwa [← hw1, List.getElem?_set_ne hne] at this
            have m1 : Each (Small (T + 1) thr) { s with clusters := cl1 } :=
              each_write hs' near ((hs near a ⟨h1, rd_eq_ok_iff.1 ha⟩).error h0) _ hw1.symm (fun _ _ => rfl)
            have m2 : Each (Small (T + 1) thr) { s with clusters := cl2 } :=
              each_write m1 nc ((hs nc b ⟨h2, hb'⟩).count h0 x _ (by omega)) _ hw2.symm (fun _ _ => rfl)
            split at h
            · split at h
              · cases h
              · rename_i s2 hs2
                obtain ⟨g1, g2, g3⟩ := small_split hs2 ht m2 h2
                split at h
                · cases h
                · split at h
                  · obtain ⟨f1, -, f3⟩ := small_split h g3 g1 (g2 near h1)
                    exact ⟨f1, f3⟩
                  · obtain rfl := Except.ok.inj h; exact ⟨g1, g3⟩
            · split at h
              · cases h
              · split at h
                · obtain ⟨f1, -, f3⟩ := small_split h ht m2 h1
                  exact ⟨f1, f3⟩
                · obtain rfl := Except.ok.inj h; exact ⟨m2, ht⟩

theorem small_train {sqrt : K → K} {T thr : Int} {s s' : State K} {x : List K} {label : Int} {r : Bool} (h : train sqrt s x label = .ok (s', r))
    (hlen : s.clusters.length = s.active.length) (hT : s.timestamp = T) (h0 : 0 ≤ T + 1) (ht : s.errorThr = thr) (hs : Each (Small T thr) s) :
    Each (Small (T + 1) thr) s' ∧ s'.errorThr = thr := by
  have hp : Each (Small T thr) (prepared s) := fun i c hc => hs i c ((prepared_active i c).1 hc).1
  have hpt : (prepared s).timestamp = T + 1 := by rw [← hT]; rfl
  have hpe : (prepared s).errorThr = thr := by rw [← ht]; unfold prepared; split <;> rfl
  have hpl : (prepared s).clusters.length = (prepared s).active.length := by
    unfold prepared
    split
    · show s.clusters.length = (List.zipWith _ s.active s.clusters).length
      rw [List.length_zipWith, hlen, min_self]
    · exact hlen
  rw [train_eq] at h
  rcases findNearestClass_spec (prepared s) x label hpl with ⟨near, a1, a2⟩ | ⟨i, j, c, d, a1, a2, a3, a4, a5, a6, a7, a8⟩
  · simp only [a1, bind, Except.bind] at h
    exact small_insert h hpt h0 hpe (fun i c hc => (hp i c hc).mono h0)
  · simp only [a1, bind, Except.bind, pure, Except.pure] at h
    split at h
    · cases h
    · rename_i hs2
      obtain ⟨rfl, -⟩ := Prod.mk.inj (Except.ok.inj h)
      exact small_absorb hs2 hpt h0 hpe hp a2.1 a3.1

theorem small_run (sqrt : K → K) {fc m : Nat} (hfc : 1 ≤ fc) (hm1 : 1 ≤ m) (ps : List (List K × Int)) : ∀ (s s' : State K) (thr : Int)
    (tr : List (List K × Int)), Inv fc m tr s → s.timestamp + 1 = (tr.length : Int) → (∀ p ∈ ps, p.1.length = fc) → s.errorThr = thr →
    Each (Small s.timestamp thr) s → run sqrt s ps = .ok s' → Each (Small s'.timestamp thr) s' ∧ s'.timestamp + 1 = ((tr ++ ps).length : Int) := by
  induction ps with
  | nil => intro s s' thr tr _ h1 _ _ h hr; simp only [run, Except.ok.injEq] at hr; subst hr; exact ⟨h, by simpa using h1⟩
  | cons p ps ih =>
      intro s s' thr tr h ht hv he hc hr
      obtain ⟨s1, r, a1, a2, a2', _, _⟩ := train_spec sqrt hfc hm1 h ht (hv p (by simp)) p.2
      simp only [run, a1, bind, Except.bind] at hr
      have hs := small_train a1 h.hlen rfl (by omega) he hc
      rw [← a2'] at hs
      have := ih s1 s' thr (tr ++ [p]) a2 (by rw [a2', ht]; simp) (fun q hq => hv q (by simp [hq])) hs.2 hs.1 hr
      simpa using this

/-- **C129** MC-NN: after `N` calls of `train` every cluster in use counts at most `N` points, its error counter differs from the threshold by less than `N`, and its sum of times
is at most `(N - 1) N / 2`. So with `threshold + N ≤ 2^31` no counter overflows, and with `(N - 1) N ≤ 2^53` all times and sums of times are exact `double`s. -/
theorem C129_counters (sqrt : K → K) (garbage : List (Cluster K)) (hg : garbage ≠ []) (fc : Nat) (hfc : 1 ≤ fc)
    (errorThr cleaning : Nat) (perfThr : ℚ) (ps : List (List K × Int)) (hp : ∀ p ∈ ps, p.1.length = fc) :
    ∃ s, run sqrt (new garbage errorThr cleaning perfThr) ps = .ok s ∧ s.timestamp = (ps.length : Int) - 1 ∧ ∀ i c, Active s i c →
      1 ≤ c.n ∧ c.n ≤ ps.length ∧ |c.err - (errorThr : Int)| < ps.length ∧ 0 ≤ c.init ∧ c.init < ps.length ∧
      0 ≤ c.tsSum ∧ 2 * c.tsSum ≤ ((ps.length : Int) - 1) * ps.length := by
  have hm : 1 ≤ garbage.length := List.length_pos_iff.2 hg
  have hnew := new_inv fc garbage errorThr cleaning perfThr
  obtain ⟨s, h1, h2, _, h3⟩ := run_inv sqrt hfc hm ps _ [] hnew rfl hp
  obtain ⟨g1, g2⟩ := small_run sqrt hfc hm ps _ s errorThr [] hnew rfl hp rfl (fun i c hc => by
    obtain ⟨h1, _⟩ := hc
    simp only [new, List.getElem?_map] at h1
    cases hg : garbage[i]? <;> simp [hg] at h1) h1
  simp only [List.nil_append] at g2
  refine ⟨s, h1, by omega, fun i c hc => ?_⟩
  obtain ⟨⟨a1, a2, a3, -, a5⟩, b, d, e, f⟩ := g1 i c hc
  have hT : s.timestamp = (ps.length : Int) - 1 := by omega
  rw [hT] at a2 b d e f
  refine ⟨a5, by omega, by rw [abs_lt]; constructor <;> omega, a1, by omega, a3, by linarith⟩

/-- one cluster is in use; it holds `k` copies of the point `x` -/
def Copies (x : List K) (label thr : Int) (k : Nat) (s : State K) : Prop :=
  s.cleaning = 0 ∧ s.errorThr = thr ∧ s.clusters.length = s.active.length ∧ (∀ i : Nat, s.active[i]? = some true → i = 0) ∧
  ∃ c, Active s 0 c ∧ c.label = label ∧ c.n = k ∧ c.err = thr + k - 1 ∧ c.sum = x.map (fun v => (k : K) * v)

theorem copies_centroid {x : List K} {k : Nat} (hk : 0 < k) {c : Cluster K} (h1 : c.n = k) (h2 : c.sum = x.map (fun v => (k : K) * v)) : c.centroid = x := by
  have : (k : K) ≠ 0 := by exact_mod_cast hk.ne'
  unfold Cluster.centroid
  rw [h2, h1, List.map_map]
  conv_rhs => rw [← List.map_id x]
  refine List.map_congr_left fun v _ => ?_
  simp only [Function.comp_apply, id]
  field_simp

theorem distance_self (x : List K) : distance x x = 0 := by
  unfold distance
  have : List.zipWith (fun a b => (a - b) * (a - b)) x x = x.map (fun _ => (0 : K)) := by
    rw [List.zipWith_self]
    exact List.map_congr_left fun v _ => by simp
  rw [this]
  simp

theorem copies_step (sqrt : K → K) {x : List K} {label thr : Int} {k : Nat} (hk : 0 < k) {s : State K} (h : Copies x label thr k s) :
    ∃ s' r, train sqrt s x label = .ok (s', r) ∧ Copies x label thr (k + 1) s' := by
  obtain ⟨h1, h2, h3, h4, c, h5, h6, h7, h8, h9⟩ := h
  have hp : prepared s = { s with timestamp := s.timestamp + 1 } := by
    unfold prepared
    rw [if_neg (by omega)]
  have hc := copies_centroid hk h7 h9
  rw [train_eq]
  rcases findNearestClass_spec (prepared s) x label (by rw [hp]; exact h3) with ⟨near, a1, a2⟩ | ⟨i, j, c', d, a1, a2, a3, a4, a5, a6, a7, a8⟩
  · exfalso
    have := a2 0 c (by rw [hp]; exact h5) (by simp [h6])
    rw [hc, distance_self] at this
    norm_num at this
  · rw [hp] at a2 a3
    have ei : i = 0 := h4 i a2.1
    have ej : j = 0 := h4 j a3.1
    subst ei; subst ej
    have hl : 0 < s.clusters.length := (List.getElem?_eq_some_iff.1 h5.2).1
    have hr : rd s.clusters 0 = .ok c := rd_eq_ok_iff.2 h5.2
    have hab : absorb sqrt (prepared s) x 0 0 = .ok { prepared s with
        clusters := s.clusters.set 0 (({ c with err := c.err + 1 } : Cluster K).incorporate x (s.timestamp + 1)) } := by
      rw [hp]
      unfold absorb
      simp only [if_true, bind, Except.bind, hr, wr_ok _ hl, pure, Except.pure]
    simp only [a1, bind, Except.bind, hab, pure, Except.pure]
    refine ⟨_, _, rfl, by rw [hp]; exact h1, by rw [hp]; exact h2, by rw [hp, List.length_set]; exact h3, by rw [hp]; exact h4, _,
      ⟨by rw [hp]; exact h5.1, List.getElem?_set_self hl⟩, h6, ?_, ?_, ?_⟩
    · show c.n + 1 = k + 1
      rw [h7]
    · show c.err + 1 = _
      rw [h8]; push_cast; ring
    · show List.zipWith (fun s v => s + v) c.sum x = _
      rw [h9, List.zipWith_map_left, List.zipWith_self]
      refine List.map_congr_left fun v _ => ?_
      push_cast; ring

/-- **C129** MC-NN: the bounds are reached. After `k + 1` equal training points the one cluster in use counts `k + 1` points, and its error counter is the threshold plus `k`; so with
`threshold + k = 2^31` the `int` overflows. -/
theorem C129_reached (sqrt : K → K) (garbage : List (Cluster K)) (hg : garbage ≠ []) (errorThr : Nat) (perfThr : ℚ) (x : List K) (label : Int) (k : Nat) :
    ∃ s c, run sqrt (new garbage errorThr 0 perfThr) (List.replicate (k + 1) (x, label)) = .ok s ∧ Active s 0 c ∧ c.n = k + 1 ∧ c.err = errorThr + k := by
  have hl : 0 < garbage.length := List.length_pos_iff.2 hg
  have hfirst : ∃ s r, train sqrt (new garbage errorThr 0 perfThr) x label = .ok (s, r) ∧ Copies x label errorThr 1 s := by
    have hoff : ∀ i : Nat, ¬ (new garbage errorThr 0 perfThr).active[i]? = some true := by
      intro i hi
      simp only [new, List.getElem?_map] at hi
      cases hg : garbage[i]? <;> simp [hg] at hi
    have hp : prepared (new garbage errorThr 0 perfThr) = { new garbage errorThr 0 perfThr with timestamp := 0 } := by
      unfold prepared
      rw [if_neg (by simp [new])]
      rfl
    have hlen : (prepared (new garbage errorThr 0 perfThr)).clusters.length = (prepared (new garbage errorThr 0 perfThr)).active.length := by
      rw [hp]; simp [new]
    rw [train_eq]
    rcases findNearestClass_spec (prepared (new garbage errorThr 0 perfThr)) x label hlen with ⟨near, a1, a2⟩ | ⟨i, j, c', d, a1, a2, -⟩
    · simp only [a1, bind, Except.bind]
      obtain ⟨g, gs, rfl⟩ := List.exists_cons_of_ne_nil hg
      have hf : freeLoop (prepared (new (g :: gs) errorThr 0 perfThr)).active none 0 (prepared (new (g :: gs) errorThr 0 perfThr)).clusters.length = .ok (some 0) := by
        rw [hp]
        simp [new, freeLoop, rd, bind, Except.bind, pure, Except.pure]
      unfold insert
      simp only [hf, bind, Except.bind]
      rw [hp]
      simp only [new, List.map_cons, wr, List.length_cons, Nat.zero_lt_succ, if_true, List.set_cons_zero, pure, Except.pure]
      refine ⟨_, _, rfl, rfl, rfl, by simp, fun i hi => ?_, _, ⟨rfl, rfl⟩, rfl, rfl, ?_, ?_⟩
      · cases i with
        | zero => rfl
        | succ i =>
            exfalso
            simp only [List.getElem?_cons_succ, List.getElem?_map] at hi
            cases hg : gs[i]? <;> simp [hg] at hi
      · simp [initCluster]
      · simp [initCluster]
    · exfalso
      rw [hp] at a2
      exact hoff i a2.1
  obtain ⟨s, r, h1, h2⟩ := hfirst
  have key : ∀ (k n : Nat) (s : State K), 0 < n → Copies x label errorThr n s →
      ∃ s', run sqrt s (List.replicate k (x, label)) = .ok s' ∧ Copies x label errorThr (n + k) s' := by
    intro k
    induction k with
    | zero => intro n s _ h; exact ⟨s, rfl, h⟩
    | succ k ih =>
        intro n s hn h
        obtain ⟨s1, r, e1, e2⟩ := copies_step sqrt hn h
        obtain ⟨s2, e3, e4⟩ := ih (n + 1) s1 (by omega) e2
        refine ⟨s2, by simp only [List.replicate_succ, run, e1, bind, Except.bind, e3], ?_⟩
        rw [show n + (k + 1) = n + 1 + k by omega]
        exact e4
  obtain ⟨s', h3, h4⟩ := key k 1 s (by omega) h2
  obtain ⟨-, -, -, -, c, h5, -, h7, h8, -⟩ := h4
  refine ⟨s', c, by simp only [List.replicate_succ, run, h1, bind, Except.bind, h3], h5, by omega, ?_⟩
  rw [h8]; push_cast; ring

example : ∃ s c, run (K := ℚ) id (new [junk] 2 0 50) (List.replicate (2 ^ 31 - 1) ([3], 7)) = .ok s ∧ Active s 0 c ∧ c.err = 2 ^ 31 := by
  obtain ⟨s, c, h1, h2, -, h4⟩ := C129_reached (K := ℚ) id [junk] (by simp) 2 50 [3] 7 (2 ^ 31 - 2)
  exact ⟨s, c, h1, h2, by rw [h4]; norm_num⟩

end Orp.Mcnn
