import Verif.Mcnn.Props
import Mathlib.Tactic.FieldSimp
import Mathlib.Tactic.LinearCombination

/-!
MC-NN with another origin of the features and other names of the labels (C100, C101).
-/

set_option linter.unusedSectionVars false

namespace Orp.Mcnn

variable {K : Type} [Field K] [LinearOrder K] [IsStrictOrderedRing K]

/-- the point with the offsets `b` added -/
def shift (b x : List K) : List K := List.zipWith (fun v w => v + w) x b

/-! ### Lists -/

theorem shift_sum (n : K) : ∀ s x b : List K, List.zipWith (fun s v => s + v) (List.zipWith (fun s v => s + n * v) s b) (shift b x) =
    List.zipWith (fun s v => s + (n + 1) * v) (List.zipWith (fun s v => s + v) s x) b
  | [], _, _ => by simp
  | _ :: _, [], b => by simp [shift]
  | _ :: _, _ :: _, [] => by simp
  | s :: ss, x :: xs, b :: bs => by
      have ih := shift_sum n ss xs bs
      simp only [shift, List.zipWith_cons_cons, List.cons.injEq] at ih ⊢
      exact ⟨by ring, ih⟩

theorem shift_sq (n : K) : ∀ q s x b : List K,
    List.zipWith (fun s v => s + v * v) (List.zipWith3 (fun q s v => q + 2 * v * s + n * v * v) q s b) (shift b x) =
    List.zipWith3 (fun q s v => q + 2 * v * s + (n + 1) * v * v) (List.zipWith (fun s v => s + v * v) q x) (List.zipWith (fun s v => s + v) s x) b
  | [], _, _, _ => by simp [List.zipWith3]
  | _ :: _, [], _, _ => by simp [List.zipWith3]
  | _ :: _, _ :: _, [], _ => by simp [List.zipWith3, shift]
  | _ :: _, _ :: _, _ :: _, [] => by simp [List.zipWith3]
  | q :: qs, s :: ss, x :: xs, b :: bs => by
      have ih := shift_sq n qs ss xs bs
      simp only [shift, List.zipWith_cons_cons, List.zipWith3, List.cons.injEq] at ih ⊢
      exact ⟨by ring, ih⟩

theorem shift_var {n : K} (hn : n ≠ 0) : ∀ q s b : List K, q.length = b.length → s.length = b.length →
    List.zipWith (fun q s => q / n - (s / n) * (s / n)) (List.zipWith3 (fun q s v => q + 2 * v * s + n * v * v) q s b) (List.zipWith (fun s v => s + n * v) s b) =
    List.zipWith (fun q s => q / n - (s / n) * (s / n)) q s
  | [], _, _, _, _ => by simp [List.zipWith3]
  | _ :: _, [], _, h1, h2 => by
      simp only [List.length_cons, List.length_nil] at h1 h2
      omega
  | _ :: _, _ :: _, [], h1, _ => by simp at h1
  | q :: qs, s :: ss, b :: bs, h1, h2 => by
      have ih := shift_var hn qs ss bs (by simpa using h1) (by simpa using h2)
      simp only [List.zipWith_cons_cons, List.zipWith3, List.cons.injEq] at ih ⊢
      refine ⟨?_, ih⟩
      field_simp
      ring

theorem shift_centroid {n : K} (hn : n ≠ 0) : ∀ s b : List K, (List.zipWith (fun s v => s + n * v) s b).map (fun s => s / n) =
    shift b (s.map (fun s => s / n))
  | [], _ => by simp [shift]
  | _ :: _, [] => by simp [shift]
  | s :: ss, b :: bs => by
      have ih := shift_centroid hn ss bs
      simp only [shift, List.zipWith_cons_cons, List.map_cons, List.cons.injEq] at ih ⊢
      refine ⟨?_, ih⟩
      field_simp

theorem shift_distance : ∀ x y b : List K, x.length = b.length → y.length = b.length → distance (shift b x) (shift b y) = distance x y
  | [], _, _, _, _ => by simp [distance, shift]
  | _ :: _, [], _, h1, h2 => by
      simp only [List.length_cons, List.length_nil] at h1 h2
      omega
  | _ :: _, _ :: _, [], h1, _ => by simp at h1
  | x :: xs, y :: ys, b :: bs, h1, h2 => by
      have ih := shift_distance xs ys bs (by simpa using h1) (by simpa using h2)
      simp only [distance, shift, List.zipWith_cons_cons, List.sum_cons] at ih ⊢
      rw [ih]
      ring

theorem shift_modify (h : K) : ∀ (x b : List K) (i : Nat), (shift b x).modify i (fun v => v + h) = shift b (x.modify i (fun v => v + h))
  | [], _, i => by cases i <;> simp [shift]
  | _ :: _, [], i => by cases i <;> simp [shift]
  | x :: xs, b :: bs, 0 => by
      simp only [shift, List.zipWith_cons_cons, List.modify_zero_cons, List.cons.injEq, and_true]
      ring
  | x :: xs, b :: bs, i + 1 => by
      have ih := shift_modify h xs bs i
      simp only [shift, List.zipWith_cons_cons, List.modify_succ_cons, List.cons.injEq, true_and] at ih ⊢
      exact ih

theorem shift_init_sum : ∀ x b : List K, shift b x = List.zipWith (fun s v => s + ((1 : Nat) : K) * v) x b := by
  intro x b
  simp [shift]

theorem shift_init_sq : ∀ x b : List K, (shift b x).map (fun v => v * v) =
    List.zipWith3 (fun q s v => q + 2 * v * s + ((1 : Nat) : K) * v * v) (x.map (fun v => v * v)) x b
  | [], _ => by simp [shift, List.zipWith3]
  | _ :: _, [] => by simp [shift, List.zipWith3]
  | x :: xs, b :: bs => by
      have ih := shift_init_sq xs bs
      simp only [shift, List.zipWith_cons_cons, List.map_cons, List.zipWith3, List.cons.injEq] at ih ⊢
      refine ⟨?_, ih⟩
      push_cast
      ring

/-! ### Clusters -/

/-- the cluster `c'` is the cluster `c` of the points with offsets `b` and labels renamed by `φ` -/
structure Rel (b : List K) (φ : Int → Int) (c c' : Cluster K) : Prop where
  pos : 1 ≤ c.n
  sumLen : c.sum.length = b.length
  sqLen : c.sq.length = b.length
  n : c'.n = c.n
  tsSq : c'.tsSq = c.tsSq
  tsSum : c'.tsSum = c.tsSum
  err : c'.err = c.err
  init : c'.init = c.init
  label : c'.label = φ c.label
  sum : c'.sum = List.zipWith (fun s v => s + (c.n : K) * v) c.sum b
  sq : c'.sq = List.zipWith3 (fun q s v => q + 2 * v * s + (c.n : K) * v * v) c.sq c.sum b

variable {b : List K} {φ : Int → Int}

theorem Rel.ne {c c' : Cluster K} (h : Rel b φ c c') : (c.n : K) ≠ 0 := by
  have := h.pos
  exact_mod_cast (by omega : c.n ≠ 0)

theorem Rel.variances {c c' : Cluster K} (h : Rel b φ c c') : c'.variances = c.variances := by
  unfold Cluster.variances
  rw [h.n, h.sum, h.sq]
  exact shift_var h.ne _ _ _ h.sqLen h.sumLen

theorem Rel.centroid {c c' : Cluster K} (h : Rel b φ c c') : c'.centroid = shift b c.centroid := by
  unfold Cluster.centroid
  rw [h.n, h.sum]
  exact shift_centroid h.ne _ _

theorem Rel.distance {c c' : Cluster K} (h : Rel b φ c c') {x : List K} (hx : x.length = b.length) :
    Mcnn.distance (shift b x) c'.centroid = Mcnn.distance x c.centroid := by
  rw [h.centroid]
  exact shift_distance _ _ _ hx (by simp [Cluster.centroid, h.sumLen])

theorem Rel.performance {c c' : Cluster K} (h : Rel b φ c c') (now : Int) : c'.performance now = c.performance now := by
  unfold Cluster.performance
  rw [h.tsSum, h.init]

theorem Rel.setErr {c c' : Cluster K} (h : Rel b φ c c') {e e' : Int} (he : e' = e) : Rel b φ { c with err := e } { c' with err := e' } :=
  ⟨h.pos, h.sumLen, h.sqLen, h.n, h.tsSq, h.tsSum, he, h.init, h.label, h.sum, h.sq⟩

theorem Rel.incorporate {c c' : Cluster K} (h : Rel b φ c c') {x : List K} (hx : x.length = b.length) (t : Int) :
    Rel b φ (c.incorporate x t) (c'.incorporate (shift b x) t) := by
  refine ⟨Nat.le_add_left 1 _, ?_, ?_, ?_, ?_, ?_, h.err, h.init, h.label, ?_, ?_⟩
  · simp [Cluster.incorporate, h.sumLen, hx]
  · simp [Cluster.incorporate, h.sqLen, hx]
  · simp [Cluster.incorporate, h.n]
  · simp [Cluster.incorporate, h.tsSq]
  · simp [Cluster.incorporate, h.tsSum]
  · simp only [Cluster.incorporate, h.sum, Nat.cast_add, Nat.cast_one]
    exact shift_sum _ _ _ _
  · simp only [Cluster.incorporate, h.sq, Nat.cast_add, Nat.cast_one]
    exact shift_sq _ _ _ _ _

theorem rel_init {x : List K} (hx : x.length = b.length) (label t thr : Int) :
    Rel b φ (initCluster x label t thr) (initCluster (shift b x) (φ label) t thr) :=
  ⟨le_refl 1, hx, by simp [initCluster, hx], rfl, rfl, rfl, rfl, rfl, rfl, shift_init_sum x b, shift_init_sq x b⟩

/-! ### Results -/

/-- both fail in the same way, or both results are related -/
def RelR {A B : Type} (R : A → B → Prop) : Res A → Res B → Prop
  | .ok a, .ok b => R a b
  | .error e, .error e' => e = e'
  | _, _ => False

theorem RelR.bind {A B A' B' : Type} {R : A → B → Prop} {S : A' → B' → Prop} {r : Res A} {r' : Res B} {f : A → Res A'} {f' : B → Res B'} (h : RelR R r r')
    (hf : ∀ a b, R a b → RelR S (f a) (f' b)) : RelR S (r >>= f) (r' >>= f') := by
  cases r with
  | ok a =>
      cases r' with
      | ok b => exact hf a b h
      | error e => cases h
  | error e =>
      cases r' with
      | ok b => cases h
      | error e' => exact h

theorem RelR.eq {A : Type} {r r' : Res A} (h : r = r') : RelR Eq r r' := by
  subst h
  cases r <;> rfl

theorem RelR.to_eq {A : Type} {r r' : Res A} (h : RelR Eq r r') : r = r' := by
  cases r <;> cases r' <;> first | exact congrArg _ h | cases h

/-! ### States -/

/-- the state `s'` is the state `s` for the points with offsets `b` and labels renamed by `φ`; unused clusters are arbitrary -/
structure SRel (b : List K) (φ : Int → Int) (s s' : State K) : Prop where
  len : s.clusters.length = s.active.length
  len' : s'.clusters.length = s.active.length
  active : s'.active = s.active
  count : s'.count = s.count
  timestamp : s'.timestamp = s.timestamp
  errorThr : s'.errorThr = s.errorThr
  perfThr : s'.perfThr = s.perfThr
  cleaning : s'.cleaning = s.cleaning
  rel : ∀ (i : Nat) (c c' : Cluster K), s.active[i]? = some true → s.clusters[i]? = some c → s'.clusters[i]? = some c' → Rel b φ c c'

theorem SRel.rd_rel {s s' : State K} (h : SRel b φ s s') {i : Nat} (hi : s.active[i]? = some true) : RelR (Rel b φ) (rd s.clusters i) (rd s'.clusters i) := by
  have hlt : i < s.active.length := (List.getElem?_eq_some_iff.1 hi).1
  have h1 : i < s.clusters.length := by rw [h.len]; exact hlt
  have h2 : i < s'.clusters.length := by rw [h.len']; exact hlt
  rw [rd_ok h1, rd_ok h2]
  exact h.rel i _ _ hi (List.getElem?_eq_getElem h1) (List.getElem?_eq_getElem h2)

theorem lowestLoop_rel {s s' : State K} (h : SRel b φ s s') : ∀ (k i : Nat) (low : Option Nat) (val : Dbl ℚ),
    lowestLoop s' i k low val = lowestLoop s i k low val
  | 0, i, low, val => rfl
  | k + 1, i, low, val => by
      simp only [lowestLoop, h.active]
      cases ha : rd s.active i with
      | error e => rfl
      | ok a =>
          cases a with
          | false => exact lowestLoop_rel h k (i + 1) low val
          | true =>
              simp only [bind, Except.bind, if_true]
              have hr := h.rd_rel (rd_eq_ok_iff.1 ha)
              cases h1 : rd s.clusters i with
              | error e =>
                  rw [h1] at hr
                  cases h2 : rd s'.clusters i with
                  | error e' => rw [h2] at hr; simp only; rw [show e' = e from hr.symm]
                  | ok c' => rw [h2] at hr; cases hr
              | ok c =>
                  rw [h1] at hr
                  cases h2 : rd s'.clusters i with
                  | error e' => rw [h2] at hr; cases hr
                  | ok c' =>
                      rw [h2] at hr
                      have hp : c'.performance s'.timestamp = c.performance s.timestamp := by rw [h.timestamp]; exact Rel.performance hr _
                      simp only [hp]
                      split
                      · exact lowestLoop_rel h k (i + 1) _ _
                      · exact lowestLoop_rel h k (i + 1) _ _

theorem lowest_rel {s s' : State K} (h : SRel b φ s s') : lowest s' = lowest s := by
  unfold lowest
  rw [h.len', ← h.len]
  exact lowestLoop_rel h _ _ _ _

theorem nearestLoop_rel {s s' : State K} (h : SRel b φ s s') {x : List K} (hx : x.length = b.length) {p p' : Cluster K → Bool}
    (hp : ∀ c c', Rel b φ c c' → p' c' = p c) : ∀ (k i : Nat) (best : Option Nat) (d : K), i + k ≤ s.active.length →
    nearestLoop s' (shift b x) p' i k best d = nearestLoop s x p i k best d
  | 0, i, best, d, _ => rfl
  | k + 1, i, best, d, hk => by
      have hlt : i < s.active.length := by omega
      have h1 : i < s.clusters.length := by rw [h.len]; exact hlt
      have h2 : i < s'.clusters.length := by rw [h.len']; exact hlt
      simp only [nearestLoop, h.active, rd_ok hlt, rd_ok h1, rd_ok h2, bind, Except.bind]
      cases ha : s.active[i] with
      | false => exact nearestLoop_rel h hx hp k (i + 1) best d (by omega)
      | true =>
          have hr := h.rel i _ _ (by rw [List.getElem?_eq_getElem hlt, ha]) (List.getElem?_eq_getElem h1) (List.getElem?_eq_getElem h2)
          simp only [Bool.true_and, hp _ _ hr, hr.distance hx]
          split
          · split
            · exact nearestLoop_rel h hx hp k (i + 1) _ _ (by omega)
            · exact nearestLoop_rel h hx hp k (i + 1) _ _ (by omega)
          · exact nearestLoop_rel h hx hp k (i + 1) _ _ (by omega)

theorem findNearest_rel {s s' : State K} (h : SRel b φ s s') {x : List K} (hx : x.length = b.length) : findNearest s' (shift b x) = findNearest s x := by
  unfold findNearest
  rw [h.len', ← h.len]
  exact nearestLoop_rel h hx (fun _ _ _ => rfl) _ _ _ _ (by rw [h.len]; omega)

theorem findNearestClass_rel (hφ : Function.Injective φ) {s s' : State K} (h : SRel b φ s s') {x : List K} (hx : x.length = b.length) (label : Int) :
    findNearestClass s' (shift b x) (φ label) = findNearestClass s x label := by
  obtain ⟨near, dn, h1, h2⟩ := findNearest_spec s x h.len
  have hloop : nearestLoop s' (shift b x) (fun c => decide (c.label = φ label)) 0 s'.clusters.length none 1000000 =
      nearestLoop s x (fun c => decide (c.label = label)) 0 s.clusters.length none 1000000 := by
    rw [h.len', ← h.len]
    refine nearestLoop_rel h hx (fun c c' hc => ?_) _ _ _ _ (by rw [h.len]; omega)
    rw [hc.label]
    exact decide_eq_decide.2 hφ.eq_iff
  unfold findNearestClass
  rw [findNearest_rel h hx, h1, hloop]
  simp only [bind, Except.bind]
  rcases h2 with ⟨rfl, -, -⟩ | ⟨j, c, rfl, -, h6, -, -⟩
  · rfl
  · have hr := h.rd_rel h6.1
    rw [rd_eq_ok_iff.2 h6.2] at hr
    simp only [rd_eq_ok_iff.2 h6.2]
    cases h3 : rd s'.clusters j with
    | error e => rw [h3] at hr; cases hr
    | ok c' =>
        rw [h3] at hr
        have hl : decide (c'.label = φ label) = decide (c.label = label) := by rw [Rel.label hr]; exact decide_eq_decide.2 hφ.eq_iff
        simp only [hl]

theorem freeLoop_lt {active : List Bool} {skip : Option Nat} {j : Nat} {k : Nat} (hk : k = active.length) (h : freeLoop active skip 0 k = .ok (some j)) :
    j < active.length := by
  rcases freeLoop_spec active skip active.length 0 (by omega) with ⟨j', a1, _, a2, _⟩ | ⟨a1, _⟩
  · rw [hk, a1] at h
    cases h
    exact (List.getElem?_eq_some_iff.1 a2).1
  · rw [hk, a1] at h; cases h

theorem lowest_lt {s : State K} (hlen : s.clusters.length = s.active.length) {j : Nat} (h : lowest s = .ok (some j)) : j < s.active.length := by
  obtain ⟨r, v, a, b⟩ := lowestLoop_spec s hlen s.active.length 0 none (.fin 101) (by omega) (fun j hj => by omega)
  rw [← hlen] at a
  unfold lowest at h
  rw [a] at h
  cases h
  obtain ⟨c, b1, -⟩ := b
  exact active_lt b1

theorem splitInto_rel {sqrt : K → K} {s s' : State K} (h : SRel b φ s s') {ci j : Nat} (hci : s.active[ci]? = some true) (hj : j < s.active.length) :
    RelR (fun r r' => SRel b φ r r' ∧ ∀ i : Nat, s.active[i]? = some true → r.active[i]? = some true) (splitInto sqrt s ci j) (splitInto sqrt s' ci j) := by
  have hlt : ci < s.active.length := (List.getElem?_eq_some_iff.1 hci).1
  have h1 : ci < s.clusters.length := by rw [h.len]; exact hlt
  have h2 : ci < s'.clusters.length := by rw [h.len']; exact hlt
  have j1 : j < s.clusters.length := by rw [h.len]; exact hj
  have j2 : j < s'.clusters.length := by rw [h.len']; exact hj
  have j3 : j < s'.active.length := by rw [h.active]; exact hj
  obtain ⟨c, hc⟩ : ∃ c, s.clusters[ci]? = some c := ⟨_, List.getElem?_eq_getElem h1⟩
  obtain ⟨c', hc'⟩ : ∃ c', s'.clusters[ci]? = some c' := ⟨_, List.getElem?_eq_getElem h2⟩
  have hr := h.rel ci _ _ hci hc hc'
  unfold splitInto
  simp only [rd_eq_ok_iff.2 hc, rd_eq_ok_iff.2 hc', bind, Except.bind, hr.variances]
  cases hs : splitLoop c.variances 0 none 0 with
  | mk si hv =>
      cases si with
      | none => rfl
      | some si =>
          have hcen : ∀ g : K, (c'.centroid.modify si (fun v => v + g)) = shift b (c.centroid.modify si (fun v => v + g)) := by
            intro g; rw [hr.centroid]; exact shift_modify g _ _ _
          have hsub : ∀ y : List K, y.modify si (fun v => v - sqrt hv) = y.modify si (fun v => v + -sqrt hv) := by
            intro y; simp only [sub_eq_add_neg]
          have hlen : ∀ g : K, (c.centroid.modify si (fun v => v + g)).length = b.length := by
            intro g; simp [Cluster.centroid, hr.sumLen]
          have hold : c'.tsSum.tdiv (c'.n : Int) = c.tsSum.tdiv (c.n : Int) := by rw [hr.tsSum, hr.n]
          simp only [hsub, hcen, hold, hr.label, h.errorThr]
          set A := initCluster (c.centroid.modify si (fun v => v + -sqrt hv)) c.label (c.tsSum.tdiv (c.n : Int)) s.errorThr with hA
          have rA : Rel b φ A (initCluster (shift b (c.centroid.modify si (fun v => v + -sqrt hv))) (φ c.label) (c.tsSum.tdiv (c.n : Int)) s.errorThr) :=
            rel_init (hlen _) _ _ _
          set A' := initCluster (shift b (c.centroid.modify si (fun v => v + -sqrt hv))) (φ c.label) (c.tsSum.tdiv (c.n : Int)) s.errorThr with hA'
          have k1 : ci < (s.clusters.set j A).length := by rw [List.length_set]; exact h1
          have k2 : ci < (s'.clusters.set j A').length := by rw [List.length_set]; exact h2
          have hlab : ((s'.clusters.set j A')[ci]).label = φ ((s.clusters.set j A)[ci]).label := by
            by_cases e : j = ci
            · subst e; simp [rA.label]
            · rw [List.getElem_set_ne e, List.getElem_set_ne e]
              have e1 : s.clusters[ci] = c := by have := hc; rw [List.getElem?_eq_getElem h1] at this; exact Option.some.inj this
              have e2 : s'.clusters[ci] = c' := by have := hc'; rw [List.getElem?_eq_getElem h2] at this; exact Option.some.inj this
              rw [e1, e2, hr.label]
          simp only [wr_ok _ j1, wr_ok _ j2, rd_ok k1, rd_ok k2, wr_ok _ k1, wr_ok _ k2, wr_ok _ hj, hlab, h.active, pure, Except.pure]
          refine ⟨⟨?_, ?_, rfl, ?_, h.timestamp, rfl, h.perfThr, h.cleaning, ?_⟩, ?_⟩
          · simp [h.len]
          · simp [h.len']
          · simp [h.count]
          · intro i d d' hi hd hd'
            simp only at hi hd hd'
            by_cases e1 : ci = i
            · subst e1
              rw [List.getElem?_set_self k1] at hd
              rw [List.getElem?_set_self k2] at hd'
              cases hd
              cases hd'
              exact rel_init (hlen _) _ _ _
            · rw [List.getElem?_set_ne e1] at hd hd'
              by_cases e2 : j = i
              · subst e2
                rw [List.getElem?_set_self j1] at hd
                rw [List.getElem?_set_self j2] at hd'
                cases hd
                cases hd'
                exact rA
              · rw [List.getElem?_set_ne e2] at hd hd' hi
                exact h.rel i d d' hi hd hd'
          · intro i hi
            show (s.active.set j true)[i]? = some true
            by_cases e : j = i
            · subst e; exact List.getElem?_set_self hj
            · rw [List.getElem?_set_ne e]; exact hi

theorem split_rel {sqrt : K → K} {s s' : State K} (h : SRel b φ s s') {ci : Nat} (hci : s.active[ci]? = some true) :
    RelR (fun r r' => SRel b φ r r' ∧ ∀ i : Nat, s.active[i]? = some true → r.active[i]? = some true) (split sqrt s ci) (split sqrt s' ci) := by
  unfold split
  rw [h.active, h.len', ← h.len, h.cleaning, lowest_rel h]
  cases hf : freeLoop s.active (some ci) 0 s.clusters.length with
  | error e => rfl
  | ok o =>
      cases o with
      | some j => exact splitInto_rel h hci (freeLoop_lt h.len hf)
      | none =>
          simp only [bind, Except.bind]
          split
          · cases hl : lowest s with
            | error e => rfl
            | ok o =>
                cases o with
                | none => rfl
                | some j => exact splitInto_rel h hci (lowest_lt h.len hl)
          · exact ⟨h, fun _ hi => hi⟩

theorem SRel.set {s s' : State K} (h : SRel b φ s s') {i : Nat} {c c' : Cluster K} (hc : Rel b φ c c') :
    SRel b φ { s with clusters := s.clusters.set i c } { s' with clusters := s'.clusters.set i c' } := by
  refine ⟨by simp [h.len], by simp [h.len'], h.active, h.count, h.timestamp, h.errorThr, h.perfThr, h.cleaning, ?_⟩
  intro k d d' hk hd hd'
  simp only at hk hd hd'
  by_cases e : i = k
  · subst e
    have hlt : i < s.active.length := (List.getElem?_eq_some_iff.1 hk).1
    rw [List.getElem?_set_self (by rw [h.len]; exact hlt)] at hd
    rw [List.getElem?_set_self (by rw [h.len']; exact hlt)] at hd'
    cases hd
    cases hd'
    exact hc
  · rw [List.getElem?_set_ne e] at hd hd'
    exact h.rel k d d' hk hd hd'

theorem RelR.mono {A B : Type} {R S : A → B → Prop} {r : Res A} {r' : Res B} (h : RelR R r r') (hRS : ∀ a b, R a b → S a b) : RelR S r r' := by
  cases r <;> cases r' <;> first | exact hRS _ _ h | exact h

theorem tail_rel {sqrt : K → K} {s s' : State K} (h : SRel b φ s s') {near : Nat} (hn : s.active[near]? = some true) :
    RelR (SRel b φ) (do let a ← rd s.clusters near; if a.err ≤ 0 then split sqrt s near else pure s)
      (do let a ← rd s'.clusters near; if a.err ≤ 0 then split sqrt s' near else pure s') := by
  refine (h.rd_rel hn).bind fun a a' haa => ?_
  rw [haa.err]
  split
  · exact (split_rel h hn).mono fun _ _ hr => hr.1
  · exact h

theorem absorb_rel {sqrt : K → K} {s s' : State K} (h : SRel b φ s s') {x : List K} (hx : x.length = b.length) {near nc : Nat}
    (hn : s.active[near]? = some true) (hc : s.active[nc]? = some true) :
    RelR (SRel b φ) (absorb sqrt s x near nc) (absorb sqrt s' (shift b x) near nc) := by
  have ln : near < s.active.length := (List.getElem?_eq_some_iff.1 hn).1
  have lc : nc < s.active.length := (List.getElem?_eq_some_iff.1 hc).1
  unfold absorb
  by_cases e : near = nc
  · rw [if_pos e, if_pos e]
    refine (h.rd_rel hn).bind fun c c' hcc => ?_
    have i1 : near < s.clusters.length := by rw [h.len]; exact ln
    have i2 : near < s'.clusters.length := by rw [h.len']; exact ln
    rw [wr_ok _ i1, wr_ok _ i2, h.timestamp]
    have := h.set (i := near) ((hcc.setErr (show c'.err + 1 = c.err + 1 by rw [hcc.err])).incorporate hx s.timestamp)
    simp only [h.timestamp] at this
    exact this
  · rw [if_neg e, if_neg e]
    refine (h.rd_rel hn).bind fun c c' hcc => ?_
    have i1 : near < s.clusters.length := by rw [h.len]; exact ln
    have i2 : near < s'.clusters.length := by rw [h.len']; exact ln
    rw [wr_ok _ i1, wr_ok _ i2]
    have h1 : SRel b φ { s with clusters := s.clusters.set near { c with err := c.err - 1 } } { s' with clusters := s'.clusters.set near { c' with err := c'.err - 1 } } :=
      h.set (hcc.setErr (by rw [hcc.err]))
    show RelR _ (do
      let b ← rd (s.clusters.set near { c with err := c.err - 1 }) nc
      _) (do
      let b ← rd (s'.clusters.set near { c' with err := c'.err - 1 }) nc
      _)
    refine (h1.rd_rel hc).bind fun d d' hdd => ?_
    have k1 : nc < (s.clusters.set near { c with err := c.err - 1 }).length := by rw [List.length_set, h.len]; exact lc
    have k2 : nc < (s'.clusters.set near { c' with err := c'.err - 1 }).length := by rw [List.length_set, h.len']; exact lc
    simp only [wr_ok _ k1, wr_ok _ k2]
    have h2 := h1.set (i := nc) ((hdd.setErr (e := d.err - 1) (e' := d'.err - 1) (by rw [hdd.err])).incorporate hx s.timestamp)
    simp only [h.timestamp, hdd.err] at h2 ⊢
    simp only [bind, Except.bind]
    split
    · exact RelR.bind (split_rel (sqrt := sqrt) h2 (ci := nc) hc) fun t t' ht => tail_rel ht.1 (ht.2 near hn)
    · exact tail_rel h2 hn

theorem clean_rel {s s' : State K} (h : SRel b φ s s') : SRel b φ (clean s) (clean s') := by
  have hact : (clean s').active = (clean s).active := by
    unfold clean
    simp only [h.active, h.timestamp, h.perfThr]
    apply List.ext_getElem
    · simp [h.len, h.len']
    · intro i h1 h2
      simp only [List.getElem_zipWith]
      have l1 : i < s.active.length := by simp at h1; omega
      have l2 : i < s.clusters.length := by rw [h.len]; exact l1
      have l3 : i < s'.clusters.length := by rw [h.len']; exact l1
      cases ha : s.active[i] with
      | false => simp
      | true =>
          have hr := h.rel i _ _ (by rw [List.getElem?_eq_getElem l1, ha]) (List.getElem?_eq_getElem l2) (List.getElem?_eq_getElem l3)
          rw [hr.n, hr.performance]
  refine ⟨?_, ?_, hact, h.count, h.timestamp, h.errorThr, h.perfThr, h.cleaning, ?_⟩
  · simp [clean, h.len]
  · simp [clean, h.len, h.len']
  · intro i c c' hi hc hc'
    exact h.rel i c c' (clean_active (c := c) ⟨hi, hc⟩).1 hc hc'

theorem prepared_rel {s s' : State K} (h : SRel b φ s s') : SRel b φ (prepared s) (prepared s') := by
  unfold prepared
  rw [h.cleaning]
  split
  · have := clean_rel h
    exact ⟨this.len, this.len', this.active, this.count, by simp [h.timestamp], this.errorThr, this.perfThr, this.cleaning, this.rel⟩
  · exact ⟨h.len, h.len', h.active, h.count, by simp [h.timestamp], h.errorThr, h.perfThr, h.cleaning, h.rel⟩

theorem insert_rel {s s' : State K} (h : SRel b φ s s') {x : List K} (hx : x.length = b.length) (label : Int) :
    RelR (fun r r' => SRel b φ r.1 r'.1 ∧ r'.2 = r.2) (insert s x label) (insert s' (shift b x) (φ label)) := by
  unfold insert
  rw [h.active, h.len', ← h.len, h.cleaning, lowest_rel h, h.timestamp, h.errorThr]
  cases hf : freeLoop s.active none 0 s.clusters.length with
  | error e => rfl
  | ok o =>
      cases o with
      | some j =>
          have hj := freeLoop_lt h.len hf
          have j1 : j < s.clusters.length := by rw [h.len]; exact hj
          have j2 : j < s'.clusters.length := by rw [h.len']; exact hj
          simp only [bind, Except.bind, wr_ok _ hj, wr_ok _ j1, wr_ok _ j2, pure, Except.pure]
          refine ⟨⟨by simp [h.len], by simp [h.len'], rfl, by simp [h.count], rfl, rfl, h.perfThr, rfl, ?_⟩, rfl⟩
          intro i d d' hi hd hd'
          simp only at hi hd hd'
          by_cases e2 : j = i
          · subst e2
            rw [List.getElem?_set_self j1] at hd
            rw [List.getElem?_set_self j2] at hd'
            cases hd
            cases hd'
            exact rel_init hx _ _ _
          · rw [List.getElem?_set_ne e2] at hd hd' hi
            exact h.rel i d d' hi hd hd'
      | none =>
          simp only [bind, Except.bind]
          split
          · cases hl : lowest s with
            | error e => rfl
            | ok o =>
                cases o with
                | none => rfl
                | some j =>
                    have hj := lowest_lt h.len hl
                    have j1 : j < s.clusters.length := by rw [h.len]; exact hj
                    have j2 : j < s'.clusters.length := by rw [h.len']; exact hj
                    simp only [wr_ok _ j1, wr_ok _ j2, pure, Except.pure]
                    have := h.set (i := j) (rel_init (φ := φ) hx label s.timestamp s.errorThr)
                    simp only [h.active, h.timestamp, h.errorThr, h.cleaning] at this
                    exact ⟨this, rfl⟩
          · exact ⟨h, rfl⟩

theorem train_rel (hφ : Function.Injective φ) {sqrt : K → K} {s s' : State K} (h : SRel b φ s s') {x : List K} (hx : x.length = b.length) (label : Int) :
    RelR (fun r r' => SRel b φ r.1 r'.1 ∧ r'.2 = r.2) (train sqrt s x label) (train sqrt s' (shift b x) (φ label)) := by
  have hp := prepared_rel h
  rw [train_eq, train_eq, findNearestClass_rel hφ hp hx]
  rcases findNearestClass_spec (prepared s) x label hp.len with ⟨near, h1, -⟩ | ⟨i, j, c, d, h1, h2, h3, -⟩
  · rw [h1]
    exact insert_rel hp hx label
  · rw [h1]
    exact (absorb_rel hp hx h2.1 h3.1).bind fun a a' haa => ⟨haa, rfl⟩

theorem run_rel (hφ : Function.Injective φ) {sqrt : K → K} : ∀ (ps : List (List K × Int)) (s s' : State K), SRel b φ s s' → (∀ p ∈ ps, p.1.length = b.length) →
    RelR (SRel b φ) (run sqrt s ps) (run sqrt s' (ps.map (fun p => (shift b p.1, φ p.2))))
  | [], s, s', h, _ => h
  | p :: ps, s, s', h, hl => by
      refine (train_rel hφ h (hl p (by simp)) p.2).bind fun r r' hr => ?_
      exact run_rel hφ ps r.1 r'.1 hr.1 (fun q hq => hl q (by simp [hq]))

theorem predict_rel {s s' : State K} (h : SRel b φ s s') {x : List K} (hx : x.length = b.length) (e : Int) :
    predict (φ e) s' (shift b x) = (predict e s x).map φ := by
  obtain ⟨near, dn, h1, h2⟩ := findNearest_spec s x h.len
  unfold predict
  rw [findNearest_rel h hx, h1]
  rcases h2 with ⟨rfl, -, -⟩ | ⟨j, c, rfl, -, h6, -, -⟩
  · rfl
  · have hr := h.rd_rel h6.1
    simp only [bind, Except.bind]
    rw [rd_eq_ok_iff.2 h6.2] at hr ⊢
    cases h3 : rd s'.clusters j with
    | error e => rw [h3] at hr; cases hr
    | ok c' =>
        rw [h3] at hr
        show Except.ok c'.label = Except.ok (φ c.label)
        rw [Rel.label hr]

theorem new_rel (g g' : List (Cluster K)) (hg : g'.length = g.length) (thr cl : Nat) (pt : ℚ) : SRel b φ (new g thr cl pt) (new g' thr cl pt) := by
  refine ⟨by simp [new], by simp [new, hg], ?_, rfl, rfl, rfl, rfl, rfl, ?_⟩
  · simp [new, List.map_const', hg]
  · intro i c c' hi
    simp [new, List.map_const', List.getElem?_replicate] at hi

/-- The history with offsets and renamed labels on any other object of the same size: both fail in the same way or end in corresponding states. -/
theorem history_rel (b : List K) (hφ : Function.Injective φ) (sqrt : K → K) (g g' : List (Cluster K)) (hg : g'.length = g.length) (thr cl : Nat) (pt : ℚ)
    (ps : List (List K × Int)) (hl : ∀ p ∈ ps, p.1.length = b.length) :
    RelR (SRel b φ) (run sqrt (new g thr cl pt) ps) (run sqrt (new g' thr cl pt) (ps.map (fun p => (shift b p.1, φ p.2)))) :=
  run_rel hφ ps _ _ (new_rel g g' hg thr cl pt) hl

/-- **C100** MC-NN does not depend on the origin of the features: if the same offsets `b` are added to every training point and to every query, the same labels are
predicted and the same clusters are in use, whatever the indeterminate contents of the new objects. -/
theorem C100_origin (b : List K) (sqrt : K → K) (g g' : List (Cluster K)) (hg : g'.length = g.length) (thr cl : Nat) (pt : ℚ) (ps : List (List K × Int))
    (hl : ∀ p ∈ ps, p.1.length = b.length) (s : State K) (h : run sqrt (new g thr cl pt) ps = .ok s) :
    ∃ s', run sqrt (new g' thr cl pt) (ps.map (fun p => (List.zipWith (· + ·) p.1 b, p.2))) = .ok s' ∧ countClusters s' = countClusters s ∧
      s'.active = s.active ∧ ∀ (e : Int) (x : List K), x.length = b.length → predict e s' (List.zipWith (· + ·) x b) = predict e s x := by
  have := history_rel (φ := id) b Function.injective_id sqrt g g' hg thr cl pt ps hl
  rw [h] at this
  cases h' : run sqrt (new g' thr cl pt) (ps.map (fun p => (shift b p.1, id p.2))) with
  | error e => rw [h'] at this; cases this
  | ok s' =>
      rw [h'] at this
      have hr : SRel b id s s' := this
      refine ⟨s', h', hr.count, hr.active, fun e x hx => ?_⟩
      have := predict_rel hr hx e
      rw [show (predict e s x).map id = predict e s x by cases predict e s x <;> rfl] at this
      exact this

/-- **C101** MC-NN does not depend on the names of the labels: if the labels of all training points are renamed by an injective function, and the class returned for
an empty classifier with them, the renamed labels are predicted. -/
theorem C101_rename (φ : Int → Int) (hφ : Function.Injective φ) (sqrt : K → K) (g g' : List (Cluster K)) (hg : g'.length = g.length) (thr cl : Nat) (pt : ℚ)
    (fc : Nat) (ps : List (List K × Int)) (hl : ∀ p ∈ ps, p.1.length = fc) (s : State K) (h : run sqrt (new g thr cl pt) ps = .ok s) :
    ∃ s', run sqrt (new g' thr cl pt) (ps.map (fun p => (p.1, φ p.2))) = .ok s' ∧ countClusters s' = countClusters s ∧ s'.active = s.active ∧
      ∀ (e : Int) (x : List K), x.length = fc → predict (φ e) s' x = (predict e s x).map φ := by
  have hsh : ∀ x : List K, x.length = fc → shift (List.replicate fc 0) x = x := by
    intro x hx
    apply List.ext_getElem
    · simp [shift, hx]
    · intro i h1 h2
      simp [shift]
  have hmap : ps.map (fun p => (shift (List.replicate fc 0) p.1, φ p.2)) = ps.map (fun p => (p.1, φ p.2)) := by
    apply List.map_congr_left
    intro p hp
    rw [hsh _ (hl p hp)]
  have := history_rel (φ := φ) (List.replicate fc (0 : K)) hφ sqrt g g' hg thr cl pt ps (by simpa using hl)
  rw [h, hmap] at this
  cases h' : run sqrt (new g' thr cl pt) (ps.map (fun p => (p.1, φ p.2))) with
  | error e => rw [h'] at this; cases this
  | ok s' =>
      rw [h'] at this
      have hr : SRel (List.replicate fc 0) φ s s' := this
      refine ⟨s', rfl, hr.count, hr.active, fun e x hx => ?_⟩
      have := predict_rel hr (x := x) (by simpa using hx) e
      rw [hsh x hx] at this
      exact this

/-- The units of the features do matter: in units in which the numbers are ten times as great, the query is further from the only training point than the
distance at which the search starts. -/
theorem C100_units : (run (K := ℚ) id (new [junk, junk] 2 0 50) [([0], 1)]).bind (fun s => predict (-1) s [100]) = .ok 1 ∧
    (run (K := ℚ) id (new [junk, junk] 2 0 50) [([10 * 0], 1)]).bind (fun s => predict (-1) s [10 * 100]) = .ok (-1) := by
  decide +kernel

example : (run (K := ℚ) id (new [junk, junk] 1 0 50) [([0], 1), ([10], 2), ([6], 1)]).map (fun s => (predict (-1) s [4], countClusters s)) =
    (run (K := ℚ) id (new [junk, junk] 1 0 50) ([([0], 1), ([10], 2), ([6], 1)].map (fun p => (List.zipWith (· + ·) p.1 [7], p.2)))).map
      (fun s => (predict (-1) s [11], countClusters s)) := by
  decide +kernel

end Orp.Mcnn
