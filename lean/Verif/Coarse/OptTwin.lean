import Verif.Coarse.Optimize
import Verif.Coarse.History

/-!
With `EXTEND_ORIGINAL`, the counters of the split nodes have no influence on anything but the counters of split nodes.
-/

set_option linter.unusedSectionVars false

namespace Orp.Coarse

open Finset
open Mondrian (Node Box Forest Params Cut upd init extent cutAt bump sampleBlock OnlyCounts)

variable {K : Type} [Field K] [LinearOrder K] [IsStrictOrderedRing K] [FloorRing K] {F L : Nat}

/-- both fail in the same way, or both results are related -/
def RelR {A B : Type} (R : A → B → Prop) : Res A → Res B → Prop
  | .ok a, .ok b => R a b
  | .error e, .error e' => e = e'
  | _, _ => False

theorem RelR.bind {A B A' B' : Type} {R : A → B → Prop} {S : A' → B' → Prop} {r : Res A} {r' : Res B} {f : A → Res A'} {f' : B → Res B'} (h : RelR R r r')
    (hf : ∀ a b, R a b → RelR S (f a) (f' b)) : RelR S (r >>= f) (r' >>= f') := by
  cases r with
  | ok a =>
      cases r' with
      | ok b => exact hf a b h
      | error e => cases h
  | error e =>
      cases r' with
      | ok b => cases h
      | error e' => exact h

theorem RelR.eq {A : Type} {r r' : Res A} (h : r = r') : RelR Eq r r' := by
  subst h
  cases r <;> rfl

theorem RelR.to_eq {A : Type} {r r' : Res A} (h : RelR Eq r r') : r = r' := by
  cases r <;> cases r' <;> first | exact congrArg _ h | cases h

/-- the same node up to the counters of a split node -/
def LikeN (n n' : Node K F L) : Prop := ∃ c, n' = { n with counts := c } ∧ (n.dim = none → c = n.counts)

theorem LikeN.refl (n : Node K F L) : LikeN n n := ⟨n.counts, rfl, fun _ => rfl⟩

theorem LikeN.fields {n n' : Node K F L} (h : LikeN n n') : n'.dim = n.dim ∧ n'.split = n.split ∧ n'.box = n.box ∧ n'.left = n.left ∧ n'.right = n.right ∧
    n'.parent = n.parent ∧ n'.tau = n.tau := by
  obtain ⟨c, rfl, -⟩ := h
  exact ⟨rfl, rfl, rfl, rfl, rfl, rfl, rfl⟩

theorem like_rd {nodes nodes' : List (Node K F L)} (h : OnlyCounts nodes nodes') (i : Nat) : RelR LikeN (rd nodes i) (rd nodes' i) := by
  unfold rd
  cases hn : nodes[i]? with
  | none =>
      have : nodes'[i]? = none := by
        rw [List.getElem?_eq_none_iff] at hn ⊢
        rw [h.1]
        exact hn
      rw [this]
      rfl
  | some n =>
      obtain ⟨c, hc, hd⟩ := h.2 i n hn
      rw [hc]
      exact ⟨c, rfl, hd⟩

theorem like_wr {nodes nodes' : List (Node K F L)} (h : OnlyCounts nodes nodes') (i : Nat) {n n' : Node K F L} (hn : LikeN n n') :
    RelR OnlyCounts (wr nodes i n) (wr nodes' i n') := by
  unfold wr
  rw [h.1]
  split
  · rename_i hi
    refine ⟨by simp [h.1], fun j m hj => ?_⟩
    by_cases hji : i = j
    · subst hji
      rw [List.getElem?_set_self hi] at hj
      cases hj
      rw [List.getElem?_set_self (by rw [h.1]; exact hi)]
      obtain ⟨c, rfl, hc⟩ := hn
      exact ⟨c, rfl, hc⟩
    · rw [List.getElem?_set_ne hji] at hj ⊢
      exact h.2 j m hj
  · rfl

theorem like_upd {nodes nodes' : List (Node K F L)} (h : OnlyCounts nodes nodes') (i : Nat) {f f' : Node K F L → Node K F L}
    (hf : ∀ n n', LikeN n n' → LikeN (f n) (f' n')) : RelR OnlyCounts (upd nodes i f) (upd nodes' i f') :=
  (like_rd h i).bind fun n n' hn => like_wr h i (hf n n' hn)

theorem like_init {A : Type} {a b : Option A} (h : a = b) : RelR Eq (init a) (init b) := .eq (by rw [h])

/-- the same object up to the counters of split nodes -/
structure Twin (s s' : State K F L) : Prop where
  nodes : OnlyCounts s.forest.nodes s'.forest.nodes
  roots : s'.forest.roots = s.forest.roots
  fading : s'.fading = s.fading
  forced : s'.forced = s.forced
  bases : s'.bases = s.bases
  free : s'.free = s.free
  last : s'.last = s.last
  total : s'.total = s.total

theorem Twin.refl (s : State K F L) : Twin s s := ⟨.refl _, rfl, rfl, rfl, rfl, rfl, rfl, rfl⟩

theorem Twin.trans {s s' s'' : State K F L} (h : Twin s s') (h' : Twin s' s'') : Twin s s'' :=
  ⟨h.nodes.trans h'.nodes, h'.roots.trans h.roots, h'.fading.trans h.fading, h'.forced.trans h.forced, h'.bases.trans h.bases, h'.free.trans h.free,
    h'.last.trans h.last, h'.total.trans h.total⟩

theorem OnlyCounts.symm {a b : List (Node K F L)} (h : OnlyCounts a b) : OnlyCounts b a := by
  refine ⟨h.1.symm, fun i n hn => ?_⟩
  cases ha : a[i]? with
  | none =>
      rw [List.getElem?_eq_none_iff, ← h.1, ← List.getElem?_eq_none_iff, hn] at ha
      cases ha
  | some m =>
      obtain ⟨c, hc, hd⟩ := h.2 i m ha
      rw [hn] at hc
      have := Option.some.inj hc
      subst this
      exact ⟨m.counts, rfl, fun hm => (hd hm).symm⟩

theorem Twin.symm {s s' : State K F L} (h : Twin s s') : Twin s' s :=
  ⟨OnlyCounts.symm h.nodes, h.roots.symm, h.fading.symm, h.forced.symm, h.bases.symm, h.free.symm, h.last.symm, h.total.symm⟩

theorem Twin.withNodes {s s' : State K F L} (h : Twin s s') {n n' : List (Node K F L)} (hn : OnlyCounts n n') :
    Twin { s with forest := { s.forest with nodes := n } } { s' with forest := { s'.forest with nodes := n' } } :=
  ⟨hn, h.roots, h.fading, h.forced, h.bases, h.free, h.last, h.total⟩

/-! ### Functions that only read -/

theorem like_scan {nodes nodes' : List (Node K F L)} (h : OnlyCounts nodes nodes') (last : Nat) : ∀ k i, scan nodes last i k = scan nodes' last i k := by
  intro k
  induction k with
  | zero => intro i; rfl
  | succ k ih =>
      intro i
      unfold scan
      rw [h.1]
      refine RelR.to_eq ((like_rd h _).bind fun n n' hn => .eq ?_)
      have hav : n'.available = n.available := by unfold Mondrian.Node.available; rw [hn.fields.2.2.2.2.2.2]
      rw [hav, ih]

theorem like_takeNode {s s' : State K F L} (h : Twin s s') : RelR (fun a b => a.1 = b.1 ∧ Twin a.2 b.2) (takeNode s) (takeNode s') := by
  unfold takeNode
  have he : availableNode s = availableNode s' := by
    unfold availableNode
    rw [h.free, h.last, h.nodes.1, like_scan h.nodes]
  refine (RelR.eq he).bind fun a b hab => ?_
  subst hab
  cases a with
  | none => exact ⟨rfl, h⟩
  | some id => exact ⟨rfl, h.nodes, h.roots, h.fading, h.forced, h.bases, h.free, rfl, h.total⟩

theorem like_depthLoop {nodes nodes' : List (Node K F L)} (h : OnlyCounts nodes nodes') : ∀ fuel i id depth maxDepth stack,
    depthLoop nodes fuel i id depth maxDepth stack = depthLoop nodes' fuel i id depth maxDepth stack := by
  intro fuel
  induction fuel with
  | zero => intros; rfl
  | succ fuel ih =>
      intro i id depth maxDepth stack
      unfold depthLoop
      rw [h.1]
      split
      · refine RelR.to_eq ((RelR.eq rfl).bind fun a b hab => ?_)
        subst hab
        refine (like_rd h _).bind fun n n' hn => .eq ?_
        obtain ⟨c, rfl, -⟩ := hn
        simp only [ih]
      · rfl

theorem like_unravel {nodes nodes' : List (Node K F L)} (h : OnlyCounts nodes nodes') : ∀ fuel id, unravel nodes fuel id = unravel nodes' fuel id := by
  intro fuel
  induction fuel with
  | zero => intros; rfl
  | succ fuel ih =>
      intro id
      unfold unravel
      refine RelR.to_eq ((like_rd h _).bind fun n n' hn => .eq ?_)
      obtain ⟨c, rfl, -⟩ := hn
      simp only [ih]

theorem like_paused (c : Config K) {s s' : State K F L} (h : Twin s s') (tree id : Nat) : paused c s tree id = paused c s' tree id := by
  unfold paused nodeDepth
  rw [h.bases, h.nodes.1, like_depthLoop h.nodes, like_unravel h.nodes]

/-! ### Functions that write -/

theorem like_sampleBlock (p : Params K) {nodes nodes' : List (Node K F L)} (h : OnlyCounts nodes nodes') (id : Nat) (x : Fin F → K) (label : Fin L) :
    RelR OnlyCounts (sampleBlock p nodes id x label) (sampleBlock p nodes' id x label) := by
  unfold sampleBlock
  refine like_upd h id fun n n' hn => ?_
  obtain ⟨c, rfl, hc⟩ := hn
  refine ⟨bump c label, rfl, fun hd => ?_⟩
  rw [hc hd]

/-- the same roots and nodes up to the counters of split nodes -/
def LikeF (a b : Forest K F L) : Prop := OnlyCounts a.nodes b.nodes ∧ b.roots = a.roots

theorem like_relink {a b : Forest K F L} (h : LikeF a b) (id tree np : Nat) : RelR LikeF (Mondrian.relink a id tree np) (Mondrian.relink b id tree np) := by
  unfold Mondrian.relink
  rw [h.2]
  refine (like_rd h.1 id).bind fun n n' hn => (RelR.eq rfl).bind fun r r' hr => ?_
  subst hr
  obtain ⟨c, rfl, -⟩ := hn
  by_cases hif : n.parent = none ∧ r = some id
  · simp only [if_pos hif]
    refine (RelR.eq rfl).bind fun q q' hq => ?_
    subst hq
    exact ⟨h.1, rfl⟩
  · simp only [if_neg hif]
    cases n.parent with
    | none => rfl
    | some q =>
        refine (like_upd h.1 q fun m m' hm => ?_).bind fun m m' hm => ⟨hm, rfl⟩
        obtain ⟨c, rfl, hc⟩ := hm
        by_cases hl : m.left = some id
        · simp only [if_pos hl]
          exact ⟨c, rfl, hc⟩
        · simp only [if_neg hl]
          exact ⟨c, rfl, hc⟩

theorem like_insertNodes (p : Params K) {a b : Forest K F L} (h : LikeF a b) (id tree np ns : Nat) (cut : Cut K F) (x : Fin F → K) (label : Fin L) :
    RelR LikeF (Mondrian.insertNodes p a id tree np ns cut x label) (Mondrian.insertNodes p b id tree np ns cut x label) := by
  unfold Mondrian.insertNodes
  refine (like_rd h.1 id).bind fun n n' hn => (like_init hn.fields.2.2.1.symm).bind fun bx bx' hb => ?_
  subst hb
  refine (like_upd h.1 np ?_).bind fun n1 n1' h1 => (like_upd h1 ns ?_).bind fun n2 n2' h2 => (like_rd h2 id).bind fun m m' hm => ?_
  · rintro a a' ⟨c, rfl, hc⟩
    exact ⟨c, rfl, hc⟩
  · rintro a a' ⟨c, rfl, hc⟩
    exact ⟨_, rfl, fun _ => rfl⟩
  have hp := hm.fields.2.2.2.2.2.1
  refine (like_upd h2 np ?_).bind fun n3 n3' h3 => (like_relink (a := { a with nodes := n3 }) (b := { b with nodes := n3' }) ⟨h3, h.2⟩ id tree np).bind fun f f' hf => ?_
  · rintro a a' ⟨c, rfl, hc⟩
    rw [hp]
    exact ⟨c, rfl, hc⟩
  refine (like_upd hf.1 id ?_).bind fun n4 n4' h4 => (like_upd h4 ns ?_).bind fun n5 n5' h5 => ?_
  · rintro a a' ⟨c, rfl, hc⟩
    exact ⟨c, rfl, hc⟩
  · rintro a a' ⟨c, rfl, hc⟩
    exact ⟨c, rfl, hc⟩
  refine RelR.bind (R := OnlyCounts) ?_ fun n6 n6' h6 => (like_sampleBlock p h6 ns x label).bind fun n7 n7' h7 => ⟨h7, hf.2⟩
  split
  · refine like_upd h5 np ?_
    rintro a a' ⟨c, rfl, hc⟩
    exact ⟨c, rfl, hc⟩
  · refine like_upd h5 np ?_
    rintro a a' ⟨c, rfl, hc⟩
    exact ⟨c, rfl, hc⟩

theorem takeNode_nodes {s s1 : State K F L} {o : Option Nat} (h : takeNode s = .ok (o, s1)) : s1.forest = s.forest := by
  unfold takeNode at h
  cases ha : availableNode s with
  | error e => rw [ha] at h; cases h
  | ok r =>
      rw [ha] at h
      cases r with
      | none => cases h; rfl
      | some i => cases h; rfl

theorem RelR.keep {A B : Type} {R : A → B → Prop} {r : Res A} {r' : Res B} (h : RelR R r r') : RelR (fun a b => R a b ∧ r = .ok a) r r' := by
  cases r <;> cases r' <;> first | exact ⟨h, rfl⟩ | exact h

theorem upd_get {nodes nodes' : List (Node K F L)} {i : Nat} {f : Node K F L → Node K F L} (h : upd nodes i f = .ok nodes') :
    ∃ n, nodes[i]? = some n ∧ nodes'[i]? = some (f n) := by
  unfold upd at h
  cases hr : rd nodes i with
  | error e => rw [hr] at h; cases h
  | ok n =>
      rw [hr] at h
      change wr nodes i (f n) = .ok nodes' at h
      unfold wr at h
      split at h
      · rename_i hi
        cases h
        exact ⟨n, rd_eq_ok_iff.1 hr, List.getElem?_set_self hi⟩
      · cases h

theorem like_insert (c : Config K) (p : Params K) {s s' : State K F L} (h : Twin s s') (id tree : Nat) (cut : Cut K F) (x : Fin F → K) (label : Fin L) :
    RelR Twin (insert c p s id tree cut x label) (insert c p s' id tree cut x label) := by
  unfold insert
  refine (like_takeNode h).bind fun a a' ha => ?_
  obtain ⟨o, s1⟩ := a
  obtain ⟨o', s1'⟩ := a'
  obtain ⟨ho, h1⟩ := ha
  simp only at ho h1
  subst ho
  refine (like_init rfl).bind fun np np' hnp => ?_
  subst hnp
  refine (like_upd h1.nodes np ?_).keep.bind fun n n' hn => ?_
  · rintro a a' ⟨d, rfl, hd⟩
    exact ⟨d, rfl, fun h => by cases h⟩
  obtain ⟨hn, hu⟩ := hn
  obtain ⟨m0, -, hm0⟩ := upd_get hu
  refine (like_takeNode (h1.withNodes hn)).keep.bind fun a a' ha => ?_
  obtain ⟨o2, s2⟩ := a
  obtain ⟨o2', s2'⟩ := a'
  obtain ⟨⟨ho2, h2⟩, ht⟩ := ha
  have hf2 := takeNode_nodes ht
  simp only at ho2 h2
  subst ho2
  refine (like_init rfl).bind fun ns ns' hns => ?_
  subst hns
  refine (like_rd h2.nodes id).bind fun m m' hm => ?_
  refine RelR.bind (R := OnlyCounts) ?_ fun n3 n3' h3 => ?_
  · refine ((like_rd h2.nodes np).keep).bind fun q q' hq => like_wr h2.nodes np ?_
    obtain ⟨⟨d, rfl, hd⟩, hr⟩ := hq
    refine ⟨_, rfl, fun hdim => ?_⟩
    have := rd_eq_ok_iff.1 hr
    rw [hf2] at this
    simp only [hm0, Option.some.injEq] at this
    subst this
    cases hdim
  · refine (like_insertNodes p (a := { s2.forest with nodes := n3 }) (b := { s2'.forest with nodes := n3' }) ⟨h3, h2.roots⟩ id tree np ns cut x label).bind fun f f' hf => ?_
    exact ⟨hf.1, hf.2, h2.fading, h2.forced, h2.bases, by simp only [h2.free], h2.last, h2.total⟩

theorem like_countAt {s s' : State K F L} (h : Twin s s') (id : Nat) (label : Fin L) : RelR Twin (countAt s id label) (countAt s' id label) := by
  unfold countAt
  refine (like_upd h.nodes id ?_).bind fun n n' hn => ?_
  · rintro a a' ⟨d, rfl, hd⟩
    exact ⟨bump d label, rfl, fun hdim => by rw [hd hdim]⟩
  rw [h.fading]
  refine (RelR.eq rfl).bind fun f f' hf => ?_
  subst hf
  refine (RelR.eq rfl).bind fun g g' hg => ?_
  subst hg
  exact ⟨hn, h.roots, rfl, h.forced, h.bases, h.free, h.last, h.total⟩

/-- the states of two runs, at the same position in the random numbers -/
def Twin2 (a b : State K F L × Nat) : Prop := Twin a.1 b.1 ∧ a.2 = b.2

/-- the states of two runs, at the same position in the random numbers, with the same returned value -/
def Twin3 (a b : State K F L × Nat × Bool) : Prop := Twin a.1 b.1 ∧ a.2 = b.2

theorem like_descend (c : Config K) (x : Fin F → K) (label : Fin L) {rec : Nat → Nat → State K F L → Res (State K F L × Nat)}
    (hrec : ∀ id pos s s', Twin s s' → RelR Twin2 (rec id pos s) (rec id pos s')) (id pos : Nat) {s s' : State K F L} (h : Twin s s') :
    RelR Twin2 (descend c x label rec id pos s) (descend c x label rec id pos s') := by
  unfold descend
  refine (like_rd h.nodes id).bind fun n n' hn => ?_
  obtain ⟨d, rfl, hd⟩ := hn
  simp only
  cases n.dim with
  | none =>
      refine (like_countAt h id label).bind fun a a' ha => ?_
      exact ⟨ha, rfl⟩
  | some dim =>
      refine (like_init rfl).bind fun sp sp' hsp => ?_
      subst hsp
      refine (like_init rfl).bind fun ch ch' hch => ?_
      subst hch
      refine (hrec ch pos s s' h).bind fun a a' ha => ?_
      obtain ⟨s1, pos1⟩ := a
      obtain ⟨s1', pos1'⟩ := a'
      obtain ⟨h1, h2⟩ := ha
      simp only at h1 h2
      subst h2
      simp only
      split
      · refine (like_upd h1.nodes id ?_).bind fun n n' hn => ?_
        · rintro a a' ⟨d, rfl, hd⟩
          exact ⟨bump d label, rfl, fun hdim => by rw [hd hdim]⟩
        exact ⟨h1.withNodes hn, rfl⟩
      · exact ⟨h1, rfl⟩

theorem like_extendBlock (c : Config K) (p : Params K) (ω : Nat → K) (x : Fin F → K) (label : Fin L) (tree : Nat) : ∀ fuel id pos s s', Twin s s' →
    RelR Twin2 (extendBlock c p ω x label tree fuel id pos s) (extendBlock c p ω x label tree fuel id pos s') := by
  intro fuel
  induction fuel with
  | zero => intros; rfl
  | succ fuel ih =>
      intro id pos s s' h
      unfold extendBlock
      refine (like_rd h.nodes id).bind fun n n' hn => ?_
      have hn0 := hn
      obtain ⟨d, rfl, hd⟩ := hn
      simp only
      refine RelR.bind (R := Eq) ?_ fun pt pt' hpt => ?_
      · cases n.parent with
        | none => rfl
        | some q =>
            have hq := like_rd h.nodes q
            revert hq
            simp only
            cases rd s.forest.nodes q with
            | error e =>
                cases rd s'.forest.nodes q with
                | error e' => exact fun h => h
                | ok a => exact fun h => h.elim
            | ok m =>
                cases rd s'.forest.nodes q with
                | error e' => exact fun h => h.elim
                | ok m' => exact fun h => h.fields.2.2.2.2.2.2.symm
      subst hpt
      refine (like_init rfl).bind fun b b' hb => ?_
      subst hb
      refine (RelR.eq (like_paused c h tree id)).bind fun pz pz' hpz => ?_
      subst hpz
      rw [h.free]
      split
      · refine (RelR.eq rfl).bind fun cut cut' hcut => ?_
        subst hcut
        refine (like_insert c p h id tree cut.1 x label).bind fun a a' ha => ?_
        split
        · exact like_descend c x label ih id _ ha
        · exact ⟨ha, rfl⟩
      · split
        · refine (like_wr h.nodes id ?_).bind fun m m' hm => ?_
          · exact ⟨d, rfl, hd⟩
          rw [h.forced]
          refine (RelR.eq rfl).bind fun f f' hf => ?_
          subst hf
          exact like_descend c x label ih id _ ⟨hm, h.roots, h.fading, rfl, h.bases, rfl, h.last, h.total⟩
        · split
          · exact (like_countAt h id label).bind fun a a' ha => ⟨ha, rfl⟩
          · split
            · exact like_descend c x label ih id _ h
            · exact ⟨h, rfl⟩

theorem like_trainTree (c : Config K) (p : Params K) (ω : Nat → K) (x : Fin F → K) (label : Fin L) (tree : Nat) {s s' : State K F L} (h : Twin s s') (pos : Nat) :
    RelR Twin3 (trainTree c p ω x label tree s pos) (trainTree c p ω x label tree s' pos) := by
  unfold trainTree
  rw [h.roots]
  refine (RelR.eq rfl).bind fun r r' hr => ?_
  subst hr
  cases r with
  | none =>
      refine (like_takeNode h).bind fun a a' ha => ?_
      obtain ⟨o, s1⟩ := a
      obtain ⟨o', s1'⟩ := a'
      obtain ⟨ho, h1⟩ := ha
      simp only at ho h1
      subst ho
      cases o with
      | none => exact ⟨h1, rfl⟩
      | some id =>
          simp only
          rw [h1.roots]
          refine (RelR.eq rfl).bind fun r r' hr => ?_
          subst hr
          refine (like_upd h1.nodes id ?_).bind fun n n' hn => (like_sampleBlock p hn id x label).bind fun m m' hm => ?_
          · rintro a a' ⟨d, rfl, hd⟩
            exact ⟨d, rfl, hd⟩
          exact ⟨⟨hm, rfl, h1.fading, h1.forced, h1.bases, by simp only [h1.free], h1.last, h1.total⟩, rfl⟩
  | some id =>
      simp only
      split
      · exact ⟨h, by rw [h.free]⟩
      · rw [h.nodes.1]
        refine (like_extendBlock c p ω x label tree _ id pos s s' h).bind fun a a' ha => ?_
        obtain ⟨s1, pos1⟩ := a
        obtain ⟨s1', pos1'⟩ := a'
        obtain ⟨h1, h2⟩ := ha
        simp only at h1 h2
        subst h2
        exact ⟨h1, rfl⟩

end Orp.Coarse
