import Verif.Coarse.OptRun
import Verif.Coarse.Props

/-!
The counters of split nodes have no influence on any call but `predict` with `EXTEND_GHOST`; `predict` has no influence on any other call.
-/

set_option linter.unusedSectionVars false

namespace Orp.Coarse

open Finset
open Mondrian (Node Box Forest Params Tree upd init OnlyCounts lt_of_get exω exP pt)

variable {K : Type} [Field K] [LinearOrder K] [IsStrictOrderedRing K] [FloorRing K] {F L : Nat}

/-! ### Trimming -/

theorem like_trimTree (c : Config K) (ω : Nat → K) {s s' : State K F L} (h : Twin s s') (tree pos : Nat) : trimTree c ω s tree pos = trimTree c ω s' tree pos := by
  unfold trimTree
  rw [h.roots, h.fading, h.nodes.1]
  simp only [like_walk h.nodes]

theorem like_release {s s' : State K F L} (h : Twin s s') (id : Nat) : RelR Twin (release s id) (release s' id) := by
  unfold release
  rw [h.fading, h.forced]
  refine (like_wr h.nodes id (LikeN.refl _)).bind fun n n' hn => (RelR.eq rfl).bind fun f f' hf => (RelR.eq rfl).bind fun g g' hg => ?_
  subst hf hg
  exact ⟨hn, h.roots, rfl, rfl, h.bases, by simp only [h.free], h.last, h.total⟩

theorem like_resetLoop (start : Nat) : ∀ fuel i id depth stack (s s' : State K F L), Twin s s' →
    RelR (fun a b => Twin a.1 b.1 ∧ a.2 = b.2) (resetLoop start fuel i id depth stack s) (resetLoop start fuel i id depth stack s') := by
  intro fuel
  induction fuel with
  | zero => intros; rfl
  | succ fuel ih =>
      intro i id depth stack s s' h
      cases id with
      | none => exact ⟨h, rfl⟩
      | some id =>
          unfold resetLoop
          rw [h.nodes.1]
          split
          · refine (like_rd h.nodes id).bind fun n n' hn => ?_
            obtain ⟨d, rfl, hd⟩ := hn
            simp only
            cases n.dim with
            | none =>
                refine (like_release h id).bind fun s1 s1' h1 => ?_
                split
                · exact ⟨h1, rfl⟩
                · exact ih _ _ _ _ _ _ h1
            | some dim =>
                refine (RelR.eq rfl).bind fun a a' ha => ?_
                subst ha
                refine (RelR.eq rfl).bind fun b b' hb => ?_
                subst hb
                split
                · refine (RelR.eq rfl).bind fun b b' hb => ?_
                  subst hb
                  split
                  · exact ⟨h, rfl⟩
                  · exact ih _ _ _ _ _ _ h
                · split
                  · refine (RelR.eq rfl).bind fun b b' hb => ?_
                    subst hb
                    split
                    · exact ⟨h, rfl⟩
                    · exact ih _ _ _ _ _ _ h
                  · refine (like_release h id).bind fun s1 s1' h1 => ?_
                    split
                    · exact ⟨h1, rfl⟩
                    · refine (RelR.eq rfl).bind fun b b' hb => ?_
                      subst hb
                      exact ih _ _ _ _ _ _ h1
          · exact ⟨h, rfl⟩

theorem like_nodeReset {s s' : State K F L} (h : Twin s s') (id : Nat) : RelR Twin (nodeReset s id) (nodeReset s' id) := by
  unfold nodeReset
  rw [h.nodes.1]
  refine (like_resetLoop id _ _ _ _ _ s s' h).bind fun a b hab => ?_
  exact hab.1

theorem like_cutBlock {s s' : State K F L} (h : Twin s s') (id tree : Nat) : RelR Twin (cutBlock s id tree) (cutBlock s' id tree) := by
  unfold cutBlock
  refine (like_rd h.nodes id).bind fun n n' hn => ?_
  obtain ⟨d, rfl, hd⟩ := hn
  refine (RelR.eq rfl).bind fun q q' hq => ?_
  subst hq
  refine (like_rd h.nodes q).bind fun n n' hn => ?_
  obtain ⟨d, rfl, hd⟩ := hn
  refine (RelR.eq rfl).bind fun sib sib' hs => ?_
  subst hs
  simp only
  cases n.parent with
  | none =>
      refine (like_release h q).bind fun s1 s1' h1 => (like_nodeReset h1 id).bind fun s2 s2' h2 => ?_
      rw [h2.roots]
      refine (RelR.eq rfl).bind fun r r' hr => ?_
      subst hr
      refine (like_upd h2.nodes sib ?_).bind fun n n' hn => ?_
      · rintro a a' ⟨d, rfl, hd⟩
        exact ⟨d, rfl, hd⟩
      exact ⟨hn, rfl, h2.fading, h2.forced, h2.bases, h2.free, h2.last, h2.total⟩
  | some g =>
      refine (like_upd h.nodes g ?_).bind fun n n' hn => ?_
      · rintro a a' ⟨d, rfl, hd⟩
        simp only
        split
        · exact ⟨d, rfl, hd⟩
        · exact ⟨d, rfl, hd⟩
      refine (like_upd hn sib ?_).bind fun n2 n2' hn2 => ?_
      · rintro a a' ⟨d, rfl, hd⟩
        exact ⟨d, rfl, hd⟩
      exact (like_release (h.withNodes hn2) q).bind fun s1 s1' h1 => like_nodeReset h1 id

theorem like_trimLoop (c : Config K) (ω : Nat → K) : ∀ k i (s s' : State K F L) pos, Twin s s' → RelR Twin2 (trimLoop c ω i k s pos) (trimLoop c ω i k s' pos) := by
  intro k
  induction k with
  | zero => intro i s s' pos h; exact ⟨h, rfl⟩
  | succ k ih =>
      intro i s s' pos h
      unfold trimLoop
      rw [like_trimTree c ω h, h.roots]
      refine (RelR.eq rfl).bind fun a a' ha => ?_
      subst ha
      obtain ⟨id, pos1⟩ := a
      refine (RelR.eq rfl).bind fun a a' ha => ?_
      subst ha
      refine RelR.bind (R := Twin) ?_ fun s1 s1' h1 => ih _ _ _ _ h1
      cases id with
      | none => exact h
      | some id =>
          simp only
          rw [h.nodes.1]
          split
          · exact like_cutBlock h id i
          · exact h

theorem like_treeTrim (c : Config K) (ω : Nat → K) {s s' : State K F L} (h : Twin s s') (pos : Nat) : RelR Twin2 (treeTrim c ω s pos) (treeTrim c ω s' pos) := by
  unfold treeTrim
  rw [h.roots]
  split
  · exact ⟨h, rfl⟩
  · exact like_trimLoop c ω _ _ _ _ _ h

/-! ### Training -/

theorem like_trainLoop (c : Config K) (p : Params K) (ω : Nat → K) (x : Fin F → K) (label : Fin L) : ∀ k i (s s' : State K F L) pos ok, Twin s s' →
    RelR Twin3 (trainLoop c p ω x label i k s pos ok) (trainLoop c p ω x label i k s' pos ok) := by
  intro k
  induction k with
  | zero => intro i s s' pos ok h; exact ⟨h, rfl⟩
  | succ k ih =>
      intro i s s' pos ok h
      unfold trainLoop
      refine (like_trainTree c p ω x label i h pos).bind fun a a' ha => ?_
      obtain ⟨s1, r1⟩ := a
      obtain ⟨s1', r1'⟩ := a'
      obtain ⟨h1, h2⟩ := ha
      simp only at h1 h2
      subst h2
      exact ih _ _ _ _ _ h1

theorem like_train (c : Config K) (p : Params K) (ω : Nat → K) (x : Fin F → K) (label : Fin L) {s s' : State K F L} (h : Twin s s') (pos : Nat) :
    RelR Twin3 (train c p ω x label s pos) (train c p ω x label s' pos) := by
  unfold train
  refine RelR.bind (R := Twin) ?_ fun s1 s1' h1 => RelR.bind (R := Twin2) ?_ fun a a' ha => ?_
  · split
    · exact like_treeFade h
    · exact h
  · rw [h1.free, h1.total]
    split
    · exact like_treeTrim c ω h1 pos
    · exact ⟨h1, rfl⟩
  · obtain ⟨s2, pos2⟩ := a
    obtain ⟨s2', pos2'⟩ := a'
    obtain ⟨h2, h3⟩ := ha
    simp only at h2 h3
    subst h3
    simp only
    rw [h2.roots]
    refine (like_trainLoop c p ω x label _ _ _ _ _ _ h2).bind fun a a' ha => ?_
    obtain ⟨s3, r3⟩ := a
    obtain ⟨s3', r3'⟩ := a'
    obtain ⟨h4, h5⟩ := ha
    simp only at h4 h5
    subst h5
    exact ⟨⟨h4.nodes, h4.roots, h4.fading, h4.forced, h4.bases, h4.free, h4.last, by simp only [h4.total]⟩, rfl⟩

/-! ### Predictions -/

/-- the same object up to the counters of split nodes if those have no influence on predictions, the same object otherwise -/
def Near (c : Config K) (s s' : State K F L) : Prop := if c.extend = .ghost then s = s' else Twin s s'

theorem Near.refl (c : Config K) (s : State K F L) : Near c s s := by
  unfold Near
  split
  · rfl
  · exact Twin.refl s

theorem Near.symm {c : Config K} {s s' : State K F L} (h : Near c s s') : Near c s' s := by
  unfold Near at h ⊢
  split at h
  · rw [if_pos ‹_›]; exact h.symm
  · rw [if_neg ‹_›]; exact Twin.symm h

theorem Near.trans {c : Config K} {a b d : State K F L} (h : Near c a b) (h' : Near c b d) : Near c a d := by
  unfold Near at h h' ⊢
  split
  · rw [if_pos ‹_›] at h h'; exact h.trans h'
  · rw [if_neg ‹_›] at h h'; exact Twin.trans h h'

theorem Near.twin {c : Config K} {s s' : State K F L} (h : Near c s s') : Twin s s' := by
  unfold Near at h
  split at h
  · subst h; exact Twin.refl _
  · exact h

/-- the trees two such objects use for a prediction -/
theorem twin_trees {c : Config K} (hc : c.extend ≠ .ghost) {s s' : State K F L} (h : Twin s s') {trees trees' : List (Option (Tree K F L))} (hI : Inv s trees)
    (hI' : Inv s' trees') : trees.map (counted c) = trees'.map (counted c) := by
  have hr := hI.mem.all.roots
  have hr' := hI'.mem.all.roots
  rw [h.roots, hr] at hr'
  have hlen : trees.length = trees'.length := by simpa using congrArg List.length hr'
  refine List.ext_getElem? fun j => ?_
  rw [List.getElem?_map, List.getElem?_map]
  by_cases hlt : j < trees.length
  · have hlt' : j < trees'.length := by omega
    have hj := List.getElem?_eq_getElem hlt
    have hj' := List.getElem?_eq_getElem hlt'
    rw [hj, hj']
    have hjr := congrArg (fun l => l[j]?) hr'
    simp only [List.getElem?_map, hj, hj', Option.map_some] at hjr
    have hjr := Option.some.inj hjr
    simp only [Option.map_some, counted, if_neg hc, Option.some.injEq]
    cases ho : trees[j] with
    | none =>
        cases ho' : trees'[j] with
        | none => rfl
        | some t' => rw [ho, ho'] at hjr; cases hjr
    | some t =>
        cases ho' : trees'[j] with
        | none => rw [ho, ho'] at hjr; cases hjr
        | some t' =>
            rw [ho, ho'] at hjr
            have hid := Option.some.inj hjr
            have hm : some t ∈ trees := by rw [← ho]; exact List.getElem_mem hlt
            have hm' : some t' ∈ trees' := by rw [← ho']; exact List.getElem_mem hlt'
            have := holds_twin h.nodes (hI.mem.all.holds t hm) (hI'.mem.all.holds t' hm') hid.symm
            simp only [Option.map_some, this]
  · rw [List.getElem?_eq_none (by omega), List.getElem?_eq_none (by omega)]

theorem Good.pos {c : Config K} {few : Prop} {bases : List Base} {m : Nat} {s : State K F L} {trees : List (Option (Tree K F L))} (hg : Good c few bases m s trees) :
    ∀ t, some t ∈ trees → Pos c t := fun t ht => by
  obtain ⟨j, hj⟩ := List.mem_iff_getElem?.1 ht
  obtain ⟨b, hb, -⟩ := hg.base (lt_of_get hj)
  exact (hg.tree j _ b hj hb).2 t rfl

/-- a prediction changes nothing but counters of split nodes, and with `EXTEND_GHOST` not even those -/
theorem predict_near {c : Config K} {p : Params K} (h0 : p.exp 0 = 1) (hd : 0 ≤ p.discount) {few : Prop} {bases : List Base} {m n : Nat} {s : State K F L}
    {trees : List (Option (Tree K F L))} (hg : Good c few bases m s trees) (hn : trees.length = n) (x : Fin F → K) (use : Option Nat)
    (hv : Valid n (.predict x use : Op K F L)) : ∃ s1 l, predict c p s x use = .ok (s1, l) ∧ Near c s s1 ∧
      Mondrian.label p x ((trees.map (counted c)).take (usedTrees n use)) = .ok l := by
  subst hn
  obtain ⟨nodes', l, a1, -, a3, a5, -, a6⟩ := predict_spec c p h0 hd s trees hg.inv hg.pos x use hv.1 hv.2
  refine ⟨_, l, a1, ?_, a6⟩
  unfold Near
  split
  · rename_i hc
    rw [a5 hc]
  · exact ⟨a3, rfl, rfl, rfl, rfl, rfl, rfl, rfl⟩

/-- two objects -/
structure Mates (c : Config K) (few : Prop) (bases : List Base) (m n : Nat) (s s' : State K F L) : Prop where
  near : Near c s s'
  left : ∃ trees, Good c few bases m s trees ∧ trees.length = n
  right : ∃ trees, Good c few bases m s' trees ∧ trees.length = n

theorem Mates.predict {c : Config K} {p : Params K} (h0 : p.exp 0 = 1) (hd : 0 ≤ p.discount) {few : Prop} {bases : List Base} {m n : Nat} {s s' : State K F L}
    (h : Mates c few bases m n s s') (x : Fin F → K) (use : Option Nat) (hv : Valid n (.predict x use : Op K F L)) :
    ∃ s1 s1' l, Coarse.predict c p s x use = .ok (s1, l) ∧ Coarse.predict c p s' x use = .ok (s1', l) := by
  obtain ⟨trees, hg, hn⟩ := h.left
  obtain ⟨trees', hg', hn'⟩ := h.right
  obtain ⟨s1, l, e1, -, e3⟩ := predict_near h0 hd hg hn x use hv
  obtain ⟨s1', l', e1', -, e3'⟩ := predict_near h0 hd hg' hn' x use hv
  refine ⟨s1, s1', l, e1, ?_⟩
  rw [e1']
  have hnear := h.near
  unfold Near at hnear
  split at hnear
  · subst hnear
    rw [e1] at e1'
    cases e1'
    rfl
  · rename_i hc
    rw [twin_trees hc hnear hg.inv hg'.inv, e3'] at e3
    cases e3
    rfl

theorem RelR.near {c : Config K} {A : Type} {r r' : Res (State K F L × A)} (h : RelR (fun a b => Twin a.1 b.1 ∧ a.2 = b.2) r r') (hg : c.extend = .ghost → r = r') :
    RelR (fun a b => Near c a.1 b.1 ∧ a.2 = b.2) r r' := by
  by_cases hc : c.extend = .ghost
  · rw [hg hc]
    cases r' with
    | error e => rfl
    | ok a => exact ⟨Near.refl c _, rfl⟩
  · cases r <;> cases r'
    · exact h
    · exact h.elim
    · exact h.elim
    · refine ⟨?_, h.2⟩
      unfold Near
      rw [if_neg hc]
      exact h.1

/-- a call that is not a prediction -/
def IsAct : Op K F L → Bool
  | .predict _ _ => false
  | _ => true

/-- a call other than a prediction for the two objects -/
theorem exec_near (c : Config K) (p : Params K) (ω : Nat → K) (op : Op K F L) (ho : IsAct op = true) {s s' : State K F L} (h : Near c s s') (pos : Nat) :
    RelR (fun a b => Near c a.1 b.1 ∧ a.2 = b.2) (exec c p ω op s pos) (exec c p ω op s' pos) := by
  refine RelR.near ?_ fun hc => ?_
  · have ht := h.twin
    cases op with
    | train x label =>
        refine (like_train c p ω x label ht pos).bind fun a b hab => ?_
        exact ⟨hab.1, congrArg Prod.fst hab.2⟩
    | predict x use => cases ho
    | trim => exact like_treeTrim c ω ht pos
    | fade => exact (like_treeFade ht).bind fun a b hab => ⟨hab, rfl⟩
    | other last => exact ⟨⟨ht.nodes, ht.roots, ht.fading, ht.forced, ht.bases, ht.free, rfl, ht.total⟩, rfl⟩
  · unfold Near at h
    rw [if_pos hc] at h
    rw [h]

/-- the predictions of a history can be left out -/
theorem run_quiet (c : Config K) (p : Params K) (h0 : p.exp 0 = 1) (hd : 0 ≤ p.discount) (hlife : 0 ≤ p.lifetime) (ω : Nat → K) (hω : ∀ i, 0 ≤ ω i ∧ ω i < 1) (few : Prop)
    (bases : List Base) (m n : Nat) : ∀ (ops : List (Op K F L)) {s s' : State K F L}, Mates c few bases m n s s' → (∀ op ∈ ops, Valid n op) → ∀ pos,
    RelR (fun a b => Mates c few bases m n a.1 b.1 ∧ a.2 = b.2) (run c p ω ops s pos) (run c p ω (ops.filter IsAct) s' pos)
  | [], s, s', h, hv, pos => ⟨h, rfl⟩
  | op :: ops, s, s', h, hv, pos => by
      have hvo := hv op (List.mem_cons_self ..)
      have hvr : ∀ o ∈ ops, Valid n o := fun o ho => hv o (List.mem_cons_of_mem _ ho)
      obtain ⟨trees, hg, hn⟩ := h.left
      have hspec := exec_spec True c p h0 hd hlife ω hω (fun _ _ => trivial) few bases (fun _ _ _ => Or.inr trivial) m op s trees pos hg (by rw [hn]; exact hvo)
      cases ho : IsAct op with
      | false =>
          cases op with
          | predict x use =>
              rw [List.filter_cons_of_neg (by rw [ho]; decide)]
              obtain ⟨s1, l, e1, e2, -⟩ := predict_near h0 hd hg hn x use hvo
              rw [run]
              unfold exec at hspec ⊢
              simp only [e1, bind, Except.bind, pure, Except.pure] at hspec ⊢
              rcases hspec with ⟨-, e, he⟩ | ⟨s2, pos1, treesP, g1, g2, g3, -⟩
              · cases he
              · cases g1
                exact run_quiet c p h0 hd hlife ω hω few bases m n ops ⟨e2.symm.trans h.near, ⟨treesP, g2, g3.trans hn⟩, h.right⟩ hvr pos
          | train => cases ho
          | trim => cases ho
          | fade => cases ho
          | other => cases ho
      | true =>
          rw [List.filter_cons_of_pos ho]
          obtain ⟨trees', hg', hn'⟩ := h.right
          have hspec' := exec_spec True c p h0 hd hlife ω hω (fun _ _ => trivial) few bases (fun _ _ _ => Or.inr trivial) m op s' trees' pos hg' (by rw [hn']; exact hvo)
          have hrel := exec_near c p ω op ho h.near pos
          rw [run, run]
          cases ha : exec c p ω op s pos with
          | error e =>
              rw [ha] at hrel
              cases hb : exec c p ω op s' pos with
              | error e' => rw [hb] at hrel; exact hrel
              | ok b => rw [hb] at hrel; exact hrel.elim
          | ok a =>
              rw [ha] at hrel hspec
              cases hb : exec c p ω op s' pos with
              | error e' => rw [hb] at hrel; exact hrel.elim
              | ok b =>
                  rw [hb] at hrel hspec'
                  obtain ⟨s1, pos1⟩ := a
                  obtain ⟨s1', pos1'⟩ := b
                  obtain ⟨e1, e2⟩ := hrel
                  simp only at e1 e2
                  subst e2
                  rcases hspec with ⟨-, e, he⟩ | ⟨s2, pos2, treesP, g1, g2, g3, -⟩
                  · cases he
                  rcases hspec' with ⟨-, e, he⟩ | ⟨s2', pos2', treesP', g1', g2', g3', -⟩
                  · cases he
                  cases g1
                  cases g1'
                  exact run_quiet c p h0 hd hlife ω hω few bases m n ops ⟨e1, ⟨treesP, g2, g3.trans hn⟩, ⟨treesP', g2', g3'.trans hn'⟩⟩ hvr pos1

/-- **C79** (partial) Predictions do not influence later calls, for every configuration: two histories that differ only in their predictions end in the same way; if they
end in a defined state then after the same number of random numbers, and after both `train` returns the same value and `predict` the same label for every point.
Missing: see `C79_too_many_trees`. -/
theorem C79_no_influence_partial (c : Config K) (p : Params K) (ω : Nat → K) (maxSize sizeNode sizeBase : Nat) (junk : List Int) (last : Nat) (s0 : State K F L)
    (ops ops' : List (Op K F L)) (h : Setting c p ω maxSize sizeNode sizeBase junk last s0 ops) (h' : Setting c p ω maxSize sizeNode sizeBase junk last s0 ops')
    (he : ops.filter IsAct = ops'.filter IsAct) (pos : Nat) :
    (∀ e, run c p ω ops s0 pos = .error e ↔ run c p ω ops' s0 pos = .error e) ∧
    (∀ s pos', run c p ω ops s0 pos = .ok (s, pos') → ∃ s', run c p ω ops' s0 pos = .ok (s', pos') ∧
      (∀ x label, (train c p ω x label s pos').map Prod.snd = (train c p ω x label s' pos').map Prod.snd) ∧
      (∀ x use, Valid junk.length (.predict x use : Op K F L) → ∃ s1 s1' l, predict c p s x use = .ok (s1, l) ∧ predict c p s' x use = .ok (s1', l))) := by
  obtain ⟨hnew, -⟩ := new_spec c maxSize sizeNode sizeBase junk last s0 h.made True (fun _ => trivial)
  have hM : Mates c True s0.bases s0.forest.nodes.length junk.length s0 s0 :=
    ⟨Near.refl c s0, ⟨_, hnew, List.length_replicate⟩, ⟨_, hnew, List.length_replicate⟩⟩
  have r1 := run_quiet c p h.exp0 h.discount h.lifetime ω h.random True s0.bases s0.forest.nodes.length junk.length ops hM h.valid pos
  have r2 := run_quiet c p h.exp0 h.discount h.lifetime ω h.random True s0.bases s0.forest.nodes.length junk.length ops' hM h'.valid pos
  rw [he] at r1
  cases hq : run c p ω (ops'.filter IsAct) s0 pos with
  | error e =>
      rw [hq] at r1 r2
      cases ha : run c p ω ops s0 pos with
      | ok a => rw [ha] at r1; exact r1.elim
      | error ea =>
          cases hb : run c p ω ops' s0 pos with
          | ok b => rw [hb] at r2; exact r2.elim
          | error eb =>
              rw [ha] at r1
              rw [hb] at r2
              have e1 : ea = e := r1
              have e2 : eb = e := r2
              subst e1 e2
              exact ⟨fun _ => Iff.rfl, fun s pos' h => by cases h⟩
  | ok q =>
      rw [hq] at r1 r2
      cases ha : run c p ω ops s0 pos with
      | error ea => rw [ha] at r1; exact r1.elim
      | ok a =>
          cases hb : run c p ω ops' s0 pos with
          | error eb => rw [hb] at r2; exact r2.elim
          | ok b =>
              rw [ha] at r1
              rw [hb] at r2
              obtain ⟨sa, pa⟩ := a
              obtain ⟨sb, pb⟩ := b
              obtain ⟨sq, pq⟩ := q
              obtain ⟨m1, e1⟩ := r1
              obtain ⟨m2, e2⟩ := r2
              simp only at m1 e1 m2 e2
              subst e1 e2
              refine ⟨fun e => ⟨fun h => (by cases h), fun h => (by cases h)⟩, fun s pos' hs => ?_⟩
              cases hs
              have hM' : Mates c True s0.bases s0.forest.nodes.length junk.length sa sb := ⟨m1.near.trans m2.near.symm, m1.left, m2.left⟩
              refine ⟨sb, rfl, fun x label => ?_, fun x use hv => hM'.predict h.exp0 h.discount x use hv⟩
              have hrel := like_train c p ω x label hM'.near.twin pb
              cases hx : train c p ω x label sa pb <;> cases hy : train c p ω x label sb pb <;> rw [hx, hy] at hrel
              · exact congrArg Except.error hrel
              · exact hrel.elim
              · exact hrel.elim
              · exact congrArg Except.ok hrel.2

/-- a history with trimming, with and without predictions -/
example : ∃ s0, Setting (cfg .phoenix 0 .partialUpdate .count) exP (exω []) 85 10 5 [0] 0 s0 (.predict (pt 1) none :: exOps ++ [.predict (pt 1) (some 1), .trim]) ∧
    Setting (cfg .phoenix 0 .partialUpdate .count) exP (exω []) 85 10 5 [0] 0 s0 (exOps ++ [.trim]) ∧
    ((.predict (pt 1) none :: exOps ++ [.predict (pt 1) (some 1), .trim] : List (Op ℚ 1 2))).filter IsAct = (exOps ++ [Op.trim]).filter IsAct :=
  ⟨_, exSetting _ _ _ rfl (by simp [exOps, Valid, usedTrees]), exSetting _ _ _ rfl (by simp [exOps, Valid]), rfl⟩

end Orp.Coarse
