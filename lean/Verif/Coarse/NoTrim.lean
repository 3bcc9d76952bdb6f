import Verif.Coarse.LeafHist

/-!
Without trimming the code of the splits is never reached: a node gets a forced extension only if no node can be put above it, and this stays so. A history with
any split trigger and any split helper is then a history of the default configuration, up to the random numbers that the trigger uses.
-/

set_option linter.unusedSectionVars false

namespace Orp.Coarse

open Finset
open Mondrian (Node Box Forest Params Cut upd init extent cutAt bump sampleBlock Tree Data Frame plug ctxPar ctxTau ctxIds HoldsCtx Holds Ready avail mem_avail
  avail_nodup upd_spec lt_of_get newLeaf holds_plug plug_ids holds_root id_mem_ids holds_mem set_same allIds recountAll OnlyCounts Times)

variable {K : Type} [Field K] [LinearOrder K] [IsStrictOrderedRing K] [FloorRing K] {F L : Nat}

/-! ### Random numbers -/

/-- the random numbers from `pos` on start with `us` -/
def Draws : List K → (Nat → K) → Nat → Prop
  | [], _, _ => True
  | u :: us, ω, pos => ω pos = u ∧ Draws us ω (pos + 1)

theorem draws_append (us vs : List K) (ω : Nat → K) : ∀ pos, Draws (us ++ vs) ω pos ↔ Draws us ω pos ∧ Draws vs ω (pos + us.length) := by
  induction us with
  | nil => intro pos; simp [Draws]
  | cons u us ih =>
      intro pos
      simp only [List.cons_append, Draws, ih, List.length_cons, and_assoc]
      rw [show pos + 1 + us.length = pos + (us.length + 1) by omega]

/-- `g` does the same as the call that ended in `r`, with the random numbers of `ω` at some of the positions from `pos` on, in the same order; `get` is the position
after the call, `put` replaces it. -/
def Same {A : Type} (put : A → Nat → A) (get : A → Nat) (ω : Nat → K) (pos : Nat) (r : Res A) (g : (Nat → K) → Nat → Res A) : Prop :=
  ∃ js : List Nat, js.Pairwise (· < ·) ∧ (∀ j ∈ js, pos ≤ j) ∧ (∀ a, r = .ok a → pos ≤ get a ∧ ∀ j ∈ js, j < get a) ∧
    ∀ ω' pos', Draws (js.map ω) ω' pos' → g ω' pos' = r.map (fun a => put a (pos' + js.length))

theorem same_nil {A : Type} {put : A → Nat → A} {get : A → Nat} {ω : Nat → K} {pos : Nat} {r : Res A} {g : (Nat → K) → Nat → Res A}
    (hr : ∀ a, r = .ok a → get a = pos) (h : ∀ ω' pos', g ω' pos' = r.map (fun a => put a pos')) : Same put get ω pos r g :=
  ⟨[], List.Pairwise.nil, by simp, fun a ha => ⟨(hr a ha).ge, by simp⟩, fun ω' pos' _ => h ω' pos'⟩

/-- random numbers of two parts of a call -/
theorem js_append {pos mid : Nat} {js ks : List Nat} (h1 : js.Pairwise (· < ·)) (h2 : ∀ j ∈ js, pos ≤ j) (h3 : ∀ j ∈ js, j < mid) (hm : pos ≤ mid)
    (k1 : ks.Pairwise (· < ·)) (k2 : ∀ j ∈ ks, mid ≤ j) : (js ++ ks).Pairwise (· < ·) ∧ ∀ j ∈ js ++ ks, pos ≤ j := by
  refine ⟨List.pairwise_append.2 ⟨h1, k1, fun a ha b hb => lt_of_lt_of_le (h3 a ha) (k2 b hb)⟩, fun j hj => ?_⟩
  rcases List.mem_append.1 hj with hj | hj
  · exact h2 j hj
  · exact hm.trans (k2 j hj)

/-- replaces the position in the random numbers -/
def put2 (a : State K F L × Nat) (n : Nat) : State K F L × Nat := (a.1, n)

/-- the position in the random numbers -/
def get2 (a : State K F L × Nat) : Nat := a.2

/-- replaces the position in the random numbers -/
def put3 (a : State K F L × Nat × Bool) (n : Nat) : State K F L × Nat × Bool := (a.1, n, a.2.2)

/-- the position in the random numbers -/
def get3 (a : State K F L × Nat × Bool) : Nat := a.2.1

/-- the positions of the random numbers used by `expo` -/
def expoJs (pos : Nat) (b : Box K F) (x : Fin F → K) : List Nat := if extentSum b x = 0 then [] else [pos]

theorem expoJs_spec (p : Params K) (ω : Nat → K) (pos : Nat) (b : Box K F) (x : Fin F → K) : (expoJs pos b x).Pairwise (· < ·) ∧ (∀ j ∈ expoJs pos b x, pos ≤ j) ∧
    (∀ j ∈ expoJs pos b x, j < (expo p ω pos b x).2) ∧ pos ≤ (expo p ω pos b x).2 := by
  unfold expoJs expo
  by_cases hs : extentSum b x = 0 <;> simp [hs]

theorem expo_shift (p : Params K) (ω ω' : Nat → K) (pos pos' : Nat) (b : Box K F) (x : Fin F → K) (h : Draws ((expoJs pos b x).map ω) ω' pos') :
    expo p ω' pos' b x = ((expo p ω pos b x).1, pos' + (expoJs pos b x).length) := by
  unfold expoJs at *
  unfold expo
  by_cases hs : extentSum b x = 0
  · simp only [if_pos hs, List.length_nil, Nat.add_zero]
  · rw [if_neg hs] at h
    simp only [if_neg hs, h.1, List.length_cons, List.length_nil, Nat.zero_add]

theorem drawCut_shift (ω ω' : Nat → K) (pos pos' : Nat) (b : Box K F) (x : Fin F → K) (tau : K) (h : Draws [ω pos, ω (pos + 1)] ω' pos') :
    drawCut ω' pos' b x tau = (drawCut ω pos b x tau).map (fun r => (r.1, pos' + 2)) := by
  obtain ⟨h1, h2, -⟩ := h
  unfold drawCut pickDim
  rw [h1]
  cases Utils.turnIntoProbability (List.ofFn (extent b x)) (extentSum b x) with
  | error e => rfl
  | ok probs =>
      simp only [bind, Except.bind]
      by_cases hd : Utils.pick probs (ω pos) < F
      · simp only [dif_pos hd, pure, Except.pure, cutAt, bind, Except.bind, h2]
        split <;> rfl
      · simp only [dif_neg hd]
        rfl

theorem drawCut_pos {ω : Nat → K} {pos : Nat} {b : Box K F} {x : Fin F → K} {tau : K} {cut : Cut K F} {pos' : Nat} (h : drawCut ω pos b x tau = .ok (cut, pos')) :
    pos' = pos + 2 := by
  have := drawCut_shift ω ω pos pos b x tau ⟨rfl, rfl, trivial⟩
  rw [h] at this
  exact congrArg (·.2) (Except.ok.inj this)

/-! ### Places of a tree at which no node can be inserted -/

/-- the nodes of a tree, with their distance from the root and the height of their subtree -/
def places : Tree K F L → Nat → List (Nat × Nat × Nat)
  | .leaf id _, dist => [(id, dist, 1)]
  | .node id _ _ _ l r, dist => (id, dist, Nat.max l.height r.height + 1) :: (places l (dist + 1) ++ places r (dist + 1))

/-- `Room` for a place -/
def RoomN (c : Config K) (base : Base) (dist height : Nat) : Prop :=
  if c.isCobble then ((height + dist + 1 : Nat) : Int) ≤ base.limit
  else if c.management = .robur ∨ c.management = .pausingPhoenix then base.size < base.limit
  else True

theorem room_iff (c : Config K) (base : Base) (dist : Nat) (t : Tree K F L) : Room c base dist t ↔ RoomN c base dist t.height := Iff.rfl

theorem RoomN.mono {c : Config K} {base : Base} {d d' h h' : Nat} (hd : d ≤ d') (hh : h ≤ h') (hr : RoomN c base d' h') : RoomN c base d h := by
  unfold RoomN at *
  split
  · rename_i hc
    rw [if_pos hc] at hr
    omega
  · rename_i hc
    rw [if_neg hc] at hr
    exact hr

theorem root_place (t : Tree K F L) (dist : Nat) : (t.id, dist, t.height) ∈ places t dist := by
  cases t with
  | leaf id d => exact List.mem_singleton.2 rfl
  | node id d dim sp l r => exact List.mem_cons_self

theorem place_id {t : Tree K F L} : ∀ {dist : Nat} {q : Nat × Nat × Nat}, q ∈ places t dist → q.1 ∈ t.ids := by
  induction t with
  | leaf id d => intro dist q h; rw [List.mem_singleton.1 h]; exact List.mem_singleton.2 rfl
  | node id d dim sp l r ihl ihr =>
      intro dist q h
      rcases List.mem_cons.1 h with rfl | h
      · exact List.mem_cons_self
      · rcases List.mem_append.1 h with h | h
        · exact List.mem_cons_of_mem _ (List.mem_append_left _ (ihl h))
        · exact List.mem_cons_of_mem _ (List.mem_append_right _ (ihr h))

theorem places_up {t : Tree K F L} : ∀ {dist : Nat} {q : Nat × Nat × Nat}, q ∈ places t (dist + 1) → (q.1, q.2.1 - 1, q.2.2) ∈ places t dist ∧ 1 ≤ q.2.1 := by
  induction t with
  | leaf id d =>
      intro dist q h
      rw [List.mem_singleton.1 h]
      exact ⟨List.mem_singleton.2 rfl, by simp⟩
  | node id d dim sp l r ihl ihr =>
      intro dist q h
      rcases List.mem_cons.1 h with rfl | h
      · exact ⟨List.mem_cons_self, by simp⟩
      · rcases List.mem_append.1 h with h | h
        · exact ⟨List.mem_cons_of_mem _ (List.mem_append_left _ (ihl h).1), (ihl h).2⟩
        · exact ⟨List.mem_cons_of_mem _ (List.mem_append_right _ (ihr h).1), (ihr h).2⟩

/-- A node of the tree with forced extensions is at a place where no node can be inserted. -/
def Stuck (c : Config K) (base : Base) (t : Tree K F L) (dist : Nat) (s : State K F L) : Prop :=
  ∀ q ∈ places t dist, ∀ f, s.forced[q.1]? = some f → 0 < f → s.free ≤ 1 ∨ ¬ RoomN c base q.2.1 q.2.2

/-- Available nodes have no forced extensions. -/
def Unforced (s : State K F L) : Prop := ∀ i ∈ avail s.forest.nodes, ∀ f, s.forced[i]? = some f → f ≤ 0

theorem Stuck.le {c : Config K} {base : Base} {t : Tree K F L} {dist : Nat} {s s' : State K F L} (h : Stuck c base t dist s) (hf : s'.free ≤ s.free)
    (he : ∀ i ∈ t.ids, s'.forced[i]? = s.forced[i]?) : Stuck c base t dist s' := by
  intro q hq f hqf h0
  rw [he _ (place_id hq)] at hqf
  exact (h q hq f hqf h0).imp_left fun h => hf.trans h

theorem Stuck.down {c : Config K} {base : Base} {t : Tree K F L} {dist : Nat} {s : State K F L} (h : Stuck c base t dist s) : Stuck c base t (dist + 1) s := by
  intro q hq f hqf h0
  obtain ⟨h1, h2⟩ := places_up hq
  exact (h _ h1 f hqf h0).imp_right fun hn hr => hn (hr.mono (by simp) le_rfl)

theorem Stuck.node {c : Config K} {base : Base} {id : Nat} {d : Data K F L} {dim : Fin F} {sp : K} {l r : Tree K F L} {dist : Nat} {s : State K F L}
    (h0 : ∀ f, s.forced[id]? = some f → 0 < f → s.free ≤ 1 ∨ ¬ RoomN c base dist (Nat.max l.height r.height + 1)) (hl : Stuck c base l (dist + 1) s)
    (hr : Stuck c base r (dist + 1) s) : Stuck c base (.node id d dim sp l r) dist s := by
  intro q hq f hqf hpos
  rcases List.mem_cons.1 hq with rfl | hq
  · exact h0 f hqf hpos
  · rcases List.mem_append.1 hq with hq | hq
    · exact hl q hq f hqf hpos
    · exact hr q hq f hqf hpos

theorem Stuck.left {c : Config K} {base : Base} {id : Nat} {d : Data K F L} {dim : Fin F} {sp : K} {l r : Tree K F L} {dist : Nat} {s : State K F L}
    (h : Stuck c base (.node id d dim sp l r) dist s) : Stuck c base l (dist + 1) s :=
  fun q hq => h q (List.mem_cons_of_mem _ (List.mem_append_left _ hq))

theorem Stuck.right {c : Config K} {base : Base} {id : Nat} {d : Data K F L} {dim : Fin F} {sp : K} {l r : Tree K F L} {dist : Nat} {s : State K F L}
    (h : Stuck c base (.node id d dim sp l r) dist s) : Stuck c base r (dist + 1) s :=
  fun q hq => h q (List.mem_cons_of_mem _ (List.mem_append_right _ hq))

theorem Stuck.root {c : Config K} {base : Base} {t : Tree K F L} {dist : Nat} {s : State K F L} (h : Stuck c base t dist s) {f : Int}
    (hf : s.forced[t.id]? = some f) (h0 : 0 < f) : s.free ≤ 1 ∨ ¬ Room c base dist t := h _ (root_place t dist) f hf h0

/-! ### What the calls do to the numbers of forced extensions -/

theorem takeNode_keeps {s s1 : State K F L} {o : Option Nat} (h : takeNode s = .ok (o, s1)) : s1.forced = s.forced ∧ s1.free = s.free := by
  unfold takeNode at h
  obtain ⟨a, -, h⟩ := bind_ok h
  cases a with
  | none => cases h; exact ⟨rfl, rfl⟩
  | some id => cases h; exact ⟨rfl, rfl⟩

theorem insert_keeps {c : Config K} {p : Params K} {s s' : State K F L} {id tree : Nat} {cut : Cut K F} {x : Fin F → K} {label : Fin L}
    (h : insert c p s id tree cut x label = .ok s') : s'.forced = s.forced ∧ s'.free = s.free - 2 := by
  unfold insert at h
  obtain ⟨⟨np, s1⟩, h1, h⟩ := bind_ok h
  obtain ⟨np', -, h⟩ := bind_ok h
  obtain ⟨n1, -, h⟩ := bind_ok h
  obtain ⟨⟨ns, s2⟩, h2, h⟩ := bind_ok h
  obtain ⟨ns', -, h⟩ := bind_ok h
  obtain ⟨nd, -, h⟩ := bind_ok h
  obtain ⟨n2, -, h⟩ := bind_ok h
  obtain ⟨fo, -, h⟩ := bind_ok h
  cases h
  obtain ⟨a1, a2⟩ := takeNode_keeps h1
  obtain ⟨b1, b2⟩ := takeNode_keeps h2
  exact ⟨b1.trans a1, by show s2.free - 2 = _; rw [b2]; show s1.free - 2 = _; rw [a2]⟩

theorem countAt_keeps {s s' : State K F L} {id : Nat} {label : Fin L} (h : countAt s id label = .ok s') : s'.forced = s.forced ∧ s'.free = s.free := by
  unfold countAt at h
  obtain ⟨n, -, h⟩ := bind_ok h
  obtain ⟨f, -, h⟩ := bind_ok h
  obtain ⟨g, -, h⟩ := bind_ok h
  cases h
  exact ⟨rfl, rfl⟩

/-- with at most 0 forced extensions no split is triggered -/
theorem splits_false (ω : Nat → K) (hω : ∀ i, 0 ≤ ω i) (t : Trigger) (pos : Nat) {f : Int} (hf : f ≤ 0) (sum : Int) : splits t f (splitInstead ω pos f sum).1 = false := by
  have hi : (splitInstead ω pos f sum).1 = false := by
    unfold splitInstead
    split
    · rename_i hs
      have h1 : (f : K) / (sum : K) ≤ 0 := div_nonpos_of_nonpos_of_nonneg (by exact_mod_cast hf) (by exact_mod_cast hs.le)
      simp only [decide_eq_false_iff_not, not_lt]
      exact h1.trans (hω pos)
    · rfl
  cases t with
  | none => rfl
  | positive => simp only [splits, decide_eq_false_iff_not, not_lt]; exact hf
  | total => exact hi
  | sfe => exact hi

/-! ### One step -/

theorem eq_bind {A B : Type} {r : Res A} {a : A} (h : r = .ok a) (f : A → Res B) : r >>= f = f a := by rw [h]; rfl

theorem extendSplit_step (c : Config K) (sc : SplitConfig K) (p : Params K) (ω : Nat → K) (ex : Extra K F) (x : Fin F → K) (label : Fin L) (tree : Nat) (sum : Int)
    (fuel pos : Nat) (s : State K F L) {fs : List (Frame K F L)} {t : Tree K F L} (h : Ready s.forest tree (plug fs t)) {n : Node K F L}
    (hn : s.forest.nodes[t.id]? = some n) :
    extendSplit c sc p ω ex x label tree sum (fuel + 1) t.id pos s = (do
      let e := (expo p ω pos t.data.box x).1
      let pos := (expo p ω pos t.data.box x).2
      let pause ← paused c s tree t.id
      if 0 ≤ e ∧ ctxTau fs + e < t.data.tau ∧ 2 ≤ s.free ∧ pause = false then do
        let f ← (if sc.trigger = .none then .ok 0 else rd s.forced t.id : Res Int)
        let instead := (splitInstead ω pos f sum).1
        let pos := (splitInstead ω pos f sum).2
        if splits sc.trigger f instead then splitNode sc p ω s t.id tree pos (ctxTau fs + e) x label
        else do
          let (cut, pos) ← drawCut ω pos t.data.box x (ctxTau fs + e)
          let s ← insert c p s t.id tree cut x label
          return (s, pos)
      else do
        let nodes ← wr s.forest.nodes t.id { n with box := some (newBox c t.data.box x) }
        let forced ← (if 0 ≤ e ∧ ctxTau fs + e < t.data.tau then do
            let f ← rd s.forced t.id
            wr s.forced t.id (f + 1)
          else .ok s.forced : Res (List Int))
        let s := { s with
          forest := { s.forest with nodes := nodes }
          forced := forced }
        match n.dim with
        | some dim => do
            let sp ← init n.split
            let child ← init (if x dim ≤ sp then n.left else n.right)
            extendSplit c sc p ω ex x label tree sum fuel child pos s
        | none => do
            let r ← (if 20 < ex.full ∧ e < 0 ∧ 2 ≤ s.free then splitBarycenter sc p ω ex s t.id tree pos (ctxTau fs) x label else .ok none :
              Res (Option (State K F L × Nat)))
            match r with
            | some r => return r
            | none => do
                let s ← countAt s t.id label
                return (s, pos)) := by
  obtain ⟨hctx, ht, -, -, -, -⟩ := h.parts
  obtain ⟨n', hn', hhas⟩ := holds_root ht
  rw [hn] at hn'
  cases hn'
  have e1 := Mondrian.ctxTau_spec hctx
  rw [← hhas.1] at e1
  have e2 : (match n.parent with
        | some q => (rd s.forest.nodes q).map (·.tau)
        | none => .ok 0 : Res K) = .ok (ctxTau fs) := by
    cases hpar : n.parent with
    | none => rw [hpar] at e1; exact e1
    | some q => rw [hpar] at e1; exact e1
  rw [extendSplit, rd_eq_ok_iff.2 hn, ok_bind]
  refine (eq_bind e2 _).trans ?_
  simp only [hhas.2.2.1, init, hhas.2.1]
  rfl

theorem extendBlock_step2 (c : Config K) (hc : c.extend = .barycenter) (p : Params K) (ω : Nat → K) (x : Fin F → K) (label : Fin L) (tree fuel pos : Nat) (s : State K F L)
    {fs : List (Frame K F L)} {t : Tree K F L} (h : Ready s.forest tree (plug fs t)) {n : Node K F L} (hn : s.forest.nodes[t.id]? = some n) :
    extendBlock c p ω x label tree (fuel + 1) t.id pos s = (do
      let e := (expo p ω pos t.data.box x).1
      let pos := (expo p ω pos t.data.box x).2
      let pause ← paused c s tree t.id
      if 0 ≤ e ∧ ctxTau fs + e < t.data.tau ∧ 2 ≤ s.free ∧ pause = false then do
        let (cut, pos) ← drawCut ω pos t.data.box x (ctxTau fs + e)
        let s ← insert c p s t.id tree cut x label
        return (s, pos)
      else do
        let nodes ← wr s.forest.nodes t.id { n with box := some (newBox c t.data.box x) }
        let forced ← (if 0 ≤ e ∧ ctxTau fs + e < t.data.tau then do
            let f ← rd s.forced t.id
            wr s.forced t.id (f + 1)
          else .ok s.forced : Res (List Int))
        let s := { s with
          forest := { s.forest with nodes := nodes }
          forced := forced }
        match n.dim with
        | some dim => do
            let sp ← init n.split
            let child ← init (if x dim ≤ sp then n.left else n.right)
            extendBlock c p ω x label tree fuel child pos s
        | none => do
            let s ← countAt s t.id label
            return (s, pos)) := by
  obtain ⟨hctx, ht, -, -, -, -⟩ := h.parts
  obtain ⟨n', hn', hhas⟩ := holds_root ht
  rw [hn] at hn'
  cases hn'
  have e1 := Mondrian.ctxTau_spec hctx
  rw [← hhas.1] at e1
  have e2 : (match n.parent with
        | some q => (rd s.forest.nodes q).map (·.tau)
        | none => .ok 0 : Res K) = .ok (ctxTau fs) := by
    cases hpar : n.parent with
    | none => rw [hpar] at e1; exact e1
    | some q => rw [hpar] at e1; exact e1
  rw [extendBlock, rd_eq_ok_iff.2 hn, ok_bind]
  refine (eq_bind e2 _).trans ?_
  simp only [hhas.2.2.1, init, hhas.2.1]
  rw [ok_bind]
  refine bind_same fun pause => ?_
  by_cases hin : 0 ≤ (expo p ω pos t.data.box x).1 ∧ ctxTau fs + (expo p ω pos t.data.box x).1 < t.data.tau ∧ 2 ≤ s.free ∧ pause = false
  · rw [if_pos hin, if_pos hin]
    simp only [hc, reduceCtorEq, if_false]
  · rw [if_neg hin, if_neg hin, if_pos (Or.inr (Or.inl hc)), wr_ok _ (lt_of_get hn), ok_bind, ok_bind]
    simp only [hc, true_and]
    refine bind_same fun forced => ?_
    have hr : rd (s.forest.nodes.set t.id { n with box := some (newBox c t.data.box x) }) t.id = .ok { n with box := some (newBox c t.data.box x) } :=
      rd_eq_ok_iff.2 (List.getElem?_set_self (lt_of_get hn))
    simp only [hhas.2.1] at hr ⊢
    unfold descend
    rw [hr, ok_bind]
    cases n.dim with
    | none => rfl
    | some dim =>
        simp only
        refine bind_same fun sp => bind_same fun child => ?_
        simp only [hc, reduceCtorEq, if_false]
        cases extendBlock c p ω x label tree fuel child (expo p ω pos t.data.box x).2 _ with
        | error e => rfl
        | ok r => rfl

theorem withData_height (t : Tree K F L) (d : Data K F L) : (t.withData d).height = t.height := by cases t <;> rfl

theorem withData_ids (t : Tree K F L) (d : Data K F L) : (t.withData d).ids = t.ids := by cases t <;> rfl

/-- the new nodes above a subtree were available -/
theorem above_new {s s' : State K F L} {tree : Nat} {fs : List (Frame K F L)} {t u : Tree K F L} {np ns : Nat} (h : Done s s' tree (plug fs t) (plug fs u))
    (hu : List.Perm u.ids (np :: ns :: t.ids)) : np ∈ avail s.forest.nodes ∧ ns ∈ avail s.forest.nodes ∧ np ∉ t.ids ∧ ns ∉ t.ids := by
  have hp := plug_ids fs u
  have hq := plug_ids fs t
  have hall : List.Perm (plug fs u).ids (np :: ns :: (plug fs t).ids) := by
    refine hp.trans ((hu.append_right _).trans ?_)
    exact (hq.symm.cons _).cons _
  have hnd := hall.nodup_iff.1 h.ready.nodup
  simp only [List.nodup_cons, List.mem_cons, not_or] at hnd
  have hmem : ∀ i ∈ (plug fs u).ids, i ∉ (plug fs t).ids → i ∈ avail s.forest.nodes := by
    intro i hi hn
    have := h.cover.mem_iff.1 (List.mem_append_right _ hi)
    exact (List.mem_append.1 this).resolve_right hn
  have hsub : ∀ i, i ∈ t.ids → i ∈ (plug fs t).ids := fun i hi => hq.mem_iff.2 (List.mem_append_left _ hi)
  exact ⟨hmem np (hall.mem_iff.2 List.mem_cons_self) hnd.1.2, hmem ns (hall.mem_iff.2 (List.mem_cons_of_mem _ List.mem_cons_self)) hnd.2.1,
    fun h => hnd.1.2 (hsub _ h), fun h => hnd.2.1 (hsub _ h)⟩

/-- what is known of a subtree after the call -/
structure After (c : Config K) (base : Base) (tree : Nat) (fs : List (Frame K F L)) (t : Tree K F L) (s s' : State K F L) (t' : Tree K F L) : Prop where
  height : t.height ≤ t'.height
  ids : ∀ i ∈ t.ids, i ∈ t'.ids
  done : Done s s' tree (plug fs t) (plug fs t')
  forced : ∀ i, i ∉ t.ids → s'.forced[i]? = s.forced[i]?
  free : s'.free ≤ s.free
  stuck : Stuck c base t' fs.length s'

theorem Unforced.done {s s' : State K F L} {tree : Nat} {T T' : Tree K F L} (h : Unforced s) (hd : Done s s' tree T T') (hi : ∀ i ∈ T.ids, i ∈ T'.ids)
    (hf : ∀ i, i ∉ T.ids → s'.forced[i]? = s.forced[i]?) : Unforced s' := by
  intro i hi' f hf'
  have hn : i ∉ T.ids := fun hm => hd.ready.used i (hi i hm) hi'
  have hm := hd.cover.mem_iff.1 (List.mem_append_left _ hi')
  rw [hf i hn] at hf'
  exact h i ((List.mem_append.1 hm).resolve_right hn) f hf'

theorem plug_sub {fs : List (Frame K F L)} {t t' : Tree K F L} (h : ∀ i ∈ t.ids, i ∈ t'.ids) : ∀ i ∈ (plug fs t).ids, i ∈ (plug fs t').ids := by
  intro i hi
  rcases List.mem_append.1 ((plug_ids fs t).mem_iff.1 hi) with hi | hi
  · exact (plug_ids fs t').mem_iff.2 (List.mem_append_left _ (h i hi))
  · exact (plug_ids fs t').mem_iff.2 (List.mem_append_right _ hi)

theorem extendSplit_same (c : Config K) (hc : c.extend = .barycenter) (sc : SplitConfig K) (p : Params K) (hlife : 0 ≤ p.lifetime) (ω : Nat → K)
    (hω : ∀ i, 0 ≤ ω i ∧ ω i < 1) (ex : Extra K F) (x : Fin F → K) (label : Fin L) (tree : Nat) (sum : Int) (base : Base) :
    ∀ (fuel : Nat) (t : Tree K F L) (fs : List (Frame K F L)) (pos : Nat) (s : State K F L),
    Ready s.forest tree (plug fs t) → s.free = (avail s.forest.nodes).length → s.fading.length = s.forest.nodes.length → s.forced.length = s.forest.nodes.length →
    s.bases[tree]? = some base → (0 < ex.full → s.free ≤ 1) → Unforced s → Stuck c base t fs.length s →
    Same put2 get2 ω pos (extendSplit c sc p ω ex x label tree sum fuel t.id pos s) (fun ω' pos' => extendBlock c p ω' x label tree fuel t.id pos' s) ∧
      ∀ s' pos', extendSplit c sc p ω ex x label tree sum fuel t.id pos s = .ok (s', pos') → ∃ t', After c base tree fs t s s' t'
  | 0, t, fs, pos, s, _, _, _, _, _, _, _, _ => by
      refine ⟨same_nil (fun a h => ?_) (fun ω' pos' => rfl), fun s' pos' h => ?_⟩ <;>
      · rw [extendSplit] at h
        cases h
  | fuel + 1, t, fs, pos, s, h, hf, hl1, hl2, hb, hq, hun, hst => by
      have ih := extendSplit_same c hc sc p hlife ω hω ex x label tree sum base fuel
      obtain ⟨hctx, ht, hnd, -, -, -⟩ := h.parts
      obtain ⟨n, hn, hhas⟩ := holds_root ht
      rw [extendSplit_step c sc p ω ex x label tree sum fuel pos s h hn]
      have hblock := fun (ω' : Nat → K) (pos' : Nat) => extendBlock_step2 c hc p ω' x label tree fuel pos' s h hn
      have hshift := fun (ω' : Nat → K) (pos' : Nat) => expo_shift p ω ω' pos pos' t.data.box x
      obtain ⟨us1, us2, us3, us4⟩ := expoJs_spec p ω pos t.data.box x
      generalize expoJs pos t.data.box x = us at hshift us1 us2 us3
      generalize hep : expo p ω pos t.data.box x = ep at hshift us3 us4
      obtain ⟨e, pos1⟩ := ep
      simp only at hshift us3 us4
      simp only
      cases hpause : paused c s tree t.id with
      | error err =>
          refine ⟨same_nil (fun a h => by cases h) (fun ω' pos' => by beta_reduce; rw [hblock]; simp only [hpause]; rfl), fun s' pos' h => by cases h⟩
      | ok pause =>
      simp only [ok_bind]
      have hroom : pause = false ↔ Room c base fs.length t := by
        rcases paused_fine True c s tree hb h (fun _ => .inr trivial) with ⟨-, err, he⟩ | ⟨b, hb1, hb2⟩
        · rw [hpause] at he; cases he
        · rw [hpause] at hb1; cases hb1; exact hb2
      have hltn := lt_of_get hn
      have hlt' : t.id < s.forced.length := by rw [hl2]; exact hltn
      by_cases hin : 0 ≤ e ∧ ctxTau fs + e < t.data.tau ∧ 2 ≤ s.free ∧ pause = false
      · rw [if_pos hin]
        -- a node is inserted
        obtain ⟨f, hf1, hf2⟩ : ∃ f : Int, (if sc.trigger = .none then .ok 0 else rd s.forced t.id : Res Int) = .ok f ∧ f ≤ 0 := by
          by_cases htr : sc.trigger = .none
          · exact ⟨0, by rw [if_pos htr], le_rfl⟩
          · refine ⟨s.forced[t.id], by rw [if_neg htr]; exact rd_eq_ok_iff.2 (List.getElem?_eq_getElem hlt'), ?_⟩
            by_contra hpos
            rcases hst.root (List.getElem?_eq_getElem hlt') (not_le.1 hpos) with h1 | h1
            · have := hin.2.2.1; omega
            · exact h1 (hroom.1 hin.2.2.2)
        rw [hf1, ok_bind]
        rw [if_neg (by rw [splits_false ω (fun i => (hω i).1) sc.trigger _ hf2 sum]; simp)]
        have hpos2 : pos1 ≤ (splitInstead ω pos1 f sum).2 := by unfold splitInstead; split <;> simp
        generalize (splitInstead ω pos1 f sum).2 = pos2 at hpos2
        obtain ⟨ja, jb⟩ := js_append (ks := [pos2, pos2 + 1]) us1 us2 us3 us4 (by simp) (by
          intro j hj
          simp only [List.mem_cons, List.not_mem_nil, or_false] at hj
          omega)
        refine ⟨⟨us ++ [pos2, pos2 + 1], ja, jb, ?_, ?_⟩, ?_⟩
        · intro a ha
          obtain ⟨⟨cut, pos3⟩, hd, ha⟩ := bind_ok ha
          obtain ⟨s1, -, ha⟩ := bind_ok ha
          cases ha
          have := drawCut_pos hd
          subst this
          refine ⟨by show pos ≤ pos2 + 2; omega, fun j hj => ?_⟩
          show j < pos2 + 2
          rcases List.mem_append.1 hj with hj | hj
          · have := us3 j hj; omega
          · simp only [List.mem_cons, List.not_mem_nil, or_false] at hj
            omega
        · intro ω' pos' hd
          rw [List.map_append] at hd
          obtain ⟨hd1, hd2⟩ := (draws_append _ _ _ _).1 hd
          rw [List.length_map] at hd2
          beta_reduce
          rw [hblock, hshift ω' pos' hd1]
          simp only
          rw [hpause, ok_bind, if_pos hin, drawCut_shift ω ω' pos2 _ t.data.box x _ hd2]
          cases drawCut ω pos2 t.data.box x (ctxTau fs + e) with
          | error err => rfl
          | ok r =>
              obtain ⟨cut, pos3⟩ := r
              simp only [Except.map, ok_bind]
              cases insert c p s t.id tree cut x label with
              | error err => rfl
              | ok s1 =>
                  simp only [ok_bind, pure, Except.pure, put2, List.length_append, List.length_cons, List.length_nil]
                  rfl
        · intro s' pos' hr
          obtain ⟨⟨cut, pos3⟩, hd, hr⟩ := bind_ok hr
          obtain ⟨s1, hi, hr⟩ := bind_ok hr
          cases hr
          have hs := expo_nonneg (p := p) (ω := ω) (pos := pos) (b := t.data.box) (x := x) (by rw [hep]; exact hin.1)
          have hcut : cut.tau = ctxTau fs + e := by
            rcases drawCut_fine True ω hω (fun _ _ => trivial) pos2 t.data.box x (ctxTau fs + e) hs with ⟨-, err, he⟩ | ⟨cut', pos3', d1, -, d3⟩
            · rw [he] at hd; cases hd
            · rw [d1] at hd; cases hd; exact d3
          obtain ⟨np, ns, s1, i1, i2⟩ := insert_spec c p hlife s tree cut x label fs t h hf hin.2.2.1 (by rw [hcut]; linarith [hin.1, Mondrian.ctxTau_nonneg h])
          rw [i1] at hi
          cases hi
          obtain ⟨k1, k2⟩ := insert_keeps i1
          generalize hcnt : parentCounts c.extend (fun _ => 0) t.data.counts label = cnt at i2
          obtain ⟨w1, w2, w3, w4⟩ := above_new i2 (aboveC_ids p.lifetime np ns cut t cnt x label)
          refine ⟨_, ⟨by rw [aboveC_height]; omega, fun i hi => (aboveC_ids p.lifetime np ns cut t cnt x label).mem_iff.2 (List.mem_cons_of_mem _ (List.mem_cons_of_mem _ hi)), i2, fun i _ => by rw [k1], by rw [k2]; omega, ?_⟩⟩
          have z1 : ∀ i ∈ avail s.forest.nodes, ∀ f, s'.forced[i]? = some f → 0 < f → False := by
            intro i hi f hf hpos
            rw [k1] at hf
            exact absurd (hun i hi f hf) (not_le.2 hpos)
          have st : Stuck c base t (fs.length + 1) s' := (hst.le (by rw [k2]; omega) (fun i _ => by rw [k1])).down
          have sl : Stuck c base (newLeaf p.lifetime ns x label) (fs.length + 1) s' := by
            intro q hq f hqf hpos
            rw [List.mem_singleton.1 hq] at hqf
            exact (z1 ns w2 f hqf hpos).elim
          unfold aboveC
          split
          · exact Stuck.node (fun f hqf hpos => (z1 np w1 f hqf hpos).elim) st sl
          · exact Stuck.node (fun f hqf hpos => (z1 np w1 f hqf hpos).elim) sl st
      · rw [if_neg hin, wr_ok _ hltn, ok_bind]
        -- the node is extended
        obtain ⟨forced', q1, q2, q3, q4⟩ : ∃ forced', (if 0 ≤ e ∧ ctxTau fs + e < t.data.tau then do
            let f ← rd s.forced t.id
            wr s.forced t.id (f + 1)
          else .ok s.forced : Res (List Int)) = .ok forced' ∧ forced'.length = s.forced.length ∧ (∀ i, i ≠ t.id → forced'[i]? = s.forced[i]?) ∧
            (∀ f, forced'[t.id]? = some f → 0 < f → s.free ≤ 1 ∨ ¬ Room c base fs.length t) := by
          by_cases hfe : 0 ≤ e ∧ ctxTau fs + e < t.data.tau
          · rw [if_pos hfe, rd_eq_ok_iff.2 (List.getElem?_eq_getElem hlt'), ok_bind, wr_ok _ hlt']
            refine ⟨_, rfl, by simp, fun i hi => by rw [List.getElem?_set_ne (Ne.symm hi)], fun f _ _ => ?_⟩
            by_contra hno
            rw [not_or, not_not] at hno
            exact hin ⟨hfe.1, hfe.2, by omega, hroom.2 hno.2⟩
          · rw [if_neg hfe]
            exact ⟨_, rfl, rfl, fun _ _ => rfl, fun f hf h0 => hst.root hf h0⟩
        rw [q1, ok_bind]
        have dn := done_update (s' := { s with
            forest := { s.forest with nodes := s.forest.nodes.set t.id { n with box := some (newBox c t.data.box x) } }
            forced := forced' }) (n' := { n with box := some (newBox c t.data.box x) }) (d' := { t.data with box := newBox c t.data.box x }) h hf hn (by simp) rfl (fun j => by
            show (s.forest.nodes.set t.id _)[j]? = _
            rw [List.getElem?_set]
            by_cases hj : t.id = j
            · subst hj; rw [if_pos rfl, if_pos rfl, if_pos hltn]
            · rw [if_neg hj, if_neg (Ne.symm hj)]) rfl rfl rfl rfl ⟨hhas.1, hhas.2.1, rfl, hhas.2.2.2⟩ rfl rfl rfl rfl rfl q2 (fun h => h)
        have hblk : ∀ ω' pos', Draws (us.map ω) ω' pos' → expo p ω' pos' t.data.box x = (e, pos' + us.length) := fun ω' pos' hd => hshift ω' pos' hd
        generalize hs1 : ({ s with
            forest := { s.forest with nodes := s.forest.nodes.set t.id { n with box := some (newBox c t.data.box x) } }
            forced := forced' } : State K F L) = s1 at dn
        have hfr : s1.free = s.free := by rw [← hs1]
        have hfo : s1.forced = forced' := by rw [← hs1]
        have hg : ∀ ω' pos', Draws (us.map ω) ω' pos' → extendBlock c p ω' x label tree (fuel + 1) t.id pos' s = (match n.dim with
          | some dim => do
              let sp ← init n.split
              let child ← init (if x dim ≤ sp then n.left else n.right)
              extendBlock c p ω' x label tree fuel child (pos' + us.length) s1
          | none => do
              let s ← countAt s1 t.id label
              return (s, pos' + us.length)) := by
          intro ω' pos' hd
          rw [hblock, hblk ω' pos' hd]
          simp only
          rw [hpause, ok_bind, if_neg hin, wr_ok _ hltn, ok_bind, q1, ok_bind, hs1]
        have hun1 : Unforced s1 := hun.done dn (plug_sub (by rw [withData_ids]; exact fun i hi => hi)) (fun i hi => by
          rw [hfo]
          exact q3 i (fun e => hi (e ▸ (h.parts.2.2.2.2.1 _ (id_mem_ids t)))))
        have hb1 : s1.bases[tree]? = some base := by rw [dn.bases]; exact hb
        cases t with
        | leaf id d =>
            obtain ⟨n', hn', hh', hdim⟩ := ht
            have : n' = n := by
              have hn2 : s.forest.nodes[id]? = some n := hn
              rw [hn'] at hn2; exact Option.some.inj hn2
            subst this
            simp only [hdim] at hg ⊢
            rw [if_neg (fun hcond => by have := hq (by omega); have := hcond.2.2; omega), ok_bind]
            obtain ⟨s3, a1, a2⟩ := countAt_spec s1 tree dn.ready dn.free (by rw [dn.fading, dn.length]; exact hl1) label
            have a1' : countAt s1 id label = .ok s3 := a1
            have a1'' : countAt s1 (Mondrian.Tree.leaf id d).id label = .ok s3 := a1
            obtain ⟨k1, k2⟩ := countAt_keeps a1'
            simp only [a1'', ok_bind] at hg ⊢
            refine ⟨⟨us, us1, us2, fun a ha => by cases ha; exact ⟨us4, us3⟩, fun ω' pos' hd => by beta_reduce; rw [hg ω' pos' hd]; rfl⟩, fun s' pos' hr => ?_⟩
            cases hr
            refine ⟨.leaf id { tau := d.tau, box := newBox c d.box x, counts := bump d.counts label }, ⟨le_rfl, fun i hi => hi, dn.trans a2, fun i hi => ?_, by rw [k2, hfr], ?_⟩⟩
            · rw [k1, hfo]
              exact q3 i (fun e => hi (e ▸ List.mem_singleton.2 rfl))
            · intro q hq f hqf hpos
              rw [List.mem_singleton.1 hq] at hqf ⊢
              rw [k1, hfo] at hqf
              rw [k2, hfr]
              exact q4 f hqf hpos
        | node id d dim sp l r =>
            obtain ⟨⟨n', hn', hh', h3, h4, h5, h6⟩, hl, hr'⟩ := ht
            have : n' = n := by
              have hn2 : s.forest.nodes[id]? = some n := hn
              rw [hn'] at hn2; exact Option.some.inj hn2
            subst this
            simp only [h3, h4, h5, h6, init, ok_bind] at hg ⊢
            have hnd' := hnd
            simp only [Mondrian.Tree.ids, List.nodup_cons, List.nodup_append, List.mem_append, not_or] at hnd'
            obtain ⟨⟨nl, nr⟩, -, -, hdis⟩ := hnd'
            by_cases hx : x dim ≤ sp
            · simp only [if_pos hx, ok_bind] at hg ⊢
              obtain ⟨⟨vs, v1, v2, v3, v4⟩, g2⟩ := ih l (⟨id, { d with box := newBox c d.box x }, dim, sp, true, r⟩ :: fs) pos1 s1 dn.ready dn.free
                (by rw [dn.fading, dn.length]; exact hl1) (by rw [dn.forced, dn.length]; exact hl2) hb1 (by rw [hfr]; exact hq) hun1
                (hst.left.le hfr.le (fun i hi => by rw [hfo]; exact q3 i (fun e => nl (by rw [show id = i from e.symm]; exact hi))))
              obtain ⟨ja, jb⟩ := js_append us1 us2 us3 us4 v1 v2
              refine ⟨⟨us ++ vs, ja, jb, fun a ha => ⟨us4.trans (v3 a ha).1, fun j hj => ?_⟩, fun ω' pos' hd => ?_⟩, fun s' pos' hr => ?_⟩
              · rcases List.mem_append.1 hj with hj | hj
                · exact (us3 j hj).trans_le (v3 a ha).1
                · exact (v3 a ha).2 j hj
              · rw [List.map_append] at hd
                obtain ⟨hd1, hd2⟩ := (draws_append _ _ _ _).1 hd
                rw [List.length_map] at hd2
                beta_reduce
                have := v4 ω' _ hd2
                rw [hg ω' pos' hd1, List.length_append, ← Nat.add_assoc]
                exact this
              · obtain ⟨l', w⟩ := g2 s' pos' hr
                have hmax : Nat.max l.height r.height + 1 ≤ Nat.max l'.height r.height + 1 := Nat.succ_le_succ (max_le_max w.height le_rfl)
                refine ⟨.node id { d with box := newBox c d.box x } dim sp l' r, ⟨hmax, ?_, dn.trans w.done, fun i hi => ?_, by rw [← hfr]; exact w.free, ?_⟩⟩
                · intro i hi
                  simp only [Mondrian.Tree.ids, List.mem_cons, List.mem_append] at hi ⊢
                  exact hi.imp_right fun h => h.imp_left (w.ids i)
                · simp only [Mondrian.Tree.ids, List.mem_cons, List.mem_append, not_or] at hi
                  rw [w.forced i hi.2.1, hfo]
                  exact q3 i hi.1
                · refine Stuck.node (fun f hqf hpos => ?_) w.stuck ?_
                  · rw [w.forced id nl, hfo] at hqf
                    rcases q4 f hqf hpos with h1 | h1
                    · exact .inl (w.free.trans (by rw [hfr]; exact h1))
                    · exact .inr fun hroom => h1 (hroom.mono le_rfl hmax)
                  · refine hst.right.le (by rw [← hfr]; exact w.free) fun i hi => ?_
                    rw [w.forced i (fun hm => hdis i hm i hi rfl), hfo]
                    exact q3 i (fun e => nr (by rw [show id = i from e.symm]; exact hi))
            · simp only [if_neg hx, ok_bind] at hg ⊢
              obtain ⟨⟨vs, v1, v2, v3, v4⟩, g2⟩ := ih r (⟨id, { d with box := newBox c d.box x }, dim, sp, false, l⟩ :: fs) pos1 s1 dn.ready dn.free
                (by rw [dn.fading, dn.length]; exact hl1) (by rw [dn.forced, dn.length]; exact hl2) hb1 (by rw [hfr]; exact hq) hun1
                (hst.right.le hfr.le (fun i hi => by rw [hfo]; exact q3 i (fun e => nr (by rw [show id = i from e.symm]; exact hi))))
              obtain ⟨ja, jb⟩ := js_append us1 us2 us3 us4 v1 v2
              refine ⟨⟨us ++ vs, ja, jb, fun a ha => ⟨us4.trans (v3 a ha).1, fun j hj => ?_⟩, fun ω' pos' hd => ?_⟩, fun s' pos' hr => ?_⟩
              · rcases List.mem_append.1 hj with hj | hj
                · exact (us3 j hj).trans_le (v3 a ha).1
                · exact (v3 a ha).2 j hj
              · rw [List.map_append] at hd
                obtain ⟨hd1, hd2⟩ := (draws_append _ _ _ _).1 hd
                rw [List.length_map] at hd2
                beta_reduce
                have := v4 ω' _ hd2
                rw [hg ω' pos' hd1, List.length_append, ← Nat.add_assoc]
                exact this
              · obtain ⟨r', w⟩ := g2 s' pos' hr
                have hmax : Nat.max l.height r.height + 1 ≤ Nat.max l.height r'.height + 1 := Nat.succ_le_succ (max_le_max le_rfl w.height)
                refine ⟨.node id { d with box := newBox c d.box x } dim sp l r', ⟨hmax, ?_, dn.trans w.done, fun i hi => ?_, by rw [← hfr]; exact w.free, ?_⟩⟩
                · intro i hi
                  simp only [Mondrian.Tree.ids, List.mem_cons, List.mem_append] at hi ⊢
                  exact hi.imp_right fun h => h.imp_right (w.ids i)
                · simp only [Mondrian.Tree.ids, List.mem_cons, List.mem_append, not_or] at hi
                  rw [w.forced i hi.2.2, hfo]
                  exact q3 i hi.1
                · refine Stuck.node (fun f hqf hpos => ?_) ?_ w.stuck
                  · rw [w.forced id nr, hfo] at hqf
                    rcases q4 f hqf hpos with h1 | h1
                    · exact .inl (w.free.trans (by rw [hfr]; exact h1))
                    · exact .inr fun hroom => h1 (hroom.mono le_rfl hmax)
                  · refine hst.left.le (by rw [← hfr]; exact w.free) fun i hi => ?_
                    rw [w.forced i (fun hm => hdis i hi i hm rfl), hfo]
                    exact q3 i (fun e => nl (by rw [show id = i from e.symm]; exact hi))

end Orp.Coarse
