import Verif.Mondrian.Run

/-!
Training with an arbitrary choice of the cuts: `extend_block` where the random choices (lines 126-163) are made by any function. The model of
the code is the instance `draw p ω`; floating-point rounding is another one.
-/

set_option linter.unusedSectionVars false

namespace Orp.Mondrian

open Finset

variable {K : Type} [Field K] [LinearOrder K] [IsStrictOrderedRing K] [FloorRing K] {F L : Nat}

/-- A way to choose cuts: position in the random sequence, box, point, times of the parent and of the node -/
abbrev Chooser (K : Type) (F : Nat) := Nat → Box K F → (Fin F → K) → K → K → Res (Option (Cut K F) × Nat)

/-- `extend_block` (mondrian.hpp:124-252) with any choice of the cuts; see `extendBlock`; `fuel` bounds the depth of the recursion. -/
def extendBlockWith (p : Params K) (D : Chooser K F) (x : Fin F → K) (label : Fin L) (tree : Nat) : (fuel : Nat) → (id : Nat) → (pos : Nat) → Forest K F L →
    Res (Forest K F L × Nat)
  | 0, _, _, _ => .error .ub
  | fuel + 1, id, pos, s => do
      let node ← rd s.nodes id
      let parentTau ← (match node.parent with
        | some q => (rd s.nodes q).map (·.tau)
        | none => .ok 0 : Res K)
      let b ← init node.box
      let (cut, pos) ← D pos b x parentTau node.tau
      let (s, updateBox) ← tryInsert p s id tree cut x label
      if updateBox then do
        let node ← rd s.nodes id
        let b ← init node.box
        let nodes ← wr s.nodes id { node with box := some (b.extend x) }
        match node.dim with
        | some dim => do
            let sp ← init node.split
            let child ← init (if x dim ≤ sp then node.left else node.right)
            extendBlockWith p D x label tree fuel child pos { s with nodes := nodes }
        | none => do
            let nodes ← upd nodes id (fun n => { n with counts := bump n.counts label })
            return ({ s with nodes := nodes }, pos)
      else return (s, pos)

/-- `train_tree` (mondrian.hpp:279-300) with any choice of the cuts; see `trainTree`. It always returns true. If no node is available the code writes to `nodes[-1]`. -/
def trainTreeWith (p : Params K) (D : Chooser K F) (x : Fin F → K) (label : Fin L) (tree : Nat) (s : Forest K F L) (pos : Nat) :
    Res (Forest K F L × Nat × Bool) := do
  let root ← rd s.roots tree
  match root with
  | none =>
      match availableNode s.nodes with
      | none => .error .ub
      | some id => do
          let roots ← wr s.roots tree (some id)
          let nodes ← upd s.nodes id (fun n => { n with
            parent := none
            right := none
            left := none
            tau := 0 })
          let nodes ← sampleBlock p nodes id x label
          return ({ nodes := nodes, roots := roots }, pos, true)
  | some id => do
      let (s, pos) ← extendBlockWith p D x label tree s.nodes.length id pos s
      return (s, pos, true)

/-- The loop of `train` (mondrian.hpp:451-455) with any choice of the cuts, from tree `i`, `k` trees left. `res` is the variable `fully_trained`, initially uninitialised. -/
def trainLoopWith (p : Params K) (D : Chooser K F) (x : Fin F → K) (label : Fin L) : Nat → Nat → Forest K F L → Nat → Option Bool →
    Res (Forest K F L × Nat × Option Bool)
  | _, 0, s, pos, res => .ok (s, pos, res)
  | i, k + 1, s, pos, res => do
      let (s, pos, ok) ← trainTreeWith p D x label i s pos
      trainLoopWith p D x label (i + 1) k s pos (if ok then res else some false)

/-- `train` (mondrian.hpp:449-457) with any choice of the cuts: new state, position in the random sequence, returned value; `none` is the indeterminate value of an
uninitialised variable. -/
def trainWith (p : Params K) (D : Chooser K F) (x : Fin F → K) (label : Fin L) (s : Forest K F L) (pos : Nat) : Res (Forest K F L × Nat × Option Bool) :=
  trainLoopWith p D x label 0 s.roots.length s pos none


/-- all boxes and times of a tree have the properties -/
def Tree.All (QB : Box K F → Prop) (QT : K → Prop) : Tree K F L → Prop
  | .leaf _ d => QB d.box ∧ QT d.tau
  | .node _ d _ _ l r => QB d.box ∧ QT d.tau ∧ l.All QB QT ∧ r.All QB QT

/-- The cuts have times between those of the parent and of the node, and properties of boxes (`QB`) and times (`QT`) are kept. -/
structure Fair (D : Chooser K F) (QB : Box K F → Prop) (QT : K → Prop) (life : K) (x : Fin F → K) : Prop where
  cut : ∀ (pos : Nat) (b : Box K F) (ptau tau : K) (c : Cut K F) (pos' : Nat), QB b → QT ptau → QT tau → D pos b x ptau tau = .ok (some c, pos') →
    ptau ≤ c.tau ∧ c.tau < tau ∧ QT c.tau
  point : QB (Box.point x)
  extend : ∀ b, QB b → QB (b.extend x)
  zero : QT 0
  life : QT life

/-- `extend_block` on trees; `fresh` are the places of two new nodes, if there are -/
def growWith (p : Params K) (D : Chooser K F) (fresh : Option (Nat × Nat)) (x : Fin F → K) (label : Fin L) : Tree K F L → K → Nat → Res (Tree K F L × Nat)
  | .leaf id d, ptau, pos =>
      match D pos d.box x ptau d.tau with
      | .error e => .error e
      | .ok (c, pos) =>
        match both c fresh with
        | some (c, f) => .ok (above p.lifetime f c (.leaf id d) x label, pos)
        | none => .ok (.leaf id { tau := d.tau, box := d.box.extend x, counts := bump d.counts label }, pos)
  | .node id d dim sp l r, ptau, pos =>
      match D pos d.box x ptau d.tau with
      | .error e => .error e
      | .ok (c, pos) =>
        match both c fresh with
        | some (c, f) => .ok (above p.lifetime f c (.node id d dim sp l r) x label, pos)
        | none =>
          if x dim ≤ sp then
            match growWith p D fresh x label l d.tau pos with
            | .error e => .error e
            | .ok (l, pos) => .ok (.node id { tau := d.tau, box := d.box.extend x, counts := d.counts } dim sp l r, pos)
          else
            match growWith p D fresh x label r d.tau pos with
            | .error e => .error e
            | .ok (r, pos) => .ok (.node id { tau := d.tau, box := d.box.extend x, counts := d.counts } dim sp l r, pos)

/-- how a tree grows -/
inductive GrowsWith (p : Params K) (D : Chooser K F) (fresh : Option (Nat × Nat)) (x : Fin F → K) (label : Fin L) :
    Tree K F L → K → Nat → Tree K F L → Nat → Prop where
  | above {t : Tree K F L} {ptau : K} {pos pos' : Nat} {c : Cut K F} {f : Nat × Nat} (hd : D pos t.data.box x ptau t.data.tau = .ok (some c, pos'))
      (hf : fresh = some f) : GrowsWith p D fresh x label t ptau pos (above p.lifetime f c t x label) pos'
  | leaf {id : Nat} {d : Data K F L} {ptau : K} {pos pos' : Nat} {c : Option (Cut K F)} (hd : D pos d.box x ptau d.tau = .ok (c, pos'))
      (hf : both c fresh = none) :
      GrowsWith p D fresh x label (.leaf id d) ptau pos (.leaf id { tau := d.tau, box := d.box.extend x, counts := bump d.counts label }) pos'
  | left {id : Nat} {d : Data K F L} {ptau : K} {pos pos' pos'' : Nat} {c : Option (Cut K F)} {dim : Fin F} {sp : K} {l l' r : Tree K F L}
      (hd : D pos d.box x ptau d.tau = .ok (c, pos')) (hf : both c fresh = none) (hx : x dim ≤ sp)
      (hg : GrowsWith p D fresh x label l d.tau pos' l' pos'') :
      GrowsWith p D fresh x label (.node id d dim sp l r) ptau pos (.node id { tau := d.tau, box := d.box.extend x, counts := d.counts } dim sp l' r) pos''
  | right {id : Nat} {d : Data K F L} {ptau : K} {pos pos' pos'' : Nat} {c : Option (Cut K F)} {dim : Fin F} {sp : K} {l r r' : Tree K F L}
      (hd : D pos d.box x ptau d.tau = .ok (c, pos')) (hf : both c fresh = none) (hx : ¬ x dim ≤ sp)
      (hg : GrowsWith p D fresh x label r d.tau pos' r' pos'') :
      GrowsWith p D fresh x label (.node id d dim sp l r) ptau pos (.node id { tau := d.tau, box := d.box.extend x, counts := d.counts } dim sp l r') pos''

theorem growWith_grows (p : Params K) (D : Chooser K F) (fresh : Option (Nat × Nat)) (x : Fin F → K) (label : Fin L) :
    ∀ (t : Tree K F L) (ptau : K) (pos : Nat) (t' : Tree K F L) (pos' : Nat), growWith p D fresh x label t ptau pos = .ok (t', pos') →
      GrowsWith p D fresh x label t ptau pos t' pos'
  | .leaf id d, ptau, pos, t', pos', h => by
      unfold growWith at h
      cases hd : D pos d.box x ptau d.tau with
      | error e => simp [hd] at h
      | ok q =>
        obtain ⟨c, pos1⟩ := q
        cases hb : both c fresh with
        | none =>
          simp only [hd, hb, Except.ok.injEq, Prod.mk.injEq] at h
          obtain ⟨rfl, rfl⟩ := h
          exact .leaf hd hb
        | some q =>
          simp only [hd, hb, Except.ok.injEq, Prod.mk.injEq] at h
          obtain ⟨rfl, rfl⟩ := h
          obtain ⟨rfl, hf⟩ := both_some hb
          exact .above hd hf
  | .node id d dim sp l r, ptau, pos, t', pos', h => by
      unfold growWith at h
      cases hd : D pos d.box x ptau d.tau with
      | error e => simp [hd] at h
      | ok q =>
        obtain ⟨c, pos1⟩ := q
        cases hb : both c fresh with
        | some q =>
          simp only [hd, hb, Except.ok.injEq, Prod.mk.injEq] at h
          obtain ⟨rfl, rfl⟩ := h
          obtain ⟨rfl, hf⟩ := both_some hb
          exact .above hd hf
        | none =>
          simp only [hd, hb] at h
          by_cases hx : x dim ≤ sp
          · rw [if_pos hx] at h
            cases hg : growWith p D fresh x label l d.tau pos1 with
            | error e => simp [hg] at h
            | ok q =>
              obtain ⟨l', pos2⟩ := q
              simp only [hg, Except.ok.injEq, Prod.mk.injEq] at h
              obtain ⟨rfl, rfl⟩ := h
              exact .left hd hb hx (growWith_grows p D fresh x label l _ _ _ _ hg)
          · rw [if_neg hx] at h
            cases hg : growWith p D fresh x label r d.tau pos1 with
            | error e => simp [hg] at h
            | ok q =>
              obtain ⟨r', pos2⟩ := q
              simp only [hg, Except.ok.injEq, Prod.mk.injEq] at h
              obtain ⟨rfl, rfl⟩ := h
              exact .right hd hb hx (growWith_grows p D fresh x label r _ _ _ _ hg)

/-- The first part of `extend_block`, up to the update of the box -/
theorem extendWith_head (p : Params K) (D : Chooser K F) (x : Fin F → K) (label : Fin L) (tree fuel : Nat) (fs : List (Frame K F L)) (t : Tree K F L)
    (pos : Nat) (s : Forest K F L) (hrdy : Ready s tree (plug fs t)) :
    extendBlockWith p D x label tree (fuel + 1) t.id pos s = (do
      let (cut, pos) ← D pos t.data.box x (ctxTau fs) t.data.tau
      let (s, updateBox) ← tryInsert p s t.id tree cut x label
      if updateBox then do
        let node ← rd s.nodes t.id
        let b ← init node.box
        let nodes ← wr s.nodes t.id { node with box := some (b.extend x) }
        match node.dim with
        | some dim => do
            let sp ← init node.split
            let child ← init (if x dim ≤ sp then node.left else node.right)
            extendBlockWith p D x label tree fuel child pos { s with nodes := nodes }
        | none => do
            let nodes ← upd nodes t.id (fun n => { n with counts := bump n.counts label })
            return ({ s with nodes := nodes }, pos)
      else return (s, pos)) := by
  obtain ⟨hctx, hT, -⟩ := hrdy.parts
  obtain ⟨n, hn, hh⟩ := holds_root hT
  have e1 := ctxTau_spec hctx
  rw [← hh.1] at e1
  rw [extendBlockWith]
  simp only [rd_eq_ok_iff.2 hn, bind, Except.bind]
  cases hpar : n.parent with
  | none =>
      rw [hpar] at e1
      have e2 : (0 : K) = ctxTau fs := Except.ok.inj e1
      simp only [hh.2.2.1, init, hh.2.1, e2]
  | some q =>
      rw [hpar] at e1
      simp only at e1
      simp only [e1, hh.2.2.1, init, hh.2.1]

/-- `extend_block` does to the tree what `growWith` says -/
theorem extendBlockWith_spec (p : Params K) (hlife : 0 ≤ p.lifetime) (D : Chooser K F) (x : Fin F → K) (label : Fin L)
    {QB : Box K F → Prop} {QT : K → Prop} (hD : Fair D QB QT p.lifetime x) (tree : Nat) : ∀ (t : Tree K F L) (fs : List (Frame K F L)) (fuel pos : Nat) (s : Forest K F L),
    t.All QB QT → QT (ctxTau fs) → t.height ≤ fuel → Ready s tree (plug fs t) →
    match growWith p D (freshOf (avail s.nodes)) x label t (ctxTau fs) pos with
    | .error e => extendBlockWith p D x label tree fuel t.id pos s = .error e
    | .ok (t', pos') => ∃ s', extendBlockWith p D x label tree fuel t.id pos s = .ok (s', pos') ∧ Done s s' tree (plug fs t) (plug fs t')
  | .leaf id d, fs, 0, pos, s, _, _, hfuel, _ => by simp [Tree.height] at hfuel
  | .node id d dim sp l r, fs, 0, pos, s, _, _, hfuel, _ => by simp [Tree.height] at hfuel
  | .leaf id d, fs, fuel + 1, pos, s, hQ, hT0, hfuel, hrdy => by
      rw [extendWith_head p D x label tree fuel fs _ pos s hrdy]
      have h0 := ctxTau_nonneg hrdy
      simp only [Tree.data, Tree.id]
      cases hd : D pos d.box x (ctxTau fs) d.tau with
      | error e =>
        have hgr : growWith p D (freshOf (avail s.nodes)) x label (.leaf id d) (ctxTau fs) pos = .error e := by rw [growWith, hd]
        rw [hgr]; rfl
      | ok q =>
        obtain ⟨c, pos1⟩ := q
        have hcut : ∀ c', c = some c' → 0 ≤ c'.tau := by
          rintro c' rfl; exact h0.trans (hD.cut _ _ _ _ _ _ hQ.1 hT0 hQ.2 hd).1
        cases hb : both c (freshOf (avail s.nodes)) with
        | some q =>
          obtain ⟨rfl, hf⟩ := both_some hb
          obtain ⟨s', a1, a2⟩ := tryInsert_above p hlife s tree q.1 x label fs (.leaf id d) hrdy (hcut _ rfl) hf
          have hgr : growWith p D (freshOf (avail s.nodes)) x label (.leaf id d) (ctxTau fs) pos = .ok (above p.lifetime q.2 q.1 (.leaf id d) x label, pos1) := by
            rw [growWith, hd]; simp only [hb]
          rw [hgr]
          refine ⟨s', ?_, a2⟩
          simp only [Tree.id] at a1
          simp [bind, Except.bind, a1, pure, Except.pure]
        | none =>
          obtain ⟨s1, a1, a2, a3⟩ := tryInsert_none p s tree c x label fs (.leaf id d) hrdy hcut hb
          simp only [Tree.id] at a1
          obtain ⟨-, hT, -⟩ := a2.ready.parts
          obtain ⟨n, hn, hh, hdim⟩ := hT
          obtain ⟨n2, u2, l2, g2⟩ := upd_spec (nodes := s1.nodes.set id { n with box := some (d.box.extend x) }) (i := id)
            (n := { n with box := some (d.box.extend x) }) (fun n => { n with counts := bump n.counts label })
            (by rw [List.getElem?_set_self (lt_of_get hn)])
          obtain ⟨b1, b2⟩ := done_update a2.ready (t := .leaf id d) (n := n) (n' := { n with
              box := some (d.box.extend x)
              counts := bump n.counts label }) (nodes' := n2) (d' := { tau := d.tau, box := d.box.extend x, counts := bump d.counts label })
            hn (by rw [l2, List.length_set]) (fun j => by
              rw [g2]
              by_cases hj : j = id
              · rw [if_pos hj, if_pos (show j = Tree.id (.leaf id d) from hj)]
              · rw [if_neg hj, if_neg (show ¬ j = Tree.id (.leaf id d) from hj), List.getElem?_set_ne (Ne.symm hj)]) rfl rfl rfl rfl ⟨hh.1, hh.2.1, rfl, by rw [hh.2.2.2]⟩ rfl
          have hgr : growWith p D (freshOf (avail s.nodes)) x label (.leaf id d) (ctxTau fs) pos =
              .ok (.leaf id { tau := d.tau, box := d.box.extend x, counts := bump d.counts label }, pos1) := by
            rw [growWith, hd]; simp only [hb]
          rw [hgr]
          refine ⟨{ s1 with nodes := n2 }, ?_, a2.trans (List.Perm.refl _) a3 b1⟩
          simp only [bind, Except.bind, a1, rd_eq_ok_iff.2 hn, hh.2.2.1, init, wr_ok _ (lt_of_get hn), if_true]
          simp only [hdim] at u2 ⊢
          simp only [u2, pure, Except.pure]
  | .node id d dim sp l r, fs, fuel + 1, pos, s, hQ, hT0, hfuel, hrdy => by
      rw [extendWith_head p D x label tree fuel fs _ pos s hrdy]
      have h0 := ctxTau_nonneg hrdy
      simp only [Tree.data, Tree.id]
      simp only [Tree.height] at hfuel
      have hfl : l.height ≤ fuel := le_trans (Nat.le_max_left l.height r.height) (Nat.le_of_succ_le_succ hfuel)
      have hfr : r.height ≤ fuel := le_trans (Nat.le_max_right l.height r.height) (Nat.le_of_succ_le_succ hfuel)
      cases hd : D pos d.box x (ctxTau fs) d.tau with
      | error e =>
        have hgr : growWith p D (freshOf (avail s.nodes)) x label (.node id d dim sp l r) (ctxTau fs) pos = .error e := by rw [growWith, hd]
        rw [hgr]; rfl
      | ok q =>
        obtain ⟨c, pos1⟩ := q
        have hcut : ∀ c', c = some c' → 0 ≤ c'.tau := by
          rintro c' rfl; exact h0.trans (hD.cut _ _ _ _ _ _ hQ.1 hT0 hQ.2.1 hd).1
        cases hb : both c (freshOf (avail s.nodes)) with
        | some q =>
          obtain ⟨rfl, hf⟩ := both_some hb
          obtain ⟨s', a1, a2⟩ := tryInsert_above p hlife s tree q.1 x label fs (.node id d dim sp l r) hrdy (hcut _ rfl) hf
          have hgr : growWith p D (freshOf (avail s.nodes)) x label (.node id d dim sp l r) (ctxTau fs) pos = .ok (above p.lifetime q.2 q.1 (.node id d dim sp l r) x label, pos1) := by
            rw [growWith, hd]; simp only [hb]
          rw [hgr]
          refine ⟨s', ?_, a2⟩
          simp only [Tree.id] at a1
          simp [bind, Except.bind, a1, pure, Except.pure]
        | none =>
          obtain ⟨s1, a1, a2, a3⟩ := tryInsert_none p s tree c x label fs (.node id d dim sp l r) hrdy hcut hb
          simp only [Tree.id] at a1
          obtain ⟨-, hT, -⟩ := a2.ready.parts
          obtain ⟨⟨n, hn, hh, hdim, hsp, hleft, hright⟩, -, -⟩ := hT
          obtain ⟨nodes1, hnodes1⟩ : ∃ q, q = s1.nodes.set id { n with box := some (d.box.extend x) } := ⟨_, rfl⟩
          have hw : wr s1.nodes id { n with box := some (d.box.extend x) } = .ok nodes1 := by rw [hnodes1, wr_ok _ (lt_of_get hn)]
          obtain ⟨b1, b2⟩ := done_update a2.ready (t := .node id d dim sp l r) (n := n) (n' := { n with
              box := some (d.box.extend x) }) (nodes' := nodes1)
            (d' := { tau := d.tau, box := d.box.extend x, counts := d.counts })
            hn (by rw [hnodes1, List.length_set]) (fun j => by
              rw [hnodes1]
              by_cases hj : j = id
              · rw [if_pos (show j = Tree.id (.node id d dim sp l r) from hj), hj, List.getElem?_set_self (lt_of_get hn)]
              · rw [if_neg (show ¬ j = Tree.id (.node id d dim sp l r) from hj), List.getElem?_set_ne (Ne.symm hj)]) rfl rfl rfl rfl ⟨hh.1, hh.2.1, rfl, hh.2.2.2⟩ rfl
          have b3 := a2.trans (List.Perm.refl _) a3 b1
          have hA2 : avail (nodes1) = avail s.nodes ∨
              ∃ a, avail s.nodes = [a] ∧ avail (nodes1) = [] := by rw [b2]; exact a3
          have hfresh := freshOf_eq hA2
          have hperm : List.Perm (plug fs (Tree.withData { tau := d.tau, box := d.box.extend x, counts := d.counts } (.node id d dim sp l r))).ids
              (plug fs (.node id d dim sp l r)).ids := by
            refine (plug_ids fs _).trans ?_
            rw [withData_ids]
            exact (plug_ids fs _).symm
          simp only [bind, Except.bind, a1, rd_eq_ok_iff.2 hn, hh.2.2.1, init, hw, if_true]
          simp only [hdim, hsp]
          by_cases hx : x dim ≤ sp
          · have ih := extendBlockWith_spec p hlife D x label hD tree l (⟨id, { tau := d.tau, box := d.box.extend x, counts := d.counts }, dim, sp, true, r⟩ :: fs)
              fuel pos1 { s1 with nodes := nodes1 } hQ.2.2.1 hQ.2.1 hfl b1.ready
            simp only [if_pos hx, hleft]
            simp only [hfresh, ctxTau] at ih
            cases hg : growWith p D (freshOf (avail s.nodes)) x label l d.tau pos1 with
            | error e =>
              have hgr : growWith p D (freshOf (avail s.nodes)) x label (.node id d dim sp l r) (ctxTau fs) pos = .error e := by
                rw [growWith, hd]; simp only [hb, if_pos hx, hg]
              rw [hg] at ih; rw [hgr]; exact ih
            | ok q =>
              obtain ⟨l', pos2⟩ := q
              have hgr : growWith p D (freshOf (avail s.nodes)) x label (.node id d dim sp l r) (ctxTau fs) pos =
                  .ok (.node id { tau := d.tau, box := d.box.extend x, counts := d.counts } dim sp l' r, pos2) := by
                rw [growWith, hd]; simp only [hb, if_pos hx, hg]
              rw [hg] at ih; rw [hgr]
              obtain ⟨s', c1, c2⟩ := ih
              exact ⟨s', c1, b3.trans hperm hA2 c2⟩
          · have ih := extendBlockWith_spec p hlife D x label hD tree r (⟨id, { tau := d.tau, box := d.box.extend x, counts := d.counts }, dim, sp, false, l⟩ :: fs)
              fuel pos1 { s1 with nodes := nodes1 } hQ.2.2.2 hQ.2.1 hfr b1.ready
            simp only [if_neg hx, hright]
            simp only [hfresh, ctxTau] at ih
            cases hg : growWith p D (freshOf (avail s.nodes)) x label r d.tau pos1 with
            | error e =>
              have hgr : growWith p D (freshOf (avail s.nodes)) x label (.node id d dim sp l r) (ctxTau fs) pos = .error e := by
                rw [growWith, hd]; simp only [hb, if_neg hx, hg]
              rw [hg] at ih; rw [hgr]; exact ih
            | ok q =>
              obtain ⟨r', pos2⟩ := q
              have hgr : growWith p D (freshOf (avail s.nodes)) x label (.node id d dim sp l r) (ctxTau fs) pos =
                  .ok (.node id { tau := d.tau, box := d.box.extend x, counts := d.counts } dim sp l r', pos2) := by
                rw [growWith, hd]; simp only [hb, if_neg hx, hg]
              rw [hg] at ih; rw [hgr]
              obtain ⟨s', c1, c2⟩ := ih
              exact ⟨s', c1, b3.trans hperm hA2 c2⟩

/-- one tree of the forest, before and after training with a point -/
def StepWith (p : Params K) (D : Chooser K F) (z : Point K F L) (o o' : Option (Tree K F L)) : Prop :=
  match o with
  | none => ∃ id, o' = some (newLeaf p.lifetime id z.1 z.2)
  | some t => ∃ fresh pos t' pos', GrowsWith p D fresh z.1 z.2 t 0 pos t' pos' ∧ o' = some t'

theorem trainTreeWith_some (p : Params K) (hlife : 0 ≤ p.lifetime) (D : Chooser K F) (x : Fin F → K) (label : Fin L)
    {QB : Box K F → Prop} {QT : K → Prop} (hD : Fair D QB QT p.lifetime x) (s : Forest K F L) (trees : List (Option (Tree K F L))) (lost : List Nat) (hI : Inv s trees lost) (i pos : Nat) (t : Tree K F L)
    (hi : trees[i]? = some (some t)) (hQ : t.All QB QT) :
    match growWith p D (freshOf (avail s.nodes)) x label t 0 pos with
    | .error e => trainTreeWith p D x label i s pos = .error e
    | .ok (t', pos') => ∃ (s' : Forest K F L) (lost' : List Nat), trainTreeWith p D x label i s pos = .ok (s', pos', true) ∧
        Inv s' (trees.set i (some t')) lost' ∧ s'.nodes.length = s.nodes.length ∧
        Taken (avail s.nodes) (avail s'.nodes) t.ids t'.ids := by
  have h := extendBlockWith_spec p hlife D x label hD i t [] s.nodes.length pos s hQ hD.zero (hI.height_le hi) (hI.ready hi)
  have hr := rd_eq_ok_iff.2 (hI.root hi)
  unfold trainTreeWith
  simp only [hr, bind, Except.bind, Option.map_some]
  simp only [ctxTau, plug] at h
  cases hg : growWith p D (freshOf (avail s.nodes)) x label t 0 pos with
  | error e =>
      rw [hg] at h
      simp only at h ⊢
      rw [h]
  | ok q =>
      obtain ⟨t', pos'⟩ := q
      rw [hg] at h
      obtain ⟨s', e1, e2⟩ := h
      simp only [e1, pure, Except.pure]
      cases e2.taken with
      | same q1 q2 =>
          refine ⟨s', lost, rfl, hI.set hi e2.ready.holds e2.ready.clean e2.roots e2.length e2.other ?_ hI.one (fun h => ?_), e2.length, e2.taken⟩
          · rw [q1]; exact (q2.append_left _).append_left _
          · rw [q1]; exact hI.empty h
      | two a b q1 q2 =>
          have hl : lost = [] := by
            by_contra hne
            rw [hI.empty hne] at q1
            cases q1
          subst hl
          refine ⟨s', [], rfl, hI.set hi e2.ready.holds e2.ready.clean e2.roots e2.length e2.other ?_ (by simp) (by simp), e2.length, e2.taken⟩
          rw [q1]
          simp only [List.nil_append, List.cons_append, oids]
          refine (q2.append_left _).trans ?_
          exact List.perm_middle.trans (List.perm_middle.cons _)
      | lost a q1 q2 q3 =>
          have hl : lost = [] := by
            by_contra hne
            rw [hI.empty hne] at q1
            cases q1
          subst hl
          refine ⟨s', [a], rfl, hI.set hi e2.ready.holds e2.ready.clean e2.roots e2.length e2.other ?_ (by simp) (fun _ => q2), e2.length, e2.taken⟩
          rw [q1, q2]
          simp only [List.nil_append, List.cons_append, oids]
          exact q3.cons _

theorem trainTreeWith_none (p : Params K) (hlife : 0 ≤ p.lifetime) (D : Chooser K F) (x : Fin F → K) (label : Fin L)
    (s : Forest K F L) (trees : List (Option (Tree K F L))) (lost : List Nat) (hI : Inv s trees lost) (i pos : Nat)
    (hi : trees[i]? = some none) :
    match avail s.nodes with
    | [] => trainTreeWith p D x label i s pos = .error .ub
    | a :: A => ∃ (s' : Forest K F L), trainTreeWith p D x label i s pos = .ok (s', pos, true) ∧
        Inv s' (trees.set i (some (newLeaf p.lifetime a x label))) [] ∧ s'.nodes.length = s.nodes.length ∧ avail s'.nodes = A := by
  have hr := rd_eq_ok_iff.2 (hI.root hi)
  unfold trainTreeWith
  simp only [hr, bind, Except.bind, Option.map_none, availableNode_eq]
  cases hA : avail s.nodes with
  | nil => simp only [List.head?_nil]
  | cons a A =>
      have hma : a ∈ avail s.nodes := by rw [hA]; simp
      obtain ⟨m, hm, hneg⟩ := mem_avail.1 hma
      obtain ⟨hdim, hcnt⟩ := hI.clean a m hm hneg
      obtain ⟨n1, u1, l1, g1⟩ := upd_spec (fun (n : Node K F L) => { n with
            parent := none
            right := none
            left := none
            tau := 0 }) hm
      have g1a := g1 a
      rw [if_pos rfl] at g1a
      obtain ⟨n2, u2, l2, g2⟩ := upd_spec (fun (n : Node K F L) => { n with
        box := some { lower := x, upper := x }
        counts := bump n.counts label
        tau := p.lifetime }) g1a
      have hroot := hI.root hi
      have hlt : i < s.roots.length := lt_of_get hroot
      have g2' : ∀ j, j ≠ a → n2[j]? = s.nodes[j]? := by
        intro j hj
        rw [g2, if_neg hj, g1, if_neg hj]
      have g2a := g2 a
      rw [if_pos rfl] at g2a
      have hnl : lost = [] := by
        by_contra hne
        rw [hI.empty hne] at hA
        cases hA
      subst hnl
      have hnda := hA ▸ avail_nodup s.nodes
      have hav : avail n2 = A := by
        rw [avail_used (l2.trans l1) [a] ?_ ?_ ?_, hA]
        · have hnot := (List.nodup_cons.1 hnda).1
          rw [List.filter_cons]
          simp only [List.mem_singleton, not_true_eq_false, decide_false, Bool.false_eq_true, if_false]
          rw [List.filter_eq_self]
          intro j hj
          simp only [decide_eq_true_eq]
          rintro rfl
          exact hnot hj
        · intro j _ hj
          exact g2' j (by simpa using hj)
        · intro j hj
          rw [List.mem_singleton.1 hj, mem_avail, g2a]
          rintro ⟨n, e, hn⟩
          have := Option.some.inj e
          subst this
          exact absurd hn (not_lt.2 hlife)
        · intro j hj
          have hja : j ≠ a := by rintro rfl; exact hj hma
          rw [mem_avail, g2' j hja, ← mem_avail]
          exact hj
      simp only [List.head?_cons, wr_ok _ hlt, u1, sampleBlock, u2, pure, Except.pure]
      refine ⟨_, rfl, ?_, l2.trans l1, hav⟩
      refine hI.set hi ?_ ?_ rfl (l2.trans l1) ?_ ?_ (by simp) (by simp)
      · refine ⟨_, g2a, ⟨rfl, rfl, rfl, ?_⟩, hdim⟩
        rw [hcnt]
      · intro j n hj hn
        have hj' : n2[j]? = some n := hj
        have hja : j ≠ a := by
          rintro rfl
          rw [g2a] at hj'
          have := Option.some.inj hj'
          subst this
          exact absurd hn (not_lt.2 hlife)
        rw [g2' j hja] at hj'
        exact hI.clean j n hj' hn
      · intro k _ hk
        exact g2' k (by rintro rfl; exact hk hma)
      · show List.Perm (avail n2 ++ ([] ++ [a])) _
        rw [hav, hA]
        simp only [List.nil_append, oids, List.append_nil]
        exact List.perm_append_comm

/-- all trees have the properties -/
def AllTrees (QB : Box K F → Prop) (QT : K → Prop) (trees : List (Option (Tree K F L))) : Prop := ∀ t, some t ∈ trees → t.All QB QT

theorem All.data {QB : Box K F → Prop} {QT : K → Prop} : ∀ {t : Tree K F L}, t.All QB QT → QB t.data.box ∧ QT t.data.tau
  | .leaf _ _, h => h
  | .node _ _ _ _ _ _, h => ⟨h.1, h.2.1⟩

theorem newLeaf_all {D : Chooser K F} {QB : Box K F → Prop} {QT : K → Prop} {life : K} {x : Fin F → K} (hD : Fair D QB QT life x) (id : Nat) (label : Fin L) :
    (newLeaf life id x label).All QB QT := ⟨hD.point, hD.life⟩

theorem above_all {D : Chooser K F} {QB : Box K F → Prop} {QT : K → Prop} {life : K} {x : Fin F → K} (hD : Fair D QB QT life x) (fresh : Nat × Nat)
    {c : Cut K F} {t : Tree K F L} (label : Fin L) (h : t.All QB QT) (hc : QT c.tau) : (above life fresh c t x label).All QB QT := by
  unfold above
  simp only
  split
  · exact ⟨hD.extend _ (All.data h).1, hc, h, newLeaf_all hD _ _⟩
  · exact ⟨hD.extend _ (All.data h).1, hc, newLeaf_all hD _ _, h⟩

theorem GrowsWith.all {p : Params K} {D : Chooser K F} {QB : Box K F → Prop} {QT : K → Prop} {x : Fin F → K} (hD : Fair D QB QT p.lifetime x)
    {fresh : Option (Nat × Nat)} {label : Fin L} {t : Tree K F L} {ptau : K} {pos : Nat} {t' : Tree K F L} {pos' : Nat}
    (h : GrowsWith p D fresh x label t ptau pos t' pos') : QT ptau → t.All QB QT → t'.All QB QT := by
  induction h with
  | above hd hf => intro h0 ht; exact above_all hD _ _ ht (hD.cut _ _ _ _ _ _ (All.data ht).1 h0 (All.data ht).2 hd).2.2
  | leaf hd hf => intro h0 ht; exact ⟨hD.extend _ ht.1, ht.2⟩
  | left hd hf hx hg ih => intro h0 ht; exact ⟨hD.extend _ ht.1, ht.2.1, ih ht.2.1 ht.2.2.1, ht.2.2.2⟩
  | right hd hf hx hg ih => intro h0 ht; exact ⟨hD.extend _ ht.1, ht.2.1, ht.2.2.1, ih ht.2.1 ht.2.2.2⟩

theorem GrowsWith.times {p : Params K} {D : Chooser K F} {QB : Box K F → Prop} {QT : K → Prop} {x : Fin F → K} (hD : Fair D QB QT p.lifetime x)
    {fresh : Option (Nat × Nat)} {label : Fin L} {t : Tree K F L} {ptau : K} {pos : Nat} {t' : Tree K F L} {pos' : Nat}
    (h : GrowsWith p D fresh x label t ptau pos t' pos') :
    QT ptau → t.All QB QT → Times (· ≤ ·) p.lifetime ptau t → Times (· ≤ ·) p.lifetime ptau t' := by
  induction h with
  | above hd hf =>
      intro h0 hQ ht
      obtain ⟨a1, a2, -⟩ := hD.cut _ _ _ _ _ _ (All.data hQ).1 h0 (All.data hQ).2 hd
      exact above_times (fun a b h => h.le) _ x label ht a1 a2
  | leaf hd hf => intro h0 hQ ht; exact ht
  | left hd hf hx hg ih => intro h0 hQ ht; exact ⟨ht.1, ht.2.1, ih hQ.2.1 hQ.2.2.1 ht.2.2.1, ht.2.2.2⟩
  | right hd hf hx hg ih => intro h0 hQ ht; exact ⟨ht.1, ht.2.1, ht.2.2.1, ih hQ.2.1 hQ.2.2.2 ht.2.2.2⟩

/-- The cuts are between the box and the point. -/
def Between (D : Chooser K F) (QB : Box K F → Prop) (QT : K → Prop) (x : Fin F → K) : Prop :=
  ∀ (pos : Nat) (b : Box K F) (ptau tau : K) (c : Cut K F) (pos' : Nat), QB b → QT ptau → QT tau → D pos b x ptau tau = .ok (some c, pos') → c.Ok b x

theorem GrowsWith.right_tree {p : Params K} {D : Chooser K F} {QB : Box K F → Prop} {QT : K → Prop} {z : Point K F L} (hB : Between D QB QT z.1)
    {fresh : Option (Nat × Nat)} {t : Tree K F L} {ptau : K} {pos : Nat} {t' : Tree K F L} {pos' : Nat}
    (h : GrowsWith p D fresh z.1 z.2 t ptau pos t' pos') : QT ptau → t.All QB QT → ∀ {pts : List (Point K F L)}, Right pts t → Right (pts ++ [z]) t' := by
  induction h with
  | above hd hf =>
      intro h0 hQ pts hr
      exact above_right _ _ z hr (hB _ _ _ _ _ _ (All.data hQ).1 h0 (All.data hQ).2 hd)
  | leaf hd hf =>
      intro h0 hQ pts hr
      refine ⟨by simp, hr.2.1.extend z, ?_⟩
      rw [histogram_append, ← hr.2.2]
  | left hd hf hx hg ih =>
      intro h0 hQ pts hr
      refine ⟨hr.1.extend z, ?_, ?_⟩
      · rw [List.filter_append, List.filter_cons_of_pos (by simpa using hx), List.filter_nil]
        exact ih hQ.2.1 hQ.2.2.1 hr.2.1
      · rw [List.filter_append, List.filter_cons_of_neg (by simpa using hx), List.filter_nil, List.append_nil]
        exact hr.2.2
  | right hd hf hx hg ih =>
      intro h0 hQ pts hr
      refine ⟨hr.1.extend z, ?_, ?_⟩
      · rw [List.filter_append, List.filter_cons_of_neg (by simpa using hx), List.filter_nil, List.append_nil]
        exact hr.2.1
      · rw [List.filter_append, List.filter_cons_of_pos (by simpa using hx), List.filter_nil]
        exact ih hQ.2.1 hQ.2.2.2 hr.2.2

/-- The choice never fails. -/
def Total (D : Chooser K F) (QB : Box K F → Prop) (QT : K → Prop) (x : Fin F → K) : Prop :=
  ∀ (pos : Nat) (b : Box K F) (ptau tau : K), QB b → QT ptau → QT tau → ∃ r, D pos b x ptau tau = .ok r

theorem growWith_ok (p : Params K) (D : Chooser K F) {QB : Box K F → Prop} {QT : K → Prop} (fresh : Option (Nat × Nat)) (x : Fin F → K) (hT : Total D QB QT x)
    (label : Fin L) : ∀ (t : Tree K F L) (ptau : K) (pos : Nat), QT ptau → t.All QB QT → ∃ r, growWith p D fresh x label t ptau pos = .ok r
  | .leaf id d, ptau, pos, h0, hQ => by
      obtain ⟨⟨c, pos1⟩, hd⟩ := hT pos d.box ptau d.tau hQ.1 h0 hQ.2
      unfold growWith
      simp only [hd]
      split <;> exact ⟨_, rfl⟩
  | .node id d dim sp l r, ptau, pos, h0, hQ => by
      obtain ⟨⟨c, pos1⟩, hd⟩ := hT pos d.box ptau d.tau hQ.1 h0 hQ.2.1
      unfold growWith
      simp only [hd]
      obtain ⟨⟨l', pl⟩, hl⟩ := growWith_ok p D fresh x hT label l d.tau pos1 hQ.2.1 hQ.2.2.1
      obtain ⟨⟨r', pr⟩, hr⟩ := growWith_ok p D fresh x hT label r d.tau pos1 hQ.2.1 hQ.2.2.2
      split
      · exact ⟨_, rfl⟩
      · simp only [hl, hr]; split <;> exact ⟨_, rfl⟩

theorem StepWith.all {p : Params K} {D : Chooser K F} {QB : Box K F → Prop} {QT : K → Prop} {z : Point K F L} (hD : Fair D QB QT p.lifetime z.1)
    {o o' : Option (Tree K F L)} (h : StepWith p D z o o') (hQ : ∀ t, o = some t → t.All QB QT) : ∀ t, o' = some t → t.All QB QT := by
  cases o with
  | none => obtain ⟨id, rfl⟩ := h; rintro t ⟨⟩; exact newLeaf_all hD _ _
  | some t0 => obtain ⟨_, _, t', _, h1, rfl⟩ := h; rintro t ⟨⟩; exact h1.all hD hD.zero (hQ t0 rfl)

theorem AllTrees.set {QB : Box K F → Prop} {QT : K → Prop} {trees : List (Option (Tree K F L))} (h : AllTrees QB QT trees) (i : Nat) {o : Option (Tree K F L)}
    (ho : ∀ t, o = some t → t.All QB QT) : AllTrees QB QT (trees.set i o) := by
  intro t ht
  rcases List.mem_or_eq_of_mem_set ht with h1 | h1
  · exact h t h1
  · exact ho t h1.symm

/-- what one call of `train_tree` does, if it ends -/
theorem trainTreeWith_spec (p : Params K) (hlife : 0 ≤ p.lifetime) (D : Chooser K F) (x : Fin F → K) (label : Fin L)
    {QB : Box K F → Prop} {QT : K → Prop} (hD : Fair D QB QT p.lifetime x) (s : Forest K F L) (trees : List (Option (Tree K F L))) (lost : List Nat) (hI : Inv s trees lost) (hQ : AllTrees QB QT trees) (i pos : Nat) (o : Option (Tree K F L))
    (hi : trees[i]? = some o) (r : Forest K F L × Nat × Bool) (h : trainTreeWith p D x label i s pos = .ok r) :
    ∃ (o' : Option (Tree K F L)) (lost' : List Nat), Inv r.1 (trees.set i o') lost' ∧ r.1.nodes.length = s.nodes.length ∧ r.2.2 = true ∧
      StepWith p D (x, label) o o' := by
  cases o with
  | none =>
      have := trainTreeWith_none p hlife D x label s trees lost hI i pos hi
      cases hA : avail s.nodes with
      | nil => rw [hA] at this; simp only at this; rw [this] at h; cases h
      | cons a A =>
          rw [hA] at this
          obtain ⟨s', e1, e2, e3, -⟩ := this
          rw [e1] at h
          cases h
          exact ⟨_, [], e2, e3, rfl, a, rfl⟩
  | some t =>
      have := trainTreeWith_some p hlife D x label hD s trees lost hI i pos t hi (hQ t (List.mem_of_getElem? hi))
      cases hg : growWith p D (freshOf (avail s.nodes)) x label t 0 pos with
      | error e => rw [hg] at this; simp only at this; rw [this] at h; cases h
      | ok q =>
          obtain ⟨t', pos'⟩ := q
          rw [hg] at this
          obtain ⟨s', lost', e1, e2, e3, -⟩ := this
          rw [e1] at h
          cases h
          exact ⟨some t', lost', e2, e3, rfl, _, pos, t', pos', growWith_grows _ _ _ _ _ _ _ _ _ _ hg, rfl⟩

theorem trainLoopWith_spec (p : Params K) (hlife : 0 ≤ p.lifetime) (D : Chooser K F) (x : Fin F → K) (label : Fin L)
    {QB : Box K F → Prop} {QT : K → Prop} (hD : Fair D QB QT p.lifetime x) :
    ∀ (k i : Nat) (s : Forest K F L) (trees : List (Option (Tree K F L))) (lost : List Nat) (pos : Nat) (res : Option Bool)
      (r : Forest K F L × Nat × Option Bool), i + k = trees.length → Inv s trees lost → AllTrees QB QT trees → trainLoopWith p D x label i k s pos res = .ok r →
      ∃ (trees' : List (Option (Tree K F L))) (lost' : List Nat), Inv r.1 trees' lost' ∧ AllTrees QB QT trees' ∧ r.1.nodes.length = s.nodes.length ∧ r.2.2 = res ∧
        trees'.length = trees.length ∧ ∀ (j : Nat) (o : Option (Tree K F L)), trees[j]? = some o →
          ∃ o', trees'[j]? = some o' ∧ (j < i → o' = o) ∧ (i ≤ j → StepWith p D (x, label) o o')
  | 0, i, s, trees, lost, pos, res, r, hk, hI, hQ, h => by
      simp only [trainLoopWith, Except.ok.injEq] at h
      subst h
      refine ⟨trees, lost, hI, hQ, rfl, rfl, rfl, fun j o hj => ⟨o, hj, fun _ => rfl, fun hij => ?_⟩⟩
      have := lt_of_get hj
      omega
  | k + 1, i, s, trees, lost, pos, res, r, hk, hI, hQ, h => by
      simp only [trainLoopWith, bind, Except.bind] at h
      have hlt : i < trees.length := by omega
      cases ht : trainTreeWith p D x label i s pos with
      | error e => rw [ht] at h; cases h
      | ok q =>
          obtain ⟨s1, pos1, ok⟩ := q
          obtain ⟨o1, lost1, a1, a2, a3, a4⟩ := trainTreeWith_spec p hlife D x label hD s trees lost hI hQ i pos _ (List.getElem?_eq_getElem hlt) _ ht
          simp only at a1 a2 a3
          subst a3
          rw [ht] at h
          simp only [if_true] at h
          have hQ1 := hQ.set i (a4.all hD (fun t ht => hQ t (by rw [← ht]; exact List.getElem_mem hlt)))
          obtain ⟨trees', lost', b1, bQ, b2, b3, b4, b5⟩ := trainLoopWith_spec p hlife D x label hD k (i + 1) s1 _ lost1 pos1 res r
            (by rw [List.length_set]; omega) a1 hQ1 h
          refine ⟨trees', lost', b1, bQ, b2.trans a2, b3, by rw [b4, List.length_set], fun j o hj => ?_⟩
          by_cases hji : j = i
          · subst hji
            rw [List.getElem?_eq_getElem hlt] at hj
            have := Option.some.inj hj
            subst this
            obtain ⟨o', c1, c2, -⟩ := b5 j o1 (List.getElem?_set_self hlt)
            refine ⟨o', c1, fun h => absurd h (lt_irrefl _), fun _ => ?_⟩
            rw [c2 (by omega)]; exact a4
          · obtain ⟨o', c1, c2, c3⟩ := b5 j o (by rw [List.getElem?_set_ne (Ne.symm hji)]; exact hj)
            exact ⟨o', c1, fun h => c2 (by omega), fun h => c3 (by omega)⟩

theorem trainLoopWith_ok (p : Params K) (hlife : 0 ≤ p.lifetime) (D : Chooser K F) (x : Fin F → K) (label : Fin L)
    {QB : Box K F → Prop} {QT : K → Prop} (hD : Fair D QB QT p.lifetime x) (hT : Total D QB QT x) :
    ∀ (k i : Nat) (s : Forest K F L) (trees : List (Option (Tree K F L))) (lost : List Nat) (pos : Nat) (res : Option Bool),
      i + k = trees.length → Inv s trees lost → AllTrees QB QT trees → Enough s trees i k →
      ∃ (r : Forest K F L × Nat × Option Bool), trainLoopWith p D x label i k s pos res = .ok r
  | 0, i, s, trees, lost, pos, res, hk, hI, hQ, hE => ⟨_, rfl⟩
  | k + 1, i, s, trees, lost, pos, res, hk, hI, hQ, hE => by
      simp only [trainLoopWith, bind, Except.bind]
      have hlt : i < trees.length := by omega
      cases ho : trees[i] with
      | none =>
          have hi : trees[i]? = some none := by rw [List.getElem?_eq_getElem hlt, ho]
          have hE' : k + 1 ≤ (avail s.nodes).length ∧ (∀ (j : Nat) (o : Option (Tree K F L)), trees[j]? = some o → i ≤ j → o = none) ∧
              (∀ (j : Nat) (o : Option (Tree K F L)), trees[j]? = some o → j < i → o ≠ none) := by
            rcases hE with h | h
            · exact absurd rfl (h none (List.mem_of_getElem? hi))
            · exact h
          obtain ⟨hE1, hE2, hE3⟩ := hE'
          have := trainTreeWith_none p hlife D x label s trees lost hI i pos hi
          cases hA : avail s.nodes with
          | nil => rw [hA] at hE1; simp at hE1
          | cons a A =>
              rw [hA] at this hE1
              obtain ⟨s', e1, e2, e3, e4⟩ := this
              rw [e1]
              simp only
              refine trainLoopWith_ok p hlife D x label hD hT k (i + 1) s' _ [] pos _ (by rw [List.length_set]; omega) e2
                (hQ.set i (by rintro t ⟨⟩; exact newLeaf_all hD _ _)) (Or.inr ⟨?_, ?_, ?_⟩)
              · rw [e4]; simp only [List.length_cons] at hE1; omega
              · intro j o hj hij
                rw [List.getElem?_set_ne (by omega)] at hj
                exact hE2 j o hj (by omega)
              · intro j o hj hij
                by_cases hji : j = i
                · subst hji
                  rw [List.getElem?_set_self hlt] at hj
                  have := Option.some.inj hj
                  subst this
                  simp
                · rw [List.getElem?_set_ne (Ne.symm hji)] at hj
                  exact hE3 j o hj (by omega)
      | some t =>
          have hi : trees[i]? = some (some t) := by rw [List.getElem?_eq_getElem hlt, ho]
          have hE' : ∀ o ∈ trees, o ≠ none := by
            rcases hE with h | h
            · exact h
            · cases h.2.1 i _ hi le_rfl
          have := trainTreeWith_some p hlife D x label hD s trees lost hI i pos t hi (hQ t (List.mem_of_getElem? hi))
          have hQt := hQ t (List.mem_of_getElem? hi)
          obtain ⟨q, hq⟩ := growWith_ok p D (freshOf (avail s.nodes)) x hT label t 0 pos hD.zero hQt
          rw [hq] at this
          obtain ⟨s', lost', e1, e2, e3, -⟩ := this
          rw [e1]
          simp only
          refine trainLoopWith_ok p hlife D x label hD hT k (i + 1) s' _ lost' _ _ (by rw [List.length_set]; omega) e2
            (hQ.set i (by rintro t ⟨⟩; exact (growWith_grows _ _ _ _ _ _ _ _ _ _ hq).all hD hD.zero hQt)) (Or.inl ?_)
          intro o ho
          rcases List.mem_or_eq_of_mem_set ho with h | h
          · exact hE' o h
          · rw [h]; simp

theorem StepWith.ne_none {p : Params K} {D : Chooser K F} {z : Point K F L} {o o' : Option (Tree K F L)} (h : StepWith p D z o o') : o' ≠ none := by
  cases o with
  | none => obtain ⟨id, rfl⟩ := h; simp
  | some t => obtain ⟨_, _, t', _, _, rfl⟩ := h; simp


/-! ### Histories of training points -/

/-- A history of calls of `train` with any choice of the cuts (mondrian.hpp:449-457); the returned values are dropped. -/
def trainAllWith (p : Params K) (D : Chooser K F) : List (Point K F L) → Forest K F L → Nat → Res (Forest K F L × Nat)
  | [], s, pos => .ok (s, pos)
  | z :: zs, s, pos => do
      let (s, pos, _) ← trainWith p D z.1 z.2 s pos
      trainAllWith p D zs s pos

/-- what holds for the trees after training with `pts` -/
structure Shaped (QB : Box K F → Prop) (QT : K → Prop) (life : K) (m n : Nat) (pts : List (Point K F L)) (s : Forest K F L)
    (trees : List (Option (Tree K F L))) (lost : List Nat) : Prop where
  inv : Inv s trees lost
  pool : s.nodes.length = m
  count : trees.length = n
  all : AllTrees QB QT trees
  times : ∀ t, some t ∈ trees → Times (· ≤ ·) life 0 t
  empty : pts = [] → ∀ o ∈ trees, o = none
  full : pts ≠ [] → ∀ o ∈ trees, o ≠ none

theorem shaped_new (QB : Box K F → Prop) (QT : K → Prop) (life : K) (m n : Nat) :
    Shaped QB QT life m n ([] : List (Point K F L)) (new m n) (List.replicate n none) [] := by
  refine ⟨inv_new m n, by simp [new], by simp, ?_, ?_, fun _ o ho => List.eq_of_mem_replicate ho, fun h => absurd rfl h⟩
  · intro t ht; cases List.eq_of_mem_replicate ht
  · intro t ht; cases List.eq_of_mem_replicate ht

/-- one call of `train` -/
theorem trainWith_spec (p : Params K) (hlife : 0 ≤ p.lifetime) (D : Chooser K F) {QB : Box K F → Prop} {QT : K → Prop} {m n : Nat} (z : Point K F L)
    (hD : Fair D QB QT p.lifetime z.1) {pts : List (Point K F L)} {s : Forest K F L} {trees : List (Option (Tree K F L))} {lost : List Nat}
    (hS : Shaped QB QT p.lifetime m n pts s trees lost) (pos : Nat) (r : Forest K F L × Nat × Option Bool)
    (h : trainWith p D z.1 z.2 s pos = .ok r) : ∃ (trees' : List (Option (Tree K F L))) (lost' : List Nat),
      Shaped QB QT p.lifetime m n (pts ++ [z]) r.1 trees' lost' ∧
      (Between D QB QT z.1 → (∀ t, some t ∈ trees → Right pts t) → ∀ t, some t ∈ trees' → Right (pts ++ [z]) t) := by
  have hroots : s.roots.length = trees.length := by rw [hS.inv.all.roots, List.length_map]
  obtain ⟨trees', lost', b1, bQ, b2, b3, b4, b5⟩ := trainLoopWith_spec p hlife D z.1 z.2 hD s.roots.length 0 s trees lost pos none r (by omega) hS.inv hS.all h
  have step : ∀ o' ∈ trees', ∃ o ∈ trees, StepWith p D z o o' := by
    intro o' ho'
    obtain ⟨j, hj⟩ := List.mem_iff_getElem?.1 ho'
    have hjlt : j < trees.length := by rw [← b4]; exact lt_of_get hj
    obtain ⟨o'', c1, -, c3⟩ := b5 j _ (List.getElem?_eq_getElem hjlt)
    rw [hj] at c1
    have := Option.some.inj c1
    subst this
    exact ⟨_, List.getElem_mem hjlt, c3 (Nat.zero_le _)⟩
  refine ⟨trees', lost', ⟨b1, b2.trans hS.pool, b4.trans hS.count, bQ, ?_, by simp, ?_⟩, ?_⟩
  · intro t ht
    obtain ⟨o, ho, hst⟩ := step _ ht
    cases o with
    | none => obtain ⟨id, e⟩ := hst; cases e; rfl
    | some t0 =>
        obtain ⟨_, _, t', _, h1, e⟩ := hst
        cases e
        exact h1.times hD hD.zero (hS.all t0 ho) (hS.times t0 ho)
  · intro _ o ho
    obtain ⟨o0, _, hst⟩ := step o ho
    exact hst.ne_none
  · intro hB hR t ht
    obtain ⟨o, ho, hst⟩ := step _ ht
    cases o with
    | none =>
        obtain ⟨id, e⟩ := hst
        cases e
        by_cases hp : pts = []
        · subst hp; exact newLeaf_right _ _ _
        · exact absurd rfl (hS.full hp none ho)
    | some t0 =>
        obtain ⟨_, _, t', _, h1, e⟩ := hst
        cases e
        exact h1.right_tree hB hD.zero (hS.all t0 ho) (hR t0 ho)

/-- The state after training: the trees are in the pool and their times increase; if the cuts are between the boxes and the points, the trees are right. -/
theorem trainAllWith_spec (p : Params K) (hlife : 0 ≤ p.lifetime) (D : Chooser K F) {QB : Box K F → Prop} {QT : K → Prop} {m n : Nat} :
    ∀ (zs pts : List (Point K F L)) (s : Forest K F L) (trees : List (Option (Tree K F L))) (lost : List Nat) (pos : Nat) (r : Forest K F L × Nat),
      (∀ z ∈ zs, Fair D QB QT p.lifetime z.1) → Shaped QB QT p.lifetime m n pts s trees lost → trainAllWith p D zs s pos = .ok r →
      ∃ (trees' : List (Option (Tree K F L))) (lost' : List Nat), Shaped QB QT p.lifetime m n (pts ++ zs) r.1 trees' lost' ∧
        ((∀ z ∈ zs, Between D QB QT z.1) → (∀ t, some t ∈ trees → Right pts t) → ∀ t, some t ∈ trees' → Right (pts ++ zs) t)
  | [], pts, s, trees, lost, pos, r, _, hS, h => by
      cases h
      exact ⟨trees, lost, by rwa [List.append_nil], fun _ hR => by rwa [List.append_nil]⟩
  | z :: zs, pts, s, trees, lost, pos, r, hD, hS, h => by
      simp only [trainAllWith, bind, Except.bind] at h
      cases ht : trainWith p D z.1 z.2 s pos with
      | error e => rw [ht] at h; cases h
      | ok q =>
          rw [ht] at h
          obtain ⟨trees1, lost1, a1, a2⟩ := trainWith_spec p hlife D z (hD z (by simp)) hS pos q ht
          obtain ⟨trees2, lost2, b1, b2⟩ := trainAllWith_spec p hlife D zs (pts ++ [z]) q.1 trees1 lost1 q.2.1 r (fun w hw => hD w (List.mem_cons_of_mem _ hw)) a1 h
          rw [List.append_assoc, List.singleton_append] at b1 b2
          exact ⟨trees2, lost2, b1, fun hB hR => b2 (fun w hw => hB w (List.mem_cons_of_mem _ hw)) (a2 (hB z (by simp)) hR)⟩

/-- Training ends without undefined behaviour. -/
theorem trainAllWith_ok (p : Params K) (hlife : 0 ≤ p.lifetime) (D : Chooser K F) {QB : Box K F → Prop} {QT : K → Prop} {m n : Nat} (hmn : n ≤ m) :
    ∀ (zs pts : List (Point K F L)) (s : Forest K F L) (trees : List (Option (Tree K F L))) (lost : List Nat) (pos : Nat),
      (∀ z ∈ zs, Fair D QB QT p.lifetime z.1 ∧ Total D QB QT z.1) → Shaped QB QT p.lifetime m n pts s trees lost → (pts = [] → avail s.nodes = List.range m) →
      ∃ r, trainAllWith p D zs s pos = .ok r
  | [], pts, s, trees, lost, pos, _, hS, _ => ⟨_, rfl⟩
  | z :: zs, pts, s, trees, lost, pos, hD, hS, hav => by
      have hroots : s.roots.length = trees.length := by rw [hS.inv.all.roots, List.length_map]
      have hE : Enough s trees 0 s.roots.length := by
        by_cases hz : pts = []
        · refine Or.inr ⟨?_, fun j o hj _ => hS.empty hz o (List.mem_of_getElem? hj), fun j o _ h => absurd h (Nat.not_lt_zero _)⟩
          rw [hav hz, List.length_range, hroots, hS.count]; exact hmn
        · exact Or.inl (hS.full hz)
      obtain ⟨hF, hT⟩ := hD z (by simp)
      obtain ⟨u, hu⟩ := trainLoopWith_ok p hlife D z.1 z.2 hF hT s.roots.length 0 s trees lost pos none (by omega) hS.inv hS.all hE
      obtain ⟨trees1, lost1, a1, -⟩ := trainWith_spec p hlife D z hF hS pos u hu
      obtain ⟨r, hr⟩ := trainAllWith_ok p hlife D hmn zs (pts ++ [z]) u.1 trees1 lost1 u.2.1 (fun w hw => hD w (List.mem_cons_of_mem _ hw)) a1 (by simp)
      refine ⟨r, ?_⟩
      simp only [trainAllWith, bind, Except.bind, trainWith, hu]
      exact hr

/-! ### The model is an instance -/

theorem extendBlockWith_draw (p : Params K) (ω : Nat → K) (x : Fin F → K) (label : Fin L) (tree : Nat) : ∀ (fuel id pos : Nat) (s : Forest K F L),
    extendBlockWith p (draw p ω) x label tree fuel id pos s = extendBlock p ω x label tree fuel id pos s
  | 0, _, _, _ => rfl
  | fuel + 1, id, pos, s => by
      rw [extendBlockWith, extendBlock]
      simp only [extendBlockWith_draw p ω x label tree fuel]
      rfl

theorem trainTreeWith_draw (p : Params K) (ω : Nat → K) (x : Fin F → K) (label : Fin L) (tree : Nat) (s : Forest K F L) (pos : Nat) :
    trainTreeWith p (draw p ω) x label tree s pos = trainTree p ω x label tree s pos := by
  unfold trainTreeWith trainTree
  simp only [extendBlockWith_draw]
  rfl

theorem trainLoopWith_draw (p : Params K) (ω : Nat → K) (x : Fin F → K) (label : Fin L) : ∀ (k i : Nat) (s : Forest K F L) (pos : Nat) (res : Option Bool),
    trainLoopWith p (draw p ω) x label i k s pos res = trainLoop p ω x label i k s pos res
  | 0, _, _, _, _ => rfl
  | k + 1, i, s, pos, res => by
      rw [trainLoopWith, trainLoop]
      simp only [trainTreeWith_draw, trainLoopWith_draw p ω x label k]

/-- training with the cuts of the model is training -/
theorem trainAllWith_draw (p : Params K) (ω : Nat → K) : ∀ (zs : List (Point K F L)) (s : Forest K F L) (pos : Nat),
    trainAllWith p (draw p ω) zs s pos = run p ω (zs.map (fun z => Op.train z.1 z.2)) s pos
  | [], _, _ => rfl
  | z :: zs, s, pos => by
      simp only [trainAllWith, List.map_cons, run, exec, trainWith, train, trainLoopWith_draw, bind, Except.bind]
      cases trainLoop p ω z.1 z.2 0 s.roots.length s pos none with
      | error e => rfl
      | ok q => exact trainAllWith_draw p ω zs q.1 q.2.1

end Orp.Mondrian
