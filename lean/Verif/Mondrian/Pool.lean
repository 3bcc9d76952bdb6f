import Verif.Mondrian.Grow

/-!
The functions on the pool of nodes do to the represented trees what `grow` says.
-/

set_option linter.unusedSectionVars false

namespace Orp.Mondrian

open Finset

variable {K : Type} [Field K] [LinearOrder K] [IsStrictOrderedRing K] [FloorRing K] {F L : Nat}

/-! ### Trees with a hole -/

/-- A node above the place looked at -/
structure Frame (K : Type) (F L : Nat) where
  id : Nat
  d : Data K F L
  dim : Fin F
  sp : K
  /-- the place is in the left subtree -/
  left : Bool
  sib : Tree K F L

def Frame.fill (f : Frame K F L) (t : Tree K F L) : Tree K F L :=
  if f.left then .node f.id f.d f.dim f.sp t f.sib else .node f.id f.d f.dim f.sp f.sib t

def plug : List (Frame K F L) → Tree K F L → Tree K F L
  | [], t => t
  | f :: fs, t => plug fs (f.fill t)

def ctxPar : List (Frame K F L) → Option Nat
  | [] => none
  | f :: _ => some f.id

def ctxTau : List (Frame K F L) → K
  | [] => 0
  | f :: _ => f.d.tau

def ctxIds : List (Frame K F L) → List Nat
  | [] => []
  | f :: fs => f.id :: (f.sib.ids ++ ctxIds fs)

def HoldsCtx (nodes : List (Node K F L)) : List (Frame K F L) → Nat → Prop
  | [], _ => True
  | f :: fs, c => (∃ n, nodes[f.id]? = some n ∧ n.Has (ctxPar fs) f.d ∧ n.dim = some f.dim ∧ n.split = some f.sp ∧
      n.left = some (if f.left then c else f.sib.id) ∧ n.right = some (if f.left then f.sib.id else c)) ∧
      Holds nodes (some f.id) f.sib ∧ HoldsCtx nodes fs f.id

theorem fill_id (f : Frame K F L) (t : Tree K F L) : (f.fill t).id = f.id := by
  unfold Frame.fill; split <;> rfl

theorem holds_fill {nodes : List (Node K F L)} {f : Frame K F L} {par : Option Nat} {t : Tree K F L} : Holds nodes par (f.fill t) ↔
    (∃ n, nodes[f.id]? = some n ∧ n.Has par f.d ∧ n.dim = some f.dim ∧ n.split = some f.sp ∧
      n.left = some (if f.left then t.id else f.sib.id) ∧ n.right = some (if f.left then f.sib.id else t.id)) ∧
      Holds nodes (some f.id) f.sib ∧ Holds nodes (some f.id) t := by
  unfold Frame.fill
  cases f.left <;> simp [Holds] <;> tauto

theorem holds_plug {nodes : List (Node K F L)} : ∀ {fs : List (Frame K F L)} {t : Tree K F L},
    Holds nodes none (plug fs t) ↔ HoldsCtx nodes fs t.id ∧ Holds nodes (ctxPar fs) t
  | [], t => by simp [plug, HoldsCtx, ctxPar]
  | f :: fs, t => by
      rw [plug, holds_plug (fs := fs), holds_fill, fill_id]
      simp only [HoldsCtx, ctxPar]
      tauto

theorem fill_ids (f : Frame K F L) (t : Tree K F L) : List.Perm (f.fill t).ids (t.ids ++ f.id :: f.sib.ids) := by
  unfold Frame.fill
  split
  · simp only [Tree.ids]
    exact List.perm_middle.symm
  · simp only [Tree.ids]
    refine List.Perm.trans ?_ List.perm_middle.symm
    exact List.Perm.cons _ List.perm_append_comm

theorem plug_ids : ∀ (fs : List (Frame K F L)) (t : Tree K F L), List.Perm (plug fs t).ids (t.ids ++ ctxIds fs)
  | [], t => by simp [plug, ctxIds]
  | f :: fs, t => by
      refine (plug_ids fs (f.fill t)).trans ?_
      refine ((fill_ids f t).append_right _).trans ?_
      simp [ctxIds]

theorem id_mem_ids : ∀ t : Tree K F L, t.id ∈ t.ids
  | .leaf _ _ => by simp [Tree.ids, Tree.id]
  | .node _ _ _ _ _ _ => by simp [Tree.ids, Tree.id]

theorem holds_congr {nodes nodes' : List (Node K F L)} : ∀ {t : Tree K F L} {par : Option Nat}, (∀ i ∈ t.ids, nodes'[i]? = nodes[i]?) →
    Holds nodes par t → Holds nodes' par t
  | .leaf id d, par, h, ⟨n, h1, h2⟩ => ⟨n, by rw [h id (by simp [Tree.ids])]; exact h1, h2⟩
  | .node id d dim sp l r, par, h, ⟨⟨n, h1, h2⟩, hl, hr⟩ =>
      ⟨⟨n, by rw [h id (by simp [Tree.ids])]; exact h1, h2⟩, holds_congr (fun i hi => h i (by simp [Tree.ids, hi])) hl,
        holds_congr (fun i hi => h i (by simp [Tree.ids, hi])) hr⟩

theorem holdsCtx_congr {nodes nodes' : List (Node K F L)} : ∀ {fs : List (Frame K F L)} {c : Nat}, (∀ i ∈ ctxIds fs, nodes'[i]? = nodes[i]?) →
    HoldsCtx nodes fs c → HoldsCtx nodes' fs c
  | [], c, _, _ => trivial
  | f :: fs, c, h, ⟨⟨n, h1, h2⟩, hs, hf⟩ =>
      ⟨⟨n, by rw [h f.id (by simp [ctxIds])]; exact h1, h2⟩, holds_congr (fun i hi => h i (by simp [ctxIds, hi])) hs,
        holdsCtx_congr (fun i hi => h i (by simp [ctxIds, hi])) hf⟩

/-- the place of a tree holds its data -/
theorem holds_root {nodes : List (Node K F L)} : ∀ {t : Tree K F L} {par : Option Nat}, Holds nodes par t →
    ∃ n, nodes[t.id]? = some n ∧ n.Has par t.data
  | .leaf _ _, _, ⟨n, h1, h2, _⟩ => ⟨n, h1, h2⟩
  | .node _ _ _ _ _ _, _, ⟨⟨n, h1, h2, _⟩, _, _⟩ => ⟨n, h1, h2⟩

theorem holds_mem {nodes : List (Node K F L)} : ∀ {t : Tree K F L} {par : Option Nat}, Holds nodes par t → ∀ i ∈ t.ids, ∃ n, nodes[i]? = some n
  | .leaf _ _, _, ⟨n, h1, _⟩, i, hi => by simp only [Tree.ids, List.mem_singleton] at hi; subst hi; exact ⟨n, h1⟩
  | .node _ _ _ _ l r, _, ⟨⟨n, h1, _⟩, hl, hr⟩, i, hi => by
      simp only [Tree.ids, List.mem_cons, List.mem_append] at hi
      rcases hi with rfl | hi | hi
      · exact ⟨n, h1⟩
      · exact holds_mem hl i hi
      · exact holds_mem hr i hi

/-! ### Updates of the pool -/

theorem upd_spec {nodes : List (Node K F L)} {i : Nat} {n : Node K F L} (f : Node K F L → Node K F L) (h : nodes[i]? = some n) :
    ∃ nodes', upd nodes i f = .ok nodes' ∧ nodes'.length = nodes.length ∧ ∀ j, nodes'[j]? = if j = i then some (f n) else nodes[j]? := by
  have hi : i < nodes.length := by
    by_contra hge
    rw [List.getElem?_eq_none (by omega)] at h; simp at h
  refine ⟨nodes.set i (f n), ?_, by simp, fun j => ?_⟩
  · simp only [upd, rd_eq_ok_iff.2 h, wr_ok _ hi, bind, Except.bind]
  · rw [List.getElem?_set]
    by_cases hj : i = j
    · subst hj; simp [hi]
    · rw [if_neg hj, if_neg (Ne.symm hj)]

/-- the places of the available nodes, in order -/
def avail (nodes : List (Node K F L)) : List Nat :=
  (List.range nodes.length).filter (fun i => match nodes[i]? with | some n => n.available | none => false)

theorem mem_avail {nodes : List (Node K F L)} {i : Nat} : i ∈ avail nodes ↔ ∃ n, nodes[i]? = some n ∧ n.tau < 0 := by
  unfold avail
  simp only [List.mem_filter, List.mem_range]
  constructor
  · rintro ⟨h1, h2⟩
    rw [List.getElem?_eq_getElem h1] at h2 ⊢
    exact ⟨_, rfl, by simpa [Node.available] using h2⟩
  · rintro ⟨n, h1, h2⟩
    have hi : i < nodes.length := by
      by_contra hge
      rw [List.getElem?_eq_none (by omega)] at h1; simp at h1
    exact ⟨hi, by rw [h1]; simpa [Node.available] using h2⟩

theorem avail_nodup (nodes : List (Node K F L)) : (avail nodes).Nodup := List.Nodup.filter _ List.nodup_range

theorem findIdx?_head {α : Type} (q : α → Bool) : ∀ (l : List α) (k : Nat), (l.findIdx? q).map (· + k) =
    ((List.range' k l.length).filter (fun i => match l[i - k]? with | some a => q a | none => false)).head?
  | [], k => by simp
  | a :: l, k => by
      rw [List.findIdx?_cons, List.length_cons, List.range'_succ, List.filter_cons]
      simp only [Nat.sub_self, List.getElem?_cons_zero]
      by_cases ha : q a = true
      · simp [ha]
      · simp only [ha, if_false]
        have ih := findIdx?_head q l (k + 1)
        have : (List.range' (k + 1) l.length).filter (fun i => match (a :: l)[i - k]? with | some a => q a | none => false) =
            (List.range' (k + 1) l.length).filter (fun i => match l[i - (k + 1)]? with | some a => q a | none => false) := by
          apply List.filter_congr
          intro i hi
          have : k + 1 ≤ i := (List.mem_range'_1.1 hi).1
          rw [show i - k = (i - (k + 1)) + 1 by omega, List.getElem?_cons_succ]
        simp only [Bool.false_eq_true, if_false]
        rw [this, ← ih]
        cases h : l.findIdx? q <;> simp
        omega

theorem availableNode_eq (nodes : List (Node K F L)) : availableNode nodes = (avail nodes).head? := by
  have := findIdx?_head (fun n : Node K F L => n.available) nodes 0
  simp only [Nat.add_zero, Nat.sub_zero, Option.map_id', List.range_eq_range'.symm] at this
  rw [availableNode, this]
  congr 1
  apply List.filter_congr
  intro i _
  cases nodes[i]? <;> rfl

theorem avail_congr {nodes nodes' : List (Node K F L)} (hl : nodes'.length = nodes.length)
    (h : ∀ i ∈ avail nodes, nodes'[i]? = nodes[i]?) (h' : ∀ i, i ∉ avail nodes → i ∉ avail nodes') : avail nodes' = avail nodes := by
  show (List.range nodes'.length).filter _ = (List.range nodes.length).filter _
  rw [hl]
  apply List.filter_congr
  intro i hi
  have hi' := List.mem_range.1 hi
  by_cases ha : i ∈ avail nodes
  · rw [h i ha]
  · have hb := h' i ha
    unfold avail at ha hb
    simp only [List.mem_filter, List.mem_range, hl, hi', true_and, Bool.not_eq_true] at ha hb
    rw [ha, hb]

/-- marking nodes as used -/
theorem avail_used {nodes nodes' : List (Node K F L)} (hl : nodes'.length = nodes.length) (used : List Nat)
    (h : ∀ i ∈ avail nodes, i ∉ used → nodes'[i]? = nodes[i]?) (hu : ∀ i ∈ used, i ∉ avail nodes') (h' : ∀ i, i ∉ avail nodes → i ∉ avail nodes') :
    avail nodes' = (avail nodes).filter (fun i => i ∉ used) := by
  show (List.range nodes'.length).filter _ = ((List.range nodes.length).filter _).filter _
  rw [hl, List.filter_filter]
  apply List.filter_congr
  intro i hi
  have hi' := List.mem_range.1 hi
  have key : ∀ (ns : List (Node K F L)), ns.length = nodes.length →
      ((match ns[i]? with | some n => n.available | none => false) = true ↔ i ∈ avail ns) := by
    intro ns hns
    unfold avail
    simp only [List.mem_filter, List.mem_range, hns, hi', true_and]
  rw [Bool.eq_iff_iff, key nodes' hl, Bool.and_eq_true, key nodes rfl]
  simp only [decide_eq_true_eq]
  constructor
  · intro hm
    exact ⟨fun hm' => hu i hm' hm, by by_contra hn; exact h' i hn hm⟩
  · rintro ⟨h1, h2⟩
    rw [mem_avail, h i h2 h1, ← mem_avail]; exact h2

/-- the first two available nodes -/
def freshOf : List Nat → Option (Nat × Nat)
  | a :: b :: _ => some (a, b)
  | _ => none

/-- Available nodes are as the constructor left them. -/
def Clean (nodes : List (Node K F L)) : Prop := ∀ (i : Nat) (n : Node K F L), nodes[i]? = some n → n.tau < 0 → n.dim = none ∧ n.counts = fun _ => 0

/-- changing the box and the counters of the node looked at -/
def Tree.withData (d : Data K F L) : Tree K F L → Tree K F L
  | .leaf id _ => .leaf id d
  | .node id _ dim sp l r => .node id d dim sp l r

theorem withData_id (d : Data K F L) (t : Tree K F L) : (t.withData d).id = t.id := by cases t <;> rfl
theorem withData_ids (d : Data K F L) (t : Tree K F L) : (t.withData d).ids = t.ids := by cases t <;> rfl

/-- the root of a tree gets a new node record with other data and another parent -/
theorem holds_update {nodes nodes' : List (Node K F L)} {par par' : Option Nat} {n n' : Node K F L} {d' : Data K F L} : ∀ {t : Tree K F L},
    t.ids.Nodup → Holds nodes par t → nodes[t.id]? = some n → nodes'[t.id]? = some n' → (∀ i ∈ t.ids, i ≠ t.id → nodes'[i]? = nodes[i]?) →
    n'.dim = n.dim → n'.split = n.split → n'.left = n.left → n'.right = n.right → n'.Has par' d' → Holds nodes' par' (t.withData d')
  | .leaf id d, hnd, ⟨m, h1, h2, h3⟩, hn, hn', hc, e1, e2, e3, e4, hh => by
      simp only [Tree.id] at hn
      rw [h1] at hn; cases hn
      exact ⟨n', hn', hh, by rw [e1]; exact h3⟩
  | .node id d dim sp l r, hnd, ⟨⟨m, h1, h2, h3, h4, h5, h6⟩, hl, hr⟩, hn, hn', hc, e1, e2, e3, e4, hh => by
      simp only [Tree.id] at hn
      rw [h1] at hn; cases hn
      simp only [Tree.ids, List.nodup_cons, List.mem_append, not_or] at hnd
      refine ⟨⟨n', hn', hh, by rw [e1]; exact h3, by rw [e2]; exact h4, by rw [e3]; exact h5, by rw [e4]; exact h6⟩, ?_, ?_⟩
      · refine holds_congr (fun i hi => hc i (by simp [Tree.ids, hi]) ?_) hl
        rintro rfl; exact hnd.1.1 hi
      · refine holds_congr (fun i hi => hc i (by simp [Tree.ids, hi]) ?_) hr
        rintro rfl; exact hnd.1.2 hi

/-- the link to the place looked at is redirected -/
def relinked (m : Node K F L) (id np : Nat) : Node K F L :=
  if m.left = some id then { m with left := some np } else { m with right := some np }

theorem holdsCtx_relink {nodes nodes' : List (Node K F L)} {c np : Nat} : ∀ {fs : List (Frame K F L)}, HoldsCtx nodes fs c →
    (ctxIds fs).Nodup → c ∉ ctxIds fs →
    (∀ i ∈ ctxIds fs, ctxPar fs ≠ some i → nodes'[i]? = nodes[i]?) →
    (∀ q m, ctxPar fs = some q → nodes[q]? = some m → nodes'[q]? = some (relinked m c np)) → HoldsCtx nodes' fs np
  | [], _, _, _, _, _ => trivial
  | f :: fs, ⟨⟨n, h1, h2, h3, h4, h5, h6⟩, hs, hf⟩, hnd, hc, he, hp => by
      simp only [ctxIds, List.nodup_cons, List.mem_append, not_or, List.mem_cons] at hnd hc
      refine ⟨⟨relinked n c np, hp f.id n rfl h1, ?_⟩, ?_, ?_⟩
      · unfold relinked
        cases hl : f.left
        · rw [hl] at h5 h6
          simp only [Bool.false_eq_true, if_false] at h5 h6
          have : n.left ≠ some c := by
            rw [h5]
            intro h
            have := Option.some.inj h
            exact hc.2.1 (this ▸ id_mem_ids f.sib)
          rw [if_neg this]
          exact ⟨h2, h3, h4, by simpa using h5, by simp⟩
        · rw [hl] at h5 h6
          simp only [if_true] at h5 h6
          rw [if_pos h5]
          exact ⟨h2, h3, h4, by simp, by simpa using h6⟩
      · refine holds_congr (fun i hi => he i (by simp [ctxIds, hi]) ?_) hs
        simp only [ctxPar]
        intro h
        have := Option.some.inj h
        subst this
        exact hnd.1.1 hi
      · refine holdsCtx_congr (fun i hi => he i (by simp [ctxIds, hi]) ?_) hf
        simp only [ctxPar]
        intro h
        have := Option.some.inj h
        subst this
        exact hnd.1.2 hi

end Orp.Mondrian
