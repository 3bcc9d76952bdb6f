import Verif.Coarse.Confine

/-!
The numbers of forced extensions of the nodes (`forced_extend`) in histories with every split trigger and split helper.
-/

set_option linter.unusedSectionVars false

namespace Orp.Coarse

open Finset
open Mondrian (Node Box Forest Params Cut upd init extent)

variable {K : Type} [Field K] [LinearOrder K] [IsStrictOrderedRing K] [FloorRing K] {F L : Nat}

/-- what holds of the result of a call that returns -/
def Sat {α : Type} (Q : α → Prop) (r : Res α) : Prop := ∀ a, r = .ok a → Q a

theorem Sat.bind {α β : Type} {P : α → Prop} {Q : β → Prop} {r : Res α} {f : α → Res β} (h1 : Sat P r) (h2 : ∀ a, P a → Sat Q (f a)) : Sat Q (r >>= f) := by
  intro b hb
  cases hr : r with
  | error e => rw [hr] at hb; cases hb
  | ok a => rw [hr] at hb; exact h2 a (h1 a hr) b hb

theorem Sat.skip {α β : Type} {Q : β → Prop} {r : Res α} {f : α → Res β} (h2 : ∀ a, Sat Q (f a)) : Sat Q (r >>= f) := Sat.bind (P := fun _ => True) (fun _ _ => trivial) fun a _ => h2 a

theorem Sat.ok {α : Type} {Q : α → Prop} {a : α} (h : Q a) : Sat Q (.ok a : Res α) := fun _ e => Except.ok.inj e ▸ h

theorem Sat.error {α : Type} {Q : α → Prop} {e : Err} : Sat Q (.error e : Res α) := fun _ h => by cases h

/-- no node has a negative number of forced extensions -/
def Fine (s : State K F L) : Prop := ∀ f ∈ s.forced, 0 ≤ f

theorem fine_wr {l : List Int} (h : ∀ f ∈ l, 0 ≤ f) (i : Nat) (v : Int) (hv : 0 ≤ v) : Sat (fun l' : List Int => ∀ f ∈ l', 0 ≤ f) (wr l i v) := by
  intro l' e f hf
  rw [← (wr_eq_ok_iff.1 e).2] at hf
  rcases List.mem_or_eq_of_mem_set hf with hf | rfl
  · exact h f hf
  · exact hv

theorem fine_rd {l : List Int} (h : ∀ f ∈ l, 0 ≤ f) (i : Nat) : Sat (fun v : Int => 0 ≤ v) (rd l i) := fun v e => h v (List.mem_of_getElem? (rd_eq_ok_iff.1 e))

theorem fine_take {s : State K F L} (h : Fine s) : Sat (fun r => Fine r.2) (takeNode s) := by
  unfold takeNode
  refine Sat.skip fun o => ?_
  cases o with
  | none => exact Sat.ok h
  | some id => exact Sat.ok h

theorem fine_insert (c : Config K) (p : Params K) {s : State K F L} (h : Fine s) (id tree : Nat) (cut : Cut K F) (x : Fin F → K) (label : Fin L) :
    Sat Fine (insert c p s id tree cut x label) := by
  unfold insert
  refine Sat.bind (fine_take h) fun r h => ?_
  refine Sat.skip fun np => Sat.skip fun nodes => ?_
  refine Sat.bind (P := fun r : Option Nat × State K F L => Fine r.2) (fine_take h) fun r h => ?_
  exact Sat.skip fun ns => Sat.skip fun node => Sat.skip fun nodes => Sat.skip fun forest => Sat.ok h

theorem fine_countAt {s : State K F L} (h : Fine s) (id : Nat) (label : Fin L) : Sat Fine (countAt s id label) :=
  Sat.skip fun _ => Sat.skip fun _ => Sat.skip fun _ => Sat.ok h

theorem fine_upd {s : State K F L} (h : Fine s) (id : Nat) (f : Node K F L → Node K F L) : Sat Fine (s.upd id f) := Sat.skip fun _ => Sat.ok h

theorem fine_release {s : State K F L} (h : Fine s) (id : Nat) : Sat Fine (release s id) :=
  Sat.skip fun _ => Sat.skip fun _ => Sat.bind (fine_wr h id 0 le_rfl) fun _ h => Sat.ok h

theorem fine_descend (c : Config K) (x : Fin F → K) (label : Fin L) (rec : Nat → Nat → State K F L → Res (State K F L × Nat))
    (hrec : ∀ id pos s, Fine s → Sat (fun r => Fine r.1) (rec id pos s)) (id pos : Nat) {s : State K F L} (h : Fine s) :
    Sat (fun r => Fine r.1) (descend c x label rec id pos s) := by
  unfold descend
  refine Sat.skip fun node => ?_
  cases node.dim with
  | none => exact Sat.bind (fine_countAt h id label) fun _ h => Sat.ok h
  | some dim =>
      refine Sat.skip fun sp => Sat.skip fun child => Sat.bind (hrec child pos s h) fun r h => ?_
      dsimp only
      split
      · exact Sat.skip fun _ => Sat.ok h
      · exact Sat.ok h

/-- the increment of `forced_extend` -/
theorem fine_inc {l : List Int} (h : ∀ f ∈ l, 0 ≤ f) (i : Nat) (b : Prop) [Decidable b] :
    Sat (fun l' : List Int => ∀ f ∈ l', 0 ≤ f) (if b then do
      let f ← rd l i
      wr l i (f + 1)
    else .ok l : Res (List Int)) := by
  split
  · exact Sat.bind (fine_rd h i) fun f hf => fine_wr h i (f + 1) (by omega)
  · exact Sat.ok h

theorem fine_extendBlock (c : Config K) (p : Params K) (ω : Nat → K) (x : Fin F → K) (label : Fin L) (tree : Nat) : ∀ (fuel id pos : Nat) (s : State K F L),
    Fine s → Sat (fun r => Fine r.1) (extendBlock c p ω x label tree fuel id pos s)
  | 0, _, _, _, _ => Sat.error
  | fuel + 1, id, pos, s, h => by
      have ih := fine_extendBlock c p ω x label tree fuel
      rw [extendBlock]
      refine Sat.skip fun node => Sat.skip fun parentTau => Sat.skip fun b => Sat.skip fun pause => ?_
      dsimp only
      split
      · refine Sat.skip fun cut => Sat.bind (fine_insert c p h _ _ _ _ _) fun s h => ?_
        split
        · exact fine_descend c x label _ ih _ _ h
        · exact Sat.ok h
      · split
        · refine Sat.skip fun nodes => Sat.bind (fine_inc h id _) fun l h => ?_
          exact fine_descend c x label _ ih _ _ h
        · split
          · exact Sat.bind (fine_countAt h id label) fun _ h => Sat.ok h
          · split
            · exact fine_descend c x label _ ih _ _ h
            · exact Sat.ok h

theorem fine_trainTree (c : Config K) (p : Params K) (ω : Nat → K) (x : Fin F → K) (label : Fin L) (tree : Nat) {s : State K F L} (h : Fine s) (pos : Nat) :
    Sat (fun r => Fine r.1) (trainTree c p ω x label tree s pos) := by
  unfold trainTree
  refine Sat.skip fun root => ?_
  cases root with
  | none =>
      refine Sat.bind (fine_take h) fun r h => ?_
      obtain ⟨id, s⟩ := r
      cases id with
      | none => exact Sat.ok h
      | some id => exact Sat.skip fun _ => Sat.skip fun _ => Sat.skip fun _ => Sat.ok h
  | some id =>
      dsimp only
      split
      · exact Sat.ok h
      · exact Sat.bind (fine_extendBlock c p ω x label tree _ id pos s h) fun _ h => Sat.ok h

theorem fine_resetLoop (start : Nat) : ∀ (fuel i : Nat) (id : Option Nat) (depth : Int) (stack : List Int) (s : State K F L), Fine s →
    Sat (fun r => Fine r.1) (resetLoop start fuel i id depth stack s)
  | 0, _, _, _, _, _, _ => Sat.error
  | _ + 1, _, none, _, _, _, h => Sat.ok h
  | fuel + 1, i, some id, depth, stack, s, h => by
      have ih := fine_resetLoop start fuel
      rw [resetLoop]
      split
      · refine Sat.skip fun node => ?_
        cases node.dim with
        | none =>
            refine Sat.bind (fine_release h id) fun s h => ?_
            split
            · exact Sat.ok h
            · exact ih _ _ _ _ _ h
        | some _ =>
            refine Sat.skip fun d => Sat.skip fun st => ?_
            split
            · refine Sat.skip fun stack => ?_
              split
              · exact Sat.ok h
              · exact ih _ _ _ _ _ h
            · split
              · refine Sat.skip fun stack => ?_
                split
                · exact Sat.ok h
                · exact ih _ _ _ _ _ h
              · refine Sat.bind (fine_release h id) fun s h => ?_
                split
                · exact Sat.ok h
                · exact Sat.skip fun stack => ih _ _ _ _ _ h
      · exact Sat.ok h

theorem fine_nodeReset {s : State K F L} (h : Fine s) (id : Nat) : Sat Fine (nodeReset s id) :=
  Sat.bind (fine_resetLoop id _ _ _ _ _ s h) fun _ h => Sat.ok h

theorem fine_cutBlock {s : State K F L} (h : Fine s) (id tree : Nat) : Sat Fine (cutBlock s id tree) := by
  unfold cutBlock
  refine Sat.skip fun node => Sat.skip fun q => Sat.skip fun parent => Sat.skip fun sib => ?_
  cases parent.parent with
  | none =>
      refine Sat.bind (fine_release h q) fun s h => Sat.bind (fine_nodeReset h id) fun s h => ?_
      exact Sat.skip fun _ => Sat.skip fun _ => Sat.ok h
  | some g =>
      refine Sat.skip fun nodes => Sat.skip fun nodes => ?_
      exact Sat.bind (P := Fine) (fine_release (s := { s with forest := { s.forest with nodes := nodes } }) h q) fun s h => fine_nodeReset h id

theorem fine_trimLoop (c : Config K) (ω : Nat → K) : ∀ (i k : Nat) (s : State K F L) (pos : Nat), Fine s → Sat (fun r => Fine r.1) (trimLoop c ω i k s pos)
  | _, 0, _, _, h => Sat.ok h
  | i, k + 1, s, pos, h => by
      rw [trimLoop]
      refine Sat.skip fun r => Sat.skip fun root => ?_
      obtain ⟨id, pos⟩ := r
      refine Sat.bind (P := Fine) ?_ fun s h => fine_trimLoop c ω (i + 1) k s _ h
      cases id with
      | none => exact Sat.ok h
      | some id =>
          dsimp only
          split
          · exact fine_cutBlock h id i
          · exact Sat.ok h

theorem fine_trim (c : Config K) (ω : Nat → K) {s : State K F L} (h : Fine s) (pos : Nat) : Sat (fun r => Fine r.1) (treeTrim c ω s pos) := by
  unfold treeTrim
  split
  · exact Sat.ok h
  · exact fine_trimLoop c ω _ _ s pos h

theorem fine_fade {s : State K F L} (h : Fine s) : Sat Fine (treeFade s) := Sat.skip fun _ => Sat.ok h

theorem fine_resetChild {s : State K F L} (h : Fine s) : ∀ o : Option Nat, Sat Fine (resetChild s o)
  | none => Sat.ok h
  | some id => fine_nodeReset h id

theorem fine_adjustLoop (start : Nat) (dim : Fin F) (v : K) (onLeft : Bool) (tree : Nat) : ∀ (fuel i : Nat) (id : Option Nat) (depth : Int) (stack : List Int)
    (s : State K F L), Fine s → Sat Fine (adjustLoop start dim v onLeft tree fuel i id depth stack s)
  | 0, _, _, _, _, _, _ => Sat.error
  | _ + 1, _, none, _, _, _, h => Sat.ok h
  | fuel + 1, i, some id, depth, stack, s, h => by
      have ih := fine_adjustLoop start dim v onLeft tree fuel
      rw [adjustLoop]
      split
      · refine Sat.skip fun node => Sat.skip fun d => ?_
        cases node.dim with
        | some _ =>
            refine Sat.skip fun st => ?_
            split
            · refine Sat.skip fun b => Sat.bind (fine_upd h _ _) fun s h => ?_
              split
              · exact Sat.bind (fine_resetChild h _) fun s h => Sat.bind (fine_resetChild h _) fun s h => ih _ _ _ _ _ h
              · refine Sat.skip fun stack => ?_
                split
                · exact Sat.ok h
                · exact ih _ _ _ _ _ h
            · split
              · refine Sat.skip fun stack => ?_
                split
                · exact Sat.ok h
                · exact ih _ _ _ _ _ h
              · refine Sat.skip fun stack => Sat.skip fun l => Sat.skip fun r => Sat.skip fun nl => Sat.skip fun lz => Sat.skip fun nr => Sat.skip fun rz => ?_
                split
                · cases node.parent with
                  | none =>
                      refine Sat.skip fun roots => ?_
                      exact Sat.bind (P := Fine) (fine_release (s := { s with forest := { s.forest with roots := roots } }) h _) fun s h =>
                        Sat.bind (fine_release h _) fun s h => fine_upd h _ _
                  | some q =>
                      refine Sat.bind (fine_upd h _ _) fun s h => Sat.bind (fine_upd h _ _) fun s h => Sat.bind (fine_release h _) fun s h =>
                        Sat.bind (fine_release h _) fun s h => ?_
                      split
                      · exact Sat.ok h
                      · exact ih _ _ _ _ _ h
                · split
                  · exact Sat.ok h
                  · exact ih _ _ _ _ _ h
        | none =>
            refine Sat.skip fun stack => Sat.skip fun b => Sat.bind (fine_upd h _ _) fun s h => ?_
            split
            · exact Sat.ok h
            · exact ih _ _ _ _ _ h
      · exact Sat.ok h

theorem fine_passDown (x : Fin F → K) (label : Fin L) : ∀ (fuel id : Nat) (s : State K F L), Fine s → Sat (fun r => Fine r.2) (passDown x label fuel id s)
  | 0, _, _, _ => Sat.error
  | fuel + 1, id, s, h => by
      rw [passDown]
      refine Sat.skip fun node => Sat.skip fun b => Sat.bind (fine_upd h _ _) fun s h => ?_
      cases node.dim with
      | none => exact Sat.bind (fine_countAt h id label) fun _ h => Sat.ok h
      | some dim => exact Sat.skip fun sp => Sat.skip fun child => fine_passDown x label fuel child s h

/-! ### The points on the two sides -/

theorem fine_tour {A : Type} (P : A → Prop) (start : Nat) (act : Node K F L → A → Res (Node K F L × A)) (hact : ∀ n a, P a → Sat (fun r => P r.2) (act n a)) :
    ∀ (fuel i : Nat) (id : Option Nat) (depth : Int) (stack : List Int) (nodes : List (Node K F L)) (a : A), P a →
      Sat (fun r => P r.2.2) (tour start act fuel i id depth stack nodes a)
  | 0, _, _, _, _, _, _, _ => Sat.error
  | _ + 1, _, none, _, _, _, _, h => Sat.ok h
  | fuel + 1, i, some id, depth, stack, nodes, a, h => by
      have ih := fine_tour P start act hact fuel
      rw [tour]
      split
      · refine Sat.skip fun node => Sat.skip fun d => ?_
        cases node.dim with
        | some _ =>
            refine Sat.skip fun st => ?_
            split
            · refine Sat.skip fun stack => ?_
              split
              · exact Sat.ok h
              · exact ih _ _ _ _ _ _ h
            · split
              · refine Sat.skip fun stack => ?_
                split
                · exact Sat.ok h
                · exact ih _ _ _ _ _ _ h
              · refine Sat.skip fun stack => ?_
                split
                · exact Sat.ok h
                · exact ih _ _ _ _ _ _ h
        | none =>
            refine Sat.skip fun stack => Sat.bind (hact node a h) fun r h => Sat.skip fun nodes => ?_
            split
            · exact Sat.ok h
            · exact ih _ _ _ _ _ _ h
      · exact Sat.ok h

theorem trunc_nonneg {r : K} (h : 0 ≤ r) : 0 ≤ Utils.trunc r := by
  unfold Utils.trunc
  rw [if_neg (not_lt.2 h)]
  exact Int.floor_nonneg.2 h

theorem trunc_le_self {r : K} (h : 0 ≤ r) : ((Utils.trunc r : Int) : K) ≤ r := by
  unfold Utils.trunc
  rw [if_neg (not_lt.2 h)]
  exact Int.floor_le r

theorem lt_trunc {r : K} (h : 0 ≤ r) : r < ((Utils.trunc r : Int) : K) + 1 := by
  unfold Utils.trunc
  rw [if_neg (not_lt.2 h)]
  exact Int.lt_floor_add_one r

/-- The two parts of a whole number, cut off -/
theorem trunc_parts (f : Int) (hf : 0 ≤ f) (q : K) (h0 : 0 ≤ q) (h1 : q ≤ 1) :
    0 ≤ Utils.trunc ((f : K) * q) ∧ 0 ≤ Utils.trunc ((1 - q) * (f : K)) ∧ Utils.trunc ((f : K) * q) + Utils.trunc ((1 - q) * (f : K)) ≤ f ∧
      f - 1 ≤ Utils.trunc ((f : K) * q) + Utils.trunc ((1 - q) * (f : K)) := by
  have hf' : (0 : K) ≤ f := by exact_mod_cast hf
  have p1 : 0 ≤ (f : K) * q := mul_nonneg hf' h0
  have p2 : 0 ≤ (1 - q) * (f : K) := mul_nonneg (by linarith) hf'
  have a1 := trunc_le_self p1
  have a2 := trunc_le_self p2
  have b1 := lt_trunc p1
  have b2 := lt_trunc p2
  have e : (f : K) * q + (1 - q) * f = f := by ring
  refine ⟨trunc_nonneg p1, trunc_nonneg p2, ?_, ?_⟩
  · have : ((Utils.trunc ((f : K) * q) + Utils.trunc ((1 - q) * (f : K)) : Int) : K) ≤ (f : K) := by push_cast; linarith
    exact_mod_cast this
  · have : ((f : Int) : K) < ((Utils.trunc ((f : K) * q) + Utils.trunc ((1 - q) * (f : K)) + 2 : Int) : K) := by push_cast; linarith
    have : f < Utils.trunc ((f : K) * q) + Utils.trunc ((1 - q) * (f : K)) + 2 := by exact_mod_cast this
    omega

theorem fine_side (ω : Nat → K) (dim : Fin F) (v : K) (n : Node K F L) (a : Int × Int × Nat) (h : 0 ≤ a.1 ∧ 0 ≤ a.2.1) :
    Sat (fun r => 0 ≤ r.2.1 ∧ 0 ≤ r.2.2.1) (sideLeaf ω dim v n a) := by
  unfold sideLeaf
  refine Sat.skip fun b => ?_
  obtain ⟨l, r, pos⟩ := a
  dsimp only at h ⊢
  have hc : (0 : Int) ≤ (total n : Int) := Int.natCast_nonneg _
  split
  · rename_i hb
    have hd : 0 < b.upper dim - b.lower dim := by linarith [hb.1, hb.2]
    have hq0 : 0 ≤ (v - b.lower dim) / (b.upper dim - b.lower dim) := div_nonneg (by linarith [hb.1]) hd.le
    have hq1 : (v - b.lower dim) / (b.upper dim - b.lower dim) ≤ 1 := (div_le_one hd).2 (by linarith [hb.2])
    obtain ⟨p1, p2, p3, -⟩ := trunc_parts (total n : Int) hc _ hq0 hq1
    rw [mul_comm (1 - _) _] at p2 p3
    split
    · exact Sat.ok ⟨by dsimp only; omega, by dsimp only; omega⟩
    · split
      · exact Sat.ok ⟨by dsimp only; omega, by dsimp only; omega⟩
      · exact Sat.ok ⟨by dsimp only; omega, by dsimp only; omega⟩
  · split
    · exact Sat.ok ⟨by dsimp only; omega, h.2⟩
    · exact Sat.ok ⟨h.1, by dsimp only; omega⟩

/-- What `FE_DISTRIBUTION_…` makes of the number of forced extensions -/
theorem distribute_spec (dist : Distribution) (f left right : Int) (hf : 0 ≤ f) (hl : 0 ≤ left) (hr : 0 ≤ right) (hd : dist = .decrement → 0 < f) :
    Sat (fun r => 0 ≤ r.1 ∧ 0 ≤ r.2 ∧ r.1 + r.2 ≤ f) (distribute (K := K) dist f left right) := by
  unfold distribute
  cases dist with
  | zero => exact Sat.ok ⟨le_rfl, le_rfl, by simpa using hf⟩
  | split =>
      obtain ⟨p1, p2, p3, -⟩ := trunc_parts (K := K) f hf (1 / 2) (by norm_num) (by norm_num)
      rw [mul_comm, show (1 : K) - 1 / 2 = 1 / 2 by norm_num, mul_comm] at p2
      rw [show (1 : K) - 1 / 2 = 1 / 2 by norm_num, mul_comm ((1 : K) / 2) _] at p3
      exact Sat.ok ⟨p1, by rwa [mul_comm], p3⟩
  | proportional =>
      dsimp only
      split
      · exact Sat.error
      · rename_i hz
        have hs : (0 : K) < ((left + right : Int) : K) := by
          have : 0 < left + right := by omega
          exact_mod_cast this
        have hl' : (0 : K) ≤ (left : K) := by exact_mod_cast hl
        have hle : (left : K) ≤ ((left + right : Int) : K) := by
          have : left ≤ left + right := by omega
          exact_mod_cast this
        obtain ⟨p1, p2, p3, -⟩ := trunc_parts (K := K) f hf ((left : K) / ((left + right : Int) : K)) (div_nonneg hl' hs.le) ((div_le_one hs).2 hle)
        exact Sat.ok ⟨p1, p2, p3⟩
  | decrement =>
      have := hd rfl
      exact Sat.ok ⟨by dsimp only; omega, le_rfl, by dsimp only; omega⟩

theorem fine_splitAt (sc : SplitConfig K) (p : Params K) (ω : Nat → K) {s : State K F L} (h : Fine s) (id tree pos : Nat) (dim : Fin F) (v tau : K) (x : Fin F → K)
    (label : Fin L) (hd : sc.distribution = .decrement → ∃ f, s.forced[id]? = some f ∧ 0 < f) : Sat (fun r => Fine r.1) (splitAt sc p ω s id tree pos dim v tau x label) := by
  unfold splitAt
  -- the numbers of forced extensions do not change before they are distributed
  let Q : State K F L → Prop := fun s' => s'.forced = s.forced
  have q0 : Q s := rfl
  have qtake : ∀ s', Q s' → Sat (fun r : Option Nat × State K F L => Q r.2) (takeNode s') := fun s' h' => by
    unfold takeNode
    refine Sat.skip fun o => ?_
    cases o with
    | none => exact Sat.ok h'
    | some id => exact Sat.ok h'
  have qupd : ∀ s' i (f : Node K F L → Node K F L), Q s' → Sat Q (s'.upd i f) := fun s' i f h' => Sat.skip fun _ => Sat.ok h'
  refine Sat.bind (qtake s q0) fun r h1 => Sat.skip fun np => Sat.bind (qupd _ _ _ h1) fun s1 h1 => ?_
  refine Sat.bind (qtake s1 h1) fun r h1 => Sat.skip fun ns => Sat.bind (qupd _ _ _ h1) fun s1 h1 => ?_
  refine Sat.skip fun node => Sat.skip fun b => ?_
  refine Sat.bind (P := Q) (qupd _ _ _ h1) fun s1 h1 => Sat.bind (qupd _ _ _ h1) fun s1 h1 => Sat.skip fun forest => ?_
  refine Sat.bind (fine_tour (fun a : Int × Int × Nat => 0 ≤ a.1 ∧ 0 ≤ a.2.1) id _ (fine_side ω dim v) _ _ _ _ _ _ _ ⟨le_rfl, le_rfl⟩) fun r hlr => ?_
  obtain ⟨done, N, left, right, pos1⟩ := r
  dsimp only at hlr ⊢
  refine Sat.bind (P := Q) ?_ fun s1 h1 => Sat.bind (qupd _ _ _ h1) fun s1 h1 => Sat.bind (qupd _ _ _ h1) fun s1 h1 => Sat.bind (qupd _ _ _ h1) fun s1 h1 => ?_
  · split
    · exact Sat.bind (qupd _ _ _ h1) fun s1 h1 => Sat.bind (qupd _ _ _ h1) fun s1 h1 => qupd _ _ _ h1
    · exact Sat.bind (qupd _ _ _ h1) fun s1 h1 => Sat.bind (qupd _ _ _ h1) fun s1 h1 => qupd _ _ _ h1
  have hF : ∀ f ∈ s1.forced, 0 ≤ f := by rw [show s1.forced = s.forced from h1]; exact h
  refine Sat.bind (P := fun f => 0 ≤ f ∧ (sc.distribution = .decrement → 0 < f)) ?_ fun f hf => ?_
  · intro f e
    refine ⟨fine_rd hF id f e, fun hdec => ?_⟩
    obtain ⟨f', e', hf'⟩ := hd hdec
    rw [show s1.forced = s.forced from h1, rd_eq_ok_iff, e'] at e
    cases e
    exact hf'
  refine Sat.bind (distribute_spec sc.distribution f left right hf.1 hlr.1 hlr.2 hf.2) fun r hr => ?_
  obtain ⟨fn, fs⟩ := r
  dsimp only at hr ⊢
  refine Sat.bind (fine_wr hF id fn hr.1) fun l1 hl => Sat.bind (fine_wr hl ns fs hr.2.1) fun l2 hl => Sat.bind (fine_wr hl np 0 le_rfl) fun l3 hl => ?_
  refine Sat.skip fun r => ?_
  refine Sat.bind (P := Fine) (fine_upd (s := { s1 with forced := l3, forest := { s1.forest with nodes := r.2.1 } }) hl _ _) fun s2 h2 => ?_
  refine Sat.bind (P := Fine) (fine_adjustLoop id dim v _ tree _ _ _ _ _ s2 h2) fun s2 h2 => Sat.skip fun parent => Sat.skip fun child => ?_
  exact Sat.bind (fine_passDown x label _ _ s2 h2) fun r hr => Sat.ok hr

theorem fine_splitNode (sc : SplitConfig K) (p : Params K) (ω : Nat → K) {s : State K F L} (h : Fine s) (id tree pos : Nat) (tau : K) (x : Fin F → K) (label : Fin L)
    (hd : sc.distribution = .decrement → ∃ f, s.forced[id]? = some f ∧ 0 < f) : Sat (fun r => Fine r.1) (splitNode sc p ω s id tree pos tau x label) :=
  Sat.skip fun _ => Sat.skip fun _ => Sat.skip fun _ => fine_splitAt sc p ω h id tree _ _ _ tau x label hd

/-- `FE_DISTRIBUTION_DECREMENT` is not used with a split helper. -/
def NoHelper (sc : SplitConfig K) : Prop := sc.distribution = .decrement → sc.helper = .none

theorem fine_splitBarycenter (sc : SplitConfig K) (hsc : NoHelper sc) (p : Params K) (ω : Nat → K) (ex : Extra K F) {s : State K F L} (h : Fine s) (id tree pos : Nat) (parentTau : K)
    (x : Fin F → K) (label : Fin L) : Sat (fun o => ∀ r, o = some r → Fine r.1) (splitBarycenter sc p ω ex s id tree pos parentTau x label) := by
  unfold splitBarycenter
  refine Sat.bind (P := fun o => o = none ∨ sc.distribution ≠ .decrement) ?_ fun o ho => ?_
  · intro o e
    by_cases hd : sc.distribution = .decrement
    · left
      rw [barycenter, hsc hd] at e
      exact (Except.ok.inj e).symm
    · exact Or.inr hd
  · cases o with
    | none => exact Sat.ok (by simp)
    | some m =>
        have hd : sc.distribution ≠ .decrement := ho.resolve_left (by simp)
        refine Sat.skip fun node => Sat.skip fun b => ?_
        dsimp only
        split
        · exact Sat.ok (by simp)
        · refine Sat.skip fun r => ?_
          refine Sat.bind (fine_splitAt sc p ω h id tree _ _ _ _ x label (fun e => absurd e hd)) fun r hr => Sat.ok ?_
          intro r' e
          cases e
          exact hr

/-- a split is triggered for nodes with forced extensions only -/
theorem splits_pos {ω : Nat → K} (hω : ∀ i, 0 ≤ ω i) (t : Trigger) (pos : Nat) (f sum : Int) (h : splits t f (splitInstead ω pos f sum).1 = true) : 0 < f := by
  have key : (splitInstead ω pos f sum).1 = true → 0 < f := by
    intro h
    unfold splitInstead at h
    split at h
    · rename_i hs
      have h := of_decide_eq_true h
      have hs' : (0 : K) < (sum : K) := by exact_mod_cast hs
      have : (0 : K) < (f : K) / (sum : K) := lt_of_le_of_lt (hω pos) h
      have : (0 : K) < (f : K) := by
        by_contra hn
        exact absurd this (not_lt.2 (div_nonpos_of_nonpos_of_nonneg (not_lt.1 hn) hs'.le))
      exact_mod_cast this
    · exact absurd h (by simp)
  cases t with
  | none => exact absurd h (by simp [splits])
  | positive => exact of_decide_eq_true h
  | total => exact key h
  | sfe => exact key h

theorem fine_extendSplit (c : Config K) (sc : SplitConfig K) (hsc : NoHelper sc) (p : Params K) (ω : Nat → K) (hω : ∀ i, 0 ≤ ω i) (ex : Extra K F) (x : Fin F → K) (label : Fin L)
    (tree : Nat) (sum : Int) : ∀ (fuel id pos : Nat) (s : State K F L), Fine s → Sat (fun r => Fine r.1) (extendSplit c sc p ω ex x label tree sum fuel id pos s)
  | 0, _, _, _, _ => Sat.error
  | fuel + 1, id, pos, s, h => by
      have ih := fine_extendSplit c sc hsc p ω hω ex x label tree sum fuel
      rw [extendSplit]
      refine Sat.skip fun node => Sat.skip fun parentTau => Sat.skip fun b => Sat.skip fun pause => ?_
      dsimp only
      split
      · refine Sat.bind (P := fun f => 0 < f → s.forced[id]? = some f) ?_ fun f hf => ?_
        · split
          · exact Sat.ok (fun h => absurd h (by simp))
          · exact fun f e _ => rd_eq_ok_iff.1 e
        · split
          · rename_i hs
            have := splits_pos hω _ _ _ _ hs
            exact fine_splitNode sc p ω h _ _ _ _ _ _ (fun _ => ⟨f, hf this, this⟩)
          · exact Sat.skip fun cut => Sat.bind (fine_insert c p h _ _ _ _ _) fun s h => Sat.ok h
      · refine Sat.skip fun nodes => Sat.bind (fine_inc h id _) fun l h => ?_
        cases node.dim with
        | some dim => exact Sat.skip fun sp => Sat.skip fun child => ih _ _ _ h
        | none =>
            dsimp only
            refine Sat.bind (P := fun o : Option (State K F L × Nat) => ∀ r, o = some r → Fine r.1) ?_ fun o ho => ?_
            · split
              · exact fine_splitBarycenter sc hsc p ω ex (s := { s with forest := { s.forest with nodes := nodes }, forced := l }) h _ _ _ _ _ _
              · exact Sat.ok (by simp)
            · cases o with
              | some r => exact Sat.ok (ho r rfl)
              | none =>
                  exact Sat.bind (P := Fine) (fine_countAt (s := { s with forest := { s.forest with nodes := nodes }, forced := l }) h id label) fun _ h => Sat.ok h

theorem fine_trainLoopSplit (c : Config K) (sc : SplitConfig K) (hsc : NoHelper sc) (p : Params K) (ω : Nat → K) (hω : ∀ i, 0 ≤ ω i) (ex : Extra K F) (x : Fin F → K)
    (label : Fin L) : ∀ (i k : Nat) (s : State K F L) (pos : Nat) (ok : Bool), Fine s → Sat (fun r => Fine r.1) (trainLoopSplit c sc p ω ex x label i k s pos ok)
  | _, 0, _, _, _, h => Sat.ok h
  | i, k + 1, s, pos, ok, h => by
      rw [trainLoopSplit]
      refine Sat.bind (P := fun r => Fine r.1) ?_ fun r h => fine_trainLoopSplit c sc hsc p ω hω ex x label (i + 1) k _ _ _ h
      unfold trainTreeSplit
      refine Sat.skip fun root => ?_
      cases root with
      | none => exact fine_trainTree c p ω x label i h pos
      | some id =>
          dsimp only
          split
          · exact Sat.skip fun sum => Sat.bind (fine_extendSplit c sc hsc p ω hω ex x label i sum _ id pos s h) fun _ h => Sat.ok h
          · exact fine_trainTree c p ω x label i h pos

theorem fine_execSplit (c : Config K) (sc : SplitConfig K) (hsc : NoHelper sc) (p : Params K) (ω : Nat → K) (hω : ∀ i, 0 ≤ ω i) (op : Op K F L) {s : State K F L} (h : Fine s)
    (ex : Extra K F) (pos : Nat) : Sat (fun r => Fine r.1) (execSplit c sc p ω op s ex pos) := by
  cases op with
  | train x label =>
      refine Sat.bind (P := fun r : State K F L × Extra K F × Nat × Bool => Fine r.1) ?_ fun _ h => Sat.ok h
      unfold trainSplit
      refine Sat.bind (P := Fine) ?_ fun s h => Sat.bind (P := fun r => Fine r.1) ?_ fun r h => ?_
      · split
        · exact fine_fade h
        · exact Sat.ok h
      · split
        · exact fine_trim c ω h pos
        · exact Sat.ok h
      · exact Sat.bind (fine_trainLoopSplit c sc hsc p ω hω _ x label 0 _ _ _ _ h) fun r h => Sat.ok h
  | predict x use =>
      refine Sat.bind (P := fun r : State K F L × Nat => Fine r.1) ?_ fun _ h => Sat.ok h
      refine Sat.bind (P := fun r : State K F L × Nat => Fine r.1) ?_ fun _ h => Sat.ok h
      unfold predict
      refine Sat.skip fun nodes => ?_
      cases use <;> dsimp only
      all_goals
        split
        · exact Sat.error
        · exact Sat.skip fun _ => Sat.ok h
  | trim => exact Sat.bind (P := fun r : State K F L × Nat => Fine r.1) (fine_trim c ω h pos) fun _ h => Sat.ok h
  | fade =>
      exact Sat.bind (P := fun r : State K F L × Nat => Fine r.1) (Sat.bind (fine_fade h) fun s h => Sat.ok h) fun _ h => Sat.ok h
  | other last => exact Sat.bind (P := fun r : State K F L × Nat => Fine r.1) (Sat.ok h) fun _ h => Sat.ok h

theorem fine_runSplit (c : Config K) (sc : SplitConfig K) (hsc : NoHelper sc) (p : Params K) (ω : Nat → K) (hω : ∀ i, 0 ≤ ω i) : ∀ (ops : List (Op K F L)) (s : State K F L)
    (ex : Extra K F) (pos : Nat), Fine s → Sat (fun r => Fine r.1) (runSplit c sc p ω ops s ex pos)
  | [], _, _, _, h => Sat.ok h
  | op :: ops, s, ex, pos, h => by
      rw [runSplit]
      exact Sat.bind (fine_execSplit c sc hsc p ω hω op h ex pos) fun r h => fine_runSplit c sc hsc p ω hω ops _ _ _ h

theorem fine_new (c : Config K) (maxSize sizeNode sizeBase : Nat) (junk : List Int) (last : Nat) : Sat Fine (new (F := F) (L := L) c maxSize sizeNode sizeBase junk last) :=
  Sat.skip fun _ => Sat.skip fun _ => Sat.ok (fun f hf => by rw [List.eq_of_mem_replicate hf])

end Orp.Coarse
