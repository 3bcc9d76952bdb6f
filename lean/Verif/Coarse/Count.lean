import Verif.Coarse.Split
import Verif.Coarse.Walk
import Verif.Coarse.Spec

/-!
The model with split triggers and helpers is the model without them if they have their default values; the functions that count the points and the leaves of a tree.
-/

namespace Orp.Coarse

set_option linter.unusedSectionVars false

open Finset
open Mondrian (Node Box Forest Params Cut Tree Data upd init extent bump Holds)

variable {K : Type} [Field K] [LinearOrder K] [IsStrictOrderedRing K] [FloorRing K] {F L : Nat}

/-! ### Default values -/

theorem splitBarycenter_none (sc : SplitConfig K) (hh : sc.helper = .none) (p : Params K) (ω : Nat → K) (ex : Extra K F) (s : State K F L) (id tree pos : Nat) (tau : K)
    (x : Fin F → K) (label : Fin L) : splitBarycenter sc p ω ex s id tree pos tau x label = .ok none := by
  simp only [splitBarycenter, barycenter, hh, bind, Except.bind, pure, Except.pure]

theorem bind_same {A B : Type} {r : Res A} {f g : A → Res B} (h : ∀ a, f a = g a) : r >>= f = r >>= g := by
  rw [funext h]

theorem ok_bind {A B : Type} (a : A) (f : A → Res B) : ((.ok a : Res A) >>= f) = f a := rfl

theorem extendSplit_default (c : Config K) (hc : c.extend = .barycenter) (sc : SplitConfig K) (ht : sc.trigger = .none) (hh : sc.helper = .none) (p : Params K)
    (ω : Nat → K) (ex : Extra K F) (x : Fin F → K) (label : Fin L) (tree : Nat) : ∀ (fuel id pos : Nat) (s : State K F L),
    extendSplit c sc p ω ex x label tree 0 fuel id pos s = extendBlock c p ω x label tree fuel id pos s
  | 0, _, _, _ => rfl
  | fuel + 1, id, pos, s => by
      have ih := extendSplit_default c hc sc ht hh p ω ex x label tree fuel
      unfold extendSplit extendBlock
      refine bind_same fun node => bind_same fun tau => bind_same fun b => ?_
      dsimp only
      refine bind_same fun pause => ?_
      by_cases hcond : 0 ≤ (expo p ω pos b x).1 ∧ tau + (expo p ω pos b x).1 < node.tau ∧ 2 ≤ s.free ∧ pause = false
      · rw [if_pos hcond, if_pos hcond]
        simp only [ht, if_true, splitInstead, lt_irrefl, if_false, splits, Bool.false_eq_true, hc, reduceCtorEq, bind, Except.bind]
      · rw [if_neg hcond, if_neg hcond, if_pos (Or.inr (Or.inl hc))]
        simp only [hc, true_and]
        cases hw : wr s.forest.nodes id { node with box := some (newBox c b x) } with
        | error e => rfl
        | ok nodes =>
            rw [ok_bind, ok_bind]
            refine bind_same fun forced => ?_
            obtain ⟨h1, h2⟩ := wr_eq_ok_iff.1 hw
            have hr : rd nodes id = .ok { node with box := some (newBox c b x) } := by
              rw [← h2]
              exact rd_eq_ok_iff.2 (List.getElem?_set_self h1)
            simp only [descend, hr, bind, Except.bind, hc, reduceCtorEq, if_false]
            cases hd : node.dim with
            | none => simp only [splitBarycenter_none sc hh, ite_self, pure, Except.pure]
            | some dim =>
                simp only [ih]
                cases init node.split with
                | error e => rfl
                | ok sp =>
                  simp only
                  cases init (if x dim ≤ sp then node.left else node.right) with
                  | error e => rfl
                  | ok child =>
                    simp only
                    cases extendBlock c p ω x label tree fuel child (expo p ω pos b x).2 _ with
                    | error e => rfl
                    | ok r => rfl

theorem trainTreeSplit_default (c : Config K) (sc : SplitConfig K) (ht : sc.trigger = .none) (hh : sc.helper = .none) (p : Params K) (ω : Nat → K) (ex : Extra K F)
    (x : Fin F → K) (label : Fin L) (tree : Nat) (s : State K F L) (pos : Nat) :
    trainTreeSplit c sc p ω ex x label tree s pos = trainTree c p ω x label tree s pos := by
  unfold trainTreeSplit
  cases hr : rd s.forest.roots tree with
  | error e =>
      unfold trainTree
      simp only [hr, bind, Except.bind]
  | ok root =>
      simp only [bind, Except.bind]
      cases root with
      | none => rfl
      | some id =>
          simp only
          by_cases hc : c.extend = .barycenter
          · rw [if_pos hc]
            unfold trainTree
            simp only [hr, bind, Except.bind, ht, extendSplit_default c hc sc ht hh, hc, reduceCtorEq, if_false]
          · rw [if_neg hc]

/-- the training of a tree is the same with the code of the splits and without -/
def Plain (c : Config K) (sc : SplitConfig K) (p : Params K) (ω : Nat → K) (F L : Nat) : Prop :=
  ∀ (ex : Extra K F) (x : Fin F → K) (label : Fin L) (tree : Nat) (s : State K F L) (pos : Nat),
    trainTreeSplit c sc p ω ex x label tree s pos = trainTree c p ω x label tree s pos

/-- The code of the splits is only used with `EXTEND_BARYCENTER`. -/
theorem plain_other (c : Config K) (hc : c.extend ≠ .barycenter) (sc : SplitConfig K) (p : Params K) (ω : Nat → K) : Plain c sc p ω F L := by
  intro ex x label tree s pos
  unfold trainTreeSplit
  cases hr : rd s.forest.roots tree with
  | error e =>
      unfold trainTree
      simp only [hr, bind, Except.bind]
  | ok root =>
      simp only [bind, Except.bind]
      cases root with
      | none => rfl
      | some id =>
          simp only
          rw [if_neg hc]

theorem trainLoopSplit_plain (c : Config K) (sc : SplitConfig K) (p : Params K) (ω : Nat → K) (hp : Plain c sc p ω F L) (ex : Extra K F)
    (x : Fin F → K) (label : Fin L) : ∀ (k i : Nat) (s : State K F L) (pos : Nat) (ok : Bool),
    trainLoopSplit c sc p ω ex x label i k s pos ok = trainLoop c p ω x label i k s pos ok
  | 0, _, _, _, _ => rfl
  | k + 1, i, s, pos, ok => by
      unfold trainLoopSplit trainLoop
      rw [hp]
      cases trainTree c p ω x label i s pos with
      | error e => rfl
      | ok r => exact trainLoopSplit_plain c sc p ω hp ex x label k (i + 1) _ _ _

theorem execSplit_plain (c : Config K) (sc : SplitConfig K) (p : Params K) (ω : Nat → K) (hp : Plain c sc p ω F L) (op : Op K F L)
    (s : State K F L) (ex : Extra K F) (pos : Nat) :
    (execSplit c sc p ω op s ex pos).map (fun r => (r.1, r.2.2)) = exec c p ω op s pos := by
  have hother : ∀ op : Op K F L, ((do
      let (s, pos) ← exec c p ω op s pos
      return (s, ex, pos) : Res (State K F L × Extra K F × Nat))).map (fun r => (r.1, r.2.2)) = exec c p ω op s pos := by
    intro op
    cases exec c p ω op s pos with
    | error e => rfl
    | ok r => rfl
  cases op with
  | train x label =>
      simp only [execSplit, exec, trainSplit, train, trainLoopSplit_plain c sc p ω hp, bind, Except.bind, pure, Except.pure]
      cases (if c.trim = .fading then treeFade s else .ok s : Res (State K F L)) with
      | error e => rfl
      | ok s1 =>
        simp only
        cases (if c.trim ≠ .none ∧ s1.free ≤ 1 ∧ s1.total % 100 = 0 then treeTrim c ω s1 pos else .ok (s1, pos) : Res (State K F L × Nat)) with
        | error e => rfl
        | ok r =>
          simp only
          cases trainLoop c p ω x label 0 r.1.forest.roots.length r.1 r.2 true with
          | error e => rfl
          | ok r => rfl
  | predict x use => exact hother _
  | trim => exact hother _
  | fade => exact hother _
  | other last => exact hother _

theorem runSplit_plain (c : Config K) (sc : SplitConfig K) (p : Params K) (ω : Nat → K) (hp : Plain c sc p ω F L) :
    ∀ (ops : List (Op K F L)) (s : State K F L) (ex : Extra K F) (pos : Nat), (runSplit c sc p ω ops s ex pos).map (fun r => (r.1, r.2.2)) = run c p ω ops s pos
  | [], _, _, _ => rfl
  | op :: ops, s, ex, pos => by
      have h := execSplit_plain c sc p ω hp op s ex pos
      unfold runSplit run
      cases he : execSplit c sc p ω op s ex pos with
      | error e => rw [he] at h; simp only [bind, Except.bind, ← h]; rfl
      | ok r =>
          rw [he] at h
          simp only [bind, Except.bind, ← h]
          exact runSplit_plain c sc p ω hp ops r.1 r.2.1 r.2.2

theorem runSplit_default (c : Config K) (sc : SplitConfig K) (ht : sc.trigger = .none) (hh : sc.helper = .none) (p : Params K) (ω : Nat → K) (ops : List (Op K F L))
    (s : State K F L) (ex : Extra K F) (pos : Nat) : (runSplit c sc p ω ops s ex pos).map (fun r => (r.1, r.2.2)) = run c p ω ops s pos :=
  runSplit_plain c sc p ω (trainTreeSplit_default c sc ht hh p ω) ops s ex pos

/-! ### The counting functions -/

/-- The loop that leaves the nodes as they are does what the loop of `tree_trim` does, if it starts at a node without parent. -/
theorem tour_walk {A : Type} (g : Node K F L → A → A) (nodes : List (Node K F L)) (start : Nat) (hs : ∀ n, nodes[start]? = some n → n.parent = none) :
    ∀ (fuel i : Nat) (id : Option Nat) (depth : Int) (stack : List Int) (a : A) (r : Int × A),
    walk nodes (fun _ n a => .ok (g n a)) fuel i id depth stack a = .ok r →
    tour start (fun n a => .ok (n, g n a)) fuel i id depth stack nodes a = .ok (decide (r.1 = -1), nodes, r.2)
  | 0, _, _, _, _, _, _, h => by rw [walk] at h; cases h
  | fuel + 1, i, none, depth, stack, a, r, h => by
      rw [walk] at h
      rw [tour, ← Except.ok.inj h]
  | fuel + 1, i, some id, depth, stack, a, r, h => by
      have ih := tour_walk g nodes start hs fuel
      rw [walk] at h
      rw [tour]
      by_cases hi : i < nodes.length
      · rw [if_pos hi] at h ⊢
        cases hn : rd nodes id with
        | error e => simp only [hn, bind, Except.bind] at h; cases h
        | ok node =>
          cases hl : level depth with
          | error e => simp only [hn, hl, bind, Except.bind] at h; cases h
          | ok d =>
            simp only [hn, hl, bind, Except.bind] at h ⊢
            have hback : ∀ stack a, walk nodes (fun _ n a => .ok (g n a)) fuel (i + 1) node.parent (depth - 1) stack a = .ok r →
                (if id = start then pure (decide (depth - 1 = -1), nodes, a)
                  else tour start (fun n a => .ok (n, g n a)) fuel (i + 1) node.parent (depth - 1) stack nodes a : Res (Bool × List (Node K F L) × A)) =
                .ok (decide (r.1 = -1), nodes, r.2) := by
              intro stack a h
              by_cases hst : id = start
              · rw [if_pos hst]
                have hpar := hs node (by rw [← hst]; exact rd_eq_ok_iff.1 hn)
                rw [hpar] at h
                cases fuel with
                | zero => rw [walk] at h; cases h
                | succ fuel =>
                    rw [walk] at h
                    rw [← Except.ok.inj h]
                    rfl
              · rw [if_neg hst]
                exact ih _ _ _ _ _ _ h
            cases hd : node.dim with
            | none =>
                simp only [hd] at h ⊢
                cases hw : wr stack d (-1) with
                | error e => simp only [hw] at h; cases h
                | ok stack1 =>
                    simp only [hw] at h ⊢
                    have hwn : wr nodes id node = .ok nodes := by
                      obtain ⟨h1, h2⟩ := List.getElem?_eq_some_iff.1 (rd_eq_ok_iff.1 hn)
                      rw [wr_ok _ h1, ← h2, List.set_getElem_self]
                    rw [hwn]
                    exact hback _ _ h
            | some dim =>
                simp only [hd] at h ⊢
                cases hst : rd stack d with
                | error e => simp only [hst] at h; cases h
                | ok st =>
                    simp only [hst] at h ⊢
                    by_cases h1 : st = -1
                    · rw [if_pos h1] at h ⊢
                      cases hw : wr stack d 0 with
                      | error e => simp only [hw] at h; cases h
                      | ok stack1 =>
                          simp only [hw] at h ⊢
                          by_cases hdd : 100 ≤ depth + 1
                          · rw [if_pos hdd] at h ⊢
                            rw [← Except.ok.inj h]
                            simp only [show ¬ (depth + 1 = -1) by omega, decide_false, pure, Except.pure]
                          · rw [if_neg hdd] at h ⊢
                            exact ih _ _ _ _ _ _ h
                    · rw [if_neg h1] at h ⊢
                      by_cases h0 : st = 0
                      · rw [if_pos h0] at h ⊢
                        cases hw : wr stack d 1 with
                        | error e => simp only [hw] at h; cases h
                        | ok stack1 =>
                            simp only [hw] at h ⊢
                            by_cases hdd : 100 ≤ depth + 1
                            · rw [if_pos hdd] at h ⊢
                              rw [← Except.ok.inj h]
                              simp only [show ¬ (depth + 1 = -1) by omega, decide_false, pure, Except.pure]
                            · rw [if_neg hdd] at h ⊢
                              exact ih _ _ _ _ _ _ h
                      · rw [if_neg h0] at h ⊢
                        cases hw : wr stack d (-1) with
                        | error e => simp only [hw] at h; cases h
                        | ok stack1 =>
                            simp only [hw] at h ⊢
                            exact hback _ _ h
      · rw [if_neg hi] at h ⊢
        rw [← Except.ok.inj h]
        rfl

/-- what is computed at the leaves -/
theorem foldLeaves_sum (g : (Fin L → Nat) → Nat) (nodes : List (Node K F L)) : ∀ (t : Tree K F L) (par : Option Nat) (a : Nat), Holds nodes par t →
    foldLeaves nodes (fun _ n (a : Nat) => .ok (a + g n.counts)) t a = .ok (a + ((leaves t).map (fun z => g z.2.counts)).sum)
  | .leaf id d, par, a, ⟨n, h1, h2, h3⟩ => by
      simp only [foldLeaves, rd_eq_ok_iff.2 h1, bind, Except.bind, leaves, List.map_cons, List.map_nil, List.sum_cons, List.sum_nil, h2.2.2.2, Nat.add_zero]
  | .node id d dim sp l r, par, a, ⟨_, hl, hr⟩ => by
      simp only [foldLeaves, foldLeaves_sum g nodes r _ a hr, bind, Except.bind, foldLeaves_sum g nodes l _ _ hl, leaves, List.map_append, List.sum_append]
      rw [Nat.add_assoc]

theorem tourFrom_sum (g : (Fin L → Nat) → Nat) (nodes : List (Node K F L)) (t : Tree K F L) (h : Holds nodes none t) (hi : t.ids.length ≤ nodes.length) :
    ∃ b sum, tourFrom (fun n (a : Nat) => .ok (n, a + g n.counts)) nodes t.id 0 = .ok (b, nodes, sum) ∧ (b = true ↔ t.height ≤ 100) ∧
      (t.height ≤ 100 → sum = ((leaves t).map (fun z => g z.2.counts)).sum) := by
  have hs : ∀ n, nodes[t.id]? = some n → n.parent = none := by
    intro n hn
    obtain ⟨n', h1, h2⟩ := Mondrian.holds_root h
    rw [hn] at h1
    cases h1
    exact h2.1
  by_cases hh : t.height ≤ 100
  · have hw := walk_root (act := fun _ n (a : Nat) => .ok (a + g n.counts)) t 0 _ h hh hi (foldLeaves_sum g nodes t none 0 h)
    refine ⟨_, _, tour_walk (fun n a => a + g n.counts) nodes t.id hs _ _ _ _ _ _ _ hw, by simp [hh], fun _ => by simp⟩
  · obtain ⟨a', hw, -⟩ := walk_root_deep (act := fun _ n (a : Nat) => .ok (a + g n.counts)) (fun _ => True) (fun id n a _ _ => ⟨_, rfl, trivial⟩) t 0 h
      (by omega) hi trivial
    refine ⟨_, _, tour_walk (fun n a => a + g n.counts) nodes t.id hs _ _ _ _ _ _ _ hw, by simp [hh], fun h => absurd h hh⟩

end Orp.Coarse
