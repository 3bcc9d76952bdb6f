import Verif.Coarse.Keep
import Verif.Coarse.PublicSpec

/-!
The boxes of the nodes: no box is turned over, the boxes are on the right side of the splits above them, and a box contains the boxes below it.
-/

set_option linter.unusedSectionVars false

namespace Orp.Coarse

open Mondrian (Node Tree Data Box newLeaf bump Cut)

variable {K : Type} [Field K] [LinearOrder K] [IsStrictOrderedRing K] [FloorRing K] {F L : Nat}

/-- A predicate of trees that holds for a leaf with one point, and is kept by growing, by removing a leaf and by refreshing the counters, is kept by histories. -/
theorem kept_tree (c : Config K) (lifetime : K) (few : Prop) (n : Nat) (Q : Tree K F L → Prop) (h1 : ∀ a x label, Q (newLeaf lifetime a x label))
    (h2 : ∀ b x label t t', Grows c b lifetime x label 0 0 t t' → Q t → Q t') (h3 : ∀ id t t', Removes id t t' → Q t → Q t') (h4 : ∀ t, Q t → Q t.recount) :
    Kept c lifetime few n (fun _ _ o => ∀ t, o = some t → Q t) := by
  have htrim : ∀ (o o' : Option (Tree K F L)), (∀ t, o = some t → Q t) → Pruned c o o' → ∀ t, o' = some t → Q t := by
    intro o o' h hp
    rcases hp with rfl | ⟨-, f, hp⟩
    · exact h
    · cases o with
      | none => cases hp; exact h
      | some t =>
          rcases hp with ⟨z, t', -, hr, rfl⟩ | ⟨rfl, -⟩
          · intro t1 e
            cases e
            exact h3 _ _ _ hr (h t rfl)
          · exact h
  refine ⟨fun b t h => (by cases h), fun ops op b o o' _ _ h he => ?_⟩
  cases op with
  | train x label =>
      obtain ⟨o1, hp, hs⟩ := he
      have e1 := htrim o o1 h hp
      intro t' ht'
      cases o1 with
      | none =>
          rcases hs with ⟨a, rfl⟩ | ⟨-, rfl⟩
          · cases ht'; exact h1 _ _ _
          · cases ht'
      | some t =>
          obtain ⟨t1, rfl, hg⟩ := hs
          cases ht'
          by_cases hm : c.extend = .none
          · rw [if_pos hm] at hg; rw [hg]; exact e1 t rfl
          · rw [if_neg hm] at hg; exact h2 _ _ _ _ _ hg (e1 t rfl)
  | predict x use =>
      have e : o' = counted c o := he
      subst e
      unfold counted
      split
      · exact h
      · intro t ht
        cases o with
        | none => cases ht
        | some t0 => cases ht; exact h4 t0 (h t0 rfl)
  | trim => exact htrim o o' h he
  | fade => have e : o' = o := he; rw [e]; exact h
  | other last => have e : o' = o := he; rw [e]; exact h

/-! ### All boxes -/

theorem AllBoxes.root {P : Box K F → Prop} : ∀ {t : Tree K F L}, AllBoxes P t → P t.data.box
  | .leaf _ _, h => h
  | .node _ _ _ _ _ _, h => h.1

theorem allBoxes_above {P : Box K F → Prop} {lifetime : K} {np ns : Nat} {cut : Cut K F} {t : Tree K F L} {cnt : Fin L → Nat} {x : Fin F → K} {label : Fin L}
    (h1 : P (t.data.box.extend x)) (h2 : AllBoxes P t) (h3 : P (Box.point x)) : AllBoxes P (aboveC lifetime np ns cut t cnt x label) := by
  unfold aboveC
  split
  · exact ⟨h1, h2, h3⟩
  · exact ⟨h1, h3, h2⟩

theorem Grows.allBoxes {P : Box K F → Prop} {c : Config K} {base : Base} {lifetime : K} {x : Fin F → K} {label : Fin L} {dist : Nat} {ptau : K} {t t' : Tree K F L}
    (hg : Grows c base lifetime x label dist ptau t t') (h1 : ∀ b, P b → P (b.extend x)) (h2 : ∀ b, P b → P (newBox c b x)) (h3 : P (Box.point x)) :
    AllBoxes P t → AllBoxes P t' := by
  have hway : ∀ b b', WayBox c b x b' → P b → P b' := by
    rintro b b' (rfl | ⟨-, rfl⟩) h
    · exact h2 b h
    · exact h
  induction hg with
  | insert np ns h hm => exact fun ht => allBoxes_above (h1 _ ht.root) ht h3
  | insertLeaf np ns h hm => exact fun ht => allBoxes_above (h1 _ ht) ht h3
  | insertLeft np ns h hm hx hg ih => exact fun ht => allBoxes_above (h1 _ ht.1) ⟨ht.1, ih ht.2.1, ht.2.2⟩ h3
  | insertRight np ns h hm hx hg ih => exact fun ht => allBoxes_above (h1 _ ht.1) ⟨ht.1, ht.2.1, ih ht.2.2⟩ h3
  | leaf b' hb => exact fun ht => hway _ _ hb ht
  | left b' hb hx hg ih => exact fun ht => ⟨hway _ _ hb ht.1, ih ht.2.1, ht.2.2⟩
  | right b' hb hx hg ih => exact fun ht => ⟨hway _ _ hb ht.1, ht.2.1, ih ht.2.2⟩
  | ghost hm =>
      rename_i t
      cases t <;> exact fun ht => ht
  | drop hm => exact fun ht => ht

theorem Removes.allBoxes {P : Box K F → Prop} {id : Nat} {t t' : Tree K F L} (h : Removes id t t') : AllBoxes P t → AllBoxes P t' := by
  induction h with
  | atLeft => exact fun ht => ht.2.2
  | atRight => exact fun ht => ht.2.1
  | left h ih => exact fun ht => ⟨ht.1, ih ht.2.1, ht.2.2⟩
  | right h ih => exact fun ht => ⟨ht.1, ht.2.1, ih ht.2.2⟩

theorem allBoxes_recount {P : Box K F → Prop} : ∀ {t : Tree K F L}, AllBoxes P t → AllBoxes P t.recount
  | .leaf _ _, h => h
  | .node _ _ _ _ _ _, h => ⟨h.1, allBoxes_recount h.2.1, allBoxes_recount h.2.2⟩

theorem AllBoxes.mono {P Q : Box K F → Prop} (h : ∀ b, P b → Q b) : ∀ {t : Tree K F L}, AllBoxes P t → AllBoxes Q t
  | .leaf _ _, ht => h _ ht
  | .node _ _ _ _ _ _, ht => ⟨h _ ht.1, ht.2.1.mono h, ht.2.2.mono h⟩

/-! ### Boxes that grow -/

theorem extend_lower (b : Box K F) (x : Fin F → K) (i : Fin F) : (b.extend x).lower i = min (b.lower i) (x i) := by
  unfold Box.extend
  by_cases h : x i < b.lower i
  · simp only [if_pos h, min_eq_right h.le]
  · simp only [if_neg h, min_eq_left (not_lt.1 h)]

theorem extend_upper (b : Box K F) (x : Fin F → K) (i : Fin F) : (b.extend x).upper i = max (b.upper i) (x i) := by
  unfold Box.extend
  by_cases h : b.upper i < x i
  · simp only [if_pos h, max_eq_right h.le]
  · simp only [if_neg h, max_eq_left (not_lt.1 h)]

theorem newBox_grows (c : Config K) (h : c.extend = .barycenter → 0 ≤ c.feParameter) (b : Box K F) (x : Fin F → K) (i : Fin F) :
    (newBox c b x).lower i ≤ b.lower i ∧ b.upper i ≤ (newBox c b x).upper i := by
  unfold newBox
  by_cases hb : c.extend = .barycenter
  · rw [if_pos hb]
    have h0 := h hb
    dsimp only
    constructor
    · split
      · nlinarith
      · exact le_rfl
    · split
      · nlinarith
      · exact le_rfl
  · rw [if_neg hb, extend_lower, extend_upper]
    exact ⟨min_le_left _ _, le_max_left _ _⟩

theorem kept_proper (c : Config K) (h : c.extend = .barycenter → 0 ≤ c.feParameter) (lifetime : K) (few : Prop) (n : Nat) :
    Kept (F := F) (L := L) c lifetime few n (fun _ _ o => ∀ t, o = some t → AllBoxes (fun b => ∀ i, b.lower i ≤ b.upper i) t) := by
  refine kept_tree c lifetime few n _ (fun a x label i => le_rfl) (fun b x label t t' hg => hg.allBoxes (fun b hb i => ?_) (fun b hb i => ?_) (fun i => le_rfl))
    (fun id t t' hr => hr.allBoxes) (fun t => allBoxes_recount)
  · rw [extend_lower, extend_upper]
    exact (min_le_left _ _).trans ((hb i).trans (le_max_left _ _))
  · have := newBox_grows c h b x i
    exact this.1.trans ((hb i).trans this.2)

/-! ### Nested boxes -/

/-- The ways to extend that give each box on the way of a point the point -/
def Whole (c : Config K) : Prop := c.extend ≠ .counterNoUpdate ∧ (c.extend = .barycenter → c.feParameter = 1)

theorem newBox_whole {c : Config K} (h : Whole c) (b : Box K F) (x : Fin F → K) : newBox c b x = b.extend x := by
  unfold newBox
  split
  · rename_i hb
    unfold Box.extend
    simp only [h.2 hb, mul_one, sub_sub_cancel, add_sub_cancel]
  · rfl

theorem Whole.box {c : Config K} (h : Whole c) {b b' : Box K F} {x : Fin F → K} (hw : WayBox c b x b') : b' = b.extend x := by
  rcases hw with rfl | ⟨h', -⟩
  · exact newBox_whole h b x
  · exact absurd h' h.1

theorem inside_refl (b : Box K F) : b.Inside b := fun _ => ⟨le_rfl, le_rfl⟩

theorem inside_trans {a b c : Box K F} (h1 : a.Inside b) (h2 : b.Inside c) : a.Inside c := fun i => ⟨(h2 i).1.trans (h1 i).1, (h1 i).2.trans (h2 i).2⟩

theorem inside_extend (b : Box K F) (x : Fin F → K) : b.Inside (b.extend x) := fun i => by
  rw [extend_lower, extend_upper]
  exact ⟨min_le_left _ _, le_max_left _ _⟩

theorem point_inside (b : Box K F) (x : Fin F → K) : (Box.point x).Inside (b.extend x) := fun i => by
  rw [extend_lower, extend_upper]
  exact ⟨min_le_right _ _, le_max_right _ _⟩

theorem extend_inside {a b : Box K F} (h : a.Inside b) (x : Fin F → K) : (a.extend x).Inside (b.extend x) := fun i => by
  rw [extend_lower, extend_upper, extend_lower, extend_upper]
  exact ⟨min_le_min (h i).1 le_rfl, max_le_max (h i).2 le_rfl⟩

theorem Nested.all : ∀ {t : Tree K F L}, Nested t → AllBoxes (fun b => b.Inside t.data.box) t
  | .leaf _ d, _ => inside_refl d.box
  | .node _ d _ _ _ _, h => ⟨inside_refl d.box, h.2.2.1.all.mono fun _ hb => inside_trans hb h.1, h.2.2.2.all.mono fun _ hb => inside_trans hb h.2.1⟩

theorem Grows.box {c : Config K} (hc : Whole c) {base : Base} {lifetime : K} {x : Fin F → K} {label : Fin L} {dist : Nat} {ptau : K} {t t' : Tree K F L}
    (hg : Grows c base lifetime x label dist ptau t t') : t'.data.box.Inside (t.data.box.extend x) := by
  have habove : ∀ (np ns : Nat) (cut : Cut K F) (t u : Tree K F L) (cnt : Fin L → Nat), u.data.box = t.data.box →
      (aboveC lifetime np ns cut u cnt x label).data.box.Inside (t.data.box.extend x) := by
    intro np ns cut t u cnt h
    unfold aboveC
    split <;> (rw [h]; exact inside_refl _)
  cases hg with
  | insert np ns h hm => exact habove _ _ _ _ _ _ rfl
  | insertLeaf np ns h hm => exact habove _ _ _ (.leaf _ _) _ _ rfl
  | insertLeft np ns h hm hx hg => exact habove _ _ _ (.node _ _ _ _ _ _) _ _ rfl
  | insertRight np ns h hm hx hg => exact habove _ _ _ (.node _ _ _ _ _ _) _ _ rfl
  | leaf b' hb => rw [hc.box hb]; exact inside_refl _
  | left b' hb hx hg => rw [hc.box hb]; exact inside_refl _
  | right b' hb hx hg => rw [hc.box hb]; exact inside_refl _
  | ghost hm => cases t <;> exact inside_extend _ _
  | drop hm => exact inside_extend _ _

theorem nested_above {lifetime : K} {np ns : Nat} {cut : Cut K F} {t : Tree K F L} {cnt : Fin L → Nat} {x : Fin F → K} {label : Fin L} (h : Nested t) :
    Nested (aboveC lifetime np ns cut t cnt x label) := by
  unfold aboveC
  split
  · exact ⟨inside_extend _ _, point_inside _ _, h, trivial⟩
  · exact ⟨point_inside _ _, inside_extend _ _, trivial, h⟩

theorem separated_above {lifetime : K} {np ns : Nat} {cut : Cut K F} {t : Tree K F L} {cnt : Fin L → Nat} {x : Fin F → K} {label : Fin L} (h : Nested t)
    (hs : Separated t) (hcut : cut.Ok t.data.box x) : Separated (aboveC lifetime np ns cut t cnt x label) := by
  unfold aboveC
  rcases hcut.sides with ⟨h1, h2, h3⟩ | ⟨h1, h2, h3⟩
  · rw [if_pos h1]
    exact ⟨h.all.mono fun b hb => (hb _).2.trans h2, h3, hs, trivial⟩
  · rw [if_neg (by rw [h1]; simp)]
    exact ⟨h2, h.all.mono fun b hb => h3.trans_le (hb _).1, trivial, hs⟩

theorem Grows.nested {c : Config K} (hc : Whole c) {base : Base} {lifetime : K} {x : Fin F → K} {label : Fin L} {dist : Nat} {ptau : K} {t t' : Tree K F L}
    (hg : Grows c base lifetime x label dist ptau t t') : Nested t → Nested t' := by
  induction hg with
  | insert np ns h hm => exact nested_above
  | insertLeaf np ns h hm => exact absurd hm hc.1
  | insertLeft np ns h hm hx hg ih => exact absurd hm hc.1
  | insertRight np ns h hm hx hg ih => exact absurd hm hc.1
  | leaf b' hb => exact fun _ => trivial
  | left b' hb hx hg ih =>
      intro ht
      rw [hc.box hb]
      exact ⟨inside_trans (hg.box hc) (extend_inside ht.1 x), inside_trans ht.2.1 (inside_extend _ _), ih ht.2.2.1, ht.2.2.2⟩
  | right b' hb hx hg ih =>
      intro ht
      rw [hc.box hb]
      exact ⟨inside_trans ht.1 (inside_extend _ _), inside_trans (hg.box hc) (extend_inside ht.2.1 x), ht.2.2.1, ih ht.2.2.2⟩
  | ghost hm =>
      rename_i t
      cases t <;> exact fun ht => ht
  | drop hm => exact fun ht => ht

theorem Grows.separated {c : Config K} (hc : Whole c) {base : Base} {lifetime : K} {x : Fin F → K} {label : Fin L} {dist : Nat} {ptau : K} {t t' : Tree K F L}
    (hg : Grows c base lifetime x label dist ptau t t') : Nested t → Separated t → Separated t' := by
  induction hg with
  | insert np ns h hm => exact fun hn hs => separated_above hn hs h.ok
  | insertLeaf np ns h hm => exact absurd hm hc.1
  | insertLeft np ns h hm hx hg ih => exact absurd hm hc.1
  | insertRight np ns h hm hx hg ih => exact absurd hm hc.1
  | leaf b' hb => exact fun _ _ => trivial
  | left b' hb hx hg ih =>
      rename_i dim sp l l' r
      intro hn ht
      have hP : ∀ b : Box K F, b.upper dim ≤ sp → (b.extend x).upper dim ≤ sp := fun b hb => by rw [extend_upper]; exact max_le hb hx
      exact ⟨hg.allBoxes hP (fun b hb => by rw [newBox_whole hc]; exact hP b hb) hx ht.1, ht.2.1, ih hn.2.2.1 ht.2.2.1, ht.2.2.2⟩
  | right b' hb hx hg ih =>
      rename_i dim sp l r r'
      intro hn ht
      have hP : ∀ b : Box K F, sp < b.lower dim → sp < (b.extend x).lower dim := fun b hb => by rw [extend_lower]; exact lt_min hb (not_le.1 hx)
      exact ⟨ht.1, hg.allBoxes hP (fun b hb => by rw [newBox_whole hc]; exact hP b hb) (not_le.1 hx) ht.2.1, ht.2.2.1, ih hn.2.2.2 ht.2.2.2⟩
  | ghost hm =>
      rename_i t
      cases t <;> exact fun _ ht => ht
  | drop hm => exact fun _ ht => ht

theorem Removes.nested {id : Nat} {t t' : Tree K F L} (h : Removes id t t') : Nested t → Nested t' ∧ t'.data.box.Inside t.data.box := by
  induction h with
  | atLeft => exact fun ht => ⟨ht.2.2.2, ht.2.1⟩
  | atRight => exact fun ht => ⟨ht.2.2.1, ht.1⟩
  | left h ih => exact fun ht => ⟨⟨inside_trans (ih ht.2.2.1).2 ht.1, ht.2.1, (ih ht.2.2.1).1, ht.2.2.2⟩, inside_refl _⟩
  | right h ih => exact fun ht => ⟨⟨ht.1, inside_trans (ih ht.2.2.2).2 ht.2.1, ht.2.2.1, (ih ht.2.2.2).1⟩, inside_refl _⟩

theorem Removes.separated {id : Nat} {t t' : Tree K F L} (h : Removes id t t') : Separated t → Separated t' := by
  induction h with
  | atLeft => exact fun ht => ht.2.2.2
  | atRight => exact fun ht => ht.2.2.1
  | left h ih => exact fun ht => ⟨h.allBoxes ht.1, ht.2.1, ih ht.2.2.1, ht.2.2.2⟩
  | right h ih => exact fun ht => ⟨ht.1, h.allBoxes ht.2.1, ht.2.2.1, ih ht.2.2.2⟩

theorem recount_box (t : Tree K F L) : t.recount.data.box = t.data.box := by cases t <;> rfl

theorem nested_recount : ∀ {t : Tree K F L}, Nested t → Nested t.recount
  | .leaf _ _, h => h
  | .node _ _ _ _ l r, h => ⟨by rw [recount_box l]; exact h.1, by rw [recount_box r]; exact h.2.1, nested_recount h.2.2.1, nested_recount h.2.2.2⟩

theorem separated_recount : ∀ {t : Tree K F L}, Separated t → Separated t.recount
  | .leaf _ _, h => h
  | .node _ _ _ _ _ _, h => ⟨allBoxes_recount h.1, allBoxes_recount h.2.1, separated_recount h.2.2.1, separated_recount h.2.2.2⟩

theorem kept_nested (c : Config K) (hc : Whole c) (lifetime : K) (few : Prop) (n : Nat) :
    Kept (F := F) (L := L) c lifetime few n (fun _ _ o => ∀ t, o = some t → Nested t ∧ Separated t) :=
  kept_tree c lifetime few n _ (fun a x label => ⟨trivial, trivial⟩) (fun b x label t t' hg h => ⟨hg.nested hc h.1, hg.separated hc h.1 h.2⟩)
    (fun id t t' hr h => ⟨(hr.nested h.1).1, hr.separated h.2⟩) (fun t h => ⟨nested_recount h.1, separated_recount h.2⟩)

end Orp.Coarse
