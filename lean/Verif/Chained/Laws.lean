import Verif.Chained.Lemmas
import Mathlib.Tactic.FieldSimp
import Mathlib.Data.List.Induction

/-!
Laws of the chained reservoir on the contents of the chains, used by the properties.
-/

set_option linter.unusedSectionVars false

namespace Orp.Chained

variable {α K : Type} [Field K] [LinearOrder K] [FloorRing K]

theorem mem_pushList {e : α} {t : Nat} {xs : List (α × Nat)} {x : α × Nat} (h : x ∈ pushList e t xs) :
    x.1 = e ∨ x ∈ xs := by
  induction xs with
  | nil => simp [pushList] at h; subst h; exact .inl rfl
  | cons y ys ih =>
      simp only [pushList] at h
      split at h
      · rcases List.mem_cons.1 h with rfl | h
        · exact .inl rfl
        · exact .inr (by simp [h])
      · rcases List.mem_cons.1 h with rfl | h
        · exact .inr (by simp)
        · rcases ih h with h | h
          · exact .inl h
          · exact .inr (by simp [h])

theorem mem_obsList {t : Nat} {xs : List (α × Nat)} {x : α × Nat} (h : x ∈ obsList t xs) :
    ∃ y ∈ xs, y.1 = x.1 := by
  unfold obsList at h
  split at h
  · exact ⟨x, h, rfl⟩
  · exact ⟨x, h, rfl⟩
  · split at h
    · exact ⟨x, h, rfl⟩
    · rename_i y hy
      simp at h; subst h
      exact ⟨y, List.mem_of_getLast? hy, rfl⟩

theorem obsList_single (t : Nat) (x : α × Nat) : obsList t [x] = [x] := by
  unfold obsList
  by_cases h : t ≤ x.2
  · simp [List.findIdx?_cons, h]
  · simp [List.findIdx?_cons, h]

theorem added_append (a b : List (Op α K)) : added (a ++ b) = added a ++ added b := by
  induction a with
  | nil => rfl
  | cons op a ih => cases op <;> simp [added, ih]

theorem absRun_snoc (n : Nat) (a : Abs α) (ops : List (Op α K)) (op : Op α K) :
    absRun n a (ops ++ [op]) = absStep n (absRun n a ops) op := by
  simp [absRun, List.foldl_append]

theorem absRun_counter (n : Nat) (a : Abs α) (ops : List (Op α K)) :
    (absRun n a ops).counter = a.counter + (added ops).length := by
  induction ops using List.reverseRecOn with
  | nil => simp [absRun, added]
  | append_singleton ops op ih =>
      rw [absRun_snoc, added_append]
      cases op with
      | add c => simp only [absStep, absAdd, ih, added, List.length_append, List.length_cons, List.length_nil]; omega
      | obsolete t => simp only [absStep, absObs, ih, added, List.length_append, List.length_nil]; omega

/-- slots not reached yet hold nothing, slots reached hold only added elements -/
theorem absRun_added (g : List α) (hn : g.length ≤ never) (ops : List (Op α K))
    [IsStrictOrderedRing K] (hv : ∀ op ∈ ops, op.Valid) :
    ∀ j < g.length,
      ((absRun g.length (absNew g) ops).counter ≤ j → (absRun g.length (absNew g) ops).nx j = never ∧
        ∃ e, (absRun g.length (absNew g) ops).con j = [(e, 0)]) ∧
      (j < (absRun g.length (absNew g) ops).counter → ∀ x ∈ (absRun g.length (absNew g) ops).con j, x.1 ∈ added ops) := by
  induction ops using List.reverseRecOn with
  | nil =>
      intro j hj
      refine ⟨fun _ => ⟨rfl, ?_⟩, fun h => absurd h (by simp [absRun, absNew])⟩
      simp [absRun, absNew, List.getElem?_eq_getElem hj]
  | append_singleton ops op ih =>
      have ih := ih (fun o ho => hv o (by simp [ho]))
      have hvop := hv op (by simp)
      rw [absRun_snoc, added_append]
      generalize hA : absRun g.length (absNew g) ops = a at ih
      intro j hj
      cases op with
      | obsolete t =>
          simp only [absStep, absObs, if_pos hj, added, List.append_nil]
          refine ⟨fun h => ?_, fun h x hx => ?_⟩
          · obtain ⟨h1, e, h2⟩ := (ih j hj).1 h
            exact ⟨h1, e, by rw [h2, obsList_single]⟩
          · obtain ⟨y, hy, hyx⟩ := mem_obsList hx
            rw [← hyx]; exact (ih j hj).2 h y hy
      | add c =>
          have hvc : c.Valid := hvop
          have hhead : (a.counter + 1 ≤ j → (absHead g.length a c).nx j = never ∧ ∃ e, (absHead g.length a c).con j = [(e, 0)]) ∧
              (j < a.counter + 1 → ∀ x ∈ (absHead g.length a c).con j, x.1 ∈ added ops ++ [c.e]) := by
            unfold absHead
            split
            · rename_i hlt
              refine ⟨fun h => ?_, fun h x hx => ?_⟩
              · have hne : j ≠ a.counter := by omega
                simp only [Function.update_of_ne hne]
                exact (ih j hj).1 (by omega)
              · by_cases e : j = a.counter
                · subst e; simp only [Function.update_self, List.mem_singleton] at hx; subst hx; simp
                · simp only [Function.update_of_ne e] at hx
                  exact List.mem_append_left _ ((ih j hj).2 (by omega) x hx)
            · rename_i hlt
              split
              · refine ⟨fun h => by omega, fun h x hx => ?_⟩
                by_cases e : j = draw g.length c.r2
                · subst e
                  simp only [Function.update_self, List.mem_cons, List.mem_map] at hx
                  rcases hx with rfl | ⟨y, hy, rfl⟩
                  · simp
                  · exact List.mem_append_left _ ((ih _ hj).2 (by omega) y (List.mem_of_mem_tail hy))
                · simp only [Function.update_of_ne e] at hx
                  exact List.mem_append_left _ ((ih j hj).2 (by omega) x hx)
              · refine ⟨fun h => by omega, fun h x hx => ?_⟩
                exact List.mem_append_left _ ((ih j hj).2 (by omega) x hx)
          have hcnt := absHead_counter g.length a c
          generalize hB : absHead g.length a c = b at hhead hcnt
          simp only [absStep, absAdd, hB, absPush, hj, true_and, added]
          refine ⟨fun h => ?_, fun h x hx => ?_⟩
          · obtain ⟨h1, h2⟩ := hhead.1 h
            have hne : ¬ b.counter = b.nx j := by rw [h1, hcnt]; omega
            rw [if_neg hne, if_neg hne]
            exact ⟨h1, h2⟩
          · split at hx
            · rcases mem_pushList hx with hx | hx
              · rw [hx]; simp
              · exact hhead.2 h x hx
            · exact hhead.2 h x hx

/-! ### the heads of the chains when `obsolete` is not used -/

theorem pushList_head {e : α} {t : Nat} {x : α × Nat} {xs} (h : x.2 ≠ 0) :
    pushList e t (x :: xs) = x :: pushList e t xs := by simp [pushList, h]

theorem absRun_heads (g : List α) (hn : g.length ≤ never) (hn1 : 1 ≤ g.length) [IsStrictOrderedRing K]
    (cs : List (Call α K)) (hv : ∀ c ∈ cs, c.Valid) (hts : ∀ c ∈ cs, c.ts ≠ 0) :
    ∃ f : Nat → Nat, (∀ j < min g.length cs.length, ∃ c xs, cs[f j]? = some c ∧
        (absRun g.length (absNew g) (cs.map Op.add)).con j = (c.e, c.ts) :: xs) ∧
      (∀ i < min g.length cs.length, ∀ j < min g.length cs.length, f i = f j → i = j) ∧
      (cs.length ≤ g.length → ∀ j < cs.length, f j = j) := by
  induction cs using List.reverseRecOn with
  | nil => exact ⟨id, by simp, by simp, by simp⟩
  | append_singleton cs c ih =>
      obtain ⟨f, f1, f2, f3⟩ := ih (fun c hc => hv c (by simp [hc])) (fun c hc => hts c (by simp [hc]))
      have hvc := hv c (by simp)
      have htc := hts c (by simp)
      have hun := absRun_added g hn (cs.map Op.add) (by
        intro op hop
        obtain ⟨c', hc', rfl⟩ := List.mem_map.1 hop
        exact hv c' (by simp [hc']))
      have hcnt : (absRun g.length (absNew g) (cs.map Op.add)).counter = cs.length := by
        rw [absRun_counter]
        have : ∀ l : List (Call α K), (added (l.map Op.add)).length = l.length := by
          intro l; induction l with
          | nil => rfl
          | cons d l ih => simp [added, ih]
        simp [this, absNew]
      rw [List.map_append, List.map_singleton, absRun_snoc]
      generalize hA : absRun g.length (absNew g) (cs.map Op.add) = a at f1 hun hcnt
      have hf : ∀ j < min g.length cs.length, f j < cs.length := fun j hj => by
        obtain ⟨d, _, hd, _⟩ := f1 j hj
        exact (List.getElem?_eq_some_iff.1 hd).1
      -- the slot that takes the new element
      have hhead : ∃ f' : Nat → Nat, (∀ j < min g.length (cs.length + 1), ∃ d xs, (cs ++ [c])[f' j]? = some d ∧
            (absHead g.length a c).con j = (d.e, d.ts) :: xs) ∧
          (∀ i < min g.length (cs.length + 1), ∀ j < min g.length (cs.length + 1), f' i = f' j → i = j) ∧
          (cs.length + 1 ≤ g.length → ∀ j < cs.length + 1, f' j = j) := by
        have old : ∀ j < min g.length cs.length, ∃ d xs, (cs ++ [c])[f j]? = some d ∧ a.con j = (d.e, d.ts) :: xs := by
          intro j hj
          obtain ⟨d, xs, h1, h2⟩ := f1 j hj
          exact ⟨d, xs, by rw [List.getElem?_append_left (hf j hj)]; exact h1, h2⟩
        have new : (cs ++ [c])[cs.length]? = some c := by simp
        unfold absHead
        split
        · rename_i hlt
          rw [hcnt] at hlt ⊢
          refine ⟨Function.update f cs.length cs.length, ?_, ?_, ?_⟩
          · intro j hj
            by_cases e : j = cs.length
            · subst e; exact ⟨c, [], by simp, by simp⟩
            · simp only [Function.update_of_ne e]; exact old j (by omega)
          · intro i hi j hj hij
            by_cases e : i = cs.length
            · by_cases e' : j = cs.length
              · omega
              · rw [e, Function.update_self, Function.update_of_ne e'] at hij
                have := hf j (by omega); omega
            · by_cases e' : j = cs.length
              · rw [e', Function.update_self, Function.update_of_ne e] at hij
                have := hf i (by omega); omega
              · rw [Function.update_of_ne e, Function.update_of_ne e'] at hij
                exact f2 i (by omega) j (by omega) hij
          · intro _ j hj
            by_cases e : j = cs.length
            · subst e; simp
            · rw [Function.update_of_ne e]; exact f3 (by omega) j (by omega)
        · rename_i hlt
          rw [hcnt] at hlt
          have hmin : min g.length (cs.length + 1) = min g.length cs.length := by omega
          rw [hmin]
          split
          · refine ⟨Function.update f (draw g.length c.r2) cs.length, ?_, ?_, fun h => by omega⟩
            · intro j hj
              by_cases e : j = draw g.length c.r2
              · rw [e]; exact ⟨c, _, by simp, by simp only [Function.update_self]; rfl⟩
              · simp only [Function.update_of_ne e]; exact old j hj
            · intro i hi j hj hij
              by_cases e : i = draw g.length c.r2
              · by_cases e' : j = draw g.length c.r2
                · omega
                · rw [e, Function.update_self, Function.update_of_ne e'] at hij
                  have := hf j hj; omega
              · by_cases e' : j = draw g.length c.r2
                · rw [e', Function.update_self, Function.update_of_ne e] at hij
                  have := hf i hi; omega
                · rw [Function.update_of_ne e, Function.update_of_ne e'] at hij
                  exact f2 i hi j hj hij
          · exact ⟨f, old, f2, fun h => by omega⟩
      obtain ⟨f', g1, g2, g3⟩ := hhead
      refine ⟨f', ?_, by simpa using g2, by simpa using g3⟩
      intro j hj
      simp only [List.length_append, List.length_cons, List.length_nil] at hj
      obtain ⟨d, xs, h1, h2⟩ := g1 j (by omega)
      have hd0 : d.ts ≠ 0 := hts d (List.mem_of_getElem? h1)
      simp only [absStep, absAdd, absPush]
      by_cases hp : j < g.length ∧ (absHead g.length a c).counter = (absHead g.length a c).nx j
      · rw [if_pos hp, h2, pushList_head hd0]; exact ⟨d, _, h1, rfl⟩
      · rw [if_neg hp]; exact ⟨d, xs, h1, h2⟩

/-! ### `obsolete` on one slot -/

theorem getLast_live {t : Nat} {xs : List (α × Nat)} (hinc : xs.Pairwise (fun a b => a.2 < b.2)) (hne : xs ≠ [])
    {y : α × Nat} (hy : y ∈ xs) (hyt : t ≤ y.2) : t ≤ (xs.getLast hne).2 := by
  have h := List.dropLast_append_getLast hne
  rw [← h] at hy hinc
  rcases List.mem_append.1 hy with hy | hy
  · have := (List.pairwise_append.1 hinc).2.2 y hy _ (List.mem_singleton_self _)
    omega
  · simp at hy; subst hy; exact hyt

theorem obsList_head {t : Nat} {x : α × Nat} {xs} (h : t ≤ x.2) : obsList t (x :: xs) = x :: xs := by
  simp [obsList, List.findIdx?_cons, h]

theorem obsList_shift {t : Nat} {x : α × Nat} {xs : List (α × Nat)} (h : x.2 < t) {y : α × Nat} (hy : y ∈ xs) (hyt : t ≤ y.2) :
    ∃ w, obsList t (x :: xs) = [(((x :: xs).getLast (by simp)).1, w)] := by
  obtain ⟨k, hk⟩ : ∃ k, xs.findIdx? (fun x => decide (t ≤ x.2)) = some k := by
    cases hf : xs.findIdx? (fun x => decide (t ≤ x.2)) with
    | none =>
        rw [List.findIdx?_eq_none_iff] at hf
        have := hf y hy
        simp at this; omega
    | some k => exact ⟨k, rfl⟩
  have hx : ¬ t ≤ x.2 := by omega
  have : (x :: xs).findIdx? (fun x => decide (t ≤ x.2)) = some (k + 1) := by
    simp [List.findIdx?_cons, hx, hk]
  simp only [obsList, this, List.getLast?_eq_some_getLast (List.cons_ne_nil x xs)]
  exact ⟨_, rfl⟩

theorem obsolete_slots {n : Nat} {s : State α} {idx con} (hc : Chains n s.heap idx con) (t : Nat) :
    ∃ s', obsolete n s t = .ok s' ∧ ∀ i < n, ∃ x xs, obsList t (con i) = x :: xs ∧ get s' i = .ok x.1 := by
  obtain ⟨h', idx', b1, b2⟩ := obsoleteLoop_spec n t n 0 s.heap idx con hc (by omega)
  refine ⟨{ s with heap := h' }, by simp only [obsolete, b1, bind, Except.bind, pure, Except.pure], ?_⟩
  intro i hi
  obtain ⟨l, hl⟩ := chains_cons b2 hi
  have hch := b2.chain i hi
  rw [hl] at hch
  simp only [Nat.zero_le, hi, and_self, if_true] at hch
  rcases chain_cases hch with ⟨x, rfl, hx, he⟩ | ⟨b, l', x, xs', rfl, hx, he, hc'⟩
  · exact ⟨x, [], hx, by simp only [get, rd_get he, bind, Except.bind, pure, Except.pure]⟩
  · exact ⟨x, xs', hx, by simp only [get, rd_get he, bind, Except.bind, pure, Except.pure]⟩

theorem get_chains {n : Nat} {s : State α} {idx con} (hc : Chains n s.heap idx con) {i : Nat} (hi : i < n) :
    ∃ x xs, con i = x :: xs ∧ get s i = .ok x.1 := by
  obtain ⟨l, hl⟩ := chains_cons hc hi
  have hch := hc.chain i hi
  rw [hl] at hch
  rcases chain_cases hch with ⟨x, rfl, hx, he⟩ | ⟨b, l', x, xs', rfl, hx, he, hc'⟩
  · exact ⟨x, [], hx, by simp only [get, rd_get he, bind, Except.bind, pure, Except.pure]⟩
  · exact ⟨x, xs', hx, by simp only [get, rd_get he, bind, Except.bind, pure, Except.pure]⟩

end Orp.Chained
