import Verif.Chained.Long

/-!
C166: the memory of the chained reservoir. `push_on_chain` (chained_reservoir.hpp:66-73) asks for a new cell when the chain has no free one. Nothing is ever given
back: `clear_chain` marks cells as free so that they are used again, but `shift_chain` copies cells with their pointers over the head of the chain, and the cells that
are skipped can never be reached again.
-/

set_option linter.unusedSectionVars false

namespace Orp.Chained

variable {α K : Type} [Field K] [LinearOrder K] [FloorRing K] [IsStrictOrderedRing K]

/-- the number of cells an object with `n` slots has obtained from `funct::malloc` (chained_reservoir.hpp:67); the other cells are the member array `sample` -/
def allocated (n : Nat) (s : State α) : Nat := s.heap.length - n

/-! ### calls that do not allocate -/

theorem wr_length {β : Type} {h h' : List β} {p : Nat} {c : β} (e : wr h p c = .ok h') : h'.length = h.length := by
  obtain ⟨_, rfl⟩ := wr_eq_ok_iff.1 e
  simp

theorem bind_ok {β γ : Type} {x : Res β} {f : β → Res γ} {y : γ} (h : x.bind f = .ok y) : ∃ b, x = .ok b ∧ f b = .ok y := by
  cases x with
  | error e => cases h
  | ok b => exact ⟨b, rfl, h⟩

theorem clearChain_length : ∀ (fuel : Nat) (h : List (Cell α)) (p : Option Nat) (h' : List (Cell α)), clearChain fuel h p = .ok h' → h'.length = h.length
  | fuel, h, none, h', e => by rw [clearChain_none] at e; cases e; rfl
  | 0, h, some p, h', e => by simp [clearChain] at e
  | fuel + 1, h, some p, h', e => by
      simp only [clearChain] at e
      obtain ⟨c, _, e⟩ := bind_ok e
      obtain ⟨h1, e1, e⟩ := bind_ok e
      rw [clearChain_length fuel h1 c.next h' e, wr_length e1]

theorem shiftLoop1_length : ∀ (fuel : Nat) (h : List (Cell α)) (a b : Nat) (h' : List (Cell α)), shiftLoop1 fuel h a b = .ok h' → h'.length = h.length
  | 0, h, a, b, h', e => by simp [shiftLoop1] at e
  | fuel + 1, h, a, b, h', e => by
      simp only [shiftLoop1] at e
      obtain ⟨m, _, e⟩ := bind_ok e
      obtain ⟨r, _, e⟩ := bind_ok e
      obtain ⟨h1, e1, e⟩ := bind_ok e
      split at e
      · cases e; exact wr_length e1
      · obtain ⟨c, _, e⟩ := bind_ok e
        obtain ⟨h2, e2, e⟩ := bind_ok e
        split at e
        · cases e
        · obtain ⟨d, _, e⟩ := bind_ok e
          obtain ⟨h3, e3, e⟩ := bind_ok e
          rw [shiftLoop1_length fuel h3 a b h' e, wr_length e3, wr_length e2, wr_length e1]

theorem shiftLoop2_length : ∀ (fuel : Nat) (h : List (Cell α)) (a : Nat) (h' : List (Cell α)), shiftLoop2 fuel h a = .ok h' → h'.length = h.length
  | 0, h, a, h', e => by simp [shiftLoop2] at e
  | fuel + 1, h, a, h', e => by
      simp only [shiftLoop2] at e
      obtain ⟨r, _, e⟩ := bind_ok e
      split at e
      · cases e; rfl
      · obtain ⟨c, _, e⟩ := bind_ok e
        obtain ⟨h2, e2, e⟩ := bind_ok e
        rw [shiftLoop2_length fuel h2 a h' e, wr_length e2]

theorem obsoleteLoop_length (t : Nat) : ∀ (k i : Nat) (h h' : List (Cell α)), obsoleteLoop t i k h = .ok h' → h'.length = h.length
  | 0, i, h, h', e => by simp only [obsoleteLoop] at e; cases e; rfl
  | k + 1, i, h, h', e => by
      simp only [obsoleteLoop] at e
      obtain ⟨o, _, e⟩ := bind_ok e
      split at e
      · exact obsoleteLoop_length t k (i + 1) h h' e
      · split at e
        · obtain ⟨h1, e1, e⟩ := bind_ok e
          simp only [shiftChain] at e1
          obtain ⟨h2, e2, e1⟩ := bind_ok e1
          rw [obsoleteLoop_length t k (i + 1) h1 h' e, shiftLoop2_length _ _ _ _ e1, shiftLoop1_length _ _ _ _ _ e2]
        · exact obsoleteLoop_length t k (i + 1) h h' e

theorem obsolete_length {n t : Nat} {s s' : State α} (e : obsolete n s t = .ok s') : s'.heap.length = s.heap.length := by
  simp only [obsolete] at e
  obtain ⟨h, e1, e⟩ := bind_ok e
  cases e
  exact obsoleteLoop_length t n 0 s.heap h e1

theorem addHead_length {n : Nat} {s s' : State α} {c : Call α K} (e : addHead n s c = .ok s') : s'.heap.length = s.heap.length := by
  unfold addHead at e
  split at e
  · obtain ⟨h, e1, e⟩ := bind_ok e
    obtain ⟨nx, _, e⟩ := bind_ok e
    cases e
    exact wr_length e1
  · split at e
    · obtain ⟨x, _, e⟩ := bind_ok e
      obtain ⟨h, e1, e⟩ := bind_ok e
      obtain ⟨h2, e2, e⟩ := bind_ok e
      obtain ⟨nx, _, e⟩ := bind_ok e
      cases e
      show h2.length = _
      rw [clearChain_length _ _ _ _ e2, wr_length e1]
    · cases e; rfl

/-! ### what `push_on_chain` allocates -/

theorem pushLoop_length (e : α) (t : Nat) : ∀ (l : List Nat) (xs : List (α × Nat)) (fuel : Nat) (h h' : List (Cell α)) (p : Nat), Chain h (p :: l) xs →
    pushLoop e t fuel h p = .ok h' → h'.length + xs.length = h.length + (pushList e t xs).length
  | _, _, 0, _, _, _, _, hp => by simp [pushLoop] at hp
  | l, xs, fuel + 1, h, h', p, hc, hp => by
      rcases chain_cases hc with ⟨x, rfl, rfl, he⟩ | ⟨b, l', x, xs', rfl, rfl, he, hc'⟩
      · simp only [pushLoop, rd_get he, bind, Except.bind] at hp
        by_cases hz : x.2 = 0
        · rw [if_pos hz] at hp
          rw [wr_length hp]
          simp [pushList, hz]
        · rw [if_neg hz] at hp
          rw [wr_length hp]
          simp [pushList, hz]
      · simp only [pushLoop, rd_get he, bind, Except.bind] at hp
        by_cases hz : x.2 = 0
        · rw [if_pos hz] at hp
          rw [wr_length hp]
          simp [pushList, hz]
        · rw [if_neg hz] at hp
          have := pushLoop_length e t l' xs' fuel h h' b hc' hp
          simp only [pushList, if_neg hz, List.length_cons]
          omega

theorem pushList_le (e : α) (t : Nat) : ∀ xs : List (α × Nat), (pushList e t xs).length ≤ xs.length + 1
  | [] => by simp [pushList]
  | x :: xs => by
      have := pushList_le e t xs
      simp only [pushList]
      split
      · simp
      · simpa using this

theorem pushList_free (e : α) (t : Nat) : ∀ xs : List (α × Nat), (∃ x ∈ xs, x.2 = 0) → (pushList e t xs).length = xs.length
  | [], h => by simp at h
  | x :: xs, h => by
      simp only [pushList]
      split
      · simp
      · rename_i hz
        have : ∃ y ∈ xs, y.2 = 0 := by
          obtain ⟨y, hy, h0⟩ := h
          rcases List.mem_cons.1 hy with rfl | hy
          · exact absurd h0 hz
          · exact ⟨y, hy, h0⟩
        simp [pushList_free e t xs this]

/-- One slot of the loop of `add` whose `next` is the number of the item. -/
theorem fire_rep {n : Nat} {c : Call α K} {s : State α} {b : Abs α} {i : Nat} (hi : i < n) (h : Rep n s b) {h' : List (Cell α)}
    (hp : pushOnChain s.heap i c.e c.ts = .ok h') :
    Rep n { s with heap := h', next := s.next.set i (s.counter + 1 + draw n (c.rs i)) }
      { b with
        con := Function.update b.con i (pushList c.e c.ts (b.con i))
        nx := Function.update b.nx i (s.counter + 1 + draw n (c.rs i)) } ∧
    h'.length + (b.con i).length = s.heap.length + (pushList c.e c.ts (b.con i)).length := by
  obtain ⟨⟨idx, hc⟩, h2, h3, h4⟩ := h
  obtain ⟨l, hl⟩ := chains_cons hc hi
  have hch := hc.chain _ hi
  have hnd := hc.nodup _ hi
  rw [hl] at hch hnd
  have hin : i < s.next.length := by omega
  refine ⟨?_, pushLoop_length c.e c.ts l (b.con i) 5000 s.heap h' i hch hp⟩
  rcases pushLoop_spec c.e c.ts l (b.con i) 5000 s.heap i hch hnd with ⟨a1, _⟩ | ⟨h'', l', a1, a2, a3, a4, a5⟩
  · simp only [pushOnChain] at hp; rw [a1] at hp; cases hp
  · simp only [pushOnChain] at hp
    rw [a1] at hp
    cases hp
    refine ⟨⟨Function.update idx i (i :: l'), ?_⟩, by simpa using h2, ?_, h4⟩
    · refine chains_update hc hi a4 rfl ?_ ?_ ?_
      · rcases a3 with rfl | rfl
        · exact hnd
        · have : s.heap.length ∉ i :: l := fun hm => absurd (chain_lt hch _ hm) (by omega)
          rw [← List.cons_append, List.nodup_append]
          refine ⟨hnd, by simp, ?_⟩
          intro x hx y hy
          simp at hy; subst hy; rintro rfl; exact this hx
      · intro x hxm
        rw [hl]
        rcases a3 with rfl | rfl
        · exact .inl hxm
        · rcases List.mem_cons.1 hxm with rfl | hxm
          · simp
          · rcases List.mem_append.1 hxm with hxm | hxm
            · left; simp [hxm]
            · simp at hxm; subst hxm; exact .inr le_rfl
      · intro j hj hjl; exact a5 j (by rw [← hl]; exact hj) hjl
    · intro j hj
      by_cases e : j = i
      · subst e; simp [hin]
      · simp only [Function.update_of_ne e, List.getElem?_set_ne (Ne.symm e)]; exact h3 j hj

theorem addLoop_alloc {n : Nat} (c : Call α K) : ∀ (k i : Nat) (s s' : State α) (b : Abs α), i + k = n → Rep n s b →
    addLoop n c.e c.ts c.rs i k s = .ok s' →
    s'.heap.length + ∑ j ∈ Finset.Ico i n, (b.con j).length = s.heap.length + ∑ j ∈ Finset.Ico i n, ((absPush n b c).con j).length
  | 0, i, s, s', b, hk, hr, e => by
      simp only [addLoop] at e
      cases e
      simp [show i = n by omega]
  | k + 1, i, s, s', b, hk, hr, e => by
      have hi : i < n := by omega
      have hnx := hr.2.2.1 i hi
      have hcnt := hr.2.2.2
      simp only [addLoop, rd_eq_ok_iff.2 hnx, bind, Except.bind] at e
      rw [Finset.sum_eq_sum_Ico_succ_bot hi, Finset.sum_eq_sum_Ico_succ_bot hi]
      by_cases hx : s.counter = b.nx i
      · rw [if_pos hx] at e
        obtain ⟨h', e1, e⟩ := bind_ok e
        obtain ⟨nx', e2, e⟩ := bind_ok e
        obtain ⟨_, rfl⟩ := wr_eq_ok_iff.1 e2
        obtain ⟨f1, f2⟩ := fire_rep (c := c) hi hr e1
        have ih := addLoop_alloc c k (i + 1) _ s' _ (by omega) f1 e
        have e3 : ∀ j ∈ Finset.Ico (i + 1) n, (Function.update b.con i (pushList c.e c.ts (b.con i)) j).length = (b.con j).length := by
          intro j hj
          rw [Function.update_of_ne (by have := (Finset.mem_Ico.1 hj).1; omega)]
        have e4 : ∀ j ∈ Finset.Ico (i + 1) n, ((absPush n { b with
            con := Function.update b.con i (pushList c.e c.ts (b.con i))
            nx := Function.update b.nx i (s.counter + 1 + draw n (c.rs i)) } c).con j).length = ((absPush n b c).con j).length := by
          intro j hj
          have hne : j ≠ i := by have := (Finset.mem_Ico.1 hj).1; omega
          simp only [absPush, Function.update_of_ne hne]
        rw [Finset.sum_congr rfl e3, Finset.sum_congr rfl e4] at ih
        have e5 : (absPush n b c).con i = pushList c.e c.ts (b.con i) := by
          simp only [absPush]
          rw [if_pos ⟨hi, by rw [← hcnt]; exact hx⟩]
        rw [e5]
        dsimp only at ih
        omega
      · rw [if_neg hx] at e
        have ih := addLoop_alloc c k (i + 1) s s' b (by omega) hr e
        have e5 : (absPush n b c).con i = b.con i := by
          simp only [absPush]
          rw [if_neg (fun hh => hx (by rw [hcnt]; exact hh.2))]
        rw [e5]
        omega

/-- What one `add` allocates: the growth of the chains by `push_on_chain`. -/
theorem add_alloc {n : Nat} (hn : 1 ≤ n) {s s' : State α} {a : Abs α} (h : Rep n s a) (c : Call α K) (hv : c.Valid) (e : add n s c = .ok s') :
    s'.heap.length + ∑ j ∈ Finset.range n, ((absHead n a c).con j).length = s.heap.length + ∑ j ∈ Finset.range n, ((absAdd n a c).con j).length := by
  obtain ⟨s1, h1, h2⟩ := addHead_rep hn h c hv
  simp only [add, h1, bind, Except.bind] at e
  obtain ⟨s2, e2, e⟩ := bind_ok e
  cases e
  have := addLoop_alloc c n 0 s1 s2 _ (by omega) h2 e2
  rw [← addHead_length h1, Finset.range_eq_Ico]
  exact this

theorem run_snoc_ok {n : Nat} {s s' : State α} {ops : List (Op α K)} {op : Op α K} (h : run n s (ops ++ [op]) = .ok s') :
    ∃ s1, run n s ops = .ok s1 ∧ step n s1 op = .ok s' := by
  rw [run_append] at h
  obtain ⟨s1, h1, h⟩ := bind_ok h
  simp only [run, bind, Except.bind] at h
  obtain ⟨s2, h2, h⟩ := bind_ok h
  cases h
  exact ⟨s1, h1, h2⟩

theorem run_rep_ok {g : List α} (hn : 1 ≤ g.length) {ops : List (Op α K)} (hv : ∀ op ∈ ops, op.Valid) {s : State α} (h : run g.length (new g) ops = .ok s) :
    Rep g.length s (absRun g.length (absNew g) ops) := by
  rcases run_rep hn ops (new g) (absNew g) (new_rep g) hv with ⟨h1, _⟩ | ⟨s', h1, h2⟩
  · rw [h1] at h; cases h
  · rw [h1] at h; cases h; exact h2

/-- **C166** (partial) Every `add` allocates at most one cell for each slot, and `obsolete` none: after any history the object has allocated at most
`sample_size` cells for each item that was added. -/
theorem C166_per_add_partial (g : List α) (hn : 1 ≤ g.length) (ops : List (Op α K)) (hv : ∀ op ∈ ops, op.Valid) (s : State α)
    (h : run g.length (new g) ops = .ok s) : allocated g.length s ≤ g.length * (added ops).length := by
  suffices hh : s.heap.length ≤ g.length + g.length * (added ops).length by
    unfold allocated; omega
  induction ops using List.reverseRecOn generalizing s with
  | nil =>
      simp only [run] at h
      cases h
      simp [new, added]
  | append_singleton ops op ih =>
      obtain ⟨s1, h1, h2⟩ := run_snoc_ok h
      have hv1 : ∀ op ∈ ops, op.Valid := fun o ho => hv o (by simp [ho])
      have ih1 := ih hv1 s1 h1
      have hr := run_rep_ok hn hv1 h1
      rw [added_append]
      cases op with
      | obsolete t =>
          have := obsolete_length (show obsolete g.length s1 t = .ok s from h2)
          simp only [added, List.append_nil]
          omega
      | add c =>
          have ha := add_alloc hn hr c (hv (.add c) (by simp)) h2
          have hle : ∑ j ∈ Finset.range g.length, ((absAdd g.length (absRun g.length (absNew g) ops) c).con j).length ≤
              ∑ j ∈ Finset.range g.length, (((absHead g.length (absRun g.length (absNew g) ops) c).con j).length + 1) := by
            refine Finset.sum_le_sum fun j _ => ?_
            simp only [absAdd, absPush]
            split
            · exact pushList_le _ _ _
            · omega
          rw [Finset.sum_add_distrib] at hle
          simp only [Finset.sum_const, Finset.card_range, smul_eq_mul, mul_one] at hle
          simp only [added, List.length_append, List.length_cons, List.length_nil]
          rw [Nat.mul_add]
          omega

/-- the lengths of the chains in a history without `obsolete` -/
def Lengths (n : Nat) (a : Abs α) : Prop :=
  (∀ j < n, 1 ≤ (a.con j).length ∧ (a.con j).length ≤ 5001) ∧ ∀ j, a.counter ≤ j → j < n → (a.con j).length = 1 ∧ a.nx j = never

theorem head_lengths {n : Nat} {a : Abs α} (h : Lengths n a) (c : Call α K) :
    ∀ j < n, ((absHead n a c).con j).length = (a.con j).length := by
  intro j hj
  unfold absHead
  split
  · rename_i hlt
    by_cases e : j = a.counter
    · subst e
      dsimp only
      rw [Function.update_self, (h.2 a.counter le_rfl hlt).1]
      rfl
    · simp only [Function.update_of_ne e]
  · split
    · by_cases e : j = draw n c.r2
      · have := (h.1 j hj).1
        rw [← e]
        simp only [Function.update_self, List.length_cons, List.length_map, List.length_tail]
        omega
      · simp only [Function.update_of_ne e]
    · rfl

theorem add_lengths {n : Nat} (hn : 1 ≤ n) (hmax : n ≤ never) {s s' : State α} {a : Abs α} (hr : Rep n s a) (h : Lengths n a) (c : Call α K) (hv : c.Valid)
    (e : add n s c = .ok s') : Lengths n (absAdd n a c) := by
  have hl := head_lengths h c
  have hj := add_not_jammed hn hr c hv e
  refine ⟨fun j hjn => ?_, fun j h1 hjn => ?_⟩
  · have this_ := h.1 j hjn
    simp only [absAdd, absPush]
    split
    · rename_i hx
      rw [absHead_counter] at hx
      have hnj := hj j hjn hx.2
      have h1 := pushList_le c.e c.ts ((absHead n a c).con j)
      have h2 := pushList_length c.e c.ts ((absHead n a c).con j)
      rw [hl j hjn] at h1 h2
      refine ⟨by omega, ?_⟩
      by_cases h5 : (a.con j).length ≤ 5000
      · omega
      · have : ∃ x ∈ (absHead n a c).con j, x.2 = 0 := by
          by_contra hno
          refine hnj ⟨by rw [hl j hjn]; omega, fun x hx hx0 => hno ⟨x, List.mem_of_mem_take hx, hx0⟩⟩
        rw [pushList_free c.e c.ts _ this, hl j hjn]
        exact this_.2
    · rw [hl j hjn]
      exact this_
  · have hc : (absAdd n a c).counter = a.counter + 1 := rfl
    rw [hc] at h1
    have h2 := h.2 j (by omega) hjn
    have hx : (absHead n a c).nx j = never := by
      unfold absHead
      rw [if_pos (by omega)]
      simp only [Function.update_of_ne (show j ≠ a.counter by omega)]
      exact h2.2
    have hf : ¬ (j < n ∧ (absHead n a c).counter = (absHead n a c).nx j) := by
      rw [absHead_counter, hx]
      omega
    simp only [absAdd, absPush, if_neg hf]
    exact ⟨by rw [hl j hjn]; exact h2.1, hx⟩

/-- **C166** (partial) Without `obsolete` the memory is bounded whatever the length of the stream: at most 5000 cells are allocated for each slot, and all
the cells are in the chains of the slots. -/
theorem C166_without_obsolete_partial (g : List α) (hn : 1 ≤ g.length) (hmax : g.length ≤ never) (cs : List (Call α K)) (hv : ∀ c ∈ cs, c.Valid) (s : State α)
    (h : run g.length (new g) (cs.map Op.add) = .ok s) :
    allocated g.length s ≤ 5000 * g.length ∧
    ∃ idx con, Chains g.length s.heap idx con ∧ ∀ p < s.heap.length, ∃ j < g.length, p ∈ idx j := by
  have key : ∀ (cs : List (Call α K)) (s : State α), (∀ c ∈ cs, c.Valid) → run g.length (new g) (cs.map Op.add) = .ok s →
      Lengths g.length (absRun g.length (absNew g) (cs.map Op.add)) ∧
      s.heap.length = ∑ j ∈ Finset.range g.length, ((absRun g.length (absNew g) (cs.map Op.add)).con j).length := by
    intro cs
    induction cs using List.reverseRecOn with
    | nil =>
        intro s _ h
        simp only [List.map_nil, run] at h
        cases h
        have h1 : ∀ j < g.length, ((absNew g).con j).length = 1 := by
          intro j hj
          simp [absNew, List.getElem?_eq_getElem hj]
        refine ⟨⟨fun j hj => ?_, fun j _ hj => ⟨h1 j hj, rfl⟩⟩, ?_⟩
        · have := h1 j hj
          simp only [List.map_nil, absRun, List.foldl_nil]
          omega
        · simp only [List.map_nil, absRun, List.foldl_nil]
          rw [Finset.sum_congr rfl (fun j hj => h1 j (Finset.mem_range.1 hj))]
          simp [new]
    | append_singleton cs c ih =>
        intro s hv h
        rw [List.map_append] at h ⊢
        simp only [List.map_cons, List.map_nil] at h ⊢
        obtain ⟨s1, h1, h2⟩ := run_snoc_ok h
        have hv1 : ∀ c ∈ cs, c.Valid := fun o ho => hv o (by simp [ho])
        have hvo : ∀ op ∈ cs.map (Op.add (α := α) (K := K)), op.Valid := by
          intro op hop
          obtain ⟨d, hd, rfl⟩ := List.mem_map.1 hop
          exact hv1 d hd
        obtain ⟨i1, i2⟩ := ih s1 hv1 h1
        have hr := run_rep_ok hn hvo h1
        rw [absRun_snoc]
        have ha := add_alloc hn hr c (hv c (by simp)) h2
        rw [Finset.sum_congr rfl (fun j hj => head_lengths i1 c j (Finset.mem_range.1 hj)), ← i2] at ha
        refine ⟨add_lengths hn hmax hr i1 c (hv c (by simp)) h2, ?_⟩
        have : s.heap.length = ∑ j ∈ Finset.range g.length, ((absAdd g.length (absRun g.length (absNew g) (cs.map Op.add)) c).con j).length := by omega
        exact this
  have hvo : ∀ op ∈ cs.map (Op.add (α := α) (K := K)), op.Valid := by
    intro op hop
    obtain ⟨d, hd, rfl⟩ := List.mem_map.1 hop
    exact hv d hd
  obtain ⟨k1, k2⟩ := key cs s hv h
  obtain ⟨⟨idx, hc⟩, _⟩ := run_rep_ok hn hvo h
  generalize (absRun g.length (absNew g) (cs.map Op.add)) = a at *
  refine ⟨?_, idx, a.con, hc, ?_⟩
  · have : ∑ j ∈ Finset.range g.length, (a.con j).length ≤ ∑ j ∈ Finset.range g.length, 5001 :=
      Finset.sum_le_sum fun j hj => (k1.1 j (Finset.mem_range.1 hj)).2
    simp only [Finset.sum_const, Finset.card_range, smul_eq_mul] at this
    unfold allocated
    omega
  · -- the cells of the chains are as many as all the cells
    have hsub : (Finset.range g.length).biUnion (fun j => (idx j).toFinset) ⊆ Finset.range s.heap.length := by
      intro p hp
      obtain ⟨j, hj, hp⟩ := Finset.mem_biUnion.1 hp
      exact Finset.mem_range.2 (chain_lt (hc.chain j (Finset.mem_range.1 hj)) p (List.mem_toFinset.1 hp))
    have hcard : ((Finset.range g.length).biUnion (fun j => (idx j).toFinset)).card = s.heap.length := by
      rw [Finset.card_biUnion, k2]
      · refine Finset.sum_congr rfl fun j hj => ?_
        rw [List.toFinset_card_of_nodup (hc.nodup j (Finset.mem_range.1 hj)), chain_length (hc.chain j (Finset.mem_range.1 hj))]
      · intro i hi j hj hij
        rw [Function.onFun, Finset.disjoint_left]
        intro x hx hy
        exact hc.disjoint i (by simpa using hi) j (by simpa using hj) hij x (List.mem_toFinset.1 hx) (List.mem_toFinset.1 hy)
    have heq := Finset.eq_of_subset_of_card_le hsub (by rw [hcard, Finset.card_range])
    intro p hp
    have := Finset.mem_range.2 hp
    rw [← heq] at this
    obtain ⟨j, hj, hp⟩ := Finset.mem_biUnion.1 this
    exact ⟨j, Finset.mem_range.1 hj, List.mem_toFinset.1 hp⟩

/-! ### a history that takes more and more memory -/

/-- the item `k` with timestamp `k`, not sampled once the reservoir is full; every item is chained -/
def item (k : Nat) : Call Nat ℚ := { e := k, ts := k, r1 := 1, r2 := 0, r3 := 0, rs := fun _ => 0 }

theorem item_valid (k : Nat) : (item k).Valid := by
  simp only [Call.Valid, item]; norm_num

/-- `m` rounds of two items, after which everything but the last item is declared obsolete -/
def rounds : Nat → List (Op Nat ℚ)
  | 0 => []
  | m + 1 => rounds m ++ [.add (item (2 * m + 1)), .add (item (2 * m + 2)), .obsolete (2 * m + 2)]

theorem rounds_valid : ∀ m, ∀ op ∈ rounds m, op.Valid
  | 0 => by simp [rounds]
  | m + 1 => by
      intro op hop
      rcases List.mem_append.1 hop with h | h
      · exact rounds_valid m op h
      · simp only [List.mem_cons, List.not_mem_nil, or_false] at h
        rcases h with rfl | rfl | rfl
        · exact item_valid _
        · exact item_valid _
        · trivial

theorem draw_one (r : ℚ) : draw 1 r = 0 := by simp [draw, round]; norm_num

/-- one item that is chained to the only slot -/
theorem item_step {s : State Nat} {a : Abs Nat} (h : Rep 1 s a) (hx : a.nx 0 = a.counter) (h1 : 1 ≤ a.counter) (hl : (a.con 0).length ≤ 2) (k : Nat) :
    ∃ s', add 1 s (item k) = .ok s' ∧ ∃ b, Rep 1 s' b ∧ b.counter = a.counter + 1 ∧ b.nx 0 = b.counter ∧ b.con 0 = pushList k k (a.con 0) ∧
      s'.heap.length + (a.con 0).length = s.heap.length + (b.con 0).length := by
  have hq : absHead 1 a (item k) = a := by
    refine absHead_quiet ⟨h1, ?_⟩
    have : (1 : ℚ) ≤ a.counter := by exact_mod_cast h1
    simp only [item, Nat.cast_one]
    exact (div_le_one (by linarith)).2 this
  rcases add_rep (le_refl 1) h (item k) (item_valid k) with ⟨_, j, hj, hf⟩ | ⟨s', e, hr⟩
  · have := hf.1
    rw [show j = 0 by omega] at this
    omega
  · refine ⟨s', e, absAdd 1 a (item k), hr, rfl, ?_, ?_, ?_⟩
    · simp only [absAdd, absPush, hq]
      rw [if_pos ⟨by omega, hx.symm⟩, draw_one]
    · simp only [absAdd, absPush, hq]
      rw [if_pos ⟨by omega, hx.symm⟩]
      rfl
    · have := add_alloc (le_refl 1) h (item k) (item_valid k) e
      simpa [hq] using this

/-- **C166** (negation of the full property) The memory is not bounded by the number of items that are not obsolete: `m` rounds of two items and a call of `obsolete`
that leaves only the last one allocate `m` cells, none of which the object can reach afterwards. -/
theorem C166_leak (m : Nat) : ∃ s, run 1 (new [0]) (rounds m) = .ok s ∧ allocated 1 s = m ∧ (1 ≤ m → s.heap[0]? = some ⟨none, 2 * m, 0⟩) := by
  suffices hh : ∀ m, ∃ s a, run 1 (new [0]) (rounds (m + 1)) = .ok s ∧ Rep 1 s a ∧ s.heap.length = m + 2 ∧ a.counter = 2 * m + 2 ∧ a.nx 0 = a.counter ∧
      a.con 0 = [(2 * m + 2, 0)] by
    cases m with
    | zero => exact ⟨_, rfl, rfl, by omega⟩
    | succ m =>
        obtain ⟨s, a, h1, ⟨⟨idx, hc⟩, _⟩, h3, _, _, h4⟩ := hh m
        refine ⟨s, h1, by simp [allocated, h3], fun _ => ?_⟩
        have := hc.chain 0 (by omega)
        obtain ⟨l, hl⟩ := chains_cons hc (show 0 < 1 by omega)
        rw [hl, h4] at this
        cases l with
        | nil => exact this
        | cons b l => simp [Chain] at this
  -- what `obsolete` does after two items
  have hobs : ∀ (s : State Nat) (a : Abs Nat) (k : Nat), Rep 1 s a → a.con 0 = [(2 * k + 1, 2 * k + 1), (2 * k + 2, 2 * k + 2)] →
      ∃ s', obsolete 1 s (2 * k + 2) = .ok s' ∧ Rep 1 s' (absObs 1 a (2 * k + 2)) ∧ s'.heap.length = s.heap.length ∧
        (absObs 1 a (2 * k + 2)).con 0 = [(2 * k + 2, 0)] := by
    intro s a k hr hc
    obtain ⟨s', e, hr'⟩ := obsolete_rep hr (2 * k + 2)
    refine ⟨s', e, hr', obsolete_length e, ?_⟩
    simp [absObs, hc, obsList, List.findIdx?_cons]
  intro m
  induction m with
  | zero =>
      have h0 : add 1 (new [0]) (item 1) = .ok ⟨[⟨none, 1, 1⟩], [1], 1⟩ := by decide +kernel
      have hv := item_valid 1
      have hr0 : Rep 1 ⟨[⟨none, 1, 1⟩], [1], 1⟩ (absAdd 1 (absNew [0]) (item 1)) := by
        rcases add_rep (le_refl 1) (new_rep [0]) (item 1) hv with ⟨e, _⟩ | ⟨s', e, hr⟩
        · have := h0.symm.trans e; cases this
        · have := h0.symm.trans e; cases this; exact hr
      have hc0 : (absAdd 1 (absNew [0]) (item 1)).con 0 = [(1, 1)] := by decide +kernel
      have hx0 : (absAdd 1 (absNew [0]) (item 1)).nx 0 = 1 := by decide +kernel
      obtain ⟨s2, e2, b, r2, b1, b2, b3, b4⟩ := item_step hr0 hx0 (le_refl 1) (by rw [hc0]; simp) 2
      rw [hc0] at b3 b4
      obtain ⟨s3, e3, r3, l3, c3⟩ := hobs s2 b 0 r2 b3
      refine ⟨s3, _, ?_, r3, ?_, ?_, ?_, c3⟩
      · simp only [rounds, List.nil_append, run, step, bind, Except.bind, Nat.mul_zero, Nat.zero_add, h0, e2]
        rw [show (2 : Nat) = 2 * 0 + 2 from rfl, e3]
      · rw [l3]
        rw [b3] at b4
        simp [pushList] at b4
        omega
      · exact b1
      · exact b2
  | succ m ih =>
      obtain ⟨s, a, h1, hr, hlen, hcnt, hnx, hcon⟩ := ih
      obtain ⟨s1, e1, a1, r1, c1, n1, k1, l1⟩ := item_step hr hnx (by omega) (by rw [hcon]; simp) (2 * (m + 1) + 1)
      rw [hcon] at k1 l1
      simp only [pushList, if_true] at k1
      obtain ⟨s2, e2, a2, r2, c2, n2, k2, l2⟩ := item_step r1 n1 (by omega) (by rw [k1]; simp) (2 * (m + 1) + 2)
      rw [k1] at k2 l2 l1
      obtain ⟨s3, e3, r3, l3, c3⟩ := hobs s2 a2 (m + 1) r2 (by rw [k2]; simp [pushList])
      refine ⟨s3, _, ?_, r3, ?_, ?_, ?_, c3⟩
      · rw [rounds, run_append, h1]
        simp only [Except.bind, run, step, bind, e1, e2, e3]
      · rw [l3]
        rw [k2] at l2
        simp [pushList] at l1 l2
        omega
      · show a2.counter = _
        omega
      · exact n2

/-- the hypotheses of the bound without `obsolete` are met by a run that allocates -/
example : (run 2 (new [100, 200]) ([item 1, item 2, item 3, item 4].map Op.add)).map (allocated 2) = .ok 5 := by decide +kernel

example : (run 1 (new [0]) (rounds 3)).map (allocated 1) = .ok 3 := by decide +kernel

end Orp.Chained
