import Verif.Cuckoo.Props

/-!
Property C159: relocation. A stored fingerprint makes way for a new element when its other bucket has room.

True of every place of a bucket but the last one: the place of the fingerprint to relocate is `floor(random * (bucket_size-1))` (cuckoo_filter.hpp:194), which is
never the last place for random numbers below 1 (unless a bucket has only one place).
-/

namespace Orp.Cuckoo

variable {E : Type}

/-- numbers that `random_function` may return according to its documentation (cuckoo_filter.hpp:19) -/
def Below1 (r : Nat → ℚ) : Prop := ∀ i, 0 ≤ r i ∧ r i < 1

theorem Below1.unit {r : Nat → ℚ} (h : Below1 r) : Unit01 r := fun i => ⟨(h i).1, (h i).2.le⟩

theorem ent_of_get {c : Cfg E} {f : Filter} {b j : Nat} {v : BitVec 8} (h : getEntry c f b j = .ok v) : ent c f b j = v := by
  simp [ent, h]

/-- the loop of `add` stores the fingerprint at once if there is room in the second bucket -/
theorem addLoop_room {c : Cfg E} (hc : Contract c) (a b : Nat → ℚ) (n i : Nat) {f : Filter} (hf : WF c f) {fp : BitVec 8} {h1 : BitVec 32}
    (hl1 : h1.toNat < c.bucketCount) (hfp : fp.toNat < 2 ^ c.entrySize) {j : Nat} (hj : j < c.bucketSize)
    (he : ent c f (h1 ^^^ c.hashF fp).toNat j = 0#8) : ∃ f', addLoop c a b i (n + 1) f fp h1 (h1 ^^^ c.hashF fp) = .ok (f', true) := by
  have hl2 : (h1 ^^^ c.hashF fp).toNat < c.bucketCount := xor_lt hc hl1 (hc.hashF fp)
  obtain ⟨s1, a1, a2, a3⟩ := spaceLoop_spec c hc.geo hf hl1 c.bucketSize 0 (by omega)
  obtain ⟨s2, b1, b2, b3⟩ := spaceLoop_spec c hc.geo hf hl2 c.bucketSize 0 (by omega)
  unfold addLoop
  simp only [spaceInBucket, a1, b1, bind, Except.bind]
  cases s2 with
  | none =>
      have := b3 rfl j (by omega) hj
      rw [(isEmpty_iff hc _).2 he] at this
      simp at this
  | some j2 =>
      obtain ⟨_, y1, _⟩ := b2 j2 rfl
      obtain ⟨f2, x1, _⟩ := setEntry_spec c hc.geo hf hl2 y1 fp hfp
      cases s1 with
      | none => exact ⟨f2, by simp only [x1, pure, Except.pure]⟩
      | some j1 =>
          obtain ⟨_, z1, _⟩ := a2 j1 rfl
          by_cases ha : a i > 1 / 2
          · obtain ⟨f1, w1, _⟩ := setEntry_spec c hc.geo hf hl1 z1 fp hfp
            exact ⟨f1, by simp only [if_pos ha, w1, pure, Except.pure]⟩
          · exact ⟨f2, by simp only [if_neg ha, x1, pure, Except.pure]⟩

/-- **C159** (what holds) If the fingerprint at place `j` of a candidate bucket of `e` has room in its other bucket, `add` succeeds for all random numbers of which the
first one chooses this bucket and the second one is in the interval of length `1/(bucket_size-1)` that belongs to `j`; every element found before is still found, and so
is `e`. Missing: no random number below 1 belongs to the last of several places, see `C159_stuck` and `C159_violated`. -/
theorem C159_relocation_partial {c : Cfg E} (hc : Contract c) {f : Filter} (hf : f.length = c.totalSize) (e : E) (a b : Nat → ℚ) (hb : Unit01 b)
    (h : BitVec 32) (hh : h = c.hashE e ∧ 1 / 2 < a 0 ∨ h = c.hashE e ^^^ c.hashF (c.fingerprint e) ∧ a 0 ≤ 1 / 2)
    (j : Nat) (hj : j < c.bucketSize) (hlo : (j : ℚ) ≤ b 0 * ((c.bucketSize - 1 : Nat) : ℚ)) (hhi : b 0 * ((c.bucketSize - 1 : Nat) : ℚ) < j + 1)
    (v : BitVec 8) (hv : getEntry c f h.toNat j = .ok v) (hv0 : v ≠ 0#8)
    (j' : Nat) (hj' : j' < c.bucketSize) (hroom : getEntry c f (h ^^^ c.hashF v).toNat j' = .ok 0#8) :
    ∃ f', add c a b f e = .ok (f', true) ∧ lookup c f' e = .ok true ∧ ∀ x, lookup c f x = .ok true → lookup c f' x = .ok true := by
  have hl1 := hc.hashE e
  have hl2 := xor_lt hc hl1 (hc.hashF (c.fingerprint e))
  have hl : h.toNat < c.bucketCount := by rcases hh with ⟨rfl, _⟩ | ⟨rfl, _⟩ <;> assumption
  have hve := ent_of_get hv
  have key : ∃ f', add c a b f e = .ok (f', true) := by
    obtain ⟨s1, a1, a2, a3⟩ := spaceLoop_spec c hc.geo hf hl1 c.bucketSize 0 (by omega)
    obtain ⟨s2, b1, b2, b3⟩ := spaceLoop_spec c hc.geo hf hl2 c.bucketSize 0 (by omega)
    have room : (s1 ≠ none ∨ s2 ≠ none) → ∃ f', add c a b f e = .ok (f', true) := by
      intro hs
      have free : ∀ (g : BitVec 32) (k : Nat), g.toNat < c.bucketCount → k < c.bucketSize → isEmptyValue c (ent c f g.toNat k) = true →
          getEntry c f g.toNat k = .ok 0#8 := by
        intro g k hg hk hek
        rw [(getEntry_spec c hc.geo hf hg hk).1, (isEmpty_iff hc _).1 hek]
      rcases hs with hs | hs
      · obtain ⟨k, rfl⟩ := Option.ne_none_iff_exists'.1 hs
        obtain ⟨_, z1, z2⟩ := a2 k rfl
        obtain ⟨f', _, _, x, _⟩ := C11_room_means_success hc hf e a b _ (.inl rfl) k z1 (free _ k hl1 z1 z2)
        exact ⟨f', x⟩
      · obtain ⟨k, rfl⟩ := Option.ne_none_iff_exists'.1 hs
        obtain ⟨_, z1, z2⟩ := b2 k rfl
        obtain ⟨f', _, _, x, _⟩ := C11_room_means_success hc hf e a b _ (.inr rfl) k z1 (free _ k hl2 z1 z2)
        exact ⟨f', x⟩
    by_cases h1n : s1 = none
    · by_cases h2n : s2 = none
      · subst h1n h2n
        unfold add addLoop
        simp only [spaceInBucket, a1, b1, bind, Except.bind]
        have hfl : (⌊b 0 * ((c.bucketSize - 1 : Nat) : ℚ)⌋).toNat = j := by
          have : ⌊b 0 * ((c.bucketSize - 1 : Nat) : ℚ)⌋ = (j : Int) := by
            rw [Int.floor_eq_iff]
            exact ⟨by simpa using hlo, by simpa using hhi⟩
          omega
        have hsel : (if a 0 > 1 / 2 then c.hashE e else c.hashE e ^^^ c.hashF (c.fingerprint e)) = h := by
          rcases hh with ⟨rfl, h0⟩ | ⟨rfl, h0⟩
          · rw [if_pos h0]
          · rw [if_neg (not_lt.2 h0)]
        simp only [hfl, hsel, hv]
        obtain ⟨f1, x1, x2, x3⟩ := setEntry_spec c hc.geo hf hl hj (c.fingerprint e) (hc.fp e).2
        simp only [x1]
        have hlv : (h ^^^ c.hashF v).toNat < c.bucketCount := xor_lt hc hl (hc.hashF v)
        refine addLoop_room hc a b 498 1 x2 hl (by rw [← hve]; exact ent_fits c hc.geo hf hl hj) hj' ?_
        rw [x3 _ _ hlv hj', if_neg, ent_of_get hroom]
        rintro ⟨q1, rfl⟩
        rw [q1, hv] at hroom
        simp only [Except.ok.injEq] at hroom
        exact hv0 hroom
      · exact room (.inr h2n)
    · exact room (.inl h1n)
  obtain ⟨f', hadd⟩ := key
  obtain ⟨f1, r, y1, y2, y3, _⟩ := add_spec hc (a := a) hb hf e
  rw [hadd] at y1
  simp only [Except.ok.injEq, Prod.mk.injEq] at y1
  obtain ⟨rfl, rfl⟩ := y1
  have found : ∀ x, key c x ∈ contents c f' → lookup c f' x = .ok true := by
    intro x hx
    obtain ⟨r, z1, z2⟩ := lookup_spec hc y2 x
    rw [z1, z2.2 hx]
  refine ⟨f', hadd, found e (by rw [y3 rfl]; simp), fun x hx => found x ?_⟩
  obtain ⟨r, z1, z2⟩ := lookup_spec hc hf x
  rw [hx] at z1
  simp only [Except.ok.injEq] at z1
  rw [y3 rfl]
  exact Multiset.mem_add.2 (.inl (z2.1 z1.symm))

/-- the place of the fingerprint to relocate is not the last one -/
theorem evict_not_last {c : Cfg E} (hs : 2 ≤ c.bucketSize) {r : ℚ} (h1 : r < 1) :
    (⌊r * ((c.bucketSize - 1 : Nat) : ℚ)⌋).toNat < c.bucketSize - 1 := by
  have hpos : (0 : ℚ) < ((c.bucketSize - 1 : Nat) : ℚ) := by exact_mod_cast (by omega : 0 < c.bucketSize - 1)
  have : ⌊r * ((c.bucketSize - 1 : Nat) : ℚ)⌋ < ((c.bucketSize - 1 : Nat) : Int) := by
    rw [Int.floor_lt]
    push_cast
    nlinarith
  omega

/-- the loop of `add` and the last places -/
theorem addLoop_last {c : Cfg E} (hc : Contract c) (hs : 2 ≤ c.bucketSize) {a b : Nat → ℚ} (hb : Below1 b) :
    ∀ (n i : Nat) (f : Filter) (fp : BitVec 8) (h1 : BitVec 32), WF c f → h1.toNat < c.bucketCount → fp.toNat < 2 ^ c.entrySize →
    ∀ f' r, addLoop c a b i n f fp h1 (h1 ^^^ c.hashF fp) = .ok (f', r) → WF c f' ∧
      ∀ k, k < c.bucketCount → ent c f k (c.bucketSize - 1) ≠ 0#8 → ent c f' k (c.bucketSize - 1) = ent c f k (c.bucketSize - 1)
  | 0, i, f, fp, h1, hf, _, _, f', r, h => by
      simp only [addLoop, Except.ok.injEq, Prod.mk.injEq] at h
      obtain ⟨rfl, _⟩ := h
      exact ⟨hf, fun _ _ _ => rfl⟩
  | n + 1, i, f, fp, h1, hf, hl1, hfp, f', r, h => by
      have hl2 : (h1 ^^^ c.hashF fp).toNat < c.bucketCount := xor_lt hc hl1 (hc.hashF fp)
      obtain ⟨s1, a1, a2, a3⟩ := spaceLoop_spec c hc.geo hf hl1 c.bucketSize 0 (by omega)
      obtain ⟨s2, b1, b2, b3⟩ := spaceLoop_spec c hc.geo hf hl2 c.bucketSize 0 (by omega)
      have insert : ∀ (g : BitVec 32) (j : Nat), g.toNat < c.bucketCount → j < c.bucketSize → isEmptyValue c (ent c f g.toNat j) = true →
          ∃ f1, setEntry c f g.toNat j fp = .ok f1 ∧ WF c f1 ∧
            ∀ k, k < c.bucketCount → ent c f k (c.bucketSize - 1) ≠ 0#8 → ent c f1 k (c.bucketSize - 1) = ent c f k (c.bucketSize - 1) := by
        intro g j hg hj he
        obtain ⟨f1, x1, x2, x3⟩ := setEntry_spec c hc.geo hf hg hj fp hfp
        refine ⟨f1, x1, x2, fun k hk hk0 => ?_⟩
        rw [x3 k _ hk (by omega), if_neg]
        rintro ⟨rfl, rfl⟩
        exact hk0 ((isEmpty_iff hc _).1 he)
      unfold addLoop at h
      simp only [spaceInBucket, a1, b1, bind, Except.bind] at h
      cases s1 with
      | none =>
        cases s2 with
        | some j =>
            obtain ⟨_, y1, y2⟩ := b2 j rfl
            obtain ⟨f1, x1, x2, x3⟩ := insert _ j hl2 y1 y2
            simp only [x1, pure, Except.pure, Except.ok.injEq, Prod.mk.injEq] at h
            obtain ⟨rfl, _⟩ := h
            exact ⟨x2, x3⟩
        | none =>
            have hj := evict_not_last (c := c) hs (hb i).2
            generalize hje : (⌊b i * ((c.bucketSize - 1 : Nat) : ℚ)⌋).toNat = j at hj h
            have hj1 : j < c.bucketSize := by omega
            simp only [] at h
            generalize hhe : (if a i > 1 / 2 then h1 else h1 ^^^ c.hashF fp) = g at h
            have hl : g.toNat < c.bucketCount := by rw [← hhe]; split <;> assumption
            rw [(getEntry_spec c hc.geo hf hl hj1).1] at h
            obtain ⟨f1, x1, x2, x3⟩ := setEntry_spec c hc.geo hf hl hj1 fp hfp
            simp only [x1] at h
            obtain ⟨y1, y2⟩ := addLoop_last hc hs hb n (i + 1) f1 _ g x2 hl (ent_fits c hc.geo hf hl hj1) f' r h
            refine ⟨y1, fun k hk hk0 => ?_⟩
            have hsame : ent c f1 k (c.bucketSize - 1) = ent c f k (c.bucketSize - 1) := by
              rw [x3 k _ hk (by omega), if_neg]
              rintro ⟨_, q⟩
              omega
            rw [y2 k hk (by rw [hsame]; exact hk0), hsame]
      | some j1 =>
        obtain ⟨_, z1, z2⟩ := a2 j1 rfl
        obtain ⟨f1, w1, w2, w3⟩ := insert _ j1 hl1 z1 z2
        cases s2 with
        | none =>
            simp only [w1, pure, Except.pure, Except.ok.injEq, Prod.mk.injEq] at h
            obtain ⟨rfl, _⟩ := h
            exact ⟨w2, w3⟩
        | some j2 =>
            obtain ⟨_, y1, y2⟩ := b2 j2 rfl
            obtain ⟨f2, x1, x2, x3⟩ := insert _ j2 hl2 y1 y2
            by_cases ha : a i > 1 / 2
            · simp only [if_pos ha, w1, pure, Except.pure, Except.ok.injEq, Prod.mk.injEq] at h
              obtain ⟨rfl, _⟩ := h
              exact ⟨w2, w3⟩
            · simp only [if_neg ha, x1, pure, Except.pure, Except.ok.injEq, Prod.mk.injEq] at h
              obtain ⟨rfl, _⟩ := h
              exact ⟨x2, x3⟩

/-- **C159** In buckets of two or more places no `add`, successful or not, ever relocates or drops the fingerprint at the last place. -/
theorem C159_last_place_stays {c : Cfg E} (hc : Contract c) (hs : 2 ≤ c.bucketSize) {f : Filter} (hf : f.length = c.totalSize) (e : E) (a b : Nat → ℚ)
    (hb : Below1 b) {f' : Filter} {r : Bool} (hadd : add c a b f e = .ok (f', r)) (k : Nat) (hk : k < c.bucketCount) (v : BitVec 8) (hv0 : v ≠ 0#8)
    (hv : getEntry c f k (c.bucketSize - 1) = .ok v) : getEntry c f' k (c.bucketSize - 1) = .ok v := by
  obtain ⟨h1, h2⟩ := addLoop_last hc hs hb 500 0 f (c.fingerprint e) (c.hashE e) hf (hc.hashE e) (hc.fp e).2 f' r hadd
  have hve := ent_of_get hv
  rw [(getEntry_spec c hc.geo h1 hk (by omega)).1, h2 k hk (by rw [hve]; exact hv0), hve]

/-- the loop of `add` in a full bucket from whose places, except the last one, there is no way out -/
theorem addLoop_stuck {c : Cfg E} (hc : Contract c) (hs : 2 ≤ c.bucketSize) {a b : Nat → ℚ} (hb : Below1 b) (h1 : BitVec 32)
    (hl1 : h1.toNat < c.bucketCount) : ∀ (n i : Nat) (f : Filter) (fp : BitVec 8), WF c f → fp ≠ 0#8 → fp.toNat < 2 ^ c.entrySize → c.hashF fp = 0 →
    (∀ j, j < c.bucketSize → ent c f h1.toNat j ≠ 0#8) → (∀ j, j + 1 < c.bucketSize → c.hashF (ent c f h1.toNat j) = 0) →
    ∃ f', addLoop c a b i n f fp h1 h1 = .ok (f', false)
  | 0, i, f, fp, _, _, _, _, _, _ => ⟨f, rfl⟩
  | n + 1, i, f, fp, hf, hne, hfp, h0, hfull, hloop => by
      obtain ⟨s1, a1, a2, a3⟩ := spaceLoop_spec c hc.geo hf hl1 c.bucketSize 0 (by omega)
      unfold addLoop
      simp only [spaceInBucket, a1, bind, Except.bind]
      cases s1 with
      | some j =>
          obtain ⟨_, y1, y2⟩ := a2 j rfl
          exact absurd ((isEmpty_iff hc _).1 y2) (hfull j y1)
      | none =>
          have hj := evict_not_last (c := c) hs (hb i).2
          generalize hje : (⌊b i * ((c.bucketSize - 1 : Nat) : ℚ)⌋).toNat = j at hj
          have hj1 : j < c.bucketSize := by omega
          simp only [ite_self]
          rw [(getEntry_spec c hc.geo hf hl1 hj1).1]
          obtain ⟨f1, x1, x2, x3⟩ := setEntry_spec c hc.geo hf hl1 hj1 fp hfp
          simp only [x1]
          have e0 : c.hashF (ent c f h1.toNat j) = 0 := hloop j (by omega)
          rw [e0, show h1 ^^^ 0 = h1 by simp]
          refine addLoop_stuck hc hs hb h1 hl1 n (i + 1) f1 _ x2 (hfull j hj1) (ent_fits c hc.geo hf hl1 hj1) e0 (fun k hk => ?_) (fun k hk => ?_)
          · rw [x3 _ k hl1 hk]
            split
            · exact hne
            · exact hfull k hk
          · rw [x3 _ k hl1 (by omega)]
            split
            · exact h0
            · exact hloop k hk

/-- **C159** fails for every filter in the following state, whatever the random numbers: the only bucket of a new element is full, and all fingerprints in it except the one at the last
place have no other bucket. Then `add` fails, although the fingerprint at the last place may have room in its other bucket. -/
theorem C159_stuck {c : Cfg E} (hc : Contract c) (hs : 2 ≤ c.bucketSize) {f : Filter} (hf : f.length = c.totalSize) (e : E)
    (h0 : c.hashF (c.fingerprint e) = 0)
    (hfull : ∀ j, j < c.bucketSize → ∃ v, getEntry c f (c.hashE e).toNat j = .ok v ∧ v ≠ 0#8 ∧ (j + 1 < c.bucketSize → c.hashF v = 0))
    (a b : Nat → ℚ) (hb : Below1 b) : ∃ f', add c a b f e = .ok (f', false) := by
  unfold add
  simp only [h0, show c.hashE e ^^^ 0 = c.hashE e by simp]
  refine addLoop_stuck hc hs hb _ (hc.hashE e) 500 0 f _ hf (hc.fp e).1 (hc.fp e).2 h0 (fun j hj => ?_) (fun j hj => ?_)
  · obtain ⟨v, h1, h2, _⟩ := hfull j hj
    rw [ent_of_get h1]
    exact h2
  · obtain ⟨v, h1, _, h3⟩ := hfull j (by omega)
    rw [ent_of_get h1]
    exact h3 hj

/-- 64 buckets of two 3-bit entries; the fingerprint 2 belongs to the buckets 0 and 1, the others to bucket 0 only -/
def wideCfg : Cfg Nat where
  bucketCount := 64
  bucketSize := 2
  entrySize := 3
  emptyValue := 0
  fingerprint e := BitVec.ofNat 8 (e % 7 + 1)
  hashE _ := 0#32
  hashF x := if x = 2#8 then 1#32 else 0#32

theorem wideContract : Contract wideCfg := by
  refine ⟨⟨6, rfl⟩, by decide, by decide, by decide, rfl, fun _ => Nat.zero_lt_succ 63, fun x => ?_, fun e => ⟨?_, ?_⟩⟩
  · simp only [wideCfg]; split <;> decide
  · intro h
    have := congrArg BitVec.toNat h
    simp only [wideCfg] at this
    rw [fp7] at this
    simp at this
  · simp only [wideCfg]; rw [fp7]; omega

/-- two elements are added to a new filter -/
def wideOps : List (Op Nat) := [.add 0 (fun _ => 3/4) (fun _ => 0), .add 1 (fun _ => 3/4) (fun _ => 0)]

/-- **C159** is false of the code: in a filter with 64 buckets of two places that holds two elements, `add` of a third one fails for all random numbers, although the bucket 1,
which is the other bucket of the fingerprint at the last place of the full bucket 0, is empty. -/
theorem C159_violated : Contract wideCfg ∧ (∀ op ∈ wideOps, op.Valid) ∧
    ∃ f, run wideCfg (init wideCfg) wideOps = .ok (f, [.added true, .added true]) ∧
      (∃ v, getEntry wideCfg f (wideCfg.hashE 2).toNat 1 = .ok v ∧ v ≠ 0#8 ∧ getEntry wideCfg f (wideCfg.hashE 2 ^^^ wideCfg.hashF v).toNat 0 = .ok 0#8) ∧
      ∀ a b, Below1 a → Below1 b → ∃ f', add wideCfg a b f 2 = .ok (f', false) := by
  have hval : ∀ op ∈ wideOps, op.Valid := by
    simp only [wideOps, List.mem_cons, List.not_mem_nil, or_false, forall_eq_or_imp, forall_eq, Op.Valid, Unit01, le_refl, zero_le_one, and_self,
      forall_const, and_true]
    norm_num
  refine ⟨wideContract, hval, ?_⟩
  obtain ⟨f, os, h1, h2, _⟩ := run_refines wideContract wideOps (init wideCfg) (init_wf _) hval
  have hos : (run wideCfg (init wideCfg) wideOps).map (·.2) = .ok [.added true, .added true] := by decide +kernel
  have he0 : (run wideCfg (init wideCfg) wideOps).bind (fun s => getEntry wideCfg s.1 0 0) = .ok 1#8 := by decide +kernel
  have he1 : (run wideCfg (init wideCfg) wideOps).bind (fun s => getEntry wideCfg s.1 0 1) = .ok 2#8 := by decide +kernel
  have he2 : (run wideCfg (init wideCfg) wideOps).bind (fun s => getEntry wideCfg s.1 1 0) = .ok 0#8 := by decide +kernel
  rw [h1] at hos he0 he1 he2
  simp only [Except.map, Except.ok.injEq] at hos
  simp only [Except.bind] at he0 he1 he2
  subst hos
  refine ⟨f, h1, ⟨2#8, he1, by decide, he2⟩, fun a b _ hb => C159_stuck wideContract (by decide) h2 2 (by decide) (fun j hj => ?_) a b hb⟩
  have hj2 : j < 2 := hj
  obtain rfl | rfl : j = 0 ∨ j = 1 := by omega
  · exact ⟨1#8, he0, by decide, fun _ => by decide⟩
  · exact ⟨2#8, he1, by decide, fun h => absurd h (by decide)⟩

/-- the hypotheses of `C159_relocation_partial` are met: the elements 1 and 0 are added in this order, so that the fingerprint 2 is at the first place -/
example : ∃ f os, run wideCfg (init wideCfg) [.add 1 (fun _ => 3/4) (fun _ => 0), .add 0 (fun _ => 3/4) (fun _ => 0)] = .ok (f, os) ∧
    getEntry wideCfg f 0 0 = .ok 2#8 ∧ getEntry wideCfg f 0 1 = .ok 1#8 ∧ getEntry wideCfg f 1 0 = .ok 0#8 ∧
    (add wideCfg (fun _ => 3/4) (fun _ => 1/3) f 2).map (·.2) = .ok true := by
  obtain ⟨f, os, h1, -, -⟩ := run_refines wideContract [.add 1 (fun _ => 3/4) (fun _ => 0), .add 0 (fun _ => 3/4) (fun _ => 0)] (init wideCfg) (init_wf _)
    (by
      simp only [List.mem_cons, List.not_mem_nil, or_false, forall_eq_or_imp, forall_eq, Op.Valid, Unit01, le_refl, zero_le_one, and_self, forall_const, and_true]
      norm_num)
  refine ⟨f, os, h1, ?_⟩
  have he : (run wideCfg (init wideCfg) [.add 1 (fun _ => 3/4) (fun _ => 0), .add 0 (fun _ => 3/4) (fun _ => 0)]).bind
      (fun s => do
        let x ← getEntry wideCfg s.1 0 0
        let y ← getEntry wideCfg s.1 0 1
        let z ← getEntry wideCfg s.1 1 0
        let r ← add wideCfg (fun _ => 3/4) (fun _ => 1/3) s.1 2
        return (x, y, z, r.2)) = .ok (2#8, 1#8, 0#8, true) := by decide +kernel
  rw [h1] at he
  obtain ⟨x, hx⟩ : ∃ x, getEntry wideCfg f 0 0 = x := ⟨_, rfl⟩
  obtain ⟨y, hy⟩ : ∃ x, getEntry wideCfg f 0 1 = x := ⟨_, rfl⟩
  obtain ⟨z, hz⟩ : ∃ x, getEntry wideCfg f 1 0 = x := ⟨_, rfl⟩
  obtain ⟨r, hr⟩ : ∃ x, add wideCfg (fun _ => 3/4) (fun _ => 1/3) f 2 = x := ⟨_, rfl⟩
  simp only [Except.bind, bind, hx, hy, hz, hr] at he
  rw [hx, hy, hz, hr]
  cases x <;> cases y <;> cases z <;> cases r <;> simp_all [pure, Except.pure, Except.map]

end Orp.Cuckoo
