import Verif.Cuckoo.Lemmas
import Mathlib.Algebra.BigOperators.Group.Finset.Piecewise
import Mathlib.Algebra.BigOperators.Group.Finset.Sigma

/-!
Properties C07–C13 of the Cuckoo filter.
-/

namespace Orp.Cuckoo

variable {E : Type}

/-- concrete configuration used in the examples: 2 buckets of 3 entries of 3 bits over `Nat` -/
def exCfg : Cfg Nat where
  bucketCount := 2
  bucketSize := 3
  entrySize := 3
  emptyValue := 0
  fingerprint e := BitVec.ofNat 8 (e % 7 + 1)
  hashE e := BitVec.ofNat 32 (e % 2)
  hashF x := BitVec.ofNat 32 (x.toNat % 2)

theorem mod2_lt (n : Nat) : (BitVec.ofNat 32 (n % 2)).toNat < 2 :=
  Nat.lt_of_le_of_lt (Nat.mod_le _ _) (Nat.mod_lt _ (by decide))

theorem fp7 (n : Nat) : (BitVec.ofNat 8 (n % 7 + 1)).toNat = n % 7 + 1 := by
  rw [BitVec.toNat_ofNat]; omega

theorem exContract : Contract exCfg := by
  refine ⟨⟨1, rfl⟩, by decide, by decide, by decide, rfl, fun e => mod2_lt e, fun x => mod2_lt _, fun e => ⟨?_, ?_⟩⟩
  · intro h
    have := congrArg BitVec.toNat h
    simp only [exCfg] at this
    rw [fp7] at this
    simp at this
  · simp only [exCfg]; rw [fp7]; omega

/-- **C07** Storing a fingerprint in a slot: that slot then reads back exactly this value, and every other
slot of every bucket reads as before. -/
theorem C07_entries_do_not_interfere {c : Cfg E} (hc : Contract c) {f : Filter}
    (hf : f.length = c.totalSize) {b j : Nat} (hb : b < c.bucketCount) (hj : j < c.bucketSize)
    (fp : BitVec 8) (hfp : fp.toNat < 2 ^ c.entrySize) :
    ∃ f', setEntry c f b j fp = .ok f' ∧ getEntry c f' b j = .ok fp ∧
      ∀ b' j', b' < c.bucketCount → j' < c.bucketSize → (b', j') ≠ (b, j) →
        getEntry c f' b' j' = getEntry c f b' j' := by
  obtain ⟨f', h1, h2, h3⟩ := setEntry_spec c hc.geo hf hb hj fp hfp
  refine ⟨f', h1, ?_, fun b' j' hb' hj' hne => ?_⟩
  · rw [(getEntry_spec c hc.geo h2 hb hj).1, h3 b j hb hj, if_pos ⟨rfl, rfl⟩]
  · rw [(getEntry_spec c hc.geo h2 hb' hj').1, (getEntry_spec c hc.geo hf hb' hj').1, h3 b' j' hb' hj', if_neg]
    rintro ⟨rfl, rfl⟩; exact hne rfl

/-- the limit of C07: a fingerprint that does not fit in `entry_size` bits is silently truncated -/
theorem C07_too_wide_is_truncated : (setEntry exCfg (init exCfg) 1 2 0b11010#8).bind
    (fun f => getEntry exCfg f 1 2) = .ok 0b010#8 := by decide

example : (init exCfg).length = exCfg.totalSize ∧ (5#8).toNat < 2 ^ exCfg.entrySize := by decide

/-- Legal use of the filter, at the level of elements: all adds succeed and only elements with an
outstanding add are removed. The multiset holds the outstanding elements. -/
inductive LegalRun [DecidableEq E] : Multiset E → List (Op E) → List Out → Multiset E → Prop
  | nil (m) : LegalRun m [] [] m
  | add {m m' e a b ops os} : LegalRun (m + {e}) ops os m' →
      LegalRun m (.add e a b :: ops) (.added true :: os) m'
  | remove {m m' e ops os} : e ∈ m → LegalRun (m.erase e) ops os m' →
      LegalRun m (.remove e :: ops) (.unit :: os) m'
  | lookup {m m' e r ops os} : LegalRun m ops os m' →
      LegalRun m (.lookup e :: ops) (.found r :: os) m'
  | clear {m m' ops os} : LegalRun 0 ops os m' → LegalRun m (.clear :: ops) (.unit :: os) m'

theorem legal_bag [DecidableEq E] {c : Cfg E} {m m' : Multiset E} {ops os} (h : LegalRun m ops os m') :
    ∀ {k k'}, BagRun c k ops os k' → k = m.map (key c) → k' = m'.map (key c) := by
  induction h with
  | nil m => intro k k' hb hk; cases hb; exact hk
  | add h ih =>
      intro k k' hb hk
      cases hb with | cons h1 h2 => cases h1; exact ih h2 (by rw [hk]; simp)
  | remove hm h ih =>
      intro k k' hb hk
      cases hb with | cons h1 h2 =>
        cases h1
        refine ih h2 ?_
        rw [hk, Multiset.map_erase_of_mem _ _ hm]
  | lookup h ih =>
      intro k k' hb hk
      cases hb with | cons h1 h2 => cases h1; exact ih h2 hk
  | clear h ih =>
      intro k k' hb hk
      cases hb with | cons h1 h2 => cases h1; exact ih h2 (by simp)

/-- **C09** (general form) From a new filter every history runs without error and is a run of the bag of
keys specification; any later lookup answers membership of the element's key in the bag. -/
theorem C09_refines_bag {c : Cfg E} (hc : Contract c) (ops : List (Op E)) (hv : ∀ op ∈ ops, op.Valid) :
    ∃ f os m, run c (init c) ops = .ok (f, os) ∧ BagRun c 0 ops os m ∧
      ∀ e, ∃ r, lookup c f e = .ok r ∧ (r = true ↔ key c e ∈ m) := by
  obtain ⟨f, os, h1, h2, h3⟩ := run_refines hc ops (init c) (init_wf c) hv
  rw [init_contents hc.geo] at h3
  exact ⟨f, os, _, h1, h3, fun e => lookup_spec hc h2 e⟩

/-- **C09** Under legal use the filter answers exactly "some outstanding element has the same fingerprint
and the same bucket pair": false positives are exactly the key collisions. -/
theorem C09_exact_answer [DecidableEq E] {c : Cfg E} (hc : Contract c) (ops : List (Op E))
    (hv : ∀ op ∈ ops, op.Valid) {f : Filter} {os : List Out} (hrun : run c (init c) ops = .ok (f, os))
    {m : Multiset E} (hl : LegalRun 0 ops os m) (e : E) :
    ∃ r, lookup c f e = .ok r ∧ (r = true ↔ ∃ e' ∈ m, key c e' = key c e) := by
  obtain ⟨f', os', k, h1, h2, h3⟩ := C09_refines_bag hc ops hv
  rw [hrun] at h1
  simp only [Except.ok.injEq, Prod.mk.injEq] at h1
  obtain ⟨rfl, rfl⟩ := h1
  obtain ⟨r, h4, h5⟩ := h3 e
  refine ⟨r, h4, h5.trans ?_⟩
  rw [legal_bag hl h2 (by simp), Multiset.mem_map]

/-- **C08** No false negatives under legal use: every outstanding element is found. -/
theorem C08_no_false_negative [DecidableEq E] {c : Cfg E} (hc : Contract c) (ops : List (Op E))
    (hv : ∀ op ∈ ops, op.Valid) {f : Filter} {os : List Out} (hrun : run c (init c) ops = .ok (f, os))
    {m : Multiset E} (hl : LegalRun 0 ops os m) (e : E) (he : e ∈ m) : lookup c f e = .ok true := by
  obtain ⟨r, h1, h2⟩ := C09_exact_answer hc ops hv hrun hl e
  rw [h1, h2.2 ⟨e, he, rfl⟩]

/-- the hypotheses of C08/C09 are met by a history with a relocation (three equal keys fill bucket pair
slots), a remove and a lookup -/
def exOps : List (Op Nat) := [.add 3 (fun _ => 0) (fun _ => 0), .add 3 (fun _ => 1) (fun _ => 0),
  .add 10 (fun _ => 0) (fun _ => 0), .add 17 (fun _ => 0) (fun _ => 0), .remove 3, .lookup 3, .lookup 4]

example : (∀ op ∈ exOps, op.Valid) ∧
    (run exCfg (init exCfg) exOps).map (·.2) =
      .ok [.added true, .added true, .added true, .added true, .unit, .found true, .found false] ∧
    LegalRun 0 exOps [.added true, .added true, .added true, .added true, .unit, .found true, .found false]
      ({3, 10, 17} : Multiset Nat) := by
  refine ⟨?_, by decide +kernel, ?_⟩
  · simp [exOps, Op.Valid, Unit01]
  · refine .add (.add (.add (.add (.remove (by simp) ?_))))
    have : (0 + {3} + {3} + {10} + {17} : Multiset Nat).erase 3 = {3, 10, 17} := by decide
    rw [this]
    exact .lookup (.lookup (.nil _))

/-- **C10** (what holds) When `add` reports failure the number of stored keys is unchanged: the new key has
entered and exactly one key `k` — not necessarily the new one — has been dropped. Missing from the
property: the dropped key may belong to an element added earlier, see `C10_failed_add_loses_element`. -/
theorem C10_failed_add_loses_one_key_partial {c : Cfg E} (hc : Contract c) (ops : List (Op E))
    (hv : ∀ op ∈ ops, op.Valid) (e : E) (a b : Nat → ℚ) (hb : Unit01 b)
    {f f' : Filter} {os : List Out} (hrun : run c (init c) ops = .ok (f, os))
    (hadd : add c a b f e = .ok (f', false)) :
    ∃ (m m' : Multiset Key) (k : Key), m' + {k} = m + {key c e} ∧
      (∀ x, ∃ r, lookup c f x = .ok r ∧ (r = true ↔ key c x ∈ m)) ∧
      (∀ x, ∃ r, lookup c f' x = .ok r ∧ (r = true ↔ key c x ∈ m')) := by
  obtain ⟨g, os', h1, h2, h3⟩ := run_refines hc ops (init c) (init_wf c) hv
  rw [hrun] at h1
  simp only [Except.ok.injEq, Prod.mk.injEq] at h1
  obtain ⟨rfl, rfl⟩ := h1
  obtain ⟨f1, r, x1, x2, _, x4⟩ := add_spec hc (a := a) hb h2 e
  rw [hadd] at x1
  simp only [Except.ok.injEq, Prod.mk.injEq] at x1
  obtain ⟨rfl, rfl⟩ := x1
  obtain ⟨k, hk⟩ := x4 rfl
  exact ⟨_, _, k, hk, fun x => lookup_spec hc h2 x, fun x => lookup_spec hc x2 x⟩

/-- one bucket of three 3-bit entries: every element competes for the same bucket -/
def oneBucket : Cfg Nat where
  bucketCount := 1
  bucketSize := 3
  entrySize := 3
  emptyValue := 0
  fingerprint e := BitVec.ofNat 8 (e % 7 + 1)
  hashE _ := 0#32
  hashF _ := 0#32

theorem oneBucketContract : Contract oneBucket := by
  refine ⟨⟨0, rfl⟩, by decide, by decide, by decide, rfl, fun _ => Nat.zero_lt_one, fun _ => Nat.zero_lt_one,
    fun e => ⟨?_, ?_⟩⟩
  · intro h
    have := congrArg BitVec.toNat h
    simp only [oneBucket] at this
    rw [fp7] at this
    simp at this
  · simp only [oneBucket]; rw [fp7]; omega

/-- random numbers that evict entry 0 in the first 499 relocations and entry 1 in the last -/
def unlucky : Nat → ℚ := fun i => if i < 499 then 0 else 1/2

/-- history: fill the bucket with 0, 1, 2, then try to add 3 (which fails) -/
def lossy : List (Op Nat) := [.add 0 (fun _ => 0) (fun _ => 0), .add 1 (fun _ => 0) (fun _ => 0),
  .add 2 (fun _ => 0) (fun _ => 0), .lookup 1, .add 3 (fun _ => 0) unlucky, .lookup 1]

/-- **C10** is false of the code: a failed `add` of 3 makes the earlier element 1 disappear (all random
numbers are in `[0,1[` and the contract holds). -/
theorem C10_failed_add_loses_element :
    Contract oneBucket ∧ (∀ op ∈ lossy, op.Valid) ∧
    (run oneBucket (init oneBucket) lossy).map (·.2) =
      .ok [.added true, .added true, .added true, .found true, .added false, .found false] := by
  refine ⟨oneBucketContract, ?_, by decide +kernel⟩
  simp only [lossy, List.mem_cons, List.not_mem_nil, or_false, forall_eq_or_imp, forall_eq, Op.Valid, Unit01,
    unlucky, le_refl, zero_le_one, and_self, forall_const, true_and, and_true]
  intro i; split <;> norm_num

/-- **C11** If one of the two candidate buckets of `e` has a free slot, `add` succeeds; exactly one slot
changes, it was free, and it now holds the fingerprint of `e`. -/
theorem C11_room_means_success {c : Cfg E} (hc : Contract c) {f : Filter} (hf : f.length = c.totalSize)
    (e : E) (a b : Nat → ℚ) (h : BitVec 32)
    (hh : h = c.hashE e ∨ h = c.hashE e ^^^ c.hashF (c.fingerprint e)) (j : Nat) (hj : j < c.bucketSize)
    (hfree : getEntry c f h.toNat j = .ok 0#8) :
    ∃ f' b₀ j₀, add c a b f e = .ok (f', true) ∧ b₀ < c.bucketCount ∧ j₀ < c.bucketSize ∧
      (b₀ = (c.hashE e).toNat ∨ b₀ = (c.hashE e ^^^ c.hashF (c.fingerprint e)).toNat) ∧
      getEntry c f b₀ j₀ = .ok 0#8 ∧ getEntry c f' b₀ j₀ = .ok (c.fingerprint e) ∧
      ∀ b' j', b' < c.bucketCount → j' < c.bucketSize → (b', j') ≠ (b₀, j₀) →
        getEntry c f' b' j' = getEntry c f b' j' := by
  have hl1 := hc.hashE e
  have hl2 := xor_lt hc hl1 (hc.hashF (c.fingerprint e))
  have insert : ∀ (g : BitVec 32) (j₀ : Nat), g.toNat < c.bucketCount → j₀ < c.bucketSize →
      isEmptyValue c (ent c f g.toNat j₀) = true →
      ∃ f', setEntry c f g.toNat j₀ (c.fingerprint e) = .ok f' ∧
        getEntry c f g.toNat j₀ = .ok 0#8 ∧ getEntry c f' g.toNat j₀ = .ok (c.fingerprint e) ∧
        ∀ b' j', b' < c.bucketCount → j' < c.bucketSize → (b', j') ≠ (g.toNat, j₀) →
          getEntry c f' b' j' = getEntry c f b' j' := by
    intro g j₀ hg hj₀ he
    obtain ⟨f', x1, x2, x3⟩ := C07_entries_do_not_interfere hc hf hg hj₀ (c.fingerprint e) (hc.fp e).2
    refine ⟨f', x1, ?_, x2, x3⟩
    rw [(getEntry_spec c hc.geo hf hg hj₀).1, (isEmpty_iff hc _).1 he]
  have hfree' : isEmptyValue c (ent c f h.toNat j) = true := by
    rw [isEmpty_iff hc]; simp [ent, hfree]
  obtain ⟨s1, a1, a2, a3⟩ := spaceLoop_spec c hc.geo hf hl1 c.bucketSize 0 (by omega)
  obtain ⟨s2, b1, b2, b3⟩ := spaceLoop_spec c hc.geo hf hl2 c.bucketSize 0 (by omega)
  unfold add addLoop
  simp only [spaceInBucket, a1, b1, bind, Except.bind]
  cases s1 with
  | none =>
    cases s2 with
    | none =>
        rcases hh with rfl | rfl
        · rw [a3 rfl j (by omega) hj] at hfree'; simp at hfree'
        · rw [b3 rfl j (by omega) hj] at hfree'; simp at hfree'
    | some j2 =>
        obtain ⟨_, y1, y2⟩ := b2 j2 rfl
        obtain ⟨f', x1, x2, x3, x4⟩ := insert _ j2 hl2 y1 y2
        exact ⟨f', _, j2, by simp only [x1, pure, Except.pure], hl2, y1, .inr rfl, x2, x3, x4⟩
  | some j1 =>
    obtain ⟨_, z1, z2⟩ := a2 j1 rfl
    cases s2 with
    | none =>
        obtain ⟨f', x1, x2, x3, x4⟩ := insert _ j1 hl1 z1 z2
        exact ⟨f', _, j1, by simp only [x1, pure, Except.pure], hl1, z1, .inl rfl, x2, x3, x4⟩
    | some j2 =>
        obtain ⟨_, y1, y2⟩ := b2 j2 rfl
        by_cases ha : a 0 > 1 / 2
        · obtain ⟨f', x1, x2, x3, x4⟩ := insert _ j1 hl1 z1 z2
          exact ⟨f', _, j1, by simp only [if_pos ha, x1, pure, Except.pure], hl1, z1, .inl rfl, x2, x3, x4⟩
        · obtain ⟨f', x1, x2, x3, x4⟩ := insert _ j2 hl2 y1 y2
          exact ⟨f', _, j2, by simp only [if_neg ha, x1, pure, Except.pure], hl2, y1, .inr rfl, x2, x3, x4⟩

/-- number of slots that do not hold the empty value -/
def occupied (c : Cfg E) (f : Filter) : Nat :=
  ((Finset.range c.bucketCount ×ˢ Finset.range c.bucketSize).filter
    (fun p => getEntry c f p.1 p.2 ≠ .ok 0#8)).card

theorem occupied_eq {c : Cfg E} (g : Geo c) {f : Filter} (hf : WF c f) : occupied c f = (contents c f).card := by
  simp only [occupied, contents, Multiset.card_sum, Finset.card_filter, Finset.sum_product]
  apply Finset.sum_congr rfl
  intro b hb
  apply Finset.sum_congr rfl
  intro j hj
  rw [(getEntry_spec c g hf (Finset.mem_range.1 hb) (Finset.mem_range.1 hj)).1]
  by_cases h : ent c f b j = 0#8
  · simp [slotKeys, h]
  · simp [slotKeys, h]

/-- **C11** Under legal use the number of occupied slots is the number of outstanding elements, hence that
number never exceeds `bucket_count * bucket_size`. -/
theorem C11_capacity [DecidableEq E] {c : Cfg E} (hc : Contract c) (ops : List (Op E))
    (hv : ∀ op ∈ ops, op.Valid) {f : Filter} {os : List Out} (hrun : run c (init c) ops = .ok (f, os))
    {m : Multiset E} (hl : LegalRun 0 ops os m) :
    occupied c f = m.card ∧ m.card ≤ c.bucketCount * c.bucketSize := by
  obtain ⟨g, os', h1, h2, h3⟩ := run_refines hc ops (init c) (init_wf c) hv
  rw [hrun] at h1
  simp only [Except.ok.injEq, Prod.mk.injEq] at h1
  obtain ⟨rfl, rfl⟩ := h1
  rw [init_contents hc.geo] at h3
  have h4 := legal_bag hl h3 (by simp)
  have h5 := contents_card_le c f
  rw [occupied_eq hc.geo h2]
  rw [h4, Multiset.card_map] at *
  exact ⟨rfl, h5⟩

/-- a free slot in the second candidate bucket while the first is full -/
example : (run exCfg (init exCfg) [.add 2 (fun _ => 1) (fun _ => 0), .add 2 (fun _ => 1) (fun _ => 0),
    .add 2 (fun _ => 1) (fun _ => 0)]).bind (fun p => getEntry exCfg p.1 1 0) = .ok 0#8 ∧
    (exCfg.hashE 2 ^^^ exCfg.hashF (exCfg.fingerprint 2)).toNat = 1 := by decide +kernel

/-- **C12** With the contract (in particular a power of two of buckets) no history fails an assertion or
accesses memory out of bounds. -/
theorem C12_in_bounds {c : Cfg E} (hc : Contract c) (ops : List (Op E)) (hv : ∀ op ∈ ops, op.Valid) :
    ∃ f os, run c (init c) ops = .ok (f, os) := by
  obtain ⟨f, os, _, h, _⟩ := C09_refines_bag hc ops hv
  exact ⟨f, os, h⟩

/-- three buckets and hashes within the documented range `[0, bucket_count[` -/
def threeBuckets : Cfg Nat where
  bucketCount := 3
  bucketSize := 1
  entrySize := 3
  emptyValue := 0
  fingerprint _ := 5#8
  hashE _ := 1#32
  hashF _ := 2#32

/-- **C12**, documentation gap: the documented ranges alone do not suffice. With 3 buckets the alternate
bucket `1 ^ 2 = 3` does not exist and `add` stops in an assertion. -/
theorem C12_bucket_count_must_be_power_of_two :
    (∀ e, (threeBuckets.hashE e).toNat < threeBuckets.bucketCount) ∧
    (∀ x, (threeBuckets.hashF x).toNat < threeBuckets.bucketCount) ∧
    add threeBuckets (fun _ => 0) (fun _ => 0) (init threeBuckets) 0 = .error .assert :=
  ⟨fun _ => (by decide : 1 < 3), fun _ => (by decide : 2 < 3), by decide⟩

/-- **C13** (what holds) With the default `empty_value = 0`, a new or cleared filter finds nothing and
accepts any element. Missing: other values of `empty_value`, for which the property is false, see
`C13_nonzero_empty_value_add_fails` and `C13_nonzero_empty_value_lookup`. -/
theorem C13_new_filter_is_empty_partial {c : Cfg E} (hc : Contract c) (e : E) (a b : Nat → ℚ) :
    lookup c (init c) e = .ok false ∧ (∃ f', add c a b (init c) e = .ok (f', true)) ∧
    ∀ f : Filter, f.length = c.totalSize → clear f = init c := by
  refine ⟨?_, ?_, fun f hf => clear_init hf⟩
  · obtain ⟨r, h1, h2⟩ := lookup_spec hc (init_wf c) e
    rw [init_contents hc.geo] at h2
    rw [h1]; cases r
    · rfl
    · simp at h2
  · have hz : getEntry c (init c) (c.hashE e).toNat 0 = .ok 0#8 := by
      rw [(getEntry_spec c hc.geo (init_wf c) (hc.hashE e) hc.size).1,
        ent_of_zero_bits c hc.geo (init_wf c) (fun i => bitAt_replicate _ i) (hc.hashE e) hc.size]
    obtain ⟨f', _, _, h, _⟩ := C11_room_means_success hc (init_wf c) e a b _ (.inl rfl) 0 hc.size hz
    exact ⟨f', h⟩

/-- documented requirements when `empty_value` is not 0 -/
structure ContractNZ (c : Cfg E) : Prop where
  pow : ∃ k, c.bucketCount = 2 ^ k
  size : 1 ≤ c.bucketSize
  entry : 1 ≤ c.entrySize ∧ c.entrySize ≤ 8
  empty : c.emptyValue ≠ 0
  hashE : ∀ e, (c.hashE e).toNat < c.bucketCount
  hashF : ∀ x, (c.hashF x).toNat < c.bucketCount
  fp : ∀ e, ((c.fingerprint e).toNat : Int) ≠ c.emptyValue ∧ (c.fingerprint e).toNat < 2 ^ c.entrySize

theorem xor_lt' {c : Cfg E} (hc : ContractNZ c) {x y : BitVec 32} (hx : x.toNat < c.bucketCount)
    (hy : y.toNat < c.bucketCount) : (x ^^^ y).toNat < c.bucketCount := by
  obtain ⟨k, hk⟩ := hc.pow
  rw [hk] at hx hy ⊢
  rw [BitVec.toNat_xor]; exact Nat.xor_lt_two_pow hx hy

theorem addLoop_never {c : Cfg E} (hc : ContractNZ c) {a b : Nat → ℚ} (hb : Unit01 b) :
    ∀ (n i : Nat) (f : Filter) (fp : BitVec 8) (h1 : BitVec 32), WF c f → h1.toNat < c.bucketCount →
      isEmptyValue c fp = false → fp.toNat < 2 ^ c.entrySize →
      (∀ b j, b < c.bucketCount → j < c.bucketSize → isEmptyValue c (ent c f b j) = false) →
    ∃ f', addLoop c a b i n f fp h1 (h1 ^^^ c.hashF fp) = .ok (f', false)
  | 0, i, f, fp, h1, _, _, _, _, _ => ⟨f, rfl⟩
  | n+1, i, f, fp, h1, hf, hl1, hne, hfp, hall => by
      have g : Geo c := ⟨hc.size, hc.entry⟩
      have hl2 : (h1 ^^^ c.hashF fp).toNat < c.bucketCount := xor_lt' hc hl1 (hc.hashF fp)
      obtain ⟨s1, a1, a2, _⟩ := spaceLoop_spec c g hf hl1 c.bucketSize 0 (by omega)
      obtain ⟨s2, b1, b2, _⟩ := spaceLoop_spec c g hf hl2 c.bucketSize 0 (by omega)
      have e1 : s1 = none := by
        cases s1 with
        | none => rfl
        | some j => obtain ⟨_, h, h'⟩ := a2 j rfl; rw [hall _ _ hl1 h] at h'; simp at h'
      have e2 : s2 = none := by
        cases s2 with
        | none => rfl
        | some j => obtain ⟨_, h, h'⟩ := b2 j rfl; rw [hall _ _ hl2 h] at h'; simp at h'
      subst e1; subst e2
      unfold addLoop
      simp only [spaceInBucket, a1, b1, bind, Except.bind]
      have hj := evict_index hc.size (hb i).2
      generalize (⌊b i * ((c.bucketSize - 1 : Nat) : ℚ)⌋).toNat = j at hj
      generalize hhe : (if a i > 1 / 2 then h1 else h1 ^^^ c.hashF fp) = h
      have hl : h.toNat < c.bucketCount := by rw [← hhe]; split <;> assumption
      obtain ⟨f', x1, x2, x3⟩ := setEntry_spec c g hf hl hj fp hfp
      rw [(getEntry_spec c g hf hl hj).1]
      simp only [x1]
      refine addLoop_never hc hb n (i+1) f' _ h x2 hl (hall _ _ hl hj) (ent_fits c g hf hl hj) ?_
      intro b' j' hb' hj'
      rw [x3 b' j' hb' hj']
      split
      · exact hne
      · exact hall _ _ hb' hj'

/-- **C13** is false of the code for *every* nonzero `empty_value`: a new filter is filled with zeros, so
it has no slot holding `empty_value`, and `add` fails for every element and all random numbers. -/
theorem C13_nonzero_empty_value_add_fails {c : Cfg E} (hc : ContractNZ c) (e : E) (a b : Nat → ℚ)
    (hb : Unit01 b) : ∃ f', add c a b (init c) e = .ok (f', false) := by
  have g : Geo c := ⟨hc.size, hc.entry⟩
  refine addLoop_never hc hb 500 0 _ _ _ (init_wf c) (hc.hashE e) ?_ (hc.fp e).2 ?_
  · simpa [isEmptyValue] using (hc.fp e).1
  · intro b' j' hb' hj'
    rw [ent_of_zero_bits c g (init_wf c) (fun i => bitAt_replicate _ i) hb' hj']
    simpa [isEmptyValue] using hc.empty.symm

/-- **C13** is false of the code: with a nonzero `empty_value`, an element with fingerprint 0 is "found" in
a filter that has never been added to. -/
theorem C13_nonzero_empty_value_lookup {c : Cfg E} (hc : ContractNZ c) (e : E)
    (he : c.fingerprint e = 0#8) : lookup c (init c) e = .ok true := by
  have g : Geo c := ⟨hc.size, hc.entry⟩
  obtain ⟨r, h1, _, h3⟩ := search_spec c g (init_wf c) e (hc.hashE e) (xor_lt' hc (hc.hashE e) (hc.hashF _))
  cases r with
  | some p => simp [lookup, h1, bind, Except.bind, pure, Except.pure]
  | none =>
      exfalso
      refine h3 rfl _ (.inl rfl) 0 hc.size ?_
      rw [ent_of_zero_bits c g (init_wf c) (fun i => bitAt_replicate _ i) (hc.hashE e) hc.size, he]

/-- such configurations exist, e.g. `empty_value = 255` with 8-bit entries -/
def nzCfg : Cfg Nat := { exCfg with emptyValue := 255, entrySize := 8, fingerprint := fun e => BitVec.ofNat 8 (e % 7) }

example : ContractNZ nzCfg ∧ nzCfg.fingerprint 14 = 0#8 := by
  have h7 : ∀ n, (BitVec.ofNat 8 (n % 7)).toNat = n % 7 := fun n => by rw [BitVec.toNat_ofNat]; omega
  refine ⟨⟨⟨1, rfl⟩, by decide, by decide, by decide, fun e => mod2_lt e, fun x => mod2_lt _, fun e => ⟨?_, ?_⟩⟩,
    by decide⟩
  · simp only [nzCfg]; rw [h7]; omega
  · simp only [nzCfg]; rw [h7]; omega

end Orp.Cuckoo
