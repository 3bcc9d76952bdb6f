import Verif.Bloom.Lemmas

/-!
Properties C01–C06 of the Bloom filter.

`exec bitSize garbage hashs ops` is: construct the filter (whose array initially holds `garbage`), then
perform the calls `ops`.
-/

namespace Orp.Bloom

variable {E : Type} {bitSize : Nat} {hashs : List (E → BitVec 32)}

/-- a concrete contract-abiding instance used in the satisfiability examples: 8 bits, two hashes -/
def exHashs : List (Nat → BitVec 32) := [fun e => BitVec.ofNat 32 (e % 8), fun e => BitVec.ofNat 32 ((3 * e + 1) % 8)]

theorem exContract : Contract 8 exHashs := by
  refine ⟨by decide, by decide, by decide, ?_⟩
  intro h hh e
  simp only [exHashs, List.mem_cons, List.not_mem_nil, or_false] at hh
  rcases hh with rfl | rfl <;>
    exact Nat.lt_of_le_of_lt (Nat.mod_le _ _) (Nat.mod_lt _ (by decide))

/-- **C01** No false negatives: after any history, every element added since the last `clear`/`set`
is found, and the history itself runs without assertion failure or undefined behaviour. -/
theorem C01_no_false_negative (hc : Contract bitSize hashs) (garbage : List (BitVec 8))
    (hg : garbage.length = bitSize) (ops : List (Op E)) (hv : ∀ op ∈ ops, op.Valid bitSize) :
    ∃ f, exec bitSize garbage hashs ops = .ok f ∧ ∀ e ∈ addedSince ops, lookup f e = .ok true := by
  simp only [exec, construct_spec hc garbage hg, bind, Except.bind]
  have g0 : Good bitSize hashs { bitSize, bits := List.replicate bitSize 0#8, hashs } :=
    good_init _ (by simp)
  obtain ⟨f, h1, h2⟩ := run_spec hc ops _ g0 hv
  refine ⟨f, h1, fun e he => ?_⟩
  obtain ⟨r, h3, h4⟩ := lookup_spec hc f h2 e
  rw [h3, h4.2 (run_since hc _ g0 ops hv f h1 e he)]

/-- the history used below adds, loads a dump, clears, and adds again -/
example : let ops : List (Op Nat) := [.add 3, .set (List.replicate 9 2#8), .clear, .add 5, .add 6]
    (∀ op ∈ ops, op.Valid 8) ∧ 5 ∈ addedSince ops ∧ 3 ∉ addedSince ops := by
  simp [Op.Valid, addedSince]

/-- **C02** Exact answers: on a filter emptied by `clear` (or newly built: `pre = []` is covered by
`C02_exact_answer_new`) and then only added to, `lookup e` answers true iff every hash position of `e`
is a hash position of some added element. -/
theorem C02_exact_answer (hc : Contract bitSize hashs) (garbage : List (BitVec 8))
    (hg : garbage.length = bitSize) (pre : List (Op E)) (hv : ∀ op ∈ pre, op.Valid bitSize)
    (es : List E) :
    ∃ f, exec bitSize garbage hashs (pre ++ .clear :: es.map .add) = .ok f ∧
      ∀ e, ∃ r, lookup f e = .ok r ∧
        (r = true ↔ ∀ i, Position hashs e i → ∃ a ∈ es, Position hashs a i) := by
  simp only [exec, construct_spec hc garbage hg, bind, Except.bind]
  have g0 : Good bitSize hashs { bitSize, bits := List.replicate bitSize 0#8, hashs } :=
    good_init _ (by simp)
  obtain ⟨f1, h1, h2⟩ := run_spec hc pre _ g0 hv
  obtain ⟨f2, h3, h4, h5⟩ := run_adds hc es _ g0
  refine ⟨f2, ?_, fun e => ?_⟩
  · rw [run_append, h1]; simp only [Except.bind, run, step, clear_eq f1 h2, bind, Except.bind, h3]
  · obtain ⟨r, h6, h7⟩ := lookup_spec hc f2 h4 e
    refine ⟨r, h6, h7.trans ?_⟩
    simp only [h5, bit_replicate, Bool.false_eq_true, false_or]

/-- **C02**, newly constructed filter. -/
theorem C02_exact_answer_new (hc : Contract bitSize hashs) (garbage : List (BitVec 8))
    (hg : garbage.length = bitSize) (es : List E) :
    ∃ f, exec bitSize garbage hashs (es.map .add) = .ok f ∧
      ∀ e, ∃ r, lookup f e = .ok r ∧
        (r = true ↔ ∀ i, Position hashs e i → ∃ a ∈ es, Position hashs a i) := by
  simp only [exec, construct_spec hc garbage hg, bind, Except.bind]
  have g0 : Good bitSize hashs { bitSize, bits := List.replicate bitSize 0#8, hashs } :=
    good_init _ (by simp)
  obtain ⟨f2, h3, h4, h5⟩ := run_adds hc es _ g0
  refine ⟨f2, h3, fun e => ?_⟩
  obtain ⟨r, h6, h7⟩ := lookup_spec hc f2 h4 e
  refine ⟨r, h6, h7.trans ?_⟩
  simp only [h5, bit_replicate, Bool.false_eq_true, false_or]

/-- both answers occur: with 1 and 4 added, 12 is a false positive (full collision) and 2 is rejected -/
example : (exec 8 (List.replicate 8 7#8) exHashs [.add 1, .add 4]).bind (fun f => lookup f 12) = .ok true ∧
    (exec 8 (List.replicate 8 7#8) exHashs [.add 1, .add 4]).bind (fun f => lookup f 2) = .ok false := by
  decide

/-- **C03** After `clear`, whatever happened before, the object is the one the constructor builds; so
all later calls answer as on a new filter. -/
theorem C03_clear_is_new (hc : Contract bitSize hashs) (garbage garbage' : List (BitVec 8))
    (hg : garbage.length = bitSize) (hg' : garbage'.length = bitSize) (pre post : List (Op E))
    (hv : ∀ op ∈ pre, op.Valid bitSize) :
    exec bitSize garbage hashs (pre ++ .clear :: post) = exec bitSize garbage' hashs post := by
  simp only [exec, construct_spec hc garbage hg, construct_spec hc garbage' hg', bind, Except.bind]
  have g0 : Good bitSize hashs { bitSize, bits := List.replicate bitSize 0#8, hashs } :=
    good_init _ (by simp)
  obtain ⟨f1, h1, h2⟩ := run_spec hc pre _ g0 hv
  rw [run_append, h1]; simp only [Except.bind, run, step, clear_eq f1 h2, bind, Except.bind]

/-- **C03** After `clear` (and after construction) every lookup answers false. -/
theorem C03_clear_finds_nothing (hc : Contract bitSize hashs) (garbage : List (BitVec 8))
    (hg : garbage.length = bitSize) (pre : List (Op E)) (hv : ∀ op ∈ pre, op.Valid bitSize) :
    ∃ f, exec bitSize garbage hashs (pre ++ [.clear]) = .ok f ∧ ∀ e, lookup f e = .ok false := by
  obtain ⟨f, h1, h2⟩ := C02_exact_answer hc garbage hg pre hv []
  refine ⟨f, by simpa using h1, fun e => ?_⟩
  obtain ⟨r, h3, h4⟩ := h2 e
  obtain ⟨_, _, hl, _⟩ := hc
  obtain ⟨h, hs, rfl⟩ := List.exists_cons_of_length_pos (l := hashs) (by omega)
  rw [h3]
  cases r
  · rfl
  · have := h4.1 rfl (h e).toNat ⟨h, by simp, rfl⟩
    simp at this

example : (exec 8 (List.replicate 8 7#8) exHashs [.add 1, .add 4, .clear]).bind (fun f => lookup f 4)
    = .ok false := by decide

/-- **C04** After `set newBits` a lookup reads exactly the lowest bits of the bytes of `newBits` at the
hash positions. -/
theorem C04_set_exact (hc : Contract bitSize hashs) (garbage : List (BitVec 8))
    (hg : garbage.length = bitSize) (pre : List (Op E)) (hv : ∀ op ∈ pre, op.Valid bitSize)
    (newBits : List (BitVec 8)) (hn : bitSize ≤ newBits.length) :
    ∃ f, exec bitSize garbage hashs (pre ++ [.set newBits]) = .ok f ∧
      ∀ e, ∃ r, lookup f e = .ok r ∧
        (r = true ↔ ∀ i, Position hashs e i → ∃ b, newBits[i]? = some b ∧ b.getLsbD 0 = true) := by
  simp only [exec, construct_spec hc garbage hg, bind, Except.bind]
  have g0 : Good bitSize hashs { bitSize, bits := List.replicate bitSize 0#8, hashs } :=
    good_init _ (by simp)
  obtain ⟨f1, h1, h2⟩ := run_spec hc pre _ g0 hv
  obtain ⟨f2, a1, a2, a3, a4⟩ := set_spec f1 h2.wf newBits (by rw [h2.size]; exact hn)
  have g2 : Good bitSize hashs f2 := by
    refine ⟨by rw [a2, h2.size], by rw [a3, h2.hash], ?_⟩
    have : f1.bitSize ≤ newBits.length := by rw [h2.size]; exact hn
    simp [WF, a4, a2, this]
  refine ⟨f2, ?_, fun e => ?_⟩
  · rw [run_append, h1]; simp only [Except.bind, run, step, a1, bind, Except.bind]
  · obtain ⟨r, h6, h7⟩ := lookup_spec hc f2 g2 e
    refine ⟨r, h6, h7.trans ?_⟩
    constructor
    · intro hh i hi
      have hlt : i < bitSize := by obtain ⟨h, hh, rfl⟩ := hi; exact hc.2.2.2 h hh e
      have := hh i hi
      have hx : i < newBits.length := by omega
      refine ⟨newBits[i], by simp [hx], ?_⟩
      simpa [bit, a4, h2.size, List.getElem?_take, hlt, hx] using this
    · intro hh i hi
      have hlt : i < bitSize := by obtain ⟨h, hh, rfl⟩ := hi; exact hc.2.2.2 h hh e
      obtain ⟨b, h8, h9⟩ := hh i hi
      simp [bit, a4, h2.size, hlt, h8, h9]

/-- **C04**, size of the argument: the code copies one *byte per bit*, so an array shorter than
`bit_size` bytes (for instance a packed bit array of `bit_size/8` bytes) is read out of bounds. -/
theorem C04_set_reads_bitSize_bytes (hc : Contract bitSize hashs) (garbage : List (BitVec 8))
    (hg : garbage.length = bitSize) (newBits : List (BitVec 8)) (hn : newBits.length < bitSize) :
    exec bitSize garbage hashs [.set newBits] = .error .ub := by
  simp only [exec, construct_spec hc garbage hg, bind, Except.bind, run, step, set, realSize_eq]
  rw [setLoop_short newBits bitSize 0 _ (by simp) (by omega) (by omega)]

example : 8 ≤ (List.replicate 8 1#8).length ∧ ([1#8] : List (BitVec 8)).length < 8 := by decide

theorem sameBits_run (hc : Contract bitSize hashs) (ops : List (Op E)) :
    ∀ (f g : Filter E), Good bitSize hashs f → Good bitSize hashs g → (∀ j, bit f j = bit g j) →
    (∀ op ∈ ops, op.Valid bitSize) →
    ∃ f' g', run f ops = .ok f' ∧ run g ops = .ok g' ∧ ∀ e, lookup f' e = lookup g' e := by
  induction ops with
  | nil =>
      intro f g hf hg hb _
      refine ⟨f, g, rfl, rfl, fun e => ?_⟩
      obtain ⟨r, h1, h2⟩ := lookup_spec hc f hf e
      obtain ⟨s, h3, h4⟩ := lookup_spec hc g hg e
      rw [h1, h3]; simp only [hb] at h2
      have := h2.trans h4.symm
      cases r <;> cases s <;> simp_all
  | cons op ops ih =>
      intro f g hf hg hb hv
      have hv1 := hv op (by simp)
      have hv2 : ∀ o ∈ ops, o.Valid bitSize := fun o ho => hv o (by simp [ho])
      cases op with
      | add e =>
          obtain ⟨f1, a1, a2, a3⟩ := add_spec hc f hf e
          obtain ⟨g1, b1, b2, b3⟩ := add_spec hc g hg e
          have hb1 : ∀ j, bit f1 j = bit g1 j := by
            intro j
            have := (a3 j).trans ((by rw [hb j] : _ ↔ _).trans (b3 j).symm)
            cases h : bit f1 j <;> cases h' : bit g1 j <;> simp_all
          simpa [run, step, a1, b1, bind, Except.bind] using ih f1 g1 a2 b2 hb1 hv2
      | clear =>
          simp only [run, step, clear_eq f hf, clear_eq g hg, bind, Except.bind]
          exact ih _ _ (good_init _ (by simp)) (good_init _ (by simp)) (fun _ => rfl) hv2
      | set b =>
          obtain ⟨f1, a1, a2, a3, a4⟩ := set_spec f hf.wf b (by rw [hf.size]; exact hv1)
          obtain ⟨g1, b1, b2, b3, b4⟩ := set_spec g hg.wf b (by rw [hg.size]; exact hv1)
          have : f1 = g1 := by
            have := hf.size; have := hg.size; have := hf.hash; have := hg.hash
            cases f1; cases g1; simp_all
          subst this
          obtain ⟨f2, c1, c2⟩ := step_spec hc f hf (.set b) hv1
          have : f2 = f1 := by simp [step, a1] at c1; exact c1.symm
          subst this
          simpa [run, step, a1, b1, bind, Except.bind] using ih f2 f2 c2 c2 (fun _ => rfl) hv2

/-- **C05** Starting from any reachable content, adding two lists with the same members (any order, any
repetition) gives filters that answer every lookup the same, now and after any further calls. -/
theorem C05_order_and_repetition_irrelevant (hc : Contract bitSize hashs) (garbage : List (BitVec 8))
    (hg : garbage.length = bitSize) (pre post : List (Op E)) (hv : ∀ op ∈ pre, op.Valid bitSize)
    (hv' : ∀ op ∈ post, op.Valid bitSize) (es es' : List E) (hes : ∀ e, e ∈ es ↔ e ∈ es') :
    ∃ f f', exec bitSize garbage hashs (pre ++ es.map .add ++ post) = .ok f ∧
      exec bitSize garbage hashs (pre ++ es'.map .add ++ post) = .ok f' ∧
      ∀ e, lookup f e = lookup f' e := by
  simp only [exec, construct_spec hc garbage hg, bind, Except.bind]
  have g0 : Good bitSize hashs { bitSize, bits := List.replicate bitSize 0#8, hashs } :=
    good_init _ (by simp)
  obtain ⟨f1, h1, h2⟩ := run_spec hc pre _ g0 hv
  obtain ⟨f2, h3, h4, h5⟩ := run_adds hc es f1 h2
  obtain ⟨f3, h6, h7, h8⟩ := run_adds hc es' f1 h2
  have hb : ∀ j, bit f2 j = bit f3 j := by
    intro j
    have : bit f2 j = true ↔ bit f3 j = true := by rw [h5, h8]; simp only [hes]
    cases h : bit f2 j <;> cases h' : bit f3 j <;> simp_all
  obtain ⟨f4, f5, h9, h10, h11⟩ := sameBits_run hc post f2 f3 h4 h7 hb hv'
  refine ⟨f4, f5, ?_, ?_, h11⟩
  · simp only [run_append, h1, h3, h9, Except.bind]
  · simp only [run_append, h1, h6, h10, Except.bind]

example : ∀ e : Nat, e ∈ [1, 4, 1, 1] ↔ e ∈ [4, 1] := by simp [or_comm]

/-- **C06** With in-range hashes no history and no lookup fails an assertion or leaves the array. -/
theorem C06_safe (hc : Contract bitSize hashs) (garbage : List (BitVec 8))
    (hg : garbage.length = bitSize) (ops : List (Op E)) (hv : ∀ op ∈ ops, op.Valid bitSize) :
    ∃ f, exec bitSize garbage hashs ops = .ok f ∧ ∀ e, ∃ r, lookup f e = .ok r := by
  simp only [exec, construct_spec hc garbage hg, bind, Except.bind]
  have g0 : Good bitSize hashs { bitSize, bits := List.replicate bitSize 0#8, hashs } :=
    good_init _ (by simp)
  obtain ⟨f, h1, h2⟩ := run_spec hc ops _ g0 hv
  refine ⟨f, h1, fun e => ?_⟩
  obtain ⟨r, h3, _⟩ := lookup_spec hc f h2 e
  exact ⟨r, h3⟩

/-- **C06** If some hash of `e` is out of range (also above `INT_MAX`, where the conversion to `int` is
negative), `add e` stops in an assertion: nothing is written outside of the array. No assumption on the
other elements or hash functions is needed. -/
theorem C06_bad_hash_asserts (hashs : List (E → BitVec 32)) (bitSize : Nat) (hb : 1 ≤ bitSize)
    (hb' : bitSize < 2 ^ 31) (garbage : List (BitVec 8))
    (hg : garbage.length = bitSize) (e : E) (h : E → BitVec 32) (hh : h ∈ hashs)
    (hbad : bitSize ≤ (h e).toNat) :
    exec bitSize garbage hashs [.add e] = .error .assert := by
  have hl : 1 ≤ hashs.length := List.length_pos_of_mem hh
  obtain ⟨f', a1, a2, a3, a4⟩ := clear_spec ({ bitSize, bits := garbage, hashs } : Filter E) hg
  simp only [exec, construct, if_pos (And.intro hb hl), a1, bind, Except.bind, run, step, add]
  rw [addLoop_bad e f'.hashs f' (by simp [WF, a2, a4]) (by rw [a2]; exact hb')
    ⟨h, by rw [a3]; exact hh, by rw [a2]; exact hbad⟩]

/-- one good and one bad hash function, with a value above `INT_MAX` -/
example : exec 4 (List.replicate 4 0#8) [fun (_ : Nat) => 1#32, fun _ => 0xffffffff#32] [.add 7] =
    .error .assert := rfl

/-! Reads with bad hashes, on any filter reached without an error. -/

theorem wf_setBit {f f' : Filter E} {i : Int} (hf : WF f) (h : setBitToOne f i = .ok f') :
    WF f' ∧ f'.bitSize = f.bitSize := by
  unfold setBitToOne at h
  split at h
  · rename_i hi
    obtain ⟨f1, h1, h2, _, h4, _⟩ := setBitToOne_spec f hf i.toNat (by omega)
    have hi' : ((i.toNat : Nat) : Int) = i := by omega
    rw [hi'] at h1
    have : setBitToOne f i = .ok f' := by unfold setBitToOne; rw [if_pos hi]; exact h
    rw [this] at h1
    cases h1
    exact ⟨h4, h2⟩
  · cases h

theorem wf_addLoop (e : E) : ∀ (hs : List (E → BitVec 32)) {f f' : Filter E}, WF f →
    addLoop e hs f = .ok f' → WF f' ∧ f'.bitSize = f.bitSize
  | [], f, f', hf, h => by simp only [addLoop, Except.ok.injEq] at h; subst h; exact ⟨hf, rfl⟩
  | k :: hs, f, f', hf, h => by
      simp only [addLoop, bind, Except.bind] at h
      cases h1 : setBitToOne f (k e).toInt with
      | error x => simp [h1] at h
      | ok f1 =>
          simp only [h1] at h
          obtain ⟨a1, a2⟩ := wf_setBit hf h1
          obtain ⟨b1, b2⟩ := wf_addLoop e hs a1 h
          exact ⟨b1, b2.trans a2⟩

theorem wf_run : ∀ (ops : List (Op E)) {f f' : Filter E}, WF f → (∀ op ∈ ops, op.Valid f.bitSize) →
    run f ops = .ok f' → WF f' ∧ f'.bitSize = f.bitSize
  | [], f, f', hf, _, h => by simp only [run, Except.ok.injEq] at h; subst h; exact ⟨hf, rfl⟩
  | op :: ops, f, f', hf, hv, h => by
      simp only [run, bind, Except.bind] at h
      cases h1 : step f op with
      | error x => simp [h1] at h
      | ok f1 =>
          simp only [h1] at h
          have hs : WF f1 ∧ f1.bitSize = f.bitSize := by
            cases op with
            | add e => exact wf_addLoop e f.hashs hf h1
            | clear =>
                obtain ⟨f2, a1, a2, _, a4⟩ := clear_spec f hf
                have h1' : clear f = .ok f1 := h1
                rw [a1] at h1'; cases h1'
                exact ⟨by simp [WF, a2, a4], a2⟩
            | set b =>
                have hb : f.bitSize ≤ b.length := hv _ (List.mem_cons_self ..)
                obtain ⟨f2, a1, a2, _, a4⟩ := set_spec f hf b hb
                have h1' : set f b = .ok f1 := h1
                rw [a1] at h1'; cases h1'
                exact ⟨by simp [WF, a2, a4, List.length_take, hb], a2⟩
          obtain ⟨b1, b2⟩ := wf_run ops hs.1 (fun o ho => by rw [hs.2]; exact hv o (by simp [ho])) h
          exact ⟨b1, b2.trans hs.2⟩

theorem lookupLoop_bad (e : E) (f : Filter E) (hf : WF f) (hb : f.bitSize < 2 ^ 31) :
    ∀ (hs : List (E → BitVec 32)), (∃ h ∈ hs, f.bitSize ≤ (h e).toNat) →
    lookupLoop e f hs = .ok false ∨ lookupLoop e f hs = .error .assert
  | [], hx => by obtain ⟨_, h, _⟩ := hx; simp at h
  | h :: hs, hx => by
      by_cases h0 : (h e).toNat < f.bitSize
      · have hx' : ∃ k ∈ hs, f.bitSize ≤ (k e).toNat := by
          obtain ⟨k, hk, hk2⟩ := hx
          rcases List.mem_cons.1 hk with rfl | hk
          · omega
          · exact ⟨k, hk, hk2⟩
        have ih := lookupLoop_bad e f hf hb hs hx'
        simp only [lookupLoop, toInt_of_lt hb h0, getBit_spec f hf _ h0, bind, Except.bind, pure, Except.pure]
        cases bit f (h e).toNat
        · exact .inl rfl
        · exact ih
      · have : ¬ (0 ≤ (h e).toInt ∧ (h e).toInt < (f.bitSize : Int)) := by
          rw [BitVec.toInt_eq_toNat_cond]; split <;> omega
        right; simp [lookupLoop, getBit, this, bind, Except.bind]

/-- **C06** A lookup of an element with an out-of-range hash never reads outside of the array: on every filter reached
without an error it answers false (an earlier hash position holds a zero) or stops in an assertion. No assumption on the
hash functions. -/
theorem C06_bad_hash_lookup (hashs : List (E → BitVec 32)) (bitSize : Nat) (hb' : bitSize < 2 ^ 31)
    (garbage : List (BitVec 8)) (hg : garbage.length = bitSize) (ops : List (Op E))
    (hv : ∀ op ∈ ops, op.Valid bitSize) (f : Filter E) (hf : exec bitSize garbage hashs ops = .ok f) (e : E)
    (h : E → BitVec 32) (hh : h ∈ f.hashs) (hbad : bitSize ≤ (h e).toNat) :
    lookup f e = .ok false ∨ lookup f e = .error .assert := by
  obtain ⟨f0, a1, a2, a3, a4⟩ := clear_spec ({ bitSize, bits := garbage, hashs } : Filter E) hg
  simp only [exec, construct, bind, Except.bind] at hf
  by_cases hc : bitSize ≥ 1 ∧ hashs.length ≥ 1
  · simp only [if_pos hc, a1] at hf
    have hw : WF f0 := by simp [WF, a2, a4]
    obtain ⟨b1, b2⟩ := wf_run ops hw (by rw [a2]; exact hv) hf
    have b3 : f.bitSize = bitSize := b2.trans a2
    exact lookupLoop_bad e f b1 (by rw [b3]; exact hb') f.hashs ⟨h, hh, by rw [b3]; exact hbad⟩
  · simp [if_neg hc] at hf

/-- A hash value equal to `bit_size`, just one past the end. -/
example : (exec 4 (List.replicate 4 0#8) [fun (n : Nat) => BitVec.ofNat 32 n] [.add 3]).bind (fun f => lookup f 4) =
    .error .assert := rfl

end Orp.Bloom
