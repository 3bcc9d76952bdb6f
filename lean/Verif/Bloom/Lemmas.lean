import Verif.Bloom.Spec
import Mathlib.Data.List.Induction

namespace Orp.Bloom

variable {E : Type}

/-- value of bit `i`: lowest bit of byte `i` -/
def bit (f : Filter E) (i : Nat) : Bool := (f.bits[i]?.getD 0#8).getLsbD 0

def WF (f : Filter E) : Prop := f.bits.length = f.bitSize

theorem realSize_eq (n : Nat) : realSize n = n := by simp [realSize, BYTE_SIZE, Nat.mod_one]

theorem or_one_lsb (b : BitVec 8) : (b ||| 1#8).getLsbD 0 = true := by simp

theorem and_one (b : BitVec 8) : ((b &&& 1#8) != 0#8) = b.getLsbD 0 := by
  revert b; decide

theorem clearLoop_spec : ∀ (n i : Nat) (bits : List (BitVec 8)), i + n ≤ bits.length →
    ∃ b', clearLoop i n bits = .ok b' ∧ b'.length = bits.length ∧
      ∀ j, b'[j]? = if i ≤ j ∧ j < i + n then some 0#8 else bits[j]?
  | 0, i, bits, _ => ⟨bits, rfl, rfl, fun j => by simp; omega⟩
  | n+1, i, bits, h => by
      have hi : i < bits.length := by omega
      obtain ⟨b', h1, h2, h3⟩ := clearLoop_spec n (i+1) (bits.set i 0#8) (by simp; omega)
      refine ⟨b', ?_, by simpa using h2, fun j => ?_⟩
      · simp only [clearLoop, wr_ok _ hi, bind, Except.bind]; exact h1
      · rw [h3 j]
        by_cases hj : i = j
        · subst hj; simp [hi]
        · simp only [List.getElem?_set, hj, if_false]
          by_cases h4 : i + 1 ≤ j ∧ j < i + 1 + n
          · rw [if_pos h4, if_pos (by omega)]
          · rw [if_neg h4, if_neg (by omega)]

theorem setLoop_spec (nb : List (BitVec 8)) : ∀ (n i : Nat) (bits : List (BitVec 8)),
    i + n ≤ bits.length → i + n ≤ nb.length →
    ∃ b', setLoop nb i n bits = .ok b' ∧ b'.length = bits.length ∧
      ∀ j, b'[j]? = if i ≤ j ∧ j < i + n then nb[j]? else bits[j]?
  | 0, i, bits, _, _ => ⟨bits, rfl, rfl, fun j => by simp; omega⟩
  | n+1, i, bits, h, hb => by
      have hi : i < bits.length := by omega
      have hn : i < nb.length := by omega
      obtain ⟨b', h1, h2, h3⟩ := setLoop_spec nb n (i+1) (bits.set i nb[i]) (by simp; omega) (by omega)
      refine ⟨b', ?_, by simpa using h2, fun j => ?_⟩
      · simp only [setLoop, rd_ok hn, wr_ok _ hi, bind, Except.bind]; exact h1
      · rw [h3 j]
        by_cases hj : i = j
        · subst hj; simp [hi, hn]
        · simp only [List.getElem?_set, hj, if_false]
          by_cases h4 : i + 1 ≤ j ∧ j < i + 1 + n
          · rw [if_pos h4, if_pos (by omega)]
          · rw [if_neg h4, if_neg (by omega)]

/-- one byte too few: the read runs past the end of the argument -/
theorem setLoop_short (nb : List (BitVec 8)) : ∀ (n i : Nat) (bits : List (BitVec 8)),
    i + n ≤ bits.length → i ≤ nb.length → nb.length < i + n → setLoop nb i n bits = .error .ub
  | 0, i, _, _, h1, h2 => by omega
  | n+1, i, bits, h, h1, h2 => by
      have hi : i < bits.length := by omega
      by_cases hn : i < nb.length
      · simp only [setLoop, rd_ok hn, wr_ok _ hi, bind, Except.bind]
        exact setLoop_short nb n (i+1) _ (by simp; omega) (by omega) (by omega)
      · have : nb[i]? = none := by simp; omega
        simp [setLoop, rd, this, bind, Except.bind]

theorem clear_spec (f : Filter E) (hf : WF f) :
    ∃ f', clear f = .ok f' ∧ f'.bitSize = f.bitSize ∧ f'.hashs = f.hashs ∧
      f'.bits = List.replicate f.bitSize 0#8 := by
  obtain ⟨b', h1, h2, h3⟩ := clearLoop_spec f.bitSize 0 f.bits (by rw [hf]; omega)
  refine ⟨{ f with bits := b' }, ?_, rfl, rfl, ?_⟩
  · simp [clear, realSize_eq, h1, bind, Except.bind, pure, Except.pure]
  · apply List.ext_getElem?
    intro j
    simp only [h3, List.getElem?_replicate]
    by_cases hj : j < f.bitSize
    · simp [hj]
    · have : f.bits.length ≤ j := by rw [hf]; omega
      simp [hj]; omega

theorem set_spec (f : Filter E) (hf : WF f) (nb : List (BitVec 8)) (hn : f.bitSize ≤ nb.length) :
    ∃ f', set f nb = .ok f' ∧ f'.bitSize = f.bitSize ∧ f'.hashs = f.hashs ∧
      f'.bits = nb.take f.bitSize := by
  obtain ⟨b', h1, h2, h3⟩ := setLoop_spec nb f.bitSize 0 f.bits (by rw [hf]; omega) (by omega)
  refine ⟨{ f with bits := b' }, ?_, rfl, rfl, ?_⟩
  · simp [set, realSize_eq, h1, bind, Except.bind, pure, Except.pure]
  · apply List.ext_getElem?
    intro j
    simp only [h3, List.getElem?_take]
    by_cases hj : j < f.bitSize
    · simp [hj]
    · have : f.bits.length ≤ j := by rw [hf]; omega
      simp [hj]; omega

theorem setBitToOne_spec (f : Filter E) (hf : WF f) (i : Nat) (hi : i < f.bitSize) :
    ∃ f', setBitToOne f (i : Int) = .ok f' ∧ f'.bitSize = f.bitSize ∧ f'.hashs = f.hashs ∧ WF f' ∧
      ∀ j, bit f' j = (bit f j || (j == i)) := by
  have hl : i < f.bits.length := by rw [hf]; exact hi
  refine ⟨{ f with bits := f.bits.set i (f.bits[i] ||| 1#8) }, ?_, rfl, rfl, by simp [WF, hf.symm], ?_⟩
  · simp [setBitToOne, hi, BYTE_SIZE, Nat.mod_one, rd_ok hl, wr_ok _ hl, bind, Except.bind, pure,
      Except.pure]
  · intro j
    by_cases hj : i = j
    · subst hj; simp [bit, hl]
    · have : (j == i) = false := by simp; omega
      simp [bit, hj, this]

theorem getBit_spec (f : Filter E) (hf : WF f) (i : Nat) (hi : i < f.bitSize) :
    getBit f (i : Int) = .ok (bit f i) := by
  have hl : i < f.bits.length := by rw [hf]; exact hi
  simp only [getBit, BYTE_SIZE, Nat.mod_one, Int.toNat_natCast, Nat.sub_zero, Nat.div_one,
    rd_ok hl, bind, Except.bind, pure, Except.pure]
  rw [if_pos (by omega)]
  congr 1
  have := and_one f.bits[i]
  simpa [bit, hl] using this

theorem toInt_of_lt {x : BitVec 32} {n : Nat} (hn : n < 2 ^ 31) (h : x.toNat < n) :
    x.toInt = (x.toNat : Int) := by
  rw [BitVec.toInt_eq_toNat_cond]; simp; omega

theorem addLoop_spec (e : E) : ∀ (hs : List (E → BitVec 32)) (f : Filter E), WF f →
    f.bitSize < 2 ^ 31 → (∀ h ∈ hs, (h e).toNat < f.bitSize) →
    ∃ f', addLoop e hs f = .ok f' ∧ f'.bitSize = f.bitSize ∧ f'.hashs = f.hashs ∧ WF f' ∧
      ∀ j, bit f' j = true ↔ (bit f j = true ∨ Position hs e j)
  | [], f, hf, _, _ => ⟨f, rfl, rfl, rfl, hf, fun j => by simp [Position]⟩
  | h :: hs, f, hf, hb, hr => by
      have h0 := hr h (by simp)
      obtain ⟨f1, a1, a2, a3, a4, a5⟩ := setBitToOne_spec f hf (h e).toNat h0
      obtain ⟨f2, b1, b2, b3, b4, b5⟩ := addLoop_spec e hs f1 a4 (by omega)
        (fun k hk => by rw [a2]; exact hr k (by simp [hk]))
      refine ⟨f2, ?_, by omega, by rw [b3, a3], b4, fun j => ?_⟩
      · simp only [addLoop, toInt_of_lt hb h0, a1, bind, Except.bind]; exact b1
      · rw [b5, a5]
        simp only [Bool.or_eq_true, beq_iff_eq, Position, List.mem_cons]
        constructor
        · rintro ((h1 | h1) | ⟨k, h1, h2⟩)
          · exact .inl h1
          · exact .inr ⟨h, .inl rfl, h1.symm⟩
          · exact .inr ⟨k, .inr h1, h2⟩
        · rintro (h1 | ⟨k, (rfl | h1), h2⟩)
          · exact .inl (.inl h1)
          · exact .inl (.inr h2.symm)
          · exact .inr ⟨k, h1, h2⟩

/-- an out-of-range hash value stops the call -/
theorem addLoop_bad (e : E) : ∀ (hs : List (E → BitVec 32)) (f : Filter E), WF f →
    f.bitSize < 2 ^ 31 → (∃ h ∈ hs, f.bitSize ≤ (h e).toNat) → addLoop e hs f = .error .assert
  | [], _, _, _, hx => by obtain ⟨_, h, _⟩ := hx; simp at h
  | h :: hs, f, hf, hb, hx => by
      by_cases h0 : (h e).toNat < f.bitSize
      · obtain ⟨f1, a1, a2, a3, a4, a5⟩ := setBitToOne_spec f hf (h e).toNat h0
        simp only [addLoop, toInt_of_lt hb h0, a1, bind, Except.bind]
        apply addLoop_bad e hs f1 a4 (by omega)
        obtain ⟨k, hk, hk2⟩ := hx
        rcases List.mem_cons.1 hk with rfl | hk
        · omega
        · exact ⟨k, hk, by omega⟩
      · have : ¬ (0 ≤ (h e).toInt ∧ (h e).toInt < (f.bitSize : Int)) := by
          rw [BitVec.toInt_eq_toNat_cond]; split <;> omega
        simp [addLoop, setBitToOne, this, bind, Except.bind]

theorem lookupLoop_spec (e : E) (f : Filter E) (hf : WF f) (hb : f.bitSize < 2 ^ 31) :
    ∀ (hs : List (E → BitVec 32)), (∀ h ∈ hs, (h e).toNat < f.bitSize) →
    ∃ r, lookupLoop e f hs = .ok r ∧ (r = true ↔ ∀ i, Position hs e i → bit f i = true)
  | [], _ => ⟨true, rfl, by simp [Position]⟩
  | h :: hs, hr => by
      have h0 := hr h (by simp)
      obtain ⟨r, h1, h2⟩ := lookupLoop_spec e f hf hb hs (fun k hk => hr k (by simp [hk]))
      cases hbit : bit f (h e).toNat
      · refine ⟨false, ?_, ?_⟩
        · simp [lookupLoop, toInt_of_lt hb h0, getBit_spec f hf _ h0, hbit, bind, Except.bind, pure,
            Except.pure]
        · simp only [Bool.false_eq_true, false_iff]
          intro hall
          have := hall _ ⟨h, by simp, rfl⟩
          simp [hbit] at this
      · refine ⟨r, ?_, ?_⟩
        · simp [lookupLoop, toInt_of_lt hb h0, getBit_spec f hf _ h0, hbit, bind, Except.bind, h1]
        · rw [h2]
          constructor
          · rintro hall i ⟨k, hk, hk2⟩
            rcases List.mem_cons.1 hk with rfl | hk
            · rw [← hk2]; exact hbit
            · exact hall i ⟨k, hk, hk2⟩
          · rintro hall i ⟨k, hk, hk2⟩
            exact hall i ⟨k, by simp [hk], hk2⟩

/-- everything known about a filter reached by a legal history -/
structure Good (bitSize : Nat) (hashs : List (E → BitVec 32)) (f : Filter E) : Prop where
  size : f.bitSize = bitSize
  hash : f.hashs = hashs
  wf : WF f

theorem bit_replicate (n i : Nat) (hashs : List (E → BitVec 32)) :
    bit { bitSize := n, bits := List.replicate n 0#8, hashs } i = false := by
  unfold bit; simp only [List.getElem?_replicate]; split <;> simp

variable {bitSize : Nat} {hashs : List (E → BitVec 32)}

theorem construct_spec (hc : Contract bitSize hashs) (g : List (BitVec 8)) (hg : g.length = bitSize) :
    construct bitSize g hashs = .ok { bitSize, bits := List.replicate bitSize 0#8, hashs } := by
  obtain ⟨h1, h2, h3, _⟩ := hc
  obtain ⟨f', a1, a2, a3, a4⟩ := clear_spec ({ bitSize, bits := g, hashs } : Filter E) hg
  simp only [construct]
  rw [if_pos ⟨h1, h3⟩, a1]
  congr 1
  cases f'; simp_all

theorem clear_eq (f : Filter E) (hf : Good bitSize hashs f) :
    clear f = .ok { bitSize, bits := List.replicate bitSize 0#8, hashs } := by
  obtain ⟨f', a1, a2, a3, a4⟩ := clear_spec f hf.wf
  rw [a1]; congr 1
  cases f'; have := hf.size; have := hf.hash; simp_all

theorem good_init (bits : List (BitVec 8)) (h : bits.length = bitSize) :
    Good bitSize hashs { bitSize, bits, hashs } :=
  ⟨rfl, rfl, h⟩

theorem add_spec (hc : Contract bitSize hashs) (f : Filter E) (hf : Good bitSize hashs f) (e : E) :
    ∃ f', add f e = .ok f' ∧ Good bitSize hashs f' ∧
      ∀ j, bit f' j = true ↔ (bit f j = true ∨ Position hashs e j) := by
  obtain ⟨h1, h2, h3, h4⟩ := hc
  obtain ⟨f', a1, a2, a3, a4, a5⟩ := addLoop_spec e f.hashs f hf.wf (by rw [hf.size]; exact h2)
    (by rw [hf.size, hf.hash]; exact fun h hh => h4 h hh e)
  exact ⟨f', a1, ⟨by rw [a2, hf.size], by rw [a3, hf.hash], a4⟩, by rw [← hf.hash]; exact a5⟩

theorem lookup_spec (hc : Contract bitSize hashs) (f : Filter E) (hf : Good bitSize hashs f) (e : E) :
    ∃ r, lookup f e = .ok r ∧ (r = true ↔ ∀ i, Position hashs e i → bit f i = true) := by
  obtain ⟨h1, h2, h3, h4⟩ := hc
  have := lookupLoop_spec e f hf.wf (by rw [hf.size]; exact h2) f.hashs
    (by rw [hf.size, hf.hash]; exact fun h hh => h4 h hh e)
  rw [hf.hash] at this
  simpa [lookup, hf.hash] using this

theorem step_spec (hc : Contract bitSize hashs) (f : Filter E) (hf : Good bitSize hashs f) (op : Op E)
    (hv : op.Valid bitSize) : ∃ f', step f op = .ok f' ∧ Good bitSize hashs f' := by
  cases op with
  | add e => obtain ⟨f', h1, h2, _⟩ := add_spec hc f hf e; exact ⟨f', h1, h2⟩
  | clear => exact ⟨_, clear_eq f hf, good_init _ (by simp)⟩
  | set b =>
      obtain ⟨f', a1, a2, a3, a4⟩ := set_spec f hf.wf b (by rw [hf.size]; exact hv)
      refine ⟨f', a1, ⟨by rw [a2, hf.size], by rw [a3, hf.hash], ?_⟩⟩
      have : f.bitSize ≤ b.length := by rw [hf.size]; exact hv
      simp [WF, a4, a2, this]

theorem run_spec (hc : Contract bitSize hashs) : ∀ (ops : List (Op E)) (f : Filter E),
    Good bitSize hashs f → (∀ op ∈ ops, op.Valid bitSize) →
    ∃ f', run f ops = .ok f' ∧ Good bitSize hashs f'
  | [], f, hf, _ => ⟨f, rfl, hf⟩
  | op :: ops, f, hf, hv => by
      obtain ⟨f1, h1, h2⟩ := step_spec hc f hf op (hv op (by simp))
      obtain ⟨f2, h3, h4⟩ := run_spec hc ops f1 h2 (fun o ho => hv o (by simp [ho]))
      exact ⟨f2, by simp [run, h1, bind, Except.bind, h3], h4⟩

theorem run_adds (hc : Contract bitSize hashs) : ∀ (es : List E) (f : Filter E),
    Good bitSize hashs f →
    ∃ f', run f (es.map .add) = .ok f' ∧ Good bitSize hashs f' ∧
      ∀ j, bit f' j = true ↔ (bit f j = true ∨ ∃ e ∈ es, Position hashs e j)
  | [], f, hf => ⟨f, rfl, hf, by simp⟩
  | e :: es, f, hf => by
      obtain ⟨f1, h1, h2, h3⟩ := add_spec hc f hf e
      obtain ⟨f2, h4, h5, h6⟩ := run_adds hc es f1 h2
      refine ⟨f2, by simp [run, step, h1, bind, Except.bind, h4], h5, fun j => ?_⟩
      rw [h6, h3]; simp only [List.mem_cons, exists_eq_or_imp]; exact or_assoc

theorem run_append (f : Filter E) (a b : List (Op E)) :
    run f (a ++ b) = (run f a).bind (fun g => run g b) := by
  induction a generalizing f with
  | nil => rfl
  | cons op ops ih =>
      simp only [List.cons_append, run, bind, Except.bind]
      cases step f op with
      | error x => rfl
      | ok g => simpa [Except.bind] using ih g

/-- bits of the added elements stay set -/
theorem run_since (hc : Contract bitSize hashs) (f0 : Filter E) (hf : Good bitSize hashs f0)
    (ops : List (Op E)) : (∀ op ∈ ops, op.Valid bitSize) → ∀ f, run f0 ops = .ok f →
    ∀ e ∈ addedSince ops, ∀ i, Position hashs e i → bit f i = true := by
  induction ops using List.reverseRecOn with
  | nil => intro _ f _ e he; simp [addedSince] at he
  | append_singleton ops op ih =>
      intro hv f hrun e he i hi
      rw [run_append] at hrun
      obtain ⟨f1, h1, h2⟩ := run_spec hc ops f0 hf (fun o ho => hv o (by simp [ho]))
      rw [h1] at hrun
      simp only [Except.bind, run, bind, Except.bind] at hrun
      cases op with
      | add e' =>
          obtain ⟨f2, h3, h4, h5⟩ := add_spec hc f1 h2 e'
          simp only [step, h3, Except.ok.injEq] at hrun
          subst hrun
          rw [h5]
          simp only [addedSince, List.foldl_append, List.foldl_cons, List.foldl_nil,
            List.mem_append, List.mem_singleton] at he
          rcases he with he | rfl
          · exact .inl (ih (fun o ho => hv o (by simp [ho])) f1 h1 e he i hi)
          · exact .inr hi
      | clear => simp [addedSince] at he
      | set b => simp [addedSince] at he

end Orp.Bloom
