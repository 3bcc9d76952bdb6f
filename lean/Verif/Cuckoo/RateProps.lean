import Verif.Cuckoo.Props
import Mathlib.Algebra.Order.Field.Basic
import Mathlib.Data.Rat.Cast.Order
import Mathlib.Algebra.Order.BigOperators.Group.Finset
import Mathlib.Tactic.GCongr
import Mathlib.Tactic.Positivity

/-!
Property C92: how many elements a Cuckoo filter can report wrongly.
-/

set_option linter.unusedSectionVars false

namespace Orp.Cuckoo

variable {E : Type}

/-- the number of adds since the last `clear` -/
def recentAdds : List (Op E) → Nat
  | [] => 0
  | op :: ops =>
    if ops.any (fun o => match o with | .clear => true | _ => false) then recentAdds ops
    else (match op with | .add .. => 1 | _ => 0) + recentAdds ops

/-- The elements of a set that share a key are at most two, if no two elements have both the same fingerprint and the same bucket. -/
theorem same_key_le_two (c : Cfg E) (X : Finset E)
    (hX : ∀ x ∈ X, ∀ y ∈ X, c.fingerprint x = c.fingerprint y → c.hashE x = c.hashE y → x = y) (k : Key) :
    (X.filter fun x => key c x = k).card ≤ 2 := by
  classical
  by_contra hcon
  push Not at hcon
  obtain ⟨x, y, z, hx, hy, hz, hxy, hxz, hyz⟩ := Finset.two_lt_card_iff.1 hcon
  simp only [Finset.mem_filter] at hx hy hz
  have fxy : c.fingerprint x = c.fingerprint y := congrArg Prod.fst (hx.2.trans hy.2.symm)
  have fxz : c.fingerprint x = c.fingerprint z := congrArg Prod.fst (hx.2.trans hz.2.symm)
  have pxy : s(c.hashE x, c.hashE x ^^^ c.hashF (c.fingerprint x)) = s(c.hashE y, c.hashE y ^^^ c.hashF (c.fingerprint y)) :=
    congrArg Prod.snd (hx.2.trans hy.2.symm)
  have pxz : s(c.hashE x, c.hashE x ^^^ c.hashF (c.fingerprint x)) = s(c.hashE z, c.hashE z ^^^ c.hashF (c.fingerprint z)) :=
    congrArg Prod.snd (hx.2.trans hz.2.symm)
  rw [← fxy] at pxy
  rw [← fxz] at pxz
  rcases (pair_eq_iff _ _ _).1 pxy with h | h
  · exact hxy (hX x hx.1 y hy.1 fxy h)
  rcases (pair_eq_iff _ _ _).1 pxz with h' | h'
  · exact hxz (hX x hx.1 z hz.1 fxz h')
  have : c.hashE y = c.hashE z := by
    have := h.symm.trans h'
    have h2 := congrArg (· ^^^ c.hashF (c.fingerprint x)) this
    simpa [BitVec.xor_assoc] using h2
  exact hyz (hX y hy.1 z hz.1 (fxy.symm.trans fxz) this)

theorem bag_card_le {c : Cfg E} {m m' : Multiset Key} {ops os} (h : BagRun c m ops os m') :
    m'.card ≤ (if ops.any (fun o => match o with | .clear => true | _ => false) then 0 else m.card) + recentAdds ops := by
  induction h with
  | nil m => simp [recentAdds]
  | @cons m m1 m2 op ops o os h1 h2 ih =>
    simp only [recentAdds, List.any_cons]
    split at ih
    next hc => simp [hc]; omega
    next hc =>
      cases h1 with
      | added => simp [hc] at ih ⊢; omega
      | failed m' e a b k he =>
        have := congrArg Multiset.card he
        simp [hc] at ih this ⊢; omega
      | found => simp [hc] at ih ⊢; omega
      | removed e =>
        have := Multiset.card_erase_le (s := m) (a := key c e)
        simp [hc] at ih ⊢; omega
      | cleared => simp [hc] at ih ⊢; omega

open Classical in
/-- **C92** Take any history of calls, and any set of elements no two of which have both the same fingerprint and the same bucket. After the history
`lookup` answers true for at most twice as many of them as there were calls of `add` since the last `clear`, and for at most twice as many as the filter has entries. -/
theorem C92_reported {c : Cfg E} (hc : Contract c) (ops : List (Op E)) (hv : ∀ op ∈ ops, op.Valid) :
    ∃ f os, run c (init c) ops = .ok (f, os) ∧
      ∀ X : Finset E, (∀ x ∈ X, ∀ y ∈ X, c.fingerprint x = c.fingerprint y → c.hashE x = c.hashE y → x = y) →
        (X.filter fun x => lookup c f x = .ok true).card ≤ 2 * min (recentAdds ops) (c.bucketCount * c.bucketSize) := by
  obtain ⟨f, os, h1, hf, h2⟩ := run_refines hc ops (init c) (init_wf c) hv
  refine ⟨f, os, h1, fun X hX => ?_⟩
  have hcard : (contents c f).card ≤ min (recentAdds ops) (c.bucketCount * c.bucketSize) := by
    refine le_min ?_ (contents_card_le c f)
    have := bag_card_le h2
    rw [init_contents hc.geo] at this
    simpa using this
  have hsub : (X.filter fun x => lookup c f x = .ok true) ⊆
      (contents c f).toFinset.biUnion fun k => X.filter fun x => key c x = k := by
    intro x hx
    simp only [Finset.mem_filter] at hx
    obtain ⟨r, e1, e2⟩ := lookup_spec hc hf x
    rw [e1] at hx
    simp only [Except.ok.injEq] at hx
    simp only [Finset.mem_biUnion, Multiset.mem_toFinset, Finset.mem_filter]
    exact ⟨_, e2.1 hx.2, hx.1, rfl⟩
  calc _ ≤ _ := Finset.card_le_card hsub
    _ ≤ (contents c f).toFinset.card * 2 := Finset.card_biUnion_le_card_mul _ _ _ fun k _ => same_key_le_two c X hX k
    _ ≤ (contents c f).card * 2 := by gcongr; exact Multiset.toFinset_card_le _
    _ ≤ _ := by omega

open Classical in
/-- **C92** (as a rate) Take a set with one element for each of the `(2 ^ entry_size - 1) * bucket_count` combinations of a fingerprint and a bucket.
Whatever the history, the part of these elements for which `lookup` answers true is at most `2 * adds / ((2 ^ entry_size - 1) * bucket_count)`, where `adds` is the number of
calls of `add` since the last `clear`, and it never exceeds `2 * bucket_size / (2 ^ entry_size - 1)`. -/
theorem C92_rate {c : Cfg E} (hc : Contract c) (ops : List (Op E)) (hv : ∀ op ∈ ops, op.Valid) :
    ∃ f os, run c (init c) ops = .ok (f, os) ∧
      ∀ X : Finset E, (∀ x ∈ X, ∀ y ∈ X, c.fingerprint x = c.fingerprint y → c.hashE x = c.hashE y → x = y) →
        X.card = (2 ^ c.entrySize - 1) * c.bucketCount →
        ((X.filter fun x => lookup c f x = .ok true).card / X.card : ℚ) ≤
            2 * recentAdds ops / ((2 ^ c.entrySize - 1) * c.bucketCount) ∧
        ((X.filter fun x => lookup c f x = .ok true).card / X.card : ℚ) ≤ 2 * c.bucketSize / (2 ^ c.entrySize - 1) := by
  obtain ⟨f, os, h1, h2⟩ := C92_reported hc ops hv
  refine ⟨f, os, h1, fun X hX hcard => ?_⟩
  have h := h2 X hX
  have hpos : 0 < c.bucketCount := by obtain ⟨k, hk⟩ := hc.pow; rw [hk]; positivity
  have hge : 2 ≤ 2 ^ c.entrySize := by
    calc 2 = 2 ^ 1 := rfl
      _ ≤ _ := Nat.pow_le_pow_right (by norm_num) hc.entry.1
  have hfp : (0 : ℚ) < 2 ^ c.entrySize - 1 := by
    have : (2 : ℚ) ≤ 2 ^ c.entrySize := by exact_mod_cast hge
    linarith
  have hb : (0 : ℚ) < c.bucketCount := by exact_mod_cast hpos
  have hX' : (X.card : ℚ) = (2 ^ c.entrySize - 1) * c.bucketCount := by
    rw [hcard, Nat.cast_mul, Nat.cast_sub (by omega)]; norm_num
  have a1 : ((X.filter fun x => lookup c f x = .ok true).card : ℚ) ≤ 2 * recentAdds ops := by
    exact_mod_cast h.trans (by omega)
  have a2 : ((X.filter fun x => lookup c f x = .ok true).card : ℚ) ≤ 2 * (c.bucketCount * c.bucketSize) := by
    exact_mod_cast h.trans (by omega)
  rw [hX']
  refine ⟨by gcongr, ?_⟩
  rw [div_le_div_iff₀ (by positivity) hfp]
  calc _ ≤ (2 * (c.bucketCount * c.bucketSize)) * ((2 : ℚ) ^ c.entrySize - 1) := by gcongr
    _ = _ := by ring

/-- In the configuration `exCfg` the numbers 0 to 13 have all 14 combinations of a fingerprint and a bucket; after the history `exOps`
the elements 3, 10 and 17 are in the filter, 3 and 17 with the same key, and exactly two of the fourteen numbers are reported. -/
example : (∀ x ∈ Finset.range 14, ∀ y ∈ Finset.range 14, exCfg.fingerprint x = exCfg.fingerprint y → exCfg.hashE x = exCfg.hashE y → x = y) ∧
    (Finset.range 14).card = (2 ^ exCfg.entrySize - 1) * exCfg.bucketCount ∧ recentAdds exOps = 4 ∧
    (run exCfg (init exCfg) exOps).map (fun p => (List.range 14).filter fun x => decide (lookup exCfg p.1 x = .ok true)) = .ok [3, 10] := by
  refine ⟨by decide +kernel, by decide, by decide, by decide +kernel⟩

/-- The factor two is needed: one element in the filter, two are reported. -/
example : recentAdds [Op.add 2 (fun _ => 0) (fun _ => 0)] = 1 ∧
    (run exCfg (init exCfg) [.add 2 (fun _ => 0) (fun _ => 0)]).map
      (fun p => (List.range 14).filter fun x => decide (lookup exCfg p.1 x = .ok true)) = .ok [2, 9] := by
  refine ⟨by decide, by decide +kernel⟩

end Orp.Cuckoo
