import Verif.Unbound.Model
import Verif.Mondrian.Run

/-!
The way up to the root: `update_counters` on a heap that holds a tree.
-/

set_option linter.unusedSectionVars false

namespace Orp.Unbound

open Mondrian

variable {K : Type} [Field K] [LinearOrder K] [IsStrictOrderedRing K] [FloorRing K] {F L : Nat}

/-- the counters of a split node, from those of the child looked at and its sibling -/
def frameCounts (what : Option (Fin L)) (f : Frame K F L) (c : Fin L → Nat) : Fin L → Nat :=
  recomputed what f.d.counts (if f.left then c else f.sib.data.counts) (if f.left then f.sib.data.counts else c)

def Frame.withCounts (f : Frame K F L) (c : Fin L → Nat) : Frame K F L :=
  { f with d := { tau := f.d.tau, box := f.d.box, counts := c } }

/-- the nodes above the place looked at, with their counters recomputed; `c` are those of the place -/
def refix (what : Option (Fin L)) : List (Frame K F L) → (Fin L → Nat) → List (Frame K F L)
  | [], _ => []
  | f :: fs, c => Frame.withCounts f (frameCounts what f c) :: refix what fs (frameCounts what f c)

theorem refix_par (what : Option (Fin L)) (fs : List (Frame K F L)) (c : Fin L → Nat) : ctxPar (refix what fs c) = ctxPar fs := by
  cases fs <;> rfl

theorem refix_ids (what : Option (Fin L)) : ∀ (fs : List (Frame K F L)) (c : Fin L → Nat), ctxIds (refix what fs c) = ctxIds fs
  | [], _ => rfl
  | f :: fs, c => by simp only [refix, ctxIds, refix_ids what fs]; rfl

theorem refix_length (what : Option (Fin L)) : ∀ (fs : List (Frame K F L)) (c : Fin L → Nat), (refix what fs c).length = fs.length
  | [], _ => rfl
  | f :: fs, c => by simp only [refix, List.length_cons, refix_length what fs]

/-- only counters differ -/
def OnlyCounts (heap heap' : List (Node K F L)) : Prop :=
  heap'.length = heap.length ∧ ∀ (i : Nat) (n : Node K F L), heap[i]? = some n → ∃ c, heap'[i]? = some { n with counts := c }

theorem OnlyCounts.refl (heap : List (Node K F L)) : OnlyCounts heap heap := ⟨rfl, fun _ n h => ⟨n.counts, h⟩⟩

theorem OnlyCounts.trans {a b c : List (Node K F L)} (h1 : OnlyCounts a b) (h2 : OnlyCounts b c) : OnlyCounts a c := by
  refine ⟨h2.1.trans h1.1, fun i n hn => ?_⟩
  obtain ⟨d, hd⟩ := h1.2 i n hn
  obtain ⟨e, he⟩ := h2.2 i _ hd
  exact ⟨e, he⟩

theorem fill_data (f : Frame K F L) (t : Tree K F L) : (f.fill t).data = f.d := by
  unfold Frame.fill; split <;> rfl

theorem updateCounters_spec (what : Option (Fin L)) : ∀ (fs : List (Frame K F L)) (t : Tree K F L) (heap : List (Node K F L)) (fuel : Nat),
    fs.length ≤ fuel → HoldsCtx heap fs t.id → Holds heap (ctxPar fs) t → (t.ids ++ ctxIds fs).Nodup →
    ∃ heap', updateCounters what fuel (ctxPar fs) heap = .ok heap' ∧ OnlyCounts heap heap' ∧
      Holds heap' none (plug (refix what fs t.data.counts) t) ∧ ∀ i, i ∉ ctxIds fs → heap'[i]? = heap[i]?
  | [], t, heap, fuel, hf, hctx, ht, hnd => ⟨heap, by cases fuel <;> rfl, .refl _, ht, fun _ _ => rfl⟩
  | f :: fs, t, heap, 0, hf, hctx, ht, hnd => by simp at hf
  | f :: fs, t, heap, fuel + 1, hf, ⟨⟨n, h1, h2, h3, h4, h5, h6⟩, hs, hctx⟩, ht, hnd => by
      have hnd' := hnd
      simp only [ctxIds, List.nodup_append', List.nodup_cons, List.mem_append, not_or] at hnd'
      obtain ⟨ndt, ⟨⟨n1, n2⟩, ⟨n3, n4, n5⟩⟩, n6⟩ := hnd'
      obtain ⟨nt, ht1, ht2⟩ := holds_root ht
      obtain ⟨nsib, hs1, hs2⟩ := holds_root hs
      have hft : f.id ∉ t.ids := fun h => n6 h (by simp)
      obtain ⟨heap1, u1, u2, u3⟩ := upd_spec (fun n => { n with counts := frameCounts what f t.data.counts }) h1
      have hstep : (do
          let l ← init n.left
          let r ← init n.right
          let nl ← rd heap l
          let nr ← rd heap r
          upd heap f.id (fun m => { m with counts := recomputed what m.counts nl.counts nr.counts }) : Res (List (Node K F L))) = .ok heap1 := by
        rw [h5, h6]
        have hc : n.counts = f.d.counts := h2.2.2.2
        cases hl : f.left
        · have e : frameCounts what f t.data.counts = recomputed what n.counts nsib.counts nt.counts := by
            simp [frameCounts, hl, hs2.2.2.2, ht2.2.2.2, hc]
          rw [← u1]
          simp only [Bool.false_eq_true, if_false, init, bind, Except.bind, rd_eq_ok_iff.2 ht1, rd_eq_ok_iff.2 hs1, upd, rd_eq_ok_iff.2 h1, e]
        · have e : frameCounts what f t.data.counts = recomputed what n.counts nt.counts nsib.counts := by
            simp [frameCounts, hl, hs2.2.2.2, ht2.2.2.2, hc]
          rw [← u1]
          simp only [if_true, init, bind, Except.bind, rd_eq_ok_iff.2 ht1, rd_eq_ok_iff.2 hs1, upd, rd_eq_ok_iff.2 h1, e]
      have hoc : OnlyCounts heap heap1 := by
        refine ⟨u2, fun i m hm => ?_⟩
        rw [u3]
        split
        · rename_i e; subst e
          rw [h1] at hm
          have := Option.some.inj hm
          subst this
          exact ⟨_, rfl⟩
        · exact ⟨m.counts, hm⟩
      have hother : ∀ i, i ≠ f.id → heap1[i]? = heap[i]? := fun i hi => by rw [u3, if_neg hi]
      have e1 : HoldsCtx heap1 fs f.id := holdsCtx_congr (fun i hi => hother i (fun e => n2 (e ▸ hi))) hctx
      have e2 : Holds heap1 (ctxPar fs) ((Frame.withCounts f (frameCounts what f t.data.counts)).fill t) := by
        rw [holds_fill]
        have c1 : Holds heap1 (some f.id) f.sib := holds_congr (fun i hi => hother i (fun e => n1 (e ▸ hi))) hs
        have c2 : Holds heap1 (some f.id) t := holds_congr (fun i hi => hother i (fun e => hft (e ▸ hi))) ht
        exact ⟨⟨{ n with counts := frameCounts what f t.data.counts }, by rw [u3]; exact if_pos rfl, ⟨h2.1, h2.2.1, h2.2.2.1, rfl⟩, h3, h4, h5, h6⟩, c1, c2⟩
      have hids : List.Perm (((Frame.withCounts f (frameCounts what f t.data.counts)).fill t).ids ++ ctxIds fs) (t.ids ++ ctxIds (f :: fs)) := by
        refine ((fill_ids _ t).append_right _).trans ?_
        simp [ctxIds, Frame.withCounts]
      obtain ⟨heap', a1, a2, a3, a4⟩ := updateCounters_spec what fs ((Frame.withCounts f (frameCounts what f t.data.counts)).fill t) heap1 fuel
        (by simpa using hf) (by rw [fill_id]; exact e1) e2 (hids.nodup_iff.2 hnd)
      refine ⟨heap', ?_, hoc.trans a2, ?_, fun i hi => ?_⟩
      · simp only [ctxPar, updateCounters, rd_eq_ok_iff.2 h1, bind, Except.bind, h3]
        simp only [bind, Except.bind] at hstep
        rw [hstep]
        simp only []
        rw [h2.1]
        exact a1
      · rw [fill_data] at a3
        exact a3
      · simp only [ctxIds, List.mem_cons, List.mem_append, not_or] at hi
        rw [a4 i hi.2.2, hother i hi.1]

/-! ### The recomputed counters are right -/

/-- the counters of the nodes above the place are right for counters `c` of the place -/
def CtxRight : List (Frame K F L) → (Fin L → Nat) → Prop
  | [], _ => True
  | f :: fs, c => f.d.counts = frameCounts none f c ∧ CtxRight fs f.d.counts

/-- the subtrees beside the way have right counters -/
def SibsRight (fs : List (Frame K F L)) : Prop := ∀ f ∈ fs, f.sib.recount = f.sib

theorem recount_data_counts (t : Tree K F L) : t.recount.data.tau = t.data.tau ∧ t.recount.data.box = t.data.box := by cases t <;> exact ⟨rfl, rfl⟩

theorem plug_recount_congr : ∀ (fs : List (Frame K F L)) (a b : Tree K F L), a.recount = b.recount → (plug fs a).recount = (plug fs b).recount
  | [], _, _, h => h
  | f :: fs, a, b, h => by
      refine plug_recount_congr fs _ _ ?_
      unfold Frame.fill
      split <;> simp [Tree.recount, h]

theorem frameCounts_none (f : Frame K F L) (t : Tree K F L) (ht : t.recount = t) (hs : f.sib.recount = f.sib) :
    ((Frame.withCounts f (frameCounts none f t.data.counts)).fill t).recount = (Frame.withCounts f (frameCounts none f t.data.counts)).fill t ∧
    ((Frame.withCounts f (frameCounts none f t.data.counts)).fill t).recount = (f.fill t).recount := by
  unfold Frame.fill Frame.withCounts frameCounts recomputed
  cases hl : f.left <;> simp [Tree.recount, ht, hs, min_eq]

theorem plug_refix : ∀ (fs : List (Frame K F L)) (t : Tree K F L), t.recount = t → SibsRight fs →
    plug (refix none fs t.data.counts) t = (plug fs t).recount
  | [], t, ht, _ => ht.symm
  | f :: fs, t, ht, hs => by
      obtain ⟨a, b⟩ := frameCounts_none f t ht (hs f (by simp))
      have ih := plug_refix fs _ a (fun g hg => hs g (by simp [hg]))
      rw [fill_data] at ih
      show plug (refix none fs (frameCounts none f t.data.counts)) ((Frame.withCounts f (frameCounts none f t.data.counts)).fill t) = _
      refine ih.trans ?_
      exact plug_recount_congr fs _ _ b

theorem refix_refix (w : Option (Fin L)) : ∀ (fs : List (Frame K F L)) (c c0 : Fin L → Nat), refix none (refix w fs c0) c = refix none fs c
  | [], _, _ => rfl
  | f :: fs, c, c0 => by
      have : frameCounts none (Frame.withCounts f (frameCounts w f c0)) c = frameCounts none f c := rfl
      simp only [refix, this]
      rw [refix_refix w fs]
      rfl

/-- If the counters of the place changed for one label only, it suffices to recompute that label. -/
theorem refix_label (k : Fin L) : ∀ (fs : List (Frame K F L)) (c c0 : Fin L → Nat), CtxRight fs c0 → (∀ j, j ≠ k → c j = c0 j) →
    refix (some k) fs c = refix none fs c
  | [], _, _, _, _ => rfl
  | f :: fs, c, c0, ⟨h1, h2⟩, h => by
      have e : frameCounts (some k) f c = frameCounts none f c := by
        funext j
        simp only [frameCounts, recomputed, Function.update_apply]
        by_cases hj : j = k
        · rw [if_pos hj, hj]
        · rw [if_neg hj, h1]
          simp only [frameCounts, recomputed]
          cases f.left <;> simp [h j hj]
      simp only [refix, e]
      rw [refix_label k fs _ f.d.counts h2]
      intro j hj
      rw [h1]
      simp only [frameCounts, recomputed]
      cases f.left <;> simp [h j hj]

end Orp.Unbound
