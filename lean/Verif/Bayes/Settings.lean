import Verif.Bayes.Props

/-!
Property C132 for Naive Bayes: `get_smoothing` returns the last value that was set, after every history of public calls.
-/

set_option linter.unusedSectionVars false

namespace Orp.Bayes

variable {K : Type} [Field K] [LinearOrder K] [IsStrictOrderedRing K]

/-- The public calls (naive_bayes.hpp:66-111). -/
inductive Call (K : Type) where
  | train (e : Ex K)
  | predict (x : List K)
  | setSmoothing (v : K)
  | getSmoothing

/-- What a call returns. -/
inductive Answer (K : Type) where
  | trained
  | label (l : Nat) (scores : List (Dbl K))
  | unit
  | value (v : K)

/-- One call (naive_bayes.hpp:66-111). -/
def call (env : Env K) (lc fc : Nat) (m : Model K) : Call K → Res (Model K × Answer K)
  | .train e => do
      let m ← train fc m e.x e.label e.w
      return (m, .trained)
  | .predict x => do
      let r ← predict env lc fc m x
      return (m, .label r.1 r.2)
  | .setSmoothing v => return (setSmoothing m v, .unit)
  | .getSmoothing => return (m, .value (getSmoothing m))

/-- A history of public calls with what each returns. -/
def session (env : Env K) (lc fc : Nat) (m : Model K) : List (Call K) → Res (Model K × List (Answer K))
  | [] => .ok (m, [])
  | c :: cs => do
      let (m, a) ← call env lc fc m c
      let (m, as) ← session env lc fc m cs
      return (m, a :: as)

/-- Specification: what is set after a history, when `v` was set before it. -/
def lastSet (v : K) : List (Call K) → K
  | [] => v
  | .setSmoothing w :: cs => lastSet w cs
  | _ :: cs => lastSet v cs

/-- Specification: the answers that do not concern the smoothing. -/
def learning : List (Answer K) → List (Answer K) :=
  List.filter fun a => match a with
    | .trained => true
    | .label _ _ => true
    | _ => false

/-- Specification: the calls that do not concern the smoothing. -/
def learningCalls : List (Call K) → List (Call K) :=
  List.filter fun a => match a with
    | .train _ => true
    | .predict _ => true
    | _ => false

theorem call_ok (env : Env K) {lc fc : Nat} {m : Model K} {c : Call K} {r : Model K × Answer K}
    (h : call env lc fc m c = .ok r) :
    r.1.smoothing = lastSet m.smoothing [c] ∧ (c = .getSmoothing → r.2 = .value m.smoothing) := by
  cases c with
  | train e =>
      simp only [call, train, bind, Except.bind, pure, Except.pure] at h
      split at h
      · cases h
      · rename_i m' hm
        cases h
        refine ⟨?_, by simp⟩
        split at hm
        · cases hm
        · split at hm
          · cases hm
          · split at hm
            · cases hm
            · cases hm
              rfl
  | predict x =>
      simp only [call, bind, Except.bind, pure, Except.pure] at h
      split at h
      · cases h
      · cases h
        exact ⟨rfl, by simp⟩
  | setSmoothing v =>
      simp only [call, pure, Except.pure] at h
      cases h
      exact ⟨rfl, by simp⟩
  | getSmoothing =>
      simp only [call, pure, Except.pure] at h
      cases h
      exact ⟨rfl, fun _ => rfl⟩

theorem lastSet_cons (v : K) (c : Call K) (cs : List (Call K)) : lastSet v (c :: cs) = lastSet (lastSet v [c]) cs := by
  cases c <;> rfl

theorem session_cons (env : Env K) {lc fc : Nat} {m : Model K} {c : Call K} {cs : List (Call K)}
    {r : Model K × List (Answer K)} (h : session env lc fc m (c :: cs) = .ok r) :
    ∃ q t, call env lc fc m c = .ok q ∧ session env lc fc q.1 cs = .ok t ∧ r = (t.1, q.2 :: t.2) := by
  simp only [session, bind, Except.bind, pure, Except.pure] at h
  cases hq : call env lc fc m c with
  | error e => rw [hq] at h; cases h
  | ok q =>
      rw [hq] at h
      simp only at h
      cases ht : session env lc fc q.1 cs with
      | error e => rw [ht] at h; cases h
      | ok t =>
          rw [ht] at h
          cases h
          exact ⟨q, t, rfl, ht, rfl⟩

theorem session_smoothing (env : Env K) {lc fc : Nat} (cs : List (Call K)) : ∀ (m : Model K) (r : Model K × List (Answer K)),
    session env lc fc m cs = .ok r → r.1.smoothing = lastSet m.smoothing cs ∧
      ∀ i : Nat, cs[i]? = some .getSmoothing → r.2[i]? = some (.value (lastSet m.smoothing (cs.take i))) := by
  induction cs with
  | nil =>
      intro m r h
      cases h
      exact ⟨rfl, by simp⟩
  | cons c cs ih =>
      intro m r h
      obtain ⟨q, t, hq, ht, rfl⟩ := session_cons env h
      obtain ⟨h1, h2⟩ := call_ok env hq
      obtain ⟨h3, h4⟩ := ih q.1 t ht
      refine ⟨?_, ?_⟩
      · rw [lastSet_cons, ← h1]; exact h3
      · intro i hi
        cases i with
        | zero =>
            simp only [List.getElem?_cons_zero, Option.some.injEq] at hi
            simp only [List.getElem?_cons_zero, List.take_zero, h2 hi, lastSet]
        | succ i =>
            simp only [List.getElem?_cons_succ] at hi ⊢
            rw [h4 i hi, List.take_succ_cons, lastSet_cons, ← h1]

/-- **C132** Whatever is trained and predicted, `get_smoothing` returns the value given last to `set_smoothing`, or the one given to the
constructor. -/
theorem C132_smoothing (env : Env K) {lc fc : Nat} (v : K) (cs : List (Call K)) {m : Model K} {as : List (Answer K)}
    (h : session env lc fc (new lc fc v) cs = .ok (m, as)) (i : Nat) (hi : cs[i]? = some .getSmoothing) :
    as[i]? = some (.value (lastSet v (cs.take i))) :=
  (session_smoothing env cs _ _ h).2 i hi

theorem setSmoothing_train {fc : Nat} (m : Model K) (v : K) (x : List K) (l : Nat) (w : K) :
    train fc (setSmoothing m v) x l w = (train fc m x l w).map (fun m => setSmoothing m v) := by
  simp only [train, setSmoothing, bind, Except.bind, pure, Except.pure]
  cases trainLoop fc x l w 0 fc m.counters with
  | error e => rfl
  | ok c =>
      simp only
      cases rd m.labelWeights l with
      | error e => rfl
      | ok a =>
          simp only
          cases wr m.labelWeights l (a + w) with
          | error e => rfl
          | ok b => rfl

theorem session_learning (env : Env K) {lc fc : Nat} (cs : List (Call K)) : ∀ (m : Model K) (v : K)
    (r : Model K × List (Answer K)), session env lc fc m cs = .ok r →
    ∃ t, session env lc fc (setSmoothing m v) (learningCalls cs) = .ok t ∧ t.2 = learning r.2 := by
  induction cs with
  | nil =>
      intro m v r h
      cases h
      exact ⟨_, rfl, rfl⟩
  | cons c cs ih =>
      intro m v r h
      obtain ⟨q, t, hq, ht, rfl⟩ := session_cons env h
      obtain ⟨u, hu, hu2⟩ := ih q.1 v t ht
      cases c with
      | train e =>
          cases hm : train fc m e.x e.label e.w with
          | error x => simp [call, hm, bind, Except.bind] at hq
          | ok m' =>
              simp only [call, hm, bind, Except.bind, pure, Except.pure, Except.ok.injEq] at hq
              subst hq
              refine ⟨(u.1, .trained :: u.2), ?_, ?_⟩
              · have : learningCalls (.train e :: cs) = .train e :: learningCalls cs := rfl
                rw [this]
                simp only [session, call, setSmoothing_train, hm, Except.map, bind, Except.bind, pure, Except.pure]
                rw [hu]
              · have : learning (Answer.trained :: t.2) = .trained :: learning t.2 := rfl
                rw [this, hu2]
      | predict x =>
          cases hm : predict env lc fc m x with
          | error y => simp [call, hm, bind, Except.bind] at hq
          | ok p =>
              simp only [call, hm, bind, Except.bind, pure, Except.pure, Except.ok.injEq] at hq
              subst hq
              refine ⟨(u.1, .label p.1 p.2 :: u.2), ?_, ?_⟩
              · have : learningCalls (.predict x :: cs) = .predict x :: learningCalls cs := rfl
                rw [this]
                simp only [session, call, C39_smoothing_ignored, hm, bind, Except.bind, pure, Except.pure]
                rw [hu]
              · have : learning (Answer.label p.1 p.2 :: t.2) = .label p.1 p.2 :: learning t.2 := rfl
                rw [this, hu2]
      | setSmoothing w =>
          simp only [call, pure, Except.pure, Except.ok.injEq] at hq
          subst hq
          exact ⟨u, hu, hu2⟩
      | getSmoothing =>
          simp only [call, pure, Except.pure, Except.ok.injEq] at hq
          subst hq
          exact ⟨u, hu, hu2⟩

/-- **C132** (what the setting is good for) The calls of `set_smoothing` and `get_smoothing` change no answer of `train` and `predict`:
leaving them out and constructing with any other smoothing gives the same labels and scores, in every history. -/
theorem C132_smoothing_has_no_effect (env : Env K) {lc fc : Nat} (v w : K) (cs : List (Call K)) {m : Model K}
    {as : List (Answer K)} (h : session env lc fc (new lc fc v) cs = .ok (m, as)) :
    ∃ m', session env lc fc (new lc fc w) (learningCalls cs) = .ok (m', learning as) := by
  obtain ⟨t, h1, h2⟩ := session_learning env cs _ w _ h
  exact ⟨t.1, h1.trans (by rw [← h2])⟩

/-- a history that meets the hypothesis: training, setting, training, reading -/
example (env : Env ℚ) : ∃ m, session env 1 1 (new 1 1 3)
    [.getSmoothing, .train ⟨[5], 0, 1⟩, .setSmoothing 2, .train ⟨[7], 0, 1⟩, .getSmoothing] =
      .ok (m, [.value 3, .trained, .unit, .trained, .value 2]) := ⟨_, rfl⟩

end Orp.Bayes
