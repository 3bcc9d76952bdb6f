/-!
Outcomes shared by all models.

The C++ code may stop in a failed `assert` or reach undefined behaviour. Both are distinct outcomes of
the models: a function that can reach them returns `Res α`.
-/

namespace Orp

/-- Abnormal outcome of a C++ function. -/
inductive Err where
  /-- a failed `assert(...)` (abort in builds with assertions enabled) -/
  | assert
  /-- undefined behaviour: out-of-bounds access, null dereference, use of an indeterminate value -/
  | ub
  deriving DecidableEq, Repr

/-- Result of a C++ function that may assert or hit undefined behaviour. -/
abbrev Res (α : Type) := Except Err α

deriving instance DecidableEq for Except

/-- Read of `a[i]`; out of bounds is undefined behaviour. -/
def rd {α : Type} (a : List α) (i : Nat) : Res α :=
  match a[i]? with
  | some x => .ok x
  | none => .error .ub

/-- Write of `a[i] = x`; out of bounds is undefined behaviour. -/
def wr {α : Type} (a : List α) (i : Nat) (x : α) : Res (List α) :=
  if i < a.length then .ok (a.set i x) else .error .ub

theorem rd_ok {α : Type} {a : List α} {i : Nat} (h : i < a.length) : rd a i = .ok a[i] := by
  simp [rd, h]

theorem rd_eq_ok_iff {α : Type} {a : List α} {i : Nat} {x : α} :
    rd a i = .ok x ↔ a[i]? = some x := by
  unfold rd; split <;> simp_all

theorem wr_ok {α : Type} {a : List α} {i : Nat} (x : α) (h : i < a.length) :
    wr a i x = .ok (a.set i x) := by
  simp [wr, h]

theorem wr_eq_ok_iff {α : Type} {a : List α} {i : Nat} {x : α} {b : List α} :
    wr a i x = .ok b ↔ i < a.length ∧ a.set i x = b := by
  unfold wr
  split
  · simp_all
  · simp; omega

end Orp
