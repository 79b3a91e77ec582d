/-!
# Python built-ins used by the model

Trusted reading of the Python language (see DESIGN.md): exceptions are values, lists are `List`,
`l[a:b]` clamps its bounds, `l[i]` accepts negative indices, `range` is a list of integers.
-/

namespace Lambeq

/-- The exception classes that the modelled code can raise. -/
inductive PyErr
  | valueError | typeError | indexError | keyError | assertionError | attributeError
  | notImplementedError | zeroDivisionError | parseError | runtimeError | interchangerError
  | ruleUseError
  deriving DecidableEq, Repr

deriving instance DecidableEq for Except

/-- Python's resolution of one slice bound `i` against a sequence of length `n`
(language reference, 3.3 "slicings": negative bounds count from the end, then clamp). -/
def clampIdx (n : Nat) (i : Int) : Nat :=
  if i < 0 then (n + i).toNat else min i.toNat n

/-- Python `l[start:stop]` (step 1); `none` is an omitted bound. -/
def pySlice {α : Type _} (l : List α) (start stop : Option Int) : List α :=
  let s := match start with | none => 0 | some i => clampIdx l.length i
  let e := match stop with | none => l.length | some i => clampIdx l.length i
  (l.drop s).take (e - s)

/-- Python `l[i]` for an integer index. -/
def pyGet {α : Type _} (l : List α) (i : Int) : Except PyErr α :=
  let j := if i < 0 then l.length + i else i
  if j < 0 then .error .indexError
  else match l[j.toNat]? with
    | some x => .ok x
    | none => .error .indexError

theorem pySlice_nat_to {α : Type _} (l : List α) (i : Nat) :
    pySlice l none (some (i : Int)) = l.take i := by
  have h : ¬ ((i : Int) < 0) := by omega
  simp only [pySlice, clampIdx, h, if_false, Int.toNat_natCast, List.drop_zero, Nat.sub_zero]
  by_cases hi : i ≤ l.length
  · rw [Nat.min_eq_left hi]
  · rw [Nat.min_eq_right (by omega), List.take_of_length_le (Nat.le_refl _),
      List.take_of_length_le (by omega)]

theorem pySlice_nat_from {α : Type _} (l : List α) (i : Nat) :
    pySlice l (some (i : Int)) none = l.drop i := by
  simp only [pySlice, clampIdx]
  have h : ¬ ((i : Int) < 0) := by omega
  simp only [h, if_false, Int.toNat_natCast]
  by_cases hi : i ≤ l.length
  · rw [Nat.min_eq_left hi, List.take_of_length_le (by simp)]
  · have h1 : min i l.length = l.length := Nat.min_eq_right (by omega)
    rw [h1]
    simp [List.drop_eq_nil_of_le (show l.length ≤ i by omega)]

theorem pySlice_nat_nat {α : Type _} (l : List α) (i j : Nat) :
    pySlice l (some (i : Int)) (some (j : Int)) = (l.drop i).take (j - i) := by
  simp only [pySlice, clampIdx]
  have h : ¬ ((i : Int) < 0) := by omega
  have h' : ¬ ((j : Int) < 0) := by omega
  simp only [h, h', if_false, Int.toNat_natCast]
  by_cases hi : i ≤ l.length
  · rw [Nat.min_eq_left hi]
    by_cases hj : j ≤ l.length
    · rw [Nat.min_eq_left hj]
    · rw [Nat.min_eq_right (by omega)]
      rw [List.take_of_length_le (by simp), List.take_of_length_le (by simp; omega)]
  · have h1 : min i l.length = l.length := Nat.min_eq_right (by omega)
    rw [h1]
    simp [List.drop_eq_nil_of_le (show l.length ≤ i by omega)]

end Lambeq
