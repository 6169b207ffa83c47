import Mathlib.Data.List.Basic
import Mathlib.Data.Fin.Basic
import Mathlib.Algebra.Order.Floor.Ring
import Mathlib.Tactic.Ring
import Mathlib.Tactic.Linarith
import Mathlib.Tactic.NormNum

/-!
# Python semantics used by the translation

Exceptions as values, and Python's list/array indexing rules (negative indices wrap once,
anything else out of range raises `IndexError`).
-/

namespace Verif

/-- The Python exceptions the modelled code can raise. -/
inductive PyErr
  | valueError
  | indexError
  | attributeError
  | nameError
  | unboundLocalError
  | typeError
  | keyError
  | zeroDivisionError
  | systemExit
  | notImplementedError
  | linAlgError
  | assertionError
  /-- not a Python exception: the program leaves the domain of the model -/
  | nonFinite
  deriving DecidableEq, Repr

/-- Result of a Python call: a value or a raised exception. -/
abbrev Py (α : Type*) := Except PyErr α

/-- Python `l[i]` for an integer `i`: indices `0 ≤ i < len` count from the front,
`-len ≤ i < 0` from the back, everything else raises `IndexError`. -/
def pyGet {α : Type*} (l : List α) (i : ℤ) : Py α :=
  let j : ℤ := if i < 0 then i + l.length else i
  if j < 0 then .error .indexError
  else match l[j.toNat]? with
    | some x => .ok x
    | none => .error .indexError

/-- Python `range(n)` for an integer `n` (empty for negative `n`). -/
def pyRange (n : ℤ) : List ℕ := List.range n.toNat

theorem pyGet_ofNat {α : Type*} (l : List α) (i : ℕ) (h : i < l.length) :
    pyGet l (i : ℤ) = .ok l[i] := by
  have h0 : ¬ ((i : ℤ) < 0) := by omega
  simp [pyGet, h0, h]

theorem pyGet_ofNat_oob {α : Type*} (l : List α) (i : ℕ) (h : l.length ≤ i) :
    pyGet l (i : ℤ) = .error .indexError := by
  have h0 : ¬ ((i : ℤ) < 0) := by omega
  simp [pyGet, h0, h]

theorem Py.bind_eq_ok {α β : Type*} {x : Py α} {f : α → Py β} {b : β} :
    Except.bind x f = .ok b ↔ ∃ a, x = .ok a ∧ f a = .ok b := by
  cases x with
  | error e => simp [Except.bind]
  | ok a => simp [Except.bind]

theorem Py.do_eq_ok {α β : Type} {x : Py α} {f : α → Py β} {b : β} :
    (x >>= f) = .ok b ↔ ∃ a, x = .ok a ∧ f a = .ok b := Py.bind_eq_ok

theorem Py.pure_eq_ok {α : Type*} {a b : α} : (pure a : Py α) = .ok b ↔ a = b := by
  change (Except.ok a : Py α) = .ok b ↔ _
  simp

example : pyGet [10, 20, 30] (-1) = .ok 30 := rfl
example : pyGet [10, 20, 30] 3 = (.error .indexError : Py ℕ) := rfl

end Verif
