import Mathlib.Algebra.Order.Floor.Ring
import Mathlib.Algebra.BigOperators.Fin
import Mathlib.Algebra.Order.Field.Basic

/-!
# Aufbau occupation

An orbital of angular momentum `m` holds 2 electrons (`m = 0`) or 4 (`m > 0`, both signs), half of
that when spins are treated separately.  Orbitals are filled from below.
-/

namespace Verif.Spec
variable {K : Type*} [Field K] [LinearOrder K] [IsStrictOrderedRing K]

/-- Electrons per filled orbital. -/
def orbitalCapacity (m : ℕ) (polarised : Bool) : ℕ :=
  (if m = 0 then 2 else 4) / (if polarised then 2 else 1)

/-- Filling fraction of orbital `i` when `x` orbitals' worth of electrons are present. -/
def filling (x : K) (i : ℕ) : K := min 1 (max 0 (x - i))

/-- Filling fraction when only full orbitals are used. -/
def fillingWhole (x : K) (i : ℕ) : K := if (i : K) + 1 ≤ x then 1 else 0

/-- Filling with or without a fractionally filled last orbital. -/
def fill (fractional : Bool) (x : K) (i : ℕ) : K :=
  if fractional then filling x i else fillingWhole x i

/-- Number of orbitals that carry electrons (`fill_ne_zero`: these are the first ones). -/
def needed [FloorRing K] (fractional : Bool) (x : K) : ℕ :=
  if fractional then ⌈x⌉.toNat else ⌊x⌋.toNat

end Verif.Spec
