import Verif.Model.FDCoeff
import Verif.Model.NC

/-!
# `CADMium/common/finite_difference_coefficients.py` as numpy runs it

`Model/FDCoeff` has the least-squares problem solved exactly and the powers computed exactly.  Here are the cut-off of
`np.linalg.lstsq` and the 64-bit integers, which are used if the offsets are an integer array (as in all examples,
`loc = np.array(range(-4,5))`).
-/

namespace Verif
namespace FDC

/-- `rcond=-1` (line 51): LAPACK takes the machine precision, `2^-53`. -/
noncomputable def rcond : ℝ := 1 / 2 ^ 53

/-- Offsets given as floats (lines 12-82). -/
def ReturnsFloat {N : ℕ} (x : Fin N → ℝ) (deriv : ℕ) (r : Py (Fin N → ℝ)) : Prop :=
  if deriv < N then ∃ c, Lstsq rcond (table x) (rhs N deriv) c ∧ r = .ok (zeroSmall c)
  else r = .error .indexError

/-- The table (lines 37-44, 51) for offsets given as an integer array: `x[j]**n` wraps around. -/
def tableInt (K : Type*) [Field K] {N : ℕ} (x : Fin N → ℤ) : Matrix (Fin N) (Fin N) K :=
  fun n j => -1 / (Nat.factorial n.1 : K) * ((NC.wrap (x j ^ n.1) : ℤ) : K)

/-- Offsets given as an integer array (lines 12-82). -/
def ReturnsInt {N : ℕ} (x : Fin N → ℤ) (deriv : ℕ) (r : Py (Fin N → ℝ)) : Prop :=
  if deriv < N then ∃ c, Lstsq rcond (tableInt ℝ x) (rhs N deriv) c ∧ r = .ok (zeroSmall c)
  else r = .error .indexError

end FDC
end Verif
