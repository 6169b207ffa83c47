import Verif.Model.Lstsq
import Verif.Py.Basic
import Mathlib.Data.Nat.Factorial.Basic

/-!
# `CADMium/common/finite_difference_coefficients.py`
-/

namespace Verif
namespace FDC
variable {K : Type*} [Field K] [LinearOrder K]

/-- `coefficient_table[:, 0:N].T` (lines 37-44, 51): row `n`, column `j` holds `-x[j]^n / n!`. -/
def table {N : ℕ} (x : Fin N → K) : Matrix (Fin N) (Fin N) K :=
  fun n j => -1 / (Nat.factorial n.1 : K) * x j ^ n.1

/-- `d` (lines 47-48): zeros with `-1` at position `deriv`. -/
def rhs (N deriv : ℕ) : Fin N → K := fun n => if n.1 = deriv then -1 else 0

/-- Lines 54-56: entries smaller than `1e-10` in absolute value are set to zero. -/
def zeroSmall {N : ℕ} (c : Fin N → K) : Fin N → K :=
  fun j => if |c j| < 1 / 10 ^ 10 then 0 else c j

/-- `finite_difference_coefficients(x, deriv)` returns `r` (lines 12-82).  `d[deriv]` raises
`IndexError` when `deriv ≥ N` (line 48).  The accuracy analysis of lines 58-80 has no effect on the
result. -/
def Returns {N : ℕ} (x : Fin N → K) (deriv : ℕ) (r : Py (Fin N → K)) : Prop :=
  if deriv < N then ∃ c, IsLstsq (table x) (rhs N deriv) c ∧ r = .ok (zeroSmall c)
  else r = .error .indexError

end FDC
end Verif
