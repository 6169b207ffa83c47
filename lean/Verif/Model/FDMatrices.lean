import Verif.Py.Basic
import Mathlib.Data.Matrix.Basic
import Mathlib.Algebra.BigOperators.Group.Finset.Basic
import Mathlib.Data.Fintype.BigOperators

/-!
# `CADMium/psgrid/finite_difference_1d.py`, `finite_difference_2d.py`

`id : Fin Nd → ℤ` is the stencil (`self.i1`, `self.i2`), `ds : Fin Nd → K` the coefficients from
`finite_difference_coefficients`, and `bcN` is `self.bcN`, which initialize.py 36 sets to
`Init.bcN Nd = Nd / 2` (both stencils equal `loc`).
-/

namespace Verif
namespace FD
variable {K : Type*} [Field K]

/-- `sum_i ds[i] * np.diag(np.ones(n - |id[i]|), k=id[i])` (finite_difference_1d.py 24-29,
finite_difference_2d.py 24-29): entry `(r,c)` collects the `ds[i]` with `c - r = id[i]`. -/
def shiftSum {Nd : ℕ} (n : ℕ) (id : Fin Nd → ℤ) (ds : Fin Nd → K) : Matrix (Fin n) (Fin n) K :=
  fun r c => ∑ i, if (c.1 : ℤ) - r.1 = id i then ds i else 0

/-- `bc = sum_{i<bcN} ds[Nd-i-1] * np.diag(np.ones(bcN-i), k=-i)` (lines 20-22 of both files):
entry `(r,c)` is `ds[Nd-1-(r-c)]` for `c ≤ r`, else `0`. -/
def bcMat {Nd : ℕ} (bcN : ℕ) (ds : Fin Nd → K) (r c : ℕ) : K :=
  if c ≤ r ∧ r < bcN ∧ c < bcN then
    (if h : Nd - 1 - (r - c) < Nd then ds ⟨Nd - 1 - (r - c), h⟩ else 0)
  else 0

/-- `np.fliplr(bc)`, placed in the lower right corner `[-bcN:, -bcN:]` of an `n x n` matrix. -/
def lowerRight {Nd : ℕ} (n bcN : ℕ) (ds : Fin Nd → K) : Matrix (Fin n) (Fin n) K :=
  fun r c => if n - bcN ≤ r.1 ∧ n - bcN ≤ c.1 then
    bcMat bcN ds (r.1 - (n - bcN)) (bcN - 1 - (c.1 - (n - bcN))) else 0

/-- `np.fliplr(bc.T)`, placed in the upper left corner `[:bcN, :bcN]` of an `n x n` matrix. -/
def upperLeft {Nd : ℕ} (n bcN : ℕ) (ds : Fin Nd → K) : Matrix (Fin n) (Fin n) K :=
  fun r c => if r.1 < bcN ∧ c.1 < bcN then bcMat bcN ds (bcN - 1 - c.1) r.1 else 0

/-- The exceptions of both functions: `np.ones` of a negative length raises `ValueError`
(some `|id[i]|` larger than a side); `bcN = 0` makes the slices `[-0:]` the whole matrix, which does
not broadcast against an empty block; a side shorter than `bcN` gives blocks of different size. -/
def sizesOk {Nd : ℕ} (Na Nr bcN : ℕ) (id : Fin Nd → ℤ) : Prop :=
  (∀ i, |id i| ≤ Na ∧ |id i| ≤ Nr) ∧ 0 < bcN ∧ bcN ≤ Na ∧ bcN ≤ Nr

instance {Nd : ℕ} (Na Nr bcN : ℕ) (id : Fin Nd → ℤ) : Decidable (sizesOk Na Nr bcN id) := by
  unfold sizesOk; infer_instance

/-- Result of `finite_difference_1d`. -/
structure FD1 (K : Type*) (Na Nr bcN : ℕ) where
  oDa1 : Matrix (Fin Na) (Fin Na) K
  eDa1 : Matrix (Fin Na) (Fin Na) K
  oDr1 : Matrix (Fin Nr) (Fin Nr) K
  eDr1 : Matrix (Fin Nr) (Fin Nr) K
  bc1 : Matrix (Fin bcN) (Fin bcN) K

/-- `finite_difference_1d` (finite_difference_1d.py 11-59). -/
def fd1 {Nd : ℕ} (Na Nr bcN : ℕ) (ha hr : K) (id : Fin Nd → ℤ) (ds : Fin Nd → K) :
    Py (FD1 K Na Nr bcN) :=
  if sizesOk Na Nr bcN id then
    let Da1 := shiftSum Na id ds
    let Dr1 := shiftSum Nr id ds
    -- lines 32-33
    let Da1 : Matrix (Fin Na) (Fin Na) K := fun r c => 1 / 2 * (Da1 r c - Da1 c r)
    let Dr1 : Matrix (Fin Nr) (Fin Nr) K := fun r c => 1 / 2 * (Dr1 r c - Dr1 c r)
    .ok {
      -- lines 36-44
      oDa1 := fun r c => (Da1 r c - lowerRight Na bcN ds r c + upperLeft Na bcN ds r c) / ha
      oDr1 := fun r c => (Dr1 r c + upperLeft Nr bcN ds r c) / hr
      -- lines 47-57
      eDa1 := fun r c => (Da1 r c + lowerRight Na bcN ds r c - upperLeft Na bcN ds r c) / ha
      eDr1 := fun r c => (Dr1 r c - upperLeft Nr bcN ds r c) / hr
      -- line 59
      bc1 := fun r c => bcMat bcN ds r.1 c.1 / hr }
  else .error .valueError

/-- Result of `finite_difference_2d`. -/
structure FD2 (K : Type*) (Na Nr bcN : ℕ) where
  oDa2 : Matrix (Fin Na) (Fin Na) K
  eDa2 : Matrix (Fin Na) (Fin Na) K
  oDr2 : Matrix (Fin Nr) (Fin Nr) K
  eDr2 : Matrix (Fin Nr) (Fin Nr) K
  bc2 : Matrix (Fin bcN) (Fin bcN) K

/-- Lines 55-58: `0.5 * (D + D.T)`. -/
def sym {n : ℕ} (D : Matrix (Fin n) (Fin n) K) : Matrix (Fin n) (Fin n) K :=
  fun r c => 1 / 2 * (D r c + D c r)

/-- `finite_difference_2d` (finite_difference_2d.py 11-58). -/
def fd2 {Nd : ℕ} (Na Nr bcN : ℕ) (ha hr : K) (id : Fin Nd → ℤ) (ds : Fin Nd → K) :
    Py (FD2 K Na Nr bcN) :=
  if sizesOk Na Nr bcN id then
    let Da2 := shiftSum Na id ds
    let Dr2 := shiftSum Nr id ds
    .ok {
      -- lines 32-40, 56, 58
      oDa2 := sym fun r c => (Da2 r c - lowerRight Na bcN ds r c - upperLeft Na bcN ds r c) / ha ^ 2
      oDr2 := sym fun r c => (Dr2 r c - upperLeft Nr bcN ds r c) / hr ^ 2
      -- lines 43-52, 55, 57
      eDa2 := sym fun r c => (Da2 r c + lowerRight Na bcN ds r c + upperLeft Na bcN ds r c) / ha ^ 2
      eDr2 := sym fun r c => (Dr2 r c + upperLeft Nr bcN ds r c) / hr ^ 2
      -- line 52
      bc2 := fun r c => bcMat bcN ds r.1 c.1 / hr ^ 2 }
  else .error .valueError

end FD
end Verif
