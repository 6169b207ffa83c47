import Verif.Model.Operators
import Verif.Spec.Grid
import Mathlib.LinearAlgebra.Matrix.NonsingularInverse

/-!
# `CADMium/hartree/hartree.py` and `psgrid/factorize_laplacian.py`

Over the reals.  `scipy.special.lpmv(0, k, x)` is the Legendre polynomial `P_k(x)`;
`spsolve(A, b)` is modelled for non-singular `A` as `A⁻¹ b`.
-/

namespace Verif
namespace Hartree
open Init Spec
noncomputable section

/-- `lpmv(0, k, x)`: Legendre polynomials by Bonnet's recursion. -/
def legendre : ℕ → ℝ → ℝ
  | 0, _ => 1
  | 1, x => x
  | k + 2, x => ((2 * k + 3) * x * legendre (k + 1) x - (k + 1) * legendre k x) / (k + 2)

/-- The outcome of `splu(A, permc_spec="NATURAL")` (factorize_laplacian.py 15): SuperLU finds
permutations and triangular factors with `Pr A Pc = L U`, unit diagonal in `L`, and (partial
pivoting with the default threshold 1) no entry of `L` above 1 in absolute value.
`permc_spec="NATURAL"` does not exclude a column postordering and does not affect row exchanges. -/
structure IsSplu {n : ℕ} (A : Matrix (Fin n) (Fin n) ℝ) (pr pc : Equiv.Perm (Fin n))
    (L U : Matrix (Fin n) (Fin n) ℝ) : Prop where
  fact : ∀ i j, A (pr i) (pc j) = (L * U) i j
  lower : ∀ i j, i < j → L i j = 0
  unit : ∀ i, L i i = 1
  upper : ∀ i j, j < i → U i j = 0
  nonsing : ∀ i, U i i ≠ 0
  pivot : ∀ i j, |L i j| ≤ 1

/-- The grid attributes `Hartree` reads.  `Llap`, `Ulap` are `LU.L`, `LU.U`; the permutations are
not stored by `factorize_laplacian` (lines 16-17). -/
structure HGrid where
  Na : ℕ
  Nr : ℕ
  bcN : ℕ
  hNr : 0 < Nr
  hb : bcN ≤ Nr
  a : ℝ
  L : ℝ
  wi : Fin (Na * Nr) → ℝ
  blap : Matrix (Fin (Na * bcN)) (Fin (Na * bcN)) ℝ
  Llap : Matrix (Fin (Na * Nr)) (Fin (Na * Nr)) ℝ
  Ulap : Matrix (Fin (Na * Nr)) (Fin (Na * Nr)) ℝ

namespace HGrid
variable (H : HGrid)

/-- The grid used for integration. -/
abbrev grid : Grid ℝ where
  Na := H.Na
  Nr := H.Nr
  pi := Real.pi
  ha := ha H.Na
  hr := hr H.Nr H.L
  wi := H.wi
  w := w H.Na H.Nr H.a H.L

abbrev Fld := Fin (H.Na * H.Nr) → ℝ
abbrev BFld := Fin (H.Na * H.bcN) → ℝ

/-- initialize.py 37-40: `bXr`. -/
def bXr : H.BFld := fun k => bxr H.Nr H.L H.hNr H.bcN (ir k)
/-- initialize.py 37-40: `bXa`. -/
def bXa : H.BFld := fun k => xa H.Na (ia k)

/-- hartree.py 35. -/
def bZ : H.BFld := fun k => H.a * Real.cosh (H.bXr k) * Real.cos (H.bXa k)
/-- hartree.py 37. -/
def brho : H.BFld := fun k =>
  H.a * Real.sqrt (Real.cosh (H.bXr k) ^ 2 + Real.cos (H.bXa k) ^ 2 - 1)
/-- hartree.py 38. -/
def Z : H.Fld := fun k =>
  H.a * Real.cosh (Xr H.Na H.Nr H.L k) * Real.cos (Xa H.Na H.Nr k)
/-- hartree.py 39. -/
def rho : H.Fld := fun k =>
  H.a * Real.sqrt (Real.cosh (Xr H.Na H.Nr H.L k) ^ 2 + Real.cos (Xa H.Na H.Nr k) ^ 2 - 1)

/-- hartree.py 44-57: monopole, then multipoles 1 to 7, in the boundary region. -/
def bVh (nh : H.Fld) : H.BFld :=
  let Q0 := H.grid.integ fun k => legendre 0 (H.Z k / H.rho k) * nh k
  let start : H.BFld := fun k => Q0 * (H.brho k)⁻¹ * legendre 0 (H.bZ k / H.brho k)
  (List.range 7).foldl (fun (acc : H.BFld) m =>
    let Qn := H.grid.integ fun k => H.rho k ^ (m + 1) * legendre (m + 1) (H.Z k / H.rho k) * nh k
    fun k => acc k + Qn * (H.brho k ^ (m + 1 + 1))⁻¹ * legendre (m + 1) (H.bZ k / H.brho k)) start

/-- hartree.py 60-70: `-4 pi w nh`, minus `blap @ bVh` on the last `bcN` radial lines. -/
def source (nh : H.Fld) : H.Fld :=
  let bQ := H.blap.mulVec (H.bVh nh)
  fun k => -4 * Real.pi * w H.Na H.Nr H.a H.L k * nh k -
    if h : H.Nr - H.bcN ≤ (ir k).1 then
      bQ (at2 (ia k) ⟨(ir k).1 - (H.Nr - H.bcN), by have := (ir k).2; have := H.hb; omega⟩)
    else 0

/-- hartree.py 73-75: two triangular solves. -/
def solve (b : H.Fld) : H.Fld := H.Ulap⁻¹.mulVec (H.Llap⁻¹.mulVec b)

/-- `v_hartree(nh)` for a 1-d array: an `(Nelem,1)` array (hartree.py 19-80). -/
def vHartree1 (nh : H.Fld) : Fin 1 → H.Fld := fun _ => H.solve (H.source nh)

/-- `v_hartree(nh)` for an `(Nelem,p)` array: the columns are summed, the result goes to column 0,
and also to column 1 if `p = 2`; further columns stay zero; without columns the assignment to
column 0 raises `IndexError`. -/
def vHartree : (p : ℕ) → (Fin p → H.Fld) → Py (Fin p → H.Fld)
  | 0, _ => .error .indexError
  | 1, nh => .ok fun _ => H.solve (H.source fun k => ∑ s, nh s k)
  | 2, nh => .ok fun _ => H.solve (H.source fun k => ∑ s, nh s k)
  | _ + 3, nh => .ok fun s => if s.1 = 0 then H.solve (H.source fun k => ∑ s, nh s k) else fun _ => 0

/-- `e_hartree(nh)` (hartree.py 82-90): half of `v_hartree` of the column sum, shape `(Nelem,1)`. -/
def eHartree {p : ℕ} (nh : Fin p → H.Fld) : Fin 1 → H.Fld :=
  fun s k => 1 / 2 * H.vHartree1 (fun k => ∑ s, nh s k) s k

end HGrid
end
end Hartree
end Verif
