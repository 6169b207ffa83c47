import Verif.Model.FDMatrices
import Verif.Model.Coordinates

/-!
# `CADMium/psgrid/operators.py` and `sigma.py`

`scipy.sparse.kron(A, B)` with `A` radial and `B` angular acts on flat fields in F-order; storage
formats are not modelled, a sparse matrix is its dense matrix.  The one place where the format
matters is `*`, which for scipy matrices (`spmatrix`) is the matrix product (`sigma.py` 19).
-/

namespace Verif
namespace Ops
open Init
variable {K : Type*} [Field K]

/-- `scipy.sparse.kron(A, B)`: block `(i,j)` is `A[i,j]*B`. -/
def kron {Na Nr m : ℕ} (A : Matrix (Fin Nr) (Fin m) K) (B : Matrix (Fin Na) (Fin Na) K) :
    Matrix (Fin (Na * Nr)) (Fin (Na * m)) K :=
  fun k l => A (ir k) (ir l) * B (ia k) (ia l)

/-- `np.diagflat(d)`, `spdiags(d, 0)`. -/
def diag {n : ℕ} (d : Fin n → K) : Matrix (Fin n) (Fin n) K := fun i j => if i = j then d i else 0

/-- `scipy.sparse.eye(n)`. -/
def eye (n : ℕ) : Matrix (Fin n) (Fin n) K := fun i j => if i = j then 1 else 0

/-- What `operators` reads: `a`, the tables `sin(xa)`, `cos(xa)`, `sinh(xr)`, `cosh(xr)`
(operators.py 39-42 recover the 1-d grids from `Xa`, `Xr`) and the scale factors. -/
structure Input (K : Type*) (Na Nr bcN : ℕ) where
  a : K
  sinA : Fin Na → K
  cosA : Fin Na → K
  sinhR : Fin Nr → K
  coshR : Fin Nr → K
  h1 : Fin (Na * Nr) → K
  h2 : Fin (Na * Nr) → K
  h3 : Fin (Na * Nr) → K
  fd1 : FD.FD1 K Na Nr bcN
  fd2 : FD.FD2 K Na Nr bcN

/-- What `operators` sets. -/
structure Result (K : Type*) (Na Nr bcN : ℕ) where
  gradr : Matrix (Fin (Na * Nr)) (Fin (Na * Nr)) K
  grada : Matrix (Fin (Na * Nr)) (Fin (Na * Nr)) K
  diva : Matrix (Fin (Na * Nr)) (Fin (Na * Nr)) K
  divr : Matrix (Fin (Na * Nr)) (Fin (Na * Nr)) K
  elap : Matrix (Fin (Na * Nr)) (Fin (Na * Nr)) K
  olap : Matrix (Fin (Na * Nr)) (Fin (Na * Nr)) K
  blap : Matrix (Fin (Na * bcN)) (Fin (Na * bcN)) K

variable {Na Nr bcN : ℕ}

/-- operators.py 47, 51: angular part `a*(diag(sin) @ D2 + diag(cos) @ D1)`. -/
def angular (I : Input K Na Nr bcN) (D2 D1 : Matrix (Fin Na) (Fin Na) K) :
    Matrix (Fin Na) (Fin Na) K :=
  I.a • (diag I.sinA * D2 + diag I.cosA * D1)

/-- operators.py 48, 52: radial part `a*(diag(sinh) @ D2 + diag(cosh) @ D1)`. -/
def radial (I : Input K Na Nr bcN) (D2 D1 : Matrix (Fin Nr) (Fin Nr) K) :
    Matrix (Fin Nr) (Fin Nr) K :=
  I.a • (diag I.sinhR * D2 + diag I.coshR * D1)

/-- `operators` (operators.py 23-71).  `hb : bcN ≤ Nr` holds whenever the difference matrices were
built (`FD.sizesOk`); it makes `Xr1d[0][-bcN:]` have `bcN` entries. -/
def operators (I : Input K Na Nr bcN) (hb : bcN ≤ Nr) : Result K Na Nr bcN :=
  -- lines 24-28
  let eDa := kron (eye Nr) I.fd1.eDa1
  let eDr := kron I.fd1.eDr1 (eye Na)
  -- lines 31-36
  let oDa := kron (eye Nr) I.fd1.oDa1
  let oDr := kron I.fd1.oDr1 (eye Na)
  let C123 := diag fun k => 1 / (I.h1 k * I.h2 k * I.h3 k)
  -- lines 68-69
  let last : Fin bcN → Fin Nr := fun i => ⟨Nr - bcN + i.1, by omega⟩
  let bLr : Matrix (Fin bcN) (Fin bcN) K :=
    I.a • (diag (fun i => I.sinhR (last i)) * I.fd2.bc2 + diag (fun i => I.coshR (last i)) * I.fd1.bc1)
  { gradr := diag (fun k => 1 / I.h2 k) * eDr
    grada := diag (fun k => 1 / I.h1 k) * eDa
    diva := C123 * oDa * diag fun k => I.h2 k * I.h3 k
    divr := C123 * oDr * diag fun k => I.h1 k * I.h3 k
    -- lines 57-63
    elap := kron (diag I.sinhR) (angular I I.fd2.eDa2 I.fd1.eDa1) +
      kron (radial I I.fd2.eDr2 I.fd1.eDr1) (diag I.sinA)
    olap := kron (diag I.sinhR) (angular I I.fd2.oDa2 I.fd1.oDa1) +
      kron (radial I I.fd2.oDr2 I.fd1.oDr1) (diag I.sinA)
    -- line 71
    blap := kron bLr (diag I.sinA) }

/-- The input `operators` actually receives, over the reals (operators.py 15-21, 39-42). -/
noncomputable def realInput (Na Nr bcN : ℕ) (a L : ℝ) (D : FD.FD1 ℝ Na Nr bcN)
    (E : FD.FD2 ℝ Na Nr bcN) : Input ℝ Na Nr bcN where
  a := a
  sinA := fun i => Real.sin (xa Na i)
  cosA := fun i => Real.cos (xa Na i)
  sinhR := fun i => Real.sinh (xr Nr L i)
  coshR := fun i => Real.cosh (xr Nr L i)
  h1 := h1 Na Nr a L
  h2 := h1 Na Nr a L
  h3 := h3 Na Nr a L
  fd1 := D
  fd2 := E

/-- `initialize` (initialize.py 69-73): build the difference matrices and the operators.  The steps
are those of the real grid. -/
noncomputable def build {Nd : ℕ} (Na Nr bcN : ℕ) (a L : ℝ) (id : Fin Nd → ℤ) (ds1 ds2 : Fin Nd → ℝ) :
    Py (Result ℝ Na Nr bcN) := do
  let D ← FD.fd1 Na Nr bcN (ha Na) (hr Nr L) id ds1
  let E ← FD.fd2 Na Nr bcN (ha Na) (hr Nr L) id ds2
  if hb : bcN ≤ Nr then pure (operators (realInput Na Nr bcN a L D E) hb) else .error .valueError

/-- Result of `sigma`: one column or three. -/
inductive Sigma (K : Type*) (N : ℕ)
  | one (s : Fin N → K)
  | three (s : Fin 3 → Fin N → K)

/-- `sigma(n)` for an `(Nelem, pol)` array (sigma.py 8-24).
Line 19 `A @ n0 * A @ n1` parses as `((A @ n0) * A) @ n1`; with `*` the matrix product of a row
vector and a sparse matrix this is the number `(A n0) · (A n1)`, written to every entry. A
zero-column array also lands in the `else` branch. -/
def sigma {N : ℕ} (grada gradr : Matrix (Fin N) (Fin N) K) : (pol : ℕ) → (Fin pol → Fin N → K) →
    Py (Sigma K N)
  | 1, n => .ok (.one fun k => (grada.mulVec (n 0) k) ^ 2 + (gradr.mulVec (n 0) k) ^ 2)
  | 2, n => .ok (.three ![
      fun k => (grada.mulVec (n 0) k) ^ 2 + (gradr.mulVec (n 0) k) ^ 2,
      fun _ => dotProduct (Matrix.vecMul (grada.mulVec (n 0)) grada) (n 1) +
        dotProduct (Matrix.vecMul (gradr.mulVec (n 0)) gradr) (n 1),
      fun k => (grada.mulVec (n 1) k) ^ 2 + (gradr.mulVec (n 1) k) ^ 2])
  | _, _ => .error .valueError

end Ops
end Verif
