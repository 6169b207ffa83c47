import Verif.Model.Lstsq
import Verif.Py.Basic

/-!
# `CADMium/common/NC.py`: Newton-Cotes weights
-/

namespace Verif
namespace NC
variable {K : Type*} [Field K]

/-- `x**npow` for `x, npow = meshgrid(xi, n_p)` (NC.py 14-15, 23-24): row `n` holds `xi ** n`. -/
def powMatrix {N : ℕ} (xi : Fin N → K) : Matrix (Fin N) (Fin N) K := fun n j => xi j ^ n.1

/-- Arrays made of `range(N)` hold 64-bit integers, which wrap around. -/
def wrap (z : ℤ) : ℤ := z.bmod (2 ^ 64)

/-- `A = x**npow` of the block (NC.py 12-15), computed in integers. -/
def blockMatrix (N : ℕ) : Matrix (Fin N) (Fin N) ℝ := fun n j => ((wrap ((j.1 : ℤ) ^ n.1) : ℤ) : ℝ)

/-- `b = 1./(n_p+1) * (N-1)**(n_p+1)` of the block (NC.py 16); the power is computed in integers. -/
noncomputable def blockVector (N : ℕ) : Fin N → ℝ := fun n => 1 / ((n.1 : ℝ) + 1) * ((wrap (((N : ℤ) - 1) ^ (n.1 + 1)) : ℤ) : ℝ)

/-- Block points `0, 1, .., N-1` (NC.py 12). -/
def blockPts (N : ℕ) : Fin N → K := fun j => (j.1 : K)

/-- What `blockVector` is without wrap-around: `1/(n+1) * (N-1)^(n+1)` (NC.py 16). -/
def blockRhs (N : ℕ) : Fin N → K := fun n => 1 / ((n.1 : K) + 1) * ((N : K) - 1) ^ (n.1 + 1)

/-- Edge points: `0, 1/2, 3/2, ..` (NC.py 20-21). -/
def edgePts (N : ℕ) : Fin N → K := fun j => if j.1 = 0 then 0 else (j.1 : K) - 1 / 2

/-- Edge right-hand side `1/(n+1) * (1/2)^(n+1)` (NC.py 25). -/
def edgeRhs (N : ℕ) : Fin N → K := fun n => 1 / ((n.1 : K) + 1) * (1 / 2) ^ (n.1 + 1)

/-- Number of points `NP = (N-1)*Nm + 1` (NC.py 30). -/
abbrev npts (N Nm : ℕ) : ℕ := (N - 1) * Nm + 1

/-- Length of a slice `a[:n]` or (for `n ≥ 1`) `a[-n:]` of an array of length `len`. -/
def sliceLen (n len : ℕ) : ℕ := min n len

/-- numpy allows `a[slice] = v` if the lengths agree or `v` has length 1. -/
def assignable (len v : ℕ) : Bool := len = v || v = 1

/-- Contents of `wi` after the two edge assignments (NC.py 31-33).  `e : Fin N → K` is the full edge
solution (NC.py 26); `w1 = e[1:]`, so `w1[k] = e[k+1]`.  The second assignment overwrites the
first where they overlap. -/
def edges (N Nm : ℕ) (e : ℕ → K) (k : ℕ) : K :=
  if npts N Nm - (N - 1) ≤ k then e ((N - 1 - 1 - (k - (npts N Nm - (N - 1)))) + 1)
  else if k < N - 1 then e (k + 1)
  else 0

/-- One pass of the loop body (NC.py 36): add the block weights at positions `(N-1)*i + 0..N-1`. -/
def addBlock (N : ℕ) (w : ℕ → K) (wi : ℕ → K) (i : ℕ) : ℕ → K := fun k =>
  if (N - 1) * i ≤ k ∧ k < (N - 1) * i + N then wi k + w (k - (N - 1) * i) else wi k

/-- Extend a vector by zero. -/
def ext0 {N : ℕ} (v : Fin N → K) (k : ℕ) : K := if h : k < N then v ⟨k, h⟩ else 0

/-- Assembly of the composite weights (NC.py 30-38) from the block solution `w` and the edge
solution `e`.  For `N = 1` the slice `wi[-0:]` is the whole array (length 1) and `w1` is empty, so the
assignment raises `ValueError`; the same happens if the slice `wi[:N-1]` is shorter than `w1`. -/
def assemble (N Nm : ℕ) (w e : Fin N → K) : Py (Fin (npts N Nm) → K) :=
  if ¬ assignable (sliceLen (N - 1) (npts N Nm)) (N - 1) then .error .valueError
  else if ¬ assignable (if N - 1 = 0 then npts N Nm else sliceLen (N - 1) (npts N Nm)) (N - 1) then
    .error .valueError
  else .ok fun k => (List.range Nm).foldl (addBlock N (ext0 w)) (edges N Nm (ext0 e)) k.1

/-- `rcond=None` (NC.py 17, 26): numpy takes the machine precision `2^-52` times the number of rows. -/
noncomputable def rcond (N : ℕ) : ℝ := N / 2 ^ 52

/-- The block solution (NC.py 12-18). -/
def IsBlock {N : ℕ} (w : Fin N → ℝ) : Prop := Lstsq (rcond N) (blockMatrix N) (blockVector N) w

/-- The edge solution with its first entry (NC.py 20-26). -/
def IsEdge {N : ℕ} (e : Fin N → ℝ) : Prop := Lstsq (rcond N) (powMatrix (edgePts N)) (edgeRhs N) e

/-- `NC(N, Nm)` returns `r` (NC.py 10-38). -/
def Returns (N Nm : ℕ) (r : Py (Fin (npts N Nm) → ℝ)) : Prop :=
  ∃ w e : Fin N → ℝ, IsBlock w ∧ IsEdge e ∧ r = assemble N Nm w e

end NC
end Verif
