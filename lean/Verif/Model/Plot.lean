import Verif.Model.Coordinates
import Verif.Model.Operators

/-!
# `CADMium/psgrid/plotter.py`, `reduced_grad.py` and `Psgrid.axis_plot`
-/

namespace Verif
namespace Plot
open Init
variable {K : Type*}

/-- Flat position of row `i`, column `j` after `square` (square.py 7-10, F-order). -/
def pos {Na Nr : ℕ} (i : Fin Na) (j : Fin Nr) : Fin (Na * Nr) :=
  ⟨i.1 + Na * j.1, by
    have h : Na * (j.1 + 1) ≤ Na * Nr := Nat.mul_le_mul_left _ j.2
    have := i.2
    rw [Nat.mul_succ] at h; omega⟩

/-- `np.hstack((L, R))` of two arrays of the same shape. -/
def hstack {Na Nr : ℕ} (L R : Fin Na → Fin Nr → K) : Fin Na → Fin (2 * Nr) → K :=
  fun i j => if h : j.1 < Nr then L i ⟨j.1, h⟩ else R i ⟨j.1 - Nr, by have := j.2; omega⟩

/-- `np.flip(A, axis=1)`. -/
def flip1 {Na n : ℕ} (A : Fin Na → Fin n → K) : Fin Na → Fin n → K := fun i j => A i j.rev

/-- `np.vstack((np.flip(A[0,:]), A, np.flip(A[-1,:])))`. -/
def close {Na n : ℕ} (hNa : 0 < Na) (A : Fin Na → Fin n → K) : Fin (Na + 2) → Fin n → K := fun i j =>
  if h0 : i.1 = 0 then A ⟨0, hNa⟩ j.rev
  else if h : i.1 ≤ Na then A ⟨i.1 - 1, by omega⟩ j
  else A ⟨Na - 1, by omega⟩ j.rev

/-- The three arrays `plotter` returns. -/
structure Out (Na Nr : ℕ) where
  full : Fin (Na + 2) → Fin (2 * Nr) → ℝ
  Zf : Fin (Na + 2) → Fin (2 * Nr) → ℝ
  Xf : Fin (Na + 2) → Fin (2 * Nr) → ℝ

/-- `plotter(fin, max, sym)` (plotter.py 7-34) for a 1-d field; `max` is unused.  `np.squeeze` drops axes of
length 1, so with one row or one column `np.flip(…, axis=1)` raises (`AxisError`, a `ValueError`); an empty
grid raises `ZeroDivisionError` in `square`. -/
noncomputable def plotter (Na Nr : ℕ) (a L : ℝ) (fin : Fin (Na * Nr) → ℝ) (sym : ℝ) : Py (Out Na Nr) :=
  if Na * Nr = 0 then .error .zeroDivisionError
  else if Na = 1 ∨ Nr = 1 then .error .valueError
  else if h : 0 < Na then
    let fout : Fin Na → Fin Nr → ℝ := fun i j => fin (pos i j)
    let Z : Fin Na → Fin Nr → ℝ := fun i j =>
      a * Real.cosh (Xr Na Nr L (pos i j)) * Real.cos (Xa Na Nr (pos i j))
    let X : Fin Na → Fin Nr → ℝ := fun i j =>
      a * Real.sinh (Xr Na Nr L (pos i j)) * Real.sin (Xa Na Nr (pos i j))
    .ok ⟨close h (hstack (fun i j => sym * flip1 fout i j) fout), close h (hstack (flip1 Z) Z),
      close h (hstack (fun i j => - flip1 X i j) X)⟩
  else .error .zeroDivisionError

/-- `reduced_grad(self, n)` (reduced_grad.py 7-24) on an `(Nelem, pol)` array.  One column: `sigma` is fine, then
a number stands left of `@`, a `ValueError`.  Two columns: `sigma` gets a 1-d array and reads `n.shape[1]`,
an `IndexError`.  Otherwise `s` is unbound. -/
def reducedGrad {N : ℕ} [Field K] (grada gradr : Matrix (Fin N) (Fin N) K) (pol : ℕ) (n : Fin pol → Fin N → K) :
    Py (Fin pol → Fin N → K) :=
  if pol = 1 then do
    let _ ← Ops.sigma grada gradr pol n
    .error .valueError
  else if pol = 2 then .error .indexError
  else .error .unboundLocalError

/-- `Psgrid.reduced_grad(n)` (psgrid.py 271-272): the value is not returned; `none` is Python's `None`. -/
def gridReducedGrad {N : ℕ} [Field K] (grada gradr : Matrix (Fin N) (Fin N) K) (pol : ℕ) (n : Fin pol → Fin N → K) :
    Py (Option (Fin pol → Fin N → K)) := do
  let _ ← reducedGrad grada gradr pol n
  pure none

/-- Loop state of `axis_plot`: positions collected so far, `single`, `initial`. -/
structure Ax (N : ℕ) (K : Type*) where
  pts : List (Fin N)
  single : K
  initial : Bool

/-- One pass of the loop (psgrid.py 286-299) at `i < Nelem - 1`. -/
def axStep {N : ℕ} [Neg K] [DecidableEq K] (Z : Fin N → K) (q : Ax N K) (i : ℕ) (h : i + 1 < N) : Ax N K :=
  let q := if q.initial then { q with pts := q.pts ++ [⟨i, by omega⟩] } else q
  if Z ⟨i, by omega⟩ = - q.single then
    ⟨q.pts ++ [⟨i, by omega⟩, ⟨i + 1, h⟩], Z ⟨i + 1, h⟩, false⟩
  else q

/-- The loop from `i` on. -/
def axLoop {N : ℕ} [Neg K] [DecidableEq K] (Z : Fin N → K) (i : ℕ) (q : Ax N K) : Ax N K :=
  if h : i + 1 < N then axLoop Z (i + 1) (axStep Z q i h) else q
termination_by N - i

/-- Positions whose `(Z, fin)` pairs `axis_plot` returns, before sorting by `Z` (psgrid.py 278-299); the sort
(`np.argsort`, lines 300-304) only permutes them.  An empty grid raises `IndexError` at line 280. -/
def axisPoints {N : ℕ} [Neg K] [DecidableEq K] (Z : Fin N → K) : Py (List (Fin N)) :=
  if h : 0 < N then .ok (axLoop Z 0 ⟨[⟨0, h⟩], Z ⟨0, h⟩, true⟩).pts else .error .indexError

end Plot
end Verif
