import Mathlib.Algebra.BigOperators.Group.Finset.Basic
import Mathlib.Data.Fintype.BigOperators
import Mathlib.Algebra.Field.Basic
import Verif.Spec.Grid

/-!
# What a difference operator should do

A field `u` given on the half-step points `0, .., n-1` is continued to the left of point `0` by
reflection (`u(-1-k) = ±u(k)`), and to the right of point `n-1` by reflection
(`u(n+k) = ±u(n-1-k)`), by zero or by given outer values `b`.
-/

namespace Verif.Spec
variable {K : Type*} [Field K]

/-- Value of `u` at integer position `z`, zero if out of range. -/
def val {n : ℕ} (u : Fin n → K) (z : ℤ) : K :=
  if h : 0 ≤ z ∧ z < n then u ⟨z.toNat, by omega⟩ else 0

/-- Continuation of `u` with sign `sl` on the left and the function `right` on the right. -/
def extend {n : ℕ} (sl : K) (right : ℕ → K) (u : Fin n → K) (z : ℤ) : K :=
  if z < 0 then sl * val u (-1 - z) else if z < n then val u z else right (z - n).toNat

/-- Continuation by reflection at the right end. -/
def reflect {n : ℕ} (sr : K) (u : Fin n → K) (k : ℕ) : K := sr * val u (n - 1 - k)

/-- Outer values `b`, zero beyond. -/
def outer {m : ℕ} (b : Fin m → K) (k : ℕ) : K := val b k

/-- The stencil with offsets `-k..k` and coefficients `ds` applied at position `z`. -/
def stencil {k : ℕ} (ds : Fin (2 * k + 1) → K) (g : ℤ → K) (z : ℤ) : K :=
  ∑ i, ds i * g (z + ((i.1 : ℤ) - k))

/-- Angular line through grid point `(·, j)`. -/
def lineA {Na Nr : ℕ} (f : Fin (Na * Nr) → K) (j : Fin Nr) : Fin Na → K := fun i => f (at2 i j)

/-- Radial line through grid point `(i, ·)`. -/
def lineR {Na Nr : ℕ} (f : Fin (Na * Nr) → K) (i : Fin Na) : Fin Nr → K := fun j => f (at2 i j)

/-- Angular difference quotient at `(i, j)`: stencil on the line continued with parity `s` at both
ends, over the step to the power `p`. -/
def diffA {Na Nr k : ℕ} (ds : Fin (2 * k + 1) → K) (ha : K) (p : ℕ) (s : K) (f : Fin (Na * Nr) → K)
    (i : Fin Na) (j : Fin Nr) : K :=
  stencil ds (extend s (reflect s (lineA f j)) (lineA f j)) i.1 / ha ^ p

/-- Radial difference quotient at `(i, j)`: parity `s` at the axis, values `right` beyond `L`. -/
def diffR {Na Nr k : ℕ} (ds : Fin (2 * k + 1) → K) (hr : K) (p : ℕ) (s : K) (right : ℕ → K)
    (f : Fin (Na * Nr) → K) (i : Fin Na) (j : Fin Nr) : K :=
  stencil ds (extend s right (lineR f i)) j.1 / hr ^ p

end Verif.Spec
