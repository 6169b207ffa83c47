import Mathlib.Analysis.SpecialFunctions.Trigonometric.Deriv
import Mathlib.Analysis.SpecialFunctions.Trigonometric.DerivHyp
import Mathlib.Analysis.Calculus.Deriv.Prod
import Mathlib.Analysis.Calculus.FDeriv.Prod

/-!
# Prolate spheroidal coordinates

Point with coordinates `(r, t)` in a half plane through the axis: height `axial`, distance from the axis
`radius`.  Derivatives are taken with Mathlib's `deriv`.
-/

namespace Verif.Spec
noncomputable section

/-- Position along the axis. -/
def axial (a r t : ℝ) : ℝ := a * Real.cosh r * Real.cos t

/-- Distance from the axis. -/
def radius (a r t : ℝ) : ℝ := a * Real.sinh r * Real.sin t

/-- Tangent vector of the coordinate line along `r`. -/
def tangentR (a r t : ℝ) : ℝ × ℝ := (deriv (fun r => axial a r t) r, deriv (fun r => radius a r t) r)

/-- Tangent vector of the coordinate line along `t`. -/
def tangentA (a r t : ℝ) : ℝ × ℝ := (deriv (fun t => axial a r t) t, deriv (fun t => radius a r t) t)

/-- Squared length in the half plane. -/
def normSq (v : ℝ × ℝ) : ℝ := v.1 ^ 2 + v.2 ^ 2

/-- Scalar product in the half plane. -/
def inner2 (v w : ℝ × ℝ) : ℝ := v.1 * w.1 + v.2 * w.2

/-- Area spanned by two vectors. -/
def area (v w : ℝ × ℝ) : ℝ := |v.1 * w.2 - v.2 * w.1|

/-- An axially symmetric function with its first and second partial derivatives, as a function of
`(height, distance from the axis)`. -/
structure Smooth where
  u : ℝ × ℝ → ℝ
  uZ : ℝ × ℝ → ℝ
  uY : ℝ × ℝ → ℝ
  uZZ : ℝ × ℝ → ℝ
  uZY : ℝ × ℝ → ℝ
  uYY : ℝ × ℝ → ℝ
  du : ∀ p, HasFDerivAt u (uZ p • ContinuousLinearMap.fst ℝ ℝ ℝ + uY p • ContinuousLinearMap.snd ℝ ℝ ℝ) p
  dZ : ∀ p, HasFDerivAt uZ (uZZ p • ContinuousLinearMap.fst ℝ ℝ ℝ + uZY p • ContinuousLinearMap.snd ℝ ℝ ℝ) p
  dY : ∀ p, HasFDerivAt uY (uZY p • ContinuousLinearMap.fst ℝ ℝ ℝ + uYY p • ContinuousLinearMap.snd ℝ ℝ ℝ) p

/-- Laplacian of an axially symmetric function in cylindrical coordinates, `u_zz + u_yy + u_y / y`. -/
def Smooth.laplace (s : Smooth) (p : ℝ × ℝ) : ℝ := s.uZZ p + s.uYY p + s.uY p / p.2

/-- The function in the coordinates `(r, t)`. -/
def Smooth.pull (s : Smooth) (a r t : ℝ) : ℝ := s.u (axial a r t, radius a r t)

end
end Verif.Spec
