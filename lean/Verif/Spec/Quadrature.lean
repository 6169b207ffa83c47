import Mathlib.Analysis.SpecialFunctions.Integrals.Basic
import Mathlib.Algebra.Polynomial.Eval.Degree

/-!
# What a quadrature rule should do
-/

namespace Verif.Spec
open Polynomial

/-- The rule with nodes `x` and weights `w` integrates every real polynomial of degree `< d`
over `[lo, hi]` exactly. -/
def ExactOn {ι : Type*} [Fintype ι] (x w : ι → ℝ) (lo hi : ℝ) (d : ℕ) : Prop :=
  ∀ q : ℝ[X], q.degree < d → ∑ j, w j * q.eval (x j) = ∫ t in lo..hi, q.eval t

end Verif.Spec
