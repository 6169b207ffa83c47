import Verif.Model.NDArray
import Mathlib.Algebra.BigOperators.Group.Finset.Basic
import Mathlib.Algebra.Field.Basic
import Mathlib.Data.Fintype.Basic
import Mathlib.Data.Fintype.BigOperators

/-!
# Independent statements about the grid layout

The documented layout: grid point with angular index `ia`, radial index `ir` and column `s` sits at
flat position `ia + Na*ir + Na*Nr*s`.
-/

namespace Verif.Spec

/-- Flat position of grid point `(ia, ir)` in column `s`. -/
def pos (Na Nr ia ir s : ℕ) : ℕ := ia + Na * ir + Na * Nr * s

/-- Element at a flat position, if there is one. -/
def elem {K : Type*} (a : Arr K) (k : ℕ) : Option K :=
  if h : k < a.shape.prod then some (a.data ⟨k, h⟩) else none

/-- Element `[i, s]` of a 2-d array, if the array is 2-d and has that element. -/
def entry2 {K : Type*} (a : Arr K) (i s : ℕ) : Option K :=
  match a.shape with
  | [n, p] => if i < n ∧ s < p then elem a (i + n * s) else none
  | _ => none

end Verif.Spec

namespace Verif.Spec

theorem pos_lt {Na Nr i j : ℕ} (hi : i < Na) (hj : j < Nr) : pos Na Nr i j 0 < Na * Nr := by
  have h1 := Nat.mul_le_mul_left Na (Nat.succ_le_of_lt hj)
  rw [Nat.mul_succ] at h1
  simp only [pos, Nat.mul_zero]; omega

/-- Flat index of grid point `(i, j)` of a field. -/
def at2 {Na Nr : ℕ} (i : Fin Na) (j : Fin Nr) : Fin (Na * Nr) :=
  ⟨pos Na Nr i.1 j.1 0, pos_lt i.2 j.2⟩

/-- Tensor-product quadrature of `g` over the grid points with weights `wa`, `wr`. -/
def tensorSum {K : Type*} [Field K] {Na Nr : ℕ} (wa : Fin Na → K) (wr : Fin Nr → K)
    (g : Fin (Na * Nr) → K) : K :=
  ∑ i, ∑ j, wa i * wr j * g (at2 i j)

end Verif.Spec
