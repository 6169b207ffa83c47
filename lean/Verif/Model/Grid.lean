import Verif.Model.Mirror
import Mathlib.Algebra.BigOperators.Group.Finset.Basic
import Mathlib.Algebra.BigOperators.Ring.Finset
import Mathlib.Algebra.Field.Basic

/-!
# The grid object as seen by the rest of the code

`Psgrid` (psgrid/psgrid.py) after `initialize` (psgrid/initialize.py), reduced to the attributes
the higher layers use: sizes, steps, quadrature weights `wi`, volume element `w`.
Fields are flat arrays of length `Nelem = Na*Nr` in F-order: position `ia + Na*ir`.
How the code fills these attributes is modelled in `Model/Coordinates.lean` and `Model/Weights.lean`.
-/

namespace Verif

/-- Attributes of `Psgrid` used by solvers, Kohn-Sham and partition code
(initialize.py 17-82). -/
structure Grid (K : Type*) where
  Na : ℕ
  Nr : ℕ
  /-- `np.pi` -/
  pi : K
  ha : K
  hr : K
  /-- Newton-Cotes weights, initialize.py 63 -/
  wi : Fin (Na * Nr) → K
  /-- volume element, initialize.py 76-77 -/
  w : Fin (Na * Nr) → K

namespace Grid
variable {K : Type*}

/-- Index set of flat fields. -/
abbrev Ix (G : Grid K) := Fin (G.Na * G.Nr)

/-- A flat field: 1-d array of length `Nelem`. -/
abbrev Fld (G : Grid K) := G.Ix → K

/-- A 2-d array of shape `(Nelem, p)`, as its `p` columns. -/
abbrev Cols (G : Grid K) (p : ℕ) := Fin p → G.Fld

/-- Position read by `mirror` when writing position `k` (mirror.py 13 on a 1-d field). -/
def mirIx (G : Grid K) (k : G.Ix) : G.Ix :=
  ⟨Arr.flip0Pos G.Na k.1, Arr.flip0Pos_lt k.2⟩

/-- `grid.mirror(f)` for a 1-d field (mirror.py 10-13); see `mirror_ofVec` for the link with the
general-shape model. -/
def mir (G : Grid K) (f : G.Fld) : G.Fld := fun k => f (G.mirIx k)

/-- `grid.mirror(f)` for an `(Nelem,p)` array. -/
def mirCols (G : Grid K) {p : ℕ} (f : G.Cols p) : G.Cols p := fun s => G.mir (f s)

/-- `grid.spinflip(f)` for an `(Nelem,p)` array (spinflip.py 18). -/
def flipCols (G : Grid K) {p : ℕ} (f : G.Cols p) : G.Cols p := fun s => f s.rev

variable [Field K]

/-- `grid.integrate(f)` for a 1-d field (integrate.py 12-13):
`(2*pi*hr*ha) * sum(wi*w*f)`. -/
def integ (G : Grid K) (f : G.Fld) : K :=
  (2 * G.pi * G.hr * G.ha) * ∑ k, G.wi k * G.w k * f k

/-- The arrays `integrate` accepts: 1-d, or 2-d with `p` columns. -/
inductive NArr (G : Grid K)
  | d1 (f : G.Fld)
  | d2 (p : ℕ) (f : G.Cols p)

/-- What `integrate` returns: a number or an array. -/
inductive IntRes (G : Grid K)
  | num (x : K)
  | arr (p : ℕ) (f : G.Cols p)

/-- `integrate` (integrate.py 7-23) with its three shape branches.
For an `(Nelem,1)` array numpy broadcasts `wi*w` (shape `(Nelem,)`) against `f`
(shape `(Nelem,1)`) to an `Nelem x Nelem` array with entries `wi[j]*w[j]*f[i,0]`.
For `p ≥ 2` (and `p = 0`) every entry of column `i` is set to the integral of that column. -/
def integrate (G : Grid K) : NArr G → IntRes G
  | .d1 f => .num ((2 * G.pi * G.hr * G.ha) * ∑ k, G.wi k * G.w k * f k)
  | .d2 1 f => .num ((2 * G.pi * G.hr * G.ha) * ∑ i, ∑ j, G.wi j * G.w j * f 0 i)
  | .d2 p f => .arr p (fun s _ => (2 * G.pi * G.hr * G.ha) * ∑ k, G.wi k * G.w k * f s k)

end Grid
end Verif
