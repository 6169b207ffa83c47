import Verif.Model.Solver
import Verif.Model.Operators
import Mathlib.Data.Fin.Tuple.Sort
import Mathlib.Data.Matrix.Block
import Mathlib.LinearAlgebra.Matrix.NonsingularInverse
import Mathlib.Data.List.FinRange

/-!
# `CADMium/pssolver`: Hamiltonian, `calc_orbitals`, `iter_orbitals`, `calc_response`, `calc_ked_WFI`

`scipy` is an oracle: `eigs` and the iterative linear solver are arbitrary functions, `spsolve` in
`calc_response` is the exact inverse.
-/

namespace Verif
open Ops

/-- `i_solver.hamiltonian` (pssolver.py 99-120). -/
def Solver.hamiltonian {K : Type*} [Field K] {n : ℕ} (m : ℕ) (elap olap : Matrix (Fin n) (Fin n) K)
    (w f : Fin n → K) : Matrix (Fin n) (Fin n) K :=
  if m % 2 = 0 then (-(1 / 2) : K) • elap + ((m : K) ^ 2 • diag w) * diag f
  else (-(1 / 2) : K) • olap + ((m : K) ^ 2 • diag w) * diag f

namespace Orbitals

/-- An orbital column; `none` is a column filled with NaN. -/
abbrev Orb (G : Grid ℝ) := Option G.Fld

variable {G : Grid ℝ} {n : ℕ}

/-- `np.linalg.norm(v)` (calc_orbitals.py 9). -/
noncomputable def norm (v : G.Fld) : ℝ := Real.sqrt (∑ k, v k ^ 2)

/-- `v / norm(v)` (calc_orbitals.py 60-61, 68): a zero vector gives `0/0`, a column of NaN. -/
noncomputable def unit (v : G.Fld) : Orb G := if norm v = 0 then none else some fun k => v k / norm v

/-- `even`, `odd` (calc_orbitals.py 58-59). -/
def even (p q : G.Fld) : G.Fld := fun k => p k + G.mir p k + q k + G.mir q k
/-- see `even` -/
def odd (p q : G.Fld) : G.Fld := fun k => p k - G.mir p k + q k - G.mir q k

/-- Body of the degeneracy loop (calc_orbitals.py 57-61); NaN columns stay NaN and spread to the
partner. -/
noncomputable def pairStep (eig : Fin n → ℝ) (phi : Fin n → Orb G) (i j : Fin n) : Fin n → Orb G :=
  if |eig i - eig j| < 1 / 10 ^ 9 then
    match phi i, phi j with
    | some p, some q => Function.update (Function.update phi i (unit (even p q))) j (unit (odd p q))
    | _, _ => Function.update (Function.update phi i none) j none
  else phi

/-- `for i in range(Nmo-1): for j in range(i+1, Nmo)` (calc_orbitals.py 55-56). -/
def pairs (n : ℕ) : List (Fin n × Fin n) :=
  (List.finRange n).flatMap fun i => (List.finRange n).filterMap fun j =>
    if i < j then some (i, j) else none

/-- The whole degeneracy loop (calc_orbitals.py 55-61). -/
noncomputable def degenerate (eig : Fin n → ℝ) (phi : Fin n → Orb G) : Fin n → Orb G :=
  (pairs n).foldl (fun phi ij => pairStep eig phi ij.1 ij.2) phi

/-- calc_orbitals.py 63-72, one orbital: a comparison with NaN is false. -/
noncomputable def symmetrise : Orb G → Orb G
  | none => none
  | some p =>
    if 0 < ∑ k, p k * G.mir p k then unit fun k => p k + G.mir p k
    else some fun k => p k - G.mir p k

/-- What `calc_orbitals` does to the output of `eigs` once it is accepted (calc_orbitals.py 55-72). -/
noncomputable def post (sym : Bool) (eig : Fin n → ℝ) (phi : Fin n → Orb G) : Fin n → Orb G :=
  let phi := degenerate eig phi
  if sym then fun i => symmetrise (phi i) else phi

/-- `calc_orbitals` (calc_orbitals.py 33-72) for `Nmo ≠ 0`.  `eigs a` is the answer of the
eigensolver in attempt `a`, `a` the first attempt whose orbitals are not all NaN (line 48, `hacc`).
Only attempt 0 is sorted (lines 43-46; ties are broken stably here, arbitrarily by numpy).
`calc_orbitals` does not return when every attempt is all NaN. -/
noncomputable def calcOrbitals (sym : Bool) (eigs : ℕ → (Fin n → ℝ) × (Fin n → Orb G)) (a : ℕ) :
    (Fin n → ℝ) × (Fin n → Orb G) :=
  let r : (Fin n → ℝ) × (Fin n → Orb G) :=
    if a = 0 then ((eigs 0).1 ∘ Tuple.sort (eigs 0).1, (eigs 0).2 ∘ Tuple.sort (eigs 0).1) else eigs a
  (r.1, post sym r.1 r.2)

/-- Attempt `a` is the one `calc_orbitals` ends with (line 48). -/
def Accepted (eigs : ℕ → (Fin n → ℝ) × (Fin n → Orb G)) (a : ℕ) : Prop :=
  (∀ b < a, ∀ i, (eigs b).2 i = none) ∧ ∃ i, (eigs a).2 i ≠ none

/-- The bordered matrix `C` of `iter_orbitals` (iter_orbitals.py 36-46). -/
noncomputable def system (H : Matrix G.Ix G.Ix ℝ) (e : ℝ) (p : G.Fld) :
    Matrix (G.Ix ⊕ Unit) (G.Ix ⊕ Unit) ℝ :=
  Matrix.fromBlocks (H - e • diag G.w) (fun k _ => -(G.w k * p k)) (fun _ k => -(G.w k * p k))
    (fun _ _ => -1 / 10 ^ 12)

/-- `Hks = H0 + spdiags(w*veff)` (iter_orbitals.py 29). -/
noncomputable def hks (H0 : Matrix G.Ix G.Ix ℝ) (veff : G.Fld) : Matrix G.Ix G.Ix ℝ :=
  H0 + diag fun k => G.w k * veff k

/-- Column of `resvec` (iter_orbitals.py 30). -/
noncomputable def resid (H : Matrix G.Ix G.Ix ℝ) (e : ℝ) (p : G.Fld) : G.Fld :=
  fun k => H.mulVec p k - G.w k * (e * p k)

/-- `res[j] > tol` (iter_orbitals.py 31, 35): the largest entry exceeds the tolerance. -/
def exceeds (r : G.Fld) (tol : ℝ) : Prop := ∃ k, tol < |r k|

/-- Right-hand side (iter_orbitals.py 45). -/
def rhs (r : G.Fld) : G.Ix ⊕ Unit → ℝ := Sum.elim r fun _ => 0

/-- Variables of the loop in `iter_orbitals`: `phi`, `eig` and `x`, which is unbound until first
assigned. -/
structure IterState (G : Grid ℝ) where
  phi : List G.Fld
  eig : List ℝ
  x : Option (G.Ix ⊕ Unit → ℝ)

open Classical in
/-- Body of the loop (iter_orbitals.py 33-59).  `solve` is the linear solver, `res` the resid
vectors computed before the loop. -/
noncomputable def iterStep (s : Solver G) (H : Matrix G.Ix G.Ix ℝ) (tol : ℝ)
    (solve : Matrix (G.Ix ⊕ Unit) (G.Ix ⊕ Unit) ℝ → (G.Ix ⊕ Unit → ℝ) → (G.Ix ⊕ Unit → ℝ))
    (res : List G.Fld) (st : IterState G) (j : ℕ) : Py (IterState G) := do
  let r ← pyGet res j
  let p ← pyGet st.phi j
  let e ← pyGet st.eig j
  let x := if exceeds r tol then some (solve (system H e p) (rhs r)) else st.x
  match x with
  | none => .error .unboundLocalError
  | some v =>
    let s' ← SolverR.normalizeOrbitals
      { s with phi := some (st.phi.set j fun k => p k - v (.inl k)) }
    pure { phi := s'.phi.getD [], eig := st.eig.set j (e - v (.inr ())), x := some v }

/-- `iter_orbitals` (iter_orbitals.py 15-59) for `Nmo ≠ 0` and orbitals already present. -/
noncomputable def iterOrbitals (s : Solver G) (H0 : Matrix G.Ix G.Ix ℝ) (veff : G.Fld) (tol : ℝ)
    (solve : Matrix (G.Ix ⊕ Unit) (G.Ix ⊕ Unit) ℝ → (G.Ix ⊕ Unit → ℝ) → (G.Ix ⊕ Unit → ℝ))
    (phi : List G.Fld) (eig : List ℝ) : Py (IterState G) :=
  let H := hks H0 veff
  let res := List.zipWith (fun e p => resid H e p) eig phi
  (List.range s.Nmo).foldlM (iterStep s H tol solve res) ⟨phi, eig, none⟩

end Orbitals

namespace SolverR
variable {G : Grid ℝ}
open Solver

/-- `phi_j` normalised on the grid (calc_response.py 51, calc_ked_WFI.py 36). -/
noncomputable def gridUnit (p : G.Fld) : G.Fld :=
  fun k => p k / (G.integ fun k => p k ^ 2) ^ (1 / 2 : ℝ)

/-- The matrix `A` of `calc_response` (calc_response.py 57-62). -/
noncomputable def border (H : Matrix G.Ix G.Ix ℝ) (e : ℝ) (p : G.Fld) :
    Matrix (G.Ix ⊕ Unit) (G.Ix ⊕ Unit) ℝ :=
  Matrix.fromBlocks (-(H - e • diag G.w)) (fun k _ => G.w k * p k) (fun _ k => G.w k * p k)
    (fun _ _ => 0)

/-- `rhs` (calc_response.py 55): `W @ PHI` above a zero row. -/
noncomputable def responseRhs (p : G.Fld) : Matrix (G.Ix ⊕ Unit) G.Ix ℝ :=
  Matrix.of (Sum.elim (fun k => diag (fun k => G.w k * p k) k) fun _ _ => 0)

/-- `2 * PHI @ x[0:Nelem, 0:Nelem]` (calc_response.py 64-67). -/
noncomputable def orbitalResponse (H : Matrix G.Ix G.Ix ℝ) (e : ℝ) (p : G.Fld) :
    Matrix G.Ix G.Ix ℝ :=
  (2 : ℝ) • (diag p * ((border H e p)⁻¹ * responseRhs p).submatrix Sum.inl id)

/-- `calc_response` (calc_response.py 13-103).  The fractional branch indexes with a float
(`j = Nocc + 1`, line 73): `IndexError`.  Without occupied orbitals the code leaves a 1-d zero array,
here the zero matrix. -/
noncomputable def calcResponse (s : Solver G) (H0 : Matrix G.Ix G.Ix ℝ) (veff : G.Fld) :
    Py (Matrix G.Ix G.Ix ℝ) := do
  let H := Orbitals.hks H0 veff
  let (Nocc, nu) := s.occupation
  let chi ← (pyRange Nocc).foldlM (fun (chi : Matrix G.Ix G.Ix ℝ) (j : ℕ) => do
    let p ← s.orb j
    let e ← s.eigAt j
    pure (chi + orbitalResponse H e (gridUnit p))) 0
  if s.fractional = true ∧ nu ≠ 0 then .error .indexError
  else pure (if s.pol = 1 then (2 : ℝ) • chi else chi)

/-- `(phi_norm * (H0 @ phi_norm)) / w` (calc_ked_WFI.py 38). -/
noncomputable def kedOf (H0 : Matrix G.Ix G.Ix ℝ) (p : G.Fld) : G.Fld :=
  fun k => p k * H0.mulVec p k / G.w k

/-- `calc_ked_WFI` (calc_ked_WFI.py 7-57).  The fractional branch reads the loop variable `i`
(unbound when no orbital is full, else the last full orbital) and the norm of orbital `Nocc+1`. -/
noncomputable def calcKed (s : Solver G) (H0 : Matrix G.Ix G.Ix ℝ) : Py G.Fld := do
  let (Nocc, nu) := s.occupation
  let t ← (pyRange Nocc).foldlM (fun (t : G.Fld) (i : ℕ) => do
    let p ← s.orb i
    pure (t + kedOf H0 (gridUnit p))) 0
  let t ← if s.fractional = true ∧ nu ≠ 0 then do
      if Nocc ≤ 0 then .error .unboundLocalError else
      let p ← s.orb (Nocc - 1)
      let q ← s.orb (Nocc + 1)
      let u : G.Fld := fun k => p k / (G.integ fun k => q k ^ 2) ^ (1 / 2 : ℝ)
      pure (t + nu • kedOf H0 u)
    else pure t
  pure fun k => s.scale * t k

end SolverR
end Verif
