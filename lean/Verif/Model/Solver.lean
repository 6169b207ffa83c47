import Verif.Model.Grid
import Verif.Py.Fl
import Mathlib.Algebra.Order.Floor.Ring
import Mathlib.Analysis.SpecialFunctions.Pow.Real

/-!
# `CADMium/pssolver`: one solver (`i_solver`), density, energies, HOMO, normalisation

The orbital array `phi` (shape `(Nelem, Nmo)`) is the list of its columns.
-/

namespace Verif
variable {K : Type*} [Field K] [LinearOrder K] [IsStrictOrderedRing K] [FloorRing K]

/-- Attributes of `i_solver` (pssolver.py 51-97) read by the functions below. -/
structure Solver {K : Type*} (G : Grid K) where
  Nmo : ℕ
  N : K
  /-- `Nlvls`, the angular momentum -/
  m : ℕ
  pol : ℕ
  /-- `optSolver.fractional` -/
  fractional : Bool := false
  /-- `optSolver.sym` -/
  sym : Bool := false
  phi : Option (List G.Fld) := none
  eig : Option (List K) := none
  veff : Option G.Fld := none

namespace Solver
variable {G : Grid K}

/-- `self.phi[:, i]` (calc_density.py 33): `TypeError` while `phi` is `None`, `IndexError` out of range. -/
def orb (s : Solver G) (i : ℤ) : Py G.Fld :=
  match s.phi with
  | none => .error .typeError
  | some l => pyGet l i

/-- `self.eig[i]` (calc_energy.py 33, get_homo.py 34). -/
def eigAt (s : Solver G) (i : ℤ) : Py K :=
  match s.eig with
  | none => .error .typeError
  | some l => pyGet l i

/-- `Nocc, nu` (calc_density.py 14-29, calc_energy.py 13-29, get_homo.py 11-27,
calc_ked_WFI.py 16-31, calc_response.py 30-45). -/
def occupation (s : Solver G) : ℤ × K :=
  if s.m = 0 then
    if s.pol = 1 then (⌊s.N / 2⌋, s.N / 2 - ⌊s.N / 2⌋)
    else (⌊s.N⌋, s.N - ⌊s.N⌋)
  else
    if s.pol = 1 then (⌊s.N / 4⌋, s.N / 4 - ⌊s.N / 4⌋)
    else (⌊s.N / 2⌋, s.N / 2 - ⌊s.N / 2⌋)

/-- The final scaling (calc_density.py 41-49, calc_energy.py 41-49): factor applied to the sum. -/
def scale (s : Solver G) : K :=
  if s.m = 0 then (if s.pol = 1 then 2 else 1)
  else (if s.pol = 1 then 4 else 2)

/-- `calc_density` (calc_density.py 7-49); the `(Nelem,1)` array `self.n` as a field. -/
def calcDensity (s : Solver G) : Py G.Fld := do
  let (Nocc, nu) := s.occupation
  -- lines 32-33
  let n ← (pyRange Nocc).foldlM (fun (n : G.Fld) (i : ℕ) => do
    let p ← s.orb i
    pure fun k => n k + p k ^ 2 / G.integ fun k => p k ^ 2) (fun _ => 0)
  -- lines 36-38
  let n ← if s.fractional = true ∧ nu ≠ 0 then do
      let p ← s.orb Nocc
      pure fun k => n k + nu * p k ^ 2 / G.integ fun k => p k ^ 2
    else pure n
  pure fun k => s.scale * n k

/-- The energy sum of `calc_energy` (calc_energy.py 10, 32-49). -/
def calcEks (s : Solver G) : Py K := do
  let (Nocc, nu) := s.occupation
  let e ← (pyRange Nocc).foldlM (fun (e : K) (i : ℕ) => do
    let x ← s.eigAt i
    pure (e + x)) 0
  let e ← if s.fractional = true ∧ nu ≠ 0 then do
      let x ← s.eigAt Nocc
      pure (e + nu * x)
    else pure e
  pure (s.scale * e)

/-- `eks`, `Vs`, `Ts` after `calc_energy` (calc_energy.py 52-63). -/
structure Energy (K : Type*) where
  eks : Fl K
  Vs : Fl K
  Ts : Fl K

/-- Lines 53-63 of calc_energy.py: `Ts = eks - Vs` is set first, then a NaN or very large `Vs` is
replaced by 0 (an infinite one is only reported). -/
def energyGuard (eks Vs : Fl K) : Energy K :=
  let Ts := Fl.sub eks Vs
  let Vs' := if Vs.isnan then .fin 0
    else if Vs.isinf then Vs
    else if Fl.gt Vs.abs (.fin (10 ^ 5)) then .fin 0
    else Vs
  { eks, Vs := Vs', Ts }

/-- `calc_energy` (calc_energy.py 7-63) for finite data. -/
def calcEnergy (s : Solver G) : Py (Energy K × G.Fld) := do
  let eks ← s.calcEks
  let n ← s.calcDensity
  match s.veff with
  | none => .error .typeError
  | some v => pure (energyGuard (.fin eks) (.fin (G.integ fun k => v k * n k)), n)

/-- `-1 / np.finfo(float).eps` (get_homo.py 36, calc_orbitals.py 75). -/
def noElectrons : K := - (2 ^ 52)

/-- `get_homo` (get_homo.py 7-38). -/
def getHomo (s : Solver G) : Py K :=
  let (Nocc, nu) := s.occupation
  let Nocc := if nu ≠ 0 then Nocc + 1 else Nocc
  if Nocc ≠ 0 then s.eigAt (Nocc - 1) else .ok noElectrons

end Solver

namespace SolverR
open Solver

/-- `occ` of `normalize_orbitals` (normalize_orbitals.py 8-14). -/
noncomputable def capacity {G : Grid ℝ} (s : Solver G) : ℝ :=
  let occ : ℝ := if s.m = 0 then 2 else 4
  if s.pol = 2 then occ / 2 else occ

/-- One column of `normalize_orbitals` (line 17). -/
noncomputable def normalizeOrb {G : Grid ℝ} (s : Solver G) (p : G.Fld) : G.Fld :=
  fun k => capacity s ^ (1 / 2 : ℝ) * p k / (G.integ fun k => p k ^ 2) ^ (1 / 2 : ℝ)

/-- `normalize_orbitals` (normalize_orbitals.py 5-17): the loop runs over `range(self.Nmo)`. -/
noncomputable def normalizeOrbitals {G : Grid ℝ} (s : Solver G) : Py (Solver G) := do
  match s.phi with
  | none => if s.Nmo = 0 then pure s else .error .typeError
  | some l =>
    if s.Nmo ≤ l.length then
      pure { s with phi := some (l.mapIdx fun i p => if i < s.Nmo then normalizeOrb s p else p) }
    else .error .indexError

end SolverR
end Verif
