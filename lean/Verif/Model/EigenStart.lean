import Verif.Model.Construct

/-!
# Starting energies of the eigenvalue search

`eigs` looks for the states nearest to `e0` (calc_orbitals.py 38).  The table has one entry per solver.
-/

namespace Verif
variable {K : Type} [_root_.Field K] [LinearOrder K] [IsStrictOrderedRing K] [FloorRing K]

/-- `self.e0 = -20` (pssolver.py 71). -/
def Solver.defaultStart : K := -20

/-- The start for one solver (kohnsham.py 127-130). -/
def KS.startOf (kind : Interaction) (Za Zb : K) (m : ℕ) : K :=
  if kind = .ni then -(3 / 2) * max Za Zb ^ 2 / ((m : K) + 1) ^ 2
  else -(max Za Zb ^ 2) / ((m : K) + 1) ^ 2

/-- The starts after `Kohnsham.__init__` (kohnsham.py 123-130): the solvers come with the default. -/
def KS.starts {G : Grid K} {r c p : ℕ} (ks : KS G r c p) : Fin r × Fin c → K :=
  (rowMajor r c).foldl (fun e w => Function.update e w (startOf ks.kind ks.Za ks.Zb (ks.solver w).m))
    fun _ => Solver.defaultStart

/-- The starts after `linresponse` (linresponse.py 45-47 with `ens_spin_sym`, 68, 77-79 without). -/
def linresponseStarts {r c : ℕ} (ensSpinSym : Bool) (pol : ℕ) (e : Fin r × Fin c → K) : Fin r × Fin c → K := fun w =>
  if (if ensSpinSym then w.2.1 = 0 else w.2.1 < pol) then -20 else e w

end Verif
