import Verif.Model.Solver
import Verif.Model.Options

/-!
# `CADMium/pssolver/pssolver.py` (`Pssolver`) and `CADMium/kohnsham/kohnsham.py`

`r x c` is the shape of the `Nmo` table (angular momenta x spins), `p` the `pol` argument.
Exchange, correlation and Hartree are parameters (`Model/Libxc.lean`, `Model/Hartree.lean` model
them); so are the orbitals the worker processes compute.
-/

namespace Verif
open Opt
variable {K : Type} [Field K] [LinearOrder K] [IsStrictOrderedRing K] [FloorRing K]

/-- `for i in range(r): for j in range(c)` (e.g. kohnsham.py 272-273, pssolver.py 39-40). -/
def rowMajor (r c : ℕ) : List (Fin r × Fin c) :=
  (List.finRange r).flatMap fun i => (List.finRange c).map fun j => (i, j)

/-- `for j in range(c): for i in range(r)` (e.g. kohnsham.py 164-165, 229-230). -/
def colMajor (r c : ℕ) : List (Fin r × Fin c) :=
  (List.finRange c).flatMap fun j => (List.finRange r).map fun i => (i, j)

/-- `i_solver.__init__` (pssolver.py 51-97). -/
def Solver.init (lower : String → String) (coerce : Kind → Val → Option Val) (G : Grid K) (Nmo : ℕ)
    (N : K) (Nlvls pol : ℕ) (opt : Dict) : Py (Solver G) := do
  let o ← build lower coerce solverFields opt
  if N = -1 then .error .attributeError  -- `self.polarization` does not exist (line 92)
  else pure { Nmo, N, m := Nlvls, pol, fractional := flag o "fractional", sym := flag o "sym" }

/-- `N[i,j]` of a 2-d table (pssolver.py 41). -/
def entry {r c : ℕ} (N : Fin r × Fin c → K) (i j : ℕ) : Py K :=
  if h : i < r ∧ j < c then .ok (N (⟨i, h.1⟩, ⟨j, h.2⟩)) else .error .indexError

/-- `Pssolver` (pssolver.py 30-44) for 2-d tables `Nmo` of shape `(r,c)` and `N` of shape `(r',c')`;
the result array starts out as `None`s. -/
def pssolver (lower : String → String) (coerce : Kind → Val → Option Val) (G : Grid K) {r c r' c' : ℕ}
    (Nmo : Fin r × Fin c → ℕ) (N : Fin r' × Fin c' → K) (opt : Dict) :
    Py (Fin r × Fin c → Option (Solver G)) :=
  (rowMajor r c).foldlM (fun tab ij => do
    let N ← entry N ij.1.1 ij.2.1
    let s ← Solver.init lower coerce G (Nmo ij) N ij.1.1 c opt
    pure (Function.update tab ij (some s))) fun _ => none

/-- `interaction_type` (kohnsham.py 39-44); `hfs` (lines 113, 302) is rejected by the validator. -/
inductive Interaction
  | dft | ni
  deriving DecidableEq

/-- `Libxc.get_xc(n, return_epsilon=True)` (libxc.py 38-72), `hartree.v_hartree(n)`
(hartree.py 19-80), as set up in kohnsham.py 109-112. -/
structure Functionals {K : Type} (G : Grid K) (p : ℕ) where
  exchange : G.Cols p → Py (K × G.Fld × G.Cols p)
  correlation : G.Cols p → Py (K × G.Fld × G.Cols p)
  hartree : G.Cols p → Py (G.Cols p)

/-- `E` of a `Kohnsham` object after `energy()` (kohnsham.py 20-29, 262-321). -/
structure KSEnergy (K : Type) (p : ℕ) where
  Eks : Fin p → Fl K
  Vks : Fin p → Fl K
  Ts : Fl K
  evals : List K
  Enuc : K
  Vext : K
  Vhxc : Option K
  Eh : Option K
  Ex : K
  Ec : K
  Et : Fl K
  Vnn : K
  E : Fl K

/-- `V` of a `Kohnsham` object (kohnsham.py 16-18, 293-298, 356-358); an attribute that was never set is `none`. -/
structure KSPot {K : Type} (G : Grid K) (p : ℕ) where
  vx : Option (G.Cols p) := none
  vc : Option (G.Cols p) := none
  vh : Option (G.Cols p) := none
  ex : Option G.Fld := none
  ec : Option G.Fld := none
  eh : Option G.Fld := none

/-- Attributes of `Kohnsham` (kohnsham.py 51-130). -/
structure KS {K : Type} (G : Grid K) (r c p : ℕ) where
  kind : Interaction
  sym : Bool
  Za : K
  Zb : K
  /-- `grid.a` -/
  a : K
  solver : Fin r × Fin c → Solver G
  vnuc : G.Cols p
  vext : Option (G.Cols p) := none
  vhxc : Option (G.Cols p) := none
  veff : Option (G.Cols p) := none
  n : Option (G.Cols p) := none
  u : Option K := none
  E : Option (KSEnergy K p) := none
  V : KSPot G p := {}
  scale : Option K := none
  Q : Option (G.Cols p) := none
  alpha : Option K := none
  /-- `solver[i,j].homo` -/
  homo : Fin r × Fin c → Option K := fun _ => none

namespace KS
variable {G : Grid K} {r c p : ℕ}

/-- `None` where an array is needed: `TypeError`. -/
def need {α : Type*} : Option α → Py α
  | none => .error .typeError
  | some x => .ok x

/-- `0.5 * (f + grid.mirror(f))` (kohnsham.py 155, 242, 363). -/
def symmetrised (f : G.Cols p) : G.Cols p := fun s k => 1 / 2 * (f s k + G.mirCols f s k)

/-- `(f + grid.mirror(grid.spinflip(f))) / 2` (kohnsham/scf.py 77, 90). -/
def spinSymmetrised (f : G.Cols p) : G.Cols p :=
  fun s k => (f s k + G.mirCols (G.flipCols f) s k) / 2

/-- `calc_nuclear_potential` (kohnsham.py 138-155); `v` is the Coulomb potential. -/
def nuclearPotential (G : Grid K) (p : ℕ) (sym : Bool) (v : G.Fld) : G.Cols p :=
  let vnuc : G.Cols p := if p = 1 ∨ p = 2 then fun _ => v else fun _ _ => 0
  if sym then symmetrised vnuc else vnuc

/-- Assign to every solver in the given order (the loops at kohnsham.py 164-166, 229-232). -/
def mapSolvers (l : List (Fin r × Fin c)) (f : Fin r × Fin c → Solver G → Py (Solver G))
    (s : Fin r × Fin c → Solver G) : Py (Fin r × Fin c → Solver G) :=
  l.foldlM (fun s w => do
    let x ← f w (s w)
    pure (Function.update s w x)) s

/-- `a[:, j]` of an `(Nelem,p)` array (kohnsham.py 166, 294). -/
def col (f : G.Cols p) (j : ℕ) : Py G.Fld :=
  if h : j < p then .ok (f ⟨j, h⟩) else .error .indexError

/-- `self.solver[i,j].setveff(veff[:,j])` for all solvers (kohnsham.py 164-166, 182-184,
pssolver.py 160-167). -/
def distribute (veff : G.Cols p) (s : Fin r × Fin c → Solver G) : Py (Fin r × Fin c → Solver G) :=
  mapSolvers (colMajor r c) (fun w x => do
    let v ← col veff w.2.1
    pure { x with veff := some v }) s

/-- `set_effective_potential` (kohnsham.py 157-166). -/
def setEffectivePotential (ks : KS G r c p) : Py (KS G r c p) := do
  let vext ← need ks.vext
  let vhxc ← need ks.vhxc
  let veff : G.Cols p := fun s k => ks.vnuc s k + vext s k + vhxc s k
  let solver ← distribute veff ks.solver
  pure { ks with veff := some veff, solver }

/-- `set_veff_external(veff)` (kohnsham.py 168-184): the argument is not used. -/
def setVeffExternal (ks : KS G r c p) (_veff : G.Cols p) : Py (KS G r c p) := do
  let v ← need ks.veff
  let solver ← distribute v ks.solver
  pure { ks with solver }

/-- What a worker process puts into the shared dictionary: `[eig, phi]` (calc_orbitals.py 76-77). -/
abbrev Found (G : Grid K) := List K × Option (List G.Fld)

/-- Reading the shared dictionary (kohnsham.py 229-232). -/
def collect (d : Fin r × Fin c → Option (Found G)) (s : Fin r × Fin c → Solver G) :
    Py (Fin r × Fin c → Solver G) :=
  mapSolvers (colMajor r c) (fun w x => match d w with
    | none => .error .keyError
    | some f => .ok { x with eig := some f.1, phi := f.2 }) s

/-- Adding up the solver densities (kohnsham.py 205, 234-239). -/
def sumDensities (p : ℕ) (s : Fin r × Fin c → Solver G) : Py (G.Cols p) :=
  (colMajor r c).foldlM (fun (nout : G.Cols p) w => do
    let n ← (s w).calcDensity
    if h : w.2.1 < p then
      pure (Function.update nout ⟨w.2.1, h⟩ fun k => nout ⟨w.2.1, h⟩ k + n k)
    else .error .indexError) fun _ _ => 0

/-- `calc_density` (kohnsham.py 186-244) after all workers were joined: `d` is the shared
dictionary. -/
def calcDensity (ks : KS G r c p) (d : Fin r × Fin c → Option (Found G)) :
    Py (KS G r c p × G.Cols p) := do
  let solver ← collect d ks.solver
  let nout ← sumDensities p solver
  pure ({ ks with solver }, if ks.sym then symmetrised nout else nout)

/-- The worker processes (kohnsham.py 207-226): pending workers finish in any order; a worker writes
its entry of the shared dictionary once, or dies without writing (`work w = none`). `join` waits until
nothing is pending. -/
inductive Run {W R : Type*} [DecidableEq W] (work : W → Option R) :
    List W → (W → Option R) → (W → Option R) → Prop
  | joined (d) : Run work [] d d
  | writes {pending d d'} (w x) : w ∈ pending → work w = some x →
      Run work (pending.erase w) (Function.update d w (some x)) d' → Run work pending d d'
  | dies {pending d d'} (w) : w ∈ pending → work w = none →
      Run work (pending.erase w) d d' → Run work pending d d'

/-- `grid.integrate(np.sum(f * g, axis=1))` (kohnsham.py 282-291). -/
def inner (f g : G.Cols p) : K := G.integ fun k => ∑ s, f s k * g s k

/-- Energy sums over the solvers (kohnsham.py 262-279). -/
def solverEnergies (p : ℕ) (s : Fin r × Fin c → Solver G) :
    Py ((Fin p → Fl K) × Fl K × (Fin p → Fl K) × List K) :=
  (rowMajor r c).foldlM (fun acc w => do
    let (e, _) ← (s w).calcEnergy
    let eig ← need (s w).eig
    if h : w.2.1 < p then
      let j : Fin p := ⟨w.2.1, h⟩
      pure (Function.update acc.1 j (Fl.add (acc.1 j) e.eks), Fl.add acc.2.1 e.Ts,
        Function.update acc.2.2.1 j (Fl.add (acc.2.2.1 j) e.Vs), acc.2.2.2 ++ eig)
    else .error .indexError) (fun _ => .fin 0, .fin 0, fun _ => .fin 0, [])

/-- `energy` (kohnsham.py 246-321). -/
def energy (F : Functionals G p) (ks : KS G r c p) : Py (KS G r c p) := do
  let (Eks, Ts, Vks, evals) ← solverEnergies p ks.solver
  let Vnn := ks.Za * ks.Zb / (2 * ks.a)
  match ks.kind with
  | .ni =>
    let n ← need ks.n
    let vext ← need ks.vext
    let Enuc := inner n ks.vnuc
    let Vext := inner n vext
    let Et := Fl.add Ts (.fin Enuc)
    let E : KSEnergy K p := ⟨Eks, Vks, Ts, evals, Enuc, Vext, none, none,
      (ks.E.map KSEnergy.Ex).getD 0, (ks.E.map KSEnergy.Ec).getD 0, Et, Vnn, Fl.add Et (.fin Vnn)⟩
    pure { ks with E := some E }
  | .dft =>
    let n ← need ks.n
    let Enuc := inner n ks.vnuc
    let vext ← need ks.vext
    let Vext := inner n vext
    let vhxc ← need ks.vhxc
    let Vhxc := inner n vhxc
    let vh ← F.hartree n
    let vh0 ← col vh 0
    let eh : G.Fld := fun k => 1 / 2 * vh0 k
    let Eh := G.integ fun k => (∑ s, n s k) * eh k
    let (Ex, ex, vx) ← F.exchange n
    let (Ec, ec, vc) ← F.correlation n
    let Et := Fl.add (Fl.add (Fl.add (Fl.add Ts (.fin Enuc)) (.fin Eh)) (.fin Ex)) (.fin Ec)
    let E : KSEnergy K p := ⟨Eks, Vks, Ts, evals, Enuc, Vext, some Vhxc, some Eh, Ex, Ec, Et, Vnn,
      Fl.add Et (.fin Vnn)⟩
    pure { ks with E := some E, V := ⟨some vx, some vc, some vh, some ex, some ec, some eh⟩ }

/-- `calc_hxc_potential` before the symmetrisation (kohnsham.py 350-360). -/
def rawHxc (F : Functionals G p) (ks : KS G r c p) : Py (KS G r c p) :=
  match ks.kind with
  | .ni => pure { ks with vhxc := some fun _ _ => 0 }
  | .dft => do
    let n ← need ks.n
    let (_, _, vx) ← F.exchange n
    let (_, _, vc) ← F.correlation n
    let vh ← F.hartree n
    pure { ks with
      vhxc := some fun s k => vx s k + vc s k + vh s k
      V := { ks.V with vx := some vx, vc := some vc, vh := some vh } }

/-- `calc_hxc_potential` (kohnsham.py 333-363); `E.Ex`, `E.Ec` are overwritten by the next
`energy()` and not tracked here. -/
def calcHxc (F : Functionals G p) (ks : KS G r c p) : Py (KS G r c p) := do
  let ks ← rawHxc F ks
  let vhxc ← need ks.vhxc
  pure (if ks.sym then { ks with vhxc := some (symmetrised vhxc) } else ks)

/-- Python's `max` of a non-empty list (kohnsham.py 384); an empty one raises `ValueError`. -/
def pyMax : List K → Py K
  | [] => .error .valueError
  | x :: l => .ok (l.foldl (fun m y => if m < y then y else m) x)

/-- `calc_chempot` (kohnsham.py 365-384). -/
def calcChempot (ks : KS G r c p) : Py (KS G r c p) := do
  let homos ← (rowMajor r c).mapM fun w => (ks.solver w).getHomo
  let u ← pyMax homos
  pure { ks with u := some u, homo := fun w => (ks.solver w).getHomo.toOption }

end KS
end Verif
