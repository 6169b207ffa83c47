import Verif.Model.Inverter
import Verif.Model.PartitionScf

/-!
# Inversion of the promolecular density, spin by spin

`CADMium/partition/vp_kinetic.py` 86-104 with `CADMium/inverter/orbitalinvert.py` as inversion method, the
objects both return, and what `CADMium/partition/scf.py` 213-231 reads from them.  The inverter has one row
of solvers (`Nsol = 1`, see `OrbInv.occupations`) and `c + 1` spin columns.
-/

namespace Verif
namespace InvMol
open OrbInv

/-- `nfev`, `optimality` (orbitalinvert.py 476-477; fields of the result of `least_squares`). -/
structure Info where
  nfev : ℕ
  optimality : Fl ℝ

/-- An element of the object arrays `output`.  `orbitalinvert` stores the class `inversion_info` itself
(`inv_info = inversion_info`, orbitalinvert.py 475-479), so that all its outputs are the same object;
`linresponse` stores results of `least_squares` and leaves `None` elsewhere (linresponse.py 35, 91). -/
inductive Cell
  | cls
  | lsq (i : Info)
  | none

/-- Reading `.nfev`, `.optimality` of an element; `cls` are the attributes the class has now. -/
def Cell.read (cls : Option Info) : Cell → Py Info
  | .cls => attr cls
  | .lsq i => .ok i
  | .none => .error .attributeError

/-- `phi0`, `e0`, `vs0` as handed to `invert` (vp_kinetic.py 90-95). -/
structure Guess (G : Grid ℝ) where
  phi0 : List ℝ
  e0 : List ℝ
  vs0 : G.Fld

/-- The inverter (inverter.py 99-106) and the attributes of the class `inversion_info`. -/
structure State (G : Grid ℝ) (c : ℕ) where
  solver : Fin (c + 1) → Solver G
  /-- `vs`, `us`, both `(Nelem, pol)` after the first call (orbitalinvert.py 190-192) -/
  arrays : Option ((Fin (c + 1) → G.Fld) × (Fin (c + 1) → G.Fld)) := none
  cls : Option Info := none

variable {G : Grid ℝ} {c M : ℕ}

/-- Initial `X` (orbitalinvert.py 256-281): the caller's guess is used only while the solver has no
orbitals.  Orbital tables of another width do not fit the other blocks. -/
noncomputable def initial (s : Solver G) (g : Guess G) : Py (Unk ℝ (G.Na * G.Nr) M) :=
  match s.phi with
  | .none => fromGuess g.phi0 g.e0 g.vs0
  | some phi => do
    let eig ← KS.need s.eig
    let v ← KS.need s.veff
    if phi.length = M + 1 ∧ eig.length = M + 1 then
      pure (fromSolver (fun i => phi.getD i.1 0) (fun i => eig.getD i.1 0) v)
    else .error .valueError

/-- One spin (orbitalinvert.py 194-472): the solver of that spin alone is read. -/
noncomputable def alone (O : (M : ℕ) → Oracle G M) (o : OrbInv.Options ℝ) (H0 : Matrix G.Ix G.Ix ℝ)
    (s : Solver G) (n0 : G.Fld) (g : Guess G) : Py (Outcome G) :=
  match s.Nmo with
  | 0 => .error .valueError
  | M + 1 => do
    let X ← initial (M := M) s g
    orbitalinvert (O M) o s H0 n0 X

/-- What a call of `orbitalinvert` leaves in the inverter and in the class (orbitalinvert.py 457-477).
`self.us[ispin]` is row `ispin` of every column. -/
noncomputable def store (st : State G c) (j : Fin (c + 1)) (out : Outcome G) : Py (State G c) :=
  let (vs, us) := st.arrays.getD (fun _ _ => 0, fun _ _ => 0)
  if j.1 < G.Na * G.Nr then
    .ok ⟨Function.update st.solver j out.solver,
      some (Function.update vs j out.vs, fun i k => if k.1 = j.1 then out.us else us i k),
      some ⟨out.nfev, out.optimality⟩⟩
  else .error .indexError

/-- `inverter.invert(ntarget, vs0, phi0, e0, ispin)` with 'orbitalinvert' (vp_kinetic.py 95,
orbitalinvert.py 168-481): the state and `output`. -/
noncomputable def invert (O : (M : ℕ) → Oracle G M) (o : OrbInv.Options ℝ) (H0 : Matrix G.Ix G.Ix ℝ)
    (n0 : G.Fld) (g : Guess G) (st : State G c) (j : Fin (c + 1)) : Py (State G c × List Cell) := do
  let out ← alone O o H0 (st.solver j) n0 g
  let st ← store st j out
  pure (st, [.cls])

/-- `ntarget` (vp_kinetic.py 87-89). -/
noncomputable def target (nf : Fin (c + 1) → G.Fld) (j : Fin (c + 1)) : G.Fld :=
  if c + 1 = 2 then fun k => 2 * nf j k else nf j

/-- The spins of the loop (vp_kinetic.py 74-78, 86). -/
def spins (ens : Bool) (c : ℕ) : List (Fin (c + 1)) := if ens then [0] else List.finRange (c + 1)

/-- The loop over spins (vp_kinetic.py 86-95): `self.inversion_info` is the output of the last call. -/
noncomputable def each (O : (M : ℕ) → Oracle G M) (o : OrbInv.Options ℝ) (H0 : Matrix G.Ix G.Ix ℝ)
    (nf : Fin (c + 1) → G.Fld) (g : Fin (c + 1) → Guess G) (l : List (Fin (c + 1)))
    (s : State G c × List Cell) : Py (State G c × List Cell) :=
  l.foldlM (fun (s : State G c × List Cell) j => invert O o H0 (target nf j) (g j) s.1 j) s

/-- Copying the first spin to the second (vp_kinetic.py 97-100). -/
def copySpin (st : State G c) : Py (State G c) :=
  if h : 1 < c + 1 then
    match st.arrays with
    | .none => .error .typeError
    | some (vs, us) => .ok ⟨Function.update st.solver ⟨1, h⟩ (st.solver 0),
        some (Function.update vs ⟨1, h⟩ (vs 0), Function.update us ⟨1, h⟩ (us 0)), st.cls⟩
  else .error .indexError

/-- `get_vt` on arrays of shape `(Nelem, pol)` (inverter.py 137-142). -/
def getVt (st : State G c) : Py (Fin (c + 1) → G.Fld) :=
  match st.arrays with
  | .none => .error .typeError
  | some (vs, us) => .ok fun j k => us j k - vs j k

/-- The inversion in `vp_kinetic` (vp_kinetic.py 86-104): the state, `V.vt` and `inversion_info`. -/
noncomputable def run (O : (M : ℕ) → Oracle G M) (o : OrbInv.Options ℝ) (H0 : Matrix G.Ix G.Ix ℝ) (ens : Bool)
    (nf : Fin (c + 1) → G.Fld) (g : Fin (c + 1) → Guess G) (st : State G c) :
    Py (State G c × (Fin (c + 1) → G.Fld) × List Cell) := do
  let s ← each O o H0 nf g (spins ens c) (st, [])
  let st ← if ens then copySpin s.1 else pure s.1
  let vt ← getVt st
  pure (st, vt, s.2)

/-- `output` of `linresponse` (linresponse.py 35, 89-91), row by row, for `r + 1` rows and `c + 1` columns of
solvers and one density column, which is what `vp_kinetic` hands over (vp_kinetic.py 87, 95): column 0 holds
the result, the others are never filled. -/
def lrOutput (r c : ℕ) (res : Info) : List Cell :=
  (List.range (r + 1)).flatMap fun _ => (List.range (c + 1)).map fun j => if j = 0 then .lsq res else .none

/-- Counting failed inversions (scf.py 219-231) from `inversion_info`. -/
noncomputable def check (cls : Option Info) (n : ℕ) (cells : List Cell) : Py ℕ :=
  cells.foldlM (fun (n : ℕ) x => do
    let i ← x.read cls
    PartScf.failures n [i.optimality]) n

/-- `max_nfev`, `max_optimality` as displayed (scf.py 216-223). -/
noncomputable def shown (l : List Info) : ℕ × Fl ℝ :=
  l.foldl (fun s i => (if i.nfev < s.1 then s.1 else i.nfev,
    if Fl.gt s.2 (.fin i.nfev) then s.2 else i.optimality)) (0, .fin (1 / 10 ^ 16))

end InvMol
end Verif
