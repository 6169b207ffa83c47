import Verif.Model.Orbitals
import Verif.Model.Inverter

/-!
# `CADMium/inverter`: `Inverter`, `linresponse`, `simple`, `get_Ts`, `get_ts_WFI`

Tables of solvers have at least one row (`m` levels, `r + 1`) and one column (spins, `c + 1`).
`scipy.optimize.least_squares` and `calc_orbitals` are oracles.
-/

namespace Verif
namespace Inv

/-- Values the validator of `invert_type` lets through (inverter.py 31-36); pydantic's
`ValidationError` is a `ValueError`. -/
def accepted : List String := ["wuyang", "simple", "orbitalinvert", "qinvert", "eigensolveinvert", "test"]

/-- `InverterOptions.invert_type_values` (inverter.py 31-36). -/
def validate (v : String) : Py String := if v ∈ accepted then .ok v else .error .valueError

/-- Inversion methods the class has (inverter.py 152-163). -/
inductive Method
  | linresponse
  | simple
  | orbitalinvert
  deriving DecidableEq, Repr

/-- Attribute lookup on the `Inverter` object (inverter.py 110-163). -/
def getattr : String → Py Method
  | "linresponse" => .ok .linresponse
  | "simple" => .ok .simple
  | "orbitalinvert" => .ok .orbitalinvert
  | _ => .error .attributeError

/-- The method `invert` calls (inverter.py 115-133). -/
def dispatch (v : String) : Py Method :=
  if v = "wuyang" then getattr "linresponse"
  else if v = "simple" then getattr "simple"
  else if v = "orbitalinvert" then getattr "orbitalinvert"
  else if v = "qinvert" then getattr "qinvert"
  else if v = "eigensolveinvert" then getattr "eigensolveinvert"
  else if v = "test" then getattr "test"
  else .error .valueError

section Api
variable {K : Type} [Field K] [LinearOrder K] [IsStrictOrderedRing K] [FloorRing K] {G : Grid K} {r c : ℕ}

/-- `self.solver`: rows are `m` levels, columns spins (inverter.py 99). -/
abbrev Table (G : Grid K) (r c : ℕ) := Fin (r + 1) → Fin (c + 1) → Solver G

/-- `self.us` as the inversion methods leave it. -/
inductive Us (G : Grid K)
  /-- shape `(1, p)` (linresponse.py 33) -/
  | row (u : List K)
  /-- shape `(Nelem, p)` (orbitalinvert.py 192), by columns -/
  | full (u : List G.Fld)

/-- Attributes of `Inverter` written by the inversions (inverter.py 99-106). -/
structure State (G : Grid K) (r c : ℕ) where
  solver : Table G r c
  /-- columns of `self.vs` -/
  vs : List G.Fld
  us : Us G

/-- `solver[0, j]` with a dynamic column index (linresponse.py 78, 94). -/
def top (t : Table G r c) (j : ℕ) : Py (Solver G) :=
  if h : j < c + 1 then .ok (t 0 ⟨j, h⟩) else .error .indexError

/-- What `least_squares` (with `Ws`, `Jacobian`) does for one spin: it moves the solvers of that spin
and returns a potential (linresponse.py 49-55, 81-87). -/
abbrev Lsq (G : Grid K) (r c : ℕ) := ℕ → Table G r c → G.Fld → Py (Table G r c × G.Fld)

/-- Start potential (linresponse.py 23-30): `vs0` is used only while the first solver has no potential;
without either, line 28 uses the unknown name `vs`. -/
def startPotential (t : Table G r c) (vs0 : Option (List G.Fld)) : Py (List G.Fld) :=
  match (t 0 0).veff, vs0 with
  | none, none => .error .nameError
  | none, some v => .ok v
  | some v, _ => .ok [v]

/-- `self.us[i] = homo` on an array of shape `(1, p)`: the only row is 0 (linresponse.py 33, 59, 94). -/
def setRow (us : List K) (i : ℕ) (homo : K) : Py (List K) :=
  if i = 0 then .ok (us.map fun _ => homo) else .error .indexError

/-- One pass of `for i in range(pol)` (linresponse.py 71-94). -/
def lrSpin (lsq : Lsq G r c) (vs0 : List G.Fld) (s : Table G r c × List G.Fld × List K) (i : ℕ) :
    Py (Table G r c × List G.Fld × List K) := do
  let _ ← top s.1 i
  let x0 ← pyGet vs0 i
  let (t, x) ← lsq i s.1 x0
  let _ ← pyGet s.2.1 i
  let sv ← top t i
  let homo ← sv.getHomo
  let us ← setRow s.2.2 i homo
  pure (t, s.2.1.set i x, us)

/-- The branch for `ens_spin_sym` (linresponse.py 37-68). -/
def lrEns (lsq : Lsq G r c) (t : Table G r c) (vs0 : List G.Fld) (us : List K) : Py (State G r c) := do
  let x0 ← pyGet vs0 0
  let (t, x) ← lsq 0 t x0
  let homo ← (t 0 0).getHomo
  let us ← setRow us 0 homo
  let vs := (vs0.map fun _ => (0 : G.Fld)).set 0 x
  if h : 1 < c + 1 then
    let v ← pyGet (vs ++ vs) 0
    let t : Table G r c := fun i j => if i = 0 ∧ j = ⟨1, h⟩ then { t i j with veff := some v } else t i j
    pure ⟨t, vs ++ vs, .row (us ++ us)⟩
  else .error .indexError

/-- `linresponse` (linresponse.py 11-97); `n0` by columns. -/
def linresponse (lsq : Lsq G r c) (ens : Bool) (t : Table G r c) (n0 : List G.Fld)
    (vs0 : Option (List G.Fld)) : Py (State G r c) := do
  let vs0 ← startPotential t vs0
  let us : List K := n0.map fun _ => 0
  if ens then lrEns lsq t vs0 us
  else do
    let s ← (List.range n0.length).foldlM (lrSpin lsq vs0) (t, vs0.map fun _ => (0 : G.Fld), us)
    pure ⟨s.1, s.2.1, .row s.2.2⟩

/-- `invert` for `wuyang` (inverter.py 116, 161-163): `ispin` is not passed on. -/
def invertWuYang (lsq : Lsq G r c) (ens : Bool) (t : Table G r c) (n0 : List G.Fld)
    (vs0 : Option (List G.Fld)) (_ispin : ℕ) : Py (State G r c) :=
  linresponse lsq ens t n0 vs0

/-- The beginning of `simple` (simple.py 15-24): `dim` is the number of dimensions of `n0`.  A 2-d
density reads the local `n` before it is assigned; a solver with a potential is asked for the missing
method `getveff`. -/
def simpleStart (dim : ℕ) (t : Table G r c) : Py Unit :=
  if dim ≠ 1 then .error .unboundLocalError
  else if (t 0 0).veff.isSome then .error .attributeError
  else .ok ()

/-- `get_vt` (inverter.py 137-142): `ones((Nelem,1)) * us - vs` with numpy broadcasting. -/
def getVt (us : Us G) (vs : List G.Fld) : Py (List G.Fld) :=
  match us with
  | .row u => if u.length = vs.length then .ok (List.zipWith (fun a v => fun k => a - v k) u vs)
      else match u, vs with
        | [a], vs => .ok (vs.map fun v => fun k => a - v k)
        | u, [v] => .ok (u.map fun a => fun k => a - v k)
        | _, _ => .error .valueError
  | .full u => if u.length = vs.length then .ok (List.zipWith (fun a v => fun k => a k - v k) u vs)
      else match u, vs with
        | [a], vs => .ok (vs.map fun v => fun k => a k - v k)
        | u, [v] => .ok (u.map fun a => fun k => a k - v k)
        | _, _ => .error .valueError

/-- `self.us[ispin] = homo` on an array of shape `(Nelem, p)` (orbitalinvert.py 464): row `ispin` of
every column. -/
def setPoint (us : List G.Fld) (ispin : ℕ) (homo : K) : Py (List G.Fld) :=
  if ispin < G.Na * G.Nr then .ok (us.map fun u => fun k => if k.1 = ispin then homo else u k)
  else .error .indexError

/-- `get_Ts` (get_Ts.py 7-25). -/
def getTs (ens : Bool) (t : Table G r c) : Py (Fl K) :=
  if ens then
    (List.finRange (r + 1)).foldlM (fun (Ts : Fl K) i => do
      let E ← (t i 0).calcEnergy
      pure (Fl.add Ts (Fl.mul (.fin 2) E.1.Ts))) (.fin 0)
  else
    (List.finRange (r + 1)).foldlM (fun (Ts : Fl K) i =>
      (List.finRange (c + 1)).foldlM (fun (Ts : Fl K) j => do
        let E ← (t i j).calcEnergy
        pure (Fl.add Ts E.1.Ts)) Ts) (.fin 0)

end Api

section Ked
variable {G : Grid ℝ} {r c : ℕ}

/-- `solver[i,j].ked_WFI`, `None` before `calc_ked_WFI` (get_ts_WFI.py 25, 35). -/
abbrev Keds (G : Grid ℝ) (r c : ℕ) := Fin (r + 1) → Fin (c + 1) → Option G.Fld

/-- The final loops (get_ts_WFI.py 23-26, 33-36): every row overwrites the column. -/
def collect (ked : Keds G r c) : Fin (c + 1) → G.Fld :=
  (List.finRange (r + 1)).foldl (fun ts i => fun j => match ked i j with
    | some f => f
    | none => ts j) fun _ _ => 0

/-- `get_ts_WFI` (get_ts_WFI.py 7-38); `ked` are the kinetic energy densities stored before. -/
noncomputable def getTsWFI (ens : Bool) (t : Table G r c) (H0 : Fin (r + 1) → Matrix G.Ix G.Ix ℝ) (ked : Keds G r c) :
    Py (Fin (c + 1) → G.Fld) := do
  let ked ← (List.finRange (r + 1)).foldlM (fun (ked : Keds G r c) i =>
    (List.finRange (c + 1)).foldlM (fun (ked : Keds G r c) j =>
      if ens = true ∧ j ≠ 0 then .ok ked else do
        let f ← SolverR.calcKed (t i j) (H0 i)
        pure (Function.update ked i (Function.update (ked i) j (some f)))) ked) ked
  pure (collect ked)

end Ked

section WuYang
variable {G : Grid ℝ} {r : ℕ}

/-- `0.5 * (f + grid.mirror(f))` when `ab_sym` (inverter.py 169-170, 185-186, 216-217). -/
noncomputable def average (ab : Bool) (f : G.Fld) : G.Fld :=
  if ab then fun k => 1 / 2 * (f k + G.mir f k) else f

/-- The solvers' part of `Ws` (inverter.py 173-178) for one solver: orbitals for the potential `v`
(`orb` is `calc_orbitals`), density, energy, response. -/
noncomputable def respond (orb : G.Fld → Py (List G.Fld × List ℝ)) (H0 : Matrix G.Ix G.Ix ℝ) (s : Solver G)
    (v : G.Fld) : Py (G.Fld × Matrix G.Ix G.Ix ℝ) := do
  let (phi, eig) ← orb v
  let s : Solver G := { s with veff := some v, phi := some phi, eig := some eig }
  let n ← s.calcDensity
  let _ ← s.calcEnergy
  let chi ← SolverR.calcResponse s H0 v
  pure (n, chi)

/-- `self.B @ f` with `B = spdiags(1/n0)` (linresponse.py 41, 75); a zero of `n0` gives infinities. -/
noncomputable def timesB (n0 : G.Fld) (f : G.Fld) : Py G.Fld :=
  if ∀ k, n0 k ≠ 0 then .ok fun k => 1 / n0 k * f k else .error .nonFinite

/-- `Ws` (inverter.py 165-204) on one spin column of solvers.  `pin` is `self.vs[Nelem-1, spin]`.
Returned: the residual (its last component apart) and the responses left in the solvers. -/
noncomputable def ws (ab : Bool) (orb : Fin (r + 1) → G.Fld → Py (List G.Fld × List ℝ))
    (H0 : Fin (r + 1) → Matrix G.Ix G.Ix ℝ) (s : Fin (r + 1) → Solver G) (n0 : G.Fld) (pin : ℝ) (vs : G.Fld) :
    Py ((G.Fld × ℝ) × (Fin (r + 1) → Matrix G.Ix G.Ix ℝ)) := do
  let vs := average ab vs
  let out ← (List.finRange (r + 1)).mapM fun i => respond (orb i) (H0 i) (s i) vs
  let n : G.Fld := fun k => (out.map fun o => o.1 k).sum
  let n := average ab n
  let g ← timesB n0 fun k => n k - n0 k
  pure ((g, pin), fun i => (out.map Prod.snd).getD i.1 0)

/-- The last row of `Jacobian` (inverter.py 212-217): 1 in the last column. -/
noncomputable def lastRow (ab : Bool) (G : Grid ℝ) : G.Fld :=
  average ab fun k => if k.1 + 1 = G.Na * G.Nr then 1 else 0

/-- `Jacobian` (inverter.py 206-224): the response of `solver[0, spin]` only. -/
noncomputable def jacobian (ab : Bool) (n0 : G.Fld) (chi : Fin (r + 1) → Matrix G.Ix G.Ix ℝ) :
    Py (Matrix G.Ix G.Ix ℝ × G.Fld) :=
  if ∀ k, n0 k ≠ 0 then .ok (fun k l => 1 / n0 k * chi 0 k l, lastRow ab G) else .error .nonFinite

end WuYang
end Inv
end Verif
