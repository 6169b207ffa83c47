import Verif.Model.Solver
import Mathlib.Data.Finset.Fold

/-!
# `CADMium/inverter/simple.py` for one solver and a 1-d density

The other arguments raise, see `Inv.simpleStart`.  The start potential (lines 20-21, from the von Weizsaecker
kinetic potential) is a parameter, `calc_orbitals` an oracle.
-/

namespace Verif
namespace Simple
variable {K : Type} [Field K] [LinearOrder K] [IsStrictOrderedRing K] [FloorRing K] {G : Grid K}

/-- Loop state: `self.vs` is the array `setveff` put into the solver, so line 63 changes both
(simple.py 35-43). -/
structure St (G : Grid K) where
  s : Solver G
  vs : G.Fld
  optimality : K
  iter : ℕ

/-- `np.max(np.abs(f))`; of an empty array a `ValueError` (simple.py 64). -/
def maxAbs (f : G.Fld) : Py K :=
  if G.Na * G.Nr = 0 then .error .valueError else .ok (Finset.univ.fold max 0 fun k => |f k|)

/-- One pass (simple.py 48-67): orbitals for the current potential, density, relative error, update. -/
def pass (orb : G.Fld → Py (List G.Fld × List K)) (n0 : G.Fld) (q : St G) : Py (St G) := do
  let (phi, eig) ← orb q.vs
  let s : Solver G := { q.s with phi := some phi, eig := some eig, veff := some q.vs }
  let n ← s.calcDensity
  if ∀ k, n0 k ≠ 0 then do
    let grad : G.Fld := fun k => 1 / n0 k * (n k - n0 k)
    let vs : G.Fld := fun k => q.vs k + 1 / 10 * grad k
    let o ← maxAbs grad
    pure ⟨{ s with veff := some vs }, vs, o, q.iter + 1⟩
  else .error .nonFinite

/-- `while optimality > tol and iter < maxiter` (simple.py 45), at most `fuel` passes. -/
def loop (orb : G.Fld → Py (List G.Fld × List K)) (n0 : G.Fld) (tol : K) (maxiter : ℕ) :
    ℕ → St G → Py (St G)
  | 0, q => .ok q
  | fuel + 1, q => if q.optimality > tol ∧ q.iter < maxiter then do
      let q ← pass orb n0 q
      loop orb n0 tol maxiter fuel q
    else .ok q

/-- `self.us` (simple.py 69-72): the largest eigenvalue, but at least `max = 0.0`. -/
def chemical (s : Solver G) : Py K :=
  match s.eig with
  | none => .error .typeError
  | some [] => .error .valueError
  | some (e :: es) => let m := es.foldl max e; .ok (if m > 0 then m else 0)

/-- What `simple` leaves behind (simple.py 69-97). -/
structure Out (G : Grid K) where
  s : Solver G
  vs : G.Fld
  us : K
  Ts : K
  /-- the returned flag -/
  flag : Bool

/-- `simple` (simple.py 9-97) from line 40 on; `tilde` is the spin index, never `None`. -/
def simple (orb : G.Fld → Py (List G.Fld × List K)) (n0 : G.Fld) (tol : K) (maxiter : ℕ) (s : Solver G)
    (vs0 : G.Fld) : Py (Out G) := do
  let q ← loop orb n0 tol maxiter maxiter ⟨s, vs0, 1, 1⟩
  let us ← chemical q.s
  let eks ← q.s.calcEks
  let n ← q.s.calcDensity
  pure ⟨q.s, q.vs, us, eks - G.integ (fun k => n k * q.vs k), true⟩

end Simple
end Verif
