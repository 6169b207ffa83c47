import Verif.Model.Rounded
import Verif.Model.KsScf

/-! # Densities of `Kohnsham` in floating-point arithmetic

`Kohnsham.calc_density` and the mixing of `Kohnsham.scf` with a rounding after every operation.  What the workers find is
an argument. -/

namespace Verif
namespace Rounded
variable {K : Type} [Field K] [LinearOrder K] [IsStrictOrderedRing K] [FloorRing K] {G : Grid K} {r c p : ℕ}

/-- Adding up the solver densities (kohnsham.py 205, 234-239). -/
def sumDensities (R : Rounding K) (o : Order G.Ix) (p : ℕ) (s : Fin r × Fin c → Solver G) : Py (G.Cols p) :=
  (colMajor r c).foldlM (fun (nout : G.Cols p) w => do
    let n ← calcDensity R o (s w)
    if h : w.2.1 < p then
      pure (Function.update nout ⟨w.2.1, h⟩ fun k => R.add (nout ⟨w.2.1, h⟩ k) (n k))
    else .error .indexError) fun _ _ => 0

/-- `0.5 * (nout + self.grid.mirror(nout))` (kohnsham.py 242). -/
def symmetrised (R : Rounding K) (f : G.Cols p) : G.Cols p := fun s k => R.mul (1 / 2) (R.add (f s k) (G.mirCols f s k))

/-- `(n + mirror(spinflip(n)))/2` (kohnsham/scf.py 90). -/
def spinSymmetrised (R : Rounding K) (f : G.Cols p) : G.Cols p :=
  fun s k => R.div (R.add (f s k) (G.mirCols (G.flipCols f) s k)) 2

/-- `Kohnsham.calc_density` (kohnsham.py 186-244) after all workers were joined. -/
def ksDensity (R : Rounding K) (o : Order G.Ix) (ks : KS G r c p) (d : Fin r × Fin c → Option (KS.Found G)) :
    Py (G.Cols p) := do
  let solver ← KS.collect d ks.solver
  let nout ← sumDensities R o p solver
  pure (if ks.sym then symmetrised R nout else nout)

/-- New density of a pass (kohnsham/scf.py 87-90). -/
def newDensity (R : Rounding K) (alpha : K) (spinflip : Bool) (n nout : G.Cols p) : G.Cols p :=
  let n : G.Cols p := fun s => mix R alpha (n s) (nout s)
  if spinflip then spinSymmetrised R n else n

/-- The densities of `Kohnsham.scf` (kohnsham/scf.py 49-51, 80-90): `d₀` is what the workers find for the initial guess, `ds`
what they find in the passes. -/
def densities (R : Rounding K) (o : Order G.Ix) (ks : KS G r c p) (alpha : K) (spinflip : Bool)
    (d₀ : Fin r × Fin c → Option (KS.Found G)) (ds : List (Fin r × Fin c → Option (KS.Found G))) : Py (G.Cols p) := do
  let n ← ksDensity R o ks d₀
  ds.foldlM (fun n d => do
    let nout ← ksDensity R o ks d
    pure (newDensity R alpha spinflip n nout)) n

end Rounded
end Verif
