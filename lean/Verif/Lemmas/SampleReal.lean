import Verif.Model.TwoOrbital
import Verif.Lemmas.Solver
import Mathlib.Analysis.Real.Sqrt

/-! # Two points with real numbers -/

namespace Verif
open _root_.Verif.Part
noncomputable section
namespace SampleR

abbrev G := Grid.tiny ℝ

/-- Only the root and the Laplacian (the second difference between the points) are used. -/
def T : Env G 1 1 1 where
  exchange := fun _ => .error .attributeError
  correlation := fun _ => .error .attributeError
  hartree := fun _ => .error .attributeError
  hartree1 := fun _ => .error .attributeError
  kinetic := fun _ => .error .attributeError
  invert := fun _ => .error .attributeError
  twoOrbitalPot := fun _ => .error .attributeError
  twoOrbitalEnergy := fun _ => .error .attributeError
  sqrt := Real.sqrt
  erf := id
  dErf := id
  elap := fun k l => if k = l then -1 else 1

/-- The density with values `x`, `y`. -/
def dens (x y : ℝ) : G.Cols 1 := fun _ k => if k = 0 then x else y

def frag (x y : ℝ) : Frag G 1 1 1 :=
  ⟨{ kind := .dft, sym := false, Za := 0, Zb := 0, a := 1, solver := fun _ => { Nmo := 1, N := 2, m := 0, pol := 1 },
     vnuc := fun _ _ => 0, scale := some 1, n := some (dens x y) }, {}⟩

/-- Fragments with densities (1, 4) and (4, 1). -/
def part (o : PartOpt) : Part G 1 1 1 where
  opt := o
  Za := 1
  Zb := 1
  a := 1
  va := fun _ => 0
  vb := fun _ => 0
  fa := frag 1 4
  fb := frag 4 1
  nf := some (dens 5 5)
  naFrac := some (dens 1 4)
  nbFrac := some (dens 4 1)

end SampleR
end
end Verif
