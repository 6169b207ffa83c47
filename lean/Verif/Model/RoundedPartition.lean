import Verif.Model.RoundedKs
import Verif.Model.Partition

/-! # Promolecule, Q functions and partition potential in floating-point arithmetic -/

namespace Verif
namespace Rounded
open Part
variable {K : Type} [Field K] [LinearOrder K] [IsStrictOrderedRing K] [FloorRing K] {G : Grid K} {r c p : ℕ}

/-- `na_frac += iksa[i].n * iksa[i].scale` (partition.py 358-359, 368-370). -/
def weighted (R : Rounding K) (l : List (Frag G r c p)) : Py (G.Cols p) :=
  l.foldlM (fun acc f => do
    let n ← KS.need f.ks.n
    let s ← KS.need f.ks.scale
    pure fun j k => R.add (acc j k) (R.mul (n j k) s)) fun _ _ => 0

/-- `f += grid.spinflip(f)` if requested (partition.py 374-376, partition_potential.py 47-54). -/
def addFlip (R : Rounding K) (b : Bool) (f : G.Cols p) : G.Cols p :=
  if b then fun j k => R.add (f j k) (G.flipCols f j k) else f

/-- `f = 0.5 * (f + grid.mirror(f))` if requested (partition_potential.py 56-63). -/
def addMirror (R : Rounding K) (b : Bool) (f : G.Cols p) : G.Cols p :=
  if b then symmetrised R f else f

/-- `calc_protomolecule` (partition.py 353-379). -/
def calcProtomolecule (R : Rounding K) (P : Part G r c p) : Py (Part G r c p) := do
  let na ← weighted R P.compsA
  let nb ← weighted R P.compsB
  let na := addFlip R P.opt.ensSpinSym na
  let nb := addFlip R P.opt.ensSpinSym nb
  pure { P with naFrac := some na, nbFrac := some nb, nf := some fun j k => R.add (na j k) (nb j k) }

/-- Division; infinities and NaN if the divisor is 0. -/
def quot (R : Rounding K) (x y : K) : Fl K :=
  match Fl.div (.fin x) (.fin y) with
  | .fin q => .fin (R.fl q)
  | e => e

/-- `calc_Q` (partition.py 381-394). -/
def calcQ (R : Rounding K) (P : Part G r c p) : Py (Part G r c p) := do
  let nf ← attr P.nf
  P.mapAll fun f => do
    let n ← KS.need f.ks.n
    let s ← KS.need f.ks.scale
    pure { f with ks := { f.ks with
      Q := some fun j k => Fl.clean (quot R (R.mul s (n j k)) (nf j k)) } }

/-- `vp_pot + vp_kin + vp_hxc` of every component (partition_potential.py 34). -/
def addTerms (R : Rounding K) (P : Part G r c p) : Py (Part G r c p) :=
  P.mapAll fun f => do
    let a ← attr f.v.vpPot
    let b ← attr f.v.vpKin
    let d ← attr f.v.vpHxc
    pure { f with v := { f.v with vp := some fun j k => R.add (R.add (a j k) (b j k)) (d j k) } }

/-- `V.vp += i_KS.V.vp * i_KS.Q` over all components (partition_potential.py 22-28, 36-42). -/
def qAverage (R : Rounding K) (x : Frag G r c p → Option (G.Cols p)) (P : Part G r c p) : Py (G.Cols p) :=
  P.comps.foldlM (fun (acc : G.Cols p) f => do
    let v ← attr (x f)
    let Q ← needQ f.ks.Q
    pure fun j k => R.add (acc j k) (R.mul (v j k) (Q j k))) fun _ _ => 0

/-- The averages with spin flip and mirror image (partition_potential.py 36-63). -/
def average (R : Rounding K) (P : Part G r c p) (x : Frag G r c p → Option (G.Cols p)) : Py (G.Cols p) := do
  let v ← qAverage R x P
  pure (addMirror R P.opt.abSym (addFlip R P.opt.ensSpinSym v))

end Rounded
end Verif
