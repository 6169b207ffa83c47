import Verif.Model.KsScf

/-!
# `CADMium/partition`: fragments, promolecule, partition potential and energies

`KSa`, `KSb` always exist, `KSA`, `KSB` exist in ensemble calculations (`C37` treats the
constructor, which raises for one ratio equal to 1).  All fragments have solver tables of one shape.

Parameters (`Env`): the functionals, square root and error function, the result of the density
inversion (`inverter` models it separately) and of the two-orbital functional.
-/

namespace Verif
variable {K : Type} [Field K] [LinearOrder K] [IsStrictOrderedRing K] [FloorRing K]

/-- Reading an attribute that was never set, or a method of `None`: `AttributeError`. -/
def attr {α : Type*} : Option α → Py α
  | none => .error .attributeError
  | some x => .ok x

/-- `np.nan_to_num(x, nan=0.0, posinf=0.0, neginf=0.0)` (partition.py 394, vp_kinetic.py 30, 34),
always a number. -/
def Fl.clean : Fl K → K
  | .fin x => x
  | _ => 0

/-- `hxc_part_type` (partition.py 80-85). -/
inductive HxcPart
  | exact | overlapHxc2 | overlapHxc | overlapXc | surprisal | hartree
  deriving DecidableEq

/-- `kinetic_part_type` (partition.py 87-92). -/
inductive KinPart
  | vonweiz | inversion | libxcke | paramke | none | twoorbital | fixed
  deriving DecidableEq

/-- `vp_calc_type` (partition.py 73-78). -/
inductive VpCalc
  | component | potentialInversion
  deriving DecidableEq

/-- Attributes of `V` of a fragment that only the partition code uses (scf.py 55-59,
vp_nuclear.py 10-15, vp_kinetic.py 28-50, 178-181, vp_hxc.py 28-39, vp_overlap.py 26-42,
EnsCorHar.py 32-40). -/
structure FragV {K : Type} (G : Grid K) (p : ℕ) where
  frozen : Option Bool := none
  vt : Option (G.Cols p) := none
  vp : Option (G.Cols p) := none
  vpPot : Option (G.Cols p) := none
  vpKin : Option (G.Cols p) := none
  vpHxc : Option (G.Cols p) := none
  vpH : Option (G.Cols p) := none
  vpX : Option (G.Cols p) := none
  vpC : Option (G.Cols p) := none
  Ts : Option K := none
  dFdn : Option (G.Cols p) := none
  vhcor : Option (G.Cols p) := none
  Ehcor : Option K := none

/-- A fragment component: a `Kohnsham` object (partition.py 257-262).  `ks.Q = none` is the initial 1-d array of zeros. -/
structure Frag {K : Type} (G : Grid K) (r c p : ℕ) where
  ks : KS G r c p
  v : FragV G p := {}

/-- Options read by the functions below (partition.py 59-92). -/
structure PartOpt where
  vpCalc : VpCalc := .component
  hxc : HxcPart := .exact
  kin : KinPart := .vonweiz
  interaction : Interaction := .dft
  abSym : Bool := false
  ensSpinSym : Bool := false
  isolated : Bool := false

/-- A number or, where the code builds an array instead, one number per grid point. -/
inductive Tot {K : Type} (G : Grid K)
  | num (x : Fl K)
  | vec (f : G.Ix → Fl K)

namespace Tot
variable {G : Grid K}
/-- `a + b` with broadcasting. -/
def add : Tot G → Tot G → Tot G
  | .num x, .num y => .num (Fl.add x y)
  | .num x, .vec g => .vec fun k => Fl.add x (g k)
  | .vec f, .num y => .vec fun k => Fl.add (f k) y
  | .vec f, .vec g => .vec fun k => Fl.add (f k) (g k)
/-- `a * y` -/
def smul (y : Fl K) : Tot G → Tot G
  | .num x => .num (Fl.mul x y)
  | .vec f => .vec fun k => Fl.mul (f k) y
/-- `-a` -/
def neg : Tot G → Tot G
  | .num x => .num (Fl.neg x)
  | .vec f => .vec fun k => Fl.neg (f k)
/-- `a - b` -/
def sub (a b : Tot G) : Tot G := add a (neg b)
end Tot

/-- `E` of the partition after `energy()` (energy.py 103-122, ep_nuclear.py 11, ep_kinetic.py 185,
ep_hxc.py 115-137, energy.py 124-145). -/
structure PartEnergy {K : Type} (G : Grid K) (p : ℕ) where
  Ea : Fl K
  Eb : Fl K
  Ef : Fl K
  Tsf : Fl K
  Eksf : Fin p → Fl K
  Enucf : K
  Exf : K
  Ecf : K
  Ehf : K
  Vhxcf : K
  EpPot : K
  EpKin : Tot G
  EpHxc : K
  Ep : Tot G
  Et : Tot G
  Vnn : K
  E : Tot G
  evalsA : List K
  evalsB : List K

/-- Attributes of `Partition` (partition.py 171-275). -/
structure Part {K : Type} (G : Grid K) (r c p : ℕ) where
  opt : PartOpt
  Za : K
  Zb : K
  /-- `grid.a` -/
  a : K
  /-- Coulomb potentials of the two nuclei. -/
  va : G.Fld
  vb : G.Fld
  fa : Frag G r c p
  fb : Frag G r c p
  /-- `KSA`, `KSB` -/
  fAB : Option (Frag G r c p × Frag G r c p) := none
  naFrac : Option (G.Cols p) := none
  nbFrac : Option (G.Cols p) := none
  nf : Option (G.Cols p) := none
  -- `V`
  vt : Option (G.Cols p) := none
  vh : Option (G.Cols p) := none
  vx : Option (G.Cols p) := none
  vc : Option (G.Cols p) := none
  vp : Option (G.Cols p) := none
  vpPot : Option (G.Cols p) := none
  vpKin : Option (G.Cols p) := none
  vpHxc : Option (G.Cols p) := none
  vpH : Option (G.Cols p) := none
  vpX : Option (G.Cols p) := none
  vpC : Option (G.Cols p) := none
  /-- `e_x`, `e_c`, `Tsm`: molecular energies at the density last used in `vp_hxc`, `vp_kinetic` -/
  ex : Option K := none
  ec : Option K := none
  /-- `epsilon_x`, `epsilon_c` -/
  epsX : Option G.Fld := none
  epsC : Option G.Fld := none
  /-- `V.ep_h`, `V.ep_x`, `V.ep_c` -/
  epDens : Option (G.Fld × G.Fld × G.Fld) := none
  Tsm : Option K := none
  /-- `inverter.get_Ts()` of the last inversion -/
  invTs : Option K := none
  /-- `inversion_info[i,j].optimality` of the last inversion -/
  invInfo : Option (List (Fl K)) := none
  /-- `inverter.optInv.avoid_loop` -/
  avoidLoop : Bool := false
  -- `E`
  S : Option K := none
  F : Option K := none
  Ehcor : Option K := none
  EpH : Option K := none
  EpX : Option K := none
  EpC : Option K := none
  E : Option (PartEnergy G p) := none

/-- Parameters. -/
structure Env {K : Type} (G : Grid K) (r c p : ℕ) extends Functionals G p where
  /-- `hartree.v_hartree(n)[:,0]` for a 1-d density -/
  hartree1 : G.Fld → Py G.Fld
  /-- `kinetic.get_xc(n, return_epsilon=True)`: energy and potential -/
  kinetic : G.Cols p → Py (K × G.Cols p)
  /-- inversion of the promolecular density: `inverter.get_vt()`, `inverter.get_Ts()` afterwards, and
  `inversion_info[i,j].optimality` -/
  invert : Part G r c p → Py (G.Cols p × K × List (Fl K))
  /-- two-orbital functional: `V.vt[:,0]`, `V.vt[:,1]` and the fragments' `V.vt` -/
  twoOrbitalPot : Part G r c p → Py (G.Fld × G.Fld × (Frag G r c p → G.Cols p))
  /-- two-orbital functional: `Tsm`, `Tsf` before the spin factor -/
  twoOrbitalEnergy : Part G r c p → Py (K × K)
  sqrt : K → K
  erf : K → K
  /-- `2 * np.pi**(-0.5) * np.exp(-x**2)` -/
  dErf : K → K
  /-- `grid.elap` -/
  elap : Matrix G.Ix G.Ix K

namespace Part
variable {G : Grid K} {r c p : ℕ}

/-- `Q` before `calc_Q` is a 1-d array (kohnsham.py 101): products with two-dimensional arrays raise. -/
def needQ {α : Type*} : Option α → Py α
  | none => .error .valueError
  | some x => .ok x

/-- `self.ens` (partition.py 196-203). -/
def ens (P : Part G r c p) : Bool := P.fAB.isSome

/-- `[KSa]` or `[KSa, KSA]` (partition.py 361-366). -/
def compsA (P : Part G r c p) : List (Frag G r c p) := P.fa :: (P.fAB.map Prod.fst).toList

/-- `[KSb]` or `[KSb, KSB]` (partition.py 361-366). -/
def compsB (P : Part G r c p) : List (Frag G r c p) := P.fb :: (P.fAB.map Prod.snd).toList

/-- `[KSa, KSb]` or `[KSa, KSA, KSb, KSB]` (partition.py 387-390). -/
def comps (P : Part G r c p) : List (Frag G r c p) := P.compsA ++ P.compsB

/-- `for i_KS in iksa:` an update of each component (e.g. vp_overlap.py 24, vp_kinetic.py 26). -/
def mapA (f : Frag G r c p → Py (Frag G r c p)) (P : Part G r c p) : Py (Part G r c p) := do
  let fa ← f P.fa
  match P.fAB with
  | none => pure { P with fa }
  | some (A, B) => do
    let A ← f A
    pure { P with fa, fAB := some (A, B) }

/-- The same for `iksb` (e.g. vp_overlap.py 34, vp_kinetic.py 32). -/
def mapB (f : Frag G r c p → Py (Frag G r c p)) (P : Part G r c p) : Py (Part G r c p) := do
  let fb ← f P.fb
  match P.fAB with
  | none => pure { P with fb }
  | some (A, B) => do
    let B ← f B
    pure { P with fb, fAB := some (A, B) }

/-- The same for all components (e.g. partition.py 392, vp_hxc.py 27). -/
def mapAll (f : Frag G r c p → Py (Frag G r c p)) (P : Part G r c p) : Py (Part G r c p) := do
  let P ← P.mapA f
  P.mapB f

/-! ## Construction -/

/-- The part of `__init__` and `calc_scale_factors` (partition.py 196-211, 257-265, 278-308) that
depends on the mixing ratios: `KSA`, `KSB` are only created if both ratios differ from 1, but used
as soon as one does.  Result: the four scale factors. -/
def scaleFactors (nuA nuB : K) (ensSpinSym : Bool) : Py ((K × K) × Option (K × K)) :=
  let ens := ¬ (nuA = 1 ∧ nuB = 1)
  let created := nuA ≠ 1 ∧ nuB ≠ 1
  let half (x : K) : K := if ensSpinSym then x / 2 else x
  if ens then
    if created then .ok ((half (1 - nuA), half (1 - nuB)), some (half nuA, half nuB))
    else .error .attributeError
  else .ok ((half nuA, half nuB), none)

/-- The constructor's check of `ab_sym` (partition.py 221-222). -/
def checkAbSym (abSym : Bool) (Za Zb : K) : Py Unit :=
  if abSym ∧ Za ≠ Zb then .error .valueError else .ok ()

/-! ## Mirror, promolecule, Q functions -/

/-- The loop body of `mirrorAB` (partition.py 335-351): `KSb[i]` from `KSa[i]`. -/
def mirrorOf (A B : Frag G r c p) : Py (Frag G r c p) := do
  let n ← attr A.ks.n
  let veff ← attr A.ks.veff
  let vext ← attr A.ks.vext
  pure ⟨{ B.ks with
      n := some (G.mirCols n)
      Q := A.ks.Q.map G.mirCols
      E := A.ks.E
      u := A.ks.u
      veff := some (G.mirCols veff)
      vext := some (G.mirCols vext)
      V := ⟨(A.ks.V.vx.map G.mirCols).or B.ks.V.vx, (A.ks.V.vc.map G.mirCols).or B.ks.V.vc,
        (A.ks.V.vh.map G.mirCols).or B.ks.V.vh, (A.ks.V.ex.map G.mir).or B.ks.V.ex,
        (A.ks.V.ec.map G.mir).or B.ks.V.ec, (A.ks.V.eh.map G.mir).or B.ks.V.eh⟩ },
    { B.v with vp := (A.v.vp.map G.mirCols).or B.v.vp }⟩

/-- `mirrorAB` (partition.py 323-351). -/
def mirrorAB (P : Part G r c p) : Py (Part G r c p) := do
  let fb ← mirrorOf P.fa P.fb
  match P.fAB with
  | none => pure { P with fb }
  | some (A, B) => do
    let B ← mirrorOf A B
    pure { P with fb, fAB := some (A, B) }

/-- `Σ n * scale` (partition.py 368-370). -/
def weighted (l : List (Frag G r c p)) : Py (G.Cols p) :=
  l.foldlM (fun acc f => do
    let n ← KS.need f.ks.n
    let s ← KS.need f.ks.scale
    pure fun j k => acc j k + n j k * s) fun _ _ => 0

/-- `f += grid.spinflip(f)` if requested (partition.py 374-376, partition_potential.py 47-54). -/
def addFlip (b : Bool) (f : G.Cols p) : G.Cols p :=
  if b then fun j k => f j k + G.flipCols f j k else f

/-- `f = 0.5 * (f + grid.mirror(f))` if requested (partition_potential.py 56-63). -/
def addMirror (b : Bool) (f : G.Cols p) : G.Cols p :=
  if b then KS.symmetrised f else f

/-- `calc_protomolecule` (partition.py 353-379). -/
def calcProtomolecule (P : Part G r c p) : Py (Part G r c p) := do
  let na ← weighted P.compsA
  let nb ← weighted P.compsB
  let na := addFlip P.opt.ensSpinSym na
  let nb := addFlip P.opt.ensSpinSym nb
  pure { P with naFrac := some na, nbFrac := some nb, nf := some fun j k => na j k + nb j k }

/-- `calc_Q` (partition.py 381-394). -/
def calcQ (P : Part G r c p) : Py (Part G r c p) := do
  let nf ← attr P.nf
  P.mapAll fun f => do
    let n ← KS.need f.ks.n
    let s ← KS.need f.ks.scale
    pure { f with ks := { f.ks with
      Q := some fun j k => Fl.clean (Fl.div (.fin (s * n j k)) (.fin (nf j k))) } }

/-- `V.vext` (partition.py 310-321). -/
def vextMol (P : Part G r c p) : G.Cols p := fun _ k => P.va k + P.vb k

/-! ## Partition potential -/

/-- `vp_nuclear` (vp_nuclear.py 5-15). -/
def vpNuclear (P : Part G r c p) : Py (Part G r c p) :=
  P.mapAll fun f => pure { f with v := { f.v with
    vpPot := some fun j k => P.vextMol j k - f.ks.vnuc j k } }

/-- Sum over spins, `np.sum(f, axis=1)` (e.g. ep_nuclear.py 11). -/
def tot (f : G.Cols p) : G.Fld := fun k => ∑ j, f j k

/-- `(x / y)**0.5` (vp_overlap.py 26, 36). -/
def rootRatio (T : Env G r c p) (x y : K) : Fl K :=
  match Fl.div (.fin x) (.fin y) with
  | .fin q => if q < 0 then .nan else .fin (T.sqrt q)
  | .posInf => .posInf
  | _ => .nan

/-- `vp_overlap` (vp_overlap.py 9-42): `optPartition is True` never holds. -/
def vpOverlap (T : Env G r c p) (P : Part G r c p) : Py (Part G r c p) := do
  let na ← KS.need P.naFrac
  let nb ← attr P.nbFrac
  let S := G.integ fun k => T.sqrt (tot na k * tot nb k)
  let d (s : K) (x y : G.Cols p) : G.Cols p := fun j k =>
    T.dErf (2 * S) * 2 * Fl.clean (Fl.mul (.fin (s * (1 / 2))) (rootRatio T (x j k) (y j k)))
  let P := { P with S := some S, F := some (T.erf (2 * S)) }
  let P ← P.mapA fun f => do
    let s ← KS.need f.ks.scale
    pure { f with v := { f.v with dFdn := some (d s nb na) } }
  P.mapB fun f => do
    let s ← KS.need f.ks.scale
    pure { f with v := { f.v with dFdn := some (d s na nb) } }

/-- `EnsCorHar` (EnsCorHar.py 8-44): without an ensemble the misspelt `optPartiton` is read. -/
def ensCorHar (P : Part G r c p) : Py (Part G r c p) :=
  match P.fAB with
  | none => .error .attributeError
  | some (A, B) => do
    let one (x y : Frag G r c p) : Py (Frag G r c p × K) := do
      let n ← KS.need x.ks.n
      let vh ← attr y.ks.V.vh
      let s ← KS.need x.ks.scale
      let e := G.integ (fun k => ∑ j, n j k * vh j k) / 2
      pure (⟨x.ks, { x.v with vhcor := some vh, Ehcor := some e }⟩, s * e)
    let (fa, ea) ← one P.fa B
    let (A', eA) ← one A P.fb
    let (fb, eb) ← one P.fb A
    let (B', eB) ← one B P.fa
    pure { P with fa, fb, fAB := some (A', B'), Ehcor := some (ea + eA + eb + eB) }

/-- Component potentials of the non-additive functionals (vp_hxc.py 23-32). -/
def hxcComponents (T : Env G r c p) (P : Part G r c p) : Py (Part G r c p) := do
  let nf ← attr P.nf
  let vh ← T.hartree nf
  let (ex, epsX, vx) ← T.exchange nf
  let (ec, epsC, vc) ← T.correlation nf
  let P := { P with
    vh := some vh, vx := some vx, vc := some vc, ex := some ex, ec := some ec, epsX := some epsX,
    epsC := some epsC }
  P.mapAll fun f => do
    let fvh ← attr f.ks.V.vh
    let fvx ← attr f.ks.V.vx
    let fvc ← attr f.ks.V.vc
    let h : G.Cols p := fun j k => vh j k - fvh j k
    let x : G.Cols p := fun j k => vx j k - fvx j k
    let cc : G.Cols p := fun j k => vc j k - fvc j k
    pure { f with v := { f.v with
      vpH := some h, vpX := some x, vpC := some cc,
      vpHxc := some fun j k => h j k + x j k + cc j k } }

/-- Zero component potentials (vp_hxc.py 36-39). -/
def hxcZero (P : Part G r c p) : Py (Part G r c p) := do
  let _ ← attr P.nf
  P.mapAll fun f => pure { f with v := { f.v with
    vpH := some fun _ _ => 0, vpX := some fun _ _ => 0, vpC := some fun _ _ => 0 } }

/-- Kinetic potentials, von Weizsaecker (vp_kinetic.py 14-34).  The molecular one divides by zero where
`nf` vanishes; the code then removes NaN from the difference.  An infinite value would remain:
outside the model (`nonFinite`). -/
def vonWeizsacker (T : Env G r c p) (n : G.Cols p) : Fin p → G.Ix → Fl K := fun j k =>
  Fl.div (Fl.div (.fin (-1 / 2 * ∑ l, T.elap k l * T.sqrt (n j l))) (.fin (T.sqrt (n j k)))) (.fin (G.w k))

/-- `vp_kin = V.vt - KS.V.vt`, NaN replaced by zero (vp_kinetic.py 178-181). -/
def kineticDifference (vt : Fin p → G.Ix → Fl K) (f : G.Cols p) : Py (G.Cols p) :=
  if ∀ j k, vt j k ≠ .posInf ∧ vt j k ≠ .negInf then
    .ok fun j k => Fl.clean (Fl.sub (vt j k) (.fin (f j k)))
  else .error .nonFinite

/-- Largest HOMO as computed in vp_kinetic.py 56-73.  The HOMOs of `KSb` are compared with `ub`, which
never changes, and overwrite `ua`; `none` is a solver whose HOMO was not computed. -/
def inversionReference (lowest : K) (l : List (Option K × Option K)) : K :=
  let ua := l.foldl (fun ua (h : Option K × Option K) =>
    let ua := match h.1 with | none => ua | some x => max ua x
    match h.2 with | none => ua | some x => max lowest x) lowest
  max ua lowest

/-- HOMOs of a pair of fragments in the order of the loop (vp_kinetic.py 59-64, 67-72). -/
def homoPairs (A B : Frag G r c p) : List (Option K × Option K) :=
  (rowMajor r c).map fun w => (A.ks.homo w, B.ks.homo w)

/-- `u` of vp_kinetic.py 56-73. -/
def inversionU (P : Part G r c p) : K :=
  inversionReference Solver.noElectrons (homoPairs P.fa P.fb ++
    match P.fAB with | none => [] | some (A, B) => homoPairs A B)

/-- `KS.V.vt = u - KS.veff` (vp_kinetic.py 80-84) -/
def eulerVt (u : K) (f : Frag G r c p) : Py (Frag G r c p) := do
  let veff ← attr f.ks.veff
  pure { f with v := { f.v with vt := some fun j k => u - veff j k } }

/-- `KS.V.vt = np.zeros_like(i_KS.n)` (vp_kinetic.py 113-114) -/
def zeroVt (f : Frag G r c p) : Py (Frag G r c p) :=
  pure ⟨f.ks, { f.v with vt := some fun _ _ => 0 }⟩

/-- `vp_kin` of every fragment for a finite molecular potential (vp_kinetic.py 172-181). -/
def finishKinetic (vt : G.Cols p) (P : Part G r c p) : Py (Part G r c p) :=
  { P with vt := some vt }.mapAll fun f => do
    let v ← attr f.v.vt
    pure { f with v := { f.v with vpKin := some fun j k => vt j k - v j k } }

/-- `vp_kinetic` (vp_kinetic.py 8-181). -/
def vpKinetic (T : Env G r c p) (P : Part G r c p) : Py (Part G r c p) :=
  match P.opt.kin with
  | .vonweiz => do
    let nf ← attr P.nf
    P.mapAll fun f => do
      let n ← KS.need f.ks.n
      let vt : G.Cols p := fun j k => Fl.clean (vonWeizsacker T n j k)
      let d ← kineticDifference (vonWeizsacker T nf) vt
      pure { f with v := { f.v with vt := some vt, vpKin := some d } }
  | .libxcke => do
    let nf ← attr P.nf
    let (Ts, vt) ← T.kinetic nf
    let P ← P.mapAll fun f => do
      let n ← KS.need f.ks.n
      let (Tf, v) ← T.kinetic n
      pure { f with v := { f.v with vt := some v, Ts := some Tf } }
    finishKinetic vt { P with Tsm := some Ts }
  | .paramke => .error .attributeError  -- `self.kinetic`; the constructor raises `NameError` before
  | .inversion => do
    let P ← P.mapAll (eulerVt P.inversionU)
    let (vt, Ts, info) ← T.invert P
    finishKinetic vt { P with invTs := some Ts, invInfo := some info }
  | .none => do
    let _ ← attr P.nf
    let P ← P.mapAll zeroVt
    finishKinetic (fun _ _ => 0) P
  | .twoorbital => do
    if p = 2 then .error .valueError else
    let (v1, v2, vf) ← T.twoOrbitalPot P
    let P ← P.mapAll fun f => pure { f with v := { f.v with vt := some (vf f) } }
    let ta ← attr P.fa.v.vt
    let tb ← attr P.fb.v.vt
    pure { P with
      fa := ⟨P.fa.ks, { P.fa.v with vpKin := some fun j k => v1 k - ta j k }⟩
      fb := ⟨P.fb.ks, { P.fb.v with vpKin := some fun j k => v2 k - tb j k }⟩ }
  | .fixed => pure P

/-! ## Energies -/

/-- Fragment sums (energy.py 13-20). -/
structure Sums (K : Type) (p : ℕ) where
  E : Fl K
  Ts : Fl K
  Eks : Fin p → Fl K
  Enuc : K
  Ex : K
  Ec : K
  Eh : K
  Vhxc : K

/-- One component (energy.py 29-42). -/
def Sums.addComp (dft : Bool) (acc : Sums K p) (f : Frag G r c p) : Py (Sums K p) := do
  let s ← KS.need f.ks.scale
  let E ← attr f.ks.E
  let acc := { acc with
    E := Fl.add acc.E (Fl.mul (.fin s) E.E)
    Ts := Fl.add acc.Ts (Fl.mul (.fin s) E.Ts)
    Eks := fun j => Fl.add (acc.Eks j) (Fl.mul (.fin s) (E.Eks j))
    Enuc := acc.Enuc + s * E.Enuc }
  if dft then do
    let Eh ← attr E.Eh
    let Vhxc ← attr E.Vhxc
    pure { acc with
      Ex := acc.Ex + s * E.Ex
      Ec := acc.Ec + s * E.Ec
      Eh := acc.Eh + s * Eh
      Vhxc := acc.Vhxc + s * Vhxc }
  else pure acc

/-- The loop over components (energy.py 29-42, 54-67). -/
def fragSums (dft : Bool) (l : List (Frag G r c p)) : Py (Sums K p) :=
  l.foldlM (Sums.addComp dft) ⟨.fin 0, .fin 0, fun _ => .fin 0, 0, 0, 0, 0, 0⟩

/-- Doubling for the spin-flipped components (energy.py 80-100). -/
def Sums.double (b : Bool) (s : Sums K p) : Sums K p :=
  if b then ⟨Fl.mul s.E (.fin 2), Fl.mul s.Ts (.fin 2), fun j => Fl.mul (s.Eks j) (.fin 2), s.Enuc * 2,
    s.Ex * 2, s.Ec * 2, s.Eh * 2, s.Vhxc * 2⟩
  else s

/-- `iks_b` of energy.py 22-27: in an ensemble `KSB` twice. -/
def energyCompsB (P : Part G r c p) : List (Frag G r c p) :=
  match P.fAB with
  | none => [P.fb]
  | some (_, B) => [B, B]

/-- The sums for B (energy.py 44-78). -/
def sumsB (dft : Bool) (P : Part G r c p) (sa : Sums K p) : Py (Sums K p) :=
  if P.opt.abSym then pure sa else fragSums dft P.energyCompsB

/-- The sums for A and B (energy.py 13-100). -/
def sumsAB (P : Part G r c p) : Py (Sums K p × Sums K p) := do
  let sa ← fragSums (decide (P.opt.interaction = .dft)) P.compsA
  let sb ← sumsB (decide (P.opt.interaction = .dft)) P sa
  pure (sa.double P.opt.ensSpinSym, sb.double P.opt.ensSpinSym)

/-- `ep_nuclear` (ep_nuclear.py 7-12). -/
def epNuclear (P : Part G r c p) : Py K := do
  let na ← KS.need P.naFrac
  let nb ← attr P.nbFrac
  pure ((G.integ fun k => tot na k * P.vb k) + G.integ fun k => tot nb k * P.va k)

/-- `Tsm`, `Tsf` of the von Weizsaecker functional (ep_kinetic.py 11-39): the parenthesis closes before
the Laplacian of the fragment term, so `Tsf` has one entry per grid point. -/
def vonWeizsackerEnergy (T : Env G r c p) (P : Part G r c p) : Py (Tot G × Tot G) := do
  let nf ← attr P.nf
  let c : K := 2 * G.pi * G.hr * G.ha
  let root (n : G.Cols p) : G.Fld := fun k => T.sqrt (tot n k)
  let lap (f : G.Fld) : G.Fld := fun k => ∑ l, T.elap k l * f l
  let Tsm := c * ∑ k, G.wi k * root nf k * (1 / 2 * lap (root nf) k)
  let Tsf ← P.comps.foldlM (fun (acc : G.Fld) f => do
    let s ← KS.need f.ks.scale
    let n ← KS.need f.ks.n
    pure fun k => acc k + s * c * (∑ l, G.wi l * root n l) * (-1 / 2 * lap (root n) k)) fun _ => 0
  pure (.num (.fin Tsm), .vec fun k => .fin (Tsf k))

/-- `Tsm`, `Tsf` (ep_kinetic.py 11-173). -/
def kineticEnergies (T : Env G r c p) (P : Part G r c p) : Py (Tot G × Tot G) :=
  match P.opt.kin with
  | .vonweiz => P.vonWeizsackerEnergy T
  | .libxcke | .paramke => do
    let Tsm ← attr P.Tsm
    let Tsf ← P.comps.foldlM (fun (acc : K) f => do
      let s ← KS.need f.ks.scale
      let t ← attr f.v.Ts
      pure (acc + s * t)) 0
    pure (.num (.fin Tsm), .num (.fin Tsf))
  | .inversion => do
    let Tsm ← attr P.invTs
    let Tsf ← (if P.opt.abSym then P.compsA else P.comps).foldlM (fun (acc : Fl K) f => do
      let E ← attr f.ks.E
      let s ← KS.need f.ks.scale
      pure (Fl.add acc (Fl.mul (.fin s) E.Ts))) (.fin 0)
    pure (.num (.fin Tsm), .num (if P.opt.abSym then Fl.mul Tsf (.fin 2) else Tsf))
  | .none => pure (.num (.fin 0), .num (.fin 0))
  | .twoorbital => do
    let (Tsm, Tsf) ← T.twoOrbitalEnergy P
    pure (.num (.fin Tsm), .num (.fin Tsf))
  | .fixed => .error .valueError

/-- `Ep_kin` (ep_kinetic.py 177-186). -/
def epKinetic (T : Env G r c p) (P : Part G r c p) : Py (Tot G) := do
  let (Tsm, Tsf) ← P.kineticEnergies T
  pure (Tot.sub Tsm (if P.opt.ensSpinSym then Tot.smul (.fin 2) Tsf else Tsf))

/-- One component's contribution to a fragment energy density, unless it is frozen
(ep_hxc.py 29-30, 39-40, 59-60, 70-71, 87-88, 98-99). -/
def addDensity (x : Frag G r c p → Option G.Fld) (acc : G.Fld) (f : Frag G r c p) : Py G.Fld :=
  if f.v.frozen = none ∨ f.v.frozen = some false then do
    let Q ← needQ f.ks.Q
    let e ← attr (x f)
    pure fun k => acc k + tot Q k * e k
  else pure acc

/-- `ehf` (ep_hxc.py 17-40): the mirror image is added inside the loop. -/
def ehf (P : Part G r c p) : Py G.Fld :=
  if P.opt.abSym then P.compsA.foldlM (fun acc f => do
    let acc ← addDensity (fun f => f.ks.V.eh) acc f
    pure fun k => acc k + G.mir acc k) fun _ => 0
  else P.comps.foldlM (addDensity fun f => f.ks.V.eh) fun _ => 0

/-- `exf`, `ecf` (ep_hxc.py 49-71, 77-99): the mirror image is added after the loop. -/
def excf (x : Frag G r c p → Option G.Fld) (P : Part G r c p) : Py G.Fld :=
  if P.opt.abSym then do
    let e ← P.compsA.foldlM (addDensity x) fun _ => 0
    pure fun k => e k + G.mir e k
  else P.comps.foldlM (addDensity x) fun _ => 0

/-- `Ep_h`, `Ep_x`, `Ep_c` and the densities `ep_h`, `ep_x`, `ep_c` (ep_hxc.py 11-111): the molecular
exchange and correlation energies are those stored by `vp_hxc`. -/
def epComponents (T : Env G r c p) (P : Part G r c p) (Ehf Exf Ecf : K) :
    Py (K × K × K × Option (G.Fld × G.Fld × G.Fld)) :=
  match P.opt.interaction with
  | .dft => do
    let nf ← attr P.nf
    let vh ← T.hartree1 (tot nf)
    let eh ← P.ehf
    let ex ← attr P.ex
    let epsX ← attr P.epsX
    let exf ← P.excf fun f => f.ks.V.ex
    let ec ← attr P.ec
    let epsC ← attr P.epsC
    let ecf ← P.excf fun f => f.ks.V.ec
    pure ((G.integ fun k => tot nf k * (1 / 2 * vh k)) - Ehf, ex - Exf, ec - Ecf,
      some (fun k => 1 / 2 * vh k - eh k, fun k => epsX k - exf k, fun k => epsC k - ecf k))
  | .ni => pure (0, 0, 0, none)

/-- `Ep_hxc` from its components (ep_hxc.py 115-145). -/
def epCollect (T : Env G r c p) (P : Part G r c p) (h x cc : K) : Py (Part G r c p × K) :=
  match P.opt.hxc with
  | .exact => pure (P, h + x + cc)
  | .hartree => pure (P, h)
  | .overlapXc => do
    let P ← P.vpOverlap T
    let F ← attr P.F
    pure (P, h + F * (x + cc))
  | .overlapHxc | .overlapHxc2 => do
    let P ← P.vpOverlap T
    let P ← P.ensCorHar
    let F ← attr P.F
    let e ← attr P.Ehcor
    pure (P, F * (h + x + cc) + (1 - F) * e)
  | .surprisal => .error .valueError  -- the branch is spelt "surprise"

/-- `ep_hxc` (ep_hxc.py 6-145): sets `Ep_h`, `Ep_x`, `Ep_c` and returns `Ep_hxc`. -/
def epHxc (T : Env G r c p) (P : Part G r c p) (Ehf Exf Ecf : K) : Py (Part G r c p × K) := do
  let (h, x, cc, d) ← P.epComponents T Ehf Exf Ecf
  epCollect T { P with EpH := some h, EpX := some x, EpC := some cc, epDens := d.or P.epDens } h x cc

/-- `partition_energy` (partition_energy.py 5-21): `Ep_pot`, `Ep_kin`, `Ep_hxc`, `Ep`. -/
def partitionEnergy (T : Env G r c p) (P : Part G r c p) (Ehf Exf Ecf : K) :
    Py (Part G r c p × K × Tot G × K × Tot G) :=
  if P.opt.isolated then pure (P, 0, Tot.num (.fin 0), 0, Tot.num (.fin 0))
  else do
    let pot ← P.epNuclear
    let kin ← P.epKinetic T
    let (P, hxc) ← P.epHxc T Ehf Exf Ecf
    pure (P, pot, kin, hxc, Tot.add (Tot.add (.num (.fin pot)) kin) (.num (.fin hxc)))

/-- `for i_KS in iks: evals = np.append(evals, i_KS.E.evals)` (energy.py 132-133, 143-145). -/
def appendEvals (l : List (Frag G r c p)) : Py (List K) :=
  l.foldlM (fun acc f => do
    let E ← attr f.ks.E
    pure (acc ++ E.evals)) []

/-- `E.evals_a`, `E.evals_b` (energy.py 124-145). -/
def evalsAB (P : Part G r c p) : Py (List K × List K) := do
  let a ← appendEvals P.compsA
  if P.opt.abSym then pure (a, a)
  else do
    let b ← appendEvals P.compsB
    pure (a, b)

/-- `energy` (energy.py 7-145). -/
def energy (T : Env G r c p) (P : Part G r c p) : Py (Part G r c p) := do
  let (sa, sb) ← P.sumsAB
  let (P, EpPot, EpKin, EpHxc, Ep) ←
    P.partitionEnergy T (sa.Eh + sb.Eh) (sa.Ex + sb.Ex) (sa.Ec + sb.Ec)
  let Ef := Fl.add sa.E sb.E
  let Et := Tot.add (.num Ef) Ep
  let Vnn := P.Za * P.Zb / (2 * P.a)
  let (evalsA, evalsB) ← P.evalsAB
  pure { P with E := some ⟨sa.E, sb.E, Ef, Fl.add sa.Ts sb.Ts, fun j => Fl.add (sa.Eks j) (sb.Eks j),
    sa.Enuc + sb.Enuc, sa.Ex + sb.Ex, sa.Ec + sb.Ec, sa.Eh + sb.Eh, sa.Vhxc + sb.Vhxc, EpPot, EpKin, EpHxc,
    Ep, Et, Vnn, Tot.add Et (.num (.fin Vnn)), evalsA, evalsB⟩ }

/-! ## Exchange-correlation part of the potential, and the potential -/

/-- First part of `vp_hxc` (vp_hxc.py 17-39).  Without interaction `self.hartree` is the number 0. -/
def hxcStart (T : Env G r c p) (P : Part G r c p) : Py (Part G r c p) :=
  if P.opt.hxc = .exact ∧ P.opt.interaction = .ni then P.hxcZero
  else if P.opt.interaction = .ni then .error .attributeError
  else P.hxcComponents T

/-- Second part of `vp_hxc` (vp_hxc.py 43-108). -/
def hxcCollect (T : Env G r c p) (P : Part G r c p) : Py (Part G r c p) :=
  match P.opt.hxc with
  | .exact => P.mapAll fun f => do
      let h ← attr f.v.vpH
      let x ← attr f.v.vpX
      let cc ← attr f.v.vpC
      pure { f with v := { f.v with vpHxc := some fun j k => h j k + x j k + cc j k } }
  | .hartree => P.mapAll fun f => do
      let h ← attr f.v.vpH
      pure { f with v := { f.v with vpHxc := some h } }
  | .overlapXc => do
      let P ← P.vpOverlap T
      let P ← P.energy T
      let F ← attr P.F
      let ex ← attr P.EpX
      let ec ← attr P.EpC
      P.mapAll fun f => do
        let h ← attr f.v.vpH
        let x ← attr f.v.vpX
        let cc ← attr f.v.vpC
        let d ← attr f.v.dFdn
        pure { f with v := { f.v with
          vpHxc := some fun j k => h j k + F * (x j k + cc j k) + (ex + ec) * d j k } }
  | .overlapHxc => do
      let P ← P.vpOverlap T
      let P ← P.ensCorHar
      let P ← P.energy T
      let F ← attr P.F
      let eh ← attr P.EpH
      let ex ← attr P.EpX
      let ec ← attr P.EpC
      let cor ← attr P.Ehcor
      P.mapAll fun f => do
        let h ← attr f.v.vpH
        let x ← attr f.v.vpX
        let cc ← attr f.v.vpC
        let d ← attr f.v.dFdn
        let vcor ← attr f.v.vhcor
        pure { f with v := { f.v with
          vpHxc := some fun j k => F * (h j k + x j k + cc j k) + (eh + ex + ec) * d j k +
            (1 - F) * vcor j k + cor * d j k } }
  | .surprisal => .error .attributeError  -- `self.Ep_hxc`
  | .overlapHxc2 => .error .valueError

/-- `vp_hxc` (vp_hxc.py 7-108). -/
def vpHxcStep (T : Env G r c p) (P : Part G r c p) : Py (Part G r c p) := do
  let P ← P.hxcStart T
  P.hxcCollect T

/-- `Σ_i x_i * Q_i` over all components (partition_potential.py 36-45). -/
def qAverage (x : Frag G r c p → Option (G.Cols p)) (P : Part G r c p) : Py (G.Cols p) :=
  P.comps.foldlM (fun (acc : G.Cols p) f => do
    let v ← attr (x f)
    let Q ← needQ f.ks.Q
    pure fun j k => acc j k + v j k * Q j k) fun _ _ => 0

/-- The averages with spin flip and mirror image (partition_potential.py 36-63). -/
def average (P : Part G r c p) (x : Frag G r c p → Option (G.Cols p)) : Py (G.Cols p) := do
  let v ← P.qAverage x
  pure (addMirror P.opt.abSym (addFlip P.opt.ensSpinSym v))

/-- `partition_potential` (partition_potential.py 6-115).  With 'potential_inversion' the code needs
`self.inverter.invert` to accept four arguments and `initialguessinvert` to accept none, `phi0` to be
set, `grid.spinfip`, `self.Beta`: it raises (`C46`). -/
def partitionPotential (T : Env G r c p) (P : Part G r c p) : Py (Part G r c p × G.Cols p) :=
  match P.opt.vpCalc with
  | .potentialInversion =>
    if p = 2 then .error (if P.opt.ensSpinSym then .attributeError else .unboundLocalError)
    else .error .typeError
  | .component => do
    let P ← P.vpNuclear
    let P ← P.vpKinetic T
    let P ← P.vpHxcStep T
    let _ ← attr P.nf
    let P ← P.mapAll fun f => do
      let a ← attr f.v.vpPot
      let b ← attr f.v.vpKin
      let d ← attr f.v.vpHxc
      pure { f with v := { f.v with vp := some fun j k => a j k + b j k + d j k } }
    let vp ← P.average fun f => f.v.vp
    let pot ← P.average fun f => f.v.vpPot
    let kin ← P.average fun f => f.v.vpKin
    let hxc ← P.average fun f => f.v.vpHxc
    let h ← P.average fun f => f.v.vpH
    let x ← P.average fun f => f.v.vpX
    let cc ← P.average fun f => f.v.vpC
    pure ({ P with
      vp := some vp, vpPot := some pot, vpKin := some kin, vpHxc := some hxc, vpH := some h,
      vpX := some x, vpC := some cc }, vp)

end Part
end Verif
