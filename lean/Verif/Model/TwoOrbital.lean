import Verif.Model.Partition

/-!
# The two-orbital kinetic functional (`partition/vp_kinetic.py`, `partition/ep_kinetic.py`)

`Env.twoOrbitalPot`, `Env.twoOrbitalEnergy` are parameters of the partition model; these are the functions the
code uses.  Where numpy would produce NaN or infinity (root of a negative number, division by zero) the
result is the error `nonFinite`.
-/

namespace Verif
namespace Part
variable {K : Type} [Field K] [LinearOrder K] [IsStrictOrderedRing K] [FloorRing K]
variable {G : Grid K} {r c p : ℕ}

/-- `f**0.5` (e.g. vp_kinetic.py 134) -/
def root (T : Env G r c p) (f : G.Cols p) : Py (G.Cols p) :=
  if ∀ j k, 0 ≤ f j k then .ok fun j k => T.sqrt (f j k) else .error .nonFinite

/-- `x**0.5` for a number (e.g. vp_kinetic.py 137) -/
def rootNum (T : Env G r c p) (x : K) : Py K := if 0 ≤ x then .ok (T.sqrt x) else .error .nonFinite

/-- `f / g` (e.g. vp_kinetic.py 132) -/
def quot (f g : G.Cols p) : Py (G.Cols p) :=
  if ∀ j k, g j k ≠ 0 then .ok fun j k => f j k / g j k else .error .nonFinite

/-- `eT @ f` with `eT = -0.5 * self.grid.elap` (vp_kinetic.py 120, ep_kinetic.py 123) -/
def eT (T : Env G r c p) (f : G.Cols p) : G.Cols p := fun j k => -1 / 2 * ∑ l, T.elap k l * f j l

/-- `grid.w[:,None]` -/
def wCols (G : Grid K) (p : ℕ) : G.Cols p := fun _ => G.w

/-- `V.vt` of a fragment (vp_kinetic.py 131-132). -/
def twoFragVt (T : Env G r c p) (f : Frag G r c p) : Py (G.Cols p) := do
  let n ← KS.need f.ks.n
  let s ← root T n
  quot (eT T s) fun j k => 2 * G.w k * s j k

/-- `C` (vp_kinetic.py 134-135, ep_kinetic.py 125-126) with the two roots. -/
def twoC (T : Env G r c p) (n1 n2 : G.Cols p) : Py (K × G.Cols p × G.Cols p) := do
  let s1 ← root T n1
  let s2 ← root T n2
  pure (G.integ (tot fun j k => (s1 j k - s2 j k) ^ 2), s1, s2)

/-- The contributions of the first orbital, `dTO1_dn1` and `dTO1_dn2` (vp_kinetic.py 145-146): in the first
line the integrand lacks the factor `phi1`.  `x1`, `x2` are `(C * n1)**(-0.5)`, `(C * n2)**(-0.5)`. -/
def twoFirst (phi1 d1 x1 x2 : G.Cols p) : Py (G.Cols p × G.Cols p) := do
  let a ← KS.col d1 0
  let b ← KS.col (fun j k => phi1 j k * d1 j k) 0
  pure (fun j k => 1 / 2 * x1 j k * (d1 j k - phi1 j k * G.integ a),
    fun j k => -(1 / 2) * x2 j k * (d1 j k - phi1 j k * G.integ b))

/-- The contributions of the second orbital, `dTO2_dn1` and `dTO2_dn2` (vp_kinetic.py 148-149). -/
def twoSecond (phi1 phi2 d2 x1 x2 : G.Cols p) : Py (G.Cols p × G.Cols p) := do
  let a ← KS.col (fun j k => phi1 j k ^ 2 / phi2 j k * d2 j k) 0
  pure (fun j k => d2 j k * ((1 / 4 - 1 / 2 * x1 j k * phi1 j k) / phi2 j k) + 1 / 2 * (phi1 j k * x1 j k) * G.integ a,
    fun j k => d2 j k * ((1 / 4 + 1 / 2 * x2 j k * phi1 j k) / phi2 j k) - 1 / 2 * (phi1 j k * x2 j k) * G.integ a)

/-- Both columns of `V.vt` from the two densities (vp_kinetic.py 134-151). -/
def twoMolVt (T : Env G r c p) (n1 n2 : G.Cols p) : Py (G.Fld × G.Fld) := do
  let (C, s1, s2) ← twoC T n1 n2
  let rC ← rootNum T C
  let phi1 ← quot (fun j k => s1 j k - s2 j k) fun _ _ => rC
  let phi2 ← root T fun j k => (n1 j k + n2 j k) / 2 - phi1 j k ^ 2
  let d1 ← quot (eT T phi1) (wCols G p)
  let d2 ← quot (eT T phi2) (wCols G p)
  let r1 ← root T fun j k => C * n1 j k
  let r2 ← root T fun j k => C * n2 j k
  let x1 ← quot (fun _ _ => 1) r1
  let x2 ← quot (fun _ _ => 1) r2
  let _ ← quot phi1 phi2
  let (a1, a2) ← twoFirst phi1 d1 x1 x2
  let (b1, b2) ← twoSecond phi1 phi2 d2 x1 x2
  let v1 ← KS.col (fun j k => 2 * (a1 j k + b1 j k)) 0
  let v2 ← KS.col (fun j k => 2 * (a2 j k + b2 j k)) 0
  pure (v1, v2)

/-- The two-orbital part of `vp_kinetic` (vp_kinetic.py 118-151).  The caller stores `V.vt` of the fragments;
for components for which it cannot be computed the computation has already failed. -/
def twoOrbitalPot (T : Env G r c p) (P : Part G r c p) : Py (G.Fld × G.Fld × (Frag G r c p → G.Cols p)) := do
  let n1 ← KS.need P.naFrac
  let n2 ← attr P.nbFrac
  let _ ← P.comps.mapM (twoFragVt T)
  let (v1, v2) ← twoMolVt T n1 n2
  pure (v1, v2, fun f => ((twoFragVt T f).toOption).getD fun _ _ => 0)

/-- `phi1`, `phi2` of the energy (ep_kinetic.py 121-129). -/
def twoOrbitals (T : Env G r c p) (n1 n2 : G.Cols p) : Py (G.Cols p × G.Cols p) := do
  let (C, s1, s2) ← twoC T n1 n2
  let h ← rootNum T (G.integ (tot fun j k => n1 j k + n2 j k) / 2)
  let rC ← rootNum T C
  let phi1 ← quot (fun j k => h * (s1 j k - s2 j k)) fun _ _ => rC
  let phi2 ← root T fun j k => n1 j k + n2 j k - phi1 j k ^ 2
  pure (phi1, phi2)

/-- `integrate((phi * (eT @ phi) / w)[:,0])` (ep_kinetic.py 131-132). -/
def twoT (T : Env G r c p) (phi : G.Cols p) : Py K := do
  let f ← quot (fun j k => phi j k * eT T phi j k) (wCols G p)
  let f0 ← KS.col f 0
  pure (G.integ f0)

/-- `Tsm` (ep_kinetic.py 121-137). -/
def twoTsm (T : Env G r c p) (n1 n2 : G.Cols p) : Py K := do
  let (phi1, phi2) ← twoOrbitals T n1 n2
  let t1 ← twoT T phi1
  let t2 ← twoT T phi2
  pure (t1 + t2)

/-- `2 pi hr ha sum(wi * n**0.5 * (eT @ n**0.5))` for a density summed over spins (ep_kinetic.py 152). -/
def twoFragT (T : Env G r c p) (n : G.Fld) : Py K :=
  if ∀ k, 0 ≤ n k then
    .ok (2 * G.pi * G.hr * G.ha * ∑ k, G.wi k * T.sqrt (n k) * (-1 / 2 * ∑ l, T.elap k l * T.sqrt (n l)))
  else .error .nonFinite

/-- The two-orbital part of `ep_kinetic` (ep_kinetic.py 119-163): `Tsm`, `Tsf`.  Only KSa and KSb enter,
also in an ensemble. -/
def twoOrbitalEnergy (T : Env G r c p) (P : Part G r c p) : Py (K × K) := do
  let n1 ← KS.need P.naFrac
  let n2 ← attr P.nbFrac
  let Tsm ← twoTsm T n1 n2
  let Tsf ← (if P.opt.abSym then [P.fa] else [P.fa, P.fb]).foldlM (fun (acc : K) f => do
    let s ← KS.need f.ks.scale
    let n ← KS.need f.ks.n
    let t ← twoFragT T (tot n)
    pure (acc + s * t)) 0
  pure (Tsm, if P.opt.abSym then Tsf * 2 else Tsf)

end Part

/-- The environment with the two-orbital functional of the code. -/
def Env.withTwoOrbital {K : Type} [Field K] [LinearOrder K] [IsStrictOrderedRing K] [FloorRing K] {G : Grid K}
    {r c p : ℕ} (T : Env G r c p) : Env G r c p :=
  { T with twoOrbitalPot := Part.twoOrbitalPot T, twoOrbitalEnergy := Part.twoOrbitalEnergy T }

end Verif
