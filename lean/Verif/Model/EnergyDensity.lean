import Verif.Model.TwoOrbital

/-!
# The energy density `V.ep_kin` (`partition/ep_kinetic.py`)

`Part.epKinetic` models the number `E.Ep_kin` the same function sets.  Division by zero and roots of negative
numbers are the error `nonFinite`.  What other functions stored before is a parameter (`KinIn`).
-/

namespace Verif
namespace KinDens
variable {K : Type} [Field K] [LinearOrder K] [IsStrictOrderedRing K] [FloorRing K]
variable {G : Grid K} {r c p : ℕ}

/-- The arrays that occur: 1-d, `(Nelem,m)`, and `(Nelem,Nelem)`. -/
inductive Arr (G : Grid K)
  | flat (f : G.Fld)
  | cols (m : ℕ) (f : G.Cols m)
  | table (f : G.Ix → G.Ix → K)

/-- What is stored before `ep_kinetic` is called. -/
structure KinIn (G : Grid K) (r c p : ℕ) where
  /-- `self.tsm[:,0]` (vp_kinetic.py 41) -/
  tsm : Option G.Fld := none
  /-- `V.ts[:,0]` of a component (vp_kinetic.py 50) -/
  ts : Frag G r c p → Option G.Fld := fun _ => none
  /-- `self.inverter.get_ts_WFI()` -/
  invTs : Py (G.Cols p) := .error .attributeError
  /-- `np.sum(solver[i,j].ked_WFI, axis=1)` after `calc_ked_WFI` -/
  ked : Frag G r c p → Fin r → Fin c → Py (Option G.Fld) := fun _ _ _ => .ok none

/-- `(n**(-0.5) / w) * (-0.5 * elap @ n**0.5)` for a density summed over spins (ep_kinetic.py 18-19, 36-37). -/
def weizsacker (T : Env G r c p) (n : G.Fld) : Py G.Fld :=
  if ∀ k, 0 < n k ∧ G.w k ≠ 0 then
    .ok fun k => 1 / T.sqrt (n k) / G.w k * (-1 / 2 * ∑ l, T.elap k l * T.sqrt (n l))
  else .error .nonFinite

/-- `scale * n**0.5 * (eT @ n**0.5) / (w * n)` (ep_kinetic.py 153). -/
def twoFrag (T : Env G r c p) (s : K) (n : G.Fld) : Py G.Fld :=
  if ∀ k, 0 < n k ∧ G.w k ≠ 0 then
    .ok fun k => s * T.sqrt (n k) * (-1 / 2 * ∑ l, T.elap k l * T.sqrt (n l)) / (G.w k * n k)
  else .error .nonFinite

/-- `tsf += i_KS.scale * np.sum(i_KS.Q, axis=1) * i_KS.V.ts` (ep_kinetic.py 39, 62). -/
def addScaled (ts : Frag G r c p → Py G.Fld) (acc : G.Fld) (f : Frag G r c p) : Py G.Fld := do
  let t ← ts f
  let s ← KS.need f.ks.scale
  let Q ← Part.needQ f.ks.Q
  pure fun k => acc k + s * Part.tot Q k * t k

/-- The loop `ts[:,j] = np.sum(i_KS.solver[i,j].ked_WFI, axis=1)` (ep_kinetic.py 90-100): a later row replaces
an earlier one. -/
def rowsTs (ked : Fin r → Fin c → Py (Option G.Fld)) : Py (G.Cols p) :=
  (rowMajor r c).foldlM (fun (acc : G.Cols p) w => do
    match ← ked w.1 w.2 with
    | none => pure acc
    | some f => if h : w.2.1 < p then pure (Function.update acc ⟨w.2.1, h⟩ f) else .error .indexError) fun _ _ => 0

/-- `tsf` of the inversion (ep_kinetic.py 85-106): `V.ts` has `p` equal columns, each containing the quotient
once per solver; then the columns are summed. -/
def addInversion (ked : Frag G r c p → Fin r → Fin c → Py (Option G.Fld)) (acc : G.Fld) (f : Frag G r c p) :
    Py G.Fld := do
  let _ ← attr f.ks.E
  let s ← KS.need f.ks.scale
  let n ← KS.need f.ks.n
  let ts : G.Cols p ← rowsTs (ked f)
  let Q ← Part.needQ f.ks.Q
  if ∀ k, Part.tot n k ≠ 0 then
    pure fun k => acc k + s * Part.tot Q k * ∑ _j : Fin p, ∑ _i : Fin r × Fin c, Part.tot ts k / Part.tot n k
  else .error .nonFinite

/-- `tsm`, `tsf` of the two-orbital functional (ep_kinetic.py 121-163). -/
def twoOrbital (T : Env G r c p) (P : Part G r c p) : Py (G.Cols p × G.Cols p) := do
  let n1 ← KS.need P.naFrac
  let n2 ← attr P.nbFrac
  let nf ← attr P.nf
  let (phi1, phi2) ← Part.twoOrbitals T n1 n2
  let t ← Part.quot (fun j k => phi1 j k * Part.eT T phi1 j k + phi2 j k * Part.eT T phi2 j k) (Part.wCols G p)
  let tsm ← Part.quot t fun _ => Part.tot nf
  let tsf ← (if P.opt.abSym then [P.fa] else [P.fa, P.fb]).foldlM (fun (acc : G.Cols p) f => do
    let s ← KS.need f.ks.scale
    let n ← KS.need f.ks.n
    let t ← twoFrag T s (Part.tot n)
    let Q ← Part.needQ f.ks.Q
    pure fun j k => acc j k + Q j k * t k) fun _ _ => 0
  pure (tsm, if P.opt.abSym then fun j k => tsf j k + (tsf j k + G.mirCols tsf j k) else tsf)

/-- `tsm`, `tsf` (ep_kinetic.py 11-173). -/
def densities (T : Env G r c p) (D : KinIn G r c p) (P : Part G r c p) : Py (Arr G × Arr G) :=
  match P.opt.kin with
  | .vonweiz => do
    let nf ← attr P.nf
    let tsm ← weizsacker T (Part.tot nf)
    let tsf ← P.comps.foldlM (addScaled fun f => do
      let n ← KS.need f.ks.n
      weizsacker T (Part.tot n)) fun _ => 0
    pure (.flat tsm, .flat tsf)
  | .libxcke | .paramke => do
    let tsm ← attr D.tsm
    let tsf ← P.comps.foldlM (addScaled fun f => attr (D.ts f)) fun _ => 0
    pure (.flat tsm, .flat tsf)
  | .inversion => do
    let nf ← attr P.nf
    let t ← D.invTs
    let tsf ← (if P.opt.abSym then P.compsA else P.comps).foldlM (addInversion D.ked) fun _ => 0
    if ∀ k, Part.tot nf k ≠ 0 then
      pure (.flat fun k => Part.tot t k / Part.tot nf k,
        .cols 1 fun _ k => if P.opt.abSym then tsf k + G.mir tsf k else tsf k)
    else .error .nonFinite
  | .none => pure (.cols 1 fun _ _ => 0, .cols 1 fun _ _ => 0)
  | .twoorbital => do
    let (a, b) ← twoOrbital T P
    pure (.cols p a, .cols p b)
  | .fixed => .error .valueError

/-- `a *= x` (ep_kinetic.py 183). -/
def Arr.smul (x : K) : Arr G → Arr G
  | .flat f => .flat fun k => f k * x
  | .cols m f => .cols m fun j k => f j k * x
  | .table f => .table fun k l => f k l * x

/-- `a - b` with numpy's broadcasting (ep_kinetic.py 186) for the pairs that occur: a 1-d array minus one with a
single column is a square table. -/
def Arr.sub : Arr G → Arr G → Py (Arr G)
  | .flat f, .flat g => .ok (.flat fun k => f k - g k)
  | .flat f, .cols 1 g => .ok (.table fun k l => f l - g 0 k)
  | .cols m f, .cols m' g => if h : m' = m then .ok (.cols m fun j k => f j k - g (h ▸ j) k) else .error .valueError
  | _, _ => .error .valueError

/-- `V.ep_kin` (ep_kinetic.py 177-186). -/
def epKin (T : Env G r c p) (D : KinIn G r c p) (P : Part G r c p) : Py (Arr G) := do
  let (tsm, tsf) ← densities T D P
  tsm.sub (if P.opt.ensSpinSym then tsf.smul 2 else tsf)

end KinDens
end Verif
