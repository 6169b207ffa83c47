import Verif.Model.Partition

/-!
# `CADMium/partition/scf.py`

Printing, the two warnings about the inverter's options, and `optSCF.beta` (never read) are not
modelled.  The environment (`T`) and the workers (`W`) may differ from pass to pass, so that no
assumption is made about the internal state of the inverter.
-/

namespace Verif
namespace PartScf
open Part
variable {K : Type} [Field K] [LinearOrder K] [IsStrictOrderedRing K] [FloorRing K]

/-- The `while` loop (scf.py 141-247) with `left = max_iter - iterations + 1` passes left.  `step` is the
body and returns `dif`.  With `auto_tol` the condition reads `self.optPartition["AutoTolIter"]`, a
`TypeError`, as soon as its first part is false.  After a pass the code warns if `iterations`, already
incremented, equals `max_iter`.  Result: the state, the changes `dif` of all passes, the number of
warnings. -/
def loop {S : Type} (step : S → Py (S × Fl K)) (auto : Bool) (etol : K) :
    ℕ → Fl K → S → Py (S × List (Fl K) × ℕ)
  | left, dif, s =>
    if ¬ Fl.gt dif (.fin etol) then
      if auto then .error .typeError else .ok (s, [], 0)
    else
      match left with
      | 0 => .ok (s, [], 0)
      | left + 1 => do
        let (s, d) ← step s
        let (s', log, warnings) ← loop step auto etol left d s
        pure (s', d :: log, (if left = 1 then 1 else 0) + warnings)

/-- The loop as started by `scf` (scf.py 129-138). -/
def run {S : Type} (step : S → Py (S × Fl K)) (auto : Bool) (etol : K) (maxIter : ℤ) (s : S) :
    Py (S × List (Fl K) × ℕ) :=
  loop step auto etol maxIter.toNat (.fin 10) s

/-- `calc_type` (scf.py 26-31). -/
inductive CalcType
  | pdft | sdft
  deriving DecidableEq

/-- `PartitionSCFOptions` (scf.py 10-31). -/
structure Options (K : Type) where
  etol : K
  maxIter : ℤ := 50
  alpha : List K
  calcType : CalcType := .pdft
  continuing : Bool := false
  fromTarget : Bool := false
  iterative : Bool := true
  autoTol : Bool := false
  freezeA : Bool := false
  freezeB : Bool := false

variable {G : Grid K} {r c p : ℕ}

/-- `for i_KS in KSab:` the fragments that are calculated, `[KSa]`, `[KSa, KSA]`, `[KSa, KSb]` or
`[KSa, KSA, KSb, KSB]` (scf.py 94-105). -/
def onKSab (f : Frag G r c p → Py (Frag G r c p)) (P : Part G r c p) : Py (Part G r c p) :=
  if P.opt.abSym then P.mapA f else P.mapAll f

/-- `if self.optPartition.ab_sym: self.mirrorAB()` (scf.py 120-121, 159-160, 190-191). -/
def mirrorIf (P : Part G r c p) : Py (Part G r c p) := if P.opt.abSym then P.mirrorAB else pure P

/-- `if not optSCF.from_target_density: self.calc_protomolecule()`, then `self.calc_Q()`
(scf.py 124-126, 194-196). -/
def promolecule (o : Options K) (P : Part G r c p) : Py (Part G r c p) :=
  if o.fromTarget then P.calcQ
  else do
    let P ← P.calcProtomolecule
    P.calcQ

/-- `V.frozen`, `Alpha` of a fragment (scf.py 55-72). -/
def equip (frozen : Bool) (alpha : K) (f : Frag G r c p) : Frag G r c p :=
  ⟨{ f.ks with alpha := some alpha }, { f.v with frozen := some frozen }⟩

/-- Freezing and mixing parameters of the fragments (scf.py 54-72). -/
def setup (o : Options K) (P : Part G r c p) : Py (Part G r c p) :=
  match o.alpha with
  | [x] => pure (go x x)
  | [x, y] => pure (go x y)
  | _ => .error .valueError
where
  go (x y : K) : Part G r c p := { P with
    fa := equip o.freezeA x P.fa
    fb := equip o.freezeB y P.fb
    fAB := P.fAB.map fun AB => (equip o.freezeA x AB.1, equip o.freezeB y AB.2) }

/-- Initial guess for one fragment (scf.py 107-118).  `calc_density(optSCF.iterative)` has `dif = 0`. -/
def guess (W : KsScf.Workers G r c p) (o : Options K) (f : Frag G r c p) : Py (Frag G r c p) :=
  if o.continuing then
    match f.ks.n with
    | none => .error .assertionError
    | some _ => pure f
  else do
    let ks ← { f.ks with vext := some fun _ _ => 0, vhxc := some fun _ _ => 0 }.setEffectivePotential
    let (ks, nout) ← ks.calcDensity (W ks o.iterative)
    let ks ← { ks with n := some nout }.calcChempot
    pure ⟨ks, f.v⟩

/-- Before the loop (scf.py 54-126). -/
def start (W : KsScf.Workers G r c p) (o : Options K) (P : Part G r c p) : Py (Part G r c p) := do
  let P ← setup o P
  let P ← onKSab (guess W o) P
  let P ← mirrorIf P
  promolecule o P

/-- New Hartree, exchange and correlation potential (scf.py 154-157). -/
def hxcUpdate (F : Functionals G p) (f : Frag G r c p) : Py (Frag G r c p) := do
  let ks ← f.ks.calcHxc F
  let _ ← KS.need f.ks.vhxc
  pure ⟨ks, f.v⟩

/-- The partition potential (scf.py 163-168). -/
def potential (T : Env G r c p) (P : Part G r c p) : Py (Part G r c p × G.Cols p) :=
  if P.opt.isolated then do
    let _ ← attr P.nf
    let P ← onKSab (fun f : Frag G r c p => pure ⟨f.ks, { f.v with vp := some fun _ _ => 0 }⟩) P
    pure (P, fun _ _ => 0)
  else P.partitionPotential T

/-- New external potential unless the fragment is frozen (scf.py 173-177). -/
def external (o : Options K) (vp : G.Cols p) (f : Frag G r c p) : Py (Frag G r c p) :=
  if f.v.frozen = some true then pure f
  else match o.calcType with
    | .pdft => pure ⟨{ f.ks with vext := some vp }, f.v⟩
    | .sdft => do
      let v ← attr f.v.vp
      pure ⟨{ f.ks with vext := some v }, f.v⟩

/-- One fragment in one pass (scf.py 172-188). -/
def fragment (F : Functionals G p) (W : KsScf.Workers G r c p) (o : Options K) (dif : Fl K)
    (vp : G.Cols p) (f : Frag G r c p) : Py (Frag G r c p) := do
  let f ← external o vp f
  let ks ← f.ks.setEffectivePotential
  let (ks, nout) ← ks.calcDensity (W ks (o.iterative && Fl.gt (.fin (1 / 100)) dif))
  let ks ← ks.calcChempot
  let alpha ← attr ks.alpha
  let n ← KS.need ks.n
  let ks ← { ks with n := some (KsScf.mix alpha n nout) }.energy F
  pure ⟨ks, f.v⟩

/-- `dif_E` (scf.py 200).  Where the energy is an array, `max` needs the truth value of an array
(`ValueError`); with a single grid point it would not, this is outside the model. -/
def difE (old : Fl K) : Tot G → Py (Fl K × Fl K)
  | .num E => pure (E, Fl.abs (Fl.div (Fl.sub E old) E))
  | .vec _ => if Fintype.card G.Ix = 1 then .error .nonFinite else .error .valueError

/-- Counting failed inversions (scf.py 219-231), `l` lists `inversion_info[ii,jj].optimality`. -/
def failures (n : ℕ) (l : List (Fl K)) : Py ℕ :=
  l.foldlM (fun (n : ℕ) x =>
    let n := if Fl.gt x (.fin 1) then n + 1 else 0
    if 1 < n then .error .systemExit else .ok n) n

/-- `failures` where the kinetic part is an inversion (scf.py 213-231). -/
def checkInversion (P : Part G r c p) (n : ℕ) : Py ℕ :=
  if P.opt.kin = .inversion ∧ P.opt.isolated = false then do
    let l ← attr P.invInfo
    failures n l
  else pure n

/-- Loop variables (scf.py 129-134). -/
structure State {K : Type} (G : Grid K) (r c p : ℕ) where
  P : Part G r c p
  oldE : Fl K
  oldNf : G.Cols p
  dif : Fl K
  it : ℕ
  failures : ℕ

/-- `inverter.optInv.avoid_loop` (scf.py 147-151). -/
def avoid (it : ℕ) (P : Part G r c p) : Part G r c p :=
  if P.opt.kin = .inversion ∧ P.opt.isolated = false then { P with avoidLoop := decide (it = 1) } else P

/-- The pass up to the convergence check (scf.py 153-197). -/
def pass (T : Env G r c p) (W : KsScf.Workers G r c p) (o : Options K) (dif : Fl K)
    (P : Part G r c p) : Py (Part G r c p) := do
  let P ← onKSab (hxcUpdate T.toFunctionals) P
  let P ← mirrorIf P
  let (P, vp) ← potential T P
  let P ← onKSab (fragment T.toFunctionals W o dif vp) P
  let P ← mirrorIf P
  let P ← promolecule o P
  P.energy T

/-- The loop body (scf.py 146-243). -/
def body (T : ℕ → Env G r c p) (W : ℕ → KsScf.Workers G r c p) (o : Options K) (st : State G r c p) :
    Py (State G r c p × Fl K) := do
  let P ← pass (T st.it) (W st.it) o st.dif (avoid st.it st.P)
  let e ← attr P.E
  let nf ← attr P.nf
  let (E, dE) ← difE st.oldE e.E
  let dn ← KsScf.difN nf st.oldNf
  let k ← checkInversion P st.failures
  pure (⟨P, E, nf, Fl.pymax dE dn, st.it + 1, k⟩, Fl.pymax dE dn)

/-- `Partition.scf` (scf.py 34-247): the partition, the changes, the number of warnings. -/
def scf (T : ℕ → Env G r c p) (W : ℕ → KsScf.Workers G r c p) (o : Options K) (P : Part G r c p) :
    Py (Part G r c p × List (Fl K) × ℕ) := do
  let P ← start (W 0) o P
  let nf ← attr P.nf
  let (st, log, warnings) ← run (body T W o) o.autoTol o.etol o.maxIter ⟨P, .fin 0, nf, .fin 10, 1, 0⟩
  pure (st.P, log, warnings)

end PartScf
end Verif
