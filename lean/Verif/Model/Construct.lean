import Verif.Model.Partition

/-!
# Constructors of `Kohnsham` and `Partition`, and the options they pass on

`lower` and `coerce` are those of `Verif.Model.Options`; `coul Za Zb` is `coulomb(grid, Za, Zb)` (`Init.coulomb`). All
tables have entries for the same angular momenta and spins (see `Verif.Model.Partition`); warnings are not modelled.
-/

namespace Verif
variable {K : Type} [_root_.Field K] [LinearOrder K] [IsStrictOrderedRing K] [FloorRing K]
open Opt

/-- The argument of `Pssolver` (kohnsham.py 79-80). -/
def Opt.solverDict (o : Dict) : Dict := [("fractional", .bool (flag o "fractional")), ("sym", .bool (flag o "sym"))]

/-- The options of a partition that are handed to its fragments (partition.py 249-255): all of these attributes exist. -/
def Opt.fragmentDict (o : Dict) : Dict :=
  ["interaction_type", "sym", "fractional", "xfunc_id", "cfunc_id", "xc_family"].filterMap fun k => (o.get? k).map fun v => (k, v)

/-- `interaction_type` of an option object (kohnsham.py 109-121): only `dft` and `ni` pass the validator. -/
def Opt.interaction (o : Dict) : Interaction := if o.get? "interaction_type" = some (.str "ni") then .ni else .dft

/-- `Kohnsham.__init__` (kohnsham.py 51-121). For the starting values `e0` (123-130) see `Verif.Model.EigenStart`. -/
def KS.init (lower : String → String) (coerce : Kind → Val → Option Val) (G : Grid K) (coul : K → K → G.Fld) (a : K)
    {r c r' c' : ℕ} (p : ℕ) (Za Zb : K) (Nmo : Fin r × Fin c → ℕ) (N : Fin r' × Fin c' → K) (opt : Dict) :
    Py (KS G r c p) := do
  let o ← build lower coerce ksFields opt
  if r = r' ∧ c = c' then
    let tab ← pssolver lower coerce G Nmo N (solverDict o)
    -- `solver[i,j].hamiltonian()` on `None` would raise; every entry has been filled
    if h : ∀ w, (tab w).isSome = true then
      pure { kind := interaction o, sym := flag o "sym", Za, Zb, a, solver := fun w => (tab w).get (h w),
             vnuc := KS.nuclearPotential G p (flag o "sym") (coul Za Zb) }
    else .error .attributeError
  else .error .assertionError

/-- Occupations of a fragment: the tables `Nmo`, `N`, and those of the second ensemble component where the argument has
them (`N_a[1]`, partition.py 204-211). -/
structure Occ (K : Type) (r c r' c' : ℕ) where
  Nmo : Fin r × Fin c → ℕ
  N : Fin r' × Fin c' → K
  second : Option ((Fin r × Fin c → ℕ) × (Fin r' × Fin c' → K)) := none

/-- Options of `Partition` read by `Verif.Model.Partition` (partition.py 59-92). -/
def Opt.partOpt (o : Dict) : PartOpt where
  vpCalc := if o.get? "vp_calc_type" = some (.str "potential_inversion") then .potentialInversion else .component
  hxc := match o.get? "hxc_part_type" with
    | some (.str "overlap_hxc_2") => .overlapHxc2
    | some (.str "overlap_hxc") => .overlapHxc
    | some (.str "overlap_xc") => .overlapXc
    | some (.str "surprisal") => .surprisal
    | some (.str "hartree") => .hartree
    | _ => .exact
  kin := match o.get? "kinetic_part_type" with
    | some (.str "inversion") => .inversion
    | some (.str "libxcke") => .libxcke
    | some (.str "paramke") => .paramke
    | some (.str "none") => .none
    | some (.str "twoorbital") => .twoorbital
    | some (.str "fixed") => .fixed
    | _ => .vonweiz
  interaction := interaction o
  abSym := flag o "ab_sym"
  ensSpinSym := flag o "ens_spin_sym"
  isolated := flag o "isolated"

/-- `Partition.__init__` (partition.py 171-275). `Paramke` (269) is not imported. -/
def Part.init (lower : String → String) (coerce : Kind → Val → Option Val) (G : Grid K) (coul : K → K → G.Fld) (a : K)
    {r c r' c' : ℕ} (p : ℕ) (Za Zb nuA nuB : K) (occA occB : Occ K r c r' c') (opt : Dict) : Py (Part G r c p) := do
  let o ← build lower coerce partitionFields opt
  let ks (Za Zb : K) (Nmo : Fin r × Fin c → ℕ) (N : Fin r' × Fin c' → K) : Py (KS G r c p) :=
    KS.init lower coerce G coul a p Za Zb Nmo N (fragmentDict o)
  -- N_a[1], N_b[1] of an ensemble
  let second (x : Occ K r c r' c') : Py ((Fin r × Fin c → ℕ) × (Fin r' × Fin c' → K)) :=
    match x.second with
    | none => .error .indexError
    | some y => .ok y
  let AB ← if nuA = 1 ∧ nuB = 1 then pure none else do
    let A ← second occA
    let B ← second occB
    pure (some (A, B))
  checkAbSym (flag o "ab_sym") Za Zb
  let ksa ← ks Za 0 occA.Nmo occA.N
  let ksb ← ks 0 Zb occB.Nmo occB.N
  let ksAB ← match AB with
    | none => pure none
    | some (A, B) =>
      if nuA ≠ 1 ∧ nuB ≠ 1 then do
        let ksA ← ks Za 0 A.1 A.2
        let ksB ← ks 0 Zb B.1 B.2
        pure (some (ksA, ksB))
      else pure none
  let ((sa, sb), sAB) ← Part.scaleFactors nuA nuB (flag o "ens_spin_sym")
  let fAB ← match sAB, ksAB with
    | some (sA, sB), some (A, B) => pure (some (⟨{ A with scale := some sA }, {}⟩, ⟨{ B with scale := some sB }, {}⟩))
    | some _, none => .error .attributeError
    | none, _ => pure none
  if (partOpt o).kin = .paramke then .error .nameError else
  pure { opt := partOpt o, Za, Zb, a, va := coul Za 0, vb := coul 0 Zb,
         fa := ⟨{ ksa with scale := some sa }, {}⟩, fb := ⟨{ ksb with scale := some sb }, {}⟩, fAB }

/-- Options of `Partition.scf` (partition/scf.py 40-45): `isolated` is overwritten. -/
def Opt.partitionScfOptions (lower : String → String) (coerce : Kind → Val → Option Val) (isolated : Bool) (opt : Dict) :
    Py Dict := do
  let o ← build lower coerce partitionScfFields opt
  pure (o.set "isolated" (.bool isolated))

end Verif
