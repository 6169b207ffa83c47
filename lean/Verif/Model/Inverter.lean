import Verif.Model.Orbitals
import Verif.Model.KsScf
import Mathlib.Data.Fin.Tuple.Basic
import Mathlib.Logic.Equiv.Fin.Basic
import Mathlib.Data.Finset.Fold

/-!
# `CADMium/inverter/orbitalinvert.py`

One solver column with a single solver (`Nsol = 1`, the only case the set-up survives, see
`occupations`), `Nmo = M + 1` orbitals, `n = Nelem` grid points.  `North = 0` always (lines 253-254),
so the blocks for forced orthogonality are absent.
-/

namespace Verif
namespace OrbInv

/-- The unknown vector `X` (orbitalinvert.py 258-262, 277-281): `Nmo*Nelem` orbital values, `Nmo-1`
eigenvalues, `Nelem` potential values. -/
abbrev Unk (K : Type*) (n M : ℕ) := Fin ((M + 1) * n + (M + n)) → K

section Vector
variable {K : Type*} {n M : ℕ}

/-- Position `i*Nelem + k`: value `k` of orbital `i` (F-order flattening). -/
def phiIx (i : Fin (M + 1)) (k : Fin n) : Fin ((M + 1) * n + (M + n)) :=
  Fin.castAdd _ (finProdFinEquiv (i, k))

/-- Position `Nmo*Nelem + i`. -/
def eigIx (i : Fin M) : Fin ((M + 1) * n + (M + n)) := Fin.natAdd _ (Fin.castAdd n i)

/-- Position `Nmo*Nelem + Nmo - 1 + k`. -/
def potIx (k : Fin n) : Fin ((M + 1) * n + (M + n)) := Fin.natAdd _ (Fin.natAdd M k)

/-- `phi[:, i]` after `np.reshape(x[0:Nelem*Nmo], (Nelem, Nmo), order="F")` (lines 36, 75, 95). -/
def phiOf (X : Unk K n M) (i : Fin (M + 1)) (k : Fin n) : K := X (phiIx i k)

/-- `evals = vstack((x[subset], 0))` (lines 30-34, 88-92, 450-455). -/
def evalsOf [Zero K] (X : Unk K n M) : Fin (M + 1) → K := Fin.snoc (fun i => X (eigIx i)) 0

/-- `v` (lines 64, 98, 457). -/
def potOf (X : Unk K n M) (k : Fin n) : K := X (potIx k)

/-- Stack three blocks on each other (orbitalinvert.py 143, 164, 277-281). -/
def stack (a : Fin ((M + 1) * n) → K) (b : Fin M → K) (c : Fin n → K) : Unk K n M :=
  Fin.append a (Fin.append b c)

/-- `phi.flatten("F")` (orbitalinvert.py 63, 78, 277, 435). -/
def flat (phi : Fin (M + 1) → Fin n → K) (t : Fin ((M + 1) * n)) : K := phi t.divNat t.modNat

/-- `X` from orbitals, eigenvalues and potential (lines 277-281, 435-439). -/
def pack [Sub K] (phi : Fin (M + 1) → Fin n → K) (eig : Fin (M + 1) → K) (v : Fin n → K) : Unk K n M :=
  stack (flat phi) (fun i => eig i.castSucc - eig (Fin.last M)) fun k => v k - eig (Fin.last M)

/-- Initial `X` when the solver has orbitals (lines 264-281): the sign of the orbitals is flipped. -/
def fromSolver [Sub K] [Neg K] (phi : Fin (M + 1) → Fin n → K) (eig : Fin (M + 1) → K) (v : Fin n → K) :
    Unk K n M :=
  pack (fun i k => -phi i k) eig v

/-- Initial `X` from the caller's guess (lines 257-262): `phi0` a long column, `e0` a list. -/
def fromGuess [Sub K] [Zero K] (phi0 : List K) (e0 : List K) (vs0 : Fin n → K) : Py (Unk K n M) := do
  let top ← pyGet e0 (-1)
  let ref ← pyGet e0 M
  if phi0.length < (M + 1) * n then .error .indexError else
  pure (stack (fun t => phi0.getD t.1 0) (fun i => e0.getD i.1 0 - top) fun k => vs0 k - ref)

/-- `phi0.flatten()` of an `(Nelem, cols)` array: C-order, the columns of a row follow each other
(partition/vp_kinetic.py 91). -/
def flattenC (cols : ℕ) (phi : Fin n → Fin cols → K) : List K :=
  (List.finRange n).flatMap fun k => (List.finRange cols).map fun i => phi k i

end Vector

section KMatrix
variable {K : Type*} [Field K] {n M : ℕ}

/-- `H = block_diag(Wi @ H0, …)`, `Nmo` copies (lines 214, 238-242). -/
def blockH (A : Matrix (Fin n) (Fin n) K) : Matrix (Fin ((M + 1) * n)) (Fin ((M + 1) * n)) K :=
  fun t u => if t.divNat = u.divNat then A t.modNat u.modNat else 0

/-- `vse.flatten('F')` (lines 109-112). -/
def vse (w : Fin n → K) (X : Unk K n M) : Fin ((M + 1) * n) → K :=
  flat fun i k => w k * (potOf X k - evalsOf X i)

/-- `Hjac` (line 112). -/
def hjac (w : Fin n → K) (H : Matrix (Fin ((M + 1) * n)) (Fin ((M + 1) * n)) K) (X : Unk K n M) :
    Matrix (Fin ((M + 1) * n)) (Fin ((M + 1) * n)) K :=
  H + Ops.diag (vse w X)

/-- `S = sum(WWi @ abs(phi)**2, axis=0)` (lines 76, 140). -/
def wnorm (w : Fin n → K) (X : Unk K n M) (i : Fin (M + 1)) : K := ∑ k, w k * phiOf X i k ^ 2

/-- `n = sum(abs(phi)**2, axis=1)` (line 139). -/
def dens (X : Unk K n M) (k : Fin n) : K := ∑ i, phiOf X i k ^ 2

/-- `eqn` (lines 137-143).  `(S - occ)` broadcasts `(Nmo,)` against `(Nmo,1)`; column 0 of the result
has `S[0]` in every row. -/
def eqn (w : Fin n → K) (H : Matrix (Fin ((M + 1) * n)) (Fin ((M + 1) * n)) K) (n0 : Fin n → K)
    (occ : Fin (M + 1) → K) (X : Unk K n M) : Unk K n M :=
  stack ((hjac w H X).mulVec fun t => X (Fin.castAdd _ t))
    (fun i => -(wnorm w X 0 - occ i.castSucc) / 2)
    (fun k => w k * ((dens X k - n0 k) / 2))

/-- `B2` (lines 145, 148 with the index columns of lines 245-246). -/
def B2 (w : Fin n → K) (X : Unk K n M) : Matrix (Fin ((M + 1) * n)) (Fin n) K :=
  fun t k => if t.modNat = k then w t.modNat * phiOf X t.divNat t.modNat else 0

/-- `B3` (lines 146, 149 with the index columns of lines 247-250). -/
def B3 (w : Fin n → K) (X : Unk K n M) : Matrix (Fin ((M + 1) * n)) (Fin M) K :=
  fun t i => if t.divNat = i.castSucc then -(w t.modNat * phiOf X t.divNat t.modNat) else 0

/-- `jac` (lines 155-164): `[[Hjac, B3, B2], [B3.T, 0, 0], [B2.T, 0, 0]]`. -/
def jac (w : Fin n → K) (H : Matrix (Fin ((M + 1) * n)) (Fin ((M + 1) * n)) K) (X : Unk K n M) :
    Matrix (Fin ((M + 1) * n + (M + n))) (Fin ((M + 1) * n + (M + n))) K :=
  fun r => stack
    (fun u => stack (fun t => hjac w H X t u) (fun i => B3 w X u i) (fun k => B2 w X u k) r)
    (fun i => stack (fun t => B3 w X t i) (fun _ => 0) (fun _ => 0) r)
    (fun k => stack (fun t => B2 w X t k) (fun _ => 0) (fun _ => 0) r)

end KMatrix

section Normalise
variable {n M : ℕ}

/-- `normalize` (lines 71-81).  A vanishing `S`, or a negative quotient under the root, gives values
that are not finite. -/
noncomputable def normalize (w : Fin n → ℝ) (occ : Fin (M + 1) → ℝ) (X : Unk ℝ n M) : Py (Unk ℝ n M) :=
  if ∀ i, wnorm w X i ≠ 0 ∧ 0 ≤ occ i / wnorm w X i then
    .ok (stack (flat fun i k => phiOf X i k * (occ i / wnorm w X i) ^ (1 / 2 : ℝ))
      (fun i => X (eigIx i)) fun k => X (potIx k))
  else .error .nonFinite

open Orbitals

variable {G : Grid ℝ}

/-- Body of the first loop of `ab_symmetrize` (lines 41-49) for the pair `i, i+1`. -/
noncomputable def absymPair (ev : Fin (M + 1) → ℝ) (phi : Fin (M + 1) → Orb G) (i : Fin M) :
    Fin (M + 1) → Orb G :=
  if |ev i.castSucc - ev i.succ| < 1 / 10 ^ 6 then
    match phi i.castSucc, phi i.succ with
    | some p, some q => Function.update (Function.update phi i.castSucc (unit (even p q))) i.succ
        (unit (odd p q))
    | _, _ => Function.update (Function.update phi i.castSucc none) i.succ none
  else phi

/-- Body of the second loop (lines 52-59): both branches normalise. -/
noncomputable def absymOne : Orb G → Orb G
  | none => none
  | some p =>
    if 0 < ∑ k, p k * G.mir p k then unit fun k => p k + G.mir p k
    else unit fun k => p k - G.mir p k

/-- The orbitals after both loops (lines 36-59). -/
noncomputable def absymOrbs (X : Unk ℝ (G.Na * G.Nr) M) (i : Fin (M + 1)) : Orb G :=
  absymOne ((List.finRange M).foldl (absymPair (evalsOf X)) (fun i => some (phiOf X i)) i)

/-- `ab_symmetrize` (lines 25-69); a NaN orbital leaves the domain of the model. -/
noncomputable def abSymmetrize (X : Unk ℝ (G.Na * G.Nr) M) : Py (Unk ℝ (G.Na * G.Nr) M) :=
  if ∀ i, (absymOrbs X i).isSome then
    .ok (stack (flat fun i => (absymOrbs X i).getD 0) (fun i => X (eigIx i))
      fun k => 1 / 2 * (potOf X k + G.mir (potOf X) k))
  else .error .nonFinite

end Normalise

section Occupations
variable {K : Type} [Field K] [LinearOrder K] [IsStrictOrderedRing K] [FloorRing K] {G : Grid K}

/-- Storing a float in an integer array (line 205): truncation towards zero. -/
def trunc (x : K) : ℤ := if 0 ≤ x then ⌊x⌋ else ⌈x⌉

/-- `D[it,0]` (lines 216-235).  `m = 0`: `nu` is computed from the truncated `N`; when it is not zero
the element one past the end is accessed.  `m ≠ 0`: the 1-d array `Nmo` is indexed with two indices. -/
def occupationOf (s : Solver G) : Py (List K) :=
  if s.m = 0 then
    let nu : K := if s.pol = 1 then (trunc s.N : K) / 2 - ⌊(trunc s.N : K) / 2⌋
      else (trunc s.N : K) - ⌊(trunc s.N : K)⌋
    if nu ≠ 0 then .error .indexError else .ok (List.replicate s.Nmo 2)
  else .error .indexError

/-- Occupations of one spin column of solvers (lines 199-250).  No solver: `C[0,0]` does not exist.
`occ` is built from the first solver only.  Without orbitals `block_diag` of nothing / the negative
shape of `B3j` raise. -/
def occupations (sols : List (Solver G)) : Py (List K) := do
  let D ← sols.mapM occupationOf
  let occ ← pyGet D 0
  if (sols.map Solver.Nmo).sum = 0 then .error .valueError else
  pure occ

end Occupations

section Loop
variable {K : Type} [Field K] [LinearOrder K] [IsStrictOrderedRing K]

/-- Fields of `optInv` read by the loop (inverter.py 17-29). -/
structure Options (K : Type) where
  abSym : Bool := false
  useIterative : Bool := false
  avoidLoop : Bool := false
  tol : K
  maxIter : ℤ
  resFactor : K

/-- Residuals of earlier passes (lines 299-313) and `ForceUpdate`. -/
structure Hist (K : Type) where
  oldKs : Fl K
  oldNcon : Fl K
  olderKs : Fl K
  olderNcon : Fl K
  /-- `res_ks`, `res_ncon` as left by the previous pass -/
  ks : Fl K
  ncon : Fl K
  force : Bool

/-- Lines 294-303. -/
def Hist.start : Hist K := ⟨.fin 0, .fin 0, .fin 0, .fin 0, .fin 0, .fin 0, false⟩

/-- Lines 309-313 and 322-338 for pass number `iter`. -/
def Hist.next (avoid : Bool) (iter : ℕ) (h : Hist K) (ks ncon : Fl K) : Hist K :=
  let shift := avoid && decide (1 < iter)
  let h' : Hist K := if shift then
      { h with olderKs := h.oldKs, olderNcon := h.oldNcon, oldKs := h.ks, oldNcon := h.ncon }
    else h
  let force := if avoid && decide (2 < iter) then
      Fl.gt (.fin (1 / 10 ^ 6)) (Fl.pymax ks ncon)
        && Fl.gt ks (Fl.mul h'.oldKs (.fin (1 / 10)))
        && Fl.gt (Fl.mul h'.olderKs (.fin 10)) ks
        && Fl.gt ncon (Fl.mul h'.olderNcon (.fin (1 / 10)))
        && Fl.gt (Fl.mul h'.olderNcon (.fin 10)) ncon
    else h.force
  { h' with ks, ncon, force }

/-- The condition of lines 356-358 for a Newton step. -/
def newton (o : Options K) (h : Hist K) : Bool :=
  Fl.gt h.ncon (Fl.mul h.ks (.fin o.resFactor)) || Fl.gt (.fin (o.tol * 100)) h.ks || h.force

/-- What is left after the loop: `X`, `iter`, `res`, and `res_ks`, `res_ncon` of every pass. -/
structure Result (K S : Type) where
  X : S
  iter : ℕ
  res : Fl K
  log : List (Fl K × Fl K)
  deriving DecidableEq

/-- The loop (lines 305-447).  `resid` is `(res_ks, res_ncon)` of the current `X`, `renew b` computes
the next `X` (`b`: Newton step).  `left` is `max_iter_invert - iter` at the time of the test in
line 350 (0 when negative), `iter` the number of the current pass. -/
def loop {S : Type} (o : Options K) (resid : S → Fl K × Fl K) (renew : Bool → S → Py S) :
    ℕ → ℕ → Hist K → S → Py (Result K S)
  | left, iter, h, X =>
    let r := resid X
    let res := Fl.pymax r.1 r.2
    let h := h.next o.avoidLoop iter r.1 r.2
    if Fl.gt (.fin o.tol) res then .ok ⟨X, iter, res, [r]⟩
    else match left with
      | 0 => .ok ⟨X, iter, res, [r]⟩
      | left + 1 => do
        let X' ← renew (newton o h) X
        if Fl.gt res (.fin 100) then .ok ⟨X', iter, res, [r]⟩
        else do
          let q ← loop o resid renew left (iter + 1) h X'
          pure ⟨q.X, q.iter, q.res, r :: q.log⟩

/-- The loop as started (lines 294-305). -/
def run {S : Type} (o : Options K) (resid : S → Fl K × Fl K) (renew : Bool → S → Py S) (X : S) :
    Py (Result K S) :=
  loop o resid renew (o.maxIter - 1).toNat 1 Hist.start X

/-- `flag` (lines 469-472). -/
def flag {S : Type} (o : Options K) (q : Result K S) : Bool := !Fl.gt q.res (.fin o.tol)

end Loop

section Main
variable {G : Grid ℝ} {M : ℕ}

/-- Diagonal of `WWi` (lines 195-197). -/
noncomputable def wwi (G : Grid ℝ) : G.Fld := fun k => G.w k * (2 * G.pi * G.hr * G.ha * G.wi k)

/-- `np.max(np.abs(f))` of a non-empty array. -/
noncomputable def maxAbs {n : ℕ} (f : Fin n → ℝ) : ℝ := Finset.univ.fold max 0 fun i => |f i|

/-- `res_ks`, `res_ncon` (lines 322-325). -/
noncomputable def residuals (H : Matrix (Fin ((M + 1) * (G.Na * G.Nr))) (Fin ((M + 1) * (G.Na * G.Nr))) ℝ)
    (n0 : G.Fld) (occ : Fin (M + 1) → ℝ) (X : Unk ℝ (G.Na * G.Nr) M) : Fl ℝ × Fl ℝ :=
  (.fin (maxAbs fun t => eqn (wwi G) H n0 occ X (Fin.castAdd _ t)),
   .fin (maxAbs fun k => eqn (wwi G) H n0 occ X (potIx k)))

/-- Calls into scipy and into the solver: `np.linalg.solve` and `calc_orbitals` (which starts from the
orbitals and eigenvalues left in the solver). -/
structure Oracle (G : Grid ℝ) (M : ℕ) where
  solve : Matrix (Fin ((M + 1) * (G.Na * G.Nr) + (M + G.Na * G.Nr)))
    (Fin ((M + 1) * (G.Na * G.Nr) + (M + G.Na * G.Nr))) ℝ → Unk ℝ (G.Na * G.Nr) M → Py (Unk ℝ (G.Na * G.Nr) M)
  orbitals : (Fin (M + 1) → G.Fld) → (Fin (M + 1) → ℝ) → G.Fld →
    Py ((Fin (M + 1) → G.Fld) × (Fin (M + 1) → ℝ))

/-- Newton step (lines 360-406).  The iterative solver uses the name `scipy`, which the module does not
import. -/
noncomputable def newtonStep (O : Oracle G M) (iterative : Bool)
    (H : Matrix (Fin ((M + 1) * (G.Na * G.Nr))) (Fin ((M + 1) * (G.Na * G.Nr))) ℝ)
    (n0 : G.Fld) (occ : Fin (M + 1) → ℝ) (X : Unk ℝ (G.Na * G.Nr) M) : Py (Unk ℝ (G.Na * G.Nr) M) :=
  if iterative then .error .nameError else do
    let d ← O.solve (jac (wwi G) H X) (eqn (wwi G) H n0 occ X)
    pure fun j => X j - d j

/-- New orbitals for the current potential (lines 409-439). -/
noncomputable def orbitalStep (O : Oracle G M) (X : Unk ℝ (G.Na * G.Nr) M) : Py (Unk ℝ (G.Na * G.Nr) M) := do
  let (phi, eig) ← O.orbitals (phiOf X) (evalsOf X) (potOf X)
  pure (pack phi eig (potOf X))

/-- `ab_symmetrize` when asked for, then `normalize` (lines 283-285, 441-444). -/
noncomputable def tidy (absym : Bool) (occ : Fin (M + 1) → ℝ) (X : Unk ℝ (G.Na * G.Nr) M) :
    Py (Unk ℝ (G.Na * G.Nr) M) := do
  let X ← if absym then abSymmetrize X else pure X
  normalize (wwi G) occ X

/-- The update of `X` (lines 354-444). -/
noncomputable def renew (O : Oracle G M) (o : Options ℝ)
    (H : Matrix (Fin ((M + 1) * (G.Na * G.Nr))) (Fin ((M + 1) * (G.Na * G.Nr))) ℝ)
    (n0 : G.Fld) (occ : Fin (M + 1) → ℝ) (b : Bool) (X : Unk ℝ (G.Na * G.Nr) M) :
    Py (Unk ℝ (G.Na * G.Nr) M) := do
  let X ← if b then newtonStep O o.useIterative H n0 occ X else orbitalStep O X
  tidy o.abSym occ X

/-- What `orbitalinvert` leaves behind for its spin: `flag`, `nfev`, `optimality`, the column of `vs`,
the row written into `us`, the solver and its density. -/
structure Outcome (G : Grid ℝ) where
  flag : Bool
  nfev : ℕ
  optimality : Fl ℝ
  vs : G.Fld
  us : ℝ
  solver : Solver G
  n : G.Fld

/-- Lines 449-481, once the loop is over. -/
noncomputable def finish (s : Solver G) (o : Options ℝ) (q : Result ℝ (Unk ℝ (G.Na * G.Nr) M)) :
    Py (Outcome G) := do
  let s : Solver G := { s with
    phi := some (List.ofFn (phiOf q.X)), eig := some (List.ofFn (evalsOf q.X)) }
  let homo ← s.getHomo
  let n ← s.calcDensity
  pure ⟨flag o q, q.iter, q.res, potOf q.X, homo, { s with veff := some (potOf q.X) }, n⟩

/-- `orbitalinvert` (lines 168-481) for one solver with `Nmo = M + 1` and the initial `X` (lines 256-281,
`fromGuess` or `fromSolver`).  `H0` is the solver's Hamiltonian. -/
noncomputable def orbitalinvert (O : Oracle G M) (o : Options ℝ) (s : Solver G) (H0 : Matrix G.Ix G.Ix ℝ)
    (n0 : G.Fld) (X0 : Unk ℝ (G.Na * G.Nr) M) : Py (Outcome G) := do
  let occ ← occupations [s]
  let occ : Fin (M + 1) → ℝ := fun i => occ.getD i.1 0
  let H := blockH (M := M) fun k l => (2 * G.pi * G.hr * G.ha * G.wi k) * H0 k l
  let X ← tidy o.abSym occ X0
  let q ← run o (residuals H n0 occ) (renew O o H n0 occ) X
  finish s o q

end Main
end OrbInv
end Verif
