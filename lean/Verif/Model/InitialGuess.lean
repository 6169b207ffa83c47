import Verif.Model.Orbitals
import Verif.Py.Fl
import Mathlib.Data.List.Sort

/-!
# `CADMium/partition/initialguessinvert.py`

The initial guess for the inversion of the promolecular density: a potential, and orbitals and eigenvalues of
the Hamiltonian with this potential in the space spanned by the orbitals of the fragments.

`scipy.linalg.eig` is an oracle with real, finite eigenvectors and eigenvalues which may be infinite or NaN.
Division by zero followed by `nan_to_num(.., 0, 0, 0)` (lines 99, 138) is division with `x / 0 = 0`, and the square
root of a negative number (NaN) is 0 likewise.  The effective potentials, `Q` and `u` are present.
-/

namespace Verif
namespace Guess

/-- What is read of one `i_solver`: its `m` and orbitals (`None` before the first `calc_orbitals`). -/
structure Sol (G : Grid ℝ) where
  m : ℕ
  phi : Option (List G.Fld)

/-- What is read of one `Kohnsham` object; `solver` is the column `solver[:, ispin]`. -/
structure Frag (G : Grid ℝ) (p : ℕ) where
  veff : G.Cols p
  Q : G.Cols p
  u : ℝ
  solver : List (Sol G)

/-- What is read of the `Partition`; `AB` is there with `ens`. -/
structure Part (G : Grid ℝ) (p : ℕ) where
  abSym : Bool
  ensSpinSym : Bool
  a : Frag G p
  b : Frag G p
  AB : Option (Frag G p × Frag G p)

variable {G : Grid ℝ} {p : ℕ}

/-- `KSab` (initialguessinvert.py 16-25). -/
def comps (P : Part G p) : List (Frag G p) :=
  if P.abSym then
    match P.AB with
    | none => [P.a]
    | some (A, _) => [P.a, A]
  else match P.AB with
    | none => [P.a, P.b]
    | some (A, B) => [P.a, A, P.b, B]

/-- `x[:, j]` of an array with `p` columns (lines 28, 34). -/
def col (x : G.Cols p) (j : ℕ) : Py G.Fld := if h : j < p then .ok (x ⟨j, h⟩) else .error .indexError

/-- Lines 27-28. -/
def addSpin (ispin : ℕ) (v : G.Fld) (f : Frag G p) : Py G.Fld := do
  let x ← col f.veff ispin
  let q ← col f.Q ispin
  pure fun k => v k + x k * q k

/-- Lines 32-34. -/
def addOther (ospin : ℕ) (v : G.Fld) (f : Frag G p) : Py G.Fld := do
  let x ← col f.veff ospin
  let q ← col f.Q ospin
  pure fun k => v k + (x k - f.u) * q k

/-- The potential `v0` (lines 13-38). -/
def potential (P : Part G p) (ispin : ℕ) : Py G.Fld := do
  let v ← (comps P).foldlM (addSpin ispin) fun _ => 0
  let v ← if P.ensSpinSym then (comps P).foldlM (addOther (if ispin = 0 then 1 else 0)) v else pure v
  pure (if P.abSym then fun k => v k + G.mir v k else v)

/-- `Nsol` (lines 44-46). -/
def nsol (P : Part G p) : ℕ := ((comps P).map fun f => f.solver.length).foldl max 0

/-- `solver[i, ispin]` (lines 63-95). -/
def at' (f : Frag G p) (i : ℕ) : Py (Sol G) := pyGet f.solver i

/-- `np.append(phi, solver.phi, axis=1)` (lines 63-91). -/
def append (l : List G.Fld) (s : Sol G) : Py (List G.Fld) :=
  match s.phi with
  | none => .error .valueError
  | some x => .ok (l ++ x)

/-- Local variables of the loop: `phi`, the `m` of the Hamiltonian `H0`, `m`. -/
structure Block (G : Grid ℝ) where
  phi : List G.Fld
  H0 : Option ℕ
  m : Option ℕ

/-- Lines 62-66; `i` counts from 0.  The `m` is read from `KSb`. -/
def fromA (P : Part G p) (i : ℕ) (x : Block G) : Py (Block G) :=
  if i ≤ P.a.solver.length then do
    let s ← at' P.a i
    let l ← append x.phi s
    let t ← at' P.b i
    pure ⟨l, some s.m, some t.m⟩
  else pure x

/-- Lines 69-73. -/
def fromEnsA (A : Frag G p) (i : ℕ) (x : Block G) : Py (Block G) :=
  if i ≤ A.solver.length then do
    let s ← at' A i
    let l ← append x.phi s
    pure ⟨l, some s.m, some s.m⟩
  else pure x

/-- Lines 82-87 and 90-95; the attribute `H0` of the solver is taken to be its Hamiltonian. -/
def fromB (B : Frag G p) (i : ℕ) (x : Block G) : Py (Block G) :=
  if i ≤ B.solver.length then do
    let s ← at' B i
    let l ← append x.phi s
    pure ⟨l, x.H0.or (some s.m), x.m.or (some s.m)⟩
  else pure x

/-- The part for fragment A (lines 57-73). -/
def partA (P : Part G p) (i : ℕ) : Py (Block G) := do
  let x ← fromA P i ⟨[], none, none⟩
  match P.AB with
  | none => pure x
  | some (A, _) => fromEnsA A i x

/-- With `ab_sym` the orbitals of fragment A once more (lines 75-78). -/
def again (P : Part G p) (i : ℕ) (x : Block G) : Py (Block G) := do
  let s ← at' P.a i
  let l ← append x.phi s
  match P.AB with
  | none => pure { x with phi := l }
  | some (A, _) => do
    let s ← at' A i
    let l ← append l s
    pure { x with phi := l }

/-- The part for fragment B (lines 81-95). -/
def partB (P : Part G p) (i : ℕ) (x : Block G) : Py (Block G) := do
  let x ← fromB P.b i x
  match P.AB with
  | none => pure x
  | some (_, B) => fromB B i x

/-- The orbitals of the fragments (lines 57-95). -/
def basis (P : Part G p) (i : ℕ) : Py (Block G) := do
  let x ← partA P i
  if P.abSym then again P i x else partB P i x

/-- `phi.T @ W @ Wi @ psi` of two columns (lines 97, 100). -/
noncomputable def dot (f g : G.Fld) : ℝ := G.integ fun k => f k * g k

/-- `phi / diag(phi.T @ W @ Wi @ phi)**0.5` of one column, zeros for `x/0` (lines 97-99, 112). -/
noncomputable def unit (f : G.Fld) : G.Fld := fun k => f k / Real.sqrt (dot f f)

/-- `H` (line 101) applied to a column: `W^{-1} H0 + v0`. -/
noncomputable def ham (H0 : Matrix G.Ix G.Ix ℝ) (v : G.Fld) (f : G.Fld) : G.Fld :=
  fun k => H0.mulVec f k / G.w k + v k * f k

/-- `scipy.linalg.eig(a, b)` (line 103). -/
abbrev Eig := (n : ℕ) → Matrix (Fin n) (Fin n) ℝ → Matrix (Fin n) (Fin n) ℝ → Py (List (Fl ℝ × (Fin n → ℝ)))

/-- The order of `np.argsort` (line 104; NaN last, ties in the order of `eig`). -/
noncomputable def le (x y : Fl ℝ) : Bool :=
  match x, y with
  | _, .nan => true
  | .nan, _ => false
  | x, y => !Fl.gt x y

/-- `phi @ v` (line 107), one column. -/
def combine (l : List G.Fld) (v : Fin l.length → ℝ) : G.Fld := fun k => ∑ a, l[a] k * v a

/-- Occupation given to the orbitals (lines 110-132). -/
def occ (ensSpinSym : Bool) (m : Option ℕ) : ℝ :=
  if ensSpinSym then (if m = some 0 then 1 else 2) else if m = some 0 then 2 else 4

/-- One pass of the loop (lines 57-132): new columns of `phi0`, new entries of `d`. -/
noncomputable def block (eig : Eig) (H0 : ℕ → Matrix G.Ix G.Ix ℝ) (P : Part G p) (v : G.Fld) (i : ℕ) :
    Py (List (G.Fld × Fl ℝ)) := do
  let x ← basis P i
  let phi := x.phi.map unit
  match x.H0 with
  | none => .error .typeError
  | some m => do
    let ev ← eig phi.length (fun a b => dot phi[a] (ham (H0 m) v phi[b])) (fun a b => dot phi[a] phi[b])
    let ev := ev.mergeSort fun x y => le x.1 y.1
    pure (ev.map fun e => (fun k => unit (combine phi e.2) k * Real.sqrt (occ P.ensSpinSym x.m), e.1))

/-- Result of `initialguessinvert`. -/
structure Result (G : Grid ℝ) where
  phi0 : List G.Fld
  e0 : List ℝ
  v0 : G.Fld

/-- `np.nan_to_num(d, nan=0.0, posinf=0.0, neginf=0.0)` (line 137). -/
def real0 : Fl ℝ → ℝ
  | .fin x => x
  | _ => 0

/-- `initialguessinvert` (initialguessinvert.py 11-140). -/
noncomputable def initialGuess (eig : Eig) (H0 : ℕ → Matrix G.Ix G.Ix ℝ) (P : Part G p) (ispin : ℕ) :
    Py (Result G) := do
  let v ← potential P ispin
  let l ← (List.range (nsol P)).mapM (block eig H0 P v)
  let l := l.flatten
  pure ⟨l.map Prod.fst, l.map fun x => real0 x.2, v⟩

end Guess
end Verif
