import Verif.Model.KohnSham

/-!
# `CADMium/kohnsham/scf.py`

The loop variables `iter` and `maxiter` enter only through the number of passes left,
`maxiter - iter`.
-/

namespace Verif
namespace KsScf
variable {K : Type} [Field K] [LinearOrder K] [IsStrictOrderedRing K] [FloorRing K]

/-- The `while` loop (scf.py 64-116).  `step` is the body up to the convergence check and returns
`dif_E` and `dif_n`.  With `auto_tol` the condition refers to the unknown name `opt` as soon as its
first part is false, and the body to the unknown name `dif`: `NameError`.  Also returned: the changes
of every pass. -/
def loop {S : Type} (step : S → Py (S × Fl K × Fl K)) (auto : Bool) (etol : K) :
    ℕ → Fl K → S → Py (S × List (Fl K × Fl K))
  | left, diff, s =>
    if Fl.gt diff (.fin etol) then
      match left with
      | 0 => .ok (s, [])
      | left + 1 => do
        let (s, dE, dn) ← step s
        if auto then .error .nameError else
        let (s', log) ← loop step auto etol left (Fl.pymax dE dn) s
        pure (s', (dE, dn) :: log)
    else if auto then .error .nameError
    else .ok (s, [])

/-- The loop as started by `scf`: `diff = 10`, `iter = 1` (scf.py 54-57). -/
def run {S : Type} (step : S → Py (S × Fl K × Fl K)) (auto : Bool) (etol : K) (maxiter : ℤ) (s : S) :
    Py (S × List (Fl K × Fl K)) :=
  loop step auto etol (maxiter - 1).toNat (.fin 10) s

/-- `np.max` of a list (scf.py 99): NaN wins, an empty list raises `ValueError`. -/
def npMax : List (Fl K) → Py (Fl K)
  | [] => .error .valueError
  | x :: l => .ok (l.foldl (fun m y => if m.isnan then m else if y.isnan then y else
      if Fl.gt y m then y else m) x)

variable {G : Grid K} {r c p : ℕ}

/-- `np.max(grid.integrate(np.abs(n - old)) / grid.integrate(np.abs(n)))` (scf.py 99). -/
def difN (n old : G.Cols p) : Py (Fl K) :=
  match G.integrate (.d2 p fun s k => |n s k - old s k|), G.integrate (.d2 p fun s k => |n s k|) with
  | .num x, .num y => .ok (Fl.div (.fin x) (.fin y))
  | .arr p f, .arr q g =>
    if h : q = p then npMax ((List.finRange p).flatMap fun s => (List.finRange _).map fun k =>
      Fl.div (.fin (f s k)) (.fin (g (h ▸ s) k))) else .error .valueError
  | _, _ => .error .valueError

/-- Loop options (scf.py 8-17). -/
structure Options (K : Type) where
  continuing : Bool
  iterative : Bool
  spinflipsym : Bool
  autoTol : Bool
  maxiter : ℤ
  etol : K
  alpha : K

/-- What the worker processes (kohnsham.py 211-222) find for the current potentials (`none`: the process dies); the flag
says whether `iter_orbitals` is used. -/
abbrev Workers (G : Grid K) (r c p : ℕ) := KS G r c p → Bool → Fin r × Fin c → Option (KS.Found G)

/-- Loop state: the object, `old_E`, `old_n`, `diff` (scf.py 54-56, 102-104). -/
structure State (G : Grid K) (r c p : ℕ) where
  ks : KS G r c p
  oldE : Fl K
  oldN : G.Cols p
  diff : Fl K

/-- `(1 - alpha) * n + alpha * nout` (kohnsham/scf.py 87, partition/scf.py 186). -/
def mix (alpha : K) (n nout : G.Cols p) : G.Cols p :=
  fun s k => (1 - alpha) * n s k + alpha * nout s k

/-- Lines 68-73 of scf.py: new effective potential, handed to the solvers. -/
def potential (F : Functionals G p) (ks : KS G r c p) : Py (KS G r c p) := do
  let ks ← ks.calcHxc F
  let vext ← KS.need ks.vext
  let vhxc ← KS.need ks.vhxc
  let veff : G.Cols p := fun s k => ks.vnuc s k + vext s k + vhxc s k
  let solver ← KS.distribute veff ks.solver
  pure { ks with veff := some veff, solver }

/-- Lines 76-77: after the solvers got the potential, `self.veff` is symmetrised. -/
def flipPotential (o : Options K) (ks : KS G r c p) : KS G r c p :=
  if o.spinflipsym then { ks with veff := ks.veff.map KS.spinSymmetrised } else ks

/-- Lines 80-90: output density, mixing, symmetrisation.  `starttol = 0.01` (kohnsham.py 202). -/
def density (W : Workers G r c p) (o : Options K) (diff : Fl K) (ks : KS G r c p) :
    Py (KS G r c p) := do
  let dif : Fl K := if o.iterative ∧ o.continuing then .fin 0 else diff
  let (ks, nout) ← ks.calcDensity (W ks (o.iterative && Fl.gt (.fin (1 / 100)) dif))
  let n ← KS.need ks.n
  let n := mix o.alpha n nout
  pure { ks with n := some (if o.spinflipsym then KS.spinSymmetrised n else n) }

/-- Body of the loop (scf.py 67-104). -/
def body (F : Functionals G p) (W : Workers G r c p) (o : Options K) (st : State G r c p) :
    Py (State G r c p × Fl K × Fl K) := do
  let ks ← potential F st.ks
  let ks ← density W o st.diff (flipPotential o ks)
  let ks ← ks.energy F
  let ks ← ks.calcChempot
  let n ← KS.need ks.n
  let E ← KS.need ks.E
  let dE := Fl.abs (Fl.div (Fl.sub E.E st.oldE) E.E)
  let dn ← difN n st.oldN
  pure (⟨ks, E.E, n, Fl.pymax dE dn⟩, dE, dn)

/-- Before the loop (scf.py 36-51).  Continuing without a density: `len(None)` is a `TypeError`. -/
def start (W : Workers G r c p) (o : Options K) (ks : KS G r c p) : Py (KS G r c p) := do
  let ks := { ks with vext := some (ks.vext.getD fun _ _ => 0) }
  if o.continuing then do
    let _ ← KS.need ks.n
    pure ks
  else do
    let ks := { ks with vhxc := some fun _ _ => 0 }
    let ks ← ks.setEffectivePotential
    let (ks, nout) ← ks.calcDensity (W ks false)
    pure { ks with n := some nout }

/-- `Kohnsham.scf` (scf.py 21-116). -/
def scf (F : Functionals G p) (W : Workers G r c p) (o : Options K) (ks : KS G r c p) :
    Py (KS G r c p × List (Fl K × Fl K)) := do
  let ks ← start W o ks
  let (st, log) ← run (body F W o) o.autoTol o.etol o.maxiter ⟨ks, .fin 0, fun _ _ => 0, .fin 10⟩
  pure (st.ks, log)

end KsScf
end Verif
