import Verif.Model.Solver

/-!
# Arithmetic with rounding

Elsewhere numbers are exact.  Here every operation is followed by a rounding, as in IEEE 754: the result is the
exact one, rounded.  What is used of the rounding is a structure (`Rounding`, `Rounding.Precise`); that rounding to
`p + 1` binary digits, ties to even, with or without gradual underflow, is one is proved in `Lemmas/Rounded.lean`.
Infinities, NaN and signed zeros are left out (no overflow, no division by zero).

`numpy` adds the entries of an array in an order that depends on its length, memory layout and the processor; here
the order is an argument (`Order`).
-/

namespace Verif

/-- A rounding: larger numbers are rounded to larger ones, opposite numbers to opposite ones. -/
structure Rounding (K : Type*) [Field K] [LinearOrder K] where
  fl : K → K
  mono : Monotone fl
  neg : ∀ x, fl (-x) = -fl x

namespace Rounding
variable {K : Type*} [Field K] [LinearOrder K] (R : Rounding K)

/-- Machine addition. -/
def add (x y : K) : K := R.fl (x + y)
/-- Machine subtraction. -/
def sub (x y : K) : K := R.fl (x - y)
/-- Machine multiplication. -/
def mul (x y : K) : K := R.fl (x * y)
/-- Machine division. -/
def div (x y : K) : K := R.fl (x / y)

/-- Results are off by no more than the fraction `u` (no underflow). -/
structure Precise (u : K) : Prop where
  nonneg : 0 ≤ u
  small : u < 1
  err : ∀ x, |R.fl x - x| ≤ u * |x|

end Rounding

/-- An order of adding: start from 0, take an entry, add two partial sums. -/
inductive Order (ι : Type*)
  | zero
  | one (i : ι)
  | both (l r : Order ι)

namespace Order
variable {ι : Type*}

/-- The entries added. -/
def leaves : Order ι → List ι
  | zero => []
  | one i => [i]
  | both l r => l.leaves ++ r.leaves

/-- The largest number of additions an entry goes through. -/
def depth : Order ι → ℕ
  | zero => 0
  | one _ => 0
  | both l r => max l.depth r.depth + 1

/-- Every entry is added once. -/
def Complete (o : Order ι) : Prop := o.leaves.Nodup ∧ ∀ i, i ∈ o.leaves

/-- Entries one after the other, starting from `o`. -/
def inTurn (o : Order ι) : List ι → Order ι
  | [] => o
  | i :: l => (o.both (one i)).inTurn l

/-- The entries under another name. -/
def map {κ : Type*} (g : ι → κ) : Order ι → Order κ
  | zero => zero
  | one i => one (g i)
  | both l r => both (l.map g) (r.map g)

variable {K : Type*} [Field K] [LinearOrder K]

/-- `np.sum` (integrate.py 13). -/
def sum (R : Rounding K) (f : ι → K) : Order ι → K
  | zero => 0
  | one i => f i
  | both l r => R.add (l.sum R f) (r.sum R f)

end Order

namespace Rounded
variable {K : Type*} [Field K] [LinearOrder K]

/-- `integrate` of a 1-d field (integrate.py 12-13):
`(2 * np.pi * self.hr * self.ha) * np.sum(self.wi * self.w * f)`. -/
def integ (R : Rounding K) (G : Grid K) (o : Order G.Ix) (f : G.Fld) : K :=
  R.mul (R.mul (R.mul (R.mul 2 G.pi) G.hr) G.ha) (o.sum R fun k => R.mul (R.mul (G.wi k) (G.w k)) (f k))

/-- `mirror` moves entries, without arithmetic (mirror.py 10-13): it is `Grid.mir`.  Here `phi + mirror(phi)`
(calc_orbitals.py 67). -/
def plusMirror (R : Rounding K) {G : Grid K} (f : G.Fld) : G.Fld := fun k => R.add (f k) (G.mir f k)

/-- `phi - mirror(phi)` (calc_orbitals.py 72). -/
def minusMirror (R : Rounding K) {G : Grid K} (f : G.Fld) : G.Fld := fun k => R.sub (f k) (G.mir f k)

/-- `sym=True` (calc_orbitals.py 63-72), one orbital.  The scalar product of line 65 is added in the order `o`;
`norm` stands for `np.linalg.norm` with its own order and rounding. -/
def symmetrise (R : Rounding K) {G : Grid K} (o : Order G.Ix) (norm : G.Fld → K) (f : G.Fld) : G.Fld :=
  if 0 < o.sum R (fun k => R.mul (f k) (G.mir f k)) then
    fun k => R.div (plusMirror R f k) (norm (plusMirror R f))
  else minusMirror R f

variable [IsStrictOrderedRing K] [FloorRing K]

/-- The number of filled shells with its fraction (calc_density.py 14-29): `self.N / 2`, `self.N / 4` or `self.N`. -/
def shells (R : Rounding K) {G : Grid K} (s : Solver G) : K :=
  if s.m = 0 then if s.pol = 1 then R.div s.N 2 else s.N
  else if s.pol = 1 then R.div s.N 4 else R.div s.N 2

/-- One term of the density at a point (calc_density.py 33). -/
def term (R : Rounding K) {G : Grid K} (o : Order G.Ix) (p : G.Fld) : G.Fld :=
  fun k => R.div (R.mul (p k) (p k)) (integ R G o fun k => R.mul (p k) (p k))

/-- `calc_density` (calc_density.py 7-49). -/
def calcDensity (R : Rounding K) {G : Grid K} (o : Order G.Ix) (s : Solver G) : Py G.Fld := do
  let x := shells R s
  let Nocc := ⌊x⌋
  let nu := R.sub x ⌊x⌋
  -- lines 32-33
  let n ← (pyRange Nocc).foldlM (fun (n : G.Fld) (i : ℕ) => do
    let p ← s.orb i
    pure fun k => R.add (n k) (term R o p k)) (fun _ => 0)
  -- lines 36-38: `nu * phi**2 / integrate(phi**2)`
  let n ← if s.fractional = true ∧ nu ≠ 0 then do
      let p ← s.orb Nocc
      pure fun k => R.add (n k) (R.div (R.mul nu (R.mul (p k) (p k))) (integ R G o fun k => R.mul (p k) (p k)))
    else pure n
  -- lines 41-49
  pure fun k => if s.m = 0 then (if s.pol = 1 then R.mul 2 (n k) else n k)
    else (if s.pol = 1 then R.mul 4 (n k) else R.mul 2 (n k))

/-- `(1 - alpha) * n + alpha * nout` (kohnsham/scf.py 87, partition/scf.py 186). -/
def mix (R : Rounding K) {G : Grid K} (alpha : K) (n nout : G.Fld) : G.Fld :=
  fun k => R.add (R.mul (R.sub 1 alpha) (n k)) (R.mul alpha (nout k))

end Rounded
end Verif
