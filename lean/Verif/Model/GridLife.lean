import Mathlib.Data.List.Basic
/-!
# The life of a `Psgrid` object: which attributes its methods read and write

`psgrid/psgrid.py`, `initialize.py`, `finite_difference_1d.py`, `finite_difference_2d.py`, `operators.py`,
`factorize_laplacian.py`, statement by statement, with the arithmetic left open.  A statement that assigns to
`self` is given by its place in the source, the attributes of `self` it reads and the attributes it assigns;
what it computes is supplied by an interpretation, which sees the values read and nothing else.  Statements that
only assign local variables are joined to the next statement assigning to `self`, whose reads then include theirs
(no attribute read by a local is reassigned before the local is used).  `self.mirror(x)` reads `Nelem`, `Na`, `Nr`
(square.py 7-9).  `self.oDa1[…] -= …` reads and assigns `oDa1`.

An attribute holding `None` is `none`.  Reading it raises: every read in these files is an operand of arithmetic,
an argument of `range`, `linspace`, `eye`, `matmul`, `csc_matrix` or `splu`, or an attribute access or subscript,
and each of these raises on `None`.  Arguments with no columns are left out (`integrate` of an array with no
columns reads nothing).
-/

namespace Verif
namespace GridLife

/-- The attributes set in `Psgrid.__init__` (psgrid.py 164-236). -/
inductive Attr
  | NP | NMa | NMr | Na | Nr | Nelem
  | xa | xr | Xa | Xr | ha | hr
  | Y | Z | a | R | L | w | wi | f
  | d1 | i1 | d2 | i2
  | eDa1 | eDa2 | eDr1 | eDr2 | oDa1 | oDa2 | oDr1 | oDr2
  | elap | olap | grada | gradr | diva | divr
  | bcN | bc1 | bc2 | blap | bXa | bXr
  | h1 | h2 | h3 | L_lap | U_lap | DISP
  deriving DecidableEq, Repr

open Attr

/-- The source files whose statements assign attributes. -/
inductive File
  | initialize | fd1 | fd2 | operators | factorize
  deriving DecidableEq, Repr

/-- A statement: its place, the attributes it reads (in order) and the attributes it assigns. -/
structure Stmt where
  file : File
  line : ℕ
  reads : List Attr
  writes : List Attr
  deriving Repr

variable {V : Type}

/-- What the attributes of the object hold; `none` is Python's `None`. -/
abbrev State (V : Type) := Attr → Option V

/-- What a statement computes from the values it reads; `none` when it raises. -/
abbrev Interp (V : Type) := File → ℕ → List V → Option (Attr → V)

/-- Values of the attributes read; `none` as soon as one of them is `None`. -/
def fetch (s : State V) : List Attr → Option (List V)
  | [] => some []
  | q :: qs => match s q with
    | none => none
    | some v => match fetch s qs with
      | none => none
      | some vs => some (v :: vs)

/-- Assignment of the listed attributes. -/
def assign (s : State V) (ws : List Attr) (g : Attr → V) : State V :=
  fun q => if q ∈ ws then some (g q) else s q

/-- Running statements in order.  The flag is `false` when one raised; the attributes assigned before it stay. -/
def exec (I : Interp V) : List Stmt → State V → State V × Bool
  | [], s => (s, true)
  | c :: cs, s => match fetch s c.reads with
    | none => (s, false)
    | some vs => match I c.file c.line vs with
      | none => (s, false)
      | some g => exec I cs (assign s c.writes g)

/-- `finite_difference_1d` (finite_difference_1d.py 11-59). -/
def fd1Body : List Stmt :=
  [⟨.fd1, 16, [i1], [d1]⟩,
   ⟨.fd1, 36, [i1, bcN, Na, Nr], [oDa1]⟩,
   ⟨.fd1, 37, [i1, bcN, Na, Nr], [oDr1]⟩,
   ⟨.fd1, 39, [oDa1, i1, bcN], [oDa1]⟩,
   ⟨.fd1, 40, [oDa1, i1, bcN], [oDa1]⟩,
   ⟨.fd1, 41, [oDa1, ha], [oDa1]⟩,
   ⟨.fd1, 43, [oDr1, i1, bcN], [oDr1]⟩,
   ⟨.fd1, 44, [oDr1, hr], [oDr1]⟩,
   ⟨.fd1, 47, [i1, bcN, Na, Nr], [eDa1]⟩,
   ⟨.fd1, 48, [i1, bcN, Na, Nr], [eDr1]⟩,
   ⟨.fd1, 51, [eDa1, i1, bcN], [eDa1]⟩,
   ⟨.fd1, 52, [eDa1, i1, bcN], [eDa1]⟩,
   ⟨.fd1, 53, [eDa1, ha], [eDa1]⟩,
   ⟨.fd1, 56, [eDr1, i1, bcN], [eDr1]⟩,
   ⟨.fd1, 57, [eDr1, hr], [eDr1]⟩,
   ⟨.fd1, 59, [i1, bcN, hr], [bc1]⟩]

/-- `finite_difference_2d` (finite_difference_2d.py 11-58). -/
def fd2Body : List Stmt :=
  [⟨.fd2, 16, [i2], [d2]⟩,
   ⟨.fd2, 32, [i2, bcN, Na, Nr], [oDa2]⟩,
   ⟨.fd2, 33, [i2, bcN, Na, Nr], [oDr2]⟩,
   ⟨.fd2, 35, [oDa2, i2, bcN], [oDa2]⟩,
   ⟨.fd2, 36, [oDa2, i2, bcN], [oDa2]⟩,
   ⟨.fd2, 37, [oDa2, ha], [oDa2]⟩,
   ⟨.fd2, 39, [oDr2, i2, bcN], [oDr2]⟩,
   ⟨.fd2, 40, [oDr2, hr], [oDr2]⟩,
   ⟨.fd2, 43, [i2, bcN, Na, Nr], [eDa2]⟩,
   ⟨.fd2, 44, [i2, bcN, Na, Nr], [eDr2]⟩,
   ⟨.fd2, 46, [eDa2, i2, bcN], [eDa2]⟩,
   ⟨.fd2, 47, [eDa2, i2, bcN], [eDa2]⟩,
   ⟨.fd2, 48, [eDa2, ha], [eDa2]⟩,
   ⟨.fd2, 50, [eDr2, i2, bcN], [eDr2]⟩,
   ⟨.fd2, 51, [eDr2, hr], [eDr2]⟩,
   ⟨.fd2, 52, [i2, bcN, hr], [bc2]⟩,
   ⟨.fd2, 55, [eDa2], [eDa2]⟩,
   ⟨.fd2, 56, [oDa2], [oDa2]⟩,
   ⟨.fd2, 57, [eDr2], [eDr2]⟩,
   ⟨.fd2, 58, [oDr2], [oDr2]⟩]

/-- `operators` (operators.py 12-70). -/
def opsBody : List Stmt :=
  [⟨.operators, 15, [a, Xr, Xa], [h1]⟩,
   ⟨.operators, 16, [a, Xr, Xa], [h2]⟩,
   ⟨.operators, 17, [a, Xr, Xa], [h3]⟩,
   ⟨.operators, 19, [h1, Nelem, Na, Nr], [h1]⟩,
   ⟨.operators, 20, [h2, Nelem, Na, Nr], [h2]⟩,
   ⟨.operators, 21, [h3, Nelem, Na, Nr], [h3]⟩,
   ⟨.operators, 27, [Nr, eDa1, eDr1, Na, h2, Nelem], [gradr]⟩,
   ⟨.operators, 28, [Nr, eDa1, h1, Nelem], [grada]⟩,
   ⟨.operators, 35, [Nr, oDa1, oDr1, Na, h1, h2, h3, Nelem], [diva]⟩,
   ⟨.operators, 36, [oDr1, Na, h1, h2, h3, Nelem], [divr]⟩,
   ⟨.operators, 57, [Xa, Xr, Na, Nr, a, eDa2, eDa1, eDr2, eDr1, oDa2, oDa1, oDr2, oDr1], [elap]⟩,
   ⟨.operators, 62, [Xa, Xr, Na, Nr, a, oDa2, oDa1, oDr2, oDr1], [olap]⟩,
   ⟨.operators, 70, [Xa, Xr, Na, Nr, a, bcN, bc2, bc1], [blap]⟩]

/-- `factorize_laplacian` (factorize_laplacian.py 10-20). -/
def facBody : List Stmt :=
  [⟨.factorize, 16, [elap], [L_lap]⟩,
   ⟨.factorize, 17, [elap], [U_lap]⟩]

/-- `initialize` up to the weights (initialize.py 16-63). -/
def initHead : List Stmt :=
  [⟨.initialize, 17, [NP, NMa], [Na]⟩,
   ⟨.initialize, 18, [NP, NMr], [Nr]⟩,
   ⟨.initialize, 19, [Na, Nr], [Nelem]⟩,
   ⟨.initialize, 22, [Na], [xa]⟩,
   ⟨.initialize, 23, [xa], [ha]⟩,
   ⟨.initialize, 24, [xa, ha], [xa]⟩,
   ⟨.initialize, 25, [xa], [xa]⟩,
   ⟨.initialize, 26, [xa], [xa]⟩,
   ⟨.initialize, 28, [L, Nr], [xr]⟩,
   ⟨.initialize, 29, [xr], [hr]⟩,
   ⟨.initialize, 30, [xr, hr], [xr]⟩,
   ⟨.initialize, 31, [xr], [xr]⟩,
   ⟨.initialize, 36, [i1, i2], [bcN]⟩,
   ⟨.initialize, 37, [bcN, hr, xr], [bXr]⟩,
   ⟨.initialize, 38, [bXr, xa], [bXr, bXa]⟩,
   ⟨.initialize, 39, [bXa, Na, bcN], [bXa]⟩,
   ⟨.initialize, 40, [bXr, Na, bcN], [bXr]⟩,
   ⟨.initialize, 43, [xr, xa], [Xr, Xa]⟩,
   ⟨.initialize, 44, [Xa, Na, Nr], [Xa]⟩,
   ⟨.initialize, 45, [Xr, Na, Nr], [Xr]⟩,
   ⟨.initialize, 48, [a, Xr, Xa], [Z]⟩,
   ⟨.initialize, 49, [a, Xr, Xa], [Y]⟩,
   ⟨.initialize, 50, [Z, Nelem, Na, Nr], [Z]⟩,
   ⟨.initialize, 51, [Y, Nelem, Na, Nr], [Y]⟩,
   ⟨.initialize, 63, [NP, NMa, NMr, Nelem], [wi]⟩]

/-- `initialize` between `operators()` and `factorize_laplacian` (initialize.py 75-82). -/
def initTail : List Stmt :=
  [⟨.initialize, 76, [a, Xa, Xr], [w]⟩,
   ⟨.initialize, 77, [w, Nelem, Na, Nr], [w]⟩,
   ⟨.initialize, 80, [a, Xr, Xa], [f]⟩,
   ⟨.initialize, 82, [f, Nelem, Na, Nr], [f]⟩]

/-- `initialize` (initialize.py 14-86) as called by `Psgrid.initialize()` (psgrid.py 241-242), which passes
neither `DISP` nor `factor`: nothing is printed and the Laplacian is factorised. -/
def initBody : List Stmt :=
  initHead ++ (fd1Body ++ (fd2Body ++ (opsBody ++ (initTail ++ facBody))))

/-- The methods of `Psgrid` (psgrid.py 241-306). -/
inductive Method
  | initialize | mirror | square | sigma | spinflip | integrate | finite_difference_1d
  | finite_difference_2d | operators | factorize_laplacian | reduced_grad | plotter | axis_plot
  deriving DecidableEq, Repr

/-- The statements by which a method assigns attributes (psgrid.py 241-306). -/
def body : Method → List Stmt
  | .initialize => initBody
  | .finite_difference_1d => fd1Body
  | .finite_difference_2d => fd2Body
  | .operators => opsBody
  | .factorize_laplacian => facBody
  | _ => []

/-- The attributes from which a method computes what it returns: `square` (square.py 7-9), `mirror` (mirror.py
10-13), `sigma` (sigma.py 11-19), `spinflip` (spinflip.py 14-18), `integrate` (integrate.py 12-22), `reduced_grad`
(through `sigma`), `plotter` (plotter.py 13-23), `axis_plot` (psgrid.py 280-299).  The methods that assign
attributes return `None` (psgrid.py 241-269). -/
def uses : Method → List Attr
  | .mirror | .square => [Nelem, Na, Nr]
  | .sigma => [grada, gradr]
  | .integrate => [hr, ha, wi, w]
  | .reduced_grad => [grada, gradr]
  | .plotter => [Nelem, Na, Nr, a, Xr, Xa]
  | .axis_plot => [Z, Nelem]
  | _ => []

/-- What a method returns, given its argument and the values it reads; `none` when it raises. -/
abbrev Answer (V : Type) := Method → V → List V → Option V

/-- What the caller sees of a call: an exception, Python's `None`, or a value. -/
inductive Out (V : Type)
  | raised
  | nothing
  | value (v : V)
  deriving DecidableEq, Repr

/-- The methods that return nothing because they only assign attributes (psgrid.py 241-242, 259-269). -/
def assigns : Method → Bool
  | .initialize | .finite_difference_1d | .finite_difference_2d | .operators | .factorize_laplacian => true
  | _ => false

/-- A call (psgrid.py 241-306): the attributes afterwards, and what the caller sees.  `reduced_grad` raises
whatever the grid holds (reduced_grad.py 14-19; `Plot.reducedGrad`). -/
def call (I : Interp V) (A : Answer V) (m : Method) (x : V) (s : State V) : State V × Out V :=
  match exec I (body m) s with
  | (s', false) => (s', .raised)
  | (s', true) =>
    if assigns m then (s', .nothing)
    else if m = .reduced_grad then (s', .raised)
    else match fetch s' (uses m) with
      | none => (s', .raised)
      | some vs => match A m x vs with
        | none => (s', .raised)
        | some v => (s', .value v)

/-- Calls made one after the other, exceptions caught by the caller. -/
def calls (I : Interp V) (A : Answer V) : List (Method × V) → State V → State V × List (Out V)
  | [], s => (s, [])
  | (m, x) :: cs, s =>
    let r := call I A m x s
    let rest := calls I A cs r.1
    (rest.1, r.2 :: rest.2)

/-- `Psgrid(NP, NM, a, L, loc)` (psgrid.py 164-236): the parameters are stored, `DISP` is `True`, the rest is
`None`. -/
def fresh (vNP vNMa vNMr va vL vloc vDISP : V) : State V
  | .NP => some vNP
  | .NMa => some vNMa
  | .NMr => some vNMr
  | .a => some va
  | .L => some vL
  | .i1 => some vloc
  | .i2 => some vloc
  | .DISP => some vDISP
  | _ => none

/-- `grid.q = v` in the caller (attributes are public; psgrid.py 166-236); `v = none` assigns `None`. -/
def put (s : State V) (q : Attr) (v : Option V) : State V := fun r => if r = q then v else s r

end GridLife
end Verif
