import Verif.Py.Fl
import Mathlib.Analysis.SpecialFunctions.Trigonometric.Inverse
import Mathlib.Analysis.SpecialFunctions.Exp

/-!
# Enhancement factors of the parametrised kinetic functionals

`functionals/TW_paramke.py` and `functionals/PW91k_paramke.py`. Both use the operator `@` between parameters and arrays, so the
model keeps the number of axes of every operand.
-/

namespace Verif.Enhance

/-- A numpy operand with at most two axes: `nd` axes, shape `()`, `(c,)` or `(r, c)`; absent axes have size one. -/
structure Arr (α : Type) where
  nd : ℕ
  r : ℕ
  c : ℕ
  el : ℕ → ℕ → α

variable {α : Type}

/-- A number. -/
def num (x : α) : Arr α := ⟨0, 1, 1, fun _ _ => x⟩
/-- An array of shape `(n,)`. -/
def vec (n : ℕ) (f : ℕ → α) : Arr α := ⟨1, 1, n, fun _ => f⟩
/-- An array of shape `(m, n)`. -/
def mat (m n : ℕ) (f : ℕ → ℕ → α) : Arr α := ⟨2, m, n, f⟩

/-- Operands that exist. -/
def Arr.Ok (a : Arr α) : Prop := a.nd ≤ 2 ∧ (a.nd ≤ 1 → a.r = 1) ∧ (a.nd = 0 → a.c = 1)

/-- Size of a broadcast axis. -/
def axis (m n : ℕ) : Py ℕ := if m = n then .ok m else if m = 1 then .ok n else if n = 1 then .ok m else .error .valueError

/-- Elementwise operation with broadcasting. -/
def bop (op : α → α → α) (a b : Arr α) : Py (Arr α) := do
  let r ← axis a.r b.r
  let c ← axis a.c b.c
  pure ⟨max a.nd b.nd, r, c, fun i j =>
    op (a.el (if a.r = 1 then 0 else i) (if a.c = 1 then 0 else j)) (b.el (if b.r = 1 then 0 else i) (if b.c = 1 then 0 else j))⟩

/-- Elementwise function. -/
def Arr.map (f : α → α) (a : Arr α) : Arr α := { a with el := fun i j => f (a.el i j) }

/-- Row times column. -/
def dot (add mul : α → α → α) (zero : α) (f g : ℕ → α) (n : ℕ) : α :=
  ((List.range n).map fun l => mul (f l) (g l)).foldl add zero

/-- `a @ b`: a number is not accepted, the inner sizes must agree, a left vector is a row and a right vector a column. -/
def matmul (add mul : α → α → α) (zero : α) (a b : Arr α) : Py (Arr α) :=
  if a.nd = 0 ∨ b.nd = 0 then .error .valueError
  else if b.nd = 1 then
    if a.c ≠ b.c then .error .valueError
    else .ok ⟨a.nd - 1, 1, if a.nd = 1 then 1 else a.r,
      fun _ j => dot add mul zero (a.el (if a.nd = 1 then 0 else j)) (b.el 0) a.c⟩
  else
    if a.c ≠ b.r then .error .valueError
    else .ok ⟨a.nd, a.r, b.c, fun i j => dot add mul zero (a.el i) (fun l => b.el l j) a.c⟩

/-- `k[i]` -/
def item (k : List (Arr α)) (i : ℕ) : Py (Arr α) :=
  match k[i]? with
  | some x => .ok x
  | none => .error .indexError

noncomputable section

/-- `@` for floating-point arrays. -/
def at_ (a b : Arr (Fl ℝ)) : Py (Arr (Fl ℝ)) := matmul Fl.add Fl.mul (.fin 0) a b

/-- `x ** n` for a small natural `n`. -/
def fpow (x : Fl ℝ) : ℕ → Fl ℝ
  | 0 => .fin 1
  | n + 1 => Fl.mul (fpow x n) x

/-- `np.asin`: NaN outside `[-1, 1]`. -/
def fasin : Fl ℝ → Fl ℝ
  | .fin x => if |x| ≤ 1 then .fin (Real.arcsin x) else .nan
  | _ => .nan

/-- `np.exp` -/
def fexp : Fl ℝ → Fl ℝ
  | .fin x => .fin (Real.exp x)
  | .posInf => .posInf
  | .negInf => .fin 0
  | .nan => .nan

/-- `TW_paramke(s, k)` (TW_paramke.py 5-9); `/` and `@` bind equally and group from the left. -/
def tw (s : Arr (Fl ℝ)) (k : List (Arr (Fl ℝ))) : Py (Arr (Fl ℝ)) := do
  let k0 ← item k 0
  let c ← bop Fl.add (num (.fin 1)) k0
  let k1 ← item k 1
  let q ← bop Fl.div k1 k0
  let t ← at_ q (s.map fun x => fpow x 2)
  let d ← bop Fl.add (num (.fin 1)) t
  let e ← bop Fl.div k0 d
  bop Fl.sub c e

/-- `PW91k_paramke(s, k)` (PW91k_paramke.py 7-15). -/
def pw (s : Arr (Fl ℝ)) (k : List (Arr (Fl ℝ))) : Py (Arr (Fl ℝ)) := do
  let k0 ← item k 0
  let a0 ← at_ k0 s
  let k4 ← item k 4
  let a1 ← bop Fl.mul k4 s
  let A ← bop Fl.mul a0 (a1.map fasin)
  let k1 ← item k 1
  let k2 ← item k 2
  let k3 ← item k 3
  let b0 ← at_ (k3.map Fl.neg) (s.map fun x => fpow x 2)
  let b1 ← at_ k2 (b0.map fexp)
  let b2 ← bop Fl.sub k1 b1
  let B ← bop Fl.mul b2 (s.map fun x => fpow x 2)
  let k5 ← item k 5
  let C ← at_ k5 (s.map fun x => fpow x 4)
  let oneA ← bop Fl.add (num (.fin 1)) A
  let u ← bop Fl.add oneA B
  let v ← bop Fl.add oneA C
  bop Fl.div u v

end
end Verif.Enhance
