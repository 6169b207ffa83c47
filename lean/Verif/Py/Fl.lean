import Verif.Py.Basic

/-!
# IEEE-like numbers

Finite values are exact elements of `K` (no rounding, no signed zero); infinities and NaN follow the
IEEE rules.  Used where the code branches on NaN or infinity.
-/

namespace Verif

/-- A floating-point value: finite, infinite, or not a number. -/
inductive Fl (K : Type*)
  | fin (x : K)
  | posInf
  | negInf
  | nan
  deriving DecidableEq

namespace Fl
variable {K : Type*} [Field K] [LinearOrder K]

/-- `a + b` -/
def add : Fl K → Fl K → Fl K
  | .nan, _ => .nan
  | _, .nan => .nan
  | .posInf, .negInf => .nan
  | .negInf, .posInf => .nan
  | .posInf, _ => .posInf
  | _, .posInf => .posInf
  | .negInf, _ => .negInf
  | _, .negInf => .negInf
  | .fin x, .fin y => .fin (x + y)

/-- `-a` -/
def neg : Fl K → Fl K
  | .nan => .nan
  | .posInf => .negInf
  | .negInf => .posInf
  | .fin x => .fin (-x)

/-- `a - b` -/
def sub (a b : Fl K) : Fl K := add a (neg b)

/-- `a * b` -/
def mul : Fl K → Fl K → Fl K
  | .nan, _ => .nan
  | _, .nan => .nan
  | .fin x, .fin y => .fin (x * y)
  | .fin x, .posInf => if x = 0 then .nan else if 0 < x then .posInf else .negInf
  | .posInf, .fin x => if x = 0 then .nan else if 0 < x then .posInf else .negInf
  | .fin x, .negInf => if x = 0 then .nan else if 0 < x then .negInf else .posInf
  | .negInf, .fin x => if x = 0 then .nan else if 0 < x then .negInf else .posInf
  | .posInf, .posInf => .posInf
  | .negInf, .negInf => .posInf
  | .posInf, .negInf => .negInf
  | .negInf, .posInf => .negInf

/-- numpy `a / b` (zero divisors taken as `+0`). -/
def div : Fl K → Fl K → Fl K
  | .nan, _ => .nan
  | _, .nan => .nan
  | .fin x, .fin y =>
    if y = 0 then (if x = 0 then .nan else if 0 < x then .posInf else .negInf) else .fin (x / y)
  | .fin _, _ => .fin 0
  | .posInf, .fin y => if 0 ≤ y then .posInf else .negInf
  | .negInf, .fin y => if 0 ≤ y then .negInf else .posInf
  | _, _ => .nan

/-- `abs(a)` -/
def abs : Fl K → Fl K
  | .nan => .nan
  | .fin x => .fin |x|
  | _ => .posInf

/-- `a > b`: false as soon as one side is NaN. -/
def gt : Fl K → Fl K → Bool
  | .nan, _ => false
  | _, .nan => false
  | .fin x, .fin y => decide (y < x)
  | .posInf, .posInf => false
  | .posInf, _ => true
  | .negInf, _ => false
  | .fin _, .posInf => false
  | .fin _, .negInf => true

/-- `np.isnan(a)` -/
def isnan : Fl K → Bool
  | .nan => true
  | _ => false

/-- `np.isinf(a)` -/
def isinf : Fl K → Bool
  | .posInf => true
  | .negInf => true
  | _ => false

/-- Python's built-in `max(a, b)`: `a` unless `b > a`. -/
def pymax (a b : Fl K) : Fl K := if gt b a then b else a

@[simp] theorem add_fin (x y : K) : add (.fin x) (.fin y) = .fin (x + y) := rfl
@[simp] theorem neg_fin (x : K) : neg (.fin x) = .fin (-x) := rfl
@[simp] theorem sub_fin (x y : K) : sub (.fin x) (.fin y) = .fin (x - y) := by
  simp [sub, sub_eq_add_neg]
@[simp] theorem mul_fin (x y : K) : mul (.fin x) (.fin y) = .fin (x * y) := rfl
@[simp] theorem abs_fin (x : K) : abs (.fin x) = .fin |x| := rfl
@[simp] theorem gt_fin (x y : K) : gt (.fin x) (.fin y) = decide (y < x) := rfl
@[simp] theorem gt_nan_left (y : Fl K) : gt .nan y = false := by cases y <;> rfl
@[simp] theorem gt_nan_right (x : Fl K) : gt x .nan = false := by cases x <;> rfl

end Fl
end Verif
