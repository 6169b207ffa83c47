import Verif.Model.Grid
import Mathlib.Analysis.SpecialFunctions.Trigonometric.Basic
import Mathlib.Analysis.SpecialFunctions.Trigonometric.DerivHyp
import Mathlib.Analysis.Real.Sqrt

/-!
# Coordinates, volume element and scale factors

`CADMium/psgrid/initialize.py` 16-50, 75-82, `operators.py` 15-21 and `common/coulomb.py`, over the
real numbers.  `np.linspace(lo, hi, num)[k]` is `lo + k*(hi-lo)/(num-1)`.
-/

namespace Verif
namespace Init
noncomputable section

/-- `np.linspace(lo, hi, num)[k]` -/
def linspace (lo hi : ℝ) (num : ℕ) (k : ℕ) : ℝ := lo + (k : ℝ) * ((hi - lo) / ((num : ℝ) - 1))

/-- initialize.py 23: `ha = xa[1]-xa[0]` of `linspace(0, pi, Na+1)`. -/
def ha (Na : ℕ) : ℝ := linspace 0 Real.pi (Na + 1) 1 - linspace 0 Real.pi (Na + 1) 0

/-- initialize.py 24-25: shifted by half a step, last point dropped. -/
def xa1 (Na : ℕ) (i : Fin Na) : ℝ := linspace 0 Real.pi (Na + 1) i.1 + ha Na / 2

/-- initialize.py 26: `xa = (xa - flipud(xa - pi))/2`. -/
def xa (Na : ℕ) (i : Fin Na) : ℝ := (xa1 Na i - (xa1 Na i.rev - Real.pi)) / 2

/-- initialize.py 29. -/
def hr (Nr : ℕ) (L : ℝ) : ℝ := linspace 0 L (Nr + 1) 1 - linspace 0 L (Nr + 1) 0

/-- initialize.py 28-31. -/
def xr (Nr : ℕ) (L : ℝ) (i : Fin Nr) : ℝ := linspace 0 L (Nr + 1) i.1 + hr Nr L / 2

/-- initialize.py 36: half the stencil length, `int(floor(len(loc)/2))`. -/
def bcN (len : ℕ) : ℕ := len / 2

/-- initialize.py 37: radial coordinates beyond `L`, `linspace(1,bcN,bcN)*hr + xr[-1]`. -/
def bxr (Nr : ℕ) (L : ℝ) (h : 0 < Nr) (n : ℕ) (i : Fin n) : ℝ :=
  linspace 1 n n i.1 * hr Nr L + xr Nr L ⟨Nr - 1, by omega⟩

variable {Na Nr : ℕ}

theorem mod_lt' (k : Fin (Na * Nr)) : k.1 % Na < Na :=
  Nat.mod_lt _ (Nat.pos_of_mul_pos_right (Nat.lt_of_le_of_lt (Nat.zero_le _) k.2))

/-- Angular index of flat position `k` (reshape with `order="F"`). -/
def ia (k : Fin (Na * Nr)) : Fin Na := ⟨k.1 % Na, mod_lt' k⟩

/-- Radial index of flat position `k`. -/
def ir (k : Fin (Na * Nr)) : Fin Nr := ⟨k.1 / Na, Nat.div_lt_of_lt_mul k.2⟩

/-- initialize.py 43-45: `Xr, Xa = meshgrid(xr, xa)`, `reshape(Xa, Na*Nr, order="F")`. -/
def Xa (Na Nr : ℕ) (k : Fin (Na * Nr)) : ℝ := xa Na (ia k)

/-- initialize.py 43-45. -/
def Xr (Na Nr : ℕ) (L : ℝ) (k : Fin (Na * Nr)) : ℝ := xr Nr L (ir k)

/-- `mirror` on a flat field of this size (mirror.py 10-13). -/
def mir (f : Fin (Na * Nr) → ℝ) : Fin (Na * Nr) → ℝ :=
  fun k => f ⟨Arr.flip0Pos Na k.1, Arr.flip0Pos_lt k.2⟩

/-- initialize.py 48, 50. -/
def Z (Na Nr : ℕ) (a L : ℝ) : Fin (Na * Nr) → ℝ :=
  let Z0 : Fin (Na * Nr) → ℝ := fun k => a * Real.cosh (Xr Na Nr L k) * Real.cos (Xa Na Nr k)
  fun k => 1 / 2 * (Z0 k - mir Z0 k)

/-- initialize.py 49, 51. -/
def Y (Na Nr : ℕ) (a L : ℝ) : Fin (Na * Nr) → ℝ :=
  let Y0 : Fin (Na * Nr) → ℝ := fun k => a * Real.sinh (Xr Na Nr L k) * Real.sin (Xa Na Nr k)
  fun k => 1 / 2 * (Y0 k + mir Y0 k)

/-- initialize.py 76-77: volume element. -/
def w (Na Nr : ℕ) (a L : ℝ) : Fin (Na * Nr) → ℝ :=
  let w0 : Fin (Na * Nr) → ℝ := fun k =>
    a ^ 3 * Real.sin (Xa Na Nr k) * Real.sinh (Xr Na Nr L k) *
      (Real.sin (Xa Na Nr k) ^ 2 + Real.sinh (Xr Na Nr L k) ^ 2)
  fun k => 1 / 2 * (w0 k + mir w0 k)

/-- initialize.py 80-82: angular momentum potential. -/
def f (Na Nr : ℕ) (a L : ℝ) : Fin (Na * Nr) → ℝ :=
  let f0 : Fin (Na * Nr) → ℝ := fun k =>
    (2 / (2 * a) ^ 2) * 1 / (Real.cosh (Xr Na Nr L k) ^ 2 - Real.cos (Xa Na Nr k) ^ 2) *
      (1 / (Real.cosh (Xr Na Nr L k) ^ 2 - 1) + 1 / (1 - Real.cos (Xa Na Nr k) ^ 2))
  fun k => 1 / 2 * (f0 k + mir f0 k)

/-- operators.py 15, 19 (and 16, 20: `h2` is computed by the same expression). -/
def h1 (Na Nr : ℕ) (a L : ℝ) : Fin (Na * Nr) → ℝ :=
  let h0 : Fin (Na * Nr) → ℝ := fun k =>
    a * Real.sqrt (Real.sinh (Xr Na Nr L k) ^ 2 + Real.sin (Xa Na Nr k) ^ 2)
  fun k => 1 / 2 * (h0 k + mir h0 k)

/-- operators.py 17, 21. -/
def h3 (Na Nr : ℕ) (a L : ℝ) : Fin (Na * Nr) → ℝ :=
  let h0 : Fin (Na * Nr) → ℝ := fun k =>
    a * Real.sinh (Xr Na Nr L k) * Real.sin (Xa Na Nr k)
  fun k => 1 / 2 * (h0 k + mir h0 k)

/-- `coulomb(grid, Za, Zb)` (common/coulomb.py 23-25). -/
def coulomb (Na Nr : ℕ) (a L Za Zb : ℝ) : Fin (Na * Nr) → ℝ := fun k =>
  -1 / a * ((Za + Zb) * Real.cosh (Xr Na Nr L k) - (Za - Zb) * Real.cos (Xa Na Nr k)) /
    (Real.cosh (Xr Na Nr L k) ^ 2 - Real.cos (Xa Na Nr k) ^ 2)

end
end Init
end Verif
