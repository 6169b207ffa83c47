import Verif.Model.Coordinates
import Verif.Model.NC

/-!
# Flat integration weights (`CADMium/psgrid/initialize.py` 56-63) and the initialised grid
-/

namespace Verif
namespace Init
variable {K : Type*}

/-- initialize.py 63: `np.reshape(wa @ wr.T, Nelem)` without `order="F"`, i.e. row-major:
position `k` holds `wa[k // Nr] * wr[k % Nr]`. -/
def wiFlat [Mul K] {Na Nr : ℕ} (wa : Fin Na → K) (wr : Fin Nr → K) (k : Fin (Na * Nr)) : K :=
  wa ⟨k.1 / Nr, Nat.div_lt_of_lt_mul (lt_of_lt_of_eq k.2 (Nat.mul_comm _ _))⟩ *
  wr ⟨k.1 % Nr, Nat.mod_lt _ (Nat.pos_of_mul_pos_left
    (Nat.lt_of_le_of_lt (Nat.zero_le _) k.2))⟩

/-- The attributes set by `initialize` (initialize.py 14-82), given the two weight vectors returned
by `NC`; the numbers of points (lines 17-18) are the lengths of these vectors. -/
noncomputable abbrev mkGrid (NP NMa NMr : ℕ) (a L : ℝ)
    (wa : Fin (NC.npts NP NMa) → ℝ) (wr : Fin (NC.npts NP NMr) → ℝ) : Grid ℝ where
  Na := NC.npts NP NMa
  Nr := NC.npts NP NMr
  pi := Real.pi
  ha := ha (NC.npts NP NMa)
  hr := hr (NC.npts NP NMr) L
  wi := wiFlat wa wr
  w := w (NC.npts NP NMa) (NC.npts NP NMr) a L

end Init
end Verif
