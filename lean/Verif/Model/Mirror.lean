import Verif.Model.NDArray

/-!
# `CADMium/psgrid/square.py`, `mirror.py`, `spinflip.py`
-/

namespace Verif
namespace Psgrid
variable {K : Type*}

/-- `square` (square.py 7-10): reshape to `(Na, Nr, Nspin)` with `Nspin = int(size / Nelem)`.
Python's `/` by a zero `Nelem` raises `ZeroDivisionError`. -/
def square (Na Nr : ℕ) (fin : Arr K) : Py (Arr K) :=
  if Na * Nr = 0 then .error .zeroDivisionError
  else fin.reshapeF [Na, Nr, fin.size / (Na * Nr)]

/-- `mirror` (mirror.py 10-13): `np.reshape(square(fin)[::-1,:,:], fin.shape, order="F")`. -/
def mirror (Na Nr : ℕ) (fin : Arr K) : Py (Arr K) := do
  let fout ← square Na Nr fin
  let fout ← fout.flip0
  fout.reshapeF fin.shape

/-- `spinflip` (spinflip.py 9-18): 1-d input is returned unchanged (a warning is printed),
otherwise axis 1 is reversed.  A 0-d input makes `np.flip` raise. -/
def spinflip (fin : Arr K) : Py (Arr K) :=
  if fin.shape.length = 1 then .ok fin else fin.flip1

end Psgrid
end Verif
