import Verif.Model.Operators
import Verif.Model.Grid

/-!
# `CADMium/libxc/libxc.py`

`pylibxc`'s `LibXCFunctional(func_id, pol).compute` is a parameter: any function from the ingredients to the
arrays `zk`, `vrho`, `vsigma`.  `p` is the number of spin columns, `q` the number of `sigma` columns (1 or 3).
-/

namespace Verif
namespace Libxc
variable {K : Type*} [Field K]

/-- The dictionary `compute` returns (libxc.py 35, 43, 48-52); `vsigma` is read for `gga` only. -/
structure Vals (G : Grid K) (p q : ℕ) where
  zk : G.Fld
  vrho : G.Cols p
  vsigma : G.Cols q

/-- `Functional.compute` (libxc.py 20-35): ingredients `rho` and, for `gga`, `sigma`. -/
abbrev Func (G : Grid K) (p q : ℕ) := G.Cols p → Option (G.Cols q) → Vals G p q

/-- The operators of the grid used here (operators.py 27-36). -/
structure Op (G : Grid K) where
  grada : Matrix G.Ix G.Ix K
  gradr : Matrix G.Ix G.Ix K
  diva : Matrix G.Ix G.Ix K
  divr : Matrix G.Ix G.Ix K

variable {G : Grid K}

/-- `self.grid.diva @ (c * (self.grid.grada @ n)) + self.grid.divr @ (c * (self.grid.gradr @ n))`
(libxc.py 55-66). -/
def Op.div (O : Op G) (c n : G.Fld) : G.Fld := fun k =>
  O.diva.mulVec (fun l => c l * O.grada.mulVec n l) k + O.divr.mulVec (fun l => c l * O.gradr.mulVec n l) k

/-- `get_xc_dictionary(n, 1)` (libxc.py 16-36). -/
def dict1 (O : Op G) (family : String) (F : Func G 1 1) (n : G.Cols 1) : Py (Vals G 1 1) :=
  if family = "lda" then .ok (F n none)
  else if family = "gga" then do
    match ← Ops.sigma O.grada O.gradr 1 n with
    | .one s => pure (F n (some fun _ => s))
    | .three _ => .error .valueError
  else .error .valueError

/-- `get_xc_dictionary(n, 2)` (libxc.py 16-36). -/
def dict2 (O : Op G) (family : String) (F : Func G 2 3) (n : G.Cols 2) : Py (Vals G 2 3) :=
  if family = "lda" then .ok (F n none)
  else if family = "gga" then do
    match ← Ops.sigma O.grada O.gradr 2 n with
    | .one _ => .error .valueError
    | .three s => pure (F n (some s))
  else .error .valueError

/-- What `get_xc` returns with `return_epsilon=True` (libxc.py 72). -/
structure XC (G : Grid K) (p : ℕ) where
  exc : K
  epsilon : G.Fld
  vxc : G.Cols p

/-- `get_xc(n)` for one column (libxc.py 38-72). -/
def getXc1 (O : Op G) (family : String) (F : Func G 1 1) (n : G.Cols 1) : Py (XC G 1) := do
  let d ← dict1 O family F n
  let exc := G.integ fun k => ∑ s, d.zk k * n s k
  let vxc : G.Cols 1 := if family = "gga" then fun s k => d.vrho s k - 2 * O.div (d.vsigma 0) (n 0) k else d.vrho
  pure ⟨exc, d.zk, vxc⟩

/-- `get_xc(n)` for two columns (libxc.py 38-72). -/
def getXc2 (O : Op G) (family : String) (F : Func G 2 3) (n : G.Cols 2) : Py (XC G 2) := do
  let d ← dict2 O family F n
  let exc := G.integ fun k => ∑ s, d.zk k * n s k
  let vxc : G.Cols 2 := if family = "gga" then ![
      fun k => d.vrho 0 k - 2 * O.div (d.vsigma 0) (n 0) k - O.div (d.vsigma 1) (n 1) k,
      fun k => d.vrho 1 k - 2 * O.div (d.vsigma 2) (n 1) k - O.div (d.vsigma 1) (n 0) k]
    else d.vrho
  pure ⟨exc, d.zk, vxc⟩

end Libxc
end Verif
