import Verif.Model.Construct

/-!
# The scripts in `CADMium/examples/Kohn_Sham`

Each builds a grid, then calls `Kohnsham(grid, Za, Zb, pol, Nmo, N, optKS)` and `KS.scf(optKS)` with one dictionary.
-/

namespace Verif
variable {K : Type} [_root_.Field K] [LinearOrder K] [IsStrictOrderedRing K] [FloorRing K]
open Opt

/-- What a script defines: charges, `pol`, the tables `Nmo` and `N`, and `optKS`. -/
structure Script where
  name : String
  Za : ℕ
  Zb : ℕ
  pol : ℕ
  r : ℕ
  c : ℕ
  Nmo : Fin r → Fin c → ℕ
  N : Fin r → Fin c → ℕ
  opt : Dict

/-- The scripts, in alphabetical order (B_KS.py 12-26, C2_KS.py 11-25, C_KS.py 10-23, F2_KS.py 11-26, F_KS.py 10-23,
H2_KS.py 10-22, H2p_KS.py 10-23, H_KS.py 10-23, LiH_KS.py 10-25). -/
def scripts : List Script := [
  ⟨"B", 5, 0, 2, 2, 2, ![![3, 3], ![1, 0]], ![![2, 2], ![1, 0]],
    [("interaction_type", .str "dft"), ("SYM", .bool false), ("FRACTIONAL", .bool true), ("MaxIter", .int 100)]⟩,
  ⟨"C2", 6, 6, 1, 2, 1, ![![4], ![1]], ![![8], ![4]],
    [("interaction_type", .str "dft"), ("SYM", .bool true), ("MaxIter", .int 100), ("ITERLINSOLVE", .bool false)]⟩,
  ⟨"C", 6, 0, 2, 2, 2, ![![2, 2], ![1, 0]], ![![2, 2], ![2, 0]],
    [("interaction_type", .str "dft"), ("SYM", .bool false), ("FRACTIONAL", .bool true)]⟩,
  ⟨"F2", 9, 9, 1, 2, 1, ![![5], ![2]], ![![10], ![8]],
    [("interaction_type", .str "dft"), ("SYM", .bool true), ("xc_family", .str "lda"), ("x_func_id", .int 1),
      ("c_func_id", .int 12)]⟩,
  ⟨"F", 9, 0, 2, 2, 2, ![![3, 3], ![1, 1]], ![![3, 3], ![2, 1]],
    [("interaction_type", .str "dft"), ("SYM", .bool false), ("FRACTIONAL", .bool true)]⟩,
  ⟨"H2", 1, 1, 1, 1, 1, ![![1]], ![![2]], [("interaction_type", .str "dft"), ("SYM", .bool true)]⟩,
  ⟨"H2p", 1, 1, 1, 1, 1, ![![1]], ![![1]],
    [("interaction_type", .str "ni"), ("SYM", .bool true), ("FRACTIONAL", .bool true)]⟩,
  ⟨"H", 1, 0, 1, 1, 1, ![![1]], ![![1]],
    [("interaction_type", .str "ni"), ("SYM", .bool false), ("FRACTIONAL", .bool true)]⟩,
  ⟨"LiH", 1, 3, 1, 1, 1, ![![2]], ![![4]],
    [("interaction_type", .str "dft"), ("SYM", .bool false), ("xc_family", .str "lda"), ("x_func_id", .int 1),
      ("c_func_id", .int 12)]⟩]

/-- The two calls of a script, the second up to its option handling (kohnsham/scf.py 26-30); `opt` is the dictionary
passed to `Kohnsham`, `opt'` the one passed to `scf` (in the scripts both are `s.opt`). -/
def Script.calls (s : Script) (lower : String → String) (coerce : Kind → Val → Option Val) (G : Grid K)
    (coul : K → K → G.Fld) (a : K) (opt opt' : Dict) : Py (KS G s.r s.c s.pol × Dict) := do
  let ks ← KS.init lower coerce G coul a s.pol (s.Za : K) (s.Zb : K) (fun w => s.Nmo w.1 w.2) (fun w => (s.N w.1 w.2 : K)) opt
  let o ← buildScf lower coerce ksScfFields opt'
  pure (ks, o)

end Verif
