import Verif.Py.Basic
import Mathlib.Data.List.Basic
import Mathlib.Data.Rat.Defs

/-!
# Option dictionaries and the pydantic option classes

A Python dict is the list of its items in insertion order (keys distinct).  What is left open:
`str.lower` (Python lower-cases all of Unicode, so it is a parameter `lower`) and how pydantic
converts values of another type (parameter `coerce`).
-/

namespace Verif
namespace Opt

/-- Option values. -/
inductive Val
  | bool (b : Bool)
  | int (i : ℤ)
  | float (q : ℚ)
  | str (s : String)
  | floats (l : List ℚ)
  | dict
  deriving DecidableEq

/-- Declared field types. -/
inductive Kind
  | bool | int | float | str | floats | dict
  deriving DecidableEq

/-- The type of a value. -/
def Val.kind : Val → Kind
  | .bool _ => .bool
  | .int _ => .int
  | .float _ => .float
  | .str _ => .str
  | .floats _ => .floats
  | .dict => .dict

/-- A dict with string keys, in insertion order. -/
abbrev Dict := List (String × Val)

/-- `d[k] = v` -/
def Dict.set (d : Dict) (k : String) (v : Val) : Dict :=
  if d.any (·.1 = k) then d.map fun e => if e.1 = k then (k, v) else e else d ++ [(k, v)]

/-- `d.get(k)` -/
def Dict.get? : Dict → String → Option Val
  | [], _ => none
  | e :: d, k => if e.1 = k then some e.2 else Dict.get? d k

/-- A field of a pydantic class: name, type, default, and the values its `validator` allows. -/
structure Field where
  name : String
  kind : Kind
  default : Val
  choices : Option (List String) := none

/-- pydantic field processing: conversion to the declared type, then the validator. -/
def Field.accept (coerce : Kind → Val → Option Val) (f : Field) (v : Val) : Py Val :=
  match coerce f.kind v with
  | none => .error .valueError
  | some w => match f.choices, w with
    | some l, .str s => if s ∈ l then .ok w else .error .valueError
    | _, _ => .ok w

/-- `Options(**d)`: keys that are not fields are ignored (pydantic's default), missing fields take
their default; `ValidationError` is a `ValueError`. -/
def pydantic (coerce : Kind → Val → Option Val) (fs : List Field) (d : Dict) : Py Dict :=
  fs.mapM fun f => match d.get? f.name with
    | none => .ok (f.name, f.default)
    | some v => do pure (f.name, ← f.accept coerce v)

/-- `{k.lower(): v for k, v in d.items()}` -/
def lowered (lower : String → String) (d : Dict) : Dict :=
  d.foldl (fun acc e => Dict.set acc (lower e.1) e.2) []

/-- Option handling of `i_solver` (pssolver.py 54-58), `Kohnsham` (kohnsham.py 53-58), `Partition`
(partition.py 179-184), `Inverter` (inverter.py 90-94) and `Partition.scf` (partition/scf.py 40-44):
lower-case the keys, reject unknown ones, build the pydantic object. -/
def build (lower : String → String) (coerce : Kind → Val → Option Val) (fs : List Field) (d : Dict) :
    Py Dict :=
  let d := lowered lower d
  if ∃ e ∈ d, e.1 ∉ fs.map Field.name then .error .valueError else pydantic coerce fs d

/-- Option handling of `Kohnsham.scf` (kohnsham/scf.py 26-30): the lower-cased key is only used for
the check; the dictionary is passed on unchanged. -/
def buildScf (lower : String → String) (coerce : Kind → Val → Option Val) (fs : List Field)
    (d : Dict) : Py Dict :=
  if ∃ e ∈ d, lower e.1 ∉ fs.map Field.name then .error .valueError else pydantic coerce fs d

/-- Field declarations. -/
def boolF (n : String) (v : Bool) : Field := ⟨n, .bool, .bool v, none⟩
@[inherit_doc boolF] def intF (n : String) (v : ℤ) : Field := ⟨n, .int, .int v, none⟩
@[inherit_doc boolF] def floatF (n : String) (v : ℚ) : Field := ⟨n, .float, .float v, none⟩
@[inherit_doc boolF] def strF (n : String) (v : String) (c : Option (List String) := none) : Field :=
  ⟨n, .str, .str v, c⟩

/-- `SolverOptions` (pssolver.py 22-28). -/
def solverFields : List Field :=
  [boolF "fractional" false, boolF "sym" false, boolF "iter_lin_solver" true, boolF "disp" true,
   floatF "tol_orbital" (1 / 10 ^ 15), floatF "tol_lin_solver" (1 / 10 ^ 4)]

/-- `KohnShamOptions` (kohnsham.py 31-44). -/
def ksFields : List Field :=
  [strF "interaction_type" "dft" (some ["dft", "ni"]), boolF "sym" false, boolF "fractional" false,
   intF "xfunc_id" 1, intF "cfunc_id" 12, strF "xc_family" "lda"]

/-- `PartitionOptions` (partition.py 59-92), with the inherited fields. -/
def partitionFields : List Field :=
  ksFields ++
  [strF "vp_calc_type" "component" (some ["component", "potential_inversion"]),
   strF "hxc_part_type" "exact"
     (some ["exact", "overlap_hxc_2", "overlap_hxc", "overlap_xc", "surprisal", "hartree"]),
   strF "kinetic_part_type" "vonweiz"
     (some ["vonweiz", "inversion", "libxcke", "paramke", "none", "twoorbital", "fixed"]),
   strF "k_family" "gga", intF "ke_func_id" 5, ⟨"ke_param", .dict, .dict, none⟩, boolF "disp" false,
   boolF "ab_sym" false, boolF "fractonal" false, boolF "ens_spin_sym" false, boolF "isolated" false,
   boolF "fixed_q" false]

/-- `InverterOptions` (inverter.py 17-36). -/
def inverterFields : List Field :=
  [boolF "ab_sym" false, boolF "ens_spin_sym" false, boolF "use_iterative" false, boolF "disp" false,
   boolF "avoid_loop" false,
   strF "invert_type" "wuyang"
     (some ["wuyang", "simple", "orbitalinvert", "qinvert", "eigensolveinvert", "test"]),
   floatF "k_val" (-1 / 10 ^ 12), floatF "tol_lin_solver" (1 / 100), floatF "tol_invert" (1 / 10 ^ 12),
   intF "max_iter_lin_solver" 2000, intF "max_iter_invert" 20, floatF "res_factor" 1]

/-- `KohnShamSCFOptions` (kohnsham/scf.py 8-17). -/
def ksScfFields : List Field :=
  [boolF "disp" true, boolF "continuing" false, boolF "iterative" true, boolF "spinflipsym" false,
   boolF "auto_tol" false, intF "maxiter" 100, intF "auto_tol_iter" 3, floatF "e_tol" (1 / 10 ^ 5), floatF "alpha" (1 / 2)]

/-- `PartitionSCFOptions` (partition/scf.py 10-31). -/
def partitionScfFields : List Field :=
  [floatF "e_tol" (1 / 10 ^ 7), intF "max_iter" 50, ⟨"alpha", .floats, .floats [82 / 100], none⟩,
   ⟨"beta", .floats, .floats [82 / 100], none⟩, strF "calc_type" "pdft" (some ["pdft", "sdft"]),
   boolF "disp" false, boolF "continuing" false, boolF "from_target_density" false, boolF "iterative" true,
   boolF "isolated" false, boolF "auto_tol" false, intF "auto_tol_iter" 3, boolF "freeze_a" false, boolF "freeze_b" false]

/-- A boolean option of a built option object. -/
def flag (d : Dict) (k : String) : Bool :=
  match d.get? k with
  | some (.bool v) => v
  | _ => false

end Opt
end Verif
