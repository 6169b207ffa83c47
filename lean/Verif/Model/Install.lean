import Verif.Py.Basic

/-!
# `devtools/scripts/create_conda_env.py` (lines 59-75) and the requirements in `setup.py`

The script reads an environment file, takes out the entry for Python and puts the requested version in front.  The
YAML parser is not modelled: its result is the input.  Of a YAML value only what the script looks at is kept.  The
command line, the search for the `conda` program and the call of it (lines 48-57, 77-95) are not modelled.
-/

namespace Verif
namespace Install

abbrev Str := List Char

/-- An entry of a list of dependencies: a string, or anything else (a mapping such as `pip: [...]`, a number). -/
inductive Dep
  | name (s : Str)
  | other
  deriving DecidableEq, Repr

/-- What `yaml_script['dependencies']` is: not there, `None` or a number, a list, a string, or a mapping with the given
keys. -/
inductive Deps
  | missing
  | scalar
  | seq (l : List Dep)
  | text (s : Str)
  | map (keys : List Dep)
  deriving DecidableEq, Repr

/-- The parsed file: a mapping, or something else (for instance `None` for an empty file). -/
inductive Script
  | mapping (d : Deps)
  | notMapping
  deriving DecidableEq, Repr

/-- `[ ><=*]` (create_conda_env.py 67). -/
def isOp (c : Char) : Bool := c = ' ' || c = '>' || c = '<' || c = '=' || c = '*'

/-- `[0-9.*]` (create_conda_env.py 67). -/
def isVer (c : Char) : Bool := c.isDigit || c = '.' || c = '*'

/-- `$`: the end, or a line feed at the end (create_conda_env.py 67). -/
def atEnd (s : Str) : Bool := s = [] || s = ['\n']

/-- `([ ><=*]+[0-9.*]*)?$` from here on (create_conda_env.py 67).  Taking as many characters as possible for the first
part loses no match: what it takes from the second part is not needed there. -/
def restMatches (t : Str) : Bool :=
  atEnd t || ((t.takeWhile isOp).length ≠ 0 && atEnd ((t.dropWhile isOp).dropWhile isVer))

/-- `re.match('python([ ><=*]+[0-9.*]*)?$', s)` (create_conda_env.py 67). -/
def isPython : Str → Bool
  | 'p' :: 'y' :: 't' :: 'h' :: 'o' :: 'n' :: t => restMatches t
  | _ => false

/-- The loop over the entries (create_conda_env.py 66-69): the first entry for Python is taken out and the loop ends;
`re.match` of something that is not a string is a `TypeError`. -/
def removeFirst : List Dep → Py (List Dep)
  | [] => .ok []
  | .other :: _ => .error .typeError
  | .name s :: ds => if isPython s then .ok ds
    else match removeFirst ds with
      | .ok l => .ok (.name s :: l)
      | .error e => .error e

/-- `"python {}*".format(args.python)` (create_conda_env.py 63). -/
def pin (v : Str) : Str := "python ".toList ++ v ++ ['*']

/-- The dependencies after lines 65-75.  `KeyError` and `TypeError` empty the list.  A string or a mapping without a key
for Python gets through the loop and has no `insert`; a mapping with one raises `KeyError` in `pop` (unless the position
is itself a key, which is left out). -/
def dependencies (v : Str) : Script → Py (List Dep)
  | .notMapping => .error .typeError
  | .mapping .missing => .ok [.name (pin v)]
  | .mapping .scalar => .ok [.name (pin v)]
  | .mapping (.seq l) => match removeFirst l with
    | .ok l => .ok (.name (pin v) :: l)
    | .error _ => .ok [.name (pin v)]
  | .mapping (.text _) => .error .attributeError
  | .mapping (.map keys) =>
    if keys.all fun k => match k with | .name s => !isPython s | .other => false then .error .attributeError
    else .ok [.name (pin v)]

/-- The dependencies in `devtools/conda-envs/test_env.yaml` (lines 5-26). -/
def testEnv : Script := .mapping (.seq (["wget", "setuptools", "python", "pip", "numpy", "scipy", "libxc", "pydantic",
  "pytest", "pytest-cov", "codecov", "cmake"].map (fun s => Dep.name s.toList) ++ [.other]))

/-- The elements between the commas of `install_requires` (setup.py 49-54), each a sequence of string literals. -/
def requireLiterals : List (List String) :=
  [["numpy"], ["scipy"], ["setuptools"], ["pytest"], ["pydantic", "wheel"]]

/-- `install_requires` (setup.py 49-54): Python joins literals that follow each other without a comma. -/
def installRequires : List String := requireLiterals.map fun l => l.foldl (· ++ ·) ""

/-- Packages outside the standard library that modules under `CADMium` import at top level: numpy (for instance
psgrid/initialize.py 10), scipy (hartree/hartree.py 6), pydantic (kohnsham/scf.py 6), pylibxc (libxc/libxc.py 5). -/
def imported : List String := ["numpy", "scipy", "pydantic", "pylibxc"]

end Install
end Verif
