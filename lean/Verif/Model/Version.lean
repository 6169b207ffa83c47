import Verif.Py.Basic
import Mathlib.Data.List.Sort
import Mathlib.Data.List.DropRight
import Mathlib.Data.Char

/-!
# `CADMium/_version.py`: the version the package reports

Strings are lists of characters.  Simplified: white space and digits are the ASCII ones (Python's `strip` and `\d` also
know the Unicode ones); printing (`verbose`) is left out; `run_command` is represented by what it returns.
-/

namespace Verif.Version

abbrev Str := List Char

/-- ASCII white space, removed by `str.strip()`. -/
def isSpace (c : Char) : Bool :=
  c = ' ' || (9 ≤ c.toNat && c.toNat ≤ 13) || (28 ≤ c.toNat && c.toNat ≤ 31)

/-- `str.strip` of the characters `p`. -/
def stripBy (p : Char → Bool) (s : Str) : Str := (s.dropWhile p).rdropWhile p

/-- `s.strip()`. -/
def strip : Str → Str := stripBy isSpace

/-- `s.replace(c, r, 1)` for a one-character `c`. -/
def replace1 (c : Char) (r : Str) : Str → Str
  | [] => []
  | x :: xs => if x = c then r ++ xs else x :: replace1 c r xs

/-- `date.strip().replace(" ", "T", 1).replace(" ", "", 1)` (_version.py 174, 303). -/
def isoDate (s : Str) : Str := replace1 ' ' [] (replace1 ' ' ['T'] (strip s))

/-- `"%d" % n`. -/
def decimal (n : ℕ) : Str := Nat.toDigits 10 n

/-- `int(s)` for a string of digits. -/
def int (s : Str) : ℕ := Nat.ofDigitChars 10 s 0

/-- Split at the last `c`, if there is one. -/
def rsplit (c : Char) : Str → Option (Str × Str)
  | [] => none
  | x :: xs =>
    match rsplit c xs with
    | some (a, b) => some (x :: a, b)
    | none => if x = c then some ([], xs) else none

/-- `[0-9a-f]`. -/
def isHex (c : Char) : Bool := c.isDigit || (97 ≤ c.toNat && c.toNat ≤ 102)

/-- `re.search(r'^(.+)-(\d+)-g([0-9a-f]+)$', s)` and its three groups (_version.py 269).  Neither `\d` nor `[0-9a-f]`
matches a hyphen or a `g`, so the two hyphens of the pattern are the last two of the string (the equivalence with the
pattern is `C111_pattern`); `.` matches everything but a newline.  Simplified: `$` also matches before a final newline,
which `strip` has removed here. -/
def matchDescribe (s : Str) : Option (Str × Str × Str) :=
  match rsplit '-' s with
  | none => none
  | some (front, last) =>
    match last with
    | 'g' :: hex =>
      match rsplit '-' front with
      | none => none
      | some (tag, num) =>
        if tag ≠ [] ∧ '\n' ∉ tag ∧ num ≠ [] ∧ num.all Char.isDigit ∧ hex ≠ [] ∧ hex.all isHex then
          some (tag, num, hex)
        else none
    | _ => none

/-- The dictionary `pieces` (_version.py 250-305); `none` in `closestTag`, `distance`, `date` is a missing key, and
`closestTag = some none` is the value `None`. -/
structure Pieces where
  long : Str
  short : Str
  error : Option Str
  dirty : Bool
  closestTag : Option (Option Str)
  distance : Option ℕ
  date : Option Str
  deriving DecidableEq, Repr

/-- The dictionary `get_versions` returns. -/
structure Info where
  version : Str
  revision : Option Str
  dirty : Option Bool
  error : Option Str
  date : Option Str
  deriving DecidableEq, Repr

/-- `pieces[key]`. -/
def key {α : Type} : Option α → Py α
  | none => .error .keyError
  | some a => .ok a

/-- `plus_or_dot` (_version.py 308-312); `"+" in None` raises. -/
def plusOrDot (p : Pieces) : Py Str :=
  match p.closestTag with
  | none => .ok ['+']
  | some none => .error .typeError
  | some (some t) => .ok (if '+' ∈ t then ['.'] else ['+'])

/-- `pieces["closest-tag"]` is true: a tag that is neither `None` nor the empty string. -/
def truthy : Option Str → Option Str
  | none => none
  | some [] => none
  | some t => some t

/-- `render_pep440` (_version.py 315-337). -/
def renderPep440 (p : Pieces) : Py Str := do
  match truthy (← key p.closestTag) with
  | some t =>
    let d ← key p.distance
    if d ≠ 0 ∨ p.dirty then
      let s ← plusOrDot p
      pure (t ++ s ++ (decimal d ++ ".g".toList ++ p.short) ++ (if p.dirty then ".dirty".toList else []))
    else pure t
  | none =>
    let d ← key p.distance
    pure ("0+untagged.".toList ++ decimal d ++ ".g".toList ++ p.short ++ (if p.dirty then ".dirty".toList else []))

/-- `render_pep440_pre` (_version.py 340-353). -/
def renderPep440Pre (p : Pieces) : Py Str := do
  match truthy (← key p.closestTag) with
  | some t =>
    let d ← key p.distance
    pure (if d ≠ 0 then t ++ ".post.dev".toList ++ decimal d else t)
  | none =>
    let d ← key p.distance
    pure ("0.post.dev".toList ++ decimal d)

/-- `render_pep440_post` (_version.py 356-380). -/
def renderPep440Post (p : Pieces) : Py Str := do
  match truthy (← key p.closestTag) with
  | some t =>
    let d ← key p.distance
    if d ≠ 0 ∨ p.dirty then
      let s ← plusOrDot p
      pure (t ++ ".post".toList ++ decimal d ++ (if p.dirty then ".dev0".toList else []) ++ s ++ 'g' :: p.short)
    else pure t
  | none =>
    let d ← key p.distance
    pure ("0.post".toList ++ decimal d ++ (if p.dirty then ".dev0".toList else []) ++ "+g".toList ++ p.short)

/-- `render_pep440_old` (_version.py 383-402). -/
def renderPep440Old (p : Pieces) : Py Str := do
  match truthy (← key p.closestTag) with
  | some t =>
    let d ← key p.distance
    if d ≠ 0 ∨ p.dirty then
      pure (t ++ ".post".toList ++ decimal d ++ (if p.dirty then ".dev0".toList else []))
    else pure t
  | none =>
    let d ← key p.distance
    pure ("0.post".toList ++ decimal d ++ (if p.dirty then ".dev0".toList else []))

/-- `render_git_describe` (_version.py 405-422). -/
def renderGitDescribe (p : Pieces) : Py Str := do
  let r ← match truthy (← key p.closestTag) with
    | some t => do
      let d ← key p.distance
      pure (if d ≠ 0 then t ++ '-' :: decimal d ++ "-g".toList ++ p.short else t)
    | none => pure p.short
  pure (r ++ (if p.dirty then "-dirty".toList else []))

/-- `render_git_describe_long` (_version.py 425-442). -/
def renderGitDescribeLong (p : Pieces) : Py Str := do
  let r ← match truthy (← key p.closestTag) with
    | some t => do
      let d ← key p.distance
      pure (t ++ '-' :: decimal d ++ "-g".toList ++ p.short)
    | none => pure p.short
  pure (r ++ (if p.dirty then "-dirty".toList else []))

/-- `render` (_version.py 445-474). -/
def render (p : Pieces) (style : Str) : Py Info :=
  match p.error with
  | some (c :: e) => .ok ⟨"unknown".toList, some p.long, none, some (c :: e), none⟩
  | _ => do
    let style := if style = [] ∨ style = "default".toList then "pep440".toList else style
    let r ←
      if style = "pep440".toList then renderPep440 p
      else if style = "pep440-pre".toList then renderPep440Pre p
      else if style = "pep440-post".toList then renderPep440Post p
      else if style = "pep440-old".toList then renderPep440Old p
      else if style = "git-describe".toList then renderGitDescribe p
      else if style = "git-describe-long".toList then renderGitDescribeLong p
      else .error .valueError
    pure ⟨r, some p.long, some p.dirty, none, p.date⟩

/-- What `run_command` returns (_version.py 70-104) for the five commands `git_pieces_from_vcs` runs; `none` is `None`.
Of `git rev-parse --git-dir` only the return code is used. -/
structure Git where
  gitDir : Option ℤ
  describe : Option Str
  head : Option Str
  count : Option Str
  show_ : Option Str

/-- `git_pieces_from_vcs(tag_prefix, root)` (_version.py 217-305); `none` is `NotThisMethod`.  `int` of a string that
is not a number raises; the model keeps only the case of digits and `None` (`rev-list --count` prints digits). -/
def gitPieces (tagPrefix : Str) (g : Git) : Py (Option Pieces) :=
  if g.gitDir ≠ some 0 then .ok none else
  match g.describe with
  | none => .ok none
  | some out =>
    match g.head with
    | none => .ok none
    | some full =>
      let out := strip out
      let full := strip full
      let dirty : Bool := decide ("-dirty".toList <:+ out)
      let d := if dirty then out.take (out.length - 6) else out
      let p : Pieces := ⟨full, full.take 7, none, dirty, none, none, none⟩
      let fin (p : Pieces) : Py (Option Pieces) :=
        match g.show_ with
        | none => .error .attributeError
        | some s => .ok (some { p with date := some (isoDate (strip s)) })
      if '-' ∈ d then
        match matchDescribe d with
        | none =>
          let e := "unable to parse git-describe output: '".toList ++ out ++ ['\'']
          .ok (some { p with error := some e })
        | some (tag, num, hex) =>
          if ¬ tagPrefix <+: tag then
            let e := "tag '".toList ++ tag ++ "' doesn't start with prefix '".toList ++ tagPrefix ++ ['\'']
            .ok (some { p with error := some e })
          else
            fin { p with closestTag := some (some (tag.drop tagPrefix.length)), distance := some (int num), short := hex }
      else
        match g.count with
        | none => .error .typeError
        | some c =>
          if c ≠ [] ∧ c.all Char.isDigit then fin { p with closestTag := some none, distance := some (int c) }
          else .error .valueError

/-- The dictionary of keywords (_version.py 20-30), each of which may be missing. -/
structure Keywords where
  refnames : Option Str
  full : Option Str
  date : Option Str

/-- What `get_keywords` returns in a source tree, where `git archive` has replaced nothing (_version.py 20-30). -/
def sourceKeywords : Keywords :=
  ⟨some "$Format:%d$".toList, some "$Format:%H$".toList, some "$Format:%ci$".toList⟩

/-- `git_versions_from_keywords(keywords, tag_prefix)` (_version.py 162-213); `none` is `NotThisMethod`.  Sets are lists
without duplicates; strings are ordered by code points. -/
def fromKeywords (k : Keywords) (tagPrefix : Str) : Py (Option Info) :=
  match k with
  | ⟨none, none, none⟩ => .ok none
  | ⟨refnames, full, date⟩ => do
    let date := date.map isoDate
    let refnames := strip (← key refnames)
    if "$Format".toList <+: refnames then pure none
    else
      let refs := ((stripBy (fun c => c = '(' || c = ')') refnames).splitOn ',').map strip |>.dedup
      let tags := ((refs.filter fun r => "tag: ".toList <+: r).map (·.drop 5)).dedup
      let tags := if tags = [] then refs.filter (·.any Char.isDigit) else tags
      match (tags.insertionSort (· ≤ ·)).find? (fun r => decide (tagPrefix <+: r)) with
      | some r => do
        let f ← key full
        pure (some ⟨r.drop tagPrefix.length, some (strip f), some false, none, date⟩)
      | none => do
        let f ← key full
        pure (some ⟨"0+unknown".toList, some (strip f), some false, some "no suitable tags".toList, none⟩)

/-- An absolute path: its components, innermost first. -/
abbrev Path := List Str

/-- `os.path.basename`; of the root directory it is the empty string. -/
def basename (p : Path) : Str := p.headD []

/-- `os.path.dirname`; of the root directory it is the root directory. -/
def dirname (p : Path) : Path := p.tail

/-- The loop of `versions_from_parentdir` (_version.py 116-125). -/
def parentLoop (pre : Str) : ℕ → Path → Option Info
  | 0, _ => none
  | n + 1, root =>
    if pre <+: basename root then some ⟨(basename root).drop pre.length, none, some false, none, none⟩
    else parentLoop pre n (dirname root)

/-- `versions_from_parentdir(parentdir_prefix, root)` (_version.py 107-129); `none` is `NotThisMethod`. -/
def fromParentdir (pre : Str) (root : Path) : Option Info := parentLoop pre 3 root

/-- The result when a step of `get_versions` cannot find out anything (_version.py 501-504, 518-520). -/
def unknown (e : String) : Info := ⟨"0+unknown".toList, none, none, some e.toList, none⟩

/-- `get_versions()` (_version.py 477-520) with the configuration of `get_config` (lines 37-48): style `pep440`, an empty
tag prefix, the parent directory prefix `"None"`, and `CADMium/_version.py`, which is two levels below the root.  `file`
is the real path of `__file__`, `none` if that is not defined. -/
def getVersions (k : Keywords) (file : Option Path) (g : Git) : Py Info := do
  match ← fromKeywords k [] with
  | some i => pure i
  | none =>
    match file with
    | none => pure (unknown "unable to find root of source tree")
    | some f =>
      let root := dirname (dirname f)
      match ← gitPieces [] g with
      | some p => render p "pep440".toList
      | none =>
        match fromParentdir "None".toList root with
        | some i => pure i
        | none => pure (unknown "unable to compute version")

end Verif.Version
