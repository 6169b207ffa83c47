import Verif.Model.Install
import Mathlib.Data.List.Basic
import Mathlib.Tactic.Tauto

/-!
# C131: the installation files ask for what the package needs

The script that makes a test environment replaces the entry for Python by the version asked for and keeps the other
entries, as long as no entry before it is anything but a string.  Otherwise it drops every entry.
-/

namespace Verif
open Install

namespace Spec

/-- Entries that stand for Python with at most one simple version condition, with a line feed allowed at the end. -/
def PythonEntry (s : Str) : Prop :=
  ∃ t nl : Str, s = "python".toList ++ t ++ nl ∧ (nl = [] ∨ nl = ['\n']) ∧
    (t = [] ∨ ∃ u v : Str, t = u ++ v ∧ u ≠ [] ∧ (∀ c ∈ u, c ∈ " ><=*".toList) ∧ ∀ c ∈ v, c.isDigit ∨ c = '.' ∨ c = '*')

/-- A string that is not an entry for Python. -/
def OtherName : Dep → Prop
  | .name s => ¬ PythonEntry s
  | .other => False

end Spec

namespace Install

theorem atEnd_iff {s : Str} : atEnd s = true ↔ s = [] ∨ s = ['\n'] := by
  simp [atEnd]

theorem isOp_iff {c : Char} : isOp c = true ↔ c ∈ " ><=*".toList := by
  have : " ><=*".toList = [' ', '>', '<', '=', '*'] := rfl
  rw [this]
  simp [isOp]
  tauto

theorem isVer_iff {c : Char} : isVer c = true ↔ (c.isDigit ∨ c = '.' ∨ c = '*') := by
  simp [isVer]
  tauto

theorem dropWhile_append_all {p : Char → Bool} {u : Str} (h : ∀ c ∈ u, p c = true) (v : Str) :
    (u ++ v).dropWhile p = v.dropWhile p := by
  induction u with
  | nil => rfl
  | cons c u ih =>
    rw [List.cons_append, List.dropWhile_cons, if_pos (h c (by simp))]
    exact ih fun d hd => h d (by simp [hd])

theorem mem_takeWhile_imp {p : Char → Bool} {c : Char} {v : Str} (h : c ∈ v.takeWhile p) : p c = true := by
  induction v with
  | nil => simp at h
  | cons d v ih =>
    rw [List.takeWhile_cons] at h
    split at h
    · rename_i hd
      rcases List.mem_cons.1 h with rfl | h
      · exact hd
      · exact ih h
    · simp at h

theorem nl_not (nl : Str) (h : nl = [] ∨ nl = ['\n']) : nl.dropWhile isOp = nl ∧ nl.dropWhile isVer = nl := by
  rcases h with rfl | rfl
  · exact ⟨rfl, rfl⟩
  · exact ⟨by decide, by decide⟩

theorem dropWhile_tail {v nl : Str} (hv : ∀ c ∈ v, isVer c = true) (hn : nl = [] ∨ nl = ['\n']) :
    ((v ++ nl).dropWhile isOp).dropWhile isVer = nl := by
  induction v with
  | nil => rw [List.nil_append, (nl_not nl hn).1, (nl_not nl hn).2]
  | cons c v ih =>
    rw [List.cons_append, List.dropWhile_cons]
    split
    · exact ih fun d hd => hv d (by simp [hd])
    · rw [← List.cons_append, dropWhile_append_all hv, (nl_not nl hn).2]

theorem restMatches_iff {t : Str} : restMatches t = true ↔ ∃ t' nl : Str, t = t' ++ nl ∧ (nl = [] ∨ nl = ['\n']) ∧
    (t' = [] ∨ ∃ u v : Str, t' = u ++ v ∧ u ≠ [] ∧ (∀ c ∈ u, c ∈ " ><=*".toList) ∧
      ∀ c ∈ v, c.isDigit ∨ c = '.' ∨ c = '*') := by
  constructor
  · intro h
    simp only [restMatches, Bool.or_eq_true, Bool.and_eq_true, decide_eq_true_eq] at h
    rcases h with h | ⟨h1, h2⟩
    · exact ⟨[], t, by simp, atEnd_iff.1 h, Or.inl rfl⟩
    · refine ⟨t.takeWhile isOp ++ (t.dropWhile isOp).takeWhile isVer, (t.dropWhile isOp).dropWhile isVer, ?_,
        atEnd_iff.1 h2, Or.inr ⟨_, _, rfl, ?_, ?_, ?_⟩⟩
      · rw [List.append_assoc, List.takeWhile_append_dropWhile, List.takeWhile_append_dropWhile]
      · exact fun h => h1 (by rw [h]; rfl)
      · exact fun c hc => isOp_iff.1 (mem_takeWhile_imp hc)
      · exact fun c hc => isVer_iff.1 (mem_takeWhile_imp hc)
  · rintro ⟨t', nl, rfl, hn, rfl | ⟨u, v, rfl, hu, ho, hv⟩⟩
    · simp only [restMatches, List.nil_append, atEnd_iff.2 hn, Bool.true_or]
    · have ho' : ∀ c ∈ u, isOp c = true := fun c hc => isOp_iff.2 (ho c hc)
      have hv' : ∀ c ∈ v, isVer c = true := fun c hc => isVer_iff.2 (hv c hc)
      simp only [restMatches, Bool.or_eq_true, Bool.and_eq_true, decide_eq_true_eq]
      right
      constructor
      · obtain ⟨c, u', rfl⟩ := List.exists_cons_of_ne_nil hu
        simp [ho' c (by simp)]
      · rw [List.append_assoc, dropWhile_append_all ho', dropWhile_tail hv' hn]
        exact atEnd_iff.2 hn

end Install

/-- **C131, which entries count as Python.**  The regular expression accepts exactly `python`, `python` with one or more
of the characters ` ><=*` and then digits, dots and stars. -/
theorem C131_regex (s : Str) : isPython s = true ↔ Spec.PythonEntry s := by
  have e : "python".toList = ['p', 'y', 't', 'h', 'o', 'n'] := rfl
  constructor
  · intro h
    unfold isPython at h
    split at h
    · rename_i t
      obtain ⟨t', nl, ht, hn, h⟩ := restMatches_iff.1 h
      exact ⟨t', nl, by rw [e, ht]; rfl, hn, h⟩
    · cases h
  · rintro ⟨t, nl, rfl, hn, h⟩
    rw [e]
    change restMatches (t ++ nl) = true
    exact restMatches_iff.2 ⟨t, nl, rfl, hn, h⟩

namespace Install

theorem isPython_false {s : Str} (h : ¬ Spec.PythonEntry s) : isPython s = false := by
  rw [← C131_regex] at h
  simpa using h

theorem removeFirst_skip {b : List Dep} (hb : ∀ d ∈ b, Spec.OtherName d) (l : List Dep) :
    removeFirst (b ++ l) = match removeFirst l with
      | .ok l' => .ok (b ++ l')
      | .error e => .error e := by
  induction b with
  | nil => cases h : removeFirst l <;> simp [h]
  | cons d b ih =>
    have hd := hb d (by simp)
    cases d with
    | other => exact hd.elim
    | name s =>
      rw [List.cons_append, removeFirst, isPython_false hd, ih fun d hd => hb d (by simp [hd])]
      cases removeFirst l <;> simp

end Install

/-- **C131, what is kept.**  If the entry for Python comes before any entry that is not a string, exactly that entry is
replaced and every other entry is kept, in order.  Without an entry for Python the requested one is added, provided all
entries are strings. -/
theorem C131_kept_partial (v : Str) (before after : List Dep) (hb : ∀ d ∈ before, Spec.OtherName d) :
    (∀ q, Spec.PythonEntry q → dependencies v (.mapping (.seq (before ++ .name q :: after))) =
      .ok (.name ("python ".toList ++ v ++ "*".toList) :: (before ++ after))) ∧
    dependencies v (.mapping (.seq before)) = .ok (.name ("python ".toList ++ v ++ "*".toList) :: before) := by
  constructor
  · intro q hq
    have h : removeFirst (.name q :: after) = .ok after := by
      rw [removeFirst, if_pos ((C131_regex q).2 hq)]
    simp only [dependencies, removeFirst_skip hb, h]
    rfl
  · have h := removeFirst_skip hb []
    rw [List.append_nil] at h
    have h0 : removeFirst [] = .ok [] := rfl
    rw [h0] at h
    simp only [dependencies, h, List.append_nil]
    rfl

/-- **C131, what is lost.**  If an entry that is not a string (such as the packages for `pip`) comes before every entry
for Python, or there is none for Python, the environment gets nothing but Python, whatever the file asks for. -/
theorem C131_lost (v : Str) (before after : List Dep) (hb : ∀ d ∈ before, Spec.OtherName d) :
    dependencies v (.mapping (.seq (before ++ .other :: after))) =
      .ok [.name ("python ".toList ++ v ++ "*".toList)] := by
  have h : removeFirst (.other :: after) = .error .typeError := rfl
  simp only [dependencies, removeFirst_skip hb, h]
  rfl

/-- **C131, how often Python is asked for.**  With a version of digits and dots, and strings only, the number of entries
for Python afterwards is what it was, but at least one: a second entry stays. -/
theorem C131_once (v : Str) (hv : ∀ c ∈ v, c.isDigit ∨ c = '.') (l : List Str) :
    ∃ l' : List Str, dependencies v (.mapping (.seq (l.map .name))) = .ok (l'.map .name) ∧
      l'.countP isPython = max 1 (l.countP isPython) := by
  have hpin : isPython (pin v) = true := by
    rw [C131_regex]
    have e1 : pin v = "python".toList ++ (' ' :: (v ++ ['*'])) ++ [] := by
      rw [List.append_nil]
      exact List.append_assoc ['p', 'y', 't', 'h', 'o', 'n', ' '] v ['*']
    refine ⟨' ' :: (v ++ ['*']), [], e1, Or.inl rfl, Or.inr ⟨[' '], v ++ ['*'], rfl, by simp, ?_, ?_⟩⟩
    · intro c hc
      rw [List.mem_singleton.1 hc]
      decide
    · intro c hc
      rcases List.mem_append.1 hc with hc | hc
      · rcases hv c hc with h | h
        · exact Or.inl h
        · exact Or.inr (Or.inl h)
      · exact Or.inr (Or.inr (List.mem_singleton.1 hc))
  have key : ∀ l : List Str, ∃ l' : List Str, removeFirst (l.map .name) = .ok (l'.map .name) ∧
      l'.countP isPython = l.countP isPython - 1 := by
    intro l
    induction l with
    | nil => exact ⟨[], rfl, rfl⟩
    | cons s l ih =>
      obtain ⟨l', h1, h2⟩ := ih
      by_cases hs : isPython s = true
      · exact ⟨l, by simp [removeFirst, hs], by simp [hs]⟩
      · simp only [Bool.not_eq_true] at hs
        exact ⟨s :: l', by simp [removeFirst, hs, h1], by simp [hs, h2]⟩
  obtain ⟨l', h1, h2⟩ := key l
  refine ⟨pin v :: l', by simp [dependencies, h1], ?_⟩
  rw [List.countP_cons, hpin, h2]
  simp only [if_true]
  omega

/-- **C131, the shipped file.**  From `test_env.yaml` the script makes the same list with Python pinned. -/
theorem C131_shipped (v : Str) : dependencies v testEnv = .ok (.name (pin v) ::
    (["wget", "setuptools", "pip", "numpy", "scipy", "libxc", "pydantic", "pytest", "pytest-cov", "codecov",
      "cmake"].map (fun s => Dep.name s.toList) ++ [.other])) := by
  have h : removeFirst (["wget", "setuptools", "python", "pip", "numpy", "scipy", "libxc", "pydantic",
      "pytest", "pytest-cov", "codecov", "cmake"].map (fun s => Dep.name s.toList) ++ [.other]) =
      .ok (["wget", "setuptools", "pip", "numpy", "scipy", "libxc", "pydantic", "pytest", "pytest-cov", "codecov",
      "cmake"].map (fun s => Dep.name s.toList) ++ [.other]) := by decide +kernel
  simp only [testEnv, dependencies, h]

/-- The same packages with those for `pip` first: nothing is left. -/
theorem C131_refuted_order : dependencies "3.7".toList
    (.mapping (.seq [.name "numpy".toList, .other, .name "python".toList, .name "scipy".toList])) =
      .ok [.name "python 3.7*".toList] := by decide +kernel

/-- A range of versions is not recognised: Python is asked for twice, in ways that exclude each other. -/
theorem C131_refuted_range : dependencies "3.9".toList
    (.mapping (.seq [.name "python>=3.6,<3.9".toList, .name "numpy".toList])) =
      .ok [.name "python 3.9*".toList, .name "python>=3.6,<3.9".toList, .name "numpy".toList] := by decide +kernel

/-- **C131, requirements of the package.**  `setup.py` requires a package `pydanticwheel`, and neither `pydantic` nor
`pylibxc`, both of which are imported; a missing comma joins two names. -/
theorem C131_refuted_setup : installRequires = ["numpy", "scipy", "setuptools", "pytest", "pydanticwheel"] ∧
    imported.filter (fun s => decide (s ∉ installRequires)) = ["pydantic", "pylibxc"] := by decide +kernel

/-- The hypothesis on the entries before Python is met by the shipped file, and the entry itself is accepted. -/
example : Spec.PythonEntry "python".toList ∧ Spec.PythonEntry "python >=3.6".toList ∧
    ¬ Spec.PythonEntry "python3".toList ∧ ¬ Spec.PythonEntry "pythonocc".toList ∧
    ¬ Spec.PythonEntry "python!=3.8".toList := by
  simp only [← C131_regex]
  decide +kernel

/-- **C131, files without a list of dependencies.**  No dependencies, `None` or a number become the requested Python
alone.  A string, and a mapping whose keys are strings and no entries for Python, end with an `AttributeError`; any other
mapping is replaced by the requested Python.  A file that is not a mapping ends with a `TypeError`. -/
theorem C131_shapes (v : Str) :
    dependencies v (.mapping .missing) = .ok [.name ("python ".toList ++ v ++ "*".toList)] ∧
    dependencies v (.mapping .scalar) = .ok [.name ("python ".toList ++ v ++ "*".toList)] ∧
    (∀ s, dependencies v (.mapping (.text s)) = .error .attributeError) ∧
    (∀ keys, (∀ d ∈ keys, Spec.OtherName d) → dependencies v (.mapping (.map keys)) = .error .attributeError) ∧
    (∀ keys, (∃ d ∈ keys, ¬ Spec.OtherName d) →
      dependencies v (.mapping (.map keys)) = .ok [.name ("python ".toList ++ v ++ "*".toList)]) ∧
    dependencies v .notMapping = .error .typeError := by
  have key : ∀ d : Dep, (match d with | .name s => !isPython s | .other => false) = true ↔ Spec.OtherName d := by
    intro d
    cases d with
    | name s =>
      change (!isPython s) = true ↔ ¬ Spec.PythonEntry s
      rw [← C131_regex]
      simp
    | other => simp [Spec.OtherName]
  refine ⟨rfl, rfl, fun _ => rfl, fun keys h => ?_, fun keys h => ?_, rfl⟩
  · unfold dependencies
    exact if_pos (List.all_eq_true.2 fun d hd => (key d).2 (h d hd))
  · unfold dependencies
    obtain ⟨d, hd, hn⟩ := h
    refine (if_neg fun hall => hn ((key d).1 (List.all_eq_true.1 hall d hd))).trans ?_
    rfl

/-- A file without dependencies gets Python; an empty file is an error. -/
example : dependencies "3.7".toList (.mapping .missing) = .ok [.name "python 3.7*".toList] ∧
    dependencies "3.7".toList .notMapping = .error .typeError := by decide +kernel

end Verif
