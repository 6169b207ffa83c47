import Verif.Model.Version
import Mathlib.Tactic.IntervalCases
import Mathlib.Tactic.Common

/-!
# C111: the version the package reports describes the state of the source tree

From the output of `git`, `get_versions` computes a version string.  For every tag, number of commits since the tag,
abbreviated commit and working-tree state that `git describe --long` can print, the result is the documented
`TAG[+DISTANCE.gHEX[.dirty]]`; if no tag contains a `+`, the string determines the state.
-/

namespace Verif
open Version

namespace Spec

/-- The state of a source tree under `git`: the nearest tag, the number of commits since it (or since the beginning), the
commit, its abbreviation, uncommitted changes, and the three parts of the date. -/
structure Tree where
  tag : Option (List Char)
  distance : ℕ
  commit : List Char
  short : List Char
  dirty : Bool
  day : List Char
  time : List Char
  zone : List Char

/-- What `git` guarantees: commits are lower-case hexadecimal; tags are not empty and contain no blank or control
character; the three parts of a date contain none either. -/
structure Tree.Valid (T : Tree) : Prop where
  tag : ∀ t ∈ T.tag, t ≠ [] ∧ ∀ c ∈ t, ' '.toNat < c.toNat
  commit : ∀ c ∈ T.commit, c ∈ "0123456789abcdef".toList
  short : T.short ≠ [] ∧ ∀ c ∈ T.short, c ∈ "0123456789abcdef".toList
  day : T.day ≠ [] ∧ ∀ c ∈ T.day, ' '.toNat < c.toNat
  time : ∀ c ∈ T.time, ' '.toNat < c.toNat
  zone : T.zone ≠ [] ∧ ∀ c ∈ T.zone, ' '.toNat < c.toNat

/-- `if` as text. -/
def opt (b : Bool) (s : String) : List Char := if b then s.toList else []

/-- The output of `git describe --tags --dirty --always --long`. -/
def Tree.describe (T : Tree) : List Char :=
  match T.tag with
  | some t => t ++ "-".toList ++ (toString T.distance).toList ++ "-g".toList ++ T.short ++ opt T.dirty "-dirty"
  | none => T.short ++ opt T.dirty "-dirty"

/-- What the commands print in that tree. -/
def Tree.git (T : Tree) : Git where
  gitDir := some 0
  describe := some T.describe
  head := some T.commit
  count := some (toString T.distance).toList
  show_ := some (T.day ++ " ".toList ++ T.time ++ " ".toList ++ T.zone)

/-- The documented version, `TAG[+DISTANCE.gHEX[.dirty]]` or `0+untagged.DISTANCE.gHEX[.dirty]`; after a tag that has a
`+` already the separator is a dot. -/
def Tree.version (T : Tree) : List Char :=
  let rest (hex : List Char) := (toString T.distance).toList ++ ".g".toList ++ hex ++ opt T.dirty ".dirty"
  match T.tag with
  | some t =>
    if T.distance = 0 ∧ T.dirty = false then t
    else t ++ (if '+' ∈ t then ".".toList else "+".toList) ++ rest T.short
  | none => "0+untagged.".toList ++ rest (T.commit.take 7)

end Spec

namespace Version

theorem rsplit_none {c : Char} : ∀ {s : Str}, rsplit c s = none ↔ c ∉ s
  | [] => by simp [rsplit]
  | x :: xs => by
    have ih := rsplit_none (c := c) (s := xs)
    rw [rsplit]
    cases h : rsplit c xs with
    | some ab =>
      simp only [reduceCtorEq, List.mem_cons, not_or, false_iff, not_and, not_not]
      intro _
      by_contra hc
      rw [ih.2 hc] at h; cases h
    | none =>
      have := ih.1 h
      by_cases hx : x = c
      · subst hx; simp
      · simp [hx, this, Ne.symm hx]

theorem rsplit_some {c : Char} : ∀ {s a b : Str}, rsplit c s = some (a, b) ↔ s = a ++ c :: b ∧ c ∉ b
  | [], a, b => by simp [rsplit]
  | x :: xs, a, b => by
    rw [rsplit]
    cases h : rsplit c xs with
    | some ab =>
      obtain ⟨a', b'⟩ := ab
      obtain ⟨h1, h2⟩ := (rsplit_some (s := xs)).1 h
      simp only [Option.some.injEq, Prod.mk.injEq]
      constructor
      · rintro ⟨rfl, rfl⟩; exact ⟨by rw [h1]; rfl, h2⟩
      · rintro ⟨h3, h4⟩
        cases a with
        | nil =>
          simp only [List.nil_append, List.cons.injEq] at h3
          exact absurd (by rw [← h3.2, h1]; simp) h4
        | cons y ys =>
          simp only [List.cons_append, List.cons.injEq] at h3
          have := (rsplit_some (s := xs) (a := ys) (b := b)).2 ⟨h3.2, h4⟩
          rw [h] at this
          simp only [Option.some.injEq, Prod.mk.injEq] at this
          exact ⟨by rw [h3.1, this.1], this.2⟩
    | none =>
      have hn := rsplit_none.1 h
      by_cases hx : x = c
      · subst hx
        simp only [if_true, Option.some.injEq, Prod.mk.injEq]
        constructor
        · rintro ⟨rfl, rfl⟩; exact ⟨rfl, hn⟩
        · rintro ⟨h3, h4⟩
          cases a with
          | nil => simp only [List.nil_append, List.cons.injEq] at h3; exact ⟨rfl, h3.2⟩
          | cons y ys =>
            simp only [List.cons_append, List.cons.injEq] at h3
            exact absurd (by rw [h3.2]; simp) hn
      · simp only [hx, if_false, reduceCtorEq, false_iff, not_and, not_not]
        intro h3
        cases a with
        | nil => simp only [List.nil_append, List.cons.injEq] at h3; exact absurd h3.1 hx
        | cons y ys =>
          simp only [List.cons_append, List.cons.injEq] at h3
          exact absurd (by rw [h3.2]; simp) hn

/-- The digits the model accepts are the sixteen lower-case hexadecimal ones. -/
theorem isHex_iff {c : Char} : isHex c = true ↔ c ∈ "0123456789abcdef".toList := by
  constructor
  · intro h
    have hc : c = Char.ofNat c.toNat := (Char.ofNat_toNat c).symm
    have h' : (48 ≤ c.toNat ∧ c.toNat ≤ 57) ∨ (97 ≤ c.toNat ∧ c.toNat ≤ 102) := by
      simp only [isHex, Bool.or_eq_true, Bool.and_eq_true, decide_eq_true_eq] at h
      rcases h with h | h
      · left
        simp only [Char.isDigit, Bool.and_eq_true, decide_eq_true_eq, ge_iff_le, UInt32.le_iff_toNat_le] at h
        exact h
      · exact Or.inr h
    rw [hc]
    generalize c.toNat = n at h'
    rcases h' with ⟨h1, h2⟩ | ⟨h1, h2⟩ <;> interval_cases n <;> decide
  · revert c
    decide

end Version

/-- **C111, the pattern.**  The parser of `git describe` finds exactly the decompositions the regular expression
`^(.+)-(\d+)-g([0-9a-f]+)$` describes (there is at most one). -/
theorem C111_pattern (s tag num hex : List Char) :
    matchDescribe s = some (tag, num, hex) ↔
      s = tag ++ "-".toList ++ num ++ "-g".toList ++ hex ∧ tag ≠ [] ∧ '\n' ∉ tag ∧
        num ≠ [] ∧ (∀ c ∈ num, c.isDigit = true) ∧ hex ≠ [] ∧ ∀ c ∈ hex, c ∈ "0123456789abcdef".toList := by
  simp only [← isHex_iff]
  have hyp : isHex '-' = false := by decide
  have hyd : Char.isDigit '-' = false := by decide
  constructor
  · intro h
    simp only [matchDescribe] at h
    split at h
    · cases h
    · rename_i front last h1
      split at h
      · rename_i hex'
        split at h
        · cases h
        · rename_i tag' num' h2
          split at h
          · rename_i hc
            cases h
            obtain ⟨h3, h4⟩ := rsplit_some.1 h1
            obtain ⟨h5, h6⟩ := rsplit_some.1 h2
            obtain ⟨c1, c2, c3, c4, c5, c6⟩ := hc
            exact ⟨by rw [h3, h5]; simp, c1, c2, c3, List.all_eq_true.1 c4, c5, List.all_eq_true.1 c6⟩
          · cases h
      · cases h
  · rintro ⟨hs, h1, h2, h3, h4, h5, h6⟩
    have e1 : rsplit '-' s = some (tag ++ '-' :: num, 'g' :: hex) := by
      rw [rsplit_some]
      refine ⟨by rw [hs]; simp, ?_⟩
      simp only [List.mem_cons, not_or]
      exact ⟨by decide, fun h => by have := h6 _ h; rw [hyp] at this; cases this⟩
    have e2 : rsplit '-' (tag ++ '-' :: num) = some (tag, num) := by
      rw [rsplit_some]
      exact ⟨rfl, fun h => by have := h4 _ h; rw [hyd] at this; cases this⟩
    simp only [matchDescribe, e1, e2]
    rw [if_pos ⟨h1, h2, h3, List.all_eq_true.2 h4, h5, List.all_eq_true.2 h6⟩]

namespace Version

theorem isSpace_false {c : Char} (h : ' '.toNat < c.toNat) : isSpace c = false := by
  have h' : 32 < c.toNat := h
  have hc : c ≠ ' ' := by rintro rfl; exact absurd h' (by decide)
  simp only [isSpace, hc, decide_false, Bool.false_or, Bool.or_eq_false_iff, Bool.and_eq_false_iff,
    decide_eq_false_iff_not]
  omega

theorem strip_self {s : Str} (h1 : ∀ c ∈ s.head?, isSpace c = false) (h2 : ∀ c ∈ s.getLast?, isSpace c = false) :
    strip s = s := by
  have e1 : s.dropWhile isSpace = s := by
    cases s with
    | nil => rfl
    | cons x xs => rw [List.dropWhile_cons_of_neg]; simp [h1 x (by simp)]
  unfold strip stripBy
  rw [e1, List.rdropWhile_eq_self_iff]
  intro hl
  have := h2 (s.getLast hl) (by simp [List.getLast?_eq_getLast hl])
  simp [this]

theorem strip_vis {s : Str} (h : ∀ c ∈ s, ' '.toNat < c.toNat) : strip s = s :=
  strip_self (fun c hc => isSpace_false (h c (List.mem_of_mem_head? hc)))
    (fun c hc => isSpace_false (h c (List.mem_of_mem_getLast? hc)))

theorem replace1_append {c : Char} {r a b : Str} (h : c ∉ a) : replace1 c r (a ++ c :: b) = a ++ r ++ b := by
  induction a with
  | nil => simp [replace1]
  | cons x xs ih =>
    simp only [List.mem_cons, not_or] at h
    simp only [List.cons_append, replace1, Ne.symm h.1, if_false, ih h.2]

theorem vis_hex {c : Char} (h : c ∈ "0123456789abcdef".toList) :
    ' '.toNat < c.toNat ∧ isHex c = true ∧ c ≠ '-' ∧ c ≠ '.' ∧ c ≠ '+' := by
  revert c
  decide

theorem decimal_eq (n : ℕ) : decimal n = (toString n).toList := Nat.toList_repr.symm

theorem digit_mem {n : ℕ} {c : Char} (h : c ∈ decimal n) : c.isDigit = true :=
  Nat.isDigit_of_mem_toDigits (by omega) (by omega) h

theorem vis_digit {c : Char} (h : c.isDigit = true) : ' '.toNat < c.toNat ∧ c ≠ '-' ∧ c ≠ '.' ∧ c ≠ '+' ∧ c ≠ 'u' := by
  refine ⟨?_, ?_, ?_, ?_, ?_⟩
  · simp only [Char.isDigit, Bool.and_eq_true, decide_eq_true_eq] at h
    have : (48 : UInt32).toNat ≤ c.val.toNat := UInt32.le_iff_toNat_le.1 h.1
    have e : (48 : UInt32).toNat = 48 := rfl
    have e2 : ' '.toNat = 32 := rfl
    rw [e2]; rw [e] at this; exact Nat.lt_of_lt_of_le (by omega) this
  all_goals (rintro rfl; exact absurd h (by decide))

theorem int_decimal (n : ℕ) : int (decimal n) = n := Nat.ofDigitChars_ten_toDigits

theorem decimal_ne (n : ℕ) : decimal n ≠ [] := Nat.toDigits_ne_nil

/-- The keywords in a source tree are not used. -/
theorem fromKeywords_source (pre : Str) : fromKeywords sourceKeywords pre = .ok none := by
  have h : "$Format".toList <+: strip "$Format:%d$".toList := by decide +kernel
  simp only [fromKeywords, sourceKeywords, key]
  simp only [bind, Except.bind, h, if_true]
  rfl

theorem dirty_suffix {X : Str} {b : Bool} (hX : X.getLast? ≠ some 'y') :
    decide ("-dirty".toList <:+ X ++ Spec.opt b "-dirty") = b := by
  cases b with
  | true => simp [Spec.opt]
  | false =>
    simp only [Spec.opt, Bool.false_eq_true, if_false, List.append_nil, decide_eq_false_iff_not]
    rintro ⟨Y, rfl⟩
    exact hX (by simp)

theorem dirty_take {X : Str} {b : Bool} :
    (if b then (X ++ Spec.opt b "-dirty").take ((X ++ Spec.opt b "-dirty").length - 6) else X ++ Spec.opt b "-dirty") = X := by
  cases b with
  | true =>
    have : "-dirty".toList.length = 6 := rfl
    simp only [if_true, Spec.opt, List.length_append, this, Nat.add_sub_cancel, List.take_left']
  | false => simp [Spec.opt]

theorem last_hex {Y h : Str} (hne : h ≠ []) (hh : ∀ c ∈ h, c ∈ "0123456789abcdef".toList) :
    (Y ++ h).getLast? ≠ some 'y' := by
  rw [List.getLast?_append_of_ne_nil _ hne]
  intro e
  exact absurd (hh _ (List.mem_of_getLast? e)) (by decide)

theorem opt_vis {b : Bool} : ∀ c ∈ Spec.opt b "-dirty", ' '.toNat < c.toNat := by
  cases b <;> decide

theorem isoDate_eq {T : Spec.Tree} (hT : T.Valid) :
    isoDate (strip (T.day ++ " ".toList ++ T.time ++ " ".toList ++ T.zone)) = T.day ++ "T".toList ++ T.time ++ T.zone := by
  have hs : strip (T.day ++ " ".toList ++ T.time ++ " ".toList ++ T.zone) = T.day ++ " ".toList ++ T.time ++ " ".toList ++ T.zone := by
    refine strip_self (fun c hc => ?_) (fun c hc => ?_)
    · obtain ⟨h1, h2⟩ := hT.day
      obtain ⟨x, xs, e⟩ := List.exists_cons_of_ne_nil h1
      rw [e] at hc
      simp only [List.cons_append, List.head?_cons, Option.mem_def, Option.some.injEq] at hc
      exact isSpace_false (h2 c (by rw [e, ← hc]; simp))
    · obtain ⟨h1, h2⟩ := hT.zone
      rw [List.getLast?_append_of_ne_nil _ h1] at hc
      exact isSpace_false (h2 c (List.mem_of_getLast? hc))
  have nsp : ∀ {s : Str}, (∀ c ∈ s, ' '.toNat < c.toNat) → ' ' ∉ s := fun h hm => absurd (h _ hm) (by decide)
  unfold isoDate
  rw [hs, hs]
  have e1 : T.day ++ " ".toList ++ T.time ++ " ".toList ++ T.zone = T.day ++ ' ' :: (T.time ++ ' ' :: T.zone) := by simp
  rw [e1, replace1_append (nsp hT.day.2)]
  have e2 : T.day ++ ['T'] ++ (T.time ++ ' ' :: T.zone) = (T.day ++ ['T'] ++ T.time) ++ ' ' :: T.zone := by simp
  rw [e2, replace1_append]
  · simp
  · simp only [List.mem_append, List.mem_singleton, not_or]
    exact ⟨⟨nsp hT.day.2, by decide⟩, nsp hT.time⟩

/-- The pieces read in a valid tree. -/
theorem gitPieces_tree {T : Spec.Tree} (hT : T.Valid) :
    gitPieces [] T.git = .ok (some
      { long := T.commit, short := if T.tag.isSome then T.short else T.commit.take 7, error := none, dirty := T.dirty,
        closestTag := some T.tag, distance := some T.distance,
        date := some (T.day ++ "T".toList ++ T.time ++ T.zone) }) := by
  have hfull : strip T.commit = T.commit := strip_vis fun c hc => (vis_hex (hT.commit c hc)).1
  have hdate := isoDate_eq hT
  have hsh : ∀ c ∈ T.short, ' '.toNat < c.toNat := fun c hc => (vis_hex (hT.short.2 c hc)).1
  have hdec : ∀ c ∈ decimal T.distance, ' '.toNat < c.toNat := fun c hc => (vis_digit (digit_mem hc)).1
  obtain ⟨hs1, hs2⟩ := hT.short
  cases ht : T.tag with
  | none =>
    have hdesc : T.describe = T.short ++ Spec.opt T.dirty "-dirty" := by simp [Spec.Tree.describe, ht]
    have hstrip : strip T.describe = T.short ++ Spec.opt T.dirty "-dirty" := by
      rw [hdesc]
      refine strip_vis fun c hc => ?_
      rcases List.mem_append.1 hc with h | h
      · exact hsh c h
      · exact opt_vis c h
    have hsuf := dirty_suffix (X := T.short) (b := T.dirty) (by simpa using last_hex (Y := []) hs1 hs2)
    have hnot : '-' ∉ T.short := fun h => (vis_hex (hs2 _ h)).2.2.1 rfl
    simp only [gitPieces, Spec.Tree.git, hstrip, hsuf, hfull, dirty_take, hnot, ne_eq, not_true_eq_false, if_false,
      ← decimal_eq]
    rw [if_pos ⟨decimal_ne _, List.all_eq_true.2 fun c hc => digit_mem hc⟩]
    simp only [hdate, int_decimal, Option.isSome_none, Bool.false_eq_true, if_false]
  | some t =>
    obtain ⟨ht1, ht2⟩ := hT.tag t (by rw [ht]; rfl)
    have hX : T.describe = (t ++ "-".toList ++ decimal T.distance ++ "-g".toList ++ T.short) ++ Spec.opt T.dirty "-dirty" := by
      simp [Spec.Tree.describe, ht, decimal_eq]
    have hstrip : strip T.describe = (t ++ "-".toList ++ decimal T.distance ++ "-g".toList ++ T.short) ++ Spec.opt T.dirty "-dirty" := by
      rw [hX]
      refine strip_vis fun c hc => ?_
      simp only [List.mem_append] at hc
      rcases hc with ((((h | h) | h) | h) | h) | h
      · exact ht2 c h
      · revert c; decide
      · exact hdec c h
      · revert c; decide
      · exact hsh c h
      · exact opt_vis c h
    have hsuf := dirty_suffix (X := t ++ "-".toList ++ decimal T.distance ++ "-g".toList ++ T.short) (b := T.dirty)
      (last_hex hs1 hs2)
    have hin : '-' ∈ t ++ "-".toList ++ decimal T.distance ++ "-g".toList ++ T.short := by simp
    have hm : matchDescribe (t ++ "-".toList ++ decimal T.distance ++ "-g".toList ++ T.short) =
        some (t, decimal T.distance, T.short) := by
      rw [C111_pattern]
      exact ⟨rfl, ht1, fun h => absurd (ht2 _ h) (by decide), decimal_ne _, fun c hc => digit_mem hc, hs1,
        fun c hc => hs2 c hc⟩
    simp only [gitPieces, Spec.Tree.git, hstrip, hsuf, hfull, dirty_take, hin, ne_eq, not_true_eq_false, if_false, if_true,
      hm, List.nil_prefix, hdate, int_decimal, Option.isSome_some, List.length_nil, List.drop_zero]

end Version

/-- **C111, the version.**  In a source tree under `git` the reported version is the documented one, the revision is the
commit, the state is reported, and there is no error. -/
theorem C111_version (T : Spec.Tree) (hT : T.Valid) (f : Path) :
    getVersions sourceKeywords (some f) T.git =
      .ok ⟨T.version, some T.commit, some T.dirty, none, some (T.day ++ "T".toList ++ T.time ++ T.zone)⟩ := by
  unfold getVersions
  simp only [fromKeywords_source, gitPieces_tree hT, bind, Except.bind]
  cases ht : T.tag with
  | none =>
    simp only [render, renderPep440, key, truthy, Spec.Tree.version, ht, bind, Except.bind, pure, Except.pure, decimal_eq]
    simp [Spec.opt]
  | some t =>
    obtain ⟨ht1, -⟩ := hT.tag t (by rw [ht]; rfl)
    obtain ⟨x, xs, rfl⟩ := List.exists_cons_of_ne_nil ht1
    by_cases h0 : T.distance = 0 ∧ T.dirty = false
    · have : ¬ (T.distance ≠ 0 ∨ T.dirty = true) := by simp [h0.1, h0.2]
      simp [render, renderPep440, key, truthy, Spec.Tree.version, ht, bind, Except.bind, pure, Except.pure, h0.1, h0.2]
    · have h1 : T.distance ≠ 0 ∨ T.dirty = true := by
        by_contra h; push Not at h; exact h0 ⟨h.1, by simpa using h.2⟩
      simp only [render, renderPep440, key, truthy, Spec.Tree.version, ht, bind, Except.bind, pure, Except.pure, h0, h1,
        plusOrDot, if_true, if_false, decimal_eq]
      simp [Spec.opt]

namespace Version

/-- The text before and after the first `c`. -/
theorem first_split {c : Char} {a b x y : Str} (ha : c ∉ a) (hb : c ∉ b) (h : a ++ c :: x = b ++ c :: y) :
    a = b ∧ x = y := by
  induction a generalizing b with
  | nil =>
    cases b with
    | nil => simpa using h
    | cons z zs =>
      simp only [List.nil_append, List.cons_append, List.cons.injEq] at h
      exact absurd (by rw [h.1]; simp) hb
  | cons w ws ih =>
    cases b with
    | nil =>
      simp only [List.nil_append, List.cons_append, List.cons.injEq] at h
      exact absurd (by rw [h.1]; simp) ha
    | cons z zs =>
      simp only [List.cons_append, List.cons.injEq] at h
      simp only [List.mem_cons, not_or] at ha hb
      obtain ⟨e1, e2⟩ := ih ha.2 hb.2 h.2
      exact ⟨by rw [h.1, e1], e2⟩

/-- `DISTANCE.gHEX[.dirty]` can be taken apart. -/
theorem rest_inj {n n' : ℕ} {h h' : Str} {b b' : Bool} (hh : ∀ c ∈ h, c ∈ "0123456789abcdef".toList)
    (hh' : ∀ c ∈ h', c ∈ "0123456789abcdef".toList)
    (e : (toString n).toList ++ ".g".toList ++ h ++ Spec.opt b ".dirty" =
      (toString n').toList ++ ".g".toList ++ h' ++ Spec.opt b' ".dirty") : n = n' ∧ h = h' ∧ b = b' := by
  have nd : ∀ m : ℕ, '.' ∉ decimal m := fun m hm => (vis_digit (digit_mem hm)).2.2.1 rfl
  have nh : ∀ {s : Str}, (∀ c ∈ s, c ∈ "0123456789abcdef".toList) → '.' ∉ s :=
    fun hs hm => (vis_hex (hs _ hm)).2.2.2.1 rfl
  have e' : decimal n ++ '.' :: ('g' :: (h ++ Spec.opt b ".dirty")) = decimal n' ++ '.' :: ('g' :: (h' ++ Spec.opt b' ".dirty")) := by
    simpa [decimal_eq] using e
  obtain ⟨e1, e2⟩ := first_split (nd n) (nd n') e'
  have hn : n = n' := by rw [← int_decimal n, ← int_decimal n', e1]
  simp only [List.cons.injEq, true_and] at e2
  refine ⟨hn, ?_⟩
  have d1 : Spec.opt true ".dirty" = '.' :: "dirty".toList := rfl
  have d0 : Spec.opt false ".dirty" = [] := rfl
  cases b <;> cases b' <;> simp only [d0, d1, List.append_nil] at e2
  · exact ⟨e2, rfl⟩
  · exact absurd (by rw [e2]; simp) (nh hh)
  · exact absurd (by rw [← e2]; simp) (nh hh')
  · exact ⟨(first_split (nh hh) (nh hh') e2).1, rfl⟩

end Version

/-- **C111, nothing is lost.**  As long as no tag contains a `+`, two trees with the same version are at the same tag, at
the same distance from it, and both clean or both dirty; unless they are exactly at the tag, their abbreviated commits
agree as well. -/
theorem C111_faithful_partial (S T : Spec.Tree) (hS : S.Valid) (hT : T.Valid)
    (pS : ∀ t ∈ S.tag, '+' ∉ t) (pT : ∀ t ∈ T.tag, '+' ∉ t) (h : S.version = T.version) :
    S.tag = T.tag ∧ S.distance = T.distance ∧ S.dirty = T.dirty ∧
      (S.tag = none → S.commit.take 7 = T.commit.take 7) ∧
      (S.tag ≠ none → (S.distance ≠ 0 ∨ S.dirty = true) → S.short = T.short) := by
  have h7 : ∀ {V : Spec.Tree}, V.Valid → ∀ c ∈ V.commit.take 7, c ∈ "0123456789abcdef".toList :=
    fun hV c hc => hV.commit c (List.mem_of_mem_take hc)
  -- an exact version, a version with a distance, and an untagged version are different
  have key : ∀ (S T : Spec.Tree), S.Valid → T.Valid → (∀ t ∈ S.tag, '+' ∉ t) → (∀ t ∈ T.tag, '+' ∉ t) →
      S.version = T.version → ∀ s, S.tag = some s → ∃ t, T.tag = some t ∧ s = t ∧ S.distance = T.distance ∧
        S.dirty = T.dirty ∧ ((S.distance ≠ 0 ∨ S.dirty = true) → S.short = T.short) := by
    intro S T hS hT pS pT h s hs
    have ps := pS s (by rw [hs]; rfl)
    have hmem : ∀ V : Spec.Tree, (∀ t ∈ V.tag, '+' ∉ t) →
        ('+' ∈ V.version ↔ ¬ (V.tag ≠ none ∧ V.distance = 0 ∧ V.dirty = false)) := by
      intro V pV
      cases hv : V.tag with
      | none => simp [Spec.Tree.version, hv]
      | some v =>
        have pv := pV v (by rw [hv]; rfl)
        by_cases h0 : V.distance = 0 ∧ V.dirty = false
        · simp [Spec.Tree.version, hv, h0.1, h0.2, pv]
        · simp only [Spec.Tree.version, hv, h0, if_false, pv]
          simp
    have hm : ('+' ∈ S.version ↔ '+' ∈ T.version) := by rw [h]
    rw [hmem S pS, hmem T pT] at hm
    by_cases h0 : S.distance = 0 ∧ S.dirty = false
    · have h1 : T.tag ≠ none ∧ T.distance = 0 ∧ T.dirty = false := by
        by_contra hn; exact (hm.2 hn) ⟨by rw [hs]; simp, h0⟩
      obtain ⟨t, ht⟩ := Option.ne_none_iff_exists'.1 h1.1
      refine ⟨t, ht, ?_, by rw [h0.1, h1.2.1], by rw [h0.2, h1.2.2], ?_⟩
      · simpa [Spec.Tree.version, hs, ht, h0, h1.2] using h
      · rintro (h2 | h2)
        · exact absurd h0.1 h2
        · rw [h0.2] at h2; cases h2
    · have h1 : ¬ (T.tag ≠ none ∧ T.distance = 0 ∧ T.dirty = false) := hm.1 fun hn => h0 hn.2
      simp only [Spec.Tree.version, hs, h0, if_false, ps] at h
      cases ht : T.tag with
      | none =>
        exfalso
        simp only [ht] at h
        have e : s ++ '+' :: (decimal S.distance ++ (".g".toList ++ S.short ++ Spec.opt S.dirty ".dirty")) =
            "0".toList ++ '+' :: ('u' :: ("ntagged.".toList ++ (toString T.distance).toList ++ ".g".toList ++ T.commit.take 7 ++
              Spec.opt T.dirty ".dirty")) := by
          simpa [decimal_eq] using h
        obtain ⟨-, e2⟩ := first_split ps (by decide) e
        obtain ⟨x, xs, hx⟩ := List.exists_cons_of_ne_nil (decimal_ne S.distance)
        rw [hx] at e2
        simp only [List.cons_append, List.cons.injEq] at e2
        exact (vis_digit (digit_mem (n := S.distance) (c := x) (by rw [hx]; simp))).2.2.2.2 e2.1
      | some t =>
        have pt := pT t (by rw [ht]; rfl)
        have h2 : ¬ (T.distance = 0 ∧ T.dirty = false) := fun hn => h1 ⟨by rw [ht]; simp, hn⟩
        simp only [ht, h2, if_false, pt] at h
        have e : s ++ '+' :: ((toString S.distance).toList ++ ".g".toList ++ S.short ++ Spec.opt S.dirty ".dirty") =
            t ++ '+' :: ((toString T.distance).toList ++ ".g".toList ++ T.short ++ Spec.opt T.dirty ".dirty") := by
          simpa using h
        obtain ⟨e1, e2⟩ := first_split ps pt e
        obtain ⟨e3, e4, e5⟩ := rest_inj hS.short.2 hT.short.2 e2
        exact ⟨t, rfl, e1, e3, e5, fun _ => e4⟩
  cases hs : S.tag with
  | some s =>
    obtain ⟨t, e1, e2, e3, e4, e5⟩ := key S T hS hT pS pT h s hs
    refine ⟨by rw [e1, e2], e3, e4, fun hn => ?_, fun _ => e5⟩
    cases hn
  | none =>
    cases ht : T.tag with
    | some t =>
      obtain ⟨s, e1, -⟩ := key T S hT hS pT pS h.symm t ht
      rw [hs] at e1; cases e1
    | none =>
      simp only [Spec.Tree.version, hs, ht] at h
      obtain ⟨e1, e2, e3⟩ := rest_inj (h7 hS) (h7 hT) (List.append_cancel_left h)
      exact ⟨rfl, e1, e3, fun _ => e2, fun hn => absurd rfl hn⟩

/-- **C111 refuted for tags with a `+`.**  A clean tree exactly at the tag `1.0+3.gabc` and a tree three commits after
the tag `1.0`, at a commit abbreviated `abc`, report the same version. -/
theorem C111_refuted_plus :
    ∃ S T : Spec.Tree, S.Valid ∧ T.Valid ∧ S.version = "1.0+3.gabc".toList ∧ T.version = "1.0+3.gabc".toList ∧
      S.tag ≠ T.tag ∧ S.distance ≠ T.distance := by
  refine ⟨⟨some "1.0+3.gabc".toList, 0, "def".toList, "def".toList, false, "d".toList, "t".toList, "z".toList⟩,
    ⟨some "1.0".toList, 3, "abc".toList, "abc".toList, false, "d".toList, "t".toList, "z".toList⟩, ?_, ?_, ?_, ?_, ?_, ?_⟩
  · constructor <;> (try simp only [Option.mem_def, Option.some.injEq, forall_eq']) <;> decide
  · constructor <;> (try simp only [Option.mem_def, Option.some.injEq, forall_eq']) <;> decide
  all_goals decide +kernel

namespace Version

/-- Pieces `git_pieces_from_vcs` returns are either marked as erroneous or complete. -/
theorem gitPieces_complete {pre : Str} {g : Git} {p : Pieces} (h : gitPieces pre g = .ok (some p)) :
    (∃ c e, p.error = some (c :: e)) ∨ (∃ t d, p.closestTag = some t ∧ p.distance = some d) := by
  simp only [gitPieces] at h
  split at h
  · cases h
  · split at h
    · cases h
    · rename_i out _
      split at h
      · cases h
      · generalize (if decide ("-dirty".toList <:+ strip out) = true then (strip out).take ((strip out).length - 6)
          else strip out) = d at h
        split at h
        · split at h
          · cases h; left; exact ⟨_, _, rfl⟩
          · split at h
            · cases h; left; exact ⟨_, _, rfl⟩
            · split at h
              · cases h
              · cases h; right; exact ⟨_, _, rfl, rfl⟩
        · split at h
          · cases h
          · split at h
            · split at h
              · cases h
              · cases h; right; exact ⟨_, _, rfl, rfl⟩
            · cases h

/-- Rendering complete pieces raises nothing. -/
theorem renderPep440_ok {p : Pieces} {t : Option Str} {d : ℕ} (ht : p.closestTag = some t) (hd : p.distance = some d) :
    ∃ r, renderPep440 p = .ok r := by
  match t with
  | none => exact ⟨_, by simp only [renderPep440, ht, hd, key, truthy, bind, Except.bind, pure, Except.pure]; rfl⟩
  | some [] => exact ⟨_, by simp only [renderPep440, ht, hd, key, truthy, bind, Except.bind, pure, Except.pure]; rfl⟩
  | some (c :: s) =>
    by_cases h : d ≠ 0 ∨ p.dirty = true
    · exact ⟨_, by simp only [renderPep440, ht, hd, key, truthy, bind, Except.bind, pure, Except.pure, h, if_true, plusOrDot]; rfl⟩
    · exact ⟨_, by simp only [renderPep440, ht, hd, key, truthy, bind, Except.bind, pure, Except.pure, h, if_false]; rfl⟩

theorem render_ok {p : Pieces}
    (h : (∃ c e, p.error = some (c :: e)) ∨ (∃ t d, p.closestTag = some t ∧ p.distance = some d)) :
    ∃ i, render p "pep440".toList = .ok i := by
  rcases h with ⟨c, e, h⟩ | ⟨t, d, ht, hd⟩
  · exact ⟨_, by simp only [render, h]; rfl⟩
  · obtain ⟨r, hr⟩ := renderPep440_ok ht hd
    unfold render
    split
    · exact ⟨_, rfl⟩
    · have h1 : ¬ ("pep440".toList = [] ∨ "pep440".toList = "default".toList) := by decide
      simp only [h1, if_false, if_true, hr, bind, Except.bind, pure, Except.pure]
      exact ⟨_, rfl⟩

end Version

/-- **C111, exceptions.**  Whatever the commands return, `get_versions` (run on import of the package) raises in exactly
these cases: `rev-parse`, `describe` and `rev-parse HEAD` succeed, and then either `show` fails although a tag was found or
the number of commits could be read, or, without a tag, `rev-list --count` fails or prints something that is not a
number. -/
theorem C111_raises (f : Option Path) (g : Git) (e : PyErr) :
    getVersions sourceKeywords f g = .error e ↔
      f.isSome ∧ g.gitDir = some 0 ∧ ∃ out, g.describe = some out ∧ g.head ≠ none ∧
        let d := if "-dirty".toList <:+ strip out then (strip out).take ((strip out).length - 6) else strip out
        (e = .attributeError ∧ g.show_ = none ∧
            ((matchDescribe d).isSome ∨ '-' ∉ d ∧ ∃ c, g.count = some c ∧ c ≠ [] ∧ c.all Char.isDigit)) ∨
        (e = .typeError ∧ '-' ∉ d ∧ g.count = none) ∨
        (e = .valueError ∧ '-' ∉ d ∧ ∃ c, g.count = some c ∧ ¬ (c ≠ [] ∧ c.all Char.isDigit)) := by
  have hp : getVersions sourceKeywords f g = .error e ↔ f.isSome ∧ gitPieces [] g = .error e := by
    unfold getVersions
    simp only [fromKeywords_source, bind, Except.bind]
    cases f with
    | none => simp [pure, Except.pure]
    | some f =>
      cases hg : gitPieces [] g with
      | error e' => simp
      | ok o =>
        cases o with
        | none =>
          simp only [Option.isSome_some, true_and, reduceCtorEq, iff_false]
          split <;> simp [pure, Except.pure]
        | some p =>
          obtain ⟨i, hi⟩ := render_ok (gitPieces_complete hg)
          simp only [hi, reduceCtorEq, and_false]
  rw [hp]
  refine and_congr_right fun _ => ?_
  unfold gitPieces
  by_cases hd : g.gitDir = some 0
  swap
  · simp [hd]
  simp only [hd, ne_eq, not_true_eq_false, if_false, true_and]
  cases hdesc : g.describe with
  | none => simp
  | some out =>
    cases hh : g.head with
    | none => simp
    | some full =>
      simp only [Option.some.injEq, exists_eq_left', reduceCtorEq, not_false_eq_true, true_and, decide_eq_true_eq]
      generalize (if "-dirty".toList <:+ strip out then (strip out).take ((strip out).length - 6) else strip out) = d
      have hno : '-' ∉ d → matchDescribe d = none := fun hn => by simp only [matchDescribe, rsplit_none.2 hn]
      by_cases hm : '-' ∈ d
      · simp only [hm, if_true, not_true_eq_false, false_and, and_false, or_false]
        cases hmd : matchDescribe d with
        | none => simp
        | some r =>
          obtain ⟨a, b, c⟩ := r
          simp only [List.nil_prefix, not_true_eq_false, if_false, Option.isSome_some, and_true]
          cases g.show_ with
          | none => simp only [Except.error.injEq, and_true]; exact eq_comm
          | some _ => simp
      · simp only [hm, if_false, not_false_eq_true, true_and, hno hm, Option.isSome_none, Bool.false_eq_true, false_or]
        cases hc : g.count with
        | none =>
          simp only [Except.error.injEq, reduceCtorEq, false_and, exists_false, and_false, or_false, false_or, and_true]
          exact eq_comm
        | some c =>
          simp only [Option.some.injEq, exists_eq_left', reduceCtorEq, and_false, false_or]
          by_cases hcd : c ≠ [] ∧ c.all Char.isDigit = true
          · rw [if_pos hcd]
            cases g.show_ with
            | none => simp only [Except.error.injEq, hcd, and_true, not_true_eq_false, and_false, or_false,
                not_false_eq_true]; exact eq_comm
            | some _ => simp [hcd]
          · rw [if_neg hcd]
            simp only [Except.error.injEq, hcd, and_false, false_or, not_false_eq_true, and_true]
            exact eq_comm

/-- The styles. -/
inductive Spec.Style
  | pep440 | pep440Pre | pep440Post | pep440Old | gitDescribe | gitDescribeLong

/-- Their names. -/
def Spec.Style.name : Spec.Style → String
  | .pep440 => "pep440"
  | .pep440Pre => "pep440-pre"
  | .pep440Post => "pep440-post"
  | .pep440Old => "pep440-old"
  | .gitDescribe => "git-describe"
  | .gitDescribeLong => "git-describe-long"

/-- The documented formats of the six styles (the docstrings of `render_*`), for a tree with a tag `t`. -/
def Spec.Style.format (style : Spec.Style) (t : List Char) (n : ℕ) (hex : List Char) (dirty : Bool) : List Char :=
  let N := (toString n).toList
  let sep := if '+' ∈ t then ".".toList else "+".toList
  let changed (s : List Char) := if n = 0 ∧ dirty = false then t else t ++ s
  let away (s : List Char) := if n = 0 then t else t ++ s
  match style with
  | .pep440 => changed (sep ++ N ++ ".g".toList ++ hex ++ Spec.opt dirty ".dirty")
  | .pep440Pre => away (".post.dev".toList ++ N)
  | .pep440Post => changed (".post".toList ++ N ++ Spec.opt dirty ".dev0" ++ sep ++ "g".toList ++ hex)
  | .pep440Old => changed (".post".toList ++ N ++ Spec.opt dirty ".dev0")
  | .gitDescribe => away ("-".toList ++ N ++ "-g".toList ++ hex) ++ Spec.opt dirty "-dirty"
  | .gitDescribeLong => t ++ "-".toList ++ N ++ "-g".toList ++ hex ++ Spec.opt dirty "-dirty"

/-- The documented formats without a tag. -/
def Spec.Style.untagged (style : Spec.Style) (n : ℕ) (hex : List Char) (dirty : Bool) : List Char :=
  let N := (toString n).toList
  match style with
  | .pep440 => "0+untagged.".toList ++ N ++ ".g".toList ++ hex ++ Spec.opt dirty ".dirty"
  | .pep440Pre => "0.post.dev".toList ++ N
  | .pep440Post => "0.post".toList ++ N ++ Spec.opt dirty ".dev0" ++ "+g".toList ++ hex
  | .pep440Old => "0.post".toList ++ N ++ Spec.opt dirty ".dev0"
  | .gitDescribe => hex ++ Spec.opt dirty "-dirty"
  | .gitDescribeLong => hex ++ Spec.opt dirty "-dirty"

namespace Version

theorem render_style {p : Pieces} (he : p.error = none) (style : Spec.Style) {r : Str}
    (h : (match style with
      | .pep440 => renderPep440 p
      | .pep440Pre => renderPep440Pre p
      | .pep440Post => renderPep440Post p
      | .pep440Old => renderPep440Old p
      | .gitDescribe => renderGitDescribe p
      | .gitDescribeLong => renderGitDescribeLong p) = .ok r) :
    render p style.name.toList = .ok ⟨r, some p.long, some p.dirty, none, p.date⟩ := by
  cases style <;> dsimp only at h <;>
    simp [render, he, Spec.Style.name, h, bind, Except.bind, pure, Except.pure]

end Version

/-- **C111, the styles.**  Every style renders the pieces of a tagged commit in its documented format. -/
theorem C111_styles (p : Pieces) (t : List Char) (n : ℕ) (style : Spec.Style) (he : p.error = none) (ht : t ≠ [])
    (h1 : p.closestTag = some (some t)) (h2 : p.distance = some n) :
    render p style.name.toList =
      .ok ⟨style.format t n p.short p.dirty, some p.long, some p.dirty, none, p.date⟩ := by
  obtain ⟨x, xs, rfl⟩ := List.exists_cons_of_ne_nil ht
  refine render_style he style ?_
  by_cases h0 : n = 0 <;> cases hd : p.dirty <;> cases style <;>
    simp [renderPep440, renderPep440Pre, renderPep440Post, renderPep440Old, renderGitDescribe, renderGitDescribeLong,
      h1, h2, h0, hd, key, truthy, plusOrDot, bind, Except.bind, pure, Except.pure, decimal_eq, Spec.opt, Spec.Style.format]

/-- **C111, the styles without a tag.** -/
theorem C111_styles_untagged (p : Pieces) (n : ℕ) (style : Spec.Style) (he : p.error = none)
    (h1 : p.closestTag = some none) (h2 : p.distance = some n) :
    render p style.name.toList =
      .ok ⟨style.untagged n p.short p.dirty, some p.long, some p.dirty, none, p.date⟩ := by
  refine render_style he style ?_
  unfold Spec.Style.untagged
  cases style
  all_goals
    simp only [renderPep440, renderPep440Pre, renderPep440Post, renderPep440Old, renderGitDescribe, renderGitDescribeLong,
      h1, h2, key, truthy, bind, Except.bind, pure, Except.pure, decimal_eq, Spec.opt]

/-- **C111, incomplete pieces.**  Without the key `closest-tag` every style raises KeyError, and so it does without the key
`distance`, except that the two styles of `git describe` do not read the distance if there is no tag. -/
theorem C111_incomplete (p : Pieces) (style : Spec.Style) (he : p.error = none) :
    (p.closestTag = none → render p style.name.toList = .error .keyError) ∧
    ((∃ t, p.closestTag = some t ∧ ((∃ u, t = some u ∧ u ≠ []) ∨ style ≠ .gitDescribe ∧ style ≠ .gitDescribeLong)) →
      p.distance = none → render p style.name.toList = .error .keyError) := by
  constructor
  · intro h
    cases style <;>
      simp [render, he, Spec.Style.name, renderPep440, renderPep440Pre, renderPep440Post, renderPep440Old, renderGitDescribe,
        renderGitDescribeLong, h, key, bind, Except.bind]
  · rintro ⟨t, ht, h⟩ hd
    rcases t with _ | _ | ⟨c, u⟩ <;> cases style <;>
      simp [render, he, Spec.Style.name, renderPep440, renderPep440Pre, renderPep440Post, renderPep440Old, renderGitDescribe,
        renderGitDescribeLong, ht, hd, key, truthy, bind, Except.bind] at h ⊢

/-- Pieces without a distance. -/
example : render ⟨"abc".toList, "a".toList, none, true, some (some "v1".toList), none, none⟩ "git-describe".toList =
      .error .keyError ∧
    (render ⟨"abc".toList, "a".toList, none, true, some none, none, none⟩ "git-describe".toList).toOption.map (·.version) =
      some "a-dirty".toList := by decide +kernel

/-- **C111, the default style.**  The empty style and `default` mean `pep440`. -/
theorem C111_default (p : Pieces) :
    render p [] = render p Spec.Style.pep440.name.toList ∧ render p "default".toList = render p Spec.Style.pep440.name.toList := by
  constructor <;> simp [render, Spec.Style.name]

/-- **C111, output that is not understood.**  If what `git describe` prints contains a hyphen without having the expected
form, the version is `unknown`; whether the tree is dirty and the date are not reported, the commit is, and the error
quotes the output. -/
theorem C111_unparsed (f : Path) (g : Git) (out full : List Char) (h0 : g.gitDir = some 0) (h1 : g.describe = some out)
    (h2 : g.head = some full)
    (h3 : let d := if "-dirty".toList <:+ strip out then (strip out).take ((strip out).length - 6) else strip out
      '-' ∈ d ∧ ¬ ∃ tag num hex, d = tag ++ "-".toList ++ num ++ "-g".toList ++ hex ∧ tag ≠ [] ∧ '\n' ∉ tag ∧
        num ≠ [] ∧ (∀ c ∈ num, c.isDigit = true) ∧ hex ≠ [] ∧ ∀ c ∈ hex, c ∈ "0123456789abcdef".toList) :
    getVersions sourceKeywords (some f) g =
      .ok ⟨"unknown".toList, some (strip full), none,
        some ("unable to parse git-describe output: '".toList ++ strip out ++ "'".toList), none⟩ := by
  dsimp only at h3
  obtain ⟨h3, h4⟩ := h3
  have h5 : matchDescribe (if "-dirty".toList <:+ strip out then (strip out).take ((strip out).length - 6) else strip out) =
      none := by
    cases hm : matchDescribe (if "-dirty".toList <:+ strip out then (strip out).take ((strip out).length - 6) else strip out) with
    | none => rfl
    | some r => exact absurd ⟨r.1, r.2.1, r.2.2, (C111_pattern _ _ _ _).1 hm⟩ h4
  unfold getVersions
  simp only [fromKeywords_source, bind, Except.bind, gitPieces, h0, h1, h2, ne_eq, not_true_eq_false, if_false,
    decide_eq_true_eq, h3, if_true, h5]
  rfl

/-- A mangled description. -/
example : getVersions sourceKeywords (some ["_version.py".toList, "CADMium".toList, "src".toList])
    ⟨some 0, some "v1-2-gxyz-dirty".toList, some "dc08fb6aa".toList, none, some "2020-10-05 11:23:45 -0400".toList⟩ =
    .ok ⟨"unknown".toList, some "dc08fb6aa".toList, none,
      some "unable to parse git-describe output: 'v1-2-gxyz-dirty'".toList, none⟩ := by decide +kernel

/-- A dirty tree two commits after `v1-beta`: the tag may contain hyphens. -/
example : getVersions sourceKeywords (some ["_version.py".toList, "CADMium".toList, "src".toList])
    ⟨some 0, some "v1-beta-2-gdc08fb6-dirty".toList, some "dc08fb6aa".toList, none, some "2020-10-05 11:23:45 -0400".toList⟩ =
    .ok ⟨"v1-beta+2.gdc08fb6.dirty".toList, some "dc08fb6aa".toList, some true, none,
      some "2020-10-05T11:23:45-0400".toList⟩ := by decide +kernel

/-- Without a tag. -/
example : getVersions sourceKeywords (some ["_version.py".toList, "CADMium".toList, "src".toList])
    ⟨some 0, some "dc08fb6".toList, some "dc08fb6aa".toList, some "105".toList, some "2020-10-05 11:23:45 -0400".toList⟩ =
    .ok ⟨"0+untagged.105.gdc08fb6".toList, some "dc08fb6aa".toList, some false, none,
      some "2020-10-05T11:23:45-0400".toList⟩ := by decide +kernel

/-- If `git show` fails, the import of the package raises `AttributeError`. -/
example : getVersions sourceKeywords (some []) ⟨some 0, some "1.0-0-gab".toList, some "ab".toList, none, none⟩ =
    .error .attributeError := by decide +kernel

end Verif
