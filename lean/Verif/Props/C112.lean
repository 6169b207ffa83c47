import Verif.Props.C111
import Mathlib.Data.List.Dedup

/-!
# C112: the version of an archive

In an archive made by `git archive` the keywords are replaced: the names of the commit (`%d`), the commit and the date.
The reported version should be a tag of that commit; an archive without `git` information should report the version in
the name of its directory.
-/

namespace Verif
open Version

namespace Spec

/-- A name of a commit: `HEAD` (perhaps with the branch it is on), a tag, or a branch. -/
inductive Ref
  | head (branch : Option (List Char))
  | tag (name : List Char)
  | branch (name : List Char)

/-- How `git log --decorate` prints it. -/
def Ref.text : Ref → List Char
  | .head none => "HEAD".toList
  | .head (some b) => "HEAD -> ".toList ++ b
  | .tag t => "tag: ".toList ++ t
  | .branch b => b

/-- Names are not empty and contain no blank, control character, comma or parenthesis.  (`git` allows the last two;
see `C112_refuted_comma`.) -/
def Ref.Plain (r : Ref) : Prop :=
  let ok (s : List Char) := s ≠ [] ∧ ∀ c ∈ s, ' '.toNat < c.toNat ∧ c ≠ ',' ∧ c ≠ '(' ∧ c ≠ ')'
  match r with
  | .head none => True
  | .head (some b) => ok b
  | .tag t => ok t
  | .branch b => ok b

/-- The expansion of `%d`. -/
def decoration (refs : List Ref) : List Char :=
  if refs = [] then [] else " (".toList ++ ", ".toList.intercalate (refs.map Ref.text) ++ ")".toList

/-- The tags among the names. -/
def tagsOf (refs : List Ref) : List (List Char) :=
  refs.filterMap fun | .tag t => some t | _ => none

/-- `v` is the first of the names in `l` in the order of the code points. -/
def First (v : List Char) (l : List (List Char)) : Prop := v ∈ l ∧ ∀ t ∈ l, v ≤ t

end Spec

namespace Version

theorem intercalate_space (t : Str) : ∀ ts : List Str,
    ", ".toList.intercalate (t :: ts) = [','].intercalate (t :: ts.map (' ' :: ·))
  | [] => by simp [List.intercalate]
  | u :: us => by
    have ih := intercalate_space u us
    have : ∀ (sep : Str) (x y : Str) (l : List Str), sep.intercalate (x :: y :: l) = x ++ sep ++ sep.intercalate (y :: l) := by
      intro sep x y l; simp [List.intercalate]
    rw [this, ih, List.map_cons, this]
    cases us <;> simp [List.intercalate]

/-- A character of a printed name is not one of the separators. -/
theorem text_chars {r : Spec.Ref} (h : r.Plain) : ∀ c ∈ r.text, c ≠ ',' ∧ c ≠ '(' ∧ c ≠ ')' := by
  have h1 : ∀ c ∈ "HEAD".toList, c ≠ ',' ∧ c ≠ '(' ∧ c ≠ ')' := by decide
  have h2 : ∀ c ∈ "HEAD -> ".toList, c ≠ ',' ∧ c ≠ '(' ∧ c ≠ ')' := by decide
  have h3 : ∀ c ∈ "tag: ".toList, c ≠ ',' ∧ c ≠ '(' ∧ c ≠ ')' := by decide
  intro c hc
  match r, h with
  | .head none, _ => exact h1 c hc
  | .head (some b), h =>
    rcases List.mem_append.1 hc with hc | hc
    · exact h2 c hc
    · exact (h.2 c hc).2
  | .tag t, h =>
    rcases List.mem_append.1 hc with hc | hc
    · exact h3 c hc
    · exact (h.2 c hc).2
  | .branch b, h => exact (h.2 c hc).2

theorem strip_prefixed {a b : Str} (ha : ∀ c ∈ a.head?, isSpace c = false) (hne : a ≠ []) (hb : b ≠ [])
    (hv : ∀ c ∈ b, ' '.toNat < c.toNat) : strip (a ++ b) = a ++ b := by
  refine strip_self (fun c hc => ?_) (fun c hc => ?_)
  · obtain ⟨x, xs, rfl⟩ := List.exists_cons_of_ne_nil hne
    exact ha c (by simpa using hc)
  · rw [List.getLast?_append_of_ne_nil _ hb] at hc
    exact isSpace_false (hv c (List.mem_of_getLast? hc))

theorem strip_text {r : Spec.Ref} (h : r.Plain) : strip r.text = r.text := by
  match r, h with
  | .head none, _ => decide +kernel
  | .head (some b), h => exact strip_prefixed (by decide) (by decide) h.1 fun c hc => (h.2 c hc).1
  | .tag t, h => exact strip_prefixed (by decide) (by decide) h.1 fun c hc => (h.2 c hc).1
  | .branch b, h => exact strip_vis fun c hc => (h.2 c hc).1

theorem strip_space (s : Str) : strip (' ' :: s) = strip s := by
  unfold strip stripBy
  rw [List.dropWhile_cons_of_pos (by decide)]

/-- `refnames.strip()` of a decoration. -/
theorem strip_decoration {body : Str} : strip (" (".toList ++ body ++ ")".toList) = '(' :: body ++ [')'] := by
  have : " (".toList ++ body ++ ")".toList = ' ' :: ('(' :: body ++ [')']) := by simp
  rw [this, strip_space]
  refine strip_self (fun c hc => ?_) (fun c hc => ?_)
  · simp only [List.cons_append, List.head?_cons, Option.mem_def, Option.some.injEq] at hc; subst hc; decide
  · rw [List.getLast?_append_of_ne_nil _ (by simp)] at hc
    simp only [List.getLast?_singleton, Option.mem_def, Option.some.injEq] at hc; subst hc; decide

/-- `refnames.strip("()")`. -/
theorem strip_parens {body : Str} (h : ∀ c ∈ body, c ≠ '(' ∧ c ≠ ')') :
    stripBy (fun c => c = '(' || c = ')') ('(' :: body ++ [')']) = body := by
  have hp : ∀ c ∈ body, (decide (c = '(') || decide (c = ')')) = false := fun c hc => by simp [h c hc]
  unfold stripBy
  rw [List.cons_append, List.dropWhile_cons_of_pos (by decide)]
  cases body with
  | nil => decide
  | cons x xs =>
    rw [List.cons_append, List.dropWhile_cons_of_neg (by simp [hp x (by simp)]), ← List.cons_append,
      List.rdropWhile_concat_pos _ _ _ (by decide), List.rdropWhile_eq_self_iff]
    intro hl
    simp only [hp _ (List.getLast_mem hl), Bool.false_eq_true, not_false_eq_true]

/-- The set `refs`, as a list, before duplicates are removed. -/
theorem split_decoration {refs : List Spec.Ref} (hne : refs ≠ []) (h : ∀ r ∈ refs, r.Plain) :
    ((stripBy (fun c => c = '(' || c = ')') (strip (Spec.decoration refs))).splitOn ',').map strip = refs.map Spec.Ref.text := by
  rw [Spec.decoration, if_neg hne, strip_decoration]
  obtain ⟨r, rs, rfl⟩ := List.exists_cons_of_ne_nil hne
  rw [List.map_cons, intercalate_space]
  have hmem : ∀ l ∈ r.text :: ((rs.map Spec.Ref.text).map (' ' :: ·)), ∀ c ∈ l, c ≠ ',' ∧ c ≠ '(' ∧ c ≠ ')' := by
    intro l hl c hc
    rcases List.mem_cons.1 hl with rfl | hl
    · exact text_chars (h r (by simp)) c hc
    · obtain ⟨t, ht, rfl⟩ := List.mem_map.1 hl
      obtain ⟨q, hq, rfl⟩ := List.mem_map.1 ht
      rcases List.mem_cons.1 hc with rfl | hc
      · decide
      · exact text_chars (h q (by simp [hq])) c hc
  rw [strip_parens, List.splitOn_intercalate]
  · rw [List.map_cons, strip_text (h r (by simp)), List.map_map]
    congr 1
    rw [List.map_map]
    refine List.map_congr_left fun q hq => ?_
    simp only [Function.comp, strip_space]
    exact strip_text (h q (by simp [hq]))
  · exact fun l hl hc => (hmem l hl _ hc).1 rfl
  · simp
  · intro c hc
    have : ∀ (ls : List Str), (∀ l ∈ ls, ∀ c ∈ l, c ≠ ',' ∧ c ≠ '(' ∧ c ≠ ')') → ∀ c ∈ [','].intercalate ls, c ≠ '(' ∧ c ≠ ')' := by
      intro ls
      induction ls with
      | nil => intro _ c hc; simp [List.intercalate] at hc
      | cons x xs ih =>
        intro hl c hc
        cases xs with
        | nil =>
          simp only [List.intercalate, List.intersperse_singleton, List.flatten_singleton] at hc
          exact (hl x (by simp) c hc).2
        | cons y ys =>
          have e : [','].intercalate (x :: y :: ys) = x ++ [','] ++ [','].intercalate (y :: ys) := by simp [List.intercalate]
          rw [e] at hc
          rcases List.mem_append.1 hc with hc | hc
          · rcases List.mem_append.1 hc with hc | hc
            · exact (hl x (by simp) c hc).2
            · simp only [List.mem_singleton] at hc; subst hc; decide
          · exact ih (fun l hl' => hl l (List.mem_cons_of_mem _ hl')) c hc
    exact this _ hmem c hc

theorem tag_prefix {r : Spec.Ref} (h : r.Plain) {t : Str} :
    ("tag: ".toList <+: r.text ∧ r.text.drop 5 = t) ↔ r = .tag t := by
  have nsp : ∀ {s : Str}, (∀ c ∈ s, ' '.toNat < c.toNat ∧ c ≠ ',' ∧ c ≠ '(' ∧ c ≠ ')') → ¬ "tag: ".toList <+: s := by
    rintro s hs ⟨u, rfl⟩
    exact absurd (hs ' ' (by simp)).1 (by decide)
  match r, h with
  | .head none, _ =>
    have : ¬ "tag: ".toList <+: "HEAD".toList := by decide
    exact iff_of_false (fun h => this h.1) (by simp)
  | .head (some b), h =>
    have : ¬ "tag: ".toList <+: "HEAD -> ".toList ++ b := by simp
    exact iff_of_false (fun h => this h.1) (by simp)
  | .tag s, h =>
    have : ("tag: ".toList <+: "tag: ".toList ++ s ∧ ("tag: ".toList ++ s).drop 5 = t) ↔ Spec.Ref.tag s = .tag t := by simp
    exact this
  | .branch b, h => exact iff_of_false (fun h' => nsp h.2 h'.1) (by simp)

/-- The choice of a tag: the first one, if there is one. -/
theorem find_first (l : List Str) :
    match (l.insertionSort (· ≤ ·)).find? (fun r => decide (([] : Str) <+: r)) with
    | some v => Spec.First v l
    | none => l = [] := by
  cases hs : l.insertionSort (· ≤ ·) with
  | nil =>
    simp only [List.find?_nil]
    have := List.length_insertionSort (· ≤ ·) l
    rw [hs] at this
    exact List.length_eq_zero_iff.1 this.symm
  | cons x xs =>
    have e : (x :: xs).find? (fun r => decide (([] : Str) <+: r)) = some x := by simp
    rw [e]
    refine ⟨(List.mem_insertionSort (· ≤ ·)).1 (by rw [hs]; simp), fun t ht => ?_⟩
    have ht' : t ∈ x :: xs := by rw [← hs]; exact (List.mem_insertionSort (· ≤ ·)).2 ht
    have hp := List.pairwise_insertionSort (· ≤ ·) l
    rw [hs, List.pairwise_cons] at hp
    rcases List.mem_cons.1 ht' with rfl | ht'
    · exact List.le_refl t
    · exact hp.1 t ht'

end Version

/-- The names among which the version of an archive is chosen: the tags, or, if there is none, every name with a digit. -/
def Spec.candidates (refs : List Spec.Ref) : List (List Char) :=
  if Spec.tagsOf refs = [] then (refs.map Spec.Ref.text).filter (·.any Char.isDigit) else Spec.tagsOf refs

/-- **C112, archives.**  For every list of names of the commit the reported version is the first of the candidates in the
order of the code points; without a candidate it is `0+unknown`, with an error.  The revision is the commit. -/
theorem C112_archive_partial (refs : List Spec.Ref) (h : ∀ r ∈ refs, r.Plain) (commit date : List Char) (f : Option Path) (g : Git) :
    (Spec.candidates refs = [] ∧
      getVersions ⟨some (Spec.decoration refs), some commit, some date⟩ f g =
        .ok ⟨"0+unknown".toList, some (strip commit), some false, some "no suitable tags".toList, none⟩) ∨
    ∃ v, Spec.First v (Spec.candidates refs) ∧
      getVersions ⟨some (Spec.decoration refs), some commit, some date⟩ f g =
        .ok ⟨v, some (strip commit), some false, none, some (isoDate date)⟩ := by
  have hfmt : ¬ "$Format".toList <+: strip (Spec.decoration refs) := by
    by_cases hne : refs = []
    · rw [hne]; decide +kernel
    · rw [Spec.decoration, if_neg hne, strip_decoration]
      simp
  -- the two lists of names have the members of the specification
  generalize hR : (((stripBy (fun c => c = '(' || c = ')') (strip (Spec.decoration refs))).splitOn ',').map strip).dedup = R
  have hmem : ∀ t, t ∈ ((R.filter fun r => "tag: ".toList <+: r).map (·.drop 5)).dedup ↔ t ∈ Spec.tagsOf refs := by
    intro t
    by_cases hne : refs = []
    · subst hne
      have : R = [[]] := by rw [← hR]; decide +kernel
      subst this
      simp [Spec.tagsOf]
    · rw [split_decoration hne h] at hR
      subst hR
      simp only [List.mem_dedup, List.mem_map, List.mem_filter, decide_eq_true_eq, Spec.tagsOf, List.mem_filterMap]
      constructor
      · rintro ⟨s, ⟨⟨r, hr, rfl⟩, h1⟩, h2⟩
        exact ⟨r, hr, by rw [(tag_prefix (h r hr)).1 ⟨h1, h2⟩]⟩
      · rintro ⟨r, hr, hrt⟩
        have e : r = .tag t := by
          cases r with
          | head b => cases hrt
          | branch b => cases hrt
          | tag s => cases hrt; rfl
        obtain ⟨h1, h2⟩ := (tag_prefix (h r hr)).2 e
        exact ⟨_, ⟨⟨r, hr, rfl⟩, h1⟩, h2⟩
  have hdig : ∀ t, t ∈ R.filter (·.any Char.isDigit) ↔ t ∈ (refs.map Spec.Ref.text).filter (·.any Char.isDigit) := by
    intro t
    by_cases hne : refs = []
    · subst hne
      have : R = [[]] := by rw [← hR]; decide +kernel
      subst this
      simp
    · rw [split_decoration hne h] at hR
      subst hR
      simp only [List.mem_filter, List.mem_dedup]
  generalize hT : ((R.filter fun r => "tag: ".toList <+: r).map (·.drop 5)).dedup = T at hmem
  have hC : ∀ t, t ∈ (if T = [] then R.filter (·.any Char.isDigit) else T) ↔ t ∈ Spec.candidates refs := by
    have hiff : T = [] ↔ Spec.tagsOf refs = [] := by
      simp only [List.eq_nil_iff_forall_not_mem, hmem]
    intro t
    unfold Spec.candidates
    by_cases h0 : T = []
    · rw [if_pos h0, if_pos (hiff.1 h0), hdig]
    · rw [if_neg h0, if_neg (fun e => h0 (hiff.2 e)), hmem]
  generalize hL : (if T = [] then R.filter (·.any Char.isDigit) else T) = L at hC
  have hk : fromKeywords ⟨some (Spec.decoration refs), some commit, some date⟩ [] =
      match (L.insertionSort (· ≤ ·)).find? (fun r => decide (([] : Str) <+: r)) with
      | some r => .ok (some ⟨r, some (strip commit), some false, none, some (isoDate date)⟩)
      | none => .ok (some ⟨"0+unknown".toList, some (strip commit), some false, some "no suitable tags".toList, none⟩) := by
    simp only [fromKeywords, key, bind, Except.bind, if_neg hfmt, hR, hT, hL, List.length_nil, List.drop_zero, Option.map_some]
    rfl
  have hf := find_first L
  unfold getVersions
  rw [hk]
  cases hfind : (L.insertionSort (· ≤ ·)).find? (fun r => decide (([] : Str) <+: r)) with
  | none =>
    rw [hfind] at hf
    left
    refine ⟨?_, rfl⟩
    rw [List.eq_nil_iff_forall_not_mem]
    intro t ht
    have := (hC t).2 ht
    rw [hf] at this; cases this
  | some v =>
    rw [hfind] at hf
    right
    exact ⟨v, ⟨(hC v).1 hf.1, fun t ht => hf.2 t ((hC t).2 ht)⟩, rfl⟩

/-- **C112, a tagged commit.**  The archive of a commit with a tag reports one of its tags, without error. -/
theorem C112_tagged_partial (refs : List Spec.Ref) (h : ∀ r ∈ refs, r.Plain) (ht : Spec.tagsOf refs ≠ [])
    (commit date : List Char) (f : Option Path) (g : Git) :
    ∃ v, Spec.Ref.tag v ∈ refs ∧ (∀ t, Spec.Ref.tag t ∈ refs → v ≤ t) ∧
      getVersions ⟨some (Spec.decoration refs), some commit, some date⟩ f g =
        .ok ⟨v, some (strip commit), some false, none, some (isoDate date)⟩ := by
  have hm : ∀ t, t ∈ Spec.tagsOf refs ↔ Spec.Ref.tag t ∈ refs := by
    intro t
    simp only [Spec.tagsOf, List.mem_filterMap]
    constructor
    · rintro ⟨r, hr, hrt⟩
      cases r with
      | head b => cases hrt
      | branch b => cases hrt
      | tag s => cases hrt; exact hr
    · exact fun hr => ⟨_, hr, rfl⟩
  have hc : Spec.candidates refs = Spec.tagsOf refs := if_neg ht
  rcases C112_archive_partial refs h commit date f g with ⟨h0, -⟩ | ⟨v, hv, e⟩
  · exact absurd (hc ▸ h0) ht
  · rw [hc] at hv
    exact ⟨v, (hm v).1 hv.1, fun t ht => hv.2 t ((hm t).2 ht), e⟩

/-- **C112 refuted for an untagged commit.**  The archive of a commit without a tag, on a branch whose name has a digit,
reports the branch as the version, without error. -/
theorem C112_refuted_branch :
    ∃ refs : List Spec.Ref, (∀ r ∈ refs, r.Plain) ∧ Spec.tagsOf refs = [] ∧ ∀ f g,
      getVersions ⟨some (Spec.decoration refs), some "abc".toList, some "2020-10-05 11:23:45 -0400".toList⟩ f g =
        .ok ⟨"HEAD -> fix2".toList, some "abc".toList, some false, none, some "2020-10-05T11:23:45-0400".toList⟩ := by
  refine ⟨[.head (some "fix2".toList)], ?_, rfl, fun f g => ?_⟩
  · simp only [List.mem_singleton, forall_eq]
    exact ⟨by decide, by decide⟩
  · have : fromKeywords ⟨some (Spec.decoration [.head (some "fix2".toList)]), some "abc".toList,
        some "2020-10-05 11:23:45 -0400".toList⟩ [] =
        .ok (some ⟨"HEAD -> fix2".toList, some "abc".toList, some false, none, some "2020-10-05T11:23:45-0400".toList⟩) := by
      decide +kernel
    unfold getVersions
    rw [this]
    rfl

/-- **C112 refuted for two tags.**  The archive of a commit tagged `1.0` and later `1.1` reports `1.0`. -/
theorem C112_refuted_newest (f : Option Path) (g : Git) :
    getVersions ⟨some (Spec.decoration [.tag "1.1".toList, .tag "1.0".toList]), some "abc".toList, some "d".toList⟩ f g =
      .ok ⟨"1.0".toList, some "abc".toList, some false, none, some "d".toList⟩ := by
  have : fromKeywords ⟨some (Spec.decoration [.tag "1.1".toList, .tag "1.0".toList]), some "abc".toList, some "d".toList⟩ [] =
      .ok (some ⟨"1.0".toList, some "abc".toList, some false, none, some "d".toList⟩) := by decide +kernel
  unfold getVersions
  rw [this]
  rfl

/-- **C112 refuted for a tag with a comma.**  The archive of a commit tagged `a,b` reports `a`. -/
theorem C112_refuted_comma (f : Option Path) (g : Git) :
    getVersions ⟨some (Spec.decoration [.tag "a,b".toList]), some "abc".toList, some "d".toList⟩ f g =
      .ok ⟨"a".toList, some "abc".toList, some false, none, some "d".toList⟩ := by
  have : fromKeywords ⟨some (Spec.decoration [.tag "a,b".toList]), some "abc".toList, some "d".toList⟩ [] =
      .ok (some ⟨"a".toList, some "abc".toList, some false, none, some "d".toList⟩) := by decide +kernel
  unfold getVersions
  rw [this]
  rfl

/-- **C112, outside of `git`.**  Without expanded keywords and outside of `git` the version is unknown, unless the name of
one of the three innermost directories starts with `None`. -/
theorem C112_directory_partial (file dir : List Char) (a b c : List Char) (rest : List (List Char)) (g : Git)
    (hg : g.gitDir ≠ some 0) (ha : ¬ "None".toList <+: a) (hb : ¬ "None".toList <+: b) (hc : ¬ "None".toList <+: c) :
    getVersions sourceKeywords (some (file :: dir :: a :: b :: c :: rest)) g =
      .ok ⟨"0+unknown".toList, none, none, some "unable to compute version".toList, none⟩ := by
  unfold getVersions
  simp only [fromKeywords_source, bind, Except.bind, gitPieces, hg, ne_eq, not_false_eq_true, if_true]
  simp only [fromParentdir, parentLoop, dirname, basename, List.tail_cons, List.headD_cons, ha, hb, hc, if_false]
  rfl

theorem Version.fromParentdir_second {pre a b : Str} {rest : Path} (ha : ¬ pre <+: a) (hb : pre <+: b) :
    fromParentdir pre (a :: b :: rest) = some ⟨b.drop pre.length, none, some false, none, none⟩ := by
  simp only [fromParentdir, parentLoop, dirname, basename, List.tail_cons, List.headD_cons, ha, hb, if_false, if_true]

/-- **C112, how far up.**  Outside of `git` the names of the three innermost directories above the package are tried, from
the inside: the first that starts with `None` gives the version. -/
theorem C112_levels (file dir : List Char) (names : List (List Char)) (g : Git) (hg : g.gitDir ≠ some 0) (k : ℕ) (hk : k < 3)
    (v : List Char) (hv : names[k]? = some ("None".toList ++ v))
    (hb : ∀ j, j < k → ∀ a, names[j]? = some a → ¬ "None".toList <+: a) :
    getVersions sourceKeywords (some (file :: dir :: names)) g = .ok ⟨v, none, some false, none, none⟩ := by
  have h3 : ("None".toList ++ v).drop "None".toList.length = v := List.drop_left
  have hp : "None".toList <+: "None".toList ++ v := List.prefix_append _ _
  have key : fromParentdir "None".toList names = some ⟨v, none, some false, none, none⟩ := by
    have step : ∀ (n j : ℕ) (l : List (List Char)), j < n → l[j]? = some ("None".toList ++ v) →
        (∀ i, i < j → ∀ a, l[i]? = some a → ¬ "None".toList <+: a) →
        parentLoop "None".toList n l = some ⟨v, none, some false, none, none⟩ := by
      intro n
      induction n with
      | zero => intro j l h; omega
      | succ n ih =>
        intro j l hj hl hn
        cases l with
        | nil => simp at hl
        | cons x xs =>
          cases j with
          | zero =>
            simp only [List.getElem?_cons_zero, Option.some.injEq] at hl
            subst hl
            simp only [parentLoop, basename, List.headD_cons, hp, if_true, h3]
          | succ j =>
            have hx := hn 0 (by omega) x rfl
            simp only [parentLoop, basename, dirname, List.headD_cons, List.tail_cons, hx, if_false]
            exact ih j xs (by omega) (by simpa using hl) fun i hi a ha => hn (i + 1) (by omega) a (by simpa using ha)
    exact step 3 k names hk hv hb
  unfold getVersions
  simp only [fromKeywords_source, bind, Except.bind, gitPieces, hg, ne_eq, not_false_eq_true, if_true]
  rw [show dirname (dirname (file :: dir :: names)) = names from rfl, key]
  rfl

/-- **C112 refuted for directory names.**  A source archive unpacked into `CADMium-VERSION` reports an unknown version,
whatever `VERSION` is; one unpacked below a directory whose name starts with `None` reports the rest of that name. -/
theorem C112_refuted_directory (v : List Char) (g : Git) (hg : g.gitDir ≠ some 0) :
    getVersions sourceKeywords
        (some ["_version.py".toList, "CADMium".toList, "CADMium-".toList ++ v, "src".toList, "home".toList]) g =
      .ok ⟨"0+unknown".toList, none, none, some "unable to compute version".toList, none⟩ ∧
    getVersions sourceKeywords
        (some ["_version.py".toList, "CADMium".toList, "CADMium-1.0".toList, "None".toList ++ v, "home".toList]) g =
      .ok ⟨v, none, some false, none, none⟩ := by
  constructor
  · exact C112_directory_partial _ _ _ _ _ [] g hg (by simp) (by decide) (by decide)
  · have h3 : ("None".toList ++ v).drop "None".toList.length = v := List.drop_left
    have h4 := fromParentdir_second (pre := "None".toList) (a := "CADMium-1.0".toList) (b := "None".toList ++ v)
      (rest := ["home".toList]) (by decide) (List.prefix_append _ _)
    rw [h3] at h4
    unfold getVersions
    simp only [fromKeywords_source, bind, Except.bind, gitPieces, hg, ne_eq, not_false_eq_true, if_true]
    rw [show dirname (dirname ["_version.py".toList, "CADMium".toList, "CADMium-1.0".toList, "None".toList ++ v, "home".toList]) =
      ["CADMium-1.0".toList, "None".toList ++ v, "home".toList] from rfl, h4]
    rfl

/-- The archive of a commit tagged `2.0` and `2.0rc1`, the head of `master`, reports `2.0`. -/
example : getVersions ⟨some " (HEAD -> master, tag: 2.0rc1, tag: 2.0, origin/master)".toList, some "dc08fb6\n".toList,
      some "2020-10-05 11:23:45 -0400".toList⟩ none ⟨none, none, none, none, none⟩ =
    .ok ⟨"2.0".toList, some "dc08fb6".toList, some false, none, some "2020-10-05T11:23:45-0400".toList⟩ := by decide +kernel

end Verif
