import Verif.Lemmas.Options

/-!
# C31: option dictionaries
-/

namespace Verif
open Opt Spec

/-- The option classes whose dictionaries are lower-cased before use. -/
def Spec.lowerCased : List (List Field) :=
  [solverFields, ksFields, partitionFields, inverterFields, partitionScfFields]

/-- A value the field is documented to take: of the declared type and, where the class lists the
choices, one of them. -/
def Spec.Documented (f : Field) (v : Val) : Prop :=
  v.kind = f.kind ∧ ∀ l s, f.choices = some l → v = .str s → s ∈ l

theorem Opt.accept_documented {coerce : Kind → Val → Option Val}
    (hco : ∀ v : Val, coerce v.kind v = some v) {f : Field} {v : Val} (h : Documented f v) :
    f.accept coerce v = .ok v := by
  unfold Field.accept
  rw [← h.1, hco]
  cases hc : f.choices with
  | none => rfl
  | some l =>
    cases v with
    | str s => simp [h.2 l s hc rfl]
    | _ => rfl

/-- C31 for `Pssolver`, `Kohnsham`, `Partition`, `Inverter` and `Partition.scf`: an unknown key raises
`ValueError`; with documented keys (in any letter case) and values every option has the value last
supplied for it, or its default. -/
theorem C31_options (lower : String → String) (coerce : Kind → Val → Option Val)
    (hco : ∀ v : Val, coerce v.kind v = some v) (fs : List Field) (hfs : fs ∈ lowerCased) (d : Dict) :
    ((∃ e ∈ d, lower e.1 ∉ fs.map Field.name) → build lower coerce fs d = .error .valueError) ∧
    ((∀ e ∈ d, ∃ f ∈ fs, lower e.1 = f.name ∧ Documented f e.2) →
      ∃ o, build lower coerce fs d = .ok o ∧
        ∀ f ∈ fs, o.get? f.name = some ((supplied lower d f.name).getD f.default)) := by
  have hnd : (fs.map Field.name).Nodup := by
    simp only [lowerCased, List.mem_cons, List.not_mem_nil, or_false] at hfs
    rcases hfs with rfl | rfl | rfl | rfl | rfl <;> decide
  have hinj : ∀ f ∈ fs, ∀ g ∈ fs, f.name = g.name → f = g := fun f hf g hg h =>
    List.inj_on_of_nodup_map hnd hf hg h
  constructor
  · intro h
    unfold build
    simp only
    rw [if_pos ((unknown_iff lower d _).mpr h)]
  · intro h
    unfold build
    simp only
    rw [if_neg]
    · refine pydantic_ok coerce fs hnd _ (fun f => (supplied lower d f.name).getD f.default) ?_
      intro f hf
      rw [lowered_get?]
      cases hs : supplied lower d f.name with
      | none => rfl
      | some x =>
        have hx : ∃ e ∈ d, lower e.1 = f.name ∧ e.2 = x := by
          unfold supplied at hs
          rw [Option.map_eq_some_iff] at hs
          obtain ⟨e, he, rfl⟩ := hs
          have := List.mem_of_getLast? he
          rw [List.mem_filter] at this
          exact ⟨e, this.1, by simpa using this.2, rfl⟩
        obtain ⟨e, he, hl, rfl⟩ := hx
        obtain ⟨g, hg, hgl, hdoc⟩ := h e he
        have : f = g := hinj f hf g hg (hl.symm.trans hgl)
        subst this
        exact accept_documented hco hdoc
    · rw [unknown_iff]
      rintro ⟨e, he, hn⟩
      obtain ⟨f, hf, hl, -⟩ := h e he
      exact hn (hl ▸ List.mem_map_of_mem hf)

/-- C31: a value that cannot be converted, or is not among the listed choices, raises `ValueError`. -/
theorem C31_invalid (lower : String → String) (coerce : Kind → Val → Option Val)
    (fs : List Field) (d : Dict) (f : Field) (hf : f ∈ fs) (v : Val)
    (hv : supplied lower d f.name = some v) (hbad : f.accept coerce v = .error .valueError) :
    build lower coerce fs d = .error .valueError := by
  unfold build
  simp only
  split
  · rfl
  exact pydantic_error coerce fs _ f hf v (by rw [lowered_get?, hv]) hbad

/-- C31 for `Kohnsham.scf`, partial: an unknown key raises `ValueError`; keys written exactly like the
option take effect.  Missing: keys in another letter case, which are accepted without effect
(`C31_refuted`). -/
theorem C31_scf_partial (lower : String → String) (coerce : Kind → Val → Option Val)
    (hco : ∀ v : Val, coerce v.kind v = some v) (d : Dict)
    (hlow : ∀ f ∈ ksScfFields, lower f.name = f.name) :
    ((∃ e ∈ d, lower e.1 ∉ ksScfFields.map Field.name) →
      buildScf lower coerce ksScfFields d = .error .valueError) ∧
    ((∀ e ∈ d, ∃ f ∈ ksScfFields, lower e.1 = f.name ∧ Documented f e.2) →
      ∃ o, buildScf lower coerce ksScfFields d = .ok o ∧
        ∀ f ∈ ksScfFields, o.get? f.name = some ((d.get? f.name).getD f.default)) := by
  have hnd : (ksScfFields.map Field.name).Nodup := by decide
  have hinj : ∀ f ∈ ksScfFields, ∀ g ∈ ksScfFields, f.name = g.name → f = g := fun f hf g hg h =>
    List.inj_on_of_nodup_map hnd hf hg h
  have hget : ∀ (d : Dict) k x, d.get? k = some x → ∃ e ∈ d, e.1 = k ∧ e.2 = x := by
    intro d k x h
    induction d with
    | nil => cases h
    | cons a d ih =>
      by_cases ha : a.1 = k
      · rw [Dict.get?, if_pos ha] at h
        exact ⟨a, List.mem_cons_self, ha, Option.some.inj h⟩
      · rw [Dict.get?, if_neg ha] at h
        obtain ⟨e, he, h⟩ := ih h
        exact ⟨e, List.mem_cons_of_mem _ he, h⟩
  refine ⟨fun h => by rw [buildScf, if_pos h], fun h => ?_⟩
  have hno : ¬ ∃ e ∈ d, lower e.1 ∉ ksScfFields.map Field.name := by
    rintro ⟨e, he, hn⟩
    obtain ⟨f, hf, hl, -⟩ := h e he
    exact hn (hl ▸ List.mem_map_of_mem hf)
  rw [buildScf, if_neg hno]
  obtain ⟨o, ho, hv⟩ := pydantic_ok coerce ksScfFields hnd d
    (fun f => (d.get? f.name).getD f.default) (by
      intro f hf
      cases hs : d.get? f.name with
      | none => rfl
      | some x =>
        obtain ⟨e, he, hl, rfl⟩ := hget d _ x hs
        obtain ⟨g, hg, hgl, hdoc⟩ := h e he
        have hfg : f.name = g.name := by rw [← hgl, hl, hlow f hf]
        have : f = g := hinj f hf g hg hfg
        subst this
        exact accept_documented hco hdoc)
  exact ⟨o, ho, hv⟩

/-- C31 is false for `Kohnsham.scf`: the key `MAXITER` is accepted and the budget stays 100 (`lower`
is any function that lower-cases this key and fixes `maxiter`). -/
theorem C31_refuted (lower : String → String) (hl : lower "MAXITER" = "maxiter")
    (coerce : Kind → Val → Option Val) :
    ∃ o, buildScf lower coerce ksScfFields [("MAXITER", .int 5)] = .ok o ∧
      supplied lower [("MAXITER", .int 5)] "maxiter" = some (.int 5) ∧
      o.get? "maxiter" = some (.int 100) := by
  have h : ¬ ∃ e ∈ [("MAXITER", Val.int 5)], lower e.1 ∉ ksScfFields.map Field.name := by
    simp only [List.mem_singleton, exists_eq_left, not_not, hl]
    decide
  refine ⟨_, by rw [buildScf, if_neg h]; rfl, ?_, rfl⟩
  simp [supplied, hl]

/-- Options and default values as documented: `Pssolver`, `Kohnsham`, `Partition` (which also has those of `Kohnsham`),
`Inverter`, `Kohnsham.scf`, `Partition.scf`. -/
def Spec.defaults : List (List (String × Val)) :=
  let ks := [("interaction_type", .str "dft"), ("sym", .bool false), ("fractional", .bool false), ("xfunc_id", .int 1),
    ("cfunc_id", .int 12), ("xc_family", .str "lda")]
  [[("fractional", .bool false), ("sym", .bool false), ("iter_lin_solver", .bool true), ("disp", .bool true),
    ("tol_orbital", .float (1 / 1000000000000000)), ("tol_lin_solver", .float (1 / 10000))],
   ks,
   ks ++ [("vp_calc_type", .str "component"), ("hxc_part_type", .str "exact"), ("kinetic_part_type", .str "vonweiz"),
    ("k_family", .str "gga"), ("ke_func_id", .int 5), ("ke_param", .dict), ("disp", .bool false), ("ab_sym", .bool false),
    ("fractonal", .bool false), ("ens_spin_sym", .bool false), ("isolated", .bool false), ("fixed_q", .bool false)],
   [("ab_sym", .bool false), ("ens_spin_sym", .bool false), ("use_iterative", .bool false), ("disp", .bool false),
    ("avoid_loop", .bool false), ("invert_type", .str "wuyang"), ("k_val", .float (-1 / 1000000000000)),
    ("tol_lin_solver", .float (1 / 100)), ("tol_invert", .float (1 / 1000000000000)), ("max_iter_lin_solver", .int 2000),
    ("max_iter_invert", .int 20), ("res_factor", .float 1)],
   [("disp", .bool true), ("continuing", .bool false), ("iterative", .bool true), ("spinflipsym", .bool false),
    ("auto_tol", .bool false), ("maxiter", .int 100), ("auto_tol_iter", .int 3), ("e_tol", .float (1 / 100000)),
    ("alpha", .float (1 / 2))],
   [("e_tol", .float (1 / 10000000)), ("max_iter", .int 50), ("alpha", .floats [41 / 50]), ("beta", .floats [41 / 50]),
    ("calc_type", .str "pdft"), ("disp", .bool false), ("continuing", .bool false), ("from_target_density", .bool false),
    ("iterative", .bool true), ("isolated", .bool false), ("auto_tol", .bool false), ("auto_tol_iter", .int 3),
    ("freeze_a", .bool false), ("freeze_b", .bool false)]]

/-- C31: the option classes have these options and defaults, each of the type of its default, and a default is always among
the listed choices: an empty dictionary is accepted everywhere. -/
theorem C31_defaults (lower : String → String) (coerce : Kind → Val → Option Val) :
    List.Forall₂ (fun fs d => build lower coerce fs [] = .ok d ∧ buildScf lower coerce fs [] = .ok d ∧
      ∀ f ∈ fs, f.kind = f.default.kind ∧ ∀ l, f.choices = some l → ∃ s ∈ l, f.default = .str s)
    [solverFields, ksFields, partitionFields, inverterFields, ksScfFields, partitionScfFields] defaults := by
  have key : ∀ (fs : List Field) (d : List (String × Val)), (fs.map fun f => (f.name, f.default)) = d →
      build lower coerce fs [] = .ok d ∧ buildScf lower coerce fs [] = .ok d := by
    rintro fs d rfl
    have hp : pydantic coerce fs [] = .ok (fs.map fun f => (f.name, f.default)) := by
      unfold pydantic
      simp only [Dict.get?]
      induction fs with
      | nil => rfl
      | cons f fs ih => rw [List.mapM_cons, ih]; rfl
    constructor
    · unfold build
      simp [lowered, hp]
    · unfold buildScf
      simp [hp]
  have p (n : ℕ) : (1 : ℚ) / 10 ^ n = 1 / (10 ^ n : ℕ) := by push_cast; rfl
  refine .cons ⟨(key _ _ ?_).1, (key _ _ ?_).2, ?_⟩ (.cons ⟨(key _ _ ?_).1, (key _ _ ?_).2, ?_⟩ (.cons ⟨(key _ _ ?_).1, (key _ _ ?_).2, ?_⟩
    (.cons ⟨(key _ _ ?_).1, (key _ _ ?_).2, ?_⟩ (.cons ⟨(key _ _ ?_).1, (key _ _ ?_).2, ?_⟩ (.cons ⟨(key _ _ ?_).1, (key _ _ ?_).2, ?_⟩ .nil)))))
  all_goals simp [solverFields, ksFields, partitionFields, inverterFields, ksScfFields, partitionScfFields, boolF, intF,
    floatF, strF, Val.kind]
  all_goals norm_num

/-- C31: `SyM=True` given to `Kohnsham` sets `sym`; `interaction_type` keeps its default. -/
example (lower : String → String) (hl : lower "SyM" = "sym") (coerce : Kind → Val → Option Val)
    (hco : ∀ v : Val, coerce v.kind v = some v) :
    ∃ o, build lower coerce ksFields [("SyM", .bool true)] = .ok o ∧
      o.get? "sym" = some (.bool true) ∧ o.get? "interaction_type" = some (.str "dft") := by
  obtain ⟨o, ho, h⟩ := (C31_options lower coerce hco ksFields (by simp [lowerCased])
    [("SyM", .bool true)]).2 (by
      simp only [List.mem_singleton, forall_eq, hl]
      exact ⟨⟨"sym", .bool, .bool false, none⟩, by simp [ksFields, boolF, intF, strF], rfl, rfl, by simp⟩)
  refine ⟨o, ho, ?_, ?_⟩
  · refine (h ⟨"sym", .bool, .bool false, none⟩ (by simp [ksFields, boolF, intF, strF])).trans ?_
    simp [supplied, hl]
  · refine (h ⟨"interaction_type", .str, .str "dft", some ["dft", "ni"]⟩
      (by simp [ksFields, boolF, intF, strF])).trans ?_
    simp [supplied, hl]

end Verif
