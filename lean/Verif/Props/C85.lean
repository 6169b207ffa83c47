import Verif.Model.Construct
import Verif.Props.C28_C30
import Verif.Props.C37_C39
import Verif.Props.C83

/-! # C85: construction of `Kohnsham` and `Partition` objects -/

namespace Verif
open Opt Spec KS
variable {K : Type} [_root_.Field K] [LinearOrder K] [IsStrictOrderedRing K] [FloorRing K]

/-- All keys and values of an option dictionary are documented. -/
def Spec.Valid (lower : String → String) (fs : List Field) (d : Dict) : Prop :=
  ∀ e ∈ d, ∃ f ∈ fs, lower e.1 = f.name ∧ Documented f e.2

/-- A boolean option as the user set it. -/
def Spec.isSet (lower : String → String) (d : Dict) (k : String) : Bool := decide (supplied lower d k = some (.bool true))

/-- The interaction as the user chose it. -/
def Spec.chosen (lower : String → String) (d : Dict) : Interaction :=
  if supplied lower d "interaction_type" = some (.str "ni") then .ni else .dft

/-- The value of an option as the user chose it, or the documented default. -/
def Spec.choice (lower : String → String) (d : Dict) (k : String) (default : String) : Val :=
  (supplied lower d k).getD (.str default)

/-- The meaning of the methods for the potential, the Hartree-exchange-correlation part and the kinetic part. -/
structure Spec.Methods (lower : String → String) (d : Dict) (o : PartOpt) : Prop where
  vp : ∀ m ∈ [("component", VpCalc.component), ("potential_inversion", .potentialInversion)],
    choice lower d "vp_calc_type" "component" = .str m.1 → o.vpCalc = m.2
  hxc : ∀ m ∈ [("exact", HxcPart.exact), ("overlap_hxc", .overlapHxc), ("overlap_hxc_2", .overlapHxc2),
      ("overlap_xc", .overlapXc), ("surprisal", .surprisal), ("hartree", .hartree)],
    choice lower d "hxc_part_type" "exact" = .str m.1 → o.hxc = m.2
  kin : ∀ m ∈ [("vonweiz", KinPart.vonweiz), ("inversion", .inversion), ("libxcke", .libxcke), ("none", .none),
      ("twoorbital", .twoorbital), ("fixed", .fixed)],
    choice lower d "kinetic_part_type" "vonweiz" = .str m.1 → o.kin = m.2

/-- A `Kohnsham` object as constructed: charges, options, the potential of its nuclei, one solver per angular momentum and
spin with the given occupations, and no results yet. -/
structure Spec.Fresh {G : Grid K} {r c p : ℕ} (ks : KS G r c p) (coul : K → K → G.Fld) (a Za Zb : K) (Nmo : Fin r × Fin c → ℕ)
    (N : Fin r × Fin c → K) (kind : Interaction) (sym fractional : Bool) : Prop where
  charges : ks.Za = Za ∧ ks.Zb = Zb ∧ ks.a = a
  options : ks.kind = kind ∧ ks.sym = sym
  vnuc : p = 1 ∨ p = 2 → ∀ s k, ks.vnuc s k =
    if sym then (coul Za Zb k + coul Za Zb (G.mirIx k)) / 2 else coul Za Zb k
  solver : ∀ i j, (ks.solver (i, j)).m = i.1 ∧ (ks.solver (i, j)).pol = c ∧ (ks.solver (i, j)).Nmo = Nmo (i, j) ∧
    (ks.solver (i, j)).N = N (i, j) ∧ (ks.solver (i, j)).fractional = fractional ∧ (ks.solver (i, j)).sym = sym ∧
    (ks.solver (i, j)).phi = none ∧ (ks.solver (i, j)).eig = none ∧ (ks.solver (i, j)).veff = none
  empty : ks.n = none ∧ ks.vext = none ∧ ks.vhxc = none ∧ ks.veff = none ∧ ks.u = none ∧ ks.Q = none ∧ ks.E = none ∧
    ks.V = {} ∧ ks.homo = fun _ => none

theorem Opt.documented_get {fs : List Field} {lower : String → String} {d : Dict} (hd : Valid lower fs d)
    (hnd : (fs.map Field.name).Nodup) (hdef : ∀ f ∈ fs, Documented f f.default) (f : Field) (hf : f ∈ fs) :
    Documented f ((supplied lower d f.name).getD f.default) := by
  cases hs : supplied lower d f.name with
  | none => exact hdef f hf
  | some x =>
    unfold supplied at hs
    rw [Option.map_eq_some_iff] at hs
    obtain ⟨e, he, rfl⟩ := hs
    have := List.mem_of_getLast? he
    rw [List.mem_filter] at this
    obtain ⟨g, hg, hgl, hdoc⟩ := hd e this.1
    have : f = g := List.inj_on_of_nodup_map hnd hf hg ((of_decide_eq_true this.2).symm.trans hgl)
    subst this
    exact hdoc

theorem Opt.flag_eq {lower : String → String} {d o : Dict} {k : String}
    (h : o.get? k = some ((supplied lower d k).getD (.bool false))) : flag o k = isSet lower d k := by
  unfold flag isSet
  rw [h]
  cases supplied lower d k with
  | none => simp
  | some v => cases v <;> simp

theorem Opt.interaction_eq {lower : String → String} {d o : Dict}
    (h : o.get? "interaction_type" = some ((supplied lower d "interaction_type").getD (.str "dft"))) :
    interaction o = chosen lower d := by
  unfold interaction chosen
  rw [h]
  cases supplied lower d "interaction_type" with
  | none => simp
  | some v => simp

theorem Opt.ks_defaults : ∀ f ∈ ksFields, Documented f f.default := by
  simp [ksFields, boolF, intF, strF, Documented, Val.kind]

theorem Opt.partition_defaults : ∀ f ∈ partitionFields, Documented f f.default := by
  simp [partitionFields, ksFields, boolF, intF, strF, Documented, Val.kind]

/-- C85 for `Kohnsham`: documented options and tables of one shape give the described object; an unknown option raises
`ValueError`, tables of different shapes raise `AssertionError`. (`N = -1` is `C28_refuted`.) -/
theorem C85_kohnsham (lower : String → String) (coerce : Kind → Val → Option Val)
    (hco : ∀ v : Val, coerce v.kind v = some v) (hlow : ∀ k ∈ ["fractional", "sym"], lower k = k) (G : Grid K)
    (coul : K → K → G.Fld) (a : K) {r c r' c' : ℕ} (p : ℕ) (Za Zb : K) (Nmo : Fin r × Fin c → ℕ) (N : Fin r × Fin c → K)
    (N' : Fin r' × Fin c' → K) (opt : Dict) :
    (Valid lower ksFields opt → (∀ w, N w ≠ -1) → ∃ ks : KS G r c p,
      KS.init lower coerce G coul a p Za Zb Nmo N opt = .ok ks ∧
      Fresh ks coul a Za Zb Nmo N (chosen lower opt) (isSet lower opt "sym") (isSet lower opt "fractional") ∧ ks.scale = none) ∧
    ((∃ e ∈ opt, lower e.1 ∉ ksFields.map Field.name) →
      KS.init lower coerce G coul a p Za Zb Nmo N' opt = .error .valueError) ∧
    (Valid lower ksFields opt → ¬ (r = r' ∧ c = c') →
      KS.init lower coerce G coul a p Za Zb Nmo N' opt = .error .assertionError) := by
  obtain ⟨hunk, hdoc⟩ := C31_options lower coerce hco ksFields (by simp [lowerCased]) opt
  refine ⟨fun h hN => ?_, fun h => ?_, fun h hs => ?_⟩
  · obtain ⟨o, ho, hget⟩ := hdoc h
    have hsym : flag o "sym" = isSet lower opt "sym" :=
      flag_eq (hget ⟨"sym", .bool, .bool false, none⟩ (by simp [ksFields, boolF, intF, strF]))
    have hfrac : flag o "fractional" = isSet lower opt "fractional" :=
      flag_eq (hget ⟨"fractional", .bool, .bool false, none⟩ (by simp [ksFields, boolF, intF, strF]))
    have hint : interaction o = chosen lower opt :=
      interaction_eq (hget ⟨"interaction_type", .str, .str "dft", some ["dft", "ni"]⟩ (by simp [ksFields, boolF, intF, strF]))
    have l1 : lower "fractional" = "fractional" := hlow _ (by simp)
    have l2 : lower "sym" = "sym" := hlow _ (by simp)
    obtain ⟨tab, ht, hs⟩ := (C28_table_partial lower coerce hco G le_rfl le_rfl Nmo N (solverDict o)).1 (by
      simp only [solverDict, List.mem_cons, List.not_mem_nil, or_false, forall_eq_or_imp, forall_eq]
      exact ⟨⟨⟨"fractional", .bool, .bool false, none⟩, by simp [solverFields, boolF, floatF], l1, rfl, by simp⟩,
        ⟨"sym", .bool, .bool false, none⟩, by simp [solverFields, boolF, floatF], l2, rfl, by simp⟩) (fun i j => hN _)
    have hall : ∀ w, (tab w).isSome = true := fun w => by
      obtain ⟨s, h, -⟩ := hs w.1 w.2
      rw [h]; rfl
    have e1 : KS.init (r := r) (c := c) lower coerce G coul a p Za Zb Nmo N opt = .ok
        { kind := interaction o, sym := flag o "sym", Za, Zb, a, solver := fun w => (tab w).get (hall w),
          vnuc := KS.nuclearPotential G p (flag o "sym") (coul Za Zb) } := by
      unfold KS.init
      rw [ho]
      simp only [bind, Except.bind]
      rw [if_pos ⟨trivial, trivial⟩, ht]
      simp only
      rw [dif_pos hall]
      rfl
    refine ⟨_, e1, ⟨⟨rfl, rfl, rfl⟩, ⟨hint, hsym⟩, fun hp s k => ?_, fun i j => ?_, rfl, rfl, rfl, rfl, rfl, rfl, rfl, rfl, rfl⟩, rfl⟩
    · change KS.nuclearPotential G p (flag o "sym") (coul Za Zb) s k = _
      unfold KS.nuclearPotential
      rw [hsym]
      simp only [if_pos hp]
      cases isSet lower opt "sym"
      · rfl
      · simp only [if_true, symmetrised, Grid.mirCols, Grid.mir]
        ring
    · obtain ⟨s, h0, h1, h2, h3, h4, h5, h6, h7, h8, h9⟩ := hs i j
      have e2 : (tab (i, j)).get (hall (i, j)) = s := by simp [h0]
      simp only [e2]
      refine ⟨h1, h2, h3, h4, ?_, ?_, h7, h8, h9⟩
      · rw [h5, ← hfrac]
        have : supplied lower (solverDict o) "fractional" = some (.bool (flag o "fractional")) := by
          simp [supplied, solverDict, l1, l2]
        rw [this]
        simp
      · rw [h6, ← hsym]
        have : supplied lower (solverDict o) "sym" = some (.bool (flag o "sym")) := by
          simp [supplied, solverDict, l1, l2]
        rw [this]
        simp
  · unfold KS.init
    rw [hunk h]
    rfl
  · obtain ⟨o, ho, -⟩ := hdoc h
    unfold KS.init
    rw [ho]
    simp only [bind, Except.bind]
    rw [if_neg hs]

/-- The options handed to the fragments are documented and those of the partition. -/
theorem Opt.fragment_options (lower : String → String) (hlow : ∀ f ∈ ksFields, lower f.name = f.name) (opt o : Dict)
    (hv : Valid lower partitionFields opt)
    (hget : ∀ f ∈ partitionFields, o.get? f.name = some ((supplied lower opt f.name).getD f.default)) :
    Valid lower ksFields (fragmentDict o) ∧
    ∀ f ∈ ksFields, supplied lower (fragmentDict o) f.name = some ((supplied lower opt f.name).getD f.default) := by
  have hsub : ∀ f ∈ ksFields, f ∈ partitionFields := fun f hf => List.mem_append_left _ hf
  have hfd : fragmentDict o = (["interaction_type", "sym", "fractional", "xfunc_id", "cfunc_id", "xc_family"].map fun k =>
      (k, (o.get? k).getD (.bool false))) := by
    have hs : ∀ f ∈ ksFields, (o.get? f.name).isSome := fun f hf => by rw [hget f (hsub f hf)]; rfl
    simp only [ksFields, boolF, intF, strF, List.mem_cons, List.not_mem_nil, or_false, forall_eq_or_imp, forall_eq] at hs
    obtain ⟨h1, h2, h3, h4, h5, h6⟩ := hs
    rw [Option.isSome_iff_exists] at h1 h2 h3 h4 h5 h6
    obtain ⟨v1, h1⟩ := h1
    obtain ⟨v2, h2⟩ := h2
    obtain ⟨v3, h3⟩ := h3
    obtain ⟨v4, h4⟩ := h4
    obtain ⟨v5, h5⟩ := h5
    obtain ⟨v6, h6⟩ := h6
    simp [fragmentDict, h1, h2, h3, h4, h5, h6]
  have hd : ∀ f ∈ ksFields, Documented f ((supplied lower opt f.name).getD f.default) := fun f hf =>
    documented_get hv (by decide) partition_defaults f (hsub f hf)
  have hg : ∀ f ∈ ksFields, (o.get? f.name).getD (.bool false) = (supplied lower opt f.name).getD f.default := fun f hf => by
    rw [hget f (hsub f hf)]; rfl
  constructor
  · intro e he
    rw [hfd, List.mem_map] at he
    obtain ⟨k, hk, rfl⟩ := he
    have hmem : ∃ f ∈ ksFields, f.name = k := by
      revert k
      decide
    obtain ⟨f, hf, rfl⟩ := hmem
    exact ⟨f, hf, hlow f hf, by rw [hg f hf]; exact hd f hf⟩
  · intro f hf
    rw [← hg f hf, hfd]
    have hl := hlow
    simp only [ksFields, boolF, intF, strF, List.mem_cons, List.not_mem_nil, or_false, forall_eq_or_imp, forall_eq] at hl hf
    obtain ⟨l1, l2, l3, l4, l5, l6⟩ := hl
    rcases hf with rfl | rfl | rfl | rfl | rfl | rfl <;>
      simp [supplied, l1, l2, l3, l4, l5, l6, List.filter]

/-- What the constructor of `Partition` promises for the components of a fragment: charges `Za`, `Zb`, the tables of the
components, the partition's options and the weights. -/
def Spec.Components {G : Grid K} {r c p : ℕ} (lower : String → String) (opt : Dict) (coul : K → K → G.Fld) (a Za Zb : K)
    (l : List (Frag G r c p)) (w : List (((Fin r × Fin c → ℕ) × (Fin r × Fin c → K)) × K)) : Prop :=
  List.Forall₂ (fun f x => Fresh f.ks coul a Za Zb x.1.1 x.1.2 (chosen lower opt) (isSet lower opt "sym")
    (isSet lower opt "fractional") ∧ f.ks.scale = some x.2) l w

/-- C85 for `Partition`, partial: with documented options other than `paramke`, and both ratios 1 or both different from 1
(and then two tables per fragment), the object has fragments with one nucleus each, the given tables, the options of the
partition and the weights of C37. An unknown option, and `ab_sym` with different charges, raise `ValueError`.
Missing: `C37_refuted`, `C85_refuted_options`, `C85_refuted_sym`. -/
theorem C85_partition_partial (lower : String → String) (coerce : Kind → Val → Option Val)
    (hco : ∀ v : Val, coerce v.kind v = some v) (hlow : ∀ f ∈ ksFields, lower f.name = f.name) (G : Grid K)
    (coul : K → K → G.Fld) (a : K) {r c : ℕ} (p : ℕ) (Za Zb nuA nuB : K) (occA occB : Occ K r c r c) (opt : Dict) :
    ((∃ e ∈ opt, lower e.1 ∉ partitionFields.map Field.name) →
      Part.init lower coerce G coul a p Za Zb nuA nuB occA occB opt = .error .valueError) ∧
    (Valid lower partitionFields opt → isSet lower opt "ab_sym" = true → Za ≠ Zb → nuA = 1 → nuB = 1 →
      Part.init lower coerce G coul a p Za Zb nuA nuB occA occB opt = .error .valueError) ∧
    (Valid lower partitionFields opt → (isSet lower opt "ab_sym" = true → Za = Zb) →
      supplied lower opt "kinetic_part_type" ≠ some (.str "paramke") → (∀ w, occA.N w ≠ -1) → (∀ w, occB.N w ≠ -1) →
      (nuA = 1 → nuB = 1 → ∃ P : Part G r c p, Part.init lower coerce G coul a p Za Zb nuA nuB occA occB opt = .ok P ∧
        P.Za = Za ∧ P.Zb = Zb ∧ P.a = a ∧ P.va = coul Za 0 ∧ P.vb = coul 0 Zb ∧ P.nf = none ∧
        P.opt.abSym = isSet lower opt "ab_sym" ∧ P.opt.ensSpinSym = isSet lower opt "ens_spin_sym" ∧
        P.opt.isolated = isSet lower opt "isolated" ∧ P.opt.interaction = chosen lower opt ∧ Methods lower opt P.opt ∧
        Components lower opt coul a Za 0 P.compsA [((occA.Nmo, occA.N), totalWeight K (isSet lower opt "ens_spin_sym"))] ∧
        Components lower opt coul a 0 Zb P.compsB [((occB.Nmo, occB.N), totalWeight K (isSet lower opt "ens_spin_sym"))]) ∧
      (nuA ≠ 1 → nuB ≠ 1 → ∀ A B, occA.second = some A → occB.second = some B → (∀ w, A.2 w ≠ -1) → (∀ w, B.2 w ≠ -1) →
        ∃ P : Part G r c p, Part.init lower coerce G coul a p Za Zb nuA nuB occA occB opt = .ok P ∧
        P.Za = Za ∧ P.Zb = Zb ∧ P.a = a ∧ P.va = coul Za 0 ∧ P.vb = coul 0 Zb ∧ P.nf = none ∧
        P.opt.abSym = isSet lower opt "ab_sym" ∧ P.opt.ensSpinSym = isSet lower opt "ens_spin_sym" ∧
        P.opt.isolated = isSet lower opt "isolated" ∧ P.opt.interaction = chosen lower opt ∧ Methods lower opt P.opt ∧
        Components lower opt coul a Za 0 P.compsA
          [((occA.Nmo, occA.N), (1 - nuA) * totalWeight K (isSet lower opt "ens_spin_sym")),
           (A, nuA * totalWeight K (isSet lower opt "ens_spin_sym"))] ∧
        Components lower opt coul a 0 Zb P.compsB
          [((occB.Nmo, occB.N), (1 - nuB) * totalWeight K (isSet lower opt "ens_spin_sym")),
           (B, nuB * totalWeight K (isSet lower opt "ens_spin_sym"))])) := by
  obtain ⟨hunk, hdoc⟩ := C31_options lower coerce hco partitionFields (by simp [lowerCased]) opt
  have hlow' : ∀ k ∈ ["fractional", "sym"], lower k = k := by
    intro k hk
    simp only [List.mem_cons, List.not_mem_nil, or_false] at hk
    rcases hk with rfl | rfl
    · exact hlow ⟨"fractional", .bool, .bool false, none⟩ (by simp [ksFields, boolF, intF, strF])
    · exact hlow ⟨"sym", .bool, .bool false, none⟩ (by simp [ksFields, boolF, intF, strF])
  refine ⟨fun h => ?_, fun hv hab hZ h1 h2 => ?_, fun hv hab hk hA hB => ?_⟩
  · unfold Part.init
    rw [hunk h]
    rfl
  · obtain ⟨o, ho, hget⟩ := hdoc hv
    have hflag : flag o "ab_sym" = isSet lower opt "ab_sym" :=
      flag_eq (hget ⟨"ab_sym", .bool, .bool false, none⟩ (by simp [partitionFields, ksFields, boolF, intF, strF]))
    unfold Part.init
    rw [ho]
    simp only [bind, Except.bind]
    rw [if_pos ⟨h1, h2⟩]
    simp only [pure, Except.pure, Part.checkAbSym, hflag, hab]
    rw [if_pos ⟨trivial, hZ⟩]
  · obtain ⟨o, ho, hget⟩ := hdoc hv
    have flags : ∀ k, (⟨k, .bool, .bool false, none⟩ : Field) ∈ partitionFields → flag o k = isSet lower opt k :=
      fun k hk => flag_eq (hget _ hk)
    have f1 := flags "ab_sym" (by simp [partitionFields, ksFields, boolF, intF, strF])
    have f2 := flags "ens_spin_sym" (by simp [partitionFields, ksFields, boolF, intF, strF])
    have f3 := flags "isolated" (by simp [partitionFields, ksFields, boolF, intF, strF])
    have hint : interaction o = chosen lower opt := interaction_eq
      (hget ⟨"interaction_type", .str, .str "dft", some ["dft", "ni"]⟩ (by simp [partitionFields, ksFields, boolF, intF, strF]))
    have hkin : (partOpt o).kin ≠ .paramke := by
      have h := hget ⟨"kinetic_part_type", .str, .str "vonweiz",
        some ["vonweiz", "inversion", "libxcke", "paramke", "none", "twoorbital", "fixed"]⟩
        (by simp [partitionFields, ksFields, boolF, intF, strF])
      simp only at h
      unfold partOpt
      rw [h]
      simp only
      split
      case h_3 heq =>
        cases hs : supplied lower opt "kinetic_part_type" with
        | none => rw [hs] at heq; exact absurd (Option.some.inj heq) (by decide)
        | some v => rw [hs] at heq; exact absurd (hs.trans heq) hk
      all_goals exact fun h => nomatch h
    have hmeth : Methods lower opt (partOpt o) := by
      have g1 := hget ⟨"vp_calc_type", .str, .str "component", some ["component", "potential_inversion"]⟩
        (by simp [partitionFields, ksFields, boolF, intF, strF])
      have g2 := hget ⟨"hxc_part_type", .str, .str "exact",
        some ["exact", "overlap_hxc_2", "overlap_hxc", "overlap_xc", "surprisal", "hartree"]⟩
        (by simp [partitionFields, ksFields, boolF, intF, strF])
      have g3 := hget ⟨"kinetic_part_type", .str, .str "vonweiz",
        some ["vonweiz", "inversion", "libxcke", "paramke", "none", "twoorbital", "fixed"]⟩
        (by simp [partitionFields, ksFields, boolF, intF, strF])
      constructor <;> intro m hm hc
      · have g1 := g1.trans (congrArg some hc)
        simp only [List.mem_cons, List.not_mem_nil, or_false] at hm
        rcases hm with rfl | rfl <;> simp [partOpt, g1]
      · have g2 := g2.trans (congrArg some hc)
        simp only [List.mem_cons, List.not_mem_nil, or_false] at hm
        rcases hm with rfl | rfl | rfl | rfl | rfl | rfl <;> simp [partOpt, g2]
      · have g3 := g3.trans (congrArg some hc)
        simp only [List.mem_cons, List.not_mem_nil, or_false] at hm
        rcases hm with rfl | rfl | rfl | rfl | rfl | rfl <;> simp [partOpt, g3]
    obtain ⟨hfv, hfs⟩ := fragment_options lower hlow opt o hv hget
    have hc : chosen lower (fragmentDict o) = chosen lower opt := by
      have h := hfs ⟨"interaction_type", .str, .str "dft", some ["dft", "ni"]⟩ (by simp [ksFields, boolF, intF, strF])
      simp only at h
      unfold chosen
      rw [h]
      cases supplied lower opt "interaction_type" <;> simp
    have hs : ∀ k, (⟨k, .bool, .bool false, none⟩ : Field) ∈ ksFields → isSet lower (fragmentDict o) k = isSet lower opt k := by
      intro k hk
      have h := hfs _ hk
      simp only at h
      unfold isSet
      rw [h]
      cases supplied lower opt k <;> simp
    have s1 := hs "sym" (by simp [ksFields, boolF, intF, strF])
    have s2 := hs "fractional" (by simp [ksFields, boolF, intF, strF])
    have hks : ∀ (Za Zb : K) (Nmo : Fin r × Fin c → ℕ) (N : Fin r × Fin c → K), (∀ w, N w ≠ -1) → ∃ ks : KS G r c p,
        KS.init lower coerce G coul a p Za Zb Nmo N (fragmentDict o) = .ok ks ∧
        Fresh ks coul a Za Zb Nmo N (chosen lower opt) (isSet lower opt "sym") (isSet lower opt "fractional") := by
      intro Za Zb Nmo N hN
      obtain ⟨ks, h1, h2, -⟩ := (C85_kohnsham lower coerce hco hlow' G coul a p Za Zb Nmo N N (fragmentDict o)).1 hfv hN
      rw [hc, s1, s2] at h2
      exact ⟨ks, h1, h2⟩
    obtain ⟨ksa, ha, hfa⟩ := hks Za 0 occA.Nmo occA.N hA
    obtain ⟨ksb, hb, hfb⟩ := hks 0 Zb occB.Nmo occB.N hB
    have hab' : Part.checkAbSym (flag o "ab_sym") Za Zb = .ok () := by
      unfold Part.checkAbSym
      rw [if_neg]
      rintro ⟨h, hne⟩
      exact hne (hab (f1 ▸ h))
    have keep : ∀ {ks : KS G r c p} {Za Zb : K} {Nmo : Fin r × Fin c → ℕ} {N : Fin r × Fin c → K} (s : K),
        Fresh ks coul a Za Zb Nmo N (chosen lower opt) (isSet lower opt "sym") (isSet lower opt "fractional") →
        Fresh { ks with scale := some s } coul a Za Zb Nmo N (chosen lower opt) (isSet lower opt "sym")
          (isSet lower opt "fractional") := fun s h => ⟨h.charges, h.options, h.vnuc, h.solver, h.empty⟩
    constructor
    · intro n1 n2
      have hsc := (C37_weights_partial nuA nuB (flag o "ens_spin_sym")).1 n1 n2
      refine ⟨{ opt := partOpt o, Za, Zb, a, va := coul Za 0, vb := coul 0 Zb
                fa := ⟨{ ksa with scale := some (totalWeight K (flag o "ens_spin_sym")) }, {}⟩
                fb := ⟨{ ksb with scale := some (totalWeight K (flag o "ens_spin_sym")) }, {}⟩ }, ?_, rfl, rfl, rfl, rfl, rfl, rfl,
        f1, f2, f3, hint, hmeth, ?_, ?_⟩
      · unfold Part.init
        rw [ho]
        simp only [bind, Except.bind]
        rw [if_pos ⟨n1, n2⟩]
        simp only [pure, Except.pure, hab', ha, hb, hsc]
        rw [if_neg hkin]
      · exact .cons ⟨keep _ hfa, by rw [f2]⟩ .nil
      · exact .cons ⟨keep _ hfb, by rw [f2]⟩ .nil
    · intro n1 n2 A B eA eB hNA hNB
      obtain ⟨ksA, hA', hfA⟩ := hks Za 0 A.1 A.2 hNA
      obtain ⟨ksB, hB', hfB⟩ := hks 0 Zb B.1 B.2 hNB
      obtain ⟨sa, sb, sA, sB, hsc, q1, q2, q3, q4⟩ := (C37_weights_partial nuA nuB (flag o "ens_spin_sym")).2 n1 n2
      refine ⟨{ opt := partOpt o, Za, Zb, a, va := coul Za 0, vb := coul 0 Zb
                fa := ⟨{ ksa with scale := some sa }, {}⟩, fb := ⟨{ ksb with scale := some sb }, {}⟩
                fAB := some (⟨{ ksA with scale := some sA }, {}⟩, ⟨{ ksB with scale := some sB }, {}⟩) }, ?_, rfl, rfl, rfl, rfl, rfl, rfl,
        f1, f2, f3, hint, hmeth, ?_, ?_⟩
      · unfold Part.init
        rw [ho]
        simp only [bind, Except.bind]
        rw [if_neg fun h => n1 h.1]
        simp only [pure, Except.pure, hab', ha, hb, hsc, eA, eB]
        rw [if_pos ⟨n1, n2⟩]
        simp only [hA', hB']
        rw [if_neg hkin]
      · refine .cons ⟨keep _ hfa, ?_⟩ (.cons ⟨keep _ hfA, ?_⟩ .nil)
        · rw [← f2]; exact congrArg some (by rw [q3] at q1; linear_combination q1)
        · rw [← f2, ← q3]
      · refine .cons ⟨keep _ hfb, ?_⟩ (.cons ⟨keep _ hfB, ?_⟩ .nil)
        · rw [← f2]; exact congrArg some (by rw [q4] at q2; linear_combination q2)
        · rw [← f2, ← q4]

theorem Opt.single (lower : String → String) (coerce : Kind → Val → Option Val) (hco : ∀ v : Val, coerce v.kind v = some v)
    (fs : List Field) (hfs : fs ∈ lowerCased) (f : Field) (hf : f ∈ fs) (hl : lower f.name = f.name) (v : Val)
    (hv : Documented f v) : ∃ o, build lower coerce fs [(f.name, v)] = .ok o ∧ o.get? f.name = some v ∧
      ∀ g ∈ fs, g.name ≠ f.name → o.get? g.name = some g.default := by
  obtain ⟨o, h1, h2⟩ := (C31_options lower coerce hco fs hfs [(f.name, v)]).2 (by
    simp only [List.mem_singleton, forall_eq]
    exact ⟨f, hf, hl, hv⟩)
  refine ⟨o, h1, (h2 f hf).trans ?_, fun g hg hne => (h2 g hg).trans ?_⟩
  · simp [supplied, hl]
  · simp [supplied, hl, hne.symm]

/-- C85 is false for three options: `fractonal` (for `fractional`) is accepted by `Partition` and changes nothing; `paramke`
is accepted and raises `NameError`; `isolated` given to `Partition.scf` is overwritten. -/
theorem C85_refuted_options (lower : String → String) (coerce : Kind → Val → Option Val)
    (hco : ∀ v : Val, coerce v.kind v = some v) (G : Grid K) (coul : K → K → G.Fld) (a : K) {r c : ℕ} (p : ℕ)
    (Za Zb : K) (occA occB : Occ K r c r c) (hA : ∀ w, occA.N w ≠ -1) (hB : ∀ w, occB.N w ≠ -1)
    (hlow : ∀ f ∈ ksFields, lower f.name = f.name) (hlow' : ∀ k ∈ ["fractonal", "kinetic_part_type", "isolated"], lower k = k)
    (isolated : Bool) :
    (∀ nuA nuB, Part.init lower coerce G coul a p Za Zb nuA nuB occA occB [("fractonal", .bool true)] =
      Part.init lower coerce G coul a p Za Zb nuA nuB occA occB []) ∧
    Part.init lower coerce G coul a p Za Zb 1 1 occA occB [("kinetic_part_type", .str "paramke")] = .error .nameError ∧
    ∃ o, partitionScfOptions lower coerce isolated [("isolated", .bool (!isolated))] = .ok o ∧
      o.get? "isolated" = some (.bool isolated) := by
  refine ⟨fun nuA nuB => ?_, ?_, ?_⟩
  · obtain ⟨o, h1, -, h3⟩ := single lower coerce hco partitionFields (by simp [lowerCased]) (boolF "fractonal" false)
      (by simp [partitionFields]) (hlow' "fractonal" (by simp)) (.bool true) ⟨rfl, by simp [boolF]⟩
    obtain ⟨o', h1', h3'⟩ := (C31_options lower coerce hco partitionFields (by simp [lowerCased]) []).2 (by simp)
    have hg : ∀ g ∈ partitionFields, g.name ≠ "fractonal" → o.get? g.name = o'.get? g.name := fun g hg hne => by
      rw [h3 g hg hne, h3' g hg]
      simp [supplied]
    have hk : ∀ k ∈ ["interaction_type", "sym", "fractional", "xfunc_id", "cfunc_id", "xc_family", "vp_calc_type",
        "hxc_part_type", "kinetic_part_type", "ab_sym", "ens_spin_sym", "isolated"], o.get? k = o'.get? k := by
      intro k hk
      have : ∃ g ∈ partitionFields, g.name = k ∧ g.name ≠ "fractonal" := by
        revert k
        decide
      obtain ⟨g, hgm, rfl, hne⟩ := this
      exact hg g hgm hne
    simp only [List.mem_cons, List.not_mem_nil, or_false, forall_eq_or_imp, forall_eq] at hk
    obtain ⟨k1, k2, k3, k4, k5, k6, k7, k8, k9, k10, k11, k12⟩ := hk
    have e1 : fragmentDict o = fragmentDict o' := by
      unfold fragmentDict
      simp only [List.filterMap_cons, List.filterMap_nil, k1, k2, k3, k4, k5, k6]
    have e2 : partOpt o = partOpt o' := by
      unfold partOpt interaction flag
      simp only [k1, k7, k8, k9, k10, k11, k12]
    have e3 : flag o "ab_sym" = flag o' "ab_sym" := by unfold flag; rw [k10]
    have e4 : flag o "ens_spin_sym" = flag o' "ens_spin_sym" := by unfold flag; rw [k11]
    have h1 : build lower coerce partitionFields [("fractonal", .bool true)] = .ok o := h1
    unfold Part.init
    rw [h1, h1']
    simp only [bind, Except.bind, e1, e2, e3, e4]
  · let kf : Field := strF "kinetic_part_type" "vonweiz"
      (some ["vonweiz", "inversion", "libxcke", "paramke", "none", "twoorbital", "fixed"])
    have hm : kf ∈ partitionFields := by simp [partitionFields, kf]
    have hdocd : Documented kf (.str "paramke") := ⟨rfl, by simp [kf, strF]⟩
    obtain ⟨o, h1, h2, h3⟩ := single lower coerce hco partitionFields (by simp [lowerCased]) kf
      hm (hlow' "kinetic_part_type" (by simp)) (.str "paramke") hdocd
    have h1 : build lower coerce partitionFields [("kinetic_part_type", .str "paramke")] = .ok o := h1
    have hv : Valid lower partitionFields [("kinetic_part_type", .str "paramke")] := by
      intro e he
      rw [List.mem_singleton] at he
      subst he
      exact ⟨kf, hm, hlow' "kinetic_part_type" (by simp), hdocd⟩
    have hget := ((C31_options lower coerce hco partitionFields (by simp [lowerCased]) _).2 hv)
    obtain ⟨o', h1', hget⟩ := hget
    obtain rfl : o = o' := Except.ok.inj (h1.symm.trans h1')
    have hkin : (partOpt o).kin = .paramke := by
      have h2 : o.get? "kinetic_part_type" = some (.str "paramke") := h2
      unfold partOpt
      simp only [h2]
    have hab : flag o "ab_sym" = false := by
      have := h3 (boolF "ab_sym" false) (by simp [partitionFields]) (by decide)
      unfold flag
      have this : o.get? "ab_sym" = some (.bool false) := this
      rw [this]
    have hlow'' : ∀ k ∈ ["fractional", "sym"], lower k = k := by
      intro k hk
      simp only [List.mem_cons, List.not_mem_nil, or_false] at hk
      rcases hk with rfl | rfl
      · exact hlow ⟨"fractional", .bool, .bool false, none⟩ (by simp [ksFields, boolF, intF, strF])
      · exact hlow ⟨"sym", .bool, .bool false, none⟩ (by simp [ksFields, boolF, intF, strF])
    obtain ⟨hfv, -⟩ := fragment_options lower hlow _ o hv hget
    obtain ⟨ksa, ha, -⟩ := (C85_kohnsham lower coerce hco hlow'' G coul a p Za 0 occA.Nmo occA.N occA.N (fragmentDict o)).1 hfv hA
    obtain ⟨ksb, hb, -⟩ := (C85_kohnsham lower coerce hco hlow'' G coul a p 0 Zb occB.Nmo occB.N occB.N (fragmentDict o)).1 hfv hB
    unfold Part.init
    rw [h1]
    simp only [bind, Except.bind]
    rw [if_pos ⟨trivial, trivial⟩]
    simp only [pure, Except.pure, Part.checkAbSym, hab, Bool.false_eq_true, false_and, if_false, ha, hb,
      (C37_weights_partial (1 : K) 1 (flag o "ens_spin_sym")).1 rfl rfl]
    rw [if_pos hkin]
  · obtain ⟨o, h1, -⟩ := single lower coerce hco partitionScfFields (by simp [lowerCased]) (boolF "isolated" false)
      (by simp [partitionScfFields]) (hlow' "isolated" (by simp)) (.bool (!isolated)) ⟨rfl, by simp [boolF]⟩
    have h1 : build lower coerce partitionScfFields [("isolated", .bool (!isolated))] = .ok o := h1
    refine ⟨o.set "isolated" (.bool isolated), ?_, ?_⟩
    · unfold partitionScfOptions
      rw [h1]
      rfl
    · rw [get?_set, if_pos rfl]

/-- C85 is false for `sym`: a fragment that should have one nucleus of charge `Z` gets half of it at each centre; its
potential differs wherever the distances to the centres differ. -/
theorem C85_refuted_sym (G : Grid ℝ) {a L : ℝ} (ha : 0 < a) (hL : 0 < L) {r c p : ℕ} (hp : p = 1 ∨ p = 2) (ks : KS G r c p)
    (Z : ℝ) (hZ : Z ≠ 0) (Nmo : Fin r × Fin c → ℕ) (N : Fin r × Fin c → ℝ) (kind : Interaction) (fractional : Bool)
    (h : Fresh ks (Init.coulomb G.Na G.Nr a L) a Z 0 Nmo N kind true fractional) (s : Fin p) (k : G.Ix) :
    ks.vnuc s k = nuclear G a L (Z / 2) (Z / 2) k ∧
    (ks.vnuc s k = nuclear G a L Z 0 k ↔
      Spec.dist (Init.Y G.Na G.Nr a L k) (Init.Z G.Na G.Nr a L k) (-a) = Spec.dist (Init.Y G.Na G.Nr a L k) (Init.Z G.Na G.Nr a L k) a) := by
  have e : ks.vnuc s k = nuclear G a L (Z / 2) (Z / 2) k := by
    have h2 := (C83_nuclear (p := p) G ha hL Z 0 hp s k).2.1
    rw [add_zero] at h2
    rw [← h2, h.vnuc hp, if_pos rfl]
    unfold KS.nuclearPotential symmetrised
    simp only [if_pos hp, if_true, Grid.mirCols, Grid.mir]
    ring
  refine ⟨e, ?_⟩
  rw [e]
  obtain ⟨h1, h2, -⟩ := C05_coulomb a L Z 0 ha hL k
  unfold nuclear
  set x := Spec.dist (Init.Y G.Na G.Nr a L k) (Init.Z G.Na G.Nr a L k) (-a)
  set y := Spec.dist (Init.Y G.Na G.Nr a L k) (Init.Z G.Na G.Nr a L k) a
  have hx : 0 < x := h1
  have hy : 0 < y := h2
  have : -(Z / 2) / x - Z / 2 / y - (-Z / x - 0 / y) = Z / 2 * (y - x) / (x * y) := by
    field_simp
    ring
  rw [← sub_eq_zero, this, div_eq_zero_iff, mul_eq_zero, sub_eq_zero]
  constructor
  · rintro ((h | h) | h)
    · exact absurd h (div_ne_zero hZ two_ne_zero)
    · exact h.symm
    · exact absurd h (mul_pos hx hy).ne'
  · exact fun h => .inl (.inr h.symm)

/-- A hydrogen molecule ion in two fragments, with an upper-case key: the fragments are constructed and the interaction
is the chosen one. -/
example (lower : String → String) (hl : lower "INTERACTION_TYPE" = "interaction_type")
    (hlow : ∀ f ∈ ksFields, lower f.name = f.name) (coerce : Kind → Val → Option Val)
    (hco : ∀ v : Val, coerce v.kind v = some v) (G : Grid ℚ) (coul : ℚ → ℚ → G.Fld) :
    ∃ P : Part G 1 1 1, Part.init (r' := 1) (c' := 1) lower coerce G coul 1 1 1 1 1 1 ⟨fun _ => 1, fun _ => 1 / 2, none⟩
      ⟨fun _ => 1, fun _ => 1 / 2, none⟩ [("INTERACTION_TYPE", .str "ni")] = .ok P ∧ P.opt.interaction = .ni ∧
      P.fa.ks.Za = 1 ∧ P.fa.ks.Zb = 0 ∧ P.fb.ks.kind = .ni ∧ (P.fb.ks.solver (0, 0)).N = 1 / 2 := by
  have hs : supplied lower [("INTERACTION_TYPE", .str "ni")] "interaction_type" = some (.str "ni") := by simp [supplied, hl]
  have hn : ∀ k, k ≠ "interaction_type" → supplied lower [("INTERACTION_TYPE", .str "ni")] k = none := by
    intro k hk
    simp [supplied, hl, hk.symm]
  obtain ⟨P, h1, h2⟩ := ((C85_partition_partial (r := 1) (c := 1) lower coerce hco hlow G coul 1 1 1 1 1 1 ⟨fun _ => 1, fun _ => 1 / 2, none⟩
    ⟨fun _ => 1, fun _ => 1 / 2, none⟩ [("INTERACTION_TYPE", .str "ni")]).2.2 (by
      intro e he
      rw [List.mem_singleton] at he
      subst he
      exact ⟨strF "interaction_type" "dft" (some ["dft", "ni"]), by simp [partitionFields, ksFields], hl, rfl, by simp [strF]⟩)
    (fun _ => rfl) (by rw [hn _ (by decide)]; exact fun h => nomatch h) (by norm_num) (by norm_num)).1 rfl rfl
  obtain ⟨-, -, -, -, -, -, -, -, -, h3, -, hA, hB⟩ := h2
  have hc : chosen lower [("INTERACTION_TYPE", .str "ni")] = .ni := by
    unfold chosen
    rw [hs, if_pos rfl]
  have hA' := (List.forall₂_cons.mp (show List.Forall₂ _ (P.fa :: _) _ from hA)).1.1
  have hB' := (List.forall₂_cons.mp (show List.Forall₂ _ (P.fb :: _) _ from hB)).1.1
  exact ⟨P, h1, h3.trans hc, hA'.charges.1, hA'.charges.2.1, hB'.options.1.trans hc, (hB'.solver 0 0).2.2.2.1⟩

end Verif
