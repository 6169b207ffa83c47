import Verif.Model.Examples
import Verif.Props.C85

/-! # C107: the shipped examples -/

namespace Verif
open Opt Spec KS
variable {K : Type} [_root_.Field K] [LinearOrder K] [IsStrictOrderedRing K] [FloorRing K]

/-- What `str.lower` does to the keys of the scripts and to the names of the options. -/
def Spec.LowerCases (lower : String → String) : Prop :=
  (∀ e ∈ [("SYM", "sym"), ("FRACTIONAL", "fractional"), ("MaxIter", "maxiter"), ("ITERLINSOLVE", "iterlinsolve"),
    ("x_func_id", "x_func_id"), ("c_func_id", "c_func_id")], lower e.1 = e.2) ∧
  ∀ f ∈ ksFields ++ ksScfFields, lower f.name = f.name

/-- The items of a dictionary that are options of a class. -/
def Spec.known (lower : String → String) (fs : List Field) (d : Dict) : Dict :=
  d.filter fun e => decide (lower e.1 ∈ fs.map Field.name)

/-- Charge of the system a script is named after. -/
def Spec.charge (s : Script) : ℕ := if s.name = "H2p" then 1 else 0

/-- Orbitals as asked for: `Nmo` of them, none of zero norm; no array when `Nmo` is 0. -/
def Spec.Delivered {G : Grid K} (Nmo : ℕ) (f : Found G) : Prop :=
  match f.2 with
  | none => Nmo = 0
  | some l => l.length = Nmo ∧ ∀ q ∈ l, 0 < G.integ fun k => q k ^ 2

/-- C107 is false for a reason that has nothing to do with the scripts: whatever `str.lower` and the type conversions do,
a dictionary that `Kohnsham` and `Kohnsham.scf` both accept is empty. -/
theorem C107_refuted_shared (lower : String → String) (coerce : Kind → Val → Option Val)
    (hco : ∀ v : Val, coerce v.kind v = some v) (opt o o' : Dict) (h : build lower coerce ksFields opt = .ok o)
    (h' : buildScf lower coerce ksScfFields opt = .ok o') : opt = [] := by
  cases opt with
  | nil => rfl
  | cons e l =>
    exfalso
    have h1 : lower e.1 ∈ ksFields.map Field.name := by
      by_contra hc
      rw [(C31_options lower coerce hco ksFields (by simp [lowerCased]) _).1 ⟨e, List.mem_cons_self, hc⟩] at h
      cases h
    have h2 : lower e.1 ∈ ksScfFields.map Field.name := by
      by_contra hc
      rw [buildScf, if_pos ⟨e, List.mem_cons_self, hc⟩] at h'
      cases h'
    have hdis : ∀ x ∈ ksFields.map Field.name, x ∉ ksScfFields.map Field.name := by decide +kernel
    exact hdis _ h1 h2

theorem Script.head {s : Script} (hs : s ∈ scripts) : ("interaction_type", .str "dft") ∈ s.opt ∨ ("interaction_type", .str "ni") ∈ s.opt := by
  simp only [scripts, List.mem_cons, List.not_mem_nil, or_false] at hs
  rcases hs with rfl | rfl | rfl | rfl | rfl | rfl | rfl | rfl | rfl <;> simp

/-- Which scripts `Kohnsham` understands. -/
theorem Script.valid {lower : String → String} (hlow : LowerCases lower) {s : Script} (hs : s ∈ scripts) :
    Valid lower ksFields s.opt ∧ s.name ∈ ["C", "F", "H2", "H2p", "H"] ∨
    (∃ e ∈ s.opt, lower e.1 ∉ ksFields.map Field.name) ∧ s.name ∉ ["C", "F", "H2", "H2p", "H"] := by
  have hint : lower "interaction_type" = "interaction_type" :=
    hlow.2 ⟨"interaction_type", .str, .str "dft", some ["dft", "ni"]⟩ (by simp [ksFields, boolF, strF, intF])
  have h1 : lower "SYM" = "sym" := hlow.1 ("SYM", "sym") (by simp)
  have h2 : lower "FRACTIONAL" = "fractional" := hlow.1 ("FRACTIONAL", "fractional") (by simp)
  have h3 : lower "MaxIter" = "maxiter" := hlow.1 ("MaxIter", "maxiter") (by simp)
  have h4 : lower "x_func_id" = "x_func_id" := hlow.1 ("x_func_id", "x_func_id") (by simp)
  simp only [scripts, List.mem_cons, List.not_mem_nil, or_false] at hs
  rcases hs with rfl | rfl | rfl | rfl | rfl | rfl | rfl | rfl | rfl
  · exact .inr ⟨⟨("MaxIter", .int 100), by simp, by simp only [h3]; decide +kernel⟩, by simp⟩
  · exact .inr ⟨⟨("MaxIter", .int 100), by simp, by simp only [h3]; decide +kernel⟩, by simp⟩
  · exact .inl ⟨by simp [Valid, hint, h1, h2, ksFields, boolF, strF, intF, Documented, Val.kind], by simp⟩
  · exact .inr ⟨⟨("x_func_id", .int 1), by simp, by simp only [h4]; decide +kernel⟩, by simp⟩
  · exact .inl ⟨by simp [Valid, hint, h1, h2, ksFields, boolF, strF, intF, Documented, Val.kind], by simp⟩
  · exact .inl ⟨by simp [Valid, hint, h1, ksFields, boolF, strF, intF, Documented, Val.kind], by simp⟩
  · exact .inl ⟨by simp [Valid, hint, h1, h2, ksFields, boolF, strF, intF, Documented, Val.kind], by simp⟩
  · exact .inl ⟨by simp [Valid, hint, h1, h2, ksFields, boolF, strF, intF, Documented, Val.kind], by simp⟩
  · exact .inr ⟨⟨("x_func_id", .int 1), by simp, by simp only [h4]; decide +kernel⟩, by simp⟩

theorem Script.no_minus_one (s : Script) (i : Fin s.r) (j : Fin s.c) : (s.N i j : K) ≠ -1 := by
  have : (0 : K) ≤ (s.N i j : K) := Nat.cast_nonneg _
  intro h
  rw [h] at this
  linarith

/-- C107 is false: every shipped example stops with `ValueError`, either in `Kohnsham` (`MaxIter`, `ITERLINSOLVE`, `x_func_id`
and `c_func_id` are not among its options) or, in five of the nine, in `scf`. -/
theorem C107_refuted (lower : String → String) (hlow : LowerCases lower) (coerce : Kind → Val → Option Val)
    (hco : ∀ v : Val, coerce v.kind v = some v) (G : Grid K) (coul : K → K → G.Fld) (a : K) (s : Script) (hs : s ∈ scripts) :
    s.calls lower coerce G coul a s.opt s.opt = .error .valueError ∧
    ((∃ ks, KS.init lower coerce G coul a s.pol (s.Za : K) (s.Zb : K) (fun w => s.Nmo w.1 w.2) (fun w => (s.N w.1 w.2 : K))
      s.opt = .ok (ks : KS G s.r s.c s.pol)) ↔ s.name ∈ ["C", "F", "H2", "H2p", "H"]) := by
  have hl : ∀ k ∈ ["fractional", "sym"], lower k = k := by
    intro k hk
    simp only [List.mem_cons, List.not_mem_nil, or_false] at hk
    rcases hk with rfl | rfl
    · exact hlow.2 ⟨"fractional", .bool, .bool false, none⟩ (by simp [ksFields, boolF, strF, intF])
    · exact hlow.2 ⟨"sym", .bool, .bool false, none⟩ (by simp [ksFields, boolF, strF, intF])
  have hint : lower "interaction_type" = "interaction_type" :=
    hlow.2 ⟨"interaction_type", .str, .str "dft", some ["dft", "ni"]⟩ (by simp [ksFields, boolF, strF, intF])
  have hscf : buildScf lower coerce ksScfFields s.opt = .error .valueError := by
    have : ∃ e ∈ s.opt, lower e.1 ∉ ksScfFields.map Field.name := by
      rcases s.head hs with h | h
      · exact ⟨_, h, by rw [hint]; decide +kernel⟩
      · exact ⟨_, h, by rw [hint]; decide +kernel⟩
    rw [buildScf, if_pos this]
  obtain ⟨hok, hbad, -⟩ := C85_kohnsham lower coerce hco hl G coul a s.pol (s.Za : K) (s.Zb : K)
    (fun w => s.Nmo w.1 w.2) (fun w => (s.N w.1 w.2 : K)) (fun w : Fin s.r × Fin s.c => (s.N w.1 w.2 : K)) s.opt
  have hcase : (∃ ks, KS.init lower coerce G coul a s.pol (s.Za : K) (s.Zb : K) (fun w => s.Nmo w.1 w.2)
        (fun w => (s.N w.1 w.2 : K)) s.opt = .ok (ks : KS G s.r s.c s.pol)) ∧ s.name ∈ ["C", "F", "H2", "H2p", "H"] ∨
      KS.init (p := s.pol) lower coerce G coul a (s.Za : K) (s.Zb : K) (fun w => s.Nmo w.1 w.2)
        (fun w : Fin s.r × Fin s.c => (s.N w.1 w.2 : K)) s.opt = .error .valueError ∧
        s.name ∉ ["C", "F", "H2", "H2p", "H"] := by
    rcases Script.valid hlow hs with ⟨hv, hn⟩ | ⟨hb, hn⟩
    · obtain ⟨ks, h, -⟩ := hok hv fun w => s.no_minus_one w.1 w.2
      exact .inl ⟨⟨ks, h⟩, hn⟩
    · exact .inr ⟨hbad hb, hn⟩
  rcases hcase with ⟨⟨ks, hks⟩, hn⟩ | ⟨hks, hn⟩
  · refine ⟨?_, ⟨fun _ => hn, fun _ => ⟨ks, hks⟩⟩⟩
    unfold Script.calls
    rw [hks]
    simp only [bind, Except.bind]
    rw [hscf]
  · refine ⟨?_, ⟨fun ⟨ks, h⟩ => ?_, fun h => absurd h hn⟩⟩
    · unfold Script.calls
      rw [hks]
      rfl
    · rw [hks] at h; cases h

theorem Spec.supplied_known (lower : String → String) (fs : List Field) (d : Dict) {k : String} (hk : k ∈ fs.map Field.name) :
    supplied lower (known lower fs d) k = supplied lower d k := by
  unfold supplied known
  rw [List.filter_filter]
  congr 2
  refine List.filter_congr fun e _ => ?_
  by_cases h : lower e.1 = k
  · simp only [h, decide_true, hk, Bool.and_self]
  · simp [h]

theorem Script.facts {lower : String → String} (hlow : LowerCases lower) {s : Script} (hs : s ∈ scripts) :
    Valid lower ksFields (known lower ksFields s.opt) ∧ Valid lower ksScfFields (known lower ksScfFields s.opt) ∧
    (known lower ksScfFields s.opt).get? "maxiter" = none ∧
    s.pol = s.c ∧ (s.c = 1 ∨ s.c = 2) ∧ (∑ i, ∑ j, s.N i j) + charge s = s.Za + s.Zb ∧
    ∀ i j, (isSet lower s.opt "fractional" = true ∨ orbitalCapacity i.1 (s.c = 2) ∣ s.N i j) ∧
      s.N i j ≤ orbitalCapacity i.1 (s.c = 2) * s.Nmo i j := by
  have hint : lower "interaction_type" = "interaction_type" :=
    hlow.2 ⟨"interaction_type", .str, .str "dft", some ["dft", "ni"]⟩ (by simp [ksFields, boolF, strF, intF])
  have hfam : lower "xc_family" = "xc_family" :=
    hlow.2 ⟨"xc_family", .str, .str "lda", none⟩ (by simp [ksFields, boolF, strF, intF])
  have h1 : lower "SYM" = "sym" := hlow.1 ("SYM", "sym") (by simp)
  have h2 : lower "FRACTIONAL" = "fractional" := hlow.1 ("FRACTIONAL", "fractional") (by simp)
  have h3 : lower "MaxIter" = "maxiter" := hlow.1 ("MaxIter", "maxiter") (by simp)
  have h4 : lower "x_func_id" = "x_func_id" := hlow.1 ("x_func_id", "x_func_id") (by simp)
  have h5 : lower "c_func_id" = "c_func_id" := hlow.1 ("c_func_id", "c_func_id") (by simp)
  have h6 : lower "ITERLINSOLVE" = "iterlinsolve" := hlow.1 ("ITERLINSOLVE", "iterlinsolve") (by simp)
  have hnum : ∀ s ∈ scripts, s.pol = s.c ∧ (s.c = 1 ∨ s.c = 2) ∧ (∑ i, ∑ j, s.N i j) + charge s = s.Za + s.Zb ∧
    ∀ i j, (("FRACTIONAL", Val.bool true) ∈ s.opt ∨ orbitalCapacity i.1 (s.c = 2) ∣ s.N i j) ∧
      s.N i j ≤ orbitalCapacity i.1 (s.c = 2) * s.Nmo i j := by decide +kernel
  obtain ⟨n1, n2, n3, n4⟩ := hnum s hs
  have hfrac : ("FRACTIONAL", Val.bool true) ∈ s.opt → isSet lower s.opt "fractional" = true := by
    clear n1 n2 n3 n4 hnum
    simp only [scripts, List.mem_cons, List.not_mem_nil, or_false] at hs
    rcases hs with rfl | rfl | rfl | rfl | rfl | rfl | rfl | rfl | rfl <;>
      simp [isSet, supplied, hint, h1, h2, h3]
  refine ⟨?_, ?_, ?_, n1, n2, n3, fun i j => ⟨(n4 i j).1.imp hfrac id, (n4 i j).2⟩⟩
  all_goals
    clear n1 n2 n3 n4 hnum hfrac
    simp only [scripts, List.mem_cons, List.not_mem_nil, or_false] at hs
    rcases hs with rfl | rfl | rfl | rfl | rfl | rfl | rfl | rfl | rfl <;>
      simp [Valid, known, hint, hfam, h1, h2, h3, h4, h5, h6, ksFields, ksScfFields, boolF, strF, intF, floatF, Documented,
        Val.kind, Dict.get?, List.filter]

/-- C107, partial: with every option given to the call that knows it, each script passes the option handling and its first
density has the electrons of a neutral atom or molecule (one fewer for H2p), provided each solver delivers the number of
orbitals it was asked for. Missing: the scripts as they are (`C107_refuted`). -/
theorem C107_electrons_partial (lower : String → String) (hlow : LowerCases lower) (coerce : Kind → Val → Option Val)
    (hco : ∀ v : Val, coerce v.kind v = some v) (G : Grid K) (coul : K → K → G.Fld) (a : K) (s : Script) (hs : s ∈ scripts) :
    ∃ ks o, s.calls lower coerce G coul a (known lower ksFields s.opt) (known lower ksScfFields s.opt) = .ok (ks, o) ∧
      Fresh ks coul a (s.Za : K) (s.Zb : K) (fun w => s.Nmo w.1 w.2) (fun w => (s.N w.1 w.2 : K)) (chosen lower s.opt)
        (isSet lower s.opt "sym") (isSet lower s.opt "fractional") ∧
      o.get? "maxiter" = some (.int 100) ∧
      ∀ f : Fin s.r × Fin s.c → Found G, (∀ w, Delivered (s.Nmo w.1 w.2) (f w)) → (ks.sym = true → MirrorInvariant G) →
        ∃ ks' n, ks.calcDensity (fun w => some (f w)) = .ok (ks', n) ∧
          ∑ j, G.integ (n j) + charge s = s.Za + s.Zb ∧ ∀ j k, 0 ≤ n j k := by
  obtain ⟨v1, v2, hmax, hpc, hc, hsum, hfit⟩ := Script.facts hlow hs
  have hl : ∀ k ∈ ["fractional", "sym"], lower k = k := by
    intro k hk
    simp only [List.mem_cons, List.not_mem_nil, or_false] at hk
    rcases hk with rfl | rfl
    · exact hlow.2 ⟨"fractional", .bool, .bool false, none⟩ (by simp [ksFields, boolF, strF, intF])
    · exact hlow.2 ⟨"sym", .bool, .bool false, none⟩ (by simp [ksFields, boolF, strF, intF])
  obtain ⟨ks, hks, hfresh, -⟩ := (C85_kohnsham lower coerce hco hl G coul a s.pol (s.Za : K) (s.Zb : K)
    (fun w => s.Nmo w.1 w.2) (fun w => (s.N w.1 w.2 : K)) (fun w : Fin s.r × Fin s.c => (s.N w.1 w.2 : K))
    (known lower ksFields s.opt)).1 v1 fun w => s.no_minus_one w.1 w.2
  obtain ⟨o, ho, hget⟩ := (C31_scf_partial lower coerce hco (known lower ksScfFields s.opt)
    (fun f hf => hlow.2 f (by simp [hf]))).2 v2
  have e1 : chosen lower (known lower ksFields s.opt) = chosen lower s.opt := by
    unfold chosen
    rw [supplied_known _ _ _ (by decide +kernel)]
  have e2 : ∀ k ∈ ["sym", "fractional"], isSet lower (known lower ksFields s.opt) k = isSet lower s.opt k := by
    intro k hk
    unfold isSet
    rw [supplied_known]
    simp only [List.mem_cons, List.not_mem_nil, or_false] at hk
    rcases hk with rfl | rfl <;> decide +kernel
  rw [e1, e2 _ (by simp), e2 _ (by simp)] at hfresh
  refine ⟨ks, o, ?_, hfresh, ?_, fun f hf hmir => ?_⟩
  · unfold Script.calls
    rw [hks]
    simp only [bind, Except.bind]
    rw [ho]
    rfl
  · rw [hget ⟨"maxiter", .int, .int 100, none⟩ (by simp [ksScfFields, boolF, strF, intF, floatF]), hmax]
    rfl
  · have hsol := hfresh.solver
    have hcap : ∀ i : Fin s.r, 0 < orbitalCapacity i.1 (s.c = 2) := by
      intro i
      unfold orbitalCapacity
      split <;> split <;> norm_num
    have hel : ∀ i j, electrons (ks.solver (i, j)) = (s.N i j : K) := by
      intro i j
      obtain ⟨a1, a2, a3, a4, a5, -⟩ := hsol i j
      unfold electrons
      simp only [a1, a2, a4, a5]
      split
      · rfl
      · rename_i hn
        obtain ⟨q, hq⟩ := (hfit i j).1.resolve_left hn
        have h0 : ((orbitalCapacity i.1 (s.c = 2) : ℕ) : K) ≠ 0 := by exact_mod_cast (hcap i).ne'
        rw [hq, Nat.cast_mul, mul_div_cancel_left₀ _ h0]
        simp
    obtain ⟨n, hn, hint, hpos, -⟩ := C30_density ks (hpc ▸ le_rfl) (fun w => by rw [(hsol w.1 w.2).2.1]; exact hc)
      (fun w => by rw [(hsol w.1 w.2).2.2.2.1]; exact Nat.cast_nonneg _) (fun w => some (f w)) f (fun _ => rfl) (fun w => by
        obtain ⟨a1, a2, a3, a4, a5, -⟩ := hsol w.1 w.2
        have hw := hf w
        have hle := (hfit w.1 w.2).2
        unfold Delivered at hw
        unfold Adequate
        simp only [a1, a2, a4, a5]
        cases hp : (f w).2 with
        | none =>
          rw [hp] at hw
          simp only at hw
          rw [hw, mul_zero] at hle
          simp only
          exact_mod_cast Nat.le_zero.mp hle
        | some l =>
          rw [hp] at hw
          refine ⟨?_, hw.2⟩
          rw [hw.1]
          have h0 : (0 : K) < ((orbitalCapacity w.1.1 (s.c = 2) : ℕ) : K) := by exact_mod_cast hcap w.1
          have hdiv : (s.N w.1 w.2 : K) / (orbitalCapacity w.1.1 (s.c = 2) : ℕ) ≤ (s.Nmo w.1 w.2 : ℕ) := by
            rw [div_le_iff₀ h0, mul_comm]
            exact_mod_cast hle
          have hceil : ⌈(s.N w.1 w.2 : K) / (orbitalCapacity w.1.1 (s.c = 2) : ℕ)⌉ ≤ ((s.Nmo w.1 w.2 : ℕ) : ℤ) :=
            Int.ceil_le.mpr (by exact_mod_cast hdiv)
          have hfl := Int.floor_le_ceil ((s.N w.1 w.2 : K) / (orbitalCapacity w.1.1 (s.c = 2) : ℕ))
          unfold needed
          split <;> omega)
    refine ⟨_, n, hn, ?_, hpos⟩
    have hj : ∀ j : Fin s.pol, G.integ (n j) = ∑ i, (s.N i (Fin.cast hpc j) : K) := by
      intro j
      rw [hint hmir, dif_pos (hpc ▸ j.2)]
      exact Finset.sum_congr rfl fun i _ => hel _ _
    rw [Finset.sum_congr rfl fun j _ => hj j, Finset.sum_comm]
    have : ∑ i, ∑ j : Fin s.pol, (s.N i (Fin.cast hpc j) : K) = ∑ i, ∑ j, (s.N i j : K) :=
      Finset.sum_congr rfl fun i _ => Fintype.sum_equiv (finCongr hpc) _ _ fun _ => rfl
    rw [this]
    exact_mod_cast hsum

/-- The assumption on `str.lower` holds of lower-casing. -/
example : LowerCases fun s => String.ofList (s.toList.map Char.toLower) := by
  unfold LowerCases
  decide +kernel

/-- `H2_KS.py` would run with its options given to the constructor and none to `scf`; `C2_KS.py` asks for eight sigma and
four pi electrons in four and one orbitals. -/
example (lo : String → String) (hlo : lo = fun s => String.ofList (s.toList.map Char.toLower)) :
    (scripts.map fun s => (s.name, (known lo ksFields s.opt).length, (known lo ksScfFields s.opt).length)) =
    [("B", 3, 1), ("C2", 2, 1), ("C", 3, 0), ("F2", 3, 0), ("F", 3, 0), ("H2", 2, 0), ("H2p", 3, 0), ("H", 3, 0), ("LiH", 3, 0)] ∧
    (scripts.map fun s => ∑ i, ∑ j, s.N i j) = [5, 12, 6, 18, 9, 2, 1, 1, 4] := by
  subst hlo
  decide +kernel

end Verif
