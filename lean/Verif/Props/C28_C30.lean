import Verif.Lemmas.KohnSham
import Verif.Props.C31
import Verif.Props.C18_C22
import Verif.Props.C08_C09

/-!
# C28: construction of the solver table; C29: independence of process scheduling;
C30: electron number, symmetry and sign of the Kohn-Sham density
-/

namespace Verif
open Opt Spec KS
variable {K : Type} [Field K] [LinearOrder K] [IsStrictOrderedRing K] [FloorRing K]

/-! ## C28 -/

/-- One entry of the table. -/
def pssolverEntry (lower : String → String) (coerce : Kind → Val → Option Val) (G : Grid K)
    {r c r' c' : ℕ} (Nmo : Fin r × Fin c → ℕ) (N : Fin r' × Fin c' → K) (opt : Dict)
    (ij : Fin r × Fin c) (_ : Option (Solver G)) : Py (Option (Solver G)) := do
  let N ← entry N ij.1.1 ij.2.1
  let s ← Solver.init lower coerce G (Nmo ij) N ij.1.1 c opt
  pure (some s)

theorem pssolver_eq (lower : String → String) (coerce : Kind → Val → Option Val) (G : Grid K)
    {r c r' c' : ℕ} (Nmo : Fin r × Fin c → ℕ) (N : Fin r' × Fin c' → K) (opt : Dict) :
    pssolver lower coerce G Nmo N opt = (rowMajor r c).foldlM (fun s w => do
      let x ← pssolverEntry lower coerce G Nmo N opt w (s w)
      pure (Function.update s w x)) fun _ => none := by
  unfold pssolver pssolverEntry
  congr 1
  funext tab ij
  simp only [bind_assoc, pure_bind]

/-- C28, partial: with documented options and no entry `-1` in `N`, the table has the shape of `Nmo`
and solver `(i,j)` has angular momentum `i`, polarisation the number of columns, its own orbital and
electron numbers, and the supplied options; an unknown option raises `ValueError`.
Missing: `N = -1` (`C28_refuted`). -/
theorem C28_table_partial (lower : String → String) (coerce : Kind → Val → Option Val)
    (hco : ∀ v : Val, coerce v.kind v = some v) (G : Grid K)
    {r c r' c' : ℕ} (hr : r ≤ r') (hc : c ≤ c') (Nmo : Fin r × Fin c → ℕ) (N : Fin r' × Fin c' → K)
    (opt : Dict) :
    ((∀ e ∈ opt, ∃ f ∈ solverFields, lower e.1 = f.name ∧ Documented f e.2) →
      (∀ i j, N (Fin.castLE hr i, Fin.castLE hc j) ≠ -1) →
      ∃ tab, pssolver lower coerce G Nmo N opt = .ok tab ∧ ∀ i j, ∃ s : Solver G, tab (i, j) = some s ∧
        s.m = i.1 ∧ s.pol = c ∧ s.Nmo = Nmo (i, j) ∧ s.N = N (Fin.castLE hr i, Fin.castLE hc j) ∧
        s.fractional = decide (supplied lower opt "fractional" = some (.bool true)) ∧
        s.sym = decide (supplied lower opt "sym" = some (.bool true)) ∧
        s.phi = none ∧ s.eig = none ∧ s.veff = none) ∧
    ((∃ e ∈ opt, lower e.1 ∉ solverFields.map Field.name) → 0 < r → 0 < c →
      pssolver lower coerce G Nmo N opt = .error .valueError) := by
  obtain ⟨hunk, hdoc⟩ := C31_options lower coerce hco solverFields (by simp [lowerCased]) opt
  have hlt : ∀ ij : Fin r × Fin c, ij.1.1 < r' ∧ ij.2.1 < c' := fun ij => ⟨by omega, by omega⟩
  rw [pssolver_eq]
  constructor
  · intro h hN
    obtain ⟨o, ho, hget⟩ := hdoc h
    refine ⟨fun ij => some { Nmo := Nmo ij, N := N (Fin.castLE hr ij.1, Fin.castLE hc ij.2),
                             m := ij.1.1, pol := c, fractional := flag o "fractional",
                             sym := flag o "sym" }, ?_, ?_⟩
    · refine (foldlM_update _ nodup_rowMajor _ _ _ fun w _ => ?_).trans (congrArg Except.ok
        (funext fun w => if_pos (mem_rowMajor w)))
      have hne := hN w.1 w.2
      simp only [Fin.castLE] at hne
      simp only [pssolverEntry, entry, dif_pos (hlt w), Solver.init, ho, bind, Except.bind, pure, Except.pure, if_neg hne,
        Fin.castLE]
    · intro i j
      refine ⟨_, rfl, rfl, rfl, rfl, rfl, ?_, ?_, rfl, rfl, rfl⟩
      · have := hget ⟨"fractional", .bool, .bool false, none⟩ (by simp [solverFields, boolF])
        simp only at this
        simp only [flag, this]
        cases hs : supplied lower opt "fractional" with
        | none => simp
        | some v => cases v <;> simp
      · have := hget ⟨"sym", .bool, .bool false, none⟩ (by simp [solverFields, boolF])
        simp only at this
        simp only [flag, this]
        cases hs : supplied lower opt "sym" with
        | none => simp
        | some v => cases v <;> simp
  · intro h hr0 hc0
    refine foldlM_update_error _ nodup_rowMajor _ _ .valueError (fun w _ => .inr ?_)
      ⟨(⟨0, hr0⟩, ⟨0, hc0⟩), mem_rowMajor _, ?_⟩
    · simp only [pssolverEntry, entry, dif_pos (hlt _), Solver.init, hunk h, bind, Except.bind]
    · have h0 : 0 < r' ∧ 0 < c' := ⟨by omega, by omega⟩
      simp only [pssolverEntry, entry, dif_pos h0, Solver.init, hunk h, bind, Except.bind]

/-- C28: an `N` table that lacks an entry raises `IndexError`. -/
theorem C28_shape (lower : String → String) (coerce : Kind → Val → Option Val)
    (hco : ∀ v : Val, coerce v.kind v = some v) (G : Grid K)
    {r c r' c' : ℕ} (Nmo : Fin r × Fin c → ℕ) (N : Fin r' × Fin c' → K) (hN : ∀ w, N w ≠ -1)
    (opt : Dict) (hopt : ∀ e ∈ opt, ∃ f ∈ solverFields, lower e.1 = f.name ∧ Documented f e.2)
    (hlack : ∃ ij : Fin r × Fin c, ¬ (ij.1.1 < r' ∧ ij.2.1 < c')) :
    pssolver lower coerce G Nmo N opt = .error .indexError := by
  obtain ⟨o, ho, -⟩ := (C31_options lower coerce hco solverFields (by simp [lowerCased]) opt).2 hopt
  rw [pssolver_eq]
  refine foldlM_update_error _ nodup_rowMajor _ _ .indexError (fun w _ => ?_) ?_
  · by_cases hw : w.1.1 < r' ∧ w.2.1 < c'
    · left
      simp only [pssolverEntry, entry, dif_pos hw, Solver.init, ho, bind, Except.bind, pure, Except.pure, if_neg (hN _)]
      exact ⟨_, rfl⟩
    · right; simp only [pssolverEntry, entry, dif_neg hw, bind, Except.bind]
  · obtain ⟨ij, h⟩ := hlack
    exact ⟨ij, mem_rowMajor ij, by simp only [pssolverEntry, entry, dif_neg h, bind, Except.bind]⟩

/-- C28 is false for `N = -1`: instead of full occupation the call raises `AttributeError`. -/
theorem C28_refuted (lower : String → String) (coerce : Kind → Val → Option Val) (G : Grid K) :
    pssolver lower coerce G (fun _ : Fin 1 × Fin 1 => 1) (fun _ : Fin 1 × Fin 1 => (-1 : K)) [] =
      .error .attributeError := by
  have : build lower coerce solverFields [] = .ok (solverFields.map fun f => (f.name, f.default)) := rfl
  simp [pssolver, entry, rowMajor, List.finRange_succ, Solver.init, this, bind, Except.bind]

/-- C28: a table with two angular momenta and two spins. -/
example (G : Grid ℚ) (coerce : Kind → Val → Option Val) (hco : ∀ v : Val, coerce v.kind v = some v) :
    ∃ tab s, pssolver id coerce G (fun ij : Fin 2 × Fin 2 => ij.1.1 + 1)
      (fun ij : Fin 2 × Fin 2 => (ij.2.1 : ℚ)) [("sym", .bool true)] = .ok tab ∧
      tab (1, 0) = some s ∧ s.m = 1 ∧ s.pol = 2 ∧ s.Nmo = 2 ∧ s.N = 0 ∧ s.sym = true := by
  obtain ⟨tab, h, hs⟩ := (C28_table_partial id coerce hco G le_rfl le_rfl
    (fun ij : Fin 2 × Fin 2 => ij.1.1 + 1) (fun ij : Fin 2 × Fin 2 => (ij.2.1 : ℚ))
    [("sym", .bool true)]).1 (by
      simp only [List.mem_singleton, forall_eq]
      exact ⟨⟨"sym", .bool, .bool false, none⟩, by simp [solverFields, boolF, floatF], rfl, rfl, by simp⟩) (by
      intro i j h
      have : (0 : ℚ) ≤ ((Fin.castLE (le_refl 2) j).1 : ℚ) := Nat.cast_nonneg _
      simp only at h
      linarith)
  obtain ⟨s, h1, h2, h3, h4, h5, -, h6, -⟩ := hs 1 0
  refine ⟨tab, s, h, h1, h2, h3, h4, ?_, ?_⟩
  · rw [h5]; simp
  · rw [h6]; simp [supplied]

/-! ## C29 -/

variable {G : Grid K} {r c p : ℕ}

/-- C29: whatever the order in which the workers finish (`Run`), `calc_density` behaves as if it had
read the workers' results directly; in particular any two schedules give the same outcome; if a worker
dies without reporting, it raises `KeyError`. -/
theorem C29_schedule (ks : KS G r c p) (work : Fin r × Fin c → Option (Found G))
    (started : List (Fin r × Fin c)) (hst : ∀ w, w ∈ started) (d : Fin r × Fin c → Option (Found G))
    (h : Run work started (fun _ => none) d) :
    ks.calcDensity d = ks.calcDensity work ∧
    ((∃ w, work w = none) → ks.calcDensity d = .error .keyError) := by
  have hd : d = work := by
    funext w
    rw [run_eq h w, if_pos (hst w)]
    simp
  refine ⟨by rw [hd], fun hex => ?_⟩
  rw [hd]
  unfold calcDensity
  rw [collect_error work ks.solver hex]
  rfl

/-- Every order of finishing is a possible run. -/
theorem KS.run_exists {W R : Type*} [DecidableEq W] (work : W → Option R) (order : List W) :
    ∀ (started : List W) (d0 : W → Option R), order.Perm started → ∃ d, Run work started d0 d := by
  induction order with
  | nil => intro started d0 h; rw [List.nil_perm.mp h]; exact ⟨d0, .joined d0⟩
  | cons a order ih =>
    intro started d0 h
    have ha : a ∈ started := h.subset List.mem_cons_self
    have hp : order.Perm (started.erase a) := by
      have := h.erase a
      simpa using this
    cases hw : work a with
    | none =>
      obtain ⟨d, hd⟩ := ih (started.erase a) d0 hp
      exact ⟨d, .dies a ha hw hd⟩
    | some x =>
      obtain ⟨d, hd⟩ := ih (started.erase a) (Function.update d0 a (some x)) hp
      exact ⟨d, .writes a x ha hw hd⟩

/-- C29: four workers finishing in reverse order, the second of which dies. -/
example (ks : KS G 2 2 p) (x : Found G) : ∃ d,
    Run (fun w : Fin 2 × Fin 2 => if w = (1, 0) then none else some x) (colMajor 2 2) (fun _ => none) d ∧
    ks.calcDensity d = .error .keyError := by
  obtain ⟨d, hd⟩ := run_exists (fun w : Fin 2 × Fin 2 => if w = (1, 0) then none else some x)
    (colMajor 2 2).reverse (colMajor 2 2) (fun _ => none) (List.reverse_perm _)
  exact ⟨d, hd, (C29_schedule ks _ _ mem_colMajor d hd).2 ⟨(1, 0), by simp⟩⟩

/-! ## C30 -/

/-- Electrons a solver can place: `N` with a fractionally filled orbital, otherwise the largest multiple
of the orbital capacity not above `N` (`C18_electron_number`). -/
def Spec.electrons (s : Solver G) : K :=
  let g : K := (orbitalCapacity s.m (s.pol = 2) : K)
  if s.fractional then s.N else g * ⌊s.N / g⌋

/-- What a worker has to deliver: as many orbitals of positive norm as carry electrons, or none for
an empty solver. -/
def Spec.Adequate (s : Solver G) (f : Found G) : Prop :=
  match f.2 with
  | none => s.N = 0
  | some l => needed s.fractional (s.N / (orbitalCapacity s.m (s.pol = 2) : K)) ≤ l.length ∧
      ∀ q ∈ l, 0 < G.integ fun k => q k ^ 2

/-- The integral is unchanged by `mirror`. -/
def Spec.MirrorInvariant (G : Grid K) : Prop := ∀ f : G.Fld, G.integ (G.mir f) = G.integ f

theorem Solver.density_of_adequate (s : Solver G) (hp : s.pol = 1 ∨ s.pol = 2) (hN : 0 ≤ s.N)
    (f : Found G) (hf : Adequate s f) :
    ∃ n, ({ s with eig := some f.1, phi := f.2 } : Solver G).calcDensity = .ok n ∧
      G.integ n = electrons s ∧ ∀ k, 0 ≤ n k := by
  obtain ⟨e, phi⟩ := f
  cases phi with
  | none =>
    have h0 : s.N = 0 := hf
    have hocc : ({ s with eig := some e, phi := none } : Solver G).occupation = (0, 0) := by
      unfold Solver.occupation
      simp [h0]
    refine ⟨fun k => s.scale * 0, ?_, ?_, by simp⟩
    · unfold Solver.calcDensity
      rw [hocc]
      simp [pyRange, bind, Except.bind, pure, Except.pure, Solver.scale]
    · simp only [mul_zero, electrons, h0, zero_div, Int.floor_zero, Int.cast_zero, ite_self]
      exact G.integ_zero
  | some l =>
    obtain ⟨hlen, hnorm⟩ := hf
    obtain ⟨n, hn, h1, h2⟩ := C18_electron_number
      ({ s with eig := some e, phi := some l } : Solver G) hp hN l rfl hlen
      (fun i hi _ => (hnorm _ (List.getElem_mem _)).ne')
    refine ⟨n, hn, ?_, C19_nonneg ({ s with eig := some e, phi := some l } : Solver G) hN l rfl
      (fun q hq => (hnorm q hq).le) n hn⟩
    unfold electrons
    simp only
    cases hfr : s.fractional with
    | true => simpa using h1 hfr
    | false =>
      simp only [Bool.false_eq_true, if_false]
      refine (h2 hfr).unique ?_
      set g : K := (orbitalCapacity s.m (s.pol = 2) : K) with hg
      have hgp : 0 < g := by
        have := Solver.scale_eq s hp
        rw [← hg] at this
        exact this ▸ s.scale_pos
      refine ⟨⟨⟨_, rfl⟩, ?_⟩, ?_⟩
      · have := Int.floor_le (s.N / g)
        calc g * (⌊s.N / g⌋ : K) ≤ g * (s.N / g) := by gcongr
          _ = s.N := by field_simp
      · rintro y ⟨⟨z, rfl⟩, hz⟩
        have : z ≤ ⌊s.N / g⌋ := by
          rw [Int.le_floor, le_div_iff₀ hgp]
          rw [mul_comm]; exact hz
        have : (z : K) ≤ (⌊s.N / g⌋ : K) := by exact_mod_cast this
        gcongr

theorem KS.symmetrised_mir (f : G.Cols p) : G.mirCols (symmetrised f) = symmetrised f := by
  funext s k
  simp only [symmetrised, Grid.mir, Grid.mirCols, Grid.mirIx_mirIx]
  ring

theorem KS.integ_symmetrised (hG : MirrorInvariant G) (f : G.Cols p) (s : Fin p) :
    G.integ (symmetrised f s) = G.integ (f s) := by
  have : symmetrised f s = fun k => 1 / 2 * (f s k + G.mir (f s) k) := rfl
  rw [this, G.integ_smul]
  rw [G.integ_add, hG]
  ring

/-- C30: with adequate worker results, column `j` of the density integrates to the sum over `m` of the
solvers' electron counts, the density is non-negative, and with `sym` it is mirror symmetric (the
counts then need a mirror-invariant integral, `C30_grid`). The solvers keep everything but
`eig`, `phi`. -/
theorem C30_density (ks : KS G r c p) (hc : c ≤ p)
    (hpol : ∀ w, (ks.solver w).pol = 1 ∨ (ks.solver w).pol = 2) (hN : ∀ w, 0 ≤ (ks.solver w).N)
    (d : Fin r × Fin c → Option (Found G)) (f : Fin r × Fin c → Found G) (hd : ∀ w, d w = some (f w))
    (hf : ∀ w, Adequate (ks.solver w) (f w)) :
    ∃ nout, ks.calcDensity d = .ok ({ ks with solver := fun w =>
        { ks.solver w with eig := some (f w).1, phi := (f w).2 } }, nout) ∧
      ((ks.sym = true → MirrorInvariant G) → ∀ j : Fin p, G.integ (nout j) =
        if h : j.1 < c then ∑ i, electrons (ks.solver (i, ⟨j.1, h⟩)) else 0) ∧
      (∀ s k, 0 ≤ nout s k) ∧
      (ks.sym = true → G.mirCols nout = nout) := by
  choose n hn hint hpos using fun w => (ks.solver w).density_of_adequate (hpol w) (hN w) (f w) (hf w)
  have hraw : ∀ j : Fin p, G.integ (fun k => if h : j.1 < c then ∑ i, n (i, ⟨j.1, h⟩) k else 0) =
      if h : j.1 < c then ∑ i, electrons (ks.solver (i, ⟨j.1, h⟩)) else 0 := by
    intro j
    by_cases h : j.1 < c
    · simp only [dif_pos h]
      rw [Grid.integ_sum]
      exact Finset.sum_congr rfl fun i _ => hint _
    · simp only [dif_neg h]
      exact G.integ_zero
  have hrawpos : ∀ (j : Fin p) k, 0 ≤ (if h : j.1 < c then ∑ i, n (i, ⟨j.1, h⟩) k else 0) := by
    intro j k
    split
    · exact Finset.sum_nonneg fun i _ => hpos _ k
    · exact le_rfl
  refine ⟨if ks.sym = true then symmetrised fun q k => if h : q.1 < c then ∑ i, n (i, ⟨q.1, h⟩) k else 0
      else fun q k => if h : q.1 < c then ∑ i, n (i, ⟨q.1, h⟩) k else 0, ?_, ?_, ?_, ?_⟩
  rotate_left
  · intro hG j
    split
    · rename_i hs
      rw [integ_symmetrised (hG hs)]; exact hraw j
    · exact hraw j
  · intro s k
    split
    · simp only [symmetrised]
      have h1 := hrawpos s k
      have h2 := hrawpos s (G.mirIx k)
      simp only [Grid.mirCols, Grid.mir]
      positivity
    · exact hrawpos s k
  · intro hs
    rw [if_pos hs]
    exact symmetrised_mir _
  · unfold calcDensity
    rw [collect_ok d ks.solver f hd]
    simp only [bind, Except.bind]
    rw [sumDensities_eq _ n hn hc]
    rfl

/-- C30: grids with equal block counts (of at most twelve points) have a mirror-invariant integral. -/
theorem C30_grid (NP NM : ℕ) (hNP : 2 ≤ NP) (hNP' : NP ≤ 12) (hNM : 2 ≤ NM) (a L : ℝ)
    (wa wr : Fin (NC.npts NP NM) → ℝ)
    (ha : NC.Returns NP NM (.ok wa)) (hr : NC.Returns NP NM (.ok wr)) :
    MirrorInvariant (Init.mkGrid NP NM NM a L wa wr) := by
  intro f
  have := C09_mirror NP NM hNP hNP' hNM a L wa wr ha hr f
  simp only [Grid.integrate, Grid.IntRes.num.injEq] at this
  exact this

/-- C30: two spins, one `m = 1` orbital each with two electrons, on the two-point grid. -/
example : ∃ ks n, (⟨.ni, false, 1, 1, 1, fun _ : Fin 1 × Fin 2 => ⟨1, 2, 1, 2, false, true, none, none, none⟩,
      fun _ _ => 0, none, none, none, none, none, none, {}, none, none, none, fun _ => none⟩ :
      KS (Grid.tiny ℚ) 1 2 2).calcDensity (fun _ => some ([0], some [fun _ => 1])) = .ok (ks, n) ∧
    ∀ s, (Grid.tiny ℚ).integ (n s) = 2 := by
  obtain ⟨n, h, h1, -⟩ := C30_density (G := Grid.tiny ℚ)
    ⟨.ni, false, 1, 1, 1, fun _ : Fin 1 × Fin 2 => ⟨1, 2, 1, 2, false, true, none, none, none⟩,
      fun _ _ => 0, none, none, none, none, none, none, {}, none, none, none, fun _ => none⟩ (p := 2) le_rfl
    (fun _ => .inr rfl) (fun _ => by norm_num) (fun _ => some ([0], some [fun _ => 1]))
    (fun _ => ([0], some [fun _ => 1])) (fun _ => rfl) (fun _ => by
      constructor
      · norm_num [needed, orbitalCapacity]
      · intro q hq
        simp only [List.mem_singleton] at hq
        subst hq
        rw [Grid.tiny_integ]; norm_num)
  refine ⟨_, n, h, fun s => ?_⟩
  rw [h1 (by simp) s, dif_pos s.2]
  norm_num [electrons, orbitalCapacity]

end Verif
