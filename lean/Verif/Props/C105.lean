import Verif.Props.C104
import Verif.Props.C67

/-!
# C105: one occupied orbital: the density determines the potential

`Spec.OneOrbital` is a run of `calc_orbitals` and `calc_density` of a solver that asks for one state.  A potential that
`orbitalinvert` returns is compared with the potentials whose ground state has the target density.
-/

namespace Verif
open Spec FD Init Ops Orbitals OrbInv

/-- `n` is what `calc_density` gives after `calc_orbitals` has found one state in the potential `v`, from a start below all
energies.  With `sym` the potential is mirror symmetric. -/
def Spec.OneOrbital {G : Grid ℝ} (H0 : G.Ix → G.Ix → ℝ) (v : G.Fld) (s : Solver G) (n : G.Fld) : Prop :=
  (s.sym = true → Symmetric H0 v) ∧ 0 ≤ s.N ∧ s.calcDensity = .ok n ∧
  ∃ (e0 : ℝ) (eigs : ℕ → (Fin 1 → ℝ) × (Fin 1 → Orb G)) (p : Fin 1 → G.Fld) (φ : G.Fld),
    Below H0 v e0 ∧ Nearest H0 v e0 (eigs 0).1 p ∧ (∀ i, (eigs 0).2 i = some (p i)) ∧
    (calcOrbitals s.sym eigs 0).2 0 = some φ ∧ s.phi = some [φ]

/-- `E` is the `eks` of `calc_energy` after `calc_orbitals` has found the states in the potential `v`, from a start below all
energies. -/
def Spec.GroundEnergy {G : Grid ℝ} (H0 : G.Ix → G.Ix → ℝ) (v : G.Fld) (s : Solver G) (E : ℝ) : Prop :=
  0 ≤ s.N ∧ (s.pol = 1 ∨ s.pol = 2) ∧ s.calcEks = .ok E ∧
  ∃ (e0 : ℝ) (n : ℕ) (eigs : ℕ → (Fin n → ℝ) × (Fin n → Orb G)) (p : Fin n → G.Fld) (sym : Bool),
    Below H0 v e0 ∧ Nearest H0 v e0 (eigs 0).1 p ∧ (∀ i, (eigs 0).2 i = some (p i)) ∧
    s.eig = some (List.ofFn (calcOrbitals sym eigs 0).1)

theorem Spec.SolvesAt.energy_unique {G : Grid ℝ} {H0 : G.Ix → G.Ix → ℝ} {v p q : G.Fld} {e e' : ℝ} (hw : ∀ k, G.w k ≠ 0)
    (hp : SolvesAt H0 v e p) (hq : SolvesAt H0 v e' q) (t : ℝ) (hqt : ∀ k, q k = t * p k) (h0 : ∃ k, q k ≠ 0) : e' = e := by
  obtain ⟨k, hk⟩ := h0
  have a1 := hq k
  have a2 := hp k
  have hsum : ∑ l, H0 k l * q l = t * ∑ l, H0 k l * p l := by
    rw [Finset.mul_sum]
    exact Finset.sum_congr rfl fun l _ => by rw [hqt]; ring
  rw [hsum] at a1
  have : e' * (G.w k * q k) = e * (G.w k * q k) := by
    rw [← a1, hqt k]
    linear_combination t * a2
  exact mul_right_cancel₀ (mul_ne_zero (hw k) hk) this

/-- The single state found from a start below all energies is the lowest. -/
theorem Spec.nearest_isLowest {G : Grid ℝ} {H0 : G.Ix → G.Ix → ℝ} {v : G.Fld} {σ : ℝ} {e : Fin 1 → ℝ} {p : Fin 1 → G.Fld}
    (hw : ∀ k, G.w k ≠ 0) (hb : Below H0 v σ) (h : Nearest H0 v σ e p) : IsLowest H0 v (e 0) := by
  intro e' q hq h0
  by_cases hin : q ∈ Submodule.span ℝ (Set.range p)
  · rw [Set.range_unique, Submodule.mem_span_singleton] at hin
    obtain ⟨t, rfl⟩ := hin
    exact (SolvesAt.energy_unique hw (h.2.1 0) hq t (fun _ => rfl) h0).ge
  · exact nearest_lowest hb h e' q hq hin 0

/-- A run with one state gives a multiple of the square of a lowest solution. -/
theorem Spec.OneOrbital.solution {G : Grid ℝ} {H0 : G.Ix → G.Ix → ℝ} {v n : G.Fld} {s : Solver G} (hw : ∀ k, G.w k ≠ 0)
    (h : OneOrbital H0 v s n) (hn : ∃ k, n k ≠ 0) :
    ∃ e φ g, SolvesAt H0 v e φ ∧ IsLowest H0 v e ∧ (∃ k, φ k ≠ 0) ∧ g ≠ 0 ∧ ∀ k, n k = g * φ k ^ 2 := by
  obtain ⟨hsym, hN, hd, e0, eigs, p, φ, hb, hnear, hp, hφ, hs⟩ := h
  rw [Solver.calcDensity_eq s hN _ hs] at hd
  split at hd
  swap
  · cases hd
  injection hd with hd
  have hs0 : Tuple.sort (eigs 0).1 = 1 := Subsingleton.elim _ _
  have he : (calcOrbitals s.sym eigs 0).1 = (eigs 0).1 := by
    unfold calcOrbitals; rw [if_pos rfl, hs0]; rfl
  refine ⟨(eigs 0).1 0, φ, s.scale * (fill s.fractional (s.N / s.scale) 0 / G.integ fun k => φ k ^ 2), ?_,
    nearest_isLowest hw hb hnear, ?_, ?_, ?_⟩
  · cases hsy : s.sym with
    | true =>
      have := C99_solution_partial (H0 := H0) (v := v) s.sym eigs 0 (hsym hsy)
        (fun i j _ => by rw [Subsingleton.elim i j]) (fun i q hq => by
          rw [hp] at hq; injection hq with hq; exact hq ▸ hnear.2.1 i) 0 φ hφ
      rwa [he] at this
    | false =>
      obtain ⟨σ, hσ⟩ := C99_pairing eigs 0 (fun i j hij => absurd (Subsingleton.elim i j) hij)
      rw [hsy, (hσ 0).2, hp, Subsingleton.elim (σ 0) 0] at hφ
      injection hφ with hφ
      exact hφ ▸ hnear.2.1 0
  · by_contra hcon
    push Not at hcon
    obtain ⟨k, hk⟩ := hn
    apply hk
    rw [← hd]
    simp [hcon]
  · intro hg
    obtain ⟨k, hk⟩ := hn
    apply hk
    rw [← hd]
    simp only [List.length_singleton, Finset.univ_unique, Finset.sum_singleton]
    simp only [Fin.default_eq_zero, Fin.isValue, Fin.val_zero, List.getElem_cons_zero]
    linear_combination φ k ^ 2 * hg
  · intro k
    rw [← hd]
    simp only [List.length_singleton, Finset.univ_unique, Finset.sum_singleton]
    simp only [Fin.default_eq_zero, Fin.isValue, Fin.val_zero, List.getElem_cons_zero]
    ring

/-- The potential in which `φ` has energy 0. -/
noncomputable def Spec.potentialOf {G : Grid ℝ} (H0 : G.Ix → G.Ix → ℝ) (φ : G.Fld) : G.Fld :=
  fun k => -(∑ l, H0 k l * φ l) / (G.w k * φ k)

theorem Spec.solvesAt_potentialOf {G : Grid ℝ} {H0 : G.Ix → G.Ix → ℝ} {φ : G.Fld} (hw : ∀ k, G.w k ≠ 0)
    (hφ : ∀ k, φ k ≠ 0) : SolvesAt H0 (potentialOf H0 φ) 0 φ := by
  intro k
  unfold potentialOf
  have := hw k
  have := hφ k
  field_simp
  ring

/-- Potentials with proportional non-vanishing solutions differ by a constant. -/
theorem Spec.SolvesAt.potential {G : Grid ℝ} {H0 : G.Ix → G.Ix → ℝ} {v v' p q : G.Fld} {e e' t : ℝ} (hw : ∀ k, G.w k ≠ 0)
    (hp : SolvesAt H0 v e p) (hq : SolvesAt H0 v' e' q) (hqt : ∀ k, q k = t * p k) (h0 : ∀ k, q k ≠ 0) (k : G.Ix) :
    v' k = v k + (e' - e) := by
  have a1 := hq k
  have a2 := hp k
  have hsum : ∑ l, H0 k l * q l = t * ∑ l, H0 k l * p l := by
    rw [Finset.mul_sum]
    exact Finset.sum_congr rfl fun l _ => by rw [hqt]; ring
  rw [hsum] at a1
  have : v' k * (G.w k * q k) = (v k + (e' - e)) * (G.w k * q k) := by
    have a3 : (v' k - e') * (G.w k * q k) = -(t * ∑ l, H0 k l * p l) := by linear_combination a1
    have a4 : (v k - e) * (G.w k * q k) = -(t * ∑ l, H0 k l * p l) := by rw [hqt k]; linear_combination t * a2
    linear_combination a3 - a4
  exact mul_right_cancel₀ (mul_ne_zero (hw k) (h0 k)) this

/-- `orbitalinvert` started at a zero of its equations, for one doubly occupied orbital, stops at once. -/
theorem OrbInv.at_zero {G : Grid ℝ} (O : Oracle G 0) (o : OrbInv.Options ℝ) (s : Solver G) (H0 : Matrix G.Ix G.Ix ℝ)
    (n0 : G.Fld) (X : Unk ℝ (G.Na * G.Nr) 0) (hm : s.m = 0) (hNmo : s.Nmo = 1) (hpol : s.pol = 1) (hN : s.N = 2)
    (htol : 0 < o.tol) (hab : o.abSym = false) (hnorm : G.integ (fun k => phiOf X 0 k ^ 2) = 2)
    (hzero : eqn (wwi G) (blockH fun k l => (2 * G.pi * G.hr * G.ha * G.wi k) * H0 k l) n0 (fun _ => 2) X = 0) :
    ∃ out, orbitalinvert O o s H0 n0 X = .ok out ∧ out.flag = true ∧ out.nfev = 1 ∧ out.us = 0 ∧ out.vs = potOf X ∧
      out.n = fun k => phiOf X 0 k ^ 2 := by
  have hocc : occupations [s] = .ok [2] := by
    have : occupationOf s = .ok [2] := by
      unfold occupationOf
      rw [if_pos hm]
      simp only [if_pos hpol, hN]
      have : trunc (2 : ℝ) = 2 := by unfold trunc; norm_num
      rw [this, hNmo]
      norm_num
    simp only [occupations, List.mapM_cons, List.mapM_nil, this, bind, Except.bind, pure, Except.pure]
    simp [pyGet, hNmo]
  have hn : ∀ i, wnorm (wwi G) X i = 2 := fun i => by
    obtain rfl : i = 0 := Fin.fin_one_eq_zero i
    rw [← hnorm, ← sum_wwi]; rfl
  obtain ⟨occ, hocc'⟩ : ∃ occ : Fin (0 + 1) → ℝ, occ = fun i => [(2 : ℝ)].getD i.1 0 := ⟨_, rfl⟩
  have ho2 : occ = fun _ => 2 := funext fun i => by
    obtain rfl : i = 0 := Fin.fin_one_eq_zero i
    rw [hocc']; rfl
  have htidy : tidy (G := G) o.abSym occ X = .ok X := by
    rw [hab]
    change OrbInv.normalize (wwi G) occ X = .ok X
    rw [OrbInv.normalize, if_pos fun i => by rw [hn, ho2]; norm_num]
    refine congrArg Except.ok (unk_ext (fun i k => ?_) (by simp) (by simp))
    simp only [stack_phiIx, flat_pair, hn, ho2]
    norm_num [phiOf]
  have hmax : ∀ n, maxAbs (fun _ : Fin n => (0 : ℝ)) = 0 := fun n => by
    refine le_antisymm ((Finset.fold_max_le _).2 ⟨le_rfl, by simp⟩) ((Finset.le_fold_max _).2 (.inl le_rfl))
  have hres : residuals (G := G) (blockH (M := 0) fun k l => (2 * G.pi * G.hr * G.ha * G.wi k) * H0 k l) n0 occ X =
      (.fin 0, .fin 0) := by
    rw [residuals, ho2, hzero]
    simp only [Pi.zero_apply, hmax]
  obtain ⟨q, hq1, hq2⟩ : ∃ q, run o (residuals (G := G) (blockH (M := 0) fun k l =>
      (2 * G.pi * G.hr * G.ha * G.wi k) * H0 k l) n0 occ) (renew O o (blockH (M := 0) fun k l =>
      (2 * G.pi * G.hr * G.ha * G.wi k) * H0 k l) n0 occ) X = .ok q ∧ q = ⟨X, 1, .fin 0, [(.fin 0, .fin 0)]⟩ := by
    refine ⟨_, ?_, rfl⟩
    have : Fl.pymax (.fin (0 : ℝ)) (.fin 0) = .fin 0 := by simp [Fl.pymax]
    rw [run, loop_eq, hres, this, if_pos (by simp [htol])]
  have hfin : ∃ out, finish s o q = .ok out ∧ out.flag = true ∧ out.nfev = 1 ∧ out.us = 0 ∧ out.vs = potOf X ∧
      out.n = fun k => phiOf X 0 k ^ 2 := by
    have hint : ∀ i, G.integ (fun k => phiOf q.X i k ^ 2) = 2 := fun i => by
      obtain rfl : i = 0 := Fin.fin_one_eq_zero i
      rw [hq2]; exact hnorm
    have hsc : Solver.scale { s with phi := some (List.ofFn (phiOf q.X)), eig := some (List.ofFn (evalsOf q.X)) } = 2 := by
      simp [Solver.scale, hm, hpol]
    have hN' : s.N = Solver.scale { s with phi := some (List.ofFn (phiOf q.X)), eig := some (List.ofFn (evalsOf q.X)) } *
        ((0 : ℕ) + 1) := by
      rw [hsc, hN]; norm_num
    have hh := filled_homo (M := 0) { s with phi := some (List.ofFn (phiOf q.X)), eig := some (List.ofFn (evalsOf q.X)) }
      hN' (evalsOf q.X) rfl
    have hd := filled_density (M := 0) { s with phi := some (List.ofFn (phiOf q.X)), eig := some (List.ofFn (evalsOf q.X)) }
      hN' (phiOf q.X) rfl hint
    simp only [finish, hh, hd, bind, Except.bind, pure, Except.pure]
    refine ⟨_, rfl, ?_, ?_, ?_, ?_, ?_⟩
    · simp [flag, hq2, htol.le]
    · simp [hq2]
    · exact evalsOf_last q.X
    · simp [hq2]
    · funext k
      rw [hsc, hq2]
      simp
  obtain ⟨out, h1, h2⟩ := hfin
  refine ⟨out, ?_, h2⟩
  unfold orbitalinvert
  rw [hocc]
  simp only [bind, Except.bind]
  rw [← hocc', htidy]
  simp only
  rw [hq1]
  exact h1

section
variable {NP NMa NMr : ℕ} {a L : ℝ} {wa : Fin (NC.npts NP NMa) → ℝ} {wr : Fin (NC.npts NP NMr) → ℝ}
  {ds1 ds2 : Fin (2 * 1 + 1) → ℝ}

/-- What the following theorems use of C103. -/
theorem Three.one (ha : 0 < a) (hL : 0 < L) (hf : FineRadial (hr (NC.npts NP NMr) L))
    (hds1 : FDC.Returns (fun i => ((centred 1 i : ℤ) : ℝ)) 1 (.ok ds1))
    (hds2 : FDC.Returns (fun i => ((centred 1 i : ℤ) : ℝ)) 2 (.ok ds2)) (m : ℕ) :
    ∃ R, build (NC.npts NP NMa) (NC.npts NP NMr) 1 a L (centred 1) ds1 ds2 = .ok R ∧
      let G := mkGrid NP NMa NMr a L wa wr
      let H0 : G.Ix → G.Ix → ℝ := Solver.hamiltonian m R.elap R.olap (Init.w _ _ a L) (Init.f _ _ a L)
      (∀ k, G.w k ≠ 0) ∧
      (∀ v e φ, SolvesAt H0 v e φ → IsLowest H0 v e → (∃ k, φ k ≠ 0) → (∀ k, 0 < φ k) ∨ ∀ k, φ k < 0) ∧
      (∀ v e φ, SolvesAt H0 v e φ → (∀ k, 0 < φ k) → IsLowest H0 v e) ∧
      ∀ v σ, ∃ (e : Fin 1 → ℝ) (p : Fin 1 → G.Fld), Nearest H0 v σ e p := by
  obtain ⟨R, hR, hvar⟩ := C103_variational_partial (wa := wa) (wr := wr) ha hL hf hds1 hds2 m
  obtain ⟨R₁, hR₁, hgr⟩ := C103_ground_partial (wa := wa) (wr := wr) ha hL hf hds1 hds2 m
  obtain ⟨R₂, hR₂, hex⟩ := C104_exists_partial (wa := wa) (wr := wr) ha hL hf hds1 hds2 m
  obtain rfl : R = R₁ := Except.ok.inj (hR.symm.trans hR₁)
  obtain rfl : R = R₂ := Except.ok.inj (hR.symm.trans hR₂)
  obtain ⟨d, hd, horth, -⟩ := hvar
  have hw : ∀ k, 0 < (mkGrid NP NMa NMr a L wa wr).w k := fun k => Three.w_pos ha hL k
  refine ⟨R, hR, fun k => (hw k).ne', fun v e φ hφ hl h0 => ?_, fun v e φ hφ hpos => ?_, fun v σ => ?_⟩
  · obtain ⟨e', p, hp, hl', hpos, huniq⟩ := hgr v
    have he : e = e' := le_antisymm (hl _ _ hp ⟨⟨0, Nat.mul_pos (Nat.succ_pos _) (Nat.succ_pos _)⟩, (hpos _).ne'⟩)
      (hl' _ _ hφ h0)
    obtain ⟨c, hc⟩ := huniq φ (he ▸ hφ)
    obtain ⟨k, hk⟩ := h0
    rcases lt_trichotomy c 0 with h | h | h
    · exact .inr fun k => by rw [hc]; exact mul_neg_of_neg_of_pos h (hpos k)
    · exact absurd (by rw [hc, h, zero_mul]) hk
    · exact .inl fun k => by rw [hc]; exact mul_pos h (hpos k)
  · obtain ⟨e', p, hp, hl', hpos', -⟩ := hgr v
    have he : e = e' := by
      by_contra hne
      have h1 := horth v e e' φ p hφ hp hne
      have h2 : 0 < ∑ k, d k * (mkGrid NP NMa NMr a L wa wr).w k * (φ k * p k) :=
        Finset.sum_pos (fun k _ => mul_pos (mul_pos (hd k) (hw k)) (mul_pos (hpos k) (hpos' k)))
          ⟨⟨0, Nat.mul_pos (Nat.succ_pos _) (Nat.succ_pos _)⟩, Finset.mem_univ _⟩
      exact h2.ne' h1
    exact he ▸ hl'
  · exact hex v σ 1 (Nat.mul_pos (Nat.succ_pos _) (Nat.succ_pos _))

/-- C105, no nodes, partial: the density of one orbital vanishes nowhere, so that a target that vanishes at a point
belongs to no potential.  Missing: stencils wider than three points, coarse radial grids. -/
theorem C105_positive_partial (ha : 0 < a) (hL : 0 < L) (hf : FineRadial (hr (NC.npts NP NMr) L))
    (hds1 : FDC.Returns (fun i => ((centred 1 i : ℤ) : ℝ)) 1 (.ok ds1))
    (hds2 : FDC.Returns (fun i => ((centred 1 i : ℤ) : ℝ)) 2 (.ok ds2)) (m : ℕ) :
    ∃ R, build (NC.npts NP NMa) (NC.npts NP NMr) 1 a L (centred 1) ds1 ds2 = .ok R ∧
      let G := mkGrid NP NMa NMr a L wa wr
      let H0 : G.Ix → G.Ix → ℝ := Solver.hamiltonian m R.elap R.olap (Init.w _ _ a L) (Init.f _ _ a L)
      ∀ (v : G.Fld) s n, OneOrbital H0 v s n → (∃ k, n k ≠ 0) → ∀ k, n k ≠ 0 := by
  obtain ⟨R, hR, hw, hnode, -⟩ := Three.one (wa := wa) (wr := wr) ha hL hf hds1 hds2 m
  refine ⟨R, hR, fun v s n h hn k => ?_⟩
  obtain ⟨e, φ, g, hφ, hl, h0, hg, hng⟩ := h.solution hw hn
  rw [hng]
  refine mul_ne_zero hg (pow_ne_zero _ ?_)
  rcases hnode v e φ hφ hl h0 with h | h
  · exact (h k).ne'
  · exact (h k).ne

/-- C105, uniqueness, partial: two potentials in which one orbital has the same density differ by a
constant, whatever the solvers' other settings.  Missing: as in `C105_positive_partial`. -/
theorem C105_unique_partial (ha : 0 < a) (hL : 0 < L) (hf : FineRadial (hr (NC.npts NP NMr) L))
    (hds1 : FDC.Returns (fun i => ((centred 1 i : ℤ) : ℝ)) 1 (.ok ds1))
    (hds2 : FDC.Returns (fun i => ((centred 1 i : ℤ) : ℝ)) 2 (.ok ds2)) (m : ℕ) :
    ∃ R, build (NC.npts NP NMa) (NC.npts NP NMr) 1 a L (centred 1) ds1 ds2 = .ok R ∧
      let G := mkGrid NP NMa NMr a L wa wr
      let H0 : G.Ix → G.Ix → ℝ := Solver.hamiltonian m R.elap R.olap (Init.w _ _ a L) (Init.f _ _ a L)
      ∀ (v v' : G.Fld) s s' n, OneOrbital H0 v s n → OneOrbital H0 v' s' n → (∃ k, n k ≠ 0) →
        ∃ c, ∀ k, v' k = v k + c := by
  obtain ⟨R, hR, hw, hnode, -⟩ := Three.one (wa := wa) (wr := wr) ha hL hf hds1 hds2 m
  refine ⟨R, hR, fun v v' s s' n h h' hn => ?_⟩
  obtain ⟨e, φ, g, hφ, hl, h0, hg, hng⟩ := h.solution hw hn
  obtain ⟨e', φ', g', hφ', hl', h0', hg', hng'⟩ := h'.solution hw hn
  have hsq : ∀ k, φ' k ^ 2 = g / g' * φ k ^ 2 := fun k => by
    have := (hng k).symm.trans (hng' k)
    field_simp
    linear_combination -this
  have key : ∀ ψ ψ' : (mkGrid NP NMa NMr a L wa wr).Fld, (∀ k, 0 < ψ k) → (∀ k, 0 < ψ' k) →
      (∀ k, ψ' k ^ 2 = g / g' * ψ k ^ 2) → ∀ k, ψ' k = Real.sqrt (g / g') * ψ k := by
    intro ψ ψ' hp hp' hs k
    have hq : 0 ≤ g / g' := by
      by_contra hneg
      have := hs k
      nlinarith [sq_pos_of_pos (hp k), sq_pos_of_pos (hp' k), not_le.mp hneg, mul_neg_of_neg_of_pos (not_le.mp hneg) (sq_pos_of_pos (hp k))]
    rw [← Real.sqrt_sq (hp' k).le, hs k, Real.sqrt_mul hq, Real.sqrt_sq (hp k).le]
  obtain ⟨t, ht⟩ : ∃ t, ∀ k, φ' k = t * φ k := by
    rcases hnode v e φ hφ hl h0 with hp | hp <;> rcases hnode v' e' φ' hφ' hl' h0' with hp' | hp'
    · exact ⟨_, key φ φ' hp hp' hsq⟩
    · refine ⟨-Real.sqrt (g / g'), fun k => ?_⟩
      have := key φ (fun k => -φ' k) hp (fun k => neg_pos.mpr (hp' k)) (fun k => by rw [neg_sq]; exact hsq k) k
      linear_combination -this
    · refine ⟨-Real.sqrt (g / g'), fun k => ?_⟩
      have := key (fun k => -φ k) φ' (fun k => neg_pos.mpr (hp k)) hp' (fun k => by rw [neg_sq]; exact hsq k) k
      linear_combination this
    · refine ⟨Real.sqrt (g / g'), fun k => ?_⟩
      have := key (fun k => -φ k) (fun k => -φ' k) (fun k => neg_pos.mpr (hp k)) (fun k => neg_pos.mpr (hp' k))
        (fun k => by rw [neg_sq, neg_sq]; exact hsq k) k
      linear_combination -this
  refine ⟨e' - e, fun k => SolvesAt.potential hw hφ hφ' ht (fun k => ?_) k⟩
  rcases hnode v' e' φ' hφ' hl' h0' with h | h
  · exact (h k).ne'
  · exact (h k).ne

/-- The run behind `C105_exists_partial`. -/
theorem Three.run (ha : 0 < a) (hL : 0 < L) (hf : FineRadial (hr (NC.npts NP NMr) L))
    (hds1 : FDC.Returns (fun i => ((centred 1 i : ℤ) : ℝ)) 1 (.ok ds1))
    (hds2 : FDC.Returns (fun i => ((centred 1 i : ℤ) : ℝ)) 2 (.ok ds2)) (m : ℕ) :
    ∃ R, build (NC.npts NP NMa) (NC.npts NP NMr) 1 a L (centred 1) ds1 ds2 = .ok R ∧
      let G := mkGrid NP NMa NMr a L wa wr
      let H0 : G.Ix → G.Ix → ℝ := Solver.hamiltonian m R.elap R.olap (Init.w _ _ a L) (Init.f _ _ a L)
      ∀ (n : G.Fld) (pol : ℕ) (fr : Bool), (∀ k, 0 < n k) → pol = 1 ∨ pol = 2 → 0 < G.integ n →
        G.integ n = orbitalCapacity m (pol = 2) ∨ fr = true ∧ G.integ n ≤ orbitalCapacity m (pol = 2) →
        ∃ s : Solver G, s.m = m ∧ s.pol = pol ∧ s.N = G.integ n ∧ s.fractional = fr ∧ s.Nmo = 1 ∧
          OneOrbital H0 (potentialOf H0 fun k => Real.sqrt (n k)) s n ∧
          GroundEnergy H0 (potentialOf H0 fun k => Real.sqrt (n k)) s 0 := by
  obtain ⟨R, hR, hw, -, hlow, hex⟩ := Three.one (wa := wa) (wr := wr) ha hL hf hds1 hds2 m
  obtain ⟨R', hR', hgr⟩ := C103_ground_partial (wa := wa) (wr := wr) ha hL hf hds1 hds2 m
  obtain rfl : R = R' := Except.ok.inj (hR.symm.trans hR')
  refine ⟨R, hR, ?_⟩
  intro G H0 n pol fr hn hp hN hcap
  let φ : G.Fld := fun k => Real.sqrt (n k)
  have hφ : ∀ k, 0 < φ k := fun k => Real.sqrt_pos.mpr (hn k)
  have hsol : SolvesAt H0 (potentialOf H0 φ) 0 φ := solvesAt_potentialOf hw fun k => (hφ k).ne'
  have hl : IsLowest H0 (potentialOf H0 φ) 0 := hlow _ _ _ hsol hφ
  obtain ⟨e, p, hnear⟩ := hex (potentialOf H0 φ) 0
  have hp0 : ∃ k, p 0 k ≠ 0 := Function.ne_iff.mp (hnear.1.ne_zero 0)
  have k0 : G.Ix := ⟨0, Nat.mul_pos (Nat.succ_pos _) (Nat.succ_pos _)⟩
  have he : e 0 = 0 := le_antisymm (nearest_isLowest hw (fun e q hq h0 => hl e q hq h0) hnear _ _ hsol ⟨k0, (hφ k0).ne'⟩)
    (hl _ _ (hnear.2.1 0) hp0)
  obtain ⟨c, hc0, hc⟩ : ∃ c, c ≠ 0 ∧ ∀ k, p 0 k = c * φ k := by
    obtain ⟨e', q, hq, hl', hpos, huniq⟩ := hgr (potentialOf H0 φ)
    have he' : e' = 0 := le_antisymm (hl' _ _ hsol ⟨k0, (hφ k0).ne'⟩) (hl _ _ hq ⟨k0, (hpos k0).ne'⟩)
    obtain ⟨c1, h1⟩ := huniq φ (by rw [he']; exact hsol)
    obtain ⟨c2, h2⟩ := huniq (p 0) (by rw [he', ← he]; exact hnear.2.1 0)
    have hc1 : c1 ≠ 0 := fun h => (hφ k0).ne' (by rw [h1, h, zero_mul])
    refine ⟨c2 / c1, fun h => ?_, fun k => by rw [h1, h2]; field_simp⟩
    obtain ⟨k, hk⟩ := hp0
    rcases div_eq_zero_iff.mp h with h | h
    · exact hk (by rw [h2, h, zero_mul])
    · exact hc1 h
  let eigs : ℕ → (Fin 1 → ℝ) × (Fin 1 → Orb G) := fun _ => (e, fun i => some (p i))
  let s : Solver G := ⟨1, G.integ n, m, pol, fr, false, some [p 0], some (List.ofFn (calcOrbitals false eigs 0).1), none⟩
  have hneed : needed fr (s.N / s.scale) ≤ 1 := by
    have hsc : s.scale = orbitalCapacity m (pol = 2) := s.scale_eq hp
    have hx : s.N / s.scale ≤ 1 := by
      rw [div_le_one s.scale_pos, hsc]
      rcases hcap with h | h
      · exact h.le
      · exact h.2
    unfold needed
    split
    · have : ⌈s.N / s.scale⌉ ≤ 1 := Int.ceil_le.mpr (by exact_mod_cast hx)
      omega
    · have : ⌊s.N / s.scale⌋ ≤ 1 := by
        have := Int.floor_mono hx
        simpa using this
      omega
  refine ⟨s, rfl, rfl, rfl, rfl, rfl, ⟨fun h => absurd h (by simp [s]), hN.le, ?_, 0, eigs, p, p 0,
    fun e q hq h0 => hl e q hq h0, hnear, fun _ => rfl, ?_, rfl⟩, hN.le, hp, ?_, 0, 1, eigs, p, false,
    fun e q hq h0 => hl e q hq h0, hnear, fun _ => rfl, rfl⟩
  · have hsc : s.scale = orbitalCapacity m (pol = 2) := s.scale_eq hp
    have hsp : 0 < s.scale := s.scale_pos
    have hx0 : 0 < s.N / s.scale := div_pos hN hsp
    have hx : s.N / s.scale ≤ 1 := by
      rw [div_le_one hsp, hsc]
      rcases hcap with h | h
      · exact h.le
      · exact h.2
    have hx1 : s.N / s.scale = 1 ∨ fr = true := by
      rcases hcap with h | h
      · exact .inl (by rw [div_eq_one_iff_eq hsp.ne', hsc]; exact h)
      · exact .inr h.1
    have hfill : fill fr (s.N / s.scale) 0 = s.N / s.scale := by
      rcases hx1 with h | h
      · rw [h]; unfold fill filling fillingWhole; split <;> simp
      · rw [h]; unfold fill filling
        simp only [if_true, Nat.cast_zero, sub_zero]
        rw [max_eq_right hx0.le, min_eq_right hx]
    rw [Solver.calcDensity_eq s hN.le _ rfl, if_pos (by simpa using hneed)]
    refine congrArg Except.ok (funext fun k => ?_)
    simp only [List.length_singleton, Finset.univ_unique, Finset.sum_singleton]
    simp only [Fin.default_eq_zero, Fin.isValue, Fin.val_zero, List.getElem_cons_zero]
    have hsq : ∀ k, p 0 k ^ 2 = c ^ 2 * n k := fun k => by
      rw [hc, mul_pow, Real.sq_sqrt (hn k).le]
    have hint : (G.integ fun k => p 0 k ^ 2) = c ^ 2 * G.integ n := by
      simp only [hsq, Grid.integ, Finset.mul_sum]
      exact Finset.sum_congr rfl fun k _ => by ring
    rw [show s.fractional = fr from rfl, hfill, hint, hsq]
    change s.scale * (G.integ n / s.scale * _) = _
    field_simp
  · obtain ⟨σ, hσ⟩ := C99_pairing eigs 0 (fun i j hij => absurd (Subsingleton.elim i j) hij)
    rw [show s.sym = false from rfl, (hσ 0).2, Subsingleton.elim (σ 0) 0]
  · have hz : ∀ i : Fin (List.ofFn (calcOrbitals false eigs 0).1).length, (List.ofFn (calcOrbitals false eigs 0).1)[i.1] = 0 := by
      intro i
      rw [List.getElem_ofFn]
      exact (congrArg e (Subsingleton.elim _ 0)).trans he
    rw [Solver.calcEks_eq s hN.le _ rfl, if_pos (by rw [List.length_ofFn]; exact hneed)]
    refine congrArg Except.ok ?_
    rw [Finset.sum_eq_zero, mul_zero]
    intro i _
    rw [hz, mul_zero]

/-- C105, existence, partial: every positive density with the right number of electrons is the density of one
orbital in some potential.  Missing: as in `C105_positive_partial`. -/
theorem C105_exists_partial (ha : 0 < a) (hL : 0 < L) (hf : FineRadial (hr (NC.npts NP NMr) L))
    (hds1 : FDC.Returns (fun i => ((centred 1 i : ℤ) : ℝ)) 1 (.ok ds1))
    (hds2 : FDC.Returns (fun i => ((centred 1 i : ℤ) : ℝ)) 2 (.ok ds2)) (m : ℕ) :
    ∃ R, build (NC.npts NP NMa) (NC.npts NP NMr) 1 a L (centred 1) ds1 ds2 = .ok R ∧
      let G := mkGrid NP NMa NMr a L wa wr
      let H0 : G.Ix → G.Ix → ℝ := Solver.hamiltonian m R.elap R.olap (Init.w _ _ a L) (Init.f _ _ a L)
      ∀ (n : G.Fld) (pol : ℕ) (fr : Bool), (∀ k, 0 < n k) → pol = 1 ∨ pol = 2 → 0 < G.integ n →
        G.integ n = orbitalCapacity m (pol = 2) ∨ fr = true ∧ G.integ n ≤ orbitalCapacity m (pol = 2) →
        ∃ (v : G.Fld) (s : Solver G), s.m = m ∧ s.pol = pol ∧ s.N = G.integ n ∧ s.fractional = fr ∧ s.Nmo = 1 ∧
          OneOrbital H0 v s n := by
  obtain ⟨R, hR, h⟩ := Three.run (wa := wa) (wr := wr) ha hL hf hds1 hds2 m
  refine ⟨R, hR, fun n pol fr hn hp hN hcap => ?_⟩
  obtain ⟨s, h1, h2, h3, h4, h5, h6, -⟩ := h n pol fr hn hp hN hcap
  exact ⟨_, s, h1, h2, h3, h4, h5, h6⟩

/-- The equations of `orbitalinvert` for one orbital. -/
theorem OrbInv.zero_one {G : Grid ℝ} (H0 : Matrix G.Ix G.Ix ℝ) (n0 : G.Fld) (X : Unk ℝ (G.Na * G.Nr) 0)
    (hq : ∀ k, 2 * G.pi * G.hr * G.ha * G.wi k ≠ 0) (hw : ∀ k, G.w k ≠ 0) :
    eqn (wwi G) (blockH fun k l => (2 * G.pi * G.hr * G.ha * G.wi k) * H0 k l) n0 (fun _ => 2) X = 0 ↔
      SolvesAt H0 (potOf X) 0 (phiOf X 0) ∧ ∀ k, phiOf X 0 k ^ 2 = n0 k := by
  refine (C65_zero_iff (wwi G) n0 (fun _ => 2) (fun k l => (2 * G.pi * G.hr * G.ha * G.wi k) * H0 k l)
    (fun k => mul_ne_zero (hw k) (hq k)) X).trans ?_
  have h0 : evalsOf X 0 = 0 := evalsOf_last X
  constructor
  · rintro ⟨h1, h2, -⟩
    refine ⟨fun k => ?_, fun k => by simpa using h2 k⟩
    have := h1 0 k
    rw [h0, zero_mul] at this
    have e : (∑ l, 2 * G.pi * G.hr * G.ha * G.wi k * H0 k l * phiOf X 0 l) + wwi G k * potOf X k * phiOf X 0 k =
        (2 * G.pi * G.hr * G.ha * G.wi k) * ((∑ l, H0 k l * phiOf X 0 l) + G.w k * potOf X k * phiOf X 0 k) := by
      rw [mul_add, Finset.mul_sum]
      congr 1
      · exact Finset.sum_congr rfl fun l _ => by ring
      · rw [wwi]; ring
    rw [e] at this
    rw [zero_mul]
    exact (mul_eq_zero.mp this).resolve_left (hq k)
  · rintro ⟨h1, h2⟩
    refine ⟨fun i k => ?_, fun k => by simpa using h2 k, fun i => i.elim0⟩
    obtain rfl : i = 0 := Fin.fin_one_eq_zero i
    have := h1 k
    rw [h0, zero_mul]
    rw [zero_mul] at this
    have e : (∑ l, 2 * G.pi * G.hr * G.ha * G.wi k * H0 k l * phiOf X 0 l) + wwi G k * potOf X k * phiOf X 0 k =
        (2 * G.pi * G.hr * G.ha * G.wi k) * ((∑ l, H0 k l * phiOf X 0 l) + G.w k * potOf X k * phiOf X 0 k) := by
      rw [mul_add, Finset.mul_sum]
      congr 1
      · exact Finset.sum_congr rfl fun l _ => by ring
      · rw [wwi]; ring
    rw [e, this, mul_zero]

/-- C105, inversion, partial: where the equations of `orbitalinvert` hold exactly with an orbital of one sign, its
potential is, up to a constant, the one potential whose orbital has the target density, and its energy 0 is
the lowest.  Missing: orbitals that change sign (`C105_refuted`), residuals that are not exactly zero; as in
`C105_positive_partial`. -/
theorem C105_inversion_partial (ha : 0 < a) (hL : 0 < L) (hf : FineRadial (hr (NC.npts NP NMr) L))
    (hds1 : FDC.Returns (fun i => ((centred 1 i : ℤ) : ℝ)) 1 (.ok ds1))
    (hds2 : FDC.Returns (fun i => ((centred 1 i : ℤ) : ℝ)) 2 (.ok ds2)) :
    ∃ R, build (NC.npts NP NMa) (NC.npts NP NMr) 1 a L (centred 1) ds1 ds2 = .ok R ∧
      let G := mkGrid NP NMa NMr a L wa wr
      let H0 : G.Ix → G.Ix → ℝ := Solver.hamiltonian 0 R.elap R.olap (Init.w _ _ a L) (Init.f _ _ a L)
      (∀ k, 2 * G.pi * G.hr * G.ha * G.wi k ≠ 0) → ∀ (n0 : G.Fld) (X : Unk ℝ (G.Na * G.Nr) 0),
        eqn (wwi G) (blockH fun k l => (2 * G.pi * G.hr * G.ha * G.wi k) * H0 k l) n0 (fun _ => 2) X = 0 →
        (∀ k, 0 < phiOf X 0 k) ∨ (∀ k, phiOf X 0 k < 0) →
        IsLowest H0 (potOf X) 0 ∧ ∀ v s, OneOrbital H0 v s n0 → ∃ c, ∀ k, v k = potOf X k + c := by
  obtain ⟨R, hR, hw, hnode, hlow, -⟩ := Three.one (wa := wa) (wr := wr) ha hL hf hds1 hds2 0
  refine ⟨R, hR, ?_⟩
  intro G H0 hq n0 X hX hsign
  obtain ⟨hsol, hn⟩ := (OrbInv.zero_one (G := G) H0 n0 X hq hw).mp hX
  have k0 : G.Ix := ⟨0, Nat.mul_pos (Nat.succ_pos _) (Nat.succ_pos _)⟩
  -- a positive solution
  obtain ⟨ψ, hψ, hpos, hψn⟩ : ∃ ψ : G.Fld, SolvesAt H0 (potOf X) 0 ψ ∧ (∀ k, 0 < ψ k) ∧ ∀ k, ψ k ^ 2 = n0 k := by
    rcases hsign with h | h
    · exact ⟨_, hsol, h, hn⟩
    · refine ⟨fun k => -1 * phiOf X 0 k + 0 * phiOf X 0 k, SolvesAt.comb _ _ hsol hsol, fun k => ?_, fun k => ?_⟩
      · have := h k
        linarith
      · rw [← hn k]; ring
  refine ⟨hlow _ _ _ hψ hpos, fun v s h => ?_⟩
  have hn0 : ∀ k, 0 < n0 k := fun k => by rw [← hψn]; exact pow_pos (hpos k) 2
  obtain ⟨e, φ, g, hφ, hl, h0, hg, hng⟩ := h.solution hw ⟨k0, (hn0 k0).ne'⟩
  have hgpos : 0 < g := by
    have := hn0 k0
    rw [hng] at this
    by_contra hcon
    nlinarith [sq_nonneg (φ k0), not_lt.mp hcon]
  obtain ⟨t, ht⟩ : ∃ t, ∀ k, φ k = t * ψ k := by
    have key : ∀ χ : G.Fld, (∀ k, 0 < χ k) → (∀ k, n0 k = g * χ k ^ 2) → ∀ k, χ k = (Real.sqrt g)⁻¹ * ψ k := by
      intro χ hχ hn k
      have h1 : ψ k = Real.sqrt g * χ k := by
        rw [← Real.sqrt_sq (hpos k).le, hψn, hn, Real.sqrt_mul hgpos.le, Real.sqrt_sq (hχ k).le]
      rw [h1, ← mul_assoc, inv_mul_cancel₀ (Real.sqrt_pos.mpr hgpos).ne', one_mul]
    rcases hnode v e φ hφ hl h0 with hp | hp
    · exact ⟨_, key φ hp hng⟩
    · refine ⟨-(Real.sqrt g)⁻¹, fun k => ?_⟩
      have := key (fun k => -φ k) (fun k => neg_pos.mpr (hp k)) (fun k => by rw [neg_sq]; exact hng k) k
      linear_combination -this
  refine ⟨e - 0, fun k => SolvesAt.potential hw hψ hφ ht (fun k => ?_) k⟩
  rcases hnode v e φ hφ hl h0 with h | h
  · exact (h k).ne'
  · exact (h k).ne

/-- C105 fails for the potential `orbitalinvert` returns: on every grid with at least three points and for every positive
target of two electrons there is a start from which it stops after one pass and reports success with exactly the
target density, although its orbital is not the lowest and its potential is not, up to a constant, a potential
whose ground state has that density. -/
theorem C105_refuted (ha : 0 < a) (hL : 0 < L) (hf : FineRadial (hr (NC.npts NP NMr) L))
    (hds1 : FDC.Returns (fun i => ((centred 1 i : ℤ) : ℝ)) 1 (.ok ds1))
    (hds2 : FDC.Returns (fun i => ((centred 1 i : ℤ) : ℝ)) 2 (.ok ds2)) (h3 : 3 ≤ NC.npts NP NMa * NC.npts NP NMr) :
    ∃ R, build (NC.npts NP NMa) (NC.npts NP NMr) 1 a L (centred 1) ds1 ds2 = .ok R ∧
      let G := mkGrid NP NMa NMr a L wa wr
      let H0 : G.Ix → G.Ix → ℝ := Solver.hamiltonian 0 R.elap R.olap (Init.w _ _ a L) (Init.f _ _ a L)
      (∀ k, 2 * G.pi * G.hr * G.ha * G.wi k ≠ 0) → ∀ n0 : G.Fld, (∀ k, 0 < n0 k) → G.integ n0 = 2 →
        ∃ X0 : Unk ℝ (G.Na * G.Nr) 0, ∀ (O : Oracle G 0) (o : OrbInv.Options ℝ) (s : Solver G), s.m = 0 → s.Nmo = 1 →
          s.pol = 1 → s.N = 2 → 0 < o.tol → o.abSym = false →
          ∃ out, orbitalinvert O o s H0 n0 X0 = .ok out ∧ out.flag = true ∧ out.nfev = 1 ∧ out.n = n0 ∧
            ¬ IsLowest H0 out.vs out.us ∧ ∀ v s', OneOrbital H0 v s' n0 → ¬ ∃ c, ∀ k, v k = out.vs k + c := by
  obtain ⟨R, hR, hw, hnode, hlow, -⟩ := Three.one (wa := wa) (wr := wr) ha hL hf hds1 hds2 0
  obtain ⟨R', hR', hvar⟩ := C103_variational_partial (wa := wa) (wr := wr) ha hL hf hds1 hds2 0
  obtain rfl : R = R' := Except.ok.inj (hR.symm.trans hR')
  obtain ⟨d, hd, horth, -⟩ := hvar
  refine ⟨R, hR, ?_⟩
  intro G H0 hq n0 hn0 hint
  have hwp : ∀ k, 0 < G.w k := fun k => Three.w_pos ha hL k
  -- the point where the sign is changed
  obtain ⟨k0, hk0⟩ : ∃ k0, 2 * (d k0 * G.w k0 * n0 k0) ≠ ∑ k, d k * G.w k * n0 k := by
    by_contra hcon
    push Not at hcon
    have h1 : ∑ k0 : G.Ix, 2 * (d k0 * G.w k0 * n0 k0) = ∑ _k0 : G.Ix, ∑ k, d k * G.w k * n0 k :=
      Finset.sum_congr rfl fun k _ => hcon k
    rw [← Finset.mul_sum, Finset.sum_const, Finset.card_univ, Fintype.card_fin, nsmul_eq_mul] at h1
    have hpos : 0 < ∑ k, d k * G.w k * n0 k :=
      Finset.sum_pos (fun k _ => mul_pos (mul_pos (hd k) (hwp k)) (hn0 k))
        ⟨⟨0, Nat.mul_pos (Nat.succ_pos _) (Nat.succ_pos _)⟩, Finset.mem_univ _⟩
    have h2 := mul_right_cancel₀ hpos.ne' h1
    have h4 : (3 : ℝ) ≤ ((G.Na * G.Nr : ℕ) : ℝ) := by exact_mod_cast h3
    linarith
  obtain ⟨k1, hk1⟩ : ∃ k1 : G.Ix, k1 ≠ k0 := by
    by_contra hcon
    push Not at hcon
    have h1 := hcon ⟨0, by change 0 < NC.npts NP NMa * NC.npts NP NMr; omega⟩
    have h2 := hcon ⟨1, by change 1 < NC.npts NP NMa * NC.npts NP NMr; omega⟩
    have := congrArg Fin.val (h1.trans h2.symm)
    simp at this
  let σ : G.Fld := fun k => if k = k0 then -1 else 1
  let φ : G.Fld := fun k => σ k * Real.sqrt (n0 k)
  have hs : ∀ k, 0 < Real.sqrt (n0 k) := fun k => Real.sqrt_pos.mpr (hn0 k)
  have hφ0 : ∀ k, φ k ≠ 0 := fun k => mul_ne_zero (by simp only [σ]; split <;> norm_num) (hs k).ne'
  have hφ2 : ∀ k, φ k ^ 2 = n0 k := fun k => by
    simp only [φ, σ]
    rw [mul_pow, Real.sq_sqrt (hn0 k).le]
    split <;> norm_num
  have hsol : SolvesAt H0 (potentialOf H0 φ) 0 φ := solvesAt_potentialOf hw hφ0
  have hmixed : ¬ ((∀ k, 0 < φ k) ∨ ∀ k, φ k < 0) := by
    rintro (h | h)
    · have := h k0
      simp only [φ, σ, if_true] at this
      linarith [hs k0]
    · have := h k1
      simp only [φ, σ, if_neg hk1] at this
      linarith [hs k1]
  have hnot : ¬ IsLowest H0 (potentialOf H0 φ) 0 := fun hl => hmixed (hnode _ _ _ hsol hl ⟨k0, hφ0 k0⟩)
  let X0 : Unk ℝ (G.Na * G.Nr) 0 := stack (flat fun _ => φ) Fin.elim0 (potentialOf H0 φ)
  have hX1 : phiOf X0 0 = φ := by funext k; simp [X0]
  have hX2 : potOf X0 = potentialOf H0 φ := by simp [X0]
  have hzero : eqn (wwi G) (blockH fun k l => (2 * G.pi * G.hr * G.ha * G.wi k) * H0 k l) n0 (fun _ => 2) X0 = 0 := by
    rw [OrbInv.zero_one (G := G) H0 n0 X0 hq hw, hX1, hX2]
    exact ⟨hsol, hφ2⟩
  refine ⟨X0, fun O o s hm hNmo hpol hN htol hab => ?_⟩
  obtain ⟨out, h1, h2, h4, h5, h6, h7⟩ := OrbInv.at_zero O o s H0 n0 X0 hm hNmo hpol hN htol hab
    (by rw [hX1]; simp only [hφ2]; exact hint) hzero
  refine ⟨out, h1, h2, h4, by rw [h7, hX1]; exact funext hφ2, by rw [h6, h5, hX2]; exact hnot, ?_⟩
  rintro v s' hv ⟨c, hc⟩
  obtain ⟨e, ψ, g, hψ, hl, h0, hg, hng⟩ := hv.solution hw ⟨k0, (hn0 k0).ne'⟩
  rw [h6, hX2] at hc
  obtain rfl : v = fun k => potentialOf H0 φ k + c := funext hc
  have hψ' : SolvesAt H0 (potentialOf H0 φ) (e - c) ψ := by
    rw [← SolvesAt.shift c, sub_add_cancel]; exact hψ
  by_cases he : e - c = 0
  · refine hnot fun e' q hq' hq0 => ?_
    have := hl (e' + c) q ((SolvesAt.shift c).mpr hq') hq0
    linarith
  · have ho := horth _ _ _ _ _ hψ' hsol he
    have hgpos : 0 < g := by
      have := hn0 k0
      rw [hng] at this
      by_contra hcon
      nlinarith [sq_nonneg (ψ k0), not_lt.mp hcon]
    have key : ∀ χ : G.Fld, (∀ k, 0 < χ k) → (∀ k, n0 k = g * χ k ^ 2) →
        ∑ k, d k * G.w k * (χ k * φ k) = 0 → False := by
      intro χ hχ hn hz
      have h1 : ∀ k, d k * G.w k * (χ k * φ k) = (Real.sqrt g)⁻¹ * (σ k * (d k * G.w k * n0 k)) := by
        intro k
        have h1 : Real.sqrt (n0 k) = Real.sqrt g * χ k := by
          rw [hn, Real.sqrt_mul hgpos.le, Real.sqrt_sq (hχ k).le]
        have h2 : Real.sqrt g ≠ 0 := (Real.sqrt_pos.mpr hgpos).ne'
        have h3 : χ k = (Real.sqrt g)⁻¹ * Real.sqrt (n0 k) := by rw [h1, ← mul_assoc, inv_mul_cancel₀ h2, one_mul]
        have h4 := Real.mul_self_sqrt (hn0 k).le
        simp only [φ]
        rw [h3]
        linear_combination (Real.sqrt g)⁻¹ * σ k * d k * G.w k * h4
      simp only [h1, ← Finset.mul_sum] at hz
      have h2 := (mul_eq_zero.mp hz).resolve_left (inv_ne_zero (Real.sqrt_pos.mpr hgpos).ne')
      have h3 : ∑ k, σ k * (d k * G.w k * n0 k) = ∑ k, d k * G.w k * n0 k - 2 * (d k0 * G.w k0 * n0 k0) := by
        rw [eq_sub_iff_add_eq, ← Finset.sum_erase_add _ _ (Finset.mem_univ k0),
          ← Finset.sum_erase_add (Finset.univ) (fun k => d k * G.w k * n0 k) (Finset.mem_univ k0)]
        have : ∑ k ∈ Finset.univ.erase k0, σ k * (d k * G.w k * n0 k) = ∑ k ∈ Finset.univ.erase k0, d k * G.w k * n0 k :=
          Finset.sum_congr rfl fun k hk => by simp [σ, Finset.ne_of_mem_erase hk]
        rw [this]
        simp only [σ, if_true]
        ring
      exact hk0 (by linarith)
    rcases hnode _ _ _ hψ hl h0 with hp | hp
    · exact key ψ hp hng ho
    · refine key (fun k => -ψ k) (fun k => neg_pos.mpr (hp k)) (fun k => by rw [neg_sq]; exact hng k) ?_
      rw [← neg_eq_zero, ← ho, ← Finset.sum_neg_distrib]
      exact Finset.sum_congr rfl fun k _ => by ring

/-- Three by five points, weights 1: two electrons in one orbital can be spread evenly, in one potential up to a
constant, and `orbitalinvert` can be started so that it returns another one. -/
example : ∃ R, build (NC.npts 3 1) (NC.npts 3 2) 1 1 5 (centred 1) (![-1/2, 0, 1/2] : Fin (2 * 1 + 1) → ℝ) ![1, -2, 1] = .ok R ∧
    let G := mkGrid 3 1 2 1 5 (fun _ => 1) (fun _ => 1)
    let H0 : G.Ix → G.Ix → ℝ := Solver.hamiltonian 0 R.elap R.olap (Init.w _ _ 1 5) (Init.f _ _ 1 5)
    ∃ (n0 v : G.Fld) (s : Solver G) (X0 : Unk ℝ (G.Na * G.Nr) 0), (∀ k l, n0 k = n0 l) ∧ (∀ k, 0 < n0 k) ∧ s.N = 2 ∧
      OneOrbital H0 v s n0 ∧ ∀ O : Oracle G 0, ∃ out, orbitalinvert O ⟨false, false, false, 1 / 1000, 20, 1⟩ s H0 n0 X0 = .ok out ∧
        out.flag = true ∧ out.n = n0 ∧ ¬ ∃ c, ∀ k, v k = out.vs k + c := by
  have hf : FineRadial (hr (NC.npts 3 2) 5) :=
    fineRadial_of_le (by rw [hr_eq]; norm_num [NC.npts]) (by rw [hr_eq]; norm_num [NC.npts])
  obtain ⟨R, hR, hex⟩ := C105_exists_partial (NP := 3) (NMa := 1) (NMr := 2) (a := 1) (L := 5) (wa := fun _ => 1)
    (wr := fun _ => 1) (by norm_num) (by norm_num) hf FD.three_point FD.three_point2 0
  obtain ⟨R', hR', href⟩ := C105_refuted (NP := 3) (NMa := 1) (NMr := 2) (a := 1) (L := 5) (wa := fun _ => 1)
    (wr := fun _ => 1) (by norm_num) (by norm_num) hf FD.three_point FD.three_point2 (by decide)
  obtain rfl : R = R' := Except.ok.inj (hR.symm.trans hR')
  refine ⟨R, hR, ?_⟩
  intro G H0
  have hwi : ∀ k, G.wi k = 1 := fun k => by simp [G, wiFlat]
  have hpre : 0 < 2 * G.pi * G.hr * G.ha :=
    mul_pos (mul_pos (mul_pos two_pos Real.pi_pos) (Three.hr_pos (by norm_num) (0 : Fin (NC.npts 3 2))))
      (Three.ha_pos (0 : Fin (NC.npts 3 1)))
  have hq : ∀ k, 2 * G.pi * G.hr * G.ha * G.wi k ≠ 0 := fun k => by rw [hwi, mul_one]; exact hpre.ne'
  have hI : 0 < G.integ fun _ => 1 := by
    refine mul_pos hpre (Finset.sum_pos (fun k _ => ?_) ⟨⟨0, by decide⟩, Finset.mem_univ _⟩)
    rw [hwi, one_mul, mul_one]
    exact Three.w_pos (by norm_num) (by norm_num) k
  let n0 : G.Fld := fun _ => 2 / G.integ fun _ => 1
  have hn0 : G.integ n0 = 2 := by
    have : G.integ n0 = (2 / G.integ fun _ => 1) * G.integ fun _ => 1 := by
      simp only [n0, Grid.integ, Finset.mul_sum, mul_one]
      exact Finset.sum_congr rfl fun k _ => by ring
    rw [this]; field_simp
  have hpos : ∀ k, 0 < n0 k := fun k => div_pos two_pos hI
  obtain ⟨v, s, hm, hp, hN, -, hNmo, hone⟩ := hex n0 1 false hpos (.inl rfl) (by rw [hn0]; norm_num)
    (.inl (by rw [hn0]; norm_num [orbitalCapacity]))
  obtain ⟨X0, hX⟩ := href hq n0 hpos hn0
  refine ⟨n0, v, s, X0, fun _ _ => rfl, hpos, hN.trans hn0, hone, fun O => ?_⟩
  obtain ⟨out, h1, h2, -, h4, -, h6⟩ := hX O ⟨false, false, false, 1 / 1000, 20, 1⟩ s hm hNmo hp (hN.trans hn0)
    (by norm_num) rfl
  exact ⟨out, h1, h2, h4, h6 v s hone⟩

end
end Verif
