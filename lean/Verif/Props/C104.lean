import Verif.Lemmas.KyFan
import Verif.Props.C103

/-!
# C104: the orbital energies are those of the ground state of non-interacting electrons

`calc_orbitals` asks `eigs` for the `Nmo` states nearest to `e0` (calc_orbitals.py 38).  `Spec.Nearest` is what
`eigs(…, k=Nmo, sigma=e0)` promises.  The trial sets of `Spec.energies` mention neither `eigs` nor the filling of orbitals.
-/

namespace Verif
open Spec FD Init Ops Orbitals

/-- `e`, `p` are independent solutions, and every solution outside their span is at least as far from `σ`. -/
def Spec.Nearest {G : Grid ℝ} {n : ℕ} (H0 : G.Ix → G.Ix → ℝ) (v : G.Fld) (σ : ℝ) (e : Fin n → ℝ) (p : Fin n → G.Fld) : Prop :=
  LinearIndependent ℝ p ∧ (∀ i, SolvesAt H0 v (e i) (p i)) ∧
    ∀ e' q, SolvesAt H0 v e' q → q ∉ Submodule.span ℝ (Set.range p) → ∀ i, |e i - σ| ≤ |e' - σ|

/-- `σ` is below all energies. -/
def Spec.Below {G : Grid ℝ} (H0 : G.Ix → G.Ix → ℝ) (v : G.Fld) (σ : ℝ) : Prop :=
  ∀ e q, SolvesAt H0 v e q → (∃ k, q k ≠ 0) → σ ≤ e

/-- Energies of `N` electrons in orthonormal trial orbitals (weight `d w`), at most `c` in each. -/
def Spec.energies {G : Grid ℝ} (H0 : G.Ix → G.Ix → ℝ) (v d : G.Fld) (c N : ℝ) : Set ℝ :=
  {E | ∃ (M : ℕ) (q : Fin M → G.Fld) (g : Fin M → ℝ),
    (∀ i j, ∑ k, d k * G.w k * (q i k * q j k) = if i = j then 1 else 0) ∧ (∀ i, 0 ≤ g i ∧ g i ≤ c) ∧ ∑ i, g i = N ∧
    E = ∑ i, g i * ∑ k, d k * q i k * (∑ l, H0 k l * q i l + G.w k * v k * q i k)}

/-- The electrons that are placed. -/
noncomputable def Spec.placed {G : Grid ℝ} (s : Solver G) : ℝ :=
  if s.fractional then s.N else (orbitalCapacity s.m (s.pol = 2) : ℝ) * ⌊s.N / (orbitalCapacity s.m (s.pol = 2) : ℝ)⌋

section
variable {NP NMa NMr : ℕ} {a L : ℝ} {wa : Fin (NC.npts NP NMa) → ℝ} {wr : Fin (NC.npts NP NMr) → ℝ}
  {ds1 ds2 : Fin (2 * 1 + 1) → ℝ}

theorem Spec.nearest_lowest {G : Grid ℝ} {n : ℕ} {H0 : G.Ix → G.Ix → ℝ} {v : G.Fld} {σ : ℝ} {e : Fin n → ℝ}
    {p : Fin n → G.Fld} (hb : Below H0 v σ) (h : Nearest H0 v σ e p) :
    ∀ e' q, SolvesAt H0 v e' q → q ∉ Submodule.span ℝ (Set.range p) → ∀ i, e i ≤ e' := by
  intro e' q hq hout i
  have h1 := h.2.2 e' q hq hout i
  have hp : ∃ k, p i k ≠ 0 := Function.ne_iff.mp (h.1.ne_zero i)
  have hq0 : ∃ k, q k ≠ 0 := by
    by_contra hcon
    push Not at hcon
    exact hout ((funext hcon : q = 0) ▸ Submodule.zero_mem _)
  rw [abs_of_nonneg (sub_nonneg.mpr (hb _ _ (h.2.1 i) hp)), abs_of_nonneg (sub_nonneg.mpr (hb _ _ hq hq0))] at h1
  linarith

theorem Three.form_eq {G : Grid ℝ} (H0 : G.Ix → G.Ix → ℝ) (v q : G.Fld) (k : G.Ix) :
    ∑ l, (H0 k l + if k = l then G.w k * v k else 0) * q l = ∑ l, H0 k l * q l + G.w k * v k * q k := by
  simp only [add_mul, Finset.sum_add_distrib, ite_mul, zero_mul, Finset.sum_ite_eq, Finset.mem_univ, if_true]

/-- C104, existence, partial: what `eigs` promises can be kept: as many states as there are grid points, nearest
to any number, exist in every potential.  Missing: stencils wider than three points, coarse radial grids. -/
theorem C104_exists_partial (ha : 0 < a) (hL : 0 < L) (hf : FineRadial (hr (NC.npts NP NMr) L))
    (hds1 : FDC.Returns (fun i => ((centred 1 i : ℤ) : ℝ)) 1 (.ok ds1))
    (hds2 : FDC.Returns (fun i => ((centred 1 i : ℤ) : ℝ)) 2 (.ok ds2)) (m : ℕ) :
    ∃ R, build (NC.npts NP NMa) (NC.npts NP NMr) 1 a L (centred 1) ds1 ds2 = .ok R ∧
      ∀ v σ n, n ≤ NC.npts NP NMa * NC.npts NP NMr → ∃ (e : Fin n → ℝ) (p : Fin n → _),
        Nearest (G := mkGrid NP NMa NMr a L wa wr)
          (Solver.hamiltonian m R.elap R.olap (Init.w _ _ a L) (Init.f _ _ a L)) v σ e p := by
  obtain ⟨R, hR, ⟨d, hd⟩, -⟩ := Three.setup (NP := NP) (NMa := NMa) (NMr := NMr) ha hL hf hds1 hds2 m
  refine ⟨R, hR, fun v σ n hn => ?_⟩
  have hN := hd fun k => Init.w _ _ a L k * v k
  obtain ⟨e, p, h1, h2, h3⟩ := Ground.exists_nearest (w := Init.w _ _ a L) hN.pos (fun k => Three.w_pos ha hL k) hN.bal σ
    (n := n) (by rw [Fintype.card_fin]; exact hn)
  exact ⟨e, p, h1, fun i => SolvesAt.ground.mpr (h2 i), fun e' q hq => h3 e' q (SolvesAt.ground.mp hq)⟩

/-- C104, start below, partial: a start below the potential, for even `m` below the potential with the centrifugal
term, is below all energies.  Missing: as in `C104_exists_partial`. -/
theorem C104_below_partial (ha : 0 < a) (hL : 0 < L) (hf : FineRadial (hr (NC.npts NP NMr) L))
    (hds1 : FDC.Returns (fun i => ((centred 1 i : ℤ) : ℝ)) 1 (.ok ds1))
    (hds2 : FDC.Returns (fun i => ((centred 1 i : ℤ) : ℝ)) 2 (.ok ds2)) (m : ℕ) :
    ∃ R, build (NC.npts NP NMa) (NC.npts NP NMr) 1 a L (centred 1) ds1 ds2 = .ok R ∧
      ∀ v σ, ((∀ k, σ ≤ v k) ∨ Even m ∧ ∀ k, σ ≤ v k + (m : ℝ) ^ 2 * Init.f _ _ a L k) →
        Below (G := mkGrid NP NMa NMr a L wa wr)
          (Solver.hamiltonian m R.elap R.olap (Init.w _ _ a L) (Init.f _ _ a L)) v σ := by
  obtain ⟨R, hR, h⟩ := C103_bound_partial (wa := wa) (wr := wr) ha hL hf hds1 hds2 m
  exact ⟨R, hR, fun v σ hv e q hq h0 => h v e q σ hq h0 hv⟩

/-- The states found, made orthonormal, have the energy `eks`; no trial set has a smaller one. -/
theorem Three.minimum (ha : 0 < a) (hL : 0 < L) (hf : FineRadial (hr (NC.npts NP NMr) L))
    (hds1 : FDC.Returns (fun i => ((centred 1 i : ℤ) : ℝ)) 1 (.ok ds1))
    (hds2 : FDC.Returns (fun i => ((centred 1 i : ℤ) : ℝ)) 2 (.ok ds2)) (m : ℕ) :
    ∃ R, build (NC.npts NP NMa) (NC.npts NP NMr) 1 a L (centred 1) ds1 ds2 = .ok R ∧
      let G := mkGrid NP NMa NMr a L wa wr
      let H0 : G.Ix → G.Ix → ℝ := Solver.hamiltonian m R.elap R.olap (Init.w _ _ a L) (Init.f _ _ a L)
      ∃ d : G.Fld, (∀ k, 0 < d k) ∧ ∀ (v : G.Fld) (e0 : ℝ) (n : ℕ) (eigs : ℕ → (Fin n → ℝ) × (Fin n → Orb G))
        (p : Fin n → G.Fld) (sym : Bool) (s : Solver G) (E : ℝ),
        Below H0 v e0 → Nearest H0 v e0 (eigs 0).1 p → (∀ i, (eigs 0).2 i = some (p i)) → s.m = m →
        s.pol = 1 ∨ s.pol = 2 → 0 ≤ s.N → s.eig = some (List.ofFn (calcOrbitals sym eigs 0).1) → s.calcEks = .ok E →
        (∃ (q : Fin n → G.Fld) (g : Fin n → ℝ), (∀ i, SolvesAt H0 v ((calcOrbitals sym eigs 0).1 i) (q i)) ∧
          (∀ i j, ∑ k, d k * G.w k * (q i k * q j k) = if i = j then 1 else 0) ∧
          (∀ i, 0 ≤ g i ∧ g i ≤ orbitalCapacity m (s.pol = 2)) ∧ ∑ i, g i = placed s ∧
          E = ∑ i, g i * (calcOrbitals sym eigs 0).1 i ∧
          E = ∑ i, g i * ∑ k, d k * q i k * (∑ l, H0 k l * q i l + G.w k * v k * q i k)) ∧
        ∀ E' ∈ energies H0 v d (orbitalCapacity m (s.pol = 2)) (placed s), E ≤ E' := by
  obtain ⟨R, hR, ⟨d, hd⟩, -⟩ := Three.setup (NP := NP) (NMa := NMa) (NMr := NMr) ha hL hf hds1 hds2 m
  refine ⟨R, hR, d, (hd 0).pos, fun v e0 n eigs p sym s E hbel hnear _ hm hp hN heig hE => ?_⟩
  subst hm
  have hNice := hd fun k => Init.w _ _ a L k * v k
  have hw : ∀ k, 0 < Init.w (NC.npts NP NMa) (NC.npts NP NMr) a L k := fun k => Three.w_pos ha hL k
  set ε := (calcOrbitals sym eigs 0).1 with hε
  set π := Tuple.sort (eigs 0).1 with hπ
  have hεe : ∀ i, ε i = (eigs 0).1 (π i) := fun i => rfl
  have hmono : Monotone ε := Tuple.monotone_sort (eigs 0).1
  have hcp : (0 : ℝ) < (orbitalCapacity s.m (s.pol = 2) : ℝ) := by rw [← s.scale_eq hp]; exact s.scale_pos
  have hx : 0 ≤ s.N / s.scale := div_nonneg hN s.scale_pos.le
  have hsorted : (List.ofFn ε).Pairwise (· ≤ ·) := by
    rw [List.pairwise_ofFn]; exact fun i j hij => hmono hij.le
  have hEq := Solver.calcEks_eq s hN _ heig
  rw [hE] at hEq
  split at hEq
  swap
  · cases hEq
  next hlen =>
  injection hEq with hEq
  have hlen' : needed s.fractional (s.N / s.scale) ≤ n := by simpa using hlen
  have hEq' : E = ∑ i, (s.scale * fill s.fractional (s.N / s.scale) i.1) * ε i := by
    rw [hEq, Finset.mul_sum]
    refine Fintype.sum_equiv (finCongr (List.length_ofFn (f := ε))) _ _ fun i => ?_
    rw [List.getElem_ofFn]
    simp only [finCongr_apply, Fin.val_cast]
    rw [mul_assoc]; rfl
  have hplaced : ∑ i : Fin n, s.scale * fill s.fractional (s.N / s.scale) i.1 = placed s := by
    rw [← Finset.mul_sum, sum_fill_one _ _ hx n hlen']
    unfold placed
    rw [← s.scale_eq hp]
    split
    · field_simp [s.scale_pos.ne']
    · rfl
  constructor
  · -- attained by orthonormal solutions
    obtain ⟨q, hq1, hq2⟩ := Ground.orthonormalise (w := Init.w _ _ a L) hNice.pos hw hNice.bal
      (hnear.1.comp π π.injective) (e := ε) fun i => SolvesAt.ground.mp (hnear.2.1 (π i))
    refine ⟨q, fun i => s.scale * fill s.fractional (s.N / s.scale) i.1, fun i => SolvesAt.ground.mpr (hq1 i), hq2,
      fun i => ⟨?_, ?_⟩, hplaced, hEq', ?_⟩
    · exact mul_nonneg s.scale_pos.le (fill_nonneg _ _ _)
    · rw [← s.scale_eq hp]
      have : fill s.fractional (s.N / s.scale) i.1 ≤ 1 := by
        unfold fill filling fillingWhole
        split_ifs
        · exact min_le_left _ _
        · exact le_refl _
        · exact zero_le_one
      exact mul_le_of_le_one_right s.scale_pos.le this
    · rw [hEq']
      refine Finset.sum_congr rfl fun i _ => ?_
      have h1 : ∀ k, (∑ l, Solver.hamiltonian s.m R.elap R.olap (Init.w _ _ a L) (Init.f _ _ a L) k l * q i l +
          Init.w _ _ a L k * v k * q i k) = ε i * (Init.w _ _ a L k * q i k) := fun k =>
        (SolvesAt.ground (G := mkGrid NP NMa NMr a L wa wr)).mpr (hq1 i) k
      have h2 := hq2 i i
      rw [if_pos rfl] at h2
      have h3 : ∑ k, d k * q i k * (∑ l, Solver.hamiltonian s.m R.elap R.olap (Init.w _ _ a L) (Init.f _ _ a L) k l * q i l +
          Init.w _ _ a L k * v k * q i k) = ε i := by
        simp only [h1]
        calc ∑ k, d k * q i k * (ε i * (Init.w _ _ a L k * q i k)) =
            ε i * ∑ k, d k * Init.w _ _ a L k * (q i k * q i k) := by
              rw [Finset.mul_sum]; exact Finset.sum_congr rfl fun k _ => by ring
          _ = ε i := by rw [h2, mul_one]
      exact congrArg _ h3.symm
  · -- no trial set is lower
    rintro E' ⟨M, q, g, hq, hg, hsum, rfl⟩
    have hlow := nearest_lowest hbel hnear
    have hcap : ∑ j, g j ≤ (orbitalCapacity s.m (s.pol = 2) : ℝ) * n := by
      rw [hsum, ← hplaced, ← s.scale_eq hp]
      calc ∑ i : Fin n, s.scale * fill s.fractional (s.N / s.scale) i.1 ≤ ∑ _i : Fin n, s.scale := by
            refine Finset.sum_le_sum fun i _ => mul_le_of_le_one_right s.scale_pos.le ?_
            unfold fill filling fillingWhole
            split_ifs
            · exact min_le_left _ _
            · exact le_refl _
            · exact zero_le_one
        _ = s.scale * n := by rw [Finset.sum_const, Finset.card_univ, Fintype.card_fin, nsmul_eq_mul, mul_comm]
    obtain ⟨f, hf0, hf1, hfs, hfe⟩ := Ground.occupations (w := Init.w _ _ a L) hNice.pos hw hNice.bal
      (hnear.1.comp π π.injective) (e := ε) (fun i => SolvesAt.ground.mp (hnear.2.1 (π i)))
      (fun e' x hx hout i => hlow e' x (SolvesAt.ground.mpr hx)
        (fun hin => hout (by rwa [Set.range_comp, π.surjective.range_eq, Set.image_univ])) (π i))
      hq (fun j => (hg j).1) (fun j => (hg j).2) hcp.le hcap
    have hC := C99_lowest s hp hN _ heig hsorted E hE (fun i => f (finCongr (List.length_ofFn (f := ε)) i))
      (fun i => hf0 _) (fun i => hf1 _) (by
        rw [Fintype.sum_equiv (finCongr (List.length_ofFn (f := ε))) _ f fun i => rfl, hfs, hsum]; rfl)
    refine hC.trans (le_trans (le_of_eq ?_) (hfe.trans_eq ?_))
    · refine Fintype.sum_equiv (finCongr (List.length_ofFn (f := ε))) _ _ fun i => ?_
      rw [List.getElem_ofFn]; rfl
    · refine Finset.sum_congr rfl fun j _ => ?_
      congr 1
      refine Finset.sum_congr rfl fun k _ => ?_
      exact congrArg _ (Three.form_eq (G := mkGrid NP NMa NMr a L wa wr) _ v (q j) k)

/-- C104, minimum, partial: if the eigensolver keeps its promise at the first attempt and `e0` is below all energies,
the `eks` of `calc_energy` is the smallest energy that the electrons can have in any orthonormal orbitals.
Missing: as in `C104_exists_partial`; starts that are not below all energies (`C104_refuted`). -/
theorem C104_minimum_partial (ha : 0 < a) (hL : 0 < L) (hf : FineRadial (hr (NC.npts NP NMr) L))
    (hds1 : FDC.Returns (fun i => ((centred 1 i : ℤ) : ℝ)) 1 (.ok ds1))
    (hds2 : FDC.Returns (fun i => ((centred 1 i : ℤ) : ℝ)) 2 (.ok ds2)) (m : ℕ) :
    ∃ R, build (NC.npts NP NMa) (NC.npts NP NMr) 1 a L (centred 1) ds1 ds2 = .ok R ∧
      let G := mkGrid NP NMa NMr a L wa wr
      let H0 : G.Ix → G.Ix → ℝ := Solver.hamiltonian m R.elap R.olap (Init.w _ _ a L) (Init.f _ _ a L)
      ∃ d : G.Fld, (∀ k, 0 < d k) ∧ ∀ (v : G.Fld) (e0 : ℝ) (n : ℕ) (eigs : ℕ → (Fin n → ℝ) × (Fin n → Orb G))
        (p : Fin n → G.Fld) (sym : Bool) (s : Solver G) (E : ℝ),
        Below H0 v e0 → Nearest H0 v e0 (eigs 0).1 p → (∀ i, (eigs 0).2 i = some (p i)) → s.m = m →
        s.pol = 1 ∨ s.pol = 2 → 0 ≤ s.N → s.eig = some (List.ofFn (calcOrbitals sym eigs 0).1) → s.calcEks = .ok E →
        IsLeast (energies H0 v d (orbitalCapacity m (s.pol = 2)) (placed s)) E := by
  obtain ⟨R, hR, d, hd, h⟩ := Three.minimum (wa := wa) (wr := wr) ha hL hf hds1 hds2 m
  refine ⟨R, hR, d, hd, fun v e0 n eigs p sym s E h1 h2 h3 h4 h5 h6 h7 h8 => ?_⟩
  obtain ⟨⟨q, g, -, hq, hg, hN, -, hE⟩, hl⟩ := h v e0 n eigs p sym s E h1 h2 h3 h4 h5 h6 h7 h8
  exact ⟨⟨n, q, g, hq, hg, hN, hE⟩, hl⟩

theorem Spec.SolvesAt.shift {G : Grid ℝ} {H0 : G.Ix → G.Ix → ℝ} {v : G.Fld} {e : ℝ} {p : G.Fld} (c : ℝ) :
    SolvesAt H0 (fun k => v k + c) (e + c) p ↔ SolvesAt H0 v e p := by
  refine forall_congr' fun k => ?_
  constructor <;> intro h <;> linarith

/-- C104 fails for a start that is not below all energies: on every grid with at least two points, in every
potential and for every start, adding a suitable constant to the potential makes `eigs` return, of a single state asked
for, one that is not the lowest. -/
theorem C104_refuted (ha : 0 < a) (hL : 0 < L) (hf : FineRadial (hr (NC.npts NP NMr) L))
    (h2 : 2 ≤ NC.npts NP NMa * NC.npts NP NMr)
    (hds1 : FDC.Returns (fun i => ((centred 1 i : ℤ) : ℝ)) 1 (.ok ds1))
    (hds2 : FDC.Returns (fun i => ((centred 1 i : ℤ) : ℝ)) 2 (.ok ds2)) (m : ℕ) :
    ∃ R, build (NC.npts NP NMa) (NC.npts NP NMr) 1 a L (centred 1) ds1 ds2 = .ok R ∧
      let G := mkGrid NP NMa NMr a L wa wr
      let H0 : G.Ix → G.Ix → ℝ := Solver.hamiltonian m R.elap R.olap (Init.w _ _ a L) (Init.f _ _ a L)
      ∀ (v : G.Fld) (e0 : ℝ), ∃ c : ℝ,
        (∃ (e : Fin 1 → ℝ) (p : Fin 1 → G.Fld), Nearest H0 (fun k => v k + c) e0 e p) ∧
        ∀ (e : Fin 1 → ℝ) (p : Fin 1 → G.Fld), Nearest H0 (fun k => v k + c) e0 e p →
          ¬ IsLowest H0 (fun k => v k + c) (e 0) := by
  obtain ⟨R, hR, hex⟩ := C104_exists_partial (wa := wa) (wr := wr) ha hL hf hds1 hds2 m
  obtain ⟨R', hR', hgr⟩ := C103_ground_partial (wa := wa) (wr := wr) ha hL hf hds1 hds2 m
  obtain rfl : R = R' := Except.ok.inj (hR.symm.trans hR')
  refine ⟨R, hR, fun v e0 => ?_⟩
  obtain ⟨e1, p1, hp1, hl, hpos, huniq⟩ := hgr v
  -- a second energy
  obtain ⟨e2, p2, hp2, hne0, hlt⟩ : ∃ e2 p2, SolvesAt (G := mkGrid NP NMa NMr a L wa wr)
      (Solver.hamiltonian m R.elap R.olap (Init.w _ _ a L) (Init.f _ _ a L)) v e2 p2 ∧ (∃ k, p2 k ≠ 0) ∧ e1 < e2 := by
    obtain ⟨e, p, hli, hs, -⟩ := hex v 0 2 h2
    have hz : ∀ i, ∃ k, p i k ≠ 0 := fun i => Function.ne_iff.mp (hli.ne_zero i)
    by_contra hcon
    push Not at hcon
    have he : ∀ i, e i = e1 := fun i => le_antisymm (hcon _ _ (hs i) (hz i)) (hl _ _ (hs i) (hz i))
    obtain ⟨c0, hc0⟩ := huniq (p 0) (he 0 ▸ hs 0)
    obtain ⟨c1, hc1⟩ := huniq (p 1) (he 1 ▸ hs 1)
    have hrel : ∑ i, ![c1, -c0] i • p i = 0 := by
      rw [Fin.sum_univ_two]
      funext k
      change c1 * p 0 k + -c0 * p 1 k = 0
      rw [hc0, hc1]; ring
    have hc := Fintype.linearIndependent_iff.mp hli _ hrel 1
    obtain ⟨k, hk⟩ := hz 0
    rw [hc0, show c0 = 0 by simpa using hc, zero_mul] at hk
    exact hk rfl
  refine ⟨e0 - e2 - 1, hex _ e0 1 (by omega), fun e p hnear hlow => ?_⟩
  have h2' := (SolvesAt.shift (e0 - e2 - 1)).mpr hp2
  have hge : e2 + (e0 - e2 - 1) ≤ e 0 := by
    by_cases hin : p2 ∈ Submodule.span ℝ (Set.range p)
    · rw [Set.range_unique, Submodule.mem_span_singleton] at hin
      obtain ⟨t, rfl⟩ := hin
      obtain ⟨k, hk⟩ := hne0
      have a1 := h2' k
      have a2 := hnear.2.1 0 k
      have hw : 0 < Init.w (NC.npts NP NMa) (NC.npts NP NMr) a L k := Three.w_pos ha hL k
      have hk' : t * p 0 k ≠ 0 := hk
      have hsum : ∑ l, Solver.hamiltonian m R.elap R.olap (Init.w (NC.npts NP NMa) (NC.npts NP NMr) a L)
            (Init.f (NC.npts NP NMa) (NC.npts NP NMr) a L) k l * (t • p 0) l =
          t * ∑ l, Solver.hamiltonian m R.elap R.olap (Init.w (NC.npts NP NMa) (NC.npts NP NMr) a L)
            (Init.f (NC.npts NP NMa) (NC.npts NP NMr) a L) k l * p 0 l := by
        rw [Finset.mul_sum]
        refine Finset.sum_congr rfl fun l _ => ?_
        change _ * (t * p 0 l) = _
        ring
      change ∑ l, Solver.hamiltonian m R.elap R.olap (Init.w (NC.npts NP NMa) (NC.npts NP NMr) a L)
            (Init.f (NC.npts NP NMa) (NC.npts NP NMr) a L) k l * (t • p 0) l +
          Init.w (NC.npts NP NMa) (NC.npts NP NMr) a L k * (v k + (e0 - e2 - 1)) * (t * p 0 k) =
        (e2 + (e0 - e2 - 1)) * (Init.w (NC.npts NP NMa) (NC.npts NP NMr) a L k * (t * p 0 k)) at a1
      change ∑ l, Solver.hamiltonian m R.elap R.olap (Init.w (NC.npts NP NMa) (NC.npts NP NMr) a L)
            (Init.f (NC.npts NP NMa) (NC.npts NP NMr) a L) k l * p 0 l +
          Init.w (NC.npts NP NMa) (NC.npts NP NMr) a L k * (v k + (e0 - e2 - 1)) * p 0 k =
        e 0 * (Init.w (NC.npts NP NMa) (NC.npts NP NMr) a L k * p 0 k) at a2
      rw [hsum] at a1
      have a3 : (e2 + (e0 - e2 - 1)) * (Init.w (NC.npts NP NMa) (NC.npts NP NMr) a L k * (t * p 0 k)) =
          e 0 * (Init.w (NC.npts NP NMa) (NC.npts NP NMr) a L k * (t * p 0 k)) := by
        linear_combination -a1 + t * a2
      exact (mul_right_cancel₀ (mul_ne_zero hw.ne' hk') a3).le
    · have := hnear.2.2 _ _ h2' hin 0
      rw [show e2 + (e0 - e2 - 1) - e0 = -1 by ring, abs_neg, abs_one, abs_le] at this
      linarith [this.1]
  have := hlow _ _ ((SolvesAt.shift (e0 - e2 - 1)).mpr hp1) ⟨⟨0, lt_of_lt_of_le zero_lt_two h2⟩, (hpos _).ne'⟩
  linarith

/-- Two electrons on three by five points with the start `-7` below the potential: `calc_energy` succeeds with what
`eigs` returns, and no orthonormal orbitals give them a smaller energy. -/
example (v : Fin (NC.npts 3 1 * NC.npts 3 2) → ℝ) (hv : ∀ k, -7 ≤ v k) :
    ∃ R, build (NC.npts 3 1) (NC.npts 3 2) 1 1 5 (centred 1) (![-1/2, 0, 1/2] : Fin (2 * 1 + 1) → ℝ) ![1, -2, 1] = .ok R ∧
      ∃ (d : (mkGrid 3 1 2 1 5 (fun _ => 1) (fun _ => 1)).Fld) (s : Solver (mkGrid 3 1 2 1 5 (fun _ => 1) (fun _ => 1))) (E : ℝ),
        s.N = 2 ∧ s.calcEks = .ok E ∧
        IsLeast (energies (Solver.hamiltonian 0 R.elap R.olap (Init.w _ _ 1 5) (Init.f _ _ 1 5)) v d 2 2) E := by
  have hf : FineRadial (hr (NC.npts 3 2) 5) :=
    fineRadial_of_le (by rw [hr_eq]; norm_num [NC.npts]) (by rw [hr_eq]; norm_num [NC.npts])
  obtain ⟨R, hR, hex⟩ := C104_exists_partial (NP := 3) (NMa := 1) (NMr := 2) (a := 1) (L := 5) (wa := fun _ => 1)
    (wr := fun _ => 1) (by norm_num) (by norm_num) hf FD.three_point FD.three_point2 0
  obtain ⟨R₁, hR₁, hbel⟩ := C104_below_partial (NP := 3) (NMa := 1) (NMr := 2) (a := 1) (L := 5) (wa := fun _ => 1)
    (wr := fun _ => 1) (by norm_num) (by norm_num) hf FD.three_point FD.three_point2 0
  obtain ⟨R₂, hR₂, d, -, hmin⟩ := C104_minimum_partial (NP := 3) (NMa := 1) (NMr := 2) (a := 1) (L := 5) (wa := fun _ => 1)
    (wr := fun _ => 1) (by norm_num) (by norm_num) hf FD.three_point FD.three_point2 0
  obtain rfl : R = R₁ := Except.ok.inj (hR.symm.trans hR₁)
  obtain rfl : R = R₂ := Except.ok.inj (hR.symm.trans hR₂)
  obtain ⟨e, p, hnear⟩ := hex v (-7) 3 (by decide)
  let s : Solver (mkGrid 3 1 2 1 5 (fun _ => 1) (fun _ => 1)) :=
    ⟨3, 2, 0, 1, true, false, none, some (List.ofFn (calcOrbitals false (fun _ => (e, fun i => some (p i))) 0).1), none⟩
  have hs : s.scale = 2 := by rw [s.scale_eq (.inl rfl)]; norm_num [orbitalCapacity, s]
  have hE := Solver.calcEks_eq s (by norm_num [s]) _ rfl
  rw [if_pos (by rw [hs, List.length_ofFn]; norm_num [s, needed])] at hE
  refine ⟨R, hR, d, s, _, rfl, hE, ?_⟩
  have := hmin v (-7) 3 (fun _ => (e, fun i => some (p i))) p false s _ (hbel v (-7) (.inl hv)) hnear (fun _ => rfl) rfl
    (.inl rfl) (by norm_num [s]) rfl hE
  simpa [orbitalCapacity, s, placed] using this

end
end Verif
