import Verif.Lemmas.Hartree
import Verif.Props.C15
import Mathlib.Analysis.Complex.ExponentialBounds
import Mathlib.Analysis.Real.Pi.Bounds

/-!
# C16, C17: Hartree potential
-/

namespace Verif
open Init Spec FD Ops Hartree

/-- Multipole moment of order `m` of a density about the midpoint of the nuclei, by the grid's own
quadrature.  `(z, y)` are the cartesian coordinates of the grid points. -/
noncomputable def Spec.moment (G : Grid ℝ) (z y : G.Fld) (n : G.Fld) (m : ℕ) : ℝ :=
  G.integ fun q => Real.sqrt (z q ^ 2 + y q ^ 2) ^ m *
    legendre m (z q / Real.sqrt (z q ^ 2 + y q ^ 2)) * n q

/-- Multipole potential of orders 0 to 7 at the point `(z, y)`. -/
noncomputable def Spec.multipole (M : ℕ → ℝ) (z y : ℝ) : ℝ :=
  ∑ m ∈ Finset.range 8, M m * legendre m (z / Real.sqrt (z ^ 2 + y ^ 2)) /
    Real.sqrt (z ^ 2 + y ^ 2) ^ (m + 1)

theorem Hartree.radius {a : ℝ} (ha : 0 < a) (r x : ℝ) :
    Real.sqrt ((a * Real.cosh r * Real.cos x) ^ 2 + (a * Real.sinh r * Real.sin x) ^ 2) =
      a * Real.sqrt (Real.cosh r ^ 2 + Real.cos x ^ 2 - 1) := by
  have h1 := Real.cosh_sq r
  have h2 := Real.sin_sq_add_cos_sq x
  have : (a * Real.cosh r * Real.cos x) ^ 2 + (a * Real.sinh r * Real.sin x) ^ 2 =
      a ^ 2 * (Real.cosh r ^ 2 + Real.cos x ^ 2 - 1) := by
    have h3 : Real.sinh r ^ 2 = Real.cosh r ^ 2 - 1 := by linarith
    have h4 : Real.sin x ^ 2 = 1 - Real.cos x ^ 2 := by linarith
    rw [mul_pow, mul_pow, mul_pow, mul_pow, h3, h4]; ring
  rw [this, Real.sqrt_mul (sq_nonneg a), Real.sqrt_sq ha.le]

theorem Hartree.HGrid.bVh_multipole (H : HGrid) (ha : 0 < H.a) (n : H.Fld) (k : Fin (H.Na * H.bcN)) :
    H.bVh n k = Spec.multipole
      (Spec.moment H.grid (Init.Z H.Na H.Nr H.a H.L) (Init.Y H.Na H.Nr H.a H.L) n)
      (H.a * Real.cosh (H.bXr k) * Real.cos (H.bXa k)) (H.a * Real.sinh (H.bXr k) * Real.sin (H.bXa k)) := by
  rw [HGrid.bVh_eq]
  unfold Spec.multipole Spec.moment
  refine Finset.sum_congr rfl fun m _ => ?_
  rw [radius ha]
  congr 2
  congr 1
  funext q
  rw [Z_eq, Y_eq, radius ha]
  rfl

/-- C16, for a factorisation without exchanges (`elap = L U`): the potential solves the discrete
Poisson equation with the multipole boundary values, at every grid point.
Missing for the full claim: factorisations with row or column exchanges, see `C16_refuted`. -/
theorem C16_poisson_partial (H : HGrid) (ha : 0 < H.a)
    (elap : Matrix (Fin (H.Na * H.Nr)) (Fin (H.Na * H.Nr)) ℝ)
    (hlu : IsSplu elap 1 1 H.Llap H.Ulap) (p : ℕ) (hp : p = 1 ∨ p = 2)
    (n : Fin p → H.Fld) :
    ∃ vh, H.vHartree p n = .ok vh ∧ ∀ s i j,
      elap.mulVec (vh s) (at2 i j) +
        val (lineR (H.blap.mulVec fun q => Spec.multipole
          (Spec.moment H.grid (Init.Z H.Na H.Nr H.a H.L) (Init.Y H.Na H.Nr H.a H.L)
            (fun k => ∑ s, n s k))
          (H.a * Real.cosh (bxr H.Nr H.L H.hNr H.bcN (ir q)) * Real.cos (xa H.Na (ia q)))
          (H.a * Real.sinh (bxr H.Nr H.L H.hNr H.bcN (ir q)) * Real.sin (xa H.Na (ia q)))) i)
          ((j.1 : ℤ) - (H.Nr - H.bcN)) =
      -4 * Real.pi * w H.Na H.Nr H.a H.L (at2 i j) * ∑ s, n s (at2 i j) := by
  have hL : IsUnit H.Llap.det := by rw [det_lower hlu.lower hlu.unit]; exact isUnit_one
  have hU : IsUnit H.Ulap.det := (det_upper hlu.upper hlu.nonsing).isUnit
  have hA : elap = H.Llap * H.Ulap := by ext i j; exact hlu.fact i j
  have main : ∀ i j, elap.mulVec (H.solve (H.source fun k => ∑ s, n s k)) (at2 i j) +
        val (lineR (H.blap.mulVec fun q => Spec.multipole
          (Spec.moment H.grid (Init.Z H.Na H.Nr H.a H.L) (Init.Y H.Na H.Nr H.a H.L)
            (fun k => ∑ s, n s k))
          (H.a * Real.cosh (bxr H.Nr H.L H.hNr H.bcN (ir q)) * Real.cos (xa H.Na (ia q)))
          (H.a * Real.sinh (bxr H.Nr H.L H.hNr H.bcN (ir q)) * Real.sin (xa H.Na (ia q)))) i)
          ((j.1 : ℤ) - (H.Nr - H.bcN)) =
      -4 * Real.pi * w H.Na H.Nr H.a H.L (at2 i j) * ∑ s, n s (at2 i j) := by
    intro i j
    have hb : H.bVh (fun k => ∑ s, n s k) = fun q => Spec.multipole
          (Spec.moment H.grid (Init.Z H.Na H.Nr H.a H.L) (Init.Y H.Na H.Nr H.a H.L)
            (fun k => ∑ s, n s k))
          (H.a * Real.cosh (bxr H.Nr H.L H.hNr H.bcN (ir q)) * Real.cos (xa H.Na (ia q)))
          (H.a * Real.sinh (bxr H.Nr H.L H.hNr H.bcN (ir q)) * Real.sin (xa H.Na (ia q))) := by
      funext q; exact H.bVh_multipole ha _ q
    rw [← hb, hA, H.mul_solve hL hU]
    unfold HGrid.source
    have hj := j.2
    have hb' := H.hb
    simp only [ia_at2, ir_at2]
    by_cases h : H.Nr - H.bcN ≤ j.1
    · have e : ((j.1 : ℤ) - (H.Nr - H.bcN)) = ((j.1 - (H.Nr - H.bcN) : ℕ) : ℤ) := by omega
      rw [dif_pos h, e, val_of_lt _ _ (by omega)]
      unfold lineR
      ring
    · rw [dif_neg h, val_neg _ _ (by omega)]
      ring
  rcases hp with rfl | rfl
  · exact ⟨_, rfl, fun _ => main⟩
  · exact ⟨_, rfl, fun _ => main⟩

/-- C16, every factorisation: what the two triangular solves solve when the permutations found by
`splu` are dropped: the system with rows and columns of the Laplacian permuted. -/
theorem C16_permuted (H : HGrid) (elap : Matrix (Fin (H.Na * H.Nr)) (Fin (H.Na * H.Nr)) ℝ)
    (pr pc : Equiv.Perm (Fin (H.Na * H.Nr))) (hlu : IsSplu elap pr pc H.Llap H.Ulap) (b : H.Fld) :
    ∀ i, elap.mulVec (fun j => H.solve b (pc.symm j)) (pr i) = b i := by
  have hL : IsUnit H.Llap.det := by rw [det_lower hlu.lower hlu.unit]; exact isUnit_one
  have hU : IsUnit H.Ulap.det := (det_upper hlu.upper hlu.nonsing).isUnit
  intro i
  conv_rhs => rw [← H.mul_solve hL hU b]
  unfold Matrix.mulVec dotProduct
  rw [← Equiv.sum_comp pc]
  refine Finset.sum_congr rfl fun j _ => ?_
  refine congrArg₂ (· * ·) (hlu.fact i j) ?_
  simp only [Equiv.symm_apply_apply]

/-- C17: for one or two columns the result depends only on the total density, all columns are equal,
and it is linear; exchanging the columns changes nothing. -/
theorem C17_total_linear (H : HGrid) :
    (∀ n : Fin 2 → H.Fld, H.vHartree 2 n = .ok fun _ => H.vHartree1 (fun k => n 0 k + n 1 k) 0) ∧
    (∀ n : Fin 1 → H.Fld, H.vHartree 1 n = .ok (H.vHartree1 (n 0))) ∧
    (∀ n : Fin 2 → H.Fld, H.vHartree 2 (fun s => n s.rev) = H.vHartree 2 n) ∧
    (∀ (c d : ℝ) (n m : H.Fld) s k, H.vHartree1 (fun q => c * n q + d * m q) s k =
      c * H.vHartree1 n s k + d * H.vHartree1 m s k) ∧
    (∀ (c d : ℝ) (p : ℕ) (hp : p = 1 ∨ p = 2) (n m : Fin p → H.Fld), ∃ v u t,
      H.vHartree p n = .ok v ∧ H.vHartree p m = .ok u ∧
      H.vHartree p (fun s k => c * n s k + d * m s k) = .ok t ∧
      ∀ s k, t s k = c * v s k + d * u s k) := by
  have lin : ∀ (c d : ℝ) (n m : H.Fld) k, H.solve (H.source fun q => c * n q + d * m q) k =
      c * H.solve (H.source n) k + d * H.solve (H.source m) k := by
    intro c d n m k
    rw [H.source_linear, H.solve_linear]; rfl
  refine ⟨fun n => ?_, fun n => ?_, fun n => ?_, fun c d n m s k => lin c d n m k,
    fun c d p hp n m => ?_⟩
  · simp only [HGrid.vHartree, HGrid.vHartree1, Fin.sum_univ_two]
  · simp only [HGrid.vHartree]
    congr 1
    funext s
    simp only [HGrid.vHartree1, Finset.univ_unique, Fin.default_eq_zero, Finset.sum_singleton]
  · simp only [HGrid.vHartree, Fin.sum_univ_two]
    congr 1
    funext s
    congr 2
    funext k
    exact add_comm _ _
  · have hs : (fun k => ∑ s : Fin p, (c * n s k + d * m s k)) =
        fun k => c * (∑ s, n s k) + d * ∑ s, m s k := by
      funext k; rw [Finset.sum_add_distrib, Finset.mul_sum, Finset.mul_sum]
    rcases hp with rfl | rfl
    · exact ⟨_, _, _, rfl, rfl, rfl, fun s k => by rw [hs]; exact lin c d _ _ k⟩
    · exact ⟨_, _, _, rfl, rfl, rfl, fun s k => by rw [hs]; exact lin c d _ _ k⟩

/-- C17, energy density: twice the Hartree energy per electron is every column of the potential; the Hartree energy is
quadratic in the density. -/
theorem C17_energy (H : HGrid) (p : ℕ) (hp : p = 1 ∨ p = 2) (n : Fin p → H.Fld) :
    (∃ v, H.vHartree p n = .ok v ∧ ∀ s k, H.eHartree n 0 k + H.eHartree n 0 k = v s k) ∧
    ∀ c : ℝ, H.grid.integ (fun k => H.eHartree (fun s k => c * n s k) 0 k * ∑ s, c * n s k) =
      c ^ 2 * H.grid.integ fun k => H.eHartree n 0 k * ∑ s, n s k := by
  constructor
  · rcases hp with rfl | rfl
    · exact ⟨_, rfl, fun s k => by simp only [HGrid.eHartree, HGrid.vHartree1]; ring⟩
    · exact ⟨_, rfl, fun s k => by simp only [HGrid.eHartree, HGrid.vHartree1]; ring⟩
  · intro c
    have h := fun k => (C17_total_linear H).2.2.2.1 c 0 (fun k => ∑ s, n s k) (fun _ => 0) 0 k
    simp only [mul_zero, add_zero, zero_mul] at h
    have e : ∀ k, H.eHartree (fun s k => c * n s k) 0 k * ∑ s, c * n s k = c ^ 2 * (H.eHartree n 0 k * ∑ s, n s k) := fun k => by
      simp only [HGrid.eHartree, ← Finset.mul_sum, h]; ring
    simp only [e]
    unfold Grid.integ
    rw [mul_left_comm (c ^ 2), Finset.mul_sum (a := c ^ 2)]
    congr 1
    exact Finset.sum_congr rfl fun k _ => by ring

/-- C17: on the grid built by `initialize` with mirror-symmetric weights, and a factorisation
without exchanges, the Hartree potential of the mirrored density is the mirrored potential. -/
theorem C17_mirror_partial (H : HGrid) (hk : 0 < H.bcN) (hNa : H.bcN ≤ H.Na)
    (hL0 : 0 < H.L) (ds1 ds2 : Fin (2 * H.bcN + 1) → ℝ)
    (hds1 : FDC.Returns (fun i => ((centred H.bcN i : ℤ) : ℝ)) 1 (.ok ds1))
    (hds2 : FDC.Returns (fun i => ((centred H.bcN i : ℤ) : ℝ)) 2 (.ok ds2))
    (R : Result ℝ H.Na H.Nr H.bcN)
    (hR : build H.Na H.Nr H.bcN H.a H.L (centred H.bcN) ds1 ds2 = .ok R)
    (hlu : IsSplu R.elap 1 1 H.Llap H.Ulap) (hbl : H.blap = R.blap)
    (hwi : ∀ k, H.wi (mirK k) = H.wi k) (n : H.Fld) :
    H.vHartree1 (Init.mir n) = fun s => Init.mir (H.vHartree1 n s) := by
  have hL : IsUnit H.Llap.det := by rw [det_lower hlu.lower hlu.unit]; exact isUnit_one
  have hU : IsUnit H.Ulap.det := (det_upper hlu.upper hlu.nonsing).isUnit
  have hA : R.elap = H.Llap * H.Ulap := by ext i j; exact hlu.fact i j
  obtain ⟨R', hR', hm, -⟩ := C14_mirror hk hNa H.hb H.a hL0 ds1 ds2 hds1 hds2
  obtain rfl : R = R' := by rw [hR] at hR'; injection hR'
  obtain ⟨D, E, -, -, hB, -⟩ := Ops.build_ok hk hNa H.hb H.a hL0 ds1 ds2 hds1 hds2
  have hRe : R = operators (realInput H.Na H.Nr H.bcN H.a H.L D E) H.hb := by
    rw [hR] at hB; injection hB
  have hbm : ∀ (b : Fin (H.Na * H.bcN) → ℝ) q, H.blap.mulVec (fun q => b (mirK q)) q =
      H.blap.mulVec b (mirK q) := by
    intro b q
    rw [hbl, hRe]
    exact kron_diag_mirror _ _ (fun i => by simp only [realInput, xa_rev, Real.sin_pi_sub]) b q
  funext s
  apply H.solve_unique hL hU
  rw [← hA, hm]
  change Init.mir (R.elap.mulVec (H.solve (H.source n))) = _
  rw [hA, H.mul_solve hL hU]
  funext q
  change H.source n (mirK q) = _
  unfold HGrid.source
  have h1 : H.bVh (Init.mir n) = fun q => H.bVh n (mirK q) := by
    funext q; exact H.bVh_mirror hwi n q
  have h2 : w H.Na H.Nr H.a H.L (mirK q) = w H.Na H.Nr H.a H.L q := by
    rw [w_eq, w_eq, Xr_mirK, sin_mirK]
  simp only [h1]
  have hn : Init.mir n q = n (mirK q) := rfl
  rw [h2, hn]
  congr 1
  have hir : ir (mirK q) = ir q := ir_mirK q
  have hia : ia (mirK q) = (ia q).rev := ia_mirK q
  simp only [hir, hia]
  by_cases h : H.Nr - H.bcN ≤ (ir q).1
  · rw [dif_pos h, dif_pos h]
    have := hbm (H.bVh n) (at2 (ia q) ⟨(ir q).1 - (H.Nr - H.bcN),
      by have := (ir q).2; have := H.hb; omega⟩)
    rw [mirK_at2] at this
    exact this.symm
  · rw [dif_neg h, dif_neg h]

/-- C16 fails in general: on the 2 x 2 grid with the three-point stencils and box size 8, every
factorisation by partial pivoting exchanges rows or columns, so that solving with the stored factors
alone does not invert the Laplacian for some right-hand side. -/
theorem C16_refuted (a : ℝ) (ha0 : 0 < a) (wi : Fin (2 * 2) → ℝ) :
    ∃ R : Result ℝ 2 2 1, build 2 2 1 a 8 (centred 1) ![-1/2, 0, 1/2] ![1, -2, 1] = .ok R ∧
      ∀ pr pc L U, IsSplu R.elap pr pc L U →
        let H : HGrid := ⟨2, 2, 1, by norm_num, by norm_num, a, 8, wi, R.blap, L, U⟩
        ∃ b, R.elap.mulVec (H.solve b) ≠ b := by
  obtain ⟨R, hR, hlap, -⟩ := C14_separable (k := 1) (Na := 2) (Nr := 2) one_pos (by norm_num)
    (by norm_num) a (L := 8) (by norm_num) _ _ (three_point (K := ℝ)) (three_point2 (K := ℝ))
  refine ⟨R, hR, fun pr pc L U hlu => ?_⟩
  intro H
  by_contra hcon
  push Not at hcon
  have hL : IsUnit L.det := by rw [det_lower hlu.lower hlu.unit]; exact isUnit_one
  have hU : IsUnit U.det := (det_upper hlu.upper hlu.nonsing).isUnit
  have hA : ∀ v, R.elap.mulVec v = (L * U).mulVec v := by
    intro v
    have := hcon ((L * U).mulVec v)
    rwa [H.solve_unique hL hU _ v rfl] at this
  let e0 : Fin (2 * 2) → ℝ := fun q => if q = at2 (0 : Fin 2) (0 : Fin 2) then 1 else 0
  have hcol : ∀ k, (L * U).mulVec e0 k = L k 0 * U 0 0 := by
    intro k
    have h1 : (L * U).mulVec e0 k = (L * U) k 0 := by
      unfold Matrix.mulVec dotProduct
      rw [Finset.sum_eq_single 0]
      · simp [e0, at2, pos]
      · intro b _ hb
        have : ¬ (b = at2 (0 : Fin 2) (0 : Fin 2)) := fun h => hb (h.trans (by simp [at2, pos]))
        simp [e0, this]
      · intro h; exact absurd (Finset.mem_univ _) h
    rw [h1, Matrix.mul_apply, Finset.sum_eq_single 0]
    · intro b _ hb
      rw [hlu.upper b 0 (Fin.pos_of_ne_zero hb), mul_zero]
    · intro h; exact absurd (Finset.mem_univ _) h
  have h00 : R.elap.mulVec e0 (at2 (0 : Fin 2) (0 : Fin 2)) = U 0 0 := by
    rw [hA, hcol]
    have : at2 (0 : Fin 2) (0 : Fin 2) = 0 := by simp [at2, pos]
    rw [this, hlu.unit, one_mul]
  have h20 : |R.elap.mulVec e0 (at2 (0 : Fin 2) (1 : Fin 2))| ≤ |U 0 0| := by
    rw [hA, hcol, abs_mul]
    exact (mul_le_mul_of_nonneg_right (hlu.pivot _ _) (abs_nonneg _)).trans (one_mul _).le
  rw [← h00, hlap, hlap] at h20
  simp [e0, laplacian, diffA, diffR, stencil, Fin.sum_univ_three, extend, reflect,
    val, lineA, lineR, at2, pos] at h20
  have ex0 : xa 2 0 = Real.pi / 4 := by rw [xa_eq]; simp; ring
  have er0 : xr 2 8 0 = 2 := by rw [xr_eq]; norm_num
  have er1 : xr 2 8 1 = 6 := by rw [xr_eq]; norm_num
  have eh : hr 2 8 = 4 := by rw [hr_eq]; norm_num
  have ea : ha 2 = Real.pi / 2 := by rw [ha_eq]; norm_num
  rw [ex0, er0, er1, eh, ea, Real.sin_pi_div_four, Real.cos_pi_div_four] at h20
  have hs : 0 < Real.sqrt 2 / 2 := by positivity
  have h2 := le_of_mul_le_mul_left h20 (abs_pos.mpr ha0.ne')
  have hpi := Real.pi_gt_three
  have hS0 : 0 < Real.sinh 2 := Real.sinh_pos_iff.mpr (by norm_num)
  have hSC : Real.sinh 2 < Real.cosh 2 := Real.sinh_lt_cosh _
  have hSC6 : Real.sinh 6 < Real.cosh 6 := Real.sinh_lt_cosh _
  have hC2 : 3 < Real.cosh 2 := by
    rw [Real.cosh_eq]
    have h1 := Real.exp_one_gt_d9
    have h3 : Real.exp 2 = Real.exp 1 * Real.exp 1 := by rw [← Real.exp_add]; norm_num
    have h4 := Real.exp_pos (-2)
    nlinarith
  have hC6 : Real.cosh 6 = 4 * Real.cosh 2 ^ 3 - 3 * Real.cosh 2 := by
    have := Real.cosh_three_mul 2
    norm_num at this
    exact this
  have hbig : 16 * Real.cosh 2 ≤ Real.cosh 6 := by rw [hC6]; nlinarith [sq_nonneg (Real.cosh 2)]
  have p1 : ((Real.pi / 2) ^ 2)⁻¹ ≤ 4 / 9 := by
    rw [inv_le_comm₀ (by positivity) (by norm_num)]; nlinarith
  have p2 : (Real.pi)⁻¹ ≤ 1 / 3 := by
    rw [inv_le_comm₀ (by positivity) (by norm_num)]; linarith
  have p1' : 0 < ((Real.pi / 2) ^ 2)⁻¹ := by positivity
  have p2' : 0 < (Real.pi)⁻¹ := by positivity
  have lhs : |Real.sqrt 2 / 2| * |Real.sinh 6 * (4 ^ 2)⁻¹ + Real.cosh 6 * (-1 / 2 / 4)| =
      Real.sqrt 2 / 2 * (Real.cosh 6 / 8 - Real.sinh 6 / 16) := by
    rw [abs_of_pos hs, abs_of_neg (by linarith)]; ring
  have rhs : |Real.sinh 2 * (Real.sqrt 2 / 2 * ((1 + -2) / (Real.pi / 2) ^ 2) +
        Real.sqrt 2 / 2 * (-1 / 2 / (Real.pi / 2))) +
      Real.sqrt 2 / 2 * (Real.sinh 2 * ((1 + -2) / 4 ^ 2) + Real.cosh 2 * (-1 / 2 / 4))| =
      Real.sqrt 2 / 2 * (Real.sinh 2 * (((Real.pi / 2) ^ 2)⁻¹ + Real.pi⁻¹) + Real.sinh 2 / 16 +
        Real.cosh 2 / 8) := by
    rw [← abs_neg, abs_of_pos]
    · field_simp; ring
    · have : 0 < Real.sqrt 2 / 2 * (Real.sinh 2 * (((Real.pi / 2) ^ 2)⁻¹ + Real.pi⁻¹) +
        Real.sinh 2 / 16 + Real.cosh 2 / 8) := by positivity
      refine lt_of_lt_of_eq this ?_
      field_simp; ring
  rw [lhs, rhs] at h2
  have h3 := le_of_mul_le_mul_left h2 hs
  nlinarith

/-- The hypothesis of C16/C17 is met by a diagonally dominant matrix: no exchanges. -/
example : IsSplu !![-2, 1; 1, -2] 1 1 !![1, 0; -1/2, 1] !![-2, 1; 0, -3/2] where
  fact i j := by fin_cases i <;> fin_cases j <;> simp [Matrix.mul_apply, Fin.sum_univ_two] <;> norm_num
  lower i j h := by fin_cases i <;> fin_cases j <;> simp_all
  unit i := by fin_cases i <;> simp
  upper i j h := by fin_cases i <;> fin_cases j <;> simp_all
  nonsing i := by fin_cases i <;> simp
  pivot i j := by
    fin_cases i <;> fin_cases j <;> simp [abs_div] <;> norm_num

end Verif
