import Verif.Lemmas.Operators

/-!
# C13 (two-dimensional part), C14: Laplacian on the real grid
-/

namespace Verif
open FD Spec Init Ops

/-- Facts shared by C13, C14, C15: the grid object is built and its operators act through the
difference quotients of the even (odd) continuations. -/
theorem Ops.build_ok {k Na Nr : ℕ} (hk : 0 < k) (hNa : k ≤ Na) (hNr : k ≤ Nr) (a : ℝ) {L : ℝ}
    (hL : 0 < L) (ds1 ds2 : Fin (2 * k + 1) → ℝ)
    (hds1 : FDC.Returns (fun i => ((centred k i : ℤ) : ℝ)) 1 (.ok ds1))
    (hds2 : FDC.Returns (fun i => ((centred k i : ℤ) : ℝ)) 2 (.ok ds2)) :
    ∃ D E, fd1 Na Nr k (ha Na) (hr Nr L) (centred k) ds1 = .ok D ∧
      fd2 Na Nr k (ha Na) (hr Nr L) (centred k) ds2 = .ok E ∧
      build Na Nr k a L (centred k) ds1 ds2 = .ok (operators (realInput Na Nr k a L D E) hNr) ∧
      (∀ f i j, D.eDa1.mulVec (lineA f j) i = diffA (Nr := Nr) ds1 (ha Na) 1 1 f i j) ∧
      (∀ f i j, D.oDa1.mulVec (lineA f j) i = diffA (Nr := Nr) ds1 (ha Na) 1 (-1) f i j) ∧
      (∀ f i j, D.eDr1.mulVec (lineR f i) j = diffR (Na := Na) ds1 (hr Nr L) 1 1 (fun _ => 0) f i j) ∧
      (∀ f i j, D.oDr1.mulVec (lineR f i) j = diffR (Na := Na) ds1 (hr Nr L) 1 (-1) (fun _ => 0) f i j) ∧
      (∀ f i j, E.eDa2.mulVec (lineA f j) i = diffA (Nr := Nr) ds2 (ha Na) 2 1 f i j) ∧
      (∀ f i j, E.oDa2.mulVec (lineA f j) i = diffA (Nr := Nr) ds2 (ha Na) 2 (-1) f i j) ∧
      (∀ f i j, E.eDr2.mulVec (lineR f i) j = diffR (Na := Na) ds2 (hr Nr L) 2 1 (fun _ => 0) f i j) ∧
      (∀ f i j, E.oDr2.mulVec (lineR f i) j = diffR (Na := Na) ds2 (hr Nr L) 2 (-1) (fun _ => 0) f i j) := by
  have hNa0 : (Na : ℝ) ≠ 0 := by exact_mod_cast (by omega : Na ≠ 0)
  have hNr0 : (Nr : ℝ) ≠ 0 := by exact_mod_cast (by omega : Nr ≠ 0)
  have hha : ha Na ≠ 0 := by rw [ha_eq]; exact div_ne_zero Real.pi_ne_zero hNa0
  have hhr : hr Nr L ≠ 0 := by rw [hr_eq]; exact div_ne_zero hL.ne' hNr0
  have hb : Init.bcN (2 * k + 1) = k := half k
  have c1 := C11_first_derivative hk hNa hNr hha hhr ds1 hds1
  have c2 := C12_second_derivative hk hNa hNr hha hhr ds2 hds2
  rw [hb] at c1 c2
  obtain ⟨D, hD, d1, d2, d3, d4⟩ := c1
  obtain ⟨E, hE, e1, e2, e3, e4, -⟩ := c2
  refine ⟨D, E, hD, hE, ?_, ?_, ?_, ?_, ?_, ?_, ?_, ?_, ?_⟩
  · unfold build
    rw [hD, hE]
    exact dif_pos hNr
  all_goals
    intro f i j
    first
    | unfold diffA
    | unfold diffR
    rw [eq_div_iff (pow_ne_zero _ (by assumption)), mul_comm]
  · rw [pow_one]; exact d1 _ _
  · rw [pow_one]; exact d2 _ _
  · rw [pow_one]; exact d3 _ _
  · rw [pow_one]; exact d4 _ _
  · exact e1 _ _
  · exact e2 _ _
  · exact e3 _ _
  · exact e4 _ _

/-- The separable prolate-spheroidal Laplacian with given difference quotients at a grid point. -/
noncomputable def Spec.laplacian (a xa xr D2a D1a D2r D1r : ℝ) : ℝ :=
  a * (Real.sinh xr * (Real.sin xa * D2a + Real.cos xa * D1a) +
    Real.sin xa * (Real.sinh xr * D2r + Real.cosh xr * D1r))

/-- C14: `elap` and `olap` act separably on the flattened field, at every grid point, with the even
(odd) difference quotients. -/
theorem C14_separable {k Na Nr : ℕ} (hk : 0 < k) (hNa : k ≤ Na) (hNr : k ≤ Nr) (a : ℝ) {L : ℝ}
    (hL : 0 < L) (ds1 ds2 : Fin (2 * k + 1) → ℝ)
    (hds1 : FDC.Returns (fun i => ((centred k i : ℤ) : ℝ)) 1 (.ok ds1))
    (hds2 : FDC.Returns (fun i => ((centred k i : ℤ) : ℝ)) 2 (.ok ds2)) :
    ∃ R, build Na Nr k a L (centred k) ds1 ds2 = .ok R ∧
      (∀ f i j, R.elap.mulVec f (at2 i j) = Spec.laplacian a (xa Na i) (xr Nr L j)
        (diffA ds2 (ha Na) 2 1 f i j) (diffA ds1 (ha Na) 1 1 f i j)
        (diffR ds2 (hr Nr L) 2 1 (fun _ => 0) f i j) (diffR ds1 (hr Nr L) 1 1 (fun _ => 0) f i j)) ∧
      (∀ f i j, R.olap.mulVec f (at2 i j) = Spec.laplacian a (xa Na i) (xr Nr L j)
        (diffA ds2 (ha Na) 2 (-1) f i j) (diffA ds1 (ha Na) 1 (-1) f i j)
        (diffR ds2 (hr Nr L) 2 (-1) (fun _ => 0) f i j)
        (diffR ds1 (hr Nr L) 1 (-1) (fun _ => 0) f i j)) := by
  obtain ⟨D, E, hD, hE, hB, a1, a2, a3, a4, b1, b2, b3, b4⟩ :=
    Ops.build_ok hk hNa hNr a hL ds1 ds2 hds1 hds2
  refine ⟨_, hB, fun f i j => ?_, fun f i j => ?_⟩
  · refine (lap_mulVec (realInput Na Nr k a L D E) _ _ _ _ f i j).trans ?_
    simp only [realInput, a1, a3, b1, b3]; rfl
  · refine (lap_mulVec (realInput Na Nr k a L D E) _ _ _ _ f i j).trans ?_
    simp only [realInput, a2, a4, b2, b4]; rfl

/-- Field mirrored in the midplane: angular index reversed. -/
def Spec.mirrored {K : Type*} {Na Nr : ℕ} (f : Fin (Na * Nr) → K) : Fin (Na * Nr) → K :=
  fun k => f (at2 (ia k).rev (ir k))

theorem Spec.lineA_mirrored {K : Type*} {Na Nr : ℕ} (f : Fin (Na * Nr) → K) (j : Fin Nr) :
    lineA (Spec.mirrored f) j = fun i => lineA f j i.rev := by
  funext i; simp only [lineA, Spec.mirrored, ia_at2, ir_at2]

theorem Spec.lineR_mirrored {K : Type*} {Na Nr : ℕ} (f : Fin (Na * Nr) → K) (i : Fin Na) :
    lineR (Spec.mirrored f) i = lineR f i.rev := by
  funext j; simp only [lineR, Spec.mirrored, ia_at2, ir_at2]

/-- The model's `mirror` is this mirror. -/
theorem Init.mir_eq_mirrored {Na Nr : ℕ} (f : Fin (Na * Nr) → ℝ) : Init.mir f = Spec.mirrored f := by
  funext k
  rw [← at2_ia_ir k]
  change f (mirK (at2 _ _)) = _
  rw [mirK_at2]
  simp only [Spec.mirrored, ia_at2, ir_at2]

theorem Spec.diffA_mirrored {k Na Nr : ℕ} (hNa : k ≤ Na) {ds : Fin (2 * k + 1) → ℝ} {t : ℝ}
    (hp : ∀ i, ds i.rev = t * ds i) (h s : ℝ) (p : ℕ) (f : Fin (Na * Nr) → ℝ) (i : Fin Na)
    (j : Fin Nr) :
    diffA ds h p s (Spec.mirrored f) i j = t * diffA ds h p s f i.rev j := by
  unfold diffA
  rw [Spec.lineA_mirrored, stencil_rev hNa hp, mul_div_assoc]

/-- C14: `elap` and `olap` commute with `mirror`. -/
theorem C14_mirror {k Na Nr : ℕ} (hk : 0 < k) (hNa : k ≤ Na) (hNr : k ≤ Nr) (a : ℝ) {L : ℝ}
    (hL : 0 < L) (ds1 ds2 : Fin (2 * k + 1) → ℝ)
    (hds1 : FDC.Returns (fun i => ((centred k i : ℤ) : ℝ)) 1 (.ok ds1))
    (hds2 : FDC.Returns (fun i => ((centred k i : ℤ) : ℝ)) 2 (.ok ds2)) :
    ∃ R, build Na Nr k a L (centred k) ds1 ds2 = .ok R ∧
      (∀ f, R.elap.mulVec (Init.mir f) = Init.mir (R.elap.mulVec f)) ∧
      (∀ f, R.olap.mulVec (Init.mir f) = Init.mir (R.olap.mulVec f)) := by
  obtain ⟨R, hR, h1, h2⟩ := C14_separable hk hNa hNr a hL ds1 ds2 hds1 hds2
  have p1 : ∀ i, ds1 i.rev = (-1) * ds1 i := fun i => by
    have := C10_parity _ (centred_injective k) (centred_rev k) 1 ds1 hds1 i
    rwa [pow_one] at this
  have p2 : ∀ i, ds2 i.rev = 1 * ds2 i := fun i => by
    have := C10_parity _ (centred_injective k) (centred_rev k) 2 ds2 hds2 i
    rwa [even_two.neg_one_pow] at this
  have main : ∀ (f : Fin (Na * Nr) → ℝ) (s : ℝ) (i : Fin Na) (j : Fin Nr),
      Spec.laplacian a (xa Na i) (xr Nr L j)
        (diffA ds2 (ha Na) 2 s (Spec.mirrored f) i j) (diffA ds1 (ha Na) 1 s (Spec.mirrored f) i j)
        (diffR ds2 (hr Nr L) 2 s (fun _ => 0) (Spec.mirrored f) i j)
        (diffR ds1 (hr Nr L) 1 s (fun _ => 0) (Spec.mirrored f) i j) =
      Spec.laplacian a (xa Na i.rev) (xr Nr L j)
        (diffA ds2 (ha Na) 2 s f i.rev j) (diffA ds1 (ha Na) 1 s f i.rev j)
        (diffR ds2 (hr Nr L) 2 s (fun _ => 0) f i.rev j)
        (diffR ds1 (hr Nr L) 1 s (fun _ => 0) f i.rev j) := by
    intro f s i j
    rw [Spec.diffA_mirrored hNa p2, Spec.diffA_mirrored hNa p1]
    unfold diffR Spec.laplacian
    rw [Spec.lineR_mirrored, xa_rev, Real.sin_pi_sub, Real.cos_pi_sub]
    ring
  refine ⟨R, hR, fun f => ?_, fun f => ?_⟩
  all_goals
    rw [Init.mir_eq_mirrored, Init.mir_eq_mirrored]
    funext q
    rw [← at2_ia_ir q]
    simp only [Spec.mirrored, ia_at2, ir_at2, h1, h2]
    exact main f _ _ _

/-- C13: on the two-dimensional grid, `elap @ f` with `blap @ b` added on the last `bcN` radial
lines is the separable Laplacian of the field continued beyond `L` by the outer values `b`. -/
theorem C13_boundary_2d {k Na Nr : ℕ} (hk : 0 < k) (hNa : k ≤ Na) (hNr : k ≤ Nr) (a : ℝ) {L : ℝ}
    (hL : 0 < L) (ds1 ds2 : Fin (2 * k + 1) → ℝ)
    (hds1 : FDC.Returns (fun i => ((centred k i : ℤ) : ℝ)) 1 (.ok ds1))
    (hds2 : FDC.Returns (fun i => ((centred k i : ℤ) : ℝ)) 2 (.ok ds2)) :
    ∃ R, build Na Nr k a L (centred k) ds1 ds2 = .ok R ∧
      (∀ f (b : Fin (Na * k) → ℝ) i j,
        R.elap.mulVec f (at2 i j) + val (lineR (R.blap.mulVec b) i) ((j.1 : ℤ) - (Nr - k)) =
        Spec.laplacian a (xa Na i) (xr Nr L j)
          (diffA ds2 (ha Na) 2 1 f i j) (diffA ds1 (ha Na) 1 1 f i j)
          (diffR ds2 (hr Nr L) 2 1 (outer (lineR b i)) f i j)
          (diffR ds1 (hr Nr L) 1 1 (outer (lineR b i)) f i j)) := by
  have hNr0 : (Nr : ℝ) ≠ 0 := by exact_mod_cast (by omega : Nr ≠ 0)
  have hhr : hr Nr L ≠ 0 := by rw [hr_eq]; exact div_ne_zero hL.ne' hNr0
  obtain ⟨D, E, hD, hE, hB, a1, -, a3, -, b1, -, b3, -⟩ :=
    Ops.build_ok hk hNa hNr a hL ds1 ds2 hds1 hds2
  obtain ⟨D', E', hD', hE', c1, c2⟩ :=
    C13_boundary_1d (ha := ha Na) hk hNa hNr hhr ds1 ds2 hds1 hds2
  obtain rfl : D = D' := by rw [hD] at hD'; injection hD'
  obtain rfl : E = E' := by rw [hE] at hE'; injection hE'
  refine ⟨_, hB, fun f b i j => ?_⟩
  have hj := j.2
  have r1 : diffR ds1 (hr Nr L) 1 1 (outer (lineR b i)) f i j =
      withBoundary (D.eDr1.mulVec (lineR f i)) (D.bc1.mulVec (lineR b i)) j := by
    unfold diffR; rw [← c1, pow_one, mul_div_cancel_left₀ _ hhr]
  have r2 : diffR ds2 (hr Nr L) 2 1 (outer (lineR b i)) f i j =
      withBoundary (E.eDr2.mulVec (lineR f i)) (E.bc2.mulVec (lineR b i)) j := by
    unfold diffR; rw [← c2, mul_div_cancel_left₀ _ (pow_ne_zero _ hhr)]
  have hlap : (operators (realInput Na Nr k a L D E) hNr).elap.mulVec f (at2 i j) =
      Spec.laplacian a (xa Na i) (xr Nr L j)
        (diffA ds2 (ha Na) 2 1 f i j) (diffA ds1 (ha Na) 1 1 f i j)
        (E.eDr2.mulVec (lineR f i) j) (D.eDr1.mulVec (lineR f i) j) := by
    refine (lap_mulVec (realInput Na Nr k a L D E) _ _ _ _ f i j).trans ?_
    simp only [realInput, a1, b1]; rfl
  rw [hlap, r1, r2]
  unfold withBoundary
  by_cases hlast : Nr - k ≤ j.1
  · have e : ((j.1 : ℤ) - (Nr - k)) = ((j.1 - (Nr - k) : ℕ) : ℤ) := by omega
    have hm : j.1 - (Nr - k) < k := by omega
    rw [e, val_of_lt _ _ hm, val_of_lt _ _ hm, val_of_lt _ _ hm]
    have hbl : lineR ((operators (realInput Na Nr k a L D E) hNr).blap.mulVec b) i ⟨_, hm⟩ =
        Real.sin (xa Na i) * (a * (Real.sinh (xr Nr L j) * E.bc2.mulVec (lineR b i) ⟨_, hm⟩ +
          Real.cosh (xr Nr L j) * D.bc1.mulVec (lineR b i) ⟨_, hm⟩)) := by
      have hj' : (⟨Nr - k + (j.1 - (Nr - k)), by omega⟩ : Fin Nr) = j := by
        apply Fin.ext; simp only; omega
      unfold lineR
      refine (kron_mulVec _ _ _ _ _).trans ?_
      simp_rw [sum_diag]
      have := Matrix.smul_mulVec a
        (diag (fun q : Fin k => Real.sinh (xr Nr L ⟨Nr - k + q.1, by omega⟩)) * E.bc2 +
          diag (fun q : Fin k => Real.cosh (xr Nr L ⟨Nr - k + q.1, by omega⟩)) * D.bc1) (lineR b i)
      have := congrFun this ⟨j.1 - (Nr - k), hm⟩
      rw [Pi.smul_apply, Matrix.add_mulVec, Pi.add_apply, diag_mul_mulVec, diag_mul_mulVec] at this
      simp only [hj', smul_eq_mul] at this
      refine Eq.trans ?_ (congrArg (Real.sin (xa Na i) * ·) this)
      unfold Matrix.mulVec dotProduct
      simp only
      rw [Finset.mul_sum]
      refine Finset.sum_congr rfl fun q _ => ?_
      simp only [realInput, lineR]; ring
    rw [hbl]
    unfold Spec.laplacian
    ring
  · rw [val_neg _ _ (by omega), val_neg _ _ (by omega), val_neg _ _ (by omega)]
    simp only [add_zero]

end Verif
