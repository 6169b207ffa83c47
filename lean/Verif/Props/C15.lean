import Verif.Props.C14

/-!
# C15: contracted density gradients
-/

namespace Verif
open FD Spec Init Ops

/-- The two components of the gradient of `f` at grid point `(i, j)`: even difference quotients
over the scale factor. -/
noncomputable def Spec.gradAt {k Na Nr : ℕ} (ds : Fin (2 * k + 1) → ℝ) (a L : ℝ)
    (f : Fin (Na * Nr) → ℝ) (i : Fin Na) (j : Fin Nr) : ℝ × ℝ :=
  let h := a * Real.sqrt (Real.sinh (xr Nr L j) ^ 2 + Real.sin (xa Na i) ^ 2)
  (diffA ds (ha Na) 1 1 f i j / h, diffR ds (hr Nr L) 1 1 (fun _ => 0) f i j / h)

/-- Scalar product of gradients. -/
def Spec.dot (p q : ℝ × ℝ) : ℝ := p.1 * q.1 + p.2 * q.2

theorem Ops.grad_eq {k Na Nr : ℕ} (hk : 0 < k) (hNa : k ≤ Na) (hNr : k ≤ Nr) (a : ℝ) {L : ℝ}
    (hL : 0 < L) (ds1 ds2 : Fin (2 * k + 1) → ℝ)
    (hds1 : FDC.Returns (fun i => ((centred k i : ℤ) : ℝ)) 1 (.ok ds1))
    (hds2 : FDC.Returns (fun i => ((centred k i : ℤ) : ℝ)) 2 (.ok ds2)) :
    ∃ R, build Na Nr k a L (centred k) ds1 ds2 = .ok R ∧
      (∀ f i j, R.grada.mulVec f (at2 i j) = (gradAt ds1 a L f i j).1) ∧
      (∀ f i j, R.gradr.mulVec f (at2 i j) = (gradAt ds1 a L f i j).2) := by
  obtain ⟨D, E, hD, hE, hB, a1, -, a3, -⟩ := Ops.build_ok hk hNa hNr a hL ds1 ds2 hds1 hds2
  refine ⟨_, hB, fun f i j => ?_, fun f i j => ?_⟩
  · refine (gradA_mulVec _ _ f i j).trans ?_
    simp only [realInput, a1, gradAt, h1_eq, Xr, Xa, ia_at2, ir_at2]; ring
  · refine (gradR_mulVec _ _ f i j).trans ?_
    simp only [realInput, a3, gradAt, h1_eq, Xr, Xa, ia_at2, ir_at2]; ring

/-- C15, one column: `sigma(n)` is the squared gradient at every grid point, nonnegative, commutes
with `mirror`; for a constant density its angular gradient vanishes. -/
theorem C15_one_column {k Na Nr : ℕ} (hk : 0 < k) (hNa : k ≤ Na) (hNr : k ≤ Nr) (a : ℝ) {L : ℝ}
    (hL : 0 < L) (ds1 ds2 : Fin (2 * k + 1) → ℝ)
    (hds1 : FDC.Returns (fun i => ((centred k i : ℤ) : ℝ)) 1 (.ok ds1))
    (hds2 : FDC.Returns (fun i => ((centred k i : ℤ) : ℝ)) 2 (.ok ds2)) :
    ∃ R, build Na Nr k a L (centred k) ds1 ds2 = .ok R ∧
      ∀ n : Fin (Na * Nr) → ℝ, ∃ s, sigma R.grada R.gradr 1 (fun _ => n) = .ok (.one s) ∧
        (∀ i j, s (at2 i j) = dot (gradAt ds1 a L n i j) (gradAt ds1 a L n i j)) ∧
        (∀ q, 0 ≤ s q) ∧
        sigma R.grada R.gradr 1 (fun _ => Init.mir n) = .ok (.one (Init.mir s)) ∧
        (∀ c i j, (gradAt ds1 a L (fun _ : Fin (Na * Nr) => c) i j).1 = 0) := by
  obtain ⟨R, hB, g1, g2⟩ := Ops.grad_eq hk hNa hNr a hL ds1 ds2 hds1 hds2
  have p1 : ∀ i, ds1 i.rev = (-1) * ds1 i := fun i => by
    have := C10_parity _ (centred_injective k) (centred_rev k) 1 ds1 hds1 i
    rwa [pow_one] at this
  refine ⟨R, hB, fun n => ⟨_, rfl, fun i j => ?_, fun q => ?_, ?_, fun c i j => ?_⟩⟩
  · rw [g1, g2]; unfold dot; ring
  · positivity
  · simp only [sigma]
    congr 2
    rw [Init.mir_eq_mirrored, Init.mir_eq_mirrored]
    funext q
    rw [← at2_ia_ir q]
    simp only [Spec.mirrored, ia_at2, ir_at2, g1, g2]
    change (gradAt ds1 a L (Spec.mirrored n) _ _).1 ^ 2 + (gradAt ds1 a L (Spec.mirrored n) _ _).2 ^ 2 = _
    simp only [gradAt, Spec.diffA_mirrored hNa p1, xa_rev, Real.sin_pi_sub]
    unfold diffR
    rw [Spec.lineR_mirrored]
    ring
  · have h0 : ∑ q, ds1 q = 0 := by
      have h2 : ∑ q, ds1 q = - ∑ q, ds1 q := by
        conv_lhs => rw [← Equiv.sum_comp Fin.revPerm]
        simp only [Fin.revPerm_apply, p1, neg_one_mul, Finset.sum_neg_distrib]
      linarith
    simp only [gradAt, diffA, stencil]
    have hx : ∀ z : ℤ, -(Na : ℤ) ≤ z → z < 2 * Na →
        extend 1 (reflect 1 (lineA (fun _ : Fin (Na * Nr) => c) j))
          (lineA (fun _ : Fin (Na * Nr) => c) j) z = c := by
      intro z hz1 hz2
      unfold extend reflect val
      split
      · rw [dif_pos (by omega)]; simp [lineA]
      · split
        · rw [dif_pos (by omega)]; simp [lineA]
        · rw [dif_pos (by omega)]; simp [lineA]
    have hi := i.2
    have : ∑ q : Fin (2 * k + 1), ds1 q * extend 1 (reflect 1 (lineA (fun _ : Fin (Na * Nr) => c) j))
          (lineA (fun _ : Fin (Na * Nr) => c) j) ((i.1 : ℤ) + ((q.1 : ℤ) - k)) = 0 := by
      rw [← zero_mul c, ← h0, Finset.sum_mul]
      refine Finset.sum_congr rfl fun q _ => ?_
      have hq := q.2
      rw [hx _ (by omega) (by omega)]
    rw [this]; simp

/-- C15, two columns: the first and third returned columns are the squared gradients of the two
spin densities.  The second one is, at every grid point, the *sum over the whole grid* of the scalar
product of the two gradients.  Exchanging the spins reverses the columns. -/
theorem C15_two_columns_partial {k Na Nr : ℕ} (hk : 0 < k) (hNa : k ≤ Na) (hNr : k ≤ Nr) (a : ℝ)
    {L : ℝ} (hL : 0 < L) (ds1 ds2 : Fin (2 * k + 1) → ℝ)
    (hds1 : FDC.Returns (fun i => ((centred k i : ℤ) : ℝ)) 1 (.ok ds1))
    (hds2 : FDC.Returns (fun i => ((centred k i : ℤ) : ℝ)) 2 (.ok ds2)) :
    ∃ R, build Na Nr k a L (centred k) ds1 ds2 = .ok R ∧
      ∀ n : Fin 2 → Fin (Na * Nr) → ℝ, ∃ s, sigma R.grada R.gradr 2 n = .ok (.three s) ∧
        (∀ i j, s 0 (at2 i j) = dot (gradAt ds1 a L (n 0) i j) (gradAt ds1 a L (n 0) i j)) ∧
        (∀ i j, s 2 (at2 i j) = dot (gradAt ds1 a L (n 1) i j) (gradAt ds1 a L (n 1) i j)) ∧
        (∀ q, s 1 q = ∑ i, ∑ j, dot (gradAt ds1 a L (n 0) i j) (gradAt ds1 a L (n 1) i j)) ∧
        sigma R.grada R.gradr 2 (fun c => n c.rev) = .ok (.three fun c => s c.rev) := by
  obtain ⟨R, hB, g1, g2⟩ := Ops.grad_eq hk hNa hNr a hL ds1 ds2 hds1 hds2
  have cross : ∀ u v : Fin (Na * Nr) → ℝ,
      dotProduct (Matrix.vecMul (R.grada.mulVec u) R.grada) v +
        dotProduct (Matrix.vecMul (R.gradr.mulVec u) R.gradr) v =
      ∑ i, ∑ j, dot (gradAt ds1 a L u i j) (gradAt ds1 a L v i j) := by
    intro u v
    rw [← Matrix.dotProduct_mulVec, ← Matrix.dotProduct_mulVec]
    unfold dotProduct
    rw [← Finset.sum_add_distrib, sum_grid]
    refine Finset.sum_congr rfl fun i _ => Finset.sum_congr rfl fun j _ => ?_
    rw [g1, g1, g2, g2]; rfl
  refine ⟨R, hB, fun n => ⟨_, rfl, fun i j => ?_, fun i j => ?_, fun q => ?_, ?_⟩⟩
  · change _ ^ 2 + _ ^ 2 = _
    rw [g1, g2]; unfold dot; ring
  · change _ ^ 2 + _ ^ 2 = _
    rw [g1, g2]; unfold dot; ring
  · exact cross _ _
  · simp only [sigma]
    congr 2
    funext c q
    fin_cases c
    · rfl
    · change _ + _ = _ + _
      rw [cross, cross]
      refine Finset.sum_congr rfl fun i _ => Finset.sum_congr rfl fun j _ => ?_
      change dot (gradAt ds1 a L (n 1) i j) (gradAt ds1 a L (n 0) i j) = _
      unfold dot; ring
    · rfl

/-- C15: more than two columns (and an array with none) raises `ValueError`. -/
theorem C15_error {K : Type*} [Field K] {N : ℕ} (ga gr : Matrix (Fin N) (Fin N) K) (pol : ℕ)
    (h1 : pol ≠ 1) (h2 : pol ≠ 2) (n : Fin pol → Fin N → K) :
    sigma ga gr pol n = .error .valueError := by
  unfold sigma
  split
  · exact absurd rfl h1
  · exact absurd rfl h2
  · rfl

/-- C15 fails for two columns: on the 2 x 2 grid with the three-point stencil the middle column is
not the scalar product of the gradients at every grid point. -/
theorem C15_refuted (a : ℝ) (ha0 : 0 < a) {L : ℝ} (hL : 0 < L) (ds2 : Fin 3 → ℝ)
    (hds2 : FDC.Returns (fun i => ((centred 1 i : ℤ) : ℝ)) 2 (.ok ds2)) :
    FDC.Returns (fun i => ((centred 1 i : ℤ) : ℝ)) 1 (.ok ![-1/2, 0, 1/2]) ∧
    ∃ R, build 2 2 1 a L (centred 1) ![-1/2, 0, 1/2] ds2 = .ok R ∧
      ∃ (n : Fin 2 → Fin (2 * 2) → ℝ) (s : Fin 3 → Fin (2 * 2) → ℝ),
        sigma R.grada R.gradr 2 n = .ok (.three s) ∧
        ∃ (i j : Fin 2), s 1 (at2 i j) ≠
          dot (gradAt (k := 1) (Na := 2) (Nr := 2) ![-1/2, 0, 1/2] a L (n 0) i j)
            (gradAt (k := 1) (Na := 2) (Nr := 2) ![-1/2, 0, 1/2] a L (n 1) i j) := by
  have hds1 := three_point (K := ℝ)
  refine ⟨hds1, ?_⟩
  obtain ⟨R, hB, h⟩ := C15_two_columns_partial (k := 1) (Na := 2) (Nr := 2) one_pos (by norm_num)
    (by norm_num) a hL _ ds2 hds1 hds2
  refine ⟨R, hB, ![fun q => if q = at2 (0 : Fin 2) (0 : Fin 2) then 1 else 0,
    fun q => if q = at2 (1 : Fin 2) (0 : Fin 2) then 1 else 0], ?_⟩
  obtain ⟨s, hs, -, -, h1, -⟩ := h ![fun q => if q = at2 (0 : Fin 2) (0 : Fin 2) then 1 else 0,
    fun q => if q = at2 (1 : Fin 2) (0 : Fin 2) then 1 else 0]
  refine ⟨s, hs, 0, 1, ?_⟩
  rw [h1]
  have hsin : ∀ i : Fin 2, 0 < a * Real.sqrt (Real.sinh (xr 2 L 0) ^ 2 + Real.sin (xa 2 i) ^ 2) := by
    intro i
    have : 0 < Real.sinh (xr 2 L 0) := Real.sinh_pos_iff.mpr (xr_pos hL _)
    positivity
  have hha : ha 2 ≠ 0 := by rw [ha_eq]; exact div_ne_zero Real.pi_ne_zero (by norm_num)
  have s0 := hsin 0
  have s1 := hsin 1
  simp [Fin.sum_univ_two, dot, gradAt, diffA, diffR, stencil, Fin.sum_univ_three, extend, reflect,
    val, lineA, lineR, at2, pos]
  intro h0
  have e : (1 / 2 / ha 2 / (a * Real.sqrt (Real.sinh (xr 2 L 0) ^ 2 + Real.sin (xa 2 0) ^ 2))) ^ 2 +
      (1 / 2 / ha 2 / (a * Real.sqrt (Real.sinh (xr 2 L 0) ^ 2 + Real.sin (xa 2 1) ^ 2))) ^ 2 = 0 := by
    rw [← neg_eq_zero, ← h0]; ring
  have : 0 < (1 / 2 / ha 2 /
      (a * Real.sqrt (Real.sinh (xr 2 L 0) ^ 2 + Real.sin (xa 2 0) ^ 2))) ^ 2 := by
    have : 1 / 2 / ha 2 /
      (a * Real.sqrt (Real.sinh (xr 2 L 0) ^ 2 + Real.sin (xa 2 0) ^ 2)) ≠ 0 :=
      div_ne_zero (div_ne_zero (by norm_num) hha) s0.ne'
    positivity
  have := sq_nonneg (1 / 2 / ha 2 /
    (a * Real.sqrt (Real.sinh (xr 2 L 0) ^ 2 + Real.sin (xa 2 1) ^ 2)))
  linarith

end Verif
