import Verif.Props.C10
import Verif.Lemmas.FDMatrices
import Verif.Model.Coordinates

/-!
# C11, C12, C13: difference matrices
-/

namespace Verif
open FD Spec
variable {K : Type*} [Field K] [LinearOrder K] [IsStrictOrderedRing K]

namespace FD
omit [LinearOrder K] [IsStrictOrderedRing K] in
theorem centred_rev (k : ℕ) (i : Fin (2 * k + 1)) :
    ((centred k i.rev : ℤ) : K) = -((centred k i : ℤ) : K) := by
  have : centred k i.rev = - centred k i := by
    unfold centred; have := i.2; simp only [Fin.val_rev]; omega
  rw [this]; push_cast; ring

theorem centred_injective (k : ℕ) : Function.Injective (fun i => ((centred k i : ℤ) : K)) := by
  intro i j h
  have h2 : centred k i = centred k j := Int.cast_injective h
  unfold centred at h2
  apply Fin.ext; omega

/-- Parity of the coefficients the code computes for the centred stencil. -/
theorem coef_neg_of_returns {k d : ℕ} {ds : Fin (2 * k + 1) → K}
    (h : FDC.Returns (fun i => ((centred k i : ℤ) : K)) d (.ok ds)) (z : ℤ) :
    coef ds (-z) = (-1) ^ d * coef ds z :=
  coef_neg (fun i => C10_parity _ (centred_injective k) (centred_rev k) d ds h i) z

theorem sizesOk_centred {k Na Nr : ℕ} (hk : 0 < k) (hNa : k ≤ Na) (hNr : k ≤ Nr) :
    sizesOk Na Nr k (centred k) := by
  refine ⟨fun i => ?_, hk, hNa, hNr⟩
  have := i.2
  unfold centred
  constructor <;> rw [abs_le] <;> omega

omit [LinearOrder K] [IsStrictOrderedRing K] in
/-- Nothing is added on the right for a zero continuation. -/
theorem right_zero {k n : ℕ} (ds : Fin (2 * k + 1) → K) (r : Fin n) :
    ∑ i : Fin (2 * k + 1), ds i * (if (n : ℤ) ≤ (r.1 : ℤ) + ((i.1 : ℤ) - k) then (0 : K) else 0) = 0 := by
  simp

omit [LinearOrder K] [IsStrictOrderedRing K] in
/-- Outer values on the right as the boundary block. -/
theorem right_outer {k n : ℕ} (hn : k ≤ n) (ds : Fin (2 * k + 1) → K) (b : Fin k → K) (r : Fin n) :
    ∑ i : Fin (2 * k + 1), ds i * (if (n : ℤ) ≤ (r.1 : ℤ) + ((i.1 : ℤ) - k) then
        outer b ((r.1 : ℤ) + ((i.1 : ℤ) - k) - n).toNat else 0) =
      if n - k ≤ r.1 then ∑ c : Fin k, bcMat k ds (r.1 - (n - k)) c.1 * b c else 0 := by
  have hr := r.2
  have h1 : ∀ i : Fin (2 * k + 1), (if (n : ℤ) ≤ (r.1 : ℤ) + ((i.1 : ℤ) - k) then
        outer b ((r.1 : ℤ) + ((i.1 : ℤ) - k) - n).toNat else 0) =
      ∑ c : Fin k, (if (n : ℤ) + c.1 - r.1 = centred k i then 1 else 0) * b c := by
    intro i
    have e2 : ∑ c : Fin k, (if (n : ℤ) + c.1 - r.1 = centred k i then (1 : K) else 0) * b c =
        val b ((r.1 : ℤ) + ((i.1 : ℤ) - k) - n) := by
      rw [val_eq_sum]
      refine Finset.sum_congr rfl fun c _ => ?_
      unfold centred
      have : ((n : ℤ) + c.1 - r.1 = (i.1 : ℤ) - k) ↔
          ((c.1 : ℤ) = (r.1 : ℤ) + ((i.1 : ℤ) - k) - n) := by omega
      simp only [this]; split <;> simp
    rw [e2]
    split
    · unfold outer; congr 1; omega
    · rw [val_neg]; omega
  simp_rw [h1, Finset.mul_sum]
  rw [Finset.sum_comm]
  have h2 : ∀ c : Fin k, ∑ i : Fin (2 * k + 1), ds i *
      ((if (n : ℤ) + c.1 - r.1 = centred k i then (1 : K) else 0) * b c) =
      coef ds ((n : ℤ) + c.1 - r.1) * b c := by
    intro c
    rw [← sum_coef, Finset.sum_mul]
    refine Finset.sum_congr rfl fun i _ => ?_
    split <;> ring
  simp_rw [h2]
  split
  · rename_i h
    refine Finset.sum_congr rfl fun c _ => ?_
    rw [bcMat_eq ds (by omega) c.2]
    split
    · congr 2; omega
    · unfold coef; rw [val_ge]; omega
  · rename_i h
    refine Finset.sum_eq_zero fun c _ => ?_
    unfold coef; rw [val_ge, zero_mul]; omega

end FD

/-- C11: the four first-derivative matrices apply the computed stencil to the even (odd)
continuation of the vector: reflected at both ends for the angular, reflected at `0` and zero beyond
`L` for the radial direction, divided by the step. -/
theorem C11_first_derivative {k Na Nr : ℕ} (hk : 0 < k) (hNa : k ≤ Na) (hNr : k ≤ Nr) {ha hr : K}
    (hha : ha ≠ 0) (hhr : hr ≠ 0)
    (ds : Fin (2 * k + 1) → K) (hds : FDC.Returns (fun i => ((centred k i : ℤ) : K)) 1 (.ok ds)) :
    ∃ D, fd1 Na Nr (Init.bcN (2 * k + 1)) ha hr (centred k) ds = .ok D ∧
      (∀ u r, ha * D.eDa1.mulVec u r = stencil ds (extend 1 (reflect 1 u) u) r.1) ∧
      (∀ u r, ha * D.oDa1.mulVec u r = stencil ds (extend (-1) (reflect (-1) u) u) r.1) ∧
      (∀ u r, hr * D.eDr1.mulVec u r = stencil ds (extend 1 (fun _ => 0) u) r.1) ∧
      (∀ u r, hr * D.oDr1.mulVec u r = stencil ds (extend (-1) (fun _ => 0) u) r.1) := by
  have hb : Init.bcN (2 * k + 1) = k := half k
  rw [hb]
  have hp := coef_neg_of_returns hds
  simp only [pow_one, neg_mul, one_mul] at hp
  have hsub : ∀ x y : ℤ, coef ds (x - y) = - coef ds (y - x) := fun x y => by
    rw [← hp]; congr 1; ring
  refine ⟨_, by unfold fd1; rw [if_pos (sizesOk_centred hk hNa hNr)], ?_, ?_, ?_, ?_⟩
  all_goals
    intro u r
    rw [stencil_extend (by assumption)]
    first
    | rw [right_reflect (by assumption), ← Finset.sum_add_distrib]
    | rw [right_zero, add_zero]
    unfold Matrix.mulVec dotProduct
    rw [Finset.mul_sum]
    refine Finset.sum_congr rfl fun c _ => ?_
    simp only [shiftSum_eq, upperLeft_eq, lowerRight_eq hNa, hp, hsub (r.1 : ℤ) c.1]
    field_simp
    ring

/-- C12: the four second-derivative matrices apply the computed stencil to the even (odd)
continuation, divided by the squared step, and are symmetric. -/
theorem C12_second_derivative {k Na Nr : ℕ} (hk : 0 < k) (hNa : k ≤ Na) (hNr : k ≤ Nr) {ha hr : K}
    (hha : ha ≠ 0) (hhr : hr ≠ 0)
    (ds : Fin (2 * k + 1) → K) (hds : FDC.Returns (fun i => ((centred k i : ℤ) : K)) 2 (.ok ds)) :
    ∃ D, fd2 Na Nr (Init.bcN (2 * k + 1)) ha hr (centred k) ds = .ok D ∧
      (∀ u r, ha ^ 2 * D.eDa2.mulVec u r = stencil ds (extend 1 (reflect 1 u) u) r.1) ∧
      (∀ u r, ha ^ 2 * D.oDa2.mulVec u r = stencil ds (extend (-1) (reflect (-1) u) u) r.1) ∧
      (∀ u r, hr ^ 2 * D.eDr2.mulVec u r = stencil ds (extend 1 (fun _ => 0) u) r.1) ∧
      (∀ u r, hr ^ 2 * D.oDr2.mulVec u r = stencil ds (extend (-1) (fun _ => 0) u) r.1) ∧
      (∀ r c, D.eDa2 r c = D.eDa2 c r ∧ D.oDa2 r c = D.oDa2 c r) ∧
      (∀ r c, D.eDr2 r c = D.eDr2 c r ∧ D.oDr2 r c = D.oDr2 c r) := by
  have hb : Init.bcN (2 * k + 1) = k := half k
  rw [hb]
  have hp := coef_neg_of_returns hds
  simp only [even_two.neg_one_pow, one_mul] at hp
  have hsub : ∀ x y : ℤ, coef ds (x - y) = coef ds (y - x) := fun x y => by
    rw [← hp]; congr 1; ring
  refine ⟨_, by unfold fd2; rw [if_pos (sizesOk_centred hk hNa hNr)], ?_, ?_, ?_, ?_, ?_, ?_⟩
  iterate 4
    · intro u r
      rw [stencil_extend (by assumption)]
      first
      | rw [right_reflect (by assumption), ← Finset.sum_add_distrib]
      | rw [right_zero, add_zero]
      unfold Matrix.mulVec dotProduct
      rw [Finset.mul_sum]
      refine Finset.sum_congr rfl fun c _ => ?_
      have e1 : 2 * (Na : ℤ) - 1 - c.1 - r.1 = 2 * (Na : ℤ) - 1 - r.1 - c.1 := by ring
      have e2 : (c.1 : ℤ) + r.1 + 1 = r.1 + c.1 + 1 := by ring
      simp only [sym, shiftSum_eq, upperLeft_eq, lowerRight_eq hNa, hp, hsub (r.1 : ℤ) c.1, e1, e2]
      field_simp
      ring
  · intro r c; constructor <;> simp only [sym] <;> ring
  · intro r c; constructor <;> simp only [sym] <;> ring

/-- Adding a block acting on `b` to the last `bcN` rows. -/
def Spec.withBoundary {n m : ℕ} (Du : Fin n → K) (Bb : Fin m → K) (r : Fin n) : K :=
  Du r + val Bb ((r.1 : ℤ) - (n - m))

/-- C13: with the boundary block on the last `bcN` rows, the even radial matrices apply the stencil
to the vector continued beyond `L` by the given outer values. -/
theorem C13_boundary_1d {k Na Nr : ℕ} (hk : 0 < k) (hNa : k ≤ Na) (hNr : k ≤ Nr) {ha hr : K}
    (hhr : hr ≠ 0) (ds1 ds2 : Fin (2 * k + 1) → K)
    (hds1 : FDC.Returns (fun i => ((centred k i : ℤ) : K)) 1 (.ok ds1))
    (hds2 : FDC.Returns (fun i => ((centred k i : ℤ) : K)) 2 (.ok ds2)) :
    ∃ D E, fd1 Na Nr k ha hr (centred k) ds1 = .ok D ∧ fd2 Na Nr k ha hr (centred k) ds2 = .ok E ∧
      (∀ u b r, hr * withBoundary (D.eDr1.mulVec u) (D.bc1.mulVec b) r =
        stencil ds1 (extend 1 (outer b) u) r.1) ∧
      (∀ u b r, hr ^ 2 * withBoundary (E.eDr2.mulVec u) (E.bc2.mulVec b) r =
        stencil ds2 (extend 1 (outer b) u) r.1) := by
  have hp := coef_neg_of_returns hds1
  simp only [pow_one, neg_mul, one_mul] at hp
  have hsub : ∀ x y : ℤ, coef ds1 (x - y) = - coef ds1 (y - x) := fun x y => by
    rw [← hp]; congr 1; ring
  have hp2 := coef_neg_of_returns hds2
  simp only [even_two.neg_one_pow, one_mul] at hp2
  have hsub2 : ∀ x y : ℤ, coef ds2 (x - y) = coef ds2 (y - x) := fun x y => by
    rw [← hp2]; congr 1; ring
  have key : ∀ (ds : Fin (2 * k + 1) → K) (h : K) (_ : h ≠ 0) (b : Fin k → K) (r : Fin Nr),
      h * val (fun i : Fin k => ∑ c : Fin k, bcMat k ds i.1 c.1 / h * b c) ((r.1 : ℤ) - (Nr - k)) =
      if Nr - k ≤ r.1 then ∑ c : Fin k, bcMat k ds (r.1 - (Nr - k)) c.1 * b c else 0 := by
    intro ds h hh b r
    have hr := r.2
    split
    · rename_i h1
      have e : ((r.1 : ℤ) - (Nr - k)) = ((r.1 - (Nr - k) : ℕ) : ℤ) := by omega
      rw [e, val_of_lt _ _ (by omega), Finset.mul_sum]
      refine Finset.sum_congr rfl fun c _ => ?_
      field_simp
    · rename_i h1
      rw [val_neg _ _ (by omega), mul_zero]
  refine ⟨_, _, by unfold fd1; rw [if_pos (sizesOk_centred hk hNa hNr)],
    by unfold fd2; rw [if_pos (sizesOk_centred hk hNa hNr)], ?_, ?_⟩
  · intro u b r
    rw [stencil_extend (by assumption), right_outer hNr, withBoundary, mul_add]
    refine congrArg₂ (· + ·) ?_ (key ds1 hr hhr b r)
    unfold Matrix.mulVec dotProduct
    rw [Finset.mul_sum]
    refine Finset.sum_congr rfl fun c _ => ?_
    simp only [shiftSum_eq, upperLeft_eq, hp, hsub (r.1 : ℤ) c.1]
    field_simp
    ring
  · intro u b r
    rw [stencil_extend (by assumption), right_outer hNr, withBoundary, mul_add]
    refine congrArg₂ (· + ·) ?_ (key ds2 (hr ^ 2) (pow_ne_zero _ hhr) b r)
    unfold Matrix.mulVec dotProduct
    rw [Finset.mul_sum]
    refine Finset.sum_congr rfl fun c _ => ?_
    have e2 : (c.1 : ℤ) + r.1 + 1 = r.1 + c.1 + 1 := by ring
    simp only [sym, shiftSum_eq, upperLeft_eq, hp2, hsub2 (r.1 : ℤ) c.1, e2]
    field_simp
    ring

/-- C11, C12: for any stencil, grids too short for it (or an empty boundary region) raise
`ValueError`. -/
theorem C11_C12_error {Nd Na Nr bcN : ℕ} (ha hr : K) (id : Fin Nd → ℤ) (ds : Fin Nd → K)
    (h : (∃ i, (Na : ℤ) < |id i| ∨ (Nr : ℤ) < |id i|) ∨ bcN = 0 ∨ Na < bcN ∨ Nr < bcN) :
    fd1 Na Nr bcN ha hr id ds = .error .valueError ∧
    fd2 Na Nr bcN ha hr id ds = .error .valueError := by
  have : ¬ sizesOk Na Nr bcN id := by
    rintro ⟨h1, h2, h3, h4⟩
    rcases h with ⟨i, h⟩ | h | h | h
    · have := h1 i; omega
    all_goals omega
  unfold fd1 fd2
  rw [if_neg this, if_neg this]
  exact ⟨rfl, rfl⟩

/-- The hypotheses on the coefficients are met: the code returns coefficients for every centred
stencil. -/
theorem FD.exists_coefficients (k d : ℕ) (hd : d < 2 * k + 1) :
    ∃ ds, FDC.Returns (fun i : Fin (2 * k + 1) => ((centred k i : ℤ) : K)) d (.ok ds) := by
  obtain ⟨r, hr, _⟩ := C10_deterministic (fun i : Fin (2 * k + 1) => ((centred k i : ℤ) : K))
    (centred_injective k) d
  obtain ⟨c, c0, rfl, _⟩ := C10_coefficients _ (centred_injective k) d hd r hr
  exact ⟨c, hr⟩

/-- The three-point first derivative is `-1/2, 0, 1/2`. -/
theorem FD.three_point :
    FDC.Returns (fun i => ((centred 1 i : ℤ) : K)) 1 (.ok ![-1/2, 0, 1/2]) := by
  unfold FDC.Returns
  rw [if_pos (by norm_num)]
  refine ⟨![-1/2, 0, 1/2], ?_, ?_⟩
  · rw [isLstsq_iff (FDC.table_det_ne_zero (centred_injective 1))]
    funext n
    fin_cases n <;>
      simp [Matrix.mulVec, dotProduct, Fin.sum_univ_three, FDC.table, FDC.rhs, Nat.factorial,
        centred] <;> norm_num
  · congr 1
    funext j
    fin_cases j
    · have : ¬ |(-1 / 2 : K)| < 1 / 10 ^ 10 := by
        rw [abs_of_neg (by norm_num)]; norm_num
      exact (if_neg this).symm
    · simp [FDC.zeroSmall]
    · have : ¬ |(1 / 2 : K)| < 1 / 10 ^ 10 := by
        rw [abs_of_pos (by norm_num)]; norm_num
      exact (if_neg this).symm

/-- The three-point second derivative is `1, -2, 1`. -/
theorem FD.three_point2 :
    FDC.Returns (fun i => ((centred 1 i : ℤ) : K)) 2 (.ok ![1, -2, 1]) := by
  unfold FDC.Returns
  rw [if_pos (by norm_num)]
  refine ⟨![1, -2, 1], ?_, ?_⟩
  · rw [isLstsq_iff (FDC.table_det_ne_zero (centred_injective 1))]
    funext n
    fin_cases n <;>
      simp [Matrix.mulVec, dotProduct, Fin.sum_univ_three, FDC.table, FDC.rhs, Nat.factorial,
        centred] <;> norm_num
  · congr 1
    funext j
    have h1 : ¬ |(1 : K)| < 1 / 10 ^ 10 := by rw [abs_one]; norm_num
    fin_cases j
    · exact (if_neg h1).symm
    · have : ¬ |(-2 : K)| < 1 / 10 ^ 10 := by
        rw [abs_of_neg (by norm_num)]; norm_num
      exact (if_neg this).symm
    · exact (if_neg h1).symm

/-- Non-trivial case: 3-point first derivative on 3 angular points, even symmetry. -/
example : ∃ D, fd1 3 3 1 (1 : ℚ) 1 (centred 1) ![-1/2, 0, 1/2] = .ok D ∧
    D.eDa1 = !![-1/2, 1/2, 0; -1/2, 0, 1/2; 0, -1/2, 1/2] := by
  refine ⟨_, by unfold fd1; rw [if_pos (sizesOk_centred (by norm_num) (by norm_num) (by norm_num))], ?_⟩
  ext r c
  fin_cases r <;> fin_cases c <;>
    simp [shiftSum, centred, Fin.sum_univ_three, lowerRight, upperLeft, bcMat] <;> norm_num

end Verif
