import Verif.Lemmas.Lstsq
import Mathlib.Analysis.Matrix.PosDef
import Mathlib.Analysis.Matrix.Spectrum
import Mathlib.Algebra.Order.Star.Real

/-! # `Lstsq`: existence, when the cut-off does nothing, and a test for when it does -/

namespace Verif
open Matrix

theorem exists_svd {m n : ℕ} (A : Matrix (Fin m) (Fin n) ℝ) : ∃ s v, IsSvd A s v := by
  have hp : (Aᵀ * A).PosSemidef := by
    have := posSemidef_conjTranspose_mul_self A
    rwa [conjTranspose_eq_transpose_of_trivial] at this
  have hH := hp.1
  refine ⟨fun i => Real.sqrt (hH.eigenvalues i), Matrix.of fun i j => hH.eigenvectorBasis i j, fun i => Real.sqrt_nonneg _, ?_, fun i => ?_⟩
  · ext i j
    rw [Matrix.mul_apply, Matrix.one_apply]
    have := orthonormal_iff_ite.mp hH.eigenvectorBasis.orthonormal i j
    rw [← this, EuclideanSpace.inner_eq_star_dotProduct]
    simp [dotProduct, mul_comm]
  · dsimp only
    rw [Real.sq_sqrt (hp.eigenvalues_nonneg i)]
    exact hH.mulVec_eigenvectorBasis i

theorem exists_lstsq {m n : ℕ} (ρ : ℝ) (A : Matrix (Fin m) (Fin n) ℝ) (b : Fin m → ℝ) : ∃ x, Lstsq ρ A b x :=
  let ⟨s, v, h⟩ := exists_svd A
  ⟨_, s, v, h, rfl⟩

namespace IsSvd
variable {m n : ℕ} {A : Matrix (Fin m) (Fin n) ℝ} {s : Fin n → ℝ} {v : Matrix (Fin n) (Fin n) ℝ}

theorem orth' (h : IsSvd A s v) (i j : Fin n) : v i ⬝ᵥ v j = if i = j then 1 else 0 := by
  have := congrFun (congrFun h.orth i) j
  rwa [mul_apply, one_apply] at this

theorem dot (h : IsSvd A s v) (x y : Fin n → ℝ) : x ⬝ᵥ y = ∑ i, (v i ⬝ᵥ x) * (v i ⬝ᵥ y) := by
  have h1 : vᵀ * v = 1 := mul_eq_one_comm.mp h.orth
  have : (v *ᵥ x) ⬝ᵥ (v *ᵥ y) = x ⬝ᵥ y := by
    rw [dotProduct_mulVec, ← mulVec_transpose, mulVec_mulVec, h1, one_mulVec]
  rw [← this]; rfl

theorem expand (h : IsSvd A s v) (x : Fin n → ℝ) : x = ∑ i, (v i ⬝ᵥ x) • v i := by
  have h1 : vᵀ * v = 1 := mul_eq_one_comm.mp h.orth
  have : vᵀ *ᵥ (v *ᵥ x) = x := by rw [mulVec_mulVec, h1, one_mulVec]
  funext k
  conv_lhs => rw [← this]
  simp [mulVec, dotProduct, mul_comm]

/-- `A vᵢ · A x = sᵢ² vᵢ · x`. -/
theorem image (h : IsSvd A s v) (i : Fin n) (x : Fin n → ℝ) : (A *ᵥ v i) ⬝ᵥ (A *ᵥ x) = s i ^ 2 * (v i ⬝ᵥ x) := by
  rw [dotProduct_mulVec, ← mulVec_transpose, mulVec_mulVec, h.sing, smul_dotProduct, smul_eq_mul]

theorem image' (h : IsSvd A s v) (i : Fin n) (x : Fin n → ℝ) : v i ⬝ᵥ ((Aᵀ * A) *ᵥ x) = s i ^ 2 * (v i ⬝ᵥ x) := by
  rw [← h.image, ← mulVec_mulVec, dotProduct_mulVec, ← mulVec_transpose, transpose_transpose]

theorem normSq (h : IsSvd A s v) (x : Fin n → ℝ) : (A *ᵥ x) ⬝ᵥ (A *ᵥ x) = ∑ i, s i ^ 2 * (v i ⬝ᵥ x) ^ 2 := by
  have e : (A *ᵥ x) ⬝ᵥ (A *ᵥ x) = x ⬝ᵥ ((Aᵀ * A) *ᵥ x) := by
    rw [← mulVec_mulVec, dotProduct_mulVec x, ← mulVec_transpose, transpose_transpose]
  rw [e, h.dot]
  exact Finset.sum_congr rfl fun i _ => by rw [h.image']; ring

/-- Coefficients of the result. -/
theorem coeff (h : IsSvd A s v) (ρ : ℝ) (b : Fin m → ℝ) (i : Fin n) :
    v i ⬝ᵥ lstsqCut ρ A b s v = open Classical in if ∃ j, s i ≤ ρ * s j then 0 else (A *ᵥ v i) ⬝ᵥ b / s i ^ 2 := by
  classical
  rw [lstsqCut, dotProduct_sum, Finset.sum_eq_single i]
  · split_ifs <;> simp [h.orth']
  · intro j _ hj
    split_ifs <;> simp [h.orth', hj.symm]
  · simp

/-- Singular vectors with different singular values are orthogonal, also if they belong to two decompositions. -/
theorem cross {s' : Fin n → ℝ} {v' : Matrix (Fin n) (Fin n) ℝ} (h : IsSvd A s v) (h' : IsSvd A s' v') (i j : Fin n) :
    s i = s' j ∨ v i ⬝ᵥ v' j = 0 := by
  have h1 := h.image i (v' j)
  rw [dotProduct_comm, h'.image, dotProduct_comm] at h1
  have h2 : (s i ^ 2 - s' j ^ 2) * (v i ⬝ᵥ v' j) = 0 := by linarith
  refine (mul_eq_zero.mp h2).imp_left fun h3 => ?_
  exact (pow_left_inj₀ (h.nonneg i) (h'.nonneg j) two_ne_zero).mp (sub_eq_zero.mp h3)

theorem same_values {s' : Fin n → ℝ} {v' : Matrix (Fin n) (Fin n) ℝ} (h : IsSvd A s v) (h' : IsSvd A s' v') (i : Fin n) :
    ∃ j, s i = s' j := by
  by_contra hc
  push Not at hc
  have h1 := h'.dot (v i) (v i)
  rw [h.orth', if_pos rfl, Finset.sum_eq_zero] at h1
  · exact one_ne_zero h1
  · intro j _
    rw [dotProduct_comm (v' j), (h.cross h' i j).resolve_left (hc j), zero_mul]

theorem unique {s' : Fin n → ℝ} {v' : Matrix (Fin n) (Fin n) ℝ} (h : IsSvd A s v) (h' : IsSvd A s' v') (ρ : ℝ) (b : Fin m → ℝ) :
    lstsqCut ρ A b s v = lstsqCut ρ A b s' v' := by
  classical
  rw [h'.expand (lstsqCut ρ A b s v), h'.expand (lstsqCut ρ A b s' v')]
  refine Finset.sum_congr rfl fun j _ => ?_
  congr 1
  have hmax : ∀ t : ℝ, (∃ k, t ≤ ρ * s k) ↔ ∃ k, t ≤ ρ * s' k := fun t =>
    ⟨fun ⟨k, hk⟩ => let ⟨l, hl⟩ := h.same_values h' k; ⟨l, hl ▸ hk⟩, fun ⟨k, hk⟩ => let ⟨l, hl⟩ := h'.same_values h k; ⟨l, hl ▸ hk⟩⟩
  have e : ∀ w : Fin n → ℝ, (A *ᵥ w) ⬝ᵥ b = w ⬝ᵥ (Aᵀ *ᵥ b) := fun w => by
    rw [dotProduct_mulVec w, ← mulVec_transpose, transpose_transpose]
  rw [h'.coeff, h.dot]
  have key : ∀ i, (v i ⬝ᵥ v' j) * (v i ⬝ᵥ lstsqCut ρ A b s v) =
      (if ∃ k, s' j ≤ ρ * s' k then 0 else 1 / s' j ^ 2) * ((v i ⬝ᵥ v' j) * (v i ⬝ᵥ (Aᵀ *ᵥ b))) := by
    intro i
    rcases h.cross h' i j with hs | h0
    · rw [h.coeff, e]
      simp only [hmax, hs]
      split_ifs
      · simp
      · ring
    · rw [h0]; simp
  simp only [key]
  rw [← Finset.mul_sum, ← h.dot, e]
  split_ifs
  · simp
  · ring
end IsSvd

/-- The result does not depend on the choice of the singular vectors. -/
theorem Lstsq.unique {m n : ℕ} {ρ : ℝ} {A : Matrix (Fin m) (Fin n) ℝ} {b : Fin m → ℝ} {x y : Fin n → ℝ}
    (hx : Lstsq ρ A b x) (hy : Lstsq ρ A b y) : x = y := by
  obtain ⟨s, v, h, rfl⟩ := hx
  obtain ⟨s', v', h', rfl⟩ := hy
  exact h.unique h' ρ b

/-- Sum of the squares of the entries. -/
def sqSum {m n : ℕ} {K : Type*} [CommRing K] (A : Matrix (Fin m) (Fin n) K) : K := ∑ i, ∑ j, A i j ^ 2

theorem mulVec_sq_le {m n : ℕ} (A : Matrix (Fin m) (Fin n) ℝ) (x : Fin n → ℝ) :
    (A *ᵥ x) ⬝ᵥ (A *ᵥ x) ≤ sqSum A * (x ⬝ᵥ x) := by
  rw [sqSum, Finset.sum_mul]
  refine Finset.sum_le_sum fun i _ => ?_
  have := Finset.sum_mul_sq_le_sq_mul_sq Finset.univ (A i) x
  simpa [mulVec, dotProduct, sq] using this

/-- well-conditioned: nothing is cut. -/
theorem lstsq_iff_of_cond {n : ℕ} {A B : Matrix (Fin n) (Fin n) ℝ} {ρ : ℝ} (hB : B * A = 1)
    (hc : ρ ^ 2 * sqSum A * sqSum B < 1) (b x : Fin n → ℝ) : Lstsq ρ A b x ↔ A *ᵥ x = b := by
  have hB' : A * B = 1 := mul_eq_one_comm.mp hB
  have key : ∀ s v, IsSvd A s v → lstsqCut ρ A b s v = B *ᵥ b := by
    intro s v h
    have hs : ∀ i j, ¬ s i ≤ ρ * s j := by
      intro i j hij
      have e1 : ∀ i, (A *ᵥ v i) ⬝ᵥ (A *ᵥ v i) = s i ^ 2 := fun i => by rw [h.image, h.orth']; simp
      have h1 := mulVec_sq_le B (A *ᵥ v i)
      rw [mulVec_mulVec, hB, one_mulVec, h.orth', if_pos rfl, e1] at h1
      have h2 := mulVec_sq_le A (v j)
      rw [h.orth', if_pos rfl, e1, mul_one] at h2
      have h3 : s i ^ 2 ≤ ρ ^ 2 * s j ^ 2 := by
        rw [← mul_pow]; exact pow_le_pow_left₀ (h.nonneg i) hij 2
      have hB0 : 0 ≤ sqSum B := Finset.sum_nonneg fun i _ => Finset.sum_nonneg fun j _ => sq_nonneg _
      have h4 : s i ^ 2 ≤ ρ ^ 2 * sqSum A := h3.trans (mul_le_mul_of_nonneg_left h2 (sq_nonneg _))
      have h5 := mul_le_mul_of_nonneg_left h4 hB0
      linarith [mul_comm (sqSum B) (ρ ^ 2 * sqSum A)]
    rw [h.expand (B *ᵥ b), lstsqCut]
    refine Finset.sum_congr rfl fun i _ => ?_
    rw [if_neg (fun ⟨j, hj⟩ => hs i j hj)]
    have e : (A *ᵥ v i) ⬝ᵥ b = s i ^ 2 * (v i ⬝ᵥ (B *ᵥ b)) := by
      rw [← h.image, mulVec_mulVec, hB', one_mulVec]
    have h0 : s i ^ 2 ≠ 0 := by
      intro h0
      have := pow_eq_zero_iff two_ne_zero |>.mp h0
      exact hs i i (by rw [this, mul_zero])
    rw [e, mul_div_cancel_left₀ _ h0]
  constructor
  · rintro ⟨s, v, h, rfl⟩
    rw [key s v h, mulVec_mulVec, hB', one_mulVec]
  · rintro rfl
    obtain ⟨s, v, h⟩ := exists_svd A
    refine ⟨s, v, h, ?_⟩
    rw [key s v h, mulVec_mulVec, hB, one_mulVec]

/-- What the cut-off does to the result. -/
theorem Lstsq.bound {n : ℕ} {A : Matrix (Fin n) (Fin n) ℝ} (hA : A.det ≠ 0) {ρ : ℝ} (hρ : 0 ≤ ρ) {b x : Fin n → ℝ}
    (hx : Lstsq ρ A b x) (u z : Fin n → ℝ) (hz : (Aᵀ * A) *ᵥ z = x) :
    (ρ ^ 2 * ((A *ᵥ u) ⬝ᵥ (A *ᵥ u))) ^ 2 * (z ⬝ᵥ z) ≤ (u ⬝ᵥ u) ^ 2 * (x ⬝ᵥ x) := by
  obtain ⟨s, v, h, hx⟩ := hx
  rw [h.dot z z, h.dot x x, Finset.mul_sum, Finset.mul_sum]
  refine Finset.sum_le_sum fun i _ => ?_
  have hxi : v i ⬝ᵥ x = s i ^ 2 * (v i ⬝ᵥ z) := by rw [← hz, h.image']
  have hs0 : s i ≠ 0 := by
    intro h0
    have h1 := h.sing i
    rw [h0, zero_pow two_ne_zero, zero_smul, ← mulVec_zero (Aᵀ * A)] at h1
    have h2 := mulVec_inj_of_det_ne_zero (by rw [det_mul, det_transpose]; exact mul_ne_zero hA hA) h1
    have h3 := h.orth' i i
    rw [h2] at h3
    simp at h3
  by_cases hc : ∃ j, s i ≤ ρ * s j
  · have h1 := h.coeff ρ b i
    rw [if_pos hc, ← hx, hxi] at h1
    have : v i ⬝ᵥ z = 0 := (mul_eq_zero.mp h1).resolve_left (pow_ne_zero 2 hs0)
    rw [hxi, this]; simp
  · push Not at hc
    have h1 : ρ ^ 2 * ((A *ᵥ u) ⬝ᵥ (A *ᵥ u)) ≤ s i ^ 2 * (u ⬝ᵥ u) := by
      rw [h.normSq, h.dot u u, Finset.mul_sum, Finset.mul_sum]
      refine Finset.sum_le_sum fun j _ => ?_
      have := pow_le_pow_left₀ (mul_nonneg hρ (h.nonneg j)) (hc j).le 2
      nlinarith [mul_le_mul_of_nonneg_right this (sq_nonneg (v j ⬝ᵥ u))]
    have h0 : 0 ≤ ρ ^ 2 * ((A *ᵥ u) ⬝ᵥ (A *ᵥ u)) :=
      mul_nonneg (sq_nonneg _) (Finset.sum_nonneg fun i _ => mul_self_nonneg _)
    have h2 := pow_le_pow_left₀ h0 h1 2
    rw [hxi]
    nlinarith [mul_le_mul_of_nonneg_right h2 (sq_nonneg (v i ⬝ᵥ z))]
/-- A test: the solution `B b` of `A x = b` is not what is returned, if it is large enough in the directions with small
singular values. -/
theorem Lstsq.not_solves {n : ℕ} {A B : Matrix (Fin n) (Fin n) ℝ} (hB : B * A = 1) {ρ : ℝ} (hρ : 0 ≤ ρ) {b x w : Fin n → ℝ}
    (hx : Lstsq ρ A b x) (u : Fin n → ℝ)
    (hc : (u ⬝ᵥ u) ^ 2 * (w ⬝ᵥ w) <
      (ρ ^ 2 * ((A *ᵥ u) ⬝ᵥ (A *ᵥ u))) ^ 2 * ((B *ᵥ (Bᵀ *ᵥ w)) ⬝ᵥ (B *ᵥ (Bᵀ *ᵥ w)))) : x ≠ w := by
  rintro rfl
  have hB' : A * B = 1 := mul_eq_one_comm.mp hB
  have hT : Aᵀ * Bᵀ = 1 := by rw [← transpose_mul, hB, transpose_one]
  have hd : A.det ≠ 0 := fun h0 => by
    have := congrArg det hB
    rw [det_mul, h0, mul_zero, det_one] at this
    exact zero_ne_one this
  refine absurd (hx.bound hd hρ u (B *ᵥ (Bᵀ *ᵥ x)) ?_) (not_le.mpr hc)
  rw [← mulVec_mulVec, mulVec_mulVec _ A, hB', one_mulVec, mulVec_mulVec, hT, one_mulVec]

end Verif
