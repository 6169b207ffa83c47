import Verif.Model.Orbitals
import Verif.Lemmas.Solver
import Mathlib.Analysis.Calculus.Deriv.Pow
import Mathlib.Analysis.Calculus.Deriv.Inv
import Mathlib.Analysis.Calculus.Deriv.Mul

/-! # Energy of a set of orbitals and its first variation -/

namespace Verif
variable {G : Grid ℝ} {p : ℕ} {ι : Type} [Fintype ι]

/-- The kinetic energy operator on the grid, `H₀` divided by the volume element. -/
noncomputable def Spec.kineticOf (H0 : Matrix G.Ix G.Ix ℝ) (ψ : G.Fld) : G.Fld := fun k => H0.mulVec ψ k / G.w k

/-- Kinetic energy of one orbital, normalised. -/
noncomputable def Spec.expectation (H0 : Matrix G.Ix G.Ix ℝ) (ψ : G.Fld) : ℝ :=
  (G.integ fun k => ψ k * kineticOf H0 ψ k) / G.integ fun k => ψ k ^ 2

/-- Density of orbitals with occupation numbers; each orbital belongs to a spin. -/
noncomputable def Spec.orbitalDensity (occ : ι → ℝ) (spin : ι → Fin p) (ψ : ι → G.Fld) : G.Cols p := fun s k =>
  ∑ i, if spin i = s then occ i * (ψ i k ^ 2 / G.integ fun k => ψ i k ^ 2) else 0

/-- Energy of orbitals: kinetic energy and a functional of the density. -/
noncomputable def Spec.orbitalEnergy (occ : ι → ℝ) (spin : ι → Fin p) (H0 : ι → Matrix G.Ix G.Ix ℝ)
    (U : G.Cols p → ℝ) (ψ : ι → G.Fld) : ℝ :=
  ∑ i, occ i * expectation (H0 i) (ψ i) + U (orbitalDensity occ spin ψ)

/-- First-order change of the density when the orbitals `φ` change by `δ`. -/
noncomputable def Spec.densityChange (occ : ι → ℝ) (spin : ι → Fin p) (φ δ : ι → G.Fld) : G.Cols p := fun s k =>
  ∑ i, if spin i = s then occ i * (2 * φ i k * δ i k / (G.integ fun k => φ i k ^ 2) -
    φ i k ^ 2 * (2 * G.integ fun k => φ i k * δ i k) / (G.integ fun k => φ i k ^ 2) ^ 2) else 0

/-- `E` changes by `L δ` along every curve through `n` with velocity `δ`. -/
def Spec.ChangesBy (E : G.Cols p → ℝ) (n : G.Cols p) (L : G.Cols p → ℝ) : Prop :=
  ∀ (γ : ℝ → G.Cols p) (δ : G.Cols p), γ 0 = n → (∀ s k, HasDerivAt (fun t => γ t s k) (δ s k) 0) →
    HasDerivAt (fun t => E (γ t)) (L δ) 0

open Spec

theorem integ_hasDerivAt {f : ℝ → G.Fld} {f' : G.Fld} (h : ∀ k, HasDerivAt (fun t => f t k) (f' k) 0) :
    HasDerivAt (fun t => G.integ (f t)) (G.integ f') 0 := by
  unfold Grid.integ
  exact (HasDerivAt.fun_sum fun k _ => (h k).const_mul _).const_mul _

theorem mulVec_hasDerivAt (H : Matrix G.Ix G.Ix ℝ) (φ δ : G.Fld) (k : G.Ix) :
    HasDerivAt (fun t : ℝ => H.mulVec (fun k => φ k + t * δ k) k) (H.mulVec δ k) 0 := by
  unfold Matrix.mulVec dotProduct
  refine HasDerivAt.fun_sum fun j _ => HasDerivAt.const_mul _ ?_
  simpa using ((hasDerivAt_id (0 : ℝ)).mul_const (δ j)).const_add (φ j)

theorem line_hasDerivAt (x d : ℝ) : HasDerivAt (fun t : ℝ => x + t * d) d 0 := by
  simpa using ((hasDerivAt_id (0 : ℝ)).mul_const d).const_add x

theorem norm_hasDerivAt (φ δ : G.Fld) :
    HasDerivAt (fun t : ℝ => G.integ fun k => (φ k + t * δ k) ^ 2) (2 * G.integ fun k => φ k * δ k) 0 := by
  have h := integ_hasDerivAt (G := G) (f := fun t k => (φ k + t * δ k) ^ 2) (f' := fun k => 2 * (φ k * δ k))
    fun k => by simpa [mul_assoc] using (line_hasDerivAt (φ k) (δ k)).fun_pow 2
  rwa [G.integ_smul] at h

theorem expectation_hasDerivAt (H0 : Matrix G.Ix G.Ix ℝ) (φ δ : G.Fld) (hN : (G.integ fun k => φ k ^ 2) ≠ 0) :
    HasDerivAt (fun t : ℝ => expectation H0 fun k => φ k + t * δ k)
      (((G.integ fun k => δ k * kineticOf H0 φ k) + G.integ fun k => φ k * kineticOf H0 δ k) /
          (G.integ fun k => φ k ^ 2) -
        (G.integ fun k => φ k * kineticOf H0 φ k) * (2 * G.integ fun k => φ k * δ k) /
          (G.integ fun k => φ k ^ 2) ^ 2) 0 := by
  have h1 : HasDerivAt (fun t : ℝ => G.integ fun k => (φ k + t * δ k) * kineticOf H0 (fun k => φ k + t * δ k) k)
      ((G.integ fun k => δ k * kineticOf H0 φ k) + G.integ fun k => φ k * kineticOf H0 δ k) 0 := by
    rw [← G.integ_add]
    refine integ_hasDerivAt fun k => ?_
    have := (line_hasDerivAt (φ k) (δ k)).fun_mul ((mulVec_hasDerivAt H0 φ δ k).div_const (G.w k))
    simpa [kineticOf] using this
  have h2 := norm_hasDerivAt φ δ
  have := h1.fun_div h2 (by simpa using hN)
  refine this.congr_deriv ?_
  simp only [zero_mul, add_zero]
  field_simp

theorem density_hasDerivAt (φ δ : G.Fld) (hN : (G.integ fun k => φ k ^ 2) ≠ 0) (k : G.Ix) :
    HasDerivAt (fun t : ℝ => (φ k + t * δ k) ^ 2 / G.integ fun k => (φ k + t * δ k) ^ 2)
      (2 * φ k * δ k / (G.integ fun k => φ k ^ 2) -
        φ k ^ 2 * (2 * G.integ fun k => φ k * δ k) / (G.integ fun k => φ k ^ 2) ^ 2) 0 := by
  have h1 : HasDerivAt (fun t : ℝ => (φ k + t * δ k) ^ 2) (2 * φ k * δ k) 0 := by
    simpa using (line_hasDerivAt (φ k) (δ k)).fun_pow 2
  have := h1.fun_div (norm_hasDerivAt φ δ) (by simpa using hN)
  refine this.congr_deriv ?_
  simp only [zero_mul, add_zero]
  field_simp

/-- **First variation.**  If the occupied orbitals are eigenfunctions of kinetic energy plus `v` and the
density functional changes by `∫ v δn + A(δn)`, the energy changes by the asymmetry of the kinetic energy
operator, and `A`. -/
theorem orbitalEnergy_hasDerivAt (occ : ι → ℝ) (spin : ι → Fin p) (H0 : ι → Matrix G.Ix G.Ix ℝ)
    (U : G.Cols p → ℝ) (φ : ι → G.Fld) (e : ι → ℝ) (v : G.Cols p) (A : G.Cols p → ℝ)
    (hN : ∀ i, occ i ≠ 0 → (G.integ fun k => φ i k ^ 2) ≠ 0)
    (heig : ∀ i, occ i ≠ 0 → ∀ k, kineticOf (H0 i) (φ i) k + v (spin i) k * φ i k = e i * φ i k)
    (hU : ChangesBy U (orbitalDensity occ spin φ) fun δ => (∑ s, G.integ fun k => v s k * δ s k) + A δ)
    (δ : ι → G.Fld) :
    HasDerivAt (fun t : ℝ => orbitalEnergy occ spin H0 U fun i k => φ i k + t * δ i k)
      (∑ i, occ i / (G.integ fun k => φ i k ^ 2) * ((G.integ fun k => φ i k * kineticOf (H0 i) (δ i) k) -
        G.integ fun k => δ i k * kineticOf (H0 i) (φ i) k) + A (densityChange occ spin φ δ)) 0 := by
  have hT : HasDerivAt (fun t : ℝ => ∑ i, occ i * expectation (H0 i) fun k => φ i k + t * δ i k)
      (∑ i, occ i * (((G.integ fun k => δ i k * kineticOf (H0 i) (φ i) k) +
          G.integ fun k => φ i k * kineticOf (H0 i) (δ i) k) / (G.integ fun k => φ i k ^ 2) -
        (G.integ fun k => φ i k * kineticOf (H0 i) (φ i) k) * (2 * G.integ fun k => φ i k * δ i k) /
          (G.integ fun k => φ i k ^ 2) ^ 2)) 0 := by
    refine HasDerivAt.fun_sum fun i _ => ?_
    by_cases ho : occ i = 0
    · simp only [ho, zero_mul]
      exact hasDerivAt_const _ _
    · exact (expectation_hasDerivAt (H0 i) (φ i) (δ i) (hN i ho)).const_mul _
  have hn : ∀ s k, HasDerivAt (fun t : ℝ => orbitalDensity occ spin (fun i k => φ i k + t * δ i k) s k)
      (densityChange occ spin φ δ s k) 0 := by
    intro s k
    unfold orbitalDensity densityChange
    refine HasDerivAt.fun_sum fun i _ => ?_
    by_cases hs : spin i = s
    · simp only [if_pos hs]
      by_cases ho : occ i = 0
      · simp only [ho, zero_mul]
        exact hasDerivAt_const _ _
      · exact (density_hasDerivAt (φ i) (δ i) (hN i ho) k).const_mul _
    · simp only [if_neg hs]
      exact hasDerivAt_const _ _
  have hV := hU (fun t => orbitalDensity occ spin fun i k => φ i k + t * δ i k) (densityChange occ spin φ δ)
    (by simp) hn
  refine (hT.add hV).congr_deriv ?_
  rw [← add_assoc]
  congr 1
  -- the change of the potential energy, orbital by orbital
  have hv : (∑ s, G.integ fun k => v s k * densityChange occ spin φ δ s k) =
      ∑ i, occ i * (2 * (G.integ fun k => δ i k * (v (spin i) k * φ i k)) / (G.integ fun k => φ i k ^ 2) -
        (G.integ fun k => φ i k * (v (spin i) k * φ i k)) * (2 * G.integ fun k => φ i k * δ i k) /
          (G.integ fun k => φ i k ^ 2) ^ 2) := by
    have e1 : ∀ s, (G.integ fun k => v s k * densityChange occ spin φ δ s k) =
        ∑ i, if spin i = s then occ i * (2 * (G.integ fun k => δ i k * (v (spin i) k * φ i k)) /
          (G.integ fun k => φ i k ^ 2) -
          (G.integ fun k => φ i k * (v (spin i) k * φ i k)) * (2 * G.integ fun k => φ i k * δ i k) /
          (G.integ fun k => φ i k ^ 2) ^ 2) else 0 := by
      intro s
      have e2 : (fun k => v s k * densityChange occ spin φ δ s k) = fun k => ∑ i, (v s k *
          if spin i = s then occ i * (2 * φ i k * δ i k / (G.integ fun k => φ i k ^ 2) -
            φ i k ^ 2 * (2 * G.integ fun k => φ i k * δ i k) / (G.integ fun k => φ i k ^ 2) ^ 2) else 0) := by
        funext k
        unfold densityChange
        rw [Finset.mul_sum]
      rw [e2, G.integ_sum]
      refine Finset.sum_congr rfl fun i _ => ?_
      by_cases hs : spin i = s
      · subst hs
        simp only [if_pos]
        set N := G.integ fun k => φ i k ^ 2
        set M := G.integ fun k => φ i k * δ i k
        have e3 : (fun k => v (spin i) k * (occ i * (2 * φ i k * δ i k / N - φ i k ^ 2 * (2 * M) / N ^ 2))) =
            fun k => occ i * (2 / N) * (δ i k * (v (spin i) k * φ i k)) +
              (-(occ i * (2 * M) / N ^ 2)) * (φ i k * (v (spin i) k * φ i k)) := by
          funext k; ring
        rw [e3, G.integ_add, G.integ_smul, G.integ_smul]
        ring
      · simp only [if_neg hs, mul_zero, G.integ_zero]
    rw [Finset.sum_congr rfl fun s _ => e1 s, Finset.sum_comm]
    exact Finset.sum_congr rfl fun i _ => by simp
  rw [hv, ← Finset.sum_add_distrib]
  refine Finset.sum_congr rfl fun i _ => ?_
  by_cases ho : occ i = 0
  · simp [ho]
  · have hE := heig i ho
    have i1 : (G.integ fun k => φ i k * kineticOf (H0 i) (φ i) k) =
        e i * (G.integ fun k => φ i k ^ 2) - G.integ fun k => φ i k * (v (spin i) k * φ i k) := by
      have : (fun k => φ i k * kineticOf (H0 i) (φ i) k) =
          fun k => e i * φ i k ^ 2 + (-1) * (φ i k * (v (spin i) k * φ i k)) := by
        funext k
        linear_combination φ i k * hE k
      rw [this, G.integ_add, G.integ_smul, G.integ_smul]; ring
    have i2 : (G.integ fun k => δ i k * kineticOf (H0 i) (φ i) k) =
        e i * (G.integ fun k => φ i k * δ i k) - G.integ fun k => δ i k * (v (spin i) k * φ i k) := by
      have : (fun k => δ i k * kineticOf (H0 i) (φ i) k) =
          fun k => e i * (φ i k * δ i k) + (-1) * (δ i k * (v (spin i) k * φ i k)) := by
        funext k
        linear_combination δ i k * hE k
      rw [this, G.integ_add, G.integ_smul, G.integ_smul]; ring
    have hNi := hN i ho
    rw [i1, i2]
    field_simp
    ring

end Verif
