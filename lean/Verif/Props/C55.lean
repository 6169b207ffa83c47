import Verif.Lemmas.Inverter
import Mathlib.LinearAlgebra.BilinearMap
import Mathlib.LinearAlgebra.Matrix.Symmetric
import Mathlib.Tactic.FinCases

/-!
# C55, C65: residual and Jacobian of `kmatrix`
-/

namespace Verif
open OrbInv

namespace Spec
variable {K : Type*} [Field K]

/-- `J X` is the exact derivative of `F` at every `X`: the remainder is a quadratic form, the same
for all `X`. -/
def ExactJacobian {L : ℕ} (F : (Fin L → K) → Fin L → K) (J : (Fin L → K) → Matrix (Fin L) (Fin L) K)
    (rows : Fin L → Prop) : Prop :=
  ∃ B : (Fin L → K) →ₗ[K] (Fin L → K) →ₗ[K] (Fin L → K),
    ∀ X D r, rows r → F (X + D) r = F X r + (∑ j, J X r j * D j) + B D D r

end Spec
open Spec

section
variable {K : Type*} [Field K] {n M : ℕ} (w : Fin n → K)
  (H : Matrix (Fin ((M + 1) * n)) (Fin ((M + 1) * n)) K) (n0 : Fin n → K) (occ : Fin (M + 1) → K)

theorem evalsOf_add (X D : Unk K n M) (i : Fin (M + 1)) : evalsOf (X + D) i = evalsOf X i + evalsOf D i := by
  induction i using Fin.lastCases <;> simp

theorem evalsOf_smul (c : K) (X : Unk K n M) (i : Fin (M + 1)) : evalsOf (c • X) i = c * evalsOf X i := by
  induction i using Fin.lastCases <;> simp

theorem eqn_phi (X : Unk K n M) (i : Fin (M + 1)) (k : Fin n) :
    eqn w H n0 occ X (phiIx i k) = (∑ t, H (finProdFinEquiv (i, k)) t * X (Fin.castAdd _ t)) +
      w k * (potOf X k - evalsOf X i) * phiOf X i k := by
  simp only [eqn, stack_phiIx, Matrix.mulVec, dotProduct, hjac, Matrix.add_apply, add_mul,
    Finset.sum_add_distrib]
  congr 1
  rw [Finset.sum_eq_single (finProdFinEquiv (i, k))]
  · simp [Ops.diag, vse, phiOf, phiIx]
  · intro t _ ht
    simp [Ops.diag, Ne.symm ht]
  · simp

theorem eqn_eig (X : Unk K n M) (i : Fin M) :
    eqn w H n0 occ X (eigIx i) = -((∑ k, w k * phiOf X 0 k ^ 2) - occ i.castSucc) / 2 := by
  simp [eqn, wnorm]

theorem eqn_pot (X : Unk K n M) (k : Fin n) :
    eqn w H n0 occ X (potIx k) = w k * (((∑ i, phiOf X i k ^ 2) - n0 k) / 2) := by
  simp [eqn, dens]

theorem jac_phi (X D : Unk K n M) (i : Fin (M + 1)) (k : Fin n) :
    ∑ j, jac w H X (phiIx i k) j * D j =
      (∑ t, H (finProdFinEquiv (i, k)) t * D (Fin.castAdd _ t)) +
      w k * (potOf X k - evalsOf X i) * phiOf D i k + w k * phiOf X i k * (potOf D k - evalsOf D i) := by
  rw [Fin.sum_univ_add, Fin.sum_univ_add]
  simp only [jac]
  have h1 : ∀ t, stack (fun u => stack (fun t => hjac w H X t u) (fun i => B3 w X u i)
      (fun k => B2 w X u k) (phiIx i k)) (fun j => stack (fun t => B3 w X t j) (fun _ => 0) (fun _ => 0)
      (phiIx i k)) (fun l => stack (fun t => B2 w X t l) (fun _ => 0) (fun _ => 0) (phiIx i k))
      (Fin.castAdd _ t) = hjac w H X (finProdFinEquiv (i, k)) t := fun t => by simp
  have h2 : ∀ j, stack (fun u => stack (fun t => hjac w H X t u) (fun i => B3 w X u i)
      (fun k => B2 w X u k) (phiIx i k)) (fun j => stack (fun t => B3 w X t j) (fun _ => 0) (fun _ => 0)
      (phiIx i k)) (fun l => stack (fun t => B2 w X t l) (fun _ => 0) (fun _ => 0) (phiIx i k))
      (eigIx j) = B3 w X (finProdFinEquiv (i, k)) j := fun t => by simp
  have h3 : ∀ l, stack (fun u => stack (fun t => hjac w H X t u) (fun i => B3 w X u i)
      (fun k => B2 w X u k) (phiIx i k)) (fun j => stack (fun t => B3 w X t j) (fun _ => 0) (fun _ => 0)
      (phiIx i k)) (fun l => stack (fun t => B2 w X t l) (fun _ => 0) (fun _ => 0) (phiIx i k))
      (potIx l) = B2 w X (finProdFinEquiv (i, k)) l := fun t => by simp
  simp only [eigIx, potIx] at h2 h3
  simp only [h1, h2, h3]
  have e1 : ∑ t, hjac w H X (finProdFinEquiv (i, k)) t * D (Fin.castAdd _ t) =
      (∑ t, H (finProdFinEquiv (i, k)) t * D (Fin.castAdd _ t)) +
      w k * (potOf X k - evalsOf X i) * phiOf D i k := by
    simp only [hjac, Matrix.add_apply, add_mul, Finset.sum_add_distrib]
    congr 1
    rw [Finset.sum_eq_single (finProdFinEquiv (i, k))]
    · simp [Ops.diag, vse, phiOf, phiIx]
    · intro t _ ht
      simp [Ops.diag, Ne.symm ht]
    · simp
  have e2 : ∑ j, B3 w X (finProdFinEquiv (i, k)) j * D (eigIx j) = -(w k * phiOf X i k * evalsOf D i) := by
    simp only [B3, divNat_pair, modNat_pair]
    induction i using Fin.lastCases with
    | last => simp [Fin.ext_iff, (Fin.is_lt _).ne']
    | cast i =>
      simp only [Fin.castSucc_inj, ite_mul, zero_mul, Finset.sum_ite_eq, Finset.mem_univ, if_true,
        evalsOf_castSucc]
      ring
  have e3 : ∑ l, B2 w X (finProdFinEquiv (i, k)) l * D (potIx l) = w k * phiOf X i k * potOf D k := by
    simp [B2, potOf]
  simp only [eigIx, potIx] at e2 e3
  rw [e1, e2, e3]
  ring

theorem jac_eig (X D : Unk K n M) (i : Fin M) :
    ∑ j, jac w H X (eigIx i) j * D j = -∑ k, w k * phiOf X i.castSucc k * phiOf D i.castSucc k := by
  rw [sum_ix]
  simp only [jac, stack_eigIx, stack_phiIx, stack_potIx, zero_mul, Finset.sum_const_zero, add_zero, B3,
    divNat_pair, modNat_pair]
  rw [Finset.sum_eq_single i.castSucc]
  · simp [phiOf]
  · intro j _ hj
    simp [hj]
  · simp

theorem jac_pot (X D : Unk K n M) (k : Fin n) :
    ∑ j, jac w H X (potIx k) j * D j = ∑ i, w k * phiOf X i k * phiOf D i k := by
  rw [sum_ix]
  simp only [jac, stack_eigIx, stack_phiIx, stack_potIx, zero_mul, Finset.sum_const_zero, add_zero, B2,
    divNat_pair, modNat_pair]
  refine Finset.sum_congr rfl fun i _ => ?_
  rw [Finset.sum_eq_single k]
  · simp [phiOf]
  · intro j _ hj
    simp [hj]
  · simp

theorem phiOf_add (X D : Unk K n M) (i : Fin (M + 1)) (k : Fin n) :
    phiOf (X + D) i k = phiOf X i k + phiOf D i k := rfl
theorem potOf_add (X D : Unk K n M) (k : Fin n) : potOf (X + D) k = potOf X k + potOf D k := rfl
theorem phiOf_smul (c : K) (X : Unk K n M) (i : Fin (M + 1)) (k : Fin n) :
    phiOf (c • X) i k = c * phiOf X i k := rfl
theorem potOf_smul (c : K) (X : Unk K n M) (k : Fin n) : potOf (c • X) k = c * potOf X k := rfl

/-- The quadratic remainder. -/
def remainder : Unk K n M →ₗ[K] Unk K n M →ₗ[K] Unk K n M :=
  LinearMap.mk₂ K (fun D E => stack (flat fun i k => w k * (potOf D k - evalsOf D i) * phiOf E i k)
      (fun _ => -(∑ k, w k * phiOf D 0 k * phiOf E 0 k) / 2)
      (fun k => w k * (∑ i, phiOf D i k * phiOf E i k) / 2))
    (fun D D' E => unk_ext (by simp [evalsOf_add, phiOf_add, potOf_add]; intros; ring)
      (by intro i; simp [phiOf_add, mul_add, add_mul, Finset.sum_add_distrib]; ring)
      (by simp [phiOf_add, mul_add, add_mul, Finset.sum_add_distrib]; intros; ring))
    (fun c D E => unk_ext (by simp [evalsOf_smul, phiOf_smul, potOf_smul]; intros; ring)
      (by simp only [phiOf_smul, stack_eigIx, Pi.smul_apply, smul_eq_mul, mul_left_comm _ c, mul_assoc,
            ← Finset.mul_sum]; intros; ring)
      (by simp only [phiOf_smul, stack_potIx, Pi.smul_apply, smul_eq_mul, mul_assoc,
            ← Finset.mul_sum]; intros; ring))
    (fun D E E' => unk_ext (by simp [phiOf_add]; intros; ring)
      (by intro i; simp [phiOf_add, mul_add, add_mul, Finset.sum_add_distrib]; ring)
      (by simp [phiOf_add, mul_add, add_mul, Finset.sum_add_distrib]; intros; ring))
    (fun c D E => unk_ext (by simp [phiOf_smul]; intros; ring)
      (by simp only [phiOf_smul, stack_eigIx, Pi.smul_apply, smul_eq_mul, mul_left_comm _ c,
            ← Finset.mul_sum]; intros; ring)
      (by simp only [phiOf_smul, stack_potIx, Pi.smul_apply, smul_eq_mul, mul_left_comm _ c,
            ← Finset.mul_sum]; intros; ring))

/-- C55 (partial).  For every number of orbitals, `jac` is the exact derivative of `eqn` in every row
except the norm rows of the orbitals 1, 2, …; with one or two orbitals there is no such row.  `jac` is
symmetric when the Hamiltonian block is. -/
theorem C55_jacobian_partial [CharZero K] :
    ExactJacobian (eqn w H n0 occ) (jac w H) (fun r => ∀ i, r = eigIx i → i.1 = 0) ∧
    (M ≤ 1 → ExactJacobian (eqn w H n0 occ) (jac w H) fun _ => True) ∧
    (H.IsSymm → ∀ X, (jac w H X).IsSymm) := by
  have key : ExactJacobian (eqn w H n0 occ) (jac w H) (fun r => ∀ i, r = eigIx i → i.1 = 0) := by
    refine ⟨remainder w, fun X D r => ?_⟩
    induction r using ix_cases with
    | h1 i k =>
      intro _
      rw [eqn_phi, eqn_phi, jac_phi]
      simp only [remainder, LinearMap.mk₂_apply, stack_phiIx, flat_pair, evalsOf_add, phiOf_add,
        potOf_add, Pi.add_apply, mul_add (H _ _), Finset.sum_add_distrib]
      ring
    | h2 i =>
      intro hi
      obtain rfl | hM := Nat.eq_zero_or_pos M
      · exact i.elim0
      have h0 : i.castSucc = (0 : Fin (M + 1)) := Fin.ext (hi i rfl)
      rw [eqn_eig, eqn_eig, jac_eig, h0]
      simp only [remainder, LinearMap.mk₂_apply, stack_eigIx, phiOf_add, add_sq, mul_add,
        Finset.sum_add_distrib, ← Finset.mul_sum]
      have : ∑ k, w k * (2 * phiOf X 0 k * phiOf D 0 k) = 2 * ∑ k, w k * phiOf X 0 k * phiOf D 0 k := by
        rw [Finset.mul_sum]
        exact Finset.sum_congr rfl fun k _ => by ring
      have h2 : ∑ k, w k * phiOf D 0 k ^ 2 = ∑ k, w k * phiOf D 0 k * phiOf D 0 k :=
        Finset.sum_congr rfl fun k _ => by ring
      rw [this, h2]
      ring
    | h3 k =>
      intro _
      rw [eqn_pot, eqn_pot, jac_pot]
      simp only [remainder, LinearMap.mk₂_apply, stack_potIx, phiOf_add, add_sq, Finset.sum_add_distrib,
        mul_assoc, ← Finset.mul_sum]
      have h2 : ∑ i, phiOf D i k ^ 2 = ∑ i, phiOf D i k * phiOf D i k :=
        Finset.sum_congr rfl fun i _ => by ring
      rw [h2]
      ring
  refine ⟨key, fun hM => ?_, fun hH X => ?_⟩
  · obtain ⟨B, hB⟩ := key
    exact ⟨B, fun X D r _ => hB X D r fun i _ => by omega⟩
  · have hh : (hjac w H X).IsSymm := by
      refine Matrix.IsSymm.ext fun i j => ?_
      have := hH.apply i j
      simp only [hjac, Matrix.add_apply, this, Ops.diag]
      by_cases h : i = j
      · rw [h]
      · simp [h, Ne.symm h]
    refine Matrix.IsSymm.ext fun i j => ?_
    induction i using ix_cases with
    | h1 i k => induction j using ix_cases with
      | h1 j l => simp only [jac, stack_phiIx]; exact hh.apply _ _
      | h2 j => simp [jac]
      | h3 j => simp [jac]
    | h2 i => induction j using ix_cases with
      | h1 j l => simp [jac]
      | h2 j => simp [jac]
      | h3 j => simp [jac]
    | h3 i => induction j using ix_cases with
      | h1 j l => simp [jac]
      | h2 j => simp [jac]
      | h3 j => simp [jac]

/-- With three orbitals `jac` is not the derivative of `eqn`: the norm row of orbital 1 contains the
norm of orbital 0 (`S[0]` in every row). -/
theorem C55_refuted : ¬ ExactJacobian (K := ℚ)
    (eqn (n := 1) (M := 2) (fun _ => 1) 0 (fun _ => 0) (fun _ => 2)) (jac (fun _ => 1) 0)
    (fun _ => True) := by
  rintro ⟨B, hB⟩
  let X : Unk ℚ 1 2 := fun j => if j = phiIx 0 0 then 1 else 0
  have hn : X + -X = 0 := by simp
  have h1 := hB X X (eigIx 1) trivial
  have h2 := hB X (-X) (eigIx 1) trivial
  rw [hn] at h2
  have hBn : B (-X) (-X) = B X X := by simp
  rw [hBn] at h2
  rw [jac_eig, eqn_eig, eqn_eig] at h1 h2
  have a1 : phiOf X 0 0 = 1 := by decide +kernel
  have a2 : phiOf (X + X) 0 0 = 2 := by decide +kernel
  have a3 : phiOf X (Fin.castSucc (1 : Fin 2)) 0 = 0 := by decide +kernel
  have a4 : phiOf (0 : Unk ℚ 1 2) 0 0 = 0 := rfl
  simp only [Fin.sum_univ_one, a1, a2, a3, a4] at h1 h2
  norm_num at h1 h2
  linarith

/-- C65.  The residual vanishes exactly when every orbital satisfies its Kohn-Sham equation with the
stored potential and eigenvalue (the last one 0), the density of the orbitals is the target wherever
the weight is not zero, and the norm of orbital 0 is the occupation of every orbital but the last. -/
theorem C65_zero_iff [CharZero K] (A : Matrix (Fin n) (Fin n) K) (hw : ∀ k, w k ≠ 0) (X : Unk K n M) :
    eqn w (blockH A) n0 occ X = 0 ↔
      (∀ i k, (∑ l, A k l * phiOf X i l) + w k * potOf X k * phiOf X i k =
        evalsOf X i * (w k * phiOf X i k)) ∧
      (∀ k, ∑ i, phiOf X i k ^ 2 = n0 k) ∧
      ∀ i : Fin M, ∑ k, w k * phiOf X 0 k ^ 2 = occ i.castSucc := by
  have hphi : ∀ i k, eqn w (blockH A) n0 occ X (phiIx i k) = (∑ l, A k l * phiOf X i l) +
      w k * (potOf X k - evalsOf X i) * phiOf X i k := fun i k => by
    rw [eqn_phi, sum_orb]
    congr 1
    rw [Finset.sum_eq_single i]
    · simp [blockH, phiOf, phiIx]
    · intro j _ hj
      simp [blockH, Ne.symm hj]
    · simp
  constructor
  · intro h
    refine ⟨fun i k => ?_, fun k => ?_, fun i => ?_⟩
    · have := congrFun h (phiIx i k)
      rw [hphi, Pi.zero_apply] at this
      linear_combination this
    · have := congrFun h (potIx k)
      rw [eqn_pot, Pi.zero_apply, mul_eq_zero, or_iff_right (hw k), div_eq_zero_iff,
        or_iff_left two_ne_zero] at this
      linear_combination this
    · have := congrFun h (eigIx i)
      rw [eqn_eig, Pi.zero_apply, div_eq_zero_iff, or_iff_left two_ne_zero] at this
      linear_combination -this
  · rintro ⟨h1, h2, h3⟩
    refine unk_ext (fun i k => ?_) (fun i => ?_) (fun k => ?_)
    · rw [hphi, Pi.zero_apply]
      linear_combination h1 i k
    · rw [eqn_eig, h3 i]; simp
    · rw [eqn_pot, h2 k]; simp

/-- One orbital on two points: `H = [[0,-1],[-1,0]]`, `phi = (1,1)`, potential 1, density (1,1). -/
example : eqn (n := 2) (M := 0) (K := ℚ) (fun _ => 1) (blockH ![![0, -1], ![-1, 0]]) ![1, 1] ![2]
    ![1, 1, 1, 1] = 0 := by decide +kernel

end
end Verif
