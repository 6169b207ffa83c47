import Verif.Model.Hartree
import Verif.Props.C14
import Mathlib.LinearAlgebra.Matrix.Block
import Mathlib.Tactic.Linarith

namespace Verif
open Init Spec FD Ops
namespace Hartree

theorem legendre_neg (k : ℕ) (x : ℝ) : legendre k (-x) = (-1) ^ k * legendre k x := by
  induction k using Nat.twoStepInduction with
  | zero => simp [legendre]
  | one => simp [legendre]
  | more k h1 h2 =>
    simp only [legendre, h1, h2, pow_succ]; ring

theorem det_lower {n : ℕ} {L : Matrix (Fin n) (Fin n) ℝ} (h : ∀ i j, i < j → L i j = 0)
    (hu : ∀ i, L i i = 1) : L.det = 1 := by
  rw [Matrix.det_of_lowerTriangular L (fun i j hij => h i j hij)]
  simp [hu]

theorem det_upper {n : ℕ} {U : Matrix (Fin n) (Fin n) ℝ} (h : ∀ i j, j < i → U i j = 0)
    (hu : ∀ i, U i i ≠ 0) : U.det ≠ 0 := by
  rw [Matrix.det_of_upperTriangular (fun i j hij => h i j hij)]
  exact Finset.prod_ne_zero_iff.mpr fun i _ => hu i

variable (H : HGrid)

namespace HGrid

/-- The two solves invert the product of the factors. -/
theorem mul_solve (hL : IsUnit H.Llap.det) (hU : IsUnit H.Ulap.det) (b : H.Fld) :
    (H.Llap * H.Ulap).mulVec (H.solve b) = b := by
  unfold solve
  rw [Matrix.mulVec_mulVec, Matrix.mulVec_mulVec, Matrix.mul_assoc H.Llap,
    Matrix.mul_nonsing_inv _ hU, Matrix.mul_one, Matrix.mul_nonsing_inv _ hL, Matrix.one_mulVec]

theorem solve_unique (hL : IsUnit H.Llap.det) (hU : IsUnit H.Ulap.det) (b v : H.Fld)
    (h : (H.Llap * H.Ulap).mulVec v = b) : H.solve b = v := by
  unfold solve
  rw [← h, Matrix.mulVec_mulVec, Matrix.mulVec_mulVec, ← Matrix.mul_assoc, Matrix.mul_assoc _ H.Llap⁻¹,
    Matrix.nonsing_inv_mul _ hL, Matrix.mul_one, Matrix.nonsing_inv_mul _ hU, Matrix.one_mulVec]

theorem bVh_eq (nh : H.Fld) (k : Fin (H.Na * H.bcN)) :
    H.bVh nh k = ∑ m ∈ Finset.range 8,
      (H.grid.integ fun q => H.rho q ^ m * legendre m (H.Z q / H.rho q) * nh q) *
        legendre m (H.bZ k / H.brho k) / H.brho k ^ (m + 1) := by
  have gen : ∀ (n : ℕ) (st : H.BFld), (List.range n).foldl (fun (acc : H.BFld) m =>
      fun k => acc k + (H.grid.integ fun k => H.rho k ^ (m + 1) *
        legendre (m + 1) (H.Z k / H.rho k) * nh k) * (H.brho k ^ (m + 1 + 1))⁻¹ *
          legendre (m + 1) (H.bZ k / H.brho k)) st k =
      st k + ∑ m ∈ Finset.range n, (H.grid.integ fun k => H.rho k ^ (m + 1) *
        legendre (m + 1) (H.Z k / H.rho k) * nh k) * (H.brho k ^ (m + 1 + 1))⁻¹ *
          legendre (m + 1) (H.bZ k / H.brho k) := by
    intro n
    induction n with
    | zero => intro st; simp
    | succ n ih =>
      intro st
      rw [List.range_succ, List.foldl_append, List.foldl_cons, List.foldl_nil, ih,
        Finset.sum_range_succ, add_assoc]
  unfold bVh
  rw [gen, Finset.sum_range_succ' _ 7]
  rw [add_comm]
  congr 1
  · exact Finset.sum_congr rfl fun m _ => by rw [div_eq_mul_inv]; ring
  · simp only [pow_zero, one_mul, zero_add, pow_one, div_eq_mul_inv]; ring

theorem integ_add (f g : H.Fld) :
    H.grid.integ (fun k => f k + g k) = H.grid.integ f + H.grid.integ g := by
  unfold Grid.integ
  rw [← mul_add, ← Finset.sum_add_distrib]
  congr 1
  exact Finset.sum_congr rfl fun k _ => by ring

theorem integ_smul (c : ℝ) (f : H.Fld) :
    H.grid.integ (fun k => c * f k) = c * H.grid.integ f := by
  unfold Grid.integ
  rw [mul_left_comm, Finset.mul_sum _ _ c]
  congr 1
  exact Finset.sum_congr rfl fun k _ => by ring

theorem bVh_linear (c d : ℝ) (n m : H.Fld) (k : Fin (H.Na * H.bcN)) :
    H.bVh (fun q => c * n q + d * m q) k = c * H.bVh n k + d * H.bVh m k := by
  rw [bVh_eq, bVh_eq, bVh_eq, Finset.mul_sum, Finset.mul_sum, ← Finset.sum_add_distrib]
  refine Finset.sum_congr rfl fun l _ => ?_
  have : (H.grid.integ fun q => H.rho q ^ l * legendre l (H.Z q / H.rho q) * (c * n q + d * m q)) =
      c * (H.grid.integ fun q => H.rho q ^ l * legendre l (H.Z q / H.rho q) * n q) +
      d * (H.grid.integ fun q => H.rho q ^ l * legendre l (H.Z q / H.rho q) * m q) := by
    rw [← integ_smul, ← integ_smul, ← integ_add]
    congr 1; funext q; ring
  rw [this]; ring

theorem source_linear (c d : ℝ) (n m : H.Fld) :
    H.source (fun q => c * n q + d * m q) = c • H.source n + d • H.source m := by
  have hb : H.bVh (fun q => c * n q + d * m q) = c • H.bVh n + d • H.bVh m := by
    funext k; rw [bVh_linear]; rfl
  funext k
  simp only [source, hb, Matrix.mulVec_add, Matrix.mulVec_smul, Pi.add_apply, Pi.smul_apply,
    smul_eq_mul]
  split <;> ring

theorem solve_linear (c d : ℝ) (n m : H.Fld) :
    H.solve (c • n + d • m) = c • H.solve n + d • H.solve m := by
  simp only [solve, Matrix.mulVec_add, Matrix.mulVec_smul]

/-! ### Mirror -/

theorem rho_mirK (k : Fin (H.Na * H.Nr)) : H.rho (mirK k) = H.rho k := by
  unfold rho; rw [Xr_mirK, cos_mirK, neg_sq]

theorem Z_mirK (k : Fin (H.Na * H.Nr)) : H.Z (mirK k) = - H.Z k := by
  unfold Z; rw [Xr_mirK, cos_mirK]; ring

theorem brho_mirK (k : Fin (H.Na * H.bcN)) : H.brho (mirK k) = H.brho k := by
  unfold brho bXr bXa; rw [ir_mirK, ia_mirK, xa_rev, Real.cos_pi_sub, neg_sq]

theorem bZ_mirK (k : Fin (H.Na * H.bcN)) : H.bZ (mirK k) = - H.bZ k := by
  unfold bZ bXr bXa; rw [ir_mirK, ia_mirK, xa_rev, Real.cos_pi_sub]; ring

theorem integ_mirror (hwi : ∀ k, H.wi (mirK k) = H.wi k) (f : H.Fld) :
    H.grid.integ (fun k => f (mirK k)) = H.grid.integ f := by
  unfold Grid.integ
  congr 1
  refine Eq.trans ?_ (Equiv.sum_comp H.grid.mirEquiv fun k => H.grid.wi k * H.grid.w k * f k)
  refine Finset.sum_congr rfl fun k _ => ?_
  change H.wi k * w H.Na H.Nr H.a H.L k * f (mirK k) =
    H.wi (mirK k) * w H.Na H.Nr H.a H.L (mirK k) * f (mirK k)
  rw [hwi, w_eq, w_eq, Xr_mirK, sin_mirK]

theorem bVh_mirror (hwi : ∀ k, H.wi (mirK k) = H.wi k) (n : H.Fld) (k : Fin (H.Na * H.bcN)) :
    H.bVh (fun q => n (mirK q)) k = H.bVh n (mirK k) := by
  rw [bVh_eq, bVh_eq]
  refine Finset.sum_congr rfl fun m _ => ?_
  rw [brho_mirK, bZ_mirK, neg_div, legendre_neg]
  have : (H.grid.integ fun q => H.rho q ^ m * legendre m (H.Z q / H.rho q) * n (mirK q)) =
      (-1) ^ m * (H.grid.integ fun q => H.rho q ^ m * legendre m (H.Z q / H.rho q) * n q) := by
    rw [← integ_smul, ← integ_mirror H hwi]
    congr 1; funext q
    have h1 : mirK (mirK q) = q := H.grid.mirIx_mirIx q
    rw [rho_mirK, Z_mirK, neg_div, legendre_neg, h1]
    ring
  rw [this]; ring

end HGrid

/-- Boundary operator commutes with the mirror. -/
theorem kron_diag_mirror {Na m : ℕ} (A : Matrix (Fin m) (Fin m) ℝ) (s : Fin Na → ℝ)
    (hs : ∀ i, s i.rev = s i) (b : Fin (Na * m) → ℝ) (k : Fin (Na * m)) :
    (kron A (diag s)).mulVec (fun q => b (mirK q)) k = (kron A (diag s)).mulVec b (mirK k) := by
  rw [← at2_ia_ir k, mirK_at2, kron_mulVec, kron_mulVec]
  simp only [sum_diag, hs, mirK_at2]

end Hartree
end Verif
