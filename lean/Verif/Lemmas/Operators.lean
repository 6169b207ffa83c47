import Verif.Model.Operators
import Verif.Lemmas.Weights
import Verif.Props.C11_C13

namespace Verif
open Spec Init
namespace Ops
variable {K : Type*} [Field K] {Na Nr bcN : ℕ}

theorem kron_mulVec {m : ℕ} (A : Matrix (Fin Nr) (Fin m) K) (B : Matrix (Fin Na) (Fin Na) K)
    (f : Fin (Na * m) → K) (i : Fin Na) (j : Fin Nr) :
    (kron A B).mulVec f (at2 i j) = ∑ j', A j j' * ∑ i', B i i' * f (at2 i' j') := by
  unfold Matrix.mulVec dotProduct
  rw [sum_grid, Finset.sum_comm]
  refine Finset.sum_congr rfl fun j' _ => ?_
  rw [Finset.mul_sum]
  refine Finset.sum_congr rfl fun i' _ => ?_
  simp only [kron, ia_at2, ir_at2]; ring

theorem sum_diag {n : ℕ} (d : Fin n → K) (g : Fin n → K) (r : Fin n) :
    ∑ j, diag d r j * g j = d r * g r := by
  unfold diag
  rw [Finset.sum_eq_single r]
  · rw [if_pos rfl]
  · intro b _ hb; rw [if_neg (Ne.symm hb), zero_mul]
  · intro h; exact absurd (Finset.mem_univ _) h

theorem diag_mul_mulVec {n : ℕ} (d : Fin n → K) (D : Matrix (Fin n) (Fin n) K) (u : Fin n → K)
    (r : Fin n) : (diag d * D).mulVec u r = d r * D.mulVec u r := by
  rw [← Matrix.mulVec_mulVec]
  exact sum_diag d (D.mulVec u) r

theorem sum_eye {n : ℕ} (g : Fin n → K) (r : Fin n) :
    ∑ j, eye n r j * g j = g r := by
  unfold eye
  rw [Finset.sum_eq_single r]
  · rw [if_pos rfl, one_mul]
  · intro b _ hb; rw [if_neg (Ne.symm hb), zero_mul]
  · intro h; exact absurd (Finset.mem_univ _) h

theorem lap_mulVec (I : Input K Na Nr bcN) (A2 A1 : Matrix (Fin Na) (Fin Na) K)
    (R2 R1 : Matrix (Fin Nr) (Fin Nr) K) (f : Fin (Na * Nr) → K) (i : Fin Na) (j : Fin Nr) :
    (kron (diag I.sinhR) (angular I A2 A1) + kron (radial I R2 R1) (diag I.sinA)).mulVec f (at2 i j) =
      I.a * (I.sinhR j * (I.sinA i * A2.mulVec (lineA f j) i + I.cosA i * A1.mulVec (lineA f j) i) +
        I.sinA i * (I.sinhR j * R2.mulVec (lineR f i) j + I.coshR j * R1.mulVec (lineR f i) j)) := by
  rw [Matrix.add_mulVec, Pi.add_apply, kron_mulVec, kron_mulVec, sum_diag]
  simp_rw [sum_diag]
  have hA : ∑ i', angular I A2 A1 i i' * f (at2 i' j) =
      I.a * (I.sinA i * A2.mulVec (lineA f j) i + I.cosA i * A1.mulVec (lineA f j) i) := by
    change (angular I A2 A1).mulVec (lineA f j) i = _
    unfold angular
    rw [Matrix.smul_mulVec, Pi.smul_apply, Matrix.add_mulVec, Pi.add_apply, diag_mul_mulVec,
      diag_mul_mulVec, smul_eq_mul]
  have hR : ∑ j', radial I R2 R1 j j' * (I.sinA i * f (at2 i j')) =
      I.sinA i * (I.a * (I.sinhR j * R2.mulVec (lineR f i) j + I.coshR j * R1.mulVec (lineR f i) j)) := by
    have : (radial I R2 R1).mulVec (lineR f i) j =
        I.a * (I.sinhR j * R2.mulVec (lineR f i) j + I.coshR j * R1.mulVec (lineR f i) j) := by
      unfold radial
      rw [Matrix.smul_mulVec, Pi.smul_apply, Matrix.add_mulVec, Pi.add_apply, diag_mul_mulVec,
        diag_mul_mulVec, smul_eq_mul]
    rw [← this]
    unfold Matrix.mulVec dotProduct
    rw [Finset.mul_sum]
    refine Finset.sum_congr rfl fun j' _ => ?_
    unfold lineR; ring
  rw [hA, hR]; ring

theorem gradA_mulVec (d : Fin (Na * Nr) → K) (A : Matrix (Fin Na) (Fin Na) K) (f : Fin (Na * Nr) → K)
    (i : Fin Na) (j : Fin Nr) :
    (diag d * kron (eye Nr) A).mulVec f (at2 i j) = d (at2 i j) * A.mulVec (lineA f j) i := by
  rw [diag_mul_mulVec, kron_mulVec, sum_eye]; rfl

theorem gradR_mulVec (d : Fin (Na * Nr) → K) (A : Matrix (Fin Nr) (Fin Nr) K) (f : Fin (Na * Nr) → K)
    (i : Fin Na) (j : Fin Nr) :
    (diag d * kron A (eye Na)).mulVec f (at2 i j) = d (at2 i j) * A.mulVec (lineR f i) j := by
  rw [diag_mul_mulVec, kron_mulVec]; simp_rw [sum_eye]; rfl

end Ops

namespace Spec
variable {K : Type*} [Field K]

theorem val_rev {n : ℕ} (u : Fin n → K) (z : ℤ) : val (fun i => u i.rev) z = val u (n - 1 - z) := by
  unfold val
  by_cases h : 0 ≤ z ∧ z < n
  · rw [dif_pos h, dif_pos (by omega)]
    refine congrArg u (Fin.ext ?_)
    simp only [Fin.val_rev]; omega
  · rw [dif_neg h, dif_neg (by omega)]

theorem extend_rev {n : ℕ} (s : K) (u : Fin n → K) (z : ℤ) (h1 : -n ≤ z) (h2 : z < 2 * n) :
    extend s (reflect s fun i => u i.rev) (fun i => u i.rev) z =
      extend s (reflect s u) u (n - 1 - z) := by
  unfold extend reflect
  simp only [val_rev]
  by_cases ha : z < 0
  · rw [if_pos ha, if_neg (by omega), if_neg (by omega)]
    congr 2; omega
  · by_cases hb : z < n
    · rw [if_neg ha, if_pos hb, if_neg (by omega), if_pos (by omega)]
    · rw [if_neg ha, if_neg hb, if_pos (by omega)]
      congr 2; omega

/-- A stencil of parity `t` on the reversed line. -/
theorem stencil_rev {k n : ℕ} (hk : k ≤ n) {ds : Fin (2 * k + 1) → K} {t : K}
    (hp : ∀ i, ds i.rev = t * ds i) (s : K) (u : Fin n → K) (r : Fin n) :
    stencil ds (extend s (reflect s fun i => u i.rev) (fun i => u i.rev)) r.1 =
      t * stencil ds (extend s (reflect s u) u) r.rev.1 := by
  unfold stencil
  rw [← Equiv.sum_comp Fin.revPerm, Finset.mul_sum]
  refine Finset.sum_congr rfl fun i _ => ?_
  have hr := r.2
  have hi := i.2
  rw [Fin.revPerm_apply, hp, extend_rev s u _ (by simp only [Fin.val_rev]; omega) (by simp only [Fin.val_rev]; omega),
    mul_assoc]
  congr 3
  simp only [Fin.val_rev]; omega

end Spec
end Verif
