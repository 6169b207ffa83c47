import Verif.Model.FDMatrices
import Verif.Spec.Stencil
import Mathlib.Algebra.BigOperators.Fin
import Mathlib.Tactic.FieldSimp
import Mathlib.Tactic.LinearCombination

namespace Verif
namespace FD
open Spec
variable {K : Type*} [Field K]

/-- The centred stencil `-k..k`. -/
def centred (k : ℕ) : Fin (2 * k + 1) → ℤ := fun i => (i.1 : ℤ) - k

/-- Coefficient at integer offset `z`. -/
def coef {k : ℕ} (ds : Fin (2 * k + 1) → K) (z : ℤ) : K := val ds (z + k)

theorem val_of_lt {n : ℕ} (u : Fin n → K) (i : ℕ) (h : i < n) : val u (i : ℤ) = u ⟨i, h⟩ := by
  unfold val; rw [dif_pos (by omega)]; rfl

theorem val_neg {n : ℕ} (u : Fin n → K) (z : ℤ) (h : z < 0) : val u z = 0 := by
  unfold val; rw [dif_neg (by omega)]

theorem val_ge {n : ℕ} (u : Fin n → K) (z : ℤ) (h : (n : ℤ) ≤ z) : val u z = 0 := by
  unfold val; rw [dif_neg (by omega)]

/-- A value as a sum over indicator functions. -/
theorem val_eq_sum {n : ℕ} (u : Fin n → K) (z : ℤ) :
    val u z = ∑ c : Fin n, if (c.1 : ℤ) = z then u c else 0 := by
  unfold val
  split
  · rename_i h
    rw [Finset.sum_eq_single ⟨z.toNat, by omega⟩]
    · rw [if_pos]; simp only [Int.toNat_of_nonneg h.1]
    · intro c _ hc
      rw [if_neg]
      intro h2; apply hc; apply Fin.ext; simp only; omega
    · intro h2; exact absurd (Finset.mem_univ _) h2
  · rename_i h
    symm
    apply Finset.sum_eq_zero
    intro c _
    rw [if_neg]
    intro h2; apply h; have := c.2; omega

/-- Sum of coefficients at an offset. -/
theorem sum_coef {k : ℕ} (ds : Fin (2 * k + 1) → K) (z : ℤ) :
    (∑ i, if z = centred k i then ds i else 0) = coef ds z := by
  rw [coef, val_eq_sum]
  refine Finset.sum_congr rfl fun i _ => ?_
  unfold centred
  have : (z = (i.1 : ℤ) - k) ↔ ((i.1 : ℤ) = z + k) := by omega
  simp only [this]

theorem shiftSum_eq {k n : ℕ} (ds : Fin (2 * k + 1) → K) (r c : Fin n) :
    shiftSum n (centred k) ds r c = coef ds ((c.1 : ℤ) - r.1) := sum_coef ds _

theorem coef_neg {k : ℕ} {ds : Fin (2 * k + 1) → K} {s : K} (h : ∀ i : Fin (2 * k + 1), ds i.rev = s * ds i)
    (z : ℤ) : coef ds (-z) = s * coef ds z := by
  unfold coef val
  by_cases h1 : 0 ≤ z + k ∧ z + k < (2 * k + 1 : ℕ)
  · have h2 : 0 ≤ -z + k ∧ -z + k < (2 * k + 1 : ℕ) := by omega
    rw [dif_pos h1, dif_pos h2, ← h]
    congr 1
    apply Fin.ext
    simp only [Fin.val_rev]; omega
  · have h2 : ¬ (0 ≤ -z + k ∧ -z + k < (2 * k + 1 : ℕ)) := by omega
    rw [dif_neg h1, dif_neg h2, mul_zero]

theorem half (k : ℕ) : (2 * k + 1) / 2 = k := by omega

theorem bcMat_eq {k : ℕ} (ds : Fin (2 * k + 1) → K) {r c : ℕ} (hr : r < k) (hc : c < k) :
    bcMat k ds r c = if c ≤ r then coef ds ((k : ℤ) - r + c) else 0 := by
  unfold bcMat
  by_cases h : c ≤ r
  · have h1 : 2 * k + 1 - 1 - (r - c) < 2 * k + 1 := by omega
    rw [if_pos ⟨h, hr, hc⟩, dif_pos h1, if_pos h]
    unfold coef val
    rw [dif_pos (by omega)]
    congr 1
    apply Fin.ext
    simp only; omega
  · rw [if_neg (by omega), if_neg h]

theorem upperLeft_eq {k n : ℕ} (ds : Fin (2 * k + 1) → K) (r c : Fin n) :
    upperLeft n k ds r c = coef ds ((r.1 : ℤ) + c.1 + 1) := by
  unfold upperLeft
  by_cases h : r.1 < k ∧ c.1 < k
  · rw [if_pos h, bcMat_eq ds (by omega) h.1]
    by_cases h2 : r.1 ≤ k - 1 - c.1
    · rw [if_pos h2]; congr 1; omega
    · rw [if_neg h2]; unfold coef; rw [val_ge]; omega
  · rw [if_neg h]; unfold coef; rw [val_ge]; omega

theorem lowerRight_eq {k n : ℕ} (hn : k ≤ n) (ds : Fin (2 * k + 1) → K) (r c : Fin n) :
    lowerRight n k ds r c = coef ds (2 * (n : ℤ) - 1 - r.1 - c.1) := by
  have hr := r.2
  have hc := c.2
  unfold lowerRight
  by_cases h : n - k ≤ r.1 ∧ n - k ≤ c.1
  · rw [if_pos h, bcMat_eq ds (by omega) (by omega)]
    by_cases h2 : k - 1 - (c.1 - (n - k)) ≤ r.1 - (n - k)
    · rw [if_pos h2]; congr 1; omega
    · rw [if_neg h2]; unfold coef; rw [val_ge]; omega
  · rw [if_neg h]; unfold coef; rw [val_ge]; omega

/-- The stencil on an extension, as a matrix acting on `u` plus the right-hand part. -/
theorem stencil_extend {k n : ℕ} (hn : k ≤ n) (ds : Fin (2 * k + 1) → K) (sl : K) (right : ℕ → K)
    (u : Fin n → K) (r : Fin n) :
    stencil ds (extend sl right u) r.1 =
      ∑ c : Fin n, (coef ds ((c.1 : ℤ) - r.1) + sl * coef ds (-((r.1 : ℤ) + c.1 + 1))) * u c +
      ∑ i, ds i * (if (n : ℤ) ≤ (r.1 : ℤ) + ((i.1 : ℤ) - k) then
        right ((r.1 : ℤ) + ((i.1 : ℤ) - k) - n).toNat else 0) := by
  unfold stencil
  have h1 : ∀ i : Fin (2 * k + 1), extend sl right u ((r.1 : ℤ) + ((i.1 : ℤ) - k)) =
      (∑ c : Fin n, ((if (c.1 : ℤ) - r.1 = centred k i then 1 else 0) +
        sl * (if -((r.1 : ℤ) + c.1 + 1) = centred k i then 1 else 0)) * u c) +
      (if (n : ℤ) ≤ (r.1 : ℤ) + ((i.1 : ℤ) - k) then
        right ((r.1 : ℤ) + ((i.1 : ℤ) - k) - n).toNat else 0) := by
    intro i
    have hi := i.2
    have hr := r.2
    simp_rw [add_mul, Finset.sum_add_distrib]
    have e1 : ∑ c : Fin n, (if (c.1 : ℤ) - r.1 = centred k i then (1 : K) else 0) * u c =
        val u ((r.1 : ℤ) + ((i.1 : ℤ) - k)) := by
      rw [val_eq_sum]
      refine Finset.sum_congr rfl fun c _ => ?_
      unfold centred
      have : ((c.1 : ℤ) - r.1 = (i.1 : ℤ) - k) ↔ ((c.1 : ℤ) = r.1 + ((i.1 : ℤ) - k)) := by omega
      simp only [this]; split <;> simp
    have e2 : ∑ c : Fin n, sl * (if -((r.1 : ℤ) + c.1 + 1) = centred k i then (1 : K) else 0) * u c =
        sl * val u (-1 - ((r.1 : ℤ) + ((i.1 : ℤ) - k))) := by
      rw [val_eq_sum, Finset.mul_sum]
      refine Finset.sum_congr rfl fun c _ => ?_
      unfold centred
      have : (-((r.1 : ℤ) + c.1 + 1) = (i.1 : ℤ) - k) ↔
          ((c.1 : ℤ) = -1 - (r.1 + ((i.1 : ℤ) - k))) := by omega
      simp only [this]; split <;> simp
    rw [e1, e2]
    unfold extend
    by_cases h1 : (r.1 : ℤ) + ((i.1 : ℤ) - k) < 0
    · rw [if_pos h1, val_neg u _ h1, if_neg (by omega)]; ring
    · rw [if_neg h1, val_neg u (-1 - _) (by omega)]
      by_cases h2 : (r.1 : ℤ) + ((i.1 : ℤ) - k) < n
      · rw [if_pos h2, if_neg (by omega)]; ring
      · rw [if_neg h2, if_pos (by omega), val_ge u _ (by omega)]; ring
  simp_rw [h1, mul_add, Finset.sum_add_distrib]
  congr 1
  simp_rw [Finset.mul_sum]
  rw [Finset.sum_comm]
  refine Finset.sum_congr rfl fun c _ => ?_
  rw [← sum_coef, ← sum_coef, Finset.mul_sum, ← Finset.sum_add_distrib, Finset.sum_mul]
  refine Finset.sum_congr rfl fun i _ => ?_
  split <;> split <;> ring

/-- Right reflection as a matrix. -/
theorem right_reflect {k n : ℕ} (hn : k ≤ n) (ds : Fin (2 * k + 1) → K) (sr : K)
    (u : Fin n → K) (r : Fin n) :
    ∑ i : Fin (2 * k + 1), ds i * (if (n : ℤ) ≤ (r.1 : ℤ) + ((i.1 : ℤ) - k) then
        reflect sr u ((r.1 : ℤ) + ((i.1 : ℤ) - k) - n).toNat else 0) =
      ∑ c : Fin n, sr * coef ds (2 * (n : ℤ) - 1 - r.1 - c.1) * u c := by
  have h1 : ∀ i : Fin (2 * k + 1), (if (n : ℤ) ≤ (r.1 : ℤ) + ((i.1 : ℤ) - k) then
        reflect sr u ((r.1 : ℤ) + ((i.1 : ℤ) - k) - n).toNat else 0) =
      ∑ c : Fin n, sr * (if 2 * (n : ℤ) - 1 - r.1 - c.1 = centred k i then 1 else 0) * u c := by
    intro i
    have hi := i.2
    have hr := r.2
    have e2 : ∑ c : Fin n, sr * (if 2 * (n : ℤ) - 1 - r.1 - c.1 = centred k i then (1 : K) else 0) *
        u c = sr * val u (2 * (n : ℤ) - 1 - r.1 - ((i.1 : ℤ) - k)) := by
      rw [val_eq_sum, Finset.mul_sum]
      refine Finset.sum_congr rfl fun c _ => ?_
      unfold centred
      have : (2 * (n : ℤ) - 1 - r.1 - c.1 = (i.1 : ℤ) - k) ↔
          ((c.1 : ℤ) = 2 * (n : ℤ) - 1 - r.1 - ((i.1 : ℤ) - k)) := by omega
      simp only [this]; split <;> simp
    rw [e2]
    split
    · rename_i h
      unfold reflect
      congr 2
      omega
    · rw [val_ge]; · simp
      omega
  simp_rw [h1, Finset.mul_sum]
  rw [Finset.sum_comm]
  refine Finset.sum_congr rfl fun c _ => ?_
  rw [← sum_coef, Finset.mul_sum, Finset.sum_mul]
  refine Finset.sum_congr rfl fun i _ => ?_
  split <;> ring

end FD
end Verif
