import Verif.Spec.Stencil
import Mathlib.Algebra.BigOperators.Ring.Finset
import Mathlib.Algebra.BigOperators.Fin
import Mathlib.Tactic.Ring
import Mathlib.Tactic.LinearCombination

/-! # Summation by parts for the reflected stencils -/

namespace Verif.Spec
variable {K : Type*} [Field K]

/-- Weight of entry `j` in the continuation at position `z`; `r` is the sign at the right end (0: nothing beyond). -/
def entry {n : ℕ} (s r : K) (z : ℤ) (j : Fin n) : K :=
  (if z = j.1 then 1 else 0) + s * (if z = -1 - (j.1 : ℤ) then 1 else 0) +
    r * (if z = 2 * (n : ℤ) - 1 - j.1 then 1 else 0)

theorem sum_at {n : ℕ} (u : Fin n → K) (z : ℤ) (g : Fin n → ℤ) (y : ℤ)
    (h : ∀ j, z = g j ↔ y = j.1) : ∑ j, u j * (if z = g j then (1 : K) else 0) = val u y := by
  have : ∀ j, u j * (if z = g j then (1 : K) else 0) = if y = j.1 then u j else 0 := fun j => by
    by_cases hj : y = j.1
    · rw [if_pos ((h j).2 hj), if_pos hj, mul_one]
    · rw [if_neg fun c => hj ((h j).1 c), if_neg hj, mul_zero]
  simp only [this]
  unfold val
  by_cases hy : 0 ≤ y ∧ y < n
  · rw [dif_pos hy, Finset.sum_eq_single ⟨y.toNat, by omega⟩]
    · rw [if_pos (by simp only; omega)]
    · intro b _ hb
      rw [if_neg]
      intro c
      exact hb (Fin.ext (by simp only; omega))
    · intro c; exact absurd (Finset.mem_univ _) c
  · rw [dif_neg hy]
    refine Finset.sum_eq_zero fun j _ => if_neg ?_
    have := j.2
    omega

theorem val_out {n : ℕ} (u : Fin n → K) (y : ℤ) (h : ¬ (0 ≤ y ∧ y < n)) : val u y = 0 := dif_neg h

theorem sum_entry {n : ℕ} (s r : K) (u : Fin n → K) (z : ℤ) :
    ∑ j, u j * entry s r z j = extend s (reflect r u) u z := by
  have e : ∑ j, u j * entry s r z j = val u z + s * val u (-1 - z) + r * val u (2 * n - 1 - z) := by
    rw [← sum_at u z (fun j => (j.1 : ℤ)) z (fun j => Iff.rfl),
      ← sum_at u z (fun j => -1 - (j.1 : ℤ)) (-1 - z) (fun j => by omega),
      ← sum_at u z (fun j => 2 * (n : ℤ) - 1 - j.1) (2 * n - 1 - z) (fun j => by omega),
      Finset.mul_sum, Finset.mul_sum, ← Finset.sum_add_distrib, ← Finset.sum_add_distrib]
    refine Finset.sum_congr rfl fun j _ => ?_
    unfold entry; ring
  rw [e]
  unfold extend reflect
  by_cases h1 : z < 0
  · rw [if_pos h1, val_out u z (by omega), val_out u (2 * n - 1 - z) (by omega)]; ring
  · rw [if_neg h1, val_out u (-1 - z) (by omega)]
    by_cases h2 : z < n
    · rw [if_pos h2, val_out u (2 * n - 1 - z) (by omega)]; ring
    · rw [if_neg h2, val_out u z (by omega)]
      have : (n : ℤ) - 1 - ((z - n).toNat : ℕ) = 2 * n - 1 - z := by omega
      rw [this]; ring

/-- Summation by parts: with antisymmetric coefficients the stencil on the even continuation is minus the
transpose of the stencil on the odd continuation. -/
theorem parts {n k : ℕ} (ds : Fin (2 * k + 1) → K) (hds : ∀ q, ds q.rev = -1 * ds q) (r : K) (u v : Fin n → K) :
    ∑ i, u i * stencil ds (extend (-1) (reflect (-r) v) v) i.1 =
      -∑ i, v i * stencil ds (extend 1 (reflect r u) u) i.1 := by
  unfold stencil
  simp only [← sum_entry, Finset.mul_sum]
  have hL : ∑ i : Fin n, ∑ q, ∑ j : Fin n, u i * (ds q * (v j * entry (-1) (-r) ((i.1 : ℤ) + ((q.1 : ℤ) - k)) j)) =
      ∑ i : Fin n, ∑ j : Fin n, u i * v j * ∑ q, ds q * entry (-1) (-r) ((i.1 : ℤ) + ((q.1 : ℤ) - k)) j := by
    refine Finset.sum_congr rfl fun i _ => ?_
    rw [Finset.sum_comm]
    refine Finset.sum_congr rfl fun j _ => ?_
    rw [Finset.mul_sum]
    exact Finset.sum_congr rfl fun q _ => by ring
  have hR : ∑ i : Fin n, ∑ q, ∑ j : Fin n, v i * (ds q * (u j * entry 1 r ((i.1 : ℤ) + ((q.1 : ℤ) - k)) j)) =
      ∑ i : Fin n, ∑ j : Fin n, u i * v j * ∑ q, ds q * entry 1 r ((j.1 : ℤ) + ((q.1 : ℤ) - k)) i := by
    rw [Finset.sum_comm (γ := Fin n)]
    rw [Finset.sum_comm]
    have : ∀ x : Fin n, ∑ q, ∑ j : Fin n, v x * (ds q * (u j * entry 1 r ((x.1 : ℤ) + ((q.1 : ℤ) - k)) j)) =
        ∑ j : Fin n, u j * v x * ∑ q, ds q * entry 1 r ((x.1 : ℤ) + ((q.1 : ℤ) - k)) j := fun x => by
      rw [Finset.sum_comm]
      refine Finset.sum_congr rfl fun j _ => ?_
      rw [Finset.mul_sum]
      exact Finset.sum_congr rfl fun q _ => by ring
    simp only [this]
    rw [Finset.sum_comm]
  rw [hL, hR, ← Finset.sum_neg_distrib]
  refine Finset.sum_congr rfl fun i _ => ?_
  rw [← Finset.sum_neg_distrib]
  refine Finset.sum_congr rfl fun j _ => ?_
  rw [← mul_neg]
  congr 1
  unfold entry
  simp only [mul_add, Finset.sum_add_distrib, neg_add]
  refine congrArg₂ (· + ·) (congrArg₂ (· + ·) ?_ ?_) ?_
  · rw [← Equiv.sum_comp Fin.revPerm, ← Finset.sum_neg_distrib]
    refine Finset.sum_congr rfl fun q _ => ?_
    have hq := q.2
    have : ((i.1 : ℤ) + ((q.rev.1 : ℤ) - k) = j.1) ↔ ((j.1 : ℤ) + ((q.1 : ℤ) - k) = i.1) := by
      rw [Fin.val_rev]; omega
    simp only [Fin.revPerm_apply, this, hds]; ring
  · rw [← Finset.sum_neg_distrib]
    refine Finset.sum_congr rfl fun q _ => ?_
    have : ((i.1 : ℤ) + ((q.1 : ℤ) - k) = -1 - j.1) ↔ ((j.1 : ℤ) + ((q.1 : ℤ) - k) = -1 - i.1) := by omega
    simp only [this]; ring
  · rw [← Finset.sum_neg_distrib]
    refine Finset.sum_congr rfl fun q _ => ?_
    have : ((i.1 : ℤ) + ((q.1 : ℤ) - k) = 2 * n - 1 - j.1) ↔ ((j.1 : ℤ) + ((q.1 : ℤ) - k) = 2 * n - 1 - i.1) := by omega
    simp only [this]; ring

end Verif.Spec
