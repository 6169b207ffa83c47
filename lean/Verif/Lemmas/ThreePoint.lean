import Verif.Lemmas.GroundState
import Verif.Props.C14

/-!
# Three-point difference operators on a line and on the grid
-/

namespace Verif
namespace Three
open Spec

variable {n : ℕ}

/-- Value at the next point; `s` times the own value past the right end. -/
def next (s : ℝ) (u : Fin n → ℝ) (r : Fin n) : ℝ := if h : r.1 + 1 < n then u ⟨r.1 + 1, h⟩ else s * u r

/-- Value at the previous point; `s` times the own value past the left end. -/
def prev (s : ℝ) (u : Fin n → ℝ) (r : Fin n) : ℝ :=
  if 0 < r.1 then u ⟨r.1 - 1, by omega⟩ else s * u r

/-- Three-point operator with parity `s` at the left and `s'` at the right end. -/
def op (s s' : ℝ) (up dn : Fin n → ℝ) (u : Fin n → ℝ) (r : Fin n) : ℝ :=
  up r * next s' u r - (up r + dn r) * u r + dn r * prev s u r

/-- Its matrix. -/
def mat (s s' : ℝ) (up dn : Fin n → ℝ) (r c : Fin n) : ℝ := op s s' up dn (Pi.single c 1) r

variable {s s' : ℝ} {up dn : Fin n → ℝ}

theorem sum_single (u : Fin n → ℝ) (r : Fin n) : ∑ c, (Pi.single c 1 : Fin n → ℝ) r * u c = u r := by
  rw [Finset.sum_eq_single r]
  · simp
  · intro b _ hb; rw [Pi.single_eq_of_ne hb.symm, zero_mul]
  · intro h; exact absurd (Finset.mem_univ _) h

theorem sum_next (u : Fin n → ℝ) (r : Fin n) : ∑ c, next s' (Pi.single c 1) r * u c = next s' u r := by
  unfold next
  split
  · exact sum_single u _
  · rw [← sum_single u r, Finset.mul_sum]
    exact Finset.sum_congr rfl fun c _ => by ring

theorem sum_prev (u : Fin n → ℝ) (r : Fin n) : ∑ c, prev s (Pi.single c 1) r * u c = prev s u r := by
  unfold prev
  split
  · exact sum_single u _
  · rw [← sum_single u r, Finset.mul_sum]
    exact Finset.sum_congr rfl fun c _ => by ring

theorem sum_mat (u : Fin n → ℝ) (r : Fin n) : ∑ c, mat s s' up dn r c * u c = op s s' up dn u r := by
  unfold mat op
  rw [← sum_next, ← sum_prev, ← sum_single u r, Finset.mul_sum, Finset.mul_sum, Finset.mul_sum,
    ← Finset.sum_sub_distrib, ← Finset.sum_add_distrib]
  refine Finset.sum_congr rfl fun c _ => ?_
  ring

theorem mat_off {r c : Fin n} (h : r ≠ c) : mat s s' up dn r c =
    (if c.1 = r.1 + 1 then up r else 0) + if r.1 = c.1 + 1 then dn r else 0 := by
  have hr := r.2
  have hc := c.2
  have h0 : (Pi.single c 1 : Fin n → ℝ) r = 0 := Pi.single_eq_of_ne h 1
  have h1 : next s' (Pi.single c 1) r = if c.1 = r.1 + 1 then 1 else 0 := by
    unfold next
    split
    · next hlt =>
      rw [Pi.single_apply]
      simp only [Fin.ext_iff, eq_comm]
    · rw [h0, mul_zero, if_neg (by omega)]
  have h2 : prev s (Pi.single c 1) r = if r.1 = c.1 + 1 then 1 else 0 := by
    unfold prev
    split
    · next hlt =>
      rw [Pi.single_apply]
      simp only [Fin.ext_iff]
      exact if_congr (by omega) rfl rfl
    · rw [h0, mul_zero, if_neg (by omega)]
  unfold mat op
  rw [h1, h2, h0]
  split_ifs <;> ring

theorem mat_nonneg (hu : ∀ r : Fin n, r.1 + 1 < n → 0 < up r) (hd : ∀ r : Fin n, 0 < r.1 → 0 < dn r)
    {r c : Fin n} (h : r ≠ c) : 0 ≤ mat s s' up dn r c := by
  rw [mat_off h]
  have := c.2
  refine add_nonneg ?_ ?_
  · split
    · exact (hu r (by omega)).le
    · exact le_refl _
  · split
    · exact (hd r (by omega)).le
    · exact le_refl _

/-- Weight that makes the matrix symmetric. -/
noncomputable def weight (up dn : Fin n → ℝ) (i : ℕ) : ℝ :=
  ∏ t ∈ Finset.range i, if h : t + 1 < n then up ⟨t, by omega⟩ / dn ⟨t + 1, h⟩ else 1

theorem weight_pos (hu : ∀ r : Fin n, r.1 + 1 < n → 0 < up r) (hd : ∀ r : Fin n, 0 < r.1 → 0 < dn r) (i : ℕ) :
    0 < weight up dn i := by
  refine Finset.prod_pos fun t _ => ?_
  split
  · next h => exact div_pos (hu _ h) (hd _ (Nat.succ_pos t))
  · exact one_pos

theorem weight_succ (hd : ∀ r : Fin n, 0 < r.1 → 0 < dn r) {r c : Fin n} (h : c.1 = r.1 + 1) :
    weight up dn c.1 * dn c = weight up dn r.1 * up r := by
  have hc := c.2
  have h1 : weight up dn c.1 = weight up dn r.1 * (up r / dn c) := by
    rw [h, weight, Finset.prod_range_succ, dif_pos (by omega)]
    have : (⟨r.1 + 1, by omega⟩ : Fin n) = c := Fin.ext h.symm
    rw [this]; rfl
  rw [h1, mul_assoc, div_mul_cancel₀ _ (hd c (by omega)).ne']

theorem balanced (hd : ∀ r : Fin n, 0 < r.1 → 0 < dn r) (r c : Fin n) :
    weight up dn r.1 * mat s s' up dn r c = weight up dn c.1 * mat s s' up dn c r := by
  by_cases h : r = c
  · rw [h]
  · rw [mat_off h, mat_off (Ne.symm h)]
    by_cases h1 : c.1 = r.1 + 1
    · rw [if_pos h1, if_neg (by omega), if_neg (by omega), if_pos h1, add_zero, zero_add, weight_succ hd h1]
    · by_cases h2 : r.1 = c.1 + 1
      · rw [if_neg h1, if_pos h2, if_pos h2, if_neg h1, add_zero, zero_add, weight_succ hd h2]
      · simp only [if_neg h1, if_neg h2, add_zero, mul_zero]

theorem mat_next (hu : ∀ r : Fin n, r.1 + 1 < n → 0 < up r) {r c : Fin n} (h : c.1 = r.1 + 1) :
    0 < mat s s' up dn r c := by
  rw [mat_off (by rintro rfl; omega), if_pos h, if_neg (by omega), add_zero]
  have := c.2
  exact hu r (by omega)

theorem mat_prev (hd : ∀ r : Fin n, 0 < r.1 → 0 < dn r) {r c : Fin n} (h : r.1 = c.1 + 1) :
    0 < mat s s' up dn r c := by
  rw [mat_off (by rintro rfl; omega), if_pos h, if_neg (by omega), zero_add]
  exact hd r (by omega)

/-- All points of the line are connected. -/
theorem connected (hu : ∀ r : Fin n, r.1 + 1 < n → 0 < up r) (hd : ∀ r : Fin n, 0 < r.1 → 0 < dn r)
    (r c : Fin n) : Relation.ReflTransGen (fun a b => a ≠ b ∧ 0 < mat s s' up dn a b) r c := by
  have go : ∀ (t : ℕ) (r c : Fin n), c.1 = r.1 + t →
      Relation.ReflTransGen (fun a b => a ≠ b ∧ 0 < mat s s' up dn a b) r c ∧
      Relation.ReflTransGen (fun a b => a ≠ b ∧ 0 < mat s s' up dn a b) c r := by
    intro t
    induction t with
    | zero =>
      intro r c h
      obtain rfl : c = r := Fin.ext h
      exact ⟨.refl, .refl⟩
    | succ t ih =>
      intro r c h
      have hc := c.2
      obtain ⟨h1, h2⟩ := ih r ⟨r.1 + t, by omega⟩ rfl
      refine ⟨h1.tail ⟨?_, mat_next hu (by simp only; omega)⟩,
        Relation.ReflTransGen.head ⟨?_, mat_prev hd (by simp only; omega)⟩ h2⟩ <;>
      · intro hh
        have := congrArg Fin.val hh
        simp only at this
        omega
  rcases le_total r.1 c.1 with h | h
  · exact (go (c.1 - r.1) r c (by omega)).1
  · exact (go (r.1 - c.1) c r (by omega)).2

/-- Row sums: nothing is lost inside. -/
theorem op_one (r : Fin n) : op s s' up dn (fun _ => 1) r =
    -(if r.1 + 1 < n then 0 else (1 - s') * up r) - if 0 < r.1 then 0 else (1 - s) * dn r := by
  unfold op next prev
  split_ifs <;> ring

/-! ## Three-point stencils -/

theorem stencil3 (x y z : ℝ) (g : ℤ → ℝ) (i : ℤ) :
    stencil (k := 1) (![x, y, z] : Fin (2 * 1 + 1) → ℝ) g i = x * g (i - 1) + y * g i + z * g (i + 1) := by
  unfold stencil
  rw [Fin.sum_univ_three]
  have e0 : i + (((0 : Fin 3).1 : ℤ) - (1 : ℕ)) = i - 1 := by simp; ring
  have e1 : i + (((1 : Fin 3).1 : ℤ) - (1 : ℕ)) = i := by simp
  have e2 : i + (((2 : Fin 3).1 : ℤ) - (1 : ℕ)) = i + 1 := by simp
  change x * g (i + (((0 : Fin 3).1 : ℤ) - (1 : ℕ))) + y * g (i + (((1 : Fin 3).1 : ℤ) - (1 : ℕ))) +
    z * g (i + (((2 : Fin 3).1 : ℤ) - (1 : ℕ))) = _
  rw [e0, e1, e2]

theorem extend_prev (right : ℕ → ℝ) (u : Fin n → ℝ) (r : Fin n) : extend s right u ((r.1 : ℤ) - 1) = prev s u r := by
  have hr := r.2
  unfold extend prev
  by_cases h : 0 < r.1
  · rw [if_neg (by omega), if_pos (by omega), if_pos h]
    unfold val
    rw [dif_pos (by omega)]
    congr 1
    exact Fin.ext (by simp only; omega)
  · rw [if_pos (by omega), if_neg h]
    unfold val
    rw [dif_pos (by omega)]
    congr 2
    exact Fin.ext (by simp only; omega)

theorem extend_self (right : ℕ → ℝ) (u : Fin n → ℝ) (r : Fin n) : extend s right u (r.1 : ℤ) = u r := by
  have hr := r.2
  unfold extend
  rw [if_neg (by omega), if_pos (by omega)]
  unfold val
  rw [dif_pos (by omega)]
  congr 1

theorem extend_next (right : ℕ → ℝ) (u : Fin n → ℝ) (r : Fin n) (hright : r.1 + 1 = n → right 0 = s' * u r) :
    extend s right u ((r.1 : ℤ) + 1) = next s' u r := by
  have hr := r.2
  unfold extend next
  by_cases h : r.1 + 1 < n
  · rw [if_neg (by omega), if_pos (by omega), dif_pos h]
    unfold val
    rw [dif_pos (by omega)]
    congr 1
  · rw [if_neg (by omega), if_neg (by omega), dif_neg h, ← hright (by omega)]
    congr 1
    omega

/-- `b` times the second plus `c` times the first difference quotient is a three-point operator. -/
theorem op_eq (right : ℕ → ℝ) (u : Fin n → ℝ) (r : Fin n) (hright : r.1 + 1 = n → right 0 = s' * u r)
    (b c h : Fin n → ℝ) :
    b r * (stencil (k := 1) (![1, -2, 1] : Fin (2 * 1 + 1) → ℝ) (extend s right u) r.1 / h r ^ 2) +
      c r * (stencil (k := 1) (![-1/2, 0, 1/2] : Fin (2 * 1 + 1) → ℝ) (extend s right u) r.1 / h r ^ 1) =
    op s s' (fun r => b r / h r ^ 2 + c r / (2 * h r)) (fun r => b r / h r ^ 2 - c r / (2 * h r)) u r := by
  rw [stencil3, stencil3, extend_prev, extend_self, extend_next right u r hright]
  unfold op
  ring

/-! ## Two directions -/

open Init

variable {Na Nr : ℕ}

/-- Sum of an operator along each direction, with weights of the other direction. -/
def both (a : ℝ) (p : Fin Nr → ℝ) (q : Fin Na → ℝ) (A : Fin Na → Fin Na → ℝ) (B : Fin Nr → Fin Nr → ℝ)
    (k l : Fin (Na * Nr)) : ℝ :=
  a * (p (ir k) * (if ir k = ir l then A (ia k) (ia l) else 0) +
    q (ia k) * if ia k = ia l then B (ir k) (ir l) else 0)

theorem ix_ext {k l : Fin (Na * Nr)} (h1 : ia k = ia l) (h2 : ir k = ir l) : k = l := by
  rw [← at2_ia_ir k, ← at2_ia_ir l, h1, h2]

section
variable {a : ℝ} {p : Fin Nr → ℝ} {q : Fin Na → ℝ} {A : Fin Na → Fin Na → ℝ} {B : Fin Nr → Fin Nr → ℝ}

theorem both_nonneg (ha : 0 < a) (hp : ∀ j, 0 < p j) (hq : ∀ i, 0 < q i) (hA : ∀ i i', i ≠ i' → 0 ≤ A i i')
    (hB : ∀ j j', j ≠ j' → 0 ≤ B j j') {k l : Fin (Na * Nr)} (h : k ≠ l) : 0 ≤ both a p q A B k l := by
  unfold both
  refine mul_nonneg ha.le (add_nonneg (mul_nonneg (hp _).le ?_) (mul_nonneg (hq _).le ?_))
  · split
    · next h1 => exact hA _ _ fun h2 => h (ix_ext h2 h1)
    · exact le_refl _
  · split
    · next h1 => exact hB _ _ fun h2 => h (ix_ext h1 h2)
    · exact le_refl _

theorem both_balanced {dA : Fin Na → ℝ} {dB : Fin Nr → ℝ} (hA : ∀ i i', dA i * A i i' = dA i' * A i' i)
    (hB : ∀ j j', dB j * B j j' = dB j' * B j' j) (k l : Fin (Na * Nr)) :
    dA (ia k) * dB (ir k) * both a p q A B k l = dA (ia l) * dB (ir l) * both a p q A B l k := by
  unfold both
  by_cases h1 : ir k = ir l
  · by_cases h2 : ia k = ia l
    · rw [ix_ext h2 h1]
    · rw [if_pos h1, if_pos h1.symm, if_neg h2, if_neg (Ne.symm h2), h1]
      linear_combination dB (ir l) * a * p (ir l) * hA (ia k) (ia l)
  · by_cases h2 : ia k = ia l
    · rw [if_neg h1, if_neg (Ne.symm h1), if_pos h2, if_pos h2.symm, h2]
      linear_combination dA (ia l) * a * q (ia l) * hB (ir k) (ir l)
    · rw [if_neg h1, if_neg (Ne.symm h1), if_neg h2, if_neg (Ne.symm h2)]; ring

theorem both_connected (ha : 0 < a) (hp : ∀ j, 0 < p j) (hq : ∀ i, 0 < q i)
    (hA : ∀ i i', Relation.ReflTransGen (fun x y => x ≠ y ∧ 0 < A x y) i i')
    (hB : ∀ j j', Relation.ReflTransGen (fun x y => x ≠ y ∧ 0 < B x y) j j') (k l : Fin (Na * Nr)) :
    Relation.ReflTransGen (fun x y => x ≠ y ∧ 0 < both a p q A B x y) k l := by
  have h1 : Relation.ReflTransGen (fun x y => x ≠ y ∧ 0 < both a p q A B x y) (at2 (ia k) (ir k)) (at2 (ia l) (ir k)) := by
    refine Relation.ReflTransGen.lift (fun i => at2 i (ir k)) ?_ (ia k) (ia l) (hA (ia k) (ia l))
    rintro x y ⟨hxy, hpos⟩
    refine ⟨fun h => hxy ?_, ?_⟩
    · have := congrArg ia h; rwa [ia_at2, ia_at2] at this
    · unfold both
      simp only [ia_at2, ir_at2, if_true, if_neg hxy, mul_zero, add_zero]
      exact mul_pos ha (mul_pos (hp _) hpos)
  have h2 : Relation.ReflTransGen (fun x y => x ≠ y ∧ 0 < both a p q A B x y) (at2 (ia l) (ir k)) (at2 (ia l) (ir l)) := by
    refine Relation.ReflTransGen.lift (fun j => at2 (ia l) j) ?_ (ir k) (ir l) (hB (ir k) (ir l))
    rintro x y ⟨hxy, hpos⟩
    refine ⟨fun h => hxy ?_, ?_⟩
    · have := congrArg ir h; rwa [ir_at2, ir_at2] at this
    · unfold both
      simp only [ia_at2, ir_at2, if_true, if_neg hxy, mul_zero, zero_add]
      exact mul_pos ha (mul_pos (hq _) hpos)
  rw [at2_ia_ir] at h1 h2
  exact h1.trans h2

end

/-- The entries of an operator that acts along lines by three-point operators. -/
theorem both_of_lines {a : ℝ} {p : Fin Nr → ℝ} {q : Fin Na → ℝ} {s s₁ s₂ : ℝ} {u d : Fin Na → ℝ} {u' d' : Fin Nr → ℝ}
    {M : Matrix (Fin (Na * Nr)) (Fin (Na * Nr)) ℝ}
    (h : ∀ f i j, M.mulVec f (at2 i j) = a * (p j * op s s₁ u d (lineA f j) i + q i * op s s₂ u' d' (lineR f i) j))
    (k l : Fin (Na * Nr)) : M k l = both a p q (mat s s₁ u d) (mat s s₂ u' d') k l := by
  have h0 : M k l = M.mulVec (Pi.single l 1) (at2 (ia k) (ir k)) := by
    rw [at2_ia_ir, Matrix.mulVec_single_one]; rfl
  have zA : op s s₁ u d (fun _ => 0) (ia k) = 0 := by unfold op next prev; split_ifs <;> simp
  have zB : op s s₂ u' d' (fun _ => 0) (ir k) = 0 := by unfold op next prev; split_ifs <;> simp
  have hA : op s s₁ u d (lineA (Pi.single l 1) (ir k)) (ia k) =
      if ir k = ir l then mat s s₁ u d (ia k) (ia l) else 0 := by
    split
    · next hr =>
      unfold mat
      congr 1
      funext i
      unfold lineA
      rw [Pi.single_apply, Pi.single_apply]
      refine if_congr ⟨fun h => ?_, fun h => ?_⟩ rfl rfl
      · rw [← h, ia_at2]
      · rw [h, hr, at2_ia_ir]
    · next hr =>
      rw [← zA]
      congr 1
      funext i
      unfold lineA
      rw [Pi.single_apply, if_neg]
      intro h
      exact hr (by rw [← h, ir_at2])
  have hB : op s s₂ u' d' (lineR (Pi.single l 1) (ia k)) (ir k) =
      if ia k = ia l then mat s s₂ u' d' (ir k) (ir l) else 0 := by
    split
    · next hr =>
      unfold mat
      congr 1
      funext j
      unfold lineR
      rw [Pi.single_apply, Pi.single_apply]
      refine if_congr ⟨fun h => ?_, fun h => ?_⟩ rfl rfl
      · rw [← h, ir_at2]
      · rw [h, hr, at2_ia_ir]
    · next hr =>
      rw [← zB]
      congr 1
      funext j
      unfold lineR
      rw [Pi.single_apply, if_neg]
      intro h
      exact hr (by rw [← h, ia_at2])
  rw [h0, h, hA, hB]
  rfl

end Three
end Verif
