import Verif.Lemmas.Coordinates
import Verif.Spec.Grid

/-!
# C03 coordinates, C04 positivity and mirror symmetry, C05 Coulomb potential
-/

namespace Verif
open Init Spec

/-- C03: one-dimensional coordinates: half-step formula, strict order, inside the box, reflection. -/
theorem C03_coordinates (NP NMa NMr : ℕ) (L : ℝ) (hL : 0 < L) :
    let Na := (NP - 1) * NMa + 1
    let Nr := (NP - 1) * NMr + 1
    (∀ i : Fin Na, xa Na i = ((i.1 : ℝ) + 1 / 2) * (Real.pi / Na) ∧
        0 < xa Na i ∧ xa Na i < Real.pi ∧ xa Na i.rev = Real.pi - xa Na i) ∧
    (∀ i : Fin Nr, xr Nr L i = ((i.1 : ℝ) + 1 / 2) * (L / Nr) ∧ 0 < xr Nr L i ∧ xr Nr L i < L) ∧
    StrictMono (xa Na) ∧ StrictMono (xr Nr L) := by
  intro Na Nr
  refine ⟨fun i => ⟨by rw [xa_eq, mul_div_assoc], xa_pos i, xa_lt_pi i, xa_rev i⟩,
    fun i => ⟨by rw [xr_eq, mul_div_assoc], xr_pos hL i, xr_lt_L hL i⟩, ?_, ?_⟩
  · intro i j hij
    have hN : (0 : ℝ) < Na := by exact_mod_cast (by omega : 0 < Na)
    have h : (i.1 : ℝ) < j.1 := by exact_mod_cast hij
    rw [xa_eq, xa_eq]
    apply div_lt_div_of_pos_right _ hN
    apply mul_lt_mul_of_pos_right _ Real.pi_pos
    linarith
  · intro i j hij
    have hN : (0 : ℝ) < Nr := by exact_mod_cast (by omega : 0 < Nr)
    have h : (i.1 : ℝ) < j.1 := by exact_mod_cast hij
    rw [xr_eq, xr_eq]
    apply div_lt_div_of_pos_right _ hN
    apply mul_lt_mul_of_pos_right _ hL
    linarith

/-- C03: the flat arrays hold `xa[ia]`, `xr[ir]` at position `ia + Na*ir`. -/
theorem C03_flat {Na Nr : ℕ} (L : ℝ) (i : Fin Na) (j : Fin Nr)
    (k : Fin (Na * Nr)) (hk : k.1 = pos Na Nr i.1 j.1 0) :
    Xa Na Nr k = xa Na i ∧ Xr Na Nr L k = xr Nr L j := by
  have hNa : 0 < Na := by have := i.2; omega
  simp only [pos, Nat.mul_zero, Nat.add_zero] at hk
  constructor
  · unfold Xa
    congr 1
    apply Fin.ext
    simp only [ia, hk, Nat.add_mul_mod_self_left]
    exact Nat.mod_eq_of_lt i.2
  · unfold Xr
    congr 1
    apply Fin.ext
    simp only [ir, hk]
    rw [Nat.add_mul_div_left _ _ hNa, Nat.div_eq_of_lt i.2, Nat.zero_add]

/-- C03: the boundary coordinates continue `xr` with the same step beyond `L`. -/
theorem C03_boundary {Nr : ℕ} (L : ℝ) (hL : 0 < L) (h : 0 < Nr) (n : ℕ) (i : Fin n) :
    bxr Nr L h n i = (((Nr + i.1 : ℕ) : ℝ) + 1 / 2) * (L / Nr) ∧ L < bxr Nr L h n i := by
  have hN : (0 : ℝ) < Nr := by exact_mod_cast h
  have key : bxr Nr L h n i = (((Nr + i.1 : ℕ) : ℝ) + 1 / 2) * (L / Nr) := by
    unfold bxr
    have h1 : linspace 1 n n i.1 = i.1 + 1 := by
      unfold linspace
      have hi := i.2
      by_cases hn : n = 1
      · have : i.1 = 0 := by omega
        simp [this]
      · have : (n : ℝ) - 1 ≠ 0 := by
          rw [sub_ne_zero]; exact_mod_cast hn
        rw [div_self this]; ring
    rw [h1, hr_eq, xr_eq]
    simp only [Nat.cast_sub (show 1 ≤ Nr from h)]
    push_cast
    ring
  refine ⟨key, ?_⟩
  rw [key]
  push_cast
  have h2 : (Nr : ℝ) * (L / Nr) = L := by field_simp
  have h3 : 0 < L / Nr := by positivity
  have h4 : (0 : ℝ) ≤ i.1 := Nat.cast_nonneg _
  nlinarith

/-- On the grid `NP = 7`, `NM = 4`, the first angular point is `pi/50`. -/
example : xa 25 ⟨0, by norm_num⟩ = Real.pi / 50 := by
  rw [xa_eq]; norm_num; ring

/-- C04: positivity at every grid point. -/
theorem C04_positive {Na Nr : ℕ} (a L : ℝ) (ha : 0 < a) (hL : 0 < L) (k : Fin (Na * Nr)) :
    0 < w Na Nr a L k ∧ 0 < Init.f Na Nr a L k ∧ 0 < h1 Na Nr a L k ∧ 0 < h3 Na Nr a L k ∧
      0 < Y Na Nr a L k := by
  have h1' := sin_pos k
  have h2' := sinh_pos hL k
  rw [w_eq, f_eq, h1_eq, h3_eq, Y_eq]
  refine ⟨by positivity, by positivity, ?_, by positivity, by positivity⟩
  have : 0 < Real.sqrt (Real.sinh (Xr Na Nr L k) ^ 2 + Real.sin (Xa Na Nr k) ^ 2) :=
    Real.sqrt_pos.mpr (by positivity)
  positivity

/-- C04: the denominators met while computing these fields and the gradient operators never vanish. -/
theorem C04_denominators {Na Nr : ℕ} (a L : ℝ) (ha : 0 < a) (hL : 0 < L) (k : Fin (Na * Nr)) :
    Real.cosh (Xr Na Nr L k) ^ 2 - Real.cos (Xa Na Nr k) ^ 2 ≠ 0 ∧
    Real.cosh (Xr Na Nr L k) ^ 2 - 1 ≠ 0 ∧ 1 - Real.cos (Xa Na Nr k) ^ 2 ≠ 0 ∧
    h1 Na Nr a L k ≠ 0 ∧ h1 Na Nr a L k * h1 Na Nr a L k * h3 Na Nr a L k ≠ 0 := by
  have h1' := sin_pos k
  have h2' := sinh_pos hL k
  obtain ⟨-, -, p1, p3, -⟩ := C04_positive a L ha hL k
  rw [cos_sq, cosh_sq]
  refine ⟨?_, ?_, ?_, p1.ne', by positivity⟩
  · have : 0 < Real.sinh (Xr Na Nr L k) ^ 2 + Real.sin (Xa Na Nr k) ^ 2 := by positivity
    intro h; linarith
  · have : 0 < Real.sinh (Xr Na Nr L k) ^ 2 := by positivity
    intro h; linarith
  · have : 0 < Real.sin (Xa Na Nr k) ^ 2 := by positivity
    intro h; linarith

/-- C04: behaviour under the reflection `(ia, ir) -> (Na-1-ia, ir)`. -/
theorem C04_mirror {Na Nr : ℕ} (a L : ℝ) (i : Fin Na) (j : Fin Nr) (k k' : Fin (Na * Nr))
    (hk : k.1 = pos Na Nr i.1 j.1 0) (hk' : k'.1 = pos Na Nr (Na - 1 - i.1) j.1 0) :
    w Na Nr a L k' = w Na Nr a L k ∧ Init.f Na Nr a L k' = Init.f Na Nr a L k ∧
    h1 Na Nr a L k' = h1 Na Nr a L k ∧ h3 Na Nr a L k' = h3 Na Nr a L k ∧
    Y Na Nr a L k' = Y Na Nr a L k ∧ Z Na Nr a L k' = - Z Na Nr a L k := by
  have e : k' = mirK k := by
    apply Fin.ext
    simp only [mirK, hk, hk', pos, Nat.mul_zero, Nat.add_zero]
    rw [Arr.flip0Pos_idx i.2]
  subst e
  rw [w_eq, w_eq, f_eq, f_eq, h1_eq, h1_eq, h3_eq, h3_eq, Y_eq, Y_eq, Z_eq, Z_eq]
  simp only [Xr_mirK, sin_mirK, cos_mirK, mul_neg, and_self]

/-- Distance of the point `(y, z)` of the half plane to the nucleus at height `z0` on the axis. -/
noncomputable def Spec.dist (y z z0 : ℝ) : ℝ := Real.sqrt (y ^ 2 + (z - z0) ^ 2)

theorem distA {Na Nr : ℕ} (a L : ℝ) (ha : 0 < a) (k : Fin (Na * Nr)) :
    Spec.dist (Y Na Nr a L k) (Z Na Nr a L k) (-a) =
      a * (Real.cosh (Xr Na Nr L k) + Real.cos (Xa Na Nr k)) := by
  unfold Spec.dist
  rw [Y_eq, Z_eq]
  have h1 := Real.one_le_cosh (Xr Na Nr L k)
  have h2 := Real.neg_one_le_cos (Xa Na Nr k)
  have : (a * Real.sinh (Xr Na Nr L k) * Real.sin (Xa Na Nr k)) ^ 2 +
      (a * Real.cosh (Xr Na Nr L k) * Real.cos (Xa Na Nr k) - -a) ^ 2 =
      (a * (Real.cosh (Xr Na Nr L k) + Real.cos (Xa Na Nr k))) ^ 2 := by
    have e1 := cosh_sq L k
    have e2 := cos_sq k
    linear_combination (a ^ 2 * (-Real.sin (Xa Na Nr k) ^ 2)) * e1 +
      (a ^ 2 * (Real.cosh (Xr Na Nr L k) ^ 2 - 1)) * e2
  rw [this, Real.sqrt_sq]
  apply mul_nonneg ha.le; linarith

theorem distB {Na Nr : ℕ} (a L : ℝ) (ha : 0 < a) (k : Fin (Na * Nr)) :
    Spec.dist (Y Na Nr a L k) (Z Na Nr a L k) a =
      a * (Real.cosh (Xr Na Nr L k) - Real.cos (Xa Na Nr k)) := by
  unfold Spec.dist
  rw [Y_eq, Z_eq]
  have h1 := Real.one_le_cosh (Xr Na Nr L k)
  have h2 := Real.cos_le_one (Xa Na Nr k)
  have : (a * Real.sinh (Xr Na Nr L k) * Real.sin (Xa Na Nr k)) ^ 2 +
      (a * Real.cosh (Xr Na Nr L k) * Real.cos (Xa Na Nr k) - a) ^ 2 =
      (a * (Real.cosh (Xr Na Nr L k) - Real.cos (Xa Na Nr k))) ^ 2 := by
    have e1 := cosh_sq L k
    have e2 := cos_sq k
    linear_combination (a ^ 2 * (-Real.sin (Xa Na Nr k) ^ 2)) * e1 +
      (a ^ 2 * (Real.cosh (Xr Na Nr L k) ^ 2 - 1)) * e2
  rw [this, Real.sqrt_sq]
  apply mul_nonneg ha.le; linarith

theorem one_lt_cosh_grid {Na Nr : ℕ} {L : ℝ} (hL : 0 < L) (k : Fin (Na * Nr)) :
    1 < Real.cosh (Xr Na Nr L k) := Real.one_lt_cosh.mpr (xr_pos hL _).ne'

/-- C05: `coulomb` is `-Za/rA - Zb/rB` with the Euclidean distances to the nuclei at `(0,-a)` and
`(0,a)`, which are positive at every grid point. -/
theorem C05_coulomb {Na Nr : ℕ} (a L Za Zb : ℝ) (ha : 0 < a) (hL : 0 < L) (k : Fin (Na * Nr)) :
    let rA := Spec.dist (Y Na Nr a L k) (Z Na Nr a L k) (-a)
    let rB := Spec.dist (Y Na Nr a L k) (Z Na Nr a L k) a
    0 < rA ∧ 0 < rB ∧ coulomb Na Nr a L Za Zb k = -Za / rA - Zb / rB := by
  intro rA rB
  have h0 := one_lt_cosh_grid hL k
  have h1 := Real.neg_one_le_cos (Xa Na Nr k)
  have h2 := Real.cos_le_one (Xa Na Nr k)
  have hA : 0 < Real.cosh (Xr Na Nr L k) + Real.cos (Xa Na Nr k) := by linarith
  have hB : 0 < Real.cosh (Xr Na Nr L k) - Real.cos (Xa Na Nr k) := by linarith
  simp only [rA, rB, distA a L ha, distB a L ha]
  refine ⟨by positivity, by positivity, ?_⟩
  unfold coulomb
  rw [show Real.cosh (Xr Na Nr L k) ^ 2 - Real.cos (Xa Na Nr k) ^ 2 =
    (Real.cosh (Xr Na Nr L k) + Real.cos (Xa Na Nr k)) *
    (Real.cosh (Xr Na Nr L k) - Real.cos (Xa Na Nr k)) by ring]
  field_simp
  ring

/-- C05: linear in the charges; negative for non-negative charges that are not both zero; mirror
exchanges the charges. -/
theorem C05_coulomb_laws {Na Nr : ℕ} (a L : ℝ) (ha : 0 < a) (hL : 0 < L) :
    (∀ c Za Zb Za' Zb' (k : Fin (Na * Nr)), coulomb Na Nr a L (c * Za + Za') (c * Zb + Zb') k =
      c * coulomb Na Nr a L Za Zb k + coulomb Na Nr a L Za' Zb' k) ∧
    (∀ Za Zb (k : Fin (Na * Nr)), 0 ≤ Za → 0 ≤ Zb → 0 < Za + Zb → coulomb Na Nr a L Za Zb k < 0) ∧
    (∀ Za Zb (i : Fin Na) (j : Fin Nr) (k k' : Fin (Na * Nr)), k.1 = pos Na Nr i.1 j.1 0 →
      k'.1 = pos Na Nr (Na - 1 - i.1) j.1 0 →
      coulomb Na Nr a L Za Zb k' = coulomb Na Nr a L Zb Za k) := by
  refine ⟨?_, ?_, ?_⟩
  · intro c Za Zb Za' Zb' k
    unfold coulomb; ring
  · intro Za Zb k h1 h2 h3
    obtain ⟨hA, hB, e⟩ := C05_coulomb a L Za Zb ha hL k
    rw [e]
    have e1 := div_nonneg h1 hA.le
    have e2 := div_nonneg h2 hB.le
    rw [neg_div]
    rcases h1.lt_or_eq with h4 | h4
    · have := div_pos h4 hA; linarith
    · have h5 : 0 < Zb := by linarith
      have := div_pos h5 hB; linarith
  · intro Za Zb i j k k' hk hk'
    have e : k' = mirK k := by
      apply Fin.ext
      simp only [mirK, hk, hk', pos, Nat.mul_zero, Nat.add_zero]
      rw [Arr.flip0Pos_idx i.2]
    subst e
    unfold coulomb
    rw [Xr_mirK, cos_mirK]
    ring

/-- A concrete grid (`Na = Nr = 3`, `a = 1`, `L = 2`) meets the hypotheses. -/
example : coulomb 3 3 1 2 1 0 ⟨4, by norm_num⟩ < 0 :=
  (C05_coulomb_laws 1 2 one_pos two_pos).2.1 1 0 _ zero_le_one le_rfl (by norm_num)

end Verif
