import Verif.Model.Plot
import Verif.Lemmas.Coordinates
import Mathlib.Analysis.SpecialFunctions.Trigonometric.Basic
import Mathlib.Analysis.SpecialFunctions.Trigonometric.Deriv
import Mathlib.Data.List.Count
import Mathlib.Tactic.Linarith

/-!
# C71: `axis_plot`
-/

namespace Verif
open Plot Init

section
variable {Na Nr : ℕ}

theorem axLoop_step {N : ℕ} {K : Type*} [Neg K] [DecidableEq K] (Z : Fin N → K) (i : ℕ) (q : Ax N K)
    (h : i + 1 < N) : axLoop Z i q = axLoop Z (i + 1) (axStep Z q i h) := by
  rw [axLoop, dif_pos h]

theorem axLoop_end {N : ℕ} {K : Type*} [Neg K] [DecidableEq K] (Z : Fin N → K) (i : ℕ) (q : Ax N K)
    (h : ¬ i + 1 < N) : axLoop Z i q = q := by
  rw [axLoop, dif_neg h]

/-- What `axis_plot` needs of `Z`: in every column the only point opposite to the first is the last. -/
def Spec.Opposite (Z : Fin (Na * Nr) → ℝ) : Prop :=
  ∀ (j : Fin Nr) (i i0 : Fin Na), i0.1 = 0 → (Z (pos i j) = - Z (pos i0 j) ↔ i.1 + 1 = Na)

theorem lt_mul (hN : 0 < Na) {t j : ℕ} (ht : t < Na) (hj : j < Nr) : t + Na * j < Na * Nr :=
  (pos (⟨t, ht⟩ : Fin Na) (⟨j, hj⟩ : Fin Nr)).2

/-- Inside a later column nothing is collected. -/
theorem axLoop_inside (Z : Fin (Na * Nr) → ℝ) (hZ : Spec.Opposite Z) (hN : 2 ≤ Na) (j : ℕ) (hj : j < Nr)
    (l : List (Fin (Na * Nr))) (t : ℕ) (ht : t + 1 ≤ Na) :
    let q : Ax (Na * Nr) ℝ := ⟨l, Z ⟨0 + Na * j, lt_mul (by omega) (by omega) hj⟩, false⟩
    axLoop Z (0 + Na * j) q = axLoop Z (t + Na * j) q := by
  intro q
  induction t with
  | zero => rfl
  | succ t ih =>
    rw [ih (by omega)]
    have h : t + Na * j + 1 < Na * Nr := by
      have := lt_mul (Na := Na) (by omega) (show t + 1 < Na by omega) hj
      omega
    rw [axLoop_step Z _ _ h]
    have e : t + Na * j + 1 = t + 1 + Na * j := by omega
    have hs : axStep Z q (t + Na * j) h = q := by
      have hne : ¬ Z ⟨t + Na * j, by omega⟩ = - Z ⟨0 + Na * j, lt_mul (by omega) (by omega) hj⟩ := fun he => by
        have := (hZ ⟨j, hj⟩ ⟨t, by omega⟩ ⟨0, by omega⟩ rfl).1 he
        simp only at this; omega
      simp only [axStep, q, Bool.false_eq_true, if_false]
      rw [if_neg hne]
    rw [hs, e]

/-- From the start of column `j + 1 ≥ 1` to the end: for each column but the last its last point and the
first point of the next one. -/
theorem axLoop_columns (Z : Fin (Na * Nr) → ℝ) (hZ : Spec.Opposite Z) (hN : 2 ≤ Na) (m : ℕ) :
    ∀ (j : ℕ) (hj : j < Nr), j + m + 1 = Nr → ∀ l : List (Fin (Na * Nr)),
    ∃ l', (axLoop Z (0 + Na * j) ⟨l, Z ⟨0 + Na * j, lt_mul (by omega) (by omega) hj⟩, false⟩).pts = l ++ l' ∧
      ∀ k : Fin (Na * Nr), l'.count k = if (j ≤ (ir k).1 ∧ (ir k).1 + 1 < Nr ∧ (ia k).1 + 1 = Na) ∨
        (j < (ir k).1 ∧ (ia k).1 = 0) then 1 else 0 := by
  induction m with
  | zero =>
    intro j hj hm l
    refine ⟨[], ?_, fun k => ?_⟩
    · rw [axLoop_inside Z hZ hN j hj l (Na - 1) (by omega), axLoop_end, List.append_nil]
      have : Na - 1 + Na * j + 1 = Na * Nr := by
        rw [show Nr = j + 1 by omega, Nat.mul_succ]; omega
      omega
    · have := (ir k).2
      rw [if_neg (by omega)]; rfl
  | succ m ih =>
    intro j hj hm l
    have hlast : Na - 1 + Na * j + 1 = 0 + Na * (j + 1) := by rw [Nat.mul_succ]; omega
    have hj1 : j + 1 < Nr := by omega
    have h2 := lt_mul (Na := Na) (by omega) (show 0 < Na by omega) hj1
    have h1 : Na - 1 + Na * j + 1 < Na * Nr := by omega
    have h3 : Na - 1 + Na * j < Na * Nr := by omega
    obtain ⟨l', hl', hc⟩ := ih (j + 1) hj1 (by omega)
      (l ++ [⟨Na - 1 + Na * j, h3⟩, ⟨0 + Na * (j + 1), h2⟩])
    refine ⟨[⟨Na - 1 + Na * j, h3⟩, ⟨0 + Na * (j + 1), h2⟩] ++ l', ?_, fun k => ?_⟩
    · rw [axLoop_inside Z hZ hN j hj l (Na - 1) (by omega), axLoop_step Z _ _ h1]
      have hs : axStep Z ⟨l, Z ⟨0 + Na * j, lt_mul (by omega) (by omega) hj⟩, false⟩ (Na - 1 + Na * j) h1 =
          ⟨l ++ [⟨Na - 1 + Na * j, h3⟩, ⟨0 + Na * (j + 1), h2⟩], Z ⟨0 + Na * (j + 1), h2⟩, false⟩ := by
        have he : Z ⟨Na - 1 + Na * j, h3⟩ = - Z ⟨0 + Na * j, lt_mul (by omega) (by omega) hj⟩ :=
          (hZ ⟨j, hj⟩ ⟨Na - 1, by omega⟩ ⟨0, by omega⟩ rfl).2 (by simp only; omega)
        simp only [axStep, Bool.false_eq_true, if_false]
        rw [if_pos he]
        simp only [hlast]
      rw [hs, hlast, hl', List.append_assoc]
    · rw [List.count_append, hc]
      have hk := Nat.mod_add_div k.1 Na
      have hia : (ia k).1 = k.1 % Na := rfl
      have hir : (ir k).1 = k.1 / Na := rfl
      have hlt := (ia k).2
      have e1 : (⟨Na - 1 + Na * j, h3⟩ : Fin (Na * Nr)) = k ↔ (ir k).1 = j ∧ (ia k).1 + 1 = Na := by
        constructor
        · rintro rfl
          rw [hia, hir]
          constructor
          · show (Na - 1 + Na * j) / Na = j
            rw [Nat.add_mul_div_left _ _ (by omega), Nat.div_eq_of_lt (by omega), zero_add]
          · show (Na - 1 + Na * j) % Na + 1 = Na
            rw [Nat.add_mul_mod_self_left, Nat.mod_eq_of_lt (by omega)]; omega
        · rintro ⟨h5, h4⟩
          ext
          show Na - 1 + Na * j = k.1
          rw [← hk, ← hir, ← hia, h5]; omega
      have e2 : (⟨0 + Na * (j + 1), h2⟩ : Fin (Na * Nr)) = k ↔ (ir k).1 = j + 1 ∧ (ia k).1 = 0 := by
        constructor
        · rintro rfl
          rw [hia, hir]
          constructor
          · show (0 + Na * (j + 1)) / Na = j + 1
            rw [Nat.add_mul_div_left _ _ (by omega), Nat.zero_div, zero_add]
          · show (0 + Na * (j + 1)) % Na = 0
            rw [Nat.add_mul_mod_self_left, Nat.zero_mod]
        · rintro ⟨h5, h4⟩
          ext
          show 0 + Na * (j + 1) = k.1
          rw [← hk, ← hir, ← hia, h5]; omega
      rw [List.count_cons, List.count_cons, List.count_nil]
      simp only [beq_iff_eq, e1, e2]
      split_ifs <;> omega

/-- The first column is collected completely. -/
theorem axLoop_first (Z : Fin (Na * Nr) → ℝ) (hZ : Spec.Opposite Z) (hN : 2 ≤ Na) (hr : 0 < Nr)
    (h0 : 0 < Na * Nr) (l : List (Fin (Na * Nr))) (t : ℕ) (ht : t + 1 ≤ Na) :
    ∃ l', axLoop Z 0 ⟨l, Z ⟨0, h0⟩, true⟩ = axLoop Z t ⟨l ++ l', Z ⟨0, h0⟩, true⟩ ∧
      ∀ k, l'.count k = if k.1 < t then 1 else 0 := by
  induction t with
  | zero => exact ⟨[], by rw [List.append_nil], by simp⟩
  | succ t ih =>
    obtain ⟨l', h1, h2⟩ := ih (by omega)
    have h : t + 1 < Na * Nr := by
      have := Nat.le_mul_of_pos_right Na hr
      omega
    refine ⟨l' ++ [⟨t, by omega⟩], ?_, fun k => ?_⟩
    · rw [h1, axLoop_step Z _ _ h]
      have hne : ¬ Z ⟨t, by omega⟩ = - Z ⟨0, h0⟩ := fun he => by
        have := (hZ ⟨0, hr⟩ ⟨t, by omega⟩ ⟨0, by omega⟩ rfl).1 (by simpa [pos] using he)
        simp only at this; omega
      simp only [axStep, if_true]
      rw [if_neg hne, List.append_assoc]
    · rw [List.count_append, h2, List.count_cons, List.count_nil]
      simp only [beq_iff_eq, Fin.ext_iff]
      split_ifs <;> omega

/-- C71 (partial), what `axis_plot` collects on a grid with at least two rows and two columns: how often
each grid point occurs.  The first column and the first and last rows are covered except for the last
point of the last column; the two ends of the first column are there twice.  Partial: see
`C71_refuted`. -/
theorem C71_points_partial (Z : Fin (Na * Nr) → ℝ) (hZ : Spec.Opposite Z) (hN : 2 ≤ Na) (hr : 2 ≤ Nr) :
    ∃ l, axisPoints Z = .ok l ∧ ∀ k : Fin (Na * Nr), l.count k =
      if (ir k).1 = 0 then (if (ia k).1 = 0 ∨ (ia k).1 + 1 = Na then 2 else 1)
      else if (ia k).1 = 0 then 1
      else if (ia k).1 + 1 = Na ∧ (ir k).1 + 1 < Nr then 1 else 0 := by
  have h0 : 0 < Na * Nr := Nat.mul_pos (by omega) (by omega)
  have hle : Na * 2 ≤ Na * Nr := Nat.mul_le_mul_left _ hr
  obtain ⟨l1, e1, c1⟩ := axLoop_first Z hZ hN (by omega) h0 [⟨0, h0⟩] (Na - 1) (by omega)
  have h1 : Na - 1 + 1 < Na * Nr := by omega
  have h2 : 0 + Na * 1 < Na * Nr := by omega
  have hs : axStep Z ⟨[⟨0, h0⟩] ++ l1, Z ⟨0, h0⟩, true⟩ (Na - 1) h1 =
      ⟨[⟨0, h0⟩] ++ l1 ++ [⟨Na - 1, by omega⟩] ++ [⟨Na - 1, by omega⟩, ⟨0 + Na * 1, h2⟩], Z ⟨0 + Na * 1, h2⟩, false⟩ := by
    have he : Z ⟨Na - 1, by omega⟩ = - Z ⟨0, h0⟩ := by
      have := (hZ ⟨0, by omega⟩ ⟨Na - 1, by omega⟩ ⟨0, by omega⟩ rfl).2 (by simp only; omega)
      simpa [pos] using this
    simp only [axStep, if_true]
    rw [if_pos he]
    have : Na - 1 + 1 = 0 + Na * 1 := by omega
    simp only [this]
  obtain ⟨l2, e2, c2⟩ := axLoop_columns Z hZ hN (Nr - 2) 1 (by omega) (by omega)
    ([⟨0, h0⟩] ++ l1 ++ [⟨Na - 1, by omega⟩] ++ [⟨Na - 1, by omega⟩, ⟨0 + Na * 1, h2⟩])
  refine ⟨_, dif_pos h0, fun k => ?_⟩
  rw [e1, axLoop_step Z _ _ h1, hs, show Na - 1 + 1 = 0 + Na * 1 by omega, e2]
  simp only [List.count_append, c1, c2, List.count_cons, List.count_nil, beq_iff_eq, Fin.ext_iff]
  have hk := Nat.mod_add_div k.1 Na
  have hia : (ia k).1 = k.1 % Na := rfl
  have hir : (ir k).1 = k.1 / Na := rfl
  have hlt := (ia k).2
  have hlr := (ir k).2
  have hd : (ir k).1 = 0 ∧ k.1 = (ia k).1 ∨ (ir k).1 = 1 ∧ k.1 = (ia k).1 + Na ∨ 2 ≤ (ir k).1 ∧ 2 * Na ≤ k.1 := by
    rw [hia, hir]
    rcases Nat.lt_or_ge (k.1 / Na) 1 with h | h
    · left
      have : k.1 / Na = 0 := by omega
      rw [this] at hk
      omega
    · rcases Nat.lt_or_ge (k.1 / Na) 2 with h' | h'
      · right; left
        have : k.1 / Na = 1 := by omega
        rw [this] at hk
        omega
      · right; right
        have := Nat.mul_le_mul_left Na h'
        omega
  split_ifs <;> omega

/-- The coordinates of every real grid have the property used above. -/
theorem C71_opposite (a L : ℝ) (ha : a ≠ 0) : Spec.Opposite (Z Na Nr a L) := by
  intro j i i0 h0
  have hia : ∀ i : Fin Na, ia (pos i j) = i := fun i => by
    ext
    show (i.1 + Na * j.1) % Na = i.1
    rw [Nat.add_mul_mod_self_left, Nat.mod_eq_of_lt i.2]
  have hir : ∀ i : Fin Na, ir (pos i j) = j := fun i => by
    ext
    show (i.1 + Na * j.1) / Na = j.1
    rw [Nat.add_mul_div_left _ _ (by have := i.2; omega), Nat.div_eq_of_lt i.2, zero_add]
  have hc : a * Real.cosh (xr Nr L j) ≠ 0 := mul_ne_zero ha (Real.cosh_pos _).ne'
  rw [Z_eq, Z_eq, Xr, Xr, Xa, Xa, hia, hia, hir, hir, ← mul_neg, mul_right_inj' hc, ← Real.cos_pi_sub, ← xa_rev]
  have hmem : ∀ i : Fin Na, xa Na i ∈ Set.Icc 0 Real.pi := fun i => ⟨(xa_pos i).le, (xa_lt_pi i).le⟩
  rw [Real.injOn_cos.eq_iff (hmem _) (hmem _), xa_eq, xa_eq]
  have hN : (Na : ℝ) ≠ 0 := by have := i.2; exact Nat.cast_ne_zero.2 (by omega)
  rw [div_left_inj' hN, mul_left_inj' Real.pi_ne_zero, add_left_inj, Nat.cast_inj, Fin.val_rev]
  have := i.2
  omega

/-- C71 is false: on every real grid with at least two rows and columns the first grid point is returned
twice and the outermost point of the negative axis is missing, although its mirror image is there. -/
theorem C71_refuted (a L : ℝ) (ha : a ≠ 0) (hN : 2 ≤ Na) (hr : 2 ≤ Nr) :
    ∃ l, axisPoints (Z Na Nr a L) = .ok l ∧ l.count (pos ⟨0, by omega⟩ ⟨0, by omega⟩) = 2 ∧
      l.count (pos ⟨0, by omega⟩ ⟨Nr - 1, by omega⟩) = 1 ∧
      l.count (pos ⟨Na - 1, by omega⟩ ⟨Nr - 1, by omega⟩) = 0 := by
  obtain ⟨l, h, hc⟩ := C71_points_partial (Z Na Nr a L) (C71_opposite a L ha) hN hr
  have hia : ∀ (i : Fin Na) (j : Fin Nr), (ia (pos i j)).1 = i.1 := fun i j => by
    show (i.1 + Na * j.1) % Na = i.1
    rw [Nat.add_mul_mod_self_left, Nat.mod_eq_of_lt i.2]
  have hir : ∀ (i : Fin Na) (j : Fin Nr), (ir (pos i j)).1 = j.1 := fun i j => by
    show (i.1 + Na * j.1) / Na = j.1
    rw [Nat.add_mul_div_left _ _ (by omega), Nat.div_eq_of_lt i.2, zero_add]
  refine ⟨l, h, ?_, ?_, ?_⟩ <;> rw [hc, hia, hir] <;> simp only
  · simp
  · rw [if_neg (by omega), if_pos trivial]
  · rw [if_neg (by omega), if_neg (by omega), if_neg (by omega)]

end
end Verif
