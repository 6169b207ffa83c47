import Verif.Model.Enhance
import Mathlib.Analysis.SpecialFunctions.Arsinh
import Mathlib.Tactic.FieldSimp
import Mathlib.Tactic.Positivity
import Mathlib.Tactic.Linarith

/-! # C108: enhancement factors of the parametrised kinetic functionals -/

namespace Verif
open Enhance

/-- Enhancement factor of Tran and Wesolowski. -/
noncomputable def Spec.tranWesolowski (κ μ s : ℝ) : ℝ := 1 + κ - κ / (1 + μ / κ * s ^ 2)

/-- Enhancement factor of Lembarki and Chermette (PW91k); parameters in the order A1, A2, A3, A4, A, B1. -/
noncomputable def Spec.pw91k (A1 A2 A3 A4 A B1 s : ℝ) : ℝ :=
  (1 + A1 * s * Real.arsinh (A * s) + (A2 - A3 * Real.exp (-A4 * s ^ 2)) * s ^ 2) /
    (1 + A1 * s * Real.arsinh (A * s) + B1 * s ^ 4)

/-- The formula with the inverse sine in place of the inverse hyperbolic sine. -/
noncomputable def Spec.pw91kSine (A1 A2 A3 A4 A B1 s : ℝ) : ℝ :=
  (1 + A1 * s * Real.arcsin (A * s) + (A2 - A3 * Real.exp (-A4 * s ^ 2)) * s ^ 2) /
    (1 + A1 * s * Real.arcsin (A * s) + B1 * s ^ 4)

/-- A parameter as an array of shape `(1,)`. -/
def one1 (x : ℝ) : Arr (Fl ℝ) := vec 1 fun _ => .fin x

/-- A row of finite values. -/
def row (p : ℕ) (s : ℕ → ℝ) : Arr (Fl ℝ) := mat 1 p fun _ j => .fin (s j)

theorem axis_one_left (n : ℕ) : axis 1 n = .ok n := by
  unfold axis
  split
  · rename_i h; rw [h]
  · rfl

theorem axis_one_right (n : ℕ) : axis n 1 = .ok n := by
  unfold axis
  split
  · rfl
  · rw [if_pos rfl]

theorem axis_self (n : ℕ) : axis n n = .ok n := by simp [axis]

/-- C108 is false for numbers as parameters: whatever array of reduced gradients is given, both functions raise. -/
theorem C108_refuted (s : Arr (Fl ℝ)) (_ : s.nd ≠ 0) (x : ℕ → Fl ℝ) :
    tw s [num (x 0), num (x 1)] = .error .valueError ∧
    pw s [num (x 0), num (x 1), num (x 2), num (x 3), num (x 4), num (x 5)] = .error .valueError := by
  constructor
  · simp [tw, item, bop, axis, num, at_, matmul, bind, Except.bind, pure, Except.pure]
  · simp [pw, item, num, at_, matmul, bind, Except.bind, pure, Except.pure]

/-- Shapes on which `TW_paramke` works when the parameters have shape `(1,)`. -/
theorem C108_shape (κ μ : ℝ) (s : Arr (Fl ℝ)) (hs : s.Ok) (h0 : s.nd ≠ 0) :
    (∃ F, tw s [one1 κ, one1 μ] = .ok F) ↔ (s.nd = 1 ∧ s.c = 1) ∨ (s.nd = 2 ∧ s.r = 1) := by
  obtain ⟨h1, h2, h3⟩ := hs
  have : s.nd = 1 ∨ s.nd = 2 := by omega
  rcases this with h | h
  · by_cases hc : s.c = 1
    · simp [tw, item, bop, axis, num, at_, matmul, bind, Except.bind, pure, Except.pure, one1, vec, Arr.map, h, hc]
    · simp [tw, item, bop, axis, num, at_, matmul, bind, Except.bind, pure, Except.pure, one1, vec, Arr.map, h, hc, Ne.symm hc]
  · by_cases hc : s.r = 1
    · simp [tw, item, bop, axis_one_left, axis_one_right, axis_self, num, at_, matmul, bind, Except.bind, pure, Except.pure, one1, vec, Arr.map, h, hc]
    · simp [tw, item, bop, axis, num, at_, matmul, bind, Except.bind, pure, Except.pure, one1, vec, Arr.map, h, hc, Ne.symm hc]

/-- C108, partial: with parameters of shape `(1,)` and a row of reduced gradients `TW_paramke` returns the factor of Tran and
Wesolowski at every point; it is 1 without gradient, at most `1 + μ s²`, below `1 + κ`, even, and grows with the gradient. Missing:
numbers as parameters and columns of reduced gradients, which raise. -/
theorem C108_tw_partial (κ μ : ℝ) (hκ : 0 < κ) (hμ : 0 < μ) (p : ℕ) (s : ℕ → ℝ) :
    ∃ F, tw (row p s) [one1 κ, one1 μ] = .ok F ∧ F.nd = 1 ∧ F.c = p ∧
      (∀ j, j < p → F.el 0 j = .fin (Spec.tranWesolowski κ μ (s j))) ∧
      (∀ j, j < p → ∃ y, F.el 0 j = .fin y ∧ 1 ≤ y ∧ y < 1 + κ ∧ y ≤ 1 + μ * s j ^ 2 ∧ (y = 1 ↔ s j = 0)) ∧
      (∀ j l y z, j < p → l < p → F.el 0 j = .fin y → F.el 0 l = .fin z → (y < z ↔ |s j| < |s l|)) := by
  have hpos : ∀ x : ℝ, 0 < 1 + μ / κ * x ^ 2 := fun x => by positivity
  have key : ∀ x : ℝ, Spec.tranWesolowski κ μ x = 1 + κ * (μ / κ * x ^ 2 / (1 + μ / κ * x ^ 2)) := by
    intro x
    have := (hpos x).ne'
    unfold Spec.tranWesolowski
    field_simp
    ring
  have hval : ∃ F, tw (row p s) [one1 κ, one1 μ] = .ok F ∧ F.nd = 1 ∧ F.c = p ∧
      ∀ j, j < p → F.el 0 j = .fin (Spec.tranWesolowski κ μ (s j)) := by
    simp only [tw, item, bop, axis_one_left, axis_one_right, axis_self, num, at_, matmul, bind, Except.bind, pure, Except.pure,
      one1, vec, Arr.map, row, mat, List.getElem?_cons_zero, List.getElem?_cons_succ]
    refine ⟨_, rfl, rfl, rfl, fun j hj => ?_⟩
    have hj' : (if p = 1 then 0 else j) = j := by
      split
      · omega
      · rfl
    have h1 := (hpos (s j)).ne'
    simp only [dot, hj', List.range_one, List.map_cons, List.map_nil, List.foldl_cons, List.foldl_nil, fpow, Fl.div, Fl.mul, Fl.add,
      hκ.ne', if_false, if_true, ite_true]
    rw [if_neg (by simpa [pow_two] using h1)]
    simp only [Fl.sub, Fl.neg, Fl.add, Spec.tranWesolowski]
    congr 1
    ring_nf
  obtain ⟨F, h1, h2, h3, h4⟩ := hval
  have hfrac : ∀ x y : ℝ, |x| < |y| ↔ Spec.tranWesolowski κ μ x < Spec.tranWesolowski κ μ y := by
    intro x y
    rw [key, key, ← sq_lt_sq]
    have hq : 0 < μ / κ := by positivity
    rw [add_lt_add_iff_left, mul_lt_mul_iff_of_pos_left hκ, div_lt_div_iff₀ (hpos x) (hpos y)]
    constructor
    · intro h
      nlinarith [mul_lt_mul_of_pos_left h hq]
    · intro h
      by_contra hc
      push Not at hc
      nlinarith [mul_le_mul_of_nonneg_left hc hq.le]
  refine ⟨F, h1, h2, h3, h4, fun j hj => ⟨_, h4 j hj, ?_⟩, fun j l y z hj hl hy hz => ?_⟩
  · rw [key]
    have hx : 0 ≤ μ / κ * s j ^ 2 := by positivity
    have hd := hpos (s j)
    refine ⟨?_, ?_, ?_, ?_⟩
    · have := div_nonneg hx hd.le
      nlinarith
    · have : μ / κ * s j ^ 2 / (1 + μ / κ * s j ^ 2) < 1 := by rw [div_lt_one hd]; linarith
      nlinarith
    · have : μ / κ * s j ^ 2 / (1 + μ / κ * s j ^ 2) ≤ μ / κ * s j ^ 2 := div_le_self hx (by linarith)
      have h5 : κ * (μ / κ * s j ^ 2) = μ * s j ^ 2 := by field_simp
      nlinarith
    · constructor
      · intro h
        have h6 : κ * (μ / κ * s j ^ 2 / (1 + μ / κ * s j ^ 2)) = 0 := by linarith
        have h7 := (mul_eq_zero.mp h6).resolve_left hκ.ne'
        have h8 := (div_eq_zero_iff.mp h7).resolve_right hd.ne'
        have h9 := (mul_eq_zero.mp h8).resolve_left (by positivity)
        exact pow_eq_zero_iff (two_ne_zero) |>.mp h9
      · intro h
        simp [h]
  · rw [h4 j hj] at hy
    rw [h4 l hl] at hz
    cases hy
    cases hz
    exact (hfrac _ _).symm

/-- C108 is false for `PW91k_paramke` also with parameters of shape `(1,)`: only an array of shape `(1, 1)` is accepted, and there
the result is NaN as soon as the reduced gradient exceeds `1/A`. -/
theorem C108_pw_refuted (k : Fin 6 → ℝ) :
    (∀ s : Arr (Fl ℝ), s.Ok → s.nd ≠ 0 → ¬ (s.nd = 2 ∧ s.r = 1 ∧ s.c = 1) →
      pw s (List.ofFn fun i => one1 (k i)) = .error .valueError) ∧
    ∀ s : ℝ, 1 < |k 4 * s| → ∃ F, pw (row 1 fun _ => s) (List.ofFn fun i => one1 (k i)) = .ok F ∧ F.el 0 0 = .nan := by
  constructor
  · intro s ⟨h1, h2, h3⟩ h0 hn
    have : s.nd = 1 ∨ s.nd = 2 := by omega
    rcases this with h | h
    · have hr := h2 (by omega)
      by_cases hc : s.c = 1
      · simp [pw, item, bop, axis, num, at_, matmul, bind, Except.bind, pure, Except.pure, one1, vec, Arr.map, h, hc, hr]
      · simp [pw, item, bop, axis, num, at_, matmul, bind, Except.bind, pure, Except.pure, one1, vec, Arr.map, h, Ne.symm hc]
    · by_cases hr : s.r = 1
      · have hc : s.c ≠ 1 := fun hc => hn ⟨h, hr, hc⟩
        simp [pw, item, bop, axis_one_left, axis_one_right, axis_self, num, at_, matmul, bind, Except.bind, pure, Except.pure, one1, vec, Arr.map, h, hr, Ne.symm hc]
      · simp [pw, item, num, at_, matmul, bind, Except.bind, pure, Except.pure, one1, vec, Arr.map, h, Ne.symm hr]
  · intro s hs
    have hs' : ¬ |k 4| * |s| ≤ 1 := by rw [← abs_mul]; exact not_le.mpr hs
    simp only [pw, item, bop, axis_self, num, at_, matmul, bind, Except.bind, pure, Except.pure, List.ofFn_succ, List.ofFn_zero,
      one1, vec, Arr.map, row, mat, List.getElem?_cons_zero, List.getElem?_cons_succ]
    refine ⟨_, rfl, ?_⟩
    simp [Fl.mul, fasin, Fl.add, Fl.div, dot, hs']

/-- C108, partial (`PW91k_paramke`): on a single point with `|A s| ≤ 1` and parameters of shape `(1,)` the value is the formula with
the inverse sine. -/
theorem C108_pw_partial (A1 A2 A3 A4 A B1 s : ℝ) (hs : |A * s| ≤ 1) (hd : 1 + A1 * s * Real.arcsin (A * s) + B1 * s ^ 4 ≠ 0) :
    ∃ F, pw (row 1 fun _ => s) [one1 A1, one1 A2, one1 A3, one1 A4, one1 A, one1 B1] = .ok F ∧
      F.el 0 0 = .fin (Spec.pw91kSine A1 A2 A3 A4 A B1 s) := by
  simp only [pw, item, bop, axis_self, num, at_, matmul, bind, Except.bind, pure, Except.pure,
    one1, vec, Arr.map, row, mat, List.getElem?_cons_zero, List.getElem?_cons_succ]
  refine ⟨_, rfl, ?_⟩
  simp only [dot, List.range_one, List.map_cons, List.map_nil, List.foldl_cons, List.foldl_nil, fpow, Fl.div, Fl.mul, Fl.add, fasin,
    fexp, Fl.neg, Fl.sub, if_true, ite_true, hs]
  rw [if_neg (by convert hd using 2 <;> ring)]
  unfold Spec.pw91kSine
  congr 2 <;> ring_nf

/-- With a parameter missing nothing is returned: `TW_paramke` raises IndexError whatever the gradients are; `PW91k_paramke`
raises, and with parameters of shape `(1,)` and a single point this is an IndexError as well. -/
theorem C108_missing (s : Arr (Fl ℝ)) (k : List (Arr (Fl ℝ))) :
    (k.length < 2 → tw s k = .error .indexError) ∧ (k.length < 6 → ∀ F, pw s k ≠ .ok F) ∧
    ∀ (x : ℝ) (y : List ℝ), y.length < 6 → pw (row 1 fun _ => x) (y.map one1) = .error .indexError := by
  refine ⟨fun h => ?_, fun h F hF => ?_, fun x y h => ?_⟩
  · match k, h with
    | [], _ => rfl
    | [k0], _ => simp [tw, item, bop, axis_one_left, num, bind, Except.bind, pure, Except.pure]
  · unfold pw at hF
    simp only [Py.do_eq_ok] at hF
    obtain ⟨_, _, _, _, _, _, _, _, _, _, _, _, _, _, _, _, _, _, _, _, _, _, _, _, k5, h5, _⟩ := hF
    have : k[5]? = none := List.getElem?_eq_none (by omega)
    simp [item, this] at h5
  · match y, h with
    | [], _ => rfl
    | [_], _ | [_, _], _ | [_, _, _], _ | [_, _, _, _], _ | [_, _, _, _, _], _ =>
      simp [pw, item, bop, axis_self, num, at_, matmul, bind, Except.bind, pure, Except.pure, one1, vec, Arr.map, row, mat]

/-- One parameter, and five. -/
example : tw (row 3 fun j => j) [one1 1] = .error .indexError ∧
    pw (row 1 fun _ => 0) ([1, 2, 3, 4, 5].map one1) = .error .indexError :=
  ⟨(C108_missing _ _).1 (by simp), (C108_missing (num .nan) []).2.2 0 [1, 2, 3, 4, 5] (by simp)⟩

/-- The parameters published by Lembarki and Chermette: the formula is finite at every gradient and 1 without one; the function
returns NaN at the reduced gradient 1/50. -/
example : Spec.pw91k 0.093907 0.26608 0.0809615 100 76.320 0.000057767 0 = 1 ∧
    ∃ F, pw (row 1 fun _ => 1 / 50) (List.ofFn fun i => one1 (![0.093907, 0.26608, 0.0809615, 100, 76.320, 0.000057767] i)) = .ok F ∧
      F.el 0 0 = .nan := by
  refine ⟨by simp [Spec.pw91k], (C108_pw_refuted _).2 _ ?_⟩
  have : (![0.093907, 0.26608, 0.0809615, 100, 76.320, 0.000057767] : Fin 6 → ℝ) 4 = 76.320 := rfl
  rw [this, abs_of_pos (by norm_num)]
  norm_num

/-- Tran and Wesolowski at reduced gradient 1: `1 + κ - κ / (1 + μ/κ)`. -/
example : ∃ F, tw (row 2 fun j => j) [one1 (1 / 2), one1 (1 / 4)] = .ok F ∧ F.el 0 1 = .fin (7 / 6) := by
  obtain ⟨F, h, -, -, hv, -⟩ := C108_tw_partial (1 / 2) (1 / 4) (by norm_num) (by norm_num) 2 fun j => j
  refine ⟨F, h, ?_⟩
  rw [hv 1 (by norm_num), Spec.tranWesolowski]
  norm_num

end Verif
