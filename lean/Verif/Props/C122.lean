import Verif.Lemmas.Rounded

/-! # C122: `integrate` in floating-point arithmetic

Every operation is followed by a rounding and `np.sum` adds in any order. -/

namespace Verif
open Rounding
variable {K : Type*} [Field K] [LinearOrder K] [IsStrictOrderedRing K] {R : Rounding K} {u : K} {G : Grid K}

/-- Steps and volume elements are not negative, and neither are the quadrature weights. -/
structure Spec.NoNegativeWeights (G : Grid K) : Prop where
  pi : 0 ≤ G.pi
  hr : 0 ≤ G.hr
  ha : 0 ≤ G.ha
  wi : ∀ k, 0 ≤ G.wi k
  w : ∀ k, 0 ≤ G.w k

/-- C122: the computed integral is off by no more than the rounding of `depth + 6` operations makes of the integral of the
absolute values, where `depth` is the largest number of additions an entry goes through in `np.sum`. -/
theorem C122_error (h : R.Precise u) {o : Order G.Ix} (ho : o.Complete) (f : G.Fld) :
    |Rounded.integ R G o f - (2 * G.pi * G.hr * G.ha) * ∑ k, G.wi k * G.w k * f k| ≤
      ((1 + u) ^ (o.depth + 6) - 1) * (|2 * G.pi * G.hr * G.ha| * ∑ k, |G.wi k * G.w k * f k|) := by
  have hc : Off u 3 (R.mul (R.mul (R.mul 2 G.pi) G.hr) G.ha) (2 * G.pi * G.hr * G.ha) |2 * G.pi * G.hr * G.ha| := by
    have := (((((((Off.refl (u := u) (2 : K)).mul h (.refl G.pi)).round h).mul h (.refl G.hr)).round h).mul h (.refl G.ha)).round h)
    rwa [← abs_mul, ← abs_mul, ← abs_mul] at this
  have ht : ∀ k, Off u 2 (R.mul (R.mul (G.wi k) (G.w k)) (f k)) (G.wi k * G.w k * f k) |G.wi k * G.w k * f k| := by
    intro k
    have := ((((Off.refl (u := u) (G.wi k)).mul h (.refl (G.w k))).round h).mul h (.refl (f k))).round h
    rwa [← abs_mul, ← abs_mul] at this
  have hs := sum_off h ht o
  rw [leaves_sum ho, leaves_sum ho] at hs
  have := ((hc.mul h hs).round h).1
  rwa [show 3 + (2 + o.depth) + 1 = o.depth + 6 by omega] at this

/-- C122: with weights that are not negative the computed integral of a function that is not negative is right up to the
factor `(1 - u)^(depth + 6)`. -/
theorem C122_relative (h : R.Precise u) (hG : Spec.NoNegativeWeights G) {o : Order G.Ix} (ho : o.Complete) {f : G.Fld}
    (hf : ∀ k, 0 ≤ f k) :
    (1 - u) ^ (o.depth + 6) * G.integ f ≤ Rounded.integ R G o f ∧
      (1 - u) ^ (o.depth + 6) * Rounded.integ R G o f ≤ G.integ f := by
  have h2 : (0 : K) ≤ 2 := by norm_num
  have hp := mul_nonneg h2 hG.pi
  have hph := mul_nonneg hp hG.hr
  have hc : Within u 3 (R.mul (R.mul (R.mul 2 G.pi) G.hr) G.ha) (2 * G.pi * G.hr * G.ha) :=
    (((((((Within.refl h h2 0).mul h h2 hG.pi (.refl h hG.pi 0)).round h hp).mul h hp hG.hr (.refl h hG.hr 0)).round h
      hph).mul h hph hG.ha (.refl h hG.ha 0)).round h (mul_nonneg hph hG.ha))
  have ht : ∀ k, Within u 2 (R.mul (R.mul (G.wi k) (G.w k)) (f k)) (G.wi k * G.w k * f k) := fun k =>
    ((((Within.refl h (hG.wi k) 0).mul h (hG.wi k) (hG.w k) (.refl h (hG.w k) 0)).round h
      (mul_nonneg (hG.wi k) (hG.w k))).mul h (mul_nonneg (hG.wi k) (hG.w k)) (hf k) (.refl h (hf k) 0)).round h
      (mul_nonneg (mul_nonneg (hG.wi k) (hG.w k)) (hf k))
  have h0 : ∀ k, 0 ≤ G.wi k * G.w k * f k := fun k => mul_nonneg (mul_nonneg (hG.wi k) (hG.w k)) (hf k)
  have hs := sum_within h h0 ht o
  rw [leaves_sum ho] at hs
  have hC := mul_nonneg hph hG.ha
  have hS := Finset.sum_nonneg fun k (_ : k ∈ Finset.univ) => h0 k
  have := (hc.mul h hC hS hs).round h (mul_nonneg hC hS)
  rwa [show 3 + (2 + o.depth) + 1 = o.depth + 6 by omega] at this

/-- C122: rounding, underflow included, keeps the order of integrals; the sign of the function is the sign of the
computed integral; the order of adding need not even be complete. -/
theorem C122_monotone (R : Rounding K) (hG : Spec.NoNegativeWeights G) (o : Order G.Ix) :
    (∀ f g : G.Fld, (∀ k, f k ≤ g k) → Rounded.integ R G o f ≤ Rounded.integ R G o g) ∧
    (∀ f : G.Fld, (∀ k, 0 ≤ f k) → 0 ≤ Rounded.integ R G o f) ∧
    ∀ f : G.Fld, Rounded.integ R G o (fun k => -f k) = -Rounded.integ R G o f := by
  have h2 : (0 : K) ≤ 2 := by norm_num
  have hC : 0 ≤ R.mul (R.mul (R.mul 2 G.pi) G.hr) G.ha :=
    R.fl_nonneg (mul_nonneg (R.fl_nonneg (mul_nonneg (R.fl_nonneg (mul_nonneg h2 hG.pi)) hG.hr)) hG.ha)
  have hw : ∀ k, 0 ≤ R.mul (G.wi k) (G.w k) := fun k => R.fl_nonneg (mul_nonneg (hG.wi k) (hG.w k))
  refine ⟨fun f g hfg => ?_, fun f hf => ?_, fun f => ?_⟩
  · exact R.mono (mul_le_mul_of_nonneg_left (sum_mono R (fun k => R.mono (mul_le_mul_of_nonneg_left (hfg k) (hw k))) o) hC)
  · exact R.fl_nonneg (mul_nonneg hC (sum_nonneg R (fun k => R.fl_nonneg (mul_nonneg (hw k) (hf k))) o))
  · unfold Rounded.integ Rounding.mul
    simp only [mul_neg, R.neg]
    rw [sum_neg, mul_neg, R.neg]

/-- C122: integrating the mirrored function is integrating the function with the additions made in the mirrored order,
to the last digit. -/
theorem C122_mirror (R : Rounding K) (hwi : ∀ k, G.wi (G.mirIx k) = G.wi k) (hw : ∀ k, G.w (G.mirIx k) = G.w k)
    (o : Order G.Ix) (f : G.Fld) : Rounded.integ R G o (G.mir f) = Rounded.integ R G (o.map G.mirIx) f := by
  unfold Rounded.integ
  rw [sum_map]
  simp only [Grid.mir, hwi, hw]

namespace Sample122

/-- Four points with weights 1. -/
def grid4 : Grid ℚ := { Na := 4, Nr := 1, pi := 1, ha := 1, hr := 1 / 2, wi := fun _ => 1, w := fun _ => 1 }

def at4 (i : Fin 4) : grid4.Ix := ⟨i, i.2⟩

/-- One after the other. -/
def o : Order grid4.Ix := (Order.one (at4 0)).inTurn [at4 1, at4 2, at4 3]

/-- Pairs first. -/
def o' : Order grid4.Ix := ((Order.one (at4 0)).both (.one (at4 1))).both ((Order.one (at4 2)).both (.one (at4 3)))

/-- Three binary digits. -/
def R3 : Rounding ℚ := binary 2 none

def f : grid4.Fld := fun k => if k.1 = 0 then 4 else 1 / 2

theorem complete : o.Complete ∧ o'.Complete := by
  refine ⟨⟨?_, ?_⟩, ?_, ?_⟩ <;> decide +kernel

theorem nonneg : Spec.NoNegativeWeights grid4 :=
  ⟨by norm_num [grid4], by norm_num [grid4], by norm_num [grid4], fun _ => zero_le_one, fun _ => zero_le_one⟩

end Sample122

open Sample122

/-- C122: with the additions in a fixed order, the computed integral of the mirrored function may be another number than
that of the function: equality holds in exact arithmetic only. -/
theorem C122_refuted_mirror : ∃ (R : Rounding ℚ) (G : Grid ℚ) (o : Order G.Ix) (f : G.Fld),
    R.Precise (1 / 8) ∧ Spec.NoNegativeWeights G ∧ o.Complete ∧ (∀ k, G.wi (G.mirIx k) = G.wi k) ∧
      (∀ k, G.w (G.mirIx k) = G.w k) ∧ G.integ (G.mir f) = G.integ f ∧
      Rounded.integ R G o (G.mir f) ≠ Rounded.integ R G o f := by
  refine ⟨R3, grid4, o, f, ?_, Sample122.nonneg, complete.1, fun _ => rfl, fun _ => rfl, by decide +kernel, by decide +kernel⟩
  have := binary_precise (K := ℚ) 2
  norm_num at this
  exact this

/-- C122: the integral 11/2 of a function, computed with three binary digits one after the other, in pairs and from the
other end, and with double precision. -/
example : grid4.integ f = 11 / 2 ∧ Rounded.integ R3 grid4 o f = 4 ∧ Rounded.integ R3 grid4 o' f = 5 ∧
    Rounded.integ R3 grid4 o (grid4.mir f) = 6 ∧ Rounded.integ (binary 52 (some (-1074))) grid4 o f = 11 / 2 := by
  refine ⟨?_, ?_, ?_, ?_, ?_⟩ <;> decide +kernel

/-- C122: double precision is off by less than `10^-15` of the integral of the absolute values on this grid (`(1 + u)^9 - 1`
for the three additions in turn). -/
example : (1 + 1 / 2 ^ 53 : ℚ) ^ (o.depth + 6) - 1 < 1 / 10 ^ 15 ∧ (binary 52 none : Rounding ℚ).Precise (1 / 2 ^ 53) :=
  ⟨by decide +kernel, binary_precise 52⟩

end Verif
