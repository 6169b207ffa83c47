import Verif.Lemmas.Rounded

/-! # Numbers that are not changed by rounding -/

namespace Verif
namespace Rounding
variable {K : Type*} [Field K] [LinearOrder K] [IsStrictOrderedRing K]

/-- Rounding twice is rounding once, and 1 is a machine number. -/
structure Stable (R : Rounding K) : Prop where
  again : ∀ x, R.fl (R.fl x) = R.fl x
  one : R.fl 1 = 1

section Binary
variable [FloorRing K]

theorem flPos_machine (p : ℕ) (emin : Option ℤ) {m : ℕ} {e : ℤ} (h0 : 0 < m) (hm : m ≤ 2 ^ (p + 1))
    (he : ∀ b ∈ emin, b ≤ e) : flPos p emin ((m : K) * 2 ^ e) = (m : K) * 2 ^ e := by
  have two : (0 : K) < 2 := by norm_num
  have hm0 : (0 : K) < m := by exact_mod_cast h0
  have hz : 0 < (m : K) * 2 ^ e := mul_pos hm0 (zpow_pos two _)
  have key : ∀ (z : ℕ) (f : ℤ), (z : K) * 2 ^ f = (m : K) * 2 ^ e → expo p emin ((m : K) * 2 ^ e) = f →
      flPos p emin ((m : K) * 2 ^ e) = (m : K) * 2 ^ e := by
    intro z f h1 h2
    unfold flPos
    rw [h2, ← h1, mul_div_assoc, div_self (zpow_pos two _).ne', mul_one]
    have := nearest_int (K := K) (z : ℤ)
    rw [Int.cast_natCast] at this
    rw [this, Int.cast_natCast]
  rcases hm.eq_or_lt with heq | hlt
  · have hlog : Int.log 2 ((m : K) * 2 ^ e) = p + 1 + e := by
      rw [heq]
      push_cast
      rw [show (2 : K) ^ (p + 1) * 2 ^ e = ((2 : ℕ) : K) ^ ((p : ℤ) + 1 + e) by
        push_cast; rw [zpow_add₀ two.ne' ((p : ℤ) + 1)]; norm_cast]
      exact Int.log_zpow (by norm_num) _
    refine key (2 ^ p) (e + 1) ?_ ?_
    · rw [heq, zpow_add₀ two.ne']; push_cast; rw [pow_succ]; ring
    · unfold expo
      cases emin with
      | none => rw [hlog]; ring
      | some b => rw [hlog]; have := he b rfl; simp only; omega
  · have hlog : Int.log 2 ((m : K) * 2 ^ e) ≤ p + e := by
      have h1 : (m : K) * 2 ^ e < ((2 : ℕ) : K) ^ ((p : ℤ) + 1 + e) := by
        push_cast
        rw [zpow_add₀ two.ne' ((p : ℤ) + 1)]
        refine mul_lt_mul_of_pos_right ?_ (zpow_pos two _)
        exact_mod_cast hlt
      have := (Int.lt_zpow_iff_log_lt (by norm_num) hz).mp h1
      omega
    have hle : expo p emin ((m : K) * 2 ^ e) ≤ e := by
      unfold expo
      cases emin with
      | none => simp only; omega
      | some b => have := he b rfl; simp only; omega
    obtain ⟨d, hd⟩ := Int.eq_ofNat_of_zero_le (a := e - expo p emin ((m : K) * 2 ^ e)) (by omega)
    refine key (m * 2 ^ d) _ ?_ rfl
    have : e = d + expo p emin ((m : K) * 2 ^ e) := by omega
    generalize expo p emin ((m : K) * 2 ^ e) = f at *
    rw [this, zpow_add₀ two.ne', zpow_natCast]
    push_cast
    ring

/-- Numbers with `p + 1` binary digits are not changed. -/
theorem binary_machine (p : ℕ) (emin : Option ℤ) {m e : ℤ} (hm : |m| ≤ 2 ^ (p + 1)) (he : ∀ b ∈ emin, b ≤ e) :
    (binary p emin : Rounding K).fl ((m : K) * 2 ^ e) = (m : K) * 2 ^ e := by
  have two : (0 : K) < 2 := by norm_num
  have pos : ∀ m : ℤ, 0 < m → |m| ≤ 2 ^ (p + 1) → (binary p emin : Rounding K).fl ((m : K) * 2 ^ e) = (m : K) * 2 ^ e := by
    intro m h0 hm
    obtain ⟨n, rfl⟩ := Int.eq_ofNat_of_zero_le h0.le
    have h1 : 0 < (((n : ℕ) : ℤ) : K) * 2 ^ e := mul_pos (by exact_mod_cast h0) (zpow_pos two _)
    change (if _ then _ else _) = _
    rw [if_pos h1, Int.cast_natCast]
    refine flPos_machine p emin (by omega) ?_ he
    rw [abs_of_pos h0] at hm
    exact_mod_cast hm
  rcases lt_trichotomy m 0 with h | h | h
  · have := pos (-m) (by omega) (by rwa [abs_neg])
    rw [Int.cast_neg, neg_mul, (binary p emin).neg] at this
    exact neg_injective this
  · rw [h]; simp [fl_zero]
  · exact pos m h hm

theorem binary_stable (p : ℕ) (emin : Option ℤ) (he : ∀ b ∈ emin, b ≤ 0) : (binary p emin : Rounding K).Stable := by
  have two : (0 : K) < 2 := by norm_num
  refine ⟨?_, ?_⟩
  · have pos : ∀ x : K, 0 < x → (binary p emin : Rounding K).fl ((binary p emin).fl x) = (binary p emin).fl x := by
      intro x hx
      have h1 : (binary p emin).fl x = flPos p emin x := if_pos hx
      rw [h1]
      unfold flPos
      refine binary_machine p emin ?_ ?_
      · have h0 : (0 : ℤ) ≤ nearest (x / 2 ^ expo p emin x) := le_nearest (by
          rw [Int.cast_zero]; exact (div_pos hx (zpow_pos two _)).le)
        rw [abs_of_nonneg h0]
        refine nearest_le ?_
        rw [div_le_iff₀ (zpow_pos two _)]
        have h2 := (Int.lt_zpow_succ_log_self (b := 2) (by norm_num) x).le
        rw [Nat.cast_ofNat] at h2
        refine h2.trans ?_
        have h3 : Int.log 2 x - p ≤ expo p emin x := by
          unfold expo; cases emin <;> simp only
          · exact le_rfl
          · exact le_max_left _ _
        push_cast
        rw [← zpow_natCast, ← zpow_add₀ two.ne']
        exact zpow_le_zpow_right₀ (by norm_num) (by push_cast; omega)
      · intro b hb
        cases emin with
        | none => cases hb
        | some c => cases hb; unfold expo; exact le_max_right _ _
    intro x
    rcases lt_trichotomy x 0 with h | h | h
    · have := pos (-x) (neg_pos.mpr h)
      rw [(binary p emin).neg, (binary p emin).neg] at this
      exact neg_injective this
    · rw [h, fl_zero, fl_zero]
    · exact pos x h
  · have := binary_machine (K := K) p emin (m := 1) (e := 0) (by rw [abs_one]; exact one_le_pow₀ (by norm_num)) he
    simpa using this

end Binary

end Rounding
end Verif
