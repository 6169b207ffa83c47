import Verif.Model.Coordinates
import Verif.Lemmas.Grid
import Mathlib.Tactic.FieldSimp
import Mathlib.Tactic.Positivity

namespace Verif
namespace Init

theorem linspace_zero (c : ℝ) (N k : ℕ) : linspace 0 c (N + 1) k = k * (c / N) := by
  simp [linspace]

theorem ha_eq {Na : ℕ} : ha Na = Real.pi / Na := by
  simp [ha, linspace]

theorem hr_eq {Nr : ℕ} (L : ℝ) : hr Nr L = L / Nr := by
  simp [hr, linspace]

theorem xa_eq {Na : ℕ} (i : Fin Na) : xa Na i = ((i.1 : ℝ) + 1 / 2) * Real.pi / Na := by
  have h0 : (Na : ℝ) ≠ 0 := by
    have := i.2
    exact_mod_cast (by omega : Na ≠ 0)
  have h1 : ((Na - (i.1 + 1) : ℕ) : ℝ) = (Na : ℝ) - (i.1 + 1) := by
    rw [Nat.cast_sub (by omega)]; push_cast; ring
  simp only [xa, xa1, ha_eq, linspace_zero, Fin.val_rev, h1]
  field_simp
  ring

theorem xr_eq {Nr : ℕ} (L : ℝ) (i : Fin Nr) : xr Nr L i = ((i.1 : ℝ) + 1 / 2) * L / Nr := by
  have h0 : (Nr : ℝ) ≠ 0 := by
    have := i.2
    exact_mod_cast (by omega : Nr ≠ 0)
  simp only [xr, hr_eq, linspace_zero]
  field_simp

theorem xa_pos {Na : ℕ} (i : Fin Na) : 0 < xa Na i := by
  have := i.2
  have hN : (0 : ℝ) < Na := by exact_mod_cast (by omega : 0 < Na)
  have := Real.pi_pos
  rw [xa_eq]; positivity

theorem xr_pos {Nr : ℕ} {L : ℝ} (hL : 0 < L) (i : Fin Nr) : 0 < xr Nr L i := by
  have := i.2
  have hN : (0 : ℝ) < Nr := by exact_mod_cast (by omega : 0 < Nr)
  rw [xr_eq]; positivity

theorem half_lt {N : ℕ} {c : ℝ} (hc : 0 < c) (i : Fin N) : ((i.1 : ℝ) + 1 / 2) * c / N < c := by
  have hi := i.2
  have hN : (0 : ℝ) < N := by exact_mod_cast (by omega : 0 < N)
  rw [div_lt_iff₀ hN, mul_comm c]
  have : (i.1 : ℝ) + 1 ≤ N := by exact_mod_cast hi
  apply mul_lt_mul_of_pos_right _ hc
  linarith

theorem xa_lt_pi {Na : ℕ} (i : Fin Na) : xa Na i < Real.pi := by
  rw [xa_eq]; exact half_lt Real.pi_pos i

theorem xr_lt_L {Nr : ℕ} {L : ℝ} (hL : 0 < L) (i : Fin Nr) : xr Nr L i < L := by
  rw [xr_eq]; exact half_lt hL i

theorem xa_rev {Na : ℕ} (i : Fin Na) : xa Na i.rev = Real.pi - xa Na i := by
  have h0 : (Na : ℝ) ≠ 0 := by
    have := i.2
    exact_mod_cast (by omega : Na ≠ 0)
  have h1 : ((Na - (i.1 + 1) : ℕ) : ℝ) = (Na : ℝ) - (i.1 + 1) := by
    rw [Nat.cast_sub (by omega)]; push_cast; ring
  rw [xa_eq, xa_eq]
  simp only [Fin.val_rev, h1]
  field_simp
  ring

variable {Na Nr : ℕ}

/-- Index reflected by `mir`. -/
def mirK (k : Fin (Na * Nr)) : Fin (Na * Nr) := ⟨Arr.flip0Pos Na k.1, Arr.flip0Pos_lt k.2⟩

theorem mir_apply (g : Fin (Na * Nr) → ℝ) (k : Fin (Na * Nr)) : mir g k = g (mirK k) := rfl

theorem Na_pos (k : Fin (Na * Nr)) : 0 < Na :=
  Nat.pos_of_mul_pos_right (Nat.lt_of_le_of_lt (Nat.zero_le _) k.2)

@[simp] theorem mirK_mirK (k : Fin (Na * Nr)) : mirK (mirK k) = k :=
  Fin.ext (Arr.flip0Pos_flip0Pos (Na_pos k))

theorem ia_mirK (k : Fin (Na * Nr)) : ia (mirK k) = (ia k).rev := by
  apply Fin.ext
  simp only [ia, mirK, Fin.val_rev]
  rw [Arr.flip0Pos_mod (Na_pos k)]; omega

theorem ir_mirK (k : Fin (Na * Nr)) : ir (mirK k) = ir k := by
  apply Fin.ext
  simp only [ir, mirK]
  rw [Arr.flip0Pos_div (Na_pos k)]

theorem Xa_mirK (k : Fin (Na * Nr)) : Xa Na Nr (mirK k) = Real.pi - Xa Na Nr k := by
  simp only [Xa, ia_mirK, xa_rev]

theorem Xr_mirK (L : ℝ) (k : Fin (Na * Nr)) : Xr Na Nr L (mirK k) = Xr Na Nr L k := by
  simp only [Xr, ir_mirK]

theorem sin_mirK (k : Fin (Na * Nr)) :
    Real.sin (Xa Na Nr (mirK k)) = Real.sin (Xa Na Nr k) := by
  rw [Xa_mirK, Real.sin_pi_sub]

theorem cos_mirK (k : Fin (Na * Nr)) :
    Real.cos (Xa Na Nr (mirK k)) = -Real.cos (Xa Na Nr k) := by
  rw [Xa_mirK, Real.cos_pi_sub]

theorem sin_pos (k : Fin (Na * Nr)) : 0 < Real.sin (Xa Na Nr k) :=
  Real.sin_pos_of_pos_of_lt_pi (xa_pos _) (xa_lt_pi _)

theorem sinh_pos {L : ℝ} (hL : 0 < L) (k : Fin (Na * Nr)) : 0 < Real.sinh (Xr Na Nr L k) :=
  Real.sinh_pos_iff.mpr (xr_pos hL _)

theorem cos_sq (k : Fin (Na * Nr)) :
    Real.cos (Xa Na Nr k) ^ 2 = 1 - Real.sin (Xa Na Nr k) ^ 2 := by
  have := Real.sin_sq_add_cos_sq (Xa Na Nr k); linarith

theorem cosh_sq (L : ℝ) (k : Fin (Na * Nr)) :
    Real.cosh (Xr Na Nr L k) ^ 2 = Real.sinh (Xr Na Nr L k) ^ 2 + 1 := Real.cosh_sq _

theorem Z_eq (a L : ℝ) (k : Fin (Na * Nr)) :
    Z Na Nr a L k = a * Real.cosh (Xr Na Nr L k) * Real.cos (Xa Na Nr k) := by
  simp only [Z, mir_apply, Xr_mirK, cos_mirK]; ring

theorem Y_eq (a L : ℝ) (k : Fin (Na * Nr)) :
    Y Na Nr a L k = a * Real.sinh (Xr Na Nr L k) * Real.sin (Xa Na Nr k) := by
  simp only [Y, mir_apply, Xr_mirK, sin_mirK]; ring

theorem w_eq (a L : ℝ) (k : Fin (Na * Nr)) :
    w Na Nr a L k = a ^ 3 * Real.sin (Xa Na Nr k) * Real.sinh (Xr Na Nr L k) *
      (Real.sin (Xa Na Nr k) ^ 2 + Real.sinh (Xr Na Nr L k) ^ 2) := by
  simp only [w, mir_apply, Xr_mirK, sin_mirK]; ring

theorem f_eq (a L : ℝ) (k : Fin (Na * Nr)) :
    f Na Nr a L k = (2 / (2 * a) ^ 2) *
      (1 / (Real.sinh (Xr Na Nr L k) ^ 2 + Real.sin (Xa Na Nr k) ^ 2)) *
      (1 / Real.sinh (Xr Na Nr L k) ^ 2 + 1 / Real.sin (Xa Na Nr k) ^ 2) := by
  simp only [f, mir_apply, Xr_mirK, cos_sq, sin_mirK, cosh_sq]
  rw [show Real.sinh (Xr Na Nr L k) ^ 2 + 1 - (1 - Real.sin (Xa Na Nr k) ^ 2) =
    Real.sinh (Xr Na Nr L k) ^ 2 + Real.sin (Xa Na Nr k) ^ 2 by ring,
    show Real.sinh (Xr Na Nr L k) ^ 2 + 1 - 1 = Real.sinh (Xr Na Nr L k) ^ 2 by ring,
    show 1 - (1 - Real.sin (Xa Na Nr k) ^ 2) = Real.sin (Xa Na Nr k) ^ 2 by ring]
  ring

theorem h1_eq (a L : ℝ) (k : Fin (Na * Nr)) :
    h1 Na Nr a L k =
      a * Real.sqrt (Real.sinh (Xr Na Nr L k) ^ 2 + Real.sin (Xa Na Nr k) ^ 2) := by
  simp only [h1, mir_apply, Xr_mirK, sin_mirK]; ring

theorem h3_eq (a L : ℝ) (k : Fin (Na * Nr)) :
    h3 Na Nr a L k = a * Real.sinh (Xr Na Nr L k) * Real.sin (Xa Na Nr k) := by
  simp only [h3, mir_apply, Xr_mirK, sin_mirK]; ring

end Init
end Verif
