import Verif.Model.Mirror

namespace Verif
namespace Arr

theorem flip0Pos_mod {d k : ℕ} (hd : 0 < d) : flip0Pos d k % d = d - 1 - k % d := by
  unfold flip0Pos
  rw [Nat.add_mul_mod_self_left, Nat.mod_eq_of_lt]; omega

theorem flip0Pos_div {d k : ℕ} (hd : 0 < d) : flip0Pos d k / d = k / d := by
  unfold flip0Pos
  rw [Nat.add_mul_div_left _ _ hd, Nat.div_eq_of_lt (by omega), Nat.zero_add]

theorem flip0Pos_flip0Pos {d k : ℕ} (hd : 0 < d) : flip0Pos d (flip0Pos d k) = k := by
  rw [show flip0Pos d (flip0Pos d k) = (d - 1 - flip0Pos d k % d) + d * (flip0Pos d k / d) from rfl,
    flip0Pos_mod hd, flip0Pos_div hd]
  have := Nat.mod_lt k hd
  have h2 := Nat.mod_add_div k d
  omega

theorem flip0Pos_idx {d i j : ℕ} (hi : i < d) : flip0Pos d (i + d * j) = (d - 1 - i) + d * j := by
  have hd : 0 < d := by omega
  unfold flip0Pos
  rw [Nat.add_mul_mod_self_left, Nat.mod_eq_of_lt hi, Nat.add_mul_div_left _ _ hd,
    Nat.div_eq_of_lt hi, Nat.zero_add]

theorem flip1Pos_mod {n p k : ℕ} : flip1Pos n p k % n = k % n := by
  unfold flip1Pos
  rw [Nat.add_mul_mod_self_left, Nat.mod_mod]

theorem flip1Pos_div {n p k : ℕ} (hn : 0 < n) : flip1Pos n p k / n = flip0Pos p (k / n) := by
  unfold flip1Pos
  rw [Nat.add_mul_div_left _ _ hn, Nat.div_eq_of_lt (Nat.mod_lt _ hn), Nat.zero_add]

theorem flip1Pos_flip1Pos {n p k : ℕ} (hn : 0 < n) (hp : 0 < p) :
    flip1Pos n p (flip1Pos n p k) = k := by
  rw [show flip1Pos n p (flip1Pos n p k) =
      flip1Pos n p k % n + n * flip0Pos p (flip1Pos n p k / n) from rfl, flip1Pos_mod, flip1Pos_div hn, flip0Pos_flip0Pos hp]
  exact Nat.mod_add_div k n

end Arr

namespace Psgrid
variable {K : Type*}
open Arr

/-- The result of `mirror` in closed form, when it does not raise. -/
theorem mirror_eq {Na Nr : ℕ} (hNa : 0 < Na) (hNr : 0 < Nr) (a : Arr K)
    (hd : Na * Nr ∣ a.shape.prod) :
    mirror Na Nr a = .ok ⟨a.shape, fun k => a.data ⟨flip0Pos Na k.1, 
      flip0Pos_lt_of_dvd (Dvd.dvd.trans (Dvd.intro _ rfl) hd) k.2⟩⟩ := by
  have h0 : Na * Nr ≠ 0 := by positivity
  have h1 : [Na, Nr, a.size / (Na * Nr)].prod = a.shape.prod := by
    simp only [List.prod_cons, List.prod_nil, mul_one, Arr.size]
    rw [← mul_assoc]; exact Nat.mul_div_cancel' hd
  simp only [mirror, square, h0, if_false, Arr.reshapeF, h1, dite_true, Arr.flip0, bind,
    Except.bind]
  rfl

theorem mirror_err {Na Nr : ℕ} (hNa : 0 < Na) (hNr : 0 < Nr) (a : Arr K)
    (hd : ¬ Na * Nr ∣ a.shape.prod) : mirror Na Nr a = .error .valueError := by
  have h0 : Na * Nr ≠ 0 := by positivity
  have h1 : ¬ [Na, Nr, a.size / (Na * Nr)].prod = a.shape.prod := by
    simp only [List.prod_cons, List.prod_nil, mul_one, Arr.size]
    intro h; apply hd
    exact ⟨_, by rw [← h, mul_assoc]⟩
  simp only [mirror, square, h0, if_false, Arr.reshapeF, h1, dite_false, bind, Except.bind]

end Psgrid
end Verif
