import Verif.Lemmas.ThreePoint
import Verif.Props.C99
import Mathlib.Analysis.SpecialFunctions.Trigonometric.Series
import Mathlib.Analysis.Complex.ExponentialBounds
import Mathlib.Analysis.Calculus.Deriv.MeanValue

/-!
# C103: the one-particle problem has real, bounded energies and a nodeless ground state

`calc_orbitals` keeps the real part of what `eigs` returns.  That is harmless when the eigenvalue problem
`H₀ p + w v p = e w p` of the grid has real energies only.  Nothing here refers to the eigensolver.
-/

namespace Verif
open Spec

/-- `p` solves the Kohn-Sham equation at the complex energy `e`. -/
def Spec.SolvesComplex {G : Grid ℝ} (H0 : G.Ix → G.Ix → ℝ) (v : G.Fld) (e : ℂ) (p : G.Ix → ℂ) : Prop :=
  ∀ k, ∑ l, (H0 k l : ℂ) * p l + G.w k * v k * p k = e * (G.w k * p k)

/-- No solution has a lower energy than `e`. -/
def Spec.IsLowest {G : Grid ℝ} (H0 : G.Ix → G.Ix → ℝ) (v : G.Fld) (e : ℝ) : Prop :=
  ∀ e' p, SolvesAt H0 v e' p → (∃ k, p k ≠ 0) → e ≤ e'

/-- The radial step is small enough for the second radial point to be nearer to the first than the
scale of the hyperbolic sine; any step up to `1` is. -/
def Spec.FineRadial (hr : ℝ) : Prop := hr / 2 < Real.tanh (3 * hr / 2)

theorem Spec.fineRadial_of_le {h : ℝ} (h0 : 0 < h) (h1 : h ≤ 1) : FineRadial h := by
  unfold FineRadial
  rw [Real.tanh_eq_sinh_div_cosh, lt_div_iff₀ (Real.cosh_pos _)]
  have h3 : 3 * h / 2 < Real.sinh (3 * h / 2) := Real.self_lt_sinh_iff.mpr (by linarith)
  have h4 : Real.exp (3 * h / 2) ≤ 5 := by
    have h5 : Real.exp (3 * h / 2) ≤ Real.exp (3 / 2) := Real.exp_le_exp.mpr (by linarith)
    have h6 : Real.exp (3 / 2) ^ 2 = Real.exp 1 ^ 3 := by rw [← Real.exp_nat_mul, ← Real.exp_nat_mul]; norm_num
    have h7 : Real.exp 1 ^ 3 < 25 :=
      (pow_lt_pow_left₀ Real.exp_one_lt_d9 (Real.exp_pos _).le (by norm_num)).trans (by norm_num)
    by_contra hcon
    nlinarith [not_le.mp hcon, Real.exp_pos (3 / 2)]
  have h8 : Real.exp (-(3 * h / 2)) ≤ 1 := Real.exp_le_one_iff.mpr (by linarith)
  have h9 : Real.cosh (3 * h / 2) ≤ 3 := by rw [Real.cosh_eq]; linarith
  nlinarith

namespace Three
open FD Init Ops

theorem sin_gt {t y : ℝ} (ht : 0 < t) (h1 : t ≤ y) (h2 : y ≤ Real.pi - t) : t * |Real.cos y| < Real.sin y := by
  have key : ∀ y, t ≤ y → y < Real.pi / 2 → t * |Real.cos y| < Real.sin y := by
    intro y h1 h2
    have hc : 0 < Real.cos y := Real.cos_pos_of_mem_Ioo ⟨by linarith, h2⟩
    have := Real.lt_tan (by linarith) h2
    rw [Real.tan_eq_sin_div_cos, lt_div_iff₀ hc] at this
    rw [abs_of_pos hc]
    nlinarith
  rcases lt_trichotomy y (Real.pi / 2) with h | h | h
  · exact key y h1 h
  · rw [h]; simp
  · have := key (Real.pi - y) (by linarith) (by linarith)
    rwa [Real.cos_pi_sub, abs_neg, Real.sin_pi_sub] at this

theorem cosh_lt_sinh {h x : ℝ} (hf : FineRadial h) (hx : 3 * h / 2 ≤ x) : h / 2 * Real.cosh x < Real.sinh x := by
  unfold FineRadial at hf
  rw [Real.tanh_eq_sinh_div_cosh, lt_div_iff₀ (Real.cosh_pos _)] at hf
  have h1 : 0 ≤ Real.sinh (x - 3 * h / 2) := Real.sinh_nonneg_iff.mpr (by linarith)
  rw [Real.sinh_sub] at h1
  have hc := Real.cosh_pos (3 * h / 2)
  have hx' := Real.cosh_pos x
  by_contra hcon
  have h2 : Real.sinh x * Real.cosh (3 * h / 2) ≤ h / 2 * Real.cosh x * Real.cosh (3 * h / 2) :=
    mul_le_mul_of_nonneg_right (not_lt.mp hcon) hc.le
  nlinarith

/-- The centrifugal term outweighs what the odd continuation gains at the innermost radial points. -/
theorem centrifugal {x : ℝ} (h0 : 0 < x) (h1 : x < 1) :
    Real.sinh x * (x * Real.cosh x - Real.sinh x) ≤ 2 * x ^ 2 := by
  have hs : x < Real.sinh x := Real.self_lt_sinh_iff.mpr h0
  have hc : Real.cosh x ≤ 7 / 4 := by
    refine (Real.cosh_le_exp_half_sq x).trans ?_
    have h2 : Real.exp (x ^ 2 / 2) ≤ Real.exp (1 / 2) := Real.exp_le_exp.mpr (by nlinarith)
    have h3 : Real.exp (1 / 2) ^ 2 = Real.exp 1 := by rw [← Real.exp_nat_mul]; norm_num
    have h4 : Real.exp 1 < 2.7182818286 := Real.exp_one_lt_d9
    have h5 : Real.exp (1 / 2) ≤ 7 / 4 := by
      by_contra hcon
      nlinarith [not_le.mp hcon]
    linarith
  have hsc : Real.sinh x ≤ x * Real.cosh x := by
    obtain ⟨c, hc, he⟩ := exists_deriv_eq_slope Real.sinh h0 Real.continuous_sinh.continuousOn
      Real.differentiable_sinh.differentiableOn
    rw [Real.deriv_sinh, Real.sinh_zero, sub_zero, sub_zero, eq_div_iff h0.ne'] at he
    have := Real.cosh_le_cosh.mpr (abs_le_abs_of_nonneg hc.1.le hc.2.le)
    nlinarith
  have hc1 := Real.one_le_cosh x
  have h2 : x * Real.cosh x - Real.sinh x ≤ x * Real.cosh x - x := by linarith
  have h3 : 0 ≤ x * Real.cosh x - Real.sinh x := by linarith
  calc Real.sinh x * (x * Real.cosh x - Real.sinh x) ≤ (x * Real.cosh x) * (x * Real.cosh x - x) :=
        mul_le_mul hsc h2 h3 (by positivity)
    _ = x ^ 2 * (Real.cosh x * (Real.cosh x - 1)) := by ring
    _ ≤ x ^ 2 * 2 := mul_le_mul_of_nonneg_left (by nlinarith) (sq_nonneg x)
    _ = 2 * x ^ 2 := by ring

/-- What is needed of a one-particle problem. -/
structure Nice {ι : Type*} [Fintype ι] (H : ι → ι → ℝ) (d : ι → ℝ) : Prop where
  pos : ∀ k, 0 < d k
  bal : Ground.Balanced H d
  off : ∀ k l, k ≠ l → H k l ≤ 0
  conn : ∀ k l, Relation.ReflTransGen (fun a b => a ≠ b ∧ H a b < 0) k l

theorem Nice.potential {ι : Type*} [Fintype ι] [DecidableEq ι] {H : ι → ι → ℝ} {d : ι → ℝ} (h : Nice H d) (u : ι → ℝ) :
    Nice (fun k l => H k l + if k = l then u k else 0) d where
  pos := h.pos
  bal k l := by
    by_cases hkl : k = l
    · rw [hkl]
    · simp only [if_neg hkl, if_neg (Ne.symm hkl), add_zero]; exact h.bal k l
  off k l hkl := by rw [if_neg hkl, add_zero]; exact h.off k l hkl
  conn k l := Relation.ReflTransGen.mono (fun a b hab => ⟨hab.1, by rw [if_neg hab.1, add_zero]; exact hab.2⟩) _ _
    (h.conn k l)

variable {Na Nr : ℕ} {a L : ℝ}

/-- Off-diagonal coefficients of the angular part: outwards and inwards. -/
noncomputable def upA (Na : ℕ) (i : Fin Na) : ℝ := Real.sin (xa Na i) / ha Na ^ 2 + Real.cos (xa Na i) / (2 * ha Na)
/-- see `upA` -/
noncomputable def dnA (Na : ℕ) (i : Fin Na) : ℝ := Real.sin (xa Na i) / ha Na ^ 2 - Real.cos (xa Na i) / (2 * ha Na)
/-- Off-diagonal coefficients of the radial part. -/
noncomputable def upR (Nr : ℕ) (L : ℝ) (j : Fin Nr) : ℝ :=
  Real.sinh (xr Nr L j) / hr Nr L ^ 2 + Real.cosh (xr Nr L j) / (2 * hr Nr L)
/-- see `upR` -/
noncomputable def dnR (Nr : ℕ) (L : ℝ) (j : Fin Nr) : ℝ :=
  Real.sinh (xr Nr L j) / hr Nr L ^ 2 - Real.cosh (xr Nr L j) / (2 * hr Nr L)

theorem ha_pos {Na : ℕ} (i : Fin Na) : 0 < ha Na := by
  rw [ha_eq]
  have : (0 : ℝ) < Na := by exact_mod_cast (Nat.zero_le _).trans_lt i.2
  exact div_pos Real.pi_pos this

theorem hr_pos {Nr : ℕ} {L : ℝ} (hL : 0 < L) (j : Fin Nr) : 0 < hr Nr L := by
  rw [hr_eq]
  have : (0 : ℝ) < Nr := by exact_mod_cast (Nat.zero_le _).trans_lt j.2
  exact div_pos hL this

theorem xa_bounds (i : Fin Na) : ha Na / 2 ≤ xa Na i ∧ xa Na i ≤ Real.pi - ha Na / 2 := by
  have h0 := ha_pos i
  have key : ∀ i : Fin Na, ha Na / 2 ≤ xa Na i := by
    intro i
    have : xa Na i = ((i.1 : ℝ) + 1 / 2) * ha Na := by rw [xa_eq, ha_eq]; ring
    rw [this]
    have : (0 : ℝ) ≤ i.1 := Nat.cast_nonneg _
    nlinarith
  refine ⟨key i, ?_⟩
  have := key i.rev
  rw [xa_rev] at this
  linarith

theorem angular_pos (i : Fin Na) : 0 < upA Na i ∧ 0 < dnA Na i := by
  have h0 := ha_pos i
  obtain ⟨h1, h2⟩ := xa_bounds i
  have h := sin_gt (by linarith) h1 h2
  have hc := abs_le.mp (le_refl |Real.cos (xa Na i)|)
  have e1 : upA Na i = (Real.sin (xa Na i) + ha Na / 2 * Real.cos (xa Na i)) / ha Na ^ 2 := by
    unfold upA; field_simp
  have e2 : dnA Na i = (Real.sin (xa Na i) - ha Na / 2 * Real.cos (xa Na i)) / ha Na ^ 2 := by
    unfold dnA; field_simp
  rw [e1, e2]
  exact ⟨div_pos (by nlinarith) (by positivity), div_pos (by nlinarith) (by positivity)⟩

theorem radial_pos (hL : 0 < L) (j : Fin Nr) : 0 < upR Nr L j := by
  have h0 := hr_pos hL j
  have h1 : 0 < Real.sinh (xr Nr L j) := Real.sinh_pos_iff.mpr (xr_pos hL j)
  have h2 := Real.cosh_pos (xr Nr L j)
  unfold upR
  positivity

theorem dnR_eq (hL : 0 < L) (j : Fin Nr) :
    dnR Nr L j = (Real.sinh (xr Nr L j) - hr Nr L / 2 * Real.cosh (xr Nr L j)) / hr Nr L ^ 2 := by
  have h0 := hr_pos hL j
  unfold dnR; field_simp

theorem radial_pos' (hL : 0 < L) (hf : FineRadial (hr Nr L)) (j : Fin Nr) (hj : 0 < j.1) : 0 < dnR Nr L j := by
  have h0 := hr_pos hL j
  have hx : 3 * hr Nr L / 2 ≤ xr Nr L j := by
    have : xr Nr L j = ((j.1 : ℝ) + 1 / 2) * hr Nr L := by rw [xr_eq, hr_eq]; ring
    rw [this]
    have : (1 : ℝ) ≤ j.1 := by exact_mod_cast hj
    nlinarith
  rw [dnR_eq hL]
  exact div_pos (by linarith [cosh_lt_sinh hf hx]) (by positivity)

/-- The Laplacian of parity `s`, three-point stencils. -/
noncomputable def lap (Na Nr : ℕ) (a L s : ℝ) : Fin (Na * Nr) → Fin (Na * Nr) → ℝ :=
  both a (fun j => Real.sinh (xr Nr L j)) (fun i => Real.sin (xa Na i)) (mat s s (upA Na) (dnA Na))
    (mat s 0 (upR Nr L) (dnR Nr L))

theorem laplacian_op (a : ℝ) (s : ℝ) (f : Fin (Na * Nr) → ℝ) (i : Fin Na) (j : Fin Nr) :
    Spec.laplacian a (xa Na i) (xr Nr L j)
        (diffA (k := 1) (![1, -2, 1] : Fin (2 * 1 + 1) → ℝ) (ha Na) 2 s f i j)
        (diffA (k := 1) (![-1/2, 0, 1/2] : Fin (2 * 1 + 1) → ℝ) (ha Na) 1 s f i j)
        (diffR (k := 1) (![1, -2, 1] : Fin (2 * 1 + 1) → ℝ) (hr Nr L) 2 s (fun _ => 0) f i j)
        (diffR (k := 1) (![-1/2, 0, 1/2] : Fin (2 * 1 + 1) → ℝ) (hr Nr L) 1 s (fun _ => 0) f i j) =
      a * (Real.sinh (xr Nr L j) * op s s (upA Na) (dnA Na) (lineA f j) i +
        Real.sin (xa Na i) * op s 0 (upR Nr L) (dnR Nr L) (lineR f i) j) := by
  unfold Spec.laplacian diffA diffR
  rw [op_eq (s := s) (s' := s) (reflect s (lineA f j)) (lineA f j) i
      (fun h => by
        unfold reflect
        have : ((Na : ℤ) - 1 - (0 : ℕ)) = (i.1 : ℤ) := by omega
        rw [this, FD.val_of_lt _ _ i.2])
      (fun i => Real.sin (xa Na i)) (fun i => Real.cos (xa Na i)) (fun _ => ha Na),
    op_eq (s := s) (s' := 0) (fun _ => 0) (lineR f i) j (fun _ => by ring)
      (fun j => Real.sinh (xr Nr L j)) (fun j => Real.cosh (xr Nr L j)) (fun _ => hr Nr L)]
  rfl

theorem lap_entries (hNa : 1 ≤ Na) (hNr : 1 ≤ Nr) (a : ℝ) (hL : 0 < L) {ds1 ds2 : Fin (2 * 1 + 1) → ℝ}
    (hds1 : FDC.Returns (fun i => ((centred 1 i : ℤ) : ℝ)) 1 (.ok ds1))
    (hds2 : FDC.Returns (fun i => ((centred 1 i : ℤ) : ℝ)) 2 (.ok ds2)) :
    ∃ R, build Na Nr 1 a L (centred 1) ds1 ds2 = .ok R ∧ (∀ k l, R.elap k l = lap Na Nr a L 1 k l) ∧
      ∀ k l, R.olap k l = lap Na Nr a L (-1) k l := by
  obtain rfl : ds1 = ![-1/2, 0, 1/2] :=
    Except.ok.inj ((C10_deterministic _ (centred_injective 1) 1).unique hds1 FD.three_point)
  obtain rfl : ds2 = ![1, -2, 1] :=
    Except.ok.inj ((C10_deterministic _ (centred_injective 1) 2).unique hds2 FD.three_point2)
  obtain ⟨R, hR, h1, h2⟩ := C14_separable (k := 1) one_pos hNa hNr a hL _ _ hds1 hds2
  refine ⟨R, hR, both_of_lines fun f i j => ?_, both_of_lines fun f i j => ?_⟩
  · rw [h1]; exact laplacian_op a 1 f i j
  · rw [h2]; exact laplacian_op a (-1) f i j

/-- `-½ lap` plus any diagonal term is a good one-particle problem. -/
theorem nice (ha0 : 0 < a) (hL : 0 < L) (hf : FineRadial (hr Nr L)) (s : ℝ) (u : Fin (Na * Nr) → ℝ) :
    ∃ d, Nice (fun k l => -(1 / 2) * lap Na Nr a L s k l + if k = l then u k else 0) d := by
  have hp : ∀ j : Fin Nr, 0 < Real.sinh (xr Nr L j) := fun j => Real.sinh_pos_iff.mpr (xr_pos hL j)
  have hq : ∀ i : Fin Na, 0 < Real.sin (xa Na i) := fun i => Real.sin_pos_of_pos_of_lt_pi (xa_pos i) (xa_lt_pi i)
  have a1 : ∀ r : Fin Na, r.1 + 1 < Na → 0 < upA Na r := fun r _ => (angular_pos r).1
  have a2 : ∀ r : Fin Na, 0 < r.1 → 0 < dnA Na r := fun r _ => (angular_pos r).2
  have b1 : ∀ r : Fin Nr, r.1 + 1 < Nr → 0 < upR Nr L r := fun r _ => radial_pos hL r
  have b2 := radial_pos' hL hf
  refine ⟨fun k => weight (upA Na) (dnA Na) (ia k).1 * weight (upR Nr L) (dnR Nr L) (ir k).1, ?_⟩
  refine Nice.potential (H := fun k l => -(1 / 2) * lap Na Nr a L s k l) ⟨fun k => mul_pos (weight_pos a1 a2 _) (weight_pos b1 b2 _), fun k l => ?_,
    fun k l h => ?_, fun k l => ?_⟩ u
  · have := both_balanced (a := a) (p := fun j : Fin Nr => Real.sinh (xr Nr L j)) (q := fun i : Fin Na => Real.sin (xa Na i))
      (dA := fun i => weight (upA Na) (dnA Na) i.1) (dB := fun j => weight (upR Nr L) (dnR Nr L) j.1)
      (balanced (s := s) (s' := s) (up := upA Na) a2) (balanced (s := s) (s' := 0) (up := upR Nr L) b2) k l
    unfold lap
    linear_combination -(1 / 2) * this
  · have := both_nonneg ha0 hp hq (fun i i' h => mat_nonneg (s := s) (s' := s) a1 a2 h)
      (fun j j' h => mat_nonneg (s := s) (s' := 0) b1 b2 h) h
    unfold lap
    linarith
  · refine Relation.ReflTransGen.mono (fun x y hxy => ⟨hxy.1, ?_⟩) _ _ (both_connected ha0 hp hq
      (connected (s := s) (s' := s) a1 a2) (connected (s := s) (s' := 0) b1 b2) k l)
    have := hxy.2
    unfold lap
    linarith

theorem lap_row (s : ℝ) (k : Fin (Na * Nr)) : ∑ l, lap Na Nr a L s k l =
    a * (Real.sinh (xr Nr L (ir k)) * op s s (upA Na) (dnA Na) (fun _ => 1) (ia k) +
      Real.sin (xa Na (ia k)) * op s 0 (upR Nr L) (dnR Nr L) (fun _ => 1) (ir k)) := by
  rw [← sum_mat, ← sum_mat, sum_grid]
  unfold lap both
  simp only [ia_at2, ir_at2, mul_one]
  simp_rw [← Finset.mul_sum, Finset.sum_add_distrib, ← Finset.mul_sum]
  congr 3
  · refine Finset.sum_congr rfl fun i _ => ?_
    simp
  · rw [Finset.sum_comm]
    refine Finset.sum_congr rfl fun j _ => ?_
    simp

/-- Parity of the Laplacian used for magnetic quantum number `m`. -/
noncomputable def sgn (m : ℕ) : ℝ := if m % 2 = 0 then 1 else -1

theorem hamiltonian_entries (hNa : 1 ≤ Na) (hNr : 1 ≤ Nr) (a : ℝ) (hL : 0 < L) {ds1 ds2 : Fin (2 * 1 + 1) → ℝ}
    (hds1 : FDC.Returns (fun i => ((centred 1 i : ℤ) : ℝ)) 1 (.ok ds1))
    (hds2 : FDC.Returns (fun i => ((centred 1 i : ℤ) : ℝ)) 2 (.ok ds2)) :
    ∃ R, build Na Nr 1 a L (centred 1) ds1 ds2 = .ok R ∧ ∀ (m : ℕ) (w f : Fin (Na * Nr) → ℝ) (k l),
      Solver.hamiltonian m R.elap R.olap w f k l =
        -(1 / 2) * lap Na Nr a L (sgn m) k l + if k = l then (m : ℝ) ^ 2 * w k * f k else 0 := by
  obtain ⟨R, hR, h1, h2⟩ := lap_entries hNa hNr a hL hds1 hds2
  refine ⟨R, hR, fun m w f k l => ?_⟩
  have hd : (((m : ℝ) ^ 2 • diag w) * diag f) k l = if k = l then (m : ℝ) ^ 2 * w k * f k else 0 := by
    rw [Matrix.mul_apply, Finset.sum_eq_single k]
    · simp only [Matrix.smul_apply, diag, if_true, smul_eq_mul]
      split_ifs <;> ring
    · intro b _ hb
      simp [diag, hb.symm]
    · intro h; exact absurd (Finset.mem_univ _) h
  unfold Solver.hamiltonian sgn
  split
  · rw [Matrix.add_apply, hd, Matrix.smul_apply, h1, smul_eq_mul]
  · rw [Matrix.add_apply, hd, Matrix.smul_apply, h2, smul_eq_mul]

theorem w_pos (ha : 0 < a) (hL : 0 < L) (k : Fin (Na * Nr)) : 0 < Init.w Na Nr a L k := by
  have h1 := Init.sin_pos k
  have h2 := Init.sinh_pos hL k
  rw [w_eq]
  positivity

theorem wf_eq (ha0 : 0 < a) (hL : 0 < L) (k : Fin (Na * Nr)) : Init.w Na Nr a L k * Init.f Na Nr a L k =
    a / 2 * (Real.sin (xa Na (ia k)) / Real.sinh (xr Nr L (ir k)) + Real.sinh (xr Nr L (ir k)) / Real.sin (xa Na (ia k))) := by
  have h1 := Init.sin_pos k
  have h2 := Init.sinh_pos hL k
  rw [w_eq, f_eq]
  unfold Xa at *
  unfold Xr at *
  field_simp
  ring

/-- The rows of `H₀` add up to at least zero, for even `m` to at least the centrifugal term. -/
theorem row_bound (ha0 : 0 < a) (hL : 0 < L) (hf : FineRadial (hr Nr L)) (m : ℕ) (k : Fin (Na * Nr)) :
    (Even m → 0 ≤ -(1 / 2) * ∑ l, lap Na Nr a L (sgn m) k l) ∧
    0 ≤ -(1 / 2) * (∑ l, lap Na Nr a L (sgn m) k l) + (m : ℝ) ^ 2 * (Init.w Na Nr a L k * Init.f Na Nr a L k) := by
  have hS := Real.sinh_pos_iff.mpr (xr_pos hL (ir k))
  have hs : 0 < Real.sin (xa Na (ia k)) := Real.sin_pos_of_pos_of_lt_pi (xa_pos _) (xa_lt_pi _)
  obtain ⟨ha1, ha2⟩ := angular_pos (ia k)
  have hr1 := radial_pos hL (ir k)
  rw [lap_row, op_one, op_one, wf_eq ha0 hL]
  have hwf : 0 < a / 2 * (Real.sin (xa Na (ia k)) / Real.sinh (xr Nr L (ir k)) +
      Real.sinh (xr Nr L (ir k)) / Real.sin (xa Na (ia k))) := by positivity
  set S := Real.sinh (xr Nr L (ir k)) with hSd
  set σ := Real.sin (xa Na (ia k)) with hσ
  have hlast : (0 : ℝ) ≤ if (ir k).1 + 1 < Nr then 0 else (1 - 0) * upR Nr L (ir k) := by
    split
    · exact le_refl _
    · linarith
  have heven : sgn m = 1 → 0 ≤ -(1 / 2) * (a * (S * (-(if (ia k).1 + 1 < Na then 0 else (1 - sgn m) * upA Na (ia k)) -
      if 0 < (ia k).1 then 0 else (1 - sgn m) * dnA Na (ia k)) + σ * (-(if (ir k).1 + 1 < Nr then 0 else (1 - 0) * upR Nr L (ir k)) -
      if 0 < (ir k).1 then 0 else (1 - sgn m) * dnR Nr L (ir k)))) := by
    intro h
    rw [h]
    simp only [sub_self, zero_mul, ite_self, neg_zero, mul_zero, zero_add, sub_zero]
    simp only [sub_zero] at hlast
    have := mul_nonneg (mul_nonneg ha0.le hs.le) hlast
    linarith
  constructor
  · intro hm
    exact heven (by unfold sgn; rw [if_pos (Nat.even_iff.mp hm)])
  · by_cases hm : m % 2 = 0
    · have := heven (by unfold sgn; rw [if_pos hm])
      have h2 := mul_nonneg (sq_nonneg (m : ℝ)) hwf.le
      linarith
    · have hsg : sgn m = -1 := by unfold sgn; rw [if_neg hm]
      have hm1 : (1 : ℝ) ≤ (m : ℝ) ^ 2 := by
        have : 1 ≤ m := by omega
        have : (1 : ℝ) ≤ m := by exact_mod_cast this
        nlinarith
      rw [hsg]
      have hA : (0 : ℝ) ≤ (if (ia k).1 + 1 < Na then 0 else (1 - -1) * upA Na (ia k)) +
          if 0 < (ia k).1 then 0 else (1 - -1) * dnA Na (ia k) := by
        refine add_nonneg ?_ ?_ <;> split <;> linarith
      have hB : -(1 / S) ≤ (if 0 < (ir k).1 then 0 else (1 - -1) * dnR Nr L (ir k)) := by
        have hS' : 0 < 1 / S := by positivity
        split
        · linarith
        · next h0 =>
          have hj : xr Nr L (ir k) = hr Nr L / 2 := by
            rw [xr_eq, hr_eq, show (ir k).1 = 0 by omega]; push_cast; ring
          have hh := hr_pos hL (ir k)
          have hlt : hr Nr L / 2 < 1 := hf.trans (Real.tanh_lt_one _)
          have hc := centrifugal (by linarith : 0 < hr Nr L / 2) hlt
          rw [dnR_eq hL, ← hSd]
          rw [← hj] at hc
          rw [← hSd] at hc
          have hx : hr Nr L = 2 * xr Nr L (ir k) := by rw [hj]; ring
          have hxp := xr_pos hL (ir k)
          rw [hx]
          have e1 : (1 - -1 : ℝ) * ((S - 2 * xr Nr L (ir k) / 2 * Real.cosh (xr Nr L (ir k))) / (2 * xr Nr L (ir k)) ^ 2) - -(1 / S) =
              (2 * xr Nr L (ir k) ^ 2 - S * (xr Nr L (ir k) * Real.cosh (xr Nr L (ir k)) - S)) / (2 * xr Nr L (ir k) ^ 2 * S) := by
            field_simp
            ring
          have : 0 ≤ (2 * xr Nr L (ir k) ^ 2 - S * (xr Nr L (ir k) * Real.cosh (xr Nr L (ir k)) - S)) / (2 * xr Nr L (ir k) ^ 2 * S) :=
            div_nonneg (by linarith) (by positivity)
          linarith
      have h1 : 0 ≤ a * (S * ((if (ia k).1 + 1 < Na then 0 else (1 - -1) * upA Na (ia k)) +
          if 0 < (ia k).1 then 0 else (1 - -1) * dnA Na (ia k))) := mul_nonneg ha0.le (mul_nonneg hS.le hA)
      have h2 : 0 ≤ a * (σ * (if (ir k).1 + 1 < Nr then 0 else (1 - 0) * upR Nr L (ir k))) :=
        mul_nonneg ha0.le (mul_nonneg hs.le hlast)
      have h3 : a * (σ * -(1 / S)) ≤ a * (σ * (if 0 < (ir k).1 then 0 else (1 - -1) * dnR Nr L (ir k))) :=
        mul_le_mul_of_nonneg_left (mul_le_mul_of_nonneg_left hB hs.le) ha0.le
      have h4 : a / 2 * (σ / S + S / σ) ≤ (m : ℝ) ^ 2 * (a / 2 * (σ / S + S / σ)) := by nlinarith
      have h5 : 0 ≤ a / 2 * (S / σ) := by positivity
      have h6 : a * (σ * -(1 / S)) = -2 * (a / 2 * (σ / S)) := by ring
      have h7 : a / 2 * (σ / S + S / σ) = a / 2 * (σ / S) + a / 2 * (S / σ) := by ring
      generalize (if (ia k).1 + 1 < Na then 0 else (1 - -1) * upA Na (ia k)) = A1 at *
      generalize (if 0 < (ia k).1 then 0 else (1 - -1) * dnA Na (ia k)) = A2 at *
      generalize (if (ir k).1 + 1 < Nr then 0 else (1 - 0) * upR Nr L (ir k)) = A3 at *
      generalize (if 0 < (ir k).1 then 0 else (1 - -1) * dnR Nr L (ir k)) = A4 at *
      have h8 : -(1 / 2) * (a * (S * (-A1 - A2) + σ * (-A3 - A4))) =
          (1 / 2) * (a * (S * (A1 + A2)) + a * (σ * A3) + a * (σ * A4)) := by ring
      rw [h8]
      linarith

end Three

section
open FD Init Ops Three
variable {NP NMa NMr : ℕ} {a L : ℝ} {wa : Fin (NC.npts NP NMa) → ℝ} {wr : Fin (NC.npts NP NMr) → ℝ}
  {ds1 ds2 : Fin (2 * 1 + 1) → ℝ}

theorem Spec.SolvesAt.ground {G : Grid ℝ} {H0 : G.Ix → G.Ix → ℝ} {v : G.Fld} {e : ℝ} {p : G.Fld} :
    SolvesAt H0 v e p ↔ Ground.Solves (fun k l => H0 k l + if k = l then G.w k * v k else 0) G.w e p := by
  refine forall_congr' fun k => ?_
  simp only [add_mul, Finset.sum_add_distrib, ite_mul, zero_mul, Finset.sum_ite_eq, Finset.mem_univ, if_true]

theorem Three.setup (ha : 0 < a) (hL : 0 < L) (hf : FineRadial (hr (NC.npts NP NMr) L))
    (hds1 : FDC.Returns (fun i => ((centred 1 i : ℤ) : ℝ)) 1 (.ok ds1))
    (hds2 : FDC.Returns (fun i => ((centred 1 i : ℤ) : ℝ)) 2 (.ok ds2)) (m : ℕ) :
    ∃ R, build (NC.npts NP NMa) (NC.npts NP NMr) 1 a L (centred 1) ds1 ds2 = .ok R ∧
      (∃ d, ∀ u : Fin (NC.npts NP NMa * NC.npts NP NMr) → ℝ, Nice (fun k l => Solver.hamiltonian m R.elap R.olap (Init.w _ _ a L) (Init.f _ _ a L) k l +
        if k = l then u k else 0) d) ∧
      ∀ k, (Even m → (m : ℝ) ^ 2 * (Init.w _ _ a L k * Init.f _ _ a L k) ≤
          ∑ l, Solver.hamiltonian m R.elap R.olap (Init.w _ _ a L) (Init.f _ _ a L) k l) ∧
        0 ≤ ∑ l, Solver.hamiltonian m R.elap R.olap (Init.w _ _ a L) (Init.f _ _ a L) k l := by
  obtain ⟨R, hR, h⟩ := hamiltonian_entries (Na := NC.npts NP NMa) (Nr := NC.npts NP NMr) (Nat.succ_pos _)
    (Nat.succ_pos _) a hL hds1 hds2
  refine ⟨R, hR, ?_, fun k => ?_⟩
  · obtain ⟨d, hd⟩ := nice (Na := NC.npts NP NMa) ha hL hf (sgn m)
      (fun k => (m : ℝ) ^ 2 * Init.w _ _ a L k * Init.f _ _ a L k)
    refine ⟨d, fun u => ?_⟩
    have := hd.potential u
    convert this using 4
    exact h m _ _ _ _
  · have hsum : ∑ l, Solver.hamiltonian m R.elap R.olap (Init.w _ _ a L) (Init.f _ _ a L) k l =
        -(1 / 2) * (∑ l, lap _ _ a L (sgn m) k l) + (m : ℝ) ^ 2 * (Init.w _ _ a L k * Init.f _ _ a L k) := by
      simp only [h, Finset.sum_add_distrib, ← Finset.mul_sum, Finset.sum_ite_eq, Finset.mem_univ, if_true]
      ring
    obtain ⟨h1, h2⟩ := row_bound (Na := NC.npts NP NMa) ha hL hf m k
    rw [hsum]
    exact ⟨fun hm => by linarith [h1 hm], h2⟩

/-- C103, real energies, partial: with three-point stencils and a radial step that is not too coarse, no
potential makes the one-particle problem have a solution at a complex energy.  Taking real parts
loses nothing.  Missing: coarse grids (`C103_refuted`) and wider stencils (`C103_refuted_wide`). -/
theorem C103_real_partial (ha : 0 < a) (hL : 0 < L) (hf : FineRadial (hr (NC.npts NP NMr) L))
    (hds1 : FDC.Returns (fun i => ((centred 1 i : ℤ) : ℝ)) 1 (.ok ds1))
    (hds2 : FDC.Returns (fun i => ((centred 1 i : ℤ) : ℝ)) 2 (.ok ds2)) (m : ℕ) :
    ∃ R, build (NC.npts NP NMa) (NC.npts NP NMr) 1 a L (centred 1) ds1 ds2 = .ok R ∧
      ∀ v e p, SolvesComplex (G := mkGrid NP NMa NMr a L wa wr)
        (Solver.hamiltonian m R.elap R.olap (Init.w _ _ a L) (Init.f _ _ a L)) v e p → (∃ k, p k ≠ 0) → e.im = 0 := by
  obtain ⟨R, hR, ⟨d, hd⟩, -⟩ := Three.setup (NP := NP) (NMa := NMa) (NMr := NMr) ha hL hf hds1 hds2 m
  refine ⟨R, hR, fun v e p hp h0 => ?_⟩
  have hn := hd fun k => Init.w _ _ a L k * v k
  refine Ground.real hn.bal hn.pos (fun k => Three.w_pos ha hL k) (fun k => ?_) h0
  rw [← hp k]
  simp only [Complex.ofReal_add, add_mul, Finset.sum_add_distrib]
  congr 1
  rw [Finset.sum_eq_single k]
  · simp
  · intro b _ hb; rw [if_neg hb.symm]; simp
  · intro h; exact absurd (Finset.mem_univ _) h

/-- C103, orthogonality and variational principle, partial: there is one positive weight `d`, the same for
all potentials, for which orbitals of different energies are orthogonal and no trial function has a
smaller energy than the lowest solution.  Missing: as in `C103_real_partial`. -/
theorem C103_variational_partial (ha : 0 < a) (hL : 0 < L) (hf : FineRadial (hr (NC.npts NP NMr) L))
    (hds1 : FDC.Returns (fun i => ((centred 1 i : ℤ) : ℝ)) 1 (.ok ds1))
    (hds2 : FDC.Returns (fun i => ((centred 1 i : ℤ) : ℝ)) 2 (.ok ds2)) (m : ℕ) :
    ∃ R, build (NC.npts NP NMa) (NC.npts NP NMr) 1 a L (centred 1) ds1 ds2 = .ok R ∧
      let G := mkGrid NP NMa NMr a L wa wr
      let H0 : G.Ix → G.Ix → ℝ := Solver.hamiltonian m R.elap R.olap (Init.w _ _ a L) (Init.f _ _ a L)
      ∃ d : G.Fld, (∀ k, 0 < d k) ∧
        (∀ v e e' p q, SolvesAt H0 v e p → SolvesAt H0 v e' q → e ≠ e' → ∑ k, d k * G.w k * (p k * q k) = 0) ∧
        ∀ v e, IsLowest H0 v e → ∀ q : G.Fld, e * ∑ k, d k * G.w k * q k ^ 2 ≤
          ∑ k, d k * q k * (∑ l, H0 k l * q l + G.w k * v k * q k) := by
  obtain ⟨R, hR, ⟨d, hd⟩, -⟩ := Three.setup (NP := NP) (NMa := NMa) (NMr := NMr) ha hL hf hds1 hds2 m
  refine ⟨R, hR, d, (hd 0).pos, fun v e e' p q hp hq hne => ?_, fun v e he q => ?_⟩
  · have hn := hd fun k => Init.w _ _ a L k * v k
    exact Ground.orthogonal hn.bal (SolvesAt.ground.mp hp) (SolvesAt.ground.mp hq) hne
  · have hn := hd fun k => Init.w _ _ a L k * v k
    have := Ground.variational hn.bal hn.pos (fun k => Three.w_pos ha hL k)
      (fun e' p hp h0 => he e' p (SolvesAt.ground.mpr hp) h0) q
    refine this.trans (le_of_eq ?_)
    refine Finset.sum_congr rfl fun k _ => ?_
    simp only [add_mul, Finset.sum_add_distrib, ite_mul, zero_mul, Finset.sum_ite_eq, Finset.mem_univ, if_true]

/-- C103, lower bound, partial: no energy is below the bottom of the potential, for even `m` with the
centrifugal potential included.  Missing: as in `C103_real_partial`. -/
theorem C103_bound_partial (ha : 0 < a) (hL : 0 < L) (hf : FineRadial (hr (NC.npts NP NMr) L))
    (hds1 : FDC.Returns (fun i => ((centred 1 i : ℤ) : ℝ)) 1 (.ok ds1))
    (hds2 : FDC.Returns (fun i => ((centred 1 i : ℤ) : ℝ)) 2 (.ok ds2)) (m : ℕ) :
    ∃ R, build (NC.npts NP NMa) (NC.npts NP NMr) 1 a L (centred 1) ds1 ds2 = .ok R ∧
      ∀ v e p c, SolvesAt (G := mkGrid NP NMa NMr a L wa wr)
        (Solver.hamiltonian m R.elap R.olap (Init.w _ _ a L) (Init.f _ _ a L)) v e p → (∃ k, p k ≠ 0) →
        ((∀ k, c ≤ v k) ∨ Even m ∧ ∀ k, c ≤ v k + (m : ℝ) ^ 2 * Init.f _ _ a L k) → c ≤ e := by
  obtain ⟨R, hR, ⟨d, hd⟩, hrow⟩ := Three.setup (NP := NP) (NMa := NMa) (NMr := NMr) ha hL hf hds1 hds2 m
  refine ⟨R, hR, fun v e p c hp h0 hc => ?_⟩
  have hn := hd fun k => Init.w _ _ a L k * v k
  refine Ground.bound hn.off (fun k => Three.w_pos ha hL k) (fun k => ?_) (SolvesAt.ground.mp hp) h0
  simp only [Finset.sum_add_distrib, Finset.sum_ite_eq, Finset.mem_univ, if_true]
  have hw : 0 < Init.w (NC.npts NP NMa) (NC.npts NP NMr) a L k := Three.w_pos ha hL k
  obtain ⟨r1, r2⟩ := hrow k
  change c * Init.w _ _ a L k ≤ _ + Init.w _ _ a L k * v k
  rcases hc with hc | ⟨hm, hc⟩
  · nlinarith [hc k]
  · nlinarith [hc k, r1 hm]

/-- C103, ground state, partial: in every potential there is a lowest energy; its orbital has no nodes and
is the only one at this energy up to a factor.  Missing: as in `C103_real_partial`. -/
theorem C103_ground_partial (ha : 0 < a) (hL : 0 < L) (hf : FineRadial (hr (NC.npts NP NMr) L))
    (hds1 : FDC.Returns (fun i => ((centred 1 i : ℤ) : ℝ)) 1 (.ok ds1))
    (hds2 : FDC.Returns (fun i => ((centred 1 i : ℤ) : ℝ)) 2 (.ok ds2)) (m : ℕ) :
    ∃ R, build (NC.npts NP NMa) (NC.npts NP NMr) 1 a L (centred 1) ds1 ds2 = .ok R ∧
      let G := mkGrid NP NMa NMr a L wa wr
      let H0 : G.Ix → G.Ix → ℝ := Solver.hamiltonian m R.elap R.olap (Init.w _ _ a L) (Init.f _ _ a L)
      ∀ v, ∃ e p, SolvesAt H0 v e p ∧ IsLowest H0 v e ∧ (∀ k, 0 < p k) ∧
        ∀ q, SolvesAt H0 v e q → ∃ c, ∀ k, q k = c * p k := by
  obtain ⟨R, hR, ⟨d, hd⟩, -⟩ := Three.setup (NP := NP) (NMa := NMa) (NMr := NMr) ha hL hf hds1 hds2 m
  refine ⟨R, hR, fun v => ?_⟩
  have hn := hd fun k => Init.w _ _ a L k * v k
  have hw : ∀ k, 0 < Init.w (NC.npts NP NMa) (NC.npts NP NMr) a L k := fun k => Three.w_pos ha hL k
  haveI : Nonempty (Fin (NC.npts NP NMa * NC.npts NP NMr)) := ⟨⟨0, Nat.mul_pos (Nat.succ_pos _) (Nat.succ_pos _)⟩⟩
  obtain ⟨e, p, hp, h0, hl⟩ := Ground.exists_lowest hn.bal hn.pos hw
  have hconn : ∀ k l, Relation.ReflTransGen (fun x y => (Solver.hamiltonian m R.elap R.olap (Init.w _ _ a L)
      (Init.f _ _ a L) x y + if x = y then Init.w _ _ a L x * v x else 0) < 0) k l := fun k l =>
    Relation.ReflTransGen.mono (fun x y hxy => hxy.2) _ _ (hn.conn k l)
  have hlow : IsLowest (G := mkGrid NP NMa NMr a L wa wr)
      (Solver.hamiltonian m R.elap R.olap (Init.w _ _ a L) (Init.f _ _ a L)) v e :=
    fun e' q hq hq0 => hl e' q (SolvesAt.ground.mp hq) hq0
  have huniq : ∀ q, SolvesAt (G := mkGrid NP NMa NMr a L wa wr)
      (Solver.hamiltonian m R.elap R.olap (Init.w _ _ a L) (Init.f _ _ a L)) v e q → ∃ c, ∀ k, q k = c * p k :=
    fun q hq => Ground.simple hn.bal hn.pos hw hn.off hconn hl hp h0 (SolvesAt.ground.mp hq)
  rcases Ground.nodeless hn.bal hn.pos hw hn.off hconn hl hp h0 with hpos | hneg
  · exact ⟨e, p, SolvesAt.ground.mpr hp, hlow, hpos, huniq⟩
  · refine ⟨e, fun k => -1 * p k + 0 * p k, SolvesAt.ground.mpr (hp.comb (-1) 0 hp), hlow, fun k => by linarith [hneg k],
      fun q hq => ?_⟩
    obtain ⟨c, hc⟩ := huniq q hq
    exact ⟨-c, fun k => by rw [hc k]; ring⟩

theorem Three.coarse_entries (a : ℝ) :
    lap 1 2 a 4 1 (0 : Fin 2) (1 : Fin 2) = a * (Real.sin (xa 1 0) * upR 2 4 0) ∧
    lap 1 2 a 4 1 (1 : Fin 2) (0 : Fin 2) = a * (Real.sin (xa 1 0) * dnR 2 4 1) := by
  have e0 : ir (Na := 1) (Nr := 2) (0 : Fin 2) = 0 := rfl
  have e1 : ir (Na := 1) (Nr := 2) (1 : Fin 2) = 1 := rfl
  have a0 : ia (Na := 1) (Nr := 2) (0 : Fin 2) = 0 := rfl
  have a1 : ia (Na := 1) (Nr := 2) (1 : Fin 2) = 0 := rfl
  constructor
  · unfold lap both
    rw [e0, e1, a0, a1]
    simp [mat, op, next, prev]
  · unfold lap both
    rw [e0, e1, a0, a1]
    simp [mat, op, next, prev]

/-- C103 fails on coarse radial grids: with two radial points and step `2` there is a potential in which
no energy is real, so that the real parts `calc_orbitals` keeps are no energies at all. -/
theorem C103_refuted (ha : 0 < a) {wa : Fin (NC.npts 2 0) → ℝ} {wr : Fin (NC.npts 2 1) → ℝ}
    (hds1 : FDC.Returns (fun i => ((centred 1 i : ℤ) : ℝ)) 1 (.ok ds1))
    (hds2 : FDC.Returns (fun i => ((centred 1 i : ℤ) : ℝ)) 2 (.ok ds2)) :
    ∃ R, build (NC.npts 2 0) (NC.npts 2 1) 1 a 4 (centred 1) ds1 ds2 = .ok R ∧
      let G := mkGrid 2 0 1 a 4 wa wr
      let H0 : G.Ix → G.Ix → ℝ := Solver.hamiltonian 0 R.elap R.olap (Init.w _ _ a 4) (Init.f _ _ a 4)
      ∃ v, (∃ e p, SolvesComplex H0 v e p ∧ (∃ k, p k ≠ 0) ∧ e.im ≠ 0) ∧
        ∀ e p, SolvesAt H0 v e p → ∀ k, p k = 0 := by
  obtain ⟨R, hR, h⟩ := hamiltonian_entries (Na := NC.npts 2 0) (Nr := NC.npts 2 1) (Nat.succ_pos _)
    (Nat.succ_pos _) a (by norm_num : (0 : ℝ) < 4) hds1 hds2
  refine ⟨R, hR, ?_⟩
  have hoff : ∀ k l : Fin 2, k ≠ l → Solver.hamiltonian 0 R.elap R.olap (Init.w 1 2 a 4) (Init.f 1 2 a 4) k l =
      -(1 / 2) * lap 1 2 a 4 1 k l := by
    intro k l hkl
    have := h 0 (Init.w 1 2 a 4) (Init.f 1 2 a 4) k l
    rw [this, if_neg hkl, add_zero]
    rfl
  have hx : xr 2 4 1 = 3 := by rw [xr_eq]; norm_num
  have hh : hr 2 4 = 2 := by rw [hr_eq]; norm_num
  have hs : 0 < Real.sin (xa 1 0) := Real.sin_pos_of_pos_of_lt_pi (xa_pos _) (xa_lt_pi _)
  have hup : 0 < upR 2 4 0 := radial_pos (by norm_num) 0
  have hdn : dnR 2 4 1 < 0 := by
    rw [dnR_eq (by norm_num), hx, hh]
    have := Real.sinh_lt_cosh (x := 3)
    exact div_neg_of_neg_of_pos (by linarith) (by norm_num)
  have hb : Solver.hamiltonian 0 R.elap R.olap (Init.w 1 2 a 4) (Init.f 1 2 a 4) (0 : Fin 2) (1 : Fin 2) < 0 := by
    rw [hoff 0 1 (by decide), (Three.coarse_entries a).1]
    have : 0 < a * (Real.sin (xa 1 0) * upR 2 4 0) := by positivity
    linarith
  have hc : 0 < Solver.hamiltonian 0 R.elap R.olap (Init.w 1 2 a 4) (Init.f 1 2 a 4) (1 : Fin 2) (0 : Fin 2) := by
    rw [hoff 1 0 (by decide), (Three.coarse_entries a).2]
    have := mul_pos_of_neg_of_neg (show -(a * Real.sin (xa 1 0)) < 0 by have := mul_pos ha hs; linarith) hdn
    linarith
  have w0 : 0 < Init.w 1 2 a 4 (0 : Fin 2) := Three.w_pos ha (by norm_num) _
  have w1 : 0 < Init.w 1 2 a 4 (1 : Fin 2) := Three.w_pos ha (by norm_num) _
  change let H0 : Fin 2 → Fin 2 → ℝ := Solver.hamiltonian 0 R.elap R.olap (Init.w 1 2 a 4) (Init.f 1 2 a 4)
    ∃ v : Fin 2 → ℝ, (∃ (e : ℂ) (p : Fin 2 → ℂ), (∀ k, ∑ l, (H0 k l : ℂ) * p l + Init.w 1 2 a 4 k * v k * p k =
      e * (Init.w 1 2 a 4 k * p k)) ∧ (∃ k, p k ≠ 0) ∧ e.im ≠ 0) ∧
      ∀ (e : ℝ) (p : Fin 2 → ℝ), (∀ k, ∑ l, H0 k l * p l + Init.w 1 2 a 4 k * v k * p k =
        e * (Init.w 1 2 a 4 k * p k)) → ∀ k, p k = 0
  intro H0
  generalize hA : Init.w 1 2 a 4 (0 : Fin 2) = A at w0
  generalize hB : Init.w 1 2 a 4 (1 : Fin 2) = B at w1
  change H0 0 1 < 0 at hb
  change 0 < H0 1 0 at hc
  generalize H0 = H at *
  refine ⟨![-(H 0 0) / A, -(H 1 1) / B], ⟨Complex.I * (Real.sqrt (-(H 0 1) * H 1 0 / (A * B)) : ℝ),
    ![1, Complex.I * (Real.sqrt (-(H 0 1) * H 1 0 / (A * B)) : ℝ) * A / H 0 1], fun k => ?_, ⟨0, by simp⟩, ?_⟩, ?_⟩
  · have hq : ((Real.sqrt (-(H 0 1) * H 1 0 / (A * B)) : ℝ) : ℂ) ^ 2 = (-(H 0 1) * H 1 0 / (A * B) : ℝ) := by
      rw [← Complex.ofReal_pow, Real.sq_sqrt]
      have := mul_pos (neg_pos.mpr hb) hc
      positivity
    have hA0 : (A : ℂ) ≠ 0 := by exact_mod_cast w0.ne'
    have hB0 : (B : ℂ) ≠ 0 := by exact_mod_cast w1.ne'
    have hb0 : (H 0 1 : ℂ) ≠ 0 := by exact_mod_cast hb.ne
    fin_cases k
    · simp only [Fin.sum_univ_two, Fin.zero_eta, Matrix.cons_val_zero, Matrix.cons_val_one, hA]
      push_cast
      field_simp
      ring
    · simp only [Fin.sum_univ_two, Fin.mk_one, Matrix.cons_val_zero, Matrix.cons_val_one, hB]
      push_cast at hq ⊢
      generalize ((Real.sqrt (-(H 0 1) * H 1 0 / (A * B)) : ℝ) : ℂ) = q at *
      have e1 : (H 1 0 : ℂ) = -(q ^ 2) * A * B / H 0 1 := by
        rw [hq]; field_simp
      rw [e1]
      field_simp
      rw [Complex.I_sq]
      ring
  · have : 0 < Real.sqrt (-(H 0 1) * H 1 0 / (A * B)) := Real.sqrt_pos.mpr (by
      have := mul_pos (neg_pos.mpr hb) hc
      positivity)
    simpa using this.ne'
  · intro e p hp
    have h0 := hp 0
    have h1 := hp 1
    simp only [Fin.sum_univ_two, Matrix.cons_val_zero, Matrix.cons_val_one, hA, hB] at h0 h1
    have e0 : H 0 1 * p 1 = e * (A * p 0) := by
      rw [← h0]; field_simp; ring
    have e1 : H 1 0 * p 0 = e * (B * p 1) := by
      rw [← h1]; field_simp; ring
    have key : (-(H 0 1) * B) * p 1 ^ 2 + (H 1 0 * A) * p 0 ^ 2 = 0 := by
      linear_combination (-(B * p 1)) * e0 + (A * p 0) * e1
    have k1 : 0 < -(H 0 1) * B := mul_pos (neg_pos.mpr hb) w1
    have k2 : 0 < H 1 0 * A := mul_pos hc w0
    have z1 : p 1 = 0 := by
      by_contra hne
      have : 0 < p 1 ^ 2 := by positivity
      nlinarith [mul_pos k1 this, mul_nonneg k2.le (sq_nonneg (p 0))]
    have z0 : p 0 = 0 := by
      by_contra hne
      have : 0 < p 0 ^ 2 := by positivity
      nlinarith [mul_pos k2 this, mul_nonneg k1.le (sq_nonneg (p 1))]
    intro k
    fin_cases k
    · exact z0
    · exact z1

/-- Three angular and five radial points, radial box of length `5`: the step is `1`, in any bounded
potential the lowest energy is at least its minimum and its orbital is positive. -/
example (v : Fin (NC.npts 3 1 * NC.npts 3 2) → ℝ) (hv : ∀ k, -7 ≤ v k) :
    ∃ R, build (NC.npts 3 1) (NC.npts 3 2) 1 1 5 (centred 1) (![-1/2, 0, 1/2] : Fin (2 * 1 + 1) → ℝ) ![1, -2, 1] = .ok R ∧
      ∃ e p, SolvesAt (G := mkGrid 3 1 2 1 5 (fun _ => 1) (fun _ => 1))
        (Solver.hamiltonian 0 R.elap R.olap (Init.w _ _ 1 5) (Init.f _ _ 1 5)) v e p ∧ (∀ k, 0 < p k) ∧ -7 ≤ e := by
  have hf : FineRadial (hr (NC.npts 3 2) 5) :=
    fineRadial_of_le (by rw [hr_eq]; norm_num [NC.npts]) (by rw [hr_eq]; norm_num [NC.npts])
  obtain ⟨R, hR, h⟩ := C103_ground_partial (NP := 3) (NMa := 1) (NMr := 2) (a := 1) (L := 5) (wa := fun _ => 1)
    (wr := fun _ => 1) (by norm_num) (by norm_num) hf FD.three_point FD.three_point2 0
  obtain ⟨R', hR', h'⟩ := C103_bound_partial (NP := 3) (NMa := 1) (NMr := 2) (a := 1) (L := 5) (wa := fun _ => 1)
    (wr := fun _ => 1) (by norm_num) (by norm_num) hf FD.three_point FD.three_point2 0
  obtain rfl : R = R' := Except.ok.inj (hR.symm.trans hR')
  obtain ⟨e, p, hp, -, hpos, -⟩ := h v
  exact ⟨R, hR, e, p, hp, hpos, h' v e p _ hp ⟨⟨0, by decide⟩, (hpos _).ne'⟩ (.inl hv)⟩

end
end Verif
