import Mathlib.Analysis.Matrix.PosDef
import Mathlib.Analysis.Matrix.Order
import Mathlib.Data.Complex.BigOperators

/-!
# Generalised eigenvalue problems `H p = e w p` that a positive weight makes symmetric

`H : ι → ι → ℝ` is a matrix, `w` a positive weight, `d` a positive weight with
`d k * H k l = d l * H l k`.
-/

namespace Verif
namespace Ground
variable {ι : Type*} [Fintype ι]

/-- `H p = e w p`. -/
def Solves (H : ι → ι → ℝ) (w : ι → ℝ) (e : ℝ) (p : ι → ℝ) : Prop :=
  ∀ k, ∑ l, H k l * p l = e * (w k * p k)

/-- `d` makes `H` symmetric. -/
def Balanced (H : ι → ι → ℝ) (d : ι → ℝ) : Prop := ∀ k l, d k * H k l = d l * H l k

variable {H : ι → ι → ℝ} {w d : ι → ℝ} {e : ℝ}

theorem Solves.comb {p q : ι → ℝ} (a b : ℝ) (hp : Solves H w e p) (hq : Solves H w e q) :
    Solves H w e fun k => a * p k + b * q k := by
  intro k
  have : ∑ l, H k l * (a * p l + b * q l) = a * ∑ l, H k l * p l + b * ∑ l, H k l * q l := by
    rw [Finset.mul_sum, Finset.mul_sum, ← Finset.sum_add_distrib]
    exact Finset.sum_congr rfl fun l _ => by ring
  rw [this, hp k, hq k]; ring

/-- The form `Σ d q (H p)` is symmetric. -/
theorem Balanced.form (hb : Balanced H d) (p q : ι → ℝ) :
    ∑ k, d k * q k * ∑ l, H k l * p l = ∑ k, d k * p k * ∑ l, H k l * q l := by
  simp only [Finset.mul_sum]
  rw [Finset.sum_comm]
  refine Finset.sum_congr rfl fun k _ => Finset.sum_congr rfl fun l _ => ?_
  linear_combination p k * q l * hb l k

/-- Solutions of different energy are orthogonal. -/
theorem orthogonal (hb : Balanced H d) {e e' : ℝ} {p q : ι → ℝ} (hp : Solves H w e p) (hq : Solves H w e' q)
    (hne : e ≠ e') : ∑ k, d k * w k * (p k * q k) = 0 := by
  have h := hb.form p q
  have h1 : ∑ k, d k * q k * ∑ l, H k l * p l = e * ∑ k, d k * w k * (p k * q k) := by
    rw [Finset.mul_sum]; exact Finset.sum_congr rfl fun k _ => by rw [hp k]; ring
  have h2 : ∑ k, d k * p k * ∑ l, H k l * q l = e' * ∑ k, d k * w k * (p k * q k) := by
    rw [Finset.mul_sum]; exact Finset.sum_congr rfl fun k _ => by rw [hq k]; ring
  rw [h1, h2] at h
  have : (e - e') * ∑ k, d k * w k * (p k * q k) = 0 := by linear_combination h
  exact (mul_eq_zero.mp this).resolve_left (sub_ne_zero.mpr hne)

/-- Energies are real. -/
theorem real (hb : Balanced H d) (hd : ∀ k, 0 < d k) (hw : ∀ k, 0 < w k) {e : ℂ} {p : ι → ℂ}
    (hp : ∀ k, ∑ l, (H k l : ℂ) * p l = e * (w k * p k)) (h0 : ∃ k, p k ≠ 0) : e.im = 0 := by
  have key : ∑ k, (d k : ℂ) * (starRingEnd ℂ) (p k) * ∑ l, (H k l : ℂ) * p l =
      e * ((∑ k, d k * w k * Complex.normSq (p k) : ℝ) : ℂ) := by
    rw [Complex.ofReal_sum, Finset.mul_sum]
    refine Finset.sum_congr rfl fun k _ => ?_
    rw [hp k]
    push_cast
    rw [Complex.normSq_eq_conj_mul_self]; ring
  have hself : (starRingEnd ℂ) (∑ k, (d k : ℂ) * (starRingEnd ℂ) (p k) * ∑ l, (H k l : ℂ) * p l) =
      ∑ k, (d k : ℂ) * (starRingEnd ℂ) (p k) * ∑ l, (H k l : ℂ) * p l := by
    simp only [map_sum, map_mul, Complex.conj_conj, Complex.conj_ofReal, Finset.mul_sum]
    rw [Finset.sum_comm]
    refine Finset.sum_congr rfl fun k _ => Finset.sum_congr rfl fun l _ => ?_
    have := congrArg (fun x : ℝ => (x : ℂ)) (hb l k)
    push_cast at this
    linear_combination (starRingEnd ℂ) (p k) * p l * this
  have hpos : 0 < ∑ k, d k * w k * Complex.normSq (p k) := by
    obtain ⟨k, hk⟩ := h0
    exact Finset.sum_pos' (fun l _ => mul_nonneg (mul_pos (hd l) (hw l)).le (Complex.normSq_nonneg _))
      ⟨k, Finset.mem_univ _, mul_pos (mul_pos (hd k) (hw k)) (Complex.normSq_pos.mpr hk)⟩
  rw [key] at hself
  have := congrArg Complex.im hself
  rw [Complex.conj_im, Complex.im_mul_ofReal] at this
  have : e.im * ∑ k, d k * w k * Complex.normSq (p k) = 0 := by linarith
  exact (mul_eq_zero.mp this).resolve_right hpos.ne'

/-- Energies are bounded from below by the row sums. -/
theorem bound (hoff : ∀ k l, k ≠ l → H k l ≤ 0) (hw : ∀ k, 0 < w k) {c : ℝ}
    (hrow : ∀ k, c * w k ≤ ∑ l, H k l) {p : ι → ℝ} (hp : Solves H w e p) (h0 : ∃ k, p k ≠ 0) : c ≤ e := by
  obtain ⟨k0, hk0⟩ := h0
  obtain ⟨k, -, hk⟩ := Finset.exists_max_image Finset.univ (fun k => |p k|) ⟨k0, Finset.mem_univ _⟩
  have hpk : p k ≠ 0 := by
    have := hk k0 (Finset.mem_univ _)
    exact abs_pos.mp ((abs_pos.mpr hk0).trans_le this)
  have hmul : p k * ∑ l, H k l * p l = p k * (e * (w k * p k)) := by rw [hp k]
  have h1 : (∑ l, H k l) * p k ^ 2 ≤ p k * ∑ l, H k l * p l := by
    rw [Finset.sum_mul, Finset.mul_sum]
    refine Finset.sum_le_sum fun l _ => ?_
    by_cases hl : k = l
    · subst hl; exact le_of_eq (by ring)
    · have h2 : p k * p l ≤ p k ^ 2 := by
        calc p k * p l ≤ |p k * p l| := le_abs_self _
          _ = |p k| * |p l| := abs_mul _ _
          _ ≤ |p k| * |p k| := mul_le_mul_of_nonneg_left (hk l (Finset.mem_univ _)) (abs_nonneg _)
          _ = p k ^ 2 := by rw [abs_mul_abs_self, sq]
      nlinarith [hoff k l hl]
  have h3 : 0 < w k * p k ^ 2 := mul_pos (hw k) (by positivity)
  have h4 : c * (w k * p k ^ 2) ≤ e * (w k * p k ^ 2) := by
    calc c * (w k * p k ^ 2) = c * w k * p k ^ 2 := by ring
      _ ≤ (∑ l, H k l) * p k ^ 2 := mul_le_mul_of_nonneg_right (hrow k) (sq_nonneg _)
      _ ≤ _ := h1
      _ = _ := by rw [hmul]; ring
  exact le_of_mul_le_mul_right h4 h3

/-! ## The lowest state -/

/-- `e` is the lowest energy. -/
def Lowest (H : ι → ι → ℝ) (w : ι → ℝ) (e : ℝ) : Prop :=
  ∀ e' p, Solves H w e' p → (∃ k, p k ≠ 0) → e ≤ e'

/-- The symmetric matrix of the problem. -/
noncomputable def symm (H : ι → ι → ℝ) (w d : ι → ℝ) : Matrix ι ι ℝ :=
  Matrix.of fun k l => d k * H k l / (Real.sqrt (d k * w k) * Real.sqrt (d l * w l))

omit [Fintype ι] in
theorem symm_hermitian (hb : Balanced H d) : (symm H w d).IsHermitian := by
  ext k l
  simp only [symm, Matrix.conjTranspose_apply, Matrix.of_apply, star_trivial]
  rw [hb l k, mul_comm (Real.sqrt _)]

theorem symm_mulVec (hd : ∀ k, 0 < d k) (hw : ∀ k, 0 < w k) (p : ι → ℝ) (k : ι) :
    (symm H w d).mulVec (fun l => Real.sqrt (d l * w l) * p l) k =
      d k * (∑ l, H k l * p l) / Real.sqrt (d k * w k) := by
  unfold Matrix.mulVec dotProduct symm
  simp only [Matrix.of_apply]
  rw [Finset.mul_sum, Finset.sum_div]
  refine Finset.sum_congr rfl fun l _ => ?_
  have h1 := (Real.sqrt_pos.mpr (mul_pos (hd k) (hw k))).ne'
  have h2 := (Real.sqrt_pos.mpr (mul_pos (hd l) (hw l))).ne'
  field_simp

theorem symm_form (hd : ∀ k, 0 < d k) (hw : ∀ k, 0 < w k) (p : ι → ℝ) :
    dotProduct (fun l => Real.sqrt (d l * w l) * p l)
      ((symm H w d).mulVec fun l => Real.sqrt (d l * w l) * p l) = ∑ k, d k * p k * ∑ l, H k l * p l := by
  unfold dotProduct
  refine Finset.sum_congr rfl fun k _ => ?_
  rw [symm_mulVec hd hw]
  have h1 := (Real.sqrt_pos.mpr (mul_pos (hd k) (hw k))).ne'
  field_simp

theorem solves_of_eigen (hd : ∀ k, 0 < d k) (hw : ∀ k, 0 < w k) {x : ι → ℝ}
    (hx : (symm H w d).mulVec x = e • x) : Solves H w e fun k => x k / Real.sqrt (d k * w k) := by
  intro k
  have h1 := (Real.sqrt_pos.mpr (mul_pos (hd k) (hw k))).ne'
  have hx' : (fun l => Real.sqrt (d l * w l) * (x l / Real.sqrt (d l * w l))) = x := by
    funext l
    have := (Real.sqrt_pos.mpr (mul_pos (hd l) (hw l))).ne'
    field_simp
  have h2 := symm_mulVec (H := H) hd hw (fun l => x l / Real.sqrt (d l * w l)) k
  rw [hx', hx] at h2
  change e * x k = _ at h2
  rw [eq_div_iff h1] at h2
  have h3 := Real.mul_self_sqrt (mul_pos (hd k) (hw k)).le
  refine mul_left_cancel₀ (hd k).ne' (h2.symm.trans ?_)
  field_simp
  rw [Real.sq_sqrt (mul_pos (hd k) (hw k)).le]
  ring

variable [DecidableEq ι]

theorem posSemidef (hb : Balanced H d) (hd : ∀ k, 0 < d k) (hw : ∀ k, 0 < w k) (hl : Lowest H w e) :
    (symm H w d - e • (1 : Matrix ι ι ℝ)).PosSemidef := by
  have hh : (symm H w d - e • (1 : Matrix ι ι ℝ)).IsHermitian := by
    refine (symm_hermitian hb).sub ?_
    ext k l
    simp [Matrix.one_apply, eq_comm]
  rw [hh.posSemidef_iff_eigenvalues_nonneg]
  intro j
  have h1 := hh.mulVec_eigenvectorBasis j
  set x : ι → ℝ := ⇑(hh.eigenvectorBasis j) with hxd
  have h2 : (symm H w d).mulVec x = (hh.eigenvalues j + e) • x := by
    rw [Matrix.sub_mulVec, Matrix.smul_mulVec, Matrix.one_mulVec] at h1
    rw [add_smul, ← h1, sub_add_cancel]
  have hne : x ≠ 0 := by
    intro h
    have := hh.eigenvectorBasis.orthonormal.ne_zero j
    exact this (by ext k; exact congrFun h k)
  obtain ⟨k, hk⟩ := Function.ne_iff.mp hne
  have := hl _ _ (solves_of_eigen hd hw h2)
    ⟨k, div_ne_zero hk (Real.sqrt_pos.mpr (mul_pos (hd k) (hw k))).ne'⟩
  simpa using this

/-- The variational principle. -/
theorem variational (hb : Balanced H d) (hd : ∀ k, 0 < d k) (hw : ∀ k, 0 < w k) (hl : Lowest H w e)
    (q : ι → ℝ) : e * ∑ k, d k * w k * q k ^ 2 ≤ ∑ k, d k * q k * ∑ l, H k l * q l := by
  have h := (posSemidef hb hd hw hl).dotProduct_mulVec_nonneg fun l => Real.sqrt (d l * w l) * q l
  rw [Matrix.sub_mulVec, dotProduct_sub, Matrix.smul_mulVec, Matrix.one_mulVec, dotProduct_smul] at h
  simp only [star_trivial] at h
  rw [symm_form hd hw] at h
  have : dotProduct (fun l => Real.sqrt (d l * w l) * q l) (fun l => Real.sqrt (d l * w l) * q l) =
      ∑ k, d k * w k * q k ^ 2 := by
    unfold dotProduct
    refine Finset.sum_congr rfl fun k _ => ?_
    have := Real.mul_self_sqrt (mul_pos (hd k) (hw k)).le
    linear_combination q k ^ 2 * this
  rw [this, smul_eq_mul] at h
  linarith

/-- A trial function that reaches the lowest energy is a solution. -/
theorem solves_of_form (hb : Balanced H d) (hd : ∀ k, 0 < d k) (hw : ∀ k, 0 < w k) (hl : Lowest H w e)
    (q : ι → ℝ) (hq : ∑ k, d k * q k * ∑ l, H k l * q l ≤ e * ∑ k, d k * w k * q k ^ 2) :
    Solves H w e q := by
  have hP := posSemidef hb hd hw hl
  set x : ι → ℝ := fun l => Real.sqrt (d l * w l) * q l with hx
  have hxx : dotProduct x x = ∑ k, d k * w k * q k ^ 2 := by
    unfold dotProduct
    refine Finset.sum_congr rfl fun k _ => ?_
    have := Real.mul_self_sqrt (mul_pos (hd k) (hw k)).le
    linear_combination q k ^ 2 * this
  have h0 : dotProduct (star x) ((symm H w d - e • (1 : Matrix ι ι ℝ)).mulVec x) = 0 := by
    refine le_antisymm ?_ (hP.dotProduct_mulVec_nonneg x)
    rw [Matrix.sub_mulVec, dotProduct_sub, Matrix.smul_mulVec, Matrix.one_mulVec, dotProduct_smul, star_trivial,
      hxx, hx, symm_form hd hw, smul_eq_mul]
    linarith
  rw [hP.dotProduct_mulVec_zero_iff, Matrix.sub_mulVec, Matrix.smul_mulVec, Matrix.one_mulVec, sub_eq_zero] at h0
  have h := solves_of_eigen hd hw h0
  have hq' : (fun k => x k / Real.sqrt (d k * w k)) = q := by
    funext k
    have := (Real.sqrt_pos.mpr (mul_pos (hd k) (hw k))).ne'
    rw [hx]; field_simp
  rwa [hq'] at h

/-- There is a lowest energy. -/
theorem exists_lowest [Nonempty ι] (hb : Balanced H d) (hd : ∀ k, 0 < d k) (hw : ∀ k, 0 < w k) :
    ∃ e p, Solves H w e p ∧ (∃ k, p k ≠ 0) ∧ Lowest H w e := by
  have hh := symm_hermitian (w := w) hb
  obtain ⟨j, -, hj⟩ := Finset.exists_min_image Finset.univ hh.eigenvalues Finset.univ_nonempty
  have h1 := hh.mulVec_eigenvectorBasis j
  have hne : (⇑(hh.eigenvectorBasis j) : ι → ℝ) ≠ 0 := by
    intro h
    exact hh.eigenvectorBasis.orthonormal.ne_zero j (by ext k; exact congrFun h k)
  obtain ⟨k, hk⟩ := Function.ne_iff.mp hne
  refine ⟨hh.eigenvalues j, _, solves_of_eigen hd hw h1,
    ⟨k, div_ne_zero hk (Real.sqrt_pos.mpr (mul_pos (hd k) (hw k))).ne'⟩, fun e' p hp h0 => ?_⟩
  -- every solution is an eigenvector of the symmetric matrix
  obtain ⟨k, hk⟩ := h0
  have hx : (symm H w d).mulVec (fun l => Real.sqrt (d l * w l) * p l) =
      e' • fun l => Real.sqrt (d l * w l) * p l := by
    funext i
    rw [symm_mulVec hd hw, hp i, div_eq_iff (Real.sqrt_pos.mpr (mul_pos (hd i) (hw i))).ne']
    have := Real.mul_self_sqrt (mul_pos (hd i) (hw i)).le
    change _ = e' * (_ * p i) * _
    linear_combination -e' * p i * this
  have hmem : e' ∈ spectrum ℝ (symm H w d) := by
    rw [spectrum.mem_iff]
    rintro ⟨u, hu⟩
    have h2 : (u : Matrix ι ι ℝ).mulVec (fun l => Real.sqrt (d l * w l) * p l) = 0 := by
      rw [hu, Matrix.sub_mulVec, hx, Algebra.algebraMap_eq_smul_one, Matrix.smul_mulVec, Matrix.one_mulVec, sub_self]
    have h3 := congrArg ((↑u⁻¹ : Matrix ι ι ℝ).mulVec) h2
    rw [Matrix.mulVec_mulVec, Units.inv_mul, Matrix.one_mulVec, Matrix.mulVec_zero] at h3
    exact mul_ne_zero (Real.sqrt_pos.mpr (mul_pos (hd k) (hw k))).ne' hk (congrFun h3 k)
  rw [hh.spectrum_real_eq_range_eigenvalues] at hmem
  obtain ⟨i, rfl⟩ := hmem
  exact hj i (Finset.mem_univ _)

/-- A non-negative solution of a connected problem vanishes nowhere or everywhere. -/
theorem pos_of_nonneg (hoff : ∀ k l, k ≠ l → H k l ≤ 0)
    (hconn : ∀ k l, Relation.ReflTransGen (fun a b => H a b < 0) k l) {q : ι → ℝ} (hq : Solves H w e q)
    (h0 : ∀ k, 0 ≤ q k) (hne : ∃ k, q k ≠ 0) (k : ι) : 0 < q k := by
  by_contra hk
  have hk0 : q k = 0 := le_antisymm (not_lt.mp hk) (h0 k)
  obtain ⟨l, hl⟩ := hne
  refine hl ?_
  clear hl
  have step : ∀ a b, q a = 0 → H a b < 0 → q b = 0 := by
    intro a b ha hab
    have hs := hq a
    rw [ha, mul_zero, mul_zero] at hs
    have hterm : ∀ c ∈ Finset.univ, H a c * q c ≤ 0 := by
      intro c _
      by_cases hc : a = c
      · rw [← hc, ha, mul_zero]
      · exact mul_nonpos_of_nonpos_of_nonneg (hoff a c hc) (h0 c)
    have := (Finset.sum_eq_zero_iff_of_nonpos hterm).mp hs b (Finset.mem_univ _)
    exact (mul_eq_zero.mp this).resolve_left hab.ne
  induction hconn k l with
  | refl => exact hk0
  | tail _ hbc ih => exact step _ _ ih hbc

/-- The lowest state of a connected problem has no nodes. -/
theorem nodeless (hb : Balanced H d) (hd : ∀ k, 0 < d k) (hw : ∀ k, 0 < w k)
    (hoff : ∀ k l, k ≠ l → H k l ≤ 0) (hconn : ∀ k l, Relation.ReflTransGen (fun a b => H a b < 0) k l)
    (hl : Lowest H w e) {p : ι → ℝ} (hp : Solves H w e p) (hne : ∃ k, p k ≠ 0) :
    (∀ k, 0 < p k) ∨ ∀ k, p k < 0 := by
  have habs : Solves H w e fun k => |p k| := by
    refine solves_of_form hb hd hw hl _ ?_
    have h1 : ∑ k, d k * |p k| * ∑ l, H k l * |p l| ≤ ∑ k, d k * p k * ∑ l, H k l * p l := by
      simp only [Finset.mul_sum]
      refine Finset.sum_le_sum fun k _ => Finset.sum_le_sum fun l _ => ?_
      by_cases hkl : k = l
      · subst hkl
        have := abs_mul_abs_self (p k)
        exact le_of_eq (by linear_combination d k * H k k * this)
      · have h2 : p k * p l ≤ |p k| * |p l| := (le_abs_self _).trans (abs_mul _ _).le
        have h3 : d k * H k l ≤ 0 := mul_nonpos_of_nonneg_of_nonpos (hd k).le (hoff k l hkl)
        nlinarith
    refine h1.trans (le_of_eq ?_)
    rw [Finset.mul_sum]
    refine Finset.sum_congr rfl fun k _ => ?_
    rw [hp k, sq_abs]; ring
  have hpos := pos_of_nonneg hoff hconn habs (fun k => abs_nonneg _)
    (by obtain ⟨k, hk⟩ := hne; exact ⟨k, abs_ne_zero.mpr hk⟩)
  have hsum := Solves.comb 1 1 hp habs
  by_cases hz : ∃ k, 1 * p k + 1 * |p k| ≠ 0
  · left
    intro k
    have := pos_of_nonneg hoff hconn hsum (fun k => by linarith [neg_abs_le (p k)]) hz k
    by_contra hk
    rw [abs_of_nonpos (not_lt.mp hk)] at this
    linarith
  · right
    intro k
    have := not_exists.mp hz k
    have h1 : 1 * p k + 1 * |p k| = 0 := not_not.mp this
    linarith [hpos k]

/-- The lowest energy of a connected problem is not degenerate. -/
theorem simple (hb : Balanced H d) (hd : ∀ k, 0 < d k) (hw : ∀ k, 0 < w k)
    (hoff : ∀ k l, k ≠ l → H k l ≤ 0) (hconn : ∀ k l, Relation.ReflTransGen (fun a b => H a b < 0) k l)
    (hl : Lowest H w e) {p q : ι → ℝ} (hp : Solves H w e p) (hne : ∃ k, p k ≠ 0) (hq : Solves H w e q) :
    ∃ c, ∀ k, q k = c * p k := by
  obtain ⟨k0, hk0⟩ := hne
  refine ⟨q k0 / p k0, fun k => ?_⟩
  have hr := Solves.comb 1 (-(q k0 / p k0)) hq hp
  by_contra hk
  have hz : 1 * q k0 + -(q k0 / p k0) * p k0 = 0 := by field_simp; ring
  rcases nodeless hb hd hw hoff hconn hl hr ⟨k, fun h => hk (by linarith)⟩ with h | h
  · exact absurd (h k0) (by rw [hz]; exact lt_irrefl _)
  · exact absurd (h k0) (by rw [hz]; exact lt_irrefl _)

end Ground
end Verif
