import Mathlib.Analysis.InnerProductSpace.Spectrum
import Mathlib.Analysis.InnerProductSpace.GramSchmidtOrtho
import Verif.Lemmas.GroundState

/-!
# Lowest states of a symmetric operator and occupations of orthonormal trial functions (Ky Fan)
-/

namespace Verif.KyFan
open InnerProductSpace

variable {E : Type*} [NormedAddCommGroup E] [InnerProductSpace ℝ E] [FiniteDimensional ℝ E]
variable {T : E →ₗ[ℝ] E} {n : ℕ} {u : Fin n → E} {e : Fin n → ℝ}

omit [FiniteDimensional ℝ E] in
/-- Eigenvectors of different eigenvalues are orthogonal. -/
theorem ortho (hT : T.IsSymmetric) {x y : E} {a b : ℝ} (hx : T x = a • x) (hy : T y = b • y) (hab : a ≠ b) :
    inner ℝ x y = (0 : ℝ) := by
  have h := hT x y
  rw [hx, hy, inner_smul_left, inner_smul_right] at h
  simp only [conj_trivial] at h
  have : (a - b) * inner ℝ x y = (0 : ℝ) := by linarith
  exact (mul_eq_zero.mp this).resolve_left (sub_ne_zero.mpr hab)

omit [FiniteDimensional ℝ E] in
theorem gram (hT : T.IsSymmetric) (hu : ∀ i, T (u i) = e i • u i) (i : Fin n) :
    T (gramSchmidt ℝ u i) = e i • gramSchmidt ℝ u i := by
  induction i using WellFoundedLT.induction with
  | ind i ih =>
    have h : gramSchmidt ℝ u i = u i - ∑ j ∈ Finset.Iio i,
        (inner ℝ (gramSchmidt ℝ u j) (u i) / ‖gramSchmidt ℝ u j‖ ^ 2) • gramSchmidt ℝ u j :=
      eq_sub_of_add_eq (gramSchmidt_def'' ℝ u i).symm
    rw [h, map_sub, hu, map_sum, smul_sub, Finset.smul_sum]
    congr 1
    refine Finset.sum_congr rfl fun j hj => ?_
    rw [map_smul, ih j (Finset.mem_Iio.mp hj)]
    by_cases hij : e j = e i
    · rw [hij, smul_comm]
    · rw [ortho hT (ih j (Finset.mem_Iio.mp hj)) (hu i) hij]
      simp

/-- Orthonormal eigenvectors with the same eigenvalues and the same span. -/
theorem orthonormalise (hT : T.IsSymmetric) (hu : ∀ i, T (u i) = e i • u i) (hli : LinearIndependent ℝ u) :
    ∃ v : Fin n → E, Orthonormal ℝ v ∧ (∀ i, T (v i) = e i • v i) ∧
      Submodule.span ℝ (Set.range v) = Submodule.span ℝ (Set.range u) := by
  refine ⟨gramSchmidtNormed ℝ u, gramSchmidtNormed_orthonormal hli, fun i => ?_, ?_⟩
  · unfold gramSchmidtNormed
    rw [map_smul, gram hT hu, smul_comm]
  · rw [span_gramSchmidtNormed_range, span_gramSchmidt]

variable {μ : ℝ}

/-- On the orthogonal complement of the lowest states the operator is at least `μ`. -/
theorem above (hT : T.IsSymmetric) (hu : ∀ i, T (u i) = e i • u i)
    (hμ : ∀ a x, T x = a • x → x ∉ Submodule.span ℝ (Set.range u) → μ ≤ a) {r : E} (hr : ∀ i, inner ℝ (u i) r = (0 : ℝ)) :
    μ * inner ℝ r r ≤ inner ℝ r (T r) := by
  set P := Submodule.span ℝ (Set.range u) with hP
  have hmem : ∀ x, x ∈ Pᗮ ↔ ∀ i, inner ℝ (u i) x = (0 : ℝ) := by
    intro x
    rw [hP, Submodule.mem_orthogonal]
    constructor
    · exact fun h i => h _ (Submodule.subset_span ⟨i, rfl⟩)
    · intro h y hy
      induction hy using Submodule.span_induction with
      | mem y hy => obtain ⟨i, rfl⟩ := hy; exact h i
      | zero => simp
      | add a b _ _ ha hb => rw [inner_add_left, ha, hb, add_zero]
      | smul c a _ ha => rw [inner_smul_left, ha, mul_zero]
  have hinv : ∀ x ∈ Pᗮ, T x ∈ Pᗮ := by
    intro x hx
    rw [hmem] at hx ⊢
    intro i
    rw [← hT, hu, inner_smul_left, hx i, mul_zero]
  have hS := hT.restrict_invariant hinv
  set b := hS.eigenvectorBasis rfl with hb
  have hlow : ∀ j, μ ≤ hS.eigenvalues rfl j := by
    intro j
    have h1 := hS.apply_eigenvectorBasis rfl j
    have h2 : T (b j : E) = hS.eigenvalues rfl j • (b j : E) := congrArg Subtype.val h1
    refine hμ _ _ h2 fun hin => ?_
    have h0 : (inner ℝ (b j : E) (b j : E) : ℝ) = 0 := (Submodule.mem_orthogonal _ _).mp (b j).2 _ hin
    rw [inner_self_eq_zero] at h0
    exact b.orthonormal.ne_zero j (Subtype.ext h0)
  set x : Pᗮ := ⟨r, (hmem r).mpr hr⟩ with hx
  have hself : (inner ℝ r r : ℝ) = ∑ j, inner ℝ (b j) x ^ 2 := by
    change (inner ℝ x x : ℝ) = _
    rw [← b.sum_inner_mul_inner x x]
    refine Finset.sum_congr rfl fun j _ => ?_
    rw [real_inner_comm, sq]
  have hform : (inner ℝ r (T r) : ℝ) = ∑ j, hS.eigenvalues rfl j * inner ℝ (b j) x ^ 2 := by
    change (inner ℝ x (T.restrict hinv x) : ℝ) = _
    rw [← b.sum_inner_mul_inner x (T.restrict hinv x)]
    refine Finset.sum_congr rfl fun j _ => ?_
    have : (inner ℝ (b j) (T.restrict hinv x) : ℝ) = hS.eigenvalues rfl j * inner ℝ (b j) x := by
      rw [← hS, hS.apply_eigenvectorBasis rfl j]
      exact inner_smul_left _ _ _
    rw [this, real_inner_comm]
    ring
  rw [hself, hform, Finset.mul_sum]
  exact Finset.sum_le_sum fun j _ => mul_le_mul_of_nonneg_right (hlow j) (sq_nonneg _)

/-- The expectation value of a trial function. -/
theorem expectation (hT : T.IsSymmetric) (ho : Orthonormal ℝ u) (hu : ∀ i, T (u i) = e i • u i)
    (hμ : ∀ a x, T x = a • x → x ∉ Submodule.span ℝ (Set.range u) → μ ≤ a) (q : E) :
    ∑ i, e i * inner ℝ (u i) q ^ 2 + μ * (inner ℝ q q - ∑ i, inner ℝ (u i) q ^ 2) ≤ inner ℝ q (T q) := by
  set s : E := ∑ i, (inner ℝ (u i) q : ℝ) • u i with hs
  set r := q - s with hrd
  have hus : ∀ i, (inner ℝ (u i) s : ℝ) = inner ℝ (u i) q := fun i => by
    rw [hs]; exact ho.inner_right_fintype (fun i => (inner ℝ (u i) q : ℝ)) i
  have hr : ∀ i, inner ℝ (u i) r = (0 : ℝ) := fun i => by rw [hrd, inner_sub_right, hus, sub_self]
  have hTs : T s = ∑ i, (e i * inner ℝ (u i) q) • u i := by
    rw [hs, map_sum]
    refine Finset.sum_congr rfl fun i _ => ?_
    rw [map_smul, hu, smul_smul, mul_comm]
  have hsr : (inner ℝ s r : ℝ) = 0 := by
    rw [hs, sum_inner]
    exact Finset.sum_eq_zero fun i _ => by rw [inner_smul_left, hr, mul_zero]
  have hTsr : (inner ℝ (T s) r : ℝ) = 0 := by
    rw [hTs, sum_inner]
    exact Finset.sum_eq_zero fun i _ => by rw [inner_smul_left, hr, mul_zero]
  have hss : (inner ℝ s s : ℝ) = ∑ i, inner ℝ (u i) q ^ 2 := by
    conv_lhs => rw [hs, sum_inner]
    refine Finset.sum_congr rfl fun i _ => ?_
    rw [inner_smul_left, ← hs, hus, sq]; rfl
  have hsTs : (inner ℝ (T s) s : ℝ) = ∑ i, e i * inner ℝ (u i) q ^ 2 := by
    rw [hTs, sum_inner]
    refine Finset.sum_congr rfl fun i _ => ?_
    rw [inner_smul_left, hus, sq]
    simp only [conj_trivial]; ring
  have hq : q = s + r := by rw [hrd]; abel
  have hqq : (inner ℝ q q : ℝ) = inner ℝ s s + inner ℝ r r := by
    have h' : (inner ℝ r s : ℝ) = 0 := by rw [real_inner_comm, hsr]
    rw [hq, inner_add_add_self, hsr, h']; ring
  have hqT : (inner ℝ q (T q) : ℝ) = inner ℝ (T s) s + inner ℝ r (T r) := by
    rw [hq, map_add, inner_add_left, inner_add_right, inner_add_right]
    have h1 : (inner ℝ s (T r) : ℝ) = 0 := by rw [← hT, hTsr]
    have h2 : (inner ℝ r (T s) : ℝ) = 0 := by rw [real_inner_comm, hTsr]
    rw [h1, h2, real_inner_comm]; ring
  have := above hT hu hμ hr
  rw [hqT, hqq, hsTs, hss]
  linarith

/-- Occupations of orthonormal trial functions can be moved to the lowest states without raising the
energy. -/
theorem occupations (hT : T.IsSymmetric) (hli : LinearIndependent ℝ u) (hu : ∀ i, T (u i) = e i • u i)
    (hlow : ∀ a x, T x = a • x → x ∉ Submodule.span ℝ (Set.range u) → ∀ i, e i ≤ a)
    {κ : Type*} [Fintype κ] {q : κ → E} (hq : Orthonormal ℝ q) {g : κ → ℝ} {c : ℝ} (hg0 : ∀ j, 0 ≤ g j)
    (hgc : ∀ j, g j ≤ c) (hc : 0 ≤ c) (hN : ∑ j, g j ≤ c * n) :
    ∃ f : Fin n → ℝ, (∀ i, 0 ≤ f i) ∧ (∀ i, f i ≤ c) ∧ ∑ i, f i = ∑ j, g j ∧
      ∑ i, f i * e i ≤ ∑ j, g j * inner ℝ (q j) (T (q j)) := by
  obtain ⟨v, ho, hv, hspan⟩ := orthonormalise hT hu hli
  rcases Nat.eq_zero_or_pos n with rfl | hn
  · have h0 : ∀ j, g j = 0 := by
      have hs : ∑ j, g j = 0 := le_antisymm (by simpa using hN) (Finset.sum_nonneg fun j _ => hg0 j)
      exact fun j => (Finset.sum_eq_zero_iff_of_nonneg fun j _ => hg0 j).mp hs j (Finset.mem_univ _)
    exact ⟨fun _ => 0, fun i => i.elim0, fun i => i.elim0, by simp [h0], by simp [h0]⟩
  haveI : Nonempty (Fin n) := ⟨⟨0, hn⟩⟩
  obtain ⟨top, -, htop⟩ := Finset.exists_max_image Finset.univ e Finset.univ_nonempty
  have hexp := fun j => expectation (μ := e top) hT ho hv
    (fun a x hx hn => hlow a x hx (hspan ▸ hn) top) (q j)
  set f0 : Fin n → ℝ := fun i => ∑ j, g j * inner ℝ (v i) (q j) ^ 2 with hf0
  have hnn : ∀ i, 0 ≤ f0 i := fun i => Finset.sum_nonneg fun j _ => mul_nonneg (hg0 j) (sq_nonneg _)
  have hle : ∀ i, f0 i ≤ c := by
    intro i
    have hb := hq.sum_inner_products_le (v i) (s := Finset.univ)
    rw [ho.1 i] at hb
    calc f0 i ≤ ∑ j, c * inner ℝ (v i) (q j) ^ 2 :=
          Finset.sum_le_sum fun j _ => mul_le_mul_of_nonneg_right (hgc j) (sq_nonneg _)
      _ = c * ∑ j, ‖(inner ℝ (q j) (v i) : ℝ)‖ ^ 2 := by
          rw [Finset.mul_sum]
          refine Finset.sum_congr rfl fun j _ => ?_
          rw [Real.norm_eq_abs, sq_abs, real_inner_comm]
      _ ≤ c * 1 ^ 2 := mul_le_mul_of_nonneg_left hb hc
      _ = c := by ring
  set N := ∑ j, g j with hNd
  set S := ∑ i, f0 i with hS
  have hS' : S = ∑ j, g j * ∑ i, inner ℝ (v i) (q j) ^ 2 := by
    rw [hS, hf0, Finset.sum_comm]
    exact Finset.sum_congr rfl fun j _ => by rw [Finset.mul_sum]
  have hqq : ∀ j, (inner ℝ (q j) (q j) : ℝ) = 1 := fun j => by rw [real_inner_self_eq_norm_sq, hq.1 j]; norm_num
  have hSN : S ≤ N := by
    rw [hS']
    refine Finset.sum_le_sum fun j _ => ?_
    have hb := ho.sum_inner_products_le (q j) (s := Finset.univ)
    rw [hq.1 j] at hb
    simp only [Real.norm_eq_abs, sq_abs] at hb
    nlinarith [hg0 j]
  have hE : ∑ i, f0 i * e i + e top * (N - S) ≤ ∑ j, g j * inner ℝ (q j) (T (q j)) := by
    have h1 : ∑ i, f0 i * e i = ∑ j, g j * ∑ i, e i * inner ℝ (v i) (q j) ^ 2 := by
      simp only [hf0, Finset.sum_mul, Finset.mul_sum]
      rw [Finset.sum_comm]
      exact Finset.sum_congr rfl fun j _ => Finset.sum_congr rfl fun i _ => by ring
    have h2 : e top * (N - S) = ∑ j, g j * (e top * (inner ℝ (q j) (q j) - ∑ i, inner ℝ (v i) (q j) ^ 2)) := by
      rw [hS', hNd, ← Finset.sum_sub_distrib, Finset.mul_sum]
      exact Finset.sum_congr rfl fun j _ => by rw [hqq]; ring
    rw [h1, h2, ← Finset.sum_add_distrib]
    refine Finset.sum_le_sum fun j _ => ?_
    rw [← mul_add]
    exact mul_le_mul_of_nonneg_left (hexp j) (hg0 j)
  -- the rest goes into the free capacity
  have hfree : ∑ i, (c - f0 i) = c * n - S := by
    rw [Finset.sum_sub_distrib, Finset.sum_const, Finset.card_univ, Fintype.card_fin, nsmul_eq_mul, mul_comm]
  rcases (sub_nonneg.mpr hSN).eq_or_lt with h0 | hpos
  · exact ⟨f0, hnn, hle, by linarith, by rw [← h0, mul_zero, add_zero] at hE; exact hE⟩
  have hroom : 0 < c * n - S := by linarith
  set t := (N - S) / (c * n - S) with ht
  have ht0 : 0 ≤ t := div_nonneg hpos.le hroom.le
  have ht1 : t ≤ 1 := (div_le_one hroom).mpr (by linarith)
  refine ⟨fun i => f0 i + t * (c - f0 i), fun i => ?_, fun i => ?_, ?_, ?_⟩
  · have := mul_nonneg ht0 (sub_nonneg.mpr (hle i)); linarith [hnn i]
  · nlinarith [hle i]
  · rw [Finset.sum_add_distrib, ← Finset.mul_sum, hfree, ht, div_mul_cancel₀ _ hroom.ne']; linarith
  · refine le_trans ?_ hE
    simp only [add_mul, Finset.sum_add_distrib]
    have h3 : ∑ i, t * (c - f0 i) * e i ≤ ∑ i, t * (c - f0 i) * e top :=
      Finset.sum_le_sum fun i _ => mul_le_mul_of_nonneg_left (htop i (Finset.mem_univ _))
        (mul_nonneg ht0 (sub_nonneg.mpr (hle i)))
    have h4 : ∑ i, t * (c - f0 i) * e top = e top * (N - S) := by
      rw [← Finset.sum_mul, ← Finset.mul_sum, hfree, ht, div_mul_cancel₀ _ hroom.ne', mul_comm]
    linarith

/-- Eigenvectors nearest to a given number exist. -/
theorem exists_nearest (hT : T.IsSymmetric) (σ : ℝ) {n : ℕ} (hn : n ≤ Module.finrank ℝ E) :
    ∃ (e : Fin n → ℝ) (u : Fin n → E), LinearIndependent ℝ u ∧ (∀ i, T (u i) = e i • u i) ∧
      ∀ a x, T x = a • x → x ∉ Submodule.span ℝ (Set.range u) → ∀ i, |e i - σ| ≤ |a - σ| := by
  set b := hT.eigenvectorBasis rfl with hb
  set ε := hT.eigenvalues rfl with hε
  have hTb : ∀ j, T (b j) = ε j • b j := fun j => hT.apply_eigenvectorBasis rfl j
  set dist : Fin (Module.finrank ℝ E) → ℝ := fun j => |ε j - σ| with hdist
  set π := Tuple.sort dist with hπ
  have hmono : Monotone (dist ∘ π) := Tuple.monotone_sort dist
  refine ⟨fun i => ε (π (Fin.castLE hn i)), fun i => b (π (Fin.castLE hn i)),
    b.orthonormal.linearIndependent.comp _ fun i j h => Fin.castLE_injective hn (π.injective h), fun i => hTb _,
    fun a x hx hout i => ?_⟩
  obtain ⟨j, hj, hne⟩ : ∃ j : Fin (Module.finrank ℝ E), n ≤ j.1 ∧ (inner ℝ (b (π j)) x : ℝ) ≠ 0 := by
    by_contra hcon
    push Not at hcon
    refine hout ?_
    rw [← b.sum_repr' x]
    refine Submodule.sum_mem _ fun j _ => ?_
    by_cases hlt : (π.symm j).1 < n
    · refine Submodule.smul_mem _ _ (Submodule.subset_span ⟨⟨(π.symm j).1, hlt⟩, ?_⟩)
      change b (π ⟨(π.symm j).1, _⟩) = b j
      rw [show (⟨(π.symm j).1, (π.symm j).2⟩ : Fin _) = π.symm j from rfl, Equiv.apply_symm_apply]
    · have h0 := hcon (π.symm j) (not_lt.mp hlt)
      rw [Equiv.apply_symm_apply] at h0
      rw [h0, zero_smul]
      exact Submodule.zero_mem _
  have ha : ε (π j) = a := by
    by_contra h
    exact hne (ortho hT (hTb _) hx h)
  have := hmono (show Fin.castLE hn i ≤ j from Fin.le_def.mpr (i.2.le.trans hj))
  simp only [Function.comp, hdist, ha] at this
  exact this

end Verif.KyFan

namespace Verif.Ground
variable {ι : Type*} [Fintype ι] [DecidableEq ι] {H : ι → ι → ℝ} {w d : ι → ℝ} {n : ℕ}

/-- Functions on the grid as vectors with the weighted inner product. -/
noncomputable def vec (w d : ι → ℝ) (hd : ∀ k, 0 < d k) (hw : ∀ k, 0 < w k) : (ι → ℝ) ≃ₗ[ℝ] EuclideanSpace ℝ ι where
  toFun p := WithLp.toLp 2 fun k => Real.sqrt (d k * w k) * p k
  invFun x := fun k => x k / Real.sqrt (d k * w k)
  map_add' p q := by ext k; simp [mul_add]
  map_smul' c p := by ext k; simp; ring
  left_inv p := by
    funext k
    have := (Real.sqrt_pos.mpr (mul_pos (hd k) (hw k))).ne'
    simp only; field_simp
  right_inv x := by
    ext k
    have := (Real.sqrt_pos.mpr (mul_pos (hd k) (hw k))).ne'
    simp only; field_simp

variable (hd : ∀ k, 0 < d k) (hw : ∀ k, 0 < w k)

theorem vec_inner (p q : ι → ℝ) : (inner ℝ (vec w d hd hw p) (vec w d hd hw q) : ℝ) = ∑ k, d k * w k * (p k * q k) := by
  rw [PiLp.inner_apply]
  refine Finset.sum_congr rfl fun k _ => ?_
  have := Real.mul_self_sqrt (mul_pos (hd k) (hw k)).le
  change (Real.sqrt (d k * w k) * q k) * (Real.sqrt (d k * w k) * p k) = _
  linear_combination p k * q k * this

theorem vec_solves {e : ℝ} {p : ι → ℝ} :
    (symm H w d).toEuclideanLin (vec w d hd hw p) = e • vec w d hd hw p ↔ Solves H w e p := by
  have hk : ∀ k, (symm H w d).toEuclideanLin (vec w d hd hw p) k = d k * (∑ l, H k l * p l) / Real.sqrt (d k * w k) :=
    fun k => symm_mulVec hd hw p k
  constructor
  · intro h k
    have h1 := hk k
    rw [h] at h1
    change e * (Real.sqrt (d k * w k) * p k) = _ at h1
    have hs := (Real.sqrt_pos.mpr (mul_pos (hd k) (hw k))).ne'
    rw [eq_div_iff hs] at h1
    have := Real.mul_self_sqrt (mul_pos (hd k) (hw k)).le
    refine mul_left_cancel₀ (hd k).ne' ?_
    linear_combination -h1 + e * p k * this
  · intro h
    ext k
    rw [hk k, h k, div_eq_iff (Real.sqrt_pos.mpr (mul_pos (hd k) (hw k))).ne']
    have := Real.mul_self_sqrt (mul_pos (hd k) (hw k)).le
    change _ = e * (Real.sqrt (d k * w k) * p k) * _
    linear_combination -e * p k * this

theorem vec_form (p : ι → ℝ) :
    (inner ℝ (vec w d hd hw p) ((symm H w d).toEuclideanLin (vec w d hd hw p)) : ℝ) = ∑ k, d k * p k * ∑ l, H k l * p l := by
  rw [← symm_form hd hw, PiLp.inner_apply]
  exact Finset.sum_congr rfl fun k _ => mul_comm _ _

theorem vec_span {p : Fin n → ι → ℝ} {x : ι → ℝ} :
    vec w d hd hw x ∈ Submodule.span ℝ (Set.range fun i => vec w d hd hw (p i)) ↔ x ∈ Submodule.span ℝ (Set.range p) := by
  have : (Set.range fun i => vec w d hd hw (p i)) = vec w d hd hw '' Set.range p := by
    rw [← Set.range_comp]; rfl
  rw [this]
  have h2 := Submodule.map_span (vec w d hd hw).toLinearMap (Set.range p)
  change _ ∈ Submodule.span ℝ ((vec w d hd hw).toLinearMap '' Set.range p) ↔ _
  rw [← h2]
  constructor
  · rintro ⟨y, hy, he⟩
    rwa [← (vec w d hd hw).injective he]
  · exact fun h => ⟨x, h, rfl⟩

theorem symmetric (hb : Balanced H d) : ((symm H w d).toEuclideanLin).IsSymmetric :=
  Matrix.isSymmetric_toEuclideanLin_iff.mpr (symm_hermitian hb)

include hd hw

/-- `KyFan.occupations` for the functions on the grid. -/
theorem occupations (hb : Balanced H d) {e : Fin n → ℝ} {p : Fin n → ι → ℝ} (hli : LinearIndependent ℝ p)
    (hp : ∀ i, Solves H w (e i) (p i))
    (hlow : ∀ a x, Solves H w a x → x ∉ Submodule.span ℝ (Set.range p) → ∀ i, e i ≤ a)
    {κ : Type*} [Fintype κ] [DecidableEq κ] {q : κ → ι → ℝ}
    (hq : ∀ i j, ∑ k, d k * w k * (q i k * q j k) = if i = j then 1 else 0) {g : κ → ℝ} {c : ℝ} (hg0 : ∀ j, 0 ≤ g j)
    (hgc : ∀ j, g j ≤ c) (hc : 0 ≤ c) (hN : ∑ j, g j ≤ c * n) :
    ∃ f : Fin n → ℝ, (∀ i, 0 ≤ f i) ∧ (∀ i, f i ≤ c) ∧ ∑ i, f i = ∑ j, g j ∧
      ∑ i, f i * e i ≤ ∑ j, g j * ∑ k, d k * q j k * ∑ l, H k l * q j l := by
  have ho : Orthonormal ℝ fun j => vec w d hd hw (q j) := by
    rw [orthonormal_iff_ite]
    intro i j
    rw [vec_inner]; exact hq i j
  obtain ⟨f, h1, h2, h3, h4⟩ := KyFan.occupations (symmetric (w := w) hb) (u := fun i => vec w d hd hw (p i)) (e := e)
    (hli.map' (vec w d hd hw).toLinearMap (LinearEquiv.ker _)) (fun i => (vec_solves hd hw).mpr (hp i))
    (fun a x hx hout i => hlow a ((vec w d hd hw).symm x)
      ((vec_solves hd hw).mp (by rw [LinearEquiv.apply_symm_apply]; exact hx))
      (fun hin => hout (by have := (vec_span hd hw).mpr hin; rwa [LinearEquiv.apply_symm_apply] at this)) i)
    ho hg0 hgc hc hN
  refine ⟨f, h1, h2, h3, h4.trans_eq ?_⟩
  exact Finset.sum_congr rfl fun j _ => by rw [vec_form]

/-- Orthonormal solutions with the same energies. -/
theorem orthonormalise (hb : Balanced H d) {e : Fin n → ℝ} {p : Fin n → ι → ℝ} (hli : LinearIndependent ℝ p)
    (hp : ∀ i, Solves H w (e i) (p i)) :
    ∃ q : Fin n → ι → ℝ, (∀ i, Solves H w (e i) (q i)) ∧
      ∀ i j, ∑ k, d k * w k * (q i k * q j k) = if i = j then 1 else 0 := by
  obtain ⟨v, ho, hv, -⟩ := KyFan.orthonormalise (symmetric (w := w) hb) (u := fun i => vec w d hd hw (p i)) (e := e)
    (fun i => (vec_solves hd hw).mpr (hp i)) (hli.map' (vec w d hd hw).toLinearMap (LinearEquiv.ker _))
  refine ⟨fun i => (vec w d hd hw).symm (v i), fun i => ?_, fun i j => ?_⟩
  · rw [← vec_solves hd hw, LinearEquiv.apply_symm_apply]; exact hv i
  · rw [← vec_inner hd hw, LinearEquiv.apply_symm_apply, LinearEquiv.apply_symm_apply]
    exact orthonormal_iff_ite.mp ho i j

theorem exists_nearest (hb : Balanced H d) (σ : ℝ) (hn : n ≤ Fintype.card ι) :
    ∃ (e : Fin n → ℝ) (p : Fin n → ι → ℝ), LinearIndependent ℝ p ∧ (∀ i, Solves H w (e i) (p i)) ∧
      ∀ a x, Solves H w a x → x ∉ Submodule.span ℝ (Set.range p) → ∀ i, |e i - σ| ≤ |a - σ| := by
  obtain ⟨e, u, h1, h2, h3⟩ := KyFan.exists_nearest (symmetric (w := w) hb) σ (n := n)
    (by rw [finrank_euclideanSpace]; exact hn)
  have hu : (fun i => vec w d hd hw ((vec w d hd hw).symm (u i))) = u := by
    funext i; rw [LinearEquiv.apply_symm_apply]
  refine ⟨e, fun i => (vec w d hd hw).symm (u i),
    h1.map' (vec w d hd hw).symm.toLinearMap (LinearEquiv.ker _), fun i => ?_, fun a x hx hout => ?_⟩
  · rw [← vec_solves hd hw, LinearEquiv.apply_symm_apply]; exact h2 i
  · refine h3 a (vec w d hd hw x) ((vec_solves hd hw).mpr hx) fun hin => hout ?_
    rw [← hu] at hin
    exact (vec_span hd hw).mp hin

end Verif.Ground
