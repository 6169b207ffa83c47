import Verif.Lemmas.Quadrature
import Mathlib.Tactic.FieldSimp
import Mathlib.Topology.Algebra.Polynomial
import Mathlib.MeasureTheory.Integral.IntervalIntegral.FundThmCalculus

namespace Verif
open Polynomial Spec

theorem sum_window {M : Type*} [AddCommMonoid M] (F : ℕ → M) {lo n m : ℕ} (h : lo + n ≤ m) :
    ∑ k ∈ Finset.range m, (if lo ≤ k ∧ k < lo + n then F k else 0) =
      ∑ j ∈ Finset.range n, F (lo + j) := by
  rw [← Finset.sum_filter]
  have : (Finset.range m).filter (fun k => lo ≤ k ∧ k < lo + n) = Finset.Ico lo (lo + n) := by
    ext k; simp only [Finset.mem_filter, Finset.mem_range, Finset.mem_Ico]; omega
  rw [this, Finset.sum_Ico_eq_sum_range]
  simp

theorem degree_comp_C_sub_X_lt {q : ℝ[X]} {d : ℕ} (h : q.degree < d) (c : ℝ) :
    (q.comp (C c - X)).degree < d := by
  by_cases hq : q.comp (C c - X) = 0
  · rw [hq, degree_zero]; exact WithBot.bot_lt_coe d
  · have hq0 : q ≠ 0 := by rintro rfl; simp at hq
    rw [← natDegree_lt_iff_degree_lt hq]
    rw [← natDegree_lt_iff_degree_lt hq0] at h
    refine lt_of_le_of_lt natDegree_comp_le ?_
    have : (C c - X : ℝ[X]).natDegree ≤ 1 := by
      refine (natDegree_sub_le _ _).trans ?_
      simp
    calc q.natDegree * (C c - X : ℝ[X]).natDegree ≤ q.natDegree * 1 :=
          Nat.mul_le_mul_left _ this
      _ < d := by simpa using h

theorem degree_comp_X_add_C_lt {q : ℝ[X]} {d : ℕ} (h : q.degree < d) (c : ℝ) :
    (q.comp (X + C c)).degree < d := by
  by_cases hq : q.comp (X + C c) = 0
  · rw [hq, degree_zero]; exact WithBot.bot_lt_coe d
  · have hq0 : q ≠ 0 := by rintro rfl; simp at hq
    rw [← natDegree_lt_iff_degree_lt hq]
    rw [← natDegree_lt_iff_degree_lt hq0] at h
    refine lt_of_le_of_lt natDegree_comp_le ?_
    simpa using h

namespace NC

/-- The block weights are symmetric. -/
theorem block_symm {N : ℕ} {w : Fin N → ℝ}
    (h : IsLstsq (powMatrix (blockPts N)) (blockRhs N) w) (j : Fin N) : w j.rev = w j := by
  have hex := block_exact h
  have key : (fun j : Fin N => w j.rev) = w := by
    apply eq_of_moments (blockPts_injective N)
    intro n hn
    have hdeg : (X ^ n : ℝ[X]).degree < N := by
      rw [degree_X_pow]; exact_mod_cast hn
    have h1 := hex _ (degree_comp_C_sub_X_lt hdeg ((N : ℝ) - 1))
    have h2 := hex _ hdeg
    have h3 : ∑ j : Fin N, w j.rev * (blockPts N j : ℝ) ^ n =
        ∑ j : Fin N, w j * (((X ^ n : ℝ[X]).comp (C ((N : ℝ) - 1) - X)).eval (blockPts N j)) := by
      rw [← Equiv.sum_comp Fin.revPerm]
      refine Finset.sum_congr rfl fun j _ => ?_
      simp only [Fin.revPerm_apply, Fin.rev_rev, eval_comp, eval_sub, eval_C, eval_X, eval_pow,
        blockPts, Fin.val_rev]
      congr 2
      rw [Nat.cast_sub (by omega)]; push_cast; ring
    rw [h3, h1]
    have h4 : ∑ j : Fin N, w j * (blockPts N j : ℝ) ^ n =
        ∑ j : Fin N, w j * ((X ^ n : ℝ[X]).eval (blockPts N j)) := by simp
    rw [h4, h2]
    have := intervalIntegral.integral_comp_sub_left (a := (0 : ℝ)) (b := (N : ℝ) - 1)
      (fun t => (X ^ n : ℝ[X]).eval t) ((N : ℝ) - 1)
    simp only [sub_self, sub_zero] at this
    rw [← this]
    simp
  exact congrFun key j

theorem foldl_addBlock {K : Type*} [Field K] (N : ℕ) (w f : ℕ → K) (Nm k : ℕ) :
    (List.range Nm).foldl (addBlock N w) f k =
      f k + ∑ i ∈ Finset.range Nm,
        (if (N - 1) * i ≤ k ∧ k < (N - 1) * i + N then w (k - (N - 1) * i) else 0) := by
  induction Nm generalizing k with
  | zero => simp
  | succ n ih =>
    rw [List.range_succ, List.foldl_append, Finset.sum_range_succ, ← add_assoc, ← ih]
    simp only [List.foldl_cons, List.foldl_nil, addBlock]
    split <;> simp

/-- No overlap of the two edge corrections. -/
def NoOverlap (N Nm : ℕ) : Prop := N - 1 ≤ npts N Nm - (N - 1)

theorem noOverlap_of (N Nm : ℕ) (h : 2 ≤ Nm ∨ (N = 2 ∧ 1 ≤ Nm)) : NoOverlap N Nm := by
  unfold NoOverlap npts
  rcases h with h | ⟨rfl, h⟩
  · have := Nat.mul_le_mul_left (N - 1) h
    omega
  · omega

theorem edges_split {K : Type*} [Field K] {N Nm : ℕ} (hNo : NoOverlap N Nm) (e : ℕ → K) {k : ℕ}
    (hk : k < npts N Nm) :
    edges N Nm e k = (if 0 ≤ k ∧ k < 0 + (N - 1) then e (k + 1) else 0) +
      (if npts N Nm - (N - 1) ≤ k ∧ k < (npts N Nm - (N - 1)) + (N - 1) then
        e ((N - 1 - 1 - (k - (npts N Nm - (N - 1)))) + 1) else 0) := by
  unfold NoOverlap at hNo
  unfold edges
  have h1 : (npts N Nm - (N - 1) ≤ k ∧ k < (npts N Nm - (N - 1)) + (N - 1)) ↔
      npts N Nm - (N - 1) ≤ k := by omega
  simp only [h1, Nat.zero_le, true_and, Nat.zero_add]
  by_cases h2 : npts N Nm - (N - 1) ≤ k
  · have h3 : ¬ k < N - 1 := by omega
    simp [h2, h3]
  · simp [h2]

/-- Weighted sum with the composite weights, split into the two edges and the blocks. -/
theorem sum_composite {N Nm : ℕ} (hN : 2 ≤ N) (hNm : 1 ≤ Nm) (hNo : NoOverlap N Nm)
    (w e : ℕ → ℝ) (g : ℕ → ℝ) :
    ∑ k ∈ Finset.range (npts N Nm),
        (List.range Nm).foldl (addBlock N w) (edges N Nm e) k * g k =
      ∑ j ∈ Finset.range (N - 1), e (j + 1) * g j +
      ∑ j ∈ Finset.range (N - 1), e (j + 1) * g (npts N Nm - 1 - j) +
      ∑ i ∈ Finset.range Nm, ∑ j ∈ Finset.range N, w j * g ((N - 1) * i + j) := by
  have hle : N - 1 ≤ npts N Nm := by
    unfold npts; have := Nat.mul_le_mul_left (N - 1) hNm; omega
  simp_rw [foldl_addBlock, add_mul, Finset.sum_add_distrib]
  congr 1
  · have h1 : ∑ k ∈ Finset.range (npts N Nm), edges N Nm e k * g k =
        ∑ k ∈ Finset.range (npts N Nm),
          ((if 0 ≤ k ∧ k < 0 + (N - 1) then e (k + 1) * g k else 0) +
          (if npts N Nm - (N - 1) ≤ k ∧ k < (npts N Nm - (N - 1)) + (N - 1) then
            e ((N - 1 - 1 - (k - (npts N Nm - (N - 1)))) + 1) * g k else 0)) := by
      refine Finset.sum_congr rfl fun k hk => ?_
      rw [edges_split hNo e (Finset.mem_range.mp hk), add_mul, ite_mul, ite_mul, zero_mul]
    rw [h1, Finset.sum_add_distrib,
      sum_window (fun k => e (k + 1) * g k) (by omega),
      sum_window (fun k => e ((N - 1 - 1 - (k - (npts N Nm - (N - 1)))) + 1) * g k) (by omega)]
    congr 1
    · simp
    · rw [← Finset.sum_range_reflect]
      refine Finset.sum_congr rfl fun j hj => ?_
      have hj := Finset.mem_range.mp hj
      congr 2 <;> omega
  · simp_rw [Finset.sum_mul]
    rw [Finset.sum_comm]
    refine Finset.sum_congr rfl fun i hi => ?_
    have hi := Finset.mem_range.mp hi
    have h2 : (N - 1) * i + N ≤ npts N Nm := by
      unfold npts
      have := Nat.mul_le_mul_left (N - 1) (Nat.succ_le_of_lt hi)
      rw [Nat.mul_succ] at this; omega
    simp_rw [ite_mul, zero_mul]
    rw [sum_window (fun k => w (k - (N - 1) * i) * g k) h2]
    simp

theorem sum_ext0 {N : ℕ} (v : Fin N → ℝ) (g : ℕ → ℝ) :
    ∑ j ∈ Finset.range N, ext0 v j * g j = ∑ j : Fin N, v j * g j := by
  rw [Finset.sum_range]
  simp [ext0]

/-- Exactness of the composite rule. -/
theorem composite_exact {N Nm : ℕ} (hN : 2 ≤ N) (hNm : 1 ≤ Nm) (hNo : NoOverlap N Nm)
    {w e : Fin N → ℝ}
    (hw : IsLstsq (powMatrix (blockPts N)) (blockRhs N) w)
    (he : IsLstsq (powMatrix (edgePts N)) (edgeRhs N) e)
    (q : ℝ[X]) (hq : q.degree < N) (h0 : q.eval 0 = 0) (h1 : q.eval (npts N Nm : ℝ) = 0) :
    ∑ k ∈ Finset.range (npts N Nm),
        (List.range Nm).foldl (addBlock N (ext0 w)) (edges N Nm (ext0 e)) k *
          q.eval ((k : ℝ) + 1 / 2) =
      ∫ t in (0 : ℝ)..(npts N Nm : ℝ), q.eval t := by
  rw [sum_composite hN hNm hNo]
  -- one edge
  have edge : ∀ p : ℝ[X], p.degree < N → p.eval 0 = 0 →
      ∑ j ∈ Finset.range (N - 1), ext0 e (j + 1) * p.eval ((j : ℝ) + 1 / 2) =
        ∫ t in (0 : ℝ)..(1 / 2), p.eval t := by
    intro p hp hp0
    rw [← edge_exact he p hp]
    obtain ⟨n, rfl⟩ : ∃ n, N = n + 1 := ⟨N - 1, by omega⟩
    rw [Fin.sum_univ_succ, Finset.sum_range]
    simp only [edgePts, Fin.val_zero, if_true, hp0, mul_zero, zero_add]
    refine Finset.sum_congr rfl fun j _ => ?_
    have hj : j.1 + 1 < n + 1 := Nat.succ_lt_succ j.2
    simp only [ext0, hj, dite_true, Fin.val_succ, Nat.succ_ne_zero, if_false]
    have hx : (j.1 : ℝ) + 1 / 2 = ((j.1 + 1 : ℕ) : ℝ) - 1 / 2 := by push_cast; ring
    rw [hx]; rfl
  have hint : ∀ a b : ℝ, IntervalIntegrable (fun t => q.eval t) MeasureTheory.volume a b :=
    fun a b => q.continuous.intervalIntegrable a b
  have e1 := edge q hq h0
  have e2 := edge _ (degree_comp_C_sub_X_lt hq (npts N Nm : ℝ)) (by simpa using h1)
  have e2' : ∑ j ∈ Finset.range (N - 1), ext0 e (j + 1) *
      q.eval (((npts N Nm - 1 - j : ℕ) : ℝ) + 1 / 2) =
        ∫ t in ((npts N Nm : ℝ) - 1 / 2)..(npts N Nm : ℝ), q.eval t := by
    have h3 := intervalIntegral.integral_comp_sub_left (a := (0 : ℝ)) (b := (1 / 2 : ℝ))
      (fun t => q.eval t) (npts N Nm : ℝ)
    rw [sub_zero] at h3
    rw [← h3]
    simp only [eval_comp, eval_sub, eval_C, eval_X] at e2
    rw [← e2]
    refine Finset.sum_congr rfl fun j hj => ?_
    have hj := Finset.mem_range.mp hj
    have h4 : 1 + j ≤ npts N Nm := by
      unfold npts; have := Nat.mul_le_mul_left (N - 1) hNm; omega
    congr 2
    rw [Nat.sub_sub, Nat.cast_sub h4]; push_cast; ring
  -- the blocks
  have bl : ∀ i : ℕ, ∑ j ∈ Finset.range N, ext0 w j * q.eval ((((N - 1) * i + j : ℕ) : ℝ) + 1 / 2) =
      ∫ t in (((N : ℝ) - 1) * i + 1 / 2)..(((N : ℝ) - 1) * ((i + 1 : ℕ) : ℝ) + 1 / 2),
        q.eval t := by
    intro i
    have h5 := block_exact hw _ (degree_comp_X_add_C_lt hq (((N : ℝ) - 1) * i + 1 / 2))
    have h6 := intervalIntegral.integral_comp_add_right (a := (0 : ℝ)) (b := (N : ℝ) - 1)
      (fun t => q.eval t) (((N : ℝ) - 1) * i + 1 / 2)
    simp only [eval_comp, eval_add, eval_C, eval_X] at h5
    rw [h6] at h5
    rw [sum_ext0 w (fun j => q.eval ((((N - 1) * i + j : ℕ) : ℝ) + 1 / 2))]
    have h7 : (N : ℝ) - 1 + (((N : ℝ) - 1) * i + 1 / 2) =
        ((N : ℝ) - 1) * ((i + 1 : ℕ) : ℝ) + 1 / 2 := by push_cast; ring
    rw [h7, zero_add] at h5
    rw [← h5]
    refine Finset.sum_congr rfl fun j _ => ?_
    congr 2
    simp only [blockPts]
    push_cast [Nat.cast_sub (show 1 ≤ N by omega)]
    ring
  have blocks : ∑ i ∈ Finset.range Nm, ∑ j ∈ Finset.range N,
      ext0 w j * q.eval ((((N - 1) * i + j : ℕ) : ℝ) + 1 / 2) =
      ∫ t in (1 / 2 : ℝ)..((npts N Nm : ℝ) - 1 / 2), q.eval t := by
    simp_rw [bl]
    have h8 := intervalIntegral.sum_integral_adjacent_intervals (n := Nm)
      (f := fun t => q.eval t) (a := fun i : ℕ => ((N : ℝ) - 1) * (i : ℝ) + 1 / 2)
      (μ := MeasureTheory.volume) (fun k _ => hint _ _)
    rw [h8]
    congr 1
    · simp
    · unfold npts
      push_cast [Nat.cast_sub (show 1 ≤ N by omega)]
      ring
  rw [e1, e2', blocks]
  have h9 := intervalIntegral.integral_add_adjacent_intervals (hint 0 (1 / 2))
    (hint (1 / 2) ((npts N Nm : ℝ) - 1 / 2))
  have h10 := intervalIntegral.integral_add_adjacent_intervals
    (hint 0 ((npts N Nm : ℝ) - 1 / 2)) (hint ((npts N Nm : ℝ) - 1 / 2) (npts N Nm : ℝ))
  rw [← h10, ← h9]; ring

/-- The composite weights are symmetric under reversal. -/
theorem composite_symm {N Nm : ℕ} (hN : 2 ≤ N) (hNm : 1 ≤ Nm) (hNo : NoOverlap N Nm)
    {w e : Fin N → ℝ}
    (hw : IsLstsq (powMatrix (blockPts N)) (blockRhs N) w) {k : ℕ} (hk : k < npts N Nm) :
    (List.range Nm).foldl (addBlock N (ext0 w)) (edges N Nm (ext0 e)) (npts N Nm - 1 - k) =
      (List.range Nm).foldl (addBlock N (ext0 w)) (edges N Nm (ext0 e)) k := by
  have hle : N - 1 ≤ npts N Nm := by
    unfold npts; have := Nat.mul_le_mul_left (N - 1) hNm; omega
  rw [foldl_addBlock, foldl_addBlock]
  congr 1
  · rw [edges_split hNo _ hk, edges_split hNo _ (by omega), add_comm]
    congr 1
    · have : (npts N Nm - (N - 1) ≤ npts N Nm - 1 - k ∧
          npts N Nm - 1 - k < npts N Nm - (N - 1) + (N - 1)) ↔ (0 ≤ k ∧ k < 0 + (N - 1)) := by
        omega
      simp only [this]
      split
      · congr 1; omega
      · rfl
    · have : (npts N Nm - (N - 1) ≤ k ∧ k < npts N Nm - (N - 1) + (N - 1)) ↔
          (0 ≤ npts N Nm - 1 - k ∧ npts N Nm - 1 - k < 0 + (N - 1)) := by omega
      simp only [this]
      split
      · congr 1; omega
      · rfl
  · rw [← Finset.sum_range_reflect]
    refine Finset.sum_congr rfl fun i hi => ?_
    have hi := Finset.mem_range.mp hi
    have h1 : (N - 1) * (Nm - 1 - i) + (N - 1) * i + (N - 1) = (N - 1) * Nm := by
      rw [← Nat.mul_add, ← Nat.mul_succ]; congr 1; omega
    have h2 : npts N Nm = (N - 1) * Nm + 1 := rfl
    have h3 : ((N - 1) * (Nm - 1 - i) ≤ npts N Nm - 1 - k ∧
        npts N Nm - 1 - k < (N - 1) * (Nm - 1 - i) + N) ↔
        ((N - 1) * i ≤ k ∧ k < (N - 1) * i + N) := by omega
    simp only [h3]
    split
    · rename_i h4
      have h5 : k - (N - 1) * i < N := by omega
      have h6 : npts N Nm - 1 - k - (N - 1) * (Nm - 1 - i) = N - 1 - (k - (N - 1) * i) := by omega
      rw [h6]
      have h7 : N - 1 - (k - (N - 1) * i) < N := by omega
      simp only [ext0, h5, h7, dite_true]
      rw [← block_symm hw ⟨k - (N - 1) * i, h5⟩]
      congr 1
      apply Fin.ext
      simp only [Fin.val_rev]; omega
    · rfl

end NC
end Verif
