import Verif.Lemmas.Inverter
import Verif.Props.C23_C24

/-!
# C58: `ab_symmetrize`
-/

namespace Verif
open OrbInv Orbitals Spec

section
variable {G : Grid ℝ} {M : ℕ}

theorem unit_some {v q : G.Fld} (h : unit v = some q) :
    (∑ k, q k ^ 2 = 1) ∧ ∃ a > 0, ∀ k, q k = a * v k := by
  unfold unit at h
  split at h
  · cases h
  · next hn =>
    injection h with h
    subst h
    have h0 : 0 ≤ ∑ k, v k ^ 2 := Finset.sum_nonneg fun k _ => sq_nonneg _
    have hp : 0 < Orbitals.norm v := lt_of_le_of_ne (Real.sqrt_nonneg _) (Ne.symm hn)
    have hsq : Orbitals.norm v ^ 2 = ∑ k, v k ^ 2 := Real.sq_sqrt h0
    refine ⟨?_, (Orbitals.norm v)⁻¹, inv_pos.2 hp, fun k => div_eq_inv_mul _ _⟩
    simp only [div_eq_mul_inv, mul_pow, ← Finset.sum_mul]
    rw [← hsq, inv_pow]
    exact mul_inv_cancel₀ (pow_ne_zero 2 hp.ne')

/-- What the second loop makes of a column that is not NaN. -/
theorem absymOne_some {p q : G.Fld} (h : absymOne (some p) = some q) :
    HasParity q ∧ (∑ k, q k ^ 2 = 1) ∧ ∃ a > 0,
      (0 < ∑ k, p k * G.mir p k → ∀ k, q k = a * (p k + G.mir p k)) ∧
      (∑ k, p k * G.mir p k ≤ 0 → ∀ k, q k = a * (p k - G.mir p k)) := by
  simp only [absymOne] at h
  by_cases hp : 0 < ∑ k, p k * G.mir p k
  · rw [if_pos hp] at h
    obtain ⟨h1, a, ha, h2⟩ := unit_some h
    exact ⟨parity_unit (parity_add p) h, h1, a, ha, fun _ => h2, fun h' => absurd hp (not_lt.2 h')⟩
  · rw [if_neg hp] at h
    obtain ⟨h1, a, ha, h2⟩ := unit_some h
    exact ⟨parity_unit (parity_sub p) h, h1, a, ha, fun h' => absurd h' hp, fun _ => h2⟩

/-- A non-zero column never becomes NaN in the second loop. -/
theorem absymOne_total (p : G.Fld) (h0 : ∃ k, p k ≠ 0) : ∃ q, absymOne (some p) = some q := by
  simp only [absymOne]
  by_cases hp : 0 < ∑ k, p k * G.mir p k
  · rw [if_pos hp]
    have : Orbitals.norm (fun k => p k + G.mir p k) ≠ 0 := by
      rw [Ne, onorm_eq_zero]
      intro hc
      have : ∑ k, p k * G.mir p k ≤ 0 := Finset.sum_nonpos fun k _ => by
        have : G.mir p k = -p k := by linarith [hc k]
        rw [this]; nlinarith [sq_nonneg (p k)]
      linarith
    exact ⟨_, by rw [unit, if_neg this]⟩
  · rw [if_neg hp]
    have : Orbitals.norm (fun k => p k - G.mir p k) ≠ 0 := by
      rw [Ne, onorm_eq_zero]
      intro hc
      obtain ⟨k, hk⟩ := h0
      have : 0 < ∑ k, p k * G.mir p k := Finset.sum_pos' (fun k _ => by
          have : G.mir p k = p k := by linarith [hc k]
          rw [this]; nlinarith [sq_nonneg (p k)])
        ⟨k, Finset.mem_univ _, by
          have : G.mir p k = p k := by linarith [hc k]
          rw [this]; exact mul_self_pos.2 hk⟩
      exact hp this
    exact ⟨_, by rw [unit, if_neg this]⟩

theorem absymOne_inv {x : Orb G} {q : G.Fld} (h : absymOne x = some q) : ∃ p, x = some p := by
  cases x with
  | none => exact nomatch h
  | some p => exact ⟨p, rfl⟩

/-- Without nearly equal neighbouring eigenvalues the first loop does nothing. -/
theorem absym_fold_id (ev : Fin (M + 1) → ℝ) (phi : Fin (M + 1) → Orb G) (l : List (Fin M))
    (h : ∀ i : Fin M, 1 / 10 ^ 6 ≤ |ev i.castSucc - ev i.succ|) : l.foldl (absymPair ev) phi = phi := by
  induction l with
  | nil => rfl
  | cons i l ih => rw [List.foldl_cons, absymPair, if_neg (not_lt.2 (h i)), ih]

/-- C58.  Whenever `ab_symmetrize` returns finite orbitals, every orbital is even or odd under `mirror`
with unit norm, the potential is the mirror average of the given one and symmetric, and the eigenvalues
are untouched.  With well separated neighbouring eigenvalues and non-zero orbitals it does return, and
every orbital is a positive multiple of its own even part (when its overlap with its mirror image is
positive) or odd part (otherwise). -/
theorem C58_symmetrize (X : Unk ℝ (G.Na * G.Nr) M) :
    (∀ Y, abSymmetrize X = .ok Y →
      (∀ i, (∀ k, Y (phiIx i (G.mirIx k)) = Y (phiIx i k)) ∨ ∀ k, Y (phiIx i (G.mirIx k)) = -Y (phiIx i k)) ∧
      (∀ i, ∑ k, Y (phiIx i k) ^ 2 = 1) ∧
      (∀ k, Y (potIx (G.mirIx k)) = Y (potIx k)) ∧
      (∀ k, Y (potIx k) = (X (potIx k) + X (potIx (G.mirIx k))) / 2) ∧
      ∀ i, Y (eigIx i) = X (eigIx i)) ∧
    ((∀ i : Fin M, 1 / 10 ^ 6 ≤ |evalsOf X i.castSucc - evalsOf X i.succ|) →
      (∀ i, ∃ k, X (phiIx i k) ≠ 0) →
      ∃ Y, abSymmetrize X = .ok Y ∧ ∀ i, ∃ a > 0,
        (0 < ∑ k, X (phiIx i k) * X (phiIx i (G.mirIx k)) →
          ∀ k, Y (phiIx i k) = a * (X (phiIx i k) + X (phiIx i (G.mirIx k)))) ∧
        (∑ k, X (phiIx i k) * X (phiIx i (G.mirIx k)) ≤ 0 →
          ∀ k, Y (phiIx i k) = a * (X (phiIx i k) - X (phiIx i (G.mirIx k))))) := by
  constructor
  · intro Y h
    unfold abSymmetrize at h
    split at h
    · next hs =>
      have hq : ∀ i, absymOrbs X i = some ((absymOrbs X i).getD 0) := fun i => by
        obtain ⟨q, hq⟩ := Option.isSome_iff_exists.1 (hs i)
        rw [hq]; rfl
      obtain rfl := Except.ok.inj h
      have hpar : ∀ i, HasParity ((absymOrbs X i).getD 0) ∧ ∑ k, (absymOrbs X i).getD 0 k ^ 2 = 1 :=
        fun i => by
          have h' := hq i
          unfold absymOrbs at h' ⊢
          obtain ⟨p, hp⟩ := absymOne_inv h'
          rw [hp] at h' ⊢
          obtain ⟨h1, h2, -⟩ := absymOne_some h'
          exact ⟨h1, h2⟩
      refine ⟨fun i => ?_, fun i => ?_, fun k => ?_, fun k => ?_, fun i => ?_⟩
      · simp only [stack_phiIx, flat_pair]
        exact (hpar i).1
      · simp only [stack_phiIx, flat_pair]
        exact (hpar i).2
      · simp only [stack_potIx, Grid.mir, Grid.mirIx_mirIx]
        ring
      · simp only [stack_potIx, Grid.mir, potOf]
        ring
      · simp
    · exact nomatch h
  · intro hd h0
    have horb : ∀ i, absymOrbs X i = absymOne (some (phiOf X i)) := fun i => by
      rw [absymOrbs, absym_fold_id _ _ _ hd]
    have hs : ∀ i, (absymOrbs X i).isSome := fun i => by
      obtain ⟨q, hq⟩ := absymOne_total (phiOf X i) (h0 i)
      rw [horb, hq]; rfl
    refine ⟨_, by rw [abSymmetrize, if_pos hs], fun i => ?_⟩
    obtain ⟨q, hq⟩ := absymOne_total (phiOf X i) (h0 i)
    obtain ⟨-, -, a, ha, h1, h2⟩ := absymOne_some hq
    refine ⟨a, ha, fun h k => ?_, fun h k => ?_⟩
    · simp only [stack_phiIx, flat_pair, horb, hq, Option.getD_some]
      exact h1 h k
    · simp only [stack_phiIx, flat_pair, horb, hq, Option.getD_some]
      exact h2 h k

/-- Nearly degenerate neighbours of the same parity are destroyed: with two even orbitals the odd
combination is zero and the result is not finite. -/
theorem C58_same_parity (X : Unk ℝ (G.Na * G.Nr) 1)
    (hd : |evalsOf X 0 - evalsOf X 1| < 1 / 10 ^ 6)
    (he : ∀ i k, X (phiIx i (G.mirIx k)) = X (phiIx i k)) : abSymmetrize X = .error .nonFinite := by
  have hodd : odd (phiOf X 0) (phiOf X 1) = fun _ => 0 := by
    funext k
    have h0 : G.mir (phiOf X 0) k = phiOf X 0 k := he 0 k
    have h1 : G.mir (phiOf X 1) k = phiOf X 1 k := he 1 k
    simp only [odd, h0, h1]
    ring
  have hu : unit (odd (phiOf X 0) (phiOf X 1)) = none := by
    rw [hodd, unit, if_pos (onorm_eq_zero.2 fun _ => rfl)]
  have : absymOrbs X 1 = none := by
    have h2 : ∀ phi : Fin 2 → Orb G, phi 0 = some (phiOf X 0) → phi 1 = some (phiOf X 1) →
        (List.finRange 1).foldl (absymPair (evalsOf X)) phi 1 = none := fun phi p0 p1 => by
      change absymPair (evalsOf X) phi 0 1 = none
      unfold absymPair
      rw [if_pos (show |evalsOf X (Fin.castSucc (0 : Fin 1)) - evalsOf X (Fin.succ 0)| < 1 / 10 ^ 6 from hd)]
      change (match phi 0, phi 1 with
        | some p, some q => Function.update (Function.update phi 0 (unit (even p q))) 1 (unit (odd p q))
        | _, _ => Function.update (Function.update phi 0 none) 1 none) 1 = none
      rw [p0, p1]
      change Function.update (Function.update phi 0 (unit (even (phiOf X 0) (phiOf X 1)))) 1
        (unit (odd (phiOf X 0) (phiOf X 1))) 1 = none
      rw [Function.update_self, hu]
    rw [absymOrbs, h2 _ rfl rfl]
    rfl
  rw [abSymmetrize, if_neg]
  intro h
  have := h 1
  simp_all

/-- One orbital on the two-point grid, not symmetric before. -/
example : ∃ Y, abSymmetrize (G := Grid.tiny ℝ) (M := 0) (![3, 1, 4, 6] : Fin 4 → ℝ) = .ok Y ∧
    Y 2 = 5 ∧ Y 3 = 5 := by
  obtain ⟨h1, h2⟩ := C58_symmetrize (G := Grid.tiny ℝ) (M := 0) (![3, 1, 4, 6] : Fin 4 → ℝ)
  obtain ⟨Y, hY, -⟩ := h2 (fun i => i.elim0) (fun i => by
    obtain rfl : i = 0 := Fin.fin_one_eq_zero i
    exact ⟨(0 : Fin 2), show (3 : ℝ) ≠ 0 by norm_num⟩)
  obtain ⟨-, -, -, hp, -⟩ := h1 Y hY
  refine ⟨Y, hY, ?_, ?_⟩
  · have := hp (0 : Fin 2)
    exact this.trans (show ((4 : ℝ) + 6) / 2 = 5 by norm_num)
  · have := hp (1 : Fin 2)
    exact this.trans (show ((6 : ℝ) + 4) / 2 = 5 by norm_num)

end
end Verif
