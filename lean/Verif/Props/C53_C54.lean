import Verif.Lemmas.Inverter
import Verif.Lemmas.Solver
import Mathlib.Analysis.SpecialFunctions.Pow.Real

/-!
# C53, C54, C66: unknown vector of the orbital inversion, `normalize`, initial guess
-/

namespace Verif
open OrbInv

namespace Spec

/-- `X` encodes the orbitals `phi`, the eigenvalues `e` (all but the last, which is the zero of
energy) and the potential `v`, in F-order: entry `i*Nelem + k` is `phi_i(k)`, then the eigenvalues,
then the potential. -/
def Encodes {K : Type*} {n M : ℕ} (X : ℕ → K) (phi : Fin (M + 1) → Fin n → K) (e : Fin M → K)
    (v : Fin n → K) : Prop :=
  (∀ i k, X (i.1 * n + k.1) = phi i k) ∧ (∀ i, X ((M + 1) * n + i.1) = e i) ∧
    ∀ k, X ((M + 1) * n + M + k.1) = v k

/-- A vector read at natural positions. -/
def at' {K : Type*} [Zero K] {L : ℕ} (X : Fin L → K) (j : ℕ) : K := if h : j < L then X ⟨j, h⟩ else 0

end Spec

open Spec

section
variable {K : Type*} [Field K] {n M : ℕ}

theorem at_phi (X : Unk K n M) (i : Fin (M + 1)) (k : Fin n) :
    at' X (i.1 * n + k.1) = X (phiIx i k) := by
  have e : ((phiIx (M := M) i k : Fin _) : ℕ) = i.1 * n + k.1 := by
    simp [phiIx, finProdFinEquiv]; ring
  have h : i.1 * n + k.1 < (M + 1) * n + (M + n) := e ▸ (phiIx (M := M) i k).2
  rw [at', dif_pos h]
  exact congrArg X (Fin.ext e.symm)

theorem at_eig (X : Unk K n M) (i : Fin M) : at' X ((M + 1) * n + i.1) = X (eigIx i) := by
  have h : (M + 1) * n + i.1 < (M + 1) * n + (M + n) := by omega
  rw [at', dif_pos h]; rfl

theorem at_pot (X : Unk K n M) (k : Fin n) : at' X ((M + 1) * n + M + k.1) = X (potIx k) := by
  have h : (M + 1) * n + M + k.1 < (M + 1) * n + (M + n) := by omega
  rw [at', dif_pos h]
  exact congrArg X (Fin.ext (by simp [potIx]; omega))

/-- C53.  The unknown vector stores orbitals, eigenvalues relative to the last one and potential
relative to the last eigenvalue at the documented positions; decoding it gives these back; a common
shift of eigenvalues and potential leaves it unchanged.  Starting from a solver the orbitals enter
with the opposite sign. -/
theorem C53_roundtrip (phi : Fin (M + 1) → Fin n → K) (eig : Fin (M + 1) → K) (v : Fin n → K) :
    Encodes (at' (pack phi eig v)) phi (fun i => eig i.castSucc - eig (Fin.last M))
      (fun k => v k - eig (Fin.last M)) ∧
    (phiOf (pack phi eig v) = phi ∧ (∀ i, evalsOf (pack phi eig v) i = eig i - eig (Fin.last M)) ∧
      ∀ k, potOf (pack phi eig v) k = v k - eig (Fin.last M)) ∧
    (∀ c, pack phi (fun i => eig i + c) (fun k => v k + c) = pack phi eig v) ∧
    Encodes (at' (fromSolver phi eig v)) (fun i k => -phi i k)
      (fun i => eig i.castSucc - eig (Fin.last M)) (fun k => v k - eig (Fin.last M)) := by
  refine ⟨⟨fun i k => ?_, fun i => ?_, fun k => ?_⟩, ⟨?_, fun i => ?_, fun k => ?_⟩, fun c => ?_,
    ⟨fun i k => ?_, fun i => ?_, fun k => ?_⟩⟩
  · simp [at_phi, pack]
  · simp [at_eig, pack]
  · simp [at_pot, pack]
  · funext i k; simp [pack]
  · induction i using Fin.lastCases <;> simp [pack]
  · simp [pack]
  · exact unk_ext (by simp [pack]) (by simp [pack]) (by simp [pack])
  · simp [at_phi, fromSolver, pack]
  · simp [at_eig, fromSolver, pack]
  · simp [at_pot, fromSolver, pack]

/-- Two orbitals on two points. -/
example : pack (n := 2) (M := 1) (![![1, 2], ![3, 4]]) ![-5, -1] ![-7, -6] =
    (![1, 2, 3, 4, -4, -6, -5] : Fin 7 → ℚ) := by
  decide +kernel

end

/-! ## C66: the initial guess of `vp_kinetic` -/

section
variable {K : Type*} [Field K] {n M : ℕ}

/-- C66 (partial).  The caller's guess is stored as orbitals, eigenvalues and potential in one gauge
when the guess has exactly `Nmo` eigenvalues and its orbital column is in F-order. -/
theorem C66_guess_partial (phi : Fin (M + 1) → Fin n → K) (eig : Fin (M + 1) → K) (v : Fin n → K) :
    fromGuess (List.ofFn (flat phi)) (List.ofFn eig) v = .ok (pack phi eig v) := by
  have h2 : pyGet (List.ofFn eig) (M : ℤ) = .ok (eig (Fin.last M)) := by
    rw [pyGet_ofNat _ _ (by simp), List.getElem_ofFn]
    rfl
  have h1 : pyGet (List.ofFn eig) (-1) = .ok (eig (Fin.last M)) := by
    rw [← h2]
    have e : (-1 + (((M + 1 : ℕ) : ℤ))) = M := by push_cast; ring
    have e' : ¬ ((M : ℤ) < 0) := by omega
    simp only [pyGet, List.length_ofFn, e, e', if_false, show ((-1 : ℤ) < 0) from by decide, if_true]
  have e : (fun t : Fin ((M + 1) * n) => (List.ofFn (flat phi)).getD t.1 0) = flat phi := by
    funext t
    simp [List.getD]
  simp only [fromGuess, h1, h2, List.length_ofFn, e, bind, Except.bind, lt_irrefl, if_false]
  refine congrArg Except.ok (unk_ext (by simp [pack]) (fun i => ?_) (by simp [pack]))
  have : i.1 < M + 1 := by omega
  simp only [stack_eigIx, pack, List.getD, List.getElem?_ofFn, this, dif_pos, Option.getD_some]
  rfl

/-- The orbital column `vp_kinetic` passes is in C-order: the guess orbital 0 is stored as a mixture of
the guess orbitals already for two points and two guess orbitals, one of which is wanted. -/
theorem C66_refuted_order :
    let phi : Fin 2 → Fin 2 → ℚ := ![![1, 10], ![2, 20]]
    ∃ X : Unk ℚ 2 0, fromGuess (flattenC 2 phi) [-3, -1] (fun _ => 0) = .ok X ∧
      phiOf X 0 ≠ fun k => phi k 0 := by
  refine ⟨_, rfl, fun h => absurd (congrFun h 1) (by decide +kernel)⟩

/-- A guess with more eigenvalues than orbitals is stored in two different gauges: the eigenvalues are
relative to the last guess eigenvalue, the potential to the eigenvalue of the last wanted orbital. -/
theorem C66_refuted_gauge :
    ∃ (X : Unk ℚ 1 1) (e0 : List ℚ), e0 = [-4, -2, -1] ∧ fromGuess [1, 1, 1] e0 (fun _ => 0) = .ok X ∧
      evalsOf X 0 = -4 - (-1) ∧ potOf X 0 = 0 - (-2) :=
  ⟨_, _, rfl, rfl, by decide +kernel, by decide +kernel⟩

example : fromGuess (n := 2) (M := 1) [1, 2, 3, 4] [-5, -1] ![-7, -6] =
    .ok (![1, 2, 3, 4, -4, -6, -5] : Fin 7 → ℚ) := by
  have := C66_guess_partial (K := ℚ) (n := 2) (M := 1) ![![1, 2], ![3, 4]] ![-5, -1] ![-7, -6]
  rw [show pack (n := 2) (M := 1) (![![1, 2], ![3, 4]]) ![-5, -1] ![-7, -6] =
    (![1, 2, 3, 4, -4, -6, -5] : Fin 7 → ℚ) by decide +kernel] at this
  rw [← this]
  congr 1

end

/-! ## C54: `normalize` -/

section
variable {n M : ℕ}

theorem wnorm_stack (w : Fin n → ℝ) (phi : Fin (M + 1) → Fin n → ℝ) (b : Fin M → ℝ) (c : Fin n → ℝ)
    (i : Fin (M + 1)) : wnorm w (stack (flat phi) b c) i = ∑ k, w k * phi i k ^ 2 := by
  simp [wnorm]

/-- C54.  For positive weighted norms and occupations `normalize` succeeds, every orbital of the result
is a positive multiple of the given one with weighted norm equal to its occupation, eigenvalues and
potential are unchanged, and applying it again changes nothing. -/
theorem C54_normalize (w : Fin n → ℝ) (occ : Fin (M + 1) → ℝ) (X : Unk ℝ n M)
    (hS : ∀ i, 0 < ∑ k, w k * X (phiIx i k) ^ 2) (ho : ∀ i, 0 < occ i) :
    ∃ Y, normalize w occ X = .ok Y ∧ (∀ i, ∑ k, w k * Y (phiIx i k) ^ 2 = occ i) ∧
      (∀ i, ∃ a > 0, ∀ k, Y (phiIx i k) = a * X (phiIx i k)) ∧
      (∀ i, Y (eigIx i) = X (eigIx i)) ∧ (∀ k, Y (potIx k) = X (potIx k)) ∧
      normalize w occ Y = .ok Y := by
  have hS' : ∀ i, 0 < wnorm w X i := hS
  have hq : ∀ i, 0 < occ i / wnorm w X i := fun i => div_pos (ho i) (hS' i)
  have hsq : ∀ i, ((occ i / wnorm w X i) ^ (1 / 2 : ℝ)) ^ 2 = occ i / wnorm w X i := fun i => by
    rw [← Real.sqrt_eq_rpow, Real.sq_sqrt (hq i).le]
  obtain ⟨Y, hY⟩ : ∃ Y, Y = stack (flat fun i k => phiOf X i k * (occ i / wnorm w X i) ^ (1 / 2 : ℝ))
      (fun i => X (eigIx i)) (fun k => X (potIx k)) := ⟨_, rfl⟩
  have hY1 : ∀ i k, Y (phiIx i k) = (occ i / wnorm w X i) ^ (1 / 2 : ℝ) * X (phiIx i k) := fun i k => by
    rw [hY]; simp [phiOf, mul_comm]
  have hY2 : ∀ i, Y (eigIx i) = X (eigIx i) := fun i => by rw [hY]; simp
  have hY3 : ∀ k, Y (potIx k) = X (potIx k) := fun k => by rw [hY]; simp
  have hn : ∀ i, ∑ k, w k * Y (phiIx i k) ^ 2 = occ i := fun i => by
    have : ∀ k, w k * Y (phiIx i k) ^ 2 = occ i / wnorm w X i * (w k * X (phiIx i k) ^ 2) := fun k => by
      rw [hY1, mul_pow, hsq]; ring
    simp only [this]
    rw [← Finset.mul_sum]
    exact div_mul_cancel₀ _ (hS' i).ne'
  refine ⟨Y, ?_, hn, fun i => ⟨_, Real.rpow_pos_of_pos (hq i) _, hY1 i⟩, hY2, hY3, ?_⟩
  · rw [OrbInv.normalize, if_pos fun i => ⟨(hS' i).ne', (hq i).le⟩, hY]
  · have hw : ∀ i, wnorm w Y i = occ i := hn
    have h1 : ∀ i, occ i / occ i = 1 := fun i => div_self (ho i).ne'
    rw [OrbInv.normalize, if_pos fun i => by rw [hw, h1]; exact ⟨(ho i).ne', zero_le_one⟩]
    refine congrArg Except.ok (unk_ext (fun i k => ?_) (by simp) (by simp))
    simp [hw, h1, phiOf]

/-- An orbital whose weighted norm vanishes has no normalised version: the result is not finite. -/
theorem C54_zero (w : Fin n → ℝ) (occ : Fin (M + 1) → ℝ) (X : Unk ℝ n M) (i : Fin (M + 1))
    (h : ∑ k, w k * X (phiIx i k) ^ 2 = 0) : normalize w occ X = .error .nonFinite := by
  rw [OrbInv.normalize, if_neg]
  exact fun hh => (hh i).1 h

/-- Orbital `(3, 4)` with unit weights and occupation 100 becomes `(6, 8)`. -/
example : ∃ Y, normalize (n := 2) (M := 0) (fun _ => 1) (fun _ => 100) ![3, 4, -1, -2] = .ok Y ∧
    Y 0 ^ 2 + Y 1 ^ 2 = 100 ∧ Y 2 = -1 ∧ Y 3 = -2 := by
  obtain ⟨Y, h1, h2, -, -, h5, -⟩ := C54_normalize (n := 2) (M := 0) (fun _ => 1) (fun _ => 100)
    ![3, 4, -1, -2] (fun i => by
      obtain rfl : i = 0 := Fin.fin_one_eq_zero i
      simp only [Fin.sum_univ_two, one_mul]
      exact add_pos (show (0 : ℝ) < 3 ^ 2 by norm_num) (show (0 : ℝ) < 4 ^ 2 by norm_num))
    (fun _ => by norm_num)
  refine ⟨Y, h1, ?_, ?_, ?_⟩
  · have := h2 0
    simp only [Fin.sum_univ_two, one_mul] at this
    exact this
  · exact h5 0
  · exact h5 1

end
end Verif
