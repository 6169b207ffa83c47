import Verif.Model.Plot
import Verif.Lemmas.Grid
import Mathlib.Tactic.NormNum

/-!
# C63, C64: plotting arrays, reduced gradient
-/

namespace Verif
open Plot Init

theorem hstack_left {K : Type*} {Na Nr : ℕ} (L R : Fin Na → Fin Nr → K) (i : Fin Na) (j : Fin Nr)
    (j' : Fin (2 * Nr)) (h : j'.1 = j.1) : hstack L R i j' = L i j := by
  obtain ⟨j', hj'⟩ := j'
  obtain rfl : j' = j.1 := h
  simp [hstack, j.2]

theorem hstack_right {K : Type*} {Na Nr : ℕ} (L R : Fin Na → Fin Nr → K) (i : Fin Na) (j : Fin Nr)
    (j' : Fin (2 * Nr)) (h : j'.1 = Nr + j.1) : hstack L R i j' = R i j := by
  obtain ⟨j', hj'⟩ := j'
  obtain rfl : j' = Nr + j.1 := h
  simp [hstack]

/-- An array whose left half is `s` times the reflected right half. -/
theorem hstack_rev {Na Nr : ℕ} (s : ℝ) (hs : s * s = 1) (A : Fin Na → Fin Nr → ℝ) (i : Fin Na) (j : Fin (2 * Nr)) :
    hstack (fun i j => s * flip1 A i j) A i j.rev = s * hstack (fun i j => s * flip1 A i j) A i j := by
  have hr := Fin.val_rev j
  by_cases h : j.1 < Nr
  · rw [hstack_left _ _ i ⟨j.1, h⟩ j rfl,
      hstack_right _ _ i (⟨j.1, h⟩ : Fin Nr).rev j.rev (by rw [Fin.val_rev, Fin.val_rev]; simp only; omega),
      ← mul_assoc, hs, one_mul]
    rfl
  · have h2 := j.2
    rw [hstack_right _ _ i ⟨j.1 - Nr, by omega⟩ j (by simp only; omega),
      hstack_left _ _ i (⟨j.1 - Nr, by omega⟩ : Fin Nr).rev j.rev (by rw [Fin.val_rev, Fin.val_rev]; simp only; omega)]
    simp [flip1]

theorem close_inner {K : Type*} {Na n : ℕ} (h : 0 < Na) (A : Fin Na → Fin n → K) (i : Fin Na) (j : Fin n) :
    close h A ⟨i.1 + 1, by have := i.2; omega⟩ j = A i j := by
  have := i.2
  simp [close, show i.1 + 1 ≤ Na by omega]

theorem close_rev {Na n : ℕ} (h : 0 < Na) (A : Fin Na → Fin n → ℝ) (s : ℝ) (hA : ∀ i j, A i j.rev = s * A i j)
    (i : Fin (Na + 2)) (j : Fin n) : close h A i j.rev = s * close h A i j := by
  unfold close
  split
  · exact hA _ _
  split
  · exact hA _ _
  · exact hA _ _

/-- C63.  On every grid with at least two rows and columns `plotter` returns `(Na+2) × 2Nr` arrays: inner
rows hold the field on the right and `sym` times its reflection on the left; the first and last row are
the neighbouring rows reversed; the coordinates of the right half are those of the grid, `z` is even
and `x` odd under reflection in every row, so the closing rows hold the reflected points. -/
theorem C63_plotter (Na Nr : ℕ) (hNa : 2 ≤ Na) (hNr : 2 ≤ Nr) (a L sym : ℝ) (f : Fin (Na * Nr) → ℝ) :
    ∃ out : Out Na Nr, plotter Na Nr a L f sym = .ok out ∧
      (∀ (i : Fin Na) (j : Fin Nr) (k : Fin (Na * Nr)), ia k = i → ir k = j →
        let i' : Fin (Na + 2) := ⟨i.1 + 1, by have := i.2; omega⟩
        let right : Fin (2 * Nr) := ⟨Nr + j.1, by have := j.2; omega⟩
        let left : Fin (2 * Nr) := ⟨Nr - 1 - j.1, by have := j.2; omega⟩
        out.full i' right = f k ∧ out.full i' left = sym * f k ∧
        out.Zf i' right = a * Real.cosh (xr Nr L j) * Real.cos (xa Na i) ∧
        out.Xf i' right = a * Real.sinh (xr Nr L j) * Real.sin (xa Na i)) ∧
      (∀ A, A = out.full ∨ A = out.Zf ∨ A = out.Xf → ∀ j : Fin (2 * Nr),
        A 0 j = A ⟨1, by omega⟩ j.rev ∧ A (Fin.last (Na + 1)) j = A ⟨Na, by omega⟩ j.rev) ∧
      (∀ i j, out.Zf i j.rev = out.Zf i j ∧ out.Xf i j.rev = - out.Xf i j) := by
  have h0 : Na * Nr ≠ 0 := Nat.mul_ne_zero (by omega) (by omega)
  have hp : 0 < Na := by omega
  refine ⟨_, by rw [plotter, if_neg h0, if_neg (by omega), dif_pos hp], ?_, ?_, ?_⟩
  · rintro i j k rfl rfl i' right left
    have hk : pos (ia k) (ir k) = k := by
      ext
      exact Nat.mod_add_div k.1 Na
    have hia : ia (pos (ia k) (ir k)) = ia k := by rw [hk]
    have hir : ir (pos (ia k) (ir k)) = ir k := by rw [hk]
    refine ⟨?_, ?_, ?_, ?_⟩
    · show close hp _ ⟨(ia k).1 + 1, _⟩ ⟨Nr + (ir k).1, _⟩ = f k
      rw [close_inner, hstack_right _ _ _ (ir k) _ rfl, hk]
    · show close hp _ ⟨(ia k).1 + 1, _⟩ ⟨Nr - 1 - (ir k).1, _⟩ = sym * f k
      rw [close_inner, hstack_left _ _ _ (ir k).rev _ (by rw [Fin.val_rev]; simp only; omega), flip1, Fin.rev_rev, hk]
    · show close hp _ ⟨(ia k).1 + 1, _⟩ ⟨Nr + (ir k).1, _⟩ = _
      rw [close_inner, hstack_right _ _ _ (ir k) _ rfl, Xr, Xa, hia, hir]
    · show close hp _ ⟨(ia k).1 + 1, _⟩ ⟨Nr + (ir k).1, _⟩ = _
      rw [close_inner, hstack_right _ _ _ (ir k) _ rfl, Xr, Xa, hia, hir]
  · have key : ∀ B : Fin Na → Fin (2 * Nr) → ℝ, ∀ j : Fin (2 * Nr),
        close hp B 0 j = close hp B ⟨1, by omega⟩ j.rev ∧
        close hp B (Fin.last (Na + 1)) j = close hp B ⟨Na, by omega⟩ j.rev := by
      intro B j
      constructor
      · simp [close, show 1 ≤ Na by omega]
      · have h1 : ¬ (Na = 0) := by omega
        simp [close, h1]
    intro A hA j
    obtain ⟨B, rfl⟩ : ∃ B, A = close hp B := by
      rcases hA with rfl | rfl | rfl <;> exact ⟨_, rfl⟩
    exact key B j
  · intro i j
    constructor
    · have := close_rev hp _ 1 (fun i j => hstack_rev 1 (by norm_num) (fun i j =>
        a * Real.cosh (Xr Na Nr L (pos i j)) * Real.cos (Xa Na Nr (pos i j))) i j) i j
      simpa only [one_mul] using this
    · have := close_rev hp _ (-1) (fun i j => hstack_rev (-1) (by norm_num) (fun i j =>
        a * Real.sinh (Xr Na Nr L (pos i j)) * Real.sin (Xa Na Nr (pos i j))) i j) i j
      simpa only [neg_one_mul] using this

/-- Field `k` on a 2 by 2 grid, odd: the top left inner value is minus the field at row 0, column 1. -/
example : ∃ out, plotter 2 2 1 1 (fun k => (k.1 : ℝ)) (-1) = .ok out ∧ out.full 1 0 = -2 ∧ out.full 0 3 = -2 := by
  obtain ⟨out, h, h1, h2, -⟩ := C63_plotter 2 2 le_rfl le_rfl 1 1 (-1) fun k => (k.1 : ℝ)
  have h3 : out.full 1 0 = -1 * ((2 : ℕ) : ℝ) := (h1 0 1 2 rfl rfl).2.1
  refine ⟨out, h, by rw [h3]; norm_num, ?_⟩
  rw [(h2 _ (.inl rfl) 3).1]
  exact h3.trans (by norm_num)

/-- Grids with one row or one column raise. -/
theorem C63_thin (Na Nr : ℕ) (h : Na = 1 ∨ Nr = 1) (a L sym : ℝ) (f : Fin (Na * Nr) → ℝ) (out : Out Na Nr) :
    plotter Na Nr a L f sym ≠ .ok out := by
  unfold plotter
  split
  · exact nofun
  · exact nofun

/-- C64 is false for every density: no call of `reduced_grad` returns a value, neither the function nor
the method of the grid. -/
theorem C64_refuted {K : Type*} [Field K] {N : ℕ} (grada gradr : Matrix (Fin N) (Fin N) K) (pol : ℕ)
    (n : Fin pol → Fin N → K) :
    (∀ s, reducedGrad grada gradr pol n ≠ .ok s) ∧ ∀ s, gridReducedGrad grada gradr pol n ≠ .ok s := by
  have h : ∀ s, reducedGrad grada gradr pol n ≠ .ok s := by
    intro s hs
    unfold reducedGrad at hs
    split at hs
    · subst pol
      exact nomatch hs
    split at hs <;> exact nomatch hs
  refine ⟨h, fun s hs => ?_⟩
  unfold gridReducedGrad at hs
  cases hr : reducedGrad grada gradr pol n with
  | error e => rw [hr] at hs; exact nomatch hs
  | ok x => exact h x hr

/-- Which exceptions: one column `ValueError`, two columns `IndexError`. -/
theorem C64_errors {K : Type*} [Field K] {N : ℕ} (grada gradr : Matrix (Fin N) (Fin N) K) :
    (∀ n, gridReducedGrad grada gradr 1 n = .error .valueError) ∧
    (∀ n, gridReducedGrad grada gradr 2 n = .error .indexError) := ⟨fun _ => rfl, fun _ => rfl⟩

end Verif
