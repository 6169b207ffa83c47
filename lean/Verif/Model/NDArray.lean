import Verif.Py.Basic
import Mathlib.Algebra.BigOperators.Group.List.Basic
import Mathlib.Logic.Equiv.Fin.Basic

/-!
# Numpy arrays in column-major ("F") order

The code of `CADMium/psgrid` stores every field as a flat array in Fortran order and reshapes with
`order="F"`.  An `Arr` is a shape together with its elements listed in F-order, so that
`np.reshape(_, shape, order="F")` keeps the element list and only changes the shape.
-/

namespace Verif

/-- A numpy array: shape and elements in F-order (first index fastest). -/
structure Arr (K : Type*) where
  shape : List ℕ
  data : Fin shape.prod → K

namespace Arr
variable {K : Type*}

/-- `fin.size` -/
def size (a : Arr K) : ℕ := a.shape.prod

/-- `np.reshape(a, shape, order="F")`: same element list, `ValueError` if sizes differ. -/
def reshapeF (a : Arr K) (sh : List ℕ) : Py (Arr K) :=
  if h : sh.prod = a.shape.prod then .ok ⟨sh, fun k => a.data (Fin.cast h k)⟩
  else .error .valueError

/-- F-order position of the element obtained by reversing the first axis of length `d`. -/
def flip0Pos (d k : ℕ) : ℕ := (d - 1 - k % d) + d * (k / d)

theorem flip0Pos_lt {d r k : ℕ} (h : k < d * r) : flip0Pos d k < d * r := by
  have hd : 0 < d := by
    rcases Nat.eq_zero_or_pos d with h0 | h0
    · simp [h0] at h
    · exact h0
  have h1 : k / d < r := Nat.div_lt_of_lt_mul h
  have h2 : d * (k / d) + d ≤ d * r := by
    have := Nat.mul_le_mul_left d (Nat.succ_le_of_lt h1)
    rw [Nat.mul_succ] at this; exact this
  unfold flip0Pos; omega

theorem flip0Pos_lt' {d r N k : ℕ} (hN : N = d * r) (h : k < N) : flip0Pos d k < N := by
  subst hN; exact flip0Pos_lt h

theorem flip0Pos_lt_of_dvd {d N k : ℕ} (hN : d ∣ N) (h : k < N) : flip0Pos d k < N := by
  obtain ⟨r, hr⟩ := hN; exact flip0Pos_lt' hr h

/-- `a[::-1, ...]`: reverse the first axis (a 0-dimensional array raises `IndexError`). -/
def flip0 : Arr K → Py (Arr K)
  | ⟨[], _⟩ => .error .indexError
  | ⟨d :: rest, data⟩ =>
      .ok ⟨d :: rest, fun k => data ⟨flip0Pos d k.1, 
        flip0Pos_lt' List.prod_cons k.2⟩⟩

/-- F-order position of the element obtained by reversing the second axis of an array whose first
two axes have lengths `n`, `p`. -/
def flip1Pos (n p k : ℕ) : ℕ := k % n + n * flip0Pos p (k / n)

theorem flip1Pos_lt {n p r k : ℕ} (h : k < n * (p * r)) : flip1Pos n p k < n * (p * r) := by
  have hn : 0 < n := by
    rcases Nat.eq_zero_or_pos n with h0 | h0
    · simp [h0] at h
    · exact h0
  have h1 : k / n < p * r := Nat.div_lt_of_lt_mul h
  have h3 := flip0Pos_lt h1
  have h2 : n * flip0Pos p (k / n) + n ≤ n * (p * r) := by
    have := Nat.mul_le_mul_left n (Nat.succ_le_of_lt h3)
    rw [Nat.mul_succ] at this; exact this
  have h4 := Nat.mod_lt k hn
  unfold flip1Pos; omega

theorem flip1Pos_lt' {n p r N k : ℕ} (hN : N = n * (p * r)) (h : k < N) : flip1Pos n p k < N := by
  subst hN; exact flip1Pos_lt h

/-- `np.flip(a, axis=1)`. -/
def flip1 : Arr K → Py (Arr K)
  | ⟨n :: p :: rest, data⟩ =>
      .ok ⟨n :: p :: rest, fun k => data ⟨flip1Pos n p k.1, 
        flip1Pos_lt' (by rw [List.prod_cons, List.prod_cons]) k.2⟩⟩
  | _ => .error .valueError

/-- A 1-d array. -/
def ofVec {n : ℕ} (f : Fin n → K) : Arr K := ⟨[n], fun k => f (Fin.cast (by simp) k)⟩

/-- A 2-d array of shape `(n,p)` given by columns. -/
def ofCols {n p : ℕ} (f : Fin n → Fin p → K) : Arr K :=
  ⟨[n, p], fun k =>
    have hk : k.1 < n * p := by have := k.2; simpa using this
    f ⟨k.1 % n, Nat.mod_lt _ (by
        rcases Nat.eq_zero_or_pos n with h0 | h0
        · simp [h0] at hk
        · exact h0)⟩
      ⟨k.1 / n, Nat.div_lt_of_lt_mul hk⟩⟩

end Arr
end Verif
