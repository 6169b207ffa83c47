import Verif.Lemmas.Grid
import Verif.Spec.Grid

/-!
# C01 mirror, C02 spinflip
-/

namespace Verif
open Spec Psgrid

variable {K : Type*}

/-- C01: when `mirror` succeeds, the result has the same shape, and its value at
`(ia, ir)` of column `s` is the input's value at `(Na-1-ia, ir)` of column `s`. -/
theorem C01_mirror_value {Na Nr : ℕ} (a b : Arr K) (h : mirror Na Nr a = .ok b) :
    b.shape = a.shape ∧
    ∀ ia ir s : ℕ, ia < Na → ir < Nr → s * (Na * Nr) < a.shape.prod →
      (∃ x, elem b (pos Na Nr ia ir s) = some x) ∧
      elem b (pos Na Nr ia ir s) = elem a (pos Na Nr (Na - 1 - ia) ir s) := by
  by_cases h0 : Na * Nr = 0
  · simp [mirror, square, h0, bind, Except.bind] at h
  have hNa : 0 < Na := by
    rcases Nat.eq_zero_or_pos Na with h1 | h1
    · simp [h1] at h0
    · exact h1
  have hNr : 0 < Nr := by
    rcases Nat.eq_zero_or_pos Nr with h1 | h1
    · simp [h1] at h0
    · exact h1
  by_cases hd : Na * Nr ∣ a.shape.prod
  · rw [mirror_eq hNa hNr a hd] at h
    injection h with h
    subst h
    refine ⟨rfl, fun ia ir s hia hir hs => ?_⟩
    obtain ⟨c, hc⟩ := hd
    have hsc : s < c := by
      rw [hc, Nat.mul_comm s] at hs
      exact Nat.lt_of_mul_lt_mul_left hs
    have hb : ∀ i, i < Na → pos Na Nr i ir s < a.shape.prod := by
      intro i hi
      have h1 := Nat.mul_le_mul_left Na (Nat.succ_le_of_lt hir)
      have h2 := Nat.mul_le_mul_left (Na * Nr) (Nat.succ_le_of_lt hsc)
      rw [Nat.mul_succ] at h1 h2
      unfold pos; omega
    have e : Arr.flip0Pos Na (pos Na Nr ia ir s) = pos Na Nr (Na - 1 - ia) ir s := by
      unfold pos
      rw [Nat.add_assoc, Nat.mul_assoc, ← Nat.mul_add, Arr.flip0Pos_idx hia, Nat.mul_add,
        Nat.add_assoc]
    constructor
    · unfold elem
      rw [dif_pos (hb ia hia)]
      exact ⟨_, rfl⟩
    · unfold elem
      rw [dif_pos (hb ia hia), dif_pos (hb (Na - 1 - ia) (by omega))]
      simp only [e]
  · rw [mirror_err hNa hNr a hd] at h; cases h

/-- C01: `mirror` undoes itself, for arrays of every shape. -/
theorem C01_mirror_involutive {Na Nr : ℕ} (a b : Arr K) (h : mirror Na Nr a = .ok b) :
    mirror Na Nr b = .ok a := by
  by_cases h0 : Na * Nr = 0
  · simp [mirror, square, h0, bind, Except.bind] at h
  have hNa : 0 < Na := by
    rcases Nat.eq_zero_or_pos Na with h1 | h1
    · simp [h1] at h0
    · exact h1
  have hNr : 0 < Nr := by
    rcases Nat.eq_zero_or_pos Nr with h1 | h1
    · simp [h1] at h0
    · exact h1
  by_cases hd : Na * Nr ∣ a.shape.prod
  · rw [mirror_eq hNa hNr a hd] at h
    injection h with h
    subst h
    obtain ⟨sh, data⟩ := a
    refine (mirror_eq hNa hNr _ (by exact hd)).trans ?_
    simp only [Except.ok.injEq, Arr.mk.injEq, heq_eq_eq, true_and]
    funext k
    congr 1
    exact Fin.ext (Arr.flip0Pos_flip0Pos hNa)
  · rw [mirror_err hNa hNr a hd] at h; cases h

/-- C01: on a non-empty grid `mirror` succeeds exactly on arrays whose size is a whole multiple of
`Nelem` and raises `ValueError` on all others. -/
theorem C01_mirror_error {Na Nr : ℕ} (hNa : 0 < Na) (hNr : 0 < Nr) (a : Arr K) :
    ((∃ b, mirror Na Nr a = .ok b) ↔ Na * Nr ∣ a.shape.prod) ∧
    (¬ Na * Nr ∣ a.shape.prod → mirror Na Nr a = .error .valueError) := by
  refine ⟨⟨fun ⟨b, hb⟩ => ?_, fun hd => ⟨_, mirror_eq hNa hNr a hd⟩⟩, mirror_err hNa hNr a⟩
  by_contra hd
  rw [mirror_err hNa hNr a hd] at hb; cases hb

/-- A 2x2 grid with two columns: `mirror` of columns `[1,2,3,4]`, `[5,6,7,8]`. -/
example : ∃ b, mirror 2 2 (⟨[4, 2], fun k => k.1 + 1⟩ : Arr ℕ) = .ok b ∧
    (List.ofFn b.data) = [2, 1, 4, 3, 6, 5, 8, 7] := ⟨_, rfl, by decide⟩

/-- An array of size 5 on a 2x2 grid raises. -/
example : mirror 2 2 (⟨[5], fun k => k.1⟩ : Arr ℕ) = .error .valueError := rfl

/-- C02: `spinflip` of a 2-d array has the same shape and exchanges columns `s` and `p-1-s`. -/
theorem C02_spinflip_value {n p : ℕ} (hn : 0 < n) (a b : Arr K) (ha : a.shape = [n, p])
    (h : spinflip a = .ok b) :
    b.shape = [n, p] ∧ ∀ i s, i < n → s < p →
      (∃ x, entry2 b i s = some x) ∧ entry2 b i s = entry2 a i (p - 1 - s) := by
  obtain ⟨sh, data⟩ := a
  simp only at ha; subst ha
  simp only [spinflip, List.length_cons, List.length_nil, Nat.reduceAdd,
    OfNat.ofNat_ne_one, if_false, Arr.flip1, Except.ok.injEq] at h
  subst h
  refine ⟨rfl, fun i s hi hs => ?_⟩
  have hb : ∀ t, t < p → i + n * t < [n, p].prod := by
    intro t ht
    have h1 := Nat.mul_le_mul_left n (Nat.succ_le_of_lt ht)
    rw [Nat.mul_succ] at h1
    simp only [List.prod_cons, List.prod_nil, mul_one]; omega
  have e : Arr.flip1Pos n p (i + n * s) = i + n * (p - 1 - s) := by
    unfold Arr.flip1Pos
    rw [Nat.add_mul_mod_self_left, Nat.mod_eq_of_lt hi, Nat.add_mul_div_left _ _ hn,
      Nat.div_eq_of_lt hi, Nat.zero_add]
    congr 2
    have := Arr.flip0Pos_idx (d := p) (j := 0) hs
    simpa using this
  have hps : p - 1 - s < p := by omega
  simp only [entry2, hi, hs, hps, and_self, if_true]
  unfold elem
  rw [dif_pos (hb s hs), dif_pos (hb _ hps)]
  simp only [e, and_true]
  exact ⟨_, rfl⟩

/-- C02: `spinflip` undoes itself for every 1-d and 2-d array, and leaves 1-d arrays alone. -/
theorem C02_spinflip_involutive (a b : Arr K) (h : spinflip a = .ok b) :
    spinflip b = .ok a ∧ (a.shape.length = 1 → b = a) := by
  obtain ⟨sh, data⟩ := a
  unfold spinflip at h
  split at h
  · rename_i h1
    injection h with h; subst h
    exact ⟨by simp [spinflip, h1], fun _ => rfl⟩
  · rename_i h1
    match sh, data, h, h1 with
    | n :: p :: rest, data, h, h1 =>
      simp only [Arr.flip1, Except.ok.injEq] at h
      subst h
      refine ⟨?_, fun h2 => absurd h2 h1⟩
      have h1' : ¬ (n :: p :: rest).length = 1 := h1
      simp only [spinflip, h1', if_false, Arr.flip1, Except.ok.injEq, Arr.mk.injEq, heq_eq_eq,
        true_and]
      funext k
      congr 1
      apply Fin.ext
      have hk : k.1 < n * (p * rest.prod) := by
        have h3 : (n :: p :: rest).prod = n * (p * rest.prod) := by
          rw [List.prod_cons, List.prod_cons]
        exact lt_of_lt_of_eq k.2 h3
      have hn : 0 < n := by
        rcases Nat.eq_zero_or_pos n with h0 | h0
        · simp [h0] at hk
        · exact h0
      have hp : 0 < p := by
        rcases Nat.eq_zero_or_pos p with h0 | h0
        · simp [h0] at hk
        · exact h0
      exact Arr.flip1Pos_flip1Pos hn hp
    | [], data, h, h1 => simp [Arr.flip1] at h
    | [n], data, h, h1 => simp at h1

/-- C02: on `(Nelem,p)` arrays `spinflip` and `mirror` commute. -/
theorem C02_spinflip_mirror_comm (G : Grid K) {p : ℕ} (f : Fin (G.Na * G.Nr) → Fin p → K)
    (hNa : 0 < G.Na) (hNr : 0 < G.Nr) :
    (spinflip (Arr.ofCols f) >>= mirror G.Na G.Nr) =
      (mirror G.Na G.Nr (Arr.ofCols f) >>= spinflip) ∧
    ∃ b, (spinflip (Arr.ofCols f) >>= mirror G.Na G.Nr) = .ok b := by
  have hN : 0 < G.Na * G.Nr := Nat.mul_pos hNa hNr
  have h1 := G.spinflip_ofCols (fun s k => f k s) hN
  have h2 := G.mirror_ofCols (fun s k => f k s) hNa hNr
  rw [h1, h2]
  simp only [bind, Except.bind]
  rw [G.mirror_ofCols _ hNa hNr, G.spinflip_ofCols _ hN]
  exact ⟨rfl, _, rfl⟩

/-- Two columns on a two-point grid are exchanged. -/
example : ∃ b, spinflip (⟨[2, 2], fun k => k.1 + 1⟩ : Arr ℕ) = .ok b ∧
    (List.ofFn b.data) = [3, 4, 1, 2] := ⟨_, rfl, by decide⟩

end Verif
