import Verif.Lemmas.RoundedDensity
import Verif.Props.C18_C22
import Verif.Lemmas.Grid

/-! # C123: densities of a solver in floating-point arithmetic -/

namespace Verif
open Rounding Spec
variable {K : Type*} [Field K] [LinearOrder K] [IsStrictOrderedRing K] [FloorRing K] {R : Rounding K} {u : K} {G : Grid K}

/-- C123: the density computed with rounding is right at every point up to the factor `(1 - u)^(depth + filled + 13)`,
however `np.sum` adds, and an exception is raised if and only if one is raised in exact arithmetic.  Halving the number of
electrons is taken to be exact, as it is with binary digits. -/
theorem C123_relative (h : R.Precise u) (hG : Spec.NoNegativeWeights G) {o : Order G.Ix} (ho : o.Complete) (s : Solver G)
    (hp : s.pol = 1 ∨ s.pol = 2) (hN : 0 ≤ s.N) (h2 : R.fl (s.N / 2) = s.N / 2) (h4 : R.fl (s.N / 4) = s.N / 4) :
    let x : K := s.N / (orbitalCapacity s.m (s.pol = 2) : K)
    (∀ (i : ℕ) p, (i : K) < x → s.orb i = .ok p → (G.integ fun k => p k ^ 2) ≠ 0) →
    (∀ n, s.calcDensity = .ok n → ∃ n', Rounded.calcDensity R o s = .ok n' ∧ ∀ k,
      (1 - u) ^ (o.depth + ⌊x⌋.toNat + 13) * n k ≤ n' k ∧ (1 - u) ^ (o.depth + ⌊x⌋.toNat + 13) * n' k ≤ n k) ∧
    (∀ e, s.calcDensity = .error e ↔ Rounded.calcDensity R o s = .error e) := by
  simp only
  rw [← Solver.scale_eq s hp]
  intro hn
  have key := Rounded.calcDensity_within h hG ho s hN h2 h4 hn
  cases hs : s.calcDensity with
  | error e =>
    rw [hs] at key
    simp only at key
    rw [key]
    exact ⟨fun n hh => (nomatch hh), fun e' => ⟨fun hh => by cases hh; rfl, fun hh => by cases hh; rfl⟩⟩
  | ok n =>
    rw [hs] at key
    obtain ⟨m, hm, -, hw⟩ := key
    rw [hm]
    refine ⟨fun n' hh => ?_, fun e' => ⟨fun hh => (nomatch hh), fun hh => (nomatch hh)⟩⟩
    cases hh
    exact ⟨m, rfl, hw⟩

/-- C123: the electrons of the computed density: in exact arithmetic, and integrated with rounding in any order `o'`.
Either the last shell may be partly filled, or all are full. -/
theorem C123_electrons (h : R.Precise u) (hG : Spec.NoNegativeWeights G) {o o' : Order G.Ix} (ho : o.Complete) (ho' : o'.Complete)
    (s : Solver G) (hp : s.pol = 1 ∨ s.pol = 2) (hN : 0 ≤ s.N) (h2 : R.fl (s.N / 2) = s.N / 2)
    (h4 : R.fl (s.N / 4) = s.N / 4) (l : List G.Fld) (hl : s.phi = some l) :
    let g : K := (orbitalCapacity s.m (s.pol = 2) : K)
    let d := o.depth + ⌊s.N / g⌋.toNat + 13
    (s.fractional = true ∨ ∃ z : ℤ, s.N = g * z) → needed s.fractional (s.N / g) ≤ l.length →
    (∀ i (hi : i < l.length), (i : K) < s.N / g → (G.integ fun k => l[i] k ^ 2) ≠ 0) →
    ∃ n, Rounded.calcDensity R o s = .ok n ∧
      ((1 - u) ^ d * s.N ≤ G.integ n ∧ (1 - u) ^ d * G.integ n ≤ s.N) ∧
      (1 - u) ^ (o'.depth + 6 + d) * s.N ≤ Rounded.integ R G o' n ∧
      (1 - u) ^ (o'.depth + 6 + d) * Rounded.integ R G o' n ≤ s.N := by
  simp only
  intro hfr hlen hnorm
  have hg : (0 : K) < (orbitalCapacity s.m (s.pol = 2) : K) := by
    rw [← Solver.scale_eq s hp]; exact s.scale_pos
  have hx : 0 ≤ s.N / (orbitalCapacity s.m (s.pol = 2) : K) := div_nonneg hN hg.le
  obtain ⟨n, hn, hf, hw⟩ := C18_electron_number s hp hN l hl hlen (by
    intro i hi hfill
    refine hnorm i hi ?_
    revert hfill
    unfold fill filling fillingWhole
    split_ifs with h1 h3
    · intro hne
      by_contra hlt
      refine hne ?_
      rw [max_eq_left (by linarith), min_eq_right zero_le_one]
    · intro _; linarith
    · intro hne; exact absurd rfl hne)
  have hint : G.integ n = s.N := by
    rcases hfr with hfr | ⟨z, hz⟩
    · exact hf hfr
    · cases hb : s.fractional with
      | true => exact hf hb
      | false =>
        have hgr := hw hb
        exact le_antisymm hgr.1.2 (hgr.2 ⟨⟨z, hz⟩, le_rfl⟩)
  have hpos : ∀ (i : ℕ) p, (i : K) < s.N / (orbitalCapacity s.m (s.pol = 2) : K) → s.orb i = .ok p →
      (G.integ fun k => p k ^ 2) ≠ 0 := by
    intro i p hi hip
    unfold Solver.orb at hip
    rw [hl] at hip
    simp only at hip
    by_cases hil : i < l.length
    · rw [pyGet_ofNat l i hil] at hip
      cases hip
      exact hnorm i hil hi
    · rw [pyGet_ofNat_oob l i (by omega)] at hip
      cases hip
  have key := Rounded.calcDensity_within h hG ho s hN h2 h4 (by rw [Solver.scale_eq s hp]; exact hpos)
  rw [hn] at key
  obtain ⟨m, hm, hn0, hwm⟩ := key
  rw [Solver.scale_eq s hp] at hwm
  have h1 := Rounded.integ_within hG hwm
  rw [hint] at h1
  have hm0 : ∀ k, 0 ≤ m k := fun k => (hwm k).nonneg h (hn0 k)
  have h3 := Within.trans (k := o'.depth + 6) h (C122_relative h hG ho' hm0) h1
  exact ⟨m, hm, h1, h3⟩

/-- C123: densities are not negative, whatever the rounding; where a norm is computed as zero the code divides by zero,
which is left out. -/
theorem C123_nonneg (R : Rounding K) (hG : Spec.NoNegativeWeights G) (o : Order G.Ix) (s : Solver G) {n : G.Fld}
    (_hz : ∀ (i : ℤ) p, s.orb i = .ok p → Rounded.integ R G o (fun k => R.mul (p k) (p k)) ≠ 0)
    (h : Rounded.calcDensity R o s = .ok n) (k : G.Ix) : 0 ≤ n k := by
  have hsq : ∀ x : K, 0 ≤ R.mul x x := fun x => R.fl_nonneg (mul_self_nonneg x)
  have hI : ∀ p : G.Fld, 0 ≤ Rounded.integ R G o fun k => R.mul (p k) (p k) := fun p =>
    (C122_monotone R hG o).2.1 _ fun k => hsq (p k)
  refine Rounded.calcDensity_inv R o s (fun n => ∀ k, 0 ≤ n k) (fun _ => le_rfl) ?_ ?_ ?_ h k
  · exact fun n i p hn _ k => R.fl_nonneg (add_nonneg (hn k) (R.fl_nonneg (div_nonneg (hsq _) (hI p))))
  · exact fun n i p hn _ k => R.fl_nonneg (add_nonneg (hn k) (R.fl_nonneg (div_nonneg
      (R.fl_nonneg (mul_nonneg (R.fl_nonneg (sub_nonneg.mpr (Int.floor_le _))) (hsq _))) (hI p))))
  · exact fun n c hc hn k => R.fl_nonneg (mul_nonneg hc (hn k))

/-- C123: orbitals that are exactly even or odd give a density that is mirror symmetric to the last digit, whatever the
rounding and the order of adding. -/
theorem C123_mirror (R : Rounding K) (o : Order G.Ix) (s : Solver G) {n : G.Fld}
    (hpar : ∀ (i : ℤ) p, s.orb i = .ok p → (∀ k, G.mir p k = p k) ∨ ∀ k, G.mir p k = -p k)
    (h : Rounded.calcDensity R o s = .ok n) : G.mir n = n := by
  have hsq : ∀ (i : ℤ) p, s.orb i = .ok p → ∀ k, R.mul (p (G.mirIx k)) (p (G.mirIx k)) = R.mul (p k) (p k) := by
    intro i p hp k
    rcases hpar i p hp with h1 | h1
    · have := h1 k; unfold Grid.mir at this; rw [this]
    · have := h1 k; unfold Grid.mir at this; rw [this]; unfold Rounding.mul; rw [neg_mul_neg]
  funext k
  refine Rounded.calcDensity_inv R o s (fun n => ∀ k, n (G.mirIx k) = n k) (fun _ => rfl) ?_ ?_ ?_ h k
  · intro n i p hn hp k; dsimp only; unfold Rounded.term; rw [hn, hsq i p hp]
  · intro n i p hn hp k; dsimp only; rw [hn, hsq i p hp]
  · intro n c _ hn k; dsimp only; rw [hn]

/-- C123: what `calc_orbitals` makes of an orbital with `sym=True` is even or odd to the last digit. -/
theorem C123_symmetrise (R : Rounding K) (o : Order G.Ix) (norm : G.Fld → K) (f : G.Fld) :
    (∀ k, G.mir (Rounded.symmetrise R o norm f) k = Rounded.symmetrise R o norm f k) ∨
      ∀ k, G.mir (Rounded.symmetrise R o norm f) k = -Rounded.symmetrise R o norm f k := by
  unfold Rounded.symmetrise
  split_ifs
  · left
    intro k
    unfold Grid.mir Rounded.plusMirror Grid.mir
    simp only [Grid.mirIx_mirIx]
    rw [R.add_comm]
  · right
    intro k
    unfold Grid.mir Rounded.minusMirror Grid.mir
    simp only [Grid.mirIx_mirIx]
    exact R.sub_swap _ _

namespace Sample123

/-- Three electrons, two orbitals. -/
def s : Solver Sample122.grid4 :=
  { Nmo := 2, N := 3, m := 0, pol := 1, fractional := true,
    phi := some [fun k => if k.1 = 0 ∨ k.1 = 3 then 1 else 3, fun k => if k.1 < 2 then 1 else -1] }

def D : Rounding ℚ := binary 52 none

/-- Density at the four points, its electrons. -/
def seen (x : Py Sample122.grid4.Fld) : Option (List ℚ × ℚ) :=
  x.toOption.map fun n => ((List.finRange 4).map fun i => n (Sample122.at4 i), Sample122.grid4.integ n)

end Sample123
open Sample122 Sample123

/-- C123: three electrons with exact arithmetic, with three binary digits and with 53: not exactly three, exactly symmetric. -/
example : Sample123.seen Sample123.s.calcDensity = some ([7 / 20, 23 / 20, 23 / 20, 7 / 20], 3) ∧
    Sample123.seen (Rounded.calcDensity R3 o Sample123.s) = some ([3 / 8, 5 / 4, 5 / 4, 3 / 8], 13 / 4) ∧
    Sample123.seen (Rounded.calcDensity D o Sample123.s) = some ([3152519739159347 / 2 ^ 53, 2589569785738035 / 2 ^ 51,
      2589569785738035 / 2 ^ 51, 3152519739159347 / 2 ^ 53], 13510798882111487 / 2 ^ 52) := by
  refine ⟨?_, ?_, ?_⟩ <;> decide +kernel

/-- C123: the hypotheses of `C123_electrons` hold for these three electrons in double precision, and the bound is below
`3e-14`. -/
example : ∃ n, Rounded.calcDensity D o Sample123.s = .ok n ∧ |grid4.integ n - 3| < 3 / 10 ^ 14 := by
  have hpt : ∀ i (hi : i < 2), (grid4.integ fun k => ([fun k => if k.1 = 0 ∨ k.1 = 3 then 1 else 3,
      fun k => if k.1 < 2 then 1 else -1] : List grid4.Fld)[i] k ^ 2) ≠ 0 := by
    intro i hi
    have : i = 0 ∨ i = 1 := by omega
    rcases this with rfl | rfl <;> decide +kernel +revert
  obtain ⟨n, hn, ⟨h1, h2⟩, -⟩ := C123_electrons (R := D) (o := o) (o' := o) (binary_precise 52) Sample122.nonneg complete.1 complete.1
    Sample123.s (.inl rfl) (by norm_num [Sample123.s]) (by decide +kernel) (by decide +kernel) _ rfl (.inl rfl) (by decide +kernel)
    (fun i hi _ => hpt i hi)
  refine ⟨n, hn, ?_⟩
  have hd : o.depth + ⌊Sample123.s.N / (orbitalCapacity Sample123.s.m (Sample123.s.pol = 2) : ℚ)⌋.toNat + 13 = 17 := by
    decide +kernel
  rw [hd, show Sample123.s.N = 3 from rfl] at h1 h2
  rw [abs_lt]
  constructor
  · refine lt_of_lt_of_le ?_ (sub_le_sub_right h1 3)
    norm_num
  · have : grid4.integ n ≤ 3 / (1 - 1 / 2 ^ (52 + 1)) ^ 17 := by
      rw [le_div_iff₀ (by norm_num), mul_comm]; exact h2
    refine lt_of_le_of_lt (sub_le_sub_right this 3) ?_
    norm_num

end Verif
