import Verif.Lemmas.Solver

/-!
# C18-C22: solver densities, energies, HOMO and normalisation
-/

namespace Verif
open Spec Solver

section
variable {K : Type*} [Field K] [LinearOrder K] [IsStrictOrderedRing K] [FloorRing K] {G : Grid K}

/-- C18, density: with `g` the capacity of an orbital, `calc_density` returns
`g ∑ fᵢ φᵢ² / ∫φᵢ²` where `fᵢ` is the Aufbau filling of `N/g` orbitals, and raises `IndexError`
exactly when an occupied orbital is missing. -/
theorem C18_density (s : Solver G) (hp : s.pol = 1 ∨ s.pol = 2) (hN : 0 ≤ s.N) (l : List G.Fld)
    (hl : s.phi = some l) :
    let g : K := (orbitalCapacity s.m (s.pol = 2) : K)
    (needed s.fractional (s.N / g) ≤ l.length →
      s.calcDensity = .ok fun k => g * ∑ i : Fin l.length, fill s.fractional (s.N / g) i.1 *
        (l[i.1] k ^ 2 / G.integ fun k => l[i.1] k ^ 2)) ∧
    (l.length < needed s.fractional (s.N / g) → s.calcDensity = .error .indexError) := by
  simp only
  rw [← scale_eq s hp, calcDensity_eq s hN l hl]
  exact ⟨fun h => if_pos h, fun h => if_neg (by omega)⟩

/-- C18: with enough orbitals of non-zero norm the density integrates to `N` (fractional
occupation), or to the largest multiple of the orbital capacity not above `N`. -/
theorem C18_electron_number (s : Solver G) (hp : s.pol = 1 ∨ s.pol = 2) (hN : 0 ≤ s.N)
    (l : List G.Fld) (hl : s.phi = some l) :
    let g : K := (orbitalCapacity s.m (s.pol = 2) : K)
    needed s.fractional (s.N / g) ≤ l.length →
    (∀ i (hi : i < l.length), fill s.fractional (s.N / g) i ≠ 0 →
      (G.integ fun k => l[i] k ^ 2) ≠ 0) →
    ∃ n, s.calcDensity = .ok n ∧
      (s.fractional = true → G.integ n = s.N) ∧
      (s.fractional = false → IsGreatest {y : K | (∃ z : ℤ, y = g * z) ∧ y ≤ s.N} (G.integ n)) := by
  simp only
  intro hlen hnorm
  refine ⟨_, (C18_density s hp hN l hl).1 hlen, ?_⟩
  set g : K := (orbitalCapacity s.m (s.pol = 2) : K) with hg
  have hgs : s.scale = g := scale_eq s hp
  have hgp : 0 < g := hgs ▸ s.scale_pos
  have hx : 0 ≤ s.N / g := div_nonneg hN hgp.le
  have key : (G.integ fun k => g * ∑ i : Fin l.length, fill s.fractional (s.N / g) i.1 *
        (l[i.1] k ^ 2 / G.integ fun k => l[i.1] k ^ 2)) =
      g * if s.fractional then s.N / g else (⌊s.N / g⌋ : K) := by
    rw [G.integ_smul, G.integ_sum]
    congr 1
    rw [← sum_fill_one s.fractional (s.N / g) hx l.length hlen]
    refine Finset.sum_congr rfl fun i _ => ?_
    rw [G.integ_smul]
    by_cases h0 : fill s.fractional (s.N / g) i.1 = 0
    · rw [h0, zero_mul]
    · have := hnorm i.1 i.2 h0
      simp only [div_eq_inv_mul]
      rw [G.integ_smul, inv_mul_cancel₀ this, mul_one]
  rw [key]
  refine ⟨fun h => ?_, fun h => ?_⟩
  · rw [h]; simp only [if_true]; field_simp
  · rw [h]; simp only [Bool.false_eq_true, if_false]
    refine ⟨⟨⟨_, rfl⟩, ?_⟩, ?_⟩
    · have := Int.floor_le (s.N / g)
      rwa [le_div_iff₀ hgp, mul_comm] at this
    · rintro y ⟨⟨z, rfl⟩, hz⟩
      have : (z : K) ≤ s.N / g := by rw [le_div_iff₀ hgp, mul_comm]; exact hz
      have : z ≤ ⌊s.N / g⌋ := Int.le_floor.mpr this
      exact mul_le_mul_of_nonneg_left (by exact_mod_cast this) hgp.le

/-- C18: three electrons in an unpolarised `m = 0` solver with two orbitals. -/
example : ∃ n, (⟨2, 3, 0, 1, true, false, some [fun k => k.1 + 1, fun k => 2 - k.1], none, none⟩ :
    Solver (Grid.tiny ℚ)).calcDensity = .ok n ∧ (Grid.tiny ℚ).integ n = 3 := by
  obtain ⟨n, h, h1, -⟩ := C18_electron_number (⟨2, 3, 0, 1, true, false,
    some [fun k => k.1 + 1, fun k => 2 - k.1], none, none⟩ : Solver (Grid.tiny ℚ)) (.inl rfl)
    (by norm_num) _ rfl (by simp [needed, orbitalCapacity]; norm_num [Int.ceil_le]) (by
      intro i hi _
      have : i = 0 ∨ i = 1 := by simp at hi; omega
      rcases this with rfl | rfl <;> simp [Grid.integ, Fin.sum_univ_succ] <;> norm_num)
  exact ⟨n, h, h1 rfl⟩

/-- C19: the density is nonnegative when the orbitals' norms are. -/
theorem C19_nonneg (s : Solver G) (hN : 0 ≤ s.N) (l : List G.Fld) (hl : s.phi = some l)
    (hnorm : ∀ p ∈ l, 0 ≤ G.integ fun k => p k ^ 2) (n : G.Fld) (h : s.calcDensity = .ok n) (k : G.Ix) :
    0 ≤ n k := by
  rw [calcDensity_eq s hN l hl] at h
  split at h
  · injection h with h
    subst h
    refine mul_nonneg s.scale_pos.le (Finset.sum_nonneg fun i _ => ?_)
    exact mul_nonneg (fill_nonneg _ _ _) (div_nonneg (sq_nonneg _) (hnorm _ (List.getElem_mem _)))
  · cases h

/-- C19: multiplying orbital `i` by `cᵢ ≠ 0`, for all `i` at once, leaves the outcome of
`calc_density` unchanged. -/
theorem C19_scale (s : Solver G) (hN : 0 ≤ s.N) (l : List G.Fld) (hl : s.phi = some l)
    (c : ℕ → K) (hc : ∀ i, c i ≠ 0) :
    ({ s with phi := some (l.mapIdx fun i p => fun k => c i * p k) } : Solver G).calcDensity =
      s.calcDensity := by
  rw [calcDensity_eq s hN l hl, calcDensity_eq { s with phi := some _ } hN _ rfl]
  have hlen : (l.mapIdx fun i p => fun k => c i * p k : List G.Fld).length = l.length := by simp
  simp only [hlen]
  change (if needed s.fractional (s.N / s.scale) ≤ _ then _ else _) = _
  congr 2
  funext k
  change s.scale * _ = _
  congr 1
  rw [← Fin.sum_congr' (fun i : Fin (l.mapIdx fun i p => fun k => c i * p k : List G.Fld).length => _) hlen.symm]
  refine Finset.sum_congr rfl fun i _ => ?_
  simp only [List.getElem_mapIdx, Fin.val_cast, mul_pow]
  rw [G.integ_smul, mul_div_mul_left _ _ (pow_ne_zero 2 (hc _))]
  rfl

/-- C19: scaling and flipping the sign of the occupied orbital keeps the density `8/10, 2/10·4`. -/
example : (⟨1, 2, 0, 1, false, false, some [fun k => -3 * (k.1 + 1)], none, none⟩ :
    Solver (Grid.tiny ℚ)).calcDensity =
    (⟨1, 2, 0, 1, false, false, some [fun k => k.1 + 1], none, none⟩ :
      Solver (Grid.tiny ℚ)).calcDensity :=
  C19_scale (⟨1, 2, 0, 1, false, false, some [fun k => k.1 + 1], none, none⟩ :
    Solver (Grid.tiny ℚ)) (by norm_num) _ rfl (fun _ => -3) (by norm_num)

/-- C20, partial: `eks` is the sum of the eigenvalues weighted with the occupations of the density,
`Ts = eks - ∫ veff n`, and `Vs = ∫ veff n`, `Ts + Vs = eks` as long as `|∫ veff n| ≤ 10⁵`.
Missing: the last clause for larger integrals, where it is false (`C20_refuted`). -/
theorem C20_energy_partial (s : Solver G) (hp : s.pol = 1 ∨ s.pol = 2) (hN : 0 ≤ s.N) (l : List G.Fld)
    (hl : s.phi = some l) (e : List K) (he : s.eig = some e) (v : G.Fld) (hv : s.veff = some v) :
    let g : K := (orbitalCapacity s.m (s.pol = 2) : K)
    let x := s.N / g
    needed s.fractional x ≤ l.length → needed s.fractional x ≤ e.length →
    ∃ E n, s.calcEnergy = .ok (E, n) ∧ s.calcDensity = .ok n ∧
      E.eks = .fin (g * ∑ i : Fin e.length, fill s.fractional x i.1 * e[i.1]) ∧
      E.Ts = Fl.sub E.eks (.fin (G.integ fun k => v k * n k)) ∧
      (|G.integ fun k => v k * n k| ≤ 10 ^ 5 →
        E.Vs = .fin (G.integ fun k => v k * n k) ∧ Fl.add E.Ts E.Vs = E.eks) := by
  simp only
  intro h1 h2
  have hd := (C18_density s hp hN l hl).1 h1
  have hk : s.calcEks = .ok ((orbitalCapacity s.m (s.pol = 2) : K) *
      ∑ i : Fin e.length, fill s.fractional (s.N / (orbitalCapacity s.m (s.pol = 2) : K)) i.1 * e[i.1]) := by
    rw [calcEks_eq s hN e he, scale_eq s hp, if_pos h2]
  set n : G.Fld := fun k => _ with hn
  refine ⟨energyGuard _ (.fin (G.integ fun k => v k * n k)), n, ?_, hd, rfl, rfl, fun hb => ?_⟩
  · unfold calcEnergy
    rw [hk, hd, hv]
    rfl
  · have : ¬ (10 : K) ^ 5 < |G.integ fun k => v k * n k| := not_lt.mpr hb
    have hVs : (energyGuard (.fin ((orbitalCapacity s.m (s.pol = 2) : K) *
      ∑ i : Fin e.length, fill s.fractional (s.N / (orbitalCapacity s.m (s.pol = 2) : K)) i.1 * e[i.1]))
      (.fin (G.integ fun k => v k * n k))).Vs = .fin (G.integ fun k => v k * n k) := by
      simp [energyGuard, Fl.isnan, Fl.isinf, this]
    refine ⟨hVs, ?_⟩
    rw [hVs]
    simp [energyGuard]

/-- C20, missing eigenvalues: `IndexError`. -/
theorem C20_index_error (s : Solver G) (hp : s.pol = 1 ∨ s.pol = 2) (hN : 0 ≤ s.N) (e : List K)
    (he : s.eig = some e)
    (h : e.length < needed s.fractional (s.N / (orbitalCapacity s.m (s.pol = 2) : K))) :
    s.calcEnergy = .error .indexError := by
  unfold calcEnergy
  rw [calcEks_eq s hN e he, scale_eq s hp, if_neg (by omega)]
  rfl

/-- C20 is false for large potentials: two electrons in a constant potential of `10⁶` give
`Vs = 0`, `Ts = eks - 2·10⁶`. -/
theorem C20_refuted : ∃ (s : Solver (Grid.tiny ℚ)) (E : Energy ℚ) (n : (Grid.tiny ℚ).Fld),
    s.calcEnergy = .ok (E, n) ∧ Fl.add E.Ts E.Vs ≠ E.eks ∧ (Grid.tiny ℚ).integ n = 2 := by
  refine ⟨⟨1, 2, 0, 1, false, false, some [fun _ => 1], some [10 ^ 6], some fun _ => 10 ^ 6⟩,
    ⟨.fin (2 * 10 ^ 6), .fin 0, .fin 0⟩, fun _ => 1, ?_, ?_, ?_⟩
  · obtain ⟨E, n, h1, h2, h3, h4, -⟩ := C20_energy_partial
      (⟨1, 2, 0, 1, false, false, some [fun _ => 1], some [10 ^ 6], some fun _ => 10 ^ 6⟩ :
        Solver (Grid.tiny ℚ)) (.inl rfl) (by norm_num) _ rfl _ rfl _ rfl
        (by simp [needed, orbitalCapacity]) (by simp [needed, orbitalCapacity])
    have hd := (C18_density (⟨1, 2, 0, 1, false, false, some [fun _ => 1], some [10 ^ 6],
      some fun _ => 10 ^ 6⟩ : Solver (Grid.tiny ℚ)) (.inl rfl) (by norm_num) _ rfl).1
        (by simp [needed, orbitalCapacity])
    unfold calcEnergy
    rw [hd, calcEks_eq _ (by norm_num) _ rfl]
    norm_num [needed, scale, energyGuard, orbitalCapacity, fill, fillingWhole, bind, Except.bind,
      pure, Except.pure, Grid.integ, Fin.sum_univ_succ, Fl.isnan, Fl.isinf]
  · simp
  · norm_num [Grid.integ, Fin.sum_univ_succ]

/-- C20, what is stored, for every value of the potential energy including those that are not numbers: it is kept if it is
infinite or at most `10⁵` in size and replaced by 0 otherwise; `Ts` is the difference with the value before that, so the
sum of the stored energies is the eigenvalue sum only for a finite value that is kept. -/
theorem C20_guard (eks Vs : Fl K) :
    (energyGuard eks Vs).eks = eks ∧ (energyGuard eks Vs).Ts = Fl.sub eks Vs ∧
    (energyGuard eks .nan).Vs = .fin 0 ∧ (energyGuard eks .posInf).Vs = .posInf ∧
    (energyGuard eks .negInf).Vs = .negInf ∧
    ∀ x : K, (energyGuard eks (.fin x)).Vs = .fin (if 10 ^ 5 < |x| then 0 else x) := by
  refine ⟨rfl, rfl, rfl, rfl, rfl, fun x => ?_⟩
  by_cases h : (10 : K) ^ 5 < |x|
  · simp [energyGuard, Fl.isnan, Fl.isinf, h]
  · simp [energyGuard, Fl.isnan, Fl.isinf, h]

/-- C20: a case below the bound. -/
example : ∃ E n, (⟨1, 2, 0, 1, false, false, some [fun _ => 1], some [-3], some fun _ => -4⟩ :
    Solver (Grid.tiny ℚ)).calcEnergy = .ok (E, n) ∧ Fl.add E.Ts E.Vs = .fin (-6) := by
  refine ⟨⟨.fin (-6), .fin (-8), .fin 2⟩, fun _ => 1, ?_, by norm_num⟩
  have hd := (C18_density (⟨1, 2, 0, 1, false, false, some [fun _ => 1], some [-3],
    some fun _ => -4⟩ : Solver (Grid.tiny ℚ)) (.inl rfl) (by norm_num) _ rfl).1
      (by simp [needed, orbitalCapacity])
  unfold calcEnergy
  rw [hd, calcEks_eq _ (by norm_num) _ rfl]
  norm_num [needed, scale, energyGuard, orbitalCapacity, fill, fillingWhole, bind, Except.bind,
      pure, Except.pure, Grid.integ, Fin.sum_univ_succ, Fl.isnan, Fl.isinf]

/-- C21, partial: with fractional occupation, or a whole number of filled orbitals, `get_homo`
returns the eigenvalue of the last occupied orbital, the largest one for ascending eigenvalues;
`-2⁵²` without electrons and `IndexError` if that eigenvalue is missing.
Missing: whole occupation with a remainder, where it is false (`C21_refuted`). -/
theorem C21_homo_partial (s : Solver G) (hp : s.pol = 1 ∨ s.pol = 2) (hN : 0 ≤ s.N) (e : List K)
    (he : s.eig = some e) :
    let g : K := (orbitalCapacity s.m (s.pol = 2) : K)
    let x := s.N / g
    (s.fractional = true ∨ x = ⌊x⌋) →
    (s.N = 0 → s.getHomo = .ok (-(2 ^ 52))) ∧
    (0 < s.N → e.length < needed s.fractional x → s.getHomo = .error .indexError) ∧
    (0 < s.N → needed s.fractional x ≤ e.length → ∃ (i : ℕ) (hi : i < e.length),
      s.getHomo = .ok e[i] ∧ IsGreatest {j | fill s.fractional x j ≠ 0} i ∧
      (e.Pairwise (· ≤ ·) → ∀ j (hj : j < e.length), fill s.fractional x j ≠ 0 → e[j] ≤ e[i])) := by
  simp only
  rw [← scale_eq s hp]
  have hx : 0 ≤ s.N / s.scale := div_nonneg hN s.scale_pos.le
  set x := s.N / s.scale with hxd
  intro hfr
  have hce := ceil_eq x
  have h0 : 0 ≤ ⌊x⌋ := Int.floor_nonneg.mpr hx
  have hh : s.getHomo = if ⌈x⌉ ≠ 0 then s.eigAt (⌈x⌉ - 1) else .ok noElectrons := by
    unfold getHomo
    rw [occupation_eq, ← hxd]
    simp only
    rw [hce]
    by_cases h : x - ⌊x⌋ = 0
    · simp only [h, ne_eq, not_true_eq_false, if_false, if_true]
    · simp only [h, ne_eq, not_false_eq_true, if_true, if_false]
  have hnd : needed s.fractional x = ⌈x⌉.toNat := by
    unfold needed
    rcases hfr with h | h
    · rw [if_pos h]
    · rw [hce, if_pos (sub_eq_zero.mpr h)]; simp
  have hpos : 0 < s.N → 0 < ⌈x⌉ := fun h => Int.ceil_pos.mpr (div_pos h s.scale_pos)
  refine ⟨fun h => ?_, fun h hlt => ?_, fun h hle => ?_⟩
  · have : ⌈x⌉ = 0 := by rw [hxd, h, zero_div, Int.ceil_zero]
    rw [hh, this]; rfl
  · have hp := hpos h
    rw [hh, if_pos (by omega), eigAt, he]
    simp only
    have : ⌈x⌉ - 1 = ((⌈x⌉.toNat - 1 : ℕ) : ℤ) := by omega
    rw [this]
    exact pyGet_ofNat_oob e _ (by omega)
  · have hp := hpos h
    have hi : ⌈x⌉.toNat - 1 < e.length := by omega
    refine ⟨_, hi, ?_, ⟨?_, ?_⟩, ?_⟩
    · rw [hh, if_pos (by omega), eigAt, he]
      simp only
      have : ⌈x⌉ - 1 = ((⌈x⌉.toNat - 1 : ℕ) : ℤ) := by omega
      rw [this]
      exact pyGet_ofNat e _ hi
    · change fill _ _ _ ≠ 0
      rw [fill_ne_zero _ _ hx]; omega
    · intro j hj
      have hj : fill s.fractional x j ≠ 0 := hj
      rw [fill_ne_zero _ _ hx] at hj; omega
    · intro hs j hj hf
      rw [fill_ne_zero _ _ hx] at hf
      rcases Nat.lt_or_ge j (⌈x⌉.toNat - 1) with h1 | h1
      · exact List.pairwise_iff_getElem.mp hs _ _ hj hi h1
      · have : j = ⌈x⌉.toNat - 1 := by omega
        subst this; exact le_refl _

/-- C21 is false without fractional occupation: three electrons, unpolarised.  Only orbital 0 is
occupied, `get_homo` returns the energy of orbital 1. -/
theorem C21_refuted : ∃ s : Solver (Grid.tiny ℚ), s.N = 3 ∧ s.eig = some [-5, -1] ∧
    s.getHomo = .ok (-1) ∧ ∀ j, fill s.fractional (s.N / s.scale) j ≠ 0 → j = 0 := by
  refine ⟨⟨2, 3, 0, 1, false, false, none, some [-5, -1], none⟩, rfl, rfl, ?_, ?_⟩
  · have h : ⌊(3 : ℚ) / 2⌋ = 1 := by rw [Int.floor_eq_iff]; norm_num
    have h' : (3 : ℚ) / 2 - ((⌊(3 : ℚ) / 2⌋ : ℤ) : ℚ) ≠ 0 := by rw [h]; norm_num
    simp only [getHomo, occupation, if_true, h', ne_eq, not_false_eq_true]
    rw [h]
    rfl
  · intro j hj
    have := (fill_ne_zero false ((3 : ℚ) / 2) (by norm_num) j).mp (by simpa [scale] using hj)
    have h : ⌊(3 : ℚ) / 2⌋ = 1 := by rw [Int.floor_eq_iff]; norm_num
    simp [needed, h] at this
    exact this

/-- C21: the same three electrons with fractional occupation. -/
example : (⟨2, 3, 0, 1, true, false, none, some [-5, -1], none⟩ : Solver (Grid.tiny ℚ)).getHomo =
    .ok (-1) := by
  have hc : ⌈(3 : ℚ) / 2⌉ = 2 := by rw [Int.ceil_eq_iff]; norm_num
  obtain ⟨-, -, h⟩ := C21_homo_partial (⟨2, 3, 0, 1, true, false, none, some [-5, -1], none⟩ :
    Solver (Grid.tiny ℚ)) (.inl rfl) (by norm_num) _ rfl (.inl rfl)
  obtain ⟨i, hi, h1, h2, -⟩ := h (by norm_num) (by simp [needed, orbitalCapacity, hc])
  have := (fill_ne_zero true ((3 : ℚ) / 2) (by norm_num) i).mp (by simpa [orbitalCapacity] using h2.1)
  have h3 : 1 ≤ i := h2.2 (by
    have := (fill_ne_zero true ((3 : ℚ) / 2) (by norm_num) 1).mpr (by simp [needed, hc])
    simpa [orbitalCapacity] using this)
  simp [needed, hc] at this
  have : i = 1 := by omega
  subst this
  exact h1

end

section
variable {G : Grid ℝ}
open SolverR

theorem SolverR.capacity_eq (s : Solver G) (hp : s.pol = 1 ∨ s.pol = 2) :
    SolverR.capacity s = (orbitalCapacity s.m (s.pol = 2) : ℝ) := by
  unfold SolverR.capacity orbitalCapacity
  rcases hp with h | h <;> by_cases hm : s.m = 0 <;> norm_num [h, hm]

theorem SolverR.capacity_pos (s : Solver G) : 0 < SolverR.capacity s := by
  unfold SolverR.capacity; split <;> split <;> norm_num

theorem SolverR.rpow_half_sq {x : ℝ} (hx : 0 ≤ x) : (x ^ (1 / 2 : ℝ)) ^ 2 = x := by
  rw [← Real.sqrt_eq_rpow, Real.sq_sqrt hx]

theorem SolverR.norm_normalizeOrb (s : Solver G) (p : G.Fld) (h : 0 < G.integ fun k => p k ^ 2) :
    (G.integ fun k => normalizeOrb s p k ^ 2) = SolverR.capacity s := by
  have : ∀ k, normalizeOrb s p k ^ 2 = (SolverR.capacity s / G.integ fun k => p k ^ 2) * p k ^ 2 := by
    intro k
    unfold normalizeOrb
    rw [div_pow, mul_pow, rpow_half_sq (capacity_pos s).le, rpow_half_sq h.le]
    ring
  simp only [this]
  rw [G.integ_smul, div_mul_cancel₀ _ h.ne']

/-- C22: `normalize_orbitals` succeeds on orbitals of positive norm; afterwards each squared orbital
integrates to the orbital capacity; doing it again changes nothing; `calc_density` is not affected. -/
theorem C22_normalize (s : Solver G) (hp : s.pol = 1 ∨ s.pol = 2) (l : List G.Fld)
    (hl : s.phi = some l) (hlen : l.length = s.Nmo)
    (hnorm : ∀ p ∈ l, 0 < G.integ fun k => p k ^ 2) :
    ∃ l', normalizeOrbitals s = .ok { s with phi := some l' } ∧ l'.length = l.length ∧
      (∀ p ∈ l', (G.integ fun k => p k ^ 2) = (orbitalCapacity s.m (s.pol = 2) : ℝ)) ∧
      normalizeOrbitals { s with phi := some l' } = .ok { s with phi := some l' } ∧
      (0 ≤ s.N → ({ s with phi := some l' } : Solver G).calcDensity = s.calcDensity) := by
  have hmap : ∀ (l : List G.Fld), l.length = s.Nmo →
      (l.mapIdx fun i p => if i < s.Nmo then normalizeOrb s p else p) = l.map (normalizeOrb s) := by
    intro l h
    apply List.ext_getElem
    · simp
    · intro i h1 h2
      simp only [List.length_mapIdx] at h1
      simp [h ▸ h1]
  refine ⟨l.map (normalizeOrb s), ?_, by simp, ?_, ?_, fun hN => ?_⟩
  · unfold normalizeOrbitals
    rw [hl]
    simp only
    rw [if_pos hlen.ge, hmap l hlen]; rfl
  · intro q hq
    obtain ⟨p, hp', rfl⟩ := List.mem_map.mp hq
    rw [norm_normalizeOrb s p (hnorm p hp'), capacity_eq s hp]
  · unfold normalizeOrbitals
    simp only [List.length_map, hlen, le_refl, if_true]
    have := hmap (l.map (normalizeOrb s)) (by simpa using hlen)
    change Except.ok { s with phi := some ((l.map (normalizeOrb s)).mapIdx fun i p =>
      if i < s.Nmo then normalizeOrb s p else p) } = _
    rw [this, List.map_map]
    congr 3
    refine List.map_congr_left fun p hp' => ?_
    funext k
    have h1 := norm_normalizeOrb s p (hnorm p hp')
    change capacity s ^ (1 / 2 : ℝ) * normalizeOrb s p k / (G.integ fun k => normalizeOrb s p k ^ 2) ^ (1 / 2 : ℝ) = _
    rw [h1, mul_div_assoc, mul_div_cancel₀]
    exact (Real.rpow_pos_of_pos (capacity_pos s) _).ne'
  · set c : ℕ → ℝ := fun i => if h : i < l.length then
      capacity s ^ (1 / 2 : ℝ) / (G.integ fun k => l[i] k ^ 2) ^ (1 / 2 : ℝ) else 1 with hc
    have hc0 : ∀ i, c i ≠ 0 := by
      intro i
      rw [hc]; simp only
      split
      · rename_i h
        exact (div_pos (Real.rpow_pos_of_pos (capacity_pos s) _)
          (Real.rpow_pos_of_pos (hnorm _ (List.getElem_mem h)) _)).ne'
      · exact one_ne_zero
    rw [← C19_scale s hN l hl c hc0]
    congr 3
    apply List.ext_getElem
    · simp
    · intro i h1 h2
      simp only [List.length_map] at h1
      simp only [List.getElem_map, List.getElem_mapIdx, hc, h1, dif_pos]
      funext k
      unfold normalizeOrb
      ring

/-- C22: an orbital with values 1, 2 in an unpolarised `m = 1` solver. -/
example : ∃ l', normalizeOrbitals (⟨1, 4, 1, 1, false, false, some [fun k => k.1 + 1], none, none⟩ :
    Solver (Grid.tiny ℝ)) = .ok (⟨1, 4, 1, 1, false, false, some l', none, none⟩) ∧
    ∀ p ∈ l', ((Grid.tiny ℝ).integ fun k => p k ^ 2) = 4 := by
  obtain ⟨l', h1, -, h2, -⟩ := C22_normalize (⟨1, 4, 1, 1, false, false, some [fun k => k.1 + 1], none, none⟩ :
    Solver (Grid.tiny ℝ)) (.inl rfl) _ rfl rfl (by
      intro p hp
      simp only [List.mem_singleton] at hp
      subst hp
      rw [Grid.tiny_integ]
      positivity)
  exact ⟨l', h1, fun p hp => by rw [h2 p hp]; simp [orbitalCapacity]⟩

end
end Verif
