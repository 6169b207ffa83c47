import Verif.Props.C60_C61
import Mathlib.Analysis.Calculus.Deriv.Mul
import Mathlib.Analysis.Calculus.Deriv.Inv
import Mathlib.Analysis.Calculus.Deriv.Pow
import Mathlib.Analysis.Calculus.Deriv.Add
import Mathlib.Analysis.Calculus.ImplicitFunction.ProdDomain
import Mathlib.Analysis.Calculus.ContDiff.RCLike
import Mathlib.Analysis.Normed.Module.FiniteDimension

/-! # C116: the response matrix is the derivative of the density -/

namespace Verif
open Spec Solver SolverR Orbitals Inv Filter Topology

variable {G : Grid ℝ}

/-- `φ` belongs to the level `e` of the Hamiltonian `H0` with potential `v`: `H0 φ + w v φ = e w φ`. -/
def Spec.LevelOf (H0 : Matrix G.Ix G.Ix ℝ) (v : G.Fld) (e : ℝ) (φ : G.Fld) : Prop :=
  ∀ k, ∑ l, H0 k l * φ l + G.w k * v k * φ k = e * G.w k * φ k

/-- An orbital that changes differentiably with the parameter of the potential. -/
structure Spec.SmoothLevel (H0 : Matrix G.Ix G.Ix ℝ) (v : ℝ → G.Fld) (e : ℝ → ℝ) (φ : ℝ → G.Fld) (t₀ : ℝ) : Prop where
  level : ∀ᶠ t in 𝓝 t₀, LevelOf H0 (v t) (e t) (φ t)
  energy : DifferentiableAt ℝ e t₀
  orbital : ∀ k, DifferentiableAt ℝ (fun t => φ t k) t₀
  norm : 0 < G.integ fun k => φ t₀ k ^ 2

namespace C116

theorem integ_sub (f g : G.Fld) : (G.integ fun k => f k - g k) = G.integ f - G.integ g := by
  simp only [Grid.integ, ← mul_sub, ← Finset.sum_sub_distrib]

theorem integ_mul (c : ℝ) (f : G.Fld) : (G.integ fun k => c * f k) = c * G.integ f := by
  simp only [Grid.integ, Finset.mul_sum]
  exact Finset.sum_congr rfl fun k _ => by ring

theorem hks_mulVec (H0 : Matrix G.Ix G.Ix ℝ) (v x : G.Fld) (k : G.Ix) :
    (hks H0 v).mulVec x k = ∑ l, H0 k l * x l + G.w k * v k * x k := by
  unfold hks
  rw [Matrix.add_mulVec]
  exact congrArg₂ (· + ·) rfl (diag_mulVec (fun k => G.w k * v k) x k)

theorem mulVec_comb (H : Matrix G.Ix G.Ix ℝ) (a b : ℝ) (x y : G.Fld) (k : G.Ix) :
    (H.mulVec fun k => a * x k - b * y k) k = a * H.mulVec x k - b * H.mulVec y k := by
  simp only [Matrix.mulVec, dotProduct, Finset.mul_sum, ← Finset.sum_sub_distrib]
  exact Finset.sum_congr rfl fun l _ => by ring

/-- The response of one orbital carries no charge if all points count alike. -/
theorem charge {H : Matrix G.Ix G.Ix ℝ} {e : ℝ} {p : G.Fld} (hdet : IsUnit (border H e p).det) (v : G.Fld) :
    ∑ k, G.w k * (orbitalResponse H e p).mulVec v k = 0 := by
  obtain ⟨δ, h1, h2, -⟩ := orbitalResponse_spec H e p hdet v
  have : ∑ k, G.w k * (orbitalResponse H e p).mulVec v k = 2 * ∑ k, G.w k * p k * δ k := by
    rw [Finset.mul_sum]
    exact Finset.sum_congr rfl fun k _ => by rw [h2]; ring
  rw [this, h1.2, mul_zero]

theorem integ_eq {c : ℝ} (hwi : ∀ k, G.wi k = c) (f : G.Fld) : G.integ f = (2 * G.pi * G.hr * G.ha) * (c * ∑ k, G.w k * f k) := by
  rw [Finset.mul_sum]
  exact congrArg _ (Finset.sum_congr rfl fun k _ => by rw [hwi]; ring)

/-- The derivative of the equation. -/
theorem derivative {H0 : Matrix G.Ix G.Ix ℝ} {v : ℝ → G.Fld} {v' : G.Fld} {e : ℝ → ℝ} {φ : ℝ → G.Fld} {t₀ : ℝ}
    (hv : ∀ k, HasDerivAt (fun t => v t k) (v' k) t₀) (h : SmoothLevel H0 v e φ t₀) (k : G.Ix) :
    ∑ l, H0 k l * deriv (fun t => φ t l) t₀ + G.w k * (v' k * φ t₀ k + v t₀ k * deriv (fun t => φ t k) t₀) =
      deriv e t₀ * (G.w k * φ t₀ k) + e t₀ * (G.w k * deriv (fun t => φ t k) t₀) := by
  have hφ : ∀ k, HasDerivAt (fun t => φ t k) (deriv (fun t => φ t k) t₀) t₀ := fun k => (h.orbital k).hasDerivAt
  have d1 : HasDerivAt (fun t => ∑ l, H0 k l * φ t l + G.w k * (v t k * φ t k))
      (∑ l, H0 k l * deriv (fun t => φ t l) t₀ + G.w k * (v' k * φ t₀ k + v t₀ k * deriv (fun t => φ t k) t₀)) t₀ :=
    (HasDerivAt.fun_sum fun l _ => (hφ l).const_mul _).add (((hv k).mul (hφ k)).const_mul _)
  have d2 : HasDerivAt (fun t => e t * (G.w k * φ t k)) (deriv e t₀ * (G.w k * φ t₀ k) + e t₀ * (G.w k * deriv (fun t => φ t k) t₀)) t₀ :=
    h.energy.hasDerivAt.mul ((hφ k).const_mul _)
  refine d1.unique (d2.congr_of_eventuallyEq ?_)
  filter_upwards [h.level] with t ht
  have := ht k
  linarith

theorem orbital {H0 : Matrix G.Ix G.Ix ℝ} {v : ℝ → G.Fld} {v' : G.Fld} {e : ℝ → ℝ} {φ : ℝ → G.Fld} {t₀ : ℝ}
    (hw : ∀ k, 0 < G.w k) (hv : ∀ k, HasDerivAt (fun t => v t k) (v' k) t₀) (h : SmoothLevel H0 v e φ t₀)
    (hdet : IsUnit (border (hks H0 (v t₀)) (e t₀) (gridUnit (φ t₀))).det) (k : G.Ix) :
    let R := (orbitalResponse (hks H0 (v t₀)) (e t₀) (gridUnit (φ t₀))).mulVec v'
    HasDerivAt (fun t => φ t k ^ 2 / G.integ fun k => φ t k ^ 2) (R k - G.integ R * gridUnit (φ t₀) k ^ 2) t₀ := by
  intro R
  set I := G.integ fun k => φ t₀ k ^ 2 with hI
  have hI0 : 0 < I := h.norm
  set s : ℝ := I ^ (1 / 2 : ℝ) with hs
  have hs0 : 0 < s := Real.rpow_pos_of_pos hI0 _
  have hss : s * s = I := by
    rw [hs, ← Real.rpow_add hI0]
    norm_num
  set u := gridUnit (φ t₀) with hu
  have hus : ∀ k, u k = φ t₀ k / s := fun k => rfl
  set φ' : G.Fld := fun k => deriv (fun t => φ t k) t₀ with hφ'
  have hφ : ∀ k, HasDerivAt (fun t => φ t k) (φ' k) t₀ := fun k => (h.orbital k).hasDerivAt
  set e' := deriv e t₀
  have he : HasDerivAt e e' t₀ := h.energy.hasDerivAt
  set J := G.integ fun k => φ t₀ k * φ' k with hJ
  -- the equation at t₀ and its derivative
  have eq0 : LevelOf H0 (v t₀) (e t₀) (φ t₀) := h.level.self_of_nhds
  have eq1 := derivative hv h
  -- the change of the normalised orbital
  set q : G.Fld := fun k => 1 / s * φ' k - J / I * u k with hq
  have hu2 : (G.integ fun k => u k ^ 2) = 1 := by
    have : (fun k => u k ^ 2) = fun k => 1 / I * φ t₀ k ^ 2 := funext fun k => by
      rw [hus, ← hss]; field_simp
    rw [this, integ_mul, ← hI]
    field_simp
  have huq : (G.integ fun k => u k * q k) = 0 := by
    have : (fun k => u k * q k) = fun k => (1 / I * (φ t₀ k * φ' k)) - J / I * u k ^ 2 := funext fun k => by
      simp only [hq]
      rw [hus, ← hss]; field_simp
    rw [this, integ_sub, integ_mul, integ_mul, hu2, ← hJ]
    ring
  set W := ∑ k, G.w k * u k ^ 2 with hW
  have hW0 : W ≠ 0 := by
    have hne : ∃ k, u k ≠ 0 := by
      by_contra hc
      push Not at hc
      rw [show (fun k => u k ^ 2) = fun _ => 0 from funext fun k => by rw [hc k]; ring] at hu2
      simp [Grid.integ] at hu2
    obtain ⟨k, hk⟩ := hne
    refine (Finset.sum_pos' (fun k _ => mul_nonneg (hw k).le (sq_nonneg _)) ⟨k, Finset.mem_univ _, ?_⟩).ne'
    exact mul_pos (hw k) (by positivity)
  set c := (∑ k, G.w k * u k * q k) / W with hc
  obtain ⟨δ, -, h2, h3⟩ := orbitalResponse_spec (hks H0 (v t₀)) (e t₀) u hdet v'
  have hδ : (fun k => 1 * q k - c * u k) = δ := by
    refine h3 _ ⟨⟨e', fun k => ?_⟩, ?_⟩
    · have a0 : (hks H0 (v t₀)).mulVec u k = e t₀ * G.w k * u k := by
        have := eq0 k
        rw [hks_mulVec]
        have hsum : ∑ l, H0 k l * u l = (∑ l, H0 k l * φ t₀ l) / s := by
          rw [Finset.sum_div]
          exact Finset.sum_congr rfl fun l _ => by rw [hus]; ring
        rw [hsum, hus]
        field_simp
        linarith
      have a1 : (hks H0 (v t₀)).mulVec φ' k = e' * (G.w k * φ t₀ k) + e t₀ * (G.w k * φ' k) - G.w k * (v' k * φ t₀ k) := by
        have := eq1 k
        rw [hks_mulVec]
        linarith
      rw [mulVec_comb, hq, mulVec_comb, a0, a1]
      simp only
      rw [hus]
      field_simp
      ring
    · have : ∑ k, G.w k * u k * (1 * q k - c * u k) = ∑ k, G.w k * u k * q k - c * W := by
        rw [hW, Finset.mul_sum, ← Finset.sum_sub_distrib]
        exact Finset.sum_congr rfl fun k _ => by ring
      rw [this, hc]
      field_simp
      ring
  have hR : ∀ k, R k = 2 * (u k * q k) - 2 * c * u k ^ 2 := fun k => by
    rw [show R k = 2 * u k * δ k from h2 k, ← hδ]; ring
  have hIR : G.integ R = -(2 * c) := by
    rw [show R = fun k => 2 * (u k * q k) - 2 * c * u k ^ 2 from funext hR, integ_sub, integ_mul, integ_mul, huq, hu2]
    ring
  have dI : HasDerivAt (fun t => G.integ fun k => φ t k ^ 2) (2 * J) t₀ := by
    have : HasDerivAt (fun t => (2 * G.pi * G.hr * G.ha) * ∑ k, G.wi k * G.w k * φ t k ^ 2)
        ((2 * G.pi * G.hr * G.ha) * ∑ k, G.wi k * G.w k * (2 * (φ t₀ k * φ' k))) t₀ := by
      refine (HasDerivAt.fun_sum fun l _ => ?_).const_mul _
      refine HasDerivAt.const_mul _ ?_
      refine ((hφ l).pow 2).congr_deriv ?_
      push_cast
      ring
    refine this.congr_deriv ?_
    rw [hJ, ← integ_mul]
    rfl
  refine (((hφ k).pow 2).div dI hI0.ne').congr_deriv ?_
  rw [hR, hIR]
  simp only [hq]
  rw [hus, ← hI, ← hss, show ((fun t => φ t k) ^ 2) t₀ = φ t₀ k ^ 2 from rfl]
  push_cast
  field_simp
  ring

theorem fill_whole {fr : Bool} {x : ℝ} (h : fr = false ∨ x = ⌊x⌋) (i : ℕ) :
    fill fr x i = if i < needed false x then 1 else 0 := by
  have hn : needed false x = ⌊x⌋.toNat := by simp [needed]
  have hi : ((i : ℝ) + 1 ≤ x) ↔ i < ⌊x⌋.toNat := by
    rw [show ((i : ℝ) + 1) = ((i + 1 : ℤ) : ℝ) by push_cast; ring, ← Int.le_floor]
    omega
  have hw : fillingWhole x i = if i < needed false x then 1 else 0 := by
    unfold fillingWhole
    rw [hn]
    exact if_congr hi rfl rfl
  rcases h with rfl | hx
  · exact hw
  · cases fr with
    | false => exact hw
    | true =>
      rw [← hw]
      change min 1 (max 0 (x - i)) = if (i : ℝ) + 1 ≤ x then 1 else 0
      by_cases hc : (i : ℝ) + 1 ≤ x
      · rw [if_pos hc, max_eq_right (by linarith), min_eq_left (by linarith)]
      · rw [if_neg hc]
        have : x ≤ i := by
          rw [hx] at hc ⊢
          push Not at hc
          have : ⌊x⌋ < (i : ℤ) + 1 := by exact_mod_cast hc
          exact_mod_cast Int.lt_add_one_iff.1 this
        rw [max_eq_left (by linarith), min_eq_right (by norm_num)]

theorem needed_whole {fr : Bool} {x : ℝ} (h : fr = false ∨ x = ⌊x⌋) : needed fr x = needed false x := by
  rcases h with rfl | h
  · rfl
  · cases fr with
    | false => rfl
    | true => rw [h]; simp [needed]

/-- A sum over the first `n` of `M` orbitals. -/
theorem sum_first {M n : ℕ} (h : n ≤ M) (f : Fin M → ℝ) :
    ∑ i : Fin M, (if i.1 < n then (1 : ℝ) else 0) * f i = ∑ j : Fin n, f (Fin.castLE h j) := by
  simp only [ite_mul, one_mul, zero_mul]
  rw [← Finset.sum_filter]
  symm
  refine Finset.sum_bij (fun j _ => Fin.castLE h j) (fun j _ => ?_) (fun a _ b _ hab => ?_) (fun i hi => ?_) fun _ _ => rfl
  · simp
  · exact Fin.ext (congrArg (fun z : Fin M => z.1) hab)
  · exact ⟨⟨i.1, (Finset.mem_filter.1 hi).2⟩, Finset.mem_univ _, rfl⟩

end C116

open C116

/-- C116: the derivative of the density with respect to a parameter of the potential. `ρ j` is the change of the density of
orbital `j` according to `calc_response`, whose sum over the volume elements vanishes; the derivative has in addition a multiple of the orbital's
density that makes the integral vanish.  `r` is the factor of `calc_response`, `g` that of `calc_density`. -/
theorem C116_derivative (hw : ∀ k, 0 < G.w k) (s : Solver G) (hp : s.pol = 1 ∨ s.pol = 2) (hN : 0 ≤ s.N) (H0 : Matrix G.Ix G.Ix ℝ)
    {v : ℝ → G.Fld} {v' : G.Fld} {t₀ : ℝ} (hv : ∀ k, HasDerivAt (fun t => v t k) (v' k) t₀)
    {orb : G.Fld → Py (List G.Fld × List ℝ)} {M : ℕ} {φ : Fin M → ℝ → G.Fld} {e : Fin M → ℝ → ℝ}
    (horb : ∀ t, orb (v t) = .ok (List.ofFn fun j => φ j t, List.ofFn fun j => e j t))
    {n : ℝ → G.Fld} {chi : ℝ → Matrix G.Ix G.Ix ℝ} (hn : ∀ t, respond orb H0 s (v t) = .ok (n t, chi t)) :
    let g : ℝ := (orbitalCapacity s.m (s.pol = 2) : ℝ)
    let r : ℝ := if s.pol = 1 then 2 else 1
    (s.fractional = false ∨ s.N / g = ⌊s.N / g⌋) →
    (∀ j : Fin M, j.1 < needed false (s.N / g) → SmoothLevel H0 v (e j) (φ j) t₀ ∧
      IsUnit (border (hks H0 (v t₀)) (e j t₀) (gridUnit (φ j t₀))).det) →
    ∃ (h : needed false (s.N / g) ≤ M) (ρ : Fin (needed false (s.N / g)) → G.Fld),
      (∀ k, (chi t₀).mulVec v' k = r * ∑ j, ρ j k) ∧
      (∀ k, HasDerivAt (fun t => n t k) (g * ∑ j, (ρ j k - G.integ (ρ j) * gridUnit (φ (Fin.castLE h j) t₀) k ^ 2)) t₀) ∧
      ∀ j, ∑ k, G.w k * ρ j k = 0 := by
  intro g r hfr hj
  have hg : s.scale = g := scale_eq s hp
  -- what `respond` did
  have hd : ∀ t, ∃ sv : Solver G, sv = { s with veff := some (v t), phi := some (List.ofFn fun j => φ j t), eig := some (List.ofFn fun j => e j t) } ∧
      sv.calcDensity = .ok (n t) ∧ SolverR.calcResponse sv H0 (v t) = .ok (chi t) := by
    intro t
    have := hn t
    unfold respond at this
    rw [horb] at this
    obtain ⟨⟨a, b⟩, h0, this⟩ := Py.bind_eq_ok.1 this
    obtain ⟨rfl, rfl⟩ := Prod.mk.inj (Except.ok.inj h0)
    obtain ⟨n1, h1, this⟩ := Py.bind_eq_ok.1 this
    obtain ⟨-, -, this⟩ := Py.bind_eq_ok.1 this
    obtain ⟨c1, h2, this⟩ := Py.bind_eq_ok.1 this
    obtain ⟨rfl, rfl⟩ := Prod.mk.inj (Except.ok.inj this)
    exact ⟨_, rfl, h1, h2⟩
  -- the density
  have hdens : ∀ t, needed false (s.N / g) ≤ M ∧ ∀ k, n t k = g * ∑ i : Fin M,
      (if i.1 < needed false (s.N / g) then (1 : ℝ) else 0) * (φ i t k ^ 2 / G.integ fun k => φ i t k ^ 2) := by
    intro t
    obtain ⟨sv, rfl, h1, -⟩ := hd t
    rw [calcDensity_eq { s with veff := some (v t), phi := some (List.ofFn fun j => φ j t), eig := some (List.ofFn fun j => e j t) } hN _ rfl] at h1
    change (if needed s.fractional (s.N / s.scale) ≤ _ then _ else _) = _ at h1
    rw [hg, needed_whole hfr] at h1
    split at h1
    · rename_i hM
      rw [List.length_ofFn] at hM
      refine ⟨hM, fun k => ?_⟩
      rw [← Except.ok.inj h1]
      change s.scale * _ = _
      rw [hg]
      congr 1
      rw [← (finCongr (List.length_ofFn (f := fun j => φ j t))).sum_comp]
      refine Finset.sum_congr rfl fun i _ => ?_
      change fill s.fractional (s.N / s.scale) i.1 * _ = _
      rw [hg, fill_whole hfr]
      simp
      rfl
    · exact absurd h1 (by simp)
  have hM := (hdens t₀).1
  have hnk : ∀ k, (fun t => n t k) = fun t => g * ∑ j : Fin (needed false (s.N / g)),
      (φ (Fin.castLE hM j) t k ^ 2 / G.integ fun k => φ (Fin.castLE hM j) t k ^ 2) := fun k => funext fun t => by
    rw [(hdens t).2, sum_first hM]
  refine ⟨hM, fun j => (orbitalResponse (hks H0 (v t₀)) (e (Fin.castLE hM j) t₀) (gridUnit (φ (Fin.castLE hM j) t₀))).mulVec v',
    fun k => ?_, fun k => ?_, fun j => charge (hj _ j.2).2 v'⟩
  · obtain ⟨sv, rfl, -, h2⟩ := hd t₀
    obtain ⟨chi', h3, h4, -⟩ := C25_response_partial { s with veff := some (v t₀), phi := some (List.ofFn fun j => φ j t₀), eig := some (List.ofFn fun j => e j t₀) }
      hp hN H0 (v t₀) _ rfl _ rfl hfr (by rw [List.length_ofFn]; exact hM) (by rw [List.length_ofFn]; exact hM) (by
        intro j hj'
        simp only [List.getElem_ofFn]
        exact (hj ⟨j, lt_of_lt_of_le hj' hM⟩ hj').2)
    obtain rfl : chi t₀ = chi' := Except.ok.inj (h2.symm.trans h3)
    obtain ⟨δ, h5, h6⟩ := h4 v'
    rw [h6 k]
    change r * _ = _
    congr 1
    refine Finset.sum_congr rfl fun j _ => ?_
    obtain ⟨δ', -, h7, h8⟩ := orbitalResponse_spec (hks H0 (v t₀)) (e (Fin.castLE hM j) t₀) (gridUnit (φ (Fin.castLE hM j) t₀)) (hj _ j.2).2 v'
    refine Eq.trans ?_ (h7 k).symm
    have h5' := h5 j
    simp only [List.getElem_ofFn] at h5' ⊢
    rw [← h8 (δ j) h5']
    rfl
  · rw [hnk]
    exact (HasDerivAt.fun_sum fun j _ => orbital hw hv (hj (Fin.castLE hM j) j.2).1 (hj (Fin.castLE hM j) j.2).2 k).const_mul _

/-- C116: with equal integration weights the density changes by the response matrix times the change of the potential for
`m = 0`, and by twice that for `m > 0`. -/
theorem C116_response_partial (hw : ∀ k, 0 < G.w k) {c : ℝ} (hwi : ∀ k, G.wi k = c) (s : Solver G) (hp : s.pol = 1 ∨ s.pol = 2)
    (hN : 0 ≤ s.N) (H0 : Matrix G.Ix G.Ix ℝ)
    {v : ℝ → G.Fld} {v' : G.Fld} {t₀ : ℝ} (hv : ∀ k, HasDerivAt (fun t => v t k) (v' k) t₀)
    {orb : G.Fld → Py (List G.Fld × List ℝ)} {M : ℕ} {φ : Fin M → ℝ → G.Fld} {e : Fin M → ℝ → ℝ}
    (horb : ∀ t, orb (v t) = .ok (List.ofFn fun j => φ j t, List.ofFn fun j => e j t))
    {n : ℝ → G.Fld} {chi : ℝ → Matrix G.Ix G.Ix ℝ} (hn : ∀ t, respond orb H0 s (v t) = .ok (n t, chi t)) :
    let g : ℝ := (orbitalCapacity s.m (s.pol = 2) : ℝ)
    (s.fractional = false ∨ s.N / g = ⌊s.N / g⌋) →
    (∀ j : Fin M, j.1 < needed false (s.N / g) → SmoothLevel H0 v (e j) (φ j) t₀ ∧
      IsUnit (border (hks H0 (v t₀)) (e j t₀) (gridUnit (φ j t₀))).det) →
    ∀ k, HasDerivAt (fun t => n t k) ((if s.m = 0 then 1 else 2) * (chi t₀).mulVec v' k) t₀ := by
  intro g hfr hj k
  obtain ⟨h, ρ, h1, h2, h3⟩ := C116_derivative hw s hp hN H0 hv horb hn hfr hj
  refine (h2 k).congr_deriv ?_
  rw [h1, ← mul_assoc]
  congr 1
  · by_cases hm : s.m = 0 <;> rcases hp with h | h <;> norm_num [hm, h, orbitalCapacity]
  · exact Finset.sum_congr rfl fun j _ => by rw [integ_eq hwi, h3 j, mul_zero, mul_zero, zero_mul, sub_zero]

/-- C116: with one row of solvers, `m = 0` and equal integration weights, `Jacobian` is the derivative of the residual `Ws`
(without its last component). -/
theorem C116_jacobian_partial (hw : ∀ k, 0 < G.w k) {c : ℝ} (hwi : ∀ k, G.wi k = c) (s : Solver G) (hp : s.pol = 1 ∨ s.pol = 2)
    (hm : s.m = 0) (hN : 0 ≤ s.N) (H0 : Matrix G.Ix G.Ix ℝ)
    {v : ℝ → G.Fld} {v' : G.Fld} {t₀ : ℝ} (hv : ∀ k, HasDerivAt (fun t => v t k) (v' k) t₀)
    {orb : G.Fld → Py (List G.Fld × List ℝ)} {M : ℕ} {φ : Fin M → ℝ → G.Fld} {e : Fin M → ℝ → ℝ}
    (horb : ∀ t, orb (v t) = .ok (List.ofFn fun j => φ j t, List.ofFn fun j => e j t)) (n0 : G.Fld) (pin : ℝ)
    {out : ℝ → (G.Fld × ℝ) × (Fin 1 → Matrix G.Ix G.Ix ℝ)}
    (hn : ∀ t, ws false (fun _ => orb) (fun _ => H0) (fun _ => s) n0 pin (v t) = .ok (out t))
    {J : Matrix G.Ix G.Ix ℝ} {last : G.Fld} (hJ : jacobian false n0 (out t₀).2 = .ok (J, last)) :
    let g : ℝ := (orbitalCapacity s.m (s.pol = 2) : ℝ)
    (s.fractional = false ∨ s.N / g = ⌊s.N / g⌋) →
    (∀ j : Fin M, j.1 < needed false (s.N / g) → SmoothLevel H0 v (e j) (φ j) t₀ ∧
      IsUnit (border (hks H0 (v t₀)) (e j t₀) (gridUnit (φ j t₀))).det) →
    ∀ k, HasDerivAt (fun t => (out t).1.1 k) (J.mulVec v' k) t₀ := by
  intro g hfr hj k
  have hn0 : ∀ k, n0 k ≠ 0 := by
    by_contra hc
    unfold jacobian at hJ
    rw [if_neg hc] at hJ
    exact nomatch hJ
  have hr : ∀ t, ∃ x : G.Fld × Matrix G.Ix G.Ix ℝ, respond orb H0 s (v t) = .ok x := by
    intro t
    have := hn t
    unfold ws at this
    obtain ⟨l, hl, -⟩ := Py.bind_eq_ok.1 this
    rw [show List.finRange (0 + 1) = [0] from rfl, List.mapM_cons] at hl
    obtain ⟨x, hx, -⟩ := Py.bind_eq_ok.1 hl
    exact ⟨x, hx⟩
  choose x hx using hr
  have hout : ∀ t, out t = ((fun k => ((x t).1 k - n0 k) / n0 k, pin), fun _ => (x t).2) := by
    intro t
    have := C61_residual false (fun _ : Fin 1 => orb) (fun _ => H0) (fun _ => s) n0 pin (v t) hn0 (fun _ => (x t).1) (fun _ => (x t).2) fun _ => hx t
    rw [hn t] at this
    rw [Except.ok.inj this]
    simp
  have d := C116_response_partial hw hwi s hp hN H0 hv horb hx hfr hj k
  rw [if_pos hm, one_mul] at d
  rw [show (fun t => (out t).1.1 k) = fun t => ((x t).1 k - n0 k) / n0 k from funext fun t => by rw [hout]]
  refine ((d.sub_const (n0 k)).div_const (n0 k)).congr_deriv ?_
  unfold jacobian at hJ
  rw [if_pos hn0] at hJ
  obtain ⟨rfl, -⟩ := Prod.mk.inj (Except.ok.inj hJ)
  rw [hout t₀]
  change _ = ∑ l, 1 / n0 k * (x t₀).2 k l * v' l
  rw [show ∑ l, 1 / n0 k * (x t₀).2 k l * v' l = 1 / n0 k * ∑ l, (x t₀).2 k l * v' l by
    rw [Finset.mul_sum]; exact Finset.sum_congr rfl fun l _ => by ring]
  change (∑ l, (x t₀).2 k l * v' l) / n0 k = _
  ring

/-- C116: a level whose bordered system is not singular belongs to a differentiable family, whatever differentiable change the
potential undergoes. -/
theorem C116_family (H0 : Matrix G.Ix G.Ix ℝ) {v : ℝ → G.Fld} {t₀ : ℝ} (hv : ∀ k, ContDiffAt ℝ 1 (fun t => v t k) t₀) {e₀ : ℝ} {φ₀ : G.Fld}
    (h0 : LevelOf H0 (v t₀) e₀ φ₀) (hI : 0 < G.integ fun k => φ₀ k ^ 2)
    (hdet : IsUnit (border (hks H0 (v t₀)) e₀ (gridUnit φ₀)).det) :
    ∃ (e : ℝ → ℝ) (φ : ℝ → G.Fld), SmoothLevel H0 v e φ t₀ ∧ e t₀ = e₀ ∧ φ t₀ = φ₀ := by
  set u := gridUnit φ₀ with hu
  set s : ℝ := (G.integ fun k => φ₀ k ^ 2) ^ (1 / 2 : ℝ) with hs
  have hs0 : 0 < s := Real.rpow_pos_of_pos hI _
  have hus : ∀ k, u k = φ₀ k / s := fun k => rfl
  let f : ℝ × ((G.Ix → ℝ) × ℝ) → (G.Ix → ℝ) × ℝ := fun x =>
    (fun k => ∑ l, H0 k l * x.2.1 l + G.w k * v x.1 k * x.2.1 k - x.2.2 * G.w k * x.2.1 k, ∑ k, G.w k * u k * x.2.1 k)
  have hφc : ∀ (y : ℝ × ((G.Ix → ℝ) × ℝ)) l, ContDiffAt ℝ 1 (fun x : ℝ × ((G.Ix → ℝ) × ℝ) => x.2.1 l) y := fun y l => by fun_prop
  have hvc : ∀ k, ContDiffAt ℝ 1 (fun x : ℝ × ((G.Ix → ℝ) × ℝ) => v x.1 k) (t₀, (φ₀, e₀)) := fun k =>
    ContDiffAt.comp (g := fun t => v t k) (t₀, (φ₀, e₀)) (hv k) contDiffAt_fst
  have hf : ContDiffAt ℝ 1 f (t₀, (φ₀, e₀)) := by
    refine ContDiffAt.prodMk (contDiffAt_pi.2 fun k => ?_) ?_
    · refine ((ContDiffAt.sum fun l _ => contDiffAt_const.mul (hφc _ l)).add ((contDiffAt_const.mul (hvc k)).mul (hφc _ k))).sub ?_
      exact (contDiffAt_snd.snd.mul contDiffAt_const).mul (hφc _ k)
    · exact ContDiffAt.sum fun l _ => contDiffAt_const.mul (hφc _ l)
  have hst := hf.hasStrictFDerivAt one_ne_zero
  set f' := fderiv ℝ f (t₀, (φ₀, e₀)) with hf'
  have hlin : ∀ (δ : G.Fld) (ε : ℝ), f' (0, (δ, ε)) = (fun k => (hks H0 (v t₀)).mulVec δ k - e₀ * G.w k * δ k - ε * (G.w k * φ₀ k),
      ∑ k, G.w k * u k * δ k) := by
    intro δ ε
    have d1 : HasDerivAt (fun r : ℝ => f ((t₀, (φ₀, e₀)) + r • (0, (δ, ε)))) (f' (0, (δ, ε))) 0 := by
      have hl : HasDerivAt (fun r : ℝ => ((t₀, (φ₀, e₀)) : ℝ × ((G.Ix → ℝ) × ℝ)) + r • (0, (δ, ε))) (0, (δ, ε)) 0 := by
        have := ((hasDerivAt_id (0 : ℝ)).smul_const ((0, (δ, ε)) : ℝ × ((G.Ix → ℝ) × ℝ))).const_add (t₀, (φ₀, e₀))
        simpa using this
      have hst' : HasFDerivAt f f' ((t₀, (φ₀, e₀)) + (0 : ℝ) • (0, (δ, ε))) := by
        rw [zero_smul, add_zero]
        exact hst.hasFDerivAt
      exact hst'.comp_hasDerivAt (0 : ℝ) hl
    have d2 : HasDerivAt (fun r : ℝ => f ((t₀, (φ₀, e₀)) + r • (0, (δ, ε)))) (fun k => (hks H0 (v t₀)).mulVec δ k - e₀ * G.w k * δ k - ε * (G.w k * φ₀ k),
      ∑ k, G.w k * u k * δ k) 0 := by
      have hline : ∀ l, HasDerivAt (fun r : ℝ => φ₀ l + r * δ l) (δ l) 0 := fun l => by
        simpa using ((hasDerivAt_id (0 : ℝ)).mul_const (δ l)).const_add (φ₀ l)
      have hle : HasDerivAt (fun r : ℝ => e₀ + r * ε) ε 0 := by
        simpa using ((hasDerivAt_id (0 : ℝ)).mul_const ε).const_add e₀
      refine HasDerivAt.prodMk (f₁ := fun r k => ∑ l, H0 k l * (φ₀ l + r * δ l) + G.w k * v (t₀ + r * 0) k * (φ₀ k + r * δ k) - (e₀ + r * ε) * G.w k * (φ₀ k + r * δ k)) (f₂ := fun r => ∑ k, G.w k * u k * (φ₀ k + r * δ k)) (hasDerivAt_pi.2 fun k => ?_) ?_
      · simp only [mul_zero, add_zero]
        refine ((HasDerivAt.fun_sum fun l _ => (hline l).const_mul _).add ((hline k).const_mul _)).sub
          ((hle.mul_const _).mul (hline k)) |>.congr_deriv ?_
        rw [C116.hks_mulVec]
        ring
      · exact HasDerivAt.fun_sum fun l _ => (hline l).const_mul _
    exact d1.unique d2
  have hinv : (f' ∘L .inr ℝ ℝ ((G.Ix → ℝ) × ℝ)).IsInvertible := by
    have hinj : Function.Injective (f' ∘L .inr ℝ ℝ ((G.Ix → ℝ) × ℝ)) := by
      refine (injective_iff_map_eq_zero _).2 ?_
      rintro ⟨δ, ε⟩ hz
      have hz' : f' (0, (δ, ε)) = 0 := hz
      rw [hlin] at hz'
      obtain ⟨z1, z2⟩ := Prod.mk.inj hz'
      have hb : (border (hks H0 (v t₀)) e₀ u).mulVec (Sum.elim δ fun _ => ε * s) = 0 := by
        obtain ⟨b1, b2⟩ := border_mulVec (hks H0 (v t₀)) e₀ u (Sum.elim δ fun _ => ε * s)
        funext q
        rcases q with k | q
        · rw [b1]
          have := congrFun z1 k
          simp only [Sum.elim_inl, Sum.elim_inr, hus, Pi.zero_apply] at this ⊢
          change (hks H0 (v t₀)).mulVec δ k - e₀ * G.w k * δ k - ε * (G.w k * φ₀ k) = 0 at this
          field_simp
          linarith
        · exact b2.trans z2
      have hi := Matrix.mulVec_injective_iff_isUnit.mpr ((Matrix.isUnit_iff_isUnit_det _).mpr hdet)
      have := hi (hb.trans (Matrix.mulVec_zero _).symm)
      refine Prod.ext (funext fun k => congrFun this (.inl k)) ?_
      have h2 : ε * s = 0 := congrFun this (.inr ())
      exact (mul_eq_zero.1 h2).resolve_right hs0.ne'
    exact ⟨(LinearEquiv.ofInjectiveEndo ((f' ∘L .inr ℝ ℝ ((G.Ix → ℝ) × ℝ)) : ((G.Ix → ℝ) × ℝ) →ₗ[ℝ] ((G.Ix → ℝ) × ℝ)) hinj).toContinuousLinearEquiv, by
      ext x <;> rfl⟩
  set ψ := hst.implicitFunctionOfProdDomain hinv with hψ
  have hd := (hst.hasStrictFDerivAt_implicitFunctionOfProdDomain hinv).hasFDerivAt.differentiableAt
  have hψ0 : ψ t₀ = (φ₀, e₀) := (hst.eventually_apply_eq_iff_implicitFunctionOfProdDomain hinv).self_of_nhds.mp rfl
  refine ⟨fun t => (ψ t).2, fun t => (ψ t).1, ⟨?_, ?_, fun k => ?_, ?_⟩, ?_, ?_⟩
  · filter_upwards [hst.eventually_apply_implicitFunctionOfProdDomain hinv] with t ht k
    have h1 := congrFun (congrArg Prod.fst ht) k
    have h2 := h0 k
    change ∑ l, H0 k l * (ψ t).1 l + G.w k * v t k * (ψ t).1 k - (ψ t).2 * G.w k * (ψ t).1 k =
      ∑ l, H0 k l * φ₀ l + G.w k * v t₀ k * φ₀ k - e₀ * G.w k * φ₀ k at h1
    linarith
  · exact hd.snd
  · exact differentiableAt_pi.1 hd.fst k
  · change 0 < G.integ fun k => (ψ t₀).1 k ^ 2
    rw [hψ0]
    exact hI
  · change (ψ t₀).2 = e₀
    rw [hψ0]
  · change (ψ t₀).1 = φ₀
    rw [hψ0]

section Example

/-- Two points with integration weights 1 and `b`. -/
noncomputable def C116_G (b : ℝ) : Grid ℝ := ⟨2, 1, 1 / 2, 1, 1, ![1, b], fun _ => 1⟩

/-- The positive root of `x² = t x + 1`. -/
noncomputable def C116_x (t : ℝ) : ℝ := (t + √(t ^ 2 + 4)) / 2

noncomputable def C116_v (b : ℝ) (t : ℝ) : (C116_G b).Fld := ![0, t]

noncomputable def C116_phi (b : ℝ) (t : ℝ) : (C116_G b).Fld := ![1, C116_x t]

noncomputable def C116_orb (b : ℝ) (u : (C116_G b).Fld) : Py (List (C116_G b).Fld × List ℝ) :=
  .ok (List.ofFn fun _ : Fin 1 => C116_phi b (u (1 : Fin 2)), List.ofFn fun _ : Fin 1 => C116_x (u (1 : Fin 2)))

/-- Two electrons. -/
noncomputable def C116_s (b : ℝ) : Solver (C116_G b) := ⟨1, 2, 0, 1, false, false, none, none, none⟩

def C116_H0 (b : ℝ) : Matrix (C116_G b).Ix (C116_G b).Ix ℝ := (!![0, 1; 1, 0] : Matrix (Fin 2) (Fin 2) ℝ)

theorem C116_sum (b : ℝ) (f : (C116_G b).Ix → ℝ) : ∑ k, f k = f (0 : Fin 2) + f (1 : Fin 2) := Fin.sum_univ_two (M := ℝ) f

theorem C116_integ (b : ℝ) (f : (C116_G b).Fld) : (C116_G b).integ f = f (0 : Fin 2) + b * f (1 : Fin 2) := by
  unfold Grid.integ
  rw [C116_sum]
  simp [C116_G]

theorem C116_root (t : ℝ) : C116_x t ^ 2 = t * C116_x t + 1 := by
  have h : √(t ^ 2 + 4) ^ 2 = t ^ 2 + 4 := Real.sq_sqrt (by positivity)
  unfold C116_x
  nlinarith

theorem C116_level (b t : ℝ) : LevelOf (C116_H0 b) (C116_v b t) (C116_x t) (C116_phi b t) := by
  intro k
  rw [C116_sum]
  have := C116_root t
  fin_cases k
  · simp [C116_H0, C116_v, C116_phi, C116_G]
  · simp [C116_H0, C116_v, C116_phi, C116_G]
    nlinarith

theorem C116_dx : HasDerivAt C116_x (1 / 2) 0 := by
  have h1 : HasDerivAt (fun t : ℝ => t ^ 2 + 4) 0 0 := by
    have := ((hasDerivAt_id (0 : ℝ)).pow 2).add_const 4
    refine this.congr_deriv ?_
    simp
  have h2 : HasDerivAt (fun t : ℝ => √(t ^ 2 + 4)) 0 0 := by
    refine (h1.sqrt (by norm_num)).congr_deriv ?_
    simp
  refine (((hasDerivAt_id (0 : ℝ)).add h2).div_const 2).congr_deriv ?_
  norm_num

theorem C116_smooth {b : ℝ} (hb : 0 < b) : SmoothLevel (C116_H0 b) (C116_v b) C116_x (C116_phi b) 0 where
  level := Filter.Eventually.of_forall (C116_level b)
  energy := C116_dx.differentiableAt
  orbital k := by
    fin_cases k
    · exact differentiableAt_const 1
    · exact C116_dx.differentiableAt
  norm := by
    rw [C116_integ]
    have : 0 ≤ C116_phi b 0 (1 : Fin 2) ^ 2 := sq_nonneg _
    have h1 : C116_phi b 0 (0 : Fin 2) = 1 := rfl
    rw [h1]
    positivity

theorem C116_dv (b : ℝ) (k : (C116_G b).Ix) : HasDerivAt (fun t => C116_v b t k) ((![0, 1] : Fin 2 → ℝ) k) 0 := by
  fin_cases k
  · exact hasDerivAt_const 0 0
  · exact hasDerivAt_id 0

theorem C116_det {b : ℝ} (hb : 0 < b) :
    IsUnit (border (hks (C116_H0 b) (C116_v b 0)) (C116_x 0) (gridUnit (C116_phi b 0))).det := by
  set u := gridUnit (C116_phi b 0) with hu
  have hx : C116_x 0 = 1 := by
    unfold C116_x
    rw [show (0 : ℝ) ^ 2 + 4 = 2 ^ 2 by norm_num, Real.sqrt_sq (by norm_num)]
    norm_num
  have hI : ((C116_G b).integ fun k => C116_phi b 0 k ^ 2) = 1 + b := by
    rw [C116_integ]
    simp [C116_phi, hx]
  obtain ⟨a, ha, hua⟩ : ∃ a : ℝ, 0 < a ∧ ∀ k, u k = a := by
    refine ⟨1 / (1 + b) ^ (1 / 2 : ℝ), by positivity, fun k => ?_⟩
    rw [hu]
    unfold gridUnit
    rw [hI]
    have : C116_phi b 0 k = 1 := by
      fin_cases k
      · rfl
      · exact hx
    rw [this]
  rw [← Matrix.isUnit_iff_isUnit_det, ← Matrix.mulVec_injective_iff_isUnit, ← Matrix.coe_mulVecLin, ← LinearMap.ker_eq_bot, LinearMap.ker_eq_bot']
  intro x hx0
  change Matrix.mulVec _ x = 0 at hx0
  obtain ⟨b1, b2⟩ := border_mulVec (hks (C116_H0 b) (C116_v b 0)) (C116_x 0) u x
  have e0 := (b1 (0 : Fin 2)).symm.trans (congrFun hx0 (.inl (0 : Fin 2)))
  have e1 := (b1 (1 : Fin 2)).symm.trans (congrFun hx0 (.inl (1 : Fin 2)))
  have e2 := b2.symm.trans (congrFun hx0 (.inr ()))
  rw [C116_sum] at e2
  have hm0 : (hks (C116_H0 b) (C116_v b 0)).mulVec (fun k => x (.inl k)) (0 : Fin 2) = x (.inl (1 : Fin 2)) := by
    refine (hks_mulVec _ _ _ _).trans ?_
    rw [C116_sum]
    simp [C116_H0, C116_v, C116_G]
  have hm1 : (hks (C116_H0 b) (C116_v b 0)).mulVec (fun k => x (.inl k)) (1 : Fin 2) = x (.inl (0 : Fin 2)) := by
    refine (hks_mulVec _ _ _ _).trans ?_
    rw [C116_sum]
    simp [C116_H0, C116_v, C116_G]
  have e0' : -(x (.inl (1 : Fin 2)) - 1 * 1 * x (.inl (0 : Fin 2))) + x (.inr ()) * (1 * a) = 0 := by
    have a0 := hua (0 : Fin 2)
    change -((hks (C116_H0 b) (C116_v b 0)).mulVec (fun k => x (.inl k)) (0 : Fin 2) - C116_x 0 * 1 * x (.inl (0 : Fin 2))) +
      x (.inr ()) * (1 * u (0 : Fin 2)) = 0 at e0
    rw [hm0, hx, a0] at e0
    exact e0
  have e1' : -(x (.inl (0 : Fin 2)) - 1 * 1 * x (.inl (1 : Fin 2))) + x (.inr ()) * (1 * a) = 0 := by
    have a0 := hua (1 : Fin 2)
    change -((hks (C116_H0 b) (C116_v b 0)).mulVec (fun k => x (.inl k)) (1 : Fin 2) - C116_x 0 * 1 * x (.inl (1 : Fin 2))) +
      x (.inr ()) * (1 * u (1 : Fin 2)) = 0 at e1
    rw [hm1, hx, a0] at e1
    exact e1
  have e2' : 1 * a * x (.inl (0 : Fin 2)) + 1 * a * x (.inl (1 : Fin 2)) = 0 := by
    have a0 := hua (0 : Fin 2)
    have a1 := hua (1 : Fin 2)
    change 1 * u (0 : Fin 2) * x (.inl (0 : Fin 2)) + 1 * u (1 : Fin 2) * x (.inl (1 : Fin 2)) = 0 at e2
    rw [a0, a1] at e2
    exact e2
  have h01 : x (.inl (1 : Fin 2)) = -x (.inl (0 : Fin 2)) := by
    have : a * (x (.inl (0 : Fin 2)) + x (.inl (1 : Fin 2))) = 0 := by linarith
    rcases mul_eq_zero.mp this with h | h
    · exact absurd h ha.ne'
    · linarith
  rw [h01] at e0' e1'
  have hxr : x (.inr ()) = 0 := by
    have : x (.inr ()) * a = 0 := by linarith
    exact (mul_eq_zero.mp this).resolve_right ha.ne'
  rw [hxr] at e0'
  have hx0' : x (.inl (0 : Fin 2)) = 0 := by linarith
  funext q
  rcases q with q | q
  · fin_cases q
    · exact hx0'
    · refine h01.trans ?_
      rw [hx0', neg_zero]
      rfl
  · exact hxr

theorem C116_runs (b t : ℝ) : ∃ x, respond (C116_orb b) (C116_H0 b) (C116_s b) (C116_v b t) = .ok x ∧
    x.1 = fun k => 2 * (C116_phi b t k ^ 2 / (C116_G b).integ fun k => C116_phi b t k ^ 2) := by
  have hv : C116_v b t (1 : Fin 2) = t := rfl
  unfold respond
  rw [show C116_orb b (C116_v b t) = .ok ([C116_phi b t], [C116_x t]) from by simp [C116_orb, hv]]
  set sv : Solver (C116_G b) := { C116_s b with veff := some (C116_v b t), phi := some [C116_phi b t], eig := some [C116_x t] } with hsv
  have hsc : sv.scale = 2 := by simp [hsv, Solver.scale, C116_s]
  have hN : sv.N = 2 := rfl
  have hneed : needed sv.fractional (sv.N / sv.scale) = 1 := by
    rw [hsc, hN]
    simp [needed, hsv, C116_s]
  have h1 : sv.calcDensity = .ok fun k => 2 * (C116_phi b t k ^ 2 / (C116_G b).integ fun k => C116_phi b t k ^ 2) := by
    rw [calcDensity_eq sv (by rw [hN]; norm_num) [C116_phi b t] rfl, hneed, if_pos (by simp)]
    refine congrArg Except.ok (funext fun k => ?_)
    rw [hsc]
    congr 1
    refine (Fin.sum_univ_one _).trans ?_
    rw [hN]
    simp [fill, fillingWhole, hsv, C116_s]
  have h2 : sv.calcEks = .ok (2 * C116_x t) := by
    rw [calcEks_eq sv (by rw [hN]; norm_num) [C116_x t] rfl, hneed, if_pos (by simp), hsc]
    refine congrArg Except.ok ?_
    congr 1
    refine (Fin.sum_univ_one _).trans ?_
    rw [hN]
    simp [fill, fillingWhole, hsv, C116_s]
  have h3 : ∃ y, sv.calcEnergy = .ok y := by
    unfold calcEnergy
    rw [h2, h1]
    exact ⟨_, rfl⟩
  obtain ⟨y, h3⟩ := h3
  have h4 : ∃ chi, SolverR.calcResponse sv (C116_H0 b) (C116_v b t) = .ok chi := by
    unfold SolverR.calcResponse
    rw [occupation_eq, hsc, hN]
    have hf : ⌊(2 : ℝ) / 2⌋ = 1 := by norm_num
    simp only [hf]
    obtain ⟨c, hc⟩ : ∃ c, List.foldlM (fun (chi : Matrix (C116_G b).Ix (C116_G b).Ix ℝ) (j : ℕ) => do
        let p ← sv.orb j
        let e ← sv.eigAt j
        pure (chi + orbitalResponse (hks (C116_H0 b) (C116_v b t)) e (gridUnit p))) 0 (pyRange 1) = (.ok c : Py _) := ⟨_, rfl⟩
    rw [hc]
    exact ⟨_, (if_neg (fun h => Bool.false_ne_true h.1) : (if sv.fractional = true ∧ (2 : ℝ) / 2 - ((1 : ℤ) : ℝ) ≠ 0 then
      Except.error PyErr.indexError else pure (if sv.pol = 1 then (2 : ℝ) • c else c)) = _)⟩
  obtain ⟨chi, h4⟩ := h4
  refine ⟨(_, chi), ?_, rfl⟩
  change (do
    let n ← sv.calcDensity
    let _ ← sv.calcEnergy
    let chi ← SolverR.calcResponse sv (C116_H0 b) (C116_v b t)
    pure (n, chi)) = _
  rw [h1, h3, h4]
  rfl

theorem C116_x0 : C116_x 0 = 1 := by
  unfold C116_x
  rw [show (0 : ℝ) ^ 2 + 4 = 2 ^ 2 by norm_num, Real.sqrt_sq (by norm_num)]
  norm_num

theorem C116_change (b : ℝ) (hb : 0 < b) : HasDerivAt (fun t => 2 * (C116_phi b t (0 : Fin 2) ^ 2 / (C116_G b).integ fun k => C116_phi b t k ^ 2))
    (-(2 * b) / (1 + b) ^ 2) 0 := by
  have h : (fun t => 2 * (C116_phi b t (0 : Fin 2) ^ 2 / (C116_G b).integ fun k => C116_phi b t k ^ 2)) =
      fun t => 2 / (1 + b * C116_x t ^ 2) := funext fun t => by
    rw [C116_integ]
    simp [C116_phi]
    ring
  rw [h]
  have d := (hasDerivAt_const (0 : ℝ) (2 : ℝ)).div (((C116_dx.pow 2).const_mul b).const_add 1) (by
    change 1 + b * C116_x 0 ^ 2 ≠ 0
    rw [C116_x0]
    positivity)
  refine d.congr_deriv ?_
  simp [C116_x0]

/-- The response and the derivative at the first point. -/
theorem C116_value (b : ℝ) (hb : 0 < b) : ∃ (n : ℝ → (C116_G b).Fld) (chi : ℝ → Matrix (C116_G b).Ix (C116_G b).Ix ℝ),
    (∀ t, respond (C116_orb b) (C116_H0 b) (C116_s b) (C116_v b t) = .ok (n t, chi t)) ∧
    HasDerivAt (fun t => n t (0 : Fin 2)) (-(2 * b) / (1 + b) ^ 2) 0 ∧ (chi 0).mulVec ![0, 1] (0 : Fin 2) = -1 / (1 + b) := by
  choose x hx hn using C116_runs b
  refine ⟨fun t => (x t).1, fun t => (x t).2, hx, ?_, ?_⟩
  · simp only [hn]
    exact C116_change b hb
  · have hneed : needed false ((C116_s b).N / (orbitalCapacity (C116_s b).m ((C116_s b).pol = 2) : ℝ)) = 1 := by
      norm_num [C116_s, needed, orbitalCapacity]
    obtain ⟨hM, ρ, h1, h2, h3⟩ := C116_derivative (G := C116_G b) (fun _ => one_pos) (C116_s b) (.inl rfl) (by norm_num [C116_s])
      (C116_H0 b) (C116_dv b) (fun t => rfl : ∀ t, C116_orb b (C116_v b t) = _) hx (.inl rfl)
      fun j _ => ⟨C116_smooth hb, C116_det hb⟩
    revert hM ρ
    rw [hneed]
    intro hM ρ h1 h2 h3
    have e1 := h1 (0 : Fin 2)
    have e2 := h2 (0 : Fin 2)
    have e3 := h3 0
    simp only [hn] at e2
    have e4 := e2.unique (C116_change b hb)
    rw [Fin.sum_univ_one] at e1 e4
    rw [C116_integ] at e4
    rw [C116_sum] at e3
    change 1 * ρ 0 (0 : Fin 2) + 1 * ρ 0 (1 : Fin 2) = 0 at e3
    have hu : gridUnit (C116_phi b 0) (0 : Fin 2) ^ 2 = 1 / (1 + b) := by
      unfold gridUnit
      rw [div_pow, C116_integ, ← Real.rpow_natCast, ← Real.rpow_natCast, ← Real.rpow_mul]
      · simp [C116_phi, C116_x0]
      · have h1 : C116_phi b 0 (0 : Fin 2) = 1 := rfl
        rw [h1]
        positivity
    have e4' : 2 * (ρ 0 (0 : Fin 2) - (ρ 0 (0 : Fin 2) + b * ρ 0 (1 : Fin 2)) * (1 / (1 + b))) = -(2 * b) / (1 + b) ^ 2 := by
      rw [← hu, ← e4]
      have : (orbitalCapacity (C116_s b).m ((C116_s b).pol = 2) : ℝ) = 2 := by norm_num [C116_s, orbitalCapacity]
      rw [this]
      rfl
    have h10 : ρ 0 (1 : Fin 2) = -ρ 0 (0 : Fin 2) := by linarith
    rw [h10] at e4'
    have e1' : (x 0).2.mulVec ![0, 1] (0 : Fin 2) = 2 * ρ 0 (0 : Fin 2) := by
      rw [e1, show (C116_s b).pol = 1 from rfl, if_pos rfl]
    rw [e1']
    field_simp at e4' ⊢
    nlinarith

/-- With equal weights the hypotheses can be satisfied and the density does change. -/
example : ∃ (n : ℝ → (C116_G 1).Fld) (chi : ℝ → Matrix (C116_G 1).Ix (C116_G 1).Ix ℝ),
    (∀ t, respond (C116_orb 1) (C116_H0 1) (C116_s 1) (C116_v 1 t) = .ok (n t, chi t)) ∧
    (∀ k, HasDerivAt (fun t => n t k) ((chi 0).mulVec ![0, 1] k) 0) ∧ (chi 0).mulVec ![0, 1] (0 : Fin 2) = -1 / 2 := by
  obtain ⟨n, chi, hx, h1, h2⟩ := C116_value 1 one_pos
  have hd := C116_response_partial (G := C116_G 1) (fun _ => one_pos) (c := 1) (by intro k; fin_cases k <;> rfl) (C116_s 1) (.inl rfl)
    (by norm_num [C116_s]) (C116_H0 1) (C116_dv 1) (fun t => rfl : ∀ t, C116_orb 1 (C116_v 1 t) = _) hx (.inl rfl)
    fun j _ => ⟨C116_smooth one_pos, C116_det one_pos⟩
  refine ⟨n, chi, hx, fun k => (hd k).congr_deriv ?_, ?_⟩
  · rw [show (C116_s 1).m = 0 from rfl, if_pos rfl, one_mul]
  · rw [h2]
    norm_num

/-- Weights 1 and 3 (the weights of the grid are not equal, C07): the response is −1/4, the derivative −3/8. -/
theorem C116_refuted_weights : ∃ (n : ℝ → (C116_G 3).Fld) (chi : ℝ → Matrix (C116_G 3).Ix (C116_G 3).Ix ℝ),
    (∀ t, respond (C116_orb 3) (C116_H0 3) (C116_s 3) (C116_v 3 t) = .ok (n t, chi t)) ∧
    SmoothLevel (C116_H0 3) (C116_v 3) C116_x (C116_phi 3) 0 ∧ (∀ k, HasDerivAt (fun t => C116_v 3 t k) ((![0, 1] : Fin 2 → ℝ) k) 0) ∧
    HasDerivAt (fun t => n t (0 : Fin 2)) (-3 / 8) 0 ∧ (chi 0).mulVec ![0, 1] (0 : Fin 2) = -1 / 4 := by
  obtain ⟨n, chi, hx, h1, h2⟩ := C116_value 3 (by norm_num)
  refine ⟨n, chi, hx, C116_smooth (by norm_num), C116_dv 3, h1.congr_deriv (by norm_num), ?_⟩
  rw [h2]
  norm_num

end Example

end Verif
