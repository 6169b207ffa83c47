import Verif.Props.C116
import Verif.Props.C103
import Mathlib.Analysis.SpecialFunctions.Trigonometric.Deriv
import Mathlib.Analysis.Real.Pi.Bounds

/-! # C117: a symmetric Hamiltonian: orthogonal orbitals, symmetric response, first-order energies -/

namespace Verif
open Spec Solver SolverR Orbitals Filter Topology

variable {G : Grid ℝ}

/-- `H0` equals its transpose. -/
def Spec.SymmetricH (H0 : Matrix G.Ix G.Ix ℝ) : Prop := ∀ k l, H0 k l = H0 l k

namespace C117

theorem swap {H0 : Matrix G.Ix G.Ix ℝ} (hH : SymmetricH H0) (x y : G.Fld) :
    ∑ k, x k * ∑ l, H0 k l * y l = ∑ k, y k * ∑ l, H0 k l * x l := by
  simp only [Finset.mul_sum]
  rw [Finset.sum_comm]
  exact Finset.sum_congr rfl fun k _ => Finset.sum_congr rfl fun l _ => by rw [hH l k]; ring

end C117

/-- C117: the response to `y` seen through `x` is the response to `x` seen through `y`, if the Hamiltonian is symmetric. -/
theorem C117_response_partial {H0 : Matrix G.Ix G.Ix ℝ} (hH : SymmetricH H0) (s : Solver G) (hp : s.pol = 1 ∨ s.pol = 2) (hN : 0 ≤ s.N)
    (veff : G.Fld) (l : List G.Fld) (hl : s.phi = some l) (e : List ℝ) (he : s.eig = some e) :
    let g : ℝ := (orbitalCapacity s.m (s.pol = 2) : ℝ)
    (s.fractional = false ∨ s.N / g = ⌊s.N / g⌋) →
    ∀ (h1 : needed false (s.N / g) ≤ l.length) (h2 : needed false (s.N / g) ≤ e.length),
    (∀ j (hj : j < needed false (s.N / g)), IsUnit (border (hks H0 veff) e[j] (gridUnit l[j])).det) →
    ∃ chi, calcResponse s H0 veff = .ok chi ∧ ∀ k k', G.w k * chi k k' = G.w k' * chi k' k := by
  intro g hfr h1 h2 hdet
  obtain ⟨chi, hchi, hδ, -⟩ := C25_response_partial s hp hN H0 veff l hl e he hfr h1 h2 hdet
  have key : ∀ x y : G.Fld, ∑ k, G.w k * x k * chi.mulVec y k = ∑ k, G.w k * y k * chi.mulVec x k := by
    intro x y
    obtain ⟨δ, d1, d2⟩ := hδ y
    obtain ⟨ε, e1, e2⟩ := hδ x
    have sum_eq : ∀ (x : G.Fld) (δ : Fin (needed false (s.N / g)) → G.Fld),
        ∑ k, G.w k * x k * ((if s.pol = 1 then (2 : ℝ) else 1) * ∑ j, (2 : ℝ) * gridUnit l[j.1] k * δ j k) =
        (if s.pol = 1 then (2 : ℝ) else 1) * 2 * ∑ j, ∑ k, x k * (G.w k * gridUnit l[j.1] k) * δ j k := by
      intro x δ
      rw [Finset.sum_comm, Finset.mul_sum]
      refine Finset.sum_congr rfl fun k _ => ?_
      simp only [Finset.mul_sum]
      exact Finset.sum_congr rfl fun j _ => by ring
    simp only [d2, e2]
    rw [sum_eq, sum_eq]
    congr 1
    refine Finset.sum_congr rfl fun j _ => ?_
    obtain ⟨⟨μ, f1⟩, f2⟩ := d1 j
    obtain ⟨⟨ν, g1⟩, g2⟩ := e1 j
    have a1 : ∑ k, x k * (G.w k * gridUnit l[j.1] k) * δ j k =
        ν * ∑ k, G.w k * gridUnit l[j.1] k * δ j k - ∑ k, δ j k * ((hks H0 veff).mulVec (ε j) k - e[j.1] * G.w k * ε j k) := by
      rw [Finset.mul_sum, ← Finset.sum_sub_distrib]
      exact Finset.sum_congr rfl fun k _ => by rw [g1 k]; ring
    have a2 : ∑ k, y k * (G.w k * gridUnit l[j.1] k) * ε j k =
        μ * ∑ k, G.w k * gridUnit l[j.1] k * ε j k - ∑ k, ε j k * ((hks H0 veff).mulVec (δ j) k - e[j.1] * G.w k * δ j k) := by
      rw [Finset.mul_sum, ← Finset.sum_sub_distrib]
      exact Finset.sum_congr rfl fun k _ => by rw [f1 k]; ring
    rw [a1, a2, f2, g2, mul_zero, mul_zero]
    congr 1
    have b : ∀ x y : G.Fld, ∑ k, x k * ((hks H0 veff).mulVec y k - e[j.1] * G.w k * y k) =
        ∑ k, x k * ∑ l, H0 k l * y l + ∑ k, (G.w k * veff k - e[j.1] * G.w k) * (x k * y k) := by
      intro x y
      rw [← Finset.sum_add_distrib]
      exact Finset.sum_congr rfl fun k _ => by rw [C116.hks_mulVec]; ring
    rw [b, b, C117.swap hH]
    congr 1
    exact Finset.sum_congr rfl fun k _ => by ring
  refine ⟨chi, hchi, fun k k' => ?_⟩
  have := key (Pi.single k 1) (Pi.single k' 1)
  rw [Matrix.mulVec_single_one, Matrix.mulVec_single_one] at this
  simpa [Pi.single_apply, Matrix.col] using this

/-- C117: a level changes by the expectation value of the change of the potential, in the weight in which the Hamiltonian is symmetric. -/
theorem C117_level {H0 : Matrix G.Ix G.Ix ℝ} {d : G.Fld} (hH : Ground.Balanced H0 d) (hd : ∀ k, 0 < d k) (hw : ∀ k, 0 < G.w k) {v : ℝ → G.Fld}
    {v' : G.Fld} {e : ℝ → ℝ} {φ : ℝ → G.Fld} {t₀ : ℝ} (hv : ∀ k, HasDerivAt (fun t => v t k) (v' k) t₀) (h : SmoothLevel H0 v e φ t₀) :
    0 < ∑ k, d k * G.w k * φ t₀ k ^ 2 ∧
      HasDerivAt e ((∑ k, d k * G.w k * v' k * φ t₀ k ^ 2) / ∑ k, d k * G.w k * φ t₀ k ^ 2) t₀ := by
  set φ' : G.Fld := fun k => deriv (fun t => φ t k) t₀ with hφ'
  have hφ : ∀ k, HasDerivAt (fun t => φ t k) (φ' k) t₀ := fun k => (h.orbital k).hasDerivAt
  set e' := deriv e t₀
  have he : HasDerivAt e e' t₀ := h.energy.hasDerivAt
  have eq0 : LevelOf H0 (v t₀) (e t₀) (φ t₀) := h.level.self_of_nhds
  have eq1 := C116.derivative hv h
  have hW0 : 0 < ∑ k, d k * G.w k * φ t₀ k ^ 2 := by
    obtain ⟨k, hk⟩ : ∃ k, φ t₀ k ≠ 0 := by
      by_contra hc
      push Not at hc
      have := h.norm
      rw [show (fun k => φ t₀ k ^ 2) = fun _ => 0 from funext fun k => by rw [hc k]; ring] at this
      simp [Grid.integ] at this
    exact Finset.sum_pos' (fun k _ => mul_nonneg (mul_pos (hd k) (hw k)).le (sq_nonneg _))
      ⟨k, Finset.mem_univ _, mul_pos (mul_pos (hd k) (hw k)) (by positivity)⟩
  refine ⟨hW0, he.congr_deriv ?_⟩
  rw [eq_div_iff hW0.ne', Finset.mul_sum]
  have s1 : ∑ k, φ t₀ k * ∑ l, d k * H0 k l * φ' l = ∑ k, (e' * (d k * G.w k * φ t₀ k ^ 2) +
      d k * (e t₀ * G.w k - G.w k * v t₀ k) * (φ t₀ k * φ' k) - d k * G.w k * v' k * φ t₀ k ^ 2) :=
    Finset.sum_congr rfl fun k _ => by
      have := eq1 k
      simp only [mul_assoc (d k), ← Finset.mul_sum]
      linear_combination d k * φ t₀ k * eq1 k
  have s2 : ∑ k, φ' k * ∑ l, d k * H0 k l * φ t₀ l = ∑ k, (d k * (e t₀ * G.w k - G.w k * v t₀ k) * (φ t₀ k * φ' k)) :=
    Finset.sum_congr rfl fun k _ => by
      simp only [mul_assoc (d k), ← Finset.mul_sum]
      linear_combination d k * φ' k * eq0 k
  rw [C117.swap (H0 := fun k l => d k * H0 k l) hH, s2, Finset.sum_sub_distrib, Finset.sum_add_distrib] at s1
  linarith

namespace C117

theorem integ_deriv {f : ℝ → G.Fld} {f' : G.Fld} {t₀ : ℝ} (h : ∀ k, HasDerivAt (fun t => f t k) (f' k) t₀) :
    HasDerivAt (fun t => G.integ (f t)) (G.integ f') t₀ :=
  (HasDerivAt.fun_sum fun k _ => (h k).const_mul _).const_mul _

theorem integ_sum {ι : Type} [Fintype ι] (f : ι → G.Fld) : (G.integ fun k => ∑ i, f i k) = ∑ i, G.integ (f i) := by
  simp only [Grid.integ, Finset.mul_sum]
  rw [Finset.sum_comm]

end C117

/-- C117: with equal integration weights the orbital energy sum changes by the integral of the density times the change of the potential, and
the energy sum less the energy of the density in the potential (the kinetic energy of a converged solver) by minus the integral of the potential
times the change of the density. `sv t` is the solver with the orbitals of the potential `v t`. -/
theorem C117_energy_partial {H0 : Matrix G.Ix G.Ix ℝ} (hH : SymmetricH H0) (hw : ∀ k, 0 < G.w k) {c : ℝ} (hwi : ∀ k, G.wi k = c)
    (s : Solver G) (hp : s.pol = 1 ∨ s.pol = 2) (hN : 0 ≤ s.N)
    {v : ℝ → G.Fld} {v' : G.Fld} {t₀ : ℝ} (hv : ∀ k, HasDerivAt (fun t => v t k) (v' k) t₀)
    {M : ℕ} {φ : Fin M → ℝ → G.Fld} {e : Fin M → ℝ → ℝ} {n : ℝ → G.Fld} {E : ℝ → ℝ} :
    let sv t : Solver G := { s with veff := some (v t), phi := some (List.ofFn fun j => φ j t), eig := some (List.ofFn fun j => e j t) }
    (∀ t, (sv t).calcDensity = .ok (n t)) → (∀ t, (sv t).calcEks = .ok (E t)) →
    (∀ j : Fin M, fill s.fractional (s.N / (orbitalCapacity s.m (s.pol = 2) : ℝ)) j ≠ 0 → SmoothLevel H0 v (e j) (φ j) t₀) →
    HasDerivAt E (G.integ fun k => v' k * n t₀ k) t₀ ∧
    ∀ n' : G.Fld, (∀ k, HasDerivAt (fun t => n t k) (n' k) t₀) →
      HasDerivAt (fun t => E t - G.integ fun k => v t k * n t k) (-G.integ fun k => v t₀ k * n' k) t₀ := by
  intro sv hn hE hj
  set g : ℝ := (orbitalCapacity s.m (s.pol = 2) : ℝ) with hgdef
  have hg : s.scale = g := scale_eq s hp
  have hn0 : ∀ k, n t₀ k = g * ∑ i : Fin M, fill s.fractional (s.N / g) i.1 * (φ i t₀ k ^ 2 / G.integ fun k => φ i t₀ k ^ 2) := by
    have h1 := hn t₀
    rw [calcDensity_eq (sv t₀) hN _ rfl] at h1
    split at h1
    · intro k
      rw [← Except.ok.inj h1]
      change s.scale * _ = _
      rw [hg]
      congr 1
      rw [← (finCongr (List.length_ofFn (f := fun j => φ j t₀))).sum_comp]
      refine Finset.sum_congr rfl fun i _ => ?_
      change fill s.fractional (s.N / s.scale) i.1 * _ = _
      rw [hg]
      simp
      exact .inl rfl
    · exact absurd h1 (by simp)
  have hE0 : E = fun t => g * ∑ i : Fin M, fill s.fractional (s.N / g) i.1 * e i t := by
    funext t
    have h1 := hE t
    rw [calcEks_eq (sv t) hN _ rfl] at h1
    split at h1
    · rw [← Except.ok.inj h1]
      change s.scale * _ = _
      rw [hg]
      congr 1
      rw [← (finCongr (List.length_ofFn (f := fun j => e j t))).sum_comp]
      refine Finset.sum_congr rfl fun i _ => ?_
      change fill s.fractional (s.N / s.scale) i.1 * _ = _
      rw [hg]
      simp
      exact .inl rfl
    · exact absurd h1 (by simp)
  have hlev : ∀ i : Fin M, fill s.fractional (s.N / g) i.1 ≠ 0 → 0 < ∑ k, G.w k * φ i t₀ k ^ 2 ∧
      HasDerivAt (e i) ((∑ k, G.w k * v' k * φ i t₀ k ^ 2) / ∑ k, G.w k * φ i t₀ k ^ 2) t₀ := fun i hf => by
    have := C117_level (d := fun _ => 1) (fun k l => by rw [one_mul, one_mul]; exact hH k l) (fun _ => one_pos) hw hv (hj i hf)
    simpa only [one_mul] using this
  have main : HasDerivAt E (G.integ fun k => v' k * n t₀ k) t₀ := by
    have hd : HasDerivAt E (g * ∑ i : Fin M, fill s.fractional (s.N / g) i.1 *
        ((∑ k, G.w k * v' k * φ i t₀ k ^ 2) / ∑ k, G.w k * φ i t₀ k ^ 2)) t₀ := by
      rw [hE0]
      refine (HasDerivAt.fun_sum fun i _ => ?_).const_mul _
      by_cases hf : fill s.fractional (s.N / g) i.1 = 0
      · simp only [hf, zero_mul]
        exact hasDerivAt_const _ _
      · exact (hlev i hf).2.const_mul _
    refine hd.congr_deriv ?_
    have : (fun k => v' k * n t₀ k) = fun k => g * ∑ i : Fin M, (fill s.fractional (s.N / g) i.1 / G.integ fun k => φ i t₀ k ^ 2) *
        (v' k * φ i t₀ k ^ 2) := funext fun k => by
      rw [hn0]
      simp only [Finset.mul_sum]
      exact Finset.sum_congr rfl fun i _ => by ring
    rw [this, C116.integ_mul, C117.integ_sum]
    congr 1
    refine Finset.sum_congr rfl fun i _ => ?_
    rw [C116.integ_mul]
    by_cases hf : fill s.fractional (s.N / g) i.1 = 0
    · rw [hf]; simp
    have h0 := (hj i hf).norm
    rw [C116.integ_eq hwi] at h0 ⊢
    rw [C116.integ_eq hwi]
    set a := 2 * G.pi * G.hr * G.ha
    have ha : a ≠ 0 := fun h => by rw [h, zero_mul] at h0; exact lt_irrefl _ h0
    have hc : c ≠ 0 := fun h => by rw [h, zero_mul, mul_zero] at h0; exact lt_irrefl _ h0
    have hS := (hlev i hf).1.ne'
    rw [show (∑ k, G.w k * (v' k * φ i t₀ k ^ 2)) = ∑ k, G.w k * v' k * φ i t₀ k ^ 2 from Finset.sum_congr rfl fun k _ => by ring]
    field_simp
  refine ⟨main, fun n' hn' => (main.sub (C117.integ_deriv fun k => (hv k).mul (hn' k))).congr_deriv ?_⟩
  rw [show (fun k => v' k * n t₀ k + v t₀ k * n' k) = fun k => v' k * n t₀ k - (-1) * (v t₀ k * n' k) from funext fun k => by ring,
    C116.integ_sub, C116.integ_mul]
  ring

section Real
open FD Init Ops

/-- C117: on every grid with three-point stencils and a radial step that is not too coarse there is one positive weight, the same for all potentials, in which
a level changes by the expectation value of the change of the potential. -/
theorem C117_level_partial {NP NMa NMr : ℕ} {a L : ℝ} {wa : Fin (NC.npts NP NMa) → ℝ} {wr : Fin (NC.npts NP NMr) → ℝ} {ds1 ds2 : Fin (2 * 1 + 1) → ℝ}
    (ha : 0 < a) (hL : 0 < L) (hf : FineRadial (hr (NC.npts NP NMr) L))
    (hds1 : FDC.Returns (fun i => ((centred 1 i : ℤ) : ℝ)) 1 (.ok ds1))
    (hds2 : FDC.Returns (fun i => ((centred 1 i : ℤ) : ℝ)) 2 (.ok ds2)) (m : ℕ) :
    ∃ R, build (NC.npts NP NMa) (NC.npts NP NMr) 1 a L (centred 1) ds1 ds2 = .ok R ∧
      let G := mkGrid NP NMa NMr a L wa wr
      let H0 : Matrix G.Ix G.Ix ℝ := Solver.hamiltonian m R.elap R.olap (Init.w _ _ a L) (Init.f _ _ a L)
      ∃ d : G.Fld, (∀ k, 0 < d k) ∧ ∀ (v : ℝ → G.Fld) (v' : G.Fld) (e : ℝ → ℝ) (φ : ℝ → G.Fld) (t₀ : ℝ),
        (∀ k, HasDerivAt (fun t => v t k) (v' k) t₀) → SmoothLevel H0 v e φ t₀ →
        HasDerivAt e ((∑ k, d k * G.w k * v' k * φ t₀ k ^ 2) / ∑ k, d k * G.w k * φ t₀ k ^ 2) t₀ := by
  obtain ⟨R, hR, ⟨d, hd⟩, -⟩ := Three.setup (NP := NP) (NMa := NMa) (NMr := NMr) ha hL hf hds1 hds2 m
  refine ⟨R, hR, d, (hd 0).pos, fun v v' e φ t₀ hv h => ?_⟩
  refine (C117_level (G := mkGrid NP NMa NMr a L wa wr) (d := d) (fun k l => ?_) (hd 0).pos (fun k => Three.w_pos ha hL k) hv h).2
  simpa using (hd 0).bal k l

/-- C117: the Hamiltonian of a grid with three-point stencils and at least three angular points is not symmetric. -/
theorem C117_refuted_symmetric {Na Nr : ℕ} (hNa : 3 ≤ Na) (hNr : 1 ≤ Nr) {a L : ℝ} (ha0 : 0 < a) (hL : 0 < L) {ds1 ds2 : Fin (2 * 1 + 1) → ℝ}
    (hds1 : FDC.Returns (fun i => ((centred 1 i : ℤ) : ℝ)) 1 (.ok ds1))
    (hds2 : FDC.Returns (fun i => ((centred 1 i : ℤ) : ℝ)) 2 (.ok ds2)) (m : ℕ) :
    ∃ R, build Na Nr 1 a L (centred 1) ds1 ds2 = .ok R ∧ ∀ w f : Fin (Na * Nr) → ℝ,
      ∃ k l, Solver.hamiltonian m R.elap R.olap w f k l ≠ Solver.hamiltonian m R.elap R.olap w f l k := by
  obtain ⟨R, hR, h⟩ := Three.hamiltonian_entries (Na := Na) (Nr := Nr) (by omega) hNr a hL hds1 hds2
  refine ⟨R, hR, fun w f => ?_⟩
  set i0 : Fin Na := ⟨0, by omega⟩ with hi0
  set i1 : Fin Na := ⟨1, by omega⟩ with hi1
  set j0 : Fin Nr := ⟨0, by omega⟩
  have hne : i0 ≠ i1 := by simp [hi0, hi1]
  have hk : at2 i0 j0 ≠ at2 i1 j0 := fun hc => hne (by have := congrArg ia hc; rwa [ia_at2, ia_at2] at this)
  refine ⟨at2 i0 j0, at2 i1 j0, fun hc => ?_⟩
  rw [h, h, if_neg hk, if_neg hk.symm] at hc
  have hS : 0 < Real.sinh (xr Nr L j0) := Real.sinh_pos_iff.mpr (xr_pos hL j0)
  have e01 : Three.mat (Three.sgn m) (Three.sgn m) (Three.upA Na) (Three.dnA Na) i0 i1 = Three.upA Na i0 := by
    rw [Three.mat_off hne]
    simp [hi0, hi1]
  have e10 : Three.mat (Three.sgn m) (Three.sgn m) (Three.upA Na) (Three.dnA Na) i1 i0 = Three.dnA Na i1 := by
    rw [Three.mat_off hne.symm]
    simp [hi0, hi1]
  unfold Three.lap Three.both at hc
  simp only [ia_at2, ir_at2, if_true, if_neg hne, if_neg hne.symm, mul_zero, add_zero, e01, e10] at hc
  have heq : Three.upA Na i0 = Three.dnA Na i1 := by
    have : a * Real.sinh (xr Nr L j0) * (Three.upA Na i0 - Three.dnA Na i1) = 0 := by linarith
    have := (mul_eq_zero.1 this).resolve_left (mul_pos ha0 hS).ne'
    linarith
  have hh : 0 < Init.ha Na := Three.ha_pos i0
  have hpi : Init.ha Na < Real.pi / 2 := by
    rw [ha_eq]
    have : (3 : ℝ) ≤ Na := by exact_mod_cast hNa
    exact div_lt_div_of_pos_left Real.pi_pos (by norm_num) (by linarith)
  set y := Init.ha Na with hy
  have x0 : xa Na i0 = y / 2 := by rw [xa_eq, hy, ha_eq]; simp [hi0]; ring
  have x1 : xa Na i1 = y + y / 2 := by rw [xa_eq, hy, ha_eq]; simp [hi1]; ring
  unfold Three.upA Three.dnA at heq
  rw [x0, x1, ← hy] at heq
  have hc1 : 0 < Real.cos y := Real.cos_pos_of_mem_Ioo ⟨by linarith, hpi⟩
  have hc2 : 0 < Real.cos (y / 2) := Real.cos_pos_of_mem_Ioo ⟨by linarith, by linarith⟩
  have ht := Real.lt_tan (x := y / 2) (by linarith) (by linarith)
  rw [Real.tan_eq_sin_div_cos, lt_div_iff₀ hc2] at ht
  have d1 : Real.sin (y + y / 2) - Real.sin (y / 2) = 2 * Real.cos y * Real.sin (y / 2) := by
    have : Real.sin (y / 2) = Real.sin (y - y / 2) := by ring_nf
    conv_lhs => rw [this, Real.sin_add, Real.sin_sub]
    ring
  have d2 : Real.cos (y + y / 2) + Real.cos (y / 2) = 2 * Real.cos y * Real.cos (y / 2) := by
    have : Real.cos (y / 2) = Real.cos (y - y / 2) := by ring_nf
    conv_lhs => rw [this, Real.cos_add, Real.cos_sub]
    ring
  have p1 : ∀ s c : ℝ, 2 * y ^ 2 * (s / y ^ 2 + c / (2 * y)) = 2 * s + y * c := fun s c => by field_simp
  have p2 : ∀ s c : ℝ, 2 * y ^ 2 * (s / y ^ 2 - c / (2 * y)) = 2 * s - y * c := fun s c => by field_simp
  have heq := congrArg (2 * y ^ 2 * ·) heq
  simp only [p1, p2] at heq
  have : 2 * Real.cos y * (2 * Real.sin (y / 2) - y * Real.cos (y / 2)) = 0 := by
    linear_combination (-2) * d1 + y * d2 - heq
  rcases mul_eq_zero.1 this with h1 | h1 <;> nlinarith

end Real

section Example

/-- What the two-point solver of C116 gives. -/
theorem C117_values (b t : ℝ) : let sv : Solver (C116_G b) := { C116_s b with veff := some (C116_v b t), phi := some (List.ofFn fun _ : Fin 1 => C116_phi b t), eig := some (List.ofFn fun _ : Fin 1 => C116_x t) }
    sv.calcDensity = .ok (fun k => 2 * (C116_phi b t k ^ 2 / (C116_G b).integ fun k => C116_phi b t k ^ 2)) ∧ sv.calcEks = .ok (2 * C116_x t) := by
  intro sv
  have hsc : sv.scale = 2 := by simp [sv, Solver.scale, C116_s]
  have hN : sv.N = 2 := rfl
  have hneed : needed sv.fractional (sv.N / sv.scale) = 1 := by
    rw [hsc, hN]
    simp [needed, sv, C116_s]
  constructor
  · rw [calcDensity_eq sv (by rw [hN]; norm_num) [C116_phi b t] rfl, hneed, if_pos (by simp)]
    refine congrArg Except.ok (funext fun k => ?_)
    rw [hsc]
    congr 1
    refine (Fin.sum_univ_one _).trans ?_
    rw [hN]
    simp [fill, fillingWhole, sv, C116_s]
  · rw [calcEks_eq sv (by rw [hN]; norm_num) [C116_x t] rfl, hneed, if_pos (by simp), hsc]
    refine congrArg Except.ok ?_
    congr 1
    refine (Fin.sum_univ_one _).trans ?_
    rw [hN]
    simp [fill, fillingWhole, sv, C116_s]

theorem C117_symmetric (b : ℝ) : SymmetricH (C116_H0 b) := by
  intro k l
  fin_cases k <;> fin_cases l <;> rfl

/-- Equal weights: the hypotheses can be satisfied, and the energy sum does change. -/
example : HasDerivAt (fun t => 2 * C116_x t) 1 0 := by
  have h := (C117_energy_partial (G := C116_G 1) (C117_symmetric 1) (fun _ => one_pos) (c := 1) (by intro k; fin_cases k <;> rfl) (C116_s 1) (.inl rfl)
    (by norm_num [C116_s]) (C116_dv 1) (fun t => (C117_values 1 t).1) (fun t => (C117_values 1 t).2) fun j _ => C116_smooth one_pos).1
  refine h.congr_deriv ?_
  rw [C116_integ]
  rw [C116_integ]
  simp [C116_phi, C116_x0]
  norm_num

/-- Two points: the response is reciprocal. -/
example : ∃ chi, calcResponse { C116_s 3 with phi := some [C116_phi 3 0], eig := some [C116_x 0] } (C116_H0 3) (C116_v 3 0) = .ok chi ∧
    chi (0 : Fin 2) (1 : Fin 2) = chi (1 : Fin 2) (0 : Fin 2) := by
  have hneed : needed false ((C116_s 3).N / (orbitalCapacity (C116_s 3).m ((C116_s 3).pol = 2) : ℝ)) = 1 := by
    norm_num [C116_s, needed, orbitalCapacity]
  obtain ⟨chi, h1, h2⟩ := C117_response_partial (C117_symmetric 3) { C116_s 3 with phi := some [C116_phi 3 0], eig := some [C116_x 0] } (.inl rfl)
    (by norm_num [C116_s]) (C116_v 3 0) _ rfl _ rfl (.inl rfl) (hneed.trans_le (by simp)) (hneed.trans_le (by simp)) (by
      intro j hj
      obtain rfl : j = 0 := Nat.lt_one_iff.1 (hj.trans_eq hneed)
      exact C116_det (by norm_num))
  refine ⟨chi, h1, ?_⟩
  have h := h2 (0 : Fin 2) (1 : Fin 2)
  change 1 * _ = 1 * _ at h
  rwa [one_mul, one_mul] at h

/-- Weights 1 and 3: the energy sum has derivative 1, the integral of the density times the change of the potential is 3/2. -/
theorem C117_refuted_weights : ∃ (n : ℝ → (C116_G 3).Fld) (E : ℝ → ℝ), SymmetricH (C116_H0 3) ∧
    SmoothLevel (C116_H0 3) (C116_v 3) C116_x (C116_phi 3) 0 ∧
    (∀ t, let sv : Solver (C116_G 3) := { C116_s 3 with veff := some (C116_v 3 t), phi := some (List.ofFn fun _ : Fin 1 => C116_phi 3 t), eig := some (List.ofFn fun _ : Fin 1 => C116_x t) }
      sv.calcDensity = .ok (n t) ∧ sv.calcEks = .ok (E t)) ∧
    HasDerivAt E 1 0 ∧ ((C116_G 3).integ fun k => (![0, 1] : Fin 2 → ℝ) k * n 0 k) = 3 / 2 := by
  refine ⟨_, _, C117_symmetric 3, C116_smooth (by norm_num), C117_values 3, (C116_dx.const_mul 2).congr_deriv (by norm_num), ?_⟩
  rw [C116_integ]
  rw [C116_integ]
  simp [C116_phi, C116_x0]
  norm_num

/-- Three points. -/
noncomputable def C117_G : Grid ℝ := ⟨3, 1, 1 / 2, 1, 1, fun _ => 1, fun _ => 1⟩

/-- Symmetric in the weight 2, 1, 1. -/
def C117_H0 : Matrix C117_G.Ix C117_G.Ix ℝ := (!![1, -1, 0; -2, 3, -1; 0, -1, 1] : Matrix (Fin 3) (Fin 3) ℝ)

noncomputable def C117_s : Solver C117_G := ⟨1, 2, 0, 1, false, false, some [fun _ => 1], some [0], none⟩

theorem C117_sum (f : C117_G.Ix → ℝ) : ∑ k, f k = f (0 : Fin 3) + f (1 : Fin 3) + f (2 : Fin 3) := Fin.sum_univ_three (M := ℝ) f

theorem C117_mul (x : C117_G.Fld) : (hks C117_H0 fun _ => 0).mulVec x (0 : Fin 3) = x (0 : Fin 3) - x (1 : Fin 3) ∧
    (hks C117_H0 fun _ => 0).mulVec x (1 : Fin 3) = -2 * x (0 : Fin 3) + 3 * x (1 : Fin 3) - x (2 : Fin 3) ∧
    (hks C117_H0 fun _ => 0).mulVec x (2 : Fin 3) = -x (1 : Fin 3) + x (2 : Fin 3) := by
  refine ⟨?_, ?_, ?_⟩ <;>
  · refine (C116.hks_mulVec _ _ _ _).trans ?_
    rw [C117_sum]
    simp [C117_H0]
    try ring

theorem C117_unit : ∃ a : ℝ, 0 < a ∧ a ^ 2 = 1 / 3 ∧ gridUnit (G := C117_G) (fun _ => 1) = fun _ => a := by
  have hI : (C117_G.integ fun _ => (1 : ℝ) ^ 2) = 3 := by
    unfold Grid.integ
    rw [C117_sum]
    change 2 * (1 / 2) * 1 * 1 * (1 * 1 * 1 ^ 2 + 1 * 1 * 1 ^ 2 + 1 * 1 * 1 ^ 2) = (3 : ℝ)
    norm_num
  refine ⟨1 / (3 : ℝ) ^ (1 / 2 : ℝ), by positivity, ?_, ?_⟩
  · rw [div_pow, ← Real.rpow_natCast ((3 : ℝ) ^ (1 / 2 : ℝ)), ← Real.rpow_mul (by norm_num)]
    norm_num
  · unfold gridUnit
    rw [hI]

/-- Not symmetric, but with real levels: the response is not reciprocal. -/
theorem C117_refuted_response : ∃ chi, (∀ k, ∑ l, C117_H0 k l * 1 + C117_G.w k * 0 * 1 = 0 * C117_G.w k * 1) ∧
    Ground.Balanced C117_H0 (![2, 1, 1] : Fin 3 → ℝ) ∧
    calcResponse C117_s C117_H0 (fun _ => 0) = .ok chi ∧ chi (0 : Fin 3) (2 : Fin 3) = 5 / 9 ∧ chi (2 : Fin 3) (0 : Fin 3) = 2 / 3 := by
  obtain ⟨a, ha, ha2, hu⟩ := C117_unit
  have hneed : needed false (C117_s.N / (orbitalCapacity C117_s.m (C117_s.pol = 2) : ℝ)) = 1 := by
    norm_num [C117_s, needed, orbitalCapacity]
  have hdet : IsUnit (border (hks C117_H0 fun _ => 0) 0 (gridUnit (G := C117_G) fun _ => 1)).det := by
    rw [hu, ← Matrix.isUnit_iff_isUnit_det, ← Matrix.mulVec_injective_iff_isUnit, ← Matrix.coe_mulVecLin, ← LinearMap.ker_eq_bot, LinearMap.ker_eq_bot']
    intro x hx0
    change Matrix.mulVec _ x = 0 at hx0
    obtain ⟨b1, b2⟩ := border_mulVec (hks C117_H0 fun _ => 0) 0 (fun _ : C117_G.Ix => a) x
    obtain ⟨m0, m1, m2⟩ := C117_mul fun k => x (.inl k)
    have e0 := (b1 (0 : Fin 3)).symm.trans (congrFun hx0 (.inl (0 : Fin 3)))
    have e1 := (b1 (1 : Fin 3)).symm.trans (congrFun hx0 (.inl (1 : Fin 3)))
    have e2 := (b1 (2 : Fin 3)).symm.trans (congrFun hx0 (.inl (2 : Fin 3)))
    have e3 := b2.symm.trans (congrFun hx0 (.inr ()))
    rw [C117_sum] at e3
    change -((hks C117_H0 fun _ => 0).mulVec (fun k => x (.inl k)) (0 : Fin 3) - 0 * 1 * x (.inl (0 : Fin 3))) + x (.inr ()) * (1 * a) = 0 at e0
    change -((hks C117_H0 fun _ => 0).mulVec (fun k => x (.inl k)) (1 : Fin 3) - 0 * 1 * x (.inl (1 : Fin 3))) + x (.inr ()) * (1 * a) = 0 at e1
    change -((hks C117_H0 fun _ => 0).mulVec (fun k => x (.inl k)) (2 : Fin 3) - 0 * 1 * x (.inl (2 : Fin 3))) + x (.inr ()) * (1 * a) = 0 at e2
    change 1 * a * x (.inl (0 : Fin 3)) + 1 * a * x (.inl (1 : Fin 3)) + 1 * a * x (.inl (2 : Fin 3)) = 0 at e3
    rw [m0] at e0
    rw [m1] at e1
    rw [m2] at e2
    have hr : x (.inr ()) = 0 := by
      have : x (.inr ()) * a = 0 := by linarith
      exact (mul_eq_zero.1 this).resolve_right ha.ne'
    rw [hr] at e0 e1 e2
    have h3 : x (.inl (0 : Fin 3)) + x (.inl (1 : Fin 3)) + x (.inl (2 : Fin 3)) = 0 := by
      have : a * (x (.inl (0 : Fin 3)) + x (.inl (1 : Fin 3)) + x (.inl (2 : Fin 3))) = 0 := by linarith
      exact (mul_eq_zero.1 this).resolve_left ha.ne'
    funext q
    rcases q with q | q
    · fin_cases q
      · change x (.inl (0 : Fin 3)) = 0; linarith
      · change x (.inl (1 : Fin 3)) = 0; linarith
      · change x (.inl (2 : Fin 3)) = 0; linarith
    · exact hr
  obtain ⟨chi, hchi, hδ, -⟩ := C25_response_partial C117_s (.inl rfl) (by norm_num [C117_s]) C117_H0 (fun _ => 0) [fun _ => 1] rfl [0] rfl (.inl rfl)
    (by rw [hneed]; simp) (by rw [hneed]; simp) (by
      intro j hj
      rw [hneed] at hj
      obtain rfl : j = 0 := by omega
      exact hdet)
  refine ⟨chi, ?_, ?_, hchi, ?_⟩
  · change ∀ k : Fin 3, ∑ l : Fin 3, (!![1, -1, 0; -2, 3, -1; 0, -1, 1] : Matrix (Fin 3) (Fin 3) ℝ) k l * 1 + 1 * 0 * 1 = 0 * 1 * 1
    intro k
    fin_cases k <;> simp [Fin.sum_univ_three] <;> norm_num
  · change ∀ k l : Fin 3, (![2, 1, 1] : Fin 3 → ℝ) k * (!![1, -1, 0; -2, 3, -1; 0, -1, 1] : Matrix (Fin 3) (Fin 3) ℝ) k l = (![2, 1, 1] : Fin 3 → ℝ) l * (!![1, -1, 0; -2, 3, -1; 0, -1, 1] : Matrix (Fin 3) (Fin 3) ℝ) l k
    intro k l
    fin_cases k <;> fin_cases l <;> simp
  have val : ∀ y : C117_G.Fld, ∃ δ : C117_G.Fld, IsOrbitalChange (hks C117_H0 fun _ => 0) 0 (fun _ => a) y δ ∧ ∀ k, chi.mulVec y k = 4 * a * δ k := by
    intro y
    obtain ⟨δ, h1, h2⟩ := hδ y
    set j0 : Fin (needed false (C117_s.N / (orbitalCapacity C117_s.m (C117_s.pol = 2) : ℝ))) := ⟨0, by rw [hneed]; exact one_pos⟩ with hj0
    have hj : ∀ j : Fin (needed false (C117_s.N / (orbitalCapacity C117_s.m (C117_s.pol = 2) : ℝ))), j = j0 := fun j => by
      have := lt_of_lt_of_eq j.2 hneed
      exact Fin.ext (by simp only [hj0]; omega)
    refine ⟨δ j0, ?_, fun k => ?_⟩
    · have := h1 j0
      simpa [hj0, hu] using this
    · rw [h2 k, if_pos (show C117_s.pol = (1 : ℕ) from rfl), Fintype.sum_eq_single j0 fun j h => absurd (hj j) h]
      simp [hj0, hu]
      ring
  have col : ∀ k l : C117_G.Ix, chi k l = chi.mulVec (Pi.single l 1) k := fun k l => by
    rw [Matrix.mulVec_single_one]
    rfl
  constructor
  · obtain ⟨δ, ⟨⟨μ, f1⟩, f2⟩, f3⟩ := val (Pi.single (2 : Fin 3) 1)
    refine (col _ _).trans ((f3 _).trans ?_)
    obtain ⟨m0, m1, m2⟩ := C117_mul δ
    have g0 := f1 (0 : Fin 3)
    have g1 := f1 (1 : Fin 3)
    have g2 := f1 (2 : Fin 3)
    rw [C117_sum] at f2
    change _ - 0 * 1 * δ (0 : Fin 3) = (μ - 0) * (1 * a) at g0
    change _ - 0 * 1 * δ (1 : Fin 3) = (μ - 0) * (1 * a) at g1
    change _ - 0 * 1 * δ (2 : Fin 3) = (μ - 1) * (1 * a) at g2
    change 1 * a * δ (0 : Fin 3) + 1 * a * δ (1 : Fin 3) + 1 * a * δ (2 : Fin 3) = 0 at f2
    rw [m0] at g0
    rw [m1] at g1
    rw [m2] at g2
    have h3 : δ (0 : Fin 3) + δ (1 : Fin 3) + δ (2 : Fin 3) = 0 := by
      have : a * (δ (0 : Fin 3) + δ (1 : Fin 3) + δ (2 : Fin 3)) = 0 := by linarith
      exact (mul_eq_zero.1 this).resolve_left ha.ne'
    have : δ (0 : Fin 3) = 5 / 12 * a := by linarith
    rw [this]
    linear_combination 5 / 3 * ha2
  · obtain ⟨δ, ⟨⟨μ, f1⟩, f2⟩, f3⟩ := val (Pi.single (0 : Fin 3) 1)
    refine (col _ _).trans ((f3 _).trans ?_)
    obtain ⟨m0, m1, m2⟩ := C117_mul δ
    have g0 := f1 (0 : Fin 3)
    have g1 := f1 (1 : Fin 3)
    have g2 := f1 (2 : Fin 3)
    rw [C117_sum] at f2
    change _ - 0 * 1 * δ (0 : Fin 3) = (μ - 1) * (1 * a) at g0
    change _ - 0 * 1 * δ (1 : Fin 3) = (μ - 0) * (1 * a) at g1
    change _ - 0 * 1 * δ (2 : Fin 3) = (μ - 0) * (1 * a) at g2
    change 1 * a * δ (0 : Fin 3) + 1 * a * δ (1 : Fin 3) + 1 * a * δ (2 : Fin 3) = 0 at f2
    rw [m0] at g0
    rw [m1] at g1
    rw [m2] at g2
    have h3 : δ (0 : Fin 3) + δ (1 : Fin 3) + δ (2 : Fin 3) = 0 := by
      have : a * (δ (0 : Fin 3) + δ (1 : Fin 3) + δ (2 : Fin 3)) = 0 := by linarith
      exact (mul_eq_zero.1 this).resolve_left ha.ne'
    have : δ (2 : Fin 3) = 1 / 2 * a := by linarith
    rw [this]
    linear_combination 2 * ha2

end Example

end Verif
