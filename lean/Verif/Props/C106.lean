import Verif.Props.C105

/-!
# C106: how the orbital energy sum depends on the potential

`Spec.GroundEnergy` is a run of `calc_orbitals` and of the energy sum of `calc_energy` in a potential.
-/

namespace Verif
open Spec FD Init Ops Orbitals OrbInv

/-- Two solvers for the same electrons. -/
def Spec.SameElectrons {G : Grid ℝ} (s s' : Solver G) : Prop :=
  s'.m = s.m ∧ s'.pol = s.pol ∧ s'.N = s.N ∧ s'.fractional = s.fractional

/-- Electrons per point (times the volume element `w`, with the weight `d`) in orthonormal orbitals `q` with occupations `g`. -/
def Spec.electronsAt {G : Grid ℝ} {M : ℕ} (d : G.Fld) (q : Fin M → G.Fld) (g : Fin M → ℝ) : G.Fld :=
  fun k => ∑ i, g i * (d k * G.w k * q i k ^ 2)

section
variable {G : Grid ℝ} {H0 : G.Ix → G.Ix → ℝ} {d : G.Fld} {c N : ℝ}

theorem Spec.electronsAt_sum {M : ℕ} {q : Fin M → G.Fld} {g : Fin M → ℝ}
    (hq : ∀ i j, ∑ k, d k * G.w k * (q i k * q j k) = if i = j then 1 else 0) (hg : ∑ i, g i = N) :
    ∑ k, electronsAt d q g k = N := by
  unfold electronsAt
  rw [Finset.sum_comm, ← hg]
  refine Finset.sum_congr rfl fun i _ => ?_
  have := hq i i
  rw [if_pos rfl] at this
  rw [← Finset.mul_sum]
  simp only [sq, this, mul_one]

/-- The energy of a trial set in another potential. -/
theorem Spec.energy_change {M : ℕ} (q : Fin M → G.Fld) (g : Fin M → ℝ) (v v' : G.Fld) :
    ∑ i, g i * ∑ k, d k * q i k * (∑ l, H0 k l * q i l + G.w k * v' k * q i k) =
      ∑ i, g i * ∑ k, d k * q i k * (∑ l, H0 k l * q i l + G.w k * v k * q i k) +
        ∑ k, electronsAt d q g k * (v' k - v k) := by
  have : ∑ k, electronsAt d q g k * (v' k - v k) = ∑ i, g i * ∑ k, d k * G.w k * q i k ^ 2 * (v' k - v k) := by
    unfold electronsAt
    simp only [Finset.sum_mul, Finset.mul_sum]
    rw [Finset.sum_comm]
    exact Finset.sum_congr rfl fun i _ => Finset.sum_congr rfl fun k _ => by ring
  rw [this, ← Finset.sum_add_distrib]
  refine Finset.sum_congr rfl fun i _ => ?_
  rw [← mul_add, ← Finset.sum_add_distrib]
  congr 1
  exact Finset.sum_congr rfl fun k _ => by ring

/-- Trial sets of the smallest energy give upper bounds in other potentials. -/
theorem Spec.least_change {v v' : G.Fld} {E E' : ℝ} {M : ℕ} {q : Fin M → G.Fld} {g : Fin M → ℝ}
    (hq : ∀ i j, ∑ k, d k * G.w k * (q i k * q j k) = if i = j then 1 else 0) (hg : ∀ i, 0 ≤ g i ∧ g i ≤ c)
    (hN : ∑ i, g i = N)
    (hE : E = ∑ i, g i * ∑ k, d k * q i k * (∑ l, H0 k l * q i l + G.w k * v k * q i k))
    (h' : IsLeast (energies H0 v' d c N) E') : E' ≤ E + ∑ k, electronsAt d q g k * (v' k - v k) :=
  h'.2 ⟨M, q, g, hq, hg, hN, by rw [hE, ← energy_change]⟩

theorem Spec.electronsAt_nonneg {M : ℕ} {q : Fin M → G.Fld} {g : Fin M → ℝ} (hd : ∀ k, 0 < d k) (hw : ∀ k, 0 < G.w k)
    (hg : ∀ i, 0 ≤ g i ∧ g i ≤ c) (k : G.Ix) : 0 ≤ electronsAt d q g k :=
  Finset.sum_nonneg fun i _ => mul_nonneg (hg i).1 (mul_nonneg (mul_pos (hd k) (hw k)).le (sq_nonneg _))

end

section
variable {NP NMa NMr : ℕ} {a L : ℝ} {wa : Fin (NC.npts NP NMa) → ℝ} {wr : Fin (NC.npts NP NMr) → ℝ}
  {ds1 ds2 : Fin (2 * 1 + 1) → ℝ}

/-- C106, partial: raising the potential does not lower `eks`, changing it by at most `δ` changes `eks` by at most `δ` per electron,
a constant is added once per electron, and `eks` is concave in the potential.  Missing: stencils wider than three
points, coarse radial grids. -/
theorem C106_potential_partial (ha : 0 < a) (hL : 0 < L) (hf : FineRadial (hr (NC.npts NP NMr) L))
    (hds1 : FDC.Returns (fun i => ((centred 1 i : ℤ) : ℝ)) 1 (.ok ds1))
    (hds2 : FDC.Returns (fun i => ((centred 1 i : ℤ) : ℝ)) 2 (.ok ds2)) (m : ℕ) :
    ∃ R, build (NC.npts NP NMa) (NC.npts NP NMr) 1 a L (centred 1) ds1 ds2 = .ok R ∧
      let G := mkGrid NP NMa NMr a L wa wr
      let H0 : G.Ix → G.Ix → ℝ := Solver.hamiltonian m R.elap R.olap (Init.w _ _ a L) (Init.f _ _ a L)
      ∀ (v v' : G.Fld) s s' E E', s.m = m → SameElectrons s s' → GroundEnergy H0 v s E → GroundEnergy H0 v' s' E' →
        ((∀ k, v k ≤ v' k) → E ≤ E') ∧
        (∀ δ, (∀ k, |v' k - v k| ≤ δ) → |E' - E| ≤ placed s * δ) ∧
        (∀ b, (∀ k, v' k = v k + b) → E' = E + placed s * b) ∧
        ∀ t s'' E'', 0 ≤ t → t ≤ 1 → SameElectrons s s'' →
          GroundEnergy H0 (fun k => (1 - t) * v k + t * v' k) s'' E'' → (1 - t) * E + t * E' ≤ E'' := by
  obtain ⟨R, hR, d, hd, hmin⟩ := C104_minimum_partial (wa := wa) (wr := wr) ha hL hf hds1 hds2 m
  refine ⟨R, hR, ?_⟩
  intro G H0 v v' s s' E E' hm hs hE hE'
  have hw : ∀ k, 0 < G.w k := fun k => Three.w_pos ha hL k
  have least : ∀ (u : G.Fld) (r : Solver G) (F : ℝ), SameElectrons s r → GroundEnergy H0 u r F →
      IsLeast (energies H0 u d (orbitalCapacity m (s.pol = 2)) (placed s)) F := by
    rintro u r F ⟨h1, h2, h3, h4⟩ ⟨hN, hp, hF, e0, n, eigs, p, sym, hb, hn, hpe, hr⟩
    have := hmin u e0 n eigs p sym r F hb hn hpe (h1.trans hm) hp hN hr hF
    have e : placed r = placed s := by unfold placed; rw [h1, h2, h3, h4]
    rwa [e, h2] at this
  have L0 := least v s E ⟨rfl, rfl, rfl, rfl⟩ hE
  have L1 := least v' s' E' hs hE'
  -- the change from one potential to another is between two averages
  have up : ∀ (u u' : G.Fld) (F F' : ℝ), IsLeast (energies H0 u d (orbitalCapacity m (s.pol = 2)) (placed s)) F →
      IsLeast (energies H0 u' d (orbitalCapacity m (s.pol = 2)) (placed s)) F' →
      ∃ ρ : G.Fld, (∀ k, 0 ≤ ρ k) ∧ ∑ k, ρ k = placed s ∧ F' ≤ F + ∑ k, ρ k * (u' k - u k) := by
    intro u u' F F' h h'
    obtain ⟨M, q, g, hq, hg, hN, hF⟩ := h.1
    exact ⟨electronsAt d q g, fun k => electronsAt_nonneg hd hw hg k, electronsAt_sum hq hN, least_change hq hg hN hF h'⟩
  have lip : ∀ (u u' : G.Fld) (F F' : ℝ), IsLeast (energies H0 u d (orbitalCapacity m (s.pol = 2)) (placed s)) F →
      IsLeast (energies H0 u' d (orbitalCapacity m (s.pol = 2)) (placed s)) F' → ∀ δ, (∀ k, u' k - u k ≤ δ) →
      F' ≤ F + placed s * δ := by
    intro u u' F F' h h' δ hδ
    obtain ⟨ρ, h0, h1, h2⟩ := up u u' F F' h h'
    refine h2.trans ?_
    rw [← h1, Finset.sum_mul]
    have := Finset.sum_le_sum fun k (_ : k ∈ Finset.univ) => mul_le_mul_of_nonneg_left (hδ k) (h0 k)
    linarith
  refine ⟨fun h => ?_, fun δ hδ => ?_, fun b hb => ?_, fun t s'' E'' ht0 ht1 hs'' hE'' => ?_⟩
  · have := lip v' v E' E L1 L0 0 fun k => by linarith [h k]
    linarith
  · rw [abs_le]
    have h1 := lip v v' E E' L0 L1 δ fun k => (abs_le.mp (hδ k)).2
    have h2 := lip v' v E' E L1 L0 δ fun k => by linarith [(abs_le.mp (hδ k)).1]
    constructor <;> linarith
  · have h1 := lip v v' E E' L0 L1 b fun k => by rw [hb]; linarith
    have h2 := lip v' v E' E L1 L0 (-b) fun k => by rw [hb]; linarith
    linarith
  · have L2 := least _ s'' E'' hs'' hE''
    obtain ⟨M, q, g, hq, hg, hN, hF⟩ := L2.1
    have h1 := least_change hq hg hN hF L0
    have h2 := least_change hq hg hN hF L1
    have e1 : ∑ k, electronsAt d q g k * (v k - ((1 - t) * v k + t * v' k)) = -t * ∑ k, electronsAt d q g k * (v' k - v k) := by
      rw [Finset.mul_sum]; exact Finset.sum_congr rfl fun k _ => by ring
    have e2 : ∑ k, electronsAt d q g k * (v' k - ((1 - t) * v k + t * v' k)) =
        (1 - t) * ∑ k, electronsAt d q g k * (v' k - v k) := by
      rw [Finset.mul_sum]; exact Finset.sum_congr rfl fun k _ => by ring
    rw [e1] at h1
    rw [e2] at h2
    nlinarith [mul_le_mul_of_nonneg_left h1 (sub_nonneg.mpr ht1), mul_le_mul_of_nonneg_left h2 ht0]

/-- C106, derivative, partial: the electrons in the orbitals of smallest energy, counted with the weight `d` that makes the
Hamiltonian symmetric, are a derivative of `eks`: another potential raises it by at most their sum over the change.  Missing: the density the code
computes has other weights (`C106_refuted`); as in `C106_potential_partial`. -/
theorem C106_derivative_partial (ha : 0 < a) (hL : 0 < L) (hf : FineRadial (hr (NC.npts NP NMr) L))
    (hds1 : FDC.Returns (fun i => ((centred 1 i : ℤ) : ℝ)) 1 (.ok ds1))
    (hds2 : FDC.Returns (fun i => ((centred 1 i : ℤ) : ℝ)) 2 (.ok ds2)) (m : ℕ) :
    ∃ R, build (NC.npts NP NMa) (NC.npts NP NMr) 1 a L (centred 1) ds1 ds2 = .ok R ∧
      let G := mkGrid NP NMa NMr a L wa wr
      let H0 : G.Ix → G.Ix → ℝ := Solver.hamiltonian m R.elap R.olap (Init.w _ _ a L) (Init.f _ _ a L)
      ∃ d : G.Fld, (∀ k, 0 < d k) ∧ ∀ (v : G.Fld) s E, s.m = m → GroundEnergy H0 v s E →
        ∃ (M : ℕ) (q : Fin M → G.Fld) (g : Fin M → ℝ) (ε : Fin M → ℝ),
          (∀ i, SolvesAt H0 v (ε i) (q i)) ∧
          (∀ i j, ∑ k, d k * G.w k * (q i k * q j k) = if i = j then 1 else 0) ∧
          (∀ i, 0 ≤ g i ∧ g i ≤ orbitalCapacity m (s.pol = 2)) ∧ ∑ i, g i = placed s ∧ E = ∑ i, g i * ε i ∧
          ∀ v' s' E', SameElectrons s s' → GroundEnergy H0 v' s' E' →
            E' ≤ E + ∑ k, electronsAt d q g k * (v' k - v k) := by
  obtain ⟨R, hR, d, hd, hmin⟩ := Three.minimum (wa := wa) (wr := wr) ha hL hf hds1 hds2 m
  refine ⟨R, hR, ?_⟩
  intro G H0
  refine ⟨d, hd, fun v s E hm ⟨hN, hp, hF, e0, n, eigs, p, sym, hb, hn, hpe, hr⟩ => ?_⟩
  obtain ⟨⟨q, g, hs, hq, hg, hP, hE, hE2⟩, -⟩ := hmin v e0 n eigs p sym s E hb hn hpe hm hp hN hr hF
  refine ⟨n, q, g, _, hs, hq, hg, hP, hE, ?_⟩
  rintro v' s' E' ⟨h1, h2, h3, h4⟩ ⟨hN', hp', hF', e0', n', eigs', p', sym', hb', hn', hpe', hr'⟩
  have hl := (hmin v' e0' n' eigs' p' sym' s' E' hb' hn' hpe' (h1.trans hm) hp' hN' hr' hF').2
  have e : placed s' = placed s := by unfold placed; rw [h1, h2, h3, h4]
  rw [e, h2] at hl
  exact hl _ ⟨n, q, g, hq, hg, hP, by rw [hE2]; exact (energy_change (G := G) (H0 := H0) q g v v').symm⟩

/-- Weights for which moving a solution costs to first order as much as the derivative says are those that
make the problem symmetric. -/
theorem Three.Nice.weights {ι : Type*} [Fintype ι] [DecidableEq ι] {H : ι → ι → ℝ} {d : ι → ℝ} (h : Three.Nice H d) (q : ι → ℝ)
    (hq : ∀ l, ∑ k ∈ Finset.univ.erase l, q k * H k l = q l * ∑ k ∈ Finset.univ.erase l, H l k) (k l : ι) :
    q k * H k l = q l * H l k := by
  have hd := h.pos
  -- the ratio is harmonic
  have harm : ∀ l, ∑ k, H l k * (q k / d k - q l / d l) = 0 := by
    intro l
    rw [← Finset.sum_erase_add _ _ (Finset.mem_univ l), sub_self, mul_zero, add_zero]
    have h1 := hq l
    have h2 : ∑ k ∈ Finset.univ.erase l, q k * H k l = d l * ∑ k ∈ Finset.univ.erase l, H l k * (q k / d k) := by
      rw [Finset.mul_sum]
      refine Finset.sum_congr rfl fun k _ => ?_
      have := hd k
      have hb := h.bal k l
      field_simp
      linear_combination q k * hb
    rw [h2] at h1
    have h3 : ∑ k ∈ Finset.univ.erase l, H l k * (q k / d k - q l / d l) =
        ∑ k ∈ Finset.univ.erase l, H l k * (q k / d k) - (∑ k ∈ Finset.univ.erase l, H l k) * (q l / d l) := by
      simp only [mul_sub, Finset.sum_sub_distrib, ← Finset.sum_mul]
    have hl := (hd l).ne'
    have h4 : d l * (q l / d l) = q l := mul_div_cancel₀ _ hl
    rw [h3]
    refine (mul_eq_zero.mp ?_).resolve_left hl
    linear_combination h1 - (∑ k ∈ Finset.univ.erase l, H l k) * h4
  have : Nonempty ι := ⟨k⟩
  obtain ⟨b, hb⟩ := Finite.exists_min fun k => q k / d k
  have hconst : ∀ k, q k / d k = q b / d b := by
    by_contra hcon
    push Not at hcon
    obtain ⟨c, hc⟩ := hcon
    have hn := h.potential fun k => -∑ j, H k j
    have := Ground.pos_of_nonneg (w := fun _ => 1) (e := 0) (q := fun k => q k / d k - q b / d b) hn.off
      (fun k l => Relation.ReflTransGen.mono (fun _ _ hab => hab.2) _ _ (hn.conn k l)) (fun k => ?_)
      (fun k => sub_nonneg.mpr (hb k)) ⟨c, sub_ne_zero.mpr hc⟩ b
    · simp at this
    · have := harm k
      simp only [add_mul, Finset.sum_add_distrib, ite_mul, zero_mul, Finset.sum_ite_eq, Finset.mem_univ, if_true]
      simp only [mul_sub, Finset.sum_sub_distrib, ← Finset.sum_mul] at this ⊢
      linear_combination this
  have e : ∀ k, q k = q b / d b * d k := fun k => by rw [← hconst k, div_mul_cancel₀ _ (hd k).ne']
  rw [e k, e l]
  linear_combination (q b / d b) * h.bal k l

theorem Spec.potentialOf_smul {G : Grid ℝ} (H0 : G.Ix → G.Ix → ℝ) {c : ℝ} (hc : c ≠ 0) (φ : G.Fld) :
    potentialOf H0 (fun k => c * φ k) = potentialOf H0 φ := by
  funext k
  unfold potentialOf
  have : ∑ l, H0 k l * (c * φ l) = c * ∑ l, H0 k l * φ l := by
    rw [Finset.mul_sum]; exact Finset.sum_congr rfl fun l _ => by ring
  rw [this, neg_div, neg_div, mul_left_comm, mul_div_mul_left _ _ hc]

/-- Steps outwards and inwards between two radial neighbours differ. -/
theorem Three.upR_ne_dnR {Nr : ℕ} (hL : 0 < L) {i j : Fin Nr} (h : j.1 = i.1 + 1) : upR Nr L i ≠ dnR Nr L j := by
  intro he
  have h0 := hr_pos hL i
  obtain ⟨t, ht⟩ : ∃ t, hr Nr L = 2 * t := ⟨hr Nr L / 2, by ring⟩
  obtain ⟨y, hi⟩ : ∃ y, xr Nr L i = y - t := ⟨xr Nr L i + t, by ring⟩
  have hj : xr Nr L j = y + t := by
    have : xr Nr L j = xr Nr L i + hr Nr L := by rw [xr_eq, xr_eq, hr_eq, h]; push_cast; ring
    rw [this, hi, ht]; ring
  have hp : 0 < t := by linarith
  unfold upR dnR at he
  rw [hi, hj, Real.sinh_sub, Real.cosh_sub, Real.sinh_add, Real.cosh_add, ht] at he
  field_simp at he
  have hc := Real.cosh_pos y
  have h3 : t * Real.cosh t - Real.sinh t = 0 := by
    have : Real.cosh y * (t * Real.cosh t - Real.sinh t) = 0 := by linear_combination (1 / 2) * he
    exact (mul_eq_zero.mp this).resolve_left hc.ne'
  obtain ⟨c, hc, hs⟩ := exists_deriv_eq_slope Real.sinh hp Real.continuous_sinh.continuousOn
    Real.differentiable_sinh.differentiableOn
  rw [Real.deriv_sinh, Real.sinh_zero, sub_zero, sub_zero, eq_div_iff hp.ne'] at hs
  have : Real.cosh c < Real.cosh t := Real.cosh_lt_cosh.mpr (by rw [abs_of_pos hc.1, abs_of_pos hp]; exact hc.2)
  nlinarith

/-- C106 fails for the density of `calc_density`: with positive weights, equal at two radial neighbours, there are two
potentials between which `eks` rises by more than the integral of density times change.  So this density is
not the derivative of `eks`, as it is without a grid. -/
theorem C106_refuted (ha : 0 < a) (hL : 0 < L) (hf : FineRadial (hr (NC.npts NP NMr) L))
    (hds1 : FDC.Returns (fun i => ((centred 1 i : ℤ) : ℝ)) 1 (.ok ds1))
    (hds2 : FDC.Returns (fun i => ((centred 1 i : ℤ) : ℝ)) 2 (.ok ds2)) (m pol : ℕ) (hp : pol = 1 ∨ pol = 2)
    (hwi : ∀ k, 0 < wiFlat wa wr k) {k₁ k₂ : Fin (NC.npts NP NMa * NC.npts NP NMr)} (hia : ia k₁ = ia k₂)
    (hir : (ir k₂).1 = (ir k₁).1 + 1) (heq : wiFlat wa wr k₁ = wiFlat wa wr k₂) :
    ∃ R, build (NC.npts NP NMa) (NC.npts NP NMr) 1 a L (centred 1) ds1 ds2 = .ok R ∧
      let G := mkGrid NP NMa NMr a L wa wr
      let H0 : G.Ix → G.Ix → ℝ := Solver.hamiltonian m R.elap R.olap (Init.w _ _ a L) (Init.f _ _ a L)
      ∃ (v v' n : G.Fld) (s s' : Solver G) (E E' : ℝ), s.m = m ∧ s.pol = pol ∧ SameElectrons s s' ∧
        GroundEnergy H0 v s E ∧ OneOrbital H0 v s n ∧ GroundEnergy H0 v' s' E' ∧
        E + G.integ (fun k => n k * (v' k - v k)) < E' := by
  obtain ⟨R, hR, hrun⟩ := Three.run (wa := wa) (wr := wr) ha hL hf hds1 hds2 m
  obtain ⟨R₁, hR₁, ⟨d, hd⟩, -⟩ := Three.setup (NP := NP) (NMa := NMa) (NMr := NMr) ha hL hf hds1 hds2 m
  obtain ⟨R₂, hR₂, hH⟩ := Three.hamiltonian_entries (Na := NC.npts NP NMa) (Nr := NC.npts NP NMr) (Nat.succ_pos _)
    (Nat.succ_pos _) a hL hds1 hds2
  obtain rfl : R = R₁ := Except.ok.inj (hR.symm.trans hR₁)
  obtain rfl : R = R₂ := Except.ok.inj (hR.symm.trans hR₂)
  refine ⟨R, hR, ?_⟩
  intro G H0
  have hw : ∀ k, 0 < G.w k := fun k => Three.w_pos ha hL k
  have hn : Three.Nice H0 d := by
    have := hd 0
    simpa only [Pi.zero_apply, ite_self, add_zero] using this
  have hne : k₁ ≠ k₂ := fun h => by rw [h] at hir; omega
  -- entries between the two neighbours
  have h12 : H0 k₁ k₂ = -(1 / 2) * (a * (Real.sin (xa _ (ia k₁)) * Three.upR _ L (ir k₁))) := by
    change Solver.hamiltonian m R.elap R.olap _ _ _ _ = _
    rw [hH, if_neg hne, add_zero]
    unfold Three.lap Three.both
    rw [if_neg (fun h => by rw [h] at hir; omega), if_pos hia,
      Three.mat_off (fun h => by rw [h] at hir; omega), if_pos hir, if_neg (by omega)]
    ring
  have h21 : H0 k₂ k₁ = -(1 / 2) * (a * (Real.sin (xa _ (ia k₁)) * Three.dnR _ L (ir k₂))) := by
    change Solver.hamiltonian m R.elap R.olap _ _ _ _ = _
    rw [hH, if_neg hne.symm, add_zero]
    unfold Three.lap Three.both
    rw [if_neg (fun h => by rw [h] at hir; omega), if_pos hia.symm,
      Three.mat_off (fun h => by rw [h] at hir; omega), if_pos hir, if_neg (by omega), hia]
    ring
  -- a point where the weights do not balance
  obtain ⟨l, hl⟩ : ∃ l, ∑ k ∈ Finset.univ.erase l, G.wi k * H0 k l ≠ G.wi l * ∑ k ∈ Finset.univ.erase l, H0 l k := by
    by_contra hcon
    push Not at hcon
    have := hn.weights G.wi hcon k₁ k₂
    rw [show G.wi k₁ = G.wi k₂ from heq] at this
    have := mul_left_cancel₀ (hwi k₂).ne' this
    rw [h12, h21] at this
    have hs : 0 < Real.sin (xa (NC.npts NP NMa) (ia k₁)) := Real.sin_pos_of_pos_of_lt_pi (xa_pos _) (xa_lt_pi _)
    have h1 := mul_left_cancel₀ (by norm_num : (-(1 / 2) : ℝ) ≠ 0) this
    exact Three.upR_ne_dnR hL hir (mul_left_cancel₀ hs.ne' (mul_left_cancel₀ ha.ne' h1))
  obtain ⟨A, hA⟩ : ∃ A, A = ∑ k ∈ Finset.univ.erase l, G.wi k * H0 k l := ⟨_, rfl⟩
  obtain ⟨B, hB⟩ : ∃ B, B = G.wi l * ∑ k ∈ Finset.univ.erase l, H0 l k := ⟨_, rfl⟩
  rw [← hA, ← hB] at hl
  obtain ⟨c, hc, hlc⟩ : ∃ c, l ≠ c ∧ H0 l c < 0 := by
    obtain ⟨o, ho⟩ : ∃ o, l ≠ o := by
      by_cases h : l = k₁
      · exact ⟨k₂, h ▸ hne⟩
      · exact ⟨k₁, h⟩
    rcases Relation.ReflTransGen.cases_head (hn.conn l o) with h | ⟨c, hc, -⟩
    · exact absurd h ho
    · exact ⟨c, hc⟩
  have hcl : H0 c l < 0 := by
    have h1 := hn.bal l c
    have h2 := hn.pos l
    have h3 := hn.pos c
    by_contra hcon
    nlinarith [mul_nonneg h3.le (not_lt.mp hcon), mul_neg_of_pos_of_neg h2 hlc]
  have hA1 : A < 0 := hA ▸ Finset.sum_neg' (fun k hk =>
    mul_nonpos_of_nonneg_of_nonpos (hwi k).le (hn.off _ _ (Finset.ne_of_mem_erase hk)))
    ⟨c, Finset.mem_erase.mpr ⟨hc.symm, Finset.mem_univ _⟩, mul_neg_of_pos_of_neg (hwi c) hcl⟩
  have hB1 : B < 0 := hB ▸ mul_neg_of_pos_of_neg (hwi l) (Finset.sum_neg'
    (fun k hk => hn.off _ _ (Finset.ne_of_mem_erase hk).symm) ⟨c, Finset.mem_erase.mpr ⟨hc.symm, Finset.mem_univ _⟩, hlc⟩)
  -- the two orbitals
  obtain ⟨t, ht⟩ : ∃ t, t = (B - A) / (2 * A) := ⟨_, rfl⟩
  have ht1 : 1 + t = (A + B) / (2 * A) := by
    have := hA1.ne
    rw [ht]; field_simp; ring
  have ht0 : 0 < 1 + t := by rw [ht1]; exact div_pos_of_neg_of_neg (by linarith) (by linarith)
  let χ : G.Fld := fun k => if k = l then 1 + t else 1
  have hχ : ∀ k, 0 < χ k := fun k => by
    change 0 < if k = l then 1 + t else 1
    split
    · exact ht0
    · exact one_pos
  have hpre : 0 < 2 * G.pi * G.hr * G.ha :=
    mul_pos (mul_pos (mul_pos two_pos Real.pi_pos) (Three.hr_pos hL (ir k₁))) (Three.ha_pos (ia k₁))
  have hint : ∀ f : G.Fld, (∀ k, 0 < f k) → 0 < G.integ f := fun f hf =>
    mul_pos hpre (Finset.sum_pos (fun k _ => mul_pos (mul_pos (hwi k) (hw k)) (hf k)) ⟨l, Finset.mem_univ _⟩)
  have hcap : (0 : ℝ) < orbitalCapacity m (pol = 2) := by
    rcases hp with h | h <;> rw [h] <;> unfold orbitalCapacity <;> split <;> norm_num
  have hlin : ∀ (c : ℝ) (f : G.Fld), G.integ (fun k => c * f k) = c * G.integ f := fun c f => by
    simp only [Grid.integ, Finset.mul_sum]
    exact Finset.sum_congr rfl fun k _ => by ring
  have run : ∀ φ : G.Fld, (∀ k, 0 < φ k) → ∃ (s : Solver G) (g : ℝ), 0 < g ∧ s.m = m ∧ s.pol = pol ∧
      s.N = orbitalCapacity m (pol = 2) ∧ s.fractional = true ∧ OneOrbital H0 (potentialOf H0 φ) s (fun k => g * φ k ^ 2) ∧
      GroundEnergy H0 (potentialOf H0 φ) s 0 := by
    intro φ hφ
    have hI := hint (fun k => φ k ^ 2) fun k => pow_pos (hφ k) 2
    obtain ⟨g, hg⟩ : ∃ g, g = (orbitalCapacity m (pol = 2) : ℝ) / G.integ fun k => φ k ^ 2 := ⟨_, rfl⟩
    have hg0 : 0 < g := hg ▸ div_pos hcap hI
    have hIg : G.integ (fun k => g * φ k ^ 2) = orbitalCapacity m (pol = 2) := by
      rw [hlin, hg, div_mul_cancel₀ _ hI.ne']
    obtain ⟨s, h1, h2, h3, h4, -, h5, h6⟩ := hrun (fun k => g * φ k ^ 2) pol true (fun k => mul_pos hg0 (pow_pos (hφ k) 2)) hp
      (by rw [hIg]; exact hcap) (.inl hIg)
    have hpot : (potentialOf H0 fun k => Real.sqrt (g * φ k ^ 2)) = potentialOf H0 φ := by
      rw [← potentialOf_smul H0 (Real.sqrt_pos.mpr hg0).ne' φ]
      congr 1
      funext k
      rw [Real.sqrt_mul hg0.le, Real.sqrt_sq (hφ k).le]
    refine ⟨s, g, hg0, h1, h2, h3.trans hIg, h4, ?_, ?_⟩
    · rw [← hpot]; exact h5
    · rw [← hpot]; exact h6
  obtain ⟨s, g, hg, hs1, hs2, hs3, hs4, hs5, hs6⟩ := run (fun _ => 1) fun _ => one_pos
  obtain ⟨s', g', hg', hs1', hs2', hs3', hs4', -, hs6'⟩ := run χ hχ
  refine ⟨_, _, _, s, s', 0, 0, hs1, hs2, ⟨hs1'.trans hs1.symm, hs2'.trans hs2.symm, hs3'.trans hs3.symm, hs4'.trans hs4.symm⟩,
    hs6, hs5, hs6', ?_⟩
  -- the change of the potential
  have hrow : ∀ k, ∑ j, H0 k j * χ j = ∑ j, H0 k j + t * H0 k l := by
    intro k
    have : ∀ j, H0 k j * χ j = H0 k j + if j = l then t * H0 k l else 0 := by
      intro j
      change H0 k j * (if j = l then 1 + t else 1) = _
      split
      · next h => rw [h]; ring
      · ring
    simp only [this, Finset.sum_add_distrib, Finset.sum_ite_eq', Finset.mem_univ, if_true]
  have hoff : ∀ k, k ≠ l → G.w k * (potentialOf H0 χ k - potentialOf H0 (fun _ => 1) k) = -(t * H0 k l) := by
    intro k hk
    have hχk : χ k = 1 := if_neg hk
    have := (hw k).ne'
    unfold potentialOf
    rw [hrow, hχk]
    simp only [mul_one]
    field_simp
    ring
  have hon : G.w l * (potentialOf H0 χ l - potentialOf H0 (fun _ => 1) l) = t * (∑ k ∈ Finset.univ.erase l, H0 l k) / (1 + t) := by
    have hχk : χ l = 1 + t := if_pos rfl
    have := (hw l).ne'
    have h2 := ht0.ne'
    unfold potentialOf
    rw [hrow, hχk, ← Finset.sum_erase_add _ _ (Finset.mem_univ l)]
    simp only [mul_one]
    rw [← Finset.sum_erase_add _ _ (Finset.mem_univ l)]
    field_simp
    ring
  have hval : G.integ (fun k => g * (1 : ℝ) ^ 2 * (potentialOf H0 χ k - potentialOf H0 (fun _ => 1) k)) =
      2 * G.pi * G.hr * G.ha * g * ((B - A) ^ 2 / (2 * (A + B))) := by
    have h1 : ∑ k, G.wi k * (G.w k * (potentialOf H0 χ k - potentialOf H0 (fun _ => 1) k)) = (B - A) ^ 2 / (2 * (A + B)) := by
      rw [← Finset.sum_erase_add _ _ (Finset.mem_univ l), hon]
      have : ∑ k ∈ Finset.univ.erase l, G.wi k * (G.w k * (potentialOf H0 χ k - potentialOf H0 (fun _ => 1) k)) = -(t * A) := by
        rw [hA, Finset.mul_sum, ← Finset.sum_neg_distrib]
        refine Finset.sum_congr rfl fun k hk => ?_
        rw [hoff k (Finset.ne_of_mem_erase hk)]; ring
      rw [this, show G.wi l * (t * (∑ k ∈ Finset.univ.erase l, H0 l k) / (1 + t)) = t * B / (1 + t) by rw [hB]; ring, ht1, ht]
      have := hA1.ne
      have : A + B ≠ 0 := by linarith
      field_simp
      ring
    rw [← h1]
    simp only [Grid.integ, Finset.mul_sum]
    exact Finset.sum_congr rfl fun k _ => by ring
  rw [hval, zero_add]
  exact mul_neg_of_pos_of_neg (mul_pos hpre hg) (div_neg_of_pos_of_neg (by
    rw [sq]; exact lt_of_le_of_ne (mul_self_nonneg _) fun h => hl (by
      have := mul_self_eq_zero.mp h.symm
      linarith)) (by linarith))

/-- Weights 1 on three by five points: the density of two electrons is not
the derivative of `eks`. -/
example : ∃ R, build (NC.npts 3 1) (NC.npts 3 2) 1 1 5 (centred 1) (![-1/2, 0, 1/2] : Fin (2 * 1 + 1) → ℝ) ![1, -2, 1] = .ok R ∧
    let G := mkGrid 3 1 2 1 5 (fun _ => 1) (fun _ => 1)
    let H0 : G.Ix → G.Ix → ℝ := Solver.hamiltonian 0 R.elap R.olap (Init.w _ _ 1 5) (Init.f _ _ 1 5)
    ∃ (v v' n : G.Fld) (s s' : Solver G) (E E' : ℝ), SameElectrons s s' ∧ GroundEnergy H0 v s E ∧ OneOrbital H0 v s n ∧
      GroundEnergy H0 v' s' E' ∧ E + G.integ (fun k => n k * (v' k - v k)) < E' ∧
      ∀ δ, (∀ k, |v' k - v k| ≤ δ) → |E' - E| ≤ placed s * δ := by
  have hf : FineRadial (hr (NC.npts 3 2) 5) :=
    fineRadial_of_le (by rw [hr_eq]; norm_num [NC.npts]) (by rw [hr_eq]; norm_num [NC.npts])
  obtain ⟨R, hR, h1⟩ := C106_potential_partial (NP := 3) (NMa := 1) (NMr := 2) (a := 1) (L := 5) (wa := fun _ => 1)
    (wr := fun _ => 1) (by norm_num) (by norm_num) hf FD.three_point FD.three_point2 0
  obtain ⟨R', hR', h2⟩ := C106_refuted (NP := 3) (NMa := 1) (NMr := 2) (a := 1) (L := 5) (wa := fun _ => 1)
    (wr := fun _ => 1) (by norm_num) (by norm_num) hf FD.three_point FD.three_point2 0 1 (.inl rfl) (fun k => by simp [wiFlat])
    (k₁ := ⟨0, by decide⟩) (k₂ := ⟨3, by decide⟩) (by decide) (by decide) (by simp [wiFlat])
  obtain rfl : R = R' := Except.ok.inj (hR.symm.trans hR')
  refine ⟨R, hR, ?_⟩
  intro G H0
  obtain ⟨v, v', n, s, s', E, E', hm, -, hs, hE, hO, hE', hlt⟩ := h2
  exact ⟨v, v', n, s, s', E, E', hs, hE, hO, hE', hlt, (h1 v v' s s' E E' hm hs hE hE').2.1⟩

end
end Verif
