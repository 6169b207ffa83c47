import Verif.Props.C18_C22
import Verif.Props.C14
import Verif.Model.Orbitals
import Mathlib.LinearAlgebra.Matrix.ToLin

/-!
# C25-C27: density response, Hamiltonian, kinetic energy density
-/

namespace Verif
open Spec Solver SolverR Orbitals

section
variable {G : Grid ℝ}

/-- First-order change `δ` of the orbital `p` (energy `e`, Hamiltonian `H`, volume element `w`) when
the potential changes by `v`: `(H - e w) δ = (μ - v) w p` with `δ` orthogonal to `p`. -/
def Spec.IsOrbitalChange (H : Matrix G.Ix G.Ix ℝ) (e : ℝ) (p v δ : G.Fld) : Prop :=
  (∃ μ : ℝ, ∀ k, H.mulVec δ k - e * G.w k * δ k = (μ - v k) * (G.w k * p k)) ∧
    ∑ k, G.w k * p k * δ k = 0

theorem SolverR.diag_mulVec {n : ℕ} (d v : Fin n → ℝ) (k : Fin n) :
    (Ops.diag d).mulVec v k = d k * v k := by
  unfold Matrix.mulVec dotProduct
  exact Ops.sum_diag d v k

/-- The bordered system, equation by equation. -/
theorem SolverR.border_mulVec (H : Matrix G.Ix G.Ix ℝ) (e : ℝ) (p : G.Fld) (x : G.Ix ⊕ Unit → ℝ) :
    (∀ k, (border H e p).mulVec x (.inl k) = -(H.mulVec (fun k => x (.inl k)) k - e * G.w k * x (.inl k)) +
      x (.inr ()) * (G.w k * p k)) ∧
    (border H e p).mulVec x (.inr ()) = ∑ k, G.w k * p k * x (.inl k) := by
  have hd : ∀ k, (Ops.diag G.w).mulVec (fun k => x (.inl k)) k = G.w k * x (.inl k) := fun k =>
    diag_mulVec _ _ _
  refine ⟨fun k => ?_, ?_⟩
  · change ∑ q, border H e p (.inl k) q * x q = _
    refine (Fintype.sum_sum_type _).trans ?_
    change (∑ j, -(H k j - e * Ops.diag G.w k j) * x (.inl j)) + ∑ u : Unit, G.w k * p k * x (.inr u) = _
    have h1 : ∑ j, -(H k j - e * Ops.diag G.w k j) * x (.inl j) =
        -(∑ j, H k j * x (.inl j) - e * ∑ j, Ops.diag G.w k j * x (.inl j)) := by
      rw [Finset.mul_sum, ← Finset.sum_sub_distrib, ← Finset.sum_neg_distrib]
      exact Finset.sum_congr rfl fun j _ => by ring
    have h2 : ∑ j, Ops.diag G.w k j * x (.inl j) = G.w k * x (.inl k) := hd k
    rw [h1, h2, Fintype.sum_unique (fun u : Unit => G.w k * p k * x (.inr u))]
    change -(H.mulVec _ k - _) + G.w k * p k * x (.inr ()) = _
    ring
  · change ∑ q, border H e p (.inr ()) q * x q = _
    refine (Fintype.sum_sum_type _).trans ?_
    change (∑ k, G.w k * p k * x (.inl k)) + ∑ u : Unit, 0 * x (.inr u) = _
    simp

theorem SolverR.responseRhs_mulVec (p v : G.Fld) :
    (∀ k, (responseRhs p).mulVec v (.inl k) = G.w k * p k * v k) ∧
    (responseRhs p).mulVec v (.inr ()) = 0 := by
  refine ⟨fun k => ?_, ?_⟩
  · exact diag_mulVec (fun k => G.w k * p k) v k
  · simp [responseRhs, Matrix.mulVec, dotProduct]

/-- The response matrix of one orbital applied to a potential. -/
theorem SolverR.orbitalResponse_spec (H : Matrix G.Ix G.Ix ℝ) (e : ℝ) (p : G.Fld)
    (hdet : IsUnit (border H e p).det) (v : G.Fld) :
    ∃ δ, IsOrbitalChange H e p v δ ∧ (∀ k, (orbitalResponse H e p).mulVec v k = 2 * p k * δ k) ∧
      ∀ δ', IsOrbitalChange H e p v δ' → δ' = δ := by
  set x := (border H e p)⁻¹.mulVec ((responseRhs p).mulVec v) with hx
  have hsol : (border H e p).mulVec x = (responseRhs p).mulVec v := by
    rw [hx, Matrix.mulVec_mulVec, Matrix.mul_nonsing_inv _ hdet, Matrix.one_mulVec]
  obtain ⟨b1, b2⟩ := border_mulVec H e p x
  obtain ⟨r1, r2⟩ := responseRhs_mulVec p v
  refine ⟨fun k => x (.inl k), ⟨⟨x (.inr ()), fun k => ?_⟩, ?_⟩, fun k => ?_, fun δ' hδ' => ?_⟩
  · have := (b1 k).symm.trans ((congrFun hsol (.inl k)).trans (r1 k))
    linear_combination -this
  · exact b2.symm.trans ((congrFun hsol (.inr ())).trans r2)
  · unfold orbitalResponse
    rw [Matrix.smul_mulVec, ← Matrix.mulVec_mulVec]
    change 2 * ((Ops.diag p).mulVec _ k) = _
    rw [diag_mulVec]
    have : (((border H e p)⁻¹ * responseRhs p).submatrix Sum.inl id).mulVec v k = x (.inl k) := by
      rw [hx, Matrix.mulVec_mulVec]; rfl
    rw [this]; ring
  · obtain ⟨⟨μ, h1⟩, h2⟩ := hδ'
    set y : G.Ix ⊕ Unit → ℝ := Sum.elim δ' fun _ => μ with hy
    obtain ⟨c1, c2⟩ := border_mulVec H e p y
    have hyx : (border H e p).mulVec y = (border H e p).mulVec x := by
      rw [hsol]
      funext q
      rcases q with k | q
      · rw [c1, r1]
        change -(H.mulVec δ' k - e * G.w k * δ' k) + μ * (G.w k * p k) = _
        rw [h1]; ring
      · rw [c2, r2]; exact h2
    have hinj := Matrix.mulVec_injective_iff_isUnit.mpr ((Matrix.isUnit_iff_isUnit_det _).mpr hdet)
    have := hinj hyx
    funext k
    exact congrFun this (.inl k)

theorem Solver.foldlM_two {α β γ : Type} (l : List α) (e : List β) (f : α → β → γ) [AddCommMonoid γ] (n : ℕ)
    (h1 : n ≤ l.length) (h2 : n ≤ e.length) (b : γ) :
    (List.range n).foldlM (fun (acc : γ) (i : ℕ) => do
      let p ← pyGet l (i : ℤ)
      let q ← pyGet e (i : ℤ)
      pure (acc + f p q)) b =
      (.ok (b + ∑ j : Fin n, f (l[j.1]'(by omega)) (e[j.1]'(by omega))) : Py γ) := by
  induction n with
  | zero => simp [pure, Except.pure]
  | succ n ih =>
    rw [List.range_succ, List.foldlM_append, ih (by omega) (by omega)]
    simp only [List.foldlM_cons, List.foldlM_nil]
    rw [pyGet_ofNat l n (by omega), pyGet_ofNat e n (by omega), Fin.sum_univ_castSucc]
    rw [← add_assoc]
    rfl

/-- C25, partial: with whole filled orbitals and non-singular bordered systems `calc_response`
returns a matrix that maps `v` to `r ∑ 2 φⱼ δⱼ`, `δⱼ` the first-order change of the normalised
occupied orbital `φⱼ`; constants go to zero, the result is orthogonal to the volume weights; `r` is
the orbital capacity for `m = 0`.
Missing: `m > 0`, where `r` is half the capacity (`C25_refuted`), and fractional occupation, which
fails (`C25_fractional`). -/
theorem C25_response_partial (s : Solver G) (hp : s.pol = 1 ∨ s.pol = 2) (hN : 0 ≤ s.N)
    (H0 : Matrix G.Ix G.Ix ℝ) (veff : G.Fld)
    (l : List G.Fld) (hl : s.phi = some l) (e : List ℝ) (he : s.eig = some e) :
    let g : ℝ := (orbitalCapacity s.m (s.pol = 2) : ℝ)
    let H := hks H0 veff
    let r : ℝ := if s.pol = 1 then 2 else 1
    (s.fractional = false ∨ s.N / g = ⌊s.N / g⌋) →
    ∀ (h1 : needed false (s.N / g) ≤ l.length) (h2 : needed false (s.N / g) ≤ e.length),
    (∀ j (hj : j < needed false (s.N / g)), IsUnit (border H e[j] (gridUnit l[j])).det) →
    ∃ chi, calcResponse s H0 veff = .ok chi ∧
      (∀ v, ∃ δ : Fin (needed false (s.N / g)) → G.Fld,
        (∀ j, IsOrbitalChange H e[j.1] (gridUnit l[j.1]) v (δ j)) ∧
        ∀ k, chi.mulVec v k = r * ∑ j, (2 : ℝ) * gridUnit l[j.1] k * δ j k) ∧
      (∀ c : ℝ, chi.mulVec (fun _ => c) = 0) ∧
      (∀ v, ∑ k, G.w k * chi.mulVec v k = 0) ∧
      (s.m = 0 → r = g) ∧ (s.m ≠ 0 → r = g / 2) := by
  intro g H r hfr h1 h2 hdet
  have hg : s.scale = g := scale_eq s hp
  set n := needed false (s.N / g) with hn
  set chi0 : Matrix G.Ix G.Ix ℝ := ∑ j : Fin n, orbitalResponse H e[j.1] (gridUnit l[j.1]) with hchi0
  have hok : calcResponse s H0 veff = .ok (r • chi0) := by
    unfold calcResponse
    rw [occupation_eq, hg]
    simp only [pyRange, orb, eigAt, hl, he]
    have key := foldlM_two l e (fun p q => orbitalResponse H q (gridUnit p)) n h1 h2 0
    have hfl : ⌊s.N / g⌋.toNat = n := by simp [hn, needed]
    rw [hfl, key]
    simp only [bind, Except.bind, zero_add]
    rw [if_neg]
    · simp only [r]
      split
      · rfl
      · rw [one_smul]; rfl
    · rintro ⟨hf, hnu⟩
      rcases hfr with h | h
      · rw [h] at hf; cases hf
      · exact hnu (sub_eq_zero.mpr h)
  have hsum : ∀ v k, chi0.mulVec v k = ∑ j : Fin n, (orbitalResponse H e[j.1] (gridUnit l[j.1])).mulVec v k := by
    intro v k
    rw [hchi0, Matrix.sum_mulVec, Finset.sum_apply]
  have hspec : ∀ v, ∃ δ : Fin n → G.Fld,
        (∀ j, IsOrbitalChange H e[j.1] (gridUnit l[j.1]) v (δ j)) ∧
        ∀ k, (r • chi0).mulVec v k = r * ∑ j, (2 : ℝ) * gridUnit l[j.1] k * δ j k := by
    intro v
    choose δ hδ hδ2 _ using fun j : Fin n => orbitalResponse_spec H e[j.1] (gridUnit l[j.1]) (hdet j.1 j.2) v
    refine ⟨δ, hδ, fun k => ?_⟩
    rw [Matrix.smul_mulVec]
    change r * chi0.mulVec v k = _
    rw [hsum]
    congr 1
    exact Finset.sum_congr rfl fun j _ => hδ2 j k
  refine ⟨_, hok, hspec, fun c => ?_, fun v => ?_, fun hm => ?_, fun hm => ?_⟩
  · funext k
    rw [Matrix.smul_mulVec]
    change r * chi0.mulVec _ k = 0
    rw [hsum]
    rw [Finset.sum_eq_zero, mul_zero]
    intro j _
    obtain ⟨δ, -, hδ2, hδ3⟩ := orbitalResponse_spec H e[j.1] (gridUnit l[j.1]) (hdet j.1 j.2) (fun _ => c)
    have : (0 : G.Fld) = δ := hδ3 0 ⟨⟨c, fun k => by simp⟩, by simp⟩
    rw [hδ2, ← this]; simp
  · obtain ⟨δ, hδ, hδ2⟩ := hspec v
    have : ∀ k, G.w k * (r • chi0).mulVec v k =
        ∑ j, 2 * r * (G.w k * gridUnit l[j.1] k * δ j k) := by
      intro k
      rw [hδ2, Finset.mul_sum, Finset.mul_sum]
      exact Finset.sum_congr rfl fun j _ => by ring
    rw [Finset.sum_congr rfl fun k _ => this k, Finset.sum_comm]
    refine Finset.sum_eq_zero fun j _ => ?_
    rw [← Finset.mul_sum, (hδ j).2, mul_zero]
  · simp only [r, g, orbitalCapacity, hm]
    rcases hp with h | h <;> simp [h]
  · simp only [r, g, orbitalCapacity, hm]
    rcases hp with h | h <;> norm_num [h]

/-- C25 with a fractionally occupied orbital: always `IndexError`. -/
theorem C25_fractional (s : Solver G) (hN : 0 ≤ s.N) (H0 : Matrix G.Ix G.Ix ℝ) (veff : G.Fld)
    (l : List G.Fld) (hl : s.phi = some l) (e : List ℝ) (he : s.eig = some e) (hf : s.fractional = true)
    (hlen : needed false (s.N / s.scale) ≤ l.length) (hlen' : needed false (s.N / s.scale) ≤ e.length)
    (hnu : s.N / s.scale ≠ ⌊s.N / s.scale⌋) :
    calcResponse s H0 veff = .error .indexError := by
  unfold calcResponse
  rw [occupation_eq]
  simp only [pyRange, orb, eigAt, hl, he]
  have key := foldlM_two l e (fun p q => orbitalResponse (hks H0 veff) q (gridUnit p))
    (needed false (s.N / s.scale)) hlen hlen' 0
  have hfl : ⌊s.N / s.scale⌋.toNat = needed false (s.N / s.scale) := by simp [needed]
  rw [hfl, key]
  simp only [bind, Except.bind]
  rw [if_pos ⟨hf, sub_ne_zero.mpr hnu⟩]

/-- C25 is false for `m > 0`: on a two-point grid, one filled `m = 1` orbital (four electrons,
unpolarised) responds with factor 2; `calc_density` counts it with factor 4. -/
theorem C25_refuted : ∃ (s : Solver (Grid.tiny ℝ)) (H0 : Matrix (Fin 2) (Fin 2) ℝ)
    (p δ v : (Grid.tiny ℝ).Fld) (chi : Matrix (Fin 2) (Fin 2) ℝ),
    s.phi = some [p] ∧ s.eig = some [-1] ∧ calcResponse s H0 (fun _ => 0) = .ok chi ∧
      IsOrbitalChange (hks H0 fun _ => 0) (-1) (gridUnit p) v δ ∧
      s.calcDensity = .ok (fun k => 4 * (p k ^ 2 / (Grid.tiny ℝ).integ fun k => p k ^ 2)) ∧
      chi.mulVec v 0 = 2 * (2 * gridUnit p 0 * δ 0) ∧
      chi.mulVec v 0 ≠ 4 * (2 * gridUnit p 0 * δ 0) := by
  set s : Solver (Grid.tiny ℝ) := ⟨1, 4, 1, 1, false, false, some [fun _ => 1], some [-1], none⟩ with hs
  set H0 : Matrix (Fin 2) (Fin 2) ℝ := !![0, -1; -1, 0] with hH0
  set u : (Grid.tiny ℝ).Fld := gridUnit (fun _ => 1) with hu
  set a : ℝ := 1 / (2 : ℝ) ^ (1 / 2 : ℝ) with ha
  have ha0 : 0 < a := by rw [ha]; positivity
  have hua : ∀ k, u k = a := by
    intro k
    simp only [hu, gridUnit, Grid.tiny_integ, ha]
    norm_num
  have hHm : ∀ (x : (Grid.tiny ℝ).Fld), (hks (G := Grid.tiny ℝ) H0 fun _ => 0).mulVec x 0 = -x 1 ∧
      (hks (G := Grid.tiny ℝ) H0 fun _ => 0).mulVec x 1 = -x 0 := by
    intro x
    constructor <;> simp [hks, Matrix.mulVec, dotProduct, Ops.diag, Grid.tiny_sum, hH0]
  have hdet : IsUnit (border (G := Grid.tiny ℝ) (hks H0 fun _ => 0) (-1) u).det := by
    rw [← Matrix.isUnit_iff_isUnit_det, ← Matrix.mulVec_injective_iff_isUnit]
    rw [← Matrix.coe_mulVecLin, ← LinearMap.ker_eq_bot, LinearMap.ker_eq_bot']
    intro x hx
    change Matrix.mulVec _ x = 0 at hx
    obtain ⟨b1, b2⟩ := border_mulVec (G := Grid.tiny ℝ) (hks H0 fun _ => 0) (-1) u x
    have e0 := (b1 0).symm.trans (congrFun hx (.inl 0))
    have e1 := (b1 1).symm.trans (congrFun hx (.inl 1))
    have e2 := b2.symm.trans (congrFun hx (.inr ()))
    rw [Grid.tiny_sum] at e2
    simp only [hua, (hHm _).1, (hHm _).2, Pi.zero_apply, one_mul] at e0 e1 e2
    have h01 : x (.inl 1) = -x (.inl 0) := by
      have : a * (x (.inl 0) + x (.inl 1)) = 0 := by linarith
      rcases mul_eq_zero.mp this with h | h
      · exact absurd h ha0.ne'
      · linarith
    rw [h01] at e0 e1
    have hx0 : x (.inl 0) = 0 := by linarith
    have hxr : x (.inr ()) = 0 := by
      have : x (.inr ()) * a = 0 := by linarith
      rcases mul_eq_zero.mp this with h | h
      · exact h
      · exact absurd h ha0.ne'
    funext q
    rcases q with q | q
    · fin_cases q
      · exact hx0
      · change x (.inl 1) = 0
        rw [h01, hx0, neg_zero]
    · exact hxr
  have hneed : needed false ((4 : ℝ) / (orbitalCapacity 1 false : ℝ)) = 1 := by
    norm_num [needed, orbitalCapacity]
  obtain ⟨chi, hchi, hspec, -⟩ := C25_response_partial s (.inl rfl) (by norm_num [hs]) H0 (fun _ => 0)
    [fun _ => 1] rfl [-1] rfl (.inl rfl) (by simpa [hs] using hneed.le) (by simpa [hs] using hneed.le)
    (by
      intro j hj
      have hj' : j < 1 := by
        have : needed false ((4 : ℝ) / (orbitalCapacity 1 false : ℝ)) = 1 := hneed
        simpa [hs, this] using hj
      have : j = 0 := by omega
      subst this
      exact hdet)
  set v : (Grid.tiny ℝ).Fld := ![1, -1] with hv
  set δ : (Grid.tiny ℝ).Fld := ![-(a / 2), a / 2] with hδ
  have hchange : IsOrbitalChange (G := Grid.tiny ℝ) (hks H0 fun _ => 0) (-1) u v δ := by
    refine ⟨⟨0, fun k => ?_⟩, ?_⟩
    · fin_cases k
      · change (hks (G := Grid.tiny ℝ) H0 fun _ => 0).mulVec δ 0 - -1 * 1 * δ 0 = (0 - v 0) * (1 * u 0)
        rw [(hHm δ).1, hua]; simp [hδ, hv]; ring
      · change (hks (G := Grid.tiny ℝ) H0 fun _ => 0).mulVec δ 1 - -1 * 1 * δ 1 = (0 - v 1) * (1 * u 1)
        rw [(hHm δ).2, hua]; simp [hδ, hv]
    · rw [Grid.tiny_sum, hua, hua]; simp [hδ]
  have hval : chi.mulVec v 0 = 2 * (2 * u 0 * δ 0) := by
    obtain ⟨δ', hδ', hk⟩ := hspec v
    rw [hk 0]
    have hn1 : needed false (s.N / (orbitalCapacity s.m (decide (s.pol = 2)) : ℝ)) = 1 := by
      simpa [hs] using hneed
    rw [Finset.sum_eq_single (⟨0, by rw [hn1]; exact Nat.one_pos⟩ :
      Fin (needed false (s.N / (orbitalCapacity s.m (decide (s.pol = 2)) : ℝ))))]
    · obtain ⟨δ0, -, -, huniq⟩ := orbitalResponse_spec (G := Grid.tiny ℝ) (hks H0 fun _ => 0) (-1) u hdet v
      have e1 : δ' ⟨0, by rw [hn1]; exact Nat.one_pos⟩ = δ :=
        (huniq _ (hδ' ⟨0, by rw [hn1]; exact Nat.one_pos⟩)).trans (huniq _ hchange).symm
      rw [e1]
      simp [hs]
      exact .inl rfl
    · intro b _ hb
      exfalso; apply hb
      apply Fin.ext
      have := b.2
      simp only; omega
    · intro h; exact absurd (Finset.mem_univ _) h
  refine ⟨s, H0, fun _ => 1, δ, v, chi, rfl, rfl, hchi, hchange, ?_, hval, ?_⟩
  · have := (C18_density s (.inl rfl) (by norm_num [hs]) _ rfl).1 (by simpa [hs] using hneed.le)
    rw [this]
    congr 1
    funext k
    simp [hs, orbitalCapacity, fill, fillingWhole]
  · rw [hval]
    change _ ≠ 4 * (2 * u 0 * δ 0)
    rw [hua]
    have : δ 0 = -(a / 2) := rfl
    rw [this]
    intro h
    nlinarith [mul_pos ha0 ha0]

/-- Kinetic energy expectation value of an orbital on the grid, `∫ φ (H0 φ)/w / ∫ φ²` (the code's
`H0` carries the volume element). -/
noncomputable def Spec.kinetic (H0 : Matrix G.Ix G.Ix ℝ) (p : G.Fld) : ℝ :=
  (G.integ fun k => p k * (H0.mulVec p k / G.w k)) / G.integ fun k => p k ^ 2

theorem SolverR.kedOf_gridUnit (H0 : Matrix G.Ix G.Ix ℝ) (p : G.Fld) (hp : 0 < G.integ fun k => p k ^ 2) :
    G.integ (kedOf H0 (gridUnit p)) = kinetic H0 p := by
  set c := ((G.integ fun k => p k ^ 2) ^ (1 / 2 : ℝ))⁻¹ with hc
  have hc2 : c ^ 2 = (G.integ fun k => p k ^ 2)⁻¹ := by
    rw [hc, inv_pow, rpow_half_sq hp.le]
  have hu : gridUnit p = c • p := by
    funext k; simp only [gridUnit, hc, Pi.smul_apply, smul_eq_mul, div_eq_inv_mul]
  have : kedOf H0 (gridUnit p) = fun k => c ^ 2 * (p k * (H0.mulVec p k / G.w k)) := by
    funext k
    unfold kedOf
    rw [hu, Matrix.mulVec_smul]
    simp only [Pi.smul_apply, smul_eq_mul]
    ring
  rw [this, G.integ_smul, hc2, kinetic, div_eq_inv_mul]

/-- C27, partial: for whole filled orbitals of positive norm the kinetic energy density integrates to
the capacity times the sum of the kinetic expectation values of the occupied orbitals.
Missing: a fractionally occupied orbital (`C27_fractional`, `C27_refuted`). -/
theorem C27_integral_partial (s : Solver G) (hp : s.pol = 1 ∨ s.pol = 2) (hN : 0 ≤ s.N)
    (H0 : Matrix G.Ix G.Ix ℝ) (l : List G.Fld) (hl : s.phi = some l)
    (hnorm : ∀ p ∈ l, 0 < G.integ fun k => p k ^ 2) :
    let g : ℝ := (orbitalCapacity s.m (s.pol = 2) : ℝ)
    (s.fractional = false ∨ s.N / g = ⌊s.N / g⌋) →
    (needed false (s.N / g) ≤ l.length → ∃ t, calcKed s H0 = .ok t ∧
      G.integ t = g * ∑ i : Fin l.length, fill s.fractional (s.N / g) i.1 * kinetic H0 l[i.1]) ∧
    (l.length < needed false (s.N / g) → calcKed s H0 = .error .indexError) := by
  intro g hfr
  have hg : s.scale = g := scale_eq s hp
  have hgp : 0 < g := hg ▸ s.scale_pos
  have hx : 0 ≤ s.N / g := div_nonneg hN hgp.le
  have hfl : ⌊s.N / g⌋.toNat = needed false (s.N / g) := by simp [needed]
  have hcond : ¬ (s.fractional = true ∧ s.N / g - ⌊s.N / g⌋ ≠ 0) := by
    rintro ⟨hf, hnu⟩
    rcases hfr with h | h
    · rw [h] at hf; cases hf
    · exact hnu (sub_eq_zero.mpr h)
  have hform : calcKed s H0 = (if needed false (s.N / g) ≤ l.length then
      .ok (fun k => g * ((l.take (needed false (s.N / g))).foldl (fun t p => t + kedOf H0 (gridUnit p)) 0) k)
      else .error .indexError) := by
    unfold calcKed
    rw [occupation_eq, hg]
    simp only [pyRange, orb, hl]
    rw [foldlM_pyGet l (fun (t : G.Fld) p => t + kedOf H0 (gridUnit p)), hfl]
    by_cases hle : needed false (s.N / g) ≤ l.length
    · rw [if_pos hle, if_pos hle]
      simp only [bind, Except.bind]
      rw [if_neg hcond]
      rfl
    · rw [if_neg hle, if_neg hle]; rfl
  refine ⟨fun hle => ⟨_, hform.trans (if_pos hle), ?_⟩, fun hlt => hform.trans (if_neg (by omega))⟩
  rw [G.integ_smul, foldl_add, zero_add]
  congr 1
  have hmap : ∀ l' : List G.Fld, (∀ p ∈ l', p ∈ l) →
      G.integ (l'.map fun p => kedOf H0 (gridUnit p)).sum = (l'.map fun p => kinetic H0 p).sum := by
    intro l'
    induction l' with
    | nil => intro _; exact G.integ_zero
    | cons a l' ih =>
      intro h
      rw [List.map_cons, List.map_cons, List.sum_cons, List.sum_cons,
        ← ih fun p hp => h p (List.mem_cons_of_mem _ hp)]
      rw [← kedOf_gridUnit H0 a (hnorm a (h a List.mem_cons_self))]
      exact G.integ_add _ _
  have hsum := sum_fill l (fun p => kinetic H0 p) s.fractional (s.N / g) hx
  simp only [smul_eq_mul] at hsum
  rw [hsum, hfl]
  have hz : (if s.fractional = true then (s.N / g - (⌊s.N / g⌋ : ℝ)) *
      (l[needed false (s.N / g)]?.map fun p => kinetic H0 p).getD 0 else 0) = 0 := by
    split
    · rename_i hf
      have : s.N / g - ⌊s.N / g⌋ = 0 := by by_contra h; exact hcond ⟨hf, h⟩
      rw [this, zero_mul]
    · rfl
  rw [hz, add_zero]
  exact hmap _ fun p hp => List.mem_of_mem_take hp

/-- C27, fractional occupation: with less than one full orbital `calc_ked_WFI` raises
`UnboundLocalError`; otherwise it needs two orbitals more than are full, and adds the remainder of
the *last full* orbital, with the norm of the orbital after the partly filled one. -/
theorem C27_fractional (s : Solver G) (hN : 0 ≤ s.N) (H0 : Matrix G.Ix G.Ix ℝ) (l : List G.Fld)
    (hl : s.phi = some l) (hf : s.fractional = true) :
    let x := s.N / s.scale
    x ≠ ⌊x⌋ →
    (x < 1 → calcKed s H0 = .error .unboundLocalError) ∧
    (1 ≤ x → l.length < ⌊x⌋.toNat + 2 → calcKed s H0 = .error .indexError) := by
  intro x hnu
  have hx : 0 ≤ x := div_nonneg hN s.scale_pos.le
  have h0 : 0 ≤ ⌊x⌋ := Int.floor_nonneg.mpr hx
  have hcond : s.fractional = true ∧ x - ⌊x⌋ ≠ 0 := ⟨hf, sub_ne_zero.mpr hnu⟩
  refine ⟨fun hlt => ?_, fun hge hlen => ?_⟩
  · have hfl : ⌊x⌋ = 0 := by rw [Int.floor_eq_iff]; constructor <;> [simpa using hx; simpa using hlt]
    unfold calcKed
    rw [occupation_eq]
    simp only [pyRange, orb, hl]
    rw [foldlM_pyGet l (fun (t : G.Fld) p => t + kedOf H0 (gridUnit p)), if_pos (by
      change ⌊x⌋.toNat ≤ _; rw [hfl]; simp)]
    simp only [bind, Except.bind]
    rw [if_pos hcond, if_pos (by change ⌊x⌋ ≤ 0; rw [hfl])]
  · have h1 : 1 ≤ ⌊x⌋ := by rw [Int.le_floor]; simpa using hge
    unfold calcKed
    rw [occupation_eq]
    simp only [pyRange, orb, hl]
    rw [foldlM_pyGet l (fun (t : G.Fld) p => t + kedOf H0 (gridUnit p))]
    by_cases hle : ⌊x⌋.toNat ≤ l.length
    · rw [if_pos hle]
      simp only [bind, Except.bind]
      rw [if_pos hcond, if_neg (by change ¬ ⌊x⌋ ≤ 0; omega)]
      have e1 : pyGet l (⌊x⌋ - 1) = .ok (l[⌊x⌋.toNat - 1]'(by omega)) := by
        have : ⌊x⌋ - 1 = ((⌊x⌋.toNat - 1 : ℕ) : ℤ) := by omega
        rw [this]; exact pyGet_ofNat l _ (by omega)
      have e2 : pyGet l (⌊x⌋ + 1) = .error .indexError := by
        have : ⌊x⌋ + 1 = ((⌊x⌋.toNat + 1 : ℕ) : ℤ) := by omega
        rw [this]; exact pyGet_ofNat_oob l _ (by omega)
      rw [e1, e2]
    · rw [if_neg hle]; rfl

/-- C27 is false with fractional occupation: one electron in an unpolarised `m = 0` solver, with an
orbital for it, gives `UnboundLocalError` instead of a kinetic energy density. -/
theorem C27_refuted (H0 : Matrix (Fin 2) (Fin 2) ℝ) :
    calcKed (⟨1, 1, 0, 1, true, false, some [fun _ => 1], none, none⟩ : Solver (Grid.tiny ℝ)) H0 =
      .error .unboundLocalError := by
  have h : ⌊(1 : ℝ) / 2⌋ = 0 := by rw [Int.floor_eq_iff]; norm_num
  refine (C27_fractional (⟨1, 1, 0, 1, true, false, some [fun _ => 1], none, none⟩ :
    Solver (Grid.tiny ℝ)) (by norm_num) H0 _ rfl rfl ?_).1 ?_
  · simp only [scale, if_true]
    rw [h]; norm_num
  · simp only [scale, if_true]
    norm_num

/-- C27: two electrons in one orbital. -/
example (H0 : Matrix (Fin 2) (Fin 2) ℝ) : ∃ t,
    calcKed (⟨1, 2, 0, 1, false, false, some [fun _ => 1], none, none⟩ : Solver (Grid.tiny ℝ)) H0 = .ok t ∧
    (Grid.tiny ℝ).integ t = 2 * kinetic (G := Grid.tiny ℝ) H0 fun _ => 1 := by
  obtain ⟨h, -⟩ := C27_integral_partial (⟨1, 2, 0, 1, false, false, some [fun _ => 1], none, none⟩ :
    Solver (Grid.tiny ℝ)) (.inl rfl) (by norm_num) H0 _ rfl (by
      intro p hp
      simp only [List.mem_singleton] at hp
      subst hp
      rw [Grid.tiny_integ]; norm_num) (.inl rfl)
  obtain ⟨t, h1, h2⟩ := h (by norm_num [needed, orbitalCapacity])
  refine ⟨t, h1, ?_⟩
  rw [h2]
  simp [orbitalCapacity, fill, fillingWhole]

end

/-! ## C26 -/

open FD Init Ops

theorem Ops.diag_mulVec {n : ℕ} (d v : Fin n → ℝ) (k : Fin n) : (Ops.diag d).mulVec v k = d k * v k :=
  SolverR.diag_mulVec d v k

/-- C26: on the real grid the Hamiltonian is `-½ lap + m² w f` with the Laplacian of the parity of
`m`, and together with any mirror-symmetric potential (times the volume element) it commutes with
`mirror`. -/
theorem C26_hamiltonian {k Na Nr : ℕ} (hk : 0 < k) (hNa : k ≤ Na) (hNr : k ≤ Nr) (a : ℝ) {L : ℝ}
    (hL : 0 < L) (ds1 ds2 : Fin (2 * k + 1) → ℝ)
    (hds1 : FDC.Returns (fun i => ((centred k i : ℤ) : ℝ)) 1 (.ok ds1))
    (hds2 : FDC.Returns (fun i => ((centred k i : ℤ) : ℝ)) 2 (.ok ds2)) (m : ℕ) :
    ∃ R, build Na Nr k a L (centred k) ds1 ds2 = .ok R ∧
      let H := hamiltonian m R.elap R.olap (Init.w Na Nr a L) (Init.f Na Nr a L)
      (∀ u q, H.mulVec u q = -(1 / 2) * (if Even m then R.elap else R.olap).mulVec u q +
        (m : ℝ) ^ 2 * Init.w Na Nr a L q * Init.f Na Nr a L q * u q) ∧
      ∀ v : Fin (Na * Nr) → ℝ, Init.mir v = v → ∀ u,
        (H + diag fun q => Init.w Na Nr a L q * v q).mulVec (Init.mir u) =
          Init.mir ((H + diag fun q => Init.w Na Nr a L q * v q).mulVec u) := by
  obtain ⟨R, hR, h1, h2⟩ := C14_mirror hk hNa hNr a hL ds1 ds2 hds1 hds2
  have hH : ∀ u q, (hamiltonian m R.elap R.olap (Init.w Na Nr a L) (Init.f Na Nr a L)).mulVec u q =
      -(1 / 2) * (if Even m then R.elap else R.olap).mulVec u q +
        (m : ℝ) ^ 2 * Init.w Na Nr a L q * Init.f Na Nr a L q * u q := by
    intro u q
    have hpart : (((m : ℝ) ^ 2 • diag (Init.w Na Nr a L)) * diag (Init.f Na Nr a L)).mulVec u q =
        (m : ℝ) ^ 2 * Init.w Na Nr a L q * Init.f Na Nr a L q * u q := by
      rw [← Matrix.mulVec_mulVec, Matrix.smul_mulVec]
      change (m : ℝ) ^ 2 * (diag (Init.w Na Nr a L)).mulVec _ q = _
      rw [Ops.diag_mulVec, Ops.diag_mulVec]; ring
    by_cases hm : Even m
    · have hm' : m % 2 = 0 := Nat.even_iff.mp hm
      simp only [hamiltonian, hm, hm', if_true]
      rw [Matrix.add_mulVec, Matrix.smul_mulVec]
      exact congrArg₂ (· + ·) rfl hpart
    · have hm' : ¬ m % 2 = 0 := fun h => hm (Nat.even_iff.mpr h)
      simp only [hamiltonian, hm, hm', if_false]
      rw [Matrix.add_mulVec, Matrix.smul_mulVec]
      exact congrArg₂ (· + ·) rfl hpart
  refine ⟨R, hR, hH, fun v hv u => ?_⟩
  have hlap : ∀ u q, (if Even m then R.elap else R.olap).mulVec (Init.mir u) q =
      (if Even m then R.elap else R.olap).mulVec u (mirK q) := by
    intro u q
    split
    · rw [h1]; rfl
    · rw [h2]; rfl
  funext q
  have hw : Init.w Na Nr a L (mirK q) = Init.w Na Nr a L q := by
    rw [w_eq, w_eq, sin_mirK, Xr_mirK]
  have hf : Init.f Na Nr a L (mirK q) = Init.f Na Nr a L q := by
    rw [f_eq, f_eq, sin_mirK, Xr_mirK]
  have hv' : v (mirK q) = v q := congrFun hv q
  rw [Matrix.add_mulVec]
  change _ + (diag fun q => Init.w Na Nr a L q * v q).mulVec _ q = _
  rw [hH, Ops.diag_mulVec, hlap]
  change _ = (Matrix.mulVec _ u) (mirK q)
  rw [Matrix.add_mulVec]
  change _ = _ + (diag fun q => Init.w Na Nr a L q * v q).mulVec u (mirK q)
  rw [hH, Ops.diag_mulVec, hw, hf, hv']
  rfl

/-- C26: the three-point grid of the C11 example meets the hypotheses; the Coulomb potential of equal
charges is a mirror-symmetric potential. -/
example : ∃ R, build 3 3 1 1 1 (centred 1) ![-1/2, 0, 1/2] ![1, -2, 1] = .ok R ∧
    ∀ u, (hamiltonian 1 R.elap R.olap (Init.w 3 3 1 1) (Init.f 3 3 1 1)).mulVec u ⟨4, by norm_num⟩ =
      -(1 / 2) * R.olap.mulVec u ⟨4, by norm_num⟩ +
        Init.w 3 3 1 1 ⟨4, by norm_num⟩ * Init.f 3 3 1 1 ⟨4, by norm_num⟩ * u ⟨4, by norm_num⟩ := by
  obtain ⟨R, hR, h, -⟩ := C26_hamiltonian (k := 1) (Na := 3) (Nr := 3) (by norm_num) (by norm_num)
    (by norm_num) 1 (L := 1) one_pos ![-1/2, 0, 1/2] ![1, -2, 1] FD.three_point FD.three_point2 1
  refine ⟨R, hR, fun u => ?_⟩
  rw [h]
  norm_num

end Verif
