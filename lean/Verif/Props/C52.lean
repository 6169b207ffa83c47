import Verif.Props.C46
import Mathlib.Analysis.SpecialFunctions.Gaussian.GaussianIntegral
import Mathlib.MeasureTheory.Integral.IntervalIntegral.FundThmCalculus
import Mathlib.Analysis.Calculus.Deriv.MeanValue

/-! # C52: the overlap measure -/

namespace Verif
open Spec Part PartScf MeasureTheory

/-! ## The error function -/

/-- `erf(x) = 2/sqrt(pi) ∫_0^x exp(-t^2) dt`. -/
noncomputable def Spec.erf (x : ℝ) : ℝ := 2 / √Real.pi * ∫ t in (0 : ℝ)..x, Real.exp (-t ^ 2)

theorem Spec.erf_hasDerivAt (x : ℝ) : HasDerivAt erf (2 / √Real.pi * Real.exp (-x ^ 2)) x := by
  have hc : Continuous fun t : ℝ => Real.exp (-t ^ 2) := by fun_prop
  exact (intervalIntegral.integral_hasDerivAt_right (hc.intervalIntegrable _ _)
    (hc.stronglyMeasurableAtFilter _ _) hc.continuousAt).const_mul _

theorem Spec.erf_strictMono : StrictMono erf := by
  refine strictMono_of_deriv_pos fun x => ?_
  rw [(erf_hasDerivAt x).deriv]
  have := Real.pi_pos
  positivity

theorem Spec.erf_zero : erf 0 = 0 := by simp [erf]

theorem Spec.erf_lt_one (x : ℝ) : erf x < 1 := by
  refine (erf_strictMono (lt_add_one x)).trans_le ?_
  rcases le_total (x + 1) 0 with h | h
  · exact (erf_strictMono.monotone h).trans (by rw [erf_zero]; exact zero_le_one)
  have hi : IntegrableOn (fun t : ℝ => Real.exp (-t ^ 2)) (Set.Ioi 0) := by
    have := (integrable_exp_neg_mul_sq (b := 1) one_pos).integrableOn (s := Set.Ioi 0)
    simpa using this
  have h1 : ∫ t in (0 : ℝ)..(x + 1), Real.exp (-t ^ 2) ≤ √Real.pi / 2 := by
    have h2 := integral_gaussian_Ioi 1
    simp only [neg_mul, one_mul, div_one] at h2
    rw [intervalIntegral.integral_of_le h, ← h2]
    exact setIntegral_mono_set hi (Filter.Eventually.of_forall fun t => (Real.exp_pos _).le)
      (Filter.Eventually.of_forall Set.Ioc_subset_Ioi_self)
  have hp : 0 < √Real.pi := Real.sqrt_pos.mpr Real.pi_pos
  unfold erf
  calc 2 / √Real.pi * _ ≤ 2 / √Real.pi * (√Real.pi / 2) := mul_le_mul_of_nonneg_left h1 (by positivity)
    _ = 1 := by field_simp

/-! ## The overlap -/

variable {G : Grid ℝ} {r c p : ℕ}

/-- The elementary functions of `vp_overlap` are those of the real numbers. -/
structure Spec.RealFunctions (T : Env G r c p) : Prop where
  sqrt : T.sqrt = Real.sqrt
  erf : T.erf = Spec.erf
  dErf : T.dErf = fun x => 2 * Real.pi ^ (-(1 / 2) : ℝ) * Real.exp (-x ^ 2)

/-- Quadrature weight of a grid point. -/
def Spec.weight (G : Grid ℝ) (k : G.Ix) : ℝ := 2 * G.pi * G.hr * G.ha * (G.wi k * G.w k)

theorem integ_weight (f : G.Fld) : G.integ f = ∑ k, weight G k * f k := by
  unfold Grid.integ weight
  rw [Finset.mul_sum]
  exact Finset.sum_congr rfl fun k _ => by ring

/-- Stored values. -/
theorem vpOverlap_values {T : Env G r c p} {P P' : Part G r c p} (h : P.vpOverlap T = .ok P')
    {na nb : G.Cols p} (hna : P.naFrac = some na) (hnb : P.nbFrac = some nb) :
    P'.S = some (G.integ fun k => T.sqrt (tot na k * tot nb k)) ∧
    P'.F = some (T.erf (2 * G.integ fun k => T.sqrt (tot na k * tot nb k))) := by
  unfold vpOverlap at h
  rw [hna, hnb] at h
  simp only [Py.do_eq_ok] at h
  obtain ⟨na', e1, nb', e2, P₁, h1, h2⟩ := h
  obtain rfl := Except.ok.inj e1
  obtain rfl := Except.ok.inj e2
  obtain ⟨⟨a, b, AB, e1⟩, -⟩ := mapA_inv h1
  obtain ⟨a', b', AB', e2⟩ := mapB_same h2
  rw [e2, e1]
  exact ⟨rfl, rfl⟩

/-- One entry of `dSdn`. -/
theorem ratio_clean (T : Env G r c p) (hT : T.sqrt = Real.sqrt) (s x y : ℝ) (hx : 0 ≤ x) (hy : 0 ≤ y) :
    Fl.clean (Fl.mul (.fin (s * (1 / 2))) (rootRatio T x y)) = if y = 0 then 0 else s * (1 / 2) * √(x / y) := by
  unfold rootRatio
  rcases eq_or_ne y 0 with rfl | hy0
  · rw [if_pos rfl]
    rcases hx.lt_or_eq with h | rfl
    · have : Fl.div (.fin x) (.fin (0 : ℝ)) = .posInf := by simp [Fl.div, h, h.ne']
      rw [this]
      simp only [Fl.mul]
      split_ifs <;> rfl
    · have : Fl.div (.fin (0 : ℝ)) (.fin 0) = .nan := by simp [Fl.div]
      rw [this]
      simp [Fl.mul, Fl.clean]
  · rw [if_neg hy0]
    have : Fl.div (.fin x) (.fin y) = .fin (x / y) := by simp [Fl.div, hy0]
    rw [this]
    simp only [if_neg (not_lt.mpr (div_nonneg hx hy)), hT, Fl.mul, Fl.clean]

/-- C52: with non-negative quadrature weights and fragment densities (zeros included), `vp_overlap` sets
`S = ∫ sqrt(na*nb)`, `0 ≤ S ≤ sqrt(Na*Nb)`, `F = erf(2 S)` in `[0,1)`, and gives every component a finite
derivative: `dF/dS` times half the scaled root of the density ratio, and zero where the fragment has no density. -/
theorem C52_overlap (T : Env G r c p) (hT : RealFunctions T) (P P' : Part G r c p) (h : P.vpOverlap T = .ok P')
    (na nb : G.Cols p) (hna : P.naFrac = some na) (hnb : P.nbFrac = some nb)
    (hw : ∀ k, 0 ≤ weight G k) (ha : ∀ j k, 0 ≤ na j k) (hb : ∀ j k, 0 ≤ nb j k) :
    ∃ S F, P'.S = some S ∧ P'.F = some F ∧ S = G.integ (fun k => √((∑ j, na j k) * ∑ j, nb j k)) ∧
      0 ≤ S ∧ S ≤ √(G.integ (fun k => ∑ j, na j k) * G.integ fun k => ∑ j, nb j k) ∧
      F = erf (2 * S) ∧ 0 ≤ F ∧ F < 1 ∧
      (∀ f ∈ P'.compsA, ∃ s d, f.ks.scale = some s ∧ f.v.dFdn = some d ∧ ∀ j k, d j k =
        deriv (fun S => erf (2 * S)) S * if na j k = 0 then 0 else s * (1 / 2) * √(nb j k / na j k)) ∧
      ∀ f ∈ P'.compsB, ∃ s d, f.ks.scale = some s ∧ f.v.dFdn = some d ∧ ∀ j k, d j k =
        deriv (fun S => erf (2 * S)) S * if nb j k = 0 then 0 else s * (1 / 2) * √(na j k / nb j k) := by
  obtain ⟨hS, hF⟩ := vpOverlap_values h hna hnb
  rw [hT.sqrt, hT.erf] at hF
  rw [hT.sqrt] at hS
  set S := G.integ fun k => √(tot na k * tot nb k) with hSdef
  have hta : ∀ k, 0 ≤ tot na k := fun k => Finset.sum_nonneg fun j _ => ha j k
  have htb : ∀ k, 0 ≤ tot nb k := fun k => Finset.sum_nonneg fun j _ => hb j k
  have h0 : 0 ≤ S := by
    rw [hSdef, integ_weight]
    exact Finset.sum_nonneg fun k _ => mul_nonneg (hw k) (Real.sqrt_nonneg _)
  have hder : deriv (fun S => erf (2 * S)) S = T.dErf (2 * S) * 2 := by
    have hd : HasDerivAt (fun S => erf (2 * S)) (2 / √Real.pi * Real.exp (-(2 * S) ^ 2) * (2 * 1)) S :=
      (erf_hasDerivAt (2 * S)).comp S ((hasDerivAt_id S).const_mul 2)
    rw [hd.deriv, hT.dErf, Real.rpow_neg Real.pi_pos.le, ← Real.sqrt_eq_rpow]
    ring
  refine ⟨S, _, hS, hF, rfl, h0, ?_, rfl, ?_, erf_lt_one _, ?_⟩
  · have hcs := Real.sum_sqrt_mul_sqrt_le Finset.univ (f := fun k => weight G k * tot na k)
      (g := fun k => weight G k * tot nb k) (fun k => mul_nonneg (hw k) (hta k)) fun k => mul_nonneg (hw k) (htb k)
    have e : S = ∑ k, √(weight G k * tot na k) * √(weight G k * tot nb k) := by
      rw [hSdef, integ_weight]
      refine Finset.sum_congr rfl fun k _ => ?_
      rw [Real.sqrt_mul (hw k), Real.sqrt_mul (hw k), Real.sqrt_mul (hta k)]
      rw [show √(weight G k) * √(tot na k) * (√(weight G k) * √(tot nb k)) =
        √(weight G k) * √(weight G k) * (√(tot na k) * √(tot nb k)) by ring, Real.mul_self_sqrt (hw k)]
    rw [integ_weight, integ_weight, Real.sqrt_mul]
    · exact e ▸ hcs
    · exact Finset.sum_nonneg fun k _ => mul_nonneg (hw k) (hta k)
  · exact erf_zero ▸ erf_strictMono.monotone (by linarith)
  · rw [hder]
    unfold vpOverlap at h
    rw [hna, hnb] at h
    simp only [Py.do_eq_ok] at h
    obtain ⟨na', e1, nb', e2, P₁, h1, h2⟩ := h
    obtain rfl := Except.ok.inj e1
    obtain rfl := Except.ok.inj e2
    obtain ⟨-, hA, hB⟩ := mapA_inv h1
    obtain ⟨-, hB', hA'⟩ := mapB_inv h2
    have hS2 : T.dErf (2 * S) = T.dErf (2 * G.integ fun k => T.sqrt (tot na k * tot nb k)) := by rw [hT.sqrt]
    refine ⟨fun f hf => ?_, fun f hf => ?_⟩
    · rw [hA'] at hf
      obtain ⟨x, -, hx⟩ := mem_right hA hf
      simp only [Py.do_eq_ok, Py.pure_eq_ok] at hx
      obtain ⟨s, hs, rfl⟩ := hx
      refine ⟨s, _, ?_, rfl, fun j k => ?_⟩
      · cases hx : x.ks.scale with
        | none => rw [hx] at hs; exact nomatch hs
        | some v => rw [hx] at hs; exact congrArg some (Except.ok.inj hs)
      · rw [hS2]; exact congrArg (T.dErf (2 * G.integ fun k => T.sqrt (tot na k * tot nb k)) * 2 * ·)
          (ratio_clean T hT.sqrt s _ _ (hb j k) (ha j k))
    · obtain ⟨x, -, hx⟩ := mem_right hB' hf
      simp only [Py.do_eq_ok, Py.pure_eq_ok] at hx
      obtain ⟨s, hs, rfl⟩ := hx
      refine ⟨s, _, ?_, rfl, fun j k => ?_⟩
      · cases hx : x.ks.scale with
        | none => rw [hx] at hs; exact nomatch hs
        | some v => rw [hx] at hs; exact congrArg some (Except.ok.inj hs)
      · rw [hS2]; exact congrArg (T.dErf (2 * G.integ fun k => T.sqrt (tot na k * tot nb k)) * 2 * ·)
          (ratio_clean T hT.sqrt s _ _ (ha j k) (hb j k))

/-- C52: where the fragment densities have opposite signs the root is not a number and the derivative is set to
zero, whatever the functions. -/
theorem C52_opposite (T : Env G r c p) (P P' : Part G r c p) (h : P.vpOverlap T = .ok P')
    (na nb : G.Cols p) (hna : P.naFrac = some na) (hnb : P.nbFrac = some nb) :
    ∀ f ∈ P'.compsA ++ P'.compsB, ∃ d, f.v.dFdn = some d ∧ ∀ j k, na j k * nb j k < 0 → d j k = 0 := by
  have key : ∀ s x y : ℝ, x * y < 0 → Fl.clean (Fl.mul (.fin (s * (1 / 2))) (rootRatio T x y)) = 0 := by
    intro s x y hxy
    have hy : y ≠ 0 := by rintro rfl; simp at hxy
    have hq : x / y < 0 := by
      rw [← mul_div_mul_right x y hy]
      exact div_neg_of_neg_of_pos hxy (mul_self_pos.mpr hy)
    unfold rootRatio
    rw [show Fl.div (.fin x) (.fin y) = .fin (x / y) by simp [Fl.div, hy]]
    simp only [if_pos hq, Fl.mul, Fl.clean]
  unfold vpOverlap at h
  rw [hna, hnb] at h
  simp only [Py.do_eq_ok] at h
  obtain ⟨na', e1, nb', e2, P₁, h1, h2⟩ := h
  obtain rfl := Except.ok.inj e1
  obtain rfl := Except.ok.inj e2
  obtain ⟨-, hA, hB⟩ := mapA_inv h1
  obtain ⟨-, hB', hA'⟩ := mapB_inv h2
  intro f hf
  rcases List.mem_append.mp hf with hf | hf
  · rw [hA'] at hf
    obtain ⟨x, -, hx⟩ := mem_right hA hf
    simp only [Py.do_eq_ok, Py.pure_eq_ok] at hx
    obtain ⟨s, hs, rfl⟩ := hx
    refine ⟨_, rfl, fun j k hjk => ?_⟩
    rw [key s _ _ (by rw [mul_comm]; exact hjk), mul_zero]
  · obtain ⟨x, -, hx⟩ := mem_right hB' hf
    simp only [Py.do_eq_ok, Py.pure_eq_ok] at hx
    obtain ⟨s, hs, rfl⟩ := hx
    refine ⟨_, rfl, fun j k hjk => ?_⟩
    rw [key s _ _ hjk, mul_zero]

/-- C52: exchanging the fragment densities changes neither `S` nor `F` (any functions, any sign). -/
theorem C52_symmetric (T : Env G r c p) (P₁ P₂ P₁' P₂' : Part G r c p) (h₁ : P₁.vpOverlap T = .ok P₁')
    (h₂ : P₂.vpOverlap T = .ok P₂') (na nb : G.Cols p) (ha₁ : P₁.naFrac = some na) (hb₁ : P₁.nbFrac = some nb)
    (ha₂ : P₂.naFrac = some nb) (hb₂ : P₂.nbFrac = some na) : P₂'.S = P₁'.S ∧ P₂'.F = P₁'.F := by
  obtain ⟨s1, f1⟩ := vpOverlap_values h₁ ha₁ hb₁
  obtain ⟨s2, f2⟩ := vpOverlap_values h₂ ha₂ hb₂
  have : (fun k => T.sqrt (tot nb k * tot na k)) = fun k => T.sqrt (tot na k * tot nb k) :=
    funext fun k => by rw [mul_comm]
  rw [s1, f1, s2, f2, this]
  exact ⟨rfl, rfl⟩

/-- C52: `F` increases with `S`. -/
theorem C52_monotone (T : Env G r c p) (hT : RealFunctions T) (P₁ P₂ P₁' P₂' : Part G r c p)
    (h₁ : P₁.vpOverlap T = .ok P₁') (h₂ : P₂.vpOverlap T = .ok P₂') (S₁ S₂ F₁ F₂ : ℝ) (s1 : P₁'.S = some S₁)
    (s2 : P₂'.S = some S₂) (f1 : P₁'.F = some F₁) (f2 : P₂'.F = some F₂) : S₁ < S₂ ↔ F₁ < F₂ := by
  have key : ∀ {P P' : Part G r c p} {S F : ℝ}, P.vpOverlap T = .ok P' → P'.S = some S → P'.F = some F →
      F = erf (2 * S) := by
    intro P P' S F h hs hf
    obtain ⟨na, nb, hna, hnb⟩ : ∃ na nb, P.naFrac = some na ∧ P.nbFrac = some nb := by
      unfold vpOverlap at h
      cases hna : P.naFrac with
      | none => rw [hna] at h; exact nomatch h
      | some na =>
        cases hnb : P.nbFrac with
        | none => rw [hna, hnb] at h; exact nomatch h
        | some nb => exact ⟨na, nb, rfl, rfl⟩
    obtain ⟨e1, e2⟩ := vpOverlap_values h hna hnb
    rw [hs] at e1
    rw [hf] at e2
    rw [Option.some.inj e2, ← Option.some.inj e1, hT.erf]
  rw [key h₁ s1 f1, key h₂ s2 f2, erf_strictMono.lt_iff_lt]
  constructor <;> intro h <;> linarith

/-- Elementary functions of the reals; the rest is not used by `vp_overlap`. -/
noncomputable def Sample.realEnv (G : Grid ℝ) (r c p : ℕ) : Env G r c p where
  exchange _ := .error .nonFinite
  correlation _ := .error .nonFinite
  hartree _ := .error .nonFinite
  hartree1 _ := .error .nonFinite
  kinetic _ := .error .nonFinite
  invert _ := .error .nonFinite
  twoOrbitalPot _ := .error .nonFinite
  twoOrbitalEnergy _ := .error .nonFinite
  sqrt := Real.sqrt
  erf := Spec.erf
  dErf x := 2 * Real.pi ^ (-(1 / 2) : ℝ) * Real.exp (-x ^ 2)
  elap := 0

/-- Densities 4, 0 and 9, 1 at the two points of the small grid: `S = 6` is smaller than `sqrt(4*10)`, and
fragment A has no derivative at the point it does not reach. -/
example (P : Part (Grid.tiny ℝ) 1 1 1) (hP : P.fAB = none) (f : Frag (Grid.tiny ℝ) 1 1 1) (hf : f.ks.scale = some 1)
    (hna : P.naFrac = some fun _ k => if k = 0 then 4 else 0)
    (hnb : P.nbFrac = some fun _ k => if k = 0 then 9 else 1) (hfa : P.fa = f) (hfb : P.fb = f) :
    ∃ P' d, P.vpOverlap (Sample.realEnv _ 1 1 1) = .ok P' ∧ P'.S = some 6 ∧ P'.fa.v.dFdn = some d ∧ d 0 1 = 0 ∧
      0 < d 0 0 := by
  have h6 : √(36 : ℝ) = 6 := by
    rw [show (36 : ℝ) = 6 ^ 2 by norm_num]; exact Real.sqrt_sq (by norm_num)
  have hS : (Grid.tiny ℝ).integ (fun k => √(tot (p := 1) (G := Grid.tiny ℝ) (fun _ k => if k = 0 then 4 else 0) k *
      tot (p := 1) (G := Grid.tiny ℝ) (fun _ k => if k = 0 then 9 else 1) k)) = 6 := by
    rw [Grid.tiny_integ]
    simp only [tot, Finset.univ_unique, Finset.sum_const, Finset.card_singleton, one_smul, ↓reduceIte]
    norm_num [h6]
  have ho : ∃ P', P.vpOverlap (Sample.realEnv _ 1 1 1) = .ok P' := by
    have hA : P.compsA = [f] := by simp [compsA, hP, hfa]
    have hB : P.compsB = [f] := by simp [compsB, hP, hfb]
    unfold vpOverlap
    rw [hna, hnb]
    refine bind_ok ⟨_, rfl⟩ fun x hx => bind_ok ⟨_, rfl⟩ fun y hy => bind_ok (mapA_ok fun g hg => ?_)
      fun P₁ h1 => mapB_ok fun g hg => ?_
    · obtain rfl : g = f := List.mem_singleton.mp (hA ▸ hg)
      exact ⟨_, by rw [hf]; rfl⟩
    · obtain ⟨-, -, hB'⟩ := mapA_inv h1
      obtain rfl : g = f := List.mem_singleton.mp (hB ▸ (hB' ▸ hg))
      exact ⟨_, by rw [hf]; rfl⟩
  obtain ⟨P', h⟩ := ho
  obtain ⟨S, F, e1, e2, e3, -, -, -, -, -, hd, -⟩ := C52_overlap (Sample.realEnv _ 1 1 1) ⟨rfl, rfl, rfl⟩ P P' h _ _ hna hnb
    (fun k => by unfold weight; norm_num) (fun _ k => by positivity) (fun _ k => by positivity)
  obtain ⟨s, d, hs, hdd, hv⟩ := hd P'.fa (List.mem_cons_self ..)
  obtain rfl : S = 6 := e3.trans hS
  have hs1 : s = 1 := by
    have := (vpOverlap_frame h).ks
    have e := ((vpOverlap_frame h).ksA)
    unfold compsA at e
    cases e with
    | cons x _ =>
      rw [x.1, hfa, hf] at hs
      exact (Option.some.inj hs).symm
  refine ⟨P', d, h, e1, hdd, ?_, ?_⟩
  · rw [hv]; simp
  · rw [hv, hs1]
    have hd : HasDerivAt (fun S => erf (2 * S)) (2 / √Real.pi * Real.exp (-(2 * 6) ^ 2) * (2 * 1)) 6 :=
      (erf_hasDerivAt (2 * 6)).comp 6 ((hasDerivAt_id (6 : ℝ)).const_mul 2)
    rw [hd.deriv]
    have := Real.pi_pos
    have h4 : (4 : ℝ) ≠ 0 := by norm_num
    simp only [↓reduceIte, if_neg h4]
    positivity

end Verif
