import Verif.Props.C77
import Mathlib.Analysis.Calculus.Deriv.Inv
import Mathlib.Analysis.Calculus.Deriv.Pow

/-! # C78: the molecular potentials of the two-orbital functional -/

namespace Verif
open _root_.Verif.Part
variable {G : Grid ℝ} {r c : ℕ}

/-- `∫ (√n1 - √n2)²` -/
noncomputable def Spec.twoNorm (G : Grid ℝ) (n1 n2 : G.Fld) : ℝ :=
  G.integ fun k => (Real.sqrt (n1 k) - Real.sqrt (n2 k)) ^ 2

/-- The normalised antibonding orbital. -/
noncomputable def Spec.twoPhi1 (G : Grid ℝ) (n1 n2 : G.Fld) : G.Fld := fun k =>
  (Real.sqrt (n1 k) - Real.sqrt (n2 k)) / Real.sqrt (Spec.twoNorm G n1 n2)

/-- The bonding orbital: what remains of the density, which holds two electrons per orbital. -/
noncomputable def Spec.twoPhi2 (G : Grid ℝ) (n1 n2 : G.Fld) : G.Fld := fun k =>
  Real.sqrt ((n1 k + n2 k) / 2 - Spec.twoPhi1 G n1 n2 k ^ 2)

/-- Kinetic energy of the two doubly occupied orbitals. -/
noncomputable def Spec.twoF (G : Grid ℝ) (elap : Matrix G.Ix G.Ix ℝ) (n1 n2 : G.Fld) : ℝ :=
  2 * (Spec.orbitalT G elap (Spec.twoPhi1 G n1 n2) + Spec.orbitalT G elap (Spec.twoPhi2 G n1 n2))

theorem Spec.twoNorm_comm (n1 n2 : G.Fld) : Spec.twoNorm G n1 n2 = Spec.twoNorm G n2 n1 := by
  unfold Spec.twoNorm
  congr 1
  funext k
  ring

theorem Spec.twoPhi1_comm (n1 n2 : G.Fld) (k : G.Ix) : Spec.twoPhi1 G n1 n2 k = - Spec.twoPhi1 G n2 n1 k := by
  unfold Spec.twoPhi1
  rw [Spec.twoNorm_comm]
  ring

theorem Spec.twoPhi2_comm (n1 n2 : G.Fld) : Spec.twoPhi2 G n1 n2 = Spec.twoPhi2 G n2 n1 := by
  unfold Spec.twoPhi2
  funext k
  rw [Spec.twoPhi1_comm, neg_sq, add_comm]

theorem Spec.twoF_comm (elap : Matrix G.Ix G.Ix ℝ) (n1 n2 : G.Fld) : Spec.twoF G elap n1 n2 = Spec.twoF G elap n2 n1 := by
  unfold Spec.twoF
  rw [Spec.twoPhi2_comm, show Spec.twoPhi1 G n1 n2 = fun k => - Spec.twoPhi1 G n2 n1 k from funext (Spec.twoPhi1_comm n1 n2)]
  congr 2
  unfold Spec.orbitalT
  simp [Finset.mul_sum]

/-- Preconditions under which the potentials are finite. -/
structure Spec.TwoOk (G : Grid ℝ) (n1 n2 : G.Fld) : Prop where
  w : ∀ k, G.w k ≠ 0
  pos1 : ∀ k, 0 < n1 k
  pos2 : ∀ k, 0 < n2 k
  C : ∀ _ : G.Ix, 0 < Spec.twoNorm G n1 n2
  phi2 : ∀ k, 0 < (n1 k + n2 k) / 2 - Spec.twoPhi1 G n1 n2 k ^ 2

theorem Spec.TwoOk.symm {n1 n2 : G.Fld} (h : Spec.TwoOk G n1 n2) : Spec.TwoOk G n2 n1 where
  w := h.w
  pos1 := h.pos2
  pos2 := h.pos1
  C := by intro k; rw [Spec.twoNorm_comm]; exact h.C k
  phi2 := fun k => by rw [Spec.twoPhi1_comm, neg_sq, add_comm]; exact h.phi2 k

/-- `x = (C n)**(-1/2)` -/
noncomputable def Spec.twoX (G : Grid ℝ) (n1 n2 n : G.Fld) (k : G.Ix) : ℝ := 1 / Real.sqrt (Spec.twoNorm G n1 n2 * n k)

/-- `(-1/2 ∇² f)` -/
noncomputable def Spec.tOn (G : Grid ℝ) (elap : Matrix G.Ix G.Ix ℝ) (f : G.Fld) (k : G.Ix) : ℝ :=
  -1 / 2 * (∑ l, elap k l * f l) / G.w k

/-- The derivative of the two-orbital kinetic energy with respect to the second density. -/
noncomputable def Spec.twoDeriv (G : Grid ℝ) (elap : Matrix G.Ix G.Ix ℝ) (n1 n2 : G.Fld) (k : G.Ix) : ℝ :=
  let phi1 := Spec.twoPhi1 G n1 n2
  let phi2 := Spec.twoPhi2 G n1 n2
  let x := Spec.twoX G n1 n2 n2
  let d1 := Spec.tOn G elap phi1
  let d2 := Spec.tOn G elap phi2
  4 * (-(1 / 2) * x k * (d1 k - phi1 k * G.integ fun l => phi1 l * d1 l) +
    d2 k * ((1 / 4 + 1 / 2 * x k * phi1 k) / phi2 k) -
    1 / 2 * (phi1 k * x k) * G.integ fun l => phi1 l ^ 2 / phi2 l * d2 l)

theorem twoPhi1_deriv {n1 n2 : G.Fld} (h : Spec.TwoOk G n1 n2) (d : G.Fld) (k : G.Ix) :
    HasDerivAt (fun t : ℝ => Spec.twoPhi1 G n1 (fun l => n2 l + t * d l) k)
      (-(1 / 2) * Spec.twoX G n1 n2 n2 k * d k +
        1 / 2 * Spec.twoPhi1 G n1 n2 k * G.integ fun l => Spec.twoPhi1 G n1 n2 l * Spec.twoX G n1 n2 n2 l * d l) 0 := by
  have hs : ∀ l, HasDerivAt (fun t : ℝ => Real.sqrt (n1 l) - Real.sqrt (n2 l + t * d l))
      (-(d l / (2 * Real.sqrt (n2 l)))) 0 := by
    intro l
    have a : HasDerivAt (fun t : ℝ => n2 l + t * d l) (d l) 0 := by
      simpa using ((hasDerivAt_id (0 : ℝ)).mul_const (d l)).const_add (n2 l)
    have := (a.sqrt (by simpa using (h.pos2 l).ne')).const_sub (Real.sqrt (n1 l))
    simpa using this
  have hC : HasDerivAt (fun t : ℝ => Spec.twoNorm G n1 fun l => n2 l + t * d l)
      (G.integ fun l => 2 * (Real.sqrt (n1 l) - Real.sqrt (n2 l)) * (-(d l / (2 * Real.sqrt (n2 l))))) 0 := by
    unfold Spec.twoNorm Grid.integ
    refine HasDerivAt.const_mul _ (HasDerivAt.fun_sum fun l _ => HasDerivAt.const_mul _ ?_)
    simpa using (hs l).fun_pow 2
  have hC0 : Spec.twoNorm G n1 (fun l => n2 l + 0 * d l) = Spec.twoNorm G n1 n2 := by simp
  have hq := hC.sqrt (by rw [hC0]; exact (h.C k).ne')
  rw [hC0] at hq
  have hq0 : Real.sqrt (Spec.twoNorm G n1 n2) ≠ 0 := (Real.sqrt_pos.mpr (h.C k)).ne'
  have := (hs k).div hq (by rw [hC0]; exact hq0)
  refine this.congr_deriv ?_
  have hx : ∀ l, Spec.twoX G n1 n2 n2 l = 1 / (Real.sqrt (Spec.twoNorm G n1 n2) * Real.sqrt (n2 l)) := fun l => by
    unfold Spec.twoX; rw [Real.sqrt_mul (h.C k).le]
  have hqq := Real.mul_self_sqrt (h.C k).le
  set q := Real.sqrt (Spec.twoNorm G n1 n2) with hqd
  have hn : ∀ l, Real.sqrt (n2 l) ≠ 0 := fun l => (Real.sqrt_pos.mpr (h.pos2 l)).ne'
  have hJ : (G.integ fun l => 2 * (Real.sqrt (n1 l) - Real.sqrt (n2 l)) * (-(d l / (2 * Real.sqrt (n2 l))))) =
      -(q * q) * G.integ fun l => Spec.twoPhi1 G n1 n2 l * Spec.twoX G n1 n2 n2 l * d l := by
    rw [← G.integ_smul]
    congr 1
    funext l
    have := hn l
    rw [hx]
    simp only [Spec.twoPhi1, ← hqd]
    field_simp
  rw [hJ, hx]
  have := hn k
  simp only [Spec.twoPhi1, ← hqd, zero_mul, add_zero]
  generalize G.integ _ = J
  field_simp
  ring

theorem twoPhi2_deriv {n1 n2 : G.Fld} (h : Spec.TwoOk G n1 n2) (d : G.Fld) (k : G.Ix) :
    HasDerivAt (fun t : ℝ => Spec.twoPhi2 G n1 (fun l => n2 l + t * d l) k)
      ((1 / 4 * d k - Spec.twoPhi1 G n1 n2 k * (-(1 / 2) * Spec.twoX G n1 n2 n2 k * d k +
        1 / 2 * Spec.twoPhi1 G n1 n2 k * G.integ fun l => Spec.twoPhi1 G n1 n2 l * Spec.twoX G n1 n2 n2 l * d l)) /
        Spec.twoPhi2 G n1 n2 k) 0 := by
  have h1 := twoPhi1_deriv h d k
  have a : HasDerivAt (fun t : ℝ => (n1 k + (n2 k + t * d k)) / 2) (d k / 2) 0 := by
    simpa using ((((hasDerivAt_id (0 : ℝ)).mul_const (d k)).const_add (n2 k)).const_add (n1 k)).div_const 2
  have b := (a.sub (h1.fun_pow 2)).sqrt (by
    simp only [Pi.sub_apply, zero_mul, add_zero]
    exact (h.phi2 k).ne')
  refine b.congr_deriv ?_
  have hp : Spec.twoPhi2 G n1 n2 k ≠ 0 := (Real.sqrt_pos.mpr (h.phi2 k)).ne'
  simp only [Pi.sub_apply, zero_mul, add_zero]
  change _ / (2 * Spec.twoPhi2 G n1 n2 k) = _
  generalize G.integ _ = J
  field_simp
  ring

theorem twoF_deriv (elap : Matrix G.Ix G.Ix ℝ) (hsym : ∀ k l, G.wi k * elap k l = G.wi l * elap l k)
    {n1 n2 : G.Fld} (h : Spec.TwoOk G n1 n2) (d : G.Fld) :
    HasDerivAt (fun t : ℝ => Spec.twoF G elap n1 fun l => n2 l + t * d l)
      (G.integ fun k => Spec.twoDeriv G elap n1 n2 k * d k) 0 := by
  have h1 := orbitalT_deriv elap hsym _ _ 0 (twoPhi1_deriv h d)
  have h2 := orbitalT_deriv elap hsym _ _ 0 (twoPhi2_deriv h d)
  refine ((h1.add h2).const_mul 2).congr_deriv ?_
  have e : Spec.twoPhi1 G n1 (fun l => n2 l + 0 * d l) = Spec.twoPhi1 G n1 n2 := by simp
  have e2 : Spec.twoPhi2 G n1 (fun l => n2 l + 0 * d l) = Spec.twoPhi2 G n1 n2 := by simp
  rw [e, e2]
  have conv : ∀ (q : G.Fld) (f : G.Fld), 2 * G.pi * G.hr * G.ha * ∑ k, G.wi k * (2 * q k) * (-1 / 2 * ∑ l, elap k l * f l) =
      G.integ fun k => 2 * q k * Spec.tOn G elap f k := by
    intro q f
    unfold Grid.integ Spec.tOn
    congr 1
    refine Finset.sum_congr rfl fun k _ => ?_
    have := h.w k
    field_simp
  rw [conv, conv]
  unfold Spec.twoDeriv
  simp only
  set phi1 := Spec.twoPhi1 G n1 n2
  set phi2 := Spec.twoPhi2 G n1 n2 with hphi2
  set x := Spec.twoX G n1 n2 n2
  set d1 := Spec.tOn G elap phi1
  set d2 := Spec.tOn G elap phi2
  set I1 := G.integ fun l => phi1 l * d1 l with hI1
  set I2 := G.integ fun l => phi1 l ^ 2 / phi2 l * d2 l with hI2
  set J := G.integ fun l => phi1 l * x l * d l with hJ
  have hp : ∀ k, phi2 k ≠ 0 := fun k => (Real.sqrt_pos.mpr (h.phi2 k)).ne'
  have a1 : (G.integ fun k => 2 * (-(1 / 2) * x k * d k + 1 / 2 * phi1 k * J) * d1 k) =
      (G.integ fun k => -(x k * d k * d1 k)) + J * I1 := by
    rw [hI1, ← G.integ_smul, ← G.integ_add]
    congr 1; funext k; ring
  have a2 : (G.integ fun k => 2 * ((1 / 4 * d k - phi1 k * (-(1 / 2) * x k * d k + 1 / 2 * phi1 k * J)) / phi2 k) * d2 k) =
      (G.integ fun k => (1 / 2 + phi1 k * x k) / phi2 k * d2 k * d k) - J * I2 := by
    rw [hI2, ← G.integ_smul, ← G.integ_sub']
    congr 1; funext k; have := hp k; field_simp; ring
  have a3 : (G.integ fun k => 4 * (-(1 / 2) * x k * (d1 k - phi1 k * I1) + d2 k * ((1 / 4 + 1 / 2 * x k * phi1 k) / phi2 k) -
      1 / 2 * (phi1 k * x k) * I2) * d k) =
      2 * (((G.integ fun k => -(x k * d k * d1 k)) + I1 * J) +
        ((G.integ fun k => (1 / 2 + phi1 k * x k) / phi2 k * d2 k * d k) - I2 * J)) := by
    rw [hJ, ← G.integ_smul I1, ← G.integ_smul I2, ← G.integ_add, ← G.integ_sub', ← G.integ_add, ← G.integ_smul]
    congr 1; funext k; have := hp k; field_simp; ring
  rw [a1, a2, a3]
  ring

/-- What `twoMolVt` returns. -/
theorem twoMolVt_ok {T : Env G r c 1} (hs : T.sqrt = Real.sqrt) {n1 n2 : G.Cols 1} {v1 v2 : G.Fld}
    (h : twoMolVt T n1 n2 = .ok (v1, v2)) :
    Spec.TwoOk G (n1 0) (n2 0) ∧
    (∀ k, v2 k = 1 / 2 * Spec.twoDeriv G T.elap (n1 0) (n2 0) k) ∧
    ∀ k, v1 k = 1 / 2 * Spec.twoDeriv G T.elap (n2 0) (n1 0) k +
      Spec.twoX G (n1 0) (n2 0) (n1 0) k * Spec.twoPhi1 G (n1 0) (n2 0) k *
        G.integ fun l => (Spec.twoPhi1 G (n1 0) (n2 0) l - 1) * Spec.tOn G T.elap (Spec.twoPhi1 G (n1 0) (n2 0)) l := by
  unfold twoMolVt twoC twoFirst twoSecond KS.col at h
  simp only [Py.do_eq_ok, Py.pure_eq_ok, Prod.mk.injEq, dif_pos one_pos, Except.ok.injEq, exists_eq_left'] at h
  obtain ⟨⟨C, _, _⟩, ⟨s1, h1, s2, h2, e⟩, rC, h3, phi1, h4, phi2, h5, d1, h6, d2, h7, r1, h8, r2, h9, x1, h10, x2, h11,
    q, h12, rfl, rfl⟩ := h
  simp only [Prod.mk.injEq] at e
  obtain ⟨rfl, rfl, rfl⟩ := e
  obtain ⟨p1, rfl⟩ := root_ok h1
  obtain ⟨p2, rfl⟩ := root_ok h2
  obtain ⟨p3, rfl⟩ := rootNum_ok h3
  obtain ⟨p4, rfl⟩ := quot_ok h4
  obtain ⟨p5, rfl⟩ := root_ok h5
  obtain ⟨p6, rfl⟩ := quot_ok h6
  obtain ⟨p7, rfl⟩ := quot_ok h7
  obtain ⟨p8, rfl⟩ := root_ok h8
  obtain ⟨p9, rfl⟩ := root_ok h9
  obtain ⟨p10, rfl⟩ := quot_ok h10
  obtain ⟨p11, rfl⟩ := quot_ok h11
  obtain ⟨p12, rfl⟩ := quot_ok h12
  clear h1 h2 h3 h4 h5 h6 h7 h8 h9 h10 h11 h12
  have hC : G.integ (tot fun (j : Fin 1) k => (Real.sqrt (n1 j k) - Real.sqrt (n2 j k)) ^ 2) =
      Spec.twoNorm G (n1 0) (n2 0) := by
    unfold Spec.twoNorm tot
    congr 1
    funext k
    exact Fin.sum_univ_one _
  simp only [hs] at p3 p4 p5 p8 p9 p10 p11 p12 ⊢
  simp only [hC] at p3 p4 p5 p8 p9 p10 p11 p12 ⊢
  have pos : ∀ x : ℝ, 0 ≤ x → Real.sqrt x ≠ 0 → 0 < x := fun x h0 h => lt_of_le_of_ne h0 fun e => h (by rw [← e, Real.sqrt_zero])
  have hok : Spec.TwoOk G (n1 0) (n2 0) := by
    refine ⟨fun k => p6 0 k, fun k => ?_, fun k => ?_, fun k => pos _ p3 (p4 0 k), fun k => pos _ (p5 0 k) (p12 0 k)⟩
    · refine lt_of_le_of_ne (p1 0 k) fun e => p10 0 k ?_
      rw [← e, mul_zero, Real.sqrt_zero]
    · refine lt_of_le_of_ne (p2 0 k) fun e => p11 0 k ?_
      rw [← e, mul_zero, Real.sqrt_zero]
  refine ⟨hok, fun k => ?_, fun k => ?_⟩
  · change 2 * (-(1 / 2) * Spec.twoX G (n1 0) (n2 0) (n2 0) k *
      (Spec.tOn G T.elap (Spec.twoPhi1 G (n1 0) (n2 0)) k - Spec.twoPhi1 G (n1 0) (n2 0) k *
        G.integ fun l => Spec.twoPhi1 G (n1 0) (n2 0) l * Spec.tOn G T.elap (Spec.twoPhi1 G (n1 0) (n2 0)) l) +
      (Spec.tOn G T.elap (Spec.twoPhi2 G (n1 0) (n2 0)) k *
        ((1 / 4 + 1 / 2 * Spec.twoX G (n1 0) (n2 0) (n2 0) k * Spec.twoPhi1 G (n1 0) (n2 0) k) / Spec.twoPhi2 G (n1 0) (n2 0) k) -
       1 / 2 * (Spec.twoPhi1 G (n1 0) (n2 0) k * Spec.twoX G (n1 0) (n2 0) (n2 0) k) *
        G.integ fun l => Spec.twoPhi1 G (n1 0) (n2 0) l ^ 2 / Spec.twoPhi2 G (n1 0) (n2 0) l *
          Spec.tOn G T.elap (Spec.twoPhi2 G (n1 0) (n2 0)) l)) = _
    unfold Spec.twoDeriv
    simp only
    ring
  · change 2 * (1 / 2 * Spec.twoX G (n1 0) (n2 0) (n1 0) k *
      (Spec.tOn G T.elap (Spec.twoPhi1 G (n1 0) (n2 0)) k - Spec.twoPhi1 G (n1 0) (n2 0) k *
        G.integ fun l => Spec.tOn G T.elap (Spec.twoPhi1 G (n1 0) (n2 0)) l) +
      (Spec.tOn G T.elap (Spec.twoPhi2 G (n1 0) (n2 0)) k *
        ((1 / 4 - 1 / 2 * Spec.twoX G (n1 0) (n2 0) (n1 0) k * Spec.twoPhi1 G (n1 0) (n2 0) k) / Spec.twoPhi2 G (n1 0) (n2 0) k) +
       1 / 2 * (Spec.twoPhi1 G (n1 0) (n2 0) k * Spec.twoX G (n1 0) (n2 0) (n1 0) k) *
        G.integ fun l => Spec.twoPhi1 G (n1 0) (n2 0) l ^ 2 / Spec.twoPhi2 G (n1 0) (n2 0) l *
          Spec.tOn G T.elap (Spec.twoPhi2 G (n1 0) (n2 0)) l)) = _
    have t1 : ∀ l, Spec.tOn G T.elap (Spec.twoPhi1 G (n2 0) (n1 0)) l = - Spec.tOn G T.elap (Spec.twoPhi1 G (n1 0) (n2 0)) l := by
      intro l
      rw [show Spec.twoPhi1 G (n2 0) (n1 0) = fun k => - Spec.twoPhi1 G (n1 0) (n2 0) k from funext (Spec.twoPhi1_comm _ _)]
      simp only [Spec.tOn, mul_neg, Finset.sum_neg_distrib, neg_div]
    have t2 : ∀ l, Spec.twoX G (n2 0) (n1 0) (n1 0) l = Spec.twoX G (n1 0) (n2 0) (n1 0) l := by
      intro l; unfold Spec.twoX; rw [Spec.twoNorm_comm]
    have t3 : (G.integ fun l => (Spec.twoPhi1 G (n1 0) (n2 0) l - 1) * Spec.tOn G T.elap (Spec.twoPhi1 G (n1 0) (n2 0)) l) =
        (G.integ fun l => Spec.twoPhi1 G (n1 0) (n2 0) l * Spec.tOn G T.elap (Spec.twoPhi1 G (n1 0) (n2 0)) l) -
        G.integ fun l => Spec.tOn G T.elap (Spec.twoPhi1 G (n1 0) (n2 0)) l := by
      rw [← G.integ_sub']
      congr 1; funext l; ring
    rw [t3]
    unfold Spec.twoDeriv
    simp only [t1, t2, Spec.twoPhi1_comm (n2 0) (n1 0), Spec.twoPhi2_comm (n2 0) (n1 0), neg_mul_neg, neg_sq]
    ring

/-- C78, partial: `V.vt[:,1]` is half of the functional derivative of the two-orbital kinetic energy with respect to
the second density.  Missing: the other half; the energy is the one of `ep_kinetic` only for four electrons. -/
theorem C78_second_partial (T : Env G r c 1) (hs : T.sqrt = Real.sqrt)
    (hsym : ∀ k l, G.wi k * T.elap k l = G.wi l * T.elap l k) (n1 n2 : G.Cols 1) (v1 v2 : G.Fld)
    (h : twoMolVt T n1 n2 = .ok (v1, v2)) (d : G.Fld) :
    HasDerivAt (fun t : ℝ => Spec.twoF G T.elap (n1 0) fun k => n2 0 k + t * d k) (2 * G.integ fun k => v2 k * d k) 0 := by
  obtain ⟨hok, h2, -⟩ := twoMolVt_ok hs h
  refine (twoF_deriv T.elap hsym hok d).congr_deriv ?_
  rw [← G.integ_smul]
  congr 1
  funext k
  rw [h2]
  ring

/-- C78, partial: `V.vt[:,0]` is half of the functional derivative with respect to the first density plus an error
proportional to `∫ (phi1 - 1) (-1/2 ∇² phi1)`, caused by a missing factor `phi1` in vp_kinetic.py 145. -/
theorem C78_first_partial (T : Env G r c 1) (hs : T.sqrt = Real.sqrt)
    (hsym : ∀ k l, G.wi k * T.elap k l = G.wi l * T.elap l k) (n1 n2 : G.Cols 1) (v1 v2 : G.Fld)
    (h : twoMolVt T n1 n2 = .ok (v1, v2)) (d : G.Fld) :
    HasDerivAt (fun t : ℝ => Spec.twoF G T.elap (fun k => n1 0 k + t * d k) (n2 0))
      (2 * (G.integ fun k => v1 k * d k) -
        2 * (G.integ fun l => (Spec.twoPhi1 G (n1 0) (n2 0) l - 1) * Spec.tOn G T.elap (Spec.twoPhi1 G (n1 0) (n2 0)) l) *
          G.integ fun k => Spec.twoX G (n1 0) (n2 0) (n1 0) k * Spec.twoPhi1 G (n1 0) (n2 0) k * d k) 0 := by
  obtain ⟨hok, -, h1⟩ := twoMolVt_ok hs h
  have := twoF_deriv T.elap hsym hok.symm d
  simp only [Spec.twoF_comm T.elap (n2 0)] at this
  refine this.congr_deriv ?_
  rw [← G.integ_smul, ← G.integ_smul, ← G.integ_sub']
  congr 1
  funext k
  rw [h1]
  ring

/-- For four electrons the two-orbital energy of `ep_kinetic` is that of the doubly occupied orbitals. -/
theorem C78_energy_partial (T : Env G r c 1) (hs : T.sqrt = Real.sqrt) (n1 n2 : G.Cols 1) (t : ℝ)
    (h : twoTsm T n1 n2 = .ok t) (hN : (G.integ fun k => n1 0 k + n2 0 k) = 4) :
    t = Spec.twoF G T.elap (n1 0) (n2 0) := by
  obtain ⟨phi1, phi2, h1, rfl⟩ := (C76_energy T n1 n2).1 t h
  obtain ⟨C, h, hC, hh, h4, h5, h6, h7, h8, h9⟩ := twoOrbitals_ok h1
  have e1 : (tot fun j k => n1 j k + n2 j k : G.Fld) = fun k => n1 0 k + n2 0 k := by
    funext k; exact Fin.sum_univ_one _
  have e2 : (tot fun j k => (T.sqrt (n1 j k) - T.sqrt (n2 j k)) ^ 2 : G.Fld) =
      fun k => (Real.sqrt (n1 0 k) - Real.sqrt (n2 0 k)) ^ 2 := by
    funext k; rw [hs]; exact Fin.sum_univ_one _
  rw [e1, hN, hs] at hh
  rw [e2] at hC
  have hh2 : h * h = 2 := by rw [hh]; norm_num
  have q1 : phi1 0 = fun k => h * Spec.twoPhi1 G (n1 0) (n2 0) k := by
    rw [h7, hC]; funext k; simp only [hs, Spec.twoPhi1, Spec.twoNorm]; ring
  have q2 : phi2 0 = fun k => h * Spec.twoPhi2 G (n1 0) (n2 0) k := by
    rw [h9]; funext k
    have : h = Real.sqrt 2 := by rw [hh]; norm_num
    simp only [hs, Spec.twoPhi2, q1]
    rw [this, ← Real.sqrt_mul (by norm_num)]
    congr 1
    rw [mul_pow, Real.sq_sqrt (by norm_num)]
    ring
  have key : ∀ f : G.Fld, Spec.orbitalT G T.elap (fun k => h * f k) = 2 * Spec.orbitalT G T.elap f := by
    intro f
    rw [← hh2]
    unfold Spec.orbitalT
    simp only [Finset.mul_sum]
    refine Finset.sum_congr rfl fun k _ => Finset.sum_congr rfl fun l _ => by ring
  rw [q1, q2, key, key]
  unfold Spec.twoF
  ring

/-- C78 is false.  Four electrons on two points, fragment densities `(2/5, 8/5)` and `(8/5, 2/5)`: the derivative of
the two-orbital energy with respect to the first density at the first point is zero, the potential stored for it is
`-5/4`. -/
theorem C78_refuted :
    ∃ v1 v2, twoMolVt SampleR.T (SampleR.dens (2 / 5) (8 / 5)) (SampleR.dens (8 / 5) (2 / 5)) = .ok (v1, v2) ∧
      v1 0 = -5 / 4 ∧
      HasDerivAt (fun t : ℝ => Spec.twoF SampleR.G SampleR.T.elap (SampleR.dens (2 / 5 + t) (8 / 5) 0)
        (SampleR.dens (8 / 5) (2 / 5) 0)) 0 0 := by
  have d0 : ∀ x y, SampleR.dens x y 0 0 = x := fun x y => if_pos rfl
  have d1 : ∀ x y, SampleR.dens x y 0 1 = y := fun x y => if_neg (by decide)
  set q := Real.sqrt (2 / 5) with hq
  have hq2 : q * q = 2 / 5 := Real.mul_self_sqrt (by norm_num)
  have hq0 : 0 < q := Real.sqrt_pos.mpr (by norm_num)
  have s8 : Real.sqrt (8 / 5) = 2 * q := by
    rw [show (8 / 5 : ℝ) = (2 * q) ^ 2 by nlinarith]; exact Real.sqrt_sq (by positivity)
  have hN : (fun k : SampleR.G.Ix => (Real.sqrt (SampleR.dens (2 / 5) (8 / 5) 0 k) - Real.sqrt (SampleR.dens (8 / 5) (2 / 5) 0 k)) ^ 2) =
      fun _ => 2 / 5 := by
    funext k
    simp only [SampleR.dens]
    split_ifs <;> rw [s8, ← hq] <;> nlinarith
  have hC : Spec.twoNorm SampleR.G (SampleR.dens (2 / 5) (8 / 5) 0) (SampleR.dens (8 / 5) (2 / 5) 0) = 4 / 5 := by
    unfold Spec.twoNorm
    rw [hN, Grid.tiny_integ]
    norm_num
  have hC' : SampleR.G.integ (tot fun (j : Fin 1) k => (Real.sqrt (SampleR.dens (2 / 5) (8 / 5) j k) -
      Real.sqrt (SampleR.dens (8 / 5) (2 / 5) j k)) ^ 2) = 4 / 5 :=
    (congrArg _ (funext fun k => Fin.sum_univ_one _)).trans hC
  obtain ⟨v1, v2, hv⟩ := twoMolVt_exists SampleR.T rfl (fun _ => one_ne_zero) (SampleR.dens (2 / 5) (8 / 5))
    (SampleR.dens (8 / 5) (2 / 5)) (fun j k => by simp only [SampleR.dens]; split_ifs <;> norm_num)
    (fun j k => by simp only [SampleR.dens]; split_ifs <;> norm_num)
    (by rw [hC']; norm_num)
    (by
      intro j k
      rw [Fin.fin_one_eq_zero j, hC', congrFun hN k]
      simp only [SampleR.dens]
      split_ifs <;> norm_num)
  have hs2 : Real.sqrt 2 * Real.sqrt 2 = 2 := Real.mul_self_sqrt (by norm_num)
  have hs0 : 0 < Real.sqrt 2 := Real.sqrt_pos.mpr (by norm_num)
  set s := Real.sqrt 2
  have s45 : Real.sqrt (4 / 5) = s * q := by
    rw [show (4 / 5 : ℝ) = (s * q) ^ 2 by rw [mul_pow, sq, sq, hs2, hq2]; norm_num]
    exact Real.sqrt_sq (by positivity)
  have hp1 : Spec.twoPhi1 SampleR.G (SampleR.dens (2 / 5) (8 / 5) 0) (SampleR.dens (8 / 5) (2 / 5) 0) =
      SampleR.dens (-(1 / s)) (1 / s) 0 := by
    funext k
    unfold Spec.twoPhi1
    rw [hC, s45]
    simp only [SampleR.dens]
    split_ifs <;> rw [s8, ← hq] <;> field_simp <;> ring
  have hp2 : Spec.twoPhi2 SampleR.G (SampleR.dens (2 / 5) (8 / 5) 0) (SampleR.dens (8 / 5) (2 / 5) 0) =
      fun _ => 1 / s := by
    funext k
    unfold Spec.twoPhi2
    rw [hp1]
    have : (1 / s) ^ 2 = 1 / 2 := by rw [div_pow, sq s, hs2]; norm_num
    simp only [SampleR.dens]
    split_ifs <;> (try rw [neg_sq]) <;> rw [this] <;>
      (rw [← Real.sqrt_sq (show 0 ≤ 1 / s by positivity), this]; norm_num)
  have ht1 : Spec.tOn SampleR.G SampleR.T.elap (SampleR.dens (-(1 / s)) (1 / s) 0) = SampleR.dens (-(1 / s)) (1 / s) 0 := by
    funext k
    unfold Spec.tOn
    rw [Grid.tiny_sum]
    fin_cases k <;> simp [SampleR.T, SampleR.dens] <;> ring
  have ht2 : Spec.tOn SampleR.G SampleR.T.elap (fun _ => 1 / s) = fun _ => 0 := by
    funext k
    unfold Spec.tOn
    rw [Grid.tiny_sum]
    fin_cases k <;> simp [SampleR.T]
  have hI : (SampleR.G.integ fun l => (SampleR.dens (-(1 / s)) (1 / s) 0 l - 1) * SampleR.dens (-(1 / s)) (1 / s) 0 l) = 1 := by
    rw [Grid.tiny_integ, d0, d1]
    field_simp
    nlinarith
  obtain ⟨hok, -, h1⟩ := twoMolVt_ok rfl hv
  have hD : Spec.twoDeriv SampleR.G SampleR.T.elap (SampleR.dens (8 / 5) (2 / 5) 0) (SampleR.dens (2 / 5) (8 / 5) 0) = fun _ => 0 := by
    have hm : Spec.twoPhi1 SampleR.G (SampleR.dens (8 / 5) (2 / 5) 0) (SampleR.dens (2 / 5) (8 / 5) 0) =
        fun k => - SampleR.dens (-(1 / s)) (1 / s) 0 k := by
      funext k; rw [Spec.twoPhi1_comm, hp1]
    have ht3 : Spec.tOn SampleR.G SampleR.T.elap (fun k => - SampleR.dens (-(1 / s)) (1 / s) 0 k) =
        fun k => - SampleR.dens (-(1 / s)) (1 / s) 0 k := by
      funext k
      rw [← congrFun ht1 k]
      simp only [Spec.tOn, mul_neg, Finset.sum_neg_distrib, neg_div]
    have hI1 : (SampleR.G.integ fun l => - SampleR.dens (-(1 / s)) (1 / s) 0 l * - SampleR.dens (-(1 / s)) (1 / s) 0 l) = 1 := by
      rw [Grid.tiny_integ, d0, d1]
      field_simp
      nlinarith
    funext k
    unfold Spec.twoDeriv
    simp only [hm, Spec.twoPhi2_comm (SampleR.dens (8 / 5) (2 / 5) 0), hp2, ht2, ht3, hI1]
    simp [Grid.integ]
  refine ⟨v1, v2, hv, ?_, ?_⟩
  · rw [h1, hD, hp1, ht1, hI]
    unfold Spec.twoX
    rw [hC, d0, d0, show (4 / 5 * (2 / 5) : ℝ) = (s * (2 / 5)) ^ 2 by rw [mul_pow, sq s, hs2]; norm_num,
      Real.sqrt_sq (by positivity)]
    field_simp
    nlinarith
  · have := twoF_deriv SampleR.T.elap (fun k l => by simp [SampleR.T, eq_comm]) hok.symm (SampleR.dens 1 0 0)
    simp only [hD, zero_mul, Spec.twoF_comm _ (SampleR.dens (8 / 5) (2 / 5) 0)] at this
    refine (this.congr_deriv (by simp [Grid.integ])).congr_of_eventuallyEq (Filter.Eventually.of_forall fun t => ?_)
    simp only
    congr 1
    funext k
    simp only [SampleR.dens]
    split_ifs <;> simp

end Verif
