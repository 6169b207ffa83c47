import Verif.Props.C80_C81
import Verif.Props.C62
import Verif.Props.C08_C09

/-! # C82: the exchange-correlation potential is the functional derivative of the energy -/

namespace Verif
open Libxc Spec

/-- Energy per volume of an LDA, with its derivative. -/
structure Spec.Lda where
  e : ℝ → ℝ
  e' : ℝ → ℝ
  d : ∀ x, 0 < x → HasDerivAt e (e' x) x

/-- Energy per volume of a GGA as a function of density and squared gradient, with its partial derivatives. -/
structure Spec.Gga where
  e : ℝ × ℝ → ℝ
  eN : ℝ × ℝ → ℝ
  eS : ℝ × ℝ → ℝ
  d : ∀ p : ℝ × ℝ, 0 < p.1 →
    HasFDerivAt e (eN p • ContinuousLinearMap.fst ℝ ℝ ℝ + eS p • ContinuousLinearMap.snd ℝ ℝ ℝ) p

/-- Energy per volume of a spin-polarised GGA that does not contain the mixed gradient (every exchange functional):
a function of the densities and the squares of their gradients, `((n0, n1), (s0, s1))`. -/
structure Spec.Gga2 where
  e : (ℝ × ℝ) × (ℝ × ℝ) → ℝ
  eN : Fin 2 → (ℝ × ℝ) × (ℝ × ℝ) → ℝ
  eS : Fin 2 → (ℝ × ℝ) × (ℝ × ℝ) → ℝ
  d : ∀ p : (ℝ × ℝ) × (ℝ × ℝ), 0 < p.1.1 → 0 < p.1.2 → ∀ (c : ℝ → (ℝ × ℝ) × (ℝ × ℝ)) (c' : (ℝ × ℝ) × (ℝ × ℝ)),
    c 0 = p → HasDerivAt c c' 0 →
    HasDerivAt (fun t => e (c t)) (eN 0 p * c'.1.1 + eN 1 p * c'.1.2 + eS 0 p * c'.2.1 + eS 1 p * c'.2.2) 0

variable {G : Grid ℝ}

/-- libxc's conventions: `zk` is the energy per electron, `vrho` and `vsigma` are derivatives of the energy per
volume. -/
def Spec.Lda.Is (E : Lda) (F : Func G 1 1) : Prop := ∀ n k,
  (F n none).zk k = E.e (n 0 k) / n 0 k ∧ (F n none).vrho 0 k = E.e' (n 0 k)

def Spec.Gga.Is (E : Gga) (F : Func G 1 1) : Prop := ∀ n s k,
  (F n (some s)).zk k = E.e (n 0 k, s 0 k) / n 0 k ∧ (F n (some s)).vrho 0 k = E.eN (n 0 k, s 0 k) ∧
  (F n (some s)).vsigma 0 k = E.eS (n 0 k, s 0 k)

def Spec.Gga2.Is (E : Gga2) (F : Func G 2 3) : Prop := ∀ n s k,
  (F n (some s)).zk k = E.e ((n 0 k, n 1 k), (s 0 k, s 2 k)) / (n 0 k + n 1 k) ∧
  (∀ c, (F n (some s)).vrho c k = E.eN c ((n 0 k, n 1 k), (s 0 k, s 2 k))) ∧
  (F n (some s)).vsigma 0 k = E.eS 0 ((n 0 k, n 1 k), (s 0 k, s 2 k)) ∧
  (F n (some s)).vsigma 1 k = 0 ∧
  (F n (some s)).vsigma 2 k = E.eS 1 ((n 0 k, n 1 k), (s 0 k, s 2 k))

/-- The divergence is minus the adjoint of the gradient with respect to the volume element; holds on every
initialised grid by `C80_green`. -/
def Spec.Green (O : Op G) : Prop := ∀ f u : G.Fld,
  ∑ q, G.w q * (f q * O.diva.mulVec u q) = -∑ q, G.w q * (O.grada.mulVec f q * u q) ∧
  ∑ q, G.w q * (f q * O.divr.mulVec u q) = -∑ q, G.w q * (O.gradr.mulVec f q * u q)

theorem line_deriv (x y : ℝ) : HasDerivAt (fun t : ℝ => x + t * y) y 0 := by
  simpa using ((hasDerivAt_id (0 : ℝ)).mul_const y).const_add x

theorem eventually_line {x : ℝ} (hx : 0 < x) (y : ℝ) : ∀ᶠ t : ℝ in nhds 0, 0 < x + t * y := by
  have : Filter.Tendsto (fun t : ℝ => x + t * y) (nhds 0) (nhds x) := by
    have h : Continuous fun t : ℝ => x + t * y := by fun_prop
    simpa using h.tendsto 0
  exact this.eventually (lt_mem_nhds hx)

/-- C82, LDA: the potential is the functional derivative of the returned energy, for every grid, weights, positive
density and variation. -/
theorem C82_lda (O : Op G) (E : Lda) (F : Func G 1 1) (hF : E.Is F) (n : G.Cols 1) (δ : G.Fld) (hn : ∀ k, 0 < n 0 k) :
    ∃ r : ℝ → XC G 1, (∀ t, getXc1 O "lda" F (fun s k => n s k + t * δ k) = .ok (r t)) ∧
      HasDerivAt (fun t => (r t).exc) (G.integ fun k => (r 0).vxc 0 k * δ k) 0 := by
  refine ⟨fun t => ⟨_, _, _⟩, fun t => rfl, ?_⟩
  unfold Grid.integ
  refine HasDerivAt.const_mul _ (HasDerivAt.fun_sum fun k _ => HasDerivAt.const_mul _ ?_)
  simp only [if_neg (show ¬ "lda" = "gga" by decide), (hF _ k).2, zero_mul, add_zero]
  have h1 := (E.d (n 0 k) (hn k))
  have h2 : HasDerivAt (fun t : ℝ => E.e (n 0 k + t * δ k)) (E.e' (n 0 k) * δ k) 0 := by
    have := HasDerivAt.comp (0 : ℝ) (h₂ := E.e) (h := fun t : ℝ => n 0 k + t * δ k) (h₂' := E.e' (n 0 k)) (h' := δ k)
      (by simpa using h1) (line_deriv _ _)
    exact this
  refine h2.congr_of_eventuallyEq ?_
  filter_upwards [eventually_line (hn k) (δ k)] with t ht
  rw [Fin.sum_univ_one, (hF _ k).1, div_mul_cancel₀ _ ht.ne']

theorem mulVec_line {N : ℕ} (A : Matrix (Fin N) (Fin N) ℝ) (u v : Fin N → ℝ) (t : ℝ) (k : Fin N) :
    A.mulVec (fun q => u q + t * v q) k = A.mulVec u k + t * A.mulVec v k := by
  simp only [Matrix.mulVec, dotProduct]
  rw [Finset.mul_sum, ← Finset.sum_add_distrib]
  exact Finset.sum_congr rfl fun q _ => by ring

/-- `Σ w δ div(c ∇n) = -Σ w c ∇n·∇δ`. -/
theorem green_div (O : Op G) (hO : Green O) (c n δ : G.Fld) :
    ∑ q, G.w q * (δ q * O.div c n q) =
      -∑ q, G.w q * (c q * (O.grada.mulVec n q * O.grada.mulVec δ q + O.gradr.mulVec n q * O.gradr.mulVec δ q)) := by
  have h1 := (hO δ fun l => c l * O.grada.mulVec n l).1
  have h2 := (hO δ fun l => c l * O.gradr.mulVec n l).2
  have e : ∀ q, G.w q * (δ q * O.div c n q) = G.w q * (δ q * O.diva.mulVec (fun l => c l * O.grada.mulVec n l) q) +
      G.w q * (δ q * O.divr.mulVec (fun l => c l * O.gradr.mulVec n l) q) := fun q => by unfold Op.div; ring
  simp only [e]
  rw [Finset.sum_add_distrib, h1, h2, ← neg_add, ← Finset.sum_add_distrib]
  congr 1
  exact Finset.sum_congr rfl fun q _ => by ring

/-- Derivative of the GGA energy formed with arbitrary weights `W`. -/
theorem gga_deriv (O : Op G) (W : G.Fld) (E : Gga) (F : Func G 1 1) (hF : E.Is F) (n : G.Cols 1) (δ : G.Fld)
    (hn : ∀ k, 0 < n 0 k) (σ : ℝ → G.Fld) (hσ : σ = fun t k => O.grada.mulVec (fun k => n 0 k + t * δ k) k ^ 2 +
      O.gradr.mulVec (fun k => n 0 k + t * δ k) k ^ 2) :
    HasDerivAt (fun t => ∑ k, W k * ((F (fun s k => n s k + t * δ k) (some fun _ => σ t)).zk k * (n 0 k + t * δ k)))
      (∑ k, W k * (E.eN (n 0 k, σ 0 k) * δ k + E.eS (n 0 k, σ 0 k) *
        (2 * (O.grada.mulVec (n 0) k * O.grada.mulVec δ k + O.gradr.mulVec (n 0) k * O.gradr.mulVec δ k)))) 0 := by
  refine HasDerivAt.fun_sum fun k _ => HasDerivAt.const_mul _ ?_
  have hs : HasDerivAt (fun t => σ t k)
      (2 * (O.grada.mulVec (n 0) k * O.grada.mulVec δ k + O.gradr.mulVec (n 0) k * O.gradr.mulVec δ k)) 0 := by
    simp only [hσ, mulVec_line]
    have := ((line_deriv (O.grada.mulVec (n 0) k) (O.grada.mulVec δ k)).fun_pow 2).fun_add
      ((line_deriv (O.gradr.mulVec (n 0) k) (O.gradr.mulVec δ k)).fun_pow 2)
    refine this.congr_deriv ?_
    simp; ring
  have h1 := (E.d (n 0 k, σ 0 k) (hn k))
  have h2 : HasDerivAt (fun t : ℝ => E.e (n 0 k + t * δ k, σ t k)) (E.eN (n 0 k, σ 0 k) * δ k + E.eS (n 0 k, σ 0 k) *
      (2 * (O.grada.mulVec (n 0) k * O.grada.mulVec δ k + O.gradr.mulVec (n 0) k * O.gradr.mulVec δ k))) 0 := by
    have := HasFDerivAt.comp_hasDerivAt (0 : ℝ) (f := fun t : ℝ => (n 0 k + t * δ k, σ t k)) (by simpa using h1)
      ((line_deriv (n 0 k) (δ k)).prodMk hs)
    simpa [Function.comp_def] using this
  refine h2.congr_of_eventuallyEq ?_
  filter_upwards [eventually_line (hn k) (δ k)] with t ht
  rw [(hF _ _ k).1, div_mul_cancel₀ _ ht.ne']

/-- C82, GGA, one column: the potential is the functional derivative of the energy formed with the volume element
alone, `Σ w ε n`.  Missing for the full claim: the returned energy contains the quadrature weights `wi` as well, for
which it fails, see `C82_weights_refuted`. -/
theorem C82_gga_partial (O : Op G) (hO : Green O) (E : Gga) (F : Func G 1 1) (hF : E.Is F) (n : G.Cols 1) (δ : G.Fld)
    (hn : ∀ k, 0 < n 0 k) :
    ∃ r : ℝ → XC G 1, (∀ t, getXc1 O "gga" F (fun s k => n s k + t * δ k) = .ok (r t)) ∧
      HasDerivAt (fun t => ∑ k, G.w k * ((r t).epsilon k * (n 0 k + t * δ k))) (∑ k, G.w k * ((r 0).vxc 0 k * δ k)) 0 := by
  refine ⟨fun t => ⟨_, _, _⟩, fun t => rfl, ?_⟩
  simp only [if_true]
  set σ : ℝ → G.Fld := fun t k => O.grada.mulVec (fun k => n 0 k + t * δ k) k ^ 2 +
    O.gradr.mulVec (fun k => n 0 k + t * δ k) k ^ 2 with hσ
  have hd := gga_deriv O G.w E F hF n δ hn σ hσ
  refine hd.congr_deriv ?_
  have hz : ∀ u v : G.Fld, (fun k => u k + 0 * v k) = u := fun u v => by funext k; ring
  have hz' : (fun (s : Fin 1) k => n s k + 0 * δ k) = n := by funext s k; ring
  have hv : ∀ s : G.Cols 1, (F n (some s)).vsigma 0 = fun k => E.eS (n 0 k, s 0 k) := fun s => by
    funext k; exact (hF n s k).2.2
  simp only [hz'] at *
  simp only [(hF _ _ _).2.1, hv, hz]
  change _ = ∑ k, G.w k * ((E.eN (n 0 k, O.grada.mulVec (n 0) k ^ 2 + O.gradr.mulVec (n 0) k ^ 2) -
    2 * O.div (fun k => E.eS (n 0 k, O.grada.mulVec (n 0) k ^ 2 + O.gradr.mulVec (n 0) k ^ 2)) (n 0) k) * δ k)
  have hs0 : ∀ k, σ 0 k = O.grada.mulVec (n 0) k ^ 2 + O.gradr.mulVec (n 0) k ^ 2 := fun k => by
    simp only [hσ, hz]
  simp only [hs0]
  have g := green_div O hO (fun k => E.eS (n 0 k, O.grada.mulVec (n 0) k ^ 2 + O.gradr.mulVec (n 0) k ^ 2)) (n 0) δ
  have e : ∀ k, G.w k * ((E.eN (n 0 k, O.grada.mulVec (n 0) k ^ 2 + O.gradr.mulVec (n 0) k ^ 2) -
      2 * O.div (fun k => E.eS (n 0 k, O.grada.mulVec (n 0) k ^ 2 + O.gradr.mulVec (n 0) k ^ 2)) (n 0) k) * δ k) =
      G.w k * (E.eN (n 0 k, O.grada.mulVec (n 0) k ^ 2 + O.gradr.mulVec (n 0) k ^ 2) * δ k) +
      (-2) * (G.w k * (δ k * O.div (fun k => E.eS (n 0 k, O.grada.mulVec (n 0) k ^ 2 + O.gradr.mulVec (n 0) k ^ 2)) (n 0) k)) :=
    fun k => by ring
  simp only [e]
  rw [Finset.sum_add_distrib, ← Finset.mul_sum, g, neg_mul_neg, Finset.mul_sum, ← Finset.sum_add_distrib]
  exact Finset.sum_congr rfl fun k _ => by ring

theorem div_zero_coeff (O : Op G) (n : G.Fld) (k : G.Ix) : O.div (fun _ => 0) n k = 0 := by
  unfold Op.div
  simp only [zero_mul]
  have : (fun _ : G.Ix => (0 : ℝ)) = 0 := rfl
  rw [this, Matrix.mulVec_zero, Matrix.mulVec_zero]
  simp

/-- C82, spin-polarised GGA without mixed gradient: each column of the potential is the functional derivative of the
energy formed with the volume element with respect to that spin's density.  Missing for the full claim: functionals
containing the mixed gradient, see `C82_mixed_refuted`, and the quadrature weights. -/
theorem C82_polarised_partial (O : Op G) (hO : Green O) (E : Gga2) (F : Func G 2 3) (hF : E.Is F) (n δ : G.Cols 2)
    (hn : ∀ c k, 0 < n c k) :
    ∃ r : ℝ → XC G 2, (∀ t, getXc2 O "gga" F (fun s k => n s k + t * δ s k) = .ok (r t)) ∧
      HasDerivAt (fun t => ∑ k, G.w k * ((r t).epsilon k * ((n 0 k + t * δ 0 k) + (n 1 k + t * δ 1 k))))
        (∑ k, G.w k * ((r 0).vxc 0 k * δ 0 k + (r 0).vxc 1 k * δ 1 k)) 0 := by
  refine ⟨fun t => ⟨_, _, _⟩, fun t => rfl, ?_⟩
  simp only [if_true]
  set σ : ℝ → Fin 2 → G.Fld := fun t c k => O.grada.mulVec (fun k => n c k + t * δ c k) k ^ 2 +
    O.gradr.mulVec (fun k => n c k + t * δ c k) k ^ 2 with hσ
  set T : ℝ → G.Cols 3 := fun t => ![σ t 0, fun _ => dotProduct (Matrix.vecMul (O.grada.mulVec (fun k => n 0 k + t * δ 0 k)) O.grada)
      (fun k => n 1 k + t * δ 1 k) + dotProduct (Matrix.vecMul (O.gradr.mulVec (fun k => n 0 k + t * δ 0 k)) O.gradr)
      (fun k => n 1 k + t * δ 1 k), σ t 1] with hT
  set g : Fin 2 → G.Fld := fun c k =>
    O.grada.mulVec (n c) k * O.grada.mulVec (δ c) k + O.gradr.mulVec (n c) k * O.gradr.mulVec (δ c) k with hg
  set p : G.Ix → (ℝ × ℝ) × (ℝ × ℝ) := fun k => ((n 0 k, n 1 k), (σ 0 0 k, σ 0 1 k)) with hp
  have hd : HasDerivAt (fun t => ∑ k, G.w k * ((F (fun s k => n s k + t * δ s k) (some (T t))).zk k *
      ((n 0 k + t * δ 0 k) + (n 1 k + t * δ 1 k))))
      (∑ k, G.w k * (E.eN 0 (p k) * δ 0 k + E.eN 1 (p k) * δ 1 k + E.eS 0 (p k) * (2 * g 0 k) + E.eS 1 (p k) * (2 * g 1 k))) 0 := by
    refine HasDerivAt.fun_sum fun k _ => HasDerivAt.const_mul _ ?_
    have hs : ∀ c, HasDerivAt (fun t => σ t c k) (2 * g c k) 0 := fun c => by
      simp only [hσ, mulVec_line]
      have := ((line_deriv (O.grada.mulVec (n c) k) (O.grada.mulVec (δ c) k)).fun_pow 2).fun_add
        ((line_deriv (O.gradr.mulVec (n c) k) (O.gradr.mulVec (δ c) k)).fun_pow 2)
      refine this.congr_deriv ?_
      simp [hg]; ring
    have h2 := E.d (p k) (hn 0 k) (hn 1 k)
      (fun t => ((n 0 k + t * δ 0 k, n 1 k + t * δ 1 k), (σ t 0 k, σ t 1 k))) ((δ 0 k, δ 1 k), (2 * g 0 k, 2 * g 1 k))
      (by simp [hp]) (((line_deriv _ _).prodMk (line_deriv _ _)).prodMk ((hs 0).prodMk (hs 1)))
    refine h2.congr_of_eventuallyEq ?_
    filter_upwards [eventually_line (hn 0 k) (δ 0 k), eventually_line (hn 1 k) (δ 1 k)] with t ht ht'
    rw [(hF _ _ k).1, div_mul_cancel₀ _ (by positivity)]
    rfl
  refine hd.congr_deriv ?_
  have hz' : (fun (s : Fin 2) k => n s k + 0 * δ s k) = n := by funext s k; ring
  have hz : ∀ u v : G.Fld, (fun k => u k + 0 * v k) = u := fun u v => by funext k; ring
  have hs0 : T 0 0 = σ 0 0 ∧ T 0 2 = σ 0 1 := ⟨rfl, rfl⟩
  have v0 : (F n (some (T 0))).vsigma 0 = fun k => E.eS 0 (p k) := by
    funext k; rw [(hF n (T 0) k).2.2.1, hs0.1, hs0.2]
  have v1 : (F n (some (T 0))).vsigma 1 = fun _ => 0 := by funext k; exact (hF n (T 0) k).2.2.2.1
  have v2 : (F n (some (T 0))).vsigma 2 = fun k => E.eS 1 (p k) := by
    funext k; rw [(hF n (T 0) k).2.2.2.2, hs0.1, hs0.2]
  have r0 : ∀ c k, (F n (some (T 0))).vrho c k = E.eN c (p k) := fun c k => by
    rw [(hF n (T 0) k).2.1, hs0.1, hs0.2]
  have g0 := green_div O hO (fun k => E.eS 0 (p k)) (n 0) (δ 0)
  have g1 := green_div O hO (fun k => E.eS 1 (p k)) (n 1) (δ 1)
  calc _ = ∑ k, G.w k * ((E.eN 0 (p k) - 2 * O.div (fun k => E.eS 0 (p k)) (n 0) k) * δ 0 k +
        (E.eN 1 (p k) - 2 * O.div (fun k => E.eS 1 (p k)) (n 1) k) * δ 1 k) := by
        have e : ∀ k, G.w k * ((E.eN 0 (p k) - 2 * O.div (fun k => E.eS 0 (p k)) (n 0) k) * δ 0 k +
            (E.eN 1 (p k) - 2 * O.div (fun k => E.eS 1 (p k)) (n 1) k) * δ 1 k) =
            G.w k * (E.eN 0 (p k) * δ 0 k + E.eN 1 (p k) * δ 1 k) +
            (-2) * (G.w k * (δ 0 k * O.div (fun k => E.eS 0 (p k)) (n 0) k)) +
            (-2) * (G.w k * (δ 1 k * O.div (fun k => E.eS 1 (p k)) (n 1) k)) := fun k => by ring
        simp only [e]
        rw [Finset.sum_add_distrib, Finset.sum_add_distrib, ← Finset.mul_sum, ← Finset.mul_sum, g0, g1, neg_mul_neg, neg_mul_neg,
          Finset.mul_sum, Finset.mul_sum, ← Finset.sum_add_distrib, ← Finset.sum_add_distrib]
        exact Finset.sum_congr rfl fun k _ => by simp only [hg]; ring
    _ = _ := by
        refine Finset.sum_congr rfl fun k _ => ?_
        change _ = G.w k * ((![_, _] : G.Cols 2) 0 k * δ 0 k + (![_, _] : G.Cols 2) 1 k * δ 1 k)
        simp only [Matrix.cons_val_zero, Matrix.cons_val_one]
        change _ = G.w k * (((F (fun s k => n s k + 0 * δ s k) (some (T 0))).vrho 0 k -
            2 * O.div ((F (fun s k => n s k + 0 * δ s k) (some (T 0))).vsigma 0) (fun k => n 0 k + 0 * δ 0 k) k -
            O.div ((F (fun s k => n s k + 0 * δ s k) (some (T 0))).vsigma 1) (fun k => n 1 k + 0 * δ 1 k) k) * δ 0 k +
          ((F (fun s k => n s k + 0 * δ s k) (some (T 0))).vrho 1 k -
            2 * O.div ((F (fun s k => n s k + 0 * δ s k) (some (T 0))).vsigma 2) (fun k => n 1 k + 0 * δ 1 k) k -
            O.div ((F (fun s k => n s k + 0 * δ s k) (some (T 0))).vsigma 1) (fun k => n 0 k + 0 * δ 0 k) k) * δ 1 k)
        rw [hz', v0, v1, v2, r0, r0, hz, hz, div_zero_coeff, div_zero_coeff, sub_zero, sub_zero]

section Refutations
open Init Ops FD

/-- The three-point operators of a small initialised grid: constants have no angular gradient, the radial gradient is
the even central difference. -/
theorem small_ops (Na Nr : ℕ) (hNa : 1 ≤ Na) (hNr : 1 ≤ Nr) (a L : ℝ) (ha0 : 0 < a) (hL : 0 < L) :
    ∃ R, build Na Nr 1 a L (centred 1) ![-1/2, 0, 1/2] ![1, -2, 1] = .ok R ∧
      (∀ f u : Fin (Na * Nr) → ℝ,
        ∑ q, w Na Nr a L q * (f q * R.diva.mulVec u q) = -∑ q, w Na Nr a L q * (R.grada.mulVec f q * u q) ∧
        ∑ q, w Na Nr a L q * (f q * R.divr.mulVec u q) = -∑ q, w Na Nr a L q * (R.gradr.mulVec f q * u q)) ∧
      (∀ c q, R.grada.mulVec (fun _ => c) q = 0) ∧
      (∀ f (i : Fin Na) (j : Fin Nr), R.gradr.mulVec f (at2 i j) =
        (val (lineR f i) (j.1 + 1) - (if j.1 = 0 then f (at2 i j) else val (lineR f i) (j.1 - 1))) / 2 /
          (hr Nr L * h1 Na Nr a L (at2 i j))) := by
  obtain ⟨R, hB, hgreen⟩ := C80_green (k := 1) (Na := Na) (Nr := Nr) one_pos hNa hNr ha0 hL _ _ (three_point (K := ℝ))
    (three_point2 (K := ℝ))
  obtain ⟨R', hB', -, g2, -, -⟩ := Ops.div_eq (k := 1) (Na := Na) (Nr := Nr) one_pos hNa hNr ha0 hL _ _ (three_point (K := ℝ))
    (three_point2 (K := ℝ))
  obtain ⟨R'', hB'', g1, -⟩ := Ops.grad_eq (k := 1) (Na := Na) (Nr := Nr) one_pos hNa hNr a hL _ _ (three_point (K := ℝ))
    (three_point2 (K := ℝ))
  obtain ⟨R3, hB3, h15⟩ := C15_one_column (k := 1) (Na := Na) (Nr := Nr) one_pos hNa hNr a hL _ _ (three_point (K := ℝ))
    (three_point2 (K := ℝ))
  obtain rfl : R = R' := by rw [hB] at hB'; injection hB'
  obtain rfl : R = R'' := by rw [hB] at hB''; injection hB''
  refine ⟨R, hB, hgreen, fun c q => ?_, fun f i j => ?_⟩
  · obtain ⟨-, -, -, -, -, h0⟩ := h15 fun _ => 0
    rw [← at2_ia_ir q, g1, h0]
  · rw [g2]
    unfold diffR stencil
    rw [Fin.sum_univ_three]
    change ((-1 / 2 : ℝ) * extend 1 (fun _ => 0) (lineR f i) _ + 0 * _ + (1 / 2) * extend 1 (fun _ => 0) (lineR f i) _) / _ / _ = _
    have hj := j.2
    have e1 : extend 1 (fun _ => (0 : ℝ)) (lineR f i) ((j.1 : ℤ) + (((2 : Fin (2 * 1 + 1)).1 : ℤ) - (1 : ℕ))) =
        val (lineR f i) (j.1 + 1) := by
      have : ((2 : Fin (2 * 1 + 1)).1 : ℤ) - (1 : ℕ) = 1 := by norm_num
      rw [this]
      unfold extend
      rw [if_neg (by omega)]
      split
      · rfl
      · rw [val_out _ _ (by omega)]
    have e0 : extend 1 (fun _ => (0 : ℝ)) (lineR f i) ((j.1 : ℤ) + (((0 : Fin (2 * 1 + 1)).1 : ℤ) - (1 : ℕ))) =
        if j.1 = 0 then f (at2 i j) else val (lineR f i) (j.1 - 1) := by
      have : ((0 : Fin (2 * 1 + 1)).1 : ℤ) - (1 : ℕ) = -1 := by norm_num
      rw [this]
      unfold extend
      by_cases h0 : j.1 = 0
      · rw [if_pos (by omega), if_pos h0, one_mul]
        have : (-1 : ℤ) - ((j.1 : ℤ) + -1) = j.1 := by omega
        rw [this, val, dif_pos (by omega)]
        rfl
      · rw [if_neg (by omega), if_pos (by omega), if_neg h0]
        rfl
    rw [e1, e0]
    rw [pow_one]
    ring

/-- Energy per volume `|∇n|²`. -/
noncomputable def gradSq : Gga where
  e := fun p => p.2
  eN := fun _ => 0
  eS := fun _ => 1
  d := fun p _ => by simpa using (ContinuousLinearMap.snd ℝ ℝ ℝ).hasFDerivAt (x := p)

/-- The functional libxc would compute from it. -/
noncomputable def gradSqF (G : Grid ℝ) : Func G 1 1 := fun n s => match s with
  | none => ⟨fun _ => 0, fun _ _ => 0, fun _ _ => 0⟩
  | some s => ⟨fun k => s 0 k / n 0 k, fun _ _ => 0, fun _ _ => 1⟩

/-- C82 is false for a GGA on grids with non-uniform weights: on the grid with two-point blocks, two in each direction,
the energy `∫ |∇n|²` at the constant density changes with the density at the central point at a rate different from the
potential returned there, integrated. -/
theorem C82_weights_refuted (a L : ℝ) (ha0 : 0 < a) (hL : 0 < L) (wa wr : Fin (NC.npts 2 2) → ℝ)
    (hwa : NC.Returns 2 2 (.ok wa)) (hwr : NC.Returns 2 2 (.ok wr)) :
    ∃ R, build (NC.npts 2 2) (NC.npts 2 2) 1 a L (centred 1) ![-1/2, 0, 1/2] ![1, -2, 1] = .ok R ∧
      let G := mkGrid 2 2 2 a L wa wr
      let O : Op G := ⟨R.grada, R.gradr, R.diva, R.divr⟩
      gradSq.Is (gradSqF G) ∧ ∃ δ : G.Fld, ∃ r : ℝ → XC G 1,
        (∀ t, getXc1 O "gga" (gradSqF G) (fun _ k => 1 + t * δ k) = .ok (r t)) ∧
        ∃ d, HasDerivAt (fun t => (r t).exc) d 0 ∧ d ≠ G.integ fun k => (r 0).vxc 0 k * δ k := by
  obtain ⟨R, hB, hgreen, ga, gr⟩ := small_ops (NC.npts 2 2) (NC.npts 2 2) (by norm_num) (by norm_num) a L ha0 hL
  refine ⟨R, hB, ?_⟩
  intro G O
  have hIs : gradSq.Is (gradSqF G) := fun n s k => ⟨rfl, rfl, rfl⟩
  have hO : Green O := hgreen
  refine ⟨hIs, fun q => if (ia (Na := 3) (Nr := 3) q).1 = 1 ∧ (ir (Na := 3) (Nr := 3) q).1 = 1 then 1 else 0, ?_⟩
  set δ : G.Fld := fun q => if (ia (Na := 3) (Nr := 3) q).1 = 1 ∧ (ir (Na := 3) (Nr := 3) q).1 = 1 then 1 else 0 with hδ
  refine ⟨fun t => ⟨_, _, _⟩, fun t => rfl, ?_⟩
  set σ : ℝ → G.Fld := fun t k => O.grada.mulVec (fun k => 1 + t * δ k) k ^ 2 +
    O.gradr.mulVec (fun k => 1 + t * δ k) k ^ 2 with hσ
  have hd := gga_deriv O (fun k => G.wi k * G.w k) gradSq (gradSqF G) hIs (fun _ _ => 1) δ (fun _ => one_pos) σ hσ
  refine ⟨_, (hd.const_mul (2 * G.pi * G.hr * G.ha)).congr_of_eventuallyEq (Filter.Eventually.of_forall fun t => ?_), ?_⟩
  · simp only [Grid.integ, Fin.sum_univ_one]
    rfl
  · -- the gradients of the constant and of the bump meet at one point only
    have hpt : ∀ i j : Fin 3, δ (at2 i j) = if i.1 = 1 ∧ j.1 = 1 then 1 else 0 := fun i j => by
      simp only [hδ, ia_at2, ir_at2]
    have gr' : ∀ (f : Fin (3 * 3) → ℝ) (i j : Fin 3), O.gradr.mulVec f (at2 i j) =
        (val (lineR f i) (j.1 + 1) - (if j.1 = 0 then f (at2 i j) else val (lineR f i) (j.1 - 1))) / 2 /
          (hr 3 L * h1 3 3 a L (at2 i j)) := gr
    have hn1 : ∀ i j : Fin 3, O.gradr.mulVec (fun _ => (1 : ℝ)) (at2 i j) =
        (if j.1 = 2 then -1 else 0) / 2 / (hr 3 L * h1 3 3 a L (at2 i j)) := fun i j => by
      rw [gr']
      congr 2
      fin_cases j <;> simp [val, lineR]
    have hd1 : ∀ i j : Fin 3, j.1 = 2 → O.gradr.mulVec δ (at2 i j) =
        (if i.1 = 1 then -1 else 0) / 2 / (hr 3 L * h1 3 3 a L (at2 i j)) := fun i j hj => by
      rw [gr']
      congr 2
      obtain rfl : j = 2 := Fin.ext hj
      have e1 : val (lineR δ i) (((2 : Fin 3).1 : ℤ) + 1) = 0 := val_out _ _ (by norm_num)
      have e2 : val (lineR δ i) (((2 : Fin 3).1 : ℤ) - 1) = δ (at2 i 1) := by
        unfold val; rw [dif_pos (by norm_num)]; rfl
      rw [e1, e2, if_neg (by norm_num), hpt]
      simp
      split <;> norm_num
    have hh : ∀ q, 0 < h1 3 3 a L q := fun q => (C72_metric (Na := 3) (Nr := 3) ha0 hL q).2.2.1
    have hhr : 0 < hr 3 L := by rw [hr_eq]; positivity
    set β : ℝ := 1 / 4 / (hr 3 L * h1 3 3 a L (at2 1 2)) ^ 2 with hβ
    have hP : ∀ i j : Fin 3, O.gradr.mulVec (fun _ => (1 : ℝ)) (at2 i j) * O.gradr.mulVec δ (at2 i j) =
        if i = 1 then (if j = 2 then β else 0) else 0 := fun i j => by
      by_cases hj : j = 2
      · subst hj
        rw [hn1, hd1 i 2 rfl]
        by_cases hi : i = 1
        · subst hi
          simp only [hβ]
          norm_num
          ring
        · have : i.1 ≠ 1 := fun c => hi (Fin.ext c)
          rw [if_neg this, if_neg hi]; simp
      · have : j.1 ≠ 2 := fun c => hj (Fin.ext c)
        rw [hn1, if_neg this, if_neg hj]; simp
    have hsum : ∀ W : Fin (3 * 3) → ℝ, ∑ k, W k * (O.gradr.mulVec (fun _ => (1 : ℝ)) k * O.gradr.mulVec δ k) = W (at2 1 2) * β := by
      intro W
      rw [Verif.sum_grid]
      simp only [hP]
      simp [Finset.sum_ite_eq']
    have ga' : ∀ q, O.grada.mulVec (fun _ => (1 : ℝ)) q = 0 := ga 1
    have hv : ∀ q, G.wi q * G.w q * ((0 - 2 * O.div (fun _ => 1) (fun k => 1 + 0 * δ k) q) * δ q) =
        G.wi (at2 (1 : Fin 3) (1 : Fin 3)) * (-2) * (G.w q * (δ q * O.div (fun _ => 1) (fun _ => 1) q)) := fun q => by
      have e0 : (fun k => 1 + 0 * δ k) = fun _ => (1 : ℝ) := by funext k; ring
      rw [e0]
      by_cases hq : δ q = 0
      · rw [hq]; ring
      · have : q = at2 (1 : Fin 3) (1 : Fin 3) := by
          rw [← at2_ia_ir (Na := 3) (Nr := 3) q]
          simp only [hδ] at hq
          split at hq
          · rename_i h
            have h1 : ia (Na := 3) (Nr := 3) q = 1 := Fin.ext h.1
            have h2 : ir (Na := 3) (Nr := 3) q = 1 := Fin.ext h.2
            rw [h1, h2]
          · exact absurd rfl hq
        rw [← this]; ring
    have hR : (G.integ fun k => (0 - 2 * O.div (fun _ => 1) (fun k => 1 + 0 * δ k) k) * δ k) =
        2 * G.pi * G.hr * G.ha * (2 * G.wi (at2 (1 : Fin 3) (1 : Fin 3)) * (G.w (at2 (1 : Fin 3) (2 : Fin 3)) * β)) := by
      unfold Grid.integ
      simp only [hv]
      rw [← Finset.mul_sum, green_div O hO]
      simp only [ga', zero_mul, zero_add, one_mul]
      have := hsum G.w
      rw [show (∑ q, G.w q * (O.gradr.mulVec (fun _ => (1 : ℝ)) q * O.gradr.mulVec δ q)) = _ from this]
      ring
    have hL' : (∑ k, G.wi k * G.w k * (gradSq.eN (1, σ 0 k) * δ k + gradSq.eS (1, σ 0 k) *
        (2 * (O.grada.mulVec (fun _ => (1 : ℝ)) k * O.grada.mulVec δ k + O.gradr.mulVec (fun _ => (1 : ℝ)) k * O.gradr.mulVec δ k)))) =
        2 * G.wi (at2 (1 : Fin 3) (2 : Fin 3)) * (G.w (at2 (1 : Fin 3) (2 : Fin 3)) * β) := by
      have := hsum fun k => 2 * (G.wi k * G.w k)
      calc _ = ∑ k, 2 * (G.wi k * G.w k) * (O.gradr.mulVec (fun _ => (1 : ℝ)) k * O.gradr.mulVec δ k) := by
            refine Finset.sum_congr rfl fun k _ => ?_
            simp only [gradSq, ga']; ring
        _ = _ := this.trans (by ring)
    have w11 : G.wi (at2 (1 : Fin 3) (1 : Fin 3)) = 1 := by
      change wa _ * wr _ = 1
      rw [NC_two_two wa hwa, NC_two_two wr hwr]
      change (if 4 / 3 = 1 then (1 : ℝ) else 3 / 4) * (if 4 % 3 = 1 then (1 : ℝ) else 3 / 4) = 1
      norm_num
    have w12 : G.wi (at2 (1 : Fin 3) (2 : Fin 3)) = 3 / 4 := by
      change wa _ * wr _ = 3 / 4
      rw [NC_two_two wa hwa, NC_two_two wr hwr]
      change (if 7 / 3 = 1 then (1 : ℝ) else 3 / 4) * (if 7 % 3 = 1 then (1 : ℝ) else 3 / 4) = 3 / 4
      norm_num
    have hc : 0 < 2 * G.pi * G.hr * G.ha := by
      have h1 : 0 < G.ha := by change 0 < Init.ha 3; rw [ha_eq]; have := Real.pi_pos; positivity
      have h2 : 0 < G.hr := hhr
      have h3 : 0 < G.pi := Real.pi_pos
      positivity
    have hw : 0 < G.w (at2 (1 : Fin 3) (2 : Fin 3)) := by
      change 0 < w 3 3 a L _
      rw [w_eq]
      have := Init.sin_pos (at2 (1 : Fin 3) (2 : Fin 3))
      have := Init.sinh_pos hL (at2 (1 : Fin 3) (2 : Fin 3))
      positivity
    have hβ0 : 0 < β := by have := hh (at2 1 2); rw [hβ]; positivity
    intro hcon
    have hcon' : 2 * G.pi * G.hr * G.ha * (2 * G.wi (at2 (1 : Fin 3) (2 : Fin 3)) * (G.w (at2 (1 : Fin 3) (2 : Fin 3)) * β)) =
        2 * G.pi * G.hr * G.ha * (2 * G.wi (at2 (1 : Fin 3) (1 : Fin 3)) * (G.w (at2 (1 : Fin 3) (2 : Fin 3)) * β)) := by
      rw [← hL', ← hR]
      exact hcon
    have := mul_left_cancel₀ hc.ne' hcon'
    rw [w11, w12] at this
    have := mul_right_cancel₀ (mul_pos hw hβ0).ne' this
    norm_num at this

/-- libxc's output for the energy per volume `∇n0·∇n1`. -/
noncomputable def gradMixF (G : Grid ℝ) : Func G 2 3 := fun n s => match s with
  | none => ⟨fun _ => 0, fun _ _ => 0, fun _ _ => 0⟩
  | some s => ⟨fun k => s 1 k / (n 0 k + n 1 k), fun _ _ => 0, ![fun _ => 0, fun _ => 1, fun _ => 0]⟩

/-- C82 is false for a spin-polarised GGA containing the mixed gradient, even on a grid with uniform weights: the middle
column of `sigma` is one number for the whole grid (`C15_refuted`), so the energy formed from it does not have the
returned potential as its derivative. -/
theorem C82_mixed_refuted (a L : ℝ) (ha0 : 0 < a) (hL : 0 < L) (wa wr : Fin (NC.npts 2 1) → ℝ)
    (hwa : NC.Returns 2 1 (.ok wa)) (hwr : NC.Returns 2 1 (.ok wr)) :
    ∃ R, build (NC.npts 2 1) (NC.npts 2 1) 1 a L (centred 1) ![-1/2, 0, 1/2] ![1, -2, 1] = .ok R ∧
      let G := mkGrid 2 1 1 a L wa wr
      let O : Op G := ⟨R.grada, R.gradr, R.diva, R.divr⟩
      ∃ δ : G.Fld, ∃ r : ℝ → XC G 2,
        (∀ t, getXc2 O "gga" (gradMixF G) ![fun k => 1 + t * δ k, fun _ => 1] = .ok (r t)) ∧
        ∃ d, HasDerivAt (fun t => (r t).exc) d 0 ∧ d ≠ G.integ fun k => (r 0).vxc 0 k * δ k := by
  obtain ⟨R, hB, hgreen, ga, gr⟩ := small_ops (NC.npts 2 1) (NC.npts 2 1) (by norm_num) (by norm_num) a L ha0 hL
  refine ⟨R, hB, ?_⟩
  intro G O
  have hO : Green O := hgreen
  refine ⟨fun q => if (ia (Na := 2) (Nr := 2) q).1 = 0 ∧ (ir (Na := 2) (Nr := 2) q).1 = 0 then 1 else 0, ?_⟩
  set δ : G.Fld := fun q => if (ia (Na := 2) (Nr := 2) q).1 = 0 ∧ (ir (Na := 2) (Nr := 2) q).1 = 0 then 1 else 0 with hδ
  refine ⟨fun t => ⟨_, _, _⟩, fun t => rfl, ?_⟩
  have hpt : ∀ i j : Fin 2, δ (at2 i j) = if i.1 = 0 ∧ j.1 = 0 then 1 else 0 := fun i j => by
    simp only [hδ, ia_at2, ir_at2]
  have gr' : ∀ (f : Fin (2 * 2) → ℝ) (i j : Fin 2), O.gradr.mulVec f (at2 i j) =
      (val (lineR f i) (j.1 + 1) - (if j.1 = 0 then f (at2 i j) else val (lineR f i) (j.1 - 1))) / 2 /
        (hr 2 L * h1 2 2 a L (at2 i j)) := gr
  have ga' : ∀ q, O.grada.mulVec (fun _ => (1 : ℝ)) q = 0 := ga 1
  have hn1 : ∀ i j : Fin 2, O.gradr.mulVec (fun _ => (1 : ℝ)) (at2 i j) =
      (if j.1 = 1 then -1 else 0) / 2 / (hr 2 L * h1 2 2 a L (at2 i j)) := fun i j => by
    rw [gr']
    congr 2
    fin_cases j <;> simp [val, lineR]
  have hd1 : ∀ i j : Fin 2, j.1 = 1 → O.gradr.mulVec δ (at2 i j) =
      (if i.1 = 0 then -1 else 0) / 2 / (hr 2 L * h1 2 2 a L (at2 i j)) := fun i j hj => by
    rw [gr']
    congr 2
    obtain rfl : j = 1 := Fin.ext hj
    have e1 : val (lineR δ i) (((1 : Fin 2).1 : ℤ) + 1) = 0 := val_out _ _ (by norm_num)
    have e2 : val (lineR δ i) (((1 : Fin 2).1 : ℤ) - 1) = δ (at2 i 0) := by
      unfold val; rw [dif_pos (by norm_num)]; rfl
    rw [e1, e2, if_neg (by norm_num), hpt]
    simp
    split <;> norm_num
  have hh : ∀ q, 0 < h1 2 2 a L q := fun q => (C72_metric (Na := 2) (Nr := 2) ha0 hL q).2.2.1
  have hhr : 0 < hr 2 L := by rw [hr_eq]; positivity
  set β : ℝ := 1 / 4 / (hr 2 L * h1 2 2 a L (at2 0 1)) ^ 2 with hβ
  have hP : ∀ i j : Fin 2, O.gradr.mulVec (fun _ => (1 : ℝ)) (at2 i j) * O.gradr.mulVec δ (at2 i j) =
      if i = 0 then (if j = 1 then β else 0) else 0 := fun i j => by
    by_cases hj : j = 1
    · subst hj
      rw [hn1, hd1 i 1 rfl]
      by_cases hi : i = 0
      · subst hi
        simp only [hβ]
        norm_num
        ring
      · have : i.1 ≠ 0 := fun c => hi (Fin.ext c)
        rw [if_neg this, if_neg hi]; simp
    · have : j.1 ≠ 1 := fun c => hj (Fin.ext c)
      rw [hn1, if_neg this, if_neg hj]; simp
  have hsum : ∀ W : Fin (2 * 2) → ℝ, ∑ k, W k * (O.gradr.mulVec (fun _ => (1 : ℝ)) k * O.gradr.mulVec δ k) = W (at2 0 1) * β := by
    intro W
    rw [Verif.sum_grid]
    simp only [hP]
    simp [Finset.sum_ite_eq']
  have wi : ∀ k, G.wi k = 9 / 16 := fun k => by
    change wa _ * wr _ = 9 / 16
    rw [NC_two_one wa hwa, NC_two_one wr hwr]
    norm_num
  -- the number in the middle column
  set S : ℝ → ℝ := fun t => dotProduct (Matrix.vecMul (O.grada.mulVec (fun k => 1 + t * δ k)) O.grada) (fun _ => 1) +
    dotProduct (Matrix.vecMul (O.gradr.mulVec (fun k => 1 + t * δ k)) O.gradr) (fun _ => 1) with hS
  have hSt : ∀ t, S t = S 0 + t * β := fun t => by
    simp only [hS, ← Matrix.dotProduct_mulVec]
    have z : O.grada.mulVec (fun _ => (1 : ℝ)) = 0 := by funext q; exact ga' q
    simp only [z, dotProduct_zero, zero_add]
    have h := hsum fun _ => 1
    simp only [one_mul] at h
    simp only [dotProduct, mulVec_line, zero_mul, add_zero, add_mul, Finset.sum_add_distrib]
    rw [← h, Finset.mul_sum]
    congr 1
    exact Finset.sum_congr rfl fun k _ => by ring
  have hexc : ∀ᶠ t : ℝ in nhds 0, (G.integ fun k => ∑ s : Fin 2, ((gradMixF G ![fun k => 1 + t * δ k, fun _ => 1]
      (some ![fun k => O.grada.mulVec (fun k => 1 + t * δ k) k ^ 2 + O.gradr.mulVec (fun k => 1 + t * δ k) k ^ 2,
        fun _ => S t, fun k => O.grada.mulVec (fun _ => 1) k ^ 2 + O.gradr.mulVec (fun _ => 1) k ^ 2])).zk k *
        (![fun k => 1 + t * δ k, fun _ => 1] : G.Cols 2) s k)) =
      2 * G.pi * G.hr * G.ha * (9 / 16 * (∑ k, G.w k) * (S 0 + t * β)) := by
    have : ∀ᶠ t : ℝ in nhds 0, ∀ k, 0 < 1 + t * δ k :=
      Filter.eventually_all.2 fun k => eventually_line one_pos (δ k)
    filter_upwards [this] with t ht
    unfold Grid.integ
    congr 1
    rw [← hSt t, Finset.mul_sum, Finset.sum_mul]
    refine Finset.sum_congr rfl fun k _ => ?_
    have h2 : (1 + t * δ k) + 1 ≠ 0 := by have := ht k; positivity
    beta_reduce
    rw [wi, Fin.sum_univ_two]
    change 9 / 16 * G.w k * (S t / ((1 + t * δ k) + 1) * (1 + t * δ k) + S t / ((1 + t * δ k) + 1) * 1) = _
    rw [← mul_add, div_mul_cancel₀ _ h2]
  refine ⟨_, (((line_deriv (S 0) β).const_mul (9 / 16 * ∑ k, G.w k)).const_mul
    (2 * G.pi * G.hr * G.ha)).congr_of_eventuallyEq hexc, ?_⟩
  have hR : (G.integ fun k => (0 - 2 * O.div (fun _ => 0) (fun k => 1 + 0 * δ k) k - O.div (fun _ => 1) (fun _ => 1) k) * δ k) =
      2 * G.pi * G.hr * G.ha * (9 / 16 * G.w (at2 (0 : Fin 2) (1 : Fin 2)) * β) := by
    have e : ∀ k, G.wi k * G.w k * ((0 - 2 * O.div (fun _ => 0) (fun k => 1 + 0 * δ k) k - O.div (fun _ => 1) (fun _ => 1) k) * δ k) =
        (-(9 / 16)) * (G.w k * (δ k * O.div (fun _ => 1) (fun _ => 1) k)) := fun k => by
      rw [div_zero_coeff, wi]; ring
    unfold Grid.integ
    simp only [e]
    rw [← Finset.mul_sum, green_div O hO]
    simp only [ga', zero_mul, zero_add, one_mul]
    rw [show (∑ q, G.w q * (O.gradr.mulVec (fun _ => (1 : ℝ)) q * O.gradr.mulVec δ q)) = _ from hsum G.w]
    ring
  have hc : 0 < 2 * G.pi * G.hr * G.ha := by
    have h1 : 0 < G.ha := by change 0 < Init.ha 2; rw [ha_eq]; have := Real.pi_pos; positivity
    have h2 : 0 < G.hr := hhr
    have h3 : 0 < G.pi := Real.pi_pos
    positivity
  have hw : ∀ q : Fin (2 * 2), 0 < G.w q := fun q => by
    change 0 < w 2 2 a L _
    rw [w_eq]
    have := Init.sin_pos (Na := 2) (Nr := 2) q
    have := Init.sinh_pos (Na := 2) (Nr := 2) hL q
    positivity
  have hβ0 : 0 < β := by have := hh (at2 0 1); rw [hβ]; positivity
  intro hcon
  have hcon' : 2 * G.pi * G.hr * G.ha * (9 / 16 * (∑ k, G.w k) * β) =
      2 * G.pi * G.hr * G.ha * (9 / 16 * G.w (at2 (0 : Fin 2) (1 : Fin 2)) * β) := by
    rw [← hR]
    exact hcon
  have h1 := mul_right_cancel₀ hβ0.ne' (mul_left_cancel₀ hc.ne' hcon')
  have h2 : (∑ k, G.w k) = G.w (at2 (0 : Fin 2) (1 : Fin 2)) := by linarith
  have h3 : G.w (at2 (0 : Fin 2) (1 : Fin 2)) < ∑ k, G.w k :=
    Finset.single_lt_sum (i := at2 (0 : Fin 2) (1 : Fin 2)) (j := at2 (1 : Fin 2) (1 : Fin 2)) (s := Finset.univ)
      (by decide) (Finset.mem_univ _) (Finset.mem_univ _) (hw _) fun k _ _ => (hw k).le
  linarith

end Refutations

section Examples
open Init Ops FD

/-- `Green` holds on an initialised grid on which the gradient does not vanish. -/
example : ∃ R, build 2 2 1 (1 : ℝ) 1 (centred 1) ![-1/2, 0, 1/2] ![1, -2, 1] = .ok R ∧
    Green (G := ⟨2, 2, Real.pi, Init.ha 2, hr 2 1, fun _ => 9 / 16, w 2 2 1 1⟩) ⟨R.grada, R.gradr, R.diva, R.divr⟩ ∧
    R.gradr.mulVec (fun _ => 1) (at2 0 1) ≠ 0 := by
  obtain ⟨R, hB, hg, -, gr⟩ := small_ops 2 2 (by norm_num) (by norm_num) 1 1 one_pos one_pos
  refine ⟨R, hB, hg, ?_⟩
  · rw [gr]
    have h1 : 0 < h1 2 2 1 1 (at2 0 1) := (C72_metric (Na := 2) (Nr := 2) one_pos one_pos (at2 0 1)).2.2.1
    have h2 : 0 < hr 2 (1 : ℝ) := by rw [hr_eq]; positivity
    have e : val (lineR (fun _ : Fin (2 * 2) => (1 : ℝ)) (0 : Fin 2)) (((1 : Fin 2).1 : ℤ) + 1) -
        (if (1 : Fin 2).1 = 0 then (1 : ℝ) else val (lineR (fun _ : Fin (2 * 2) => (1 : ℝ)) (0 : Fin 2)) (((1 : Fin 2).1 : ℤ) - 1)) = -1 := by
      simp [val, lineR]
    rw [e]
    have := mul_pos h2 h1
    exact div_ne_zero (by norm_num) this.ne'

/-- A density and a local functional, `e = n²`: the potential is `2 n`. -/
example (G : Grid ℝ) (O : Op G) (δ : G.Fld) : ∃ r : ℝ → XC G 1,
    (∀ t, getXc1 O "lda" (fun n _ => ⟨fun k => n 0 k ^ 2 / n 0 k, fun _ k => 2 * n 0 k, fun _ _ => 0⟩)
      (fun _ k => 3 + t * δ k) = .ok (r t)) ∧
    HasDerivAt (fun t => (r t).exc) (G.integ fun k => (r 0).vxc 0 k * δ k) 0 :=
  C82_lda O ⟨fun x => x ^ 2, fun x => 2 * x, fun x _ => by simpa using hasDerivAt_pow 2 x⟩
    _ (fun _ _ => ⟨rfl, rfl⟩) (fun _ _ => 3) δ fun _ => by norm_num

end Examples

end Verif
