import Verif.Props.C28_C30
import Verif.Props.C34_C36
import Mathlib.Analysis.Calculus.Deriv.Add
import Mathlib.Analysis.Calculus.Deriv.Mul
import Mathlib.Analysis.Calculus.Deriv.Pow

/-! # C84: the Hartree-exchange-correlation potential -/

namespace Verif
open Spec KS

section Values
variable {K : Type} [Field K] [LinearOrder K] [IsStrictOrderedRing K] [FloorRing K]
variable {G : Grid K} {r c p : ℕ}

/-- C84: `calc_hxc_potential` stores the sum of the three potentials of the current density, or zero without interaction;
with `sym` the mean of that sum and its mirror image. The density and the external potential stay. -/
theorem C84_hxc (F : Functionals G p) (ks ks' : KS G r c p) (h : ks.calcHxc F = .ok ks') :
    ∃ v, ks'.vhxc = some v ∧ ks'.n = ks.n ∧ ks'.vext = ks.vext ∧ ks'.vnuc = ks.vnuc ∧
      (ks.sym = true → ∀ s k, v s (G.mirIx k) = v s k) ∧
      (ks.kind = .ni → ∀ s k, v s k = 0) ∧
      (ks.kind = .dft → ∃ n Ex ex vx Ec ec vc vh, ks.n = some n ∧ F.exchange n = .ok (Ex, ex, vx) ∧
        F.correlation n = .ok (Ec, ec, vc) ∧ F.hartree n = .ok vh ∧
        (ks.sym = false → ∀ s k, v s k = vh s k + vx s k + vc s k) ∧
        (ks.sym = true → ∀ s k, v s k = ((vh s k + vx s k + vc s k) +
          (vh s (G.mirIx k) + vx s (G.mirIx k) + vc s (G.mirIx k))) / 2)) := by
  have hm : ∀ (f : G.Cols p) s k, symmetrised f s (G.mirIx k) = symmetrised f s k :=
    fun f s k => congrFun (congrFun (symmetrised_mir f) s) k
  unfold calcHxc rawHxc at h
  cases hk : ks.kind with
  | ni =>
    rw [hk] at h
    simp only [Py.do_eq_ok, Py.pure_eq_ok] at h
    obtain ⟨m, rfl, v, hv, rfl⟩ := h
    obtain rfl := Except.ok.inj hv
    by_cases hs : ks.sym = true
    · rw [if_pos hs]
      refine ⟨_, rfl, rfl, rfl, rfl, fun _ s k => hm _ s k, fun _ s k => ?_, fun h => nomatch h⟩
      simp [symmetrised, Grid.mirCols, Grid.mir]
    · rw [if_neg hs]
      exact ⟨_, rfl, rfl, rfl, rfl, fun h => absurd h hs, fun _ _ _ => rfl, fun h => nomatch h⟩
  | dft =>
    rw [hk] at h
    simp only [Py.do_eq_ok, Py.pure_eq_ok] at h
    obtain ⟨m, ⟨n, hn, ⟨Ex, ex, vx⟩, hx, ⟨Ec, ec, vc⟩, hc, vh, hh, rfl⟩, v, hv, rfl⟩ := h
    obtain rfl := Except.ok.inj hv
    have hn' : ks.n = some n := by revert hn; cases ks.n <;> simp [need]
    by_cases hs : ks.sym = true
    · rw [if_pos hs]
      refine ⟨_, rfl, rfl, rfl, rfl, fun _ s k => hm _ s k, (fun h => nomatch h), fun _ =>
        ⟨n, Ex, ex, vx, Ec, ec, vc, vh, hn', hx, hc, hh, fun h => by rw [h] at hs; exact absurd hs (by decide), fun _ s k => ?_⟩⟩
      simp only [symmetrised, Grid.mirCols, Grid.mir]
      ring
    · rw [if_neg hs]
      exact ⟨_, rfl, rfl, rfl, rfl, fun h => absurd h hs, (fun h => nomatch h), fun _ =>
        ⟨n, Ex, ex, vx, Ec, ec, vc, vh, hn', hx, hc, hh, fun _ _ _ => by ring, fun h => absurd h hs⟩⟩

/-- C84: in a pass of `scf` every solver receives, in its spin column, nuclear plus external plus Hartree plus exchange plus
correlation potential of the density the pass starts with. -/
theorem C84_scf (F : Functionals G p) (ks a : KS G r c p) (hc : c ≤ p) (h : KsScf.potential F ks = .ok a)
    (hk : ks.kind = .dft) (hs : ks.sym = false) :
    ∃ n vext Ex ex vx Ec ec vc vh, ks.n = some n ∧ ks.vext = some vext ∧ F.exchange n = .ok (Ex, ex, vx) ∧
      F.correlation n = .ok (Ec, ec, vc) ∧ F.hartree n = .ok vh ∧
      ∀ i j, (a.solver (i, j)).veff = some fun k => ks.vnuc ⟨j.1, by omega⟩ k + vext ⟨j.1, by omega⟩ k +
        (vh ⟨j.1, by omega⟩ k + vx ⟨j.1, by omega⟩ k + vc ⟨j.1, by omega⟩ k) := by
  unfold KsScf.potential at h
  simp only [Py.do_eq_ok, Py.pure_eq_ok] at h
  obtain ⟨m, hm, vext, h1, vhxc, h2, sv, hsv, rfl⟩ := h
  obtain ⟨v, e1, -, e2, e3, -, -, h3⟩ := C84_hxc F ks m hm
  obtain ⟨n, Ex, ex, vx, Ec, ec, vc, vh, hn, hx, hcc, hh, h4, -⟩ := h3 hk
  have h1' : ks.vext = some vext := by rw [← e2]; revert h1; cases m.vext <;> simp [need]
  have h2' : v = vhxc := by rw [e1] at h2; exact Except.ok.inj h2
  rw [distribute_ok _ hc] at hsv
  injection hsv with hsv
  subst hsv
  refine ⟨n, vext, Ex, ex, vx, Ec, ec, vc, vh, hn, h1', hx, hcc, hh, fun i j => ?_⟩
  refine congrArg some (funext fun k => ?_)
  rw [e3, ← h2', h4 hs]

end Values

variable {G : Grid ℝ} {r c p : ℕ}

/-- Exchange and correlation energies `Ex`, `Ec` with potentials `vx`, `vc`; linear Hartree potential `H` of the total
density, the same for both spins. -/
structure Spec.Laws (F : Functionals G p) (Ex Ec : G.Cols p → ℝ) (vx vc : G.Cols p → G.Cols p) (H : G.Fld →ₗ[ℝ] G.Fld) :
    Prop where
  exchange : ∀ n, ∃ e, F.exchange n = .ok (Ex n, e, vx n)
  correlation : ∀ n, ∃ e, F.correlation n = .ok (Ec n, e, vc n)
  hartree : ∀ n, F.hartree n = .ok fun _ => H fun k => ∑ s, n s k

/-- `v` is the functional derivative of `E` at `n`. -/
def Spec.FunctionalDerivative (E : G.Cols p → ℝ) (v : G.Cols p) (n : G.Cols p) : Prop :=
  ∀ δ : G.Cols p, HasDerivAt (fun t => E fun s k => n s k + t * δ s k) (∑ s, G.integ fun k => v s k * δ s k) 0

theorem integ_inner (f g : G.Cols p) : G.integ (fun k => ∑ s, f s k * g s k) = ∑ s, G.integ fun k => f s k * g s k :=
  G.integ_sum _ _

/-- Half the Hartree interaction: quadratic along a line. -/
theorem hartree_line (H : G.Fld →ₗ[ℝ] G.Fld) (n d : G.Fld) :
    HasDerivAt (fun t : ℝ => 1 / 2 * G.integ fun k => (n k + t * d k) * H (fun k => n k + t * d k) k)
      ((G.integ fun k => H n k * d k) + 1 / 2 * (G.integ (fun k => n k * H d k) - G.integ fun k => d k * H n k)) 0 := by
  have e : (fun t : ℝ => 1 / 2 * G.integ fun k => (n k + t * d k) * H (fun k => n k + t * d k) k) =
      fun t => 1 / 2 * (G.integ (fun k => n k * H n k) + t * (G.integ (fun k => n k * H d k) + G.integ fun k => d k * H n k) +
        t ^ 2 * G.integ fun k => d k * H d k) := by
    funext t
    have hH : H (fun k => n k + t * d k) = fun k => H n k + t * H d k := by
      have : (fun k => n k + t * d k) = n + t • d := rfl
      rw [this, map_add, map_smul]; rfl
    rw [hH, ← G.integ_add, ← G.integ_smul t, ← G.integ_smul (t ^ 2), ← G.integ_add, ← G.integ_add]
    congr 2
    funext k
    ring
  rw [e]
  have h := ((((hasDerivAt_id (0 : ℝ)).mul_const (G.integ (fun k => n k * H d k) + G.integ fun k => d k * H n k)).const_add
    (G.integ fun k => n k * H n k)).add ((hasDerivAt_pow 2 (0 : ℝ)).mul_const (G.integ fun k => d k * H d k))).const_mul (1 / 2)
  refine h.congr_deriv ?_
  have : (G.integ fun k => H n k * d k) = G.integ fun k => d k * H n k := by
    congr 1; funext k; ring
  rw [this]
  simp
  ring

/-- C84: the potential stored by `calc_hxc_potential` is the functional derivative of the interaction energy
`E.Eh + E.Ex + E.Ec` reported by `energy()`, provided `vx` and `vc` are those of `Ex` and `Ec`, up to the asymmetry of the
Hartree operator; with `sym`, in mirror symmetric directions. -/
theorem C84_derivative (F : Functionals G p) (Ex Ec : G.Cols p → ℝ) (vx vc : G.Cols p → G.Cols p) (H : G.Fld →ₗ[ℝ] G.Fld)
    (hF : Laws F Ex Ec vx vc H) (ks ks' : KS G r c p) (hc : c ≤ p) (hk : ks.kind = .dft) (n : G.Cols p) (hn : ks.n = some n)
    (hX : FunctionalDerivative Ex (vx n) n) (hC : FunctionalDerivative Ec (vc n) n) (h : ks.calcHxc F = .ok ks')
    (δ : G.Cols p) (hsym : ks.sym = true → MirrorInvariant G ∧ ∀ s k, δ s (G.mirIx k) = δ s k)
    (e : ℝ → KS G r c p) (he : ∀ t, KS.energy F { ks with n := some fun s k => n s k + t * δ s k } = .ok (e t)) :
    ∃ (E : ℝ → KSEnergy ℝ p) (Eh : ℝ → ℝ) (v : G.Cols p), (∀ t, (e t).E = some (E t) ∧ (E t).Eh = some (Eh t)) ∧
      ks'.vhxc = some v ∧
      HasDerivAt (fun t => Eh t + (E t).Ex + (E t).Ec) ((∑ s, G.integ fun k => v s k * δ s k) +
        1 / 2 * (G.integ (fun k => (∑ s, n s k) * H (fun k => ∑ s, δ s k) k) -
          G.integ fun k => (∑ s, δ s k) * H (fun k => ∑ s, n s k) k)) 0 ∧
      ((∀ f g : G.Fld, G.integ (fun k => f k * H g k) = G.integ fun k => g k * H f k) →
        HasDerivAt (fun t => Eh t + (E t).Ex + (E t).Ec) (∑ s, G.integ fun k => v s k * δ s k) 0) := by
  have hE : ∀ t, ∃ (E : KSEnergy ℝ p) (Eh : ℝ), (e t).E = some E ∧ E.Eh = some Eh ∧
      E.Ex = Ex (fun s k => n s k + t * δ s k) ∧ E.Ec = Ec (fun s k => n s k + t * δ s k) ∧
      Eh = 1 / 2 * G.integ fun k => ((∑ s, n s k) + t * ∑ s, δ s k) *
        H (fun k => (∑ s, n s k) + t * ∑ s, δ s k) k := by
    intro t
    obtain ⟨E, _, _, _, m, _, h1, h2, -, -, -, -, -, -, -, -, -, h3⟩ := C34_energy F _ _ hc (he t)
    obtain ⟨Eh, vh, ex, vx', ec, vc', hp, h4, h5, h6, h7, h8, -⟩ := h3 hk
    obtain rfl := Option.some.inj h2
    obtain ⟨e1, h1'⟩ := hF.exchange (fun s k => n s k + t * δ s k)
    obtain ⟨e2, h2'⟩ := hF.correlation (fun s k => n s k + t * δ s k)
    have q1 := Except.ok.inj (h6.symm.trans h1')
    have q2 := Except.ok.inj (h7.symm.trans h2')
    obtain rfl := Except.ok.inj (h5.symm.trans (hF.hartree _))
    have q : (fun k => ∑ s, (n s k + t * δ s k)) = fun k => (∑ s, n s k) + t * ∑ s, δ s k := by
      funext k; rw [Finset.sum_add_distrib, Finset.mul_sum]
    refine ⟨E, Eh, h1, h4, (Prod.mk.inj q1).1, (Prod.mk.inj q2).1, ?_⟩
    rw [h8, q]
    congr 2
    funext k
    rw [Finset.sum_add_distrib, Finset.mul_sum]
  choose E Eh h1 h2 h3 h4 h5 using hE
  obtain ⟨v, hv, -, -, -, -, -, h6⟩ := C84_hxc F ks ks' h
  obtain ⟨m, _, _, vx', _, _, vc', vh, hm, k1, k2, k3, k4, k5⟩ := h6 hk
  obtain rfl := Option.some.inj (hn.symm.trans hm)
  obtain ⟨_, k1'⟩ := hF.exchange n
  obtain ⟨_, k2'⟩ := hF.correlation n
  obtain rfl := (Prod.mk.inj (Prod.mk.inj (Except.ok.inj (k1.symm.trans k1'))).2).2
  obtain rfl := (Prod.mk.inj (Prod.mk.inj (Except.ok.inj (k2.symm.trans k2'))).2).2
  obtain rfl := Except.ok.inj (k3.symm.trans (hF.hartree n))
  have hd : HasDerivAt (fun t => Eh t + (E t).Ex + (E t).Ec) ((∑ s, G.integ fun k => v s k * δ s k) +
        1 / 2 * (G.integ (fun k => (∑ s, n s k) * H (fun k => ∑ s, δ s k) k) -
          G.integ fun k => (∑ s, δ s k) * H (fun k => ∑ s, n s k) k)) 0 := by
    have hh := hartree_line H (fun k => ∑ s, n s k) fun k => ∑ s, δ s k
    have hs := (hh.add (hX δ)).add (hC δ)
    have ef : (fun t => Eh t + (E t).Ex + (E t).Ec) = (fun t : ℝ => 1 / 2 * G.integ fun k =>
        ((∑ s, n s k) + t * ∑ s, δ s k) * H (fun k => (∑ s, n s k) + t * ∑ s, δ s k) k) +
        (fun t => Ex fun s k => n s k + t * δ s k) + fun t => Ec fun s k => n s k + t * δ s k := by
      funext t
      simp only [Pi.add_apply]
      rw [← h3, ← h4, ← h5]
    rw [ef]
    refine hs.congr_deriv ?_
    have key : (∑ s, G.integ fun k => v s k * δ s k) = (G.integ fun k => H (fun k => ∑ s, n s k) k * ∑ s, δ s k) +
        (∑ s, G.integ fun k => vx n s k * δ s k) + ∑ s, G.integ fun k => vc n s k * δ s k := by
      have e1 : (G.integ fun k => H (fun k => ∑ s, n s k) k * ∑ s, δ s k) =
          ∑ s, G.integ fun k => H (fun k => ∑ s, n s k) k * δ s k := by
        rw [← G.integ_sum]
        congr 1
        funext k
        rw [Finset.mul_sum]
      rw [e1, ← Finset.sum_add_distrib, ← Finset.sum_add_distrib]
      refine Finset.sum_congr rfl fun s _ => ?_
      rw [← G.integ_add, ← G.integ_add]
      cases hs : ks.sym
      · congr 1
        funext k
        rw [k4 hs]
        ring
      · obtain ⟨hG, hδ⟩ := hsym hs
        set f : G.Fld := fun k => (H (fun k => ∑ s, n s k) k + vx n s k + vc n s k) * δ s k with hf
        have e2 : (fun k => v s k * δ s k) = fun k => 1 / 2 * (f k + G.mir f k) := by
          funext k
          simp only [hf, Grid.mir, hδ, k5 hs]
          ring
        rw [e2, G.integ_smul, G.integ_add, hG]
        have e3 : f = fun k => H (fun k => ∑ s, n s k) k * δ s k + vx n s k * δ s k + vc n s k * δ s k := by
          funext k
          simp only [hf]
          ring
        rw [← e3]
        ring
    rw [key]
    ring
  refine ⟨E, Eh, v, fun t => ⟨h1 t, h2 t⟩, hv, hd, fun hs => ?_⟩
  refine hd.congr_deriv ?_
  rw [hs, sub_self, mul_zero, add_zero]

/-- Density 1, exchange energy `∫ n²`, no correlation, Hartree potential `n`: the hypotheses hold, and the potential is 3. -/
example (δ : (Grid.tiny ℝ).Cols 1) : ∃ (F : Functionals (Grid.tiny ℝ) 1) (ks ks' : KS (Grid.tiny ℝ) 0 0 1)
    (e : ℝ → KS (Grid.tiny ℝ) 0 0 1) (E : ℝ → KSEnergy ℝ 1) (Eh : ℝ → ℝ), ks.kind = .dft ∧ ks.n = some (fun _ _ => 1) ∧
    ks.calcHxc F = .ok ks' ∧ (∀ t, KS.energy F { ks with n := some fun s k => 1 + t * δ s k } = .ok (e t)) ∧
    (∀ t, (e t).E = some (E t) ∧ (E t).Eh = some (Eh t)) ∧ ks'.vhxc = some (fun _ _ => 3) ∧
    HasDerivAt (fun t => Eh t + (E t).Ex + (E t).Ec) (3 * (Grid.tiny ℝ).integ (δ 0)) 0 := by
  let F : Functionals (Grid.tiny ℝ) 1 := ⟨fun n => .ok ((Grid.tiny ℝ).integ fun k => n 0 k ^ 2, fun _ => 0, fun _ k => 2 * n 0 k),
    fun _ => .ok (0, fun _ => 0, fun _ _ => 0), fun n => .ok fun _ k => ∑ s, n s k⟩
  let ks : KS (Grid.tiny ℝ) 0 0 1 := ⟨.dft, false, 1, 2, 1 / 2, fun w => w.1.elim0,
    fun _ _ => -1, some fun _ _ => 0, some fun _ _ => 0, none, some fun _ _ => 1, none, none, {}, none, none, none, fun _ => none⟩
  have hF : Laws F (fun n => (Grid.tiny ℝ).integ fun k => n 0 k ^ 2) (fun _ => 0) (fun n _ k => 2 * n 0 k) (fun _ _ _ => 0)
      LinearMap.id := ⟨fun n => ⟨_, rfl⟩, fun n => ⟨_, rfl⟩, fun n => rfl⟩
  have hX : FunctionalDerivative (G := Grid.tiny ℝ) (p := 1) (fun n => (Grid.tiny ℝ).integ fun k => n 0 k ^ 2)
      (fun _ _ => 2 * 1) fun _ _ => 1 := by
    intro d
    have h := (hartree_line (G := Grid.tiny ℝ) LinearMap.id (fun _ => 1) (d 0)).const_mul 2
    refine (h.congr_deriv ?_).congr_of_eventuallyEq (.of_forall fun t => ?_)
    · simp only [LinearMap.id_apply, one_mul, mul_one, sub_self, mul_zero, add_zero]
      rw [Fin.sum_univ_one, (Grid.tiny ℝ).integ_smul]
    · simp only [LinearMap.id_apply, pow_two]
      ring
  have hC : FunctionalDerivative (G := Grid.tiny ℝ) (p := 1) (fun _ => 0) (fun _ _ => 0) fun _ _ => 1 := by
    intro d
    simpa [Grid.integ_zero] using hasDerivAt_const (0 : ℝ) (0 : ℝ)
  obtain ⟨ks', h'⟩ : ∃ ks', ks.calcHxc F = .ok ks' := ⟨_, rfl⟩
  have he : ∀ t, ∃ e, KS.energy F { ks with n := some fun s k => (1 : ℝ) + t * δ s k } = .ok e := fun t => ⟨_, rfl⟩
  choose e he using he
  obtain ⟨E, Eh, v, h1, h2, -, h3⟩ := C84_derivative F _ _ _ _ _ hF ks ks' zero_le_one rfl _ rfl hX hC h' δ (fun h => nomatch h) e he
  have hv : v = fun _ _ => 3 := by
    obtain ⟨w, q1, -, -, -, -, -, q2⟩ := C84_hxc F ks ks' h'
    obtain ⟨n, _, _, vx, _, _, vc, vh, a1, a2, a3, a4, a5, -⟩ := q2 rfl
    obtain rfl := Option.some.inj a1
    obtain rfl := Option.some.inj (q1.symm.trans h2)
    injection a2 with a2
    injection a3 with a3
    injection a4 with a4
    funext s k
    rw [a5 rfl, ← (Prod.mk.inj (Prod.mk.inj a2).2).2, ← (Prod.mk.inj (Prod.mk.inj a3).2).2, ← a4]
    simp
    norm_num
  refine ⟨F, ks, ks', e, E, Eh, rfl, rfl, h', he, h1, hv ▸ h2, ?_⟩
  have h4 := h3 fun f g => by
    congr 1
    funext k
    simp [mul_comm]
  rw [hv, Fin.sum_univ_one, (Grid.tiny ℝ).integ_smul] at h4
  exact h4

end Verif
