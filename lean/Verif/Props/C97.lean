import Verif.Lemmas.Variational
import Verif.Props.C84
import Verif.Props.C34_C36
import Verif.Props.C82

/-! # C97: a self-consistent state is a stationary point of the energy -/

namespace Verif
open Spec KS
variable {G : Grid ℝ} {r c p : ℕ}

/-- Electrons in orbital `i` of a solver: capacity times Aufbau filling. -/
noncomputable def Spec.orbitalElectrons (s : Solver G) (i : ℕ) : ℝ :=
  (orbitalCapacity s.m (s.pol = 2) : ℝ) * fill s.fractional (s.N / (orbitalCapacity s.m (s.pol = 2) : ℝ)) i

/-- The eigensolver did its work: enough orbitals and eigenvalues, and every occupied orbital has non-zero norm and
solves the eigenvalue equation `(H₀ + w v) φ = e w φ` in the potential `v` of the solver. -/
def Spec.EigenSolved (H0 : Matrix G.Ix G.Ix ℝ) (s : Solver G) (x : Found G) : Prop :=
  ∃ l v, x.2 = some l ∧ s.veff = some v ∧ l.length = x.1.length ∧
    needed s.fractional (s.N / (orbitalCapacity s.m (s.pol = 2) : ℝ)) ≤ l.length ∧
    ∀ i (hi : i < l.length) (hi' : i < x.1.length), orbitalElectrons s i ≠ 0 →
      (G.integ fun k => l[i] k ^ 2) ≠ 0 ∧ ∀ k, H0.mulVec l[i] k + G.w k * v k * l[i] k = x.1[i] * (G.w k * l[i] k)

/-- Orbitals of all solvers, `M w` of solver `w`. -/
abbrev Spec.Level (M : Fin r × Fin c → ℕ) : Type := Σ w : Fin r × Fin c, Fin (M w)

/-- The part of the total energy that depends on the density only: nuclei, external potential, Hartree,
exchange, correlation; and the nuclear repulsion. -/
noncomputable def Spec.densityEnergy (ks : KS G r c p) (vext : G.Cols p) (Ex Ec : G.Cols p → ℝ) (H : G.Fld →ₗ[ℝ] G.Fld)
    (n : G.Cols p) : ℝ :=
  (∑ s, G.integ fun k => (ks.vnuc s k + vext s k) * n s k) +
    1 / 2 * (G.integ fun k => (∑ s, n s k) * H (fun k => ∑ s, n s k) k) + Ex n + Ec n + ks.Za * ks.Zb / (2 * ks.a)

/-! ## Pieces -/

/-- Kinetic energy of a solver whose orbitals are eigenfunctions. -/
theorem solver_kinetic (H0 : Matrix G.Ix G.Ix ℝ) (hw : ∀ k, G.w k ≠ 0) (s : Solver G) (hp : s.pol = 1 ∨ s.pol = 2)
    (hN : 0 ≤ s.N) (l : List G.Fld) (e : List ℝ) (v : G.Fld) (hl : s.phi = some l) (he : s.eig = some e)
    (hv : s.veff = some v) (hlen : l.length = e.length)
    (hneed : needed s.fractional (s.N / (orbitalCapacity s.m (s.pol = 2) : ℝ)) ≤ l.length)
    (h : ∀ i (hi : i < l.length) (hi' : i < e.length), orbitalElectrons s i ≠ 0 →
      (G.integ fun k => l[i] k ^ 2) ≠ 0 ∧ ∀ k, H0.mulVec l[i] k + G.w k * v k * l[i] k = e[i] * (G.w k * l[i] k)) :
    s.calcDensity = .ok (fun k => ∑ i : Fin l.length, orbitalElectrons s i.1 * (l[i.1] k ^ 2 / G.integ fun k => l[i.1] k ^ 2)) ∧
    ∃ E n, s.calcEnergy = .ok (E, n) ∧ E.Ts = .fin (∑ i : Fin l.length, orbitalElectrons s i.1 * expectation H0 l[i.1]) := by
  obtain ⟨E, n, h1, h2, h3, h4, -⟩ := C20_energy_partial s hp hN l hl e he v hv hneed (hlen ▸ hneed)
  have hd := (C18_density s hp hN l hl).1 hneed
  have hd' : s.calcDensity = .ok (fun k => ∑ i : Fin l.length,
      orbitalElectrons s i.1 * (l[i.1] k ^ 2 / G.integ fun k => l[i.1] k ^ 2)) := by
    rw [hd]
    congr 1
    funext k
    rw [Finset.mul_sum]
    exact Finset.sum_congr rfl fun i _ => by unfold orbitalElectrons; ring
  refine ⟨hd', E, n, h1, ?_⟩
  rw [h4, h3]
  have hn : n = fun k => ∑ i : Fin l.length, orbitalElectrons s i.1 * (l[i.1] k ^ 2 / G.integ fun k => l[i.1] k ^ 2) := by
    rw [h2] at hd'
    exact Except.ok.inj hd'
  have e1 : (orbitalCapacity s.m (s.pol = 2) : ℝ) * ∑ i : Fin e.length, fill s.fractional
      (s.N / (orbitalCapacity s.m (s.pol = 2) : ℝ)) i.1 * e[i.1] =
      ∑ i : Fin l.length, orbitalElectrons s i.1 * e[i.1]'(hlen ▸ i.2) := by
    rw [Finset.mul_sum]
    rw [← (finCongr hlen).sum_comp]
    exact Finset.sum_congr rfl fun i _ => by
      unfold orbitalElectrons
      simp only [finCongr_apply, Fin.val_cast]
      ring
  have e2 : (G.integ fun k => v k * n k) = ∑ i : Fin l.length, orbitalElectrons s i.1 *
      ((G.integ fun k => l[i.1] k * (v k * l[i.1] k)) / G.integ fun k => l[i.1] k ^ 2) := by
    rw [hn]
    have : (fun k => v k * ∑ i : Fin l.length, orbitalElectrons s i.1 * (l[i.1] k ^ 2 / G.integ fun k => l[i.1] k ^ 2)) =
        fun k => ∑ i : Fin l.length, (orbitalElectrons s i.1 / (G.integ fun k => l[i.1] k ^ 2)) * (l[i.1] k * (v k * l[i.1] k)) := by
      funext k
      rw [Finset.mul_sum]
      exact Finset.sum_congr rfl fun i _ => by ring
    rw [this, G.integ_sum]
    refine Finset.sum_congr rfl fun i _ => ?_
    rw [G.integ_smul]
    ring
  rw [e1, e2]
  change Fl.fin (_ + -_) = _
  congr 1
  rw [← sub_eq_add_neg, ← Finset.sum_sub_distrib]
  refine Finset.sum_congr rfl fun i _ => ?_
  by_cases ho : orbitalElectrons s i.1 = 0
  · rw [ho]; ring
  · obtain ⟨hn0, hE⟩ := h i.1 i.2 (hlen ▸ i.2) ho
    have : (G.integ fun k => l[i.1] k * kineticOf H0 l[i.1] k) = e[i.1]'(hlen ▸ i.2) * (G.integ fun k => l[i.1] k ^ 2) -
        G.integ fun k => l[i.1] k * (v k * l[i.1] k) := by
      have e3 : (fun k => l[i.1] k * kineticOf H0 l[i.1] k) = fun k => e[i.1]'(hlen ▸ i.2) * l[i.1] k ^ 2 +
          (-1) * (l[i.1] k * (v k * l[i.1] k)) := by
        funext k
        unfold kineticOf
        have := hw k
        field_simp
        linear_combination l[i.1] k * hE k
      rw [e3, G.integ_add, G.integ_smul, G.integ_smul]; ring
    unfold expectation
    rw [this]
    field_simp

/-- The Hartree energy along a curve. -/
theorem hartree_changes (H : G.Fld →ₗ[ℝ] G.Fld) (n : G.Cols p) :
    ChangesBy (fun n => 1 / 2 * G.integ fun k => (∑ s, n s k) * H (fun k => ∑ s, n s k) k) n fun δ =>
      (∑ s, G.integ fun k => H (fun k => ∑ s, n s k) k * δ s k) +
        1 / 2 * (G.integ (fun k => (∑ s, n s k) * H (fun k => ∑ s, δ s k) k) -
          G.integ fun k => (∑ s, δ s k) * H (fun k => ∑ s, n s k) k) := by
  intro γ δ h0 hγ
  have ht : ∀ k, HasDerivAt (fun t => ∑ s, γ t s k) (∑ s, δ s k) 0 := fun k => HasDerivAt.fun_sum fun s _ => hγ s k
  have hH : ∀ k, HasDerivAt (fun t => H (fun k => ∑ s, γ t s k) k) (H (fun k => ∑ s, δ s k) k) 0 := by
    intro k
    have e : ∀ f : G.Fld, H f k = ∑ j, f j * H (fun i => if j = i then 1 else 0) k := by
      intro f
      have := congrFun (LinearMap.pi_apply_eq_sum_univ H f) k
      rw [this, Finset.sum_apply]
      rfl
    rw [e]
    simp only [e fun k => ∑ s, γ _ s k]
    exact HasDerivAt.fun_sum fun j _ => (ht j).mul_const _
  have := (integ_hasDerivAt (G := G) (f := fun t k => (∑ s, γ t s k) * H (fun k => ∑ s, γ t s k) k)
    fun k => (ht k).fun_mul (hH k)).const_mul (1 / 2)
  refine this.congr_deriv ?_
  rw [h0, G.integ_add]
  have e2 : (∑ s, G.integ fun k => H (fun k => ∑ s, n s k) k * δ s k) =
      G.integ fun k => (∑ s, δ s k) * H (fun k => ∑ s, n s k) k := by
    rw [← G.integ_sum]
    congr 1
    funext k
    rw [Finset.sum_mul]
    exact Finset.sum_congr rfl fun s _ => mul_comm _ _
  dsimp only
  rw [e2]
  ring

theorem linear_changes (v n : G.Cols p) :
    ChangesBy (fun n => ∑ s, G.integ fun k => v s k * n s k) n fun δ => ∑ s, G.integ fun k => v s k * δ s k := by
  intro γ δ _ hγ
  exact HasDerivAt.fun_sum fun s _ => integ_hasDerivAt fun k => (hγ s k).const_mul _

theorem densityEnergy_changes (ks : KS G r c p) (vext : G.Cols p) (Ex Ec : G.Cols p → ℝ) (vx vc : G.Cols p)
    (H : G.Fld →ₗ[ℝ] G.Fld) (n : G.Cols p) (hX : ChangesBy Ex n fun δ => ∑ s, G.integ fun k => vx s k * δ s k)
    (hC : ChangesBy Ec n fun δ => ∑ s, G.integ fun k => vc s k * δ s k) :
    ChangesBy (densityEnergy ks vext Ex Ec H) n fun δ =>
      (∑ s, G.integ fun k => (ks.vnuc s k + vext s k + (H (fun k => ∑ s, n s k) k + vx s k + vc s k)) * δ s k) +
        1 / 2 * (G.integ (fun k => (∑ s, n s k) * H (fun k => ∑ s, δ s k) k) -
          G.integ fun k => (∑ s, δ s k) * H (fun k => ∑ s, n s k) k) := by
  intro γ δ h0 hγ
  have h1 := linear_changes (fun s k => ks.vnuc s k + vext s k) n γ δ h0 hγ
  have h2 := hartree_changes H n γ δ h0 hγ
  have h := (((h1.fun_add h2).fun_add (hX γ δ h0 hγ)).fun_add (hC γ δ h0 hγ)).add_const (ks.Za * ks.Zb / (2 * ks.a))
  refine h.congr_deriv ?_
  have e : (∑ s, G.integ fun k => (ks.vnuc s k + vext s k + (H (fun k => ∑ s, n s k) k + vx s k + vc s k)) * δ s k) =
      (∑ s, G.integ fun k => (ks.vnuc s k + vext s k) * δ s k) + (∑ s, G.integ fun k => H (fun k => ∑ s, n s k) k * δ s k) +
      (∑ s, G.integ fun k => vx s k * δ s k) + ∑ s, G.integ fun k => vc s k * δ s k := by
    rw [← Finset.sum_add_distrib, ← Finset.sum_add_distrib, ← Finset.sum_add_distrib]
    refine Finset.sum_congr rfl fun s _ => ?_
    rw [← G.integ_add, ← G.integ_add, ← G.integ_add]
    congr 1
    funext k
    ring
  dsimp only
  rw [e]
  ring

/-- What a pass leaves alone before the density. -/
theorem potential_shape (F : Functionals G p) (ks a : KS G r c p) (hc : c ≤ p) (h : KsScf.potential F ks = .ok a) :
    a.kind = ks.kind ∧ a.sym = ks.sym ∧ a.n = ks.n ∧ a.vext = ks.vext ∧ a.vnuc = ks.vnuc ∧ a.Za = ks.Za ∧ a.Zb = ks.Zb ∧
      a.a = ks.a ∧ ∀ w, a.solver w = { ks.solver w with veff := (a.solver w).veff } := by
  unfold KsScf.potential calcHxc rawHxc at h
  cases hk : ks.kind with
  | ni =>
    rw [hk] at h
    simp only [Py.do_eq_ok, Py.pure_eq_ok] at h
    obtain ⟨m, ⟨m', rfl, v, -, rfl⟩, vext, -, vhxc, -, sv, hsv, rfl⟩ := h
    rw [distribute_ok _ hc] at hsv
    obtain rfl := Except.ok.inj hsv
    dsimp only
    cases hs : ks.sym <;> exact ⟨rfl, rfl, rfl, rfl, rfl, rfl, rfl, rfl, fun w => rfl⟩
  | dft =>
    rw [hk] at h
    simp only [Py.do_eq_ok, Py.pure_eq_ok] at h
    obtain ⟨m, ⟨m', ⟨n, -, x, -, y, -, z, -, rfl⟩, v, -, rfl⟩, vext, -, vhxc, -, sv, hsv, rfl⟩ := h
    rw [distribute_ok _ hc] at hsv
    obtain rfl := Except.ok.inj hsv
    dsimp only
    cases hs : ks.sym <;> exact ⟨rfl, rfl, rfl, rfl, rfl, rfl, rfl, rfl, fun w => rfl⟩

theorem energy_solver (F : Functionals G p) (ks a : KS G r c p) (h : ks.energy F = .ok a) : a.solver = ks.solver ∧ a.n = ks.n := by
  unfold KS.energy at h
  cases hk : ks.kind <;> rw [hk] at h <;> simp only [Py.do_eq_ok, Py.pure_eq_ok] at h
  · obtain ⟨x, -, n, -, v, -, y, -, z, -, t, -, u, -, w, -, rfl⟩ := h
    exact ⟨rfl, rfl⟩
  · obtain ⟨x, -, n, -, v, -, rfl⟩ := h
    exact ⟨rfl, rfl⟩

theorem chempot_solver (ks a : KS G r c p) (h : ks.calcChempot = .ok a) : a.solver = ks.solver ∧ a.n = ks.n ∧ a.E = ks.E := by
  unfold KS.calcChempot at h
  simp only [Py.do_eq_ok, Py.pure_eq_ok] at h
  obtain ⟨x, -, n, -, rfl⟩ := h
  exact ⟨rfl, rfl, rfl⟩

/-- The density of a pass. -/
theorem density_shape (W : KsScf.Workers G r c p) (o : KsScf.Options ℝ) (dif : Fl ℝ) (a b : KS G r c p)
    (hflip : o.spinflipsym = false) (hs : a.sym = false)
    (h : KsScf.density W o dif (KsScf.flipPotential o a) = .ok b) :
    ∃ (it : Bool) (no n : G.Cols p) (x : Fin r × Fin c → Found G), (∀ w, W a it w = some (x w)) ∧
      (∀ w, b.solver w = { a.solver w with eig := some (x w).1, phi := (x w).2 }) ∧
      sumDensities p b.solver = .ok no ∧ a.n = some n ∧ b.n = some (KsScf.mix o.alpha n no) ∧ b.kind = a.kind ∧
      b.vext = a.vext ∧ b.vnuc = a.vnuc ∧ b.Za = a.Za ∧ b.Zb = a.Zb ∧ b.a = a.a := by
  unfold KsScf.density KsScf.flipPotential KS.calcDensity at h
  rw [hflip] at h
  simp only [Py.do_eq_ok, Py.pure_eq_ok, Bool.false_eq_true, if_false] at h
  obtain ⟨⟨b', nout⟩, ⟨sv, hcol, no, hno, hbn⟩, nb, hnb, rfl⟩ := h
  rw [hs] at hbn
  simp only [Bool.false_eq_true, if_false, Prod.mk.injEq] at hbn
  obtain ⟨rfl, rfl⟩ := hbn
  generalize hit : W a _ = D at hcol
  have hD : ∀ w, ∃ x, D w = some x := by
    intro w
    cases hw' : D w with
    | some x => exact ⟨x, rfl⟩
    | none => rw [collect_error D a.solver ⟨w, hw'⟩] at hcol; exact nomatch hcol
  choose x hx using hD
  rw [collect_ok D a.solver x hx] at hcol
  obtain rfl := Except.ok.inj hcol
  refine ⟨_, no, nb, x, fun w => by rw [hit]; exact hx w, fun w => rfl, hno, ?_, rfl, rfl, rfl, rfl, rfl, rfl, rfl⟩
  dsimp only at hnb
  revert hnb
  cases a.n <;> simp [need]

/-! ## The property -/

set_option maxHeartbeats 1000000 in
/-- **C97.**  A pass of `Kohnsham.scf` that returns the density it started from, with an exact eigensolver.  The total
energy it reports (plus the energy in the external potential) is the energy of its orbitals, and its first variation
under any change of the orbitals is the asymmetry of the discretised kinetic energy operator and of the Hartree
operator; with symmetric operators the energy is stationary. -/
theorem C97_stationary_partial (F : Functionals G p) (Ex Ec : G.Cols p → ℝ) (vx vc : G.Cols p → G.Cols p)
    (H : G.Fld →ₗ[ℝ] G.Fld) (hF : Laws F Ex Ec vx vc H) (W : KsScf.Workers G r c p) (o : KsScf.Options ℝ)
    (H0 : Fin r × Fin c → Matrix G.Ix G.Ix ℝ) (hw : ∀ k, G.w k ≠ 0)
    (hW : ∀ ks it w x, W ks it w = some x → EigenSolved (H0 w) (ks.solver w) x)
    (st st' : KsScf.State G r c p) (d : Fl ℝ × Fl ℝ) (hb : KsScf.body F W o st = .ok (st', d))
    (hc : c ≤ p) (hk : st.ks.kind = .dft) (hs : st.ks.sym = false) (hflip : o.spinflipsym = false) (hα : o.alpha ≠ 0)
    (hpol : ∀ w, (st.ks.solver w).pol = 1 ∨ (st.ks.solver w).pol = 2) (hN : ∀ w, 0 ≤ (st.ks.solver w).N)
    (n : G.Cols p) (hn : st.ks.n = some n) (hfix : st'.ks.n = some n)
    (hX : ChangesBy Ex n fun δ => ∑ s, G.integ fun k => vx n s k * δ s k)
    (hC : ChangesBy Ec n fun δ => ∑ s, G.integ fun k => vc n s k * δ s k) :
    ∃ (l : Fin r × Fin c → List G.Fld) (vext : G.Cols p) (E : KSEnergy ℝ p) (e : ℝ),
      (∀ w, (st'.ks.solver w).phi = some (l w)) ∧ st.ks.vext = some vext ∧ st'.ks.E = some E ∧ E.E = .fin e ∧
      let occ : Level (fun w => (l w).length) → ℝ := fun i => orbitalElectrons (st.ks.solver i.1) i.2.1
      let spin : Level (fun w => (l w).length) → Fin p := fun i => ⟨i.1.2.1, by omega⟩
      let φ : Level (fun w => (l w).length) → G.Fld := fun i => (l i.1)[i.2.1]
      let total := orbitalEnergy occ spin (fun i => H0 i.1) (densityEnergy st.ks vext Ex Ec H)
      orbitalDensity occ spin φ = n ∧ e + E.Vext = total φ ∧
      ∀ δ : Level (fun w => (l w).length) → G.Fld,
        HasDerivAt (fun t : ℝ => total fun i k => φ i k + t * δ i k)
          (∑ i, occ i / (G.integ fun k => φ i k ^ 2) * ((G.integ fun k => φ i k * kineticOf (H0 i.1) (δ i) k) -
            G.integ fun k => δ i k * kineticOf (H0 i.1) (φ i) k) +
            1 / 2 * (G.integ (fun k => (∑ s, n s k) * H (fun k => ∑ s, densityChange occ spin φ δ s k) k) -
              G.integ fun k => (∑ s, densityChange occ spin φ δ s k) * H (fun k => ∑ s, n s k) k)) 0 ∧
        ((∀ w (f g : G.Fld), (G.integ fun k => f k * kineticOf (H0 w) g k) = G.integ fun k => g k * kineticOf (H0 w) f k) →
          (∀ f g : G.Fld, (G.integ fun k => f k * H g k) = G.integ fun k => g k * H f k) →
          HasDerivAt (fun t : ℝ => total fun i k => φ i k + t * δ i k) 0 0) := by
  unfold KsScf.body at hb
  simp only [Py.do_eq_ok, Py.pure_eq_ok] at hb
  obtain ⟨a, ha, b, hden, k₁, hen, k₂, hch, n', hn', E', hE', dn, -, hb⟩ := hb
  simp only [Prod.mk.injEq] at hb
  obtain ⟨rfl, -⟩ := hb
  dsimp only at hfix ⊢
  -- potential
  obtain ⟨n₀, vext, Exv, ex, vxv, Ecv, ec, vcv, vh, hn₀, hvext, hex, hec, hvh, hveff⟩ := C84_scf F st.ks a hc ha hk hs
  obtain rfl : n₀ = n := by rw [hn] at hn₀; exact (Option.some.inj hn₀).symm
  have hvx : vxv = vx n₀ := by
    obtain ⟨e, he⟩ := hF.exchange n₀
    rw [he] at hex
    simp only [Except.ok.injEq, Prod.mk.injEq] at hex
    exact hex.2.2.symm
  have hvc : vcv = vc n₀ := by
    obtain ⟨e, he⟩ := hF.correlation n₀
    rw [he] at hec
    simp only [Except.ok.injEq, Prod.mk.injEq] at hec
    exact hec.2.2.symm
  have hvh' : vh = fun _ => H fun k => ∑ s, n₀ s k := by
    rw [hF.hartree n₀] at hvh
    exact (Except.ok.inj hvh).symm
  subst hvx hvc hvh'
  obtain ⟨p1, p2, p3, p4, p5, p6, p7, p8, psol⟩ := potential_shape F st.ks a hc ha
  -- density
  obtain ⟨it, no, nb, x, hx, bsol, hno, hnb, bn, b1, b4, b5, b6, b7, b8⟩ := density_shape W o st.diff a b hflip (p2.trans hs) hden
  obtain rfl : nb = n₀ := by
    rw [p3, hn₀] at hnb
    exact (Option.some.inj hnb).symm
  have hsol : ∀ w, EigenSolved (H0 w) (a.solver w) (x w) := fun w => hW a it w (x w) (hx w)
  choose l v hl hv hlen hneed heig using hsol
  have hocc : ∀ w i, orbitalElectrons (a.solver w) i = orbitalElectrons (st.ks.solver w) i := fun w i => by rw [psol w]; rfl
  have hvv : ∀ w : Fin r × Fin c, v w = fun k => st.ks.vnuc ⟨w.2.1, by omega⟩ k + vext ⟨w.2.1, by omega⟩ k +
      (H (fun k => ∑ s, nb s k) k + vx nb ⟨w.2.1, by omega⟩ k + vc nb ⟨w.2.1, by omega⟩ k) := fun w => by
    have := hveff w.1 w.2
    rw [show (w.1, w.2) = w from rfl, hv w] at this
    exact Option.some.inj this
  have hkin := fun w => solver_kinetic (H0 w) hw (b.solver w)
    (by rw [bsol, psol w]; exact hpol w) (by rw [bsol, psol w]; exact hN w) (l w) (x w).1 (v w) (by rw [bsol]; exact hl w)
    (by rw [bsol]) (by rw [bsol]; exact hv w) (hlen w) (by rw [bsol]; exact hneed w) (by rw [bsol]; exact heig w)
  have hel : ∀ w i, orbitalElectrons (b.solver w) i = orbitalElectrons (st.ks.solver w) i :=
    fun w i => by rw [bsol]; exact hocc w i
  simp only [hel] at hkin
  simp only [hocc] at heig
  rw [sumDensities_eq _ _ (fun w => (hkin w).1) hc] at hno
  have hdens : orbitalDensity (G := G) (p := p) (fun i : Level (fun w => (l w).length) => orbitalElectrons (st.ks.solver i.1) i.2.1)
      (fun i => ⟨i.1.2.1, by omega⟩) (fun i => (l i.1)[i.2.1]) = no := by
    rw [← Except.ok.inj hno]
    funext q k
    unfold orbitalDensity
    rw [Fintype.sum_sigma, Fintype.sum_prod_type]
    by_cases hq : q.1 < c
    · rw [dif_pos hq]
      refine Finset.sum_congr rfl fun i _ => ?_
      rw [Finset.sum_eq_single (⟨q.1, hq⟩ : Fin c)]
      · exact Finset.sum_congr rfl fun j _ => if_pos rfl
      · intro j _ hj
        exact Finset.sum_eq_zero fun m _ => if_neg fun (e : (⟨j.1, _⟩ : Fin p) = q) => hj (Fin.ext (show j.1 = q.1 from congrArg Fin.val e))
      · simp
    · rw [dif_neg hq]
      exact Finset.sum_eq_zero fun i _ => Finset.sum_eq_zero fun j _ => Finset.sum_eq_zero fun m _ =>
        if_neg fun (e : (⟨j.1, _⟩ : Fin p) = q) => hq (congrArg Fin.val e ▸ j.2)
  obtain ⟨es1, es2⟩ := energy_solver _ _ _ hen
  obtain ⟨cs1, cs2, cs3⟩ := chempot_solver _ _ hch
  have hno' : no = nb := by
    rw [cs2, es2, bn] at hfix
    have hm := Option.some.inj hfix
    funext q k
    have := congrFun (congrFun hm q) k
    simp only [KsScf.mix] at this
    have h0 : o.alpha * (no q k - nb q k) = 0 := by linear_combination this
    rcases mul_eq_zero.mp h0 with h | h
    · exact absurd h hα
    · exact sub_eq_zero.mp h
  subst hno'
  obtain ⟨E, es, vs, ts, n1, vext1, hE1, hn1, hve1, hte, hTs, -, -, hEn, hVe, hVnn, -, hdft⟩ := C34_energy F _ _ hc hen
  obtain rfl : n1 = no := by rw [← es2, ← cs2, hfix] at hn1; exact (Option.some.inj hn1).symm
  obtain rfl : vext1 = vext := by rw [b4, p4, hvext] at hve1; exact (Option.some.inj hve1).symm
  obtain ⟨Eh, vh, ex', vx', ec', vc', hp0, -, hvh2, hex2, hec2, hEh, hEE⟩ := hdft ((b1.trans p1).trans hk)
  have hEx : E.Ex = Ex n1 := by
    obtain ⟨e, he⟩ := hF.exchange n1
    rw [he] at hex2
    simp only [Except.ok.injEq, Prod.mk.injEq] at hex2
    exact hex2.1.symm
  have hEc : E.Ec = Ec n1 := by
    obtain ⟨e, he⟩ := hF.correlation n1
    rw [he] at hec2
    simp only [Except.ok.injEq, Prod.mk.injEq] at hec2
    exact hec2.1.symm
  rw [hvh] at hvh2
  obtain rfl := Except.ok.inj hvh2
  have hts : ∀ w, ts w = ∑ i : Fin (l w).length, orbitalElectrons (st.ks.solver w) i.1 * expectation (H0 w) (l w)[i.1] := by
    intro w
    obtain ⟨m, hm⟩ := hte w
    obtain ⟨-, E2, n2, h1, h2⟩ := hkin w
    rw [h1] at hm
    have := congrArg (fun e => e.1.Ts) (Except.ok.inj hm)
    dsimp only at this
    rw [h2] at this
    exact (Fl.fin.inj this).symm
  have hU := densityEnergy_changes st.ks vext1 Ex Ec (vx n1) (vc n1) H n1 hX hC
  have hmain := orbitalEnergy_hasDerivAt (G := G)
    (fun i : Level (fun w => (l w).length) => orbitalElectrons (st.ks.solver i.1) i.2.1)
    (fun i => (⟨i.1.2.1, by omega⟩ : Fin p)) (fun i => H0 i.1) (densityEnergy st.ks vext1 Ex Ec H)
    (fun i => (l i.1)[i.2.1]) (fun i => (x i.1).1[i.2.1]'(hlen i.1 ▸ i.2.2))
    (fun s k => st.ks.vnuc s k + vext1 s k + (H (fun k => ∑ s, n1 s k) k + vx n1 s k + vc n1 s k))
    (fun δ => 1 / 2 * (G.integ (fun k => (∑ s, n1 s k) * H (fun k => ∑ s, δ s k) k) -
      G.integ fun k => (∑ s, δ s k) * H (fun k => ∑ s, n1 s k) k))
    (fun i hi => (heig i.1 i.2.1 i.2.2 (hlen i.1 ▸ i.2.2) hi).1)
    (fun i hi k => by
      have := (heig i.1 i.2.1 i.2.2 (hlen i.1 ▸ i.2.2) hi).2 k
      rw [hvv] at this
      unfold kineticOf
      have hwk := hw k
      field_simp
      linear_combination this) (by rw [hdens]; exact hU)
  refine ⟨l, vext1, E, _, fun w => ?_, hvext, ?_, hEE, hdens, ?_, fun δ => ⟨?_, fun hT hH => ?_⟩⟩
  · rw [cs1, es1, bsol]; exact hl w
  · rw [cs3, hE1]
  · unfold orbitalEnergy
    rw [hdens, Fintype.sum_sigma]
    unfold densityEnergy
    rw [hEx, hEc, hEn, hVe, hEh, b5, p5, b6, p6, b7, p7, b8, p8, Finset.sum_congr rfl fun w _ => hts w]
    have e1 : (∑ s, G.integ fun k => (st.ks.vnuc s k + vext1 s k) * n1 s k) =
        (G.integ fun k => ∑ s, n1 s k * st.ks.vnuc s k) + G.integ fun k => ∑ s, n1 s k * vext1 s k := by
      rw [← G.integ_sum, ← G.integ_add]
      congr 1
      funext k
      rw [← Finset.sum_add_distrib]
      exact Finset.sum_congr rfl fun s _ => by ring
    rw [e1]
    ring
  · exact hmain δ
  · refine (hmain δ).congr_deriv ?_
    simp only [hT _ _ (δ _), sub_self, mul_zero, Finset.sum_const_zero, zero_add]
    rw [hH, sub_self, mul_zero]

/-! ## Concrete cases -/

section Concrete
open Classical

/-- Solver with two electrons in one orbital. -/
noncomputable def pairSolver (v : G.Fld) : Solver G := { Nmo := 1, N := 2, m := 0, pol := 1, veff := some v }

/-- Its density. -/
noncomputable def pairDensity (φ : G.Fld) : G.Cols 1 := fun _ k => 2 * (φ k ^ 2 / G.integ fun k => φ k ^ 2)

/-- Kohn-Sham object with that density and the nuclear potential that makes the effective potential `v`. -/
noncomputable def pairKs (F : G.Cols 1 → G.Cols 1) (v φ : G.Fld) : KS G 1 1 1 where
  kind := .dft
  sym := false
  Za := 1
  Zb := 1
  a := 1
  solver := fun _ => pairSolver v
  vnuc := fun s k => v k - F (pairDensity φ) s k
  vext := some fun _ _ => 0
  n := some (pairDensity φ)

/-- Eigensolver that knows one solution. -/
noncomputable def pairWorkers (v φ : G.Fld) (e : ℝ) : KsScf.Workers G 1 1 1 := fun ks _ w =>
  if ks.solver w = pairSolver v then some ([e], some [φ]) else none

theorem pair_electrons (v : G.Fld) (i : ℕ) : orbitalElectrons (pairSolver (G := G) v) i = if i = 0 then 2 else 0 := by
  unfold orbitalElectrons pairSolver orbitalCapacity fill fillingWhole
  norm_num

theorem pair_solved (H0 : Matrix G.Ix G.Ix ℝ) (v φ : G.Fld) (e : ℝ) (hφ : (G.integ fun k => φ k ^ 2) ≠ 0)
    (h : ∀ k, H0.mulVec φ k + G.w k * v k * φ k = e * (G.w k * φ k)) (ks : KS G 1 1 1) (it : Bool) (w x)
    (hx : pairWorkers v φ e ks it w = some x) : EigenSolved H0 (ks.solver w) x := by
  unfold pairWorkers at hx
  split at hx
  · rename_i hs
    obtain rfl := Option.some.inj hx
    rw [hs]
    refine ⟨[φ], v, rfl, rfl, rfl, ?_, fun i hi _ _ => ?_⟩
    · unfold needed pairSolver orbitalCapacity
      norm_num
    · obtain rfl : i = 0 := by simpa using hi
      exact ⟨hφ, h⟩
  · exact nomatch hx

/-- A pass that returns the density it started from. -/
theorem pair_pass (F : Functionals G 1) (Ex Ec : G.Cols 1 → ℝ) (vx vc : G.Cols 1 → G.Cols 1)
    (H : G.Fld →ₗ[ℝ] G.Fld) (hF : Laws F Ex Ec vx vc H) (v φ : G.Fld) (e : ℝ) :
    let ks := pairKs (fun n s k => vx n s k + vc n s k + H (fun k => ∑ s, n s k) k) v φ
    ∃ st' d, KsScf.body F (pairWorkers v φ e) ⟨false, false, false, false, 10, 1, 1 / 2⟩ ⟨ks, .fin 0, fun _ _ => 0, .fin 10⟩ =
      .ok (st', d) ∧ st'.ks.n = ks.n ∧ ∀ w, (st'.ks.solver w).phi = some [φ] := by
  intro ks
  obtain ⟨ex, hex⟩ := hF.exchange (pairDensity φ)
  obtain ⟨ec, hec⟩ := hF.correlation (pairDensity φ)
  have hH := hF.hartree (pairDensity φ)
  have h1 : ∃ a, KsScf.potential F ks = .ok a ∧ ∃ vhxc, a.vhxc = some vhxc := by
    unfold KsScf.potential KS.calcHxc KS.rawHxc
    simp only [ks, pairKs, KS.need, hex, hec, hH, bind, Except.bind, pure, Except.pure, Bool.false_eq_true, if_false]
    rw [distribute_ok _ le_rfl]
    exact ⟨_, rfl, _, rfl⟩
  obtain ⟨a, ha, vhxc, hvhxc⟩ := h1
  obtain ⟨n₀, vext, Exv, ex', vxv, Ecv, ec', vcv, vh, hn₀, hvext, hex', hec', hvh, hveff⟩ := C84_scf F ks a le_rfl ha rfl rfl
  obtain ⟨p1, p2, p3, p4, p5, p6, p7, p8, psol⟩ := potential_shape F ks a le_rfl ha
  obtain rfl := Option.some.inj hn₀
  obtain rfl := Option.some.inj hvext
  rw [hex] at hex'
  rw [hec] at hec'
  rw [hH] at hvh
  simp only [Except.ok.injEq, Prod.mk.injEq] at hex' hec' hvh
  obtain ⟨-, -, rfl⟩ := hex'
  obtain ⟨-, -, rfl⟩ := hec'
  obtain rfl := hvh
  have hs : ∀ w, a.solver w = pairSolver v := by
    intro w
    rw [psol w]
    have := hveff w.1 w.2
    rw [show (w.1, w.2) = w from rfl] at this
    rw [this]
    unfold pairSolver
    have : (fun k => ks.vnuc ⟨w.2.1, w.2.2⟩ k + 0 + (H (fun k => ∑ s, pairDensity φ s k) k + vx (pairDensity φ) ⟨w.2.1, w.2.2⟩ k +
        vc (pairDensity φ) ⟨w.2.1, w.2.2⟩ k)) = v := by
      funext k
      simp only [ks, pairKs]
      ring
    simp only [this]
    rfl
  let s1 : Solver G := { pairSolver v with eig := some [e], phi := some [φ] }
  let b : KS G 1 1 1 := { a with solver := fun _ => s1, n := some (pairDensity φ) }
  have hneed : needed s1.fractional (s1.N / (orbitalCapacity s1.m (s1.pol = 2) : ℝ)) ≤ 1 := by
    simp only [s1]
    unfold needed pairSolver orbitalCapacity
    norm_num
  have hd : s1.calcDensity = .ok (pairDensity φ 0) := by
    have := (C18_density s1 (.inl rfl) (by simp [s1, pairSolver]) [φ] rfl).1 hneed
    rw [this]
    congr 1
    funext k
    simp only [s1, pairSolver, orbitalCapacity, fill, fillingWhole, pairDensity, List.length_singleton]
    norm_num
  have hb : KsScf.density (pairWorkers v φ e) ⟨false, false, false, false, 10, 1, 1 / 2⟩ (.fin 10)
      (KsScf.flipPotential ⟨false, false, false, false, 10, 1, 1 / 2⟩ a) = .ok b := by
    have hc : ∀ it, collect (pairWorkers v φ e a it) a.solver = .ok fun _ => s1 := fun it => by
      rw [collect_ok _ _ (fun _ => ([e], some [φ])) fun w => by unfold pairWorkers; rw [if_pos (hs w)]]
      congr 1
      funext w
      rw [hs w]
    have hsd : sumDensities 1 (fun _ : Fin 1 × Fin 1 => s1) = .ok (pairDensity φ) := by
      rw [sumDensities_eq _ (fun _ => pairDensity φ 0) (fun _ => hd) le_rfl]
      congr 1
      funext q k
      rw [dif_pos q.2, Fin.sum_univ_one]
      rfl
    unfold KsScf.density KsScf.flipPotential KS.calcDensity
    simp only [Bool.false_eq_true, if_false, hc, bind, Except.bind, hsd, pure, Except.pure, p2, p3]
    have hmix : KsScf.mix (1 / 2 : ℝ) (pairDensity φ) (pairDensity φ) = pairDensity φ := by
      unfold KsScf.mix
      funext q k
      ring
    simp only [ks, pairKs, need, Bool.false_eq_true, if_false, hmix, b]
    congr 2
    exact p2.symm
  obtain ⟨Es, ns, hEs, -⟩ := C20_energy_partial s1 (.inl rfl) (by simp [s1, pairSolver]) [φ] rfl [e] rfl v rfl hneed hneed
  have hen : ∃ k₁, b.energy F = .ok k₁ ∧ k₁.solver = (fun _ => s1) ∧ k₁.n = some (pairDensity φ) ∧ ∃ E, k₁.E = some E := by
    unfold KS.energy
    have hse : ∃ x, solverEnergies 1 b.solver = .ok x := by
      unfold solverEnergies
      rw [show rowMajor 1 1 = [(0, 0)] from rfl]
      simp only [b, List.foldlM_cons, List.foldlM_nil, hEs, bind, Except.bind]
      exact ⟨_, rfl⟩
    obtain ⟨x, hx⟩ := hse
    have hbk : b.kind = .dft := p1
    have hbv : b.vext = some fun _ _ => 0 := p4
    have hbn : b.n = some (pairDensity φ) := rfl
    have hbh : b.vhxc = some vhxc := hvhxc
    simp only [hbk, hx, hbv, hbn, hbh, need, hex, hec, hH, bind, Except.bind, pure, Except.pure, col]
    exact ⟨_, rfl, rfl, rfl, _, rfl⟩
  obtain ⟨k₁, hen, hk1, hk2, E, hk3⟩ := hen
  have hch : ∃ k₂, k₁.calcChempot = .ok k₂ ∧ k₂.n = some (pairDensity φ) ∧ k₂.E = some E := by
    unfold KS.calcChempot
    rw [hk1]
    have : s1.getHomo = .ok e := by
      unfold Solver.getHomo Solver.occupation
      simp only [s1, pairSolver]
      norm_num [Solver.eigAt, pyGet]
    rw [show rowMajor 1 1 = [(0, 0)] from rfl]
    simp only [List.mapM_cons, List.mapM_nil, this, bind, Except.bind, pure, Except.pure, pyMax]
    exact ⟨_, rfl, hk2, hk3⟩
  obtain ⟨k₂, hch, hk4, hk5⟩ := hch
  have hdn : ∃ y, KsScf.difN (pairDensity φ) (fun _ _ => 0) = .ok y := ⟨_, rfl⟩
  obtain ⟨y, hdn⟩ := hdn
  unfold KsScf.body
  simp only [ha, hb, hen, hch, hk4, hk5, need, hdn, bind, Except.bind, pure, Except.pure]
  exact ⟨_, _, rfl, hk4, fun w => by rw [(chempot_solver _ _ hch).1, hk1]⟩

/-- Functionals without interaction. -/
def noInteraction (G : Grid ℝ) : Functionals G 1 :=
  ⟨fun _ => .ok (0, fun _ => 0, fun _ _ => 0), fun _ => .ok (0, fun _ => 0, fun _ _ => 0), fun _ => .ok fun _ _ => 0⟩

theorem sinh_lt (x : ℝ) (hx : 0 < x) : Real.sinh x < x * Real.cosh x := by
  obtain ⟨y, hy, h⟩ := exists_deriv_eq_slope Real.sinh hx Real.continuous_sinh.continuousOn
    Real.differentiable_sinh.differentiableOn
  rw [Real.deriv_sinh, Real.sinh_zero, sub_zero, sub_zero, eq_div_iff hx.ne'] at h
  rw [← h, mul_comm x]
  refine mul_lt_mul_of_pos_right ?_ hx
  rw [Real.cosh_lt_cosh, abs_of_pos hy.1, abs_of_pos hx]
  exact hy.2

open Init Ops FD in
/-- On the 2 x 2 grid the operator `elap` is not symmetric. -/
theorem elap_asymmetric (a L : ℝ) (ha0 : 0 < a) (hL : 0 < L) :
    ∃ R, build 2 2 1 a L (centred 1) ![-1/2, 0, 1/2] ![1, -2, 1] = .ok R ∧
      0 < ∑ k, (R.elap k (at2 0 1) - R.elap (at2 0 1) k) := by
  refine ⟨_, rfl, ?_⟩
  rw [Verif.sum_grid]
  have hd : ∀ (d : Fin 2 → ℝ) (M : Matrix (Fin 2) (Fin 2) ℝ) i j, (diag d * M) i j = d i * M i j := fun d M i j => by
    rw [Matrix.mul_apply, Fin.sum_univ_two]
    fin_cases i <;> simp [diag]
  simp only [operators, realInput, kron, ia_at2, ir_at2, Matrix.add_apply, Fin.sum_univ_two]
  simp only [angular, radial, hd, Matrix.smul_apply, Matrix.add_apply]
  simp [diag, FD.sym, shiftSum, upperLeft, lowerRight, bcMat, Fin.sum_univ_three, centred]
  erw [hd, hd, hd, hd]
  simp
  set h := hr 2 L with hh
  have hpos : 0 < h := by rw [hh, hr_eq]; positivity
  have x0 : xr 2 L 0 = h - h / 2 := by rw [xr_eq, hh, hr_eq]; norm_num; ring
  have x1 : xr 2 L 1 = h + h / 2 := by rw [xr_eq, hh, hr_eq]; norm_num; ring
  have y1 : xa 2 1 = Real.pi - xa 2 0 := by rw [xa_eq, xa_eq]; norm_num; ring
  have ys : 0 < Real.sin (xa 2 0) := by
    refine Real.sin_pos_of_pos_of_lt_pi ?_ ?_ <;> rw [xa_eq] <;> norm_num <;> linarith [Real.pi_pos]
  rw [y1, Real.sin_pi_sub, Real.cos_pi_sub, x0, x1, Real.sinh_sub, Real.sinh_add, Real.cosh_sub, Real.cosh_add]
  have hc := Real.cosh_pos h
  have key := sub_pos.mpr (sinh_lt (h / 2) (half_pos hpos))
  have : 0 < a * Real.sin (xa 2 0) * (2 * Real.cosh h / h ^ 2) * (h / 2 * Real.cosh (h / 2) - Real.sinh (h / 2)) := by
    positivity
  refine this.trans_eq ?_
  field_simp
  ring

open Init Ops FD in
/-- C97 as wished is false: on the grid with one two-point block in each direction, with the operators the grid builds,
two electrons in one exact orbital without interaction.  The pass of `scf` returns the density it started from, yet the
energy changes in first order with the orbital: `elap` is not symmetric, so an eigenfunction of the code's Hamiltonian is
not a stationary point of the code's energy. -/
theorem C97_refuted (a L : ℝ) (ha0 : 0 < a) (hL : 0 < L) (wa wr : Fin (NC.npts 2 1) → ℝ)
    (hwa : NC.Returns 2 1 (.ok wa)) (hwr : NC.Returns 2 1 (.ok wr)) :
    ∃ R, build (NC.npts 2 1) (NC.npts 2 1) 1 a L (centred 1) ![-1/2, 0, 1/2] ![1, -2, 1] = .ok R ∧
      let G := mkGrid 2 1 1 a L wa wr
      ∀ f : G.Fld, let H0 : Matrix G.Ix G.Ix ℝ := Solver.hamiltonian 0 R.elap R.olap G.w f
      ∃ (W : KsScf.Workers G 1 1 1) (o : KsScf.Options ℝ) (st st' : KsScf.State G 1 1 1) (d : Fl ℝ × Fl ℝ) (φ : G.Fld),
        (∀ ks it w x, W ks it w = some x → EigenSolved H0 (ks.solver w) x) ∧
        KsScf.body (noInteraction G) W o st = .ok (st', d) ∧ st'.ks.n = st.ks.n ∧ o.alpha ≠ 0 ∧
        (∀ w, (st'.ks.solver w).phi = some [φ]) ∧
        ∃ (δ : G.Fld) (D : ℝ), D ≠ 0 ∧ HasDerivAt (fun t : ℝ => orbitalEnergy (fun _ : Fin 1 => 2) (fun _ => (0 : Fin 1))
          (fun _ => H0) (densityEnergy st.ks (fun _ _ => 0) (fun _ => 0) (fun _ => 0) 0) fun _ k => φ k + t * δ k) D 0 := by
  obtain ⟨R, hB, hR⟩ := elap_asymmetric a L ha0 hL
  refine ⟨R, hB, ?_⟩
  intro G f H0
  have hlaws : Laws (noInteraction G) (fun _ => 0) (fun _ => 0) (fun _ _ _ => 0) (fun _ _ _ => 0) 0 :=
    ⟨fun _ => ⟨_, rfl⟩, fun _ => ⟨_, rfl⟩, fun _ => rfl⟩
  have hw : ∀ k, 0 < G.w k := fun k => by
    change 0 < w 2 2 a L k
    rw [w_eq]
    have h1 := sinh_pos (Na := 2) (Nr := 2) hL k
    have h2 := sin_pos (Na := 2) (Nr := 2) k
    positivity
  have wi : ∀ k, G.wi k = 9 / 16 := fun k => by
    change wa _ * wr _ = 9 / 16
    rw [NC_two_one wa hwa, NC_two_one wr hwr]
    norm_num
  have hc : 0 < 2 * G.pi * G.hr * G.ha := by
    change 0 < 2 * Real.pi * hr 2 L * ha 2
    rw [hr_eq, ha_eq]
    have := Real.pi_pos
    positivity
  have hφ : (G.integ fun k => (1 : ℝ) ^ 2) ≠ 0 := by
    unfold Grid.integ
    refine (mul_pos hc (Finset.sum_pos (fun k _ => ?_) ⟨at2 0 0, Finset.mem_univ _⟩)).ne'
    rw [wi]
    have := hw k
    positivity
  obtain ⟨st', d, hb, hn, hp⟩ := pair_pass (noInteraction G) _ _ _ _ _ hlaws (fun k => - H0.mulVec (fun _ => 1) k / G.w k)
    (fun _ => 1) 0
  refine ⟨_, _, _, st', d, fun _ => 1, fun ks it w x => pair_solved H0 _ _ _ hφ (fun k => ?_) ks it w x, hb, hn, by norm_num, hp,
    fun k => if k = at2 0 1 then 1 else 0, ?_⟩
  · have := (hw k).ne'
    field_simp
    ring
  have hz : ∀ n : G.Cols 1, ChangesBy (G := G) (p := 1) (fun _ => 0) n fun δ => ∑ s, G.integ fun k => 0 * δ s k := by
    intro n γ δ _ _
    simpa [Grid.integ_zero] using hasDerivAt_const (0 : ℝ) (0 : ℝ)
  set ks := pairKs (fun n s k => (0 : ℝ) + 0 + (0 : G.Fld →ₗ[ℝ] G.Fld) (fun k => ∑ s, n s k) k)
    (fun k => - H0.mulVec (fun _ => 1) k / G.w k) (fun _ => 1) with hks
  have hU := densityEnergy_changes ks (fun _ _ => 0) (fun _ => 0) (fun _ => 0) (fun _ _ => 0) (fun _ _ => 0) 0
    (orbitalDensity (fun _ : Fin 1 => 2) (fun _ => (0 : Fin 1)) fun _ _ => 1) (hz _) (hz _)
  have hmain := orbitalEnergy_hasDerivAt (G := G) (fun _ : Fin 1 => 2) (fun _ => (0 : Fin 1)) (fun _ => H0) _ (fun _ _ => 1)
    (fun _ => 0) _ _ (fun _ _ => hφ) (fun i _ k => ?_) hU fun _ k => if k = at2 0 1 then 1 else 0
  · refine ⟨_, ?_, hmain⟩
    simp only [LinearMap.zero_apply, Pi.zero_apply, mul_zero, Grid.integ_zero, sub_self, add_zero, Fin.sum_univ_one]
    refine mul_ne_zero (div_ne_zero two_ne_zero hφ) ?_
    have e : (G.integ fun k => 1 * kineticOf H0 (fun k => if k = at2 0 1 then 1 else 0) k) -
        (G.integ fun k => (if k = at2 0 1 then 1 else 0) * kineticOf H0 (fun _ => 1) k) =
        2 * G.pi * G.hr * G.ha * (9 / 16) * (-(1 / 2)) * ∑ k, (R.elap k (at2 0 1) - R.elap (at2 0 1) k) := by
      have hH : ∀ k l, H0 k l = -(1 / 2) * R.elap k l := by
        have : H0 = (-(1 / 2) : ℝ) • R.elap := by simp [H0, Solver.hamiltonian]
        intro k l
        rw [this]
        rfl
      have h1 : (∑ k, G.wi k * G.w k * (1 * kineticOf H0 (fun k => if k = at2 0 1 then 1 else 0) k)) =
          9 / 16 * (-(1 / 2)) * ∑ k, R.elap k (at2 0 1) := by
        rw [Finset.mul_sum]
        refine Finset.sum_congr rfl fun k _ => ?_
        have := (hw k).ne'
        unfold kineticOf Matrix.mulVec dotProduct
        simp only [mul_ite, mul_one, mul_zero, Finset.sum_ite_eq', Finset.mem_univ, if_true, wi, hH]
        field_simp
      have h2 : (∑ k, G.wi k * G.w k * ((if k = at2 0 1 then 1 else 0) * kineticOf H0 (fun _ => 1) k)) =
          9 / 16 * (-(1 / 2)) * ∑ k, R.elap (at2 0 1) k := by
        simp only [ite_mul, one_mul, zero_mul, mul_ite, mul_zero, Finset.sum_ite_eq', Finset.mem_univ, if_true, wi]
        have := (hw (at2 0 1)).ne'
        unfold kineticOf Matrix.mulVec dotProduct
        simp only [mul_one, hH, ← Finset.mul_sum]
        field_simp
        rfl
      unfold Grid.integ
      rw [h1, h2, Finset.sum_sub_distrib]
      ring
    rw [e]
    have := hR.ne'
    refine mul_ne_zero (mul_ne_zero (mul_ne_zero hc.ne' (by norm_num)) (by norm_num)) this
  · simp only [hks, pairKs, LinearMap.zero_apply, Pi.zero_apply]
    unfold kineticOf
    have := (hw k).ne'
    field_simp
    ring

/-- Grid with two points and unit weights. -/
noncomputable def twoPoints : Grid ℝ := ⟨1, 2, 1 / 2, 1, 1, fun _ => 1, fun _ => 1⟩

/-- Exchange energy `∫ n²`, no correlation, Hartree potential `n`. -/
noncomputable def twoFunctionals : Functionals twoPoints 1 :=
  ⟨fun n => .ok (twoPoints.integ fun k => n 0 k ^ 2, fun _ => 0, fun _ k => 2 * n 0 k),
    fun _ => .ok (0, fun _ => 0, fun _ _ => 0), fun n => .ok fun _ k => ∑ s, n s k⟩

/-- Two points, Hartree potential `n`, exchange energy `∫ n²`, a symmetric operator that couples the points.  The orbital
`(1, 2)` is an eigenfunction; the pass is self-consistent, and the energy is stationary for every change of the orbital. -/
example : let φ : twoPoints.Fld := fun k => if k.1 = 0 then 1 else 2
    let H0 : Matrix twoPoints.Ix twoPoints.Ix ℝ := fun k l => if k.1 = l.1 then 1 else -1
    ∃ (W : KsScf.Workers twoPoints 1 1 1) (o : KsScf.Options ℝ) (st st' : KsScf.State twoPoints 1 1 1) (d : Fl ℝ × Fl ℝ),
    KsScf.body twoFunctionals W o st = .ok (st', d) ∧ st'.ks.n = st.ks.n ∧
    st.ks.n = some (fun _ k => if k.1 = 0 then 2 / 5 else 8 / 5) ∧ (∀ w, (st'.ks.solver w).phi = some [φ]) ∧
    ∀ δ : Level (r := 1) (c := 1) (fun _ => 1) → twoPoints.Fld,
      HasDerivAt (fun t : ℝ => orbitalEnergy (fun _ => 2) (fun _ => (0 : Fin 1)) (fun _ => H0)
        (densityEnergy st.ks (fun _ _ => 0) (fun n => twoPoints.integ fun k => n 0 k ^ 2) (fun _ => 0) LinearMap.id)
        fun i k => φ k + t * δ i k) 0 0 := by
  intro φ H0
  have hlaws : Laws twoFunctionals (fun n => twoPoints.integ fun k => n 0 k ^ 2) (fun _ => 0) (fun n _ k => 2 * n 0 k)
    (fun _ _ _ => 0) LinearMap.id := ⟨fun n => ⟨_, rfl⟩, fun n => ⟨_, rfl⟩, fun n => rfl⟩
  have hI : ∀ f : twoPoints.Fld, twoPoints.integ f = f ⟨0, by decide⟩ + f ⟨1, by decide⟩ := by
    intro f
    change 2 * (1 / 2) * 1 * 1 * ∑ k : Fin 2, 1 * 1 * f k = _
    rw [Fin.sum_univ_two]
    norm_num
    rfl
  have hφ : (twoPoints.integ fun k => φ k ^ 2) = 5 := by rw [hI]; norm_num [φ]
  obtain ⟨st', d, hb, hn, hp⟩ := pair_pass twoFunctionals _ _ _ _ _ hlaws (fun k => if k.1 = 0 then 1 else -1 / 2) φ 0
  have hW := pair_solved H0 (fun k => if k.1 = 0 then 1 else -1 / 2) φ 0 (by rw [hφ]; norm_num) (fun k => by
    change (∑ l : Fin 2, H0 k l * φ l) + 1 * _ * _ = 0 * _
    rw [Fin.sum_univ_two]
    match k with
    | ⟨0, _⟩ => simp [H0, φ]; norm_num
    | ⟨1, _⟩ => simp [H0, φ]; norm_num)
  have hd : pairDensity φ = fun _ k => if k.1 = 0 then 2 / 5 else 8 / 5 := by
    funext s k
    unfold pairDensity
    rw [hφ]
    simp only [φ]
    split <;> norm_num
  obtain ⟨l, vext, E, e, hl, hv, -, -, -, -, hder⟩ := C97_stationary_partial twoFunctionals _ _ _ _ _ hlaws _ _ (fun _ => H0)
    (fun k => one_ne_zero) hW _ _ _ hb le_rfl rfl rfl rfl (by norm_num) (fun _ => .inl rfl) (fun _ => zero_le_two) _ rfl hn
    (fun γ δ h0 hγ => by
      have := integ_hasDerivAt (G := twoPoints) (f := fun t k => γ t 0 k ^ 2) fun k => (hγ 0 k).fun_pow 2
      refine this.congr_deriv ?_
      dsimp only
      rw [Fin.sum_univ_one]
      congr 1
      funext k
      rw [h0]
      ring)
    (fun γ δ h0 hγ => by simpa [Grid.integ_zero] using hasDerivAt_const (0 : ℝ) (0 : ℝ))
  obtain rfl := Option.some.inj hv
  obtain rfl : l = fun _ => [φ] := by
    funext w
    have := hl w
    rw [hp w] at this
    exact (Option.some.inj this).symm
  refine ⟨_, _, _, st', d, hb, hn, congrArg some hd, hp, fun δ => ?_⟩
  have := (hder δ).2 ?_ ?_
  · have hocc : ∀ i : Level (r := 1) (c := 1) (fun _ => 1), orbitalElectrons (pairSolver (G := twoPoints)
        fun k => if k.1 = 0 then 1 else -1 / 2) i.2.1 = 2 := fun i => by
      rw [pair_electrons, if_pos (by have : i.2.1 < 1 := i.2.2; omega)]
    have hφ' : ∀ i : Level (r := 1) (c := 1) (fun _ => 1), [φ][i.2.1] = φ := fun i => by
      have : i.2 = 0 := Subsingleton.elim _ _
      rw [this]
      rfl
    have he : ∀ (o o' : Level (r := 1) (c := 1) (fun _ => 1) → ℝ) (s s' : Level (r := 1) (c := 1) (fun _ => 1) → Fin 1)
        (ψ ψ' : Level (r := 1) (c := 1) (fun _ => 1) → twoPoints.Fld) (U : twoPoints.Cols 1 → ℝ), o = o' → s = s' → ψ = ψ' →
        orbitalEnergy o s (fun _ => H0) U ψ = orbitalEnergy o' s' (fun _ => H0) U ψ' := by
      rintro _ _ _ _ _ _ _ rfl rfl rfl
      rfl
    refine this.congr_of_eventuallyEq (.of_forall fun t => he _ _ _ _ _ _ _ (funext fun i => (hocc i).symm)
      (funext fun i => Subsingleton.elim _ _) (funext fun i => funext fun k => ?_))
    exact congrArg (fun f : twoPoints.Fld => f k + t * δ i k) (hφ' i).symm
  · intro w f g
    have hT : ∀ f k, kineticOf (G := twoPoints) H0 f k = H0 k ⟨0, by decide⟩ * f ⟨0, by decide⟩ + H0 k ⟨1, by decide⟩ * f ⟨1, by decide⟩ := by
      intro f k
      change (∑ l : Fin 2, H0 k l * f l) / 1 = _
      rw [Fin.sum_univ_two, div_one]
      rfl
    rw [hI, hI, hT, hT, hT, hT]
    simp only [H0]
    norm_num
    ring
  · intro f g
    congr 1
    funext k
    exact mul_comm _ _

end Concrete
end Verif
