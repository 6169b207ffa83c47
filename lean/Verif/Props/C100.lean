import Verif.Props.C97

/-!
# C100: the energy of a self-consistent state changes with the electron number by the frontier eigenvalue

Janak's theorem for the discretised problem: `energy()` is evaluated with the same orbitals and a
different electron number `N` of one solver.
-/

namespace Verif
open Spec KS Topology
variable {G : Grid ℝ} {r c p : ℕ}

/-- The object `ks` with the same orbitals, eigenvalues and potentials but `N` electrons in solver `w`: the density is
summed again. -/
noncomputable def Spec.recount (ks : KS G r c p) (w : Fin r × Fin c) (N : ℝ) : Py (KS G r c p) := do
  let solver := Function.update ks.solver w { ks.solver w with N := N }
  let n ← sumDensities p solver
  pure { ks with solver, n := some n }

/-- The density of one electron in orbital `φ`. -/
noncomputable def Spec.electronIn (φ : G.Fld) : G.Fld := fun k => φ k ^ 2 / G.integ fun k => φ k ^ 2

/-- Orbitals, eigenvalues and potential of a solver are there, enough of them for its electrons. -/
structure Spec.Filled (s : Solver G) (l : List G.Fld) (e : List ℝ) (v : G.Fld) : Prop where
  pol : s.pol = 1 ∨ s.pol = 2
  electrons : 0 ≤ s.N
  phi : s.phi = some l
  eig : s.eig = some e
  veff : s.veff = some v
  length : l.length = e.length
  enough : needed s.fractional (s.N / (orbitalCapacity s.m (s.pol = 2) : ℝ)) ≤ l.length
  norm : ∀ i (hi : i < l.length), (G.integ fun k => l[i] k ^ 2) ≠ 0

/-- The energy of `ks` with `N + t` electrons in solver `w`, the energy in the external potential included, is `T t`. -/
def Spec.EnergyWith (F : Functionals G p) (ks : KS G r c p) (w : Fin r × Fin c) (t T : ℝ) : Prop :=
  ∃ ks' a E e, recount ks w ((ks.solver w).N + t) = .ok ks' ∧ ks'.energy F = .ok a ∧ a.E = some E ∧ E.E = .fin e ∧
    T = e + E.Vext

/-! ## Filling -/

theorem fill_right (x s : ℝ) (hx : 0 ≤ x) (hs : 0 ≤ s) (h : x + s ≤ ⌊x⌋ + 1) (i : ℕ) :
    fill true (x + s) i = fill true x i + if i = ⌊x⌋.toNat then s else 0 := by
  have h0 : 0 ≤ ⌊x⌋ := Int.floor_nonneg.mpr hx
  have hc : ((⌊x⌋.toNat : ℕ) : ℝ) = (⌊x⌋ : ℝ) := by rw [← Int.cast_natCast, Int.toNat_of_nonneg h0]
  have h1 := Int.floor_le x
  have h2 := Int.lt_floor_add_one x
  simp only [fill, if_true, filling]
  rcases lt_trichotomy i ⌊x⌋.toNat with hi | hi | hi
  · rw [if_neg (by omega)]
    have : (i : ℝ) + 1 ≤ ⌊x⌋ := by rw [← hc]; exact_mod_cast hi
    rw [max_eq_right (by linarith), max_eq_right (by linarith), min_eq_left (by linarith), min_eq_left (by linarith), add_zero]
  · rw [if_pos hi, hi, hc, max_eq_right (by linarith), max_eq_right (by linarith), min_eq_right (by linarith),
      min_eq_right (by linarith)]
    ring
  · rw [if_neg (by omega)]
    have : (⌊x⌋ : ℝ) + 1 ≤ i := by rw [← hc]; exact_mod_cast hi
    rw [max_eq_left (by linarith), max_eq_left (by linarith), add_zero]

theorem fill_left (x s : ℝ) (hx : 0 < x) (hs : s ≤ 0) (h : (⌈x⌉ : ℝ) - 1 ≤ x + s) (i : ℕ) :
    fill true (x + s) i = fill true x i + if i = ⌈x⌉.toNat - 1 then s else 0 := by
  have h0 : 0 < ⌈x⌉ := Int.ceil_pos.mpr hx
  have hc : (((⌈x⌉.toNat - 1 : ℕ) : ℕ) : ℝ) = (⌈x⌉ : ℝ) - 1 := by
    rw [Nat.cast_sub (by omega), ← Int.cast_natCast, Int.toNat_of_nonneg h0.le]; simp
  have h1 := Int.le_ceil x
  have h2 := Int.ceil_lt_add_one x
  simp only [fill, if_true, filling]
  rcases lt_trichotomy i (⌈x⌉.toNat - 1) with hi | hi | hi
  · rw [if_neg (by omega)]
    have : (i : ℝ) + 1 ≤ ⌈x⌉ - 1 := by rw [← hc]; exact_mod_cast hi
    rw [max_eq_right (by linarith), max_eq_right (by linarith), min_eq_left (by linarith), min_eq_left (by linarith), add_zero]
  · rw [if_pos hi, hi, hc, max_eq_right (by linarith), max_eq_right (by linarith), min_eq_right (by linarith),
      min_eq_right (by linarith)]
    ring
  · rw [if_neg (by omega)]
    have : (⌈x⌉ : ℝ) - 1 + 1 ≤ i := by rw [← hc]; exact_mod_cast hi
    rw [max_eq_left (by linarith), max_eq_left (by linarith), add_zero]

/-! ## One solver -/

/-- Density and kinetic energy of a solver with `t` more electrons, `δ` of them in orbital `f`. -/
theorem solver_recount (s : Solver G) (l : List G.Fld) (e : List ℝ) (v : G.Fld) (hs : Filled s l e v)
    (f : ℕ) (hf : f < l.length) (hf' : f < e.length) (t δ : ℝ) (hN : 0 ≤ s.N + t)
    (hneed : needed s.fractional ((s.N + t) / (orbitalCapacity s.m (s.pol = 2) : ℝ)) ≤ l.length)
    (hfill : ∀ i, fill s.fractional ((s.N + t) / (orbitalCapacity s.m (s.pol = 2) : ℝ)) i =
      fill s.fractional (s.N / (orbitalCapacity s.m (s.pol = 2) : ℝ)) i +
        if i = f then δ / (orbitalCapacity s.m (s.pol = 2) : ℝ) else 0) :
    ∃ (n : G.Fld) (E E' : Solver.Energy ℝ) (T : ℝ), s.calcDensity = .ok n ∧ s.calcEnergy = .ok (E, n) ∧ E.Ts = .fin T ∧
      ({ s with N := s.N + t } : Solver G).calcDensity = .ok (fun k => n k + δ * electronIn l[f] k) ∧
      ({ s with N := s.N + t } : Solver G).calcEnergy = .ok (E', fun k => n k + δ * electronIn l[f] k) ∧
      E'.Ts = .fin (T + δ * (e[f] - G.integ fun k => v k * electronIn l[f] k)) := by
  have hg : (orbitalCapacity s.m (s.pol = 2) : ℝ) ≠ 0 := by
    have := s.scale_pos
    rw [Solver.scale_eq s hs.pol] at this
    exact this.ne'
  obtain ⟨E, n, h1, h2, h3, h4, -⟩ := C20_energy_partial s hs.pol hs.electrons l hs.phi e hs.eig v hs.veff hs.enough
    (hs.length ▸ hs.enough)
  obtain ⟨E', n', h1', h2', h3', h4', -⟩ := C20_energy_partial { s with N := s.N + t } hs.pol hN l hs.phi e hs.eig v hs.veff
    hneed (hs.length ▸ hneed)
  have hd := (C18_density s hs.pol hs.electrons l hs.phi).1 hs.enough
  have hd' := (C18_density { s with N := s.N + t } hs.pol hN l hs.phi).1 hneed
  have hn' : n' = fun k => n k + δ * electronIn l[f] k := by
    rw [h2] at hd
    rw [h2'] at hd'
    rw [Except.ok.inj hd, Except.ok.inj hd']
    funext k
    dsimp only
    simp only [hfill, add_mul, Finset.sum_add_distrib, mul_add, ite_mul, zero_mul]
    congr 1
    rw [Finset.sum_eq_single (⟨f, hf⟩ : Fin l.length)]
    · rw [if_pos rfl]
      unfold electronIn
      field_simp
    · intro j _ hj
      rw [if_neg fun h => hj (Fin.ext h)]
    · simp
  subst hn'
  refine ⟨n, E, E', (orbitalCapacity s.m (s.pol = 2) : ℝ) * ∑ i : Fin e.length,
    fill s.fractional (s.N / (orbitalCapacity s.m (s.pol = 2) : ℝ)) i.1 * e[i.1] + -G.integ fun k => v k * n k,
    h2, h1, ?_, h2', h1', ?_⟩
  · rw [h4, h3]; rfl
  · rw [h4', h3']
    change Fl.fin (_ + -_) = _
    congr 1
    have e1 : (G.integ fun k => v k * (n k + δ * electronIn l[f] k)) =
        (G.integ fun k => v k * n k) + δ * G.integ fun k => v k * electronIn l[f] k := by
      rw [← G.integ_smul, ← G.integ_add]
      congr 1
      funext k
      ring
    rw [e1]
    dsimp only
    simp only [hfill, add_mul, Finset.sum_add_distrib, mul_add, ite_mul, zero_mul]
    rw [Finset.sum_eq_single_of_mem (f := fun i : Fin e.length => if i.1 = f then δ / (orbitalCapacity s.m (s.pol = 2) : ℝ) * e[i.1] else 0)
      (⟨f, hf'⟩ : Fin e.length) (Finset.mem_univ _) (fun j _ hj => if_neg fun h => hj (Fin.ext h)), if_pos rfl]
    field_simp
    ring

/-! ## The whole object -/

set_option maxHeartbeats 1000000 in
/-- The energy along a change of the filling of orbital `f` of solver `w`. -/
theorem energy_recount (F : Functionals G p) (Ex Ec : G.Cols p → ℝ) (vx vc : G.Cols p → G.Cols p)
    (H : G.Fld →ₗ[ℝ] G.Fld) (hF : Laws F Ex Ec vx vc H) (ks : KS G r c p) (hc : c ≤ p) (hk : ks.kind = .dft)
    (l : Fin r × Fin c → List G.Fld) (e : Fin r × Fin c → List ℝ) (v : Fin r × Fin c → G.Fld)
    (hs : ∀ w, Filled (ks.solver w) (l w) (e w) (v w)) (n vext vhxc : G.Cols p) (hvext : ks.vext = some vext)
    (hvhxc : ks.vhxc = some vhxc) (hself : sumDensities p ks.solver = .ok n)
    (w : Fin r × Fin c) (f : ℕ) (hf : f < (l w).length) (hf' : f < (e w).length) :
    ∃ T₀ : ℝ, ∀ t δ : ℝ, 0 ≤ (ks.solver w).N + t →
      needed (ks.solver w).fractional (((ks.solver w).N + t) /
        (orbitalCapacity (ks.solver w).m ((ks.solver w).pol = 2) : ℝ)) ≤ (l w).length →
      (∀ i, fill (ks.solver w).fractional (((ks.solver w).N + t) / (orbitalCapacity (ks.solver w).m ((ks.solver w).pol = 2) : ℝ)) i =
        fill (ks.solver w).fractional ((ks.solver w).N / (orbitalCapacity (ks.solver w).m ((ks.solver w).pol = 2) : ℝ)) i +
          if i = f then δ / (orbitalCapacity (ks.solver w).m ((ks.solver w).pol = 2) : ℝ) else 0) →
      EnergyWith F ks w t (T₀ + δ * ((e w)[f] - G.integ fun k => v w k * electronIn (l w)[f] k) +
        densityEnergy ks vext Ex Ec H fun s k => n s k + δ * if s.1 = w.2.1 then electronIn (l w)[f] k else 0) := by
  have hp : 0 < p := lt_of_lt_of_le (Nat.lt_of_le_of_lt (Nat.zero_le _) w.2.2) hc
  have base : ∀ w, ∃ (m : G.Fld) (E : Solver.Energy ℝ) (T : ℝ), (ks.solver w).calcDensity = .ok m ∧
      (ks.solver w).calcEnergy = .ok (E, m) ∧ E.Ts = .fin T := by
    intro w
    obtain ⟨E, m, h1, h2, h3, h4, -⟩ := C20_energy_partial (ks.solver w) (hs w).pol (hs w).electrons (l w) (hs w).phi (e w)
      (hs w).eig (v w) (hs w).veff (hs w).enough ((hs w).length ▸ (hs w).enough)
    exact ⟨m, E, _, h2, h1, by rw [h4, h3]; rfl⟩
  choose m E₀ T hm hE₀ hT using base
  rw [sumDensities_eq ks.solver m hm hc] at hself
  have hself' := Except.ok.inj hself
  refine ⟨∑ w, T w, fun t δ hN hneed hfill => ?_⟩
  obtain ⟨m', E1, E', T', d1, d2, d3, d4, d5, d6⟩ := solver_recount (ks.solver w) (l w) (e w) (v w) (hs w) f hf hf' t δ hN hneed hfill
  obtain rfl : m' = m w := by rw [hm w] at d1; exact (Except.ok.inj d1).symm
  obtain rfl : T' = T w := by
    rw [hE₀ w] at d2
    have := congrArg Prod.fst (Except.ok.inj d2)
    dsimp only at this
    subst this
    rw [hT w] at d3
    exact (Fl.fin.inj d3).symm
  set S := Function.update ks.solver w { ks.solver w with N := (ks.solver w).N + t } with hS
  have hdS : ∀ u, (S u).calcDensity = .ok fun k => m u k + if u = w then δ * electronIn (l w)[f] k else 0 := by
    intro u
    by_cases hu : u = w
    · subst hu
      rw [hS, Function.update_self, d4]
      simp only [if_true]
    · rw [hS, Function.update_of_ne hu, hm u]
      simp only [if_neg hu, add_zero]
  have hES : ∀ u, ∃ En, (S u).calcEnergy = .ok (En, fun k => m u k + if u = w then δ * electronIn (l w)[f] k else 0) ∧
      En.Ts = .fin (T u + if u = w then δ * ((e w)[f] - G.integ fun k => v w k * electronIn (l w)[f] k) else 0) := by
    intro u
    by_cases hu : u = w
    · subst hu
      refine ⟨E', ?_, ?_⟩
      · rw [hS, Function.update_self, d5]
        simp only [if_true]
      · rw [d6, if_pos rfl]
    · refine ⟨E₀ u, ?_, ?_⟩
      · rw [hS, Function.update_of_ne hu, hE₀ u]
        simp only [if_neg hu, add_zero]
      · rw [hT u, if_neg hu, add_zero]
  have hn' : sumDensities p S = .ok fun s k => n s k + δ * if s.1 = w.2.1 then electronIn (l w)[f] k else 0 := by
    rw [sumDensities_eq S _ hdS hc, ← hself']
    congr 1
    funext q k
    dsimp only
    by_cases hq : q.1 < c
    · rw [dif_pos hq, dif_pos hq, Finset.sum_add_distrib]
      congr 1
      by_cases hw : q.1 = w.2.1
      · rw [if_pos hw, Finset.sum_eq_single w.1]
        · exact if_pos (show (w.1, (⟨q.1, hq⟩ : Fin c)) = w from Prod.ext rfl (Fin.ext hw))
        · intro j _ hj
          exact if_neg fun h => hj (congrArg Prod.fst h)
        · simp
      · rw [if_neg hw, mul_zero]
        exact Finset.sum_eq_zero fun j _ => if_neg fun h => hw (congrArg (fun u => u.2.1) h)
    · rw [dif_neg hq, dif_neg hq, if_neg, mul_zero, add_zero]
      intro hw
      exact hq (hw ▸ w.2.2)
  set n' : G.Cols p := fun s k => n s k + δ * if s.1 = w.2.1 then electronIn (l w)[f] k else 0 with hn'd
  let ks' : KS G r c p := { ks with solver := S, n := some n' }
  have hrec : recount ks w ((ks.solver w).N + t) = .ok ks' := by
    unfold recount
    simp only [← hS, hn', bind, Except.bind, pure, Except.pure]
    rfl
  have htot : TotalFunctionals F := fun n => by
    obtain ⟨x, hx⟩ := hF.exchange n
    obtain ⟨y, hy⟩ := hF.correlation n
    exact ⟨⟨_, hx⟩, ⟨_, hy⟩, ⟨_, hF.hartree n⟩⟩
  obtain ⟨a, Ef, hen, haE, -⟩ := energy_ok F ks' hc (fun u => by
      refine ⟨⟨_, (hES u).choose_spec.1⟩, e u, ?_⟩
      change (S u).eig = _
      by_cases hu : u = w
      · subst hu; rw [hS, Function.update_self]; exact (hs u).eig
      · rw [hS, Function.update_of_ne hu]; exact (hs u).eig) ⟨_, rfl⟩ ⟨_, hvext⟩ fun _ => ⟨htot, hp, _, hvhxc⟩
  obtain ⟨E2, es, vs, ts, n1, vext1, hE1, hn1, hve1, hte, hTs, -, -, hEn, hVe, hVnn, -, hdft⟩ := C34_energy F _ _ hc hen
  obtain rfl : n1 = n' := (Option.some.inj hn1).symm
  obtain rfl : vext1 = vext := by
    have : ks'.vext = some vext := hvext
    rw [this] at hve1; exact (Option.some.inj hve1).symm
  obtain ⟨Eh, vh, ex', vx', ec', vc', hp0, -, hvh2, hex2, hec2, hEh, hEE⟩ := hdft hk
  have hEx : E2.Ex = Ex n' := by
    obtain ⟨x, hx⟩ := hF.exchange n'
    rw [hx] at hex2
    simp only [Except.ok.injEq, Prod.mk.injEq] at hex2
    exact hex2.1.symm
  have hEc : E2.Ec = Ec n' := by
    obtain ⟨x, hx⟩ := hF.correlation n'
    rw [hx] at hec2
    simp only [Except.ok.injEq, Prod.mk.injEq] at hec2
    exact hec2.1.symm
  rw [hF.hartree n'] at hvh2
  obtain rfl := Except.ok.inj hvh2
  have hts : ∀ u, ts u = T u + if u = w then δ * ((e w)[f] - G.integ fun k => v w k * electronIn (l w)[f] k) else 0 := by
    intro u
    obtain ⟨m2, hm2⟩ := hte u
    obtain ⟨En, h1, h2⟩ := hES u
    rw [show ks'.solver u = S u from rfl, h1] at hm2
    have := congrArg (fun x => x.1.Ts) (Except.ok.inj hm2)
    dsimp only at this
    rw [h2] at this
    exact (Fl.fin.inj this).symm
  refine ⟨ks', a, E2, _, hrec, hen, hE1, hEE, ?_⟩
  have hsum : ∑ u, ts u = ∑ u, T u + δ * ((e w)[f] - G.integ fun k => v w k * electronIn (l w)[f] k) := by
    rw [Finset.sum_congr rfl fun u _ => hts u, Finset.sum_add_distrib]
    simp
  unfold densityEnergy
  rw [hEx, hEc, hEn, hVe, hEh, hsum]
  have e1 : (∑ s, G.integ fun k => (ks.vnuc s k + vext1 s k) * n' s k) =
      (G.integ fun k => ∑ s, n' s k * ks.vnuc s k) + G.integ fun k => ∑ s, n' s k * vext1 s k := by
    rw [← G.integ_sum, ← G.integ_add]
    congr 1
    funext k
    rw [← Finset.sum_add_distrib]
    exact Finset.sum_congr rfl fun s _ => by ring
  rw [e1]
  ring

/-! ## The property -/

/-- What a Hartree operator that is not symmetric adds to the derivative. -/
noncomputable def Spec.hartreeAsymmetry (H : G.Fld →ₗ[ℝ] G.Fld) (n : G.Cols p) (ρ : G.Fld) : ℝ :=
  1 / 2 * ((G.integ fun k => (∑ s, n s k) * H ρ k) - G.integ fun k => ρ k * H (fun k => ∑ s, n s k) k)

/-- The derivative of the energy along a change of the filling of one orbital. -/
theorem janak_derivative (Ex Ec : G.Cols p → ℝ) (vx vc : G.Cols p → G.Cols p) (H : G.Fld →ₗ[ℝ] G.Fld) (ks : KS G r c p)
    (n vext : G.Cols p) (hX : ChangesBy Ex n fun δ => ∑ s, G.integ fun k => vx n s k * δ s k)
    (hC : ChangesBy Ec n fun δ => ∑ s, G.integ fun k => vc n s k * δ s k) (s₀ : Fin p) (v ρ : G.Fld) (ε T₀ : ℝ)
    (hv : ∀ k, v k = ks.vnuc s₀ k + vext s₀ k + (H (fun k => ∑ s, n s k) k + vx n s₀ k + vc n s₀ k)) :
    HasDerivAt (fun t : ℝ => T₀ + t * (ε - G.integ fun k => v k * ρ k) +
      densityEnergy ks vext Ex Ec H fun s k => n s k + t * if s.1 = s₀.1 then ρ k else 0)
      (ε + hartreeAsymmetry H n ρ) 0 := by
  have hU := densityEnergy_changes ks vext Ex Ec (vx n) (vc n) H n hX hC
    (fun t s k => n s k + t * if s.1 = s₀.1 then ρ k else 0) (fun s k => if s.1 = s₀.1 then ρ k else 0)
    (by funext s k; simp) fun s k => line_hasDerivAt _ _
  refine ((line_hasDerivAt T₀ (ε - G.integ fun k => v k * ρ k)).fun_add hU).congr_deriv ?_
  have e1 : (∑ s : Fin p, G.integ fun k => (ks.vnuc s k + vext s k + (H (fun k => ∑ s, n s k) k + vx n s k + vc n s k)) *
      if s.1 = s₀.1 then ρ k else 0) = G.integ fun k => v k * ρ k := by
    rw [Finset.sum_eq_single s₀]
    · congr 1
      funext k
      rw [if_pos rfl, hv]
    · intro s _ hs
      refine (congrArg G.integ (funext fun k => ?_)).trans G.integ_zero
      rw [if_neg fun h => hs (Fin.ext h), mul_zero]
    · simp
  have e2 : (fun k => ∑ s : Fin p, if s.1 = s₀.1 then ρ k else 0) = ρ := by
    funext k
    rw [Finset.sum_eq_single s₀]
    · rw [if_pos rfl]
    · intro s _ hs
      exact if_neg fun h => hs (Fin.ext h)
    · simp
  have e3 : ∀ k, (∑ s : Fin p, if s.1 = s₀.1 then ρ k else 0) = ρ k := fun k => congrFun e2 k
  dsimp only
  rw [e1]
  simp only [e3]
  unfold hartreeAsymmetry
  ring

set_option maxHeartbeats 1000000 in
/-- **C100.**  An object whose density is the sum of its solvers' densities, whose solver `w` has fractional occupation and
was solved in the potential belonging to that density.  Adding electrons to `w` changes the energy by the eigenvalue of the
lowest orbital with room, removing them by what `get_homo` returns, and for a partly filled orbital the energy is
differentiable with `get_homo` as derivative.  A Hartree operator that is not symmetric adds its asymmetry. -/
theorem C100_janak_partial (F : Functionals G p) (Ex Ec : G.Cols p → ℝ) (vx vc : G.Cols p → G.Cols p)
    (H : G.Fld →ₗ[ℝ] G.Fld) (hF : Laws F Ex Ec vx vc H) (ks : KS G r c p) (hc : c ≤ p) (hk : ks.kind = .dft)
    (l : Fin r × Fin c → List G.Fld) (e : Fin r × Fin c → List ℝ) (v : Fin r × Fin c → G.Fld)
    (hs : ∀ w, Filled (ks.solver w) (l w) (e w) (v w)) (n vext vhxc : G.Cols p) (hvext : ks.vext = some vext)
    (hvhxc : ks.vhxc = some vhxc) (hself : sumDensities p ks.solver = .ok n)
    (hX : ChangesBy Ex n fun δ => ∑ s, G.integ fun k => vx n s k * δ s k)
    (hC : ChangesBy Ec n fun δ => ∑ s, G.integ fun k => vc n s k * δ s k)
    (w : Fin r × Fin c) (hfr : (ks.solver w).fractional = true)
    (hveff : ∀ k, v w k = ks.vnuc ⟨w.2.1, by omega⟩ k + vext ⟨w.2.1, by omega⟩ k +
      (H (fun k => ∑ s, n s k) k + vx n ⟨w.2.1, by omega⟩ k + vc n ⟨w.2.1, by omega⟩ k)) :
    let x := (ks.solver w).N / (orbitalCapacity (ks.solver w).m ((ks.solver w).pol = 2) : ℝ)
    (∀ (hf : ⌊x⌋.toNat < (l w).length) (hf' : ⌊x⌋.toNat < (e w).length), ∃ T : ℝ → ℝ,
      (∀ᶠ t in 𝓝[≥] 0, EnergyWith F ks w t (T t)) ∧
      HasDerivWithinAt T ((e w)[⌊x⌋.toNat] + hartreeAsymmetry H n (electronIn (l w)[⌊x⌋.toNat])) (Set.Ici 0) 0) ∧
    (0 < (ks.solver w).N → ∃ (i : ℕ) (hi : i < (l w).length) (ε : ℝ) (T : ℝ → ℝ),
      IsGreatest {j | fill true x j ≠ 0} i ∧ (ks.solver w).getHomo = .ok ε ∧
      (∀ᶠ t in 𝓝[≤] 0, EnergyWith F ks w t (T t)) ∧
      HasDerivWithinAt T (ε + hartreeAsymmetry H n (electronIn (l w)[i])) (Set.Iic 0) 0 ∧
      (x ≠ ⌊x⌋ → (∀ᶠ t in 𝓝 0, EnergyWith F ks w t (T t)) ∧
        HasDerivAt T (ε + hartreeAsymmetry H n (electronIn (l w)[i])) 0)) ∧
    ((∀ f g : G.Fld, (G.integ fun k => f k * H g k) = G.integ fun k => g k * H f k) →
      ∀ ρ, hartreeAsymmetry H n ρ = 0) := by
  intro x
  have hx : x = (ks.solver w).N / (orbitalCapacity (ks.solver w).m ((ks.solver w).pol = 2) : ℝ) := rfl
  set g : ℝ := (orbitalCapacity (ks.solver w).m ((ks.solver w).pol = 2) : ℝ) with hg
  have hgpos : 0 < g := by
    have := (ks.solver w).scale_pos
    rwa [Solver.scale_eq _ (hs w).pol] at this
  have hx0 : 0 ≤ x := div_nonneg (hs w).electrons hgpos.le
  have hadd : ∀ t, ((ks.solver w).N + t) / g = x + t / g := fun t => by rw [hx, add_div]
  have hNx : ∀ t, (ks.solver w).N + t = g * (x + t / g) := fun t => by rw [← hadd]; field_simp
  have hfl0 : 0 ≤ ⌊x⌋ := Int.floor_nonneg.mpr hx0
  have hfl1 := Int.floor_le x
  have hfl2 := Int.lt_floor_add_one x
  have hc1 := Int.le_ceil x
  have hc2 := Int.ceil_lt_add_one x
  have hen := (hs w).enough
  rw [← hg, ← hx, hfr] at hen
  have hen' : ⌈x⌉.toNat ≤ (l w).length := by simpa [needed] using hen
  -- adding electrons
  have right : ∀ (hf : ⌊x⌋.toNat < (l w).length) (T₀ : ℝ → ℝ),
      (∀ t : ℝ, 0 ≤ (ks.solver w).N + t →
        needed (ks.solver w).fractional (((ks.solver w).N + t) / g) ≤ (l w).length →
        (∀ i, fill (ks.solver w).fractional (((ks.solver w).N + t) / g) i =
          fill (ks.solver w).fractional ((ks.solver w).N / g) i + if i = ⌊x⌋.toNat then t / g else 0) →
        EnergyWith F ks w t (T₀ t)) → ∀ᶠ t in 𝓝[≥] 0, EnergyWith F ks w t (T₀ t) := by
    intro hf T₀ hT
    have hpos : (0 : ℝ) < g * (⌊x⌋ + 1 - x) := mul_pos hgpos (by linarith)
    filter_upwards [self_mem_nhdsWithin, nhdsWithin_le_nhds (eventually_lt_nhds hpos)] with t ht htl
    have ht0 : 0 ≤ t / g := div_nonneg ht hgpos.le
    have hle : x + t / g ≤ ⌊x⌋ + 1 := by
      have : t / g ≤ ⌊x⌋ + 1 - x := by rw [div_le_iff₀ hgpos]; linarith
      linarith
    refine hT t (by rw [hNx]; exact mul_nonneg hgpos.le (by linarith)) ?_ fun i => ?_
    · rw [hadd, hfr]
      have : ⌈x + t / g⌉ ≤ ⌊x⌋ + 1 := Int.ceil_le.mpr (by push_cast; exact hle)
      simp only [needed, if_true]
      omega
    · rw [hadd, hfr, ← hx]
      exact fill_right x (t / g) hx0 ht0 hle i
  have left : 0 < (ks.solver w).N → ∀ (T₀ : ℝ → ℝ),
      (∀ t : ℝ, 0 ≤ (ks.solver w).N + t →
        needed (ks.solver w).fractional (((ks.solver w).N + t) / g) ≤ (l w).length →
        (∀ i, fill (ks.solver w).fractional (((ks.solver w).N + t) / g) i =
          fill (ks.solver w).fractional ((ks.solver w).N / g) i + if i = ⌈x⌉.toNat - 1 then t / g else 0) →
        EnergyWith F ks w t (T₀ t)) → ∀ᶠ t in 𝓝[≤] 0, EnergyWith F ks w t (T₀ t) := by
    intro hN T₀ hT
    have hxp : 0 < x := div_pos hN hgpos
    have hcp : 0 < ⌈x⌉ := Int.ceil_pos.mpr hxp
    have hneg : g * ((⌈x⌉ : ℝ) - 1 - x) < 0 := mul_neg_of_pos_of_neg hgpos (by linarith)
    filter_upwards [self_mem_nhdsWithin, nhdsWithin_le_nhds (eventually_gt_nhds hneg)] with t ht htl
    have ht0 : t / g ≤ 0 := div_nonpos_of_nonpos_of_nonneg ht hgpos.le
    have hle : (⌈x⌉ : ℝ) - 1 ≤ x + t / g := by
      have : (⌈x⌉ : ℝ) - 1 - x ≤ t / g := by rw [le_div_iff₀ hgpos]; linarith
      linarith
    have hcr : (1 : ℝ) ≤ ⌈x⌉ := by exact_mod_cast hcp
    refine hT t (by rw [hNx]; exact mul_nonneg hgpos.le (by linarith)) ?_ fun i => ?_
    · rw [hadd, hfr]
      have : ⌈x + t / g⌉ ≤ ⌈x⌉ := Int.ceil_le_ceil (by linarith)
      simp only [needed, if_true]
      omega
    · rw [hadd, hfr, ← hx]
      exact fill_left x (t / g) hxp ht0 hle i
  refine ⟨fun hf hf' => ?_, fun hN => ?_, fun hH ρ => ?_⟩
  · obtain ⟨T₀, hT₀⟩ := energy_recount F Ex Ec vx vc H hF ks hc hk l e v hs n vext vhxc hvext hvhxc hself w _ hf hf'
    refine ⟨_, right hf _ fun t => hT₀ t t, ?_⟩
    exact (janak_derivative Ex Ec vx vc H ks n vext hX hC ⟨w.2.1, by omega⟩ (v w) _ _ T₀ hveff).hasDerivWithinAt
  · have hxp : 0 < x := div_pos hN hgpos
    have hcp : 0 < ⌈x⌉ := Int.ceil_pos.mpr hxp
    have hfl : ⌈x⌉.toNat - 1 < (l w).length := by omega
    have hfe : ⌈x⌉.toNat - 1 < (e w).length := by rw [← (hs w).length]; exact hfl
    have hne : ∀ j, fill true x j ≠ 0 ↔ j < ⌈x⌉.toNat := fun j => by
      rw [fill_ne_zero true x hx0 j]; simp [needed]
    obtain ⟨-, -, hh⟩ := C21_homo_partial (ks.solver w) (hs w).pol (hs w).electrons (e w) (hs w).eig (.inl hfr)
    obtain ⟨i, hi, h1, h2, -⟩ := hh hN (by rw [← (hs w).length]; exact (hs w).enough)
    rw [hfr] at h2
    have hi' : i = ⌈x⌉.toNat - 1 := by
      have a1 := (hne i).mp h2.1
      have a2 : ⌈x⌉.toNat - 1 ≤ i := h2.2 ((hne _).mpr (by omega))
      omega
    subst hi'
    obtain ⟨T₀, hT₀⟩ := energy_recount F Ex Ec vx vc H hF ks hc hk l e v hs n vext vhxc hvext hvhxc hself w _ hfl hfe
    have hder := janak_derivative Ex Ec vx vc H ks n vext hX hC ⟨w.2.1, by omega⟩ (v w) (electronIn (l w)[⌈x⌉.toNat - 1])
      (e w)[⌈x⌉.toNat - 1] T₀ hveff
    refine ⟨_, hfl, _, _, h2, h1, left hN _ fun t => hT₀ t t, hder.hasDerivWithinAt, fun hni => ⟨?_, hder⟩⟩
    have hce : ⌈x⌉ = ⌊x⌋ + 1 := by
      refine le_antisymm (Int.ceil_le_floor_add_one x) (Int.lt_ceil.mpr ?_)
      exact lt_of_le_of_ne hfl1 (Ne.symm hni)
    have hidx : ⌈x⌉.toNat - 1 = ⌊x⌋.toNat := by omega
    have hr := right (by omega) _ (fun t a b d => hT₀ t t a b (by rw [hidx]; exact d))
    have hl := left hN _ fun t => hT₀ t t
    rw [← nhdsLE_sup_nhdsGE]
    exact Filter.eventually_sup.mpr ⟨hl, hr⟩
  · unfold hartreeAsymmetry
    rw [hH, sub_self, mul_zero]

/-- C100, where the hypotheses come from: after a pass of `Kohnsham.scf` that returns the density it started from, the
density is the sum of the solvers' densities and every solver holds the potential belonging to it. -/
theorem C100_scf (F : Functionals G p) (Ex Ec : G.Cols p → ℝ) (vx vc : G.Cols p → G.Cols p)
    (H : G.Fld →ₗ[ℝ] G.Fld) (hF : Laws F Ex Ec vx vc H) (W : KsScf.Workers G r c p) (o : KsScf.Options ℝ)
    (st st' : KsScf.State G r c p) (d : Fl ℝ × Fl ℝ) (hb : KsScf.body F W o st = .ok (st', d))
    (hc : c ≤ p) (hk : st.ks.kind = .dft) (hs : st.ks.sym = false) (hflip : o.spinflipsym = false) (hα : o.alpha ≠ 0)
    (n : G.Cols p) (hn : st.ks.n = some n) (hfix : st'.ks.n = some n) :
    sumDensities p st'.ks.solver = .ok n ∧ st'.ks.kind = .dft ∧ (∃ vhxc, st'.ks.vhxc = some vhxc) ∧
    ∃ vext, st'.ks.vext = some vext ∧ ∀ w : Fin r × Fin c, (st'.ks.solver w).veff = some fun k =>
      st'.ks.vnuc ⟨w.2.1, by omega⟩ k + vext ⟨w.2.1, by omega⟩ k +
        (H (fun k => ∑ s, n s k) k + vx n ⟨w.2.1, by omega⟩ k + vc n ⟨w.2.1, by omega⟩ k) := by
  unfold KsScf.body at hb
  simp only [Py.do_eq_ok, Py.pure_eq_ok] at hb
  obtain ⟨a, ha, b, hden, k₁, hen, k₂, hch, n', hn', E', hE', dn, -, hb⟩ := hb
  simp only [Prod.mk.injEq] at hb
  obtain ⟨rfl, -⟩ := hb
  dsimp only at hfix ⊢
  obtain ⟨n₀, vext, Exv, ex, vxv, Ecv, ec, vcv, vh, hn₀, hvext, hex, hec, hvh, hveff⟩ := C84_scf F st.ks a hc ha hk hs
  obtain rfl : n₀ = n := by rw [hn] at hn₀; exact (Option.some.inj hn₀).symm
  have hvx : vxv = vx n₀ := by
    obtain ⟨e, he⟩ := hF.exchange n₀
    rw [he] at hex
    simp only [Except.ok.injEq, Prod.mk.injEq] at hex
    exact hex.2.2.symm
  have hvc : vcv = vc n₀ := by
    obtain ⟨e, he⟩ := hF.correlation n₀
    rw [he] at hec
    simp only [Except.ok.injEq, Prod.mk.injEq] at hec
    exact hec.2.2.symm
  have hvh' : vh = fun _ => H fun k => ∑ s, n₀ s k := by
    rw [hF.hartree n₀] at hvh
    exact (Except.ok.inj hvh).symm
  subst hvx hvc hvh'
  obtain ⟨p1, p2, p3, p4, p5, p6, p7, p8, psol⟩ := potential_shape F st.ks a hc ha
  obtain ⟨it, no, nb, x, hx, bsol, hno, hnb, bn, b1, b4, b5, b6, b7, b8⟩ := density_shape W o st.diff a b hflip (p2.trans hs) hden
  obtain rfl : nb = n₀ := by
    rw [p3, hn₀] at hnb
    exact (Option.some.inj hnb).symm
  have hsh : k₁.kind = b.kind ∧ k₁.vext = b.vext ∧ k₁.vnuc = b.vnuc ∧ k₁.vhxc = b.vhxc ∧ ∃ v, b.vhxc = some v := by
    have hbk : b.kind = .dft := (b1.trans p1).trans hk
    unfold KS.energy at hen
    rw [hbk] at hen
    simp only [Py.do_eq_ok, Py.pure_eq_ok] at hen
    obtain ⟨y1, -, y2, -, y3, -, y4, hy4, y5, -, y6, -, y7, -, y8, -, rfl⟩ := hen
    refine ⟨hbk.symm, rfl, rfl, rfl, y4, ?_⟩
    revert hy4
    cases b.vhxc <;> simp [need]
  have hch' : k₂.kind = k₁.kind ∧ k₂.vext = k₁.vext ∧ k₂.vnuc = k₁.vnuc ∧ k₂.vhxc = k₁.vhxc := by
    unfold KS.calcChempot at hch
    simp only [Py.do_eq_ok, Py.pure_eq_ok] at hch
    obtain ⟨x, -, n, -, rfl⟩ := hch
    exact ⟨rfl, rfl, rfl, rfl⟩
  obtain ⟨es1, es2⟩ := energy_solver _ _ _ hen
  obtain ⟨cs1, cs2, cs3⟩ := chempot_solver _ _ hch
  have hno' : no = nb := by
    rw [cs2, es2, bn] at hfix
    have hm := Option.some.inj hfix
    funext q k
    have := congrFun (congrFun hm q) k
    simp only [KsScf.mix] at this
    have h0 : o.alpha * (no q k - nb q k) = 0 := by linear_combination this
    rcases mul_eq_zero.mp h0 with h | h
    · exact absurd h hα
    · exact sub_eq_zero.mp h
  subst hno'
  obtain ⟨k1, k2, k3, k4, v', hv'⟩ := hsh
  obtain ⟨c1, c2, c3, c4⟩ := hch'
  refine ⟨by rw [cs1, es1]; exact hno, by rw [c1, k1, b1, p1, hk], ⟨v', by rw [c4, k4, hv']⟩, vext,
    by rw [c2, k2, b4, p4, hvext], fun w => ?_⟩
  rw [cs1, es1, bsol w, c3, k3, b5, p5]
  exact hveff w.1 w.2

/-- C100 is false without fractional occupation: with an incomplete shell the energy does not change at all with the
electron number, while `get_homo` returns an eigenvalue. -/
theorem C100_refuted (F : Functionals G p) (Ex Ec : G.Cols p → ℝ) (vx vc : G.Cols p → G.Cols p)
    (H : G.Fld →ₗ[ℝ] G.Fld) (hF : Laws F Ex Ec vx vc H) (ks : KS G r c p) (hc : c ≤ p) (hk : ks.kind = .dft)
    (l : Fin r × Fin c → List G.Fld) (e : Fin r × Fin c → List ℝ) (v : Fin r × Fin c → G.Fld)
    (hs : ∀ w, Filled (ks.solver w) (l w) (e w) (v w)) (n vext vhxc : G.Cols p) (hvext : ks.vext = some vext)
    (hvhxc : ks.vhxc = some vhxc) (hself : sumDensities p ks.solver = .ok n)
    (w : Fin r × Fin c) (hfr : (ks.solver w).fractional = false) :
    let x := (ks.solver w).N / (orbitalCapacity (ks.solver w).m ((ks.solver w).pol = 2) : ℝ)
    x ≠ ⌊x⌋ → ∀ hf : ⌊x⌋.toNat < (e w).length, (ks.solver w).getHomo = .ok (e w)[⌊x⌋.toNat] ∧
      ∃ E : ℝ, ∀ᶠ t in 𝓝 0, EnergyWith F ks w t E := by
  intro x hni hfe
  have hx : x = (ks.solver w).N / (orbitalCapacity (ks.solver w).m ((ks.solver w).pol = 2) : ℝ) := rfl
  set g : ℝ := (orbitalCapacity (ks.solver w).m ((ks.solver w).pol = 2) : ℝ) with hg
  have hsc := Solver.scale_eq (ks.solver w) (hs w).pol
  have hgpos : 0 < g := by
    have := (ks.solver w).scale_pos
    rwa [hsc] at this
  have hx0 : 0 ≤ x := div_nonneg (hs w).electrons hgpos.le
  have hadd : ∀ t, ((ks.solver w).N + t) / g = x + t / g := fun t => by rw [hx, add_div]
  have hNx : ∀ t, (ks.solver w).N + t = g * (x + t / g) := fun t => by rw [← hadd]; field_simp
  have hfl0 : 0 ≤ ⌊x⌋ := Int.floor_nonneg.mpr hx0
  have hfl1 : (⌊x⌋ : ℝ) < x := lt_of_le_of_ne (Int.floor_le x) (Ne.symm hni)
  have hfl2 := Int.lt_floor_add_one x
  have hf : ⌊x⌋.toNat < (l w).length := by rw [(hs w).length]; exact hfe
  have hen := (hs w).enough
  rw [← hg, ← hx, hfr] at hen
  refine ⟨?_, ?_⟩
  · unfold Solver.getHomo
    rw [Solver.occupation_eq, hsc, ← hg, ← hx]
    dsimp only
    rw [if_pos (sub_ne_zero.mpr hni), if_pos (by omega), add_sub_cancel_right]
    unfold Solver.eigAt
    rw [(hs w).eig]
    dsimp only
    exact (congrArg (pyGet (e w)) (show ⌊x⌋ = ((⌊x⌋.toNat : ℕ) : ℤ) by omega)).trans (pyGet_ofNat _ _ hfe)
  · obtain ⟨T₀, hT₀⟩ := energy_recount F Ex Ec vx vc H hF ks hc hk l e v hs n vext vhxc hvext hvhxc hself w _ hf hfe
    refine ⟨T₀ + 0 * ((e w)[⌊x⌋.toNat] - G.integ fun k => v w k * electronIn (l w)[⌊x⌋.toNat] k) +
      densityEnergy ks vext Ex Ec H fun s k => n s k + 0 * if s.1 = w.2.1 then electronIn (l w)[⌊x⌋.toNat] k else 0, ?_⟩
    · have hpos : (0 : ℝ) < g * (⌊x⌋ + 1 - x) := mul_pos hgpos (by linarith)
      have hneg : g * ((⌊x⌋ : ℝ) - x) < 0 := mul_neg_of_pos_of_neg hgpos (by linarith)
      filter_upwards [eventually_lt_nhds hpos, eventually_gt_nhds hneg] with t h1 h2
      have h1' : x + t / g < ⌊x⌋ + 1 := by
        have : t / g < ⌊x⌋ + 1 - x := by rw [div_lt_iff₀ hgpos]; linarith
        linarith
      have h2' : (⌊x⌋ : ℝ) ≤ x + t / g := by
        have : (⌊x⌋ : ℝ) - x ≤ t / g := by rw [le_div_iff₀ hgpos]; linarith
        linarith
      have hfloor : ⌊x + t / g⌋ = ⌊x⌋ := Int.floor_eq_iff.mpr ⟨h2', h1'⟩
      have hz : (0 : ℝ) ≤ ⌊x⌋ := by exact_mod_cast hfl0
      refine hT₀ t 0 (by rw [hNx]; exact mul_nonneg hgpos.le (by linarith)) ?_ fun i => ?_
      · rw [hadd, hfr]
        simpa [needed, hfloor] using hen
      · rw [hadd, hfr, ← hx]
        simp only [fill, Bool.false_eq_true, if_false]
        rw [fillingWhole_eq _ (by linarith), fillingWhole_eq x hx0, hfloor]
        simp

/-! ## Concrete cases -/

section Concrete

/-- One electron in one orbital that can hold two. -/
noncomputable def halfSolver (fr : Bool) (v φ : G.Fld) (ε : ℝ) : Solver G :=
  { Nmo := 1, N := 1, m := 0, pol := 1, fractional := fr, phi := some [φ], eig := some [ε], veff := some v }

theorem half_ratio (fr : Bool) (v φ : G.Fld) (ε : ℝ) : (halfSolver fr v φ ε).N /
    (orbitalCapacity (halfSolver fr v φ ε).m ((halfSolver fr v φ ε).pol = 2) : ℝ) = 1 / 2 := by
  norm_num [halfSolver, orbitalCapacity]

theorem half_filled (fr : Bool) (v φ : G.Fld) (ε : ℝ) (hφ : (G.integ fun k => φ k ^ 2) ≠ 0) :
    Filled (halfSolver fr v φ ε) [φ] [ε] v := by
  refine ⟨.inl rfl, zero_le_one, rfl, rfl, rfl, rfl, ?_, fun i hi => ?_⟩
  · have h1 : ⌈(1 : ℝ) / 2⌉ = 1 := by rw [Int.ceil_eq_iff]; norm_num
    have h2 : ⌊(1 : ℝ) / 2⌋ = 0 := by rw [Int.floor_eq_iff]; norm_num
    rw [half_ratio]
    change needed fr (1 / 2 : ℝ) ≤ 1
    cases fr
    · simp only [needed, Bool.false_eq_true, if_false, h2]
      decide
    · simp only [needed, if_true, h1]
      decide
  · obtain rfl : i = 0 := by simpa using hi
    exact hφ

/-- Its object on the two-point grid: Hartree potential `n`, exchange energy `∫ n²`, the nuclear potential that makes `v` the
effective potential of density `n`. -/
noncomputable def halfKs (fr : Bool) (v φ : twoPoints.Fld) (ε : ℝ) (n : twoPoints.Cols 1) : KS twoPoints 1 1 1 where
  kind := .dft
  sym := false
  Za := 1
  Zb := 1
  a := 1
  solver := fun _ => halfSolver fr v φ ε
  vnuc := fun s k => v k - 3 * n s k
  vext := some fun _ _ => 0
  vhxc := some fun _ _ => 0
  n := some n

theorem two_laws : Laws twoFunctionals (fun n => twoPoints.integ fun k => n 0 k ^ 2) (fun _ => 0) (fun n _ k => 2 * n 0 k)
    (fun _ _ _ => 0) LinearMap.id := ⟨fun n => ⟨_, rfl⟩, fun n => ⟨_, rfl⟩, fun n => rfl⟩

/-- Half a pair in the orbital `φ`: the energy changes by the orbital energy per electron. -/
example (v φ : twoPoints.Fld) (hφ : (twoPoints.integ fun k => φ k ^ 2) ≠ 0) (ε : ℝ) :
    let n : twoPoints.Cols 1 := fun _ => electronIn φ
    (halfSolver true v φ ε).getHomo = .ok ε ∧ ∃ T : ℝ → ℝ,
      (∀ᶠ t in 𝓝 0, EnergyWith twoFunctionals (halfKs true v φ ε n) (0, 0) t (T t)) ∧ HasDerivAt T ε 0 := by
  intro n
  have hfl : ⌊(1 : ℝ) / 2⌋ = 0 := by rw [Int.floor_eq_iff]; norm_num
  have hs := half_filled true v φ ε hφ
  have hd : (halfSolver true v φ ε).calcDensity = .ok (electronIn φ) := by
    rw [(C18_density _ hs.pol hs.electrons [φ] rfl).1 hs.enough]
    congr 1
    funext k
    simp only [halfSolver, orbitalCapacity, List.length_singleton, Fin.sum_univ_one, electronIn, fill, filling]
    norm_num
    ring
  have hself : sumDensities 1 (halfKs true v φ ε n).solver = .ok n := by
    change sumDensities 1 (fun _ : Fin 1 × Fin 1 => halfSolver true v φ ε) = _
    rw [sumDensities_eq _ (fun _ => electronIn φ) (fun _ => hd) le_rfl]
    congr 1
    funext q k
    rw [dif_pos q.2, Fin.sum_univ_one]
  obtain ⟨-, h2, h3⟩ := C100_janak_partial twoFunctionals _ _ _ _ _ two_laws (halfKs true v φ ε n) le_rfl rfl (fun _ => [φ])
    (fun _ => [ε]) (fun _ => v) (fun _ => hs) n _ _ rfl rfl hself
    (fun γ δ h0 hγ => by
      have := integ_hasDerivAt (G := twoPoints) (f := fun t k => γ t 0 k ^ 2) fun k => (hγ 0 k).fun_pow 2
      refine this.congr_deriv ?_
      dsimp only
      rw [Fin.sum_univ_one]
      congr 1
      funext k
      rw [h0]
      ring)
    (fun γ δ h0 hγ => by simpa [Grid.integ_zero] using hasDerivAt_const (0 : ℝ) (0 : ℝ))
    (0, 0) rfl (fun k => by
      simp only [halfKs, LinearMap.id_apply, Fin.sum_univ_one]
      simp only [n]
      ring)
  have hn : ((halfKs true v φ ε n).solver (0, 0)).N / (orbitalCapacity ((halfKs true v φ ε n).solver (0, 0)).m
      (((halfKs true v φ ε n).solver (0, 0)).pol = 2) : ℝ) = 1 / 2 := half_ratio _ _ _ _
  obtain ⟨i, hi, ε', T, -, hh, -, -, h4⟩ := h2 one_pos
  rw [hn, hfl] at h4
  obtain ⟨h5, h6⟩ := h4 (by norm_num)
  have hε : ε' = ε := by
    have : (halfSolver true v φ ε).getHomo = .ok ε := by
      unfold Solver.getHomo Solver.occupation
      simp only [halfSolver, if_true, hfl]
      norm_num [Solver.eigAt, pyGet]
    exact Except.ok.inj (hh.symm.trans this)
  subst hε
  refine ⟨hh, T, h5, ?_⟩
  rw [h3 (fun f g => by
    congr 1
    funext k
    exact mul_comm _ _), add_zero] at h6
  exact h6

/-- The same electron without fractional occupation: `get_homo` is `ε`, the energy does not change. -/
example (v φ : twoPoints.Fld) (hφ : (twoPoints.integ fun k => φ k ^ 2) ≠ 0) (ε : ℝ) :
    (halfSolver false v φ ε).getHomo = .ok ε ∧ ∃ E : ℝ,
      ∀ᶠ t in 𝓝 0, EnergyWith twoFunctionals (halfKs false v φ ε fun _ _ => 0) (0, 0) t E := by
  have hfl : ⌊(1 : ℝ) / 2⌋ = 0 := by rw [Int.floor_eq_iff]; norm_num
  have hs := half_filled false v φ ε hφ
  have hd : (halfSolver false v φ ε).calcDensity = .ok fun _ => 0 := by
    rw [(C18_density _ hs.pol hs.electrons [φ] rfl).1 hs.enough]
    congr 1
    funext k
    simp only [halfSolver, orbitalCapacity, List.length_singleton, Fin.sum_univ_one, fill, fillingWhole]
    norm_num
  have hself : sumDensities 1 (halfKs false v φ ε fun _ _ => 0).solver = .ok fun _ _ => 0 := by
    change sumDensities 1 (fun _ : Fin 1 × Fin 1 => halfSolver false v φ ε) = _
    rw [sumDensities_eq _ (fun _ _ => 0) (fun _ => hd) le_rfl]
    congr 1
    funext q k
    rw [dif_pos q.2, Fin.sum_univ_one]
  have h := C100_refuted twoFunctionals _ _ _ _ _ two_laws (halfKs false v φ ε fun _ _ => 0) le_rfl rfl (fun _ => [φ])
    (fun _ => [ε]) (fun _ => v) (fun _ => hs) _ _ _ rfl rfl hself (0, 0) rfl
  have hn : ((halfKs false v φ ε fun _ _ => 0).solver (0, 0)).N / (orbitalCapacity ((halfKs false v φ ε fun _ _ => 0).solver (0, 0)).m
      (((halfKs false v φ ε fun _ _ => 0).solver (0, 0)).pol = 2) : ℝ) = 1 / 2 := half_ratio _ _ _ _
  simp only [hn, hfl] at h
  exact h (by norm_num) (by simp)

end Concrete
end Verif
