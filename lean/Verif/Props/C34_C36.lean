import Verif.Lemmas.KsEnergy

/-!
# C34: Kohn-Sham energy; C35: potentials handed to the solvers; C36: chemical potential
-/

namespace Verif
open Spec KS
variable {K : Type} [Field K] [LinearOrder K] [IsStrictOrderedRing K] [FloorRing K]
variable {G : Grid K} {r c p : ℕ}

/-! ## C34 -/

/-- C34: a successful `energy()` ends with the stated components and their sum.  `ts`, `es`, `vs` are
what the solvers computed. -/
theorem C34_energy (F : Functionals G p) (ks ks' : KS G r c p) (hc : c ≤ p)
    (h : ks.energy F = .ok ks') :
    ∃ (E : KSEnergy K p) (es vs ts : Fin r × Fin c → K) (n vext : G.Cols p),
      ks'.E = some E ∧ ks.n = some n ∧ ks.vext = some vext ∧
      (∀ w, ∃ m, (ks.solver w).calcEnergy = .ok (⟨.fin (es w), .fin (vs w), .fin (ts w)⟩, m)) ∧
      E.Ts = .fin (∑ w, ts w) ∧
      (∀ j, E.Eks j = .fin (if h : j.1 < c then ∑ i, es (i, ⟨j.1, h⟩) else 0)) ∧
      (∀ j, E.Vks j = .fin (if h : j.1 < c then ∑ i, vs (i, ⟨j.1, h⟩) else 0)) ∧
      E.Enuc = G.integ (fun k => ∑ s, n s k * ks.vnuc s k) ∧
      E.Vext = G.integ (fun k => ∑ s, n s k * vext s k) ∧
      E.Vnn = ks.Za * ks.Zb / (2 * ks.a) ∧
      (ks.kind = .ni → E.E = .fin (∑ w, ts w + E.Enuc + ks.Za * ks.Zb / (2 * ks.a))) ∧
      (ks.kind = .dft → ∃ (Eh : K) (vh : G.Cols p) (ex vx ec vc : _) (hp : 0 < p), E.Eh = some Eh ∧
        F.hartree n = .ok vh ∧ F.exchange n = .ok (E.Ex, ex, vx) ∧ F.correlation n = .ok (E.Ec, ec, vc) ∧
        Eh = 1 / 2 * G.integ (fun k => (∑ s, n s k) * vh ⟨0, hp⟩ k) ∧
        E.E = .fin (∑ w, ts w + E.Enuc + Eh + E.Ex + E.Ec + ks.Za * ks.Zb / (2 * ks.a))) := by
  unfold energy at h
  rw [Py.do_eq_ok] at h
  obtain ⟨⟨Eks, Ts, Vks, evals⟩, hs, h⟩ := h
  have hall := solverEnergies_has hs
  choose x hx l hl using fun w => (⟨(hall w).1.choose, (hall w).1.choose_spec, (hall w).2⟩ :
    ∃ x, (ks.solver w).calcEnergy = .ok x ∧ ∃ l, (ks.solver w).eig = some l)
  choose a b v hv hek hden he hb using fun w =>
    Solver.calcEnergy_fin (s := ks.solver w) (e := (x w).1) (n := (x w).2) (hx w)
  have hx' : ∀ w, (ks.solver w).calcEnergy = .ok (⟨.fin (a w), .fin (b w),
      .fin (a w - G.integ fun k => v w k * (x w).2 k)⟩, (x w).2) := by
    intro w
    rw [hx w, ← he w]
  have heq := solverEnergies_eq hc ks.solver a b _ _ l hx' hl
  rw [hs] at heq
  simp only [Except.ok.injEq, Prod.mk.injEq] at heq
  obtain ⟨rfl, rfl, rfl, rfl⟩ := heq
  cases hk : ks.kind with
  | ni =>
    rw [hk] at h
    simp only [Py.do_eq_ok, Py.pure_eq_ok] at h
    obtain ⟨n, hn, vext, hvext, rfl⟩ := h
    refine ⟨_, a, b, _, n, vext, rfl, ?_, ?_, fun w => ⟨_, hx' w⟩, rfl, fun _ => rfl, fun _ => rfl, rfl, rfl,
      rfl, fun _ => ?_, fun h => by cases h⟩
    · revert hn; cases ks.n <;> simp [need]
    · revert hvext; cases ks.vext <;> simp [need]
    · simp [KS.inner]
  | dft =>
    rw [hk] at h
    simp only [Py.do_eq_ok, Py.pure_eq_ok] at h
    obtain ⟨n, hn, vext, hvext, vhxc, hvhxc, vh, hvh, vh0, hvh0, ⟨Ex, ex, vx⟩, hex, ⟨Ec, ec, vc⟩, hec,
      rfl⟩ := h
    refine ⟨_, a, b, _, n, vext, rfl, ?_, ?_, fun w => ⟨_, hx' w⟩, rfl, fun _ => rfl, fun _ => rfl, rfl, rfl,
      rfl, (fun h => nomatch h), fun _ => ?_⟩
    · revert hn; cases ks.n <;> simp [need]
    · revert hvext; cases ks.vext <;> simp [need]
    · unfold col at hvh0
      by_cases hp : 0 < p
      · rw [dif_pos hp] at hvh0
        simp only [Except.ok.injEq] at hvh0
        subst hvh0
        refine ⟨_, vh, ex, vx, ec, vc, hp, rfl, hvh, hex, hec, ?_, ?_⟩
        · rw [← G.integ_smul]
          congr 1
          funext k
          ring
        · simp [KS.inner]
      · rw [dif_neg hp] at hvh0; cases hvh0

/-- C34: the kinetic energy is the eigenvalue sum minus the potential energies, as long as no solver's
potential energy exceeds the cut-off of C20. -/
theorem C34_consistent (F : Functionals G p) (ks ks' : KS G r c p) (hc : c ≤ p)
    (h : ks.energy F = .ok ks')
    (hsmall : ∀ w v n, (ks.solver w).veff = some v → (ks.solver w).calcDensity = .ok n →
      |G.integ fun k => v k * n k| ≤ 10 ^ 5) :
    ∃ (E : KSEnergy K p) (Eks Vks : Fin p → K) (Ts : K), ks'.E = some E ∧ E.Ts = .fin Ts ∧
      (∀ j, E.Eks j = .fin (Eks j)) ∧ (∀ j, E.Vks j = .fin (Vks j)) ∧ Ts = ∑ j, Eks j - ∑ j, Vks j := by
  obtain ⟨E, es, vs, ts, n, vext, h1, -, -, h2, h3, h4, h5, -⟩ := C34_energy F ks ks' hc h
  refine ⟨E, _, _, _, h1, h3, h4, h5, ?_⟩
  have hts : ∀ w, ts w = es w - vs w := by
    intro w
    obtain ⟨m, hm⟩ := h2 w
    obtain ⟨a, b, v, hv, -, hd, he, hb⟩ := Solver.calcEnergy_fin hm
    simp only [Solver.Energy.mk.injEq, Fl.fin.injEq] at he
    rw [he.1, he.2.1, he.2.2, hb (hsmall w v m hv hd)]
  have hsum : ∀ f : Fin r × Fin c → K, ∑ w, f w =
      ∑ j : Fin p, if h : j.1 < c then ∑ i, f (i, ⟨j.1, h⟩) else 0 := by
    intro f
    rw [Fintype.sum_prod_type_right]
    have hemb := (Fin.castLEEmb hc)
    rw [← Finset.sum_subset (Finset.subset_univ (Finset.univ.map (Fin.castLEEmb hc)))]
    · rw [Finset.sum_map]
      refine Finset.sum_congr rfl fun j _ => ?_
      have : (Fin.castLEEmb hc j).1 < c := j.2
      rw [dif_pos this]
      rfl
    · intro j _ hj
      refine dif_neg fun h => hj ?_
      rw [Finset.mem_map]
      exact ⟨⟨j.1, h⟩, Finset.mem_univ _, rfl⟩
  rw [← hsum, ← hsum, ← Finset.sum_sub_distrib]
  exact Finset.sum_congr rfl fun w _ => hts w

/-- One `m = 0` solver with two electrons in the constant orbital of eigenvalue 3, potential 1. -/
def exampleKS : KS (Grid.tiny ℚ) 1 1 1 :=
  ⟨.ni, false, 1, 2, 1 / 2, fun _ => ⟨1, 2, 0, 1, false, false, some [fun _ => 1], some [3], some fun _ => 1⟩,
    fun _ _ => -1, some fun _ _ => 0, none, none, some fun _ _ => 1, none, none, {}, none, none, none, fun _ => none⟩

/-- C34: the example has `Ts = 6 - 2`, `Enuc = -2`, `E = 4 - 2 + 2`. -/
example (F : Functionals (Grid.tiny ℚ) 1) : ∃ ks' E, exampleKS.energy F = .ok ks' ∧ ks'.E = some E ∧
    E.Ts = .fin 4 ∧ E.Enuc = -2 ∧ E.E = .fin 4 := by
  obtain ⟨e, m, h1, h2, h3, h4, -⟩ := C20_energy_partial (exampleKS.solver (0, 0)) (.inl rfl)
    (by norm_num [exampleKS]) _ rfl _ rfl _ rfl (by simp [exampleKS, needed, orbitalCapacity])
    (by simp [exampleKS, needed, orbitalCapacity])
  obtain ⟨m', h5, -, h6⟩ := C18_electron_number (exampleKS.solver (0, 0)) (.inl rfl)
    (by norm_num [exampleKS]) _ rfl (by simp [exampleKS, needed, orbitalCapacity])
    (by
      intro i hi _
      simp only [exampleKS, List.length_singleton, Nat.lt_one_iff] at hi
      subst hi
      rw [Grid.tiny_integ]; simp)
  have hm : (Grid.tiny ℚ).integ m = 2 := by
    rw [h2] at h5
    injection h5 with h5
    rw [h5]
    refine (h6 rfl).unique ⟨⟨⟨1, by simp [exampleKS, orbitalCapacity]⟩, le_rfl⟩, ?_⟩
    rintro y ⟨-, hy⟩
    exact hy
  have hts : e.Ts = .fin 4 := by
    rw [h4, h3]
    have : ((Grid.tiny ℚ).integ fun k => 1 * m k) = 2 := by rw [← hm]; congr 1; funext k; ring
    rw [this]
    simp [exampleKS, fill, fillingWhole, orbitalCapacity]
    norm_num
  obtain ⟨ks', E, hE, hE', -⟩ := energy_ok F exampleKS le_rfl
    (fun w => by
      have : w = (0, 0) := by ext <;> simp
      subst this
      exact ⟨⟨_, h1⟩, _, rfl⟩) ⟨_, rfl⟩ ⟨_, rfl⟩ (fun h => by cases h)
  obtain ⟨E', es, vs, ts, n, vext, g1, g2, g3, g4, g5, -, -, g6, -, -, g7, -⟩ :=
    C34_energy F exampleKS ks' le_rfl hE
  rw [hE'] at g1
  injection g1 with g1
  subst g1
  obtain ⟨m2, hm2⟩ := g4 (0, 0)
  rw [h1] at hm2
  simp only [Except.ok.injEq, Prod.mk.injEq] at hm2
  have hts' : ts (0, 0) = 4 := by
    have := hts
    rw [hm2.1] at this
    simpa using this
  have hsum : ∑ w, ts w = 4 := by
    rw [← hts', Fintype.sum_prod_type]
    simp
  have hnuc : E.Enuc = -2 := by
    injection g2 with g2
    rw [g6, ← g2, Grid.tiny_integ]
    simp [exampleKS]
    norm_num
  refine ⟨ks', E, hE, hE', by rw [g5, hsum], hnuc, ?_⟩
  rw [g7 rfl, hsum, hnuc]
  norm_num [exampleKS]

/-! ## C35 -/

/-- C35: `set_effective_potential` gives every solver its column of `vnuc + vext + vhxc` and changes
nothing else. -/
theorem C35_set_effective (ks : KS G r c p) (hc : c ≤ p) (vext vhxc : G.Cols p) (h1 : ks.vext = some vext)
    (h2 : ks.vhxc = some vhxc) :
    ∃ ks', ks.setEffectivePotential = .ok ks' ∧
      ks'.veff = some (fun s k => ks.vnuc s k + vext s k + vhxc s k) ∧
      ∀ i j, (ks'.solver (i, j)) = { ks.solver (i, j) with
        veff := some fun k => ks.vnuc ⟨j.1, by omega⟩ k + vext ⟨j.1, by omega⟩ k + vhxc ⟨j.1, by omega⟩ k } := by
  unfold setEffectivePotential
  rw [h1, h2]
  simp only [need, bind, Except.bind]
  rw [distribute_ok _ hc]
  exact ⟨_, rfl, rfl, fun i j => rfl⟩

/-- C35: the loop of `scf` gives every solver its column of the potential of the current density. -/
theorem C35_scf_potential (F : Functionals G p) (ks a : KS G r c p) (hc : c ≤ p)
    (h : KsScf.potential F ks = .ok a) :
    ∃ veff vext vhxc, a.veff = some veff ∧ a.vext = some vext ∧ a.vhxc = some vhxc ∧
      veff = (fun s k => a.vnuc s k + vext s k + vhxc s k) ∧
      ∀ i j, (a.solver (i, j)).veff = some (veff ⟨j.1, by omega⟩) := by
  unfold KsScf.potential at h
  simp only [Py.do_eq_ok, Py.pure_eq_ok] at h
  obtain ⟨m, hm, vext, h1, vhxc, h2, sv, hsv, rfl⟩ := h
  rw [distribute_ok _ hc] at hsv
  injection hsv with hsv
  subst hsv
  refine ⟨_, vext, vhxc, rfl, ?_, ?_, rfl, fun i j => rfl⟩
  · revert h1; simp only; cases m.vext <;> simp [need]
  · revert h2; simp only; cases m.vhxc <;> simp [need]

/-- C35 is false for `set_veff_external`: the argument has no influence; solvers get the old
`self.veff`. -/
theorem C35_refuted_external (ks : KS G r c p) (hc : c ≤ p) (veff : G.Cols p) :
    (ks.veff = none → 0 < r → 0 < c → ks.setVeffExternal veff = .error .typeError) ∧
    (∀ old, ks.veff = some old → ∃ ks', ks.setVeffExternal veff = .ok ks' ∧
      ∀ i j, (ks'.solver (i, j)).veff = some (old ⟨j.1, by omega⟩)) := by
  unfold setVeffExternal
  constructor
  · intro h _ _; rw [h]; rfl
  · intro old h
    rw [h]
    simp only [need, bind, Except.bind]
    rw [distribute_ok _ hc]
    exact ⟨_, rfl, fun i j => rfl⟩

/-- C35 is false for `spinflipsym`: the solvers keep what they had when `self.veff` is symmetrised, so
they hold the symmetrised potential only if it was symmetric already. -/
theorem C35_refuted_flip (F : Functionals G p) (o : KsScf.Options K) (ho : o.spinflipsym = true)
    (ks a : KS G 1 p p) (h : KsScf.potential F ks = .ok a) :
    ∃ veff, a.veff = some veff ∧ (KsScf.flipPotential o a).veff = some (spinSymmetrised veff) ∧
      ((∀ j, ((KsScf.flipPotential o a).solver (0, j)).veff = some (spinSymmetrised veff j)) ↔
        spinSymmetrised veff = veff) := by
  obtain ⟨veff, _, _, h1, -, -, -, h2⟩ := C35_scf_potential F ks a le_rfl h
  refine ⟨veff, h1, by simp [KsScf.flipPotential, ho, h1], ?_⟩
  have : ∀ j, ((KsScf.flipPotential o a).solver (0, j)).veff = some (veff j) := by
    intro j
    simp only [KsScf.flipPotential, ho, if_true]
    exact h2 0 j
  simp only [this, Option.some.injEq]
  exact ⟨fun h => funext fun j => (h j).symm, fun h j => by rw [h]⟩

/-- C35: a potential that is not symmetric under spin flip. -/
example : spinSymmetrised (G := Grid.tiny ℚ) (p := 2) (fun s _ => (s.1 : ℚ)) ≠ fun s _ => (s.1 : ℚ) := by
  intro h
  have := congrFun (congrFun h 0) ⟨0, by decide⟩
  simp [spinSymmetrised, Grid.mirCols, Grid.flipCols, Grid.mir] at this

/-! ## C36 -/

/-- C36: `calc_chempot` sets `u` to a HOMO that is not below any other, provided every HOMO is
available; an unavailable one makes it fail. -/
theorem C36_chempot (ks : KS G r c p) (hr : 0 < r) (hc : 0 < c) :
    (∀ homo : Fin r × Fin c → K, (∀ w, (ks.solver w).getHomo = .ok (homo w)) →
      ∃ u, ks.calcChempot = .ok { ks with u := some u, homo := fun w => some (homo w) } ∧ IsGreatest (Set.range homo) u) ∧
    (∀ ks', ks.calcChempot = .ok ks' → ∀ w, ∃ x, (ks.solver w).getHomo = .ok x) := by
  constructor
  · intro homo hh
    unfold calcChempot
    rw [mapM_ok _ homo _ fun w _ => hh w]
    simp only [bind, Except.bind]
    have hmem : homo (⟨0, hr⟩, ⟨0, hc⟩) ∈ (rowMajor r c).map homo :=
      List.mem_map_of_mem (mem_rowMajor _)
    obtain ⟨x, l, hxl⟩ := List.exists_cons_of_ne_nil (List.ne_nil_of_mem hmem)
    obtain ⟨m, h1, h2, h3⟩ := pyMax_spec x l
    rw [hxl, h1]
    rw [← hxl] at h2 h3
    refine ⟨m, by simp [pure, Except.pure, hh, Except.toOption], ?_, ?_⟩
    · obtain ⟨w, -, hw⟩ := List.mem_map.mp h2
      exact ⟨w, hw⟩
    · rintro _ ⟨w, rfl⟩
      exact h3 _ (List.mem_map_of_mem (mem_rowMajor w))
  · intro ks' h w
    unfold calcChempot at h
    rw [Py.do_eq_ok] at h
    obtain ⟨x, hx, -⟩ := h
    exact mapM_all _ _ _ hx w (mem_rowMajor w)

end Verif
