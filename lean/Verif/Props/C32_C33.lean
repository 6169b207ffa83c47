import Verif.Lemmas.KsScfOk

/-!
# C32: electron number and sign through the SCF iterations; C33: termination of `Kohnsham.scf`
-/

namespace Verif
open Spec KS KsScf
variable {K : Type} [Field K] [LinearOrder K] [IsStrictOrderedRing K] [FloorRing K]
variable {G : Grid K} {r c p : ℕ}

/-! ## C32 -/

theorem KS.integ_spinSymmetrised (hG : MirrorInvariant G) (f : G.Cols p) (s : Fin p) :
    G.integ (spinSymmetrised f s) = (G.integ (f s) + G.integ (f s.rev)) / 2 := by
  have : spinSymmetrised f s = fun k => 1 / 2 * (f s k + G.mir (f s.rev) k) := by
    funext k; simp only [spinSymmetrised, Grid.mirCols, Grid.flipCols]; ring
  rw [this, G.integ_smul, G.integ_add, hG]
  ring

/-- C32: the density after `Kohnsham.scf`, for any budget (so after any number of iterations), any
functionals and any adequate worker results, is non-negative and has in each column the solvers'
electron number - without `spinflipsym`, or if opposite columns have equal electron numbers.
When continuing, the density given must have this property. -/
theorem C32_scf_partial (F : Functionals G p) (W : Workers G r c p) (o : Options K) (ks : KS G r c p)
    (hc : c ≤ p) (hpol : ∀ w, (ks.solver w).pol = 1 ∨ (ks.solver w).pol = 2)
    (hN : ∀ w, 0 ≤ (ks.solver w).N)
    (hW : ∀ ks' it w f, W ks' it w = some f → Adequate (ks.solver w) f)
    (hG : ks.sym = true ∨ o.spinflipsym = true → MirrorInvariant G)
    (hflip : o.spinflipsym = true → ∀ j, columnElectrons ks j.rev = columnElectrons ks j)
    (h0 : 0 ≤ o.alpha) (h1 : o.alpha ≤ 1)
    (hcont : o.continuing = true → ∀ n, ks.n = some n → GoodDensity ks n)
    (ks' : KS G r c p) (log) (h : scf F W o ks = .ok (ks', log)) :
    ∃ n, ks'.n = some n ∧ GoodDensity ks n := by
  have hdens : ∀ (a b : KS G r c p) it nout, Keeps ks a → a.calcDensity (W a it) = .ok (b, nout) →
      Keeps ks b ∧ b.n = a.n ∧ GoodDensity ks nout := by
    intro a b it nout hk hab
    obtain ⟨h1, h2, h3⟩ := calcDensity_good hab hc (fun hs => hG (.inl (hk.sym ▸ hs)))
      (fun w => by rw [(hk.solver w).2.2.1]; exact hpol w) (fun w => by rw [(hk.solver w).1]; exact hN w)
      (fun w f hf => (hk.solver w).adequate.mpr (hW _ _ w f hf))
    exact ⟨hk.trans h1, h2, hk.good.mp h3⟩
  unfold scf at h
  simp only [Py.do_eq_ok, Py.pure_eq_ok] at h
  obtain ⟨k0, hstart, ⟨st, lg⟩, hrun, h⟩ := h
  simp only [Prod.mk.injEq] at h
  obtain ⟨rfl, rfl⟩ := h
  -- before the loop
  have hk0 : Keeps ks k0 ∧ ∃ n, k0.n = some n ∧ GoodDensity ks n := by
    unfold start at hstart
    simp only at hstart
    split at hstart
    · rename_i hco
      simp only [Py.do_eq_ok, Py.pure_eq_ok] at hstart
      obtain ⟨n, hn, rfl⟩ := hstart
      refine ⟨⟨rfl, fun _ => ⟨rfl, rfl, rfl, rfl⟩⟩, n, ?_, ?_⟩
      · revert hn; cases ks.n <;> simp [need]
      · apply hcont hco
        revert hn; cases ks.n <;> simp [need]
    · simp only [Py.do_eq_ok, Py.pure_eq_ok] at hstart
      obtain ⟨a, ha, ⟨b, nout⟩, hb, rfl⟩ := hstart
      obtain ⟨hka, -⟩ := setEffectivePotential_keeps ha
      have hka' : Keeps ks a := ⟨hka.sym, hka.solver⟩
      obtain ⟨hkb, -, hg⟩ := hdens a b false nout hka' hb
      exact ⟨hkb.trans ⟨rfl, fun _ => ⟨rfl, rfl, rfl, rfl⟩⟩, nout, rfl, hg⟩
  -- the loop
  have hinv := loop_inv (body F W o)
    (fun st => Keeps ks st.ks ∧ ∃ n, st.ks.n = some n ∧ GoodDensity ks n) ?_ o.autoTol o.etol _ _ _ _ _
    hk0 hrun
  · exact hinv.2
  · rintro s s' dE dn ⟨hk, n, hn, hg⟩ hs
    unfold body at hs
    simp only [Py.do_eq_ok, Py.pure_eq_ok] at hs
    obtain ⟨a, ha, b, hb, e, he, u, hu, n', hn', E, -, dn', -, hs⟩ := hs
    simp only [Prod.mk.injEq] at hs
    obtain ⟨rfl, -⟩ := hs
    -- potential
    have hka : Keeps ks a ∧ a.n = some n := by
      unfold potential at ha
      simp only [Py.do_eq_ok, Py.pure_eq_ok] at ha
      obtain ⟨m, hm, _, _, _, _, sv, hsv, rfl⟩ := ha
      obtain ⟨h1, h2⟩ := calcHxc_keeps hm
      exact ⟨(hk.trans h1).trans ⟨rfl, distribute_alike hsv⟩, h2.trans hn⟩
    have hkf : Keeps ks (flipPotential o a) ∧ (flipPotential o a).n = some n := by
      unfold flipPotential
      split
      · exact ⟨hka.1.trans ⟨rfl, fun _ => ⟨rfl, rfl, rfl, rfl⟩⟩, hka.2⟩
      · exact hka
    -- density
    have hkb : Keeps ks b ∧ ∃ n, b.n = some n ∧ GoodDensity ks n := by
      unfold density at hb
      simp only [Py.do_eq_ok, Py.pure_eq_ok] at hb
      obtain ⟨⟨d, nout⟩, hd, m, hm, rfl⟩ := hb
      obtain ⟨hkd, hdn, hgn⟩ := hdens _ d _ nout hkf.1 hd
      have hm' : m = n := by
        simp only at hm
        rw [hdn, hkf.2] at hm
        simpa [need] using hm.symm
      subst hm'
      refine ⟨hkd.trans ⟨rfl, fun _ => ⟨rfl, rfl, rfl, rfl⟩⟩, _, rfl, ?_⟩
      have hmix := mix_good hg hgn h0 h1
      split
      · rename_i hsf
        constructor
        · intro j
          rw [integ_spinSymmetrised (hG (.inr hsf)), hmix.count, hmix.count, hflip hsf]
          ring
        · intro j k
          have a := hmix.nonneg j k
          have b := hmix.nonneg j.rev (G.mirIx k)
          simp only [spinSymmetrised, Grid.mirCols, Grid.flipCols, Grid.mir]
          positivity
      · exact hmix
    obtain ⟨h1, h2⟩ := energy_keeps he
    obtain ⟨h3, h4⟩ := calcChempot_keeps hu
    obtain ⟨nb, hnb, hgb⟩ := hkb.2
    exact ⟨(hkb.1.trans h1).trans h3, nb, by simp only; rw [h4, h2, hnb], hgb⟩

/-- C32: mixing as used by both SCF procedures, any number of times: starting from a density with the
right electron numbers and adding such densities keeps electron numbers and sign. -/
theorem C32_mix (ks : KS G r c p) (n0 : G.Cols p) (outs : List (G.Cols p)) (alpha : K)
    (h0 : 0 ≤ alpha) (h1 : alpha ≤ 1) (hn : GoodDensity ks n0) (ho : ∀ m ∈ outs, GoodDensity ks m) :
    GoodDensity ks (outs.foldl (mix alpha) n0) := by
  induction outs generalizing n0 with
  | nil => exact hn
  | cons m outs ih =>
    exact ih _ (mix_good hn (ho m List.mem_cons_self) h0 h1) fun m' hm' =>
      ho m' (List.mem_cons_of_mem _ hm')

/-! ## C33 -/

theorem KsScf.loop_log {S : Type} (step : S → Py (S × Fl K × Fl K)) (etol : K) :
    ∀ (left : ℕ) (diff : Fl K) (s s' : S) (log), loop step false etol left diff s = .ok (s', log) →
      log.length ≤ left ∧ (log.length < left →
        Fl.gt ((log.getLast?.map fun d => Fl.pymax d.1 d.2).getD diff) (.fin etol) = false) := by
  intro left
  induction left with
  | zero =>
    intro diff s s' log h
    unfold loop at h
    split at h
    · simp only [Except.ok.injEq, Prod.mk.injEq] at h; simp [← h.2]
    · simp only [Bool.false_eq_true, if_false, Except.ok.injEq, Prod.mk.injEq] at h; simp [← h.2]
  | succ left ih =>
    intro diff s s' log h
    unfold loop at h
    split at h
    · simp only [Py.do_eq_ok, Bool.false_eq_true, if_false, Py.pure_eq_ok] at h
      obtain ⟨⟨t, dE, dn⟩, ht, ⟨t', log'⟩, ht', h⟩ := h
      simp only [Prod.mk.injEq] at h
      obtain ⟨-, rfl⟩ := h
      obtain ⟨h1, h2⟩ := ih _ _ _ _ ht'
      refine ⟨by simpa using h1, fun hlt => ?_⟩
      have := h2 (by simpa using hlt)
      cases hl : log'.getLast? with
      | none =>
        rw [List.getLast?_eq_none_iff] at hl
        subst hl
        simpa using this
      | some d =>
        rw [hl] at this
        rw [List.getLast?_cons, hl]
        simpa using this
    · rename_i hd
      simp only [Bool.false_eq_true, if_false, Except.ok.injEq, Prod.mk.injEq] at h
      obtain ⟨-, rfl⟩ := h
      refine ⟨by simp, fun _ => ?_⟩
      simpa using hd

/-- C33, partial: without `auto_tol`, `Kohnsham.scf` makes at most `maxiter - 1` passes; if it makes
fewer, and the changes of the last pass are numbers, both are at most `e_tol` (or no pass was made because
`e_tol ≥ 10`).  Missing: changes that are NaN (`C33_refuted_nan`) and `auto_tol`
(`C33_refuted_auto`). -/
theorem C33_budget_partial (F : Functionals G p) (W : Workers G r c p) (o : Options K)
    (ks ks' : KS G r c p) (log) (hauto : o.autoTol = false) (h : scf F W o ks = .ok (ks', log)) :
    log.length ≤ (o.maxiter - 1).toNat ∧
    (log.length < (o.maxiter - 1).toNat →
      match log.getLast? with
      | none => 10 ≤ o.etol
      | some (.fin dE, .fin dn) => dE ≤ o.etol ∧ dn ≤ o.etol
      | some (dE, dn) => dE = .nan ∨ dn = .nan ∨ dE = .negInf ∨ dn = .negInf) := by
  unfold scf at h
  simp only [Py.do_eq_ok, Py.pure_eq_ok, hauto] at h
  obtain ⟨k0, hstart, ⟨st, lg⟩, hrun, h⟩ := h
  simp only [Prod.mk.injEq] at h
  obtain ⟨-, rfl⟩ := h
  obtain ⟨h1, h2⟩ := loop_log _ _ _ _ _ _ _ hrun
  refine ⟨h1, fun hlt => ?_⟩
  have := h2 hlt
  cases hl : lg.getLast? with
  | none => rw [hl] at this; simpa using this
  | some d =>
    rw [hl] at this
    obtain ⟨dE, dn⟩ := d
    simp only [Option.map_some, Option.getD_some] at this
    revert this
    cases dE <;> cases dn <;> simp [Fl.pymax, Fl.gt]
    rename_i x y
    intro this
    by_cases hxy : x < y
    · rw [if_pos hxy] at this
      simp at this
      exact ⟨hxy.le.trans this, this⟩
    · rw [if_neg hxy] at this
      simp at this
      exact ⟨this, (not_lt.mp hxy).trans this⟩

theorem KsScf.loop_stop {S : Type} (step : S → Py (S × Fl K × Fl K)) (etol : K) (left : ℕ) (diff : Fl K)
    (s : S) (h : Fl.gt diff (.fin etol) = false) : loop step false etol left diff s = .ok (s, []) := by
  unfold loop
  simp [h]

theorem KsScf.loop_pass {S : Type} (step : S → Py (S × Fl K × Fl K)) (etol : K) (left : ℕ)
    (diff dE dn : Fl K) (s s' s'' : S) (log) (h : Fl.gt diff (.fin etol) = true)
    (hs : step s = .ok (s', dE, dn))
    (hl : loop step false etol left (Fl.pymax dE dn) s' = .ok (s'', log)) :
    loop step false etol (left + 1) diff s = .ok (s'', (dE, dn) :: log) := by
  rw [loop]
  simp [h, hs, hl, bind, Except.bind, pure, Except.pure]

/-- C33 is false for NaN: an energy change that is NaN ends the loop after the first pass although the
density change is 1, and a NaN density change is ignored. -/
theorem C33_refuted_nan :
    run (fun _ : Unit => .ok ((), (.nan : Fl ℚ), .fin 1)) false (1 / 100) 100 () =
      .ok ((), [(.nan, .fin 1)]) ∧
    run (fun _ : Unit => .ok ((), (.fin 0 : Fl ℚ), .nan)) false (1 / 100) 100 () =
      .ok ((), [(.fin 0, .nan)]) := by
  constructor
  · refine loop_pass _ _ 98 _ _ _ _ _ _ _ (by simp; norm_num) rfl (loop_stop _ _ _ _ _ (by simp [Fl.pymax]))
  · refine loop_pass _ _ 98 _ _ _ _ _ _ _ (by simp; norm_num) rfl
      (loop_stop _ _ _ _ _ (by simp [Fl.pymax]))

/-- C33 is false with `auto_tol`: a pass that succeeds is followed by `NameError`, and so is a first
check that is not above the tolerance. -/
theorem C33_refuted_auto {S : Type} (step : S → Py (S × Fl K × Fl K)) (etol : K) (maxiter : ℤ) (s : S) :
    (10 ≤ etol → run step true etol maxiter s = .error .nameError) ∧
    (etol < 10 → 1 < maxiter → (∃ x, step s = .ok x) →
      run step true etol maxiter s = .error .nameError) := by
  constructor
  · intro h
    unfold run loop
    simp [not_lt.mpr h]
  · rintro h hm ⟨⟨s', dE, dn⟩, hx⟩
    unfold run
    obtain ⟨n, hn⟩ : ∃ n, (maxiter - 1).toNat = n + 1 := ⟨(maxiter - 1).toNat - 1, by omega⟩
    rw [hn]
    unfold loop
    simp [h, hx, bind, Except.bind]

/-- C33: two passes with changes `1` and `1/1000` and tolerance `1/100`. -/
example : run (fun i : ℕ => .ok (i + 1, (.fin (1 / 1000 ^ i) : Fl ℚ), .fin (1 / 1000 ^ i))) false
    (1 / 100) 100 0 = .ok (2, [(.fin 1, .fin 1), (.fin (1 / 1000), .fin (1 / 1000))]) := by
  have h := loop_pass (fun i : ℕ => .ok (i + 1, (.fin (1 / 1000 ^ i) : Fl ℚ), .fin (1 / 1000 ^ i))) (1 / 100) 98
    (.fin 10) _ _ 0 _ _ _ (by simp; norm_num) rfl (loop_pass _ _ 97 _ _ _ _ _ _ _
      (by simp [Fl.pymax]; norm_num) rfl (loop_stop _ _ _ _ _ (by simp [Fl.pymax]; norm_num)))
  unfold run
  rw [show ((100 : ℤ) - 1).toNat = 98 + 1 from rfl, h]
  norm_num

/-- C33: `Kohnsham.scf` returns (within its budget, `C33_budget_partial`) whenever the functionals return
and the workers deliver enough orbitals and eigenvalues; a continued run needs a density. -/
theorem C33_returns (F : Functionals G p) (W : Workers G r c p) (o : Options K) (ks : KS G r c p)
    (hG : Nonempty G.Ix) (hr : 0 < r) (hc0 : 0 < c) (hc : c ≤ p)
    (hpol : ∀ w, (ks.solver w).pol = 1 ∨ (ks.solver w).pol = 2) (hN : ∀ w, 0 ≤ (ks.solver w).N)
    (hF : ks.kind = .dft → TotalFunctionals F)
    (hW : ∀ ks' it w, ∃ f, W ks' it w = some f ∧ Complete (ks.solver w) f)
    (hauto : o.autoTol = false) (hcont : o.continuing = true → ∃ n, ks.n = some n) :
    ∃ ks' log, scf F W o ks = .ok (ks', log) := by
  obtain ⟨k0, hk0, hready⟩ : ∃ k0, start W o ks = .ok k0 ∧ Ready ks k0 := by
    unfold start
    cases ho : o.continuing with
    | true =>
      obtain ⟨n, hn⟩ := hcont ho
      simp only [if_true, hn, need, bind, Except.bind, pure, Except.pure]
      exact ⟨_, rfl, ⟨⟨rfl, fun _ => ⟨rfl, rfl, rfl, rfl⟩⟩, rfl, ⟨n, by first | rfl | exact hn⟩, _, rfl⟩⟩
    | false =>
      choose f hf hfc using fun w => hW { ks with
        vext := some (ks.vext.getD fun _ _ => 0)
        vhxc := some fun _ _ => 0
        veff := some fun s k => ks.vnuc s k + (ks.vext.getD fun _ _ => 0) s k + 0
        solver := fun w => { ks.solver w with
          veff := some fun k => ks.vnuc ⟨w.2.1, by omega⟩ k +
            (ks.vext.getD fun _ _ => 0) ⟨w.2.1, by omega⟩ k + 0 } } false w
      simp only [Bool.false_eq_true, if_false, setEffectivePotential, need, bind, Except.bind]
      rw [distribute_ok _ hc]
      obtain ⟨nout, hd, -⟩ := C30_density { ks with
        vext := some (ks.vext.getD fun _ _ => 0)
        vhxc := some fun _ _ => 0
        veff := some fun s k => ks.vnuc s k + (ks.vext.getD fun _ _ => 0) s k + 0
        solver := fun w => { ks.solver w with
          veff := some fun k => ks.vnuc ⟨w.2.1, by omega⟩ k +
            (ks.vext.getD fun _ _ => 0) ⟨w.2.1, by omega⟩ k + 0 } } hc hpol hN _ f hf
        fun w => (hfc w).1
      simp only [pure, Except.pure]
      rw [hd]
      exact ⟨_, rfl, ⟨⟨rfl, fun _ => ⟨rfl, rfl, rfl, rfl⟩⟩, rfl, ⟨_, rfl⟩, _, rfl⟩⟩
  obtain ⟨st, log, hrun⟩ := loop_ok (body F W o) (fun st => Ready ks st.ks)
    (fun st hst => body_ok F W o ks hG hr hc0 hc hpol hN hF hW st hst) o.etol (o.maxiter - 1).toNat (.fin 10)
    ⟨k0, .fin 0, fun _ _ => 0, .fin 10⟩ hready
  unfold scf run
  rw [hk0, hauto]
  simp only [bind, Except.bind, hrun, pure, Except.pure]
  exact ⟨_, _, rfl⟩

/-- C32 is false with `spinflipsym` and different numbers of spin-0 and spin-1 electrons: whenever
`scf` makes at least one pass and returns, the two columns hold equally many electrons. -/
theorem C32_refuted (F : Functionals G 2) (W : Workers G r c 2) (o : Options K) (ks ks' : KS G r c 2)
    (hG : MirrorInvariant G) (ho : o.spinflipsym = true) (log) (h : scf F W o ks = .ok (ks', log))
    (hlog : log ≠ []) :
    ∃ n, ks'.n = some n ∧ G.integ (n 0) = G.integ (n 1) ∧
      (columnElectrons ks 0 ≠ columnElectrons ks 1 → ¬ GoodDensity ks n) := by
  unfold scf at h
  simp only [Py.do_eq_ok, Py.pure_eq_ok] at h
  obtain ⟨k0, -, ⟨st, lg⟩, hrun, h⟩ := h
  simp only [Prod.mk.injEq] at h
  obtain ⟨rfl, rfl⟩ := h
  have hlast : ∀ (left : ℕ) (diff : Fl K) (s s' : State G r c 2) (log),
      loop (body F W o) o.autoTol o.etol left diff s = .ok (s', log) → log ≠ [] →
      ∃ t dE dn, body F W o t = .ok (s', dE, dn) := by
    intro left
    induction left with
    | zero =>
      intro diff s s' log h hlog
      unfold loop at h
      split at h
      · simp only [Except.ok.injEq, Prod.mk.injEq] at h; exact absurd h.2.symm hlog
      · split at h
        · cases h
        · simp only [Except.ok.injEq, Prod.mk.injEq] at h; exact absurd h.2.symm hlog
    | succ left ih =>
      intro diff s s' log h hlog
      unfold loop at h
      split at h
      · simp only [Py.do_eq_ok] at h
        obtain ⟨⟨t, dE, dn⟩, ht, h⟩ := h
        split at h
        · cases h
        · simp only [Py.do_eq_ok, Py.pure_eq_ok] at h
          obtain ⟨⟨t', log'⟩, ht', h⟩ := h
          simp only [Prod.mk.injEq] at h
          obtain ⟨rfl, rfl⟩ := h
          by_cases hl : log' = []
          · have : t' = t := by
              subst hl
              unfold loop at ht'
              split at ht'
              · cases left with
                | zero => simp only [Except.ok.injEq, Prod.mk.injEq] at ht'; exact ht'.1.symm
                | succ m =>
                  simp only [Py.do_eq_ok] at ht'
                  obtain ⟨x, -, y, -, ht'⟩ := ht'
                  simp [pure, Except.pure] at ht'
              · simp only [Except.ok.injEq, Prod.mk.injEq] at ht'; exact ht'.1.symm
            subst this
            exact ⟨_, _, _, ht⟩
          · exact ih _ _ _ _ ht' hl
      · split at h
        · cases h
        · simp only [Except.ok.injEq, Prod.mk.injEq] at h; exact absurd h.2.symm hlog
  obtain ⟨t, dE, dn, hb⟩ := hlast _ _ _ _ _ hrun hlog
  unfold body at hb
  simp only [Py.do_eq_ok, Py.pure_eq_ok] at hb
  obtain ⟨a, -, b, hden, e, he, u, hu, n', -, E, -, dn', -, hb⟩ := hb
  simp only [Prod.mk.injEq] at hb
  obtain ⟨rfl, -⟩ := hb
  unfold density at hden
  simp only [Py.do_eq_ok, Py.pure_eq_ok, ho, if_true] at hden
  obtain ⟨⟨d, nout⟩, -, m, -, rfl⟩ := hden
  have h1 := (calcChempot_keeps hu).2.trans (energy_keeps he).2
  refine ⟨_, h1, ?_⟩
  have heq : G.integ (spinSymmetrised (mix o.alpha m nout) 0) =
      G.integ (spinSymmetrised (mix o.alpha m nout) 1) := by
    rw [integ_spinSymmetrised hG, integ_spinSymmetrised hG, show Fin.rev (0 : Fin 2) = 1 from rfl,
      show Fin.rev (1 : Fin 2) = 0 from rfl, add_comm]
  exact ⟨heq, fun hne hg => hne (by rw [← hg.count, ← hg.count, heq])⟩

/-- C32, C33: a non-interacting two-electron run of four passes on the two-point grid returns, with two
electrons in the end. -/
example (F : Functionals (Grid.tiny ℚ) 1) : ∃ ks' log n,
    scf F (fun _ _ _ => some ([3], some [fun _ => 1])) ⟨false, true, false, false, 5, 1 / 1000, 1 / 2⟩
      (⟨.ni, false, 1, 2, 1 / 2, fun _ => ⟨1, 2, 0, 1, false, false, none, none, none⟩,
        fun _ _ => -1, none, none, none, none, none, none, {}, none, none, none, fun _ => none⟩ :
        KS (Grid.tiny ℚ) 1 1 1) = .ok (ks', log) ∧ log.length ≤ 4 ∧ ks'.n = some n ∧
      (Grid.tiny ℚ).integ (n 0) = 2 := by
  have hcomp : Complete (⟨1, 2, 0, 1, false, false, none, none, none⟩ : Solver (Grid.tiny ℚ))
      ([3], some [fun _ => 1]) := by
    refine ⟨⟨by simp [needed, orbitalCapacity], ?_⟩, by simp [needed, orbitalCapacity]⟩
    intro q hq
    rw [List.mem_singleton] at hq
    subst hq
    rw [Grid.tiny_integ]; norm_num
  obtain ⟨ks', log, h⟩ := C33_returns F (fun _ _ _ => some ([3], some [fun _ => 1]))
    ⟨false, true, false, false, 5, 1 / 1000, 1 / 2⟩
      (⟨.ni, false, 1, 2, 1 / 2, fun _ => ⟨1, 2, 0, 1, false, false, none, none, none⟩,
        fun _ _ => -1, none, none, none, none, none, none, {}, none, none, none, fun _ => none⟩ :
        KS (Grid.tiny ℚ) 1 1 1) ⟨⟨0, by decide⟩⟩ one_pos one_pos le_rfl (fun _ => .inl rfl)
    (fun _ => by norm_num) (fun h => by cases h) (fun _ _ _ => ⟨_, rfl, hcomp⟩) rfl (fun h => by cases h)
  obtain ⟨n, hn, hg⟩ := C32_scf_partial F _ _ _ le_rfl (fun _ => .inl rfl) (fun _ => by norm_num)
    (fun _ _ _ f hf => by injection hf with hf; subst hf; exact hcomp.1) (by simp) (by simp) (by norm_num)
    (by norm_num) (by simp) ks' log h
  refine ⟨ks', log, n, h, (C33_budget_partial F _ _ _ _ _ rfl h).1, hn, ?_⟩
  rw [hg.count]
  simp [columnElectrons, electrons, orbitalCapacity]

end Verif
