import Verif.Lemmas.KsEnergy

/-! Sufficient conditions for `Kohnsham.scf` to return. -/

namespace Verif
open Spec KS KsScf
variable {K : Type} [Field K] [LinearOrder K] [IsStrictOrderedRing K] [FloorRing K]
variable {G : Grid K} {r c p : ℕ}

/-- A worker's result with enough orbitals and eigenvalues. -/
def Spec.Complete (s : Solver G) (f : Found G) : Prop :=
  Adequate s f ∧ needed true (s.N / (orbitalCapacity s.m (s.pol = 2) : K)) ≤ f.1.length

theorem Solver.Alike.complete {s t : Solver G} (h : s.Alike t) {f : Found G} :
    Complete t f ↔ Complete s f := by
  obtain ⟨h1, h2, h3, h4⟩ := id h
  unfold Complete
  rw [h.adequate, h1, h2, h3]

theorem needed_le (fr : Bool) (x : K) : needed fr x ≤ needed true x := by
  unfold needed
  cases fr
  · simp only [Bool.false_eq_true, if_false, if_true]
    exact Int.toNat_le_toNat (Int.floor_le_ceil x)
  · exact le_rfl

theorem Solver.hasEnergy_of_complete (s : Solver G) (hp : s.pol = 1 ∨ s.pol = 2) (hN : 0 ≤ s.N)
    (f : Found G) (hf : Complete s f) (hv : ∃ v, s.veff = some v) :
    HasEnergy ({ s with eig := some f.1, phi := f.2 } : Solver G) ∧
      ∃ x, ({ s with eig := some f.1, phi := f.2 } : Solver G).getHomo = .ok x := by
  obtain ⟨v, hv⟩ := hv
  obtain ⟨n, hn, -⟩ := s.density_of_adequate hp hN f hf.1
  refine ⟨⟨?_, f.1, rfl⟩, ?_⟩
  · unfold calcEnergy
    rw [calcEks_eq ({ s with eig := some f.1, phi := f.2 } : Solver G) hN f.1 rfl, hn]
    have hle : needed s.fractional (s.N / ({ s with eig := some f.1, phi := f.2 } : Solver G).scale) ≤
        f.1.length := by
      refine le_trans (needed_le _ _) ?_
      rw [scale_eq ({ s with eig := some f.1, phi := f.2 } : Solver G) hp]
      exact hf.2
    rw [if_pos hle]
    simp only [hv, bind, Except.bind, pure, Except.pure]
    exact ⟨_, rfl⟩
  · have h := C21_homo_partial ({ s with eig := some f.1, phi := f.2, fractional := true } : Solver G) hp hN
      f.1 rfl (.inl rfl)
    rcases hN.eq_or_lt with h0 | h0
    · exact ⟨_, h.1 h0.symm⟩
    · obtain ⟨i, hi, h1, -⟩ := h.2.2 h0 hf.2
      exact ⟨_, h1⟩

theorem KsScf.npMax_ok (l : List (Fl K)) (h : l ≠ []) : ∃ x, npMax l = .ok x := by
  cases l with
  | nil => exact absurd rfl h
  | cons a l => exact ⟨_, rfl⟩

theorem KsScf.difN_ok (hp : 0 < p) (hG : Nonempty G.Ix) (n old : G.Cols p) : ∃ x, difN n old = .ok x := by
  unfold difN
  obtain _ | _ | p := p
  · omega
  · exact ⟨_, rfl⟩
  · simp only [Grid.integrate]
    apply npMax_ok
    obtain ⟨k⟩ := hG
    intro h
    rw [List.flatMap_eq_nil_iff] at h
    have := h 0 (List.mem_finRange _)
    rw [List.map_eq_nil_iff] at this
    exact List.ne_nil_of_mem (List.mem_finRange k) this

/-- Conditions kept by the loop. -/
structure KsScf.Ready (ks0 : KS G r c p) (ks : KS G r c p) : Prop where
  keeps : Keeps ks0 ks
  kind : ks.kind = ks0.kind
  n : ∃ n, ks.n = some n
  vext : ∃ v, ks.vext = some v

theorem KS.calcHxc_ok (F : Functionals G p) (ks : KS G r c p) (hn : ∃ n, ks.n = some n)
    (hF : ks.kind = .dft → TotalFunctionals F) :
    ∃ ks', ks.calcHxc F = .ok ks' ∧ ks'.kind = ks.kind ∧ ks'.vext = ks.vext ∧ ∃ v, ks'.vhxc = some v := by
  obtain ⟨n, hn⟩ := hn
  unfold calcHxc rawHxc
  cases hk : ks.kind with
  | ni =>
    simp only [bind, Except.bind, pure, Except.pure, need]
    refine ⟨_, rfl, ?_⟩
    split <;> exact ⟨rfl, rfl, _, rfl⟩
  | dft =>
    obtain ⟨⟨x1, h1⟩, ⟨x2, h2⟩, ⟨x3, h3⟩⟩ := hF hk n
    simp only [bind, Except.bind, pure, Except.pure, need, hn, h1, h2, h3]
    refine ⟨_, rfl, ?_⟩
    split <;> exact ⟨rfl, rfl, _, rfl⟩

theorem KsScf.body_ok (F : Functionals G p) (W : Workers G r c p) (o : Options K) (ks0 : KS G r c p)
    (hG : Nonempty G.Ix) (hr : 0 < r) (hc0 : 0 < c) (hc : c ≤ p)
    (hpol : ∀ w, (ks0.solver w).pol = 1 ∨ (ks0.solver w).pol = 2) (hN : ∀ w, 0 ≤ (ks0.solver w).N)
    (hF : ks0.kind = .dft → TotalFunctionals F)
    (hW : ∀ ks' it w, ∃ f, W ks' it w = some f ∧ Complete (ks0.solver w) f)
    (st : State G r c p) (hst : Ready ks0 st.ks) :
    ∃ st' dE dn, body F W o st = .ok (st', dE, dn) ∧ Ready ks0 st'.ks := by
  obtain ⟨a, ha, hak, hav, vh, hvh⟩ := calcHxc_ok F st.ks hst.n (fun h => hF (hst.kind ▸ h))
  obtain ⟨hka, han⟩ := calcHxc_keeps ha
  obtain ⟨n, hn⟩ := hst.n
  obtain ⟨ve, hve⟩ := hst.vext
  -- potential
  obtain ⟨b, hb, hbk, hbn, hbv, hbh, hbK, hbs⟩ : ∃ b, potential F st.ks = .ok b ∧ b.kind = ks0.kind ∧
      b.n = some n ∧ b.vext = some ve ∧ b.vhxc = some vh ∧ Keeps ks0 b ∧
      ∀ w, ∃ v, (b.solver w).veff = some v := by
    unfold potential
    rw [ha]
    simp only [bind, Except.bind, hav, hve, hvh, need]
    rw [distribute_ok _ hc]
    refine ⟨_, rfl, hak.trans hst.kind, han.trans hn, by simp [hav, hve], by simp [hvh], ?_, fun w => ⟨_, rfl⟩⟩
    exact (hst.keeps.trans hka).trans ⟨rfl, fun _ => ⟨rfl, rfl, rfl, rfl⟩⟩
  -- symmetrised potential
  obtain ⟨b', hb', hb'k, hb'n, hb'v, hb'h, hb'K, hb's⟩ : ∃ b', flipPotential o b = b' ∧
      b'.kind = ks0.kind ∧ b'.n = some n ∧ b'.vext = some ve ∧ b'.vhxc = some vh ∧ Keeps ks0 b' ∧
      ∀ w, ∃ v, (b'.solver w).veff = some v := by
    refine ⟨_, rfl, ?_⟩
    unfold flipPotential
    split
    · exact ⟨hbk, hbn, hbv, hbh, ⟨hbK.sym, hbK.solver⟩, hbs⟩
    · exact ⟨hbk, hbn, hbv, hbh, hbK, hbs⟩
  -- density
  have hpol' : ∀ w, (b'.solver w).pol = 1 ∨ (b'.solver w).pol = 2 := fun w => by
    rw [(hb'K.solver w).2.2.1]; exact hpol w
  have hN' : ∀ w, 0 ≤ (b'.solver w).N := fun w => by rw [(hb'K.solver w).1]; exact hN w
  obtain ⟨e, he, hek, hen, hev, heh, heK, hes⟩ : ∃ e, density W o st.diff b' = .ok e ∧
      e.kind = ks0.kind ∧ (∃ n, e.n = some n) ∧ e.vext = some ve ∧ e.vhxc = some vh ∧ Keeps ks0 e ∧
      ∀ w, HasEnergy (e.solver w) ∧ ∃ x, (e.solver w).getHomo = .ok x := by
    unfold density
    choose f hf hfc using fun w => hW b' (o.iterative && Fl.gt (.fin (1 / 100))
      (if o.iterative ∧ o.continuing then .fin 0 else st.diff)) w
    obtain ⟨nout, hd, -⟩ := C30_density b' hc hpol' hN' _ f hf
      fun w => (hb'K.solver w).adequate.mpr (hfc w).1
    simp only [bind, Except.bind, hd, hb'n, need, pure, Except.pure]
    refine ⟨_, rfl, hb'k, ⟨_, rfl⟩, hb'v, hb'h, ⟨hb'K.sym, hb'K.solver⟩, fun w => ?_⟩
    exact Solver.hasEnergy_of_complete _ (hpol' w) (hN' w) (f w) ((hb'K.solver w).complete.mpr (hfc w))
      (hb's w)
  -- energy, chemical potential
  obtain ⟨g, E, hg, hgE, hgs, hgn, hgv, hgk⟩ := energy_ok F e hc (fun w => (hes w).1) hen ⟨_, hev⟩
    (fun h => ⟨hF (hek ▸ h), by omega, _, heh⟩)
  obtain ⟨hgK, -⟩ := energy_keeps hg
  obtain ⟨u, hu⟩ : ∃ u, g.calcChempot = .ok { g with u := some u, homo := fun w => (g.solver w).getHomo.toOption } := by
    choose homo hh using fun w => (hes w).2
    unfold calcChempot
    rw [hgs, mapM_ok _ homo _ fun w _ => hh w]
    have hmem : homo (⟨0, hr⟩, ⟨0, hc0⟩) ∈ (rowMajor r c).map homo :=
      List.mem_map_of_mem (mem_rowMajor _)
    obtain ⟨x, l, hxl⟩ := List.exists_cons_of_ne_nil (List.ne_nil_of_mem hmem)
    obtain ⟨m, h1, -⟩ := pyMax_spec x l
    simp only [bind, Except.bind, hxl, h1, pure, Except.pure]
    exact ⟨_, rfl⟩
  obtain ⟨ne, hne⟩ := hen
  obtain ⟨dn, hdn⟩ := difN_ok (by omega : 0 < p) hG ne st.oldN
  unfold body
  simp only [bind, Except.bind, hb, hb', he, hg, hu, hgn, hne, need, hgE, hdn, pure, Except.pure]
  refine ⟨_, _, _, rfl, ⟨(heK.trans hgK).trans ⟨rfl, fun _ => ⟨rfl, rfl, rfl, rfl⟩⟩, hgk.trans hek,
    ⟨ne, by simp [hgn, hne]⟩, ⟨ve, by simp [hgv, hev]⟩⟩⟩

theorem KsScf.loop_ok {S : Type} (step : S → Py (S × Fl K × Fl K)) (P : S → Prop)
    (hstep : ∀ s, P s → ∃ s' dE dn, step s = .ok (s', dE, dn) ∧ P s') (etol : K) :
    ∀ (left : ℕ) (diff : Fl K) (s : S), P s → ∃ s' log, loop step false etol left diff s = .ok (s', log) := by
  intro left
  induction left with
  | zero =>
    intro diff s _
    unfold loop
    split
    · exact ⟨_, _, rfl⟩
    · exact ⟨_, _, rfl⟩
  | succ left ih =>
    intro diff s hP
    unfold loop
    split
    · obtain ⟨s', dE, dn, h1, h2⟩ := hstep s hP
      obtain ⟨s'', log, h3⟩ := ih (Fl.pymax dE dn) s' h2
      simp only [h1, h3, bind, Except.bind, Bool.false_eq_true, if_false, pure, Except.pure]
      exact ⟨_, _, rfl⟩
    · exact ⟨_, _, rfl⟩

end Verif
