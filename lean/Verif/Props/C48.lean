import Verif.Lemmas.PartitionScfSample
import Verif.Props.C41_C42

/-! # C48: partition energies at the current promolecular density -/

namespace Verif
open Spec Part PartScf
variable {K : Type} [Field K] [LinearOrder K] [IsStrictOrderedRing K] [FloorRing K]
variable {G : Grid K} {r c p : ℕ}

/-- Stored molecular energies and partition energies. -/
def SameXc (P P' : Part G r c p) : Prop :=
  (P'.ex = P.ex ∧ P'.ec = P.ec) ∧ P'.EpH = P.EpH ∧ P'.EpX = P.EpX ∧ P'.EpC = P.EpC

theorem SameXc.trans {P Q R : Part G r c p} (h : SameXc P Q) (h' : SameXc Q R) : SameXc P R :=
  ⟨⟨h'.1.1.trans h.1.1, h'.1.2.trans h.1.2⟩, h'.2.1.trans h.2.1, h'.2.2.1.trans h.2.2.1,
    h'.2.2.2.trans h.2.2.2⟩

theorem PartScf.SameBut.xc {P P' : Part G r c p} (h : SameBut P P') : SameXc P P' := by
  obtain ⟨a, b, AB, rfl⟩ := h
  exact ⟨⟨rfl, rfl⟩, rfl, rfl, rfl⟩

theorem mapB_same {f : Frag G r c p → Py (Frag G r c p)} {P P' : Part G r c p} (h : P.mapB f = .ok P') :
    SameBut P P' := by
  unfold mapB at h
  cases hAB : P.fAB with
  | none =>
    rw [hAB] at h
    simp only [Py.do_eq_ok, Py.pure_eq_ok] at h
    obtain ⟨a, ha, rfl⟩ := h
    exact ⟨P.fa, a, none, by cases P; rfl⟩
  | some x =>
    obtain ⟨A, B⟩ := x
    rw [hAB] at h
    simp only [Py.do_eq_ok, Py.pure_eq_ok] at h
    obtain ⟨a, ha, A', hA, rfl⟩ := h
    exact ⟨P.fa, a, _, by cases P; rfl⟩

theorem vpOverlap_xc {T : Env G r c p} {P P' : Part G r c p} (h : P.vpOverlap T = .ok P') : SameXc P P' := by
  unfold vpOverlap at h
  simp only [Py.do_eq_ok] at h
  obtain ⟨na, _, nb, _, P₁, h1, h2⟩ := h
  exact (show SameXc P _ from ⟨⟨rfl, rfl⟩, rfl, rfl, rfl⟩).trans
    ((mapA_inv h1).1.xc.trans (mapB_same h2).xc)

theorem ensCorHar_xc {P P' : Part G r c p} (h : P.ensCorHar = .ok P') : SameXc P P' := by
  unfold ensCorHar at h
  cases hAB : P.fAB with
  | none => rw [hAB] at h; exact nomatch h
  | some x =>
    obtain ⟨A, B⟩ := x
    rw [hAB] at h
    simp only [Py.do_eq_ok, Py.pure_eq_ok] at h
    obtain ⟨⟨a, ea⟩, -, ⟨A', eA⟩, -, ⟨b, eb⟩, -, ⟨B', eB⟩, -, rfl⟩ := h
    exact ⟨⟨rfl, rfl⟩, rfl, rfl, rfl⟩

theorem epCollect_xc {T : Env G r c p} {P P' : Part G r c p} {h x cc e : K}
    (H : P.epCollect T h x cc = .ok (P', e)) : SameXc P P' := by
  unfold epCollect at H
  cases hk : P.opt.hxc <;> rw [hk] at H <;> simp only [Py.do_eq_ok, Py.pure_eq_ok, Prod.mk.injEq] at H
  case exact => obtain ⟨rfl, -⟩ := H; exact ⟨⟨rfl, rfl⟩, rfl, rfl, rfl⟩
  case hartree => obtain ⟨rfl, -⟩ := H; exact ⟨⟨rfl, rfl⟩, rfl, rfl, rfl⟩
  case overlapXc => obtain ⟨P₁, h1, _, _, rfl, -⟩ := H; exact vpOverlap_xc h1
  case surprisal => exact nomatch H
  all_goals
    obtain ⟨P₁, h1, P₂, h2, _, _, _, _, rfl, -⟩ := H
    exact (vpOverlap_xc h1).trans (ensCorHar_xc h2)

/-- `energy()` never changes the stored molecular energies. -/
theorem energy_xc {T : Env G r c p} {P P' : Part G r c p} (h : P.energy T = .ok P') :
    P'.ex = P.ex ∧ P'.ec = P.ec := by
  obtain ⟨sa, sb, P₁, pot, hxc, kin, ep, ea, eb, -, h2, -, rfl⟩ := energy_inv h
  unfold partitionEnergy epHxc at h2
  split_ifs at h2
  · have h3 := Except.ok.inj h2
    simp only [Prod.mk.injEq] at h3
    obtain ⟨rfl, -⟩ := h3
    exact ⟨rfl, rfl⟩
  · simp only [Py.do_eq_ok, Py.pure_eq_ok] at h2
    obtain ⟨_, _, _, _, ⟨P₂, e⟩, ⟨⟨h', x, cc, d⟩, _, h3⟩, h4⟩ := h2
    simp only [Prod.mk.injEq] at h4
    obtain ⟨rfl, -⟩ := h4
    exact (epCollect_xc h3).1

/-- `energy()`: `Ep_h` belongs to `nf`; `Ep_x` and `Ep_c` to what is stored. -/
theorem energy_components {T : Env G r c p} {P P' : Part G r c p} (h : P.energy T = .ok P')
    (hi : P.opt.isolated = false) (hd : P.opt.interaction = .dft) :
    ∃ (e : PartEnergy G p) (nf : G.Cols p) (vh : G.Fld) (ex ec : K), P'.E = some e ∧ P'.nf = some nf ∧
      T.hartree1 (tot nf) = .ok vh ∧ P.ex = some ex ∧ P.ec = some ec ∧
      P'.EpH = some (1 / 2 * G.integ (fun k => tot nf k * vh k) - e.Ehf) ∧
      P'.EpX = some (ex - e.Exf) ∧ P'.EpC = some (ec - e.Ecf) := by
  have hnf := (energy_frame h).nf
  obtain ⟨sa, sb, P₁, pot, hxc, kin, ep, ea, eb, -, h2, -, rfl⟩ := energy_inv h
  unfold partitionEnergy epHxc epComponents at h2
  rw [if_neg (by rw [hi]; decide), hd] at h2
  simp only [Py.do_eq_ok, Py.pure_eq_ok] at h2
  obtain ⟨_, _, _, _, ⟨P₂, e⟩, ⟨⟨h', x, cc, d⟩, ⟨nf, e1, vh, e2, _, _, ex, e3, _, _, _, _, ec, e4, _, _, _, _, e5⟩, h3⟩, h4⟩ := h2
  simp only [Prod.mk.injEq] at h4 e5
  obtain ⟨rfl, -⟩ := h4
  obtain ⟨rfl, rfl, rfl, -⟩ := e5
  obtain ⟨-, f1, f2, f3⟩ := epCollect_xc h3
  refine ⟨_, nf, vh, ex, ec, rfl, hnf.trans (attr_eq_ok.mp e1), e2, attr_eq_ok.mp e3, attr_eq_ok.mp e4, ?_, f2, f3⟩
  rw [← G.integ_smul, show (fun k => 1 / 2 * (tot nf k * vh k)) = fun k => tot nf k * (1 / 2 * vh k) from
    funext fun k => by ring]
  exact f1

theorem hxcCollect_xc {T : Env G r c p} {P P' : Part G r c p} (h : P.hxcCollect T = .ok P') :
    P'.ex = P.ex ∧ P'.ec = P.ec := by
  have tr : ∀ {P Q R : Part G r c p}, (Q.ex = P.ex ∧ Q.ec = P.ec) → (R.ex = Q.ex ∧ R.ec = Q.ec) →
      (R.ex = P.ex ∧ R.ec = P.ec) := fun h h' => ⟨h'.1.trans h.1, h'.2.trans h.2⟩
  unfold hxcCollect at h
  cases hk : P.opt.hxc <;> rw [hk] at h
  case exact => exact (SameBut.xc (mapAll_inv h).1).1
  case hartree => exact (SameBut.xc (mapAll_inv h).1).1
  case overlapXc =>
    simp only [Py.do_eq_ok] at h
    obtain ⟨P₁, h1, P₂, h2, _, _, _, _, _, _, h⟩ := h
    exact tr (vpOverlap_xc h1).1 (tr (energy_xc h2) (SameBut.xc (mapAll_inv h).1).1)
  case overlapHxc =>
    simp only [Py.do_eq_ok] at h
    obtain ⟨P₁, h1, P₂, h2, P₃, h3, _, _, _, _, _, _, _, _, _, _, h⟩ := h
    exact tr (vpOverlap_xc h1).1 (tr (ensCorHar_xc h2).1 (tr (energy_xc h3) (SameBut.xc (mapAll_inv h).1).1))
  case surprisal => exact nomatch h
  case overlapHxc2 => exact nomatch h

/-- `partition_potential` stores the exchange and correlation energies of `nf`. -/
theorem partitionPotential_xc {T : Env G r c p} {P P' : Part G r c p} {vp : G.Cols p}
    (h : P.partitionPotential T = .ok (P', vp)) (hd : P.opt.interaction = .dft) :
    ∃ (nf : G.Cols p) (ex ec : K) (epsX epsC : G.Fld) (vx vc : G.Cols p), P.nf = some nf ∧
      T.exchange nf = .ok (ex, epsX, vx) ∧ T.correlation nf = .ok (ec, epsC, vc) ∧
      P'.ex = some ex ∧ P'.ec = some ec := by
  obtain ⟨-, P₁, P₂, P₃, P₄, P₅, pot, kin, hxc, hh, x, cc, h1, h2, h3, h4, h5, -, -, -, -, rfl⟩ :=
    partitionPotential_inv h
  have f2 := (vpNuclear_frame h1).trans (vpKinetic_frame h2)
  unfold hxcStart at h3
  rw [f2.opt, hd, if_neg (by simp), if_neg (by decide)] at h3
  unfold hxcComponents at h3
  simp only [Py.do_eq_ok] at h3
  obtain ⟨nf, hnf, vh, _, ⟨ex, epsX, vx⟩, hx, ⟨ec, epsC, vc⟩, hc, h3⟩ := h3
  have g3 := (SameBut.xc (mapAll_inv h3).1).1
  have g4 := hxcCollect_xc h4
  have g5 := (SameBut.xc (mapAll_inv h5).1).1
  exact ⟨nf, ex, ec, epsX, epsC, vx, vc, (f2.nf ▸ attr_eq_ok.mp hnf), hx, hc, g5.1.trans (g4.1.trans g3.1),
    g5.2.trans (g4.2.trans g3.2)⟩

/-- C48, partial: after every pass of a density functional calculation `Ep_h` is the Hartree energy of the
current promolecular density minus the fragment sum; `Ep_x` and `Ep_c` take exchange and correlation
energy of the promolecular density of the *previous* pass minus the current fragment sums.  They are
the claimed values where the density no longer changes.
Missing: exchange and correlation at the current density (`C48_refuted`). -/
theorem C48_current_partial (T : ℕ → Env G r c p) (W : ℕ → KsScf.Workers G r c p) (o : Options K)
    (st st' : State G r c p) (d : Fl K) (h : body T W o st = .ok (st', d))
    (hi : st.P.opt.isolated = false) (hd : st.P.opt.interaction = .dft) :
    ∃ (e : PartEnergy G p) (old nf : G.Cols p) (vh : G.Fld) (ex ec : K) (epsX epsC : G.Fld) (vx vc : G.Cols p),
      st'.P.E = some e ∧ st.P.nf = some old ∧ st'.P.nf = some nf ∧
      (T st.it).hartree1 (fun k => ∑ j, nf j k) = .ok vh ∧
      (T st.it).exchange old = .ok (ex, epsX, vx) ∧ (T st.it).correlation old = .ok (ec, epsC, vc) ∧
      st'.P.EpH = some (1 / 2 * G.integ (fun k => (∑ j, nf j k) * vh k) - e.Ehf) ∧
      st'.P.EpX = some (ex - e.Exf) ∧ st'.P.EpC = some (ec - e.Ecf) ∧
      (old = nf → (T st.it).exchange nf = .ok (ex, epsX, vx) ∧ (T st.it).correlation nf = .ok (ec, epsC, vc)) := by
  obtain ⟨hs, hcA, hcB, hnf0⟩ := avoid_same st.it st.P
  obtain ⟨P₁, P₂, P₃, P₄, P₅, P₆, vp, h1, h2, h3, h4, h5, h6, h7, o1, o2, o3, o4, o5, o6, o7⟩ :=
    pass_inv (body_inv h)
  have hopt : ∀ {Q : Part G r c p}, SameOpt (avoid st.it st.P) Q → Q.opt = st.P.opt := fun hq => hq.1.trans hs.1
  unfold potential at h3
  rw [if_neg (by rw [hopt o2, hi]; decide)] at h3
  obtain ⟨old, ex, ec, epsX, epsC, vx, vc, g1, g2, g3, g4, g5⟩ := partitionPotential_xc h3 (by rw [hopt o2]; exact hd)
  obtain ⟨e, nf, vh, ex', ec', k1, k2, k3, k4, k5, k6, k7, k8⟩ :=
    energy_components h7 (by rw [hopt o6]; exact hi) (by rw [hopt o6]; exact hd)
  have x4 := (onKSab_inv h4).1.xc.1
  have x5 := (mirrorIf_inv h5).1.xc.1
  obtain ⟨-, -, -, x6, -⟩ := promolecule_inv h6
  obtain rfl : ex = ex' := Option.some.inj (g4.symm.trans (x4.1.symm.trans (x5.1.symm.trans (x6.1.symm.trans k4))))
  obtain rfl : ec = ec' := Option.some.inj (g5.symm.trans (x4.2.symm.trans (x5.2.symm.trans (x6.2.symm.trans k5))))
  have hold : st.P.nf = some old := by
    obtain ⟨a, b, AB, e1⟩ := (onKSab_inv h1).1
    obtain ⟨a', b', AB', e2⟩ := (mirrorIf_inv h2).1
    rw [← hnf0, ← g1, e2, e1]
  exact ⟨e, old, nf, vh, ex, ec, epsX, epsC, vx, vc, k1, hold, k2, k3, g2, g3, k6, k7, k8, fun ho => ho ▸ ⟨g2, g3⟩⟩

/-- C48 is false for exchange: the promolecular density starts with four electrons at the first point, after
the first pass all are at the second one.  The exchange energy is the density at the first point, now
zero for the molecule and both fragments; the code sets `Ep_x = 4`. -/
theorem C48_refuted : ∃ (s : Options ℚ) (o : PartOpt) (P : Part Sample.G 1 1 1) (l : List (Fl ℚ)) (w : ℕ)
    (nf : Sample.G.Cols 1) (e : PartEnergy Sample.G 1),
    o.isolated = false ∧ o.interaction = .dft ∧ o.hxc = .exact ∧
    Sample.run s o = .ok (P, l, w) ∧ P.nf = some nf ∧ P.E = some e ∧ e.Exf = 0 ∧
    Sample.T.exchange nf = .ok (0, fun k => nf 0 k, fun _ _ => 0) ∧ P.EpX = some 4 := by
  obtain ⟨P, l, w, h1, h2⟩ := Sample.run_ok { etol := 0, maxIter := 1, alpha := [1] } { kin := .none }
    (fun x => (x.1.nf.map fun n => n 0 0, x.1.E.map fun e => e.Exf, x.1.EpX)) (some 0, some 0, some 4)
    (by decide +kernel)
  simp only [Prod.mk.injEq] at h2
  obtain ⟨h2, h3, h4⟩ := h2
  obtain ⟨n, hn, h2⟩ := Option.map_eq_some_iff.mp h2
  obtain ⟨e, he, h3⟩ := Option.map_eq_some_iff.mp h3
  refine ⟨_, { kin := .none }, P, l, w, n, e, rfl, rfl, rfl, h1, hn, he, h3, ?_, h4⟩
  change Except.ok (n 0 0, _, _) = _
  rw [h2]

/-- A concrete case of C48, Hartree: four electrons in the potential 1 have the energy 2, the fragments 1
each; and exchange once the density is stationary. -/
example : (Sample.run { etol := 0, maxIter := 2, alpha := [1] } { kin := .none }).toOption.map
    (fun x => (x.1.EpH, x.1.EpX, x.1.E.map fun e => e.Ehf)) = some (some 0, some 0, some 2) := by decide +kernel

end Verif
