import Verif.Props.C40
import Verif.Props.C48

/-! # Parts of the partition potential and energy of one density -/

namespace Verif
open Spec Part PartScf
variable {K : Type} [Field K] [LinearOrder K] [IsStrictOrderedRing K] [FloorRing K]
variable {G : Grid K} {r c p : ℕ}

/-- The kinetic part of the partition: none, or a functional `Tk` of the density with potential `vk`. -/
def Spec.KineticLaw (T : Env G r c p) (o : KinPart) (Tk : G.Cols p → K) (vk : G.Cols p → G.Cols p) : Prop :=
  (o = .none ∧ (∀ n, Tk n = 0) ∧ ∀ n j k, vk n j k = 0) ∨ (o = .libxcke ∧ ∀ n, T.kinetic n = .ok (Tk n, vk n))

theorem forall₂_mem {α β : Type*} {R : α → β → Prop} {l : List α} {m : List β} (h : List.Forall₂ R l m) :
    List.Forall₂ (fun a b => R a b ∧ a ∈ l) l m := by
  induction h with
  | nil => exact .nil
  | cons e _ ih =>
    exact .cons ⟨e, List.mem_cons_self ..⟩ (ih.imp fun a b h => ⟨h.1, List.mem_cons_of_mem _ h.2⟩)

/-- `vp_kinetic` for these parts. -/
theorem kinetic_parts {T : Env G r c p} {P P' : Part G r c p} {Tk : G.Cols p → K} {vk : G.Cols p → G.Cols p}
    (h : P.vpKinetic T = .ok P') (hk : KineticLaw T P.opt.kin Tk vk) {nf : G.Cols p} (hnf : P.nf = some nf) :
    (P.opt.kin = .libxcke → P'.Tsm = some (Tk nf)) ∧ ∀ f ∈ P'.comps, ∃ g ∈ P.comps, f.ks = g.ks ∧
      f.v.vpPot = g.v.vpPot ∧ ∀ n, f.ks.n = some n →
        f.v.vpKin = some (fun j k => vk nf j k - vk n j k) ∧ (P.opt.kin = .libxcke → f.v.Ts = some (Tk n)) := by
  unfold vpKinetic at h
  rcases hk with ⟨hk, h0, h1⟩ | ⟨hk, hT⟩ <;> rw [hk] at h
  · simp only [Py.do_eq_ok] at h
    obtain ⟨_, _, Q, hQ, h⟩ := h
    refine ⟨fun h => absurd (hk.symm.trans h) (by decide), fun f hf => ?_⟩
    unfold finishKinetic at h
    obtain ⟨y, hy, e⟩ := mem_of_forall₂ (mapAll_comps h) hf
    obtain ⟨g, hg, e'⟩ := mem_of_forall₂ (mapAll_comps hQ) (y := y) hy
    obtain rfl := Except.ok.inj e'
    simp only [Py.do_eq_ok, Py.pure_eq_ok] at e
    obtain ⟨_, e1, rfl⟩ := e
    obtain rfl := Option.some.inj (attr_eq_ok.mp e1)
    refine ⟨g, hg, rfl, rfl, fun n _ => ⟨?_, fun h => absurd (hk.symm.trans h) (by decide)⟩⟩
    simp only [h1]
  · simp only [Py.do_eq_ok] at h
    obtain ⟨m, hm, ⟨Ts, vt⟩, ht, Q, hQ, h⟩ := h
    obtain rfl := Option.some.inj (hnf.symm.trans (attr_eq_ok.mp hm))
    rw [hT] at ht
    simp only [Except.ok.injEq, Prod.mk.injEq] at ht
    obtain ⟨rfl, rfl⟩ := ht
    unfold finishKinetic at h
    refine ⟨fun _ => ?_, fun f hf => ?_⟩
    · obtain ⟨⟨_, _, _, e⟩, -⟩ := mapAll_inv h
      rw [e]
    obtain ⟨y, hy, e⟩ := mem_of_forall₂ (mapAll_comps h) hf
    obtain ⟨g, hg, e'⟩ := mem_of_forall₂ (mapAll_comps hQ) (y := y) hy
    simp only [Py.do_eq_ok, Py.pure_eq_ok] at e e'
    obtain ⟨n, en, ⟨Tf, v⟩, ev, rfl⟩ := e'
    obtain ⟨_, e1, rfl⟩ := e
    obtain rfl := Option.some.inj (attr_eq_ok.mp e1)
    refine ⟨g, hg, rfl, rfl, fun n' hn' => ?_⟩
    obtain rfl := Option.some.inj (hn'.symm.trans (need_eq_ok.mp en))
    rw [hT] at ev
    simp only [Except.ok.injEq, Prod.mk.injEq] at ev
    obtain ⟨rfl, rfl⟩ := ev
    exact ⟨rfl, fun _ => rfl⟩

/-- Only `dFdn` of a component may change. -/
def OnlyDFdn (f g : Frag G r c p) : Prop := ∃ d, g = ⟨f.ks, { f.v with dFdn := d }⟩

theorem vpOverlap_only {T : Env G r c p} {P P' : Part G r c p} (h : P.vpOverlap T = .ok P') :
    List.Forall₂ OnlyDFdn P.comps P'.comps ∧ P'.Tsm = P.Tsm ∧ P'.E = P.E := by
  unfold vpOverlap at h
  simp only [Py.do_eq_ok] at h
  obtain ⟨na, _, nb, _, P₁, h1, h2⟩ := h
  obtain ⟨⟨_, _, _, e1⟩, a1, b1⟩ := mapA_inv h1
  obtain ⟨⟨_, _, _, e2⟩, b2, a2⟩ := mapB_inv h2
  refine ⟨List.rel_append ?_ ?_, ?_⟩
  · rw [a2]
    refine List.Forall₂.imp (fun x y hxy => ?_) a1
    simp only [Py.do_eq_ok, Py.pure_eq_ok] at hxy
    obtain ⟨_, _, rfl⟩ := hxy
    exact ⟨_, rfl⟩
  · rw [b1] at b2
    refine List.Forall₂.imp (fun x y hxy => ?_) b2
    simp only [Py.do_eq_ok, Py.pure_eq_ok] at hxy
    obtain ⟨_, _, rfl⟩ := hxy
    exact ⟨_, rfl⟩
  · rw [e2, e1]
    exact ⟨rfl, rfl⟩

/-- What `energy()` computes from the promolecular density and the stored energies. -/
theorem energy_values {T : Env G r c p} {P P' : Part G r c p} (h : P.energy T = .ok P') (hi : P.opt.isolated = false)
    (hd : P.opt.interaction = .dft) :
    ∃ (e : PartEnergy G p) (sa sb : Sums K p) (na nb nf : G.Cols p) (vh : G.Fld) (ex ec : K) (kin : Tot G) (hxc : K),
      P'.E = some e ∧ P.sumsAB = .ok (sa, sb) ∧ P.naFrac = some na ∧ P.nbFrac = some nb ∧ P.nf = some nf ∧
      T.hartree1 (tot nf) = .ok vh ∧ P.ex = some ex ∧ P.ec = some ec ∧ P.epKinetic T = .ok kin ∧
      e.Ep = Tot.add (Tot.add (.num (.fin ((G.integ fun k => tot na k * P.vb k) + G.integ fun k => tot nb k * P.va k))) kin)
        (.num (.fin hxc)) ∧
      (P.opt.hxc = .exact → hxc = (1 / 2 * G.integ (fun k => tot nf k * vh k) - (sa.Eh + sb.Eh)) + (ex - (sa.Ex + sb.Ex)) +
        (ec - (sa.Ec + sb.Ec)) ∧ P'.comps = P.comps) ∧
      (P.opt.hxc = .hartree → hxc = 1 / 2 * G.integ (fun k => tot nf k * vh k) - (sa.Eh + sb.Eh) ∧ P'.comps = P.comps) ∧
      (P.opt.hxc = .overlapXc → ∃ (Q Q' : Part G r c p) (F : K), Q.naFrac = some na ∧ Q.nbFrac = some nb ∧ Q.comps = P.comps ∧
        Q.vpOverlap T = .ok Q' ∧ P'.compsA = Q'.compsA ∧ P'.compsB = Q'.compsB ∧ P'.F = some F ∧ Q'.F = some F ∧
        P'.Tsm = P.Tsm ∧ P'.EpX = some (ex - (sa.Ex + sb.Ex)) ∧ P'.EpC = some (ec - (sa.Ec + sb.Ec)) ∧
        hxc = (1 / 2 * G.integ (fun k => tot nf k * vh k) - (sa.Eh + sb.Eh)) + F * ((ex - (sa.Ex + sb.Ex)) +
          (ec - (sa.Ec + sb.Ec)))) := by
  obtain ⟨sa, sb, P₁, pot, hxc, kin, ep, ea, eb, h1, h2, -, rfl⟩ := energy_inv h
  unfold partitionEnergy epHxc epComponents at h2
  rw [if_neg (by rw [hi]; decide), hd] at h2
  simp only [Py.do_eq_ok, Py.pure_eq_ok] at h2
  obtain ⟨pot', e0, kin', e1, ⟨P₂, e⟩, ⟨⟨h', x, cc, d⟩, ⟨nf, e2, vh, e3, _, _, ex, e4, _, _, _, _, ec, e5, _, _, _, _, e6⟩, h3⟩, h4⟩ := h2
  simp only [Prod.mk.injEq] at h4 e6
  obtain ⟨rfl, rfl, rfl, rfl, rfl⟩ := h4
  obtain ⟨rfl, rfl, rfl, -⟩ := e6
  unfold epNuclear at e0
  simp only [Py.do_eq_ok, Py.pure_eq_ok] at e0
  obtain ⟨na, q1, nb, q2, rfl⟩ := e0
  have hh : (G.integ fun k => tot nf k * (1 / 2 * vh k)) = 1 / 2 * G.integ fun k => tot nf k * vh k := by
    rw [← G.integ_smul]
    congr 1
    funext k
    ring
  rw [hh] at h3
  refine ⟨_, sa, sb, na, nb, nf, vh, ex, ec, kin', e, rfl, h1, need_eq_ok.mp q1, attr_eq_ok.mp q2, attr_eq_ok.mp e2, e3,
    attr_eq_ok.mp e4, attr_eq_ok.mp e5, e1, rfl, ?_, ?_, ?_⟩
  · intro hx
    unfold epCollect at h3
    rw [show (_ : PartOpt).hxc = _ from hx] at h3
    simp only [Py.pure_eq_ok, Prod.mk.injEq] at h3
    obtain ⟨rfl, rfl⟩ := h3
    exact ⟨rfl, rfl⟩
  · intro hx
    unfold epCollect at h3
    rw [show (_ : PartOpt).hxc = _ from hx] at h3
    simp only [Py.pure_eq_ok, Prod.mk.injEq] at h3
    obtain ⟨rfl, rfl⟩ := h3
    exact ⟨rfl, rfl⟩
  · intro hx
    obtain ⟨-, -, f2, f3⟩ := epCollect_xc h3
    unfold epCollect at h3
    rw [show (_ : PartOpt).hxc = _ from hx] at h3
    simp only [Py.do_eq_ok, Py.pure_eq_ok, Prod.mk.injEq] at h3
    obtain ⟨Q', hQ', F, hF, rfl, rfl⟩ := h3
    refine ⟨_, _, F, ?_, ?_, ?_, hQ', rfl, rfl, attr_eq_ok.mp hF, attr_eq_ok.mp hF, (vpOverlap_only hQ').2.1, f2, f3, rfl⟩
    · exact need_eq_ok.mp q1
    · exact attr_eq_ok.mp q2
    · rfl

/-- The interaction part `w` of a component's potential: molecular potentials `mh`, `mx`, `mc`, the component's `fh`, `fx`, `fc`. -/
def Spec.HxcPart' (o : HxcPart) (F ex ec : K) (d mh mx mc fh fx fc w : G.Cols p) : Prop :=
  ∀ j k, (o = .exact → w j k = (mh j k - fh j k) + (mx j k - fx j k) + (mc j k - fc j k)) ∧
    (o = .hartree → w j k = mh j k - fh j k) ∧
    (o = .overlapXc → w j k = (mh j k - fh j k) + F * ((mx j k - fx j k) + (mc j k - fc j k)) + (ex + ec) * d j k)

/-- Same Kohn-Sham state and derivative of the overlap functional. -/
def SameD (f g : Frag G r c p) : Prop := g.ks = f.ks ∧ g.v.dFdn = f.v.dFdn

/-- The overlap functional and the energies used by `vp_hxc`: `P` the state before, `P'` the state after. -/
def OverlapUsed (T : Env G r c p) (P P' : Part G r c p) (ex ec F Ex Ec : K) : Prop :=
  ∃ (S S' Pm : Part G r c p) (sa sb : Sums K p), S.naFrac = P.naFrac ∧ S.nbFrac = P.nbFrac ∧ S.vpOverlap T = .ok S' ∧
    S'.F = some F ∧ List.Forall₂ SameD S'.compsA P'.compsA ∧ List.Forall₂ SameD S'.compsB P'.compsB ∧ Frame P Pm ∧
    Pm.sumsAB = .ok (sa, sb) ∧ Ex = ex - (sa.Ex + sb.Ex) ∧ Ec = ec - (sa.Ec + sb.Ec)

/-- `vp_hxc` for these parts. -/
theorem hxc_parts {T : Env G r c p} {P P₁ P' : Part G r c p} (h1 : P.hxcStart T = .ok P₁) (h2 : P₁.hxcCollect T = .ok P')
    (hd : P.opt.interaction = .dft) (hi : P.opt.isolated = false)
    (ho : P.opt.hxc = .exact ∨ P.opt.hxc = .hartree ∨ P.opt.hxc = .overlapXc)
    {nf : G.Cols p} (hnf : P.nf = some nf) :
    P'.Tsm = P.Tsm ∧ ∃ (mh mx mc : G.Cols p) (ex ec F Ex Ec : K) (eX eC : G.Fld), T.hartree nf = .ok mh ∧
      T.exchange nf = .ok (ex, eX, mx) ∧ T.correlation nf = .ok (ec, eC, mc) ∧
      (P.opt.hxc = .overlapXc → OverlapUsed T P P' ex ec F Ex Ec) ∧
      ∀ f ∈ P'.comps, ∃ g ∈ P.comps, f.ks = g.ks ∧ f.v.vpPot = g.v.vpPot ∧ f.v.vpKin = g.v.vpKin ∧ f.v.Ts = g.v.Ts ∧
        ∃ d fh fx fc w : G.Cols p, f.ks.V.vh = some fh ∧ f.ks.V.vx = some fx ∧ f.ks.V.vc = some fc ∧ f.v.vpHxc = some w ∧
          (P.opt.hxc = .overlapXc → f.v.dFdn = some d) ∧ HxcPart' P.opt.hxc F Ex Ec d mh mx mc fh fx fc w := by
  have f1 := hxcStart_frame h1
  unfold hxcStart at h1
  rw [hd, if_neg (by simp), if_neg (by decide)] at h1
  unfold hxcComponents at h1
  simp only [Py.do_eq_ok] at h1
  obtain ⟨m, hm, mh, e1, ⟨ex, eX, mx⟩, e2, ⟨ec, eC, mc⟩, e3, h1⟩ := h1
  obtain rfl := Option.some.inj (hnf.symm.trans (attr_eq_ok.mp hm))
  have hTs1 : P₁.Tsm = P.Tsm := by
    obtain ⟨⟨_, _, _, e⟩, -⟩ := mapAll_inv h1
    rw [e]
  have hstart : ∀ f ∈ P₁.comps, ∃ g ∈ P.comps, ∃ fh fx fc : G.Cols p, g.ks.V.vh = some fh ∧ g.ks.V.vx = some fx ∧
      g.ks.V.vc = some fc ∧ f.ks = g.ks ∧ f.v.vpPot = g.v.vpPot ∧ f.v.vpKin = g.v.vpKin ∧ f.v.Ts = g.v.Ts ∧
      f.v.vpH = some (fun j k => mh j k - fh j k) ∧ f.v.vpX = some (fun j k => mx j k - fx j k) ∧
      f.v.vpC = some (fun j k => mc j k - fc j k) := by
    intro f hf
    obtain ⟨g, hg, e⟩ := mem_of_forall₂ (mapAll_comps h1) hf
    simp only [Py.do_eq_ok, Py.pure_eq_ok] at e
    obtain ⟨fh, a1, fx, a2, fc, a3, rfl⟩ := e
    exact ⟨g, hg, fh, fx, fc, attr_eq_ok.mp a1, attr_eq_ok.mp a2, attr_eq_ok.mp a3, rfl, rfl, rfl, rfl, rfl, rfl, rfl⟩
  unfold hxcCollect at h2
  rw [f1.opt] at h2
  rcases ho with hx | hx | hx <;> rw [hx] at h2 ⊢
  · refine ⟨?_, mh, mx, mc, ex, ec, 0, 0, 0, eX, eC, e1, e2, e3, (fun h => nomatch h), fun f hf => ?_⟩
    · obtain ⟨⟨_, _, _, e⟩, -⟩ := mapAll_inv h2
      rw [e]
      exact hTs1
    obtain ⟨y, hy, e⟩ := mem_of_forall₂ (mapAll_comps h2) hf
    obtain ⟨g, hg, fh, fx, fc, a1, a2, a3, b1, b2, b3, b4, b5, b6, b7⟩ := hstart y hy
    simp only [Py.do_eq_ok, Py.pure_eq_ok] at e
    obtain ⟨_, c1, _, c2, _, c3, rfl⟩ := e
    rw [b5] at c1
    rw [b6] at c2
    rw [b7] at c3
    obtain rfl := Except.ok.inj c1
    obtain rfl := Except.ok.inj c2
    obtain rfl := Except.ok.inj c3
    exact ⟨g, hg, b1, b2, b3, b4, 0, fh, fx, fc, _, b1 ▸ a1, b1 ▸ a2, b1 ▸ a3, rfl, (fun h => nomatch h), fun j k =>
      ⟨fun _ => rfl, (fun h => nomatch h), (fun h => nomatch h)⟩⟩
  · refine ⟨?_, mh, mx, mc, ex, ec, 0, 0, 0, eX, eC, e1, e2, e3, (fun h => nomatch h), fun f hf => ?_⟩
    · obtain ⟨⟨_, _, _, e⟩, -⟩ := mapAll_inv h2
      rw [e]
      exact hTs1
    obtain ⟨y, hy, e⟩ := mem_of_forall₂ (mapAll_comps h2) hf
    obtain ⟨g, hg, fh, fx, fc, a1, a2, a3, b1, b2, b3, b4, b5, b6, b7⟩ := hstart y hy
    simp only [Py.do_eq_ok, Py.pure_eq_ok] at e
    obtain ⟨_, c1, rfl⟩ := e
    rw [b5] at c1
    obtain rfl := Except.ok.inj c1
    exact ⟨g, hg, b1, b2, b3, b4, 0, fh, fx, fc, _, b1 ▸ a1, b1 ▸ a2, b1 ▸ a3, rfl, (fun h => nomatch h), fun j k =>
      ⟨(fun h => nomatch h), fun _ => rfl, (fun h => nomatch h)⟩⟩
  · simp only [Py.do_eq_ok] at h2
    obtain ⟨P₂, k1, P₃, k2, F, k3, EX, k4, EC, k5, h2⟩ := h2
    have f2 := f1.trans (vpOverlap_frame k1)
    obtain ⟨e, sa, sb, na, nb, nf, vh, x, cc, kin, hxc, -, v1, v2, v3, -, -, v4, v5, -, -, -, -, hov⟩ :=
      energy_values k2 (by rw [f2.opt]; exact hi) (by rw [f2.opt]; exact hd)
    obtain ⟨Q, Q', F', w1, w2, q1, q2, q3, q4, w3, w4, q5, w5, w6, -⟩ := hov (by rw [f2.opt]; exact hx)
    have hxs : P₁.ex = some ex ∧ P₁.ec = some ec := by
      obtain ⟨⟨_, _, _, e⟩, -⟩ := mapAll_inv h1
      rw [e]
      exact ⟨rfl, rfl⟩
    rw [(vpOverlap_xc k1).1.1, hxs.1] at v4
    rw [(vpOverlap_xc k1).1.2, hxs.2] at v5
    obtain rfl := Option.some.inj v4
    obtain rfl := Option.some.inj v5
    obtain rfl := Option.some.inj (w3.symm.trans (attr_eq_ok.mp k3))
    obtain rfl := Option.some.inj (w5.symm.trans (attr_eq_ok.mp k4))
    obtain rfl := Option.some.inj (w6.symm.trans (attr_eq_ok.mp k5))
    have same := (mapAll_inv h2).1
    refine ⟨?_, mh, mx, mc, ex, ec, F', ex - (sa.Ex + sb.Ex), ec - (sa.Ec + sb.Ec), eX, eC, e1, e2, e3, fun _ => ?_,
      fun f hf => ?_⟩
    · obtain ⟨_, _, _, e⟩ := same
      rw [e]
      exact q5.trans ((vpOverlap_only k1).2.1.trans hTs1)
    · have hsd : ∀ x y : Frag G r c p, (do
          let h ← attr x.v.vpH
          let x' ← attr x.v.vpX
          let cc ← attr x.v.vpC
          let d ← attr x.v.dFdn
          pure { x with v := { x.v with
            vpHxc := some fun j k => h j k + F' * (x' j k + cc j k) +
              (ex - (sa.Ex + sb.Ex) + (ec - (sa.Ec + sb.Ec))) * d j k } } : Py (Frag G r c p)) = .ok y → SameD x y := by
        intro x y hxy
        simp only [Py.do_eq_ok, Py.pure_eq_ok] at hxy
        obtain ⟨_, _, _, _, _, _, _, _, rfl⟩ := hxy
        exact ⟨rfl, rfl⟩
      refine ⟨Q, Q', P₂, sa, sb, w1.trans ?_, w2.trans ?_, q2, w4, ?_, ?_, f2, v1, rfl, rfl⟩
      · exact v2.symm.trans f2.naFrac
      · exact v3.symm.trans f2.nbFrac
      · rw [← q3]
        exact (mapAll_inv h2).2.1.imp hsd
      · rw [← q4]
        exact (mapAll_inv h2).2.2.imp hsd
    obtain ⟨y, hy, e⟩ := mem_of_forall₂ (mapAll_comps h2) hf
    have hyQ : y ∈ Q'.comps := by
      simp only [comps, q3, q4] at hy
      exact hy
    obtain ⟨y', hy', d1, rfl⟩ := mem_of_forall₂ (vpOverlap_only q2).1 hyQ
    rw [q1] at hy'
    obtain ⟨z, hz, d2, rfl⟩ := mem_of_forall₂ (vpOverlap_only k1).1 hy'
    obtain ⟨g, hg, fh, fx, fc, a1, a2, a3, b1, b2, b3, b4, b5, b6, b7⟩ := hstart z hz
    simp only [Py.do_eq_ok, Py.pure_eq_ok] at e
    obtain ⟨_, c1, _, c2, _, c3, d, c4, rfl⟩ := e
    rw [b5] at c1
    rw [b6] at c2
    rw [b7] at c3
    obtain rfl := Except.ok.inj c1
    obtain rfl := Except.ok.inj c2
    obtain rfl := Except.ok.inj c3
    exact ⟨g, hg, b1, b2, b3, b4, d, fh, fx, fc, _, b1 ▸ a1, b1 ▸ a2, b1 ▸ a3, rfl, fun _ => attr_eq_ok.mp c4, fun j k =>
      ⟨(fun h => nomatch h), (fun h => nomatch h), fun _ => rfl⟩⟩

/-- The partition potential of every component. -/
theorem potential_parts {T : Env G r c p} {P P' : Part G r c p} {vp : G.Cols p} {Tk : G.Cols p → K}
    {vk : G.Cols p → G.Cols p} (h : P.partitionPotential T = .ok (P', vp)) (hd : P.opt.interaction = .dft)
    (hi : P.opt.isolated = false) (ho : P.opt.hxc = .exact ∨ P.opt.hxc = .hartree ∨ P.opt.hxc = .overlapXc)
    (hk : KineticLaw T P.opt.kin Tk vk) {nf : G.Cols p} (hnf : P.nf = some nf) :
    (P.opt.kin = .libxcke → P'.Tsm = some (Tk nf)) ∧ ∃ (mh mx mc : G.Cols p) (ex ec F Ex Ec : K) (eX eC : G.Fld),
      T.hartree nf = .ok mh ∧ T.exchange nf = .ok (ex, eX, mx) ∧ T.correlation nf = .ok (ec, eC, mc) ∧
      (P.opt.hxc = .overlapXc → OverlapUsed T P P' ex ec F Ex Ec) ∧
      ∀ f ∈ P'.comps, ∀ n, f.ks.n = some n → (P.opt.kin = .libxcke → f.v.Ts = some (Tk n)) ∧
        ∃ d fh fx fc w : G.Cols p, f.ks.V.vh = some fh ∧ f.ks.V.vx = some fx ∧ f.ks.V.vc = some fc ∧
          (P.opt.hxc = .overlapXc → f.v.dFdn = some d) ∧ HxcPart' P.opt.hxc F Ex Ec d mh mx mc fh fx fc w ∧
          f.v.vp = some fun j k => (P.va k + P.vb k - f.ks.vnuc j k) + (vk nf j k - vk n j k) + w j k := by
  obtain ⟨-, P₁, P₂, P₃, P₄, P₅, pot, kin, hxc, hh, x, cc, h1, h2, h3, h4, h5, h6, h7, h8, h9, rfl⟩ :=
    partitionPotential_inv h
  have f1 := vpNuclear_frame h1
  have f2 := f1.trans (vpKinetic_frame h2)
  have hk' : KineticLaw T P₁.opt.kin Tk vk := by rw [f1.opt]; exact hk
  obtain ⟨t1, t2⟩ := kinetic_parts h2 hk' (f1.nf.trans hnf)
  obtain ⟨u1, mh, mx, mc, ex, ec, F, Ex, Ec, eX, eC, u2, u3, u4, u5, u6⟩ := hxc_parts h3 h4 (by rw [f2.opt]; exact hd)
    (by rw [f2.opt]; exact hi) (by rw [f2.opt]; exact ho) (f2.nf.trans hnf)
  rw [f2.opt] at u5 u6
  rw [f1.opt] at t1 t2
  obtain ⟨⟨_, _, _, same⟩, -⟩ := mapAll_inv h5
  refine ⟨fun hl => ?_, mh, mx, mc, ex, ec, F, Ex, Ec, eX, eC, u2, u3, u4, fun ho => ?_, fun f hf n hn => ?_⟩
  · rw [same]
    exact u1.trans (t1 hl)
  · obtain ⟨S, S', Pm, sa, sb, s1, s2, s3, s4, s5, s6, s7, s8, s9, s10⟩ := u5 ho
    have hsd : ∀ x y : Frag G r c p, addParts x = .ok y → SameD x y := by
      intro x y hxy
      unfold addParts at hxy
      simp only [Py.do_eq_ok, Py.pure_eq_ok] at hxy
      obtain ⟨_, _, _, _, _, _, rfl⟩ := hxy
      exact ⟨rfl, rfl⟩
    have tr : ∀ x y z : Frag G r c p, SameD x y → addParts y = .ok z → SameD x z := fun x y z h h' =>
      ⟨(hsd _ _ h').1.trans h.1, (hsd _ _ h').2.trans h.2⟩
    exact ⟨S, S', Pm, sa, sb, s1.trans f2.naFrac, s2.trans f2.nbFrac, s3, s4, forall₂_trans tr s5 (mapAll_inv h5).2.1,
      forall₂_trans tr s6 (mapAll_inv h5).2.2, f2.trans s7, s8, s9, s10⟩
  · obtain ⟨y, hy, e5⟩ := mem_of_forall₂ (mapAll_comps h5) (y := f) hf
    unfold addParts at e5
    simp only [Py.do_eq_ok, Py.pure_eq_ok] at e5
    obtain ⟨a5, q1, b5, q2, d5, q3, rfl⟩ := e5
    have q1 := attr_eq_ok.mp q1
    have q2 := attr_eq_ok.mp q2
    have q3 := attr_eq_ok.mp q3
    obtain ⟨g, hg, b1, b2, b3, b4, d, fh, fx, fc, w, c1, c2, c3, c4, c5, c6⟩ := u6 y hy
    obtain ⟨g1, hg1, d1, d2, d3⟩ := t2 g hg
    obtain ⟨g0, hg0, e0⟩ := mem_of_forall₂ (mapAll_comps h1) hg1
    obtain rfl := Except.ok.inj e0
    obtain ⟨k1, k2⟩ := d3 n (b1 ▸ hn)
    refine ⟨fun hl => b4.trans (k2 hl), d, fh, fx, fc, w, c1, c2, c3, c5, c6, ?_⟩
    rw [b2, d2] at q1
    rw [b3, k1] at q2
    rw [c4] at q3
    obtain rfl := Option.some.inj q1
    obtain rfl := Option.some.inj q2
    obtain rfl := Option.some.inj q3
    simp only [b1, d1, vextMol]

end Verif
