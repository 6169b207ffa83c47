import Verif.Props.C88

/-! # C89: the correlated Hartree energy of an ensemble and the potential of 'overlap_hxc' -/

namespace Verif
open Spec Part PartScf

section
variable {K : Type} [Field K] [LinearOrder K] [IsStrictOrderedRing K] [FloorRing K]
variable {G : Grid K} {r c p : ℕ}

/-- `x'` is the component `x` with half the interaction of its density with the Hartree potential of `y` stored; `e` is the
weighted energy. -/
def Spec.Correlated (x y x' : Frag G r c p) (e : K) : Prop :=
  ∃ (n vh : G.Cols p) (s : K), x.ks.n = some n ∧ y.ks.V.vh = some vh ∧ x.ks.scale = some s ∧
    x' = ⟨x.ks, { x.v with vhcor := some vh, Ehcor := some (1 / 2 * G.integ fun k => ∑ j, n j k * vh j k) }⟩ ∧
    e = s * (1 / 2 * G.integ fun k => ∑ j, n j k * vh j k)

/-- C89: `EnsCorHar` of an ensemble pairs the component `a` with `B` and `A` with `b`: the potential `vhcor` of every component
is the Hartree potential of its partner, the energy half the integral of its density with it, and the total the sum weighted
with the scales.  Nothing else changes.  Without an ensemble the call raises `AttributeError`. -/
theorem C89_pairing (P : Part G r c p) :
    (P.fAB = none → P.ensCorHar = .error .attributeError) ∧ ∀ P', P.ensCorHar = .ok P' →
      ∃ A B a' A' b' B' e₁ e₂ e₃ e₄, P.fAB = some (A, B) ∧ Correlated P.fa B a' e₁ ∧ Correlated A P.fb A' e₂ ∧
        Correlated P.fb A b' e₃ ∧ Correlated B P.fa B' e₄ ∧
        P' = { P with fa := a', fb := b', fAB := some (A', B'), Ehcor := some (e₁ + e₂ + e₃ + e₄) } := by
  refine ⟨fun h => by unfold ensCorHar; rw [h], fun P' h => ?_⟩
  unfold ensCorHar at h
  cases hAB : P.fAB with
  | none => rw [hAB] at h; exact nomatch h
  | some x =>
    obtain ⟨A, B⟩ := x
    rw [hAB] at h
    simp only [Py.do_eq_ok, Py.pure_eq_ok] at h
    have key : ∀ {x y x' : Frag G r c p} {e : K}, (∃ n, KS.need x.ks.n = .ok n ∧ ∃ vh, attr y.ks.V.vh = .ok vh ∧
        ∃ s, KS.need x.ks.scale = .ok s ∧ (⟨x.ks, { x.v with vhcor := some vh, Ehcor := some (G.integ (fun k => ∑ j, n j k * vh j k) / 2) }⟩,
          s * (G.integ (fun k => ∑ j, n j k * vh j k) / 2)) = (x', e)) → Correlated x y x' e := by
      rintro x y x' e ⟨n, h1, vh, h2, s, h3, h4⟩
      simp only [Prod.mk.injEq] at h4
      obtain ⟨rfl, rfl⟩ := h4
      refine ⟨n, vh, s, need_eq_ok.mp h1, attr_eq_ok.mp h2, need_eq_ok.mp h3, ?_, ?_⟩ <;> rw [one_div_mul_eq_div]
    obtain ⟨⟨a, ea⟩, h1, ⟨A', eA⟩, h2, ⟨b, eb⟩, h3, ⟨B', eB⟩, h4, rfl⟩ := h
    exact ⟨A, B, a, A', b, B', ea, eA, eb, eB, rfl, key h1, key h2, key h3, key h4, rfl⟩

/-- Only `vhcor` and `Ehcor` of a component may change. -/
def OnlyCor (f g : Frag G r c p) : Prop := ∃ d e, g = ⟨f.ks, { f.v with vhcor := d, Ehcor := e }⟩

theorem correlated_only {x y x' : Frag G r c p} {e : K} (h : Correlated x y x' e) : OnlyCor x x' := by
  obtain ⟨n, vh, s, -, -, -, rfl, -⟩ := h
  exact ⟨_, _, rfl⟩

theorem ensCorHar_only {P P' : Part G r c p} (h : P.ensCorHar = .ok P') :
    List.Forall₂ OnlyCor P.compsA P'.compsA ∧ List.Forall₂ OnlyCor P.compsB P'.compsB ∧ P'.Tsm = P.Tsm ∧ P'.F = P.F ∧
      P'.EpH = P.EpH := by
  obtain ⟨A, B, a', A', b', B', e₁, e₂, e₃, e₄, hAB, h1, h2, h3, h4, rfl⟩ := (C89_pairing P).2 P' h
  refine ⟨?_, ?_, rfl, rfl, rfl⟩
  · simp only [compsA, hAB]
    exact .cons (correlated_only h1) (.cons (correlated_only h2) .nil)
  · simp only [compsB, hAB]
    exact .cons (correlated_only h3) (.cons (correlated_only h4) .nil)

theorem vpOverlap_EpH {T : Env G r c p} {P P' : Part G r c p} (h : P.vpOverlap T = .ok P') : P'.EpH = P.EpH := by
  unfold vpOverlap at h
  simp only [Py.do_eq_ok] at h
  obtain ⟨na, _, nb, _, P₁, h1, h2⟩ := h
  obtain ⟨⟨_, _, _, e1⟩, -⟩ := mapA_inv h1
  obtain ⟨⟨_, _, _, e2⟩, -⟩ := mapB_inv h2
  rw [e2, e1]

/-- What `energy()` computes with 'overlap_hxc'. -/
theorem energy_hxc {T : Env G r c p} {P P' : Part G r c p} (h : P.energy T = .ok P') (hi : P.opt.isolated = false)
    (hd : P.opt.interaction = .dft) (ho : P.opt.hxc = .overlapHxc) :
    ∃ (e : PartEnergy G p) (sa sb : Sums K p) (na nb nf : G.Cols p) (vh : G.Fld) (ex ec : K) (kin : Tot G) (F cor : K)
      (Q Q' Q'' : Part G r c p),
      P'.E = some e ∧ P.sumsAB = .ok (sa, sb) ∧ P.naFrac = some na ∧ P.nbFrac = some nb ∧ P.nf = some nf ∧
      T.hartree1 (tot nf) = .ok vh ∧ P.ex = some ex ∧ P.ec = some ec ∧ P.epKinetic T = .ok kin ∧
      e.Ep = Tot.add (Tot.add (.num (.fin ((G.integ fun k => tot na k * P.vb k) + G.integ fun k => tot nb k * P.va k))) kin)
        (.num (.fin (F * ((1 / 2 * G.integ (fun k => tot nf k * vh k) - (sa.Eh + sb.Eh)) + (ex - (sa.Ex + sb.Ex)) +
          (ec - (sa.Ec + sb.Ec))) + (1 - F) * cor))) ∧
      Frame P Q ∧ Q.comps = P.comps ∧ Q.vpOverlap T = .ok Q' ∧ Q'.ensCorHar = .ok Q'' ∧ Q'.F = some F ∧ Q''.Ehcor = some cor ∧
      P'.compsA = Q''.compsA ∧ P'.compsB = Q''.compsB ∧ P'.F = some F ∧ P'.Ehcor = some cor ∧ P'.Tsm = P.Tsm ∧
      P'.EpH = some (1 / 2 * G.integ (fun k => tot nf k * vh k) - (sa.Eh + sb.Eh)) ∧
      P'.EpX = some (ex - (sa.Ex + sb.Ex)) ∧ P'.EpC = some (ec - (sa.Ec + sb.Ec)) := by
  obtain ⟨sa, sb, P₁, pot, hxc, kin, ep, ea, eb, h1, h2, -, rfl⟩ := energy_inv h
  unfold partitionEnergy epHxc epComponents at h2
  rw [if_neg (by rw [hi]; decide), hd] at h2
  simp only [Py.do_eq_ok, Py.pure_eq_ok] at h2
  obtain ⟨pot', e0, kin', e1, ⟨P₂, e⟩, ⟨⟨h', x, cc, d⟩, ⟨nf, e2, vh, e3, _, _, ex, e4, _, _, _, _, ec, e5, _, _, _, _, e6⟩, h3⟩, h4⟩ := h2
  simp only [Prod.mk.injEq] at h4 e6
  obtain ⟨rfl, rfl, rfl, rfl, rfl⟩ := h4
  obtain ⟨rfl, rfl, rfl, -⟩ := e6
  unfold epNuclear at e0
  simp only [Py.do_eq_ok, Py.pure_eq_ok] at e0
  obtain ⟨na, q1, nb, q2, rfl⟩ := e0
  have hh : (G.integ fun k => tot nf k * (1 / 2 * vh k)) = 1 / 2 * G.integ fun k => tot nf k * vh k := by
    rw [← G.integ_smul]
    congr 1
    funext k
    ring
  rw [hh] at h3
  obtain ⟨-, -, f2, f3⟩ := epCollect_xc h3
  unfold epCollect at h3
  rw [show (_ : PartOpt).hxc = _ from ho] at h3
  simp only [Py.do_eq_ok, Py.pure_eq_ok, Prod.mk.injEq] at h3
  obtain ⟨Q', hQ', Q'', hQ'', F, hF, cor, hcor, rfl, rfl⟩ := h3
  have oc := ensCorHar_only hQ''
  refine ⟨_, sa, sb, na, nb, nf, vh, ex, ec, kin', F, cor, _, Q', Q'', rfl, h1, need_eq_ok.mp q1, attr_eq_ok.mp q2, attr_eq_ok.mp e2, e3,
    attr_eq_ok.mp e4, attr_eq_ok.mp e5, e1, rfl, ?_, ?_, hQ', hQ'', ?_, attr_eq_ok.mp hcor, rfl, rfl, attr_eq_ok.mp hF,
    attr_eq_ok.mp hcor, ?_, ?_, f2, f3⟩
  · exact ⟨rfl, ⟨rfl, rfl, rfl⟩, rfl, rfl, rfl, rfl, rfl, forall₂_self (fun _ => ⟨rfl, rfl⟩) _, forall₂_self (fun _ => ⟨rfl, rfl⟩) _⟩
  · rfl
  · exact oc.2.2.2.1.symm.trans (attr_eq_ok.mp hF)
  · exact oc.2.2.1.trans (vpOverlap_only hQ').2.1
  · exact oc.2.2.2.2.trans (vpOverlap_EpH hQ')

/-- Same Kohn-Sham state, derivative of the overlap functional and correlated Hartree potential. -/
def SameCor (f g : Frag G r c p) : Prop := g.ks = f.ks ∧ g.v.dFdn = f.v.dFdn ∧ g.v.vhcor = f.v.vhcor

/-- `vp_hxc` with 'overlap_hxc'. -/
theorem hxc_parts₂ {T : Env G r c p} {P P₁ P' : Part G r c p} (h1 : P.hxcStart T = .ok P₁) (h2 : P₁.hxcCollect T = .ok P')
    (hd : P.opt.interaction = .dft) (hi : P.opt.isolated = false) (ho : P.opt.hxc = .overlapHxc)
    {nf : G.Cols p} (hnf : P.nf = some nf) :
    P'.Tsm = P.Tsm ∧ ∃ (mh mx mc : G.Cols p) (ex ec F E cor : K) (eX eC vh : G.Fld) (S S' S'' Pm : Part G r c p) (sa sb : Sums K p),
      T.hartree nf = .ok mh ∧ T.exchange nf = .ok (ex, eX, mx) ∧ T.correlation nf = .ok (ec, eC, mc) ∧
      T.hartree1 (tot nf) = .ok vh ∧ Frame P S ∧ S.vpOverlap T = .ok S' ∧ S'.ensCorHar = .ok S'' ∧ S'.F = some F ∧
      S''.Ehcor = some cor ∧ List.Forall₂ SameCor S''.compsA P'.compsA ∧ List.Forall₂ SameCor S''.compsB P'.compsB ∧
      Frame P Pm ∧ Pm.sumsAB = .ok (sa, sb) ∧
      E = (1 / 2 * G.integ (fun k => tot nf k * vh k) - (sa.Eh + sb.Eh)) + (ex - (sa.Ex + sb.Ex)) + (ec - (sa.Ec + sb.Ec)) ∧
      ∀ f ∈ P'.comps, ∃ g ∈ P.comps, f.ks = g.ks ∧ f.v.vpPot = g.v.vpPot ∧ f.v.vpKin = g.v.vpKin ∧ f.v.Ts = g.v.Ts ∧
        ∃ d u fh fx fc : G.Cols p, f.ks.V.vh = some fh ∧ f.ks.V.vx = some fx ∧ f.ks.V.vc = some fc ∧ f.v.dFdn = some d ∧
          f.v.vhcor = some u ∧ f.v.vpHxc = some fun j k => F * ((mh j k - fh j k) + (mx j k - fx j k) + (mc j k - fc j k)) +
            E * d j k + (1 - F) * u j k + cor * d j k := by
  have f1 := hxcStart_frame h1
  unfold hxcStart at h1
  rw [hd, if_neg (by simp), if_neg (by decide)] at h1
  unfold hxcComponents at h1
  simp only [Py.do_eq_ok] at h1
  obtain ⟨m, hm, mh, e1, ⟨ex, eX, mx⟩, e2, ⟨ec, eC, mc⟩, e3, h1⟩ := h1
  obtain rfl := Option.some.inj (hnf.symm.trans (attr_eq_ok.mp hm))
  have hTs1 : P₁.Tsm = P.Tsm ∧ P₁.ex = some ex ∧ P₁.ec = some ec := by
    obtain ⟨⟨_, _, _, e⟩, -⟩ := mapAll_inv h1
    rw [e]
    exact ⟨rfl, rfl, rfl⟩
  unfold hxcCollect at h2
  rw [f1.opt, ho] at h2
  simp only [Py.do_eq_ok] at h2
  obtain ⟨P₂, k1, P₃, k2, P₄, k3, F, k4, EH, k5, EX, k6, EC, k7, cor, k8, h2⟩ := h2
  have f2 := f1.trans ((vpOverlap_frame k1).trans (ensCorHar_frame k2))
  have xc2 := (vpOverlap_xc k1).trans (ensCorHar_xc k2)
  have oc2 := ensCorHar_only k2
  obtain ⟨e, sa, sb, na, nb, nf', vh, x, cc, kin, F', cor', S, S', S'', -, v1, -, -, v2, v3, v4, v5, -, -, q0, q1, q2, q3, q4, q5, q6, q7,
    q8, q9, q10, q11, q12, q13⟩ := energy_hxc k3 (by rw [f2.opt]; exact hi) (by rw [f2.opt]; exact hd) (by rw [f2.opt]; exact ho)
  obtain rfl := Option.some.inj ((f2.nf.trans hnf).symm.trans v2)
  rw [xc2.1.1, hTs1.2.1] at v4
  rw [xc2.1.2, hTs1.2.2] at v5
  obtain rfl := Option.some.inj v4
  obtain rfl := Option.some.inj v5
  obtain rfl := Option.some.inj (q8.symm.trans (attr_eq_ok.mp k4))
  obtain rfl := Option.some.inj (q9.symm.trans (attr_eq_ok.mp k8))
  obtain rfl := Option.some.inj (q11.symm.trans (attr_eq_ok.mp k5))
  obtain rfl := Option.some.inj (q12.symm.trans (attr_eq_ok.mp k6))
  obtain rfl := Option.some.inj (q13.symm.trans (attr_eq_ok.mp k7))
  have same := (mapAll_inv h2).1
  refine ⟨?_, mh, mx, mc, ex, ec, F', _, cor', eX, eC, vh, S, S', S'', P₃, sa, sb, e1, e2, e3, v3, f2.trans q0, q2, q3, q4, q5, ?_, ?_,
    f2, v1, rfl, fun f hf => ?_⟩
  · obtain ⟨_, _, _, e⟩ := same
    rw [e]
    exact q10.trans (oc2.2.2.1.trans ((vpOverlap_only k1).2.1.trans hTs1.1))
  · rw [← q6]
    refine (mapAll_inv h2).2.1.imp fun x y hxy => ?_
    simp only [Py.do_eq_ok, Py.pure_eq_ok] at hxy
    obtain ⟨_, _, _, _, _, _, _, _, _, _, rfl⟩ := hxy
    exact ⟨rfl, rfl, rfl⟩
  · rw [← q7]
    refine (mapAll_inv h2).2.2.imp fun x y hxy => ?_
    simp only [Py.do_eq_ok, Py.pure_eq_ok] at hxy
    obtain ⟨_, _, _, _, _, _, _, _, _, _, rfl⟩ := hxy
    exact ⟨rfl, rfl, rfl⟩
  obtain ⟨y, hy, e⟩ := mem_of_forall₂ (mapAll_comps h2) hf
  have hyQ : y ∈ S''.comps := by
    simp only [comps, q6, q7] at hy
    exact hy
  obtain ⟨y1, hy1, d1, u1, rfl⟩ := mem_of_forall₂ (List.rel_append (ensCorHar_only q3).1 (ensCorHar_only q3).2.1) hyQ
  obtain ⟨y2, hy2, d2, rfl⟩ := mem_of_forall₂ (vpOverlap_only q2).1 hy1
  rw [q1] at hy2
  obtain ⟨y3, hy3, d3, u3, rfl⟩ := mem_of_forall₂ (List.rel_append oc2.1 oc2.2.1) hy2
  obtain ⟨z, hz, d4, rfl⟩ := mem_of_forall₂ (vpOverlap_only k1).1 hy3
  obtain ⟨g, hg, e'⟩ := mem_of_forall₂ (mapAll_comps h1) hz
  simp only [Py.do_eq_ok, Py.pure_eq_ok] at e'
  obtain ⟨fh, a1, fx, a2, fc, a3, rfl⟩ := e'
  simp only [Py.do_eq_ok, Py.pure_eq_ok] at e
  obtain ⟨_, c1, _, c2, _, c3, d, c4, u, c5, rfl⟩ := e
  obtain rfl := Except.ok.inj c1
  obtain rfl := Except.ok.inj c2
  obtain rfl := Except.ok.inj c3
  exact ⟨g, hg, rfl, rfl, rfl, rfl, d, u, fh, fx, fc, attr_eq_ok.mp a1, attr_eq_ok.mp a2, attr_eq_ok.mp a3, attr_eq_ok.mp c4,
    attr_eq_ok.mp c5, rfl⟩

/-- The partition potential of every component with 'overlap_hxc'. -/
theorem potential_parts₂ {T : Env G r c p} {P P' : Part G r c p} {vp : G.Cols p} {Tk : G.Cols p → K}
    {vk : G.Cols p → G.Cols p} (h : P.partitionPotential T = .ok (P', vp)) (hd : P.opt.interaction = .dft)
    (hi : P.opt.isolated = false) (ho : P.opt.hxc = .overlapHxc)
    (hk : KineticLaw T P.opt.kin Tk vk) {nf : G.Cols p} (hnf : P.nf = some nf) :
    (P.opt.kin = .libxcke → P'.Tsm = some (Tk nf)) ∧ ∃ (mh mx mc : G.Cols p) (ex ec F E cor : K) (eX eC vh : G.Fld)
      (S S' S'' Pm : Part G r c p) (sa sb : Sums K p),
      T.hartree nf = .ok mh ∧ T.exchange nf = .ok (ex, eX, mx) ∧ T.correlation nf = .ok (ec, eC, mc) ∧
      T.hartree1 (tot nf) = .ok vh ∧ Frame P S ∧ S.vpOverlap T = .ok S' ∧ S'.ensCorHar = .ok S'' ∧ S'.F = some F ∧
      S''.Ehcor = some cor ∧ List.Forall₂ SameCor S''.compsA P'.compsA ∧ List.Forall₂ SameCor S''.compsB P'.compsB ∧
      Frame P Pm ∧ Pm.sumsAB = .ok (sa, sb) ∧
      E = (1 / 2 * G.integ (fun k => tot nf k * vh k) - (sa.Eh + sb.Eh)) + (ex - (sa.Ex + sb.Ex)) + (ec - (sa.Ec + sb.Ec)) ∧
      ∀ f ∈ P'.comps, ∀ n, f.ks.n = some n → (P.opt.kin = .libxcke → f.v.Ts = some (Tk n)) ∧
        ∃ d u fh fx fc : G.Cols p, f.ks.V.vh = some fh ∧ f.ks.V.vx = some fx ∧ f.ks.V.vc = some fc ∧
          f.v.dFdn = some d ∧ f.v.vhcor = some u ∧
          f.v.vp = some fun j k => (P.va k + P.vb k - f.ks.vnuc j k) + (vk nf j k - vk n j k) +
            (F * ((mh j k - fh j k) + (mx j k - fx j k) + (mc j k - fc j k)) + E * d j k + (1 - F) * u j k + cor * d j k) := by
  obtain ⟨-, P₁, P₂, P₃, P₄, P₅, pot, kin, hxc, hh, x, cc, h1, h2, h3, h4, h5, h6, h7, h8, h9, rfl⟩ :=
    partitionPotential_inv h
  have f1 := vpNuclear_frame h1
  have f2 := f1.trans (vpKinetic_frame h2)
  have hk' : KineticLaw T P₁.opt.kin Tk vk := by rw [f1.opt]; exact hk
  obtain ⟨t1, t2⟩ := kinetic_parts h2 hk' (f1.nf.trans hnf)
  obtain ⟨u1, mh, mx, mc, ex, ec, F, E, cor, eX, eC, vh, S, S', S'', Pm, sa, sb, m1, m2, m3, m4, m5, m6, m7, m8, m9, m10, m11, m12, m13,
    m14, u6⟩ := hxc_parts₂ h3 h4 (by rw [f2.opt]; exact hd) (by rw [f2.opt]; exact hi) (by rw [f2.opt]; exact ho) (f2.nf.trans hnf)
  rw [f1.opt] at t1 t2
  obtain ⟨⟨_, _, _, same⟩, -⟩ := mapAll_inv h5
  have hsd : ∀ x y z : Frag G r c p, SameCor x y → addParts y = .ok z → SameCor x z := by
    intro x y z h hxy
    unfold addParts at hxy
    simp only [Py.do_eq_ok, Py.pure_eq_ok] at hxy
    obtain ⟨_, _, _, _, _, _, rfl⟩ := hxy
    exact h
  refine ⟨fun hl => ?_, mh, mx, mc, ex, ec, F, E, cor, eX, eC, vh, S, S', S'', Pm, sa, sb, m1, m2, m3, m4, f2.trans m5, m6, m7, m8, m9,
    forall₂_trans hsd m10 (mapAll_inv h5).2.1, forall₂_trans hsd m11 (mapAll_inv h5).2.2, f2.trans m12, m13, m14, fun f hf n hn => ?_⟩
  · rw [same]
    exact u1.trans (t1 hl)
  · obtain ⟨y, hy, e5⟩ := mem_of_forall₂ (mapAll_comps h5) (y := f) hf
    unfold addParts at e5
    simp only [Py.do_eq_ok, Py.pure_eq_ok] at e5
    obtain ⟨a5, q1, b5, q2, d5, q3, rfl⟩ := e5
    have q1 := attr_eq_ok.mp q1
    have q2 := attr_eq_ok.mp q2
    have q3 := attr_eq_ok.mp q3
    obtain ⟨g, hg, b1, b2, b3, b4, d, u, fh, fx, fc, c1, c2, c3, c5, c6, c4⟩ := u6 y hy
    obtain ⟨g1, hg1, d1, d2, d3⟩ := t2 g hg
    obtain ⟨g0, hg0, e0⟩ := mem_of_forall₂ (mapAll_comps h1) hg1
    obtain rfl := Except.ok.inj e0
    obtain ⟨k1, k2⟩ := d3 n (b1 ▸ hn)
    refine ⟨fun hl => b4.trans (k2 hl), d, u, fh, fx, fc, c1, c2, c3, c5, c6, ?_⟩
    rw [b2, d2] at q1
    rw [b3, k1] at q2
    rw [c4] at q3
    obtain rfl := Option.some.inj q1
    obtain rfl := Option.some.inj q2
    obtain rfl := Option.some.inj q3
    simp only [b1, d1, vextMol]

end

noncomputable section
variable {G : Grid ℝ} {r c p : ℕ}

/-- Half the Hartree interaction of two densities. -/
def Spec.cross (H : G.Fld →ₗ[ℝ] G.Fld) (n m : G.Cols p) : ℝ := 1 / 2 * G.integ fun k => (∑ j, n j k) * H (fun k => ∑ j, m j k) k

/-- Weighted interactions of the components of an ensemble: `a` with `B`, `A` with `b`. -/
def Spec.crossEnergy (H : G.Fld →ₗ[ℝ] G.Fld) (a A b B : G.Cols p × ℝ) : ℝ :=
  a.2 * cross H a.1 B.1 + A.2 * cross H A.1 b.1 + b.2 * cross H b.1 A.1 + B.2 * cross H B.1 a.1

theorem correlated_value (D : Theory G p) {x y x' : Frag G r c p} {e : ℝ} {v w : G.Fld} {n m : G.Cols p × ℝ}
    (hx : Solved D v x n) (hy : Solved D w y m) (h : Correlated x y x' e) :
    x'.v.vhcor = some (hartreePotential D.H m.1) ∧ e = n.2 * cross D.H n.1 m.1 := by
  obtain ⟨n', vh, s, h1, h2, h3, rfl, rfl⟩ := h
  obtain rfl := Option.some.inj (hx.1.symm.trans h1)
  obtain rfl := Option.some.inj (hx.2.1.symm.trans h3)
  obtain rfl := Option.some.inj (hy.2.2.2.1.symm.trans h2)
  refine ⟨rfl, ?_⟩
  simp only [hartreePotential, cross, Finset.sum_mul]

/-- `EnsCorHar` for components whose stored potentials belong to their densities. -/
theorem ensCorHar_values (D : Theory G p) {S S' : Part G r c p} {va vb : G.Fld} {a A b B : G.Cols p × ℝ}
    (hA : List.Forall₂ (Solved D va) S.compsA [a, A]) (hB : List.Forall₂ (Solved D vb) S.compsB [b, B])
    (h : S.ensCorHar = .ok S') :
    S'.Ehcor = some (crossEnergy D.H a A b B) ∧
    List.Forall₂ (fun f u => f.v.vhcor = some u) S'.compsA [hartreePotential D.H B.1, hartreePotential D.H b.1] ∧
    List.Forall₂ (fun f u => f.v.vhcor = some u) S'.compsB [hartreePotential D.H A.1, hartreePotential D.H a.1] := by
  obtain ⟨fA, fB, a', A', b', B', e₁, e₂, e₃, e₄, hAB, h1, h2, h3, h4, rfl⟩ := (C89_pairing S).2 S' h
  simp only [compsA, compsB, hAB, Option.map_some, Option.toList_some] at hA hB
  obtain _ | ⟨p1, _ | ⟨p2, -⟩⟩ := hA
  obtain _ | ⟨p3, _ | ⟨p4, -⟩⟩ := hB
  obtain ⟨u1, rfl⟩ := correlated_value D p1 p4 h1
  obtain ⟨u2, rfl⟩ := correlated_value D p2 p3 h2
  obtain ⟨u3, rfl⟩ := correlated_value D p3 p2 h3
  obtain ⟨u4, rfl⟩ := correlated_value D p4 p1 h4
  refine ⟨rfl, ?_, ?_⟩
  · simp only [compsA, Option.map_some, Option.toList_some]
    exact .cons u1 (.cons u2 .nil)
  · simp only [compsB, Option.map_some, Option.toList_some]
    exact .cons u3 (.cons u4 .nil)

/-- Two moving densities. -/
theorem cross_line (H : G.Fld →ₗ[ℝ] G.Fld) (hH : ∀ f g : G.Fld, G.integ (fun k => f k * H g k) = G.integ fun k => g k * H f k)
    (x y : Move G p) (q q' : ℝ) :
    HasDerivAt (fun t => q * cross H (x.to t).1 (y.to t).1 + q' * cross H (y.to t).1 (x.to t).1)
      (1 / 2 * (q + q') * ∑ j, G.integ (fun k => hartreePotential H y.n j k * x.δ j k) +
        1 / 2 * (q + q') * ∑ j, G.integ fun k => hartreePotential H x.n j k * y.δ j k) 0 := by
  have tot_to : ∀ (z : Move G p) t, (fun k => ∑ j, (z.to t).1 j k) = (fun k => ∑ j, z.n j k) + t • fun k => ∑ j, z.δ j k := by
    intro z t
    funext k
    simp only [Move.to, Finset.sum_add_distrib, ← Finset.mul_sum, Pi.add_apply, Pi.smul_apply, smul_eq_mul]
  have pair : ∀ n δ : G.Cols p, ∑ j, G.integ (fun k => hartreePotential H n j k * δ j k) =
      G.integ fun k => (∑ j, δ j k) * H (fun k => ∑ j, n j k) k := by
    intro n δ
    rw [← G.integ_sum]
    congr 1
    funext k
    simp only [hartreePotential]
    rw [← Finset.mul_sum, mul_comm]
  rw [pair, pair]
  generalize hf : (fun k => ∑ j, x.n j k) = f at *
  generalize hg : (fun k => ∑ j, y.n j k) = g at *
  generalize hφ : (fun k => ∑ j, x.δ j k) = φ at *
  generalize hγ : (fun k => ∑ j, y.δ j k) = γ at *
  have e : ∀ t, q * cross H (x.to t).1 (y.to t).1 + q' * cross H (y.to t).1 (x.to t).1 =
      1 / 2 * (q + q') * (G.integ (fun k => f k * H g k) + t * ((G.integ fun k => φ k * H g k) + G.integ fun k => γ k * H f k) +
        t ^ 2 * G.integ fun k => φ k * H γ k) := by
    intro t
    have c : cross H (x.to t).1 (y.to t).1 = 1 / 2 * (G.integ (fun k => f k * H g k) +
        t * ((G.integ fun k => φ k * H g k) + G.integ fun k => γ k * H f k) + t ^ 2 * G.integ fun k => φ k * H γ k) := by
      unfold cross
      rw [hH f γ |>.symm]
      have := tot_to y t
      rw [hg, hγ] at this
      rw [this]
      have h2 := fun k => congrFun (tot_to x t) k
      simp only [hf, hφ] at h2
      simp only [h2, map_add, map_smul, Pi.add_apply, Pi.smul_apply, smul_eq_mul]
      congr 1
      rw [mul_add, ← G.integ_smul, ← G.integ_smul, ← G.integ_smul, ← G.integ_add, ← G.integ_add, ← G.integ_add]
      congr 1
      funext k
      ring
    have s : cross H (y.to t).1 (x.to t).1 = cross H (x.to t).1 (y.to t).1 := by
      unfold cross
      congr 1
      exact hH _ _
    rw [s, c]
    ring
  have d : HasDerivAt (fun t : ℝ => 1 / 2 * (q + q') * (G.integ (fun k => f k * H g k) +
      t * ((G.integ fun k => φ k * H g k) + G.integ fun k => γ k * H f k) + t ^ 2 * G.integ fun k => φ k * H γ k))
      (1 / 2 * (q + q') * (0 + 1 * ((G.integ fun k => φ k * H g k) + G.integ fun k => γ k * H f k) +
        (2 : ℕ) * (0 : ℝ) ^ (2 - 1) * G.integ fun k => φ k * H γ k)) 0 :=
    ((((hasDerivAt_const (0 : ℝ) _).add ((hasDerivAt_id (0 : ℝ)).mul_const _)).add ((hasDerivAt_pow 2 (0 : ℝ)).mul_const _)).const_mul _)
  refine (d.congr_deriv ?_).congr_of_eventuallyEq (.of_forall e)
  have e1 : ∀ k, ∑ j, x.δ j k = φ k := fun k => congrFun hφ k
  have e2 : ∀ k, ∑ j, y.δ j k = γ k := fun k => congrFun hγ k
  simp only [e1, e2]
  norm_num
  ring

/-- Work of the correlated Hartree potentials, every component with the mean of its weight and the weight of its partner. -/
def Spec.crossWork (H : G.Fld →ₗ[ℝ] G.Fld) (a A b B : Move G p) : ℝ :=
  let w (x y : Move G p) : ℝ := 1 / 2 * (x.s + y.s) * ∑ j, G.integ fun k => hartreePotential H y.n j k * x.δ j k
  w a B + w A b + w b A + w B a

/-- C89: the derivative of the correlated Hartree energy is the work of the potentials `vhcor`, each component weighted with the
mean of its weight and its partner's. -/
theorem C89_cross_derivative (H : G.Fld →ₗ[ℝ] G.Fld)
    (hH : ∀ f g : G.Fld, G.integ (fun k => f k * H g k) = G.integ fun k => g k * H f k) (a A b B : Move G p) :
    HasDerivAt (fun t => crossEnergy H (a.to t) (A.to t) (b.to t) (B.to t)) (crossWork H a A b B) 0 := by
  refine (((cross_line H hH a B a.s B.s).add (cross_line H hH A b A.s b.s)).congr_deriv ?_).congr_of_eventuallyEq
    (.of_forall fun t => ?_)
  · simp only [crossWork]
    ring
  · simp only [crossEnergy, Move.to, Pi.add_apply]
    ring

/-- `Ep` with 'overlap_hxc'. -/
theorem ep_value₂ (D : Theory G p) {T : Env G r c p} {P Q R : Part G r c p} {vp : G.Cols p} {a A b B : G.Cols p × ℝ}
    {va vb : G.Fld} (hD : D.Computed T P.opt.kin) (hva : P.va = va) (hvb : P.vb = vb)
    (hA : List.Forall₂ (Solved D va) P.compsA [a, A]) (hB : List.Forall₂ (Solved D vb) P.compsB [b, B])
    (hd : P.opt.interaction = .dft) (hi : P.opt.isolated = false) (ho : P.opt.hxc = .overlapHxc)
    (hens : P.opt.abSym = true) (hab : SameEnergies D [a, A] [b, B])
    (h : (do let P ← P.calcProtomolecule; let P ← P.calcQ; P.partitionPotential T) = .ok (Q, vp))
    (hR : Q.energy T = .ok R) :
    ∃ (e : PartEnergy G p) (F : ℝ), R.E = some e ∧
      F = T.erf (2 * G.integ fun k => T.sqrt (tot (jointDensity P.opt.ensSpinSym [a, A]) k *
        tot (jointDensity P.opt.ensSpinSym [b, B]) k)) ∧
      e.Ep = .num (.fin ((G.integ fun k => (∑ j, jointDensity P.opt.ensSpinSym [a, A] j k) * vb k) +
        (G.integ fun k => (∑ j, jointDensity P.opt.ensSpinSym [b, B] j k) * va k) +
        nonAdditive P.opt.ensSpinSym D.Tk ([a, A] ++ [b, B]) +
        (F * (nonAdditive P.opt.ensSpinSym (hartreeEnergy D.H) ([a, A] ++ [b, B]) + nonAdditive P.opt.ensSpinSym D.Ex ([a, A] ++ [b, B]) +
          nonAdditive P.opt.ensSpinSym D.Ec ([a, A] ++ [b, B])) + (1 - F) * crossEnergy D.H a A b B))) := by
  obtain ⟨P', h', o', a', b', n1, n2, n3, kA, kB, -⟩ := run_inv D hA hB h
  have fr := partitionPotential_frame h'
  have sA := solved_frame D kA fr.ksA
  have sB := solved_frame D kB fr.ksB
  have oQ : Q.opt = P.opt := fr.opt.trans o'
  obtain ⟨p1, _, _, _, _, _, _, _, _, _, _, _, _, _, _, _, _, _, -, -, -, -, -, -, -, -, -, -, -, -, -, -, p6⟩ :=
    potential_parts₂ h' (o' ▸ hd) (o' ▸ hi) (o' ▸ ho) (o' ▸ hD.kinetic) n3
  obtain ⟨nf', ex', ec', _, _, _, _, q1, q2, q3, q4, q5⟩ := partitionPotential_xc h' (o' ▸ hd)
  obtain rfl := Option.some.inj (n3.symm.trans q1)
  obtain ⟨e, sa, sb, na, nb, nf, vh, ex₂, ec₂, kin, F, cor, S, S', S'', e1, e2, e3, e4, e5, e6, e7, e8, e9, e10, s1, -, s2, s3, s4, s5, -⟩ :=
    energy_hxc hR (oQ ▸ hi) (oQ ▸ hd) (oQ ▸ ho)
  obtain rfl := Option.some.inj ((fr.naFrac.trans n1).symm.trans e3)
  obtain rfl := Option.some.inj ((fr.nbFrac.trans n2).symm.trans e4)
  obtain rfl := Option.some.inj ((fr.nf.trans n3).symm.trans e5)
  obtain rfl := Option.some.inj (q4.symm.trans e7)
  obtain rfl := Option.some.inj (q5.symm.trans e8)
  rw [hD.hartree1] at e6
  obtain rfl := Except.ok.inj e6
  obtain ⟨_, hx⟩ := hD.laws.exchange (jointDensity P.opt.ensSpinSym ([a, A] ++ [b, B]))
  obtain ⟨_, hcc⟩ := hD.laws.correlation (jointDensity P.opt.ensSpinSym ([a, A] ++ [b, B]))
  rw [hx] at q2
  rw [hcc] at q3
  simp only [Except.ok.injEq, Prod.mk.injEq] at q2 q3
  obtain ⟨rfl, -, -⟩ := q2
  obtain ⟨rfl, -, -⟩ := q3
  obtain ⟨t1, t2, t3⟩ := fragment_sums D sA sB (oQ ▸ hd) (.inl (oQ ▸ hens)) (fun _ => hab) e2
  have hkin := kinetic_value (A := [a, A] ++ [b, B]) (oQ ▸ hD.kinetic) (fun hl => by
      rw [oQ]
      exact p1 (by rw [o', ← oQ]; exact hl)) (fun hl => ?_) e9
  swap
  · have : List.Forall₂ (fun f x => f.ks.n = some x.1 ∧ f.ks.scale = some x.2) Q.comps ([a, A] ++ [b, B]) :=
      List.rel_append (sA.imp fun f x h => ⟨h.1, h.2.1⟩) (sB.imp fun f x h => ⟨h.1, h.2.1⟩)
    exact (forall₂_mem this).imp fun f x hf => ⟨hf.1.2, (p6 f hf.2 x.1 hf.1.1).1 (by rw [o', ← oQ]; exact hl)⟩
  rw [oQ] at t1 t2 t3 hkin
  have fs := s1.trans (vpOverlap_frame s2)
  obtain ⟨c1, -, -⟩ := ensCorHar_values D (solved_frame D sA fs.ksA) (solved_frame D sB fs.ksB) s3
  obtain rfl := Option.some.inj (c1.symm.trans s5)
  refine ⟨e, F, e1, ?_, ?_⟩
  · have := (vpOverlap_values s2 (s1.naFrac.trans (fr.naFrac.trans n1)) (s1.nbFrac.trans (fr.nbFrac.trans n2))).2
    rw [s4] at this
    exact Option.some.inj this
  · rw [e10, hkin, fr.va, fr.vb, a', b', hva, hvb, t1, t2, t3]
    rfl

/-- Potential of a component with 'overlap_hxc': `E` the non-additive energy, `cor` and `u` energy and potential of the partner,
`d` the derivative of the overlap functional. -/
def Spec.gap₂ (D : Theory G p) (v : G.Fld) (nf n : G.Cols p) (F E cor : ℝ) (u d : G.Cols p) : G.Cols p := fun j k =>
  v k + (D.vk nf j k - D.vk n j k) +
    (F * ((hartreePotential D.H nf j k - hartreePotential D.H n j k) + (D.vx nf j k - D.vx n j k) + (D.vc nf j k - D.vc n j k)) +
      (E + cor) * d j k + (1 - F) * u j k)

theorem same_vhcor {l m : List (Frag G r c p)} {U : List (G.Cols p)} (h : List.Forall₂ SameCor l m)
    (hu : List.Forall₂ (fun f u => f.v.vhcor = some u) l U) : List.Forall₂ (fun f u => f.v.vhcor = some u) m U := by
  have := forall₂_trans (U := fun u (g : Frag G r c p) => g.v.vhcor = some u) (fun u f g h h' => h'.2.2.trans h) hu.flip h
  exact this.flip

/-- Components in two lists at once. -/
theorem forall₂_and {α β : Type*} {R S : α → β → Prop} {l : List α} {m : List β} (h : List.Forall₂ R l m) (h' : List.Forall₂ S l m) :
    List.Forall₂ (fun a b => R a b ∧ S a b) l m := by
  induction h with
  | nil => exact .nil
  | cons e _ ih =>
    cases h' with
    | cons e' h' => exact .cons ⟨e, e'⟩ (ih h')

/-- What `partition_potential` leaves in the components with 'overlap_hxc'. -/
theorem vp_value₂ (D : Theory G p) {T : Env G r c p} {P Q : Part G r c p} {vp : G.Cols p} {a A b B : G.Cols p × ℝ}
    {va vb : G.Fld} (hD : D.Computed T P.opt.kin) (hva : P.va = va) (hvb : P.vb = vb)
    (hA : List.Forall₂ (Solved D va) P.compsA [a, A]) (hB : List.Forall₂ (Solved D vb) P.compsB [b, B])
    (hd : P.opt.interaction = .dft) (hi : P.opt.isolated = false) (ho : P.opt.hxc = .overlapHxc)
    (hens : P.opt.abSym = true) (hab : SameEnergies D [a, A] [b, B])
    (h : (do let P ← P.calcProtomolecule; let P ← P.calcQ; P.partitionPotential T) = .ok (Q, vp)) :
    ∃ (F E : ℝ) (S S' : Part G r c p), E = nonAdditive P.opt.ensSpinSym (hartreeEnergy D.H) ([a, A] ++ [b, B]) +
        nonAdditive P.opt.ensSpinSym D.Ex ([a, A] ++ [b, B]) + nonAdditive P.opt.ensSpinSym D.Ec ([a, A] ++ [b, B]) ∧
      S.naFrac = some (jointDensity P.opt.ensSpinSym [a, A]) ∧ S.nbFrac = some (jointDensity P.opt.ensSpinSym [b, B]) ∧
      S.vpOverlap T = .ok S' ∧ S'.F = some F ∧ List.Forall₂ SameD S'.compsA Q.compsA ∧ List.Forall₂ SameD S'.compsB Q.compsB ∧
      List.Forall₂ (fun f u => f.v.vhcor = some u) Q.compsA [hartreePotential D.H B.1, hartreePotential D.H b.1] ∧
      List.Forall₂ (fun f u => f.v.vhcor = some u) Q.compsB [hartreePotential D.H A.1, hartreePotential D.H a.1] ∧
      List.Forall₂ (fun f x => f.ks.scale = some x.2 ∧ ∃ d u, f.v.dFdn = some d ∧ f.v.vhcor = some u ∧
        f.v.vp = some (gap₂ D vb (jointDensity P.opt.ensSpinSym ([a, A] ++ [b, B])) x.1 F E (crossEnergy D.H a A b B) u d)) Q.compsA [a, A] ∧
      List.Forall₂ (fun f x => f.ks.scale = some x.2 ∧ ∃ d u, f.v.dFdn = some d ∧ f.v.vhcor = some u ∧
        f.v.vp = some (gap₂ D va (jointDensity P.opt.ensSpinSym ([a, A] ++ [b, B])) x.1 F E (crossEnergy D.H a A b B) u d)) Q.compsB [b, B] := by
  obtain ⟨P', h', o', a', b', n1, n2, n3, kA, kB, -⟩ := run_inv D hA hB h
  have fr := partitionPotential_frame h'
  have sA := solved_frame D kA fr.ksA
  have sB := solved_frame D kB fr.ksB
  obtain ⟨-, mh, mx, mc, ex, ec, F, E, cor, eX, eC, vh, S, S', S'', Pm, sa, sb, m1, m2, m3, m4, m5, m6, m7, m8, m9, m10, m11, m12, m13, m14,
    m15⟩ := potential_parts₂ h' (o' ▸ hd) (o' ▸ hi) (o' ▸ ho) (o' ▸ hD.kinetic) n3
  obtain ⟨_, hx⟩ := hD.laws.exchange (jointDensity P.opt.ensSpinSym ([a, A] ++ [b, B]))
  obtain ⟨_, hcc⟩ := hD.laws.correlation (jointDensity P.opt.ensSpinSym ([a, A] ++ [b, B]))
  rw [hD.laws.hartree] at m1
  rw [hx] at m2
  rw [hcc] at m3
  rw [hD.hartree1] at m4
  simp only [Except.ok.injEq, Prod.mk.injEq] at m1 m2 m3 m4
  obtain ⟨rfl, -, rfl⟩ := m2
  obtain ⟨rfl, -, rfl⟩ := m3
  subst m1
  subst m4
  have fs := m5.trans (vpOverlap_frame m6)
  obtain ⟨c1, c2, c3⟩ := ensCorHar_values D (solved_frame D kA fs.ksA) (solved_frame D kB fs.ksB) m7
  obtain rfl := Option.some.inj (c1.symm.trans m9)
  obtain ⟨t1, t2, t3⟩ := fragment_sums D (solved_frame D kA m12.ksA) (solved_frame D kB m12.ksB) (by rw [m12.opt, o']; exact hd)
    (.inl (by rw [m12.opt, o']; exact hens)) (fun _ => hab) m13
  rw [m12.opt, o'] at t1 t2 t3
  have hsd : ∀ x y z : Frag G r c p, OnlyCor x y → SameCor y z → SameD x z := by
    rintro x y z ⟨d, e, rfl⟩ h
    exact ⟨h.1, h.2.1⟩
  have side : ∀ {l : List (Frag G r c p)} {L : List (G.Cols p × ℝ)} {v : G.Fld} (w : G.Fld), (∀ k, P'.va k + P'.vb k - v k = w k) →
      (∀ f ∈ l, f ∈ Q.comps) → List.Forall₂ (Solved D v) l L →
      List.Forall₂ (fun f x => f.ks.scale = some x.2 ∧ ∃ d u, f.v.dFdn = some d ∧ f.v.vhcor = some u ∧
        f.v.vp = some (gap₂ D w (jointDensity P.opt.ensSpinSym ([a, A] ++ [b, B])) x.1 F E (crossEnergy D.H a A b B) u d)) l L := by
    intro l L v w hw hl hs
    refine (forall₂_mem hs).imp fun f x hf => ⟨hf.1.2.1, ?_⟩
    obtain ⟨-, d, u, fh, fx, fc, g1, g2, g3, g4, g5, g6⟩ := m15 f (hl f hf.2) x.1 hf.1.1
    obtain ⟨-, -, hv, v1, v2, v3, -⟩ := hf.1
    obtain rfl := Option.some.inj (g1.symm.trans v1)
    obtain rfl := Option.some.inj (g2.symm.trans v2)
    obtain rfl := Option.some.inj (g3.symm.trans v3)
    refine ⟨d, u, g4, g5, g6.trans (congrArg some (funext fun j => funext fun k => ?_))⟩
    rw [hv, hw]
    simp only [gap₂, hartreePotential]
    ring
  refine ⟨F, E, S, S', ?_, m5.naFrac.trans n1, m5.nbFrac.trans n2, m6, m8, forall₂_trans hsd (ensCorHar_only m7).1 m10,
    forall₂_trans hsd (ensCorHar_only m7).2.1 m11, same_vhcor m10 c2, same_vhcor m11 c3, side vb ?_ ?_ sA, side va ?_ ?_ sB⟩
  · rw [m14, t1, t2, t3]
    rfl
  · intro k
    rw [a', b', hva, hvb]
    ring
  · exact fun f hf => List.mem_append_left _ hf
  · intro k
    rw [a', b', hva, hvb]
    ring
  · exact fun f hf => List.mem_append_right _ hf

/-- Integral of a potential with the direction of a component. -/
def along (x : Move G p) (w : G.Cols p) : ℝ := ∑ j, G.integ fun k => w j k * x.δ j k

theorem along_add (x : Move G p) (v w : G.Cols p) : along x (fun j k => v j k + w j k) = along x v + along x w := by
  unfold along
  rw [← Finset.sum_add_distrib]
  refine Finset.sum_congr rfl fun j _ => ?_
  rw [← G.integ_add]
  congr 1
  funext k
  ring

theorem along_smul (x : Move G p) (q : ℝ) (w : G.Cols p) : along x (fun j k => q * w j k) = q * along x w := by
  unfold along
  rw [Finset.mul_sum]
  refine Finset.sum_congr rfl fun j _ => ?_
  rw [← G.integ_smul]
  congr 1
  funext k
  ring

/-- First order change weighted with one plus the weight of the component. -/
def Spec.excess (L : List (Move G p)) (V : List (G.Cols p)) : ℝ :=
  (List.zipWith (fun x v => (1 + x.s) * ∑ j, G.integ fun k => v j k * x.δ j k) L V).sum

theorem along_gap (D : Theory G p) (v : G.Fld) (nf : G.Cols p) (F E cor : ℝ) (u d : G.Cols p) (x : Move G p) :
    along x (gap₂ D v nf x.n F E cor u d) = along x (fun j k => v k + (D.vk nf j k - D.vk x.n j k)) +
      F * (along x (fun j k => hartreePotential D.H nf j k - hartreePotential D.H x.n j k) +
        along x fun j k => (D.vx nf j k - D.vx x.n j k) + (D.vc nf j k - D.vc x.n j k)) + (E + cor) * along x d + (1 - F) * along x u := by
  rw [← along_add, ← along_smul, ← along_smul, ← along_smul, ← along_add, ← along_add, ← along_add]
  congr 1
  funext j k
  simp only [gap₂]
  ring

theorem dOverlap_side₂ {l m : List (Frag G r c p)} {L : List (Move G p)} {na nb : G.Cols p} {C : ℝ} (hlm : List.Forall₂ SameD l m)
    (hd : ∀ f ∈ l, ∃ s d, f.ks.scale = some s ∧ f.v.dFdn = some d ∧ ∀ j k, d j k =
      C * if na j k = 0 then 0 else s * (1 / 2) * √(nb j k / na j k))
    (hv : List.Forall₂ (fun f (x : G.Cols p × ℝ) => f.ks.scale = some x.2) m (L.map (Move.to 0))) :
    List.Forall₂ (fun f v => f.v.dFdn = some v) m (L.map (dOverlap na nb C)) := by
  rw [List.forall₂_map_right_iff] at hv ⊢
  refine (forall₂_mem hv).imp fun f x hf => ?_
  obtain ⟨h1, hm⟩ := hf
  obtain ⟨f', hf', e1, e2⟩ := mem_of_forall₂ hlm hm
  obtain ⟨s, d', q1, q2, q3⟩ := hd f' hf'
  rw [e1] at h1
  obtain rfl := Option.some.inj (q1.symm.trans h1)
  rw [e2, q2]
  congr 1
  funext j k
  rw [q3]
  rfl

theorem kin_line (D : Theory G p) (b : Bool) (A B : List (Move G p)) (va vb : G.Fld) (hs : D.Smooth b (A ++ B))
    (nf : G.Cols p) (hnf : nf = jointDensity b ((A ++ B).map (Move.to 0))) :
    HasDerivAt (fun t => (G.integ fun k => (∑ j, jointDensity b (A.map (Move.to t)) j k) * vb k) +
        (G.integ fun k => (∑ j, jointDensity b (B.map (Move.to t)) j k) * va k) +
        nonAdditive b D.Tk ((A ++ B).map (Move.to t)))
      (twins ℝ b * (lin A (fun x j k => vb k + (D.vk nf j k - D.vk x.n j k)) + lin B fun x j k => va k + (D.vk nf j k - D.vk x.n j k))) 0 := by
  have h1 := nuclear_line b vb A
  have h2 := nuclear_line b va B
  have h3 := nonAdditive_line b D.Tk D.vk (A ++ B) nf hnf (hnf ▸ hs.joint.k) (fun x hx => (hs.parts x hx).k)
    (hnf ▸ flip_potential fun hb => (hs.flips hb).k)
  refine ((h1.add h2).add h3).congr_deriv ?_
  change twins ℝ b * lin A (fun _ _ => vb) + twins ℝ b * lin B (fun _ _ => va) +
    twins ℝ b * lin (A ++ B) (fun x j k => D.vk nf j k - D.vk x.n j k) = _
  rw [lin_append, ← mul_add, ← mul_add]
  congr 1
  have e : ∀ (v : G.Fld) (L : List (Move G p)), lin L (fun x j k => v k + (D.vk nf j k - D.vk x.n j k)) = lin L (fun _ _ => v) +
      lin L fun x j k => D.vk nf j k - D.vk x.n j k := fun v L => (lin_add L _ _).symm
  rw [e, e]
  ring

/-- As below, with the derivatives of the overlap functional. -/
theorem overlap_hxc_derivative (D : Theory G p) (T : Env G r c p) (o : PartOpt) (va vb : G.Fld) (a A b B : Move G p)
    (P Q R : ℝ → Part G r c p) (vp : ℝ → G.Cols p) (h : Family D T o va vb [a, A] [b, B] P Q R vp)
    (ho : o.hxc = .overlapHxc) (hs : D.Smooth o.ensSpinSym ([a, A] ++ [b, B])) (hT : RealFunctions T) (hw : ∀ k, 0 ≤ weight G k)
    (na nb : G.Cols p) (hna : na = jointDensity o.ensSpinSym ([a, A].map (Move.to 0)))
    (hnb : nb = jointDensity o.ensSpinSym ([b, B].map (Move.to 0))) (ha : ∀ j k, 0 ≤ na j k) (hb : ∀ j k, 0 ≤ nb j k)
    (hpol : SamePolarisation na nb) (hA : ∀ x ∈ [a, A], ∀ j k, 0 < na j k ∨ x.δ j k = 0)
    (hB : ∀ x ∈ [b, B], ∀ j k, 0 < nb j k ∨ x.δ j k = 0) :
    ∃ (e : ℝ → PartEnergy G p) (Ep : ℝ → ℝ) (VA VB DA DB UA UB : List (G.Cols p)) (E F cor : ℝ),
      (∀ t, (R t).E = some (e t) ∧ (e t).Ep = .num (.fin (Ep t))) ∧
      List.Forall₂ (fun f v => f.v.vp = some v) (Q 0).compsA VA ∧ List.Forall₂ (fun f v => f.v.vp = some v) (Q 0).compsB VB ∧
      List.Forall₂ (fun f v => f.v.dFdn = some v) (Q 0).compsA DA ∧ List.Forall₂ (fun f v => f.v.dFdn = some v) (Q 0).compsB DB ∧
      List.Forall₂ (fun f v => f.v.vhcor = some v) (Q 0).compsA UA ∧ List.Forall₂ (fun f v => f.v.vhcor = some v) (Q 0).compsB UB ∧
      E = nonAdditive o.ensSpinSym (hartreeEnergy D.H) (([a, A] ++ [b, B]).map (Move.to 0)) +
        nonAdditive o.ensSpinSym D.Ex (([a, A] ++ [b, B]).map (Move.to 0)) + nonAdditive o.ensSpinSym D.Ec (([a, A] ++ [b, B]).map (Move.to 0)) ∧
      F = erf (2 * G.integ fun k => √((∑ j, na j k) * ∑ j, nb j k)) ∧
      cor = crossEnergy D.H (a.to 0) (A.to 0) (b.to 0) (B.to 0) ∧
      HasDerivAt Ep (twins ℝ o.ensSpinSym * (work [a, A] VA + work [b, B] VB + E * (slack [a, A] DA + slack [b, B] DB) -
        cor * (excess [a, A] DA + excess [b, B] DB)) +
        (1 - F) * (crossWork D.H a A b B - twins ℝ o.ensSpinSym * (work [a, A] UA + work [b, B] UB))) 0 ∧
      UA = [hartreePotential D.H B.n, hartreePotential D.H b.n] ∧ UB = [hartreePotential D.H A.n, hartreePotential D.H a.n] ∧
      ∃ C, 0 < C ∧ DA = [a, A].map (dOverlap na nb C) ∧ DB = [b, B].map (dOverlap nb na C) := by
  have hab : o.abSym = true := by
    rcases h.ens 0 with h' | h'
    · exact h'
    · rw [fAB_none, (h.compsA 0).length_eq] at h'
      exact absurd h' (by simp)
  have key := fun t => ep_value₂ D (h.opt t ▸ h.computed) (h.nucA t) (h.nucB t) (h.compsA t) (h.compsB t) (h.opt t ▸ h.dft)
    (h.opt t ▸ h.bound) (h.opt t ▸ ho) (h.opt t ▸ hab) (h.sym t hab) (h.potential t) (h.energy t)
  choose e F e1 e3 e4 using key
  obtain ⟨F0, E, S, S', hE, s1, s2, s3, s4, s5, s6, u1, u2, vA, vB⟩ := vp_value₂ D (h.opt 0 ▸ h.computed) (h.nucA 0) (h.nucB 0) (h.compsA 0)
    (h.compsB 0) (h.opt 0 ▸ h.dft) (h.opt 0 ▸ h.bound) (h.opt 0 ▸ ho) (h.opt 0 ▸ hab) (h.sym 0 hab) (h.potential 0)
  have m1 : ∀ t, [a.to t, A.to t] = [a, A].map (Move.to t) := fun t => rfl
  have m2 : ∀ t, [b.to t, B.to t] = [b, B].map (Move.to t) := fun t => rfl
  simp only [h.opt, m1, m2, ← List.map_append] at e3 e4 vA vB hE s1 s2
  rw [← hna] at s1
  rw [← hnb] at s2
  obtain ⟨nf, hnf⟩ : ∃ nf, nf = jointDensity o.ensSpinSym (([a, A] ++ [b, B]).map (Move.to 0)) := ⟨_, rfl⟩
  rw [← hnf] at vA vB
  have z : ∀ x : Move G p, (x.to 0).1 = x.n := fun x => by simp [Move.to]
  obtain ⟨S0, F1, -, c1, hS, -, -, c2, -, -, cA, cB⟩ := C52_overlap T hT S S' s3 na nb s1 s2 hw ha hb
  obtain rfl := Option.some.inj (s4.symm.trans c1)
  obtain ⟨C, hC⟩ : ∃ C, C = deriv (fun S => erf (2 * S)) S0 := ⟨_, rfl⟩
  rw [← hC] at cA cB
  have dA := dOverlap_side₂ s5 cA (vA.imp fun f x hf => hf.1)
  have dB := dOverlap_side₂ s6 cB (vB.imp fun f x hf => hf.1)
  have hpol' : SamePolarisation nb na := fun j k => by
    have := hpol j k
    linear_combination -this
  have hF : ∀ t, F t = erf (2 * G.integ fun k => √((tot na k + t * tot (shift o.ensSpinSym [a, A]) k) *
      (tot nb k + t * tot (shift o.ensSpinSym [b, B]) k))) := by
    intro t
    rw [e3 t, hT.erf, hT.sqrt]
    simp only [tot_to _ _ t]
    rw [hna, hnb]
  have hF0 : F 0 = F0 := by
    rw [hF, c2, hS]
    simp only [zero_mul, add_zero]
    rfl
  have hS' : S0 = G.integ fun k => √(tot na k * tot nb k) := hS
  have dF := overlap_line₂ (tot na) (tot nb) (tot (shift o.ensSpinSym [a, A])) (tot (shift o.ensSpinSym [b, B]))
    (fun k => Finset.sum_nonneg fun j _ => ha j k) (fun k => Finset.sum_nonneg fun j _ => hb j k) (no_density ha hA) (no_density hb hB)
  rw [← hS', ← hC, mul_add, overlap_part _ na nb C [a, A] ha hpol hA, overlap_part _ nb na C [b, B] hb hpol' hB, ← mul_add] at dF
  have base := kin_line D o.ensSpinSym [a, A] [b, B] va vb hs nf hnf
  have xc := xc_line D o.ensSpinSym ([a, A] ++ [b, B]) hs nf hnf
  have har := nonAdditive_line o.ensSpinSym (hartreeEnergy D.H) (hartreePotential D.H) ([a, A] ++ [b, B]) nf hnf
    (hartree_derivative D.H hs.hartree nf) (fun x _ => hartree_derivative D.H hs.hartree x.n) fun _ _ _ => rfl
  have cro := C89_cross_derivative D.H hs.hartree a A b B
  have pick : ∀ {l : List (Frag G r c p)} {x y : Move G p} {v : G.Fld} {d₁ d₂ w₁ w₂ : G.Cols p},
      List.Forall₂ (fun f (x : G.Cols p × ℝ) => f.ks.scale = some x.2 ∧ ∃ d u, f.v.dFdn = some d ∧ f.v.vhcor = some u ∧
        f.v.vp = some (gap₂ D v nf x.1 F0 E (crossEnergy D.H (a.to 0) (A.to 0) (b.to 0) (B.to 0)) u d)) l ([x, y].map (Move.to 0)) →
      List.Forall₂ (fun f v => f.v.dFdn = some v) l [d₁, d₂] → List.Forall₂ (fun f v => f.v.vhcor = some v) l [w₁, w₂] →
      List.Forall₂ (fun f v => f.v.vp = some v) l [gap₂ D v nf x.n F0 E (crossEnergy D.H (a.to 0) (A.to 0) (b.to 0) (B.to 0)) w₁ d₁,
        gap₂ D v nf y.n F0 E (crossEnergy D.H (a.to 0) (A.to 0) (b.to 0) (B.to 0)) w₂ d₂] := by
    intro l x y v d₁ d₂ w₁ w₂ h1 h2 h3
    obtain _ | ⟨⟨-, d, u, p1, p2, p3⟩, _ | ⟨⟨-, d', u', p4, p5, p6⟩, h1⟩⟩ := h1
    cases h1
    obtain _ | ⟨q1, _ | ⟨q2, -⟩⟩ := h2
    obtain _ | ⟨r1, _ | ⟨r2, -⟩⟩ := h3
    obtain rfl := Option.some.inj (p1.symm.trans q1)
    obtain rfl := Option.some.inj (p4.symm.trans q2)
    obtain rfl := Option.some.inj (p2.symm.trans r1)
    obtain rfl := Option.some.inj (p5.symm.trans r2)
    rw [z] at p3 p6
    exact .cons p3 (.cons p6 .nil)
  rw [z, z] at u1 u2
  refine ⟨e, _, _, _, _, _, _, _, E, F0, _, fun t => ⟨e1 t, e4 t⟩, pick vA dA u1, pick vB dB u2, dA, dB, u1, u2, hE, ?_, rfl, ?_, rfl, rfl,
    C, ?_, rfl, rfl⟩
  · rw [c2, hS]
  · have oneF := (hasDerivAt_const (0 : ℝ) (1 : ℝ)).sub dF
    refine ((base.add ((dF.mul (har.add xc)).add (oneF.mul cro))).congr_deriv ?_).congr_of_eventuallyEq (.of_forall fun t => ?_)
    · change twins ℝ o.ensSpinSym * _ + ((twins ℝ o.ensSpinSym * ((([a, A].map fun x => along x (dOverlap na nb C x)).sum) +
        ([b, B].map fun x => along x (dOverlap nb na C x)).sum)) * _ + _ * (twins ℝ o.ensSpinSym * lin _ _ + _) +
        ((0 - twins ℝ o.ensSpinSym * ((([a, A].map fun x => along x (dOverlap na nb C x)).sum) +
        ([b, B].map fun x => along x (dOverlap nb na C x)).sum)) * _ + _ * _)) = _
      have hX : (nonAdditive o.ensSpinSym (hartreeEnergy D.H) (([a, A] ++ [b, B]).map (Move.to 0)) +
        (nonAdditive o.ensSpinSym D.Ex (([a, A] ++ [b, B]).map (Move.to 0)) +
          nonAdditive o.ensSpinSym D.Ec (([a, A] ++ [b, B]).map (Move.to 0)))) = E := by rw [hE]; ring
      simp only [Pi.add_apply, Pi.sub_apply]
      rw [hX, ← hF, hF0]
      have ww : ∀ (x y : Move G p) (v w : G.Cols p), work [x, y] [v, w] = x.s * along x v + y.s * along y w := fun x y v w => by
        simp [work, along]
      have ll : ∀ (x y : Move G p) (w : Move G p → G.Cols p), lin [x, y] w = x.s * along x (w x) + y.s * along y (w y) := fun x y w => by
        simp [lin, along]
      have ss : ∀ (x y : Move G p) (v w : G.Cols p), slack [x, y] [v, w] = (1 - x.s) * along x v + (1 - y.s) * along y w := fun x y v w => by
        simp [slack, along]
      have ee : ∀ (x y : Move G p) (v w : G.Cols p), excess [x, y] [v, w] = (1 + x.s) * along x v + (1 + y.s) * along y w := fun x y v w => by
        simp [excess, along]
      simp only [List.map_cons, List.map_nil, List.sum_cons, List.sum_nil, lin_append, ll, ww, ss, ee, along_gap]
      ring
    · simp only [Pi.add_apply, Pi.mul_apply, Pi.sub_apply]
      rw [hF]
      ring
  · have hd : HasDerivAt (fun S => erf (2 * S)) (2 / √Real.pi * Real.exp (-(2 * S0) ^ 2) * (2 * 1)) S0 :=
      (erf_hasDerivAt (2 * S0)).comp S0 ((hasDerivAt_id S0).const_mul 2)
    rw [hC, hd.deriv]
    have := Real.pi_pos
    positivity

/-- C89 for `hxc_part_type` 'overlap_hxc' and equally polarised fragments: the derivative of `Ep` along the moving components is
the work of the potentials plus the non-additive energy times `∑ (1 - s) ∫ dFdn δ`, minus the correlated Hartree energy times
`∑ (1 + s) ∫ dFdn δ` (the code adds `Ehcor * dFdn` where the derivative of `(1 - F) Ehcor` subtracts it), plus `1 - F` times the
difference between the derivative of the correlated Hartree energy and the work of `vhcor`.  If partners have the same weight and
`ens_spin_sym` is off, this difference vanishes and the potentials are the derivatives exactly when the other two terms cancel. -/
theorem C89_overlap_partial (D : Theory G p) (T : Env G r c p) (o : PartOpt) (va vb : G.Fld) (a A b B : Move G p)
    (P Q R : ℝ → Part G r c p) (vp : ℝ → G.Cols p) (h : Family D T o va vb [a, A] [b, B] P Q R vp)
    (ho : o.hxc = .overlapHxc) (hs : D.Smooth o.ensSpinSym ([a, A] ++ [b, B])) (hT : RealFunctions T) (hw : ∀ k, 0 ≤ weight G k)
    (na nb : G.Cols p) (hna : na = jointDensity o.ensSpinSym ([a, A].map (Move.to 0)))
    (hnb : nb = jointDensity o.ensSpinSym ([b, B].map (Move.to 0))) (ha : ∀ j k, 0 ≤ na j k) (hb : ∀ j k, 0 ≤ nb j k)
    (hpol : SamePolarisation na nb) (hA : ∀ x ∈ [a, A], ∀ j k, 0 < na j k ∨ x.δ j k = 0)
    (hB : ∀ x ∈ [b, B], ∀ j k, 0 < nb j k ∨ x.δ j k = 0) :
    ∃ (e : ℝ → PartEnergy G p) (Ep : ℝ → ℝ) (VA VB DA DB UA UB : List (G.Cols p)) (E F cor : ℝ),
      (∀ t, (R t).E = some (e t) ∧ (e t).Ep = .num (.fin (Ep t))) ∧
      List.Forall₂ (fun f v => f.v.vp = some v) (Q 0).compsA VA ∧ List.Forall₂ (fun f v => f.v.vp = some v) (Q 0).compsB VB ∧
      List.Forall₂ (fun f v => f.v.dFdn = some v) (Q 0).compsA DA ∧ List.Forall₂ (fun f v => f.v.dFdn = some v) (Q 0).compsB DB ∧
      List.Forall₂ (fun f v => f.v.vhcor = some v) (Q 0).compsA UA ∧ List.Forall₂ (fun f v => f.v.vhcor = some v) (Q 0).compsB UB ∧
      E = nonAdditive o.ensSpinSym (hartreeEnergy D.H) (([a, A] ++ [b, B]).map (Move.to 0)) +
        nonAdditive o.ensSpinSym D.Ex (([a, A] ++ [b, B]).map (Move.to 0)) + nonAdditive o.ensSpinSym D.Ec (([a, A] ++ [b, B]).map (Move.to 0)) ∧
      F = erf (2 * G.integ fun k => √((∑ j, na j k) * ∑ j, nb j k)) ∧
      cor = crossEnergy D.H (a.to 0) (A.to 0) (b.to 0) (B.to 0) ∧
      HasDerivAt Ep (twins ℝ o.ensSpinSym * (work [a, A] VA + work [b, B] VB + E * (slack [a, A] DA + slack [b, B] DB) -
        cor * (excess [a, A] DA + excess [b, B] DB)) +
        (1 - F) * (crossWork D.H a A b B - twins ℝ o.ensSpinSym * (work [a, A] UA + work [b, B] UB))) 0 ∧
      (o.ensSpinSym = false → a.s = B.s → A.s = b.s →
        HasDerivAt Ep (work [a, A] VA + work [b, B] VB + E * (slack [a, A] DA + slack [b, B] DB) -
          cor * (excess [a, A] DA + excess [b, B] DB)) 0 ∧
        (HasDerivAt Ep (work [a, A] VA + work [b, B] VB) 0 ↔
          E * (slack [a, A] DA + slack [b, B] DB) = cor * (excess [a, A] DA + excess [b, B] DB))) := by
  obtain ⟨e, Ep, VA, VB, DA, DB, UA, UB, E, F, cor, h1, h2, h3, h4, h5, h6, h7, h8, h9, h10, h11, rfl, rfl, -⟩ :=
    overlap_hxc_derivative D T o va vb a A b B P Q R vp h ho hs hT hw na nb hna hnb ha hb hpol hA hB
  refine ⟨e, Ep, VA, VB, DA, DB, _, _, E, F, cor, h1, h2, h3, h4, h5, h6, h7, h8, h9, h10, h11, fun q1 q2 q3 => ?_⟩
  have hc : crossWork D.H a A b B - twins ℝ o.ensSpinSym * (work [a, A] [hartreePotential D.H B.n, hartreePotential D.H b.n] +
      work [b, B] [hartreePotential D.H A.n, hartreePotential D.H a.n]) = 0 := by
    simp only [crossWork, work, List.zipWith_cons_cons, List.zipWith_nil_right, List.sum_cons, List.sum_nil, q1, twins, q2, q3,
      Bool.false_eq_true, if_false]
    ring
  have t1 : twins ℝ o.ensSpinSym = 1 := by rw [q1]; simp [twins]
  rw [hc, mul_zero, add_zero, t1, one_mul] at h11
  refine ⟨h11, fun h' => ?_, fun h0 => ?_⟩
  · have := h11.unique h'
    linear_combination this
  · rw [h0, add_sub_cancel_right] at h11
    exact h11

/-! ## An ensemble -/

def corFrag (n vh s : ℚ) : Frag (Grid.tiny ℚ) 0 0 1 :=
  ⟨{ kind := .dft, sym := false, Za := 0, Zb := 0, a := 1, solver := fun w => w.1.elim0, vnuc := fun _ _ => 0, n := some fun _ _ => n,
     scale := some s, V := ⟨none, none, some fun _ _ => vh, none, none, none⟩ }, {}⟩

noncomputable def toyPart₂ (t : ℝ) : Part (Grid.tiny ℝ) 0 0 1 :=
  let f := toyFrag (fun _ _ => 1 + t * 1) (1 / 4)
  Part.sample { kin := .none, hxc := .overlapHxc, abSym := true } f f (some (f, f))

noncomputable def toyMove : Move (Grid.tiny ℝ) 1 := ⟨fun _ _ => 1, 1 / 4, fun _ _ => 1⟩

theorem toy_family₂ : ∃ (Q R : ℝ → Part (Grid.tiny ℝ) 0 0 1) (vp : ℝ → (Grid.tiny ℝ).Cols 1),
    Family toyTheory toyEnv { kin := .none, hxc := .overlapHxc, abSym := true } (fun _ => 0) (fun _ => 0) [toyMove, toyMove]
      [toyMove, toyMove] toyPart₂ Q R vp := by
  have hr : ∀ t, ∃ (Q R : Part (Grid.tiny ℝ) 0 0 1) (vp : (Grid.tiny ℝ).Cols 1),
      (do let P ← (toyPart₂ t).calcProtomolecule; let P ← P.calcQ; P.partitionPotential toyEnv) = .ok (Q, vp) ∧
      Q.energy toyEnv = .ok R := by
    intro t
    have : ∃ x, (do
        let P ← (toyPart₂ t).calcProtomolecule
        let P ← P.calcQ
        let Q ← P.partitionPotential toyEnv
        let R ← Q.1.energy toyEnv
        pure (Q, R) : Py _) = .ok x := ⟨_, rfl⟩
    obtain ⟨x, hx⟩ := this
    simp only [Py.do_eq_ok, Py.pure_eq_ok] at hx ⊢
    obtain ⟨P₁, h1, P₂, h2, Q, h3, R, h4, rfl⟩ := hx
    exact ⟨Q.1, R, Q.2, ⟨P₁, h1, P₂, h2, h3⟩, h4⟩
  choose Q R vp h1 h2 using hr
  have hsol : ∀ t, Solved (r := 0) (c := 0) toyTheory (fun _ => 0) (toyFrag (fun _ _ => 1 + t * 1) (1 / 4)) (Move.to t toyMove) :=
    fun t => ⟨rfl, rfl, fun _ _ => rfl, rfl, rfl, rfl, _, 0, 0, 0, fun _ => 0, rfl, rfl, rfl, fun _ => rfl, rfl, rfl, rfl, rfl⟩
  refine ⟨Q, R, vp, ⟨⟨?_, fun n => rfl, ?_⟩, rfl, rfl, fun t => rfl, fun t => rfl, fun t => rfl, fun t => ?_, fun t => ?_, fun t => ?_,
    fun t _ => ?_, h1, h2⟩⟩
  · exact ⟨fun n => ⟨_, rfl⟩, fun n => ⟨_, rfl⟩, fun n => rfl⟩
  · exact .inl ⟨rfl, fun _ => rfl, fun _ _ _ => rfl⟩
  · exact .cons (hsol t) (.cons (hsol t) .nil)
  · exact .cons (hsol t) (.cons (hsol t) .nil)
  · exact .inl rfl
  · exact .cons ⟨rfl, rfl, rfl, rfl⟩ (.cons ⟨rfl, rfl, rfl, rfl⟩ .nil)

/-- Four components of density 1 and weight 1/4: the non-additive energy is 0, the correlated Hartree energy is 1, and the
potentials of 'overlap_hxc' are not the derivatives of `Ep`. -/
theorem C89_overlap_refuted : ∃ (o : PartOpt) (x : Move (Grid.tiny ℝ) 1) (P Q R : ℝ → Part (Grid.tiny ℝ) 0 0 1)
    (vp : ℝ → (Grid.tiny ℝ).Cols 1), o.hxc = .overlapHxc ∧ o.ensSpinSym = false ∧ RealFunctions toyEnv ∧
    toyTheory.Smooth o.ensSpinSym ([x, x] ++ [x, x]) ∧ Family toyTheory toyEnv o (fun _ => 0) (fun _ => 0) [x, x] [x, x] P Q R vp ∧
    x.s = 1 / 4 ∧ (∀ j k, x.n j k = 1 ∧ x.δ j k = 1) ∧
    ∃ (e : ℝ → PartEnergy (Grid.tiny ℝ) 1) (Ep : ℝ → ℝ) (VA VB : List ((Grid.tiny ℝ).Cols 1)),
      (∀ t, (R t).E = some (e t) ∧ (e t).Ep = .num (.fin (Ep t))) ∧
      List.Forall₂ (fun f v => f.v.vp = some v) (Q 0).compsA VA ∧ List.Forall₂ (fun f v => f.v.vp = some v) (Q 0).compsB VB ∧
      DifferentiableAt ℝ Ep 0 ∧ ¬ HasDerivAt Ep (work [x, x] VA + work [x, x] VB) 0 := by
  obtain ⟨Q, R, vp, hf⟩ := toy_family₂
  have hT : RealFunctions toyEnv := ⟨rfl, rfl, rfl⟩
  obtain ⟨x, hx⟩ : ∃ x, x = toyMove := ⟨_, rfl⟩
  rw [← hx] at hf
  have hs : x.s = 1 / 4 := by rw [hx]; rfl
  have hn : ∀ j k, x.n j k = 1 ∧ x.δ j k = 1 := fun j k => by rw [hx]; exact ⟨rfl, rfl⟩
  obtain ⟨na, hna⟩ : ∃ na, na = jointDensity false ([x, x].map (Move.to 0)) := ⟨_, rfl⟩
  have h1 : ∀ j k, na j k = 1 / 2 := fun j k => by
    rw [hna]
    simp only [jointDensity, addFlip, Bool.false_eq_true, if_false, Spec.average, List.map_cons, List.map_nil, Move.to,
      zero_mul, add_zero, List.sum_cons, List.sum_nil, hn, hs]
    norm_num
  have hpol : SamePolarisation na na := fun j k => by rw [mul_comm]
  have hpos : ∀ y ∈ [x, x], ∀ j k, 0 < na j k ∨ y.δ j k = 0 := fun y _ j k => .inl (by rw [h1]; norm_num)
  have hz : ∀ j k, 0 ≤ na j k := fun j k => by rw [h1]; norm_num
  obtain ⟨e, Ep, VA, VB, DA, DB, UA, UB, E, F, cor, g1, g2, g3, -, -, -, -, g4, -, g5, g6, rfl, rfl, C, hC, rfl, rfl⟩ :=
    overlap_hxc_derivative _ _ _ _ _ x x x x _ Q R vp hf rfl (toy_theory _) hT (fun k => by rw [toy_weight]; exact zero_le_one) na na
      hna hna hz hz hpol hpos hpos
  refine ⟨_, x, _, Q, R, vp, rfl, rfl, hT, toy_theory _, hf, hs, hn, e, Ep, VA, VB, g1, g2, g3, g6.differentiableAt, fun hbad => ?_⟩
  have h0 := g6.unique hbad
  have hE : E = 0 := by
    have hj : ∀ j k, jointDensity false (([x, x] ++ [x, x]).map (Move.to 0)) j k = 1 := fun j k => by
      simp only [jointDensity, addFlip, Bool.false_eq_true, if_false, Spec.average, List.cons_append, List.nil_append, List.map_cons,
        List.map_nil, Move.to, zero_mul, add_zero, List.sum_cons, List.sum_nil, hn, hs]
      norm_num
    rw [g4]
    change nonAdditive false _ _ + nonAdditive false _ _ + nonAdditive false _ _ = 0
    simp only [nonAdditive, toyTheory, hj, hartreeEnergy, LinearMap.id_apply, Fin.sum_univ_one]
    simp only [Grid.tiny_integ, Move.to, List.map_cons, List.map_nil, List.cons_append, zero_mul, add_zero, hn, hs,
      List.nil_append, List.sum_cons, List.sum_nil, twins]
    norm_num
  have hcor : cor = 1 := by
    rw [g5]
    simp only [crossEnergy, cross, toyTheory, LinearMap.id_apply, Move.to, hn, hs, Grid.tiny_integ, Fin.sum_univ_one]
    norm_num
  have hex : excess [x, x] ([x, x].map (dOverlap na na C)) = 5 / 8 * C := by
    simp only [excess, dOverlap, h1, hs, hn, List.map_cons, List.map_nil, List.zipWith_cons_cons, List.zipWith_nil_right,
      List.sum_cons, List.sum_nil, Fin.sum_univ_one, Grid.tiny_integ]
    norm_num
    ring
  have hcw : crossWork toyTheory.H x x x x - (work [x, x] [hartreePotential toyTheory.H x.n, hartreePotential toyTheory.H x.n] +
      work [x, x] [hartreePotential toyTheory.H x.n, hartreePotential toyTheory.H x.n]) = 0 := by
    simp only [crossWork, work, List.zipWith_cons_cons, List.zipWith_nil_right, List.sum_cons, List.sum_nil]
    ring
  have t1 : twins ℝ ({ kin := .none, hxc := .overlapHxc, abSym := true } : PartOpt).ensSpinSym = 1 := by simp [twins]
  rw [t1, hE, hcor, hex, one_mul, one_mul, one_mul, hcw] at h0
  linarith

/-- The components `a`, `A`, `b`, `B` with densities 1, 2, 3, 4, Hartree potentials 10, 20, 30, 40 and weights 1/2, 1/3, 1/4, 1/5. -/
example : ∃ P' : Part (Grid.tiny ℚ) 0 0 1,
    (Part.sample {} (corFrag 1 10 (1 / 2)) (corFrag 3 30 (1 / 4)) (some (corFrag 2 20 (1 / 3), corFrag 4 40 (1 / 5)))).ensCorHar = .ok P' ∧
      P'.Ehcor = some (20 + 20 + 15 + 8) ∧ (P'.fa.v.vhcor.map fun u => u 0 0) = some 40 := ⟨_, rfl, by decide +kernel, by decide +kernel⟩

end

end Verif
