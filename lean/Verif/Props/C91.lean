import Verif.Lemmas.PartitionDerivative
import Verif.Lemmas.PartitionScfSample
import Verif.Props.C40
import Verif.Props.C84

/-! # C91: the potential in which the fragments move -/

namespace Verif
open Spec Part PartScf
variable {K : Type} [Field K] [LinearOrder K] [IsStrictOrderedRing K] [FloorRing K]
variable {G : Grid K} {r c p : ℕ}

/-- `v` is the Hartree plus exchange plus correlation potential of the density `n`. -/
def Spec.HxcPotential (F : Functionals G p) (n v : G.Cols p) : Prop :=
  ∃ (vh vx vc : G.Cols p) (Ex Ec : K) (ex ec : G.Fld), F.hartree n = .ok vh ∧ F.exchange n = .ok (Ex, ex, vx) ∧
    F.correlation n = .ok (Ec, ec, vc) ∧ ∀ j k, v j k = vh j k + vx j k + vc j k

/-- The component has the effective potential `u`, and so has every solver in its spin column. -/
def Spec.MovesIn (hc : c ≤ p) (f : Frag G r c p) (u : G.Cols p) : Prop :=
  f.ks.veff = some u ∧ ∀ i j, (f.ks.solver (i, j)).veff = some (u ⟨j.1, by omega⟩)

namespace KS

/-- Same potentials. -/
def SameVeff (a b : KS G r c p) : Prop := b.veff = a.veff ∧ ∀ w, (b.solver w).veff = (a.solver w).veff

theorem calcDensity_veff {d : Fin r × Fin c → Option (Found G)} {a b : KS G r c p} {n : G.Cols p}
    (h : a.calcDensity d = .ok (b, n)) : SameVeff a b := by
  unfold calcDensity at h
  simp only [Py.do_eq_ok, Py.pure_eq_ok] at h
  obtain ⟨s, hs, _, _, h⟩ := h
  obtain ⟨rfl, -⟩ := Prod.mk.inj h
  refine ⟨rfl, ?_⟩
  unfold collect at hs
  refine mapSolvers_inv (fun w x => x.veff = (a.solver w).veff) _ _ ?_ _ _ hs fun _ => rfl
  intro w x x' hx hp
  split at hx
  · exact nomatch hx
  · obtain rfl := Except.ok.inj hx
    exact hp

theorem calcChempot_veff {a b : KS G r c p} (h : a.calcChempot = .ok b) : SameVeff a b := by
  unfold calcChempot at h
  simp only [Py.do_eq_ok, Py.pure_eq_ok] at h
  obtain ⟨_, _, _, _, rfl⟩ := h
  exact ⟨rfl, fun _ => rfl⟩

theorem energy_veff {F : Functionals G p} {a b : KS G r c p} (h : a.energy F = .ok b) : SameVeff a b := by
  unfold energy at h
  rw [Py.do_eq_ok] at h
  obtain ⟨⟨_, _, _, _⟩, -, h⟩ := h
  cases hk : a.kind with
  | ni =>
    rw [hk] at h
    simp only [Py.do_eq_ok, Py.pure_eq_ok] at h
    obtain ⟨_, _, _, _, rfl⟩ := h
    exact ⟨rfl, fun _ => rfl⟩
  | dft =>
    rw [hk] at h
    simp only [Py.do_eq_ok, Py.pure_eq_ok] at h
    obtain ⟨_, _, _, _, _, _, _, _, _, _, ⟨_, _, _⟩, _, ⟨_, _, _⟩, _, rfl⟩ := h
    exact ⟨rfl, fun _ => rfl⟩

end KS

namespace PartScf

/-- The effective potential of a component after a pass. -/
theorem fragment_veff {F : Functionals G p} {W : KsScf.Workers G r c p} {o : Options K} {dif : Fl K} {vp : G.Cols p}
    {f g : Frag G r c p} (h : fragment F W o dif vp f = .ok g) (hc : c ≤ p) :
    ∃ vext vhxc : G.Cols p, g.ks.vext = some vext ∧ f.ks.vhxc = some vhxc ∧
      MovesIn hc g fun j k => f.ks.vnuc j k + vext j k + vhxc j k := by
  unfold fragment at h
  simp only [Py.do_eq_ok, Py.pure_eq_ok] at h
  obtain ⟨f₁, h1, k₂, h2, ⟨k₃, nout⟩, h3, k₄, h4, al, -, n, -, k₅, h5, rfl⟩ := h
  have e1 : f₁.ks.vhxc = f.ks.vhxc ∧ f₁.ks.vnuc = f.ks.vnuc := by
    unfold external at h1
    split at h1
    · obtain rfl := Except.ok.inj h1
      exact ⟨rfl, rfl⟩
    · split at h1
      · obtain rfl := Except.ok.inj h1
        exact ⟨rfl, rfl⟩
      · simp only [Py.do_eq_ok, Py.pure_eq_ok] at h1
        obtain ⟨v, -, rfl⟩ := h1
        exact ⟨rfl, rfl⟩
  have a2 := KS.setEffectivePotential_ext h2
  have a3 := (KS.calcDensity_ext h3).1
  have a4 := KS.calcChempot_ext h4
  have a5 := KS.energy_ext h5
  have v3 := KS.calcDensity_veff h3
  have v4 := KS.calcChempot_veff h4
  have v5 := KS.energy_veff h5
  unfold KS.setEffectivePotential at h2
  simp only [Py.do_eq_ok, Py.pure_eq_ok] at h2
  obtain ⟨vext, hx, vhxc, hv, s, hs, rfl⟩ := h2
  rw [KS.distribute_ok _ hc] at hs
  obtain rfl := Except.ok.inj hs
  refine ⟨vext, vhxc, ?_, ?_, ?_, fun i j => ?_⟩
  · exact a5.vext.trans (a4.vext.trans (a3.vext.trans (need_eq_ok.mp hx)))
  · rw [← e1.1]; exact need_eq_ok.mp hv
  · rw [v5.1]
    change k₄.veff = _
    rw [v4.1, v3.1, ← e1.2]
  · rw [v5.2]
    change (k₄.solver _).veff = _
    rw [v4.2, v3.2, ← e1.2]

/-- One component through a pass: hxc potential, partition potential (`z` has the Kohn-Sham state of `y`), new
orbitals, `Q`, energies. -/
theorem step_veff {F : Functionals G p} {W : KsScf.Workers G r c p} {o : Options K} {dif : Fl K} {vp : G.Cols p}
    {f y z w q g : Frag G r c p} (hc : c ≤ p) (h1 : hxcUpdate F f = .ok y)
    (h3 : z.ks = y.ks ∧ z.v.frozen = y.v.frozen) (h4 : fragment F W o dif vp z = .ok w) (h6 : NewQ w q)
    (h7 : g.ks = q.ks) (hk : f.ks.kind = .dft) (hs : f.ks.sym = false) (hf : f.v.frozen ≠ some true) :
    z.ks.n = f.ks.n ∧ z.ks.vnuc = f.ks.vnuc ∧ z.ks.Q = f.ks.Q ∧ ∃ n vh vx vc vext : G.Cols p, f.ks.n = some n ∧
      z.ks.V.vh = some vh ∧ z.ks.V.vx = some vx ∧ z.ks.V.vc = some vc ∧
      HxcPotential F n (fun j k => vh j k + vx j k + vc j k) ∧
      (match o.calcType with | .pdft => some vp | .sdft => z.v.vp) = some vext ∧
      MovesIn hc g fun j k => f.ks.vnuc j k + vext j k + (vh j k + vx j k + vc j k) := by
  obtain ⟨g1, g2⟩ := hxcUpdate_inv h1
  obtain ⟨vext, vhxc, e1, e2, e3⟩ := fragment_veff h4 hc
  obtain ⟨-, -, hv⟩ := fragment_inv h4
  have hfz : z.v.frozen ≠ some true := by rw [h3.2, g1]; exact hf
  have hve := (hv hfz).symm.trans e1
  unfold hxcUpdate at h1
  simp only [Py.do_eq_ok, Py.pure_eq_ok] at h1
  obtain ⟨k, h1, _, _, rfl⟩ := h1
  have hvn : z.ks.vnuc = f.ks.vnuc := by rw [h3.1]; exact g2.vnuc
  unfold KS.calcHxc KS.rawHxc at h1
  rw [hk] at h1
  simp only [Py.do_eq_ok, Py.pure_eq_ok] at h1
  obtain ⟨m, ⟨n, hn, ⟨Ex, ex, vx⟩, hx, ⟨Ec, ec, vc⟩, hcc, vh, hh, rfl⟩, v, hv', rfl⟩ := h1
  simp only [hs, Bool.false_eq_true, if_false] at h3
  have hmove : MovesIn hc g fun j k => f.ks.vnuc j k + vext j k + (vh j k + vx j k + vc j k) := by
    have : MovesIn hc g fun j k => z.ks.vnuc j k + vext j k + vhxc j k := by
      unfold MovesIn
      rw [h7, h6.1]
      exact e3
    convert this using 5 with j k
    · rw [hvn]
    · rw [h3.1] at e2
      have := congrFun (congrFun (Option.some.inj e2) j) k
      rw [← this]; ring
  have hz := h3.1
  refine ⟨by rw [hz], hvn, by rw [hz], n, vh, vx, vc, vext, need_eq_ok.mp hn, by rw [hz], by rw [hz], by rw [hz],
    ⟨vh, vx, vc, Ex, Ec, ex, ec, hh, hx, hcc, fun _ _ => rfl⟩, hve, hmove⟩

theorem forall₂_and_right {α β : Type*} {R : α → β → Prop} {l : List α} {m : List β} (h : List.Forall₂ R l m) :
    List.Forall₂ (fun a b => R a b ∧ b ∈ m) l m := by
  induction h with
  | nil => exact .nil
  | cons e _ ih =>
    exact .cons ⟨e, List.mem_cons_self ..⟩ (ih.imp fun a b h => ⟨h.1, List.mem_cons_of_mem _ h.2⟩)

/-- A component `f` before and `g` after a pass, and `z` between, after `partition_potential`. -/
def Through (hc : c ≤ p) (F : Functionals G p) (o : Options K) (vp : G.Cols p) (f z g : Frag G r c p) : Prop :=
  f.ks.kind = .dft → f.ks.sym = false → f.v.frozen ≠ some true →
    z.ks.n = f.ks.n ∧ z.ks.vnuc = f.ks.vnuc ∧ z.ks.Q = f.ks.Q ∧ ∃ n vh vx vc vext : G.Cols p, f.ks.n = some n ∧
      z.ks.V.vh = some vh ∧ z.ks.V.vx = some vx ∧ z.ks.V.vc = some vc ∧
      HxcPotential F n (fun j k => vh j k + vx j k + vc j k) ∧
      (match o.calcType with | .pdft => some vp | .sdft => z.v.vp) = some vext ∧
      MovesIn hc g fun j k => f.ks.vnuc j k + vext j k + (vh j k + vx j k + vc j k)

theorem pass_through {T : Env G r c p} {W : KsScf.Workers G r c p} {o : Options K} {dif : Fl K} {P P' : Part G r c p}
    (hc : c ≤ p) (h : pass T W o dif P = .ok P') (hi : P.opt.isolated = false) :
    ∃ (P₂ P₃ : Part G r c p) (vp : G.Cols p), P₂.partitionPotential T = .ok (P₃, vp) ∧ P₂.opt = P.opt ∧
      P₂.va = P.va ∧ P₂.vb = P.vb ∧ P₂.nf = P.nf ∧
      List.Forall₂ (fun f g => ∃ z ∈ P₃.compsA, Through hc T.toFunctionals o vp f z g) P.compsA P'.compsA ∧
      (P.opt.abSym = false → ∃ Z : List (Frag G r c p × Frag G r c p), P₃.comps = Z.map Prod.fst ∧
        P'.comps = Z.map Prod.snd ∧
        List.Forall₂ (fun f x => Through hc T.toFunctionals o vp f x.1 x.2) P.comps Z) := by
  obtain ⟨P₁, P₂, P₃, P₄, P₅, P₆, vp, h1, h2, h3, h4, h5, h6, h7, o1, o2, o3, o4, o5, o6, o7⟩ := pass_inv h
  have hi2 : P₂.opt.isolated = false := by rw [o2.1]; exact hi
  have h3' := h3
  unfold potential at h3'
  rw [hi2, if_neg (by decide)] at h3'
  have fr := potential_inv h3
  have fe := energy_frame h7
  obtain ⟨a1, a2, a3, a4⟩ := onKSab_inv h1
  obtain ⟨b1, b2, b3, b4⟩ := mirrorIf_inv h2
  obtain ⟨c1, c2, c3, c4⟩ := onKSab_inv h4
  obtain ⟨d1, d2, d3, d4⟩ := mirrorIf_inv h5
  obtain ⟨-, -, -, -, -, q3, q4⟩ := promolecule_inv h6
  -- a chain for one list of components
  have chain : ∀ {l l1 l3 l4 l6 l' : List (Frag G r c p)},
      List.Forall₂ (fun x y => hxcUpdate T.toFunctionals x = .ok y) l l1 →
      List.Forall₂ (fun f g => g.ks = f.ks ∧ g.v.frozen = f.v.frozen) l1 l3 →
      List.Forall₂ (fun x y => fragment T.toFunctionals W o dif vp x = .ok y) l3 l4 →
      List.Forall₂ NewQ l4 l6 → List.Forall₂ (fun f g => g.ks = f.ks ∧ g.v.frozen = f.v.frozen) l6 l' →
      ∃ Z : List (Frag G r c p × Frag G r c p), l3 = Z.map Prod.fst ∧ l' = Z.map Prod.snd ∧
        List.Forall₂ (fun f x => Through hc T.toFunctionals o vp f x.1 x.2) l Z := by
    intro l l1 l3 l4 l6 l' e1 e2 e3 e4 e5
    induction e1 generalizing l3 l4 l6 l' with
    | nil => cases e2; cases e3; cases e4; cases e5; exact ⟨[], rfl, rfl, .nil⟩
    | cons u1 _ ih =>
      cases e2 with
      | @cons _ z _ _ u2 v2 =>
        cases e3 with
        | cons u3 v3 =>
          cases e4 with
          | cons u4 v4 =>
            cases e5 with
            | @cons _ g _ _ u5 v5 =>
              obtain ⟨Z, z1, z2, z3⟩ := ih v2 v3 v4 v5
              exact ⟨(z, g) :: Z, by rw [List.map_cons, z1], by rw [List.map_cons, z2],
                .cons (fun k1 k2 k3 => step_veff hc u1 u2 u3 u4 u5.1 k1 k2 k3) z3⟩
  obtain ⟨ZA, zA1, zA2, zA3⟩ := chain a2 (b2 ▸ fr.ksA) c2 (d2 ▸ q3) fe.ksA
  refine ⟨P₂, P₃, vp, h3', o2.1, ?_, ?_, ?_, ?_, fun hs => ?_⟩
  · obtain ⟨_, _, _, e⟩ := a1; obtain ⟨_, _, _, e'⟩ := b1; rw [e', e]
  · obtain ⟨_, _, _, e⟩ := a1; obtain ⟨_, _, _, e'⟩ := b1; rw [e', e]
  · obtain ⟨_, _, _, e⟩ := a1; obtain ⟨_, _, _, e'⟩ := b1; rw [e', e]
  · rw [zA1, zA2, List.forall₂_map_right_iff]
    exact (forall₂_and_right zA3).imp fun f x h => ⟨x.1, List.mem_map.mpr ⟨x, h.2, rfl⟩, h.1⟩
  · have hs1 : P₁.opt.abSym = false := by rw [o1.1]; exact hs
    have hs3 : P₃.opt.abSym = false := by rw [o3.1]; exact hs
    have hs4 : P₄.opt.abSym = false := by rw [o4.1]; exact hs
    have eB := fr.ksB
    rw [b3 hs1] at eB
    have eQ := q4
    rw [d3 hs4] at eQ
    obtain ⟨ZB, zB1, zB2, zB3⟩ := chain (a4 hs) eB (c4 hs3) eQ fe.ksB
    refine ⟨ZA ++ ZB, ?_, ?_, List.rel_append zA3 zB3⟩
    · rw [List.map_append, ← zA1, ← zB1]; rfl
    · rw [List.map_append, ← zA2, ← zB2]; rfl

end PartScf

/-- C91, 'sdft': in every pass every component of fragment A that is not frozen, and of fragment B if it is
calculated (no `ab_sym`), moves in the Kohn-Sham potential of the molecule at the promolecular density, plus the
difference of the kinetic potentials `vk` of the promolecular density and its own density (the embedding potential of
subsystem density functional theory; no difference without a kinetic part). -/
theorem C91_sdft (T : Env G r c p) (W : KsScf.Workers G r c p) (o : Options K) (dif : Fl K) (P P' : Part G r c p)
    (hc : c ≤ p) (h : pass T W o dif P = .ok P') (ht : o.calcType = .sdft) (hd : P.opt.interaction = .dft)
    (hi : P.opt.isolated = false) (hx : P.opt.hxc = .exact) (Tk : G.Cols p → K) (vk : G.Cols p → G.Cols p)
    (hkin : KineticLaw T P.opt.kin Tk vk) (nf : G.Cols p) (hnf : P.nf = some nf)
    (hcomp : ∀ f ∈ P.comps, f.ks.kind = .dft ∧ f.ks.sym = false ∧ f.v.frozen ≠ some true) :
    ∃ v, HxcPotential T.toFunctionals nf v ∧
      List.Forall₂ (fun f g => ∃ n, f.ks.n = some n ∧
        MovesIn hc g fun j k => P.va k + P.vb k + v j k + (vk nf j k - vk n j k)) P.compsA P'.compsA ∧
      (P.opt.abSym = false → List.Forall₂ (fun f g => ∃ n, f.ks.n = some n ∧
        MovesIn hc g fun j k => P.va k + P.vb k + v j k + (vk nf j k - vk n j k)) P.compsB P'.compsB) := by
  obtain ⟨P₂, P₃, vp, h1, h2, h3, h4, h5, h6, h7⟩ := pass_through hc h hi
  obtain ⟨-, mh, mx, mc, ex, ec, F, Ex, Ec, eX, eC, m1, m2, m3, -, m4⟩ := potential_parts h1 (by rw [h2]; exact hd)
    (by rw [h2]; exact hi) (by rw [h2]; exact .inl hx) (by rw [h2]; exact hkin) (h5.trans hnf)
  have key : ∀ f z g : Frag G r c p, f ∈ P.comps → z ∈ P₃.comps → Through hc T.toFunctionals o vp f z g →
      ∃ n, f.ks.n = some n ∧
        MovesIn hc g fun j k => P.va k + P.vb k + (mh j k + mx j k + mc j k) + (vk nf j k - vk n j k) := by
    intro f z g hf hz hthr
    obtain ⟨k1, k2, k3⟩ := hcomp f hf
    obtain ⟨t1, t2, -, n, vh, vx, vc, vext, t3, t4, t5, t6, t7, t8, t9⟩ := hthr k1 k2 k3
    obtain ⟨-, d, fh, fx, fc, w, u1, u2, u3, -, u4, u5⟩ := m4 z hz n (t1.trans t3)
    rw [ht] at t8
    obtain rfl := Option.some.inj (t4.symm.trans u1)
    obtain rfl := Option.some.inj (t5.symm.trans u2)
    obtain rfl := Option.some.inj (t6.symm.trans u3)
    have e := Option.some.inj (u5.symm.trans t8)
    refine ⟨n, t3, ?_⟩
    have e' : (fun j k => P.va k + P.vb k + (mh j k + mx j k + mc j k) + (vk nf j k - vk n j k) : G.Cols p) =
        fun j k => f.ks.vnuc j k + vext j k + (vh j k + vx j k + vc j k) := by
      funext j k
      have u := (u4 j k).1 (by rw [h2]; exact hx)
      rw [← e, ← t2, ← h3, ← h4]
      beta_reduce
      rw [u]
      ring
    rw [e']
    exact t9
  refine ⟨fun j k => mh j k + mx j k + mc j k, ⟨mh, mx, mc, ex, ec, eX, eC, m1, m2, m3, fun _ _ => rfl⟩, ?_, fun hs => ?_⟩
  · exact (PartScf.forall₂_and_right (List.Forall₂.flip (PartScf.forall₂_and_right (List.Forall₂.flip h6)))).imp
      fun f g h => by
        obtain ⟨⟨⟨z, hz, hthr⟩, hf⟩, -⟩ := h
        exact key f z g (List.mem_append_left _ hf) (List.mem_append_left _ hz) hthr
  · obtain ⟨Z, z1, z2, z3⟩ := h7 hs
    have : List.Forall₂ (fun f g => ∃ n, f.ks.n = some n ∧
        MovesIn hc g fun j k => P.va k + P.vb k + (mh j k + mx j k + mc j k) + (vk nf j k - vk n j k)) P.comps P'.comps := by
      rw [z2, List.forall₂_map_right_iff]
      exact (PartScf.forall₂_and_right (List.Forall₂.flip (PartScf.forall₂_and_right (List.Forall₂.flip z3)))).imp
        fun f x h => key f x.1 x.2 h.1.2 (by rw [z1]; exact List.mem_map.mpr ⟨x, h.2, rfl⟩) h.1.1
    have hl : P.compsA.length = P'.compsA.length := h6.length_eq
    have := (List.forall₂_drop P.compsA.length this)
    simpa [Part.comps, hl] using this

/-- What `C91_pdft` says of one component: weight `Q`, potential, density. -/
structure Spec.Embedded (F : Functionals G p) (vp : G.Cols p) (f : Frag G r c p) (d : G.Cols p × G.Cols p × G.Cols p) :
    Prop where
  Q : f.ks.Q = some d.1
  n : f.ks.n = some d.2.2
  u : ∃ v, HxcPotential F d.2.2 v ∧ ∀ j k, d.2.1 j k = f.ks.vnuc j k + v j k + vp j k

/-- C91, 'pdft' (no `ab_sym`, no `ens_spin_sym`): in every pass every component moves in its own Kohn-Sham potential
(its nuclei, Hartree, exchange and correlation potential of its density) plus one partition potential `vp` common to
all.  Where the `Q` functions add up to 1, the `Q`-average of these potentials is the Kohn-Sham potential of the
molecule at the promolecular density plus the `Q`-averaged difference of the kinetic potentials. -/
theorem C91_pdft (T : Env G r c p) (W : KsScf.Workers G r c p) (o : Options K) (dif : Fl K) (P P' : Part G r c p)
    (hc : c ≤ p) (h : pass T W o dif P = .ok P') (ht : o.calcType = .pdft) (hd : P.opt.interaction = .dft)
    (hi : P.opt.isolated = false) (hx : P.opt.hxc = .exact) (hab : P.opt.abSym = false)
    (hens : P.opt.ensSpinSym = false) (Tk : G.Cols p → K) (vk : G.Cols p → G.Cols p)
    (hkin : KineticLaw T P.opt.kin Tk vk) (nf : G.Cols p) (hnf : P.nf = some nf)
    (hcomp : ∀ f ∈ P.comps, f.ks.kind = .dft ∧ f.ks.sym = false ∧ f.v.frozen ≠ some true) :
    ∃ (v vp : G.Cols p) (D : List (G.Cols p × G.Cols p × G.Cols p)), HxcPotential T.toFunctionals nf v ∧
      List.Forall₂ (Embedded T.toFunctionals vp) P.comps D ∧
      List.Forall₂ (fun g d => MovesIn hc g d.2.1) P'.comps D ∧
      ∀ j k, (D.map fun d => d.1 j k).sum = 1 →
        (D.map fun d => d.1 j k * d.2.1 j k).sum =
          P.va k + P.vb k + v j k + (D.map fun d => d.1 j k * (vk nf j k - vk d.2.2 j k)).sum := by
  obtain ⟨P₂, P₃, vp, h1, h2, h3, h4, h5, -, h7⟩ := pass_through hc h hi
  obtain ⟨-, mh, mx, mc, ex, ec, F, Ex, Ec, eX, eC, m1, m2, m3, -, m4⟩ := potential_parts h1 (by rw [h2]; exact hd)
    (by rw [h2]; exact hi) (by rw [h2]; exact .inl hx) (by rw [h2]; exact hkin) (h5.trans hnf)
  obtain ⟨-, ⟨D₀, hD₀, hvp⟩, -⟩ := C40_average T P₂ P₃ vp h1
  rw [h2, hab, hens] at hvp
  obtain ⟨Z, z1, z2, z3⟩ := h7 hab
  rw [z1, List.forall₂_map_left_iff] at hD₀
  rw [z2]
  have hm : ∀ x ∈ Z, x.1 ∈ P₃.comps := fun x hx => by rw [z1]; exact List.mem_map.mpr ⟨x, hx, rfl⟩
  -- all components
  have key : ∀ {l : List (Frag G r c p)} {Z : List (Frag G r c p × Frag G r c p)} {D₀ : List (G.Cols p × G.Cols p)},
      List.Forall₂ (fun f x => Through hc T.toFunctionals o vp f x.1 x.2) l Z → (∀ x ∈ Z, x.1 ∈ P₃.comps) →
      (∀ f ∈ l, f.ks.kind = .dft ∧ f.ks.sym = false ∧ f.v.frozen ≠ some true) →
      List.Forall₂ (fun x d => x.1.v.vp = some d.1 ∧ x.1.ks.Q = some d.2) Z D₀ →
      ∃ D : List (G.Cols p × G.Cols p × G.Cols p), List.Forall₂ (Embedded T.toFunctionals vp) l D ∧
        List.Forall₂ (fun g d => MovesIn hc g d.2.1) (Z.map Prod.snd) D ∧ ∀ j k,
          (D.map fun d => d.1 j k * d.2.1 j k).sum + (D₀.map fun d => d.2 j k * d.1 j k).sum =
            (D.map fun d => d.1 j k).sum * (vp j k + (P.va k + P.vb k + (mh j k + mx j k + mc j k))) +
              (D.map fun d => d.1 j k * (vk nf j k - vk d.2.2 j k)).sum := by
    intro l Z D₀ e
    induction e generalizing D₀ with
    | nil =>
      intro _ _ e0
      cases e0
      exact ⟨[], .nil, .nil, fun j k => by simp⟩
    | @cons f x l Z hthr _ ih =>
      intro hz hl e0
      cases e0 with
      | @cons _ d _ D₀ u0 v0 =>
        obtain ⟨D, i1, i2, i3⟩ := ih (fun x hx => hz x (List.mem_cons_of_mem _ hx))
          (fun f hf => hl f (List.mem_cons_of_mem _ hf)) v0
        obtain ⟨k1, k2, k3⟩ := hl f (List.mem_cons_self ..)
        obtain ⟨t1, t2, tQ, n, vh, vx, vc, vext, t3, t4, t5, t6, t7, t8, t9⟩ := hthr k1 k2 k3
        obtain ⟨-, _, fh, fx, fc, w, u1, u2, u3, -, u4, u5⟩ := m4 x.1 (hz x (List.mem_cons_self ..)) n (t1.trans t3)
        rw [ht] at t8
        obtain rfl := Option.some.inj t8
        obtain rfl := Option.some.inj (t4.symm.trans u1)
        obtain rfl := Option.some.inj (t5.symm.trans u2)
        obtain rfl := Option.some.inj (t6.symm.trans u3)
        have e := Option.some.inj (u5.symm.trans u0.1)
        refine ⟨(d.2, fun j k => f.ks.vnuc j k + vp j k + (vh j k + vx j k + vc j k), n) :: D,
          .cons ⟨tQ.symm.trans u0.2, t3, _, t7, fun j k => by ring⟩ i1, .cons t9 i2, fun j k => ?_⟩
        have hw := (u4 j k).1 (by rw [h2]; exact hx)
        have hd1 : d.1 j k = P.va k + P.vb k - f.ks.vnuc j k + (vk nf j k - vk n j k) + w j k := by
          rw [← e, ← t2, ← h3, ← h4]
        have := i3 j k
        simp only [List.map_cons, List.sum_cons]
        rw [hd1, hw]
        linear_combination this
  obtain ⟨D, i1, i2, i3⟩ := key z3 hm hcomp (hD₀.imp fun x d h => ⟨h.1, h.2.1⟩)
  refine ⟨fun j k => mh j k + mx j k + mc j k, vp, D,
    ⟨mh, mx, mc, ex, ec, eX, eC, m1, m2, m3, fun _ _ => rfl⟩, i1, i2, fun j k hQ => ?_⟩
  have hv : vp j k = (D₀.map fun d => d.2 j k * d.1 j k).sum := by
    have := congrFun (congrFun hvp j) k
    simpa [withMirror, withTwin] using this
  have := i3 j k
  rw [hQ] at this
  linear_combination this + hv

/-- `Sample` with the Hartree potential and the kinetic potential depending on the density, the nucleus of A in the first
point, of B in the second. -/
def Sample.T91 : Env Sample.G 1 1 1 :=
  { Sample.T with hartree := fun n => .ok n, kinetic := fun n => .ok (0, fun j k => n j k * n j k) }

/-- Densities (2, 0) and (0, 2), promolecule (2, 2). -/
def Sample.part91 : Part Sample.G 1 1 1 :=
  let f : Fin 2 → Frag Sample.G 1 1 1 := fun i => ⟨{ (Sample.frag .dft).ks with
    alpha := some 1
    vhxc := some fun _ _ => 0
    n := some fun _ k => if k = (if i = 0 then 0 else 1) then 2 else 0
    Q := some fun _ k => if k = (if i = 0 then 0 else 1) then 1 else 0
    vnuc := fun _ k => if k = (if i = 0 then 0 else 1) then -3 else 0 }, { frozen := some false }⟩
  { Sample.part { kin := .libxcke } with
    va := fun k => if k = 0 then -3 else 0, vb := fun k => if k = 0 then 0 else -3, fa := f 0, fb := f 1
    nf := some fun _ _ => 2 }

theorem Sample.kinetic91 : KineticLaw Sample.T91 (Sample.part91).opt.kin (fun _ => 0) fun n j k => n j k * n j k := by
  simp [KineticLaw, Sample.T91, Sample.part91, Sample.part]

/-- A concrete case of C91, 'sdft': `va + vb` is (-3, -3), the Hartree potential 2, the kinetic difference (0, 4) for
A and (4, 0) for B; the potentials of the two fragments are (-1, 3) and (3, -1). -/
example : (pass Sample.T91 Sample.W { etol := 0, alpha := [1], maxIter := 1, calcType := .sdft } .nan
      Sample.part91).toOption.map
    (fun P => (P.fa.ks.veff.map fun v => (v 0 0, v 0 1), P.fb.ks.veff.map fun v => (v 0 0, v 0 1))) =
      some (some (-1, 3), some (3, -1)) := by decide +kernel

/-- A concrete case of C91, 'pdft': the `Q` functions are (1, 0) and (0, 1). -/
example : (pass Sample.T91 Sample.W { etol := 0, alpha := [1], maxIter := 1, calcType := .pdft } .nan
      Sample.part91).toOption.map
    (fun P => (P.fa.ks.veff.map fun v => (v 0 0, v 0 1), P.fb.ks.veff.map fun v => (v 0 0, v 0 1))) =
      some (some (-1, 0), some (0, -1)) := by decide +kernel

/-- The hypotheses of `C91_sdft` and `C91_pdft` hold for this calculation. -/
theorem Sample.comps91 : ∀ f ∈ Sample.part91.comps, f.ks.kind = .dft ∧ f.ks.sym = false ∧ f.v.frozen ≠ some true := by
  intro f hf
  have : f = Sample.part91.fa ∨ f = Sample.part91.fb := by
    simpa [Sample.part91, Sample.part, Part.comps, Part.compsA, Part.compsB] using hf
  obtain rfl | rfl := this <;> exact ⟨rfl, rfl, by decide⟩

example (P' : Part Sample.G 1 1 1)
    (h : pass Sample.T91 Sample.W { etol := 0, alpha := [1], maxIter := 1, calcType := .pdft } .nan Sample.part91 =
      .ok P') := C91_pdft _ _ _ _ _ _ le_rfl h rfl rfl rfl rfl rfl rfl _ _ Sample.kinetic91 _ rfl Sample.comps91

example (P' : Part Sample.G 1 1 1)
    (h : pass Sample.T91 Sample.W { etol := 0, alpha := [1], maxIter := 1, calcType := .sdft } .nan Sample.part91 =
      .ok P') := C91_sdft _ _ _ _ _ _ le_rfl h rfl rfl rfl rfl _ _ Sample.kinetic91 _ rfl Sample.comps91

end Verif
