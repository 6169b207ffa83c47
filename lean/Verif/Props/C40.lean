import Verif.Lemmas.PartitionPotential

/-! # C40: the partition potential -/

namespace Verif
open Spec Part
variable {K : Type} [Field K] [LinearOrder K] [IsStrictOrderedRing K] [FloorRing K]
variable {G : Grid K} {r c p : ℕ}

/-- With spin-symmetric ensembles the spin-flipped twin is added. -/
def Spec.withTwin (b : Bool) (f : G.Cols p) : G.Cols p := fun j k => f j k + if b then f j.rev k else 0

/-- With mirror-symmetric fragments the mean with the mirror image is used. -/
def Spec.withMirror (b : Bool) (f : G.Cols p) : G.Cols p :=
  fun j k => if b then (f j k + f j (G.mirIx k)) / 2 else f j k

theorem average_inv {P : Part G r c p} {x : Frag G r c p → Option (G.Cols p)} {v : G.Cols p}
    (h : P.average x = .ok v) :
    ∃ D : List (G.Cols p × G.Cols p), List.Forall₂ (fun f d => x f = some d.1 ∧ f.ks.Q = some d.2) P.comps D ∧
      v = withMirror P.opt.abSym (withTwin P.opt.ensSpinSym
        fun j k => (D.map fun d => d.2 j k * d.1 j k).sum) := by
  unfold Part.average qAverage at h
  simp only [Py.do_eq_ok, Py.pure_eq_ok] at h
  obtain ⟨v', hv, rfl⟩ := h
  obtain ⟨D, hD, hs⟩ := qAverage_fold _ _ _ hv
  refine ⟨D, hD, ?_⟩
  have hs' : v' = fun j k => (D.map fun d => d.2 j k * d.1 j k).sum := by
    funext j k
    rw [hs, zero_add]
  rw [hs']
  funext j k
  cases P.opt.abSym <;> cases P.opt.ensSpinSym <;>
    simp [addMirror, addFlip, withMirror, withTwin, KS.symmetrised, Grid.mirCols, Grid.mir, Grid.flipCols] <;>
    ring

theorem mem_of_forall₂ {α β : Type*} {R : α → β → Prop} {l : List α} {m : List β}
    (h : List.Forall₂ R l m) {y : β} (hy : y ∈ m) : ∃ x ∈ l, R x y := by
  induction h with
  | nil => exact absurd hy (by simp)
  | cons e _ ih =>
    rcases List.mem_cons.mp hy with rfl | hy
    · exact ⟨_, List.mem_cons_self .., e⟩
    · obtain ⟨x, hx, h⟩ := ih hy
      exact ⟨x, List.mem_cons_of_mem _ hx, h⟩

/-- C40: the partition potential is the Q-average of the components' partition potentials (the sum
over components, plus its spin flip with `ens_spin_sym`, averaged with the mirror image with `ab_sym`);
each component's is the sum of its nuclear, kinetic and interaction part; the total is the sum of the
stored averaged parts; it is invariant under the symmetries. -/
theorem C40_average (T : Env G r c p) (P P' : Part G r c p) (vp : G.Cols p)
    (h : P.partitionPotential T = .ok (P', vp)) :
    P'.vp = some vp ∧
    (∃ D : List (G.Cols p × G.Cols p),
      List.Forall₂ (fun f d => f.v.vp = some d.1 ∧ f.ks.Q = some d.2 ∧
        ∃ pot kin hxc : G.Cols p, f.v.vpPot = some pot ∧ f.v.vpKin = some kin ∧ f.v.vpHxc = some hxc ∧
          ∀ j k, d.1 j k = pot j k + kin j k + hxc j k) P'.comps D ∧
      vp = withMirror P.opt.abSym (withTwin P.opt.ensSpinSym
        fun j k => (D.map fun d => d.2 j k * d.1 j k).sum)) ∧
    (∃ pot kin hxc : G.Cols p, P'.vpPot = some pot ∧ P'.vpKin = some kin ∧ P'.vpHxc = some hxc ∧
      ∀ j k, vp j k = pot j k + kin j k + hxc j k) ∧
    (P.opt.abSym = true → G.mirCols vp = vp) ∧ (P.opt.ensSpinSym = true → G.flipCols vp = vp) := by
  have hopt := (partitionPotential_frame h).opt
  obtain ⟨-, P₁, P₂, P₃, P₄, P₅, pot, kin, hxc, hh, x, cc, h1, h2, h3, h4, h5, h6, h7, h8, h9, rfl⟩ :=
    partitionPotential_inv h
  have hopt5 : P₅.opt = P.opt := hopt
  have hparts := mapAll_comps h5
  have hsome : ∀ f ∈ P₅.comps, ∃ pot kin hxc : G.Cols p, f.v.vpPot = some pot ∧ f.v.vpKin = some kin ∧
      f.v.vpHxc = some hxc ∧ f.v.vp = some fun j k => pot j k + kin j k + hxc j k := by
    intro f hf
    obtain ⟨g, -, hg⟩ := mem_of_forall₂ hparts hf
    unfold addParts at hg
    simp only [Py.do_eq_ok, Py.pure_eq_ok] at hg
    obtain ⟨a, ha, b, hb, d, hd, rfl⟩ := hg
    exact ⟨a, b, d, attr_eq_ok.mp ha, attr_eq_ok.mp hb, attr_eq_ok.mp hd, rfl⟩
  obtain ⟨D, hD, hvp⟩ := average_inv h6
  obtain ⟨Da, ha, hva⟩ := average_inv h7
  obtain ⟨Db, hb, hvb⟩ := average_inv h8
  obtain ⟨Dc, hc, hvc⟩ := average_inv h9
  rw [hopt5] at hvp hva hvb hvc
  refine ⟨rfl, ⟨D, ?_, hvp⟩, ⟨pot, kin, hxc, rfl, rfl, rfl, ?_⟩, ?_, ?_⟩
  · change List.Forall₂ _ P₅.comps D
    have key : ∀ (l : List (Frag G r c p)) (E : List (G.Cols p × G.Cols p)),
        List.Forall₂ (fun f d => f.v.vp = some d.1 ∧ f.ks.Q = some d.2) l E →
        (∀ f ∈ l, ∃ pot kin hxc : G.Cols p, f.v.vpPot = some pot ∧ f.v.vpKin = some kin ∧
          f.v.vpHxc = some hxc ∧ f.v.vp = some fun j k => pot j k + kin j k + hxc j k) →
        List.Forall₂ (fun f d => f.v.vp = some d.1 ∧ f.ks.Q = some d.2 ∧
          ∃ pot kin hxc : G.Cols p, f.v.vpPot = some pot ∧ f.v.vpKin = some kin ∧ f.v.vpHxc = some hxc ∧
            ∀ j k, d.1 j k = pot j k + kin j k + hxc j k) l E := by
      intro l E hE
      induction hE with
      | nil => intro _; exact .nil
      | @cons f d l E e _ ih =>
        intro hl
        obtain ⟨a, b, g, e1, e2, e3, e4⟩ := hl f (List.mem_cons_self ..)
        refine .cons ⟨e.1, e.2, a, b, g, e1, e2, e3, fun j k => ?_⟩
          (ih fun f hf => hl f (List.mem_cons_of_mem _ hf))
        rw [Option.some.inj (e.1.symm.trans e4)]
    exact key _ _ hD hsome
  · have key : ∀ (l : List (Frag G r c p)) (E Ea Eb Ec : List (G.Cols p × G.Cols p)),
        (∀ f ∈ l, ∃ pot kin hxc : G.Cols p, f.v.vpPot = some pot ∧ f.v.vpKin = some kin ∧
          f.v.vpHxc = some hxc ∧ f.v.vp = some fun j k => pot j k + kin j k + hxc j k) →
        List.Forall₂ (fun f d => f.v.vp = some d.1 ∧ f.ks.Q = some d.2) l E →
        List.Forall₂ (fun f d => f.v.vpPot = some d.1 ∧ f.ks.Q = some d.2) l Ea →
        List.Forall₂ (fun f d => f.v.vpKin = some d.1 ∧ f.ks.Q = some d.2) l Eb →
        List.Forall₂ (fun f d => f.v.vpHxc = some d.1 ∧ f.ks.Q = some d.2) l Ec →
        ∀ j k, (E.map fun d => d.2 j k * d.1 j k).sum = (Ea.map fun d => d.2 j k * d.1 j k).sum +
          (Eb.map fun d => d.2 j k * d.1 j k).sum + (Ec.map fun d => d.2 j k * d.1 j k).sum := by
      intro l
      induction l with
      | nil =>
        intro E Ea Eb Ec _ e1 e2 e3 e4 j k
        cases e1; cases e2; cases e3; cases e4
        simp
      | cons f l ih =>
        intro E Ea Eb Ec hl e1 e2 e3 e4 j k
        cases e1 with | @cons _ d1 _ E a1 b1 => ?_
        cases e2 with | @cons _ d2 _ Ea a2 b2 => ?_
        cases e3 with | @cons _ d3 _ Eb a3 b3 => ?_
        cases e4 with | @cons _ d4 _ Ec a4 b4 => ?_
        have := ih E Ea Eb Ec (fun f hf => hl f (List.mem_cons_of_mem _ hf)) b1 b2 b3 b4 j k
        obtain ⟨a, b, g, k1, k2, k3, k4⟩ := hl f (List.mem_cons_self ..)
        simp only [List.map_cons, List.sum_cons]
        rw [this, Option.some.inj (a1.1.symm.trans k4), Option.some.inj (a2.1.symm.trans k1),
          Option.some.inj (a3.1.symm.trans k2), Option.some.inj (a4.1.symm.trans k3),
          Option.some.inj (a1.2.symm.trans a2.2), Option.some.inj (a3.2.symm.trans a2.2),
          Option.some.inj (a4.2.symm.trans a2.2)]
        ring
    intro j k
    have hs := key P₅.comps D Da Db Dc hsome hD ha hb hc
    rw [hvp, hva, hvb, hvc]
    simp only [withMirror, withTwin, hs]
    split_ifs <;> ring
  · intro hab
    rw [hvp, hab]
    funext j k
    simp [Grid.mirCols, Grid.mir, withMirror]
    ring
  · intro hes
    rw [hvp, hes]
    funext j k
    simp only [Grid.flipCols, withMirror, withTwin, ↓reduceIte, Fin.rev_rev]
    split_ifs <;> ring

/-- The molecular kinetic potential `V.vt` at a point, for the kinetic parts that have one. -/
def Spec.MolecularVt (T : Env G r c p) (P' : Part G r c p) (nf : G.Cols p) (j : Fin p) (k : G.Ix) (t : K) : Prop :=
  match P'.opt.kin with
  | .vonweiz => vonWeizsacker T nf j k = .fin t
  | .none | .libxcke | .inversion => ∃ v, P'.vt = some v ∧ v j k = t
  | _ => False

/-- The potentials of a component: nuclear, kinetic and, with interaction, Hartree, exchange and
correlation. -/
def Spec.ComponentPotential (dft : Prop) (f : Frag G r c p) (v : G.Cols p) : Prop :=
  ∃ vt vh vx vc : G.Cols p, f.v.vt = some vt ∧
    (dft → f.ks.V.vh = some vh ∧ f.ks.V.vx = some vx ∧ f.ks.V.vc = some vc) ∧
    (¬ dft → vh = 0 ∧ vx = 0 ∧ vc = 0) ∧
    ∀ j k, v j k = f.ks.vnuc j k + vt j k + (vh j k + vx j k + vc j k)

/-- The components' kinetic part is the difference of the kinetic potentials. -/
theorem vpKinetic_diff {T : Env G r c p} {P P' : Part G r c p} (h : P.vpKinetic T = .ok P')
    {nf : G.Cols p} (hnf : P.nf = some nf) (hk2 : P.opt.kin ≠ .twoorbital) (hk3 : P.opt.kin ≠ .fixed) :
    ∀ f ∈ P'.comps, ∃ vt kin : G.Cols p, f.v.vt = some vt ∧ f.v.vpKin = some kin ∧
      ∀ j k t, MolecularVt T P' nf j k t → kin j k = t - vt j k := by
  have hopt := (vpKinetic_frame h).opt
  have fin : ∀ {P₁ : Part G r c p} {vt : G.Cols p}, P₁.finishKinetic vt = .ok P' → P'.vt = some vt ∧
      ∀ f ∈ P'.comps, ∃ u kin : G.Cols p, f.v.vt = some u ∧ f.v.vpKin = some kin ∧
        ∀ j k, kin j k = vt j k - u j k := by
    intro P₁ vt hh
    unfold finishKinetic at hh
    obtain ⟨⟨a, b, AB, hP⟩, -⟩ := mapAll_inv hh
    refine ⟨by rw [hP], fun f hf => ?_⟩
    obtain ⟨g, -, hg⟩ := mem_of_forall₂ (mapAll_comps hh) hf
    simp only [Py.do_eq_ok, Py.pure_eq_ok] at hg
    obtain ⟨v, hv, rfl⟩ := hg
    exact ⟨v, _, attr_eq_ok.mp hv, rfl, fun _ _ => rfl⟩
  unfold MolecularVt
  rw [hopt]
  unfold vpKinetic at h
  cases hk : P.opt.kin <;> rw [hk] at h <;> simp only
  case vonweiz =>
    simp only [Py.do_eq_ok] at h
    obtain ⟨nf', hnf', h⟩ := h
    rw [hnf] at hnf'
    obtain rfl := Except.ok.inj hnf'
    intro f hf
    obtain ⟨g, -, hg⟩ := mem_of_forall₂ (mapAll_comps h) hf
    simp only [Py.do_eq_ok, Py.pure_eq_ok] at hg
    obtain ⟨n, _, d, hd, rfl⟩ := hg
    refine ⟨_, d, rfl, rfl, fun j k t ht => ?_⟩
    unfold kineticDifference at hd
    split_ifs at hd
    rw [← Except.ok.inj hd]
    simp only [ht, Fl.sub_fin, Fl.clean_fin]
  case libxcke =>
    simp only [Py.do_eq_ok] at h
    obtain ⟨nf, _, ⟨Ts, vt⟩, _, P₁, h1, h⟩ := h
    obtain ⟨h1, h2⟩ := fin h
    intro f hf
    obtain ⟨u, kin, a, b, d⟩ := h2 f hf
    refine ⟨u, kin, a, b, ?_⟩
    rintro j k t ⟨v, hv, rfl⟩
    rw [d, Option.some.inj (hv.symm.trans h1)]
  case inversion =>
    simp only [Py.do_eq_ok] at h
    obtain ⟨P₁, h1, ⟨vt, Ts⟩, _, h⟩ := h
    obtain ⟨h1, h2⟩ := fin h
    intro f hf
    obtain ⟨u, kin, a, b, d⟩ := h2 f hf
    refine ⟨u, kin, a, b, ?_⟩
    rintro j k t ⟨v, hv, rfl⟩
    rw [d, Option.some.inj (hv.symm.trans h1)]
  case none =>
    simp only [Py.do_eq_ok] at h
    obtain ⟨nf, _, P₁, h1, h⟩ := h
    obtain ⟨h1, h2⟩ := fin h
    intro f hf
    obtain ⟨u, kin, a, b, d⟩ := h2 f hf
    refine ⟨u, kin, a, b, ?_⟩
    rintro j k t ⟨v, hv, rfl⟩
    rw [d, Option.some.inj (hv.symm.trans h1)]
  case paramke => exact nomatch h
  case twoorbital => exact absurd hk hk2
  case fixed => exact absurd hk hk3

/-- The molecular Hartree, exchange and correlation potentials (zero without interaction). -/
def Spec.MolecularHxc (P' : Part G r c p) (v : G.Cols p) : Prop :=
  ∃ vh vx vc : G.Cols p,
    (P'.opt.interaction = .dft → P'.vh = some vh ∧ P'.vx = some vx ∧ P'.vc = some vc) ∧
    (P'.opt.interaction = .ni → vh = 0 ∧ vx = 0 ∧ vc = 0) ∧ ∀ j k, v j k = vh j k + vx j k + vc j k

/-- Every component's partition potential is the molecular potential minus the component's potential. -/
theorem component_vp {T : Env G r c p} {P P' : Part G r c p} {vp : G.Cols p}
    (h : P.partitionPotential T = .ok (P', vp)) (hx : P.opt.hxc = .exact)
    (hk2 : P.opt.kin ≠ .twoorbital) (hk3 : P.opt.kin ≠ .fixed)
    {nf : G.Cols p} (hnf : P.nf = some nf) (vhxc : G.Cols p) (hmol : MolecularHxc P' vhxc) :
    ∀ f ∈ P'.comps, ∃ v : G.Cols p, ComponentPotential (P.opt.interaction = .dft) f v ∧
      ∃ w, f.v.vp = some w ∧ ∀ j k t, MolecularVt T P' nf j k t →
        w j k = P.va k + P.vb k + t + vhxc j k - v j k := by
  have hopt' := (partitionPotential_frame h).opt
  obtain ⟨-, P₁, P₂, P₃, P₄, P₅, pot, kin, hxc, hh, x, cc, h1, h2, h3, h4, h5, h6, h7, h8, h9, rfl⟩ :=
    partitionPotential_inv h
  obtain ⟨vh, vx, vc, hd, hni, hm⟩ := hmol
  rw [hopt'] at hd hni
  have f1 := vpNuclear_frame h1
  have f2 := f1.trans (vpKinetic_frame h2)
  have f3 := f2.trans (hxcStart_frame h3)
  have f4 := f3.trans (hxcCollect_frame h4)
  have f5 := f4.trans (addParts_frame h5)
  -- the molecular attributes are those of the intermediate states
  have hvt : P₅.vt = P₂.vt := by
    have e3 : P₃.vt = P₂.vt := by
      unfold hxcStart at h3
      split_ifs at h3
      · unfold hxcZero at h3
        simp only [Py.do_eq_ok] at h3
        obtain ⟨_, _, h3⟩ := h3
        obtain ⟨⟨_, _, _, e⟩, -⟩ := mapAll_inv h3
        rw [e]
      · unfold hxcComponents at h3
        simp only [Py.do_eq_ok] at h3
        obtain ⟨_, _, _, _, _, _, _, _, h3⟩ := h3
        obtain ⟨⟨_, _, _, e⟩, -⟩ := mapAll_inv h3
        rw [e]
    have e4 : P₄.vt = P₃.vt := by
      unfold hxcCollect at h4
      rw [f3.opt, hx] at h4
      obtain ⟨⟨_, _, _, e⟩, -⟩ := mapAll_inv h4
      rw [e]
    have e5 : P₅.vt = P₄.vt := by
      obtain ⟨⟨_, _, _, e⟩, -⟩ := mapAll_inv h5
      rw [e]
    rw [e5, e4, e3]
  have hmolvt : ∀ j k t, MolecularVt T { P₅ with
      vp := some vp, vpPot := some pot, vpKin := some kin, vpHxc := some hxc, vpH := some hh, vpX := some x,
      vpC := some cc } nf j k t → MolecularVt T P₂ nf j k t := by
    intro j k t ht
    unfold MolecularVt at ht ⊢
    simp only [f5.opt, hvt] at ht
    rw [f2.opt]
    exact ht
  intro f5' hf5
  obtain ⟨g4, hg4, e5⟩ := mem_of_forall₂ (mapAll_comps h5) (y := f5') hf5
  have hcollect : ∃ g3 ∈ P₃.comps, ∃ a b d : G.Cols p, g3.v.vpH = some a ∧ g3.v.vpX = some b ∧
      g3.v.vpC = some d ∧ g4 = ⟨g3.ks, { g3.v with vpHxc := some fun j k => a j k + b j k + d j k }⟩ := by
    unfold hxcCollect at h4
    rw [f3.opt, hx] at h4
    obtain ⟨g3, hg3, e⟩ := mem_of_forall₂ (mapAll_comps h4) hg4
    simp only [Py.do_eq_ok, Py.pure_eq_ok] at e
    obtain ⟨a, ha, b, hb, d, hd, rfl⟩ := e
    exact ⟨g3, hg3, a, b, d, attr_eq_ok.mp ha, attr_eq_ok.mp hb, attr_eq_ok.mp hd, rfl⟩
  obtain ⟨g3, hg3, a, b, d, ha, hb, hdd, rfl⟩ := hcollect
  have hstart : ∃ g2 ∈ P₂.comps, g3.ks = g2.ks ∧ g3.v.vpPot = g2.v.vpPot ∧ g3.v.vpKin = g2.v.vpKin ∧
      g3.v.vt = g2.v.vt ∧ ∃ fh fx fc : G.Cols p,
        (P.opt.interaction = .dft → g2.ks.V.vh = some fh ∧ g2.ks.V.vx = some fx ∧ g2.ks.V.vc = some fc) ∧
        (P.opt.interaction ≠ .dft → fh = 0 ∧ fx = 0 ∧ fc = 0) ∧
        ∀ j k, a j k + b j k + d j k = (vh j k + vx j k + vc j k) - (fh j k + fx j k + fc j k) := by
    unfold hxcStart at h3
    rw [f2.opt, hx] at h3
    cases hint : P.opt.interaction with
    | ni =>
      rw [hint] at h3
      simp only [and_self, ↓reduceIte] at h3
      unfold hxcZero at h3
      simp only [Py.do_eq_ok] at h3
      obtain ⟨_, _, h3⟩ := h3
      obtain ⟨g2, hg2, e⟩ := mem_of_forall₂ (mapAll_comps h3) hg3
      obtain rfl := Except.ok.inj e
      refine ⟨g2, hg2, rfl, rfl, rfl, rfl, 0, 0, 0, (fun h => nomatch h), fun _ => ⟨rfl, rfl, rfl⟩, ?_⟩
      intro j k
      obtain ⟨e1, e2, e3⟩ := hni hint
      simp only [Option.some.injEq] at ha hb hdd
      rw [e1, e2, e3, ← ha, ← hb, ← hdd]
      simp
    | dft =>
      rw [hint] at h3
      simp only [reduceCtorEq, and_false, ↓reduceIte] at h3
      unfold hxcComponents at h3
      simp only [Py.do_eq_ok] at h3
      obtain ⟨_, _, mh, _, ⟨ex, epsX, mx⟩, _, ⟨ec, epsC, mc⟩, _, h3⟩ := h3
      have hP3 : P₃.vh = some mh ∧ P₃.vx = some mx ∧ P₃.vc = some mc := by
        obtain ⟨⟨_, _, _, e⟩, -⟩ := mapAll_inv h3
        rw [e]
        exact ⟨rfl, rfl, rfl⟩
      have hP5 : P₅.vh = P₃.vh ∧ P₅.vx = P₃.vx ∧ P₅.vc = P₃.vc := by
        obtain ⟨⟨_, _, _, e5⟩, -⟩ := mapAll_inv h5
        unfold hxcCollect at h4
        rw [f3.opt, hx] at h4
        obtain ⟨⟨_, _, _, e4⟩, -⟩ := mapAll_inv h4
        rw [e5, e4]
        exact ⟨rfl, rfl, rfl⟩
      obtain ⟨k1, k2, k3⟩ := hd hint
      change P₅.vh = some vh at k1
      change P₅.vx = some vx at k2
      change P₅.vc = some vc at k3
      rw [hP5.1, hP3.1] at k1
      rw [hP5.2.1, hP3.2.1] at k2
      rw [hP5.2.2, hP3.2.2] at k3
      obtain rfl := Option.some.inj k1
      obtain rfl := Option.some.inj k2
      obtain rfl := Option.some.inj k3
      obtain ⟨g2, hg2, e⟩ := mem_of_forall₂ (mapAll_comps h3) hg3
      simp only [Py.do_eq_ok, Py.pure_eq_ok] at e
      obtain ⟨fh, e1, fx, e2, fc, e3, rfl⟩ := e
      refine ⟨g2, hg2, rfl, rfl, rfl, rfl, fh, fx, fc, fun _ => ⟨attr_eq_ok.mp e1, attr_eq_ok.mp e2,
        attr_eq_ok.mp e3⟩, fun h => absurd rfl h, ?_⟩
      intro j k
      simp only [Option.some.injEq] at ha hb hdd
      rw [← ha, ← hb, ← hdd]
      ring
  obtain ⟨g2, hg2, eks, epot, ekin, evt, fh, fx, fc, hfd, hfn, hsum⟩ := hstart
  -- nuclear part, carried through `vp_kinetic`
  have hpot2 : g2.v.vpPot = some fun j k => P.vextMol j k - g2.ks.vnuc j k := by
    have hp1 : ∀ f ∈ P₁.comps, f.v.vpPot = some fun j k => P.vextMol j k - f.ks.vnuc j k := by
      intro f hf
      obtain ⟨g, -, e⟩ := mem_of_forall₂ (mapAll_comps h1) hf
      obtain rfl := Except.ok.inj e
      rfl
    have keep : ∀ {Q Q' : Part G r c p} {φ : Frag G r c p → Py (Frag G r c p)}, Q.mapAll φ = .ok Q' →
        (∀ x y, φ x = .ok y → y.v.vpPot = x.v.vpPot ∧ y.ks = x.ks) →
        (∀ f ∈ Q.comps, f.v.vpPot = some fun j k => P.vextMol j k - f.ks.vnuc j k) →
        ∀ f ∈ Q'.comps, f.v.vpPot = some fun j k => P.vextMol j k - f.ks.vnuc j k := by
      intro Q Q' φ hQ hφ hq f hf
      obtain ⟨g, hg, e⟩ := mem_of_forall₂ (mapAll_comps hQ) hf
      rw [(hφ _ _ e).1, (hφ _ _ e).2]
      exact hq g hg
    have hfinish : ∀ {Q : Part G r c p} {vt : G.Cols p}, Q.finishKinetic vt = .ok P₂ →
        (∀ f ∈ Q.comps, f.v.vpPot = some fun j k => P.vextMol j k - f.ks.vnuc j k) →
        ∀ f ∈ P₂.comps, f.v.vpPot = some fun j k => P.vextMol j k - f.ks.vnuc j k := by
      intro Q vt hQ hq
      unfold finishKinetic at hQ
      refine keep hQ (fun x y e => ?_) hq
      simp only [Py.do_eq_ok, Py.pure_eq_ok] at e
      obtain ⟨_, _, rfl⟩ := e
      exact ⟨rfl, rfl⟩
    suffices hall : ∀ f ∈ P₂.comps, f.v.vpPot = some fun j k => P.vextMol j k - f.ks.vnuc j k from
      hall g2 hg2
    unfold vpKinetic at h2
    cases hk : P₁.opt.kin <;> rw [hk] at h2 <;> simp only at h2
    case vonweiz =>
      simp only [Py.do_eq_ok] at h2
      obtain ⟨_, _, h2⟩ := h2
      refine keep h2 (fun x y e => ?_) hp1
      simp only [Py.do_eq_ok, Py.pure_eq_ok] at e
      obtain ⟨_, _, _, _, rfl⟩ := e
      exact ⟨rfl, rfl⟩
    case libxcke =>
      simp only [Py.do_eq_ok] at h2
      obtain ⟨_, _, ⟨Ts, vt⟩, _, Q, hQ, h2⟩ := h2
      refine hfinish h2 (keep (Q' := Q) hQ (fun x y e => ?_) hp1)
      simp only [Py.do_eq_ok, Py.pure_eq_ok] at e
      obtain ⟨_, _, _, _, rfl⟩ := e
      exact ⟨rfl, rfl⟩
    case paramke => exact nomatch h2
    case inversion =>
      simp only [Py.do_eq_ok] at h2
      obtain ⟨Q, hQ, ⟨vt, Ts⟩, _, h2⟩ := h2
      refine hfinish h2 (keep (Q' := Q) hQ (fun x y e => ?_) hp1)
      unfold eulerVt at e
      simp only [Py.do_eq_ok, Py.pure_eq_ok] at e
      obtain ⟨_, _, rfl⟩ := e
      exact ⟨rfl, rfl⟩
    case none =>
      simp only [Py.do_eq_ok] at h2
      obtain ⟨_, _, Q, hQ, h2⟩ := h2
      refine hfinish h2 (keep (Q' := Q) hQ (fun x y e => ?_) hp1)
      obtain rfl := Except.ok.inj e
      exact ⟨rfl, rfl⟩
    case twoorbital =>
      split_ifs at h2
      simp only [Py.do_eq_ok, Py.pure_eq_ok] at h2
      obtain ⟨⟨v1, v2, vf⟩, _, Q, hQ, ta, _, tb, _, h2⟩ := h2
      have hq := keep hQ (fun x y e => by obtain rfl := Except.ok.inj e; exact ⟨rfl, rfl⟩) hp1
      rw [← h2]
      intro f hf
      simp only [comps, compsA, compsB, List.mem_append, List.mem_cons] at hf hq
      rcases hf with (rfl | hf) | (rfl | hf)
      · exact hq Q.fa (.inl (.inl rfl))
      · exact hq _ (.inl (.inr hf))
      · exact hq Q.fb (.inr (.inl rfl))
      · exact hq _ (.inr (.inr hf))
    case fixed =>
      obtain rfl := Except.ok.inj h2
      exact hp1
  unfold addParts at e5
  simp only [Py.do_eq_ok, Py.pure_eq_ok] at e5
  obtain ⟨a5, q1, b5, q2, d5, q3, rfl⟩ := e5
  have q1 := attr_eq_ok.mp q1
  have q2 := attr_eq_ok.mp q2
  obtain rfl := Except.ok.inj q3
  rw [epot, hpot2] at q1
  obtain rfl := Option.some.inj q1
  have hnf1 : P₁.nf = some nf := f1.nf.trans hnf
  obtain ⟨tv, kn, e1, e2', e3'⟩ := vpKinetic_diff h2 hnf1 (by rw [f1.opt]; exact hk2) (by rw [f1.opt]; exact hk3)
    g2 hg2
  have e2 : ∀ j k t, MolecularVt T P₂ nf j k t → b5 j k = t - tv j k := by
    intro j k t ht
    rw [ekin, e2'] at q2
    rw [← Option.some.inj q2, e3' j k t ht]
  refine ⟨fun j k => g2.ks.vnuc j k + tv j k + (fh j k + fx j k + fc j k), ⟨tv, fh, fx, fc, evt.trans e1, ?_,
    hfn, ?_⟩, _, rfl, ?_⟩
  · intro hint
    obtain ⟨k1, k2, k3⟩ := hfd hint
    simp only [eks]
    exact ⟨k1, k2, k3⟩
  · intro j k
    simp only [eks]
  · intro j k t ht
    beta_reduce
    rw [hm, hsum, e2 j k t (hmolvt _ _ _ ht)]
    simp only [vextMol]
    ring

/-- C40: with exact interaction parts, at points where the Q functions of the components sum to one (after
`calc_Q` where the promolecular density is not zero, `C39_partition_of_unity`), the partition
potential is the molecular potential minus the Q-average of the components' potentials.  With `ab_sym` the mean with the mirror point is taken; with
`ens_spin_sym` the twins are included and the molecular potential must not depend on the spin
direction (it belongs to a spin-flip symmetric density).
Kinetic parts 'twoorbital' (one molecular kinetic potential per fragment) and 'fixed' (none) have no
molecular potential to compare with. -/
theorem C40_difference (T : Env G r c p) (P P' : Part G r c p) (vp : G.Cols p)
    (h : P.partitionPotential T = .ok (P', vp)) (hx : P.opt.hxc = .exact)
    (hk2 : P.opt.kin ≠ .twoorbital) (hk3 : P.opt.kin ≠ .fixed)
    (nf : G.Cols p) (hnf : P.nf = some nf) (vhxc : G.Cols p) (hmol : MolecularHxc P' vhxc)
    (Qs : List (G.Cols p)) (hQ : List.Forall₂ (fun f Q => f.ks.Q = some Q) P.comps Qs) :
    ∃ D : List (G.Cols p × G.Cols p),
      List.Forall₂ (fun f d => f.ks.Q = some d.2 ∧ ComponentPotential (P.opt.interaction = .dft) f d.1)
        P'.comps D ∧ D.map Prod.snd = Qs ∧
      ∀ (vmol : G.Cols p) (j : Fin p) (k : G.Ix),
        (∀ j' k', (j' = j ∨ P.opt.ensSpinSym = true ∧ j' = j.rev) →
          (k' = k ∨ P.opt.abSym = true ∧ k' = G.mirIx k) →
          (∃ t, MolecularVt T P' nf j' k' t ∧ vmol j' k' = P.va k' + P.vb k' + t + vhxc j' k') ∧
          (P.opt.ensSpinSym = false → (Qs.map fun Q => Q j' k').sum = 1) ∧
          (P.opt.ensSpinSym = true → vmol j'.rev k' = vmol j' k' ∧
            (Qs.map fun Q => Q j' k').sum + (Qs.map fun Q => Q j'.rev k').sum = 1)) →
        vp j k = withMirror P.opt.abSym (fun j k => vmol j k - withTwin P.opt.ensSpinSym
          (fun j k => (D.map fun d => d.2 j k * d.1 j k).sum) j k) j k := by
  obtain ⟨-, ⟨D, hD, hvp⟩, -⟩ := C40_average T P P' vp h
  have hcomp := component_vp h hx hk2 hk3 hnf vhxc hmol
  have hQ' : List.Forall₂ (fun f Q => f.ks.Q = some Q) P'.comps Qs := by
    have hf := (partitionPotential_frame h).ks
    have flip : ∀ {l m : List (Frag G r c p)} {Qs : List (G.Cols p)},
        List.Forall₂ (fun f g => g.ks = f.ks ∧ g.v.frozen = f.v.frozen) l m →
        List.Forall₂ (fun f Q => f.ks.Q = some Q) l Qs → List.Forall₂ (fun f Q => f.ks.Q = some Q) m Qs := by
      intro l m Qs a
      induction a generalizing Qs with
      | nil => intro b; cases b; exact .nil
      | cons e _ ih =>
        intro b
        cases b with
        | cons e' b => exact .cons (by rw [e.1]; exact e') (ih b)
    exact flip hf hQ
  -- collect the components' potentials
  have key : ∀ (l : List (Frag G r c p)) (D : List (G.Cols p × G.Cols p)) (Qs : List (G.Cols p)),
      List.Forall₂ (fun f Q => f.ks.Q = some Q) l Qs →
      List.Forall₂ (fun f d => f.v.vp = some d.1 ∧ f.ks.Q = some d.2 ∧
        ∃ pot kin hxc : G.Cols p, f.v.vpPot = some pot ∧ f.v.vpKin = some kin ∧ f.v.vpHxc = some hxc ∧
          ∀ j k, d.1 j k = pot j k + kin j k + hxc j k) l D →
      (∀ f ∈ l, ∃ v : G.Cols p, ComponentPotential (P.opt.interaction = .dft) f v ∧
        ∃ w, f.v.vp = some w ∧ ∀ j k t, MolecularVt T P' nf j k t →
          w j k = P.va k + P.vb k + t + vhxc j k - v j k) →
      ∃ E : List (G.Cols p × G.Cols p),
        List.Forall₂ (fun f d => f.ks.Q = some d.2 ∧ ComponentPotential (P.opt.interaction = .dft) f d.1) l E ∧
        E.map Prod.snd = Qs ∧
        ∀ j k t, MolecularVt T P' nf j k t →
          (D.map fun d => d.2 j k * d.1 j k).sum =
            (P.va k + P.vb k + t + vhxc j k) * (Qs.map fun Q => Q j k).sum -
              (E.map fun d => d.2 j k * d.1 j k).sum := by
    intro l
    induction l with
    | nil =>
      intro D Qs h1 h2 _
      cases h1; cases h2
      exact ⟨[], .nil, rfl, fun j k t _ => by simp⟩
    | cons f l ih =>
      intro D Qs h1 h2 h3
      cases h1 with | @cons _ Q _ Qs a1 b1 => ?_
      cases h2 with | @cons _ d _ D a2 b2 => ?_
      obtain ⟨E, hE, hE', hs⟩ := ih D Qs b1 b2 fun f hf => h3 f (List.mem_cons_of_mem _ hf)
      obtain ⟨v, hv, w, hw, hwt⟩ := h3 f (List.mem_cons_self ..)
      refine ⟨(v, Q) :: E, .cons ⟨a1, hv⟩ hE, by simp [hE'], fun j k t ht => ?_⟩
      simp only [List.map_cons, List.sum_cons]
      rw [hs j k t ht, Option.some.inj (a2.1.symm.trans hw), hwt j k t ht,
        Option.some.inj (a2.2.1.symm.trans a1)]
      ring
  obtain ⟨E, hE, hE', hs⟩ := key P'.comps D Qs hQ' hD hcomp
  refine ⟨E, hE, hE', fun vmol j k hyp => ?_⟩
  have point : ∀ k', (k' = k ∨ P.opt.abSym = true ∧ k' = G.mirIx k) →
      withTwin P.opt.ensSpinSym (fun j k => (D.map fun d => d.2 j k * d.1 j k).sum) j k' =
        vmol j k' - withTwin P.opt.ensSpinSym (fun j k => (E.map fun d => d.2 j k * d.1 j k).sum) j k' := by
    intro k' hk'
    obtain ⟨⟨t, ht, hv⟩, h1, h2⟩ := hyp j k' (.inl rfl) hk'
    cases hes : P.opt.ensSpinSym with
    | false =>
      simp only [withTwin, Bool.false_eq_true, ↓reduceIte, add_zero]
      rw [hs j k' t ht, h1 hes, hv]
      ring
    | true =>
      obtain ⟨⟨t', ht', hv'⟩, -, -⟩ := hyp j.rev k' (.inr ⟨hes, rfl⟩) hk'
      obtain ⟨e1, e2⟩ := h2 hes
      simp only [withTwin, ↓reduceIte]
      rw [hs j k' t ht, hs j.rev k' t' ht', ← hv, ← hv', e1]
      linear_combination (vmol j k') * e2
  rw [hvp]
  cases hab : P.opt.abSym with
  | false =>
    simp only [withMirror, Bool.false_eq_true, ↓reduceIte]
    exact point k (.inl rfl)
  | true =>
    simp only [withMirror, ↓reduceIte]
    rw [point k (.inl rfl), point (G.mirIx k) (.inr ⟨hab, rfl⟩)]

/-- A concrete case of C40: nuclear potentials (2,0) and (0,6), Q functions (1/4,0) and (3/4,1), no kinetic
and interaction parts: the partition potential at the first point is
2 + 0 - (1/4 * 2 + 3/4 * 0) = 3/2, at the second 0 + 6 - (0 * 0 + 1 * 6) = 0. -/
example (T : Env (Grid.tiny ℚ) 0 0 1) : ∃ (P' : Part (Grid.tiny ℚ) 0 0 1) (vp : (Grid.tiny ℚ).Cols 1),
    (let va : (Grid.tiny ℚ).Fld := fun k => if k = 0 then 2 else 0
      let vb : (Grid.tiny ℚ).Fld := fun k => if k = 0 then 0 else 6
      let f : (Grid.tiny ℚ).Fld → (Grid.tiny ℚ).Cols 1 → Frag (Grid.tiny ℚ) 0 0 1 := fun v Q =>
        let f := Frag.sample (fun _ _ => 0) 1 (KSEnergy.sample 0)
        { f with ks := { f.ks with vnuc := fun _ => v, Q := some Q } }
      let P := Part.sample ⟨.component, .exact, .none, .ni, false, false, false⟩
        (f va fun _ k => if k = 0 then 1 / 4 else 0) (f vb fun _ k => if k = 0 then 3 / 4 else 1) none
      ({ P with va, vb, nf := some fun _ _ => 1 } : Part (Grid.tiny ℚ) 0 0 1).partitionPotential T) = .ok (P', vp) ∧
    vp 0 0 = 3 / 2 ∧ vp 0 1 = 0 := by
  refine ⟨_, _, rfl, ?_, ?_⟩
  · simp only [Part.sample]
    norm_num [Part.vextMol, addMirror, addFlip]
  · simp only [Part.sample]
    norm_num [Part.vextMol, addMirror, addFlip]

end Verif
