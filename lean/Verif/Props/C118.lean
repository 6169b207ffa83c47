import Verif.Props.C91
import Verif.Props.C48
import Verif.Lemmas.KsScf
import Verif.Lemmas.PartitionScfSample

/-! # C118: a fragment with all electrons is the molecule -/

namespace Verif
open Spec Part PartScf
variable {K : Type} [Field K] [LinearOrder K] [IsStrictOrderedRing K] [FloorRing K]
variable {G : Grid K} {r c p : ℕ}

/-- A partition without ensembles whose fragment A holds all electrons, and a Kohn-Sham calculation `M` of the whole
molecule (no further external potential, mixing parameter `alpha`) that has reached the same orbitals and density. -/
structure Spec.AllInA (P : Part G r c p) (M : KS G r c p) (alpha : K) : Prop where
  noAB : P.fAB = none
  kind : P.fa.ks.kind = .dft ∧ P.fb.ks.kind = .dft ∧ M.kind = .dft
  sym : P.fa.ks.sym = false ∧ P.fb.ks.sym = false ∧ M.sym = false
  frozen : P.fa.v.frozen ≠ some true ∧ P.fb.v.frozen ≠ some true
  scale : P.fa.ks.scale = some 1
  alpha : P.fa.ks.alpha = some alpha
  vext : M.vext = some fun _ _ => 0
  vnuc : ∀ j k, M.vnuc j k = P.va k + P.vb k
  solver : M.solver = P.fa.ks.solver
  empty : P.fb.ks.n = some (fun _ _ => 0) ∧ ∀ w, (P.fb.ks.solver w).N = 0
  n : ∃ n, P.fa.ks.n = some n ∧ M.n = some n ∧ P.nf = some n ∧ ∃ Q Q' : G.Cols p, P.fa.ks.Q = some Q ∧
    P.fb.ks.Q = some Q' ∧ ∀ j k, n j k ≠ 0 → Q j k = 1 ∧ Q' j k = 0

namespace KS

theorem calcDensity_N {d : Fin r × Fin c → Option (Found G)} {a b : KS G r c p} {n : G.Cols p}
    (h : a.calcDensity d = .ok (b, n)) (w : Fin r × Fin c) : (b.solver w).N = (a.solver w).N := by
  unfold calcDensity at h
  simp only [Py.do_eq_ok, Py.pure_eq_ok] at h
  obtain ⟨s, hs, _, _, h⟩ := h
  obtain ⟨rfl, -⟩ := Prod.mk.inj h
  unfold collect at hs
  refine mapSolvers_inv (fun w x => x.N = (a.solver w).N) _ _ ?_ _ _ hs (fun _ => rfl) w
  intro w x x' hx hp
  split at hx
  · exact nomatch hx
  · obtain rfl := Except.ok.inj hx
    exact hp

theorem setEffectivePotential_N {a b : KS G r c p} (h : a.setEffectivePotential = .ok b) (w : Fin r × Fin c) :
    (b.solver w).N = (a.solver w).N := by
  unfold setEffectivePotential at h
  simp only [Py.do_eq_ok, Py.pure_eq_ok] at h
  obtain ⟨_, _, _, _, s, hs, rfl⟩ := h
  unfold distribute at hs
  refine mapSolvers_inv (fun w x => x.N = (a.solver w).N) _ _ ?_ _ _ hs (fun _ => rfl) w
  intro w x x' hx hp
  simp only [Py.do_eq_ok, Py.pure_eq_ok] at hx
  obtain ⟨_, _, rfl⟩ := hx
  exact hp

/-- No electrons, no density. -/
theorem density_empty {s : Solver G} (h : s.N = 0) {n : G.Fld} (hn : s.calcDensity = .ok n) : n = fun _ => 0 := by
  have ho : s.occupation = (0, 0) := by
    unfold Solver.occupation
    simp [h]
  unfold Solver.calcDensity at hn
  rw [ho] at hn
  simp only [ne_eq, not_true_eq_false, and_false, if_false, Py.do_eq_ok, Py.pure_eq_ok] at hn
  obtain ⟨_, h1, _, rfl, rfl⟩ := hn
  have : pyRange 0 = [] := rfl
  rw [this, List.foldlM_nil] at h1
  obtain rfl := Except.ok.inj h1
  funext k
  simp

theorem sumDensities_empty {s : Fin r × Fin c → Solver G} (h : ∀ w, (s w).N = 0) {n : G.Cols p}
    (hn : sumDensities p s = .ok n) : n = fun _ _ => 0 := by
  unfold sumDensities at hn
  have : ∀ l : List (Fin r × Fin c), ∀ n0 : G.Cols p, n0 = (fun _ _ => 0) → l.foldlM (fun (nout : G.Cols p) w => do
      let n ← (s w).calcDensity
      if h : w.2.1 < p then
        pure (Function.update nout ⟨w.2.1, h⟩ fun k => nout ⟨w.2.1, h⟩ k + n k)
      else .error .indexError) n0 = (.ok n : Py _) → n = fun _ _ => 0 := by
    intro l
    induction l with
    | nil => intro n0 h0 hn; obtain rfl := Except.ok.inj hn; exact h0
    | cons w l ih =>
      intro n0 h0 hn
      rw [List.foldlM_cons, Py.do_eq_ok] at hn
      obtain ⟨n1, h1, hn⟩ := hn
      refine ih n1 ?_ hn
      rw [Py.do_eq_ok] at h1
      obtain ⟨m, hm, h1⟩ := h1
      split at h1
      · obtain rfl := Except.ok.inj h1
        rw [density_empty (h w) hm, h0]
        funext j k
        by_cases hj : j = ⟨w.2.1, by assumption⟩ <;> simp [Function.update_apply]
      · exact nomatch h1
  exact this _ _ rfl hn

theorem energy_keep {F : Functionals G p} {a b : KS G r c p} (h : a.energy F = .ok b) :
    b.solver = a.solver ∧ b.n = a.n ∧ b.u = a.u ∧ b.sym = a.sym ∧ b.Q = a.Q := by
  unfold energy at h
  rw [Py.do_eq_ok] at h
  obtain ⟨⟨_, _, _, _⟩, -, h⟩ := h
  cases hk : a.kind with
  | ni =>
    rw [hk] at h
    simp only [Py.do_eq_ok, Py.pure_eq_ok] at h
    obtain ⟨_, _, _, _, rfl⟩ := h
    exact ⟨rfl, rfl, rfl, rfl, rfl⟩
  | dft =>
    rw [hk] at h
    simp only [Py.do_eq_ok, Py.pure_eq_ok] at h
    obtain ⟨_, _, _, _, _, _, _, _, _, _, ⟨_, _, _⟩, _, ⟨_, _, _⟩, _, rfl⟩ := h
    exact ⟨rfl, rfl, rfl, rfl, rfl⟩

theorem calcHxc_keep {F : Functionals G p} {a b : KS G r c p} (h : a.calcHxc F = .ok b) (hk : a.kind = .dft)
    (hs : a.sym = false) : b.solver = a.solver ∧ b.n = a.n ∧ b.sym = a.sym ∧ b.Q = a.Q ∧ b.u = a.u ∧
      ∃ n v, a.n = some n ∧ b.vhxc = some v ∧ HxcPotential F n v := by
  unfold calcHxc rawHxc at h
  rw [hk] at h
  simp only [Py.do_eq_ok, Py.pure_eq_ok] at h
  obtain ⟨m, ⟨n, hn, ⟨Ex, ex, vx⟩, hx, ⟨Ec, ec, vc⟩, hcc, vh, hh, rfl⟩, v, hv', rfl⟩ := h
  simp only [hs, Bool.false_eq_true, if_false]
  exact ⟨trivial, trivial, trivial, trivial, trivial, n, _, need_eq_ok.mp hn, rfl, vh, vx, vc, Ex, Ec, ex, ec, hh, hx, hcc,
    fun _ _ => by ring⟩

/-- Same orbitals and density: the same energies but those in the nuclear and the external potential. -/
theorem energy_same {F : Functionals G p} {a a' b b' : KS G r c p} (h : a.energy F = .ok a') (h' : b.energy F = .ok b')
    (ha : a.kind = .dft) (hb : b.kind = .dft) (hs : b.solver = a.solver) (hn : b.n = a.n) :
    ∃ e e' : KSEnergy K p, a'.E = some e ∧ b'.E = some e' ∧ e'.Ts = e.Ts ∧ e'.Eks = e.Eks ∧ e'.Vks = e.Vks ∧
      e'.evals = e.evals ∧ e'.Eh = e.Eh ∧ e'.Ex = e.Ex ∧ e'.Ec = e.Ec := by
  unfold energy at h h'
  rw [ha, Py.do_eq_ok] at h
  rw [hb, hs, Py.do_eq_ok] at h'
  obtain ⟨x, hx, h⟩ := h
  obtain ⟨y, hy, h'⟩ := h'
  obtain rfl := Except.ok.inj (hx.symm.trans hy)
  simp only [Py.do_eq_ok, Py.pure_eq_ok] at h h'
  rw [hn] at h'
  obtain ⟨n, a1, _, _, _, _, vh, a2, v0, a3, X, a4, C, a5, rfl⟩ := h
  obtain ⟨n', b1, _, _, _, _, vh', b2, v0', b3, X', b4, C', b5, rfl⟩ := h'
  obtain rfl := Except.ok.inj (a1.symm.trans b1)
  obtain rfl := Except.ok.inj (a2.symm.trans b2)
  obtain rfl := Except.ok.inj (a3.symm.trans b3)
  obtain rfl := Except.ok.inj (a4.symm.trans b4)
  obtain rfl := Except.ok.inj (a5.symm.trans b5)
  exact ⟨_, _, rfl, rfl, rfl, rfl, rfl, rfl, rfl, rfl, rfl⟩

end KS

theorem Spec.HxcPotential.unique {F : Functionals G p} {n v v' : G.Cols p} (h : HxcPotential F n v)
    (h' : HxcPotential F n v') : v = v' := by
  obtain ⟨vh, vx, vc, Ex, Ec, ex, ec, h1, h2, h3, h4⟩ := h
  obtain ⟨vh', vx', vc', Ex', Ec', ex', ec', k1, k2, k3, k4⟩ := h'
  rw [h1] at k1
  rw [h2] at k2
  rw [h3] at k3
  obtain rfl := Except.ok.inj k1
  obtain ⟨rfl, rfl, rfl⟩ := by simpa using Except.ok.inj k2
  obtain ⟨rfl, rfl, rfl⟩ := by simpa using Except.ok.inj k3
  funext j k
  rw [h4, k4]

/-- The same calculation: orbitals, density, potential, chemical potential, and all energies but those in the nuclear
and the external potential. -/
structure Spec.SameState (a b : KS G r c p) : Prop where
  solver : b.solver = a.solver
  n : b.n = a.n
  u : b.u = a.u
  veff : b.veff = a.veff
  E : ∃ e e' : KSEnergy K p, a.E = some e ∧ b.E = some e' ∧ e'.Ts = e.Ts ∧ e'.Eks = e.Eks ∧ e'.Vks = e.Vks ∧
      e'.evals = e.evals ∧ e'.Eh = e.Eh ∧ e'.Ex = e.Ex ∧ e'.Ec = e.Ec

/-- One pass of `Kohnsham.scf` and one of `Partition.scf` for a component whose effective potential turned out to be that
of the Kohn-Sham calculation. -/
theorem PartScf.fragment_body {F : Functionals G p} {W : KsScf.Workers G r c p} {o : Options K} {o' : KsScf.Options K}
    {dif : Fl K} {vp : G.Cols p} {z w : Frag G r c p} {st st' : KsScf.State G r c p} {dE dn : Fl K} {n u v : G.Cols p}
    (h : fragment F W o dif vp z = .ok w) (hb : KsScf.body F W o' st = .ok (st', dE, dn))
    (hW : ∀ (a b : KS G r c p) (i : Bool), a.solver = b.solver → a.veff = b.veff → W a i = W b i)
    (hflag : (o.iterative && Fl.gt (.fin (1 / 100)) dif) =
      (o'.iterative && Fl.gt (.fin (1 / 100)) (if o'.iterative ∧ o'.continuing then .fin 0 else st.diff)))
    (hsp : o'.spinflipsym = false) (hk : z.ks.kind = .dft) (hs : z.ks.sym = false) (hk' : st.ks.kind = .dft)
    (hs' : st.ks.sym = false) (hx : st.ks.vext = some fun _ _ => 0) (hsol : st.ks.solver = z.ks.solver)
    (hn : z.ks.n = some n) (hn' : st.ks.n = some n) (hal : z.ks.alpha = some o'.alpha) (hu : w.ks.veff = some u)
    (hv : HxcPotential F n v) (huv : ∀ j k, u j k = st.ks.vnuc j k + v j k) :
    SameState w.ks st'.ks ∧ w.ks.sym = z.ks.sym ∧ KS.Ext st.ks st'.ks ∧ st'.ks.sym = st.ks.sym := by
  unfold fragment at h
  simp only [Py.do_eq_ok, Py.pure_eq_ok] at h
  obtain ⟨f₁, h1, k₂, h2, ⟨k₃, nout⟩, h3, k₄, h4, al, h5, m, h6, k₅, h7, rfl⟩ := h
  have e1 : ∃ x, f₁.ks = { z.ks with vext := x } := by
    unfold external at h1
    split at h1
    · obtain rfl := Except.ok.inj h1
      exact ⟨z.ks.vext, rfl⟩
    · split at h1
      · obtain rfl := Except.ok.inj h1
        exact ⟨_, rfl⟩
      · simp only [Py.do_eq_ok, Py.pure_eq_ok] at h1
        obtain ⟨v, -, rfl⟩ := h1
        exact ⟨_, rfl⟩
  obtain ⟨x, e1⟩ := e1
  rw [e1] at h2
  unfold KsScf.body KsScf.potential KsScf.flipPotential KsScf.density at hb
  rw [hsp] at hb
  simp only [Py.do_eq_ok, Py.pure_eq_ok, Bool.false_eq_true, if_false] at hb
  obtain ⟨M₂, ⟨M₁, g1, vx, g2, vhxc, g3, s, g4, rfl⟩, M₄, ⟨⟨M₃, nout'⟩, g5, m', g6, rfl⟩, M₅, g7, M₆, g8, n', g9,
    e', g10, d', g11, g12⟩ := hb
  obtain ⟨rfl, -, -⟩ := by simpa using g12
  obtain ⟨a1, a2, a3, a4, a5, n1, v1, a6, a7, a8⟩ := KS.calcHxc_keep g1 hk' hs'
  have x1 := KS.calcHxc_ext g1
  obtain rfl := Option.some.inj (a6.symm.trans hn')
  obtain rfl := a8.unique hv
  obtain rfl := Option.some.inj ((need_eq_ok.mp g3).symm.trans a7)
  obtain rfl := Option.some.inj ((need_eq_ok.mp g2).symm.trans (x1.vext.trans hx))
  have eu : (fun j k => M₁.vnuc j k + 0 + vhxc j k : G.Cols p) = u := by
    funext j k
    rw [huv, x1.vnuc, add_zero]
  rw [eu] at g4 g5
  -- the potential of the component
  have v3 := KS.calcDensity_veff h3
  have v4 := KS.calcChempot_veff h4
  have v5 := KS.energy_veff h7
  unfold KS.setEffectivePotential at h2
  simp only [Py.do_eq_ok, Py.pure_eq_ok] at h2
  obtain ⟨y1, _, y2, _, s', hd, rfl⟩ := h2
  have eu' : some _ = some u := (v5.1.trans (v4.1.trans v3.1)).symm.trans hu
  rw [Option.some.inj eu'] at hd h3
  rw [a1, hsol] at g4
  obtain rfl := Except.ok.inj (g4.symm.trans hd)
  unfold KS.calcDensity at h3 g5
  simp only [Py.do_eq_ok, Py.pure_eq_ok] at h3 g5
  obtain ⟨t, t1, no, t2, t3⟩ := h3
  obtain ⟨t', t1', no', t2', t3'⟩ := g5
  rw [← hflag] at t1'
  obtain rfl : t = t' := Except.ok.inj
    (t1.symm.trans ((congrArg (fun d => KS.collect d s) 
      (hW { z.ks with vext := x, veff := some u, solver := s } { M₁ with veff := some u, solver := s } _ rfl rfl)).trans t1'))
  obtain rfl := Except.ok.inj (t2.symm.trans t2')
  rw [hs] at t3
  rw [a3, hs'] at t3'
  obtain ⟨rfl, rfl⟩ := by simpa using t3
  obtain ⟨rfl, rfl⟩ := by simpa using t3'
  obtain rfl := Option.some.inj ((attr_eq_ok.mp h5).symm.trans ((KS.calcChempot_ext h4).alpha.trans hal))
  obtain rfl := Option.some.inj ((need_eq_ok.mp g6).symm.trans (a2.trans hn'))
  unfold KS.calcChempot at h4 g8
  simp only [Py.do_eq_ok, Py.pure_eq_ok] at h4 g8
  obtain ⟨l, l1, y, l2, rfl⟩ := h4
  obtain ⟨l', l1', y', l2', rfl⟩ := g8
  obtain rfl := Option.some.inj ((need_eq_ok.mp h6).symm.trans hn)
  obtain ⟨b1, b2, b3, b4, b5⟩ := KS.energy_keep h7
  obtain ⟨d1, d2, d3, d4, d5⟩ := KS.energy_keep g7
  rw [d1] at l1'
  obtain rfl := Except.ok.inj (l1.symm.trans l1')
  obtain rfl := Except.ok.inj (l2.symm.trans l2')
  have q := KS.energy_same h7 g7 hk (x1.kind.trans hk') rfl rfl
  have x2 := KS.energy_ext g7
  refine ⟨⟨d1.trans b1.symm, d2.trans b2.symm, b3.symm, ?_, q⟩, b4.trans hs.symm,
    ⟨x2.vext.trans x1.vext, x2.scale.trans x1.scale, x2.alpha.trans x1.alpha, x2.kind.trans x1.kind, x2.vnuc.trans x1.vnuc⟩, d4.trans hs'.symm⟩
  exact (KS.energy_veff g7).1.trans hu.symm

namespace PartScf

theorem fragment_keeps {F : Functionals G p} {W : KsScf.Workers G r c p} {o : Options K} {dif : Fl K} {vp : G.Cols p}
    {z w : Frag G r c p} (h : fragment F W o dif vp z = .ok w) :
    w.ks.kind = z.ks.kind ∧ w.ks.scale = z.ks.scale ∧ w.ks.alpha = z.ks.alpha ∧ w.ks.sym = z.ks.sym ∧
      ((∀ v, (z.ks.solver v).N = 0) → z.ks.n = some (fun _ _ => 0) → z.ks.sym = false →
        (∀ v, (w.ks.solver v).N = 0) ∧ w.ks.n = some fun _ _ => 0) := by
  unfold fragment at h
  simp only [Py.do_eq_ok, Py.pure_eq_ok] at h
  obtain ⟨f₁, h1, k₂, h2, ⟨k₃, nout⟩, h3, k₄, h4, al, h5, m, h6, k₅, h7, rfl⟩ := h
  have e1 : ∃ x, f₁.ks = { z.ks with vext := x } := by
    unfold external at h1
    split at h1
    · obtain rfl := Except.ok.inj h1
      exact ⟨z.ks.vext, rfl⟩
    · split at h1
      · obtain rfl := Except.ok.inj h1
        exact ⟨_, rfl⟩
      · simp only [Py.do_eq_ok, Py.pure_eq_ok] at h1
        obtain ⟨v, -, rfl⟩ := h1
        exact ⟨_, rfl⟩
  obtain ⟨x, e1⟩ := e1
  rw [e1] at h2
  have x2 := KS.setEffectivePotential_ext h2
  have x3 := (KS.calcDensity_ext h3).1
  have x4 := KS.calcChempot_ext h4
  have x5 := KS.energy_ext h7
  obtain ⟨b1, b2, b3, b4, b5⟩ := KS.energy_keep h7
  have n2 := KS.setEffectivePotential_N h2
  have n3 := KS.calcDensity_N h3
  have m3 := (KS.calcDensity_ext h3).2
  have s2 : k₂.sym = z.ks.sym ∧ k₂.n = z.ks.n := by
    unfold KS.setEffectivePotential at h2
    simp only [Py.do_eq_ok, Py.pure_eq_ok] at h2
    obtain ⟨_, _, _, _, _, _, rfl⟩ := h2
    exact ⟨rfl, rfl⟩
  have s4 : k₄.sym = k₃.sym ∧ k₄.n = k₃.n ∧ k₄.solver = k₃.solver := by
    unfold KS.calcChempot at h4
    simp only [Py.do_eq_ok, Py.pure_eq_ok] at h4
    obtain ⟨_, _, _, _, rfl⟩ := h4
    exact ⟨rfl, rfl, rfl⟩
  unfold KS.calcDensity at h3
  simp only [Py.do_eq_ok, Py.pure_eq_ok] at h3
  obtain ⟨t, t1, no, t2, t3⟩ := h3
  obtain ⟨t4, t5⟩ := Prod.mk.inj t3
  have s3 : k₃.sym = k₂.sym := by rw [← t4]
  refine ⟨x5.kind.trans (x4.kind.trans (x3.kind.trans x2.kind)), x5.scale.trans (x4.scale.trans (x3.scale.trans x2.scale)),
    x5.alpha.trans (x4.alpha.trans (x3.alpha.trans x2.alpha)), b4.trans (s4.1.trans (s3.trans s2.1)), fun hN hn hs => ?_⟩
  have hN3 : ∀ v, (k₃.solver v).N = 0 := fun v => (n3 v).trans ((n2 v).trans (hN v))
  refine ⟨fun v => by rw [b1]; exact (congrArg (fun s => (s v).N) s4.2.2).trans (hN3 v), ?_⟩
  rw [b2]
  rw [← t4] at hN3
  rw [s2.1, hs, KS.sumDensities_empty hN3 t2] at t5
  have hm := (need_eq_ok.mp h6).symm.trans (s4.2.1.trans (m3.trans (s2.2.trans hn)))
  refine congrArg some (funext fun j => funext fun k => ?_)
  rw [Option.some.inj hm]
  change (1 - al) * 0 + al * nout j k = 0
  rw [← t5]
  simp

theorem single {R : Frag G r c p → Frag G r c p → Prop} {P P' : Part G r c p} (hn : P.fAB = none)
    (hA : List.Forall₂ R P.compsA P'.compsA) : P'.fAB = none ∧ R P.fa P'.fa := by
  unfold compsA at hA
  rw [hn] at hA
  cases hP : P'.fAB with
  | none =>
    rw [hP] at hA
    cases hA with
    | cons h _ => exact ⟨rfl, h⟩
  | some x =>
    rw [hP] at hA
    cases hA with
    | cons h h' => exact nomatch h'

theorem singleB {R : Frag G r c p → Frag G r c p → Prop} {P P' : Part G r c p} (hn : P.fAB = none)
    (hB : List.Forall₂ R P.compsB P'.compsB) : R P.fb P'.fb := by
  unfold compsB at hB
  rw [hn] at hB
  cases hP : P'.fAB with
  | none =>
    rw [hP] at hB
    cases hB with
    | cons h _ => exact h
  | some x =>
    rw [hP] at hB
    cases hB with
    | cons h h' => exact nomatch h'

theorem current {P : Part G r c p} {na nb : G.Cols p} (hA : weighted P.compsA = .ok na) (hB : weighted P.compsB = .ok nb)
    (h1 : P.naFrac = some (addFlip P.opt.ensSpinSym na)) (h2 : P.nbFrac = some (addFlip P.opt.ensSpinSym nb))
    (h3 : P.nf = some fun j k => addFlip P.opt.ensSpinSym na j k + addFlip P.opt.ensSpinSym nb j k) :
    P.calcProtomolecule = .ok P := by
  unfold calcProtomolecule
  rw [hA, hB]
  change Except.ok _ = _
  rw [← h1, ← h2, ← h3]

/-- The promolecule where fragment B is empty. -/
theorem promolecule_empty {o : Options K} {P P' : Part G r c p} {n : G.Cols p} (h : promolecule o P = .ok P')
    (hft : o.fromTarget = false) (hens : P.opt.ensSpinSym = false) (hAB : P.fAB = none) (hA : P.fa.ks.n = some n)
    (hs : P.fa.ks.scale = some 1) (hB : P.fb.ks.n = some fun _ _ => 0) :
    P'.fAB = none ∧ P'.va = P.va ∧ P'.vb = P.vb ∧ P'.nf = some n ∧ P'.calcProtomolecule = .ok P' ∧
      (∃ s, P.fb.ks.scale = some s) ∧ ∃ Q Q' : G.Cols p,
      P'.fa = ⟨{ P.fa.ks with Q := some Q }, P.fa.v⟩ ∧ P'.fb = ⟨{ P.fb.ks with Q := some Q' }, P.fb.v⟩ ∧
      ∀ j k, n j k ≠ 0 → Q j k = 1 ∧ Q' j k = 0 := by
  unfold promolecule calcProtomolecule calcQ at h
  rw [hft, if_neg (by decide)] at h
  simp only [Py.do_eq_ok, Py.pure_eq_ok] at h
  obtain ⟨P₁, ⟨na, h1, nb, h2, rfl⟩, nf, h3, h4⟩ := h
  obtain rfl := Option.some.inj (attr_eq_ok.mp h3)
  have e1 : na = n := by
    unfold weighted compsA at h1
    simp only [hAB, Option.map_none, Option.toList_none, List.foldlM_cons, List.foldlM_nil, Py.do_eq_ok, Py.pure_eq_ok] at h1
    obtain ⟨_, ⟨_, q1, _, q2, rfl⟩, rfl⟩ := h1
    obtain rfl := Option.some.inj ((need_eq_ok.mp q1).symm.trans hA)
    obtain rfl := Option.some.inj ((need_eq_ok.mp q2).symm.trans hs)
    funext j k
    ring
  have e2 : nb = fun _ _ => 0 := by
    unfold weighted compsB at h2
    simp only [hAB, Option.map_none, Option.toList_none, List.foldlM_cons, List.foldlM_nil, Py.do_eq_ok, Py.pure_eq_ok] at h2
    obtain ⟨_, ⟨_, q1, _, q2, rfl⟩, rfl⟩ := h2
    obtain rfl := Option.some.inj ((need_eq_ok.mp q1).symm.trans hB)
    funext j k
    ring
  subst e1 e2
  have e3 : (fun j k => addFlip P.opt.ensSpinSym na j k + addFlip P.opt.ensSpinSym (fun _ _ => 0) j k : G.Cols p) = na := by
    funext j k
    simp [addFlip, hens]
  rw [e3] at h4
  obtain ⟨⟨a, b, AB', rfl⟩, k1, k2⟩ := mapAll_inv h4
  obtain ⟨AB, kA⟩ := single hAB k1
  have kB := singleB hAB k2
  simp only [Py.do_eq_ok, Py.pure_eq_ok] at kA kB
  obtain ⟨m1, q1, s1, q2, eA⟩ := kA
  obtain ⟨m2, q3, s2, q4, eB⟩ := kB
  obtain rfl := Option.some.inj (hA.symm.trans (need_eq_ok.mp q1))
  obtain rfl := Option.some.inj (hs.symm.trans (need_eq_ok.mp q2))
  obtain rfl := Option.some.inj (hB.symm.trans (need_eq_ok.mp q3))
  have hAB' : AB' = none := AB
  subst hAB'
  refine ⟨rfl, rfl, rfl, rfl, ?_, ⟨s2, need_eq_ok.mp q4⟩, _, _, eA.symm, eB.symm, fun j k hjk => ?_⟩
  · have hA' : a.ks.n = some na ∧ a.ks.scale = some 1 := by
      have : a = _ := eA.symm
      rw [this]
      exact ⟨hA, hs⟩
    have hB' : b.ks.n = some (fun _ _ => 0) ∧ b.ks.scale = some s2 := by
      have : b = _ := eB.symm
      rw [this]
      exact ⟨hB, need_eq_ok.mp q4⟩
    have wA : weighted [a] = .ok na := by
      simp only [weighted, List.foldlM_cons, List.foldlM_nil, hA'.1, hA'.2]
      refine congrArg Except.ok (funext fun j => funext fun k => ?_)
      ring
    have wB : weighted [b] = .ok (fun _ _ => 0 : G.Cols p) := by
      simp only [weighted, List.foldlM_cons, List.foldlM_nil, hB'.1, hB'.2]
      refine congrArg Except.ok (funext fun j => funext fun k => ?_)
      ring
    exact current (na := na) (nb := fun _ _ => 0) wA wB rfl rfl (congrArg some e3.symm)
  · simp [Fl.div, Fl.clean, hjk]

end PartScf

/-- C118, one pass: let fragment A hold all electrons (`AllInA`), with exact Hartree, exchange and correlation parts and
any kinetic part that is a function of the density; no symmetry options.  Then one pass of `Partition.scf` does for
fragment A what one pass of `Kohnsham.scf` does for the molecule: same potential, orbitals, density, chemical potential
and energies (of non-nuclear origin), and fragment A holds all electrons again.  In 'sdft' without a further condition,
in 'pdft' where the density vanishes nowhere (`C118_refuted`). -/
theorem C118_pass_partial (T : Env G r c p) (W : KsScf.Workers G r c p) (o : Options K) (o' : KsScf.Options K)
    (dif : Fl K) (P P' : Part G r c p) (st st' : KsScf.State G r c p) (dE dn : Fl K) (hc : c ≤ p)
    (h : pass T W o dif P = .ok P') (hb : KsScf.body T.toFunctionals W o' st = .ok (st', dE, dn))
    (hd : P.opt.interaction = .dft) (hi : P.opt.isolated = false) (hx : P.opt.hxc = .exact)
    (hab : P.opt.abSym = false) (hens : P.opt.ensSpinSym = false) (hft : o.fromTarget = false)
    (hsp : o'.spinflipsym = false) (Tk : G.Cols p → K) (vk : G.Cols p → G.Cols p)
    (hkin : KineticLaw T P.opt.kin Tk vk)
    (hW : ∀ (a b : KS G r c p) (i : Bool), a.solver = b.solver → a.veff = b.veff → W a i = W b i)
    (hflag : (o.iterative && Fl.gt (.fin (1 / 100)) dif) =
      (o'.iterative && Fl.gt (.fin (1 / 100)) (if o'.iterative ∧ o'.continuing then .fin 0 else st.diff)))
    (hall : AllInA P st.ks o'.alpha)
    (hpos : o.calcType = .sdft ∨ ∀ nf, P.nf = some nf → ∀ j k, nf j k ≠ 0) :
    SameState P'.fa.ks st'.ks ∧ AllInA P' st'.ks o'.alpha := by
  obtain ⟨n, na, nm, hnf, Q, Q', hQ, hQ', hq⟩ := hall.n
  have hcomp : ∀ f ∈ P.comps, f.ks.kind = .dft ∧ f.ks.sym = false ∧ f.v.frozen ≠ some true := by
    intro f hf
    have : f = P.fa ∨ f = P.fb := by simpa [Part.comps, Part.compsA, Part.compsB, hall.noAB] using hf
    obtain rfl | rfl := this
    · exact ⟨hall.kind.1, hall.sym.1, hall.frozen.1⟩
    · exact ⟨hall.kind.2.1, hall.sym.2.1, hall.frozen.2⟩
  have hpot : ∃ u v, P'.fa.ks.veff = some u ∧ HxcPotential T.toFunctionals n v ∧
      ∀ j k, u j k = st.ks.vnuc j k + v j k := by
    cases ht : o.calcType with
    | sdft =>
      obtain ⟨v, h1, h2, -⟩ := C91_sdft T W o dif P P' hc h ht hd hi hx Tk vk hkin n hnf hcomp
      obtain ⟨-, m, hm, h3, -⟩ := single hall.noAB h2
      obtain rfl := Option.some.inj (hm.symm.trans na)
      exact ⟨_, v, h3, h1, fun j k => by rw [hall.vnuc]; ring⟩
    | pdft =>
      have hpos' : ∀ j k, n j k ≠ 0 := by
        obtain hp | hp := hpos
        · rw [ht] at hp; exact nomatch hp
        · exact hp n hnf
      obtain ⟨v, vp, D, h1, h2, h3, h4⟩ := C91_pdft T W o dif P P' hc h ht hd hi hx hab hens Tk vk hkin n hnf hcomp
      have hcs : P.comps = [P.fa, P.fb] := by simp [Part.comps, Part.compsA, Part.compsB, hall.noAB]
      rw [hcs] at h2
      obtain _ | ⟨e1, _ | ⟨e2, _ | _⟩⟩ := h2
      rename_i d1 d2
      have hA : P'.comps.head? = some P'.fa := by unfold Part.comps Part.compsA; cases P'.fAB <;> rfl
      have h5 : MovesIn hc P'.fa d1.2.1 := by
        generalize P'.comps = l at h3 hA
        cases h3 with
        | cons e _ =>
          obtain rfl := Option.some.inj hA
          exact e
      refine ⟨d1.2.1, v, h5.1, h1, fun j k => ?_⟩
      obtain rfl : d1.1 = Q := Option.some.inj (e1.Q.symm.trans hQ)
      obtain rfl : d2.1 = Q' := Option.some.inj (e2.Q.symm.trans hQ')
      have hn1 : d1.2.2 = n := Option.some.inj (e1.n.symm.trans na)
      obtain ⟨q1, q2⟩ := hq j k (hpos' j k)
      have := h4 j k (by simp [q1, q2])
      simp only [List.map_cons, List.map_nil, List.sum_cons, List.sum_nil, q1, q2, hn1] at this
      rw [hall.vnuc]
      linear_combination this
  obtain ⟨u, v, hu, hv, huv⟩ := hpot
  obtain ⟨P₁, P₂, P₃, P₄, P₅, P₆, vp, h1, h2, h3, h4, h5, h6, h7, o1, o2, o3, o4, o5, o6, o7⟩ := pass_inv h
  obtain ⟨⟨_, _, _, a1⟩, a2, -, a4⟩ := onKSab_inv h1
  obtain ⟨-, -, b3, -⟩ := mirrorIf_inv h2
  obtain rfl := b3 (by rw [o1.1]; exact hab)
  have fr := potential_inv h3
  obtain ⟨⟨_, _, _, c1⟩, c2, -, c4⟩ := onKSab_inv h4
  obtain ⟨-, -, d3, -⟩ := mirrorIf_inv h5
  obtain rfl := d3 (by rw [o4.1]; exact hab)
  have fe := energy_frame h7
  obtain ⟨AB1, A1⟩ := single hall.noAB a2
  have B1 := singleB hall.noAB (a4 hab)
  obtain ⟨AB3, A3⟩ := single AB1 fr.ksA
  have B3 := singleB AB1 fr.ksB
  obtain ⟨AB4, A4⟩ := single AB3 c2
  have B4 := singleB AB3 (c4 (by rw [o3.1]; exact hab))
  -- the states between
  have kA : KS.calcHxc T.toFunctionals P.fa.ks = .ok P₃.fa.ks ∧ P₃.fa.v.frozen = P.fa.v.frozen := by
    unfold hxcUpdate at A1
    simp only [Py.do_eq_ok, Py.pure_eq_ok] at A1
    obtain ⟨k, q1, _, _, q2⟩ := A1
    rw [A3.1, A3.2, ← q2]
    exact ⟨q1, rfl⟩
  have kB : KS.calcHxc T.toFunctionals P.fb.ks = .ok P₃.fb.ks ∧ P₃.fb.v.frozen = P.fb.v.frozen := by
    unfold hxcUpdate at B1
    simp only [Py.do_eq_ok, Py.pure_eq_ok] at B1
    obtain ⟨k, q1, _, _, q2⟩ := B1
    rw [B3.1, B3.2, ← q2]
    exact ⟨q1, rfl⟩
  obtain ⟨l1, l2, l3, -, -, -⟩ := KS.calcHxc_keep kA.1 hall.kind.1 hall.sym.1
  obtain ⟨m1, m2, m3, -, -, -⟩ := KS.calcHxc_keep kB.1 hall.kind.2.1 hall.sym.2.1
  have xA := KS.calcHxc_ext kA.1
  have xB := KS.calcHxc_ext kB.1
  obtain ⟨f1, f2, f3, f4, -⟩ := fragment_keeps A4
  obtain ⟨g1, g2, g3, g4, g5⟩ := fragment_keeps B4
  obtain ⟨g6, g7⟩ := g5 (fun v => by rw [m1]; exact hall.empty.2 v) (m2.trans hall.empty.1) (m3.trans hall.sym.2.1)
  have vA := (fragment_inv A4).1
  have vB := (fragment_inv B4).1
  have hn4 : ∃ n', P₅.fa.ks.n = some n' := by
    have A4' := A4
    unfold fragment at A4'
    simp only [Py.do_eq_ok, Py.pure_eq_ok] at A4'
    obtain ⟨_, _, _, _, _, _, _, _, _, _, _, _, _, q, e⟩ := A4'
    rw [← e]
    exact ⟨_, (KS.energy_keep q).2.1⟩
  obtain ⟨n', hn'⟩ := hn4
  obtain ⟨AB6, va6, vb6, nf6, -, -, R, R', eA, eB, hR⟩ := promolecule_empty h6 hft (by rw [o4.1]; exact hens) AB4 hn'
    (f2.trans (xA.scale.trans hall.scale)) g7
  obtain ⟨AB7, A7⟩ := single AB6 fe.ksA
  have B7 := singleB AB6 fe.ksB
  have uA : P₅.fa.ks.veff = some u := by
    rw [← hu, A7.1, eA]
  obtain ⟨S, s1, s2, s3⟩ := fragment_body A4 hb hW hflag hsp (xA.kind.trans hall.kind.1) (l3.trans hall.sym.1)
    hall.kind.2.2 hall.sym.2.2 hall.vext (hall.solver.trans l1.symm) (l2.trans na) nm (xA.alpha.trans hall.alpha) uA hv huv
  have eks : P'.fa.ks = { P₅.fa.ks with Q := some R } := by rw [A7.1, eA]
  have ekb : P'.fb.ks = { P₅.fb.ks with Q := some R' } := by rw [B7.1, eB]
  have hvv : P'.va = P.va ∧ P'.vb = P.vb := by
    rw [fe.va, fe.vb, va6, vb6, c1]
    exact ⟨fr.va.trans (by rw [a1]), fr.vb.trans (by rw [a1])⟩
  refine ⟨by rw [eks]; exact ⟨S.1, S.2, S.3, S.4, S.5⟩, AB7, ?_, ?_, ?_, ?_, ?_, s2.vext.trans hall.vext, ?_, ?_, ?_, n', ?_, ?_,
    fe.nf.trans nf6, R, R', ?_, ?_, hR⟩
  · rw [eks, ekb]
    exact ⟨f1.trans (xA.kind.trans hall.kind.1), g1.trans (xB.kind.trans hall.kind.2.1), s2.kind.trans hall.kind.2.2⟩
  · rw [eks, ekb]
    exact ⟨s1.trans (l3.trans hall.sym.1), g4.trans (m3.trans hall.sym.2.1), s3.trans hall.sym.2.2⟩
  · rw [A7.2, B7.2, eA, eB]
    change P₅.fa.v.frozen ≠ _ ∧ P₅.fb.v.frozen ≠ _
    rw [vA, vB, kA.2, kB.2]
    exact hall.frozen
  · rw [eks]; exact f2.trans (xA.scale.trans hall.scale)
  · rw [eks]; exact f3.trans (xA.alpha.trans hall.alpha)
  · intro j k
    rw [hvv.1, hvv.2, s2.vnuc, hall.vnuc]
  · rw [eks]; exact S.solver
  · rw [ekb]; exact ⟨g7, g6⟩
  · rw [eks]; exact hn'
  · exact S.n.trans hn'
  · rw [eks]
  · rw [ekb]

/-! ## The energy -/

namespace KS

theorem calcHxc_Z {F : Functionals G p} {a b : KS G r c p} (h : a.calcHxc F = .ok b) :
    b.Za = a.Za ∧ b.Zb = a.Zb ∧ b.a = a.a := by
  unfold calcHxc rawHxc at h
  cases hk : a.kind <;> rw [hk] at h <;> simp only [Py.do_eq_ok, Py.pure_eq_ok] at h
  · obtain ⟨m, ⟨n, hn, ⟨Ex, ex, vx⟩, hx, ⟨Ec, ec, vc⟩, hcc, vh, hh, rfl⟩, v, hv', rfl⟩ := h
    split <;> exact ⟨rfl, rfl, rfl⟩
  · obtain ⟨m, rfl, v, -, rfl⟩ := h
    split <;> exact ⟨rfl, rfl, rfl⟩

/-- No electrons, no kinetic energy. -/
theorem energy_empty {F : Functionals G p} {a b : KS G r c p} (hc : c ≤ p) (h : a.energy F = .ok b)
    (hN : ∀ w, (a.solver w).N = 0) {e : KSEnergy K p} (he : b.E = some e) : e.Ts = .fin 0 := by
  obtain ⟨E, es, vs, ts, n, vext, hE, -, -, h1, h2, -⟩ := C34_energy F a b hc h
  obtain rfl := Option.some.inj (he.symm.trans hE)
  rw [h2]
  refine congrArg Fl.fin (Finset.sum_eq_zero fun w _ => ?_)
  obtain ⟨m, hm⟩ := h1 w
  have ho : (a.solver w).occupation = (0, 0) := by
    unfold Solver.occupation
    simp [hN w]
  unfold Solver.calcEnergy at hm
  simp only [Py.do_eq_ok] at hm
  obtain ⟨x, hx, d, hd, hm⟩ := hm
  have hx0 : x = 0 := by
    unfold Solver.calcEks at hx
    rw [ho] at hx
    simp only [ne_eq, not_true_eq_false, and_false, if_false, Py.do_eq_ok, Py.pure_eq_ok] at hx
    obtain ⟨_, q, _, rfl, rfl⟩ := hx
    have : pyRange 0 = [] := rfl
    rw [this, List.foldlM_nil] at q
    obtain rfl := Except.ok.inj q
    simp
  obtain rfl := density_empty (hN w) hd
  split at hm
  · exact nomatch hm
  · obtain ⟨q, -⟩ := Prod.mk.inj (Except.ok.inj hm)
    have := congrArg Solver.Energy.Ts q
    simp only [Solver.energyGuard, hx0, mul_zero, G.integ_zero, Fl.sub] at this
    simpa using this.symm

end KS

namespace PartScf

theorem fragment_decomposed {F : Functionals G p} {W : KsScf.Workers G r c p} {o : Options K} {dif : Fl K} {vp : G.Cols p}
    {z w : Frag G r c p} (hc : c ≤ p) (h : fragment F W o dif vp z = .ok w) (hk : z.ks.kind = .dft) (v : G.Fld)
    (hv : ∀ j, z.ks.vnuc j = v) (hZ : z.ks.Za = 0 ∨ z.ks.Zb = 0) :
    Decomposed v w ∧ ((∀ v, (z.ks.solver v).N = 0) → ∀ e, w.ks.E = some e → e.Ts = .fin 0) := by
  unfold fragment at h
  simp only [Py.do_eq_ok, Py.pure_eq_ok] at h
  obtain ⟨f₁, h1, k₂, h2, ⟨k₃, nout⟩, h3, k₄, h4, al, h5, m, h6, k₅, h7, rfl⟩ := h
  have e1 : ∃ x, f₁.ks = { z.ks with vext := x } := by
    unfold external at h1
    split at h1
    · obtain rfl := Except.ok.inj h1
      exact ⟨z.ks.vext, rfl⟩
    · split at h1
      · obtain rfl := Except.ok.inj h1
        exact ⟨_, rfl⟩
      · simp only [Py.do_eq_ok, Py.pure_eq_ok] at h1
        obtain ⟨v, -, rfl⟩ := h1
        exact ⟨_, rfl⟩
  obtain ⟨x, e1⟩ := e1
  rw [e1] at h2
  have n2 := KS.setEffectivePotential_N h2
  have n3 := KS.calcDensity_N h3
  have s4 : k₄.solver = k₃.solver := by
    unfold KS.calcChempot at h4
    simp only [Py.do_eq_ok, Py.pure_eq_ok] at h4
    obtain ⟨_, _, _, _, rfl⟩ := h4
    rfl
  have hN : (∀ v, (z.ks.solver v).N = 0) → ∀ v, (k₄.solver v).N = 0 := fun hz v => by
    rw [s4]; exact (n3 v).trans ((n2 v).trans (hz v))
  have x4 : k₄.kind = z.ks.kind ∧ k₄.vnuc = z.ks.vnuc ∧ k₄.Za = z.ks.Za ∧ k₄.Zb = z.ks.Zb := by
    unfold KS.setEffectivePotential at h2
    unfold KS.calcDensity at h3
    unfold KS.calcChempot at h4
    simp only [Py.do_eq_ok, Py.pure_eq_ok] at h2 h3 h4
    obtain ⟨_, _, _, _, _, _, rfl⟩ := h2
    obtain ⟨_, _, _, _, h3⟩ := h3
    obtain ⟨rfl, -⟩ := Prod.mk.inj h3
    obtain ⟨_, _, _, _, rfl⟩ := h4
    exact ⟨rfl, rfl, rfl, rfl⟩
  refine ⟨?_, fun hz e he => KS.energy_empty hc h7 (hN hz) he⟩
  exact decomposed_of_energy F ⟨{ k₄ with n := some (KsScf.mix al m nout) }, f₁.v⟩ k₅ hc h7 (x4.1.trans hk) v
    (fun j => (congrFun x4.2.1 j).trans (hv j)) (by rw [← x4.2.2.1, ← x4.2.2.2] at hZ; exact hZ) (KS.energy_keep h7).2.1

theorem body_energy {F : Functionals G p} {W : KsScf.Workers G r c p} {o : KsScf.Options K} {st st' : KsScf.State G r c p}
    {dE dn : Fl K} (hc : c ≤ p) (h : KsScf.body F W o st = .ok (st', dE, dn)) (hk : st.ks.kind = .dft) :
    ∃ (e : KSEnergy K p) (n vh : G.Cols p) (ts eh : K) (ex vx ec vc : _) (hp : 0 < p), st'.ks.E = some e ∧
      st'.ks.n = some n ∧ e.Ts = .fin ts ∧ e.Eh = some eh ∧ F.hartree n = .ok vh ∧ F.exchange n = .ok (e.Ex, ex, vx) ∧
      F.correlation n = .ok (e.Ec, ec, vc) ∧ eh = 1 / 2 * G.integ (fun k => (∑ s, n s k) * vh ⟨0, hp⟩ k) ∧
      e.E = .fin (ts + G.integ (fun k => ∑ s, n s k * st.ks.vnuc s k) + eh + e.Ex + e.Ec +
        st.ks.Za * st.ks.Zb / (2 * st.ks.a)) := by
  unfold KsScf.body KsScf.potential KsScf.flipPotential KsScf.density at h
  simp only [Py.do_eq_ok, Py.pure_eq_ok] at h
  obtain ⟨M₂, ⟨M₁, g1, vx, g2, vhxc, g3, s, g4, rfl⟩, M₄, ⟨⟨M₃, nout'⟩, g5, m', g6, rfl⟩, M₅, g7, M₆, g8, n', g9,
    e', g10, d', g11, g12⟩ := h
  obtain ⟨rfl, -, -⟩ := by simpa using g12
  have x1 := KS.calcHxc_ext g1
  have z1 := KS.calcHxc_Z g1
  unfold KS.calcDensity at g5
  simp only [Py.do_eq_ok, Py.pure_eq_ok] at g5
  obtain ⟨t', t1', no', t2', t3'⟩ := g5
  obtain ⟨rfl, rfl⟩ := Prod.mk.inj t3'
  obtain ⟨E, es, vs, ts, n, vext, hE, h1, -, -, h2, h3, -, h4, -, -, -, h5⟩ := C34_energy F _ _ hc g7
  have hk' : M₁.kind = .dft := x1.kind.trans hk
  obtain ⟨Eh, vh, ex, vx, ec, vc, hp, k1, k2, k3, k4, k5, k6⟩ := h5 (by
    cases o.spinflipsym <;> exact hk')
  unfold KS.calcChempot at g8
  simp only [Py.do_eq_ok, Py.pure_eq_ok] at g8
  obtain ⟨_, _, _, _, rfl⟩ := g8
  refine ⟨E, n, vh, _, Eh, ex, vx, ec, vc, hp, hE, (KS.energy_keep g7).2.1.trans h1, h2, k1, k2, k3, k4, k5, ?_⟩
  rw [k6, h4, ← x1.vnuc, ← z1.1, ← z1.2.1, ← z1.2.2]
  cases o.spinflipsym <;> rfl

end PartScf

/-- C118, energy: where moreover the pass reproduces the density (self-consistency), the total energy of the partition is
that of the Kohn-Sham calculation of the molecule, provided that both use one Hartree solver, that the fragments have
one nucleus each, and no kinetic part. -/
theorem C118_energy_partial (T : Env G r c p) (W : KsScf.Workers G r c p) (o : Options K) (o' : KsScf.Options K)
    (dif : Fl K) (P P' : Part G r c p) (st st' : KsScf.State G r c p) (dE dn : Fl K) (hc : c ≤ p)
    (h : pass T W o dif P = .ok P') (hb : KsScf.body T.toFunctionals W o' st = .ok (st', dE, dn))
    (hd : P.opt.interaction = .dft) (hi : P.opt.isolated = false) (hx : P.opt.hxc = .exact)
    (hab : P.opt.abSym = false) (hens : P.opt.ensSpinSym = false) (hft : o.fromTarget = false)
    (hsp : o'.spinflipsym = false) (hkin : P.opt.kin = .none)
    (hW : ∀ (a b : KS G r c p) (i : Bool), a.solver = b.solver → a.veff = b.veff → W a i = W b i)
    (hflag : (o.iterative && Fl.gt (.fin (1 / 100)) dif) =
      (o'.iterative && Fl.gt (.fin (1 / 100)) (if o'.iterative ∧ o'.continuing then .fin 0 else st.diff)))
    (hall : AllInA P st.ks o'.alpha)
    (hpos : o.calcType = .sdft ∨ ∀ nf, P.nf = some nf → ∀ j k, nf j k ≠ 0)
    (hfix : P'.nf = P.nf)
    (hH : ∀ (n vh : G.Cols p) (j : Fin p), T.hartree n = .ok vh → T.hartree1 (fun k => ∑ s, n s k) = .ok (vh j))
    (hva : ∀ j, P.fa.ks.vnuc j = P.va) (hvb : ∀ j, P.fb.ks.vnuc j = P.vb)
    (hZa : P.fa.ks.Za = 0 ∨ P.fa.ks.Zb = 0) (hZb : P.fb.ks.Za = 0 ∨ P.fb.ks.Zb = 0)
    (hZ : st.ks.Za = P.Za ∧ st.ks.Zb = P.Zb ∧ st.ks.a = P.a) :
    ∃ (e : PartEnergy G p) (e' : KSEnergy K p) (x : K), P'.E = some e ∧ st'.ks.E = some e' ∧ e.E = .num (.fin x) ∧
      e'.E = .fin x := by
  obtain ⟨S, hall'⟩ := C118_pass_partial T W o o' dif P P' st st' dE dn hc h hb hd hi hx hab hens hft hsp (fun _ => 0)
    (fun _ _ _ => 0) (by rw [hkin]; simp [KineticLaw]) hW hflag hall hpos
  obtain ⟨n, na', nm', hnf', -⟩ := hall'.n
  obtain ⟨P₁, P₂, P₃, P₄, P₅, P₆, vp, h1, h2, h3, h4, h5, h6, h7, o1, o2, o3, o4, o5, o6, o7⟩ := pass_inv h
  obtain ⟨⟨_, _, _, a1⟩, a2, -, a4⟩ := onKSab_inv h1
  obtain ⟨-, -, b3, -⟩ := mirrorIf_inv h2
  obtain rfl := b3 (by rw [o1.1]; exact hab)
  have fr := potential_inv h3
  obtain ⟨c0, c2, -, c4⟩ := onKSab_inv h4
  obtain ⟨-, -, d3, -⟩ := mirrorIf_inv h5
  obtain rfl := d3 (by rw [o4.1]; exact hab)
  have fe := energy_frame h7
  obtain ⟨AB1, A1⟩ := single hall.noAB a2
  have B1 := singleB hall.noAB (a4 hab)
  obtain ⟨AB3, A3⟩ := single AB1 fr.ksA
  have B3 := singleB AB1 fr.ksB
  obtain ⟨AB4, A4⟩ := single AB3 c2
  have B4 := singleB AB3 (c4 (by rw [o3.1]; exact hab))
  have kA : KS.calcHxc T.toFunctionals P.fa.ks = .ok P₃.fa.ks := by
    unfold hxcUpdate at A1
    simp only [Py.do_eq_ok, Py.pure_eq_ok] at A1
    obtain ⟨k, q1, _, _, q2⟩ := A1
    rw [A3.1, ← q2]
    exact q1
  have kB : KS.calcHxc T.toFunctionals P.fb.ks = .ok P₃.fb.ks := by
    unfold hxcUpdate at B1
    simp only [Py.do_eq_ok, Py.pure_eq_ok] at B1
    obtain ⟨k, q1, _, _, q2⟩ := B1
    rw [B3.1, ← q2]
    exact q1
  obtain ⟨m1, m2, m3, -⟩ := KS.calcHxc_keep kB hall.kind.2.1 hall.sym.2.1
  have xA := KS.calcHxc_ext kA
  have xB := KS.calcHxc_ext kB
  have zA := KS.calcHxc_Z kA
  have zB := KS.calcHxc_Z kB
  obtain ⟨f1, f2, f3, f4, -⟩ := fragment_keeps A4
  obtain ⟨g1, g2, g3, g4, g5⟩ := fragment_keeps B4
  obtain ⟨g6, g7⟩ := g5 (fun v => by rw [m1]; exact hall.empty.2 v) (m2.trans hall.empty.1) (m3.trans hall.sym.2.1)
  obtain ⟨DA, -⟩ := fragment_decomposed hc A4 (xA.kind.trans hall.kind.1) P.va (fun j => by rw [xA.vnuc]; exact hva j)
    (by rw [zA.1, zA.2.1]; exact hZa)
  obtain ⟨DB, TB⟩ := fragment_decomposed hc B4 (xB.kind.trans hall.kind.2.1) P.vb (fun j => by rw [xB.vnuc]; exact hvb j)
    (by rw [zB.1, zB.2.1]; exact hZb)
  have TB := TB fun v => by rw [m1]; exact hall.empty.2 v
  have hxA : P₅.fa.ks.scale = some 1 := f2.trans (xA.scale.trans hall.scale)
  obtain ⟨nA, eA, tsA, ehA, vhA, eksA, DA1, DA2, DA3, DA4, DA5, DA6, DA7, DA8⟩ := DA
  obtain ⟨nB, eB, tsB, ehB, vhB, eksB, DB1, DB2, DB3, DB4, DB5, DB6, DB7, DB8⟩ := DB
  obtain rfl := Option.some.inj (DB1.symm.trans g7)
  obtain rfl : tsB = 0 := by have := TB eB DB2; rw [DB3] at this; exact Fl.fin.inj this
  obtain ⟨AB6, va6, vb6, nf6, cur6, ⟨s, hs⟩, R, R', FA, FB, -⟩ := promolecule_empty h6 hft (by rw [o4.1]; exact hens) AB4 DA1
    hxA g7
  obtain rfl : nA = n := Option.some.inj (nf6.symm.trans (fe.nf.symm.trans hnf'))
  have cA : P₆.compsA = [P₆.fa] := by simp [compsA, AB6]
  have cB : P₆.compsB = [P₆.fb] := by simp [compsB, AB6]
  have hvv : P₆.va = P.va ∧ P₆.vb = P.vb := by
    obtain ⟨_, _, _, c1⟩ := c0
    rw [va6, vb6, c1]
    exact ⟨fr.va.trans (by rw [a1]), fr.vb.trans (by rw [a1])⟩
  -- the stored exchange and correlation energies
  have h3' := h3
  unfold potential at h3'
  rw [show P₂.opt.isolated = false by rw [o1.1]; exact hi, if_neg (by decide)] at h3'
  obtain ⟨n0, ex, ec, epsX, epsC, vx, vc, x1, x2, x3, x4, x5⟩ := partitionPotential_xc h3' (by rw [o1.1]; exact hd)
  obtain rfl : n0 = nA := by
    have : P₂.nf = some nA := by rw [a1]; exact hfix.symm.trans hnf'
    exact Option.some.inj (x1.symm.trans this)
  have xc6 : P₆.ex = some ex ∧ P₆.ec = some ec := by
    obtain ⟨-, -, -, q, -⟩ := promolecule_inv h6
    rw [q.1, q.2, c0.xc.1.1, c0.xc.1.2]
    exact ⟨x4, x5⟩
  -- the energies of the partition
  have hL : HasEnergies (decide (P₆.opt.interaction = .dft)) P₆.compsA
      [⟨1, tsA + eA.Enuc + ehA + eA.Ex + eA.Ec, tsA, eksA, eA.Enuc, eA.Ex, eA.Ec, ehA, vhA⟩] := by
    rw [cA, FA]
    exact .cons ⟨hxA, eA, DA2, DA8, DA3, DA6, rfl, fun _ => ⟨rfl, rfl, DA4, DA5⟩⟩ .nil
  have hM : HasEnergies (decide (P₆.opt.interaction = .dft)) P₆.compsB
      [⟨s, 0 + eB.Enuc + ehB + eB.Ex + eB.Ec, 0, eksB, eB.Enuc, eB.Ex, eB.Ec, ehB, vhB⟩] := by
    rw [cB, FB]
    exact .cons ⟨hs, eB, DB2, DB8, DB3, DB6, rfl, fun _ => ⟨rfl, rfl, DB4, DB5⟩⟩ .nil
  have hab6 : P₆.opt.abSym = false := by rw [o6.1]; exact hab
  have hens6 : P₆.opt.ensSpinSym = false := by rw [o6.1]; exact hens
  obtain ⟨e, y1, -, -, -, -, y2, -⟩ := C42_fragment_energies_partial T P₆ P' h7 _ _ hL (by
    rw [hab6]; exact hM) (.inr AB6)
  have hEk : e.EpKin = .num (.fin 0) := by
    obtain ⟨sa, sb, P₈, pot, hxc, kin, ep, ea, eb, -, q, -, rfl⟩ := energy_inv h7
    obtain rfl := Option.some.inj y1
    unfold partitionEnergy epKinetic kineticEnergies at q
    rw [show P₆.opt.isolated = false by rw [o6.1]; exact hi, show P₆.opt.kin = .none by rw [o6.1]; exact hkin, hens6] at q
    simp only [Bool.false_eq_true, if_false, Py.do_eq_ok, Py.pure_eq_ok] at q
    obtain ⟨_, _, _, ⟨_, rfl, rfl⟩, ⟨_, _⟩, _, q⟩ := q
    simp only [Prod.mk.injEq] at q
    obtain ⟨-, -, rfl, -⟩ := q
    simp [Tot.sub, Tot.neg, Tot.add]
  obtain ⟨Tsf, vh, w1, w2, w3, -⟩ := C41_total_energy_partial T P₆ P' h7 (by rw [o6.1]; exact hx) (by rw [o6.1]; exact hd)
    (by rw [o6.1]; exact hi) (.inr AB6) [(n0, 1)] [(fun _ _ => 0, s)]
    (by rw [cA, FA]; exact .cons ⟨DA1, hxA⟩ .nil) (by rw [cB, FB]; exact .cons ⟨g7, hs⟩ .nil) cur6
    (by
      rw [cA, FA, hvv.1]
      intro f hf
      obtain rfl := List.mem_singleton.mp hf
      exact ⟨_, eA, tsA, ehA, vhA, eksA, DA1, DA2, DA3, DA4, DA5, DA6, DA7, DA8⟩)
    (by
      rw [cB, FB, hvv.2]
      intro _ f hf
      obtain rfl := List.mem_singleton.mp hf
      exact ⟨_, eB, 0, ehB, vhB, eksB, DB1, DB2, DB3, DB4, DB5, DB6, DB7, DB8⟩)
    (fun q => by rw [hab6] at q; exact nomatch q) n0 nf6 ex ec epsX epsC vx vc x2 x3 xc6.1 xc6.2 0 e y1 hEk
  obtain rfl : Tsf = tsA := by
    rw [w1] at y2
    have := Fl.fin.inj y2
    simpa [hens6, twins, avg] using this
  -- the molecule
  obtain ⟨e', n', vh', ts', eh', ex', vx', ec', vc', hp, v1, v2, v3, v4, v5, v6, v7, v8, v9⟩ := body_energy hc hb hall.kind.2.2
  obtain rfl := Option.some.inj (v2.symm.trans nm')
  obtain ⟨p1, p2, p3, p4, p5, -⟩ := S.E
  have pA : P'.fa.ks.E = some eA := by
    rw [(single AB6 fe.ksA).2.1, FA]; exact DA2
  obtain rfl := Option.some.inj (p3.symm.trans pA)
  obtain rfl := Option.some.inj (v1.symm.trans p4)
  rw [v3, DA3] at p5
  obtain rfl := Fl.fin.inj p5
  refine ⟨e, e', _, y1, v1, w3, ?_⟩
  rw [hH n' vh' ⟨0, hp⟩ v5] at w2
  obtain rfl := Except.ok.inj w2
  rw [v6] at x2
  rw [v7] at x3
  obtain ⟨rfl, -⟩ := Prod.mk.inj (Except.ok.inj x2)
  obtain ⟨rfl, -⟩ := Prod.mk.inj (Except.ok.inj x3)
  rw [v9, v8, hZ.1, hZ.2.1, hZ.2.2, o6.2.1, o6.2.2.1, o6.2.2.2, hvv.1, hvv.2]
  have : (fun k => ∑ s, n' s k * st.ks.vnuc s k) = fun k => (∑ s, n' s k) * (P.va k + P.vb k) := by
    funext k
    rw [Finset.sum_mul]
    exact Finset.sum_congr rfl fun j _ => by rw [hall.vnuc]
  rw [this]
  congr 1
  ring

/-- C118, a calculation: along any number of passes of the two loops (with the options of `C118_pass_partial`), from a
state where fragment A holds all electrons and agrees with the molecule, they agree after every pass. -/
theorem C118_run_partial (T : ℕ → Env G r c p) (W : ℕ → KsScf.Workers G r c p) (o : Options K) (o' : KsScf.Options K)
    (dif : ℕ → Fl K) (P : ℕ → Part G r c p) (st : ℕ → KsScf.State G r c p) (hc : c ≤ p) (m : ℕ)
    (h : ∀ i < m, pass (T i) (W i) o (dif i) (P i) = .ok (P (i + 1)))
    (hb : ∀ i < m, ∃ dE dn, KsScf.body (T i).toFunctionals (W i) o' (st i) = .ok (st (i + 1), dE, dn))
    (hd : (P 0).opt.interaction = .dft) (hi : (P 0).opt.isolated = false) (hx : (P 0).opt.hxc = .exact)
    (hab : (P 0).opt.abSym = false) (hens : (P 0).opt.ensSpinSym = false) (hft : o.fromTarget = false)
    (hsp : o'.spinflipsym = false) (Tk : ℕ → G.Cols p → K) (vk : ℕ → G.Cols p → G.Cols p)
    (hkin : ∀ i, KineticLaw (T i) (P 0).opt.kin (Tk i) (vk i))
    (hW : ∀ (i : ℕ) (a b : KS G r c p) (x : Bool), a.solver = b.solver → a.veff = b.veff → W i a x = W i b x)
    (hflag : ∀ i, (o.iterative && Fl.gt (.fin (1 / 100)) (dif i)) =
      (o'.iterative && Fl.gt (.fin (1 / 100)) (if o'.iterative ∧ o'.continuing then .fin 0 else (st i).diff)))
    (hall : AllInA (P 0) (st 0).ks o'.alpha)
    (hpos : o.calcType = .sdft ∨ ∀ i nf, (P i).nf = some nf → ∀ j k, nf j k ≠ 0) :
    ∀ i < m, SameState (P (i + 1)).fa.ks (st (i + 1)).ks := by
  have key : ∀ i ≤ m, (P i).opt = (P 0).opt ∧ AllInA (P i) (st i).ks o'.alpha ∧
      (i < m → SameState (P (i + 1)).fa.ks (st (i + 1)).ks ∧ AllInA (P (i + 1)) (st (i + 1)).ks o'.alpha) := by
    have step : ∀ i, i < m → (P i).opt = (P 0).opt → AllInA (P i) (st i).ks o'.alpha →
        SameState (P (i + 1)).fa.ks (st (i + 1)).ks ∧ AllInA (P (i + 1)) (st (i + 1)).ks o'.alpha := by
      intro i him ho ha
      obtain ⟨dE, dn, hb⟩ := hb i him
      exact C118_pass_partial (T i) (W i) o o' (dif i) _ _ _ _ dE dn hc (h i him) hb (ho ▸ hd) (ho ▸ hi) (ho ▸ hx)
        (ho ▸ hab) (ho ▸ hens) hft hsp (Tk i) (vk i) (ho ▸ hkin i) (hW i) (hflag i) ha (hpos.imp_right fun q => q i)
    intro i
    induction i with
    | zero => exact fun _ => ⟨rfl, hall, fun him => step 0 him rfl hall⟩
    | succ i ih =>
      intro him
      obtain ⟨ho, -, hs⟩ := ih (by omega)
      have ho' : (P (i + 1)).opt = (P 0).opt := by
        obtain ⟨_, _, _, _, _, _, _, -, -, -, -, -, -, -, -, -, -, -, -, -, q⟩ := pass_inv (h i him)
        exact q.1.trans ho
      exact ⟨ho', (hs him).2, fun him' => step (i + 1) him' ho' (hs him).2⟩
  exact fun i him => ((key i him.le).2.2 him).1

/-! ## Two points -/

namespace Sample

/-- The Hartree potential is the density, no exchange and correlation. -/
def T118 : Env Sample.G 1 1 1 :=
  { T with
    exchange := fun _ => .ok (0, fun _ => 0, fun _ _ => 0), correlation := fun _ => .ok (0, fun _ => 0, fun _ _ => 0)
    hartree := fun n => .ok n, hartree1 := fun n => .ok n }

/-- The orbital sits on the first point unless the potential is lower on the second. -/
def W118 : KsScf.Workers Sample.G 1 1 1 := fun ks _ _ =>
  match ks.veff with
  | none => none
  | some v => some ([-1], some [fun k => if k = (if v 0 1 < v 0 0 then 1 else 0) then 1 else 0])

/-- The nuclei on the first and the second point, two electrons in fragment A, on the first point. -/
def part118 : Part Sample.G 1 1 1 :=
  let f : Fin 2 → Frag Sample.G 1 1 1 := fun i => ⟨{ (frag .dft).ks with
    solver := fun _ => { Nmo := 1, N := if i = 0 then 2 else 0, m := 0, pol := 1 }
    alpha := some 1, vhxc := some fun _ _ => 0, a := 1, Za := if i = 0 then 3 else 0, Zb := if i = 0 then 0 else 3
    n := some fun _ k => if i = 0 ∧ k = 0 then 2 else 0, Q := some fun _ k => if i = 0 ∧ k = 0 then 1 else 0
    vnuc := fun _ k => if k = (if i = 0 then 0 else 1) then -3 else 0 }, { frozen := some false }⟩
  { part { kin := .none } with
    Za := 3, Zb := 3, va := fun k => if k = 0 then -3 else 0, vb := fun k => if k = 0 then 0 else -3, fa := f 0, fb := f 1
    nf := some fun _ k => if k = 0 then 2 else 0 }

/-- The molecule. -/
def mol118 : KsScf.State Sample.G 1 1 1 where
  ks := { part118.fa.ks with vnuc := fun _ _ => -3, vext := some fun _ _ => 0, Za := 3, Zb := 3 }
  oldE := .fin 0
  oldN := fun _ _ => 0
  diff := .fin 10

theorem all118 : AllInA part118 mol118.ks 1 := by
  refine ⟨rfl, ⟨rfl, rfl, rfl⟩, ⟨rfl, rfl, rfl⟩, ⟨by decide, by decide⟩, rfl, rfl, rfl, ?_, rfl, ⟨?_, fun _ => rfl⟩, _, rfl, rfl,
    by simp [part118], _, _, rfl, rfl, ?_⟩
  · intro j k
    obtain rfl := Subsingleton.elim j 0
    fin_cases k <;> decide +kernel
  · simp [part118]
  · intro j k
    fin_cases k <;> simp

theorem W118_law (a b : KS Sample.G 1 1 1) (i : Bool) (_ : a.solver = b.solver) (h : a.veff = b.veff) : W118 a i = W118 b i := by
  unfold W118
  rw [h]

def o118 (t : CalcType) : Options ℚ := { etol := 0, alpha := [1], maxIter := 1, calcType := t, iterative := false }
def p118 : KsScf.Options ℚ := ⟨true, false, false, false, 50, 0, 1⟩

end Sample

/-- C118: 'pdft' does not do for a fragment with all electrons what `Kohnsham.scf` does for the molecule where the density
vanishes: there `Q` is 0/0, set to 0, so the partition potential is 0 and fragment A does not feel the other nucleus.
Two points with a nucleus each, two electrons on the first point; the molecular potential is lower on the second point,
to which the Kohn-Sham calculation moves the electrons; the partition calculation reproduces the density it started
with. -/
theorem C118_refuted : ∃ (T : Env Sample.G 1 1 1) (W : KsScf.Workers Sample.G 1 1 1) (o : Options ℚ) (o' : KsScf.Options ℚ)
    (P P' : Part Sample.G 1 1 1) (st st' : KsScf.State Sample.G 1 1 1) (dE dn : Fl ℚ),
    pass T W o .nan P = .ok P' ∧ KsScf.body T.toFunctionals W o' st = .ok (st', dE, dn) ∧
    o.calcType = .pdft ∧ P.opt.interaction = .dft ∧ P.opt.isolated = false ∧ P.opt.hxc = .exact ∧ P.opt.abSym = false ∧
    P.opt.ensSpinSym = false ∧ P.opt.kin = .none ∧ o.fromTarget = false ∧ o'.spinflipsym = false ∧ o.iterative = false ∧
    o'.iterative = false ∧
    (∀ (a b : KS Sample.G 1 1 1) (i : Bool), a.solver = b.solver → a.veff = b.veff → W a i = W b i) ∧
    AllInA P st.ks o'.alpha ∧
    P'.fa.ks.veff = some (fun _ k => if k = 0 then -1 else 0) ∧ st'.ks.veff = some (fun _ k => if k = 0 then -1 else -3) ∧
    P'.nf = P.nf ∧ P.nf = some (fun _ k => if k = 0 then 2 else 0) ∧ st'.ks.n = some (fun _ k => if k = 0 then 0 else 2) := by
  have ext : ∀ (v : Option (Sample.G.Cols 1)) (a b : ℚ), v.map (fun v => (v 0 0, v 0 1)) = some (a, b) →
      v = some fun _ k => if k = 0 then a else b := by
    intro v a b h
    obtain ⟨w, rfl, hw⟩ := Option.map_eq_some_iff.mp h
    obtain ⟨h0, h1⟩ := Prod.mk.inj hw
    refine congrArg some (funext fun j => funext fun k => ?_)
    obtain rfl := Subsingleton.elim j 0
    fin_cases k
    · exact h0
    · exact h1
  have e1 : (pass Sample.T118 Sample.W118 (Sample.o118 .pdft) .nan Sample.part118).toOption.map
      (fun P => (P.fa.ks.veff.map fun v => (v 0 0, v 0 1), P.nf.map fun v => (v 0 0, v 0 1))) =
      some (some (-1, 0), some (2, 0)) := by decide +kernel
  have e2 : (KsScf.body Sample.T118.toFunctionals Sample.W118 Sample.p118 Sample.mol118).toOption.map
      (fun P => (P.1.ks.veff.map fun v => (v 0 0, v 0 1), P.1.ks.n.map fun v => (v 0 0, v 0 1))) =
      some (some (-1, -3), some (0, 2)) := by decide +kernel
  cases h1 : pass Sample.T118 Sample.W118 (Sample.o118 .pdft) .nan Sample.part118 with
  | error e => rw [h1] at e1; exact nomatch e1
  | ok P' =>
    cases h2 : KsScf.body Sample.T118.toFunctionals Sample.W118 Sample.p118 Sample.mol118 with
    | error e => rw [h2] at e2; exact nomatch e2
    | ok x =>
      obtain ⟨st', dE, dn⟩ := x
      rw [h1] at e1
      rw [h2] at e2
      obtain ⟨a1, a2⟩ := Prod.mk.inj (Option.some.inj e1)
      obtain ⟨b1, b2⟩ := Prod.mk.inj (Option.some.inj e2)
      exact ⟨_, _, _, _, _, P', _, st', dE, dn, h1, h2, rfl, rfl, rfl, rfl, rfl, rfl, rfl, rfl, rfl, rfl, rfl, Sample.W118_law,
        Sample.all118, ext _ _ _ a1, ext _ _ _ b1, (ext _ _ _ a2).trans rfl, rfl, ext _ _ _ b2⟩

/-- The same calculation with 'sdft' is an instance of `C118_pass_partial`: the fragment follows the molecule. -/
example (P' : Part Sample.G 1 1 1) (st' : KsScf.State Sample.G 1 1 1) (dE dn : Fl ℚ)
    (h : pass Sample.T118 Sample.W118 (Sample.o118 .sdft) .nan Sample.part118 = .ok P')
    (hb : KsScf.body Sample.T118.toFunctionals Sample.W118 Sample.p118 Sample.mol118 = .ok (st', dE, dn)) :
    SameState P'.fa.ks st'.ks ∧ AllInA P' st'.ks 1 :=
  C118_pass_partial _ _ _ Sample.p118 _ _ _ _ _ dE dn le_rfl h hb rfl rfl rfl rfl rfl rfl rfl (fun _ => 0) (fun _ _ _ => 0)
    (by simp [KineticLaw, Sample.part118, Sample.part]) Sample.W118_law rfl Sample.all118 (.inl rfl)

example : (pass Sample.T118 Sample.W118 (Sample.o118 .sdft) .nan Sample.part118).toOption.map
    (fun P => (P.fa.ks.veff.map fun v => (v 0 0, v 0 1), P.fa.ks.n.map fun v => (v 0 0, v 0 1))) =
    some (some (-1, -3), some (0, 2)) := by decide +kernel

/-- A concrete case of `C118_energy_partial`: without Hartree energy the density is reproduced, and both total energies
are 5/2. -/
example : let T := { Sample.T118 with hartree := fun _ => .ok fun _ _ => 0, hartree1 := fun _ => .ok fun _ => 0 }
    (pass T Sample.W118 (Sample.o118 .sdft) .nan Sample.part118).toOption.bind
      (fun P => P.E.map fun e => match e.E with | .num (.fin x) => (x, P.nf.map fun v => (v 0 0, v 0 1)) | _ => (0, none)) =
        some (5 / 2, some (2, 0)) ∧
    (KsScf.body T.toFunctionals Sample.W118 Sample.p118 Sample.mol118).toOption.bind
      (fun P => P.1.ks.E.map fun e => match e.E with | .fin x => x | _ => 0) = some (5 / 2) := by decide +kernel

end Verif
