import Verif.Lemmas.KsEnergy
import Verif.Lemmas.KsScfOk
import Verif.Props.C28_C30
import Verif.Props.C62
import Verif.Props.C85
import Verif.Props.C93

/-! # C113: the names of the spins do not matter -/

namespace Verif
open Spec KS KsScf
variable {K : Type} [_root_.Field K] [LinearOrder K] [IsStrictOrderedRing K] [FloorRing K]
variable {G : Grid K} {r : ℕ}

/-- The same angular momentum with the other spin. -/
def Spec.other (w : Fin r × Fin 2) : Fin r × Fin 2 := (w.1, w.2.rev)

/-- The same energies with the spins exchanged; the list of levels is in another order. -/
structure Spec.SpinEnergy (x y : KSEnergy K 2) : Prop where
  Eks : y.Eks = fun j => x.Eks j.rev
  Vks : y.Vks = fun j => x.Vks j.rev
  Ts : y.Ts = x.Ts
  evals : y.evals.Perm x.evals
  Enuc : y.Enuc = x.Enuc
  Vext : y.Vext = x.Vext
  Vhxc : y.Vhxc = x.Vhxc
  Eh : y.Eh = x.Eh
  Ex : y.Ex = x.Ex
  Ec : y.Ec = x.Ec
  Et : y.Et = x.Et
  Vnn : y.Vnn = x.Vnn
  E : y.E = x.E

/-- Both absent, or both present and related. -/
inductive Spec.OptRel {α : Type} (R : α → α → Prop) : Option α → Option α → Prop
  | none : OptRel R none none
  | some {x y} : R x y → OptRel R (some x) (some y)

/-- `B` is `A` with the two spins exchanged: solvers and columns exchanged, all numbers the same. -/
structure Spec.Relabelled (A B : KS G r 2 2) : Prop where
  kind : B.kind = A.kind
  sym : B.sym = A.sym
  Za : B.Za = A.Za
  Zb : B.Zb = A.Zb
  a : B.a = A.a
  solver : B.solver = fun w => A.solver (other w)
  vnuc : B.vnuc = G.flipCols A.vnuc
  vext : B.vext = A.vext.map G.flipCols
  vhxc : B.vhxc = A.vhxc.map G.flipCols
  veff : B.veff = A.veff.map G.flipCols
  n : B.n = A.n.map G.flipCols
  u : B.u = A.u
  E : OptRel SpinEnergy A.E B.E
  V : B.V = ⟨A.V.vx.map G.flipCols, A.V.vc.map G.flipCols, A.V.vh.map G.flipCols, A.V.ex, A.V.ec, A.V.eh⟩
  scale : B.scale = A.scale
  Q : B.Q = A.Q.map G.flipCols
  alpha : B.alpha = A.alpha
  homo : B.homo = fun w => A.homo (other w)

/-- Functionals that treat the spins alike. -/
structure Spec.SpinFunctionals (F : Functionals G 2) : Prop where
  exchange : ∀ n, F.exchange (G.flipCols n) = (F.exchange n).map fun x => (x.1, x.2.1, G.flipCols x.2.2)
  correlation : ∀ n, F.correlation (G.flipCols n) = (F.correlation n).map fun x => (x.1, x.2.1, G.flipCols x.2.2)
  hartree : ∀ n, F.hartree (G.flipCols n) = (F.hartree n).map G.flipCols
  column : ∀ n v, F.hartree n = .ok v → v 0 = v 1

/-- The eigenproblem of a spin does not depend on its name. -/
def Spec.SpinWorkers (W : Workers G r 2 2) : Prop :=
  ∀ A B, Relabelled A B → ∀ b w, W B b w = W A b (other w)

/-- If the first call returns, so does the second, with a related result. -/
def Py.Sim {α β : Type} (R : α → β → Prop) (x : Py α) (y : Py β) : Prop := ∀ a, x = .ok a → ∃ b, y = .ok b ∧ R a b

namespace Py.Sim
variable {α β γ δ : Type} {R : α → β → Prop} {S : γ → δ → Prop}

theorem bind {x : Py α} {y : Py β} {f : α → Py γ} {g : β → Py δ} (h : Py.Sim R x y)
    (hfg : ∀ a b, R a b → Py.Sim S (f a) (g b)) : Py.Sim S (x >>= f) (y >>= g) := by
  intro c hc
  rw [Py.do_eq_ok] at hc
  obtain ⟨a, ha, hc⟩ := hc
  obtain ⟨b, hb, hab⟩ := h a ha
  obtain ⟨d, hd, hcd⟩ := hfg a b hab c hc
  exact ⟨d, Py.do_eq_ok.2 ⟨b, hb, hd⟩, hcd⟩

theorem pure {a : α} {b : β} (h : R a b) : Py.Sim R (Pure.pure a) (Pure.pure b) := by
  rintro c ⟨⟩
  exact ⟨b, rfl, h⟩

theorem ok {a : α} {b : β} (h : R a b) : Py.Sim R (.ok a) (.ok b) := pure h

theorem error {e : PyErr} {y : Py β} : Py.Sim R (.error e) y := fun _ h => nomatch h

theorem need (f : α → β) {x : Option α} (hf : ∀ a, R a (f a)) : Py.Sim R (KS.need x) (KS.need (x.map f)) := by
  cases x with
  | none => exact error
  | some a => exact ok (hf a)

theorem of_map {x : Py α} {y : Py β} (f : α → β) (hf : ∀ a, R a (f a)) (h : y = x.map f) : Py.Sim R x y := by
  rintro a rfl
  exact ⟨f a, h, hf a⟩

theorem refl (x : Py α) : Py.Sim (fun a b => b = a) x x := fun a h => ⟨a, h, rfl⟩

end Py.Sim

theorem Spec.other_other (w : Fin r × Fin 2) : other (other w) = w := by
  simp [other]

namespace Spec.Relabelled
variable {A B : KS G r 2 2} {F : Functionals G 2} {W : Workers G r 2 2} {o : Options K}

theorem flip_flip (f : G.Cols 2) : G.flipCols (G.flipCols f) = f := by
  funext s
  simp [Grid.flipCols]

theorem map_flip_flip (x : Option (G.Cols 2)) : (x.map G.flipCols).map G.flipCols = x := by
  cases x with
  | none => rfl
  | some f => simp [flip_flip]

theorem symm (h : Relabelled A B) : Relabelled B A where
  kind := h.kind.symm
  sym := h.sym.symm
  Za := h.Za.symm
  Zb := h.Zb.symm
  a := h.a.symm
  solver := by rw [h.solver]; simp only [other_other]
  vnuc := by rw [h.vnuc, flip_flip]
  vext := by rw [h.vext, map_flip_flip]
  vhxc := by rw [h.vhxc, map_flip_flip]
  veff := by rw [h.veff, map_flip_flip]
  n := by rw [h.n, map_flip_flip]
  u := h.u.symm
  E := by
    have := h.E
    generalize A.E = x at this
    generalize B.E = y at this
    cases this with
    | none => exact .none
    | some e => exact .some (
      { Eks := by rw [e.Eks]; simp, Vks := by rw [e.Vks]; simp, Ts := e.Ts.symm, evals := e.evals.symm, Enuc := e.Enuc.symm,
        Vext := e.Vext.symm, Vhxc := e.Vhxc.symm, Eh := e.Eh.symm, Ex := e.Ex.symm, Ec := e.Ec.symm, Et := e.Et.symm,
        Vnn := e.Vnn.symm, E := e.E.symm } : SpinEnergy _ _)
  V := by rw [h.V]; simp only [map_flip_flip]
  scale := h.scale.symm
  Q := by rw [h.Q, map_flip_flip]
  alpha := h.alpha.symm
  homo := by rw [h.homo]; simp only [other_other]

theorem distribute (v : G.Cols 2) (s : Fin r × Fin 2 → Solver G) :
    Py.Sim (fun t t' => t' = fun w => t (other w)) (KS.distribute v s)
      (KS.distribute (G.flipCols v) fun w => s (other w)) := by
  rw [distribute_ok _ le_rfl, distribute_ok _ le_rfl]
  exact .ok rfl

theorem setEffectivePotential (h : Relabelled A B) : Py.Sim Relabelled A.setEffectivePotential B.setEffectivePotential := by
  unfold KS.setEffectivePotential
  rw [h.vext, h.vhxc, h.vnuc, h.solver]
  refine (Py.Sim.need (R := fun x y => y = G.flipCols x) _ fun _ => rfl).bind fun x x' hx =>
    (Py.Sim.need (R := fun x y => y = G.flipCols x) _ fun _ => rfl).bind fun y y' hy => ?_
  subst hx hy
  refine Py.Sim.bind (distribute _ A.solver) fun s t hst => .pure ?_
  exact { h with solver := hst, veff := rfl, vnuc := rfl, vext := rfl, vhxc := rfl }

theorem rawHxc (hF : SpinFunctionals F) (h : Relabelled A B) : Py.Sim Relabelled (KS.rawHxc F A) (KS.rawHxc F B) := by
  unfold KS.rawHxc
  rw [h.kind]
  cases hk : A.kind with
  | ni => exact .pure { h with kind := rfl, vhxc := rfl }
  | dft =>
    rw [h.n]
    refine (Py.Sim.need (R := fun x y => y = G.flipCols x) _ fun _ => rfl).bind fun n n' hn => ?_
    subst hn
    refine (Py.Sim.of_map _ (R := fun x y => y = (x.1, x.2.1, G.flipCols x.2.2)) (fun _ => rfl) (hF.exchange n)).bind fun x x' hx =>
      (Py.Sim.of_map _ (R := fun x y => y = (x.1, x.2.1, G.flipCols x.2.2)) (fun _ => rfl) (hF.correlation n)).bind fun y y' hy =>
      (Py.Sim.of_map _ (R := fun x y => y = G.flipCols x) (fun _ => rfl) (hF.hartree n)).bind fun z z' hz => .pure ?_
    subst hx hy hz
    exact { h with kind := rfl, n := rfl, vhxc := rfl, V := by rw [h.V]; rfl }

theorem calcHxc (hF : SpinFunctionals F) (h : Relabelled A B) : Py.Sim Relabelled (A.calcHxc F) (B.calcHxc F) := by
  unfold KS.calcHxc
  refine (h.rawHxc hF).bind fun A B h => ?_
  rw [h.vhxc]
  refine (Py.Sim.need (R := fun x y => y = G.flipCols x) _ fun _ => rfl).bind fun v v' hv => .pure ?_
  subst hv
  rw [h.sym]
  split
  · exact { h with vhxc := rfl, sym := rfl }
  · exact h

theorem collect (d : Fin r × Fin 2 → Option (Found G)) (s : Fin r × Fin 2 → Solver G) :
    Py.Sim (fun t t' => t' = fun w => t (other w)) (KS.collect d s) (KS.collect (fun w => d (other w)) fun w => s (other w)) := by
  by_cases hd : ∃ w, d w = none
  · rw [collect_error d s hd]
    exact .error
  · push Not at hd
    choose f hf using fun w => Option.ne_none_iff_exists'.1 (hd w)
    rw [collect_ok d s f hf, collect_ok _ _ (fun w => f (other w)) fun w => hf _]
    exact .ok rfl

theorem sumDensities_all {s : Fin r × Fin 2 → Solver G} {n : G.Cols 2} (h : KS.sumDensities 2 s = .ok n) (w : Fin r × Fin 2) :
    ∃ m, (s w).calcDensity = .ok m := by
  refine foldlM_all _ (fun w => ∃ m, (s w).calcDensity = .ok m) ?_ _ _ _ h w (mem_colMajor w)
  intro a w a' h
  rw [Py.do_eq_ok] at h
  obtain ⟨m, hm, -⟩ := h
  exact ⟨m, hm⟩

theorem sumDensities (s : Fin r × Fin 2 → Solver G) :
    Py.Sim (fun n n' => n' = G.flipCols n) (KS.sumDensities 2 s) (KS.sumDensities 2 fun w => s (other w)) := by
  intro n hn
  choose m hm using sumDensities_all hn
  rw [sumDensities_eq s m hm le_rfl] at hn
  refine ⟨_, sumDensities_eq _ (fun w => m (other w)) (fun w => hm _) le_rfl, ?_⟩
  cases hn
  funext q k
  simp only [Grid.flipCols, q.2, q.rev.2, dif_pos]
  rfl

theorem calcDensity {d d' : Fin r × Fin 2 → Option (Found G)} (hd : d' = fun w => d (other w)) (h : Relabelled A B) :
    Py.Sim (fun x y => Relabelled x.1 y.1 ∧ y.2 = G.flipCols x.2) (A.calcDensity d) (B.calcDensity d') := by
  unfold KS.calcDensity
  rw [hd, h.solver]
  refine (collect d A.solver).bind fun s t hst => ?_
  subst hst
  refine (sumDensities s).bind fun n n' hn => .pure ⟨{ h with solver := rfl }, ?_⟩
  subst hn
  rw [h.sym]
  dsimp only
  split <;> rfl

theorem perm_other {β : Type} (f : Fin r × Fin 2 → List β) :
    ((rowMajor r 2).flatMap fun w => f (other w)).Perm ((rowMajor r 2).flatMap f) := by
  rw [show ((rowMajor r 2).flatMap fun w => f (other w)) = ((rowMajor r 2).map other).flatMap f by
    rw [List.flatMap_map]]
  refine List.Perm.flatMap_right _ ?_
  rw [List.perm_ext_iff_of_nodup]
  · intro w
    constructor
    · exact fun _ => mem_rowMajor w
    · exact fun _ => List.mem_map.2 ⟨other w, mem_rowMajor _, other_other w⟩
  · exact nodup_rowMajor.map fun a b h => by rw [← other_other a, h, other_other]
  · exact nodup_rowMajor

theorem sum_other (t : Fin r × Fin 2 → K) : ∑ w, t (other w) = ∑ w, t w :=
  Fintype.sum_equiv ⟨other, other, other_other, other_other⟩ _ _ fun _ => rfl

theorem solverEnergies (s : Fin r × Fin 2 → Solver G) :
    Py.Sim (fun x y => y.1 = (fun j => x.1 j.rev) ∧ y.2.1 = x.2.1 ∧ y.2.2.1 = (fun j => x.2.2.1 j.rev) ∧ y.2.2.2.Perm x.2.2.2)
      (KS.solverEnergies 2 s) (KS.solverEnergies 2 fun w => s (other w)) := by
  intro x hx
  choose y hy l hl using fun w => (⟨(solverEnergies_has hx w).1.choose, (solverEnergies_has hx w).1.choose_spec,
    (solverEnergies_has hx w).2⟩ : ∃ x, (s w).calcEnergy = .ok x ∧ ∃ l, (s w).eig = some l)
  choose a b v hv' hek hden he hb using fun w =>
    Solver.calcEnergy_fin (s := s w) (e := (y w).1) (n := (y w).2) (hy w)
  have hx' : ∀ w, (s w).calcEnergy = .ok (⟨.fin (a w), .fin (b w),
      .fin (a w - G.integ fun k => v w k * (y w).2 k)⟩, (y w).2) := by
    intro w
    rw [hy w, ← he w]
  rw [solverEnergies_eq le_rfl s a b _ _ l hx' hl] at hx
  cases hx
  refine ⟨_, solverEnergies_eq le_rfl _ (fun w => a (other w)) (fun w => b (other w)) _ _ (fun w => l (other w))
    (fun w => hx' _) fun w => hl _, ?_, ?_, ?_, perm_other l⟩
  · funext j
    simp only [j.2, j.rev.2, dif_pos]
    rfl
  · exact congrArg Fl.fin (sum_other fun w => a w - G.integ fun k => v w k * (y w).2 k)
  · funext j
    simp only [j.2, j.rev.2, dif_pos]
    rfl

theorem inner_flip (f g : G.Cols 2) : KS.inner (G.flipCols f) (G.flipCols g) = KS.inner f g := by
  unfold KS.inner
  congr 1
  funext k
  rw [Fin.sum_univ_two, Fin.sum_univ_two, add_comm]
  rfl

theorem sum_flip (n : G.Cols 2) (k : G.Ix) : ∑ s, G.flipCols n s k = ∑ s, n s k := by
  rw [Fin.sum_univ_two, Fin.sum_univ_two, add_comm]
  rfl

theorem energy (hF : SpinFunctionals F) (h : Relabelled A B) : Py.Sim Relabelled (A.energy F) (B.energy F) := by
  unfold KS.energy
  rw [h.solver]
  refine (solverEnergies A.solver).bind fun x x' hx => ?_
  obtain ⟨Eks, Ts, Vks, evals⟩ := x
  obtain ⟨Eks', Ts', Vks', evals'⟩ := x'
  dsimp only at hx
  obtain ⟨rfl, rfl, rfl, hp⟩ := hx
  rw [h.kind]
  have hV : B.Za * B.Zb / (2 * B.a) = A.Za * A.Zb / (2 * A.a) := by rw [h.Za, h.Zb, h.a]
  cases hk : A.kind with
  | ni =>
    have hEx : (B.E.map KSEnergy.Ex).getD 0 = (A.E.map KSEnergy.Ex).getD 0 := by
      have := h.E
      revert this
      generalize A.E = x
      generalize B.E = y
      intro h
      cases h with
      | none => rfl
      | some e => exact e.Ex
    have hEc : (B.E.map KSEnergy.Ec).getD 0 = (A.E.map KSEnergy.Ec).getD 0 := by
      have := h.E
      revert this
      generalize A.E = x
      generalize B.E = y
      intro h
      cases h with
      | none => rfl
      | some e => exact e.Ec
    simp only [hV, h.n, h.vext, h.vnuc, hEx, hEc]
    refine (Py.Sim.need (R := fun x y => y = G.flipCols x) _ fun _ => rfl).bind fun n n' hn =>
      (Py.Sim.need (R := fun x y => y = G.flipCols x) _ fun _ => rfl).bind fun v v' hv => .pure ?_
    subst hn hv
    refine { h with kind := rfl, n := rfl, vnuc := rfl, vext := rfl, solver := rfl, E := .some ?_ }
    simp only [inner_flip]
    exact { Eks := rfl, Vks := rfl, Ts := rfl, evals := hp, Enuc := rfl, Vext := rfl, Vhxc := rfl, Eh := rfl, Ex := rfl, Ec := rfl,
            Et := rfl, Vnn := rfl, E := rfl }
  | dft =>
    simp only [hV, h.n, h.vext, h.vhxc, h.vnuc]
    refine (Py.Sim.need (R := fun x y => y = G.flipCols x) _ fun _ => rfl).bind fun n n' hn =>
      (Py.Sim.need (R := fun x y => y = G.flipCols x) _ fun _ => rfl).bind fun v v' hv =>
      (Py.Sim.need (R := fun x y => y = G.flipCols x) _ fun _ => rfl).bind fun u u' hu => ?_
    subst hn hv hu
    have hz : Py.Sim (fun x y => y = G.flipCols x ∧ x 0 = x 1) (F.hartree n) (F.hartree (G.flipCols n)) := by
      intro z hz
      refine ⟨G.flipCols z, ?_, rfl, hF.column n z hz⟩
      rw [hF.hartree, hz]
      rfl
    refine hz.bind fun z z' hz => ?_
    obtain ⟨rfl, hz⟩ := hz
    have hc : Py.Sim (fun x y => y = x) (KS.col z 0) (KS.col (G.flipCols z) 0) := by
      unfold KS.col
      exact .ok hz.symm
    refine hc.bind fun z0 z0' hz0 =>
      (Py.Sim.of_map _ (R := fun x y => y = (x.1, x.2.1, G.flipCols x.2.2)) (fun _ => rfl) (hF.exchange n)).bind fun x x' hx =>
      (Py.Sim.of_map _ (R := fun x y => y = (x.1, x.2.1, G.flipCols x.2.2)) (fun _ => rfl) (hF.correlation n)).bind fun y y' hy => .pure ?_
    subst hx hy hz0
    refine { h with kind := rfl, n := rfl, vnuc := rfl, vext := rfl, solver := rfl, vhxc := rfl, V := rfl, E := .some ?_ }
    simp only [inner_flip, sum_flip]
    exact { Eks := rfl, Vks := rfl, Ts := rfl, evals := hp, Enuc := rfl, Vext := rfl, Vhxc := rfl, Eh := rfl, Ex := rfl, Ec := rfl,
            Et := rfl, Vnn := rfl, E := rfl }

theorem pyMax_perm {l l' : List K} (h : l.Perm l') : pyMax l = pyMax l' := by
  cases l with
  | nil => rw [h.nil_eq]
  | cons x l =>
    cases l' with
    | nil => exact absurd h.length_eq (by simp)
    | cons y l' =>
      obtain ⟨m, hm, h1, h2⟩ := pyMax_spec x l
      obtain ⟨m', hm', h1', h2'⟩ := pyMax_spec y l'
      rw [hm, hm', le_antisymm (h2' m (h.subset h1)) (h2 m' (h.symm.subset h1'))]

theorem calcChempot (h : Relabelled A B) : Py.Sim Relabelled A.calcChempot B.calcChempot := by
  unfold KS.calcChempot
  rw [h.solver]
  have hm : Py.Sim (fun x y => y.Perm x) ((rowMajor r 2).mapM fun w => (A.solver w).getHomo)
      ((rowMajor r 2).mapM fun w => (A.solver (other w)).getHomo) := by
    intro x hx
    choose g hg using fun w => mapM_all _ _ _ hx w (mem_rowMajor w)
    rw [mapM_ok _ g _ fun w _ => hg w] at hx
    cases hx
    refine ⟨_, mapM_ok _ (fun w => g (other w)) _ fun w _ => hg _, ?_⟩
    have := perm_other fun w => [g w]
    rwa [← List.map_eq_flatMap, ← List.map_eq_flatMap] at this
  refine hm.bind fun x y hxy => ?_
  rw [pyMax_perm hxy]
  refine (Py.Sim.refl _).bind fun u u' hu => .pure ?_
  subst hu
  exact { h with solver := rfl, u := rfl, homo := rfl }

theorem potential (hF : SpinFunctionals F) (h : Relabelled A B) : Py.Sim Relabelled (KsScf.potential F A) (KsScf.potential F B) := by
  unfold KsScf.potential
  refine (h.calcHxc hF).bind fun A B h => ?_
  rw [h.vext, h.vhxc, h.vnuc, h.solver]
  refine (Py.Sim.need (R := fun x y => y = G.flipCols x) _ fun _ => rfl).bind fun x x' hx =>
    (Py.Sim.need (R := fun x y => y = G.flipCols x) _ fun _ => rfl).bind fun y y' hy => ?_
  subst hx hy
  refine Py.Sim.bind (distribute _ A.solver) fun s t hst => .pure ?_
  exact { h with solver := hst, veff := rfl, vnuc := rfl, vext := rfl, vhxc := rfl }

theorem flipPotential (h : Relabelled A B) : Relabelled (KsScf.flipPotential o A) (KsScf.flipPotential o B) := by
  unfold KsScf.flipPotential
  split
  · exact { h with veff := by rw [h.veff]; cases A.veff <;> rfl }
  · exact h

theorem density (hW : SpinWorkers W) (diff : Fl K) (h : Relabelled A B) :
    Py.Sim Relabelled (KsScf.density W o diff A) (KsScf.density W o diff B) := by
  unfold KsScf.density
  refine Py.Sim.bind (h.calcDensity (funext (hW A B h _))) fun x y hxy => ?_
  obtain ⟨h1, h2⟩ := hxy
  obtain ⟨A', n⟩ := x
  obtain ⟨B', n'⟩ := y
  dsimp only at h1 h2 ⊢
  rw [h1.n]
  refine (Py.Sim.need (R := fun x y => y = G.flipCols x) _ fun _ => rfl).bind fun m m' hm => .pure ?_
  subst hm h2
  refine { h1 with n := ?_ }
  dsimp only
  split <;> rfl

end Spec.Relabelled

/-- The step of `npMax`. -/
def flMax (m y : Fl K) : Fl K := if m.isnan then m else if y.isnan then y else if Fl.gt y m then y else m

theorem flMax_fin (x y : K) : flMax (.fin x) (.fin y) = .fin (max x y) := by
  simp only [flMax, Fl.isnan, Fl.gt, Bool.false_eq_true, if_false, decide_eq_true_eq]
  split
  · rename_i h
    rw [max_eq_right h.le]
  · rename_i h
    rw [max_eq_left (not_lt.1 h)]

theorem flMax_nan (x : Fl K) : flMax .nan x = .nan ∧ flMax x .nan = .nan := by
  cases x <;> simp [flMax, Fl.isnan]

theorem flMax_negInf (x : Fl K) : flMax .negInf x = x ∧ flMax x .negInf = x := by
  cases x <;> simp [flMax, Fl.isnan, Fl.gt]

theorem flMax_posInf (x : K) : flMax .posInf (.fin x) = .posInf ∧ flMax (.fin x) .posInf = .posInf := by
  simp [flMax, Fl.isnan, Fl.gt]

theorem flMax_posInf_self : flMax (.posInf : Fl K) .posInf = .posInf := by
  simp [flMax, Fl.isnan, Fl.gt]

theorem flMax_comm (x y : Fl K) : flMax x y = flMax y x := by
  cases x <;> cases y <;> simp [flMax_fin, flMax_nan, flMax_negInf, flMax_posInf, flMax_posInf_self, max_comm]

theorem flMax_assoc (x y z : Fl K) : flMax (flMax x y) z = flMax x (flMax y z) := by
  cases x <;> cases y <;> cases z <;> simp [flMax_fin, flMax_nan, flMax_negInf, flMax_posInf, flMax_posInf_self, max_assoc]

instance : RightCommutative (flMax (K := K)) := ⟨fun x y z => by rw [flMax_assoc, flMax_comm y z, ← flMax_assoc]⟩

theorem npMax_perm {l l' : List (Fl K)} (h : l.Perm l') : npMax l = npMax l' := by
  have key : ∀ l l' : List (Fl K), l.Perm l' → ∀ x, (l.foldl flMax x) = l'.foldl flMax x := fun l l' h x => h.foldl_eq x
  induction h with
  | nil => rfl
  | cons x h _ => exact congrArg Except.ok (key _ _ h x)
  | swap x y l => exact congrArg (fun m => Except.ok (List.foldl flMax m l)) (flMax_comm y x)
  | trans _ _ h1 h2 => exact h1.trans h2

theorem difN_flip (n m : G.Cols 2) : difN (G.flipCols n) (G.flipCols m) = difN n m := by
  unfold difN
  simp only [Grid.integrate, dif_pos]
  refine npMax_perm ?_
  simp only [List.finRange_succ, List.finRange_zero, List.map_nil, List.map_cons, List.flatMap_cons, List.flatMap_nil, List.append_nil]
  exact List.perm_append_comm

/-- Loop states with exchanged spins. -/
structure Spec.RelabelledState (S T : State G r 2 2) : Prop where
  ks : Relabelled S.ks T.ks
  oldE : T.oldE = S.oldE
  oldN : T.oldN = G.flipCols S.oldN
  diff : T.diff = S.diff

namespace Spec.Relabelled
variable {A B : KS G r 2 2} {F : Functionals G 2} {W : Workers G r 2 2} {o : Options K}

theorem body (hF : SpinFunctionals F) (hW : SpinWorkers W) {S T : State G r 2 2} (h : RelabelledState S T) :
    Py.Sim (fun x y => RelabelledState x.1 y.1 ∧ y.2 = x.2) (KsScf.body F W o S) (KsScf.body F W o T) := by
  unfold KsScf.body
  rw [h.diff, h.oldE, h.oldN]
  refine (h.ks.potential hF).bind fun A B h => (h.flipPotential.density hW _).bind fun A B h =>
    (h.energy hF).bind fun A B h => h.calcChempot.bind fun A B h => ?_
  rw [h.n]
  have hE : Py.Sim (fun x y => SpinEnergy x y) (KS.need A.E) (KS.need B.E) := by
    have := h.E
    revert this
    generalize A.E = x
    generalize B.E = y
    intro h
    cases h with
    | none => exact .error
    | some e => exact .ok e
  refine (Py.Sim.need (R := fun x y => y = G.flipCols x) _ fun _ => rfl).bind fun n n' hn => hE.bind fun E E' hE => ?_
  subst hn
  rw [difN_flip, hE.E]
  refine (Py.Sim.refl _).bind fun d d' hd => .pure ?_
  subst hd
  exact ⟨⟨h, rfl, rfl, rfl⟩, rfl⟩

theorem start (hW : SpinWorkers W) (h : Relabelled A B) :
    Py.Sim Relabelled (KsScf.start W o A) (KsScf.start W o B) := by
  unfold KsScf.start
  have h0 : Relabelled { A with vext := some (A.vext.getD fun _ _ => 0) } { B with vext := some (B.vext.getD fun _ _ => 0) } :=
    { h with vext := by rw [h.vext]; cases A.vext <;> rfl }
  dsimp only
  split
  · have := h.n
    rw [this]
    refine (Py.Sim.need (R := fun x y => y = G.flipCols x) _ fun _ => rfl).bind fun n n' hn => .pure ?_
    rw [← this]
    exact h0
  · have h1 : Relabelled { A with vext := some (A.vext.getD fun _ _ => 0), vhxc := some fun _ _ => 0 }
      { B with vext := some (B.vext.getD fun _ _ => 0), vhxc := some fun _ _ => 0 } := { h0 with vhxc := rfl }
    refine h1.setEffectivePotential.bind fun A B h => (h.calcDensity (funext (hW A B h _))).bind fun x y hxy => .pure ?_
    obtain ⟨h2, h3⟩ := hxy
    exact { h2 with n := congrArg some h3 }

end Spec.Relabelled

theorem Py.Sim.loop {S : Type} {R : S → S → Prop} {f g : S → Py (S × Fl K × Fl K)} (auto : Bool) (etol : K)
    (h : ∀ a b, R a b → Py.Sim (fun x y => R x.1 y.1 ∧ y.2 = x.2) (f a) (g b)) : ∀ (left : ℕ) (diff : Fl K) (a b : S), R a b →
    Py.Sim (fun x y => R x.1 y.1 ∧ y.2 = x.2) (KsScf.loop f auto etol left diff a) (KsScf.loop g auto etol left diff b)
  | left, diff, a, b, hab => by
    unfold KsScf.loop
    split
    · cases left with
      | zero => exact .ok ⟨hab, rfl⟩
      | succ left =>
        refine Py.Sim.bind (h a b hab) fun x y hxy => ?_
        obtain ⟨x, u, v⟩ := x
        obtain ⟨y, u', v'⟩ := y
        obtain ⟨h1, h2⟩ := hxy
        obtain ⟨rfl, rfl⟩ : u' = u ∧ v' = v := by simpa using h2
        dsimp only
        split
        · exact .error
        · refine Py.Sim.bind (Py.Sim.loop auto etol h left _ x y h1) fun z z' hz => .pure ⟨hz.1, ?_⟩
          rw [hz.2]
    · split
      · exact .error
      · exact .ok ⟨hab, rfl⟩

theorem Spec.Relabelled.scf {F : Functionals G 2} (hF : SpinFunctionals F) {W : Workers G r 2 2} (hW : SpinWorkers W) (o : Options K)
    {A B : KS G r 2 2} (h : Relabelled A B) :
    Py.Sim (fun x y => Relabelled x.1 y.1 ∧ y.2 = x.2) (KsScf.scf F W o A) (KsScf.scf F W o B) := by
  unfold KsScf.scf
  refine (h.start hW).bind fun A B h => ?_
  unfold run
  refine Py.Sim.bind (Py.Sim.loop (R := RelabelledState) _ _ (fun S T h => Spec.Relabelled.body hF hW h) _ _ _ _
    ⟨h, rfl, rfl, rfl⟩) fun x y hxy => .pure ⟨hxy.1.ks, ?_⟩
  exact hxy.2

/-- C113: `scf` of the object with exchanged spins returns exactly when `scf` of the original does, after the same passes with the
same changes, and its result is the original one with exchanged spins: the same energies and chemical potential. -/
theorem C113_scf {F : Functionals G 2} (hF : SpinFunctionals F) {W : Workers G r 2 2} (hW : SpinWorkers W) (o : Options K)
    {A B : KS G r 2 2} (h : Relabelled A B) :
    (∀ A' log, scf F W o A = .ok (A', log) → ∃ B', scf F W o B = .ok (B', log) ∧ Relabelled A' B') ∧
    ∀ B' log, scf F W o B = .ok (B', log) → ∃ A', scf F W o A = .ok (A', log) ∧ Relabelled A' B' := by
  refine ⟨fun A' log hA => ?_, fun B' log hB => ?_⟩
  · obtain ⟨⟨B', l⟩, hB, h1, h2⟩ := h.scf hF hW o _ hA
    obtain rfl : l = log := h2
    exact ⟨B', hB, h1⟩
  · obtain ⟨⟨A', l⟩, hA, h1, h2⟩ := h.symm.scf hF hW o _ hB
    obtain rfl : l = log := h2
    exact ⟨A', hA, h1.symm⟩

/-- C113: a calculation whose two spins start alike ends with equal spin densities, potentials and levels: `scf` never breaks
the symmetry between the spins. -/
theorem C113_closed {F : Functionals G 2} (hF : SpinFunctionals F) {W : Workers G r 2 2} (hW : SpinWorkers W) (o : Options K)
    {A A' : KS G r 2 2} {log} (h : Relabelled A A) (hA : scf F W o A = .ok (A', log)) :
    (∀ n, A'.n = some n → n 0 = n 1) ∧ (∀ v, A'.veff = some v → v 0 = v 1) ∧ (∀ i, A'.solver (i, 0) = A'.solver (i, 1)) ∧
      ∀ e, A'.E = some e → e.Eks 0 = e.Eks 1 ∧ e.Vks 0 = e.Vks 1 := by
  obtain ⟨B', hB, hr⟩ := (C113_scf hF hW o h).1 A' log hA
  obtain ⟨rfl, -⟩ : A' = B' ∧ log = log := by
    rw [hA] at hB
    cases hB
    exact ⟨rfl, rfl⟩
  refine ⟨fun n hn => ?_, fun v hv => ?_, fun i => ?_, fun e he => ?_⟩
  · have := hr.n
    rw [hn] at this
    exact congrFun (Option.some.inj this) 0
  · have := hr.veff
    rw [hv] at this
    exact congrFun (Option.some.inj this) 0
  · exact congrFun hr.solver (i, 0)
  · have := hr.E
    rw [he] at this
    cases this with
    | some h => exact ⟨congrFun h.Eks 0, congrFun h.Vks 0⟩

/-- C113: the constructor with exchanged columns of `Nmo` and `N` returns the object with exchanged spins. -/
theorem C113_init (lower : String → String) (coerce : Opt.Kind → Opt.Val → Option Opt.Val) (G : Grid K) (coul : K → K → G.Fld) (a : K)
    {r' : ℕ} (Za Zb : K) (Nmo : Fin r × Fin 2 → ℕ) (N : Fin r' × Fin 2 → K) (opt : Opt.Dict) (A : KS G r 2 2)
    (hA : KS.init lower coerce G coul a 2 Za Zb Nmo N opt = .ok A) :
    ∃ B, KS.init lower coerce G coul a 2 Za Zb (fun w => Nmo (other w)) (fun w => N (other w)) opt = .ok B ∧ Relabelled A B := by
  revert A
  show Py.Sim _ _ _
  unfold KS.init
  refine (Py.Sim.refl _).bind fun x y hxy => ?_
  subst hxy
  split
  · have hp : Py.Sim (fun t t' => t' = fun w => t (other w)) (pssolver lower coerce G Nmo N (Opt.solverDict y))
        (pssolver lower coerce G (fun w => Nmo (other w)) (fun w => N (other w)) (Opt.solverDict y)) := by
      intro t ht
      rw [pssolver_eq] at ht ⊢
      have hall : ∀ w, ∃ s, pssolverEntry lower coerce G Nmo N (Opt.solverDict y) w none = .ok s := by
        intro w
        refine foldlM_all _ (fun w => ∃ s, pssolverEntry lower coerce G Nmo N (Opt.solverDict y) w none = .ok s) ?_ _ _ _ ht w
          (mem_rowMajor w)
        intro s w s' h
        rw [Py.do_eq_ok] at h
        obtain ⟨z, hz, -⟩ := h
        exact ⟨z, hz⟩
      choose g hg using hall
      rw [foldlM_update _ nodup_rowMajor _ _ g fun w _ => hg w] at ht
      cases ht
      refine ⟨_, foldlM_update _ nodup_rowMajor _ _ (fun w => g (other w)) fun w _ => ?_, ?_⟩
      · rw [← hg (other w)]
        unfold pssolverEntry
        have : entry (fun w => N (other w)) w.1.1 w.2.1 = entry N (other w).1.1 (other w).2.1 := by
          unfold entry
          by_cases hw : w.1.1 < r'
          · rw [dif_pos ⟨hw, w.2.2⟩, dif_pos ⟨hw, (other w).2.2⟩]
            rfl
          · rw [dif_neg fun h => hw h.1, dif_neg fun h => hw h.1]
        rw [this]
        rfl
      · funext w
        simp only [mem_rowMajor, if_true]
    refine hp.bind fun t t' ht => ?_
    subst ht
    split
    · rename_i hall
      rw [dif_pos fun w => hall _]
      refine .pure ⟨rfl, rfl, rfl, rfl, rfl, rfl, ?_, rfl, rfl, rfl, rfl, rfl, .none, rfl, rfl, rfl, rfl, rfl⟩
      dsimp only
      unfold nuclearPotential
      simp only [or_true, if_true]
      split <;> rfl
    · exact .error
  · exact .error

/-- C113: worker processes that look at their own solver only treat the spins alike. -/
theorem C113_workers (f : Bool → Solver G → Option (Found G)) (W : Workers G r 2 2) (hW : ∀ ks b w, W ks b w = f b (ks.solver w)) :
    SpinWorkers W := by
  intro A B h b w
  rw [hW, hW, h.solver]

section Functionals
open Libxc Hartree

/-- C113: the functionals of the code satisfy the hypothesis, if those of libxc treat the spins alike. -/
theorem C113_functionals (H : HGrid) (O : Op H.grid) (X C : Func H.grid 2 3) (hX : SpinSymmetric X) (hC : SpinSymmetric C)
    (family : String) : SpinFunctionals (H.functionals2 O family X C) := by
  refine ⟨fun n => ?_, fun n => ?_, fun n => ?_, fun n v hv => ?_⟩
  · simp only [HGrid.functionals2]
    rw [C62_spinflip O family X hX n]
    cases getXc2 O family X n <;> rfl
  · simp only [HGrid.functionals2]
    rw [C62_spinflip O family C hC n]
    cases getXc2 O family C n <;> rfl
  · have : (fun k => ∑ s, H.grid.flipCols n s k) = fun k => ∑ s, n s k := funext fun k => Spec.Relabelled.sum_flip n k
    exact congrArg (fun m : H.grid.Fld => (.ok fun _ => H.solve (H.source m) : Py (H.grid.Cols 2))) this
  · have : (.ok fun _ => H.solve (H.source fun k => ∑ s, n s k) : Py (H.grid.Cols 2)) = .ok v := hv
    cases this
    rfl

end Functionals

section Example

/-- Two points. -/
abbrev C113_grid : Grid ℚ := { Na := 2, Nr := 1, pi := 1 / 2, ha := 1, hr := 1, wi := fun _ => 1, w := fun _ => 1 }

/-- Workers that return the potential as the orbital. -/
def C113_W : Workers C113_grid 1 2 2 := fun ks _ w => (ks.solver w).veff.map fun v => ([v 0 + v 1], some [v])

/-- The potential of a spin is the density of that spin. -/
def C113_F : Functionals C113_grid 2 := ⟨fun n => .ok (0, fun _ => 0, n), fun _ => .ok (0, fun _ => 0, fun _ _ => 0), fun _ => .ok fun _ _ => 0⟩

/-- `N 0` and `N 1` electrons of the two spins. -/
def C113_ks (N : Fin 2 → ℚ) : KS C113_grid 1 2 2 :=
  { kind := .dft, sym := false, Za := 2, Zb := 1, a := 1, vnuc := fun _ k => if k = 0 then -2 else -1
    solver := fun w => { Nmo := 1, N := N w.2, m := 0, pol := 2 } }

def C113_opt : Options ℚ := ⟨false, false, false, false, 3, 1 / 100, 1⟩

theorem C113_relabelled (N : Fin 2 → ℚ) : Relabelled (C113_ks N) (C113_ks fun s => N s.rev) :=
  ⟨rfl, rfl, rfl, rfl, rfl, rfl, rfl, rfl, rfl, rfl, rfl, rfl, .none, rfl, rfl, rfl, rfl, rfl⟩

/-- The hypotheses can be met: two passes for the spins `1, 0` and `0, 1`. -/
example : SpinFunctionals C113_F ∧ SpinWorkers C113_W ∧ Relabelled (C113_ks ![1, 0]) (C113_ks fun s => ![1, 0] s.rev) ∧
    ((scf C113_F C113_W C113_opt (C113_ks ![1, 0])).toOption.map fun x =>
      (x.2.length, x.1.n.map fun n => (n 0 0, n 0 1, n 1 0), x.1.E.map (·.evals))) =
      some (2, some (289 / 370, 81 / 370, 0), some [-2, -3]) ∧
    ((scf C113_F C113_W C113_opt (C113_ks fun s => ![1, 0] s.rev)).toOption.map fun x =>
      (x.2.length, x.1.n.map fun n => (n 1 0, n 1 1, n 0 0), x.1.E.map (·.evals))) =
      some (2, some (289 / 370, 81 / 370, 0), some [-3, -2]) := by
  refine ⟨⟨fun _ => rfl, fun _ => rfl, fun _ => rfl, fun n v hv => ?_⟩, C113_workers (fun _ s => s.veff.map fun v => ([v 0 + v 1], some [v]))
    _ fun _ _ _ => rfl, C113_relabelled _, by decide +kernel, by decide +kernel⟩
  cases hv
  rfl

end Example

end Verif
