import Verif.Lemmas.PyRel
import Verif.Props.C28_C30
import Verif.Props.C85
import Verif.Props.C86
import Verif.Props.C16_C17
import Verif.Props.C80_C81
import Verif.Props.C93
import Verif.Model.Orbitals

/-! # C109: exchanging the nuclei mirrors a Kohn-Sham calculation -/

namespace Verif
open Spec KS KsScf
variable {K : Type} [_root_.Field K] [LinearOrder K] [IsStrictOrderedRing K] [FloorRing K]
variable {G : Grid K} {r c p : ℕ}

/-- The same orbital seen in the mirror, up to a factor. -/
def Spec.MirrorOrbital (f g : G.Fld) : Prop := ∃ x : K, x ≠ 0 ∧ g = fun k => x * G.mir f k

/-- Orbital arrays that are mirror images of each other column by column. -/
inductive Spec.MirrorOrbitals : Option (List G.Fld) → Option (List G.Fld) → Prop
  | none : MirrorOrbitals none none
  | some {l l'} : List.Forall₂ MirrorOrbital l l' → MirrorOrbitals (some l) (some l')

/-- The mirror image of a solver. -/
structure Spec.MirrorSolver (s t : Solver G) : Prop where
  Nmo : t.Nmo = s.Nmo
  N : t.N = s.N
  m : t.m = s.m
  pol : t.pol = s.pol
  fractional : t.fractional = s.fractional
  sym : t.sym = s.sym
  eig : t.eig = s.eig
  veff : t.veff = s.veff.map G.mir
  phi : MirrorOrbitals s.phi t.phi

/-- `B` is the mirror image of `A`: nuclei exchanged, all fields mirrored, all numbers the same. -/
structure Spec.Reflected (A B : KS G r c p) : Prop where
  kind : B.kind = A.kind
  sym : B.sym = A.sym
  Za : B.Za = A.Zb
  Zb : B.Zb = A.Za
  a : B.a = A.a
  solver : ∀ w, MirrorSolver (A.solver w) (B.solver w)
  vnuc : B.vnuc = G.mirCols A.vnuc
  vext : B.vext = A.vext.map G.mirCols
  vhxc : B.vhxc = A.vhxc.map G.mirCols
  veff : B.veff = A.veff.map G.mirCols
  n : B.n = A.n.map G.mirCols
  u : B.u = A.u
  E : B.E = A.E
  V : B.V = ⟨A.V.vx.map G.mirCols, A.V.vc.map G.mirCols, A.V.vh.map G.mirCols, A.V.ex.map G.mir, A.V.ec.map G.mir,
    A.V.eh.map G.mir⟩
  scale : B.scale = A.scale
  Q : B.Q = A.Q.map G.mirCols
  alpha : B.alpha = A.alpha
  homo : B.homo = A.homo

/-- Functionals that do not prefer one side of the molecule. -/
structure Spec.MirrorFunctionals (F : Functionals G p) : Prop where
  exchange : ∀ n, F.exchange (G.mirCols n) = (F.exchange n).map fun x => (x.1, G.mir x.2.1, G.mirCols x.2.2)
  correlation : ∀ n, F.correlation (G.mirCols n) = (F.correlation n).map fun x => (x.1, G.mir x.2.1, G.mirCols x.2.2)
  hartree : ∀ n, F.hartree (G.mirCols n) = (F.hartree n).map G.mirCols

/-- Results of two worker processes: the same levels and mirrored orbitals, or both died. -/
inductive Spec.MirrorFound : Option (Found G) → Option (Found G) → Prop
  | none : MirrorFound none none
  | some {e l l'} : MirrorOrbitals l l' → MirrorFound (some (e, l)) (some (e, l'))

/-- The eigenproblem of a mirrored object has the same levels and mirrored orbitals. -/
def Spec.MirrorWorkers (W : Workers G r c p) : Prop :=
  ∀ A B, Reflected A B → ∀ b w, MirrorFound (W A b w) (W B b w)

namespace Spec.MirrorSolver
variable {s t : Solver G}

theorem occupation (h : MirrorSolver s t) : t.occupation = s.occupation := by
  unfold Solver.occupation
  rw [h.m, h.pol, h.N]

theorem scale (h : MirrorSolver s t) : t.scale = s.scale := by
  unfold Solver.scale
  rw [h.m, h.pol]

theorem eigAt (h : MirrorSolver s t) (i : ℤ) : t.eigAt i = s.eigAt i := by
  unfold Solver.eigAt
  rw [h.eig]

end Spec.MirrorSolver

theorem Py.Rel.pyGet {α β : Type} {R : α → β → Prop} {l : List α} {l' : List β} (h : List.Forall₂ R l l') (i : ℤ) :
    Py.Rel R (Verif.pyGet l i) (Verif.pyGet l' i) := by
  have get : ∀ (l : List α) (l' : List β), List.Forall₂ R l l' → ∀ j : ℕ,
      Py.Rel R (match l[j]? with | some x => .ok x | none => .error .indexError)
        (match l'[j]? with | some x => .ok x | none => .error .indexError) := by
    intro l l' h
    induction h with
    | nil => exact fun j => .error _
    | cons hab _ ih =>
      intro j
      cases j with
      | zero => exact .ok hab
      | succ j => exact ih j
  unfold Verif.pyGet
  rw [← h.length_eq]
  dsimp only
  generalize (if i < 0 then i + (l.length : ℤ) else i) = j
  split
  · exact .error _
  · exact get l l' h _

theorem Spec.MirrorSolver.orb {s t : Solver G} (h : MirrorSolver s t) (i : ℤ) : Py.Rel MirrorOrbital (s.orb i) (t.orb i) := by
  unfold Solver.orb
  have := h.phi
  revert this
  generalize s.phi = a
  generalize t.phi = b
  intro h
  cases h with
  | none => exact .error _
  | some h => exact .pyGet h i

/-- Each normalised orbital density is mirrored. -/
theorem Spec.MirrorOrbital.density (hG : MirrorInvariant G) {f g : G.Fld} (h : MirrorOrbital f g) (x : K) (k : G.Ix) :
    x * g k ^ 2 / G.integ (fun k => g k ^ 2) = x * f (G.mirIx k) ^ 2 / G.integ fun k => f k ^ 2 := by
  obtain ⟨c, hc, rfl⟩ := h
  have e : (fun k => (c * G.mir f k) ^ 2) = fun k => c ^ 2 * G.mir (fun k => f k ^ 2) k := by
    funext k
    simp only [Grid.mir]
    ring
  rw [e, G.integ_smul, show G.integ (fun k => G.mir (fun k => f k ^ 2) k) = _ from hG _]
  have hc2 : c ^ 2 ≠ 0 := pow_ne_zero 2 hc
  simp only [Grid.mir]
  rw [mul_pow, mul_left_comm, mul_div_mul_left _ _ hc2]

theorem Spec.MirrorSolver.calcDensity (hG : MirrorInvariant G) {s t : Solver G} (h : MirrorSolver s t) :
    Py.Rel (fun n n' => n' = G.mir n) s.calcDensity t.calcDensity := by
  unfold Solver.calcDensity
  rw [h.occupation, h.scale, h.fractional]
  generalize s.occupation = x
  obtain ⟨Nocc, nu⟩ := x
  dsimp only
  refine (Py.Rel.foldlM (R := fun n n' => n' = G.mir n) _ (fun a b w hab => ?_) _ _ rfl).bind fun a b hab => ?_
  · refine (h.orb _).bind fun f g hfg => .pure ?_
    subst hab
    funext k
    have := hfg.density hG 1 k
    simp only [one_mul] at this
    simp only [this, Grid.mir]
  · subst hab
    split
    · refine (h.orb _).bind fun f g hfg => .pure ?_
      funext k
      simp only [hfg.density hG _ k, Grid.mir]
    · exact .pure rfl

theorem Spec.MirrorSolver.calcEks {s t : Solver G} (h : MirrorSolver s t) : t.calcEks = s.calcEks := by
  unfold Solver.calcEks
  simp only [h.occupation, h.scale, h.fractional, h.eigAt]

theorem Spec.MirrorSolver.getHomo {s t : Solver G} (h : MirrorSolver s t) : t.getHomo = s.getHomo := by
  unfold Solver.getHomo
  simp only [h.occupation, h.eigAt]

theorem Spec.MirrorSolver.calcEnergy (hG : MirrorInvariant G) {s t : Solver G} (h : MirrorSolver s t) :
    Py.Rel (fun x y => y.1 = x.1 ∧ y.2 = G.mir x.2) s.calcEnergy t.calcEnergy := by
  unfold Solver.calcEnergy
  refine (Py.Rel.of_eq h.calcEks).bind fun e e' he => (h.calcDensity hG).bind fun n n' hn => ?_
  subst he hn
  rw [h.veff]
  cases s.veff with
  | none => exact .error _
  | some v =>
    refine .pure ⟨?_, rfl⟩
    have := hG fun k => v k * n k
    simp only [← this]
    rfl

theorem Py.Rel.need {α β : Type} {R : α → β → Prop} {x : Option α} (f : α → β) (hf : ∀ a, R a (f a)) :
    Py.Rel R (KS.need x) (KS.need (x.map f)) := by
  cases x with
  | none => exact .error _
  | some a => exact .ok (hf a)

theorem Py.Rel.col (f : G.Cols p) (j : ℕ) :
    Py.Rel (fun a b => b = G.mir a) (KS.col f j) (KS.col (G.mirCols f) j) := by
  unfold KS.col
  split
  · exact .ok rfl
  · exact .error _

theorem Py.Rel.mapSolvers {l : List (Fin r × Fin c)} {f g : Fin r × Fin c → Solver G → Py (Solver G)}
    (hfg : ∀ w x y, MirrorSolver x y → Py.Rel MirrorSolver (f w x) (g w y)) {s t : Fin r × Fin c → Solver G}
    (h : ∀ w, MirrorSolver (s w) (t w)) :
    Py.Rel (fun s t => ∀ w, MirrorSolver (s w) (t w)) (KS.mapSolvers l f s) (KS.mapSolvers l g t) := by
  unfold KS.mapSolvers
  refine Py.Rel.foldlM (R := fun s t : Fin r × Fin c → Solver G => ∀ w, MirrorSolver (s w) (t w)) l (fun s t w h => ?_) s t h
  refine (hfg w _ _ (h w)).bind fun x y hxy => .pure fun v => ?_
  by_cases hv : v = w
  · subst hv
    rwa [Function.update_self, Function.update_self]
  · rw [Function.update_of_ne hv, Function.update_of_ne hv]
    exact h v

theorem Py.Rel.distribute (v : G.Cols p) {s t : Fin r × Fin c → Solver G} (h : ∀ w, MirrorSolver (s w) (t w)) :
    Py.Rel (fun s t => ∀ w, MirrorSolver (s w) (t w)) (KS.distribute v s) (KS.distribute (G.mirCols v) t) := by
  unfold KS.distribute
  refine Py.Rel.mapSolvers (fun w x y hxy => ?_) h
  refine (Py.Rel.col v w.2.1).bind fun a b hab => .pure ?_
  subst hab
  exact { hxy with veff := rfl }

theorem mirCols_symmetrised (f : G.Cols p) : symmetrised (G.mirCols f) = G.mirCols (symmetrised f) := rfl

theorem mirCols_spinSymmetrised (f : G.Cols p) : spinSymmetrised (G.mirCols f) = G.mirCols (spinSymmetrised f) := rfl

theorem inner_mirCols (hG : MirrorInvariant G) (f g : G.Cols p) : KS.inner (G.mirCols f) (G.mirCols g) = KS.inner f g :=
  hG fun k => ∑ s, f s k * g s k

namespace Spec.Reflected
variable {A B : KS G r c p} {F : Functionals G p} {W : Workers G r c p} {o : Options K}

theorem setEffectivePotential (h : Reflected A B) : Py.Rel Reflected A.setEffectivePotential B.setEffectivePotential := by
  unfold KS.setEffectivePotential
  rw [h.vext, h.vhxc, h.vnuc]
  refine (Py.Rel.need (R := fun x y => y = G.mirCols x) _ fun _ => rfl).bind fun x x' hx =>
    (Py.Rel.need (R := fun x y => y = G.mirCols x) _ fun _ => rfl).bind fun y y' hy => ?_
  subst hx hy
  refine Py.Rel.bind (Py.Rel.distribute _ h.solver) fun s t hst => .pure ?_
  exact { h with solver := hst, veff := rfl, vnuc := rfl, vext := rfl, vhxc := rfl }

theorem rawHxc (hF : MirrorFunctionals F) (h : Reflected A B) : Py.Rel Reflected (KS.rawHxc F A) (KS.rawHxc F B) := by
  unfold KS.rawHxc
  rw [h.kind]
  cases hk : A.kind with
  | ni => exact .pure { h with kind := rfl, vhxc := rfl }
  | dft =>
    rw [h.n]
    refine (Py.Rel.need (R := fun x y => y = G.mirCols x) _ fun _ => rfl).bind fun n n' hn => ?_
    subst hn
    refine (Py.Rel.of_map _ (R := fun x y => y = (x.1, G.mir x.2.1, G.mirCols x.2.2)) (fun _ => rfl) (hF.exchange n)).bind fun x x' hx =>
      (Py.Rel.of_map _ (R := fun x y => y = (x.1, G.mir x.2.1, G.mirCols x.2.2)) (fun _ => rfl) (hF.correlation n)).bind fun y y' hy =>
      (Py.Rel.of_map _ (R := fun x y => y = G.mirCols x) (fun _ => rfl) (hF.hartree n)).bind fun z z' hz => .pure ?_
    subst hx hy hz
    exact { h with kind := rfl, n := rfl, vhxc := rfl, V := by rw [h.V]; rfl }

theorem calcHxc (hF : MirrorFunctionals F) (h : Reflected A B) : Py.Rel Reflected (A.calcHxc F) (B.calcHxc F) := by
  unfold KS.calcHxc
  refine (h.rawHxc hF).bind fun A B h => ?_
  rw [h.vhxc]
  refine (Py.Rel.need (R := fun x y => y = G.mirCols x) _ fun _ => rfl).bind fun v v' hv => .pure ?_
  subst hv
  rw [h.sym]
  split
  · exact { h with vhxc := rfl, sym := rfl }
  · exact h

theorem collect {d d' : Fin r × Fin c → Option (Found G)} (hd : ∀ w, MirrorFound (d w) (d' w))
    {s t : Fin r × Fin c → Solver G} (h : ∀ w, MirrorSolver (s w) (t w)) :
    Py.Rel (fun s t => ∀ w, MirrorSolver (s w) (t w)) (KS.collect d s) (KS.collect d' t) := by
  unfold KS.collect
  refine Py.Rel.mapSolvers (fun w x y hxy => ?_) h
  have := hd w
  revert this
  generalize d w = a
  generalize d' w = b
  intro h
  cases h with
  | none => exact .error _
  | some h => exact .ok { hxy with eig := rfl, phi := h }

theorem sumDensities (hG : MirrorInvariant G) {s t : Fin r × Fin c → Solver G} (h : ∀ w, MirrorSolver (s w) (t w)) :
    Py.Rel (fun n n' => n' = G.mirCols n) (KS.sumDensities p s) (KS.sumDensities p t) := by
  unfold KS.sumDensities
  refine Py.Rel.foldlM (R := fun n n' => n' = G.mirCols n) _ (fun a b w hab => ?_) _ _ rfl
  refine ((h w).calcDensity hG).bind fun n n' hn => ?_
  subst hn hab
  split
  · refine .pure ?_
    funext q k
    by_cases hq : q = ⟨w.2.1, by assumption⟩
    · subst hq
      simp only [Function.update_self, Grid.mirCols, Grid.mir]
    · simp only [Function.update_of_ne hq, Grid.mirCols, Grid.mir]
  · exact .error _

theorem calcDensity (hG : MirrorInvariant G) {d d' : Fin r × Fin c → Option (Found G)} (hd : ∀ w, MirrorFound (d w) (d' w))
    (h : Reflected A B) :
    Py.Rel (fun x y => Reflected x.1 y.1 ∧ y.2 = G.mirCols x.2 ∧ x.1.n = A.n) (A.calcDensity d) (B.calcDensity d') := by
  unfold KS.calcDensity
  refine (collect hd h.solver).bind fun s t hst => (sumDensities hG hst).bind fun n n' hn => .pure ⟨{ h with solver := hst }, ?_, rfl⟩
  subst hn
  rw [h.sym]
  dsimp only
  split <;> rfl

theorem solverEnergies (hG : MirrorInvariant G) {s t : Fin r × Fin c → Solver G} (h : ∀ w, MirrorSolver (s w) (t w)) :
    Py.Rel Eq (KS.solverEnergies p s) (KS.solverEnergies p t) := by
  unfold KS.solverEnergies
  refine Py.Rel.foldlM (R := Eq) _ (fun a b w hab => ?_) _ _ rfl
  subst hab
  refine ((h w).calcEnergy hG).bind fun e e' he => ?_
  refine (Py.Rel.of_eq (congrArg KS.need (h w).eig)).bind fun l l' hl => ?_
  subst hl
  rw [he.1]
  split
  · exact .pure rfl
  · exact .error _

theorem energy (hG : MirrorInvariant G) (hF : MirrorFunctionals F) (h : Reflected A B) :
    Py.Rel Reflected (A.energy F) (B.energy F) := by
  unfold KS.energy
  refine (solverEnergies hG h.solver).bind fun x x' hx => ?_
  subst hx
  obtain ⟨Eks, Ts, Vks, evals⟩ := x
  rw [h.kind]
  have hV : B.Za * B.Zb / (2 * B.a) = A.Za * A.Zb / (2 * A.a) := by rw [h.Za, h.Zb, h.a, mul_comm A.Zb]
  cases hk : A.kind with
  | ni =>
    simp only [hV, h.n, h.vext, h.vnuc, h.E]
    refine (Py.Rel.need (R := fun x y => y = G.mirCols x) _ fun _ => rfl).bind fun n n' hn =>
      (Py.Rel.need (R := fun x y => y = G.mirCols x) _ fun _ => rfl).bind fun v v' hv => .pure ?_
    subst hn hv
    exact { h with kind := rfl, n := rfl, vnuc := rfl, vext := rfl, E := by simp only [inner_mirCols hG] }
  | dft =>
    simp only [hV, h.n, h.vext, h.vhxc, h.vnuc, h.E]
    refine (Py.Rel.need (R := fun x y => y = G.mirCols x) _ fun _ => rfl).bind fun n n' hn =>
      (Py.Rel.need (R := fun x y => y = G.mirCols x) _ fun _ => rfl).bind fun v v' hv =>
      (Py.Rel.need (R := fun x y => y = G.mirCols x) _ fun _ => rfl).bind fun u u' hu => ?_
    subst hn hv hu
    refine (Py.Rel.of_map _ (R := fun x y => y = G.mirCols x) (fun _ => rfl) (hF.hartree n)).bind fun z z' hz => ?_
    subst hz
    refine (Py.Rel.col z 0).bind fun z0 z0' hz0 =>
      (Py.Rel.of_map _ (R := fun x y => y = (x.1, G.mir x.2.1, G.mirCols x.2.2)) (fun _ => rfl) (hF.exchange n)).bind fun x x' hx =>
      (Py.Rel.of_map _ (R := fun x y => y = (x.1, G.mir x.2.1, G.mirCols x.2.2)) (fun _ => rfl) (hF.correlation n)).bind fun y y' hy => .pure ?_
    subst hx hy hz0
    have e : (G.integ fun k => (∑ s, G.mirCols n s k) * (1 / 2 * G.mir z0 k)) = G.integ fun k => (∑ s, n s k) * (1 / 2 * z0 k) :=
      hG fun k => (∑ s, n s k) * (1 / 2 * z0 k)
    exact { h with kind := rfl, n := rfl, vnuc := rfl, vext := rfl, E := by simp only [inner_mirCols hG, e], vhxc := rfl, V := rfl }

theorem calcChempot (h : Reflected A B) : Py.Rel Reflected A.calcChempot B.calcChempot := by
  unfold KS.calcChempot
  have e : (fun w => (B.solver w).getHomo) = fun w => (A.solver w).getHomo := funext fun w => (h.solver w).getHomo
  have e' : (fun w => (B.solver w).getHomo.toOption) = fun w => (A.solver w).getHomo.toOption :=
    funext fun w => by rw [(h.solver w).getHomo]
  rw [e, e']
  refine (Py.Rel.of_eq rfl).bind fun x y hxy => ?_
  subst hxy
  refine (Py.Rel.of_eq rfl).bind fun u u' hu => .pure ?_
  subst hu
  exact { h with u := rfl, homo := rfl }

theorem potential (hF : MirrorFunctionals F) (h : Reflected A B) : Py.Rel Reflected (KsScf.potential F A) (KsScf.potential F B) := by
  unfold KsScf.potential
  refine (h.calcHxc hF).bind fun A B h => ?_
  rw [h.vext, h.vhxc, h.vnuc]
  refine (Py.Rel.need (R := fun x y => y = G.mirCols x) _ fun _ => rfl).bind fun x x' hx =>
    (Py.Rel.need (R := fun x y => y = G.mirCols x) _ fun _ => rfl).bind fun y y' hy => ?_
  subst hx hy
  refine Py.Rel.bind (Py.Rel.distribute _ h.solver) fun s t hst => .pure ?_
  exact { h with solver := hst, veff := rfl, vnuc := rfl, vext := rfl, vhxc := rfl }

theorem flipPotential (h : Reflected A B) : Reflected (KsScf.flipPotential o A) (KsScf.flipPotential o B) := by
  unfold KsScf.flipPotential
  split
  · exact { h with veff := by rw [h.veff]; cases A.veff <;> rfl }
  · exact h

theorem density (hG : MirrorInvariant G) (hW : MirrorWorkers W) (diff : Fl K) (h : Reflected A B) :
    Py.Rel Reflected (KsScf.density W o diff A) (KsScf.density W o diff B) := by
  unfold KsScf.density
  refine Py.Rel.bind (h.calcDensity hG (hW A B h _)) fun x y hxy => ?_
  obtain ⟨h1, h2, -⟩ := hxy
  obtain ⟨A', n⟩ := x
  obtain ⟨B', n'⟩ := y
  dsimp only at h1 h2 ⊢
  rw [h1.n]
  refine (Py.Rel.need (R := fun x y => y = G.mirCols x) _ fun _ => rfl).bind fun m m' hm => .pure ?_
  subst hm h2
  refine { h1 with n := ?_ }
  dsimp only
  split <;> rfl

end Spec.Reflected

theorem integrate_mirCols (hG : MirrorInvariant G) : ∀ {p : ℕ} (f : G.Cols p), G.integrate (.d2 p (G.mirCols f)) = G.integrate (.d2 p f)
  | 0, f => by
    simp only [Grid.integrate]
    congr 1
    funext s
    exact s.elim0
  | 1, f => by
    simp only [Grid.integrate]
    congr 2
    exact G.sum_mir fun i => ∑ j, G.wi j * G.w j * f 0 i
  | p + 2, f => by
    simp only [Grid.integrate]
    congr 1
    funext s _
    exact hG (f s)

theorem difN_mirCols (hG : MirrorInvariant G) (n m : G.Cols p) : difN (G.mirCols n) (G.mirCols m) = difN n m := by
  unfold difN
  rw [show (fun s k => |G.mirCols n s k - G.mirCols m s k|) = G.mirCols fun s k => |n s k - m s k| from rfl,
    show (fun s k => |G.mirCols n s k|) = G.mirCols fun s k => |n s k| from rfl, integrate_mirCols hG, integrate_mirCols hG]

/-- Loop states that are mirror images of each other. -/
structure Spec.ReflectedState (S T : State G r c p) : Prop where
  ks : Reflected S.ks T.ks
  oldE : T.oldE = S.oldE
  oldN : T.oldN = G.mirCols S.oldN
  diff : T.diff = S.diff

namespace Spec.Reflected
variable {A B : KS G r c p} {F : Functionals G p} {W : Workers G r c p} {o : Options K}

theorem body (hG : MirrorInvariant G) (hF : MirrorFunctionals F) (hW : MirrorWorkers W) {S T : State G r c p}
    (h : ReflectedState S T) :
    Py.Rel (fun x y => ReflectedState x.1 y.1 ∧ y.2 = x.2) (KsScf.body F W o S) (KsScf.body F W o T) := by
  unfold KsScf.body
  rw [h.diff, h.oldE, h.oldN]
  refine (h.ks.potential hF).bind fun A B h => (h.flipPotential.density hG hW _).bind fun A B h =>
    (h.energy hG hF).bind fun A B h => h.calcChempot.bind fun A B h => ?_
  rw [h.n, h.E]
  refine (Py.Rel.need (R := fun x y => y = G.mirCols x) _ fun _ => rfl).bind fun n n' hn =>
    (Py.Rel.of_eq rfl).bind fun E E' hE => ?_
  subst hn hE
  rw [difN_mirCols hG]
  refine (Py.Rel.of_eq rfl).bind fun d d' hd => .pure ?_
  subst hd
  exact ⟨⟨h, rfl, rfl, rfl⟩, rfl⟩

theorem start (hG : MirrorInvariant G) (hW : MirrorWorkers W) (h : Reflected A B) :
    Py.Rel Reflected (KsScf.start W o A) (KsScf.start W o B) := by
  unfold KsScf.start
  have h0 : Reflected { A with vext := some (A.vext.getD fun _ _ => 0) } { B with vext := some (B.vext.getD fun _ _ => 0) } :=
    { h with vext := by rw [h.vext]; cases A.vext <;> rfl }
  dsimp only
  split
  · have := h.n
    rw [this]
    refine (Py.Rel.need (R := fun x y => y = G.mirCols x) _ fun _ => rfl).bind fun n n' hn => .pure ?_
    rw [← this]
    exact h0
  · have h1 : Reflected { A with vext := some (A.vext.getD fun _ _ => 0), vhxc := some fun _ _ => 0 }
      { B with vext := some (B.vext.getD fun _ _ => 0), vhxc := some fun _ _ => 0 } := { h0 with vhxc := rfl }
    refine h1.setEffectivePotential.bind fun A B h => (h.calcDensity hG (hW A B h _)).bind fun x y hxy => .pure ?_
    obtain ⟨h2, h3, -⟩ := hxy
    exact { h2 with n := congrArg some h3 }

end Spec.Reflected

theorem Py.Rel.loop {S T : Type} {R : S → T → Prop} {f : S → Py (S × Fl K × Fl K)} {g : T → Py (T × Fl K × Fl K)} (auto : Bool) (etol : K)
    (h : ∀ a b, R a b → Py.Rel (fun x y => R x.1 y.1 ∧ y.2 = x.2) (f a) (g b)) : ∀ (left : ℕ) (diff : Fl K) (a : S) (b : T), R a b →
    Py.Rel (fun x y => R x.1 y.1 ∧ y.2 = x.2) (KsScf.loop f auto etol left diff a) (KsScf.loop g auto etol left diff b)
  | left, diff, a, b, hab => by
    unfold KsScf.loop
    split
    · cases left with
      | zero => exact .ok ⟨hab, rfl⟩
      | succ left =>
        refine Py.Rel.bind (h a b hab) fun x y hxy => ?_
        obtain ⟨x, u, v⟩ := x
        obtain ⟨y, u', v'⟩ := y
        obtain ⟨h1, h2⟩ := hxy
        obtain ⟨rfl, rfl⟩ : u' = u ∧ v' = v := by simpa using h2
        dsimp only
        split
        · exact .error _
        · refine Py.Rel.bind (Py.Rel.loop auto etol h left _ x y h1) fun z z' hz => .pure ⟨hz.1, ?_⟩
          rw [hz.2]
    · split
      · exact .error _
      · exact .ok ⟨hab, rfl⟩

/-- C109: `scf` of the mirrored object does the same as `scf` of the original: the same exception, or the mirrored object
with the same energies, levels and chemical potential, after the same number of passes with the same changes. -/
theorem C109_scf (hG : MirrorInvariant G) {F : Functionals G p} (hF : MirrorFunctionals F) {W : Workers G r c p}
    (hW : MirrorWorkers W) (o : Options K) {A B : KS G r c p} (h : Reflected A B) :
    Py.Rel (fun x y => Reflected x.1 y.1 ∧ y.2 = x.2) (scf F W o A) (scf F W o B) := by
  unfold scf
  refine (h.start hG hW).bind fun A B h => ?_
  unfold run
  refine Py.Rel.bind (Py.Rel.loop (R := ReflectedState) _ _ (fun S T h => Spec.Reflected.body hG hF hW h) _ _ _ _
    ⟨h, rfl, rfl, rfl⟩) fun x y hxy => .pure ⟨hxy.1.ks, ?_⟩
  exact hxy.2

/-- C109: the constructor with exchanged charges returns the mirrored object. -/
theorem C109_init (lower : String → String) (coerce : Opt.Kind → Opt.Val → Option Opt.Val) (G : Grid K) (coul : K → K → G.Fld)
    (hcoul : ∀ Za Zb, coul Zb Za = G.mir (coul Za Zb)) (a : K) {r c r' c' : ℕ} (p : ℕ) (Za Zb : K)
    (Nmo : Fin r × Fin c → ℕ) (N : Fin r' × Fin c' → K) (opt : Opt.Dict) :
    Py.Rel Reflected (KS.init lower coerce G coul a p Za Zb Nmo N opt) (KS.init lower coerce G coul a p Zb Za Nmo N opt) := by
  unfold KS.init
  refine (Py.Rel.of_eq rfl).bind fun x y hxy => ?_
  subst hxy
  split
  · have hp : Py.Rel (fun t t' => t = t' ∧ ∀ w s, t w = some s → MirrorSolver s s)
        (pssolver lower coerce G Nmo N (Opt.solverDict x)) (pssolver lower coerce G Nmo N (Opt.solverDict x)) := by
      unfold pssolver
      refine Py.Rel.foldlM (R := fun (t t' : Fin r × Fin c → Option (Solver G)) => t = t' ∧ ∀ w s, t w = some s → MirrorSolver s s) _ (fun t t' w h => ?_) _ _
        ⟨rfl, fun w s h => nomatch h⟩
      obtain ⟨rfl, h⟩ := h
      refine (Py.Rel.of_eq rfl).bind fun n n' hn => ?_
      subst hn
      have hs : Py.Rel (fun s t => s = t ∧ MirrorSolver s s) (Solver.init lower coerce G (Nmo w) n w.1.1 c (Opt.solverDict x))
          (Solver.init lower coerce G (Nmo w) n w.1.1 c (Opt.solverDict x)) := by
        unfold Solver.init
        refine (Py.Rel.of_eq rfl).bind fun z z' hz => ?_
        subst hz
        split
        · exact .error _
        · exact .pure ⟨rfl, ⟨rfl, rfl, rfl, rfl, rfl, rfl, rfl, rfl, .none⟩⟩
      refine hs.bind fun s s' hss => .pure ?_
      obtain ⟨rfl, hss⟩ := hss
      refine ⟨rfl, fun v q hq => ?_⟩
      by_cases hv : v = w
      · subst hv
        rw [Function.update_self] at hq
        obtain rfl := Option.some.inj hq
        exact hss
      · rw [Function.update_of_ne hv] at hq
        exact h v q hq
    refine hp.bind fun t t' ht => ?_
    obtain ⟨rfl, ht⟩ := ht
    split
    · rename_i hall
      refine .pure ⟨rfl, rfl, rfl, rfl, rfl, fun w => ht w _ (Option.some_get _).symm, ?_, rfl, rfl, rfl, rfl, rfl, rfl, rfl, rfl,
        rfl, rfl, rfl⟩
      dsimp only
      unfold nuclearPotential
      rw [hcoul Za Zb]
      by_cases h1 : p = 1 ∨ p = 2
      · simp only [if_pos h1]
        split <;> rfl
      · simp only [if_neg h1]
        split <;> rfl
    · exact .error _
  · exact .error _

/-- C109: a calculation that starts mirror symmetric stays mirror symmetric, also without `sym`: density, potentials and
(up to a factor) every orbital. -/
theorem C109_symmetric (hG : MirrorInvariant G) {F : Functionals G p} (hF : MirrorFunctionals F) {W : Workers G r c p}
    (hW : MirrorWorkers W) (o : Options K) {A A' : KS G r c p} {log} (h : Reflected A A) (hA : scf F W o A = .ok (A', log)) :
    Reflected A' A' ∧ (∀ n, A'.n = some n → G.mirCols n = n) ∧ (∀ v, A'.veff = some v → G.mirCols v = v) ∧
      ∀ w l, (A'.solver w).phi = some l → ∀ f ∈ l, G.mir f = f ∨ G.mir f = -f := by
  have hr := C109_scf hG hF hW o h
  rw [hA] at hr
  obtain ⟨_, hb, hr, -⟩ := hr.ok_left rfl
  obtain rfl := Except.ok.inj hb
  refine ⟨hr, fun n hn => ?_, fun v hv => ?_, fun w l hl f hf => ?_⟩
  · have := hr.n
    rw [hn] at this
    exact (Option.some.inj this).symm
  · have := hr.veff
    rw [hv] at this
    exact (Option.some.inj this).symm
  · have := (hr.solver w).phi
    rw [hl] at this
    cases this with
    | some h2 =>
      obtain ⟨x, hx, he⟩ := List.forall₂_same.1 h2 f hf
      have h1 : ∀ k, f k = x * f (G.mirIx k) := fun k => congrFun he k
      have h3 : ∀ k, f (G.mirIx k) = x * f k := fun k => by
        have := h1 (G.mirIx k)
        rwa [G.mirIx_mirIx] at this
      by_cases hx1 : x = 1
      · left
        funext k
        rw [Grid.mir, h3, hx1, one_mul]
      · right
        funext k
        have h4 : (x * x - 1) * f k = 0 := by
          rw [sub_mul, mul_assoc, ← h3, ← h1]
          ring
        rw [Grid.mir, h3, Pi.neg_apply]
        rcases mul_eq_zero.1 h4 with h5 | h5
        · have : (x - 1) * (x + 1) = 0 := by linear_combination h5
          rcases mul_eq_zero.1 this with h6 | h6
          · exact absurd (sub_eq_zero.1 h6) hx1
          · linear_combination f k * h6
        · rw [h5]
          ring

/-- C109: the same for a homonuclear molecule. -/
theorem C109_homonuclear (lower : String → String) (coerce : Opt.Kind → Opt.Val → Option Opt.Val) (hG : MirrorInvariant G)
    (coul : K → K → G.Fld) (hcoul : ∀ Za Zb, coul Zb Za = G.mir (coul Za Zb)) (a : K) {r' c' : ℕ} (Z : K)
    (Nmo : Fin r × Fin c → ℕ) (N : Fin r' × Fin c' → K) (opt : Opt.Dict) {F : Functionals G p} (hF : MirrorFunctionals F)
    {W : Workers G r c p} (hW : MirrorWorkers W) (o : Options K) {A A' : KS G r c p} {log}
    (hA : KS.init lower coerce G coul a p Z Z Nmo N opt = .ok A) (hs : scf F W o A = .ok (A', log)) (n : G.Cols p)
    (hn : A'.n = some n) : G.mirCols n = n := by
  have hr := C109_init lower coerce G coul hcoul a p Z Z Nmo N opt
  rw [hA] at hr
  obtain ⟨_, hb, hr⟩ := hr.ok_left rfl
  obtain rfl := Except.ok.inj hb
  exact (C109_symmetric hG hF hW o hr hs).2.1 n hn

section Functionals
open Libxc

/-- A functional evaluated point by point. -/
def Spec.Pointwise {q : ℕ} (F : Func G p q) : Prop :=
  ∃ (e : (Fin p → K) → Option (Fin q → K) → K) (v : (Fin p → K) → Option (Fin q → K) → Fin p → K)
    (t : (Fin p → K) → Option (Fin q → K) → Fin q → K), ∀ n s,
    F n s = ⟨fun k => e (n · k) (s.map fun s => (s · k)), fun i k => v (n · k) (s.map fun s => (s · k)) i,
      fun i k => t (n · k) (s.map fun s => (s · k)) i⟩

/-- Differential operators on a grid that looks the same from both sides: the angular ones change sign. -/
structure Spec.MirrorOp (O : Op G) : Prop where
  grada : ∀ f k, O.grada.mulVec (G.mir f) k = -O.grada.mulVec f (G.mirIx k)
  gradr : ∀ f k, O.gradr.mulVec (G.mir f) k = O.gradr.mulVec f (G.mirIx k)
  diva : ∀ f k, O.diva.mulVec (G.mir f) k = -O.diva.mulVec f (G.mirIx k)
  divr : ∀ f k, O.divr.mulVec (G.mir f) k = O.divr.mulVec f (G.mirIx k)

theorem Spec.Pointwise.mir {q : ℕ} {F : Func G p q} (h : Pointwise F) (n : G.Cols p) (s : Option (G.Cols q)) :
    F (G.mirCols n) (s.map G.mirCols) = ⟨G.mir (F n s).zk, G.mirCols (F n s).vrho, G.mirCols (F n s).vsigma⟩ := by
  obtain ⟨e, v, t, h⟩ := h
  rw [h, h]
  cases s <;> rfl

theorem Spec.MirrorOp.div {O : Op G} (h : MirrorOp O) (c n : G.Fld) : O.div (G.mir c) (G.mir n) = G.mir (O.div c n) := by
  funext k
  unfold Op.div
  have e1 : (fun l => G.mir c l * O.grada.mulVec (G.mir n) l) = G.mir fun l => -(c l * O.grada.mulVec n l) := by
    funext l
    rw [h.grada]
    simp only [Grid.mir, mul_neg]
  have e2 : (fun l => G.mir c l * O.gradr.mulVec (G.mir n) l) = G.mir fun l => c l * O.gradr.mulVec n l := by
    funext l
    rw [h.gradr]
    rfl
  rw [e1, e2, h.diva, h.divr]
  have e3 : O.diva.mulVec (fun l => -(c l * O.grada.mulVec n l)) = -O.diva.mulVec fun l => c l * O.grada.mulVec n l :=
    Matrix.mulVec_neg _ _
  rw [e3, Pi.neg_apply, neg_neg]
  rfl

/-- C109: energy density and potential of an LDA or GGA for the mirrored density are the mirrored ones, the energy is the same. -/
theorem C109_xc1 (hG : MirrorInvariant G) {O : Op G} (hO : MirrorOp O) (family : String) {F : Func G 1 1} (hF : Pointwise F)
    (n : G.Cols 1) :
    getXc1 O family F (G.mirCols n) = (getXc1 O family F n).map fun r => ⟨r.exc, G.mir r.epsilon, G.mirCols r.vxc⟩ := by
  have hd : dict1 O family F (G.mirCols n) = (dict1 O family F n).map fun d => ⟨G.mir d.zk, G.mirCols d.vrho, G.mirCols d.vsigma⟩ := by
    unfold dict1
    split
    · exact congrArg Except.ok (hF.mir n none)
    · split
      · have e : (fun k => O.grada.mulVec (G.mirCols n 0) k ^ 2 + O.gradr.mulVec (G.mirCols n 0) k ^ 2) =
            G.mir fun k => O.grada.mulVec (n 0) k ^ 2 + O.gradr.mulVec (n 0) k ^ 2 := by
          funext k
          simp only [Grid.mirCols, hO.grada, hO.gradr, Grid.mir]
          ring
        simp only [Ops.sigma, bind, Except.bind, pure, Except.pure, e]
        exact congrArg Except.ok (hF.mir n (some fun _ k => O.grada.mulVec (n 0) k ^ 2 + O.gradr.mulVec (n 0) k ^ 2))
      · rfl
  unfold getXc1
  rw [hd]
  cases dict1 O family F n with
  | error e => rfl
  | ok d =>
    simp only [bind, Except.bind, pure, Except.pure, Except.map]
    have e : (G.integ fun k => ∑ s, G.mir d.zk k * G.mirCols n s k) = G.integ fun k => ∑ s, d.zk k * n s k :=
      hG fun k => ∑ s, d.zk k * n s k
    rw [e]
    congr 2
    split
    · funext s k
      have := congrFun (hO.div (d.vsigma 0) (n 0)) k
      simp only [Grid.mirCols]
      rw [this]
      rfl
    · rfl

/-- see `C109_xc1` -/
theorem C109_xc2 (hG : MirrorInvariant G) {O : Op G} (hO : MirrorOp O) (family : String) {F : Func G 2 3} (hF : Pointwise F)
    (n : G.Cols 2) :
    getXc2 O family F (G.mirCols n) = (getXc2 O family F n).map fun r => ⟨r.exc, G.mir r.epsilon, G.mirCols r.vxc⟩ := by
  have hd : dict2 O family F (G.mirCols n) = (dict2 O family F n).map fun d => ⟨G.mir d.zk, G.mirCols d.vrho, G.mirCols d.vsigma⟩ := by
    unfold dict2
    split
    · exact congrArg Except.ok (hF.mir n none)
    · split
      · have e : ∀ j, (fun k => O.grada.mulVec (G.mirCols n j) k ^ 2 + O.gradr.mulVec (G.mirCols n j) k ^ 2) =
            G.mir fun k => O.grada.mulVec (n j) k ^ 2 + O.gradr.mulVec (n j) k ^ 2 := by
          intro j
          funext k
          simp only [Grid.mirCols, hO.grada, hO.gradr, Grid.mir]
          ring
        have e1 : dotProduct (Matrix.vecMul (O.grada.mulVec (G.mirCols n 0)) O.grada) (G.mirCols n 1) =
            dotProduct (Matrix.vecMul (O.grada.mulVec (n 0)) O.grada) (n 1) := by
          rw [← Matrix.dotProduct_mulVec, ← Matrix.dotProduct_mulVec]
          unfold dotProduct
          rw [← G.sum_mir fun k => O.grada.mulVec (n 0) k * O.grada.mulVec (n 1) k]
          refine Finset.sum_congr rfl fun k _ => ?_
          simp only [Grid.mirCols, hO.grada, Grid.mir]
          ring
        have e2 : dotProduct (Matrix.vecMul (O.gradr.mulVec (G.mirCols n 0)) O.gradr) (G.mirCols n 1) =
            dotProduct (Matrix.vecMul (O.gradr.mulVec (n 0)) O.gradr) (n 1) := by
          rw [← Matrix.dotProduct_mulVec, ← Matrix.dotProduct_mulVec]
          unfold dotProduct
          rw [← G.sum_mir fun k => O.gradr.mulVec (n 0) k * O.gradr.mulVec (n 1) k]
          refine Finset.sum_congr rfl fun k _ => ?_
          simp only [Grid.mirCols, hO.gradr, Grid.mir]
        simp only [Ops.sigma, bind, Except.bind, pure, Except.pure, e, e1, e2]
        refine Eq.trans ?_ (congrArg Except.ok (hF.mir n (some _)))
        refine congrArg (fun s : G.Cols 3 => (Except.ok (F (G.mirCols n) (some s)) : Py (Vals G 2 3))) ?_
        funext j
        fin_cases j <;> rfl
      · rfl
  unfold getXc2
  rw [hd]
  cases dict2 O family F n with
  | error e => rfl
  | ok d =>
    simp only [bind, Except.bind, pure, Except.pure, Except.map]
    have e : (G.integ fun k => ∑ s, G.mir d.zk k * G.mirCols n s k) = G.integ fun k => ∑ s, d.zk k * n s k :=
      hG fun k => ∑ s, d.zk k * n s k
    rw [e]
    congr 2
    have hdiv : ∀ i j, O.div (G.mirCols d.vsigma i) (G.mirCols n j) = G.mir (O.div (d.vsigma i) (n j)) := fun i j => hO.div _ _
    split
    · funext s k
      simp only [hdiv]
      fin_cases s <;> rfl
    · rfl

end Functionals

section RealGrid
open FD Init Ops Libxc Hartree

/-- C109: the differential operators of the grid look the same from both sides. -/
theorem C109_operators {k Na Nr : ℕ} (hk : 0 < k) (hNa : k ≤ Na) (hNr : k ≤ Nr) {a L : ℝ} (ha0 : 0 < a) (hL : 0 < L)
    (ds1 ds2 : Fin (2 * k + 1) → ℝ) (hds1 : FDC.Returns (fun i => ((centred k i : ℤ) : ℝ)) 1 (.ok ds1))
    (hds2 : FDC.Returns (fun i => ((centred k i : ℤ) : ℝ)) 2 (.ok ds2)) (pi ha hr : ℝ) (wi w : Fin (Na * Nr) → ℝ) :
    ∃ R, build Na Nr k a L (centred k) ds1 ds2 = .ok R ∧
      MirrorOp (G := ⟨Na, Nr, pi, ha, hr, wi, w⟩) ⟨R.grada, R.gradr, R.diva, R.divr⟩ := by
  obtain ⟨R, hB, g1, g2, d1, d2⟩ := Ops.div_eq hk hNa hNr ha0 hL ds1 ds2 hds1 hds2
  have p1 : ∀ i, ds1 i.rev = (-1) * ds1 i := fun i => by
    have := C10_parity _ (centred_injective k) (centred_rev k) 1 ds1 hds1 i
    rwa [pow_one] at this
  have hh : ∀ q, h1 Na Nr a L (mirK q) = h1 Na Nr a L q := fun q => by rw [h1_eq, h1_eq, Xr_mirK, sin_mirK]
  have hY : ∀ q, Y Na Nr a L (mirK q) = Y Na Nr a L q := fun q => by rw [Y_eq, Y_eq, Xr_mirK, sin_mirK]
  have hw : ∀ q, Init.w Na Nr a L (mirK q) = Init.w Na Nr a L q := fun q => by rw [w_eq, w_eq, Xr_mirK, sin_mirK]
  have hm : ∀ f : Fin (Na * Nr) → ℝ, (fun q => f (mirK q)) = Spec.mirrored f := fun f => Init.mir_eq_mirrored f
  have hu : ∀ f : Fin (Na * Nr) → ℝ, (fun q => h1 Na Nr a L q * Y Na Nr a L q * f (mirK q)) =
      Spec.mirrored fun q => h1 Na Nr a L q * Y Na Nr a L q * f q := fun f => by
    rw [← hm]
    funext q
    rw [hh, hY]
  have hR : ∀ s (f : Fin (Na * Nr) → ℝ) i j, diffR ds1 (Init.hr Nr L) 1 s (fun _ => 0) (Spec.mirrored f) i j =
      diffR ds1 (Init.hr Nr L) 1 s (fun _ => 0) f i.rev j := fun s f i j => by
    unfold diffR
    rw [Spec.lineR_mirrored]
  refine ⟨R, hB, ⟨fun f q => ?_, fun f q => ?_, fun f q => ?_, fun f q => ?_⟩⟩
  all_goals
    rw [← at2_ia_ir q]
    change (Matrix.mulVec _ fun q => f (mirK q)) (at2 (ia q) (ir q)) = _
    rw [show Grid.mirIx _ (at2 (ia q) (ir q)) = at2 (ia q).rev (ir q) from mirK_at2 _ _]
  · rw [g1, g1, hm, Spec.diffA_mirrored hNa p1, ← mirK_at2, hh]
    ring
  · rw [g2, g2, hm, hR, ← mirK_at2, hh]
  · rw [d1, d1, hu, Spec.diffA_mirrored hNa p1, ← mirK_at2, hw]
    ring
  · rw [d2, d2, hu, hR, ← mirK_at2, hw]

/-- C109: the potential of the exchanged nuclei is the mirrored potential. -/
theorem C109_coulomb (Na Nr : ℕ) (a L pi ha hr : ℝ) (wi w : Fin (Na * Nr) → ℝ) (Za Zb : ℝ) :
    coulomb Na Nr a L Zb Za = Grid.mir ⟨Na, Nr, pi, ha, hr, wi, w⟩ (coulomb Na Nr a L Za Zb) := by
  funext k
  change _ = coulomb Na Nr a L Za Zb (mirK k)
  unfold coulomb
  rw [Xr_mirK, cos_mirK]
  ring

/-- C109: pointwise functionals from libxc, the gradient operators of the grid and a Hartree potential whose factorisation
needs no exchanges satisfy the hypothesis of the theorems above. -/
theorem C109_functionals_partial (H : HGrid) (hk : 0 < H.bcN) (hNa : H.bcN ≤ H.Na) (ha0 : 0 < H.a) (hL0 : 0 < H.L)
    (ds1 ds2 : Fin (2 * H.bcN + 1) → ℝ) (hds1 : FDC.Returns (fun i => ((centred H.bcN i : ℤ) : ℝ)) 1 (.ok ds1))
    (hds2 : FDC.Returns (fun i => ((centred H.bcN i : ℤ) : ℝ)) 2 (.ok ds2)) (R : Result ℝ H.Na H.Nr H.bcN)
    (hR : build H.Na H.Nr H.bcN H.a H.L (centred H.bcN) ds1 ds2 = .ok R) (hlu : IsSplu R.elap 1 1 H.Llap H.Ulap)
    (hbl : H.blap = R.blap) (hwi : ∀ k, H.wi (mirK k) = H.wi k) (family : String) :
    (∀ X C : Func H.grid 1 1, Pointwise X → Pointwise C →
      MirrorFunctionals (H.functionals1 ⟨R.grada, R.gradr, R.diva, R.divr⟩ family X C)) ∧
    ∀ X C : Func H.grid 2 3, Pointwise X → Pointwise C →
      MirrorFunctionals (H.functionals2 ⟨R.grada, R.gradr, R.diva, R.divr⟩ family X C) := by
  have hG : MirrorInvariant H.grid := fun f => H.integ_mirror hwi f
  obtain ⟨R', hR', hO⟩ := C109_operators hk hNa H.hb ha0 hL0 ds1 ds2 hds1 hds2 H.grid.pi H.grid.ha H.grid.hr H.grid.wi H.grid.w
  obtain rfl : R = R' := Except.ok.inj (hR.symm.trans hR')
  have hH : ∀ n : H.Fld, H.solve (H.source (H.grid.mir n)) = H.grid.mir (H.solve (H.source n)) := fun n =>
    congrFun (C17_mirror_partial H hk hNa hL0 ds1 ds2 hds1 hds2 R hR hlu hbl hwi n) 0
  refine ⟨fun X C hX hC => ⟨fun n => ?_, fun n => ?_, fun n => ?_⟩, fun X C hX hC => ⟨fun n => ?_, fun n => ?_, fun n => ?_⟩⟩
  · simp only [HGrid.functionals1]
    rw [C109_xc1 hG hO family hX n]
    cases getXc1 (G := H.grid) ⟨R.grada, R.gradr, R.diva, R.divr⟩ family X n <;> rfl
  · simp only [HGrid.functionals1]
    rw [C109_xc1 hG hO family hC n]
    cases getXc1 (G := H.grid) ⟨R.grada, R.gradr, R.diva, R.divr⟩ family C n <;> rfl
  · have := hH fun k => ∑ s, n s k
    exact congrArg (fun v : H.grid.Fld => (.ok fun _ => v : Py (H.grid.Cols 1))) this
  · simp only [HGrid.functionals2]
    rw [C109_xc2 hG hO family hX n]
    cases getXc2 (G := H.grid) ⟨R.grada, R.gradr, R.diva, R.divr⟩ family X n <;> rfl
  · simp only [HGrid.functionals2]
    rw [C109_xc2 hG hO family hC n]
    cases getXc2 (G := H.grid) ⟨R.grada, R.gradr, R.diva, R.divr⟩ family C n <;> rfl
  · have := hH fun k => ∑ s, n s k
    exact congrArg (fun v : H.grid.Fld => (.ok fun _ => v : Py (H.grid.Cols 2))) this

/-- `φ` is an orbital with level `e` for the Hamiltonian `H0` and the potential `v` (calc_orbitals.py 28-38). -/
def Spec.Orbital {G : Grid ℝ} (H0 : Matrix G.Ix G.Ix ℝ) (v : G.Fld) (e : ℝ) (φ : G.Fld) : Prop :=
  φ ≠ 0 ∧ ∀ k, (Orbitals.hks H0 v).mulVec φ k = e * (G.w k * φ k)

/-- C109: the orbitals of the mirrored potential are the mirrored orbitals, with the same levels. -/
theorem C109_orbitals {k Na Nr : ℕ} (hk : 0 < k) (hNa : k ≤ Na) (hNr : k ≤ Nr) {a L : ℝ} (hL : 0 < L)
    (ds1 ds2 : Fin (2 * k + 1) → ℝ) (hds1 : FDC.Returns (fun i => ((centred k i : ℤ) : ℝ)) 1 (.ok ds1))
    (hds2 : FDC.Returns (fun i => ((centred k i : ℤ) : ℝ)) 2 (.ok ds2)) (pi ha hr : ℝ) (wi : Fin (Na * Nr) → ℝ) :
    ∃ R, build Na Nr k a L (centred k) ds1 ds2 = .ok R ∧ ∀ (m : ℕ) (v : Fin (Na * Nr) → ℝ) (e : ℝ) (φ : Fin (Na * Nr) → ℝ),
      let G : Grid ℝ := ⟨Na, Nr, pi, ha, hr, wi, Init.w Na Nr a L⟩
      let H0 := Solver.hamiltonian m R.elap R.olap (Init.w Na Nr a L) (Init.f Na Nr a L)
      Orbital (G := G) H0 (G.mir v) e (G.mir φ) ↔ Orbital (G := G) H0 v e φ := by
  obtain ⟨R, hR, h1, h2⟩ := C14_mirror hk hNa hNr a hL ds1 ds2 hds1 hds2
  refine ⟨R, hR, ?_⟩
  intro m
  have hw : ∀ q, Init.w Na Nr a L (mirK q) = Init.w Na Nr a L q := fun q => by rw [w_eq, w_eq, Xr_mirK, sin_mirK]
  have hf : ∀ q, Init.f Na Nr a L (mirK q) = Init.f Na Nr a L q := fun q => by rw [f_eq, f_eq, Xr_mirK, sin_mirK]
  have hdv : ∀ (d : Fin (Na * Nr) → ℝ) (u : Fin (Na * Nr) → ℝ), (diag d).mulVec u = fun q => d q * u q := fun d u => by
    funext q; exact sum_diag d u q
  have hH : ∀ (φ : Fin (Na * Nr) → ℝ) q, (Solver.hamiltonian m R.elap R.olap (Init.w Na Nr a L) (Init.f Na Nr a L)).mulVec (Init.mir φ) q =
      (Solver.hamiltonian m R.elap R.olap (Init.w Na Nr a L) (Init.f Na Nr a L)).mulVec φ (mirK q) := by
    intro φ q
    unfold Solver.hamiltonian
    split
    all_goals
      simp only [Matrix.add_mulVec, Matrix.smul_mulVec, ← Matrix.mulVec_mulVec, Pi.add_apply, Pi.smul_apply, hdv, h1, h2, mir_apply, hw, hf]
  have one : ∀ (v : Fin (Na * Nr) → ℝ) (e : ℝ) (φ : Fin (Na * Nr) → ℝ),
      Orbital (G := ⟨Na, Nr, pi, ha, hr, wi, Init.w Na Nr a L⟩)
        (Solver.hamiltonian m R.elap R.olap (Init.w Na Nr a L) (Init.f Na Nr a L)) v e φ →
      Orbital (G := ⟨Na, Nr, pi, ha, hr, wi, Init.w Na Nr a L⟩)
        (Solver.hamiltonian m R.elap R.olap (Init.w Na Nr a L) (Init.f Na Nr a L)) (Init.mir v) e (Init.mir φ) := by
    rintro v e φ ⟨h0, h⟩
    refine ⟨fun hz => h0 ?_, fun q => ?_⟩
    · funext q
      have := congrFun hz (mirK q)
      rwa [mir_apply, mirK_mirK] at this
    · have := h (mirK q)
      unfold Orbitals.hks at this ⊢
      rw [Matrix.add_mulVec, Pi.add_apply, hdv] at this ⊢
      rw [hH]
      simp only [mir_apply, hw] at this ⊢
      exact this
  intro v e φ G H0
  have hmm : ∀ f : Fin (Na * Nr) → ℝ, Init.mir (Init.mir f) = f := fun f => by
    funext q
    rw [mir_apply, mir_apply, mirK_mirK]
  constructor
  · intro h
    have := one _ _ _ h
    change Orbital (G := G) H0 (Init.mir (Init.mir v)) e (Init.mir (Init.mir φ)) at this
    rwa [hmm, hmm] at this
  · exact one v e φ

/-- The lowest `n` levels, in ascending order. -/
structure Spec.Lowest (S : Set ℝ) (n : ℕ) (e : List ℝ) : Prop where
  length : e.length = n
  sorted : e.Pairwise (· < ·)
  mem : ∀ x ∈ e, x ∈ S
  low : ∀ x ∈ S, x ∉ e → ∀ y ∈ e, y < x

/-- A worker result that solves the eigenproblem `Orb`: the lowest levels with an orbital each. -/
structure Spec.LevelsSolved {G : Grid ℝ} (Orb : ℝ → G.Fld → Prop) (n : ℕ) (x : Found G) : Prop where
  levels : Lowest {e | ∃ φ, Orb e φ} n x.1
  orbitals : ∃ l, x.2 = some l ∧ List.Forall₂ Orb x.1 l

theorem Spec.Lowest.unique {S : Set ℝ} : ∀ {n : ℕ} {e e' : List ℝ}, Lowest S n e → Lowest S n e' → e = e' := by
  intro n e e' h h'
  have nd : e.Nodup := h.sorted.imp fun h => h.ne
  have nd' : e'.Nodup := h'.sorted.imp fun h => h.ne
  have hc : e.toFinset.card = e'.toFinset.card := by
    rw [List.toFinset_card_of_nodup nd, List.toFinset_card_of_nodup nd', h.length, h'.length]
  have hsub : e.toFinset ⊆ e'.toFinset := by
    by_contra hn
    obtain ⟨x, hx, hx'⟩ := Finset.not_subset.1 hn
    have : ¬ e'.toFinset ⊆ e.toFinset := fun hs => hn (Finset.eq_of_subset_of_card_le hs hc.le).symm.subset
    obtain ⟨y, hy, hy'⟩ := Finset.not_subset.1 this
    rw [List.mem_toFinset] at hx hx' hy hy'
    exact lt_asymm (h'.low x (h.mem x hx) hx' y hy) (h.low y (h'.mem y hy) hy' x hx)
  have heq := Finset.eq_of_subset_of_card_le hsub hc.ge
  have hp : e.Perm e' := (List.perm_ext_iff_of_nodup nd nd').2 fun x => by
    rw [← List.mem_toFinset, heq, List.mem_toFinset]
  exact hp.eq_of_pairwise (fun a b _ _ h1 h2 => absurd h1 (lt_asymm h2)) h.sorted h'.sorted

/-- C109: if the levels in question are not degenerate, solving the two mirrored eigenproblems gives mirrored results. -/
theorem C109_workers {G : Grid ℝ} {Orb Orb' : ℝ → G.Fld → Prop} (hO : ∀ e φ, Orb' e (G.mir φ) ↔ Orb e φ) (n : ℕ) (x y : Found G)
    (hx : LevelsSolved Orb n x) (hy : LevelsSolved Orb' n y)
    (hs : ∀ e ∈ x.1, ∀ φ ψ, Orb e φ → Orb e ψ → ∃ c : ℝ, c ≠ 0 ∧ ψ = fun k => c * φ k) :
    MirrorFound (some x) (some y) := by
  have hS : {e | ∃ φ, Orb' e φ} = {e | ∃ φ, Orb e φ} := by
    ext e
    constructor
    · rintro ⟨φ, h⟩
      exact ⟨G.mir φ, (hO e _).1 (by rwa [G.mir_mir])⟩
    · rintro ⟨φ, h⟩
      exact ⟨G.mir φ, (hO e φ).2 h⟩
  obtain ⟨e, l⟩ := x
  obtain ⟨e', l'⟩ := y
  obtain ⟨hl, l, rfl, hf⟩ := hx
  obtain ⟨hl', l', rfl, hf'⟩ := hy
  rw [hS] at hl'
  obtain rfl : e = e' := hl.unique hl'
  refine .some (.some ?_)
  clear hl hl' hS
  dsimp only at hf hf' hs
  induction e generalizing l l' with
  | nil =>
    cases hf
    cases hf'
    exact .nil
  | cons a e ih =>
    cases hf with
    | cons h1 h2 =>
      cases hf' with
      | cons h1' h2' =>
        refine .cons ?_ (by apply ih <;> first | assumption | exact fun b hb => hs b (List.mem_cons_of_mem _ hb))
        have := (hO a (G.mir _)).1 (by rw [G.mir_mir]; exact h1')
        obtain ⟨c, hc, h⟩ := hs a List.mem_cons_self _ _ h1 this
        refine ⟨c, hc, ?_⟩
        have h3 := congrArg G.mir h
        rw [G.mir_mir] at h3
        rw [h3]
        rfl

end RealGrid

/-- The hypothesis on the integral fails for unequal block counts (`C08_refuted`): on the grid `NP = 2`, `NM = [1,2]` a field and
its mirror image have different integrals. -/
theorem C109_refuted_blocks (a L : ℝ) (ha0 : 0 < a) (hL : 0 < L) (wa : Fin (NC.npts 2 1) → ℝ) (wr : Fin (NC.npts 2 2) → ℝ)
    (ha : NC.Returns 2 1 (.ok wa)) (hr : NC.Returns 2 2 (.ok wr)) : ¬ MirrorInvariant (Init.mkGrid 2 1 2 a L wa wr) := by
  intro h
  have h1 := NC_two_one wa ha
  have h2 := NC_two_two wr hr
  let k0 : Fin (NC.npts 2 1 * NC.npts 2 2) := ⟨0, by norm_num⟩
  let k1 : Fin (NC.npts 2 1 * NC.npts 2 2) := ⟨1, by norm_num⟩
  have hm : Init.mirK k1 = k0 := by decide
  have hm' : Init.mirK k0 = k1 := by decide
  have hw := (C04_positive a L ha0 hL k1).1
  have hww : Init.w _ _ a L k0 = Init.w _ _ a L k1 := by
    rw [← hm, Init.w_eq, Init.w_eq, Init.Xr_mirK, Init.sin_mirK]
  have p1 : 2 * Real.pi * Init.hr (NC.npts 2 2) L * Init.ha (NC.npts 2 1) ≠ 0 := by
    rw [Init.hr_eq, Init.ha_eq]
    have := Real.pi_pos
    simp only [NC.npts]
    positivity
  have h := h fun k => if k = k1 then 1 else 0
  have e : Grid.mir (Init.mkGrid 2 1 2 a L wa wr) (fun k => if k = k1 then 1 else 0) = fun k => if k = k0 then 1 else 0 := by
    funext k
    change (if Init.mirK k = k1 then (1 : ℝ) else 0) = _
    have : Init.mirK k = k1 ↔ k = k0 := ⟨fun h => by rw [← Init.mirK_mirK k, h, hm], fun h => by rw [h, hm']⟩
    simp only [this]
  rw [e] at h
  have h := mul_left_cancel₀ p1 h
  simp only [mul_ite, mul_one, mul_zero, Finset.sum_ite_eq', Finset.mem_univ, if_true] at h
  rw [hww] at h
  have h := mul_right_cancel₀ hw.ne' h
  simp only [Init.wiFlat, h1, h2, k0, k1] at h
  norm_num at h

section Example

/-- Two angular points with weights 1 and `x`. -/
abbrev C109_grid (x : ℚ) : Grid ℚ := { Na := 2, Nr := 1, pi := 1 / 2, ha := 1, hr := 1, wi := ![1, x], w := fun _ => 1 }

/-- Workers that return the potential as the orbital. -/
def C109_W (x : ℚ) : Workers (C109_grid x) 1 1 1 := fun ks _ w => (ks.solver w).veff.map fun v => ([v 0 + v 1], some [v])

/-- Two non-interacting electrons around charges 1 and 2, and the exchanged nuclei. -/
def C109_ks (x Za Zb : ℚ) : KS (C109_grid x) 1 1 1 :=
  { kind := .ni, sym := false, Za, Zb, a := 1, vnuc := fun _ k => if k = 0 then -Za else -Zb
    solver := fun _ => { Nmo := 1, N := 2, m := 0, pol := 1 } }

def C109_F (x : ℚ) : Functionals (C109_grid x) 1 := ⟨fun _ => .error .valueError, fun _ => .error .valueError, fun _ => .error .valueError⟩

theorem C109_mirIx (x : ℚ) : (C109_grid x).mirIx 0 = 1 ∧ (C109_grid x).mirIx 1 = 0 :=
  (show (C109_grid 0).mirIx 0 = 1 ∧ (C109_grid 0).mirIx 1 = 0 by decide)

theorem C109_mir (x : ℚ) (f : (C109_grid x).Fld) : (C109_grid x).mir f = ![f 1, f 0] := by
  obtain ⟨h0, h1⟩ := C109_mirIx x
  funext k
  match k with
  | ⟨0, _⟩ => exact congrArg f h0
  | ⟨1, _⟩ => exact congrArg f h1

theorem C109_workers_example (x : ℚ) : MirrorWorkers (C109_W x) := by
  intro A B h b w
  unfold C109_W
  rw [(h.solver w).veff]
  cases (A.solver w).veff with
  | none => exact .none
  | some v =>
    have e : (C109_grid x).mir v 0 + (C109_grid x).mir v 1 = v 0 + v 1 := by
      rw [C109_mir, add_comm]
      rfl
    simp only [Option.map_some, e]
    refine .some (.some (.cons ⟨1, one_ne_zero, ?_⟩ .nil))
    funext k
    rw [one_mul]

theorem C109_reflected (x : ℚ) : Reflected (C109_ks x 2 1) (C109_ks x 1 2) := by
  refine ⟨rfl, rfl, rfl, rfl, rfl, fun w => ⟨rfl, rfl, rfl, rfl, rfl, rfl, rfl, rfl, .none⟩, ?_, rfl, rfl, rfl, rfl, rfl, rfl, rfl,
    rfl, rfl, rfl, rfl⟩
  funext s
  refine Eq.trans ?_ (C109_mir x _).symm
  funext k
  match k with
  | ⟨0, _⟩ => rfl
  | ⟨1, _⟩ => rfl

def C109_opt : Options ℚ := ⟨false, false, false, false, 10, 1 / 100, 1⟩

/-- The hypotheses can be met, and the densities are mirror images: `8/5, 2/5` and `2/5, 8/5`. -/
example : MirrorInvariant (C109_grid 1) ∧ MirrorFunctionals (C109_F 1) ∧ MirrorWorkers (C109_W 1) ∧
    Reflected (C109_ks 1 2 1) (C109_ks 1 1 2) ∧
    ((scf (C109_F 1) (C109_W 1) C109_opt (C109_ks 1 2 1)).toOption.map fun x =>
      (x.2.length, x.1.n.map fun n => (n 0 0, n 0 1), x.1.E.map (·.E))) = some (2, some (8 / 5, 2 / 5), some (.fin (-5))) ∧
    ((scf (C109_F 1) (C109_W 1) C109_opt (C109_ks 1 1 2)).toOption.map fun x =>
      (x.2.length, x.1.n.map fun n => (n 0 0, n 0 1), x.1.E.map (·.E))) = some (2, some (2 / 5, 8 / 5), some (.fin (-5))) := by
  refine ⟨fun f => ?_, ⟨fun _ => rfl, fun _ => rfl, fun _ => rfl⟩, C109_workers_example 1, C109_reflected 1, by decide +kernel,
    by decide +kernel⟩
  rw [C109_mir]
  simp [Grid.integ, Fin.sum_univ_two, add_comm]

/-- The same two points with unequal weights: the energy changes when the nuclei are exchanged. -/
theorem C109_refuted_energy : MirrorFunctionals (C109_F 3) ∧ MirrorWorkers (C109_W 3) ∧
    Reflected (C109_ks 3 2 1) (C109_ks 3 1 2) ∧
    ((scf (C109_F 3) (C109_W 3) C109_opt (C109_ks 3 2 1)).toOption.bind fun x => x.1.E.map (·.Enuc)) = some (-22 / 7) ∧
    ((scf (C109_F 3) (C109_W 3) C109_opt (C109_ks 3 1 2)).toOption.bind fun x => x.1.E.map (·.Enuc)) = some (-50 / 13) :=
  ⟨⟨fun _ => rfl, fun _ => rfl, fun _ => rfl⟩, C109_workers_example 3, C109_reflected 3, by decide +kernel, by decide +kernel⟩

end Example

end Verif
