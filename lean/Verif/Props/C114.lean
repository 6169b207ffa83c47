import Verif.Lemmas.PyRel
import Verif.Props.C109

/-! # C114: a non-interacting calculation scales with the size of the molecule -/

namespace Verif

/-- The same points with all lengths multiplied by `x`. -/
abbrev Spec.dilate {K : Type} [_root_.Field K] (x : K) (G : Grid K) : Grid K := { G with w := fun k => x ^ 3 * G.w k }

/-- A number times a possibly infinite one. -/
def Spec.times {K : Type} [_root_.Field K] (x : K) : Fl K → Fl K
  | .fin y => .fin (x * y)
  | y => y

open Spec KS KsScf
variable {K : Type} [_root_.Field K] [LinearOrder K] [IsStrictOrderedRing K] [FloorRing K]
variable {G : Grid K} {r c p : ℕ} {x : K} {one : Prop}

/-- The same orbital up to a factor. -/
def Spec.SameOrbital (f g : G.Fld) : Prop := ∃ y : K, y ≠ 0 ∧ g = fun k => y * f k

/-- Both absent, or column by column the same orbitals. -/
inductive Spec.SameOrbitals : Option (List G.Fld) → Option (List G.Fld) → Prop
  | none : SameOrbitals none none
  | some {l l'} : List.Forall₂ SameOrbital l l' → SameOrbitals (some l) (some l')

/-- Energies are proportional to `1/x²`. -/
def Spec.energyScale (x : K) : K := (x ^ 2)⁻¹

/-- Densities are proportional to `1/x³`. -/
def Spec.densityScale (x : K) : K := (x ^ 3)⁻¹

/-- The same solver on the dilated grid. -/
structure Spec.DilatedSolver (x : K) (s : Solver G) (t : Solver (dilate x G)) : Prop where
  Nmo : t.Nmo = s.Nmo
  N : t.N = s.N
  m : t.m = s.m
  pol : t.pol = s.pol
  fractional : t.fractional = s.fractional
  sym : t.sym = s.sym
  eig : t.eig = s.eig.map (List.map (energyScale x * ·))
  veff : t.veff = s.veff.map fun v k => energyScale x * v k
  phi : SameOrbitals (G := G) s.phi t.phi

/-- A field times a number. -/
def Spec.timesCols {ι : Type} (y : K) (f : Fin p → ι → K) : Fin p → ι → K := fun s k => y * f s k

/-- The energies of the dilated system, when there is `one` nucleus also the total energy (`Vks` is cut off at `10⁵`, see `C114_refuted_cutoff`). -/
structure Spec.DilatedEnergy (one : Prop) (x : K) (e f : KSEnergy K p) : Prop where
  Eks : f.Eks = fun j => times (energyScale x) (e.Eks j)
  Ts : f.Ts = times (energyScale x) e.Ts
  evals : f.evals = e.evals.map (energyScale x * ·)
  Enuc : f.Enuc = energyScale x * e.Enuc
  Vext : f.Vext = energyScale x * e.Vext
  Et : f.Et = times (energyScale x) e.Et
  Vnn : f.Vnn = densityScale x * e.Vnn
  E : one → f.E = times (energyScale x) e.E

/-- A full orbital, or part of one. -/
def Spec.Occupied (s : Solver G) : Prop := 0 < s.occupation.1 ∨ 0 ≤ s.occupation.1 ∧ s.occupation.2 ≠ 0

/-- Electrons in every solver. -/
def Spec.AllOccupied (A : KS G r c p) : Prop := ∀ w, Occupied (A.solver w)

/-- `B` is `A` with all lengths times `x` and all charges divided by `x`; if `one`, then one of the charges is zero. -/
structure Spec.Dilated (one : Prop) (x : K) (A : KS G r c p) (B : KS (dilate x G) r c p) : Prop where
  kind : A.kind = .ni ∧ B.kind = .ni
  single : one → A.Za * A.Zb = 0
  sym : B.sym = A.sym
  Za : B.Za = A.Za / x
  Zb : B.Zb = A.Zb / x
  a : B.a = x * A.a
  solver : ∀ w, DilatedSolver x (A.solver w) (B.solver w)
  vnuc : B.vnuc = timesCols (energyScale x) A.vnuc
  vext : B.vext = A.vext.map (timesCols (energyScale x))
  vhxc : B.vhxc = A.vhxc.map (timesCols (energyScale x))
  veff : B.veff = A.veff.map (timesCols (energyScale x))
  n : B.n = A.n.map (timesCols (densityScale x))
  E : (A.E = none ∧ B.E = none) ∨ ∃ e f, A.E = some e ∧ B.E = some f ∧ DilatedEnergy one x e f
  u : AllOccupied A → B.u = A.u.map (energyScale x * ·)
  homo : AllOccupied A → ∀ w, B.homo w = (A.homo w).map (energyScale x * ·)

/-- Results of two worker processes: scaled levels and the same orbitals, or both died. -/
inductive Spec.DilatedFound (x : K) : Option (Found G) → Option (Found (dilate x G)) → Prop
  | none : DilatedFound x none none
  | some {e l l'} : SameOrbitals (G := G) l l' → DilatedFound x (some (e, l)) (some (e.map (energyScale x * ·), l'))

/-- The eigenproblem of the dilated object has scaled levels and the same orbitals. -/
def Spec.DilatedWorkers (one : Prop) (x : K) (W : Workers G r c p) (W' : Workers (dilate x G) r c p) : Prop :=
  ∀ A B, Dilated one x A B → ∀ b w, DilatedFound x (W A b w) (W' B b w)

theorem integ_dilate (x : K) (f : G.Fld) : (dilate x G).integ f = x ^ 3 * G.integ f := by
  simp only [Grid.integ, Finset.mul_sum]
  refine Finset.sum_congr rfl fun k _ => ?_
  ring

theorem energyScale_pos (hx : 0 < x) : 0 < energyScale x := by
  unfold energyScale
  positivity

theorem densityScale_mul (hx : 0 < x) : x ^ 3 * densityScale x = 1 := by
  unfold densityScale
  exact mul_inv_cancel₀ (by positivity)

namespace Spec.DilatedSolver
variable {s : Solver G} {t : Solver (dilate x G)}

theorem occupation (h : DilatedSolver x s t) : t.occupation = s.occupation := by
  unfold Solver.occupation
  rw [h.m, h.pol, h.N]

theorem scale (h : DilatedSolver x s t) : t.scale = s.scale := by
  unfold Solver.scale
  rw [h.m, h.pol]

theorem pyGet_map {α β : Type} (f : α → β) (l : List α) (i : ℤ) : Verif.pyGet (l.map f) i = (Verif.pyGet l i).map f := by
  unfold Verif.pyGet
  rw [List.length_map]
  dsimp only
  generalize (if i < 0 then i + (l.length : ℤ) else i) = j
  split
  · rfl
  · rw [List.getElem?_map]
    cases l[j.toNat]? <;> rfl

theorem eigAt (h : DilatedSolver x s t) (i : ℤ) : Py.Rel (fun y z => z = energyScale x * y) (s.eigAt i) (t.eigAt i) := by
  unfold Solver.eigAt
  rw [h.eig]
  cases s.eig with
  | none => exact .error _
  | some l => exact .of_map _ (fun _ => rfl) (pyGet_map _ l i)

theorem orb (h : DilatedSolver x s t) (i : ℤ) : Py.Rel (SameOrbital (G := G)) (s.orb i) (t.orb i) := by
  unfold Solver.orb
  have := h.phi
  revert this
  generalize s.phi = a
  generalize t.phi = b
  intro h
  cases h with
  | none => exact .error _
  | some h => exact .pyGet h i

theorem getHomo (h : DilatedSolver x s t) : Py.Rel (fun y z => Occupied s → z = energyScale x * y) s.getHomo t.getHomo := by
  unfold Solver.getHomo Occupied
  rw [h.occupation]
  generalize s.occupation = y
  obtain ⟨Nocc, nu⟩ := y
  dsimp only
  by_cases h0 : (if nu ≠ 0 then Nocc + 1 else Nocc) ≠ 0
  · simp only [if_pos h0]
    exact (h.eigAt _).mono fun _ _ e _ => e
  · simp only [if_neg h0]
    refine .ok fun g => (h0 ?_).elim
    split
    · omega
    · rename_i h1
      rcases g with g | ⟨-, g⟩
      · omega
      · exact (h1 g).elim

end Spec.DilatedSolver

/-- Each normalised orbital density is divided by the volume. -/
theorem Spec.SameOrbital.density {f g : G.Fld} (h : SameOrbital f g) (y : K) (k : G.Ix) :
    y * g k ^ 2 / (dilate x G).integ (fun k => g k ^ 2) = densityScale x * (y * f k ^ 2 / G.integ fun k => f k ^ 2) := by
  obtain ⟨z, hz, rfl⟩ := h
  have hz2 : z ^ 2 ≠ 0 := pow_ne_zero 2 hz
  have e : (fun k => (z * f k) ^ 2) = fun k => z ^ 2 * f k ^ 2 := by
    funext k
    ring
  rw [integ_dilate, e, G.integ_smul, mul_pow, mul_left_comm y, mul_left_comm (x ^ 3), mul_div_mul_left _ _ hz2, densityScale,
    ← div_eq_inv_mul, div_div, mul_comm (x ^ 3)]

theorem Spec.DilatedSolver.calcDensity (hx : 0 < x) {s : Solver G} {t : Solver (dilate x G)} (h : DilatedSolver x s t) :
    Py.Rel (fun (n n' : G.Fld) => n' = fun k => densityScale x * n k) s.calcDensity t.calcDensity := by
  unfold Solver.calcDensity
  rw [h.occupation, h.scale, h.fractional]
  generalize s.occupation = y
  obtain ⟨Nocc, nu⟩ := y
  dsimp only
  refine (Py.Rel.foldlM (R := fun (n n' : G.Fld) => n' = fun k => densityScale x * n k) _ (fun a b w hab => ?_) _ _ ?_).bind fun a b hab => ?_
  · refine (h.orb _).bind fun f g hfg => .pure ?_
    subst hab
    funext k
    have := hfg.density (x := x) 1 k
    simp only [one_mul] at this
    rw [this, mul_add]
  · funext k
    rw [mul_zero]
  · subst hab
    split
    · refine (h.orb _).bind fun f g hfg => .pure ?_
      funext k
      dsimp only
      rw [hfg.density _ k]
      ring
    · refine .pure ?_
      funext k
      ring

theorem Spec.DilatedSolver.calcEks {s : Solver G} {t : Solver (dilate x G)} (h : DilatedSolver x s t) :
    Py.Rel (fun y z => z = energyScale x * y) s.calcEks t.calcEks := by
  unfold Solver.calcEks
  rw [h.occupation, h.scale, h.fractional]
  generalize s.occupation = y
  obtain ⟨Nocc, nu⟩ := y
  dsimp only
  refine (Py.Rel.foldlM (R := fun y z => z = energyScale x * y) _ (fun a b w hab => ?_) _ _ ?_).bind fun a b hab => ?_
  · refine (h.eigAt _).bind fun f g hfg => .pure ?_
    rw [hab, hfg, mul_add]
  · rw [mul_zero]
  · subst hab
    split
    · refine (h.eigAt _).bind fun f g hfg => .pure ?_
      rw [hfg]
      ring
    · refine .pure ?_
      ring

theorem Spec.DilatedSolver.calcEnergy (hx : 0 < x) {s : Solver G} {t : Solver (dilate x G)} (h : DilatedSolver x s t) :
    Py.Rel (fun y z => z.1.eks = times (energyScale x) y.1.eks ∧ z.1.Ts = times (energyScale x) y.1.Ts) s.calcEnergy t.calcEnergy := by
  unfold Solver.calcEnergy
  refine h.calcEks.bind fun e e' he => (h.calcDensity hx).bind fun n n' hn => ?_
  subst he hn
  rw [h.veff]
  cases s.veff with
  | none => exact .error _
  | some v =>
    refine .pure ⟨rfl, ?_⟩
    have : ((dilate x G).integ fun k => energyScale x * v k * (densityScale x * n k)) = energyScale x * G.integ fun k => v k * n k := by
      have e : (fun k => energyScale x * v k * (densityScale x * n k)) = fun k => energyScale x * densityScale x * (v k * n k) := by
        funext k
        ring
      rw [integ_dilate, e, G.integ_smul]
      linear_combination energyScale x * (G.integ fun k => v k * n k) * densityScale_mul hx
    simp only [Solver.energyGuard, this, Fl.sub_fin, times]
    rw [mul_sub]

/-- Two infinite or finite numbers. -/
theorem times_add (y : K) (hy : 0 < y) (a b : Fl K) : times y (Fl.add a b) = Fl.add (times y a) (times y b) := by
  cases a <;> cases b <;> simp [times, Fl.add, mul_add]

theorem times_ratio (y : K) (hy : 0 < y) (a b : Fl K) : Fl.abs (Fl.div (times y a) (times y b)) = Fl.abs (Fl.div a b) := by
  have h0 : ∀ z : K, y * z = 0 ↔ z = 0 := fun z => by simp [hy.ne']
  cases a <;> cases b <;> simp only [times, Fl.div, h0, mul_pos_iff_of_pos_left hy, mul_nonneg_iff_of_pos_left hy,
    mul_div_mul_left _ _ hy.ne']

theorem times_sub (y : K) (hy : 0 < y) (a b : Fl K) : times y (Fl.sub a b) = Fl.sub (times y a) (times y b) := by
  cases a <;> cases b <;> simp [times, Fl.sub, Fl.add, Fl.neg, mul_add]

theorem inner_dilate (hx : 0 < x) (n v : G.Cols p) :
    KS.inner (G := dilate x G) (timesCols (densityScale x) n) (timesCols (energyScale x) v) = energyScale x * KS.inner n v := by
  unfold KS.inner
  have e : (fun k => ∑ s, timesCols (densityScale x) n s k * timesCols (energyScale x) v s k) =
      fun k => densityScale x * energyScale x * ∑ s, n s k * v s k := by
    funext k
    rw [Finset.mul_sum]
    refine Finset.sum_congr rfl fun s _ => ?_
    simp only [timesCols]
    ring
  rw [integ_dilate, e, G.integ_smul]
  linear_combination energyScale x * (G.integ fun k => ∑ s, n s k * v s k) * densityScale_mul hx

theorem timesCols_symmetrised (y : K) (f : G.Cols p) : symmetrised (G := G) (timesCols y f) = timesCols y (symmetrised f) := by
  funext s k
  simp only [symmetrised, timesCols, Grid.mirCols, Grid.mir]
  ring

theorem timesCols_spinSymmetrised (y : K) (f : G.Cols p) : spinSymmetrised (G := G) (timesCols y f) = timesCols y (spinSymmetrised f) := by
  funext s k
  simp only [spinSymmetrised, timesCols, Grid.mirCols, Grid.mir, Grid.flipCols]
  ring

theorem timesCols_add (y : K) (f g h : G.Cols p) :
    (fun s k => timesCols y f s k + timesCols y g s k + timesCols y h s k) = timesCols y fun s k => f s k + g s k + h s k := by
  funext s k
  simp only [timesCols]
  ring

theorem timesCols_zero (y : K) : timesCols (p := p) y (fun _ _ => 0 : G.Cols p) = fun _ _ => 0 := by
  funext s k
  simp only [timesCols, mul_zero]

theorem timesCols_mix (y z : K) (f g : G.Cols p) : KsScf.mix (G := G) z (timesCols y f) (timesCols y g) = timesCols y (KsScf.mix z f g) := by
  funext s k
  simp only [timesCols, KsScf.mix]
  ring

theorem Py.Rel.mapDilated {l : List (Fin r × Fin c)} {f : Fin r × Fin c → Solver G → Py (Solver G)}
    {g : Fin r × Fin c → Solver (dilate x G) → Py (Solver (dilate x G))}
    (hfg : ∀ w y z, DilatedSolver x y z → Py.Rel (DilatedSolver x) (f w y) (g w z)) {s : Fin r × Fin c → Solver G}
    {t : Fin r × Fin c → Solver (dilate x G)} (h : ∀ w, DilatedSolver x (s w) (t w)) :
    Py.Rel (fun s t => ∀ w, DilatedSolver x (s w) (t w)) (KS.mapSolvers l f s) (KS.mapSolvers l g t) := by
  unfold KS.mapSolvers
  refine Py.Rel.foldlM (R := fun s t => ∀ w, DilatedSolver x (s w) (t w)) l (fun s t w h => ?_) s t h
  refine (hfg w _ _ (h w)).bind fun y z hyz => .pure fun v => ?_
  by_cases hv : v = w
  · subst hv
    rwa [Function.update_self, Function.update_self]
  · rw [Function.update_of_ne hv, Function.update_of_ne hv]
    exact h v

/-- The loops over the solvers leave everything but potential, levels and orbitals. -/
theorem mapSolvers_keeps {β : Type} (q : Solver G → β) {l : List (Fin r × Fin c)} {f : Fin r × Fin c → Solver G → Py (Solver G)}
    (hf : ∀ w y z, f w y = .ok z → q z = q y) {s s' : Fin r × Fin c → Solver G} (h : KS.mapSolvers l f s = .ok s') :
    ∀ w, q (s' w) = q (s w) := by
  induction l generalizing s with
  | nil =>
    cases h
    exact fun _ => rfl
  | cons a l ih =>
    unfold KS.mapSolvers at h
    rw [List.foldlM_cons, Py.do_eq_ok] at h
    obtain ⟨s1, h1, h⟩ := h
    rw [Py.do_eq_ok] at h1
    obtain ⟨z, hz, h1⟩ := h1
    obtain rfl := Py.pure_eq_ok.1 h1
    intro w
    rw [ih h w]
    by_cases hw : w = a
    · subst hw
      rw [Function.update_self]
      exact hf _ _ _ hz
    · rw [Function.update_of_ne hw]

theorem occupation_distribute (v : G.Cols p) {s s' : Fin r × Fin c → Solver G} (h : KS.distribute v s = .ok s') (w) :
    (s' w).occupation = (s w).occupation := by
  unfold KS.distribute at h
  refine mapSolvers_keeps (fun s => s.occupation) (fun w y z hz => ?_) h w
  rw [Py.do_eq_ok] at hz
  obtain ⟨_, _, hz⟩ := hz
  obtain rfl := Py.pure_eq_ok.1 hz
  rfl

theorem occupation_collect (d : Fin r × Fin c → Option (Found G)) {s s' : Fin r × Fin c → Solver G} (h : KS.collect d s = .ok s') (w) :
    (s' w).occupation = (s w).occupation := by
  unfold KS.collect at h
  refine mapSolvers_keeps (fun s => s.occupation) (fun w y z hz => ?_) h w
  split at hz
  · cases hz
  · cases hz
    rfl

theorem Py.Rel.and_ok {α β : Type} {R : α → β → Prop} {y : Py α} {z : Py β} (h : Py.Rel R y z) :
    Py.Rel (fun a b => R a b ∧ y = .ok a) y z := by
  cases h with
  | ok h => exact .ok ⟨h, rfl⟩
  | error e => exact .error e

namespace Spec.Dilated
variable {A : KS G r c p} {B : KS (dilate x G) r c p} {F : Functionals G p} {F' : Functionals (dilate x G) p}
variable {W : Workers G r c p} {W' : Workers (dilate x G) r c p} {o : Options K}

theorem distribute (v : G.Cols p) {s : Fin r × Fin c → Solver G} {t : Fin r × Fin c → Solver (dilate x G)}
    (h : ∀ w, DilatedSolver x (s w) (t w)) :
    Py.Rel (fun s t => ∀ w, DilatedSolver x (s w) (t w)) (KS.distribute v s)
      (KS.distribute (G := dilate x G) (timesCols (energyScale x) v) t) := by
  unfold KS.distribute
  refine Py.Rel.mapDilated (fun w y z hyz => ?_) h
  have hc : Py.Rel (fun (a b : G.Fld) => b = fun k => energyScale x * a k) (KS.col v w.2.1)
      (KS.col (G := dilate x G) (timesCols (energyScale x) v) w.2.1) := by
    unfold KS.col
    split
    · exact .ok rfl
    · exact .error _
  refine hc.bind fun a b hab => .pure ?_
  subst hab
  exact { hyz with veff := rfl }

/-- Changing the potential or the orbitals of the solvers. -/
theorem withSolver (h : Dilated one x A B) {s : Fin r × Fin c → Solver G} {t : Fin r × Fin c → Solver (dilate x G)}
    (hst : ∀ w, DilatedSolver x (s w) (t w)) (ho : ∀ w, (s w).occupation = (A.solver w).occupation) :
    Dilated one x { A with solver := s } { B with solver := t } := by
  have e : AllOccupied { A with solver := s } ↔ AllOccupied A := by simp only [AllOccupied, Occupied, ho]
  exact { h with solver := hst, u := fun g => h.u (e.1 g), homo := fun g => h.homo (e.1 g) }

theorem setEffectivePotential (h : Dilated one x A B) : Py.Rel (Dilated one x) A.setEffectivePotential B.setEffectivePotential := by
  unfold KS.setEffectivePotential
  rw [h.vext, h.vhxc, h.vnuc]
  refine (Py.Rel.need (R := fun y z => z = timesCols (energyScale x) y) _ fun _ => rfl).bind fun y y' hy =>
    (Py.Rel.need (R := fun y z => z = timesCols (energyScale x) y) _ fun _ => rfl).bind fun z z' hz => ?_
  subst hy hz
  have hv := timesCols_add (G := G) (energyScale x) A.vnuc y z
  rw [show (fun s k => timesCols (energyScale x) A.vnuc s k + timesCols (energyScale x) y s k + timesCols (energyScale x) z s k) = _ from hv]
  refine Py.Rel.bind (distribute _ h.solver).and_ok fun s t hst => .pure ?_
  have h1 := h.withSolver hst.1 (occupation_distribute _ hst.2)
  exact { h1 with veff := rfl, vnuc := rfl, vext := rfl, vhxc := rfl }

theorem rawHxc (h : Dilated one x A B) : Py.Rel (Dilated one x) (KS.rawHxc F A) (KS.rawHxc F' B) := by
  unfold KS.rawHxc
  rw [h.kind.1, h.kind.2]
  exact .pure { h with kind := ⟨rfl, rfl⟩, vhxc := congrArg some (timesCols_zero (G := G) _).symm }

theorem calcHxc (h : Dilated one x A B) : Py.Rel (Dilated one x) (A.calcHxc F) (B.calcHxc F') := by
  unfold KS.calcHxc
  refine (h.rawHxc).bind fun A B h => ?_
  rw [h.vhxc]
  refine (Py.Rel.need (R := fun y z => z = timesCols (energyScale x) y) _ fun _ => rfl).bind fun v v' hv => .pure ?_
  subst hv
  rw [h.sym]
  split
  · exact { h with sym := rfl, vhxc := congrArg some (timesCols_symmetrised (G := G) _ v) }
  · exact h

theorem collect {d : Fin r × Fin c → Option (Found G)} {d' : Fin r × Fin c → Option (Found (dilate x G))}
    (hd : ∀ w, DilatedFound x (d w) (d' w)) {s : Fin r × Fin c → Solver G} {t : Fin r × Fin c → Solver (dilate x G)}
    (h : ∀ w, DilatedSolver x (s w) (t w)) :
    Py.Rel (fun s t => ∀ w, DilatedSolver x (s w) (t w)) (KS.collect d s) (KS.collect d' t) := by
  unfold KS.collect
  refine Py.Rel.mapDilated (fun w y z hyz => ?_) h
  have := hd w
  revert this
  generalize d w = a
  generalize d' w = b
  intro h
  cases h with
  | none => exact .error _
  | some h => exact .ok { hyz with eig := rfl, phi := h }

theorem sumDensities (hx : 0 < x) {s : Fin r × Fin c → Solver G} {t : Fin r × Fin c → Solver (dilate x G)}
    (h : ∀ w, DilatedSolver x (s w) (t w)) :
    Py.Rel (fun n n' => n' = timesCols (densityScale x) n) (KS.sumDensities p s) (KS.sumDensities (G := dilate x G) p t) := by
  unfold KS.sumDensities
  refine Py.Rel.foldlM (R := fun n n' => n' = timesCols (densityScale x) n) _ (fun a b w hab => ?_) _ _ (timesCols_zero (G := G) _).symm
  refine ((h w).calcDensity hx).bind fun n n' hn => ?_
  subst hn hab
  split
  · refine .pure ?_
    funext q k
    by_cases hq : q = ⟨w.2.1, by assumption⟩
    · subst hq
      simp only [Function.update_self, timesCols, mul_add]
    · simp only [Function.update_of_ne hq, timesCols]
  · exact .error _

theorem calcDensity (hx : 0 < x) {d : Fin r × Fin c → Option (Found G)} {d' : Fin r × Fin c → Option (Found (dilate x G))}
    (hd : ∀ w, DilatedFound x (d w) (d' w)) (h : Dilated one x A B) :
    Py.Rel (fun y z => Dilated one x y.1 z.1 ∧ z.2 = timesCols (densityScale x) y.2) (A.calcDensity d) (B.calcDensity d') := by
  unfold KS.calcDensity
  refine (collect hd h.solver).and_ok.bind fun s t hst => (Dilated.sumDensities hx hst.1).bind fun n n' hn =>
    .pure ⟨h.withSolver hst.1 (occupation_collect _ hst.2), ?_⟩
  subst hn
  rw [h.sym]
  dsimp only
  split
  · exact timesCols_symmetrised (G := G) _ n
  · rfl

theorem solverEnergies (hx : 0 < x) {s : Fin r × Fin c → Solver G} {t : Fin r × Fin c → Solver (dilate x G)}
    (h : ∀ w, DilatedSolver x (s w) (t w)) :
    Py.Rel (fun y z => z.1 = (fun j => times (energyScale x) (y.1 j)) ∧ z.2.1 = times (energyScale x) y.2.1 ∧
      z.2.2.2 = y.2.2.2.map (energyScale x * ·)) (KS.solverEnergies p s) (KS.solverEnergies p t) := by
  unfold KS.solverEnergies
  refine Py.Rel.foldlM (R := fun (y z : (Fin p → Fl K) × Fl K × (Fin p → Fl K) × List K) =>
    z.1 = (fun j => times (energyScale x) (y.1 j)) ∧ z.2.1 = times (energyScale x) y.2.1 ∧
      z.2.2.2 = y.2.2.2.map (energyScale x * ·)) _ (fun a b w hab => ?_) _ _ ?_
  · obtain ⟨h1, h2, h3⟩ := hab
    refine ((h w).calcEnergy hx).bind fun e e' he => ?_
    rw [(h w).eig]
    refine (Py.Rel.need (R := fun y z => z = y.map (energyScale x * ·)) _ fun _ => rfl).bind fun l l' hl => ?_
    subst hl
    have hs := energyScale_pos hx
    split
    · refine .pure ⟨?_, ?_, ?_⟩
      · funext q
        dsimp only
        by_cases hq : q = ⟨w.2.1, by assumption⟩
        · subst hq
          simp only [Function.update_self]
          rw [h1, he.1, times_add _ hs]
        · simp only [Function.update_of_ne hq]
          rw [h1]
      · dsimp only
        rw [h2, he.2, times_add _ hs]
      · dsimp only
        rw [h3, List.map_append]
    · exact .error _
  · refine ⟨?_, ?_, rfl⟩
    · funext j
      simp only [times, mul_zero]
    · simp only [times, mul_zero]

theorem energy (hx : 0 < x) (h : Dilated one x A B) : Py.Rel (Dilated one x) (A.energy F) (B.energy F') := by
  unfold KS.energy
  refine (Dilated.solverEnergies hx h.solver).bind fun y z hyz => ?_
  obtain ⟨Eks, Ts, Vks, evals⟩ := y
  obtain ⟨Eks', Ts', Vks', evals'⟩ := z
  obtain ⟨rfl, rfl, rfl⟩ := hyz
  rw [h.kind.1, h.kind.2]
  have hV : B.Za * B.Zb / (2 * B.a) = densityScale x * (A.Za * A.Zb / (2 * A.a)) := by
    rw [h.Za, h.Zb, h.a, densityScale, div_mul_div_comm, div_div, ← div_eq_inv_mul, div_div]
    congr 1
    ring
  have hs := energyScale_pos hx
  simp only [hV, h.n, h.vext, h.vnuc]
  refine (Py.Rel.need (R := fun y z => z = timesCols (densityScale x) y) _ fun _ => rfl).bind fun n n' hn =>
    (Py.Rel.need (R := fun y z => z = timesCols (energyScale x) y) _ fun _ => rfl).bind fun v v' hv => .pure ?_
  subst hn hv
  refine { h with kind := ⟨rfl, rfl⟩, vnuc := rfl, vext := rfl, n := rfl, E := .inr ⟨_, _, rfl, rfl, ?_⟩ }
  have e1 := inner_dilate hx n A.vnuc
  have e2 := inner_dilate hx n v
  refine ⟨rfl, rfl, rfl, e1, e2, ?_, rfl, fun g => ?_⟩
  · dsimp only
    rw [times_add _ hs, e1]
    rfl
  · dsimp only
    rw [times_add _ hs, times_add _ hs, e1, h.single g, zero_div, mul_zero]
    simp only [times, mul_zero]

theorem pyMax_map (y : K) (hy : 0 < y) (l : List K) : pyMax (l.map (y * ·)) = (pyMax l).map (y * ·) := by
  cases l with
  | nil => rfl
  | cons a l =>
    simp only [pyMax, List.map_cons, List.foldl_map, Except.map]
    congr 1
    induction l generalizing a with
    | nil => rfl
    | cons b l ih =>
      simp only [List.foldl_cons, mul_lt_mul_iff_right₀ hy]
      rw [← ih]
      split <;> rfl

theorem calcChempot (hx : 0 < x) (h : Dilated one x A B) : Py.Rel (Dilated one x) A.calcChempot B.calcChempot := by
  unfold KS.calcChempot
  have e : ∀ w, Py.Rel (fun y z => AllOccupied A → z = energyScale x * y) (A.solver w).getHomo (B.solver w).getHomo :=
    fun w => (h.solver w).getHomo.mono fun y z hyz g => hyz (g w)
  refine (Py.Rel.mapM e _).bind fun l l' hl => ?_
  have hu : Py.Rel (fun y z => AllOccupied A → z = energyScale x * y) (pyMax l) (pyMax l') := by
    by_cases g : AllOccupied A
    · have : l' = l.map (energyScale x * ·) := by
        induction hl with
        | nil => rfl
        | cons h _ ih => rw [List.map_cons, ← ih, h g]
      subst this
      exact .of_map _ (fun _ _ => rfl) (pyMax_map _ (energyScale_pos hx) l)
    · cases hl with
      | nil => exact .error _
      | cons _ _ => exact .ok fun g' => (g g').elim
  refine hu.bind fun u u' hu => .pure ?_
  refine { h with u := fun g => congrArg some (hu g), homo := fun g w => ?_ }
  have := e w
  dsimp only
  revert this
  generalize (A.solver w).getHomo = y
  generalize (B.solver w).getHomo = z
  intro h
  cases h with
  | error e => rfl
  | ok h => exact congrArg some (h g)

theorem potential (h : Dilated one x A B) : Py.Rel (Dilated one x) (KsScf.potential F A) (KsScf.potential F' B) := by
  unfold KsScf.potential
  refine h.calcHxc.bind fun A B h => ?_
  rw [h.vext, h.vhxc, h.vnuc]
  refine (Py.Rel.need (R := fun y z => z = timesCols (energyScale x) y) _ fun _ => rfl).bind fun y y' hy =>
    (Py.Rel.need (R := fun y z => z = timesCols (energyScale x) y) _ fun _ => rfl).bind fun z z' hz => ?_
  subst hy hz
  have hv := timesCols_add (G := G) (energyScale x) A.vnuc y z
  rw [show (fun s k => timesCols (energyScale x) A.vnuc s k + timesCols (energyScale x) y s k + timesCols (energyScale x) z s k) = _ from hv]
  refine Py.Rel.bind (distribute _ h.solver).and_ok fun s t hst => .pure ?_
  have h1 := h.withSolver hst.1 (occupation_distribute _ hst.2)
  exact { h1 with veff := rfl, vnuc := rfl, vext := rfl, vhxc := rfl }

theorem flipPotential (h : Dilated one x A B) : Dilated one x (KsScf.flipPotential o A) (KsScf.flipPotential o B) := by
  unfold KsScf.flipPotential
  split
  · refine { h with veff := ?_ }
    dsimp only
    rw [h.veff]
    cases A.veff with
    | none => rfl
    | some v => exact congrArg some (timesCols_spinSymmetrised (G := G) _ v)
  · exact h

theorem density (hx : 0 < x) (hW : DilatedWorkers one x W W') (diff : Fl K) (h : Dilated one x A B) :
    Py.Rel (Dilated one x) (KsScf.density W o diff A) (KsScf.density W' o diff B) := by
  unfold KsScf.density
  refine Py.Rel.bind (h.calcDensity hx (hW A B h _)) fun y z hyz => ?_
  obtain ⟨h1, h2⟩ := hyz
  obtain ⟨A', n⟩ := y
  obtain ⟨B', n'⟩ := z
  dsimp only at h1 h2 ⊢
  rw [h1.n]
  refine (Py.Rel.need (R := fun y z => z = timesCols (densityScale x) y) _ fun _ => rfl).bind fun m m' hm => .pure ?_
  subst hm h2
  refine { h1 with n := congrArg some ?_ }
  have e := timesCols_mix (G := G) (densityScale x) o.alpha m n
  split
  · exact (congrArg (spinSymmetrised (G := G)) e).trans (timesCols_spinSymmetrised (G := G) _ _)
  · exact e

end Spec.Dilated

theorem difN_dilate (hx : 0 < x) : ∀ {p : ℕ} (n m : G.Cols p),
    difN (G := dilate x G) (timesCols (densityScale x) n) (timesCols (densityScale x) m) = difN n m := by
  intro p n m
  have hd : 0 < densityScale x := by
    unfold densityScale
    positivity
  have e1 : (fun s k => |timesCols (densityScale x) n s k - timesCols (densityScale x) m s k|) =
      timesCols (densityScale x) fun s k => |n s k - m s k| := by
    funext s k
    simp only [timesCols]
    rw [← mul_sub, abs_mul, abs_of_pos hd]
  have e2 : (fun s k => |timesCols (densityScale x) n s k|) = timesCols (densityScale x) fun s k => |n s k| := by
    funext s k
    simp only [timesCols]
    rw [abs_mul, abs_of_pos hd]
  unfold difN
  rw [show (fun s (k : (dilate x G).Ix) => |timesCols (densityScale x) n s k - timesCols (densityScale x) m s k|) = _ from e1,
    show (fun s (k : (dilate x G).Ix) => |timesCols (densityScale x) n s k|) = _ from e2]
  generalize (fun s (k : G.Ix) => |n s k - m s k|) = f
  generalize (fun s (k : G.Ix) => |n s k|) = g
  have h1 : ∀ (j : G.Ix) (y : K), G.wi j * (x ^ 3 * G.w j) * (densityScale x * y) = G.wi j * G.w j * y := fun j y => by
    linear_combination G.wi j * G.w j * y * densityScale_mul hx
  match p, f, g with
  | 0, f, g => rfl
  | 1, f, g =>
    simp only [Grid.integrate, timesCols, h1]
  | p + 2, f, g =>
    simp only [Grid.integrate, timesCols, h1]

/-- Loop states of the two calculations. -/
structure Spec.DilatedState (x : K) (S : State G r c p) (T : State (dilate x G) r c p) : Prop where
  ks : Dilated True x S.ks T.ks
  oldE : T.oldE = times (energyScale x) S.oldE
  oldN : T.oldN = timesCols (densityScale x) S.oldN
  diff : T.diff = S.diff

namespace Spec.Dilated
variable {A : KS G r c p} {B : KS (dilate x G) r c p} {F : Functionals G p} {F' : Functionals (dilate x G) p}
variable {W : Workers G r c p} {W' : Workers (dilate x G) r c p} {o : Options K}

theorem body (hx : 0 < x) (hW : DilatedWorkers True x W W') {S : State G r c p} {T : State (dilate x G) r c p}
    (h : DilatedState x S T) :
    Py.Rel (fun y z => DilatedState x y.1 z.1 ∧ z.2 = y.2) (KsScf.body F W o S) (KsScf.body F' W' o T) := by
  unfold KsScf.body
  rw [h.diff, h.oldE, h.oldN]
  refine h.ks.potential.bind fun A B h => (h.flipPotential.density hx hW _).bind fun A B h =>
    (h.energy hx).bind fun A B h => (h.calcChempot hx).bind fun A B h => ?_
  rw [h.n]
  refine (Py.Rel.need (R := fun y z => z = timesCols (densityScale x) y) _ fun _ => rfl).bind fun n n' hn => ?_
  have hE : Py.Rel (DilatedEnergy True x) (need A.E) (need B.E) := by
    rcases h.E with ⟨e1, e2⟩ | ⟨e, f, e1, e2, e3⟩
    · rw [e1, e2]
      exact .error _
    · rw [e1, e2]
      exact .ok e3
  refine hE.bind fun E E' hE => ?_
  subst hn
  have hs := energyScale_pos hx
  rw [difN_dilate hx, hE.E trivial, ← times_sub _ hs, times_ratio _ hs]
  refine (Py.Rel.of_eq rfl).bind fun d d' hd => .pure ?_
  subst hd
  exact ⟨⟨h, rfl, rfl, rfl⟩, rfl⟩

theorem start (hx : 0 < x) (hW : DilatedWorkers one x W W') (h : Dilated one x A B) :
    Py.Rel (Dilated one x) (KsScf.start W o A) (KsScf.start W' o B) := by
  unfold KsScf.start
  have z := timesCols_zero (G := G) (p := p) (energyScale x)
  have h0 : Dilated one x { A with vext := some (A.vext.getD fun _ _ => 0) } { B with vext := some (B.vext.getD fun _ _ => 0) } := by
    refine { h with vext := ?_ }
    dsimp only
    rw [h.vext]
    cases A.vext with
    | none => exact congrArg some z.symm
    | some v => rfl
  dsimp only
  split
  · have := h.n
    rw [this]
    refine (Py.Rel.need (R := fun y z => z = timesCols (densityScale x) y) _ fun _ => rfl).bind fun n n' hn => .pure ?_
    rw [← this]
    exact h0
  · have h1 : Dilated one x { A with vext := some (A.vext.getD fun _ _ => 0), vhxc := some fun _ _ => 0 }
      { B with vext := some (B.vext.getD fun _ _ => 0), vhxc := some fun _ _ => 0 } := { h0 with vhxc := congrArg some z.symm }
    refine h1.setEffectivePotential.bind fun A B h => (h.calcDensity hx (hW A B h _)).bind fun y z hyz => .pure ?_
    obtain ⟨h2, h3⟩ := hyz
    exact { h2 with n := congrArg some h3 }

end Spec.Dilated

/-- C114: `scf` of the dilated one-nucleus object does the same as `scf` of the original: the same exception, or the scaled
energies, levels, densities and chemical potential, after the same number of passes with the same relative changes. -/
theorem C114_scf (hx : 0 < x) {F : Functionals G p} {F' : Functionals (dilate x G) p} {W : Workers G r c p} {W' : Workers (dilate x G) r c p}
    (hW : DilatedWorkers True x W W') (o : Options K) {A : KS G r c p} {B : KS (dilate x G) r c p} (h : Dilated True x A B) :
    Py.Rel (fun y z => Dilated True x y.1 z.1 ∧ z.2 = y.2) (scf F W o A) (scf F' W' o B) := by
  unfold scf
  refine (h.start hx hW).bind fun A B h => ?_
  unfold run
  refine Py.Rel.bind (Py.Rel.loop (R := DilatedState x) _ _ (fun S T h => Spec.Dilated.body hx hW h) _ _ _ _
    ⟨h, ?_, (timesCols_zero (G := G) _).symm, rfl⟩) fun y z hyz => .pure ⟨hyz.1.ks, ?_⟩
  · simp only [times, mul_zero]
  · exact hyz.2

/-- C114 (any number of nuclei): `energy` of the dilated object returns the scaled energies; the repulsion of the nuclei is divided by
`x³` instead of `x²`. -/
theorem C114_energy (hx : 0 < x) {F : Functionals G p} {F' : Functionals (dilate x G) p} {A : KS G r c p} {B : KS (dilate x G) r c p}
    (h : Dilated one x A B) : Py.Rel (Dilated one x) (A.energy F) (B.energy F') := h.energy hx

theorem KS.energy_total {F : Functionals G p} {A A' : KS G r c p} (h : A.energy F = .ok A') :
    ∃ e, A'.E = some e ∧ e.Vnn = A.Za * A.Zb / (2 * A.a) ∧ e.E = Fl.add e.Et (.fin e.Vnn) := by
  unfold KS.energy at h
  rw [Py.do_eq_ok] at h
  obtain ⟨⟨Eks, Ts, Vks, evals⟩, -, h⟩ := h
  dsimp only at h
  split at h
  · rw [Py.do_eq_ok] at h
    obtain ⟨n, -, h⟩ := h
    rw [Py.do_eq_ok] at h
    obtain ⟨v, -, h⟩ := h
    obtain rfl := Py.pure_eq_ok.1 h
    exact ⟨_, rfl, rfl, rfl⟩
  · rw [Py.do_eq_ok] at h
    obtain ⟨n, -, h⟩ := h
    rw [Py.do_eq_ok] at h
    obtain ⟨v, -, h⟩ := h
    rw [Py.do_eq_ok] at h
    obtain ⟨v1, -, h⟩ := h
    rw [Py.do_eq_ok] at h
    obtain ⟨v2, -, h⟩ := h
    rw [Py.do_eq_ok] at h
    obtain ⟨v3, -, h⟩ := h
    rw [Py.do_eq_ok] at h
    obtain ⟨⟨x1, x2, x3⟩, -, h⟩ := h
    dsimp only at h
    rw [Py.do_eq_ok] at h
    obtain ⟨⟨y1, y2, y3⟩, -, h⟩ := h
    obtain rfl := Py.pure_eq_ok.1 h
    exact ⟨_, rfl, rfl, rfl⟩

/-- C114: with two nuclei the total energy does not scale, although the electronic energy does. -/
theorem C114_refuted_repulsion (hx : 0 < x) (hx1 : x ≠ 1) {F : Functionals G p} {F' : Functionals (dilate x G) p} {A A' : KS G r c p}
    {B B' : KS (dilate x G) r c p} (h : Dilated False x A B) (ha : A.a ≠ 0) (hZ : A.Za * A.Zb ≠ 0) (hA : A.energy F = .ok A')
    (hB : B.energy F' = .ok B') {e e' : KSEnergy K p} (he : A'.E = some e) (he' : B'.E = some e') {t : K} (ht : e.Et = .fin t) :
    e'.Et = times (energyScale x) e.Et ∧ e'.E ≠ times (energyScale x) e.E := by
  obtain ⟨B1, hB1, h1⟩ := (C114_energy hx h).ok_left hA
  obtain rfl : B' = B1 := Except.ok.inj (hB.symm.trans hB1)
  obtain ⟨e1, he1, hV, hE⟩ := KS.energy_total hA
  obtain ⟨e2, he2, -, hE'⟩ := KS.energy_total hB
  obtain rfl : e = e1 := Option.some.inj (he.symm.trans he1)
  obtain rfl : e' = e2 := Option.some.inj (he'.symm.trans he2)
  rcases h1.E with ⟨h0, -⟩ | ⟨e1, e2, h2, h3, h4⟩
  · rw [he] at h0
    cases h0
  obtain rfl : e = e1 := Option.some.inj (he.symm.trans h2)
  obtain rfl : e' = e2 := Option.some.inj (he'.symm.trans h3)
  refine ⟨h4.Et, fun hc => ?_⟩
  rw [hE', hE, h4.Et, h4.Vnn, ht] at hc
  simp only [times, Fl.add, Fl.fin.injEq, mul_add, add_right_inj] at hc
  have hV0 : e.Vnn ≠ 0 := by
    rw [hV]
    exact div_ne_zero hZ (mul_ne_zero two_ne_zero ha)
  have := mul_right_cancel₀ hV0 hc
  unfold densityScale energyScale at this
  have h5 : x ^ 3 = x ^ 2 := inv_injective this
  have h6 : x ^ 2 * (x - 1) = 0 := by linear_combination h5
  rcases mul_eq_zero.1 h6 with h6 | h6
  · exact hx.ne' (pow_eq_zero_iff two_ne_zero |>.1 h6)
  · exact hx1 (sub_eq_zero.1 h6)

section RealGrid
open FD Init Ops Libxc Hartree

/-- C114: the coordinates and what is tabulated with them, as the distance between the nuclei grows. -/
theorem C114_grid (Na Nr : ℕ) (a L x : ℝ) (Za Zb : ℝ) (k : Fin (Na * Nr)) :
    Init.Z Na Nr (x * a) L k = x * Init.Z Na Nr a L k ∧ Init.Y Na Nr (x * a) L k = x * Init.Y Na Nr a L k ∧
    Init.w Na Nr (x * a) L k = x ^ 3 * Init.w Na Nr a L k ∧ Init.f Na Nr (x * a) L k = (x ^ 2)⁻¹ * Init.f Na Nr a L k ∧
    Init.h1 Na Nr (x * a) L k = x * Init.h1 Na Nr a L k ∧ Init.h3 Na Nr (x * a) L k = x * Init.h3 Na Nr a L k ∧
    coulomb Na Nr (x * a) L (Za / x) (Zb / x) k = (x ^ 2)⁻¹ * coulomb Na Nr a L Za Zb k := by
  refine ⟨?_, ?_, ?_, ?_, ?_, ?_, ?_⟩
  · simp only [Init.Z, mir_apply]
    ring
  · simp only [Init.Y, mir_apply]
    ring
  · simp only [Init.w, mir_apply]
    ring
  · simp only [Init.f, mir_apply]
    ring
  · simp only [Init.h1, mir_apply]
    ring
  · simp only [Init.h3, mir_apply]
    ring
  · simp only [coulomb]
    ring

/-- The operators on the dilated grid: first derivatives are divided by `x`, the Laplacian is stored times the volume element. -/
noncomputable def Spec.dilateOps {Na Nr b : ℕ} (x : ℝ) (R : Result ℝ Na Nr b) : Result ℝ Na Nr b where
  gradr := x⁻¹ • R.gradr
  grada := x⁻¹ • R.grada
  diva := x⁻¹ • R.diva
  divr := x⁻¹ • R.divr
  elap := x • R.elap
  olap := x • R.olap
  blap := x • R.blap

theorem diag_smul {n : ℕ} (y : ℝ) (d : Fin n → ℝ) : Ops.diag (fun k => y * d k) = y • Ops.diag d := by
  ext i j
  simp only [Ops.diag, Matrix.smul_apply, smul_eq_mul]
  split <;> simp

theorem kron_smul_right {Na Nr m : ℕ} (y : ℝ) (A : Matrix (Fin Nr) (Fin m) ℝ) (B : Matrix (Fin Na) (Fin Na) ℝ) :
    kron A (y • B) = y • kron A B := by
  ext i j
  simp only [kron, Matrix.smul_apply, smul_eq_mul]
  ring

theorem kron_smul_left {Na Nr m : ℕ} (y : ℝ) (A : Matrix (Fin Nr) (Fin m) ℝ) (B : Matrix (Fin Na) (Fin Na) ℝ) :
    kron (y • A) B = y • kron A B := by
  ext i j
  simp only [kron, Matrix.smul_apply, smul_eq_mul]
  ring

/-- C114: building the operators for the dilated grid gives the scaled operators, or the same exception. -/
theorem C114_operators {Nd : ℕ} (Na Nr b : ℕ) (a L : ℝ) {x : ℝ} (hx : 0 < x) (id : Fin Nd → ℤ) (ds1 ds2 : Fin Nd → ℝ) :
    build Na Nr b (x * a) L id ds1 ds2 = (build Na Nr b a L id ds1 ds2).map (dilateOps x) := by
  have h1x : ∀ k, Init.h1 Na Nr (x * a) L k = x * Init.h1 Na Nr a L k := fun k => (C114_grid Na Nr a L x 0 0 k).2.2.2.2.1
  have h3x : ∀ k, Init.h3 Na Nr (x * a) L k = x * Init.h3 Na Nr a L k := fun k => (C114_grid Na Nr a L x 0 0 k).2.2.2.2.2.1
  unfold build
  cases fd1 Na Nr b (ha Na) (hr Nr L) id ds1 with
  | error e => rfl
  | ok D =>
    cases fd2 Na Nr b (ha Na) (hr Nr L) id ds2 with
    | error e => rfl
    | ok E =>
      simp only [bind, Except.bind]
      split
      · simp only [pure, Except.pure, Except.map]
        congr 1
        have e1 : ∀ y : ℝ, 1 / (x * y) = x⁻¹ * (1 / y) := fun y => by
          rw [one_div, one_div, mul_inv]
        have e2 : ∀ y z : ℝ, 1 / (x ^ 2 * (y * y) * (x * z)) = (x ^ 3)⁻¹ * (1 / (y * y * z)) := fun y z => by
          rw [one_div, one_div, ← mul_inv]
          congr 1
          ring
        have e3 : ∀ y z : ℝ, x * y * (x * z) = x ^ 2 * (y * z) := fun y z => by ring
        have e4 : x ^ 2 * (x ^ 3)⁻¹ = x⁻¹ := by
          field_simp
        simp only [operators, realInput, dilateOps, angular, radial, h1x, h3x, e1, e2, e3, diag_smul, Matrix.smul_mul, Matrix.mul_smul,
          kron_smul_left, kron_smul_right, smul_smul, e4]
        simp only [mul_smul, smul_add]
      · rfl

/-- C114: the orbitals on the dilated grid are the same functions, with levels divided by `x²`. -/
theorem C114_orbitals {Na Nr b : ℕ} {a L x : ℝ} (hx : 0 < x) (R : Result ℝ Na Nr b) (pi ha hr : ℝ) (wi : Fin (Na * Nr) → ℝ)
    (m : ℕ) (v : Fin (Na * Nr) → ℝ) (e : ℝ) (φ : Fin (Na * Nr) → ℝ) :
    let G : Grid ℝ := ⟨Na, Nr, pi, ha, hr, wi, Init.w Na Nr a L⟩
    Orbital (G := dilate x G)
        (Solver.hamiltonian m (dilateOps x R).elap (dilateOps x R).olap (Init.w Na Nr (x * a) L) (Init.f Na Nr (x * a) L))
        (fun k => energyScale x * v k) (energyScale x * e) φ ↔
      Orbital (G := G) (Solver.hamiltonian m R.elap R.olap (Init.w Na Nr a L) (Init.f Na Nr a L)) v e φ := by
  intro G
  have hw : Init.w Na Nr (x * a) L = fun k => x ^ 3 * Init.w Na Nr a L k := funext fun k => (C114_grid Na Nr a L x 0 0 k).2.2.1
  have hf : Init.f Na Nr (x * a) L = fun k => (x ^ 2)⁻¹ * Init.f Na Nr a L k := funext fun k => (C114_grid Na Nr a L x 0 0 k).2.2.2.1
  have e0 : x ^ 3 * (x ^ 2)⁻¹ = x := by
    field_simp
  have hH : Solver.hamiltonian m (dilateOps x R).elap (dilateOps x R).olap (Init.w Na Nr (x * a) L) (Init.f Na Nr (x * a) L) =
      x • Solver.hamiltonian m R.elap R.olap (Init.w Na Nr a L) (Init.f Na Nr a L) := by
    unfold Solver.hamiltonian
    rw [hw, hf, diag_smul, diag_smul]
    have e1 : ((m : ℝ) ^ 2 • x ^ 3 • Ops.diag (Init.w Na Nr a L)) * ((x ^ 2)⁻¹ • Ops.diag (Init.f Na Nr a L)) =
        x • (((m : ℝ) ^ 2 • Ops.diag (Init.w Na Nr a L)) * Ops.diag (Init.f Na Nr a L)) := by
      simp only [Matrix.smul_mul, Matrix.mul_smul, smul_smul]
      congr 1
      linear_combination (m : ℝ) ^ 2 * e0
    rw [e1]
    simp only [dilateOps]
    split <;> rw [smul_add, smul_comm x]
  rw [hH]
  unfold Orbital Orbitals.hks
  refine and_congr Iff.rfl (forall_congr' fun k => ?_)
  have hdv : ∀ (d : Fin (Na * Nr) → ℝ) (u : Fin (Na * Nr) → ℝ), (Ops.diag d).mulVec u = fun q => d q * u q := fun d u => by
    funext q; exact sum_diag d u q
  rw [Matrix.add_mulVec, Matrix.add_mulVec, Pi.add_apply, Pi.add_apply, Matrix.smul_mulVec, Pi.smul_apply, hdv, hdv]
  have e2 : x ^ 3 * energyScale x = x := e0
  have : x * ((Solver.hamiltonian m R.elap R.olap (Init.w Na Nr a L) (Init.f Na Nr a L)).mulVec φ k) +
      x ^ 3 * Init.w Na Nr a L k * (energyScale x * v k) * φ k = energyScale x * e * (x ^ 3 * Init.w Na Nr a L k * φ k) ↔
    x * ((Solver.hamiltonian m R.elap R.olap (Init.w Na Nr a L) (Init.f Na Nr a L)).mulVec φ k +
      Init.w Na Nr a L k * v k * φ k) = x * (e * (Init.w Na Nr a L k * φ k)) := by
    constructor
    · intro h
      linear_combination h + (Init.w Na Nr a L k * φ k * (e - v k)) * e2
    · intro h
      linear_combination h - (Init.w Na Nr a L k * φ k * (e - v k)) * e2
  exact this.trans (mul_right_inj' hx.ne')

/-- C114: if the levels in question are not degenerate, solving the two eigenproblems gives scaled levels and the same orbitals. -/
theorem C114_workers {G : Grid ℝ} {x : ℝ} (hx : 0 < x) {Orb : ℝ → G.Fld → Prop} {Orb' : ℝ → (dilate x G).Fld → Prop}
    (hO : ∀ e φ, Orb' (energyScale x * e) φ ↔ Orb e φ) (n : ℕ) (y : Found G) (z : Found (dilate x G))
    (hy : LevelsSolved Orb n y) (hz : LevelsSolved Orb' n z)
    (hs : ∀ e ∈ y.1, ∀ φ ψ, Orb e φ → Orb e ψ → ∃ c : ℝ, c ≠ 0 ∧ ψ = fun k => c * φ k) :
    DilatedFound x (some y) (some z) := by
  have hp := energyScale_pos hx
  obtain ⟨e, l⟩ := y
  obtain ⟨e', l'⟩ := z
  obtain ⟨hl, l, rfl, hf⟩ := hy
  obtain ⟨hl', l', rfl, hf'⟩ := hz
  dsimp only at hl hl' hf hf' hs
  have hO' : ∀ e φ, Orb' e φ ↔ Orb ((energyScale x)⁻¹ * e) φ := fun e φ => by
    rw [← hO, mul_inv_cancel_left₀ hp.ne']
  have hsc : Lowest {e | ∃ φ, Orb' e φ} n (e.map (energyScale x * ·)) := by
    refine ⟨?_, ?_, ?_, ?_⟩
    · rw [List.length_map, hl.length]
    · exact hl.sorted.map _ fun a b hab => mul_lt_mul_of_pos_left hab hp
    · intro a ha
      obtain ⟨a, ha', rfl⟩ := List.mem_map.1 ha
      obtain ⟨φ, h⟩ := hl.mem a ha'
      exact ⟨φ, (hO a φ).2 h⟩
    · rintro a ⟨φ, ha⟩ hna b hb
      obtain ⟨b, hb', rfl⟩ := List.mem_map.1 hb
      have := hl.low _ ⟨φ, (hO' a φ).1 ha⟩ (fun h => hna (List.mem_map.2 ⟨_, h, mul_inv_cancel_left₀ hp.ne' a⟩)) b hb'
      have := mul_lt_mul_of_pos_left this hp
      rwa [mul_inv_cancel_left₀ hp.ne'] at this
  obtain rfl : e' = e.map (energyScale x * ·) := hl'.unique hsc
  refine .some (.some ?_)
  clear hl hl' hsc
  induction e generalizing l l' with
  | nil =>
    cases hf
    cases hf'
    exact .nil
  | cons a e ih =>
    cases hf with
    | cons h1 h2 =>
      rw [List.map_cons] at hf'
      cases hf' with
      | cons h1' h2' =>
        refine .cons ?_ (by apply ih <;> first | assumption | exact fun b hb => hs b (List.mem_cons_of_mem _ hb))
        obtain ⟨c, hc, h⟩ := hs a List.mem_cons_self _ _ h1 ((hO a _).1 h1')
        exact ⟨c, hc, h⟩

/-- The Hartree solver of the dilated grid. -/
noncomputable abbrev Spec.dilateH (x : ℝ) (H : HGrid) : HGrid := { H with a := x * H.a, blap := x • H.blap, Ulap := x • H.Ulap }

/-- C114: a factorisation of the Laplacian of the dilated grid. -/
theorem C114_factorise {n : ℕ} {x : ℝ} (hx : 0 < x) {A L U : Matrix (Fin n) (Fin n) ℝ} {pr pc : Equiv.Perm (Fin n)} (h : IsSplu A pr pc L U) :
    IsSplu (x • A) pr pc L (x • U) where
  fact i j := by rw [Matrix.mul_smul, Matrix.smul_apply, Matrix.smul_apply, h.fact]
  lower := h.lower
  unit := h.unit
  upper i j hij := by rw [Matrix.smul_apply, h.upper i j hij, smul_zero]
  nonsing i := smul_ne_zero hx.ne' (h.nonsing i)
  pivot := h.pivot

/-- C114: the Hartree potential of the dilated density is divided by `x`. -/
theorem C114_hartree (H : HGrid) {A : Matrix (Fin (H.Na * H.Nr)) (Fin (H.Na * H.Nr)) ℝ} {pr pc : Equiv.Perm (Fin (H.Na * H.Nr))}
    (hlu : IsSplu A pr pc H.Llap H.Ulap) {x : ℝ} (hx : 0 < x) {p : ℕ} (n : Fin p → H.Fld) :
    (dilateH x H).vHartree p (timesCols (densityScale x) n) = (H.vHartree p n).map (timesCols x⁻¹) := by
  have hw : ∀ k, Init.w H.Na H.Nr (x * H.a) H.L k = x ^ 3 * Init.w H.Na H.Nr H.a H.L k := fun k => (C114_grid H.Na H.Nr H.a H.L x 0 0 k).2.2.1
  have hint : ∀ f : H.Fld, (dilateH x H).grid.integ f = x ^ 3 * H.grid.integ f := fun f => by
    rw [← integ_dilate]
    simp only [Grid.integ, hw]
  have hd := densityScale_mul hx
  have hq : ∀ y z : ℝ, x * y / (x * z) = y / z := fun y z => mul_div_mul_left _ _ hx.ne'
  have hrho : ∀ k, (dilateH x H).rho k = x * H.rho k := fun k => by
    simp only [HGrid.rho, dilateH]
    ring
  have hZ : ∀ k, (dilateH x H).Z k = x * H.Z k := fun k => by
    simp only [HGrid.Z, dilateH]
    ring
  have hbrho : ∀ k, (dilateH x H).brho k = x * H.brho k := fun k => by
    simp only [HGrid.brho, dilateH]
    ring_nf
    rfl
  have hbZ : ∀ k, (dilateH x H).bZ k = x * H.bZ k := fun k => by
    simp only [HGrid.bZ, dilateH]
    ring_nf
    rfl
  have hQ : ∀ (m : ℕ) (n : H.Fld), (dilateH x H).grid.integ (fun k => (dilateH x H).rho k ^ m * legendre m ((dilateH x H).Z k / (dilateH x H).rho k) *
      (densityScale x * n k)) = x ^ m * H.grid.integ fun k => H.rho k ^ m * legendre m (H.Z k / H.rho k) * n k := fun m n => by
    simp only [hrho, hZ, hq]
    rw [hint, ← H.grid.integ_smul, ← H.grid.integ_smul]
    congr 1
    funext k
    rw [mul_pow]
    linear_combination x ^ m * H.rho k ^ m * legendre m (H.Z k / H.rho k) * n k * hd
  have hQ0 : ∀ n : H.Fld, (dilateH x H).grid.integ (fun k => legendre 0 ((dilateH x H).Z k / (dilateH x H).rho k) * (densityScale x * n k)) =
      H.grid.integ fun k => legendre 0 (H.Z k / H.rho k) * n k := fun n => by
    have := hQ 0 n
    simpa only [pow_zero, one_mul] using this
  have hb : ∀ n : H.Fld, (dilateH x H).bVh (fun k => densityScale x * n k) = fun k => x⁻¹ * H.bVh n k := fun n => by
    unfold HGrid.bVh
    dsimp only
    rw [hQ0]
    simp only [hQ, hbrho, hbZ, hq]
    have key : ∀ (l : List ℕ) (f : H.BFld), l.foldl (fun (acc : H.BFld) m k => acc k +
        (x ^ (m + 1) * H.grid.integ fun k => H.rho k ^ (m + 1) * legendre (m + 1) (H.Z k / H.rho k) * n k) *
          ((x * H.brho k) ^ (m + 1 + 1))⁻¹ * legendre (m + 1) (H.bZ k / H.brho k)) (fun k => x⁻¹ * f k) =
        fun k => x⁻¹ * l.foldl (fun (acc : H.BFld) m k => acc k +
          (H.grid.integ fun k => H.rho k ^ (m + 1) * legendre (m + 1) (H.Z k / H.rho k) * n k) *
            (H.brho k ^ (m + 1 + 1))⁻¹ * legendre (m + 1) (H.bZ k / H.brho k)) f k := by
      intro l
      induction l with
      | nil => exact fun f => rfl
      | cons m l ih =>
        intro f
        rw [List.foldl_cons, List.foldl_cons, ← ih]
        congr 1
        funext k
        have : x ^ (m + 1) * (x ^ (m + 1 + 1))⁻¹ = x⁻¹ := by
          rw [pow_succ x (m + 1)]
          field_simp
        rw [mul_pow, mul_inv]
        linear_combination (H.grid.integ fun k => H.rho k ^ (m + 1) * legendre (m + 1) (H.Z k / H.rho k) * n k) *
          (H.brho k ^ (m + 1 + 1))⁻¹ * legendre (m + 1) (H.bZ k / H.brho k) * this
    refine Eq.trans ?_ (key _ _)
    congr 1
    funext k
    rw [mul_inv]
    ring
  have hs : ∀ n : H.Fld, (dilateH x H).source (fun k => densityScale x * n k) = H.source n := fun n => by
    unfold HGrid.source
    rw [hb]
    funext k
    have e1 : ((dilateH x H).blap.mulVec fun k => x⁻¹ * H.bVh n k) = H.blap.mulVec (H.bVh n) := by
      have : (fun k => x⁻¹ * H.bVh n k) = x⁻¹ • H.bVh n := rfl
      rw [this]
      simp only [dilateH]
      rw [Matrix.mulVec_smul, Matrix.smul_mulVec, smul_smul, inv_mul_cancel₀ hx.ne', one_smul]
    rw [e1]
    have e2 : Init.w (dilateH x H).Na (dilateH x H).Nr (dilateH x H).a (dilateH x H).L k = x ^ 3 * Init.w H.Na H.Nr H.a H.L k := hw k
    dsimp only
    rw [e2]
    congr 1
    linear_combination (-4) * Real.pi * Init.w H.Na H.Nr H.a H.L k * n k * hd
  have hsol : ∀ b : H.Fld, (dilateH x H).solve b = fun k => x⁻¹ * H.solve b k := fun b => by
    unfold HGrid.solve
    have : (x • H.Ulap)⁻¹ = x⁻¹ • H.Ulap⁻¹ :=
      Matrix.inv_smul' _ (Units.mk0 x hx.ne') (det_upper hlu.upper hlu.nonsing).isUnit
    rw [this, Matrix.smul_mulVec]
    rfl
  have hsum : (fun k => ∑ s, timesCols (densityScale x) n s k) = fun k => densityScale x * ∑ s, n s k := by
    funext k
    rw [Finset.mul_sum]
    rfl
  match p, n with
  | 0, n => rfl
  | 1, n => exact congrArg Except.ok (by funext s; rw [hsum, hs, hsol]; rfl)
  | 2, n => exact congrArg Except.ok (by funext s; rw [hsum, hs, hsol]; rfl)
  | p + 3, n =>
    refine congrArg Except.ok ?_
    funext s
    rw [hsum, hs, hsol]
    dsimp only
    split
    · rename_i h
      funext k
      simp only [timesCols, h, if_true]
    · rename_i h
      funext k
      simp only [timesCols, h, if_false, mul_zero]

end RealGrid

/-- C114: the constructor with the divided charges and the dilated grid returns the dilated object. -/
theorem C114_init (lower : String → String) (coerce : Opt.Kind → Opt.Val → Option Opt.Val) (G : Grid K) {x : K}
    (coul : K → K → G.Fld) (coul' : K → K → (dilate x G).Fld) (a : K) {r c r' c' : ℕ} (p : ℕ) (Za Zb : K)
    (hcoul : coul' (Za / x) (Zb / x) = fun k => energyScale x * coul Za Zb k) (hZ : one → Za * Zb = 0)
    (Nmo : Fin r × Fin c → ℕ) (N : Fin r' × Fin c' → K) (opt : Opt.Dict) :
    Py.Rel (fun A B => A.kind = .ni → Dilated one x A B) (KS.init lower coerce G coul a p Za Zb Nmo N opt)
      (KS.init lower coerce (dilate x G) coul' (x * a) p (Za / x) (Zb / x) Nmo N opt) := by
  unfold KS.init
  refine (Py.Rel.of_eq rfl).bind fun y z hyz => ?_
  subst hyz
  split
  · have hp : Py.Rel (fun t t' => ∀ w, (∀ s, t w = some s → ∃ s', t' w = some s' ∧ DilatedSolver x s s') ∧ (t w = none → t' w = none))
        (pssolver lower coerce G Nmo N (Opt.solverDict y)) (pssolver lower coerce (dilate x G) Nmo N (Opt.solverDict y)) := by
      unfold pssolver
      refine Py.Rel.foldlM (R := fun (t : Fin r × Fin c → Option (Solver G)) (t' : Fin r × Fin c → Option (Solver (dilate x G))) =>
        ∀ w, (∀ s, t w = some s → ∃ s', t' w = some s' ∧ DilatedSolver x s s') ∧ (t w = none → t' w = none)) _ (fun t t' w h => ?_) _ _
        fun w => ⟨fun s h => (by cases h), fun _ => rfl⟩
      refine (Py.Rel.of_eq rfl).bind fun n n' hn => ?_
      subst hn
      have hs : Py.Rel (DilatedSolver x) (Solver.init lower coerce G (Nmo w) n w.1.1 c (Opt.solverDict y))
          (Solver.init lower coerce (dilate x G) (Nmo w) n w.1.1 c (Opt.solverDict y)) := by
        unfold Solver.init
        refine (Py.Rel.of_eq rfl).bind fun z z' hz => ?_
        subst hz
        split
        · exact .error _
        · exact .pure ⟨rfl, rfl, rfl, rfl, rfl, rfl, rfl, rfl, .none⟩
      refine hs.bind fun s s' hss => .pure fun v => ?_
      by_cases hv : v = w
      · subst hv
        rw [Function.update_self, Function.update_self]
        refine ⟨fun q hq => ?_, fun h => nomatch h⟩
        obtain rfl := Option.some.inj hq
        exact ⟨s', rfl, hss⟩
      · rw [Function.update_of_ne hv, Function.update_of_ne hv]
        exact h v
    refine hp.bind fun t t' ht => ?_
    have hall : (∀ w, (t' w).isSome = true) ↔ ∀ w, (t w).isSome = true := by
      refine forall_congr' fun w => ?_
      cases hw : t w with
      | none =>
        rw [(ht w).2 hw]
        exact Iff.rfl
      | some s =>
        obtain ⟨s', hs', -⟩ := (ht w).1 s hw
        rw [hs']
        simp
    by_cases h : ∀ w, (t w).isSome = true
    · rw [dif_pos h, dif_pos (hall.2 h)]
      refine .pure fun hk => ⟨⟨hk, hk⟩, hZ, rfl, rfl, rfl, rfl, fun w => ?_, ?_, rfl, rfl, rfl, rfl, .inl ⟨rfl, rfl⟩, fun _ => rfl, fun _ _ => rfl⟩
      · obtain ⟨s', hs', h'⟩ := (ht w).1 _ (Option.some_get (h w)).symm
        have : (t' w).get (hall.2 h w) = s' := Option.some.inj ((Option.some_get _).trans hs')
        dsimp only
        rwa [this]
      · dsimp only
        unfold nuclearPotential
        rw [hcoul]
        dsimp only
        have e : (if p = 1 ∨ p = 2 then fun _ k => energyScale x * coul Za Zb k else fun _ _ => 0 : G.Cols p) =
            timesCols (energyScale x) (if p = 1 ∨ p = 2 then fun _ => coul Za Zb else fun _ _ => 0 : G.Cols p) := by
          split
          · rfl
          · exact (timesCols_zero (G := G) _).symm
        by_cases hy : Opt.flag y "sym" = true
        · rw [if_pos hy, if_pos hy]
          exact (congrArg (symmetrised (G := G)) e).trans (timesCols_symmetrised (G := G) _ _)
        · rw [if_neg hy, if_neg hy]
          exact e
    · rw [dif_neg h, dif_neg (fun h' => h (hall.1 h'))]
      exact .error _
  · exact .error _

section Example

/-- Two points. -/
abbrev C114_grid2 : Grid ℚ := { Na := 2, Nr := 1, pi := 1 / 2, ha := 1, hr := 1, wi := fun _ => 1, w := fun _ => 1 }

/-- Workers that return the potential as the orbital. -/
def C114_W (x : ℚ) : Workers (dilate x C114_grid2) 1 1 1 := fun ks _ w =>
  (ks.solver w).veff.map fun v => ([v (0 : Fin 2) + v (1 : Fin 2)], some [v])

def C114_W1 : Workers C114_grid2 1 1 1 := fun ks _ w =>
  (ks.solver w).veff.map fun v => ([v (0 : Fin 2) + v (1 : Fin 2)], some [v])

theorem C114_workers_example (x : ℚ) (hx : 0 < x) : DilatedWorkers True x C114_W1 (C114_W x) := by
  intro A B h b w
  unfold C114_W C114_W1
  rw [(h.solver w).veff]
  cases (A.solver w).veff with
  | none => exact .none
  | some v =>
    have e : energyScale x * v (0 : Fin 2) + energyScale x * v (1 : Fin 2) = energyScale x * (v (0 : Fin 2) + v (1 : Fin 2)) := by ring
    simp only [Option.map_some, e]
    exact .some (.some (.cons ⟨energyScale x, (energyScale_pos hx).ne', rfl⟩ .nil))

/-- `N` non-interacting electrons around one nucleus of charge `Z`. -/
def C114_ks (G : Grid ℚ) (N Z a : ℚ) : KS G 1 1 1 :=
  { kind := .ni, sym := false, Za := Z, Zb := 0, a, vnuc := fun _ k => if k.1 = 0 then -3 * Z / a else -Z / a
    solver := fun _ => { Nmo := 1, N, m := 0, pol := 1 } }

def C114_F (G : Grid ℚ) : Functionals G 1 := ⟨fun _ => .error .valueError, fun _ => .error .valueError, fun _ => .error .valueError⟩

theorem C114_dilated (N Z a x : ℚ) : Dilated True x (C114_ks C114_grid2 N Z a) (C114_ks (dilate x C114_grid2) N (Z / x) (x * a)) := by
  refine ⟨⟨rfl, rfl⟩, fun _ => mul_zero _, rfl, rfl, ?_, rfl, fun w => ⟨rfl, rfl, rfl, rfl, rfl, rfl, rfl, rfl, .none⟩, ?_, rfl, rfl, rfl, rfl,
    .inl ⟨rfl, rfl⟩, fun _ => rfl, fun _ _ => rfl⟩
  · exact (zero_div x).symm
  · funext s k
    simp only [C114_ks, timesCols, energyScale]
    split <;> ring

def C114_opt : Options ℚ := ⟨false, false, false, false, 10, 1 / 100, 1⟩

/-- Passes, density, total energy, chemical potential and `Vks`. -/
def C114_seen {G : Grid ℚ} (k : G.Ix) (y : Py (KS G 1 1 1 × List (Fl ℚ × Fl ℚ))) : Option ((ℕ × Option ℚ × Option (Fl ℚ)) × Option ℚ × Option (Fl ℚ)) :=
  y.toOption.map fun y => ((y.2.length, y.1.n.map fun n => n 0 k, y.1.E.map (·.E)), y.1.u, y.1.E.map fun e => e.Vks 0)

/-- The hypotheses can be met: two electrons at charge 4 and at charge 2 on the grid of twice the size, energy -32 and -8. -/
example : DilatedWorkers True 2 C114_W1 (C114_W 2) ∧
    Dilated True 2 (C114_ks C114_grid2 2 4 1) (C114_ks (dilate 2 C114_grid2) 2 (4 / 2) (2 * 1)) ∧
    C114_seen (G := C114_grid2) (0 : Fin 2) (scf (C114_F _) C114_W1 C114_opt (C114_ks C114_grid2 2 4 1)) =
      some ((2, some (9 / 5), some (.fin (-32))), some (-16), some (.fin (-112 / 5))) ∧
    C114_seen (G := dilate 2 C114_grid2) (0 : Fin 2) (scf (C114_F _) (C114_W 2) C114_opt (C114_ks _ 2 (4 / 2) (2 * 1))) =
      some ((2, some (9 / 40), some (.fin (-8))), some (-4), some (.fin (-28 / 5))) :=
  ⟨C114_workers_example 2 (by norm_num), C114_dilated 2 4 1 2, by decide +kernel, by decide +kernel⟩

/-- C114: the potential energy `Vks` of the solvers does not scale: on a grid of a thousandth of the size it exceeds the limit `10⁵` and is
recorded as zero. -/
theorem C114_refuted_cutoff : DilatedWorkers True (1 / 1000) C114_W1 (C114_W (1 / 1000)) ∧
    Dilated True (1 / 1000) (C114_ks C114_grid2 2 4 1) (C114_ks (dilate (1 / 1000) C114_grid2) 2 (4 / (1 / 1000)) (1 / 1000 * 1)) ∧
    (C114_seen (G := C114_grid2) (0 : Fin 2) (scf (C114_F _) C114_W1 C114_opt (C114_ks C114_grid2 2 4 1))).map (·.2.2) =
      some (some (.fin (-112 / 5))) ∧
    (C114_seen (G := dilate (1 / 1000) C114_grid2) (0 : Fin 2) (scf (C114_F _) (C114_W _) C114_opt
      (C114_ks _ 2 (4 / (1 / 1000)) (1 / 1000 * 1)))).map (·.2.2) = some (some (.fin 0)) :=
  ⟨C114_workers_example _ (by norm_num), C114_dilated 2 4 1 _, by decide +kernel, by decide +kernel⟩

/-- C114: the chemical potential recorded without electrons, `-2⁵²`, does not scale. -/
theorem C114_refuted_empty : Dilated True 2 (C114_ks C114_grid2 0 4 1) (C114_ks (dilate 2 C114_grid2) 0 (4 / 2) (2 * 1)) ∧
    (C114_seen (G := C114_grid2) (0 : Fin 2) (scf (C114_F _) C114_W1 C114_opt (C114_ks C114_grid2 0 4 1))).map (·.2.1) =
      some (some (-4503599627370496)) ∧
    (C114_seen (G := dilate 2 C114_grid2) (0 : Fin 2) (scf (C114_F _) (C114_W 2) C114_opt (C114_ks _ 0 (4 / 2) (2 * 1)))).map (·.2.1) =
      some (some (-4503599627370496)) :=
  ⟨C114_dilated 0 4 1 2, by decide +kernel, by decide +kernel⟩

end Example

end Verif
