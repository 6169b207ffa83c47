import Verif.Props.C62
import Verif.Props.C85
import Verif.Props.C86
import Verif.Lemmas.KsScfOk
import Verif.Model.Hartree

/-! # C93: a closed-shell system gives the same result with one and with two spin columns -/

namespace Verif
open Spec KS KsScf
variable {K : Type} [_root_.Field K] [LinearOrder K] [IsStrictOrderedRing K] [FloorRing K]
variable {G : Grid K} {r : ℕ}

/-- The same field for both spins. -/
def Spec.both (f : G.Cols 1) : G.Cols 2 := fun _ => f 0

/-- Half of the density in each spin. -/
def Spec.shared (n : G.Cols 1) : G.Cols 2 := fun _ k => n 0 k / 2

/-- A polarised solver with half of the electrons. -/
def Spec.halfSolver (s : Solver G) : Solver G := { s with N := s.N / 2, pol := 2 }

/-- Energies of the unpolarised (`e`) and the polarised (`f`) calculation. (`Vks` is compared in `C93_guard`.) -/
structure Spec.SplitEnergy (e : KSEnergy K 1) (f : KSEnergy K 2) : Prop where
  Eks : ∃ x, e.Eks 0 = .fin x ∧ ∀ s, f.Eks s = .fin (x / 2)
  Ts : f.Ts = e.Ts
  evals : f.evals.Perm (e.evals ++ e.evals)
  Enuc : f.Enuc = e.Enuc
  Vext : f.Vext = e.Vext
  Vhxc : f.Vhxc = e.Vhxc
  Eh : f.Eh = e.Eh
  Ex : f.Ex = e.Ex
  Ec : f.Ec = e.Ec
  Et : f.Et = e.Et
  Vnn : f.Vnn = e.Vnn
  E : f.E = e.E

/-- `B` is the polarised counterpart of the unpolarised `A`: half of the electrons and of the density in each spin,
everything else the same. -/
structure Spec.Split (A : KS G r 1 1) (B : KS G r 2 2) : Prop where
  kind : B.kind = A.kind
  sym : B.sym = A.sym
  Za : B.Za = A.Za
  Zb : B.Zb = A.Zb
  a : B.a = A.a
  pol : ∀ i, (A.solver (i, 0)).pol = 1
  solver : ∀ i j, B.solver (i, j) = halfSolver (A.solver (i, 0))
  vnuc : B.vnuc = both A.vnuc
  vext : B.vext = A.vext.map both
  vhxc : B.vhxc = A.vhxc.map both
  veff : B.veff = A.veff.map both
  n : B.n = A.n.map shared
  u : B.u = A.u
  homo : ∀ i j, B.homo (i, j) = A.homo (i, 0)
  V : B.V = ⟨A.V.vx.map both, A.V.vc.map both, A.V.vh.map both, A.V.ex, A.V.ec, A.V.eh⟩
  E : (A.E = none ∧ B.E = none) ∨ ∃ e f, A.E = some e ∧ B.E = some f ∧ SplitEnergy e f

/-- The polarised functionals restricted to equal spins are the unpolarised ones. -/
structure Spec.SplitFunctionals (F : Functionals G 1) (F' : Functionals G 2) : Prop where
  exchange : ∀ n, F'.exchange (shared n) = (F.exchange n).map fun x => (x.1, x.2.1, both x.2.2)
  correlation : ∀ n, F'.correlation (shared n) = (F.correlation n).map fun x => (x.1, x.2.1, both x.2.2)
  hartree : ∀ n, F'.hartree (shared n) = (F.hartree n).map both

/-- What a worker process finds depends on its own solver only, and not on the number of electrons or spins. -/
def Spec.PerSolver {c p : ℕ} (f : Bool → Solver G → Option (Found G)) (W : Workers G r c p) : Prop :=
  ∀ ks b w, W ks b w = f b { ks.solver w with N := 0, pol := 0 }

namespace Solver
variable (s : Solver G)

theorem half_occupation (h : s.pol = 1) : (halfSolver s).occupation = s.occupation := by
  unfold occupation halfSolver
  simp only [h, if_true]
  have e : s.N / 2 / 2 = s.N / 4 := by ring
  have h2 : ¬ (2 : ℕ) = 1 := by decide
  simp only [h2, if_false, e]

theorem half_scale (h : s.pol = 1) : (halfSolver s).scale = s.scale / 2 := by
  unfold scale halfSolver
  have h2 : ¬ (2 : ℕ) = 1 := by decide
  simp only [h, if_true, h2, if_false]
  split <;> norm_num

theorem half_density (h : s.pol = 1) {n : G.Fld} (hn : s.calcDensity = .ok n) :
    (halfSolver s).calcDensity = .ok fun k => n k / 2 := by
  unfold calcDensity at hn ⊢
  rw [half_occupation s h, half_scale s h]
  simp only [Py.do_eq_ok] at hn ⊢
  obtain ⟨a, ha, hn⟩ := hn
  refine ⟨a, ha, ?_⟩
  by_cases hf : s.fractional = true ∧ s.occupation.2 ≠ 0
  · rw [if_pos hf] at hn
    rw [if_pos (show (halfSolver s).fractional = true ∧ _ from hf)]
    simp only [Py.do_eq_ok, Py.pure_eq_ok, exists_eq_left'] at hn ⊢
    obtain ⟨x, hx, rfl⟩ := hn
    refine ⟨x, hx, ?_⟩
    funext k
    ring
  · rw [if_neg hf] at hn
    rw [if_neg (show ¬ ((halfSolver s).fractional = true ∧ _) from hf)]
    simp only [Py.do_eq_ok, Py.pure_eq_ok, exists_eq_left'] at hn ⊢
    subst hn
    funext k
    ring

theorem half_eks (h : s.pol = 1) {e : K} (he : s.calcEks = .ok e) : (halfSolver s).calcEks = .ok (e / 2) := by
  unfold calcEks at he ⊢
  rw [half_occupation s h, half_scale s h]
  simp only [Py.do_eq_ok] at he ⊢
  obtain ⟨a, ha, he⟩ := he
  refine ⟨a, ha, ?_⟩
  by_cases hf : s.fractional = true ∧ s.occupation.2 ≠ 0
  · rw [if_pos hf] at he
    rw [if_pos (show (halfSolver s).fractional = true ∧ _ from hf)]
    simp only [Py.do_eq_ok, Py.pure_eq_ok, exists_eq_left'] at he ⊢
    obtain ⟨x, hx, rfl⟩ := he
    exact ⟨x, hx, by ring⟩
  · rw [if_neg hf] at he
    rw [if_neg (show ¬ ((halfSolver s).fractional = true ∧ _) from hf)]
    simp only [Py.do_eq_ok, Py.pure_eq_ok, exists_eq_left'] at he ⊢
    subst he
    ring

theorem half_homo (h : s.pol = 1) : (halfSolver s).getHomo = s.getHomo := by
  unfold getHomo
  rw [half_occupation s h]
  rfl

theorem half_energy (h : s.pol = 1) {a b t : K} {n : G.Fld}
    (he : s.calcEnergy = .ok (⟨.fin a, .fin b, .fin t⟩, n)) :
    ∃ b', (halfSolver s).calcEnergy = .ok (⟨.fin (a / 2), .fin b', .fin (t / 2)⟩, fun k => n k / 2) := by
  obtain ⟨a', b', v, hv, h1, h2, h3, -⟩ := calcEnergy_fin he
  obtain ⟨rfl, rfl, rfl⟩ : a = a' ∧ b = b' ∧ t = a' - G.integ fun k => v k * n k := by
    simpa using h3
  have hi : (G.integ fun k => v k * (n k / 2)) = (G.integ fun k => v k * n k) / 2 := by
    have : (fun k => v k * (n k / 2)) = fun k => (1 / 2) * (v k * n k) := by funext k; ring
    rw [this, Grid.integ_smul]
    ring
  have : ∃ x, (halfSolver s).calcEnergy = .ok (x, fun k => n k / 2) := by
    unfold calcEnergy
    rw [half_eks s h h1, half_density s h h2]
    simp only [bind, Except.bind, show (halfSolver s).veff = some v from hv]
    exact ⟨_, rfl⟩
  obtain ⟨x, hx⟩ := this
  obtain ⟨c, d, v', hv', g1, g2, rfl, -⟩ := calcEnergy_fin hx
  have e1 : v' = v := by
    have : (halfSolver s).veff = some v := hv
    rw [hv'] at this
    exact Option.some.inj this
  have e2 : c = a / 2 := by
    rw [half_eks s h h1] at g1
    exact (Except.ok.inj g1).symm
  subst e1 e2
  refine ⟨d, hx.trans ?_⟩
  rw [hi]
  congr 4
  ring

end Solver

theorem sum_shared (n : G.Cols 1) (k : G.Ix) : ∑ s, shared n s k = ∑ s, n s k := by
  simp only [Fin.sum_univ_two, Finset.univ_unique, Fin.default_eq_zero, Finset.sum_singleton, shared]
  ring

theorem inner_both (n v : G.Cols 1) : KS.inner (shared n) (both v) = KS.inner n v := by
  unfold KS.inner
  congr 1
  funext k
  simp only [Fin.sum_univ_two, Finset.univ_unique, Fin.default_eq_zero, Finset.sum_singleton, shared, both]
  ring

theorem symmetrised_both (v : G.Cols 1) : symmetrised (both v) = both (symmetrised v) := rfl

theorem symmetrised_shared (n : G.Cols 1) : symmetrised (shared n) = shared (symmetrised n) := by
  funext s k
  simp only [symmetrised, shared, Grid.mirCols, Grid.mir]
  ring

theorem spinSymmetrised_both (v : G.Cols 1) : spinSymmetrised (both v) = both (spinSymmetrised v) := rfl

theorem spinSymmetrised_shared (n : G.Cols 1) : spinSymmetrised (shared n) = shared (spinSymmetrised n) := by
  funext s k
  have : (0 : Fin 1).rev = 0 := rfl
  simp only [spinSymmetrised, shared, Grid.mirCols, Grid.mir, Grid.flipCols, this]
  ring

namespace Spec.Split
variable {A A' : KS G r 1 1} {B : KS G r 2 2} {F : Functionals G 1} {F' : Functionals G 2}

theorem distribute {s : Fin r × Fin 1 → Solver G} {t : Fin r × Fin 2 → Solver G} {s'} {v : G.Cols 1}
    (hp : ∀ i, (s (i, 0)).pol = 1) (h : ∀ i j, t (i, j) = halfSolver (s (i, 0)))
    (hs : KS.distribute v s = .ok s') : ∃ t', KS.distribute (both v) t = .ok t' ∧ (∀ i, (s' (i, 0)).pol = 1) ∧
      ∀ i j, t' (i, j) = halfSolver (s' (i, 0)) := by
  rw [distribute_ok v le_rfl s] at hs
  obtain rfl := Except.ok.inj hs
  exact ⟨_, distribute_ok (both v) le_rfl t, hp, fun i j => by rw [h i j]; rfl⟩

theorem setEffectivePotential (h : Split A B) (hA : A.setEffectivePotential = .ok A') :
    ∃ B', B.setEffectivePotential = .ok B' ∧ Split A' B' := by
  unfold KS.setEffectivePotential at hA ⊢
  simp only [Py.do_eq_ok, Py.pure_eq_ok] at hA ⊢
  obtain ⟨ve, hve, vh, hvh, s', hs', rfl⟩ := hA
  obtain ⟨t', ht', hp, ht⟩ := distribute h.pol h.solver hs'
  have e1 : A.vext = some ve := by
    cases hx : A.vext with
    | none => rw [hx] at hve; exact nomatch hve
    | some x => rw [hx] at hve; exact congrArg some (Except.ok.inj hve)
  have e2 : A.vhxc = some vh := by
    cases hx : A.vhxc with
    | none => rw [hx] at hvh; exact nomatch hvh
    | some x => rw [hx] at hvh; exact congrArg some (Except.ok.inj hvh)
  refine ⟨_, ⟨both ve, by rw [h.vext, e1]; rfl, both vh, by rw [h.vhxc, e2]; rfl, t', by rw [h.vnuc]; exact ht', rfl⟩, ?_⟩
  exact { h with pol := hp, solver := ht, veff := by rw [h.vnuc]; rfl }

theorem calcHxc (hF : SplitFunctionals F F') (h : Split A B) (hA : A.calcHxc F = .ok A') :
    ∃ B', B.calcHxc F' = .ok B' ∧ Split A' B' ∧ A'.vext = A.vext := by
  have main : ∀ A1, rawHxc F A = .ok A1 → ∃ B1, rawHxc F' B = .ok B1 ∧ Split A1 B1 ∧ A1.vext = A.vext ∧ ∃ v, A1.vhxc = some v := by
    intro A1 h1
    unfold rawHxc at h1 ⊢
    rw [h.kind]
    cases hk : A.kind with
    | ni =>
      rw [hk] at h1
      obtain rfl := Except.ok.inj h1
      exact ⟨_, rfl, { h with kind := rfl, vhxc := rfl }, rfl, _, rfl⟩
    | dft =>
      rw [hk] at h1
      simp only [Py.do_eq_ok, Py.pure_eq_ok, Prod.exists] at h1 ⊢
      obtain ⟨n, hn, ex, x, vx, hx, ec, c, vc, hc, vh, hh, rfl⟩ := h1
      have e1 : A.n = some n := by
        cases hx : A.n with
        | none => rw [hx] at hn; exact nomatch hn
        | some x => rw [hx] at hn; exact congrArg some (Except.ok.inj hn)
      refine ⟨_, ⟨shared n, by rw [h.n, e1]; rfl, ex, x, both vx, by rw [hF.exchange, hx]; rfl, ec, c, both vc,
        by rw [hF.correlation, hc]; rfl, both vh, by rw [hF.hartree, hh]; rfl, rfl⟩, ?_, rfl, _, rfl⟩
      exact { h with kind := rfl, vhxc := rfl, V := by rw [h.V]; rfl }
  unfold KS.calcHxc at hA ⊢
  simp only [Py.do_eq_ok, Py.pure_eq_ok] at hA ⊢
  obtain ⟨A1, h1, v, hv, rfl⟩ := hA
  obtain ⟨B1, hB, hs, he, v', hv'⟩ := main A1 h1
  have hvv : v = v' := by rw [hv'] at hv; exact (Except.ok.inj hv).symm
  subst hvv
  refine ⟨_, ⟨B1, hB, both v, by rw [hs.vhxc, hv']; rfl, rfl⟩, ?_, ?_⟩
  · rw [hs.sym]
    split
    · exact { hs with sym := rfl, vhxc := rfl }
    · exact hs
  · split <;> exact he

theorem calcDensity (h : Split A B) {d : Fin r × Fin 1 → Option (Found G)} {d' : Fin r × Fin 2 → Option (Found G)}
    (hd : ∀ i j, d' (i, j) = d (i, 0)) {n : G.Cols 1} (hA : A.calcDensity d = .ok (A', n)) :
    ∃ B', B.calcDensity d' = .ok (B', shared n) ∧ Split A' B' ∧ A'.n = A.n := by
  have fin1 : ∀ j : Fin 1, j = 0 := fun j => Subsingleton.elim _ _
  unfold KS.calcDensity at hA ⊢
  simp only [Py.do_eq_ok, Py.pure_eq_ok, Prod.mk.injEq] at hA ⊢
  obtain ⟨s', hs', m, hm, rfl, rfl⟩ := hA
  have hall : ∀ w, ∃ f, d w = some f := by
    by_contra hx
    push Not at hx
    obtain ⟨w, hw⟩ := hx
    rw [collect_error d A.solver ⟨w, by cases hx : d w with
      | none => rfl
      | some f => exact absurd hx (hw f)⟩] at hs'
    exact nomatch hs'
  choose f hf using hall
  rw [collect_ok d A.solver f hf] at hs'
  obtain rfl := Except.ok.inj hs'
  have hB := collect_ok d' B.solver (fun w => f (w.1, 0)) (fun w => by rw [hd w.1 w.2, hf])
  have hn : ∀ w, ∃ n, ({ A.solver w with eig := some (f w).1, phi := (f w).2 } : Solver G).calcDensity = .ok n := by
    intro w
    refine foldlM_all _ (fun w => ∃ n, ({ A.solver w with eig := some (f w).1, phi := (f w).2 } : Solver G).calcDensity
      = .ok n) ?_ _ _ _ hm w (mem_colMajor w)
    intro a w a' hw
    rw [Py.do_eq_ok] at hw
    obtain ⟨n, hn, -⟩ := hw
    exact ⟨n, hn⟩
  choose q hq using hn
  rw [sumDensities_eq _ q hq le_rfl] at hm
  obtain rfl := Except.ok.inj hm
  have hsol : ∀ i j, ({ B.solver (i, j) with eig := some (f (i, 0)).1, phi := (f (i, 0)).2 } : Solver G) =
      halfSolver { A.solver (i, 0) with eig := some (f (i, 0)).1, phi := (f (i, 0)).2 } := fun i j => by
    rw [h.solver]; rfl
  have hq' : ∀ w : Fin r × Fin 2, ({ B.solver w with eig := some (f (w.1, 0)).1, phi := (f (w.1, 0)).2 } : Solver G).calcDensity
      = .ok fun k => q (w.1, 0) k / 2 := fun w => by
    refine (congrArg Solver.calcDensity (hsol w.1 w.2)).trans ?_
    exact Solver.half_density { A.solver (w.1, 0) with eig := some (f (w.1, 0)).1, phi := (f (w.1, 0)).2 } (h.pol w.1) (hq (w.1, 0))
  have hsum := sumDensities_eq _ _ hq' (le_refl 2)
  have hshape : (fun (q' : Fin 2) k => if h : q'.1 < 2 then ∑ i, (fun k => q (i, 0) k / 2) k else 0) =
      shared fun (q' : Fin 1) k => if h : q'.1 < 1 then ∑ i, q (i, ⟨q'.1, h⟩) k else 0 := by
    funext s k
    rw [dif_pos s.2]
    simp only [shared]
    rw [dif_pos (show (0 : Fin 1).1 < 1 by decide), Finset.sum_div]
  refine ⟨_, ⟨_, hB, _, hsum, rfl, ?_⟩, { h with pol := h.pol, solver := hsol }, rfl⟩
  rw [h.sym]
  split
  · rw [← symmetrised_shared]
    exact congrArg symmetrised hshape
  · exact hshape

theorem need_some {α : Type*} {x : Option α} {y : α} (h : KS.need x = .ok y) : x = some y := by
  cases x with
  | none => exact nomatch h
  | some z => exact congrArg some (Except.ok.inj h)

theorem energies (hp : ∀ i, (A.solver (i, 0)).pol = 1) (hs : ∀ i j, B.solver (i, j) = halfSolver (A.solver (i, 0)))
    {Eks Ts Vks evals} (hA : solverEnergies 1 A.solver = .ok (Eks, Ts, Vks, evals)) :
    ∃ Eks' Vks' evals', solverEnergies 2 B.solver = .ok (Eks', Ts, Vks', evals') ∧
      (∃ x, Eks 0 = .fin x ∧ ∀ s, Eks' s = .fin (x / 2)) ∧ evals'.Perm (evals ++ evals) ∧ ∃ t, Ts = .fin t := by
  have hE := fun i => solverEnergies_has hA (i, 0)
  choose x hx l hl using fun i => (⟨(hE i).1.choose, (hE i).1.choose_spec, (hE i).2⟩ :
    ∃ x, (A.solver (i, 0)).calcEnergy = .ok x ∧ ∃ l, (A.solver (i, 0)).eig = some l)
  choose a b v hv' hek hden he hb using fun i =>
    Solver.calcEnergy_fin (s := A.solver (i, 0)) (e := (x i).1) (n := (x i).2) (hx i)
  have hx' : ∀ w : Fin r × Fin 1, (A.solver w).calcEnergy = .ok (⟨.fin (a w.1), .fin (b w.1),
      .fin (a w.1 - G.integ fun k => v w.1 k * (x w.1).2 k)⟩, (x w.1).2) := by
    rintro ⟨i, j⟩
    obtain rfl : j = 0 := Subsingleton.elim _ _
    rw [hx i, ← he i]
  choose b' hb' using fun i => Solver.half_energy (A.solver (i, 0)) (hp i) (hx' (i, 0))
  have hy : ∀ w : Fin r × Fin 2, (B.solver w).calcEnergy = .ok (⟨.fin (a w.1 / 2), .fin (b' w.1),
      .fin ((a w.1 - G.integ fun k => v w.1 k * (x w.1).2 k) / 2)⟩, fun k => (x w.1).2 k / 2) := by
    rintro ⟨i, j⟩
    rw [hs]
    exact hb' i
  rw [solverEnergies_eq le_rfl A.solver (fun w => a w.1) (fun w => b w.1) _ _ (fun w => l w.1) hx' (by
    rintro ⟨i, j⟩
    obtain rfl : j = 0 := Subsingleton.elim _ _
    exact hl i)] at hA
  simp only [Except.ok.injEq, Prod.mk.injEq] at hA
  obtain ⟨rfl, rfl, rfl, rfl⟩ := hA
  have hB := solverEnergies_eq (le_refl 2) B.solver (fun w => a w.1 / 2) (fun w => b' w.1) _ _ (fun w => l w.1) hy (by
    rintro ⟨i, j⟩
    rw [hs]
    exact hl i)
  have ht : ∑ w : Fin r × Fin 2, (a w.1 - G.integ fun k => v w.1 k * (x w.1).2 k) / 2 =
      ∑ w : Fin r × Fin 1, (a w.1 - G.integ fun k => v w.1 k * (x w.1).2 k) := by
    rw [Fintype.sum_prod_type, Fintype.sum_prod_type]
    refine Finset.sum_congr rfl fun i _ => ?_
    simp only [Fin.sum_univ_two, Finset.univ_unique, Finset.sum_singleton]
    ring
  rw [ht] at hB
  refine ⟨_, _, _, hB, ⟨_, rfl, ?_⟩, ?_, _, rfl⟩
  · intro s
    rw [dif_pos s.2, dif_pos (show (0 : Fin 1).1 < 1 by decide), Finset.sum_div]
  · unfold rowMajor
    have e1 : List.finRange 1 = [0] := rfl
    have e2 : List.finRange 2 = [0, 1] := rfl
    simp only [e1, e2, List.map_cons, List.map_nil, List.flatMap_assoc, List.flatMap_cons, List.flatMap_nil,
      List.append_nil]
    exact (List.flatMap_append_perm _ _ _).symm

theorem energy (hF : SplitFunctionals F F') (h : Split A B) (hA : A.energy F = .ok A') :
    ∃ B', B.energy F' = .ok B' ∧ Split A' B' ∧ ∃ E, A'.E = some E := by
  unfold KS.energy at hA ⊢
  rw [Py.do_eq_ok] at hA
  obtain ⟨⟨Eks, Ts, Vks, evals⟩, h1, hA⟩ := hA
  obtain ⟨Eks', Vks', evals', h2, hEks, hev, t, rfl⟩ := energies h.pol h.solver h1
  rw [h2]
  simp only [bind, Except.bind]
  rw [h.kind]
  cases hk : A.kind with
  | ni =>
    rw [hk] at hA
    simp only [Py.do_eq_ok, Py.pure_eq_ok] at hA
    obtain ⟨n, hn, ve, hve, rfl⟩ := hA
    have e1 := need_some hn
    have e2 := need_some hve
    have e3 : B.n = some (shared n) := by rw [h.n, e1]; rfl
    have e4 : B.vext = some (both ve) := by rw [h.vext, e2]; rfl
    have hE : ∀ g : (p : ℕ) → KSEnergy K p → K, (∀ e f, SplitEnergy e f → g 2 f = g 1 e) →
        (B.E.map (g 2)).getD 0 = (A.E.map (g 1)).getD 0 := by
      intro g hg
      rcases h.E with ⟨h1, h2⟩ | ⟨e, f, h1, h2, h3⟩
      · rw [h1, h2]; rfl
      · rw [h1, h2]; exact hg e f h3
    simp only [e3, e4, need, pure, Except.pure]
    refine ⟨_, rfl, { h with
      kind := rfl
      vext := e4.symm.trans h.vext
      n := e3.symm.trans h.n
      E := .inr ⟨_, _, rfl, rfl, ?_⟩ }, _, rfl⟩
    exact
      { Eks := hEks, Ts := rfl, evals := hev
        Enuc := by simp only [h.vnuc, inner_both]
        Vext := by simp only [inner_both]
        Vhxc := rfl, Eh := rfl
        Ex := hE (fun p => KSEnergy.Ex) fun e f h => h.Ex
        Ec := hE (fun p => KSEnergy.Ec) fun e f h => h.Ec
        Et := by simp only [h.vnuc, inner_both]
        Vnn := by simp only [h.Za, h.Zb, h.a]
        E := by simp only [h.vnuc, inner_both, h.Za, h.Zb, h.a] }
  | dft =>
    rw [hk] at hA
    simp only [Py.do_eq_ok, Py.pure_eq_ok, Prod.exists] at hA
    obtain ⟨n, hn, ve, hve, vh, hvh, vH, hH, vH0, hH0, ex, x, vx, hx, ec, c, vc, hc, rfl⟩ := hA
    have e1 := need_some hn
    have e2 := need_some hve
    have e5 := need_some hvh
    have e3 : B.n = some (shared n) := by rw [h.n, e1]; rfl
    have e4 : B.vext = some (both ve) := by rw [h.vext, e2]; rfl
    have e6 : B.vhxc = some (both vh) := by rw [h.vhxc, e5]; rfl
    have g1 : F'.hartree (shared n) = .ok (both vH) := by rw [hF.hartree, hH]; rfl
    have g2 : F'.exchange (shared n) = .ok (ex, x, both vx) := by rw [hF.exchange, hx]; rfl
    have g3 : F'.correlation (shared n) = .ok (ec, c, both vc) := by rw [hF.correlation, hc]; rfl
    have g4 : col (both vH) 0 = .ok vH0 := hH0
    simp only [e3, e4, e6, need, pure, Except.pure, g1, g2, g3, g4]
    refine ⟨_, rfl, { h with
      kind := rfl
      vext := e4.symm.trans h.vext
      vhxc := e6.symm.trans h.vhxc
      n := e3.symm.trans h.n
      V := rfl
      E := .inr ⟨_, _, rfl, rfl, ?_⟩ }, _, rfl⟩
    exact
      { Eks := hEks, Ts := rfl, evals := hev
        Enuc := by simp only [h.vnuc, inner_both]
        Vext := by simp only [inner_both]
        Vhxc := by simp only [inner_both]
        Eh := by simp only [sum_shared]
        Ex := rfl
        Ec := rfl
        Et := by simp only [h.vnuc, inner_both, sum_shared]
        Vnn := by simp only [h.Za, h.Zb, h.a]
        E := by simp only [h.vnuc, inner_both, h.Za, h.Zb, h.a, sum_shared] }

theorem calcChempot (h : Split A B) (hA : A.calcChempot = .ok A') :
    ∃ B', B.calcChempot = .ok B' ∧ Split A' B' ∧ A'.E = A.E ∧ A'.n = A.n := by
  unfold KS.calcChempot at hA ⊢
  simp only [Py.do_eq_ok, Py.pure_eq_ok] at hA ⊢
  obtain ⟨homos, hh, u, hu, rfl⟩ := hA
  choose q hq using fun i => mapM_all _ _ _ hh (i, (0 : Fin 1)) (mem_rowMajor _)
  have hq1 : ∀ w : Fin r × Fin 1, (A.solver w).getHomo = .ok (q w.1) := by
    rintro ⟨i, j⟩
    obtain rfl : j = 0 := Subsingleton.elim _ _
    exact hq i
  have hq2 : ∀ w : Fin r × Fin 2, (B.solver w).getHomo = .ok (q w.1) := by
    rintro ⟨i, j⟩
    rw [h.solver, Solver.half_homo _ (h.pol i)]
    exact hq i
  rw [mapM_ok _ (fun w => q w.1) _ fun w _ => hq1 w] at hh
  obtain rfl := Except.ok.inj hh
  have hmem : ∀ x, x ∈ (rowMajor r 2).map (fun w => q w.1) ↔ x ∈ (rowMajor r 1).map fun w => q w.1 := by
    intro x
    simp only [List.mem_map]
    exact ⟨fun ⟨w, _, hw⟩ => ⟨(w.1, 0), mem_rowMajor _, hw⟩, fun ⟨w, _, hw⟩ => ⟨(w.1, 0), mem_rowMajor _, hw⟩⟩
  have hmax : ∀ (l m : List K), (∀ x, x ∈ m ↔ x ∈ l) → pyMax l = .ok u → pyMax m = .ok u := by
    intro l m hlm hl
    cases l with
    | nil => exact nomatch hl
    | cons x l =>
      obtain ⟨a, h1, h2, h3⟩ := pyMax_spec x l
      obtain rfl : a = u := Except.ok.inj (h1.symm.trans hl)
      cases m with
      | nil => exact absurd ((hlm x).mpr List.mem_cons_self) (by simp)
      | cons y m =>
        obtain ⟨b, g1, g2, g3⟩ := pyMax_spec y m
        have : b = a := le_antisymm (h3 _ ((hlm b).mp g2)) (g3 _ ((hlm a).mpr h2))
        rw [g1, this]
  refine ⟨_, ⟨_, mapM_ok _ (fun w => q w.1) _ fun w _ => hq2 w, u, hmax _ _ hmem hu, rfl⟩, ?_, rfl, rfl⟩
  have hu : ∀ i j, (B.solver (i, j)).getHomo.toOption = (A.solver (i, 0)).getHomo.toOption := fun i j => by rw [hq1, hq2]
  exact { h with u := rfl, homo := hu }

theorem potential (hF : SplitFunctionals F F') (h : Split A B) (hA : KsScf.potential F A = .ok A') :
    ∃ B', KsScf.potential F' B = .ok B' ∧ Split A' B' := by
  unfold KsScf.potential at hA ⊢
  simp only [Py.do_eq_ok, Py.pure_eq_ok] at hA ⊢
  obtain ⟨A1, h1, ve, hve, vh, hvh, s', hs', rfl⟩ := hA
  obtain ⟨B1, hB1, hS, -⟩ := h.calcHxc hF h1
  obtain ⟨t', ht', hp, ht⟩ := distribute hS.pol hS.solver hs'
  refine ⟨_, ⟨B1, hB1, both ve, by rw [hS.vext, need_some hve]; rfl, both vh, by rw [hS.vhxc, need_some hvh]; rfl, t',
    by rw [hS.vnuc]; exact ht', rfl⟩, ?_⟩
  exact { hS with pol := hp, solver := ht, veff := by rw [hS.vnuc]; rfl }

theorem flipPotential (o : Options K) (h : Split A B) : Split (KsScf.flipPotential o A) (KsScf.flipPotential o B) := by
  unfold KsScf.flipPotential
  split
  · refine { h with veff := ?_ }
    change B.veff.map spinSymmetrised = (A.veff.map spinSymmetrised).map both
    rw [h.veff]
    cases A.veff <;> rfl
  · exact h

theorem workers {f : Bool → Solver G → Option (Found G)} {W : Workers G r 1 1} {W' : Workers G r 2 2}
    (hW : PerSolver f W) (hW' : PerSolver f W') (h : Split A B) (b : Bool) (i : Fin r) (j : Fin 2) :
    W' B b (i, j) = W A b (i, 0) := by
  rw [hW, hW', h.solver]
  rfl

theorem density {f : Bool → Solver G → Option (Found G)} {W : Workers G r 1 1} {W' : Workers G r 2 2}
    (hW : PerSolver f W) (hW' : PerSolver f W') (o : Options K) (hi : o.iterative = true → o.continuing = true)
    {d d' : Fl K} (h : Split A B) (hA : KsScf.density W o d A = .ok A') :
    ∃ B', KsScf.density W' o d' B = .ok B' ∧ Split A' B' := by
  have hflag : (o.iterative && Fl.gt (.fin (1 / 100)) (if o.iterative = true ∧ o.continuing = true then .fin 0 else d)) =
      (o.iterative && Fl.gt (.fin (1 / 100)) (if o.iterative = true ∧ o.continuing = true then .fin 0 else d')) := by
    cases hx : o.iterative with
    | false => rfl
    | true => simp [hi hx]
  unfold KsScf.density at hA ⊢
  simp only [Py.do_eq_ok, Py.pure_eq_ok, Prod.exists] at hA ⊢
  rw [hflag] at hA
  obtain ⟨A1, nout, h1, n, hn, rfl⟩ := hA
  obtain ⟨B1, hB1, hS, -⟩ := h.calcDensity (workers hW hW' h _) h1
  refine ⟨_, ⟨B1, shared nout, hB1, shared n, by rw [hS.n, need_some hn]; rfl, rfl⟩, { hS with n := ?_ }⟩
  have hmix : mix o.alpha (shared n) (shared nout) = shared (mix o.alpha n nout) := by
    funext s k
    simp only [mix, shared]
    ring
  rw [hmix]
  split
  · rw [spinSymmetrised_shared]; rfl
  · rfl

/-- The states of the loop correspond (the last change `diff` need not agree, see `C93_refuted_change`). -/
structure _root_.Verif.Spec.SplitState (s : State G r 1 1) (t : State G r 2 2) : Prop where
  ks : Split s.ks t.ks
  oldE : t.oldE = s.oldE
  oldN : t.oldN = shared s.oldN

theorem body {f : Bool → Solver G → Option (Found G)} {W : Workers G r 1 1} {W' : Workers G r 2 2}
    (hG : Nonempty G.Ix) (hF : SplitFunctionals F F') (hW : PerSolver f W) (hW' : PerSolver f W') (o : Options K)
    (hi : o.iterative = true → o.continuing = true) {s s' : State G r 1 1} {t : State G r 2 2} {dE dn : Fl K}
    (h : SplitState s t) (hA : KsScf.body F W o s = .ok (s', dE, dn)) :
    ∃ t' dn', KsScf.body F' W' o t = .ok (t', dE, dn') ∧ SplitState s' t' := by
  unfold KsScf.body at hA ⊢
  simp only [Py.do_eq_ok, Py.pure_eq_ok, Prod.mk.injEq] at hA ⊢
  obtain ⟨A1, h1, A2, h2, A3, h3, A4, h4, n, hn, E, hE, dn1, hdn, rfl, rfl, rfl⟩ := hA
  obtain ⟨B1, g1, hS⟩ := h.ks.potential hF h1
  obtain ⟨B2, g2, hS⟩ := (hS.flipPotential o).density hW hW' o hi (d' := t.diff) h2
  obtain ⟨B3, g3, hS, -⟩ := hS.energy hF h3
  obtain ⟨B4, g4, hS, -⟩ := hS.calcChempot h4
  obtain ⟨dn', hdn'⟩ := difN_ok (by decide) hG (shared n) t.oldN
  rcases hS.E with ⟨x, -⟩ | ⟨e, e', he, he', hee⟩
  · rw [x] at hE; exact nomatch hE
  have hEe : E = e := by
    have := need_some hE
    rw [he] at this
    exact (Option.some.inj this).symm
  subst hEe
  refine ⟨_, dn', ⟨B1, g1, B2, g2, B3, g3, B4, g4, shared n, by rw [hS.n, need_some hn]; rfl, e', by rw [he']; rfl, dn',
    hdn', rfl, ?_, rfl⟩, ⟨hS, hee.E, rfl⟩⟩
  rw [hee.E, h.oldE]

theorem start {f : Bool → Solver G → Option (Found G)} {W : Workers G r 1 1} {W' : Workers G r 2 2}
    (hW : PerSolver f W) (hW' : PerSolver f W') (o : Options K) (h : Split A B) (hA : KsScf.start W o A = .ok A') :
    ∃ B', KsScf.start W' o B = .ok B' ∧ Split A' B' := by
  have h0 : Split { A with vext := some (A.vext.getD fun _ _ => 0) } { B with vext := some (B.vext.getD fun _ _ => 0) } := by
    refine { h with vext := ?_ }
    rw [h.vext]
    cases A.vext <;> rfl
  unfold KsScf.start at hA ⊢
  split at hA
  · rename_i hc
    rw [if_pos hc]
    simp only [Py.do_eq_ok, Py.pure_eq_ok] at hA ⊢
    obtain ⟨n, hn, rfl⟩ := hA
    exact ⟨_, ⟨shared n, by rw [h0.n, need_some hn]; rfl, rfl⟩, h0⟩
  · rename_i hc
    rw [if_neg hc]
    simp only [Py.do_eq_ok, Py.pure_eq_ok, Prod.exists] at hA ⊢
    obtain ⟨A1, h1, A2, n, h2, rfl⟩ := hA
    have h0' := { h0 with vhxc := rfl : Split { A with vext := some (A.vext.getD fun _ _ => 0), vhxc := some fun _ _ => 0 }
      { B with vext := some (B.vext.getD fun _ _ => 0), vhxc := some fun _ _ => 0 } }
    obtain ⟨B1, g1, hS⟩ := h0'.setEffectivePotential h1
    obtain ⟨B2, g2, hS', -⟩ := hS.calcDensity (workers hW hW' hS _) h2
    exact ⟨_, ⟨B1, g1, B2, shared n, g2, rfl⟩, { hS' with n := rfl }⟩

end Spec.Split

open Opt in
/-- C93, construction: the polarised system with half of the electrons in each spin. -/
theorem C93_construct (lower : String → String) (coerce : Kind → Val → Option Val)
    (hco : ∀ v : Val, coerce v.kind v = some v) (hlow : ∀ k ∈ ["fractional", "sym"], lower k = k) (G : Grid K)
    (coul : K → K → G.Fld) (a Za Zb : K) (Nmo : Fin r × Fin 1 → ℕ) (N : Fin r × Fin 1 → K) (opt : Dict)
    (hopt : Valid lower ksFields opt) (hN : ∀ w, N w ≠ -1 ∧ N w ≠ -2) :
    ∃ (A : KS G r 1 1) (B : KS G r 2 2), KS.init lower coerce G coul a 1 Za Zb Nmo N opt = .ok A ∧
      KS.init lower coerce G coul a 2 Za Zb (fun w : Fin r × Fin 2 => Nmo (w.1, 0)) (fun w : Fin r × Fin 2 => N (w.1, 0) / 2) opt =
        .ok B ∧ Split A B := by
  obtain ⟨A, hA, fA, -⟩ := (C85_kohnsham lower coerce hco hlow G coul a 1 Za Zb Nmo N N opt).1 hopt fun w => (hN w).1
  obtain ⟨B, hB, fB, -⟩ := (C85_kohnsham lower coerce hco hlow G coul a 2 Za Zb (fun w : Fin r × Fin 2 => Nmo (w.1, 0))
    (fun w : Fin r × Fin 2 => N (w.1, 0) / 2) (fun w : Fin r × Fin 2 => N (w.1, 0) / 2) opt).1 hopt fun w h =>
      (hN (w.1, 0)).2 (by linarith [(div_eq_iff (two_ne_zero (α := K))).mp h])
  obtain ⟨a1, a2, a3, a4, a5, a6, a7, a8, a9⟩ := fA.empty
  obtain ⟨b1, b2, b3, b4, b5, b6, b7, b8, b9⟩ := fB.empty
  refine ⟨A, B, hA, hB, ?_⟩
  exact
    { kind := fB.options.1.trans fA.options.1.symm
      sym := fB.options.2.trans fA.options.2.symm
      Za := fB.charges.1.trans fA.charges.1.symm
      Zb := fB.charges.2.1.trans fA.charges.2.1.symm
      a := fB.charges.2.2.trans fA.charges.2.2.symm
      pol := fun i => (fA.solver i 0).2.1
      solver := fun i j => by
        obtain ⟨x1, x2, x3, x4, x5, x6, x7, x8, x9⟩ := fA.solver i 0
        obtain ⟨y1, y2, y3, y4, y5, y6, y7, y8, y9⟩ := fB.solver i j
        generalize A.solver (i, 0) = s at *
        generalize B.solver (i, j) = t at *
        obtain ⟨s1, s2, s3, s4, s5, s6, s7, s8, s9⟩ := s
        obtain ⟨t1, t2, t3, t4, t5, t6, t7, t8, t9⟩ := t
        simp only at x1 x2 x3 x4 x5 x6 x7 x8 x9 y1 y2 y3 y4 y5 y6 y7 y8 y9
        subst x1 x2 x3 x4 x5 x6 x7 x8 x9 y1 y2 y3 y4 y5 y6 y7 y8 y9
        rfl
      vnuc := by
        funext s k
        exact (fB.vnuc (.inr rfl) s k).trans (fA.vnuc (.inl rfl) 0 k).symm
      vext := by rw [a2, b2]; rfl
      vhxc := by rw [a3, b3]; rfl
      veff := by rw [a4, b4]; rfl
      n := by rw [a1, b1]; rfl
      u := by rw [a5, b5]
      homo := fun i j => by rw [a9, b9]
      V := by rw [a8, b8]; rfl
      E := .inl ⟨a7, b7⟩ }

/-- C93, one pass of the loop: if the unpolarised one completes, so does the polarised one, with the same change of the
energy, and all results correspond. -/
theorem C93_pass {F : Functionals G 1} {F' : Functionals G 2} {f : Bool → Solver G → Option (Found G)}
    {W : Workers G r 1 1} {W' : Workers G r 2 2} (hG : Nonempty G.Ix) (hF : SplitFunctionals F F') (hW : PerSolver f W)
    (hW' : PerSolver f W') (o : Options K) (hi : o.iterative = true → o.continuing = true) {s s' : State G r 1 1}
    {t : State G r 2 2} {dE dn : Fl K} (h : SplitState s t) (hA : body F W o s = .ok (s', dE, dn)) :
    ∃ t' dn', body F' W' o t = .ok (t', dE, dn') ∧ SplitState s' t' :=
  Split.body hG hF hW hW' o hi h hA

theorem KsScf.loop_split {S T : Type} {step : S → Py (S × Fl K × Fl K)} {step' : T → Py (T × Fl K × Fl K)} {R : S → T → Prop}
    (hstep : ∀ s t s' dE dn, R s t → step s = .ok (s', dE, dn) → ∃ t' dn', step' t = .ok (t', dE, dn') ∧ R s' t')
    (auto : Bool) (etol : K) :
    ∀ (left : ℕ) (d d' : Fl K) (s s' : S) (t t' : T) (log log'), R s t → loop step auto etol left d s = .ok (s', log) →
      loop step' auto etol left d' t = .ok (t', log') → log.length = log'.length →
      R s' t' ∧ log'.map Prod.fst = log.map Prod.fst := by
  intro left
  induction left with
  | zero =>
    intro d d' s s' t t' log log' hR h h' _
    have e1 : s' = s ∧ log = [] := by
      unfold loop at h
      split at h
      · simpa [eq_comm] using h
      · split at h
        · exact nomatch h
        · simpa [eq_comm] using h
    have e2 : t' = t ∧ log' = [] := by
      unfold loop at h'
      split at h'
      · simpa [eq_comm] using h'
      · split at h'
        · exact nomatch h'
        · simpa [eq_comm] using h'
    rw [e1.1, e1.2, e2.1, e2.2]
    exact ⟨hR, rfl⟩
  | succ left ih =>
    intro d d' s s' t t' log log' hR h h' hl
    have key : ∀ {S : Type} (step : S → Py (S × Fl K × Fl K)) (d : Fl K) (s s' : S) (log),
        loop step auto etol (left + 1) d s = .ok (s', log) → (log = [] ∧ s' = s) ∨ ∃ s1 dE dn log1, step s = .ok (s1, dE, dn) ∧
          loop step auto etol left (Fl.pymax dE dn) s1 = .ok (s', log1) ∧ log = (dE, dn) :: log1 := by
      intro S step d s s' log h
      unfold loop at h
      split at h
      · simp only [Py.do_eq_ok, Prod.exists] at h
        obtain ⟨s1, dE, dn, h1, h⟩ := h
        split at h
        · exact nomatch h
        · simp only [Py.do_eq_ok, Py.pure_eq_ok, Prod.exists, Prod.mk.injEq] at h
          obtain ⟨s2, log1, h2, rfl, rfl⟩ := h
          exact .inr ⟨s1, dE, dn, log1, h1, h2, rfl⟩
      · split at h
        · exact nomatch h
        · simp only [Except.ok.injEq, Prod.mk.injEq] at h
          exact .inl ⟨h.2.symm, h.1.symm⟩
    rcases key _ _ _ _ _ h with ⟨e1, e2⟩ | ⟨s1, dE, dn, log1, h1, h2, e1⟩
    · rcases key _ _ _ _ _ h' with ⟨g1, g2⟩ | ⟨t1, dE', dn', log1', g1, g2, g3⟩
      · rw [e1, e2, g1, g2]
        exact ⟨hR, rfl⟩
      · rw [e1, g3] at hl
        simp at hl
    · rcases key _ _ _ _ _ h' with ⟨g1, g2⟩ | ⟨t1, dE', dn', log1', g1, g2, g3⟩
      · rw [e1, g1] at hl
        simp at hl
      · obtain ⟨t2, dn2, k1, k2⟩ := hstep _ _ _ _ _ hR h1
        rw [k1] at g1
        simp only [Except.ok.injEq, Prod.mk.injEq] at g1
        obtain ⟨rfl, rfl, rfl⟩ := g1
        subst e1 g3
        obtain ⟨m1, m2⟩ := ih _ _ _ _ _ _ _ _ k2 h2 g2 (by simpa using hl)
        exact ⟨m1, by simp [m2]⟩

/-- C93 (partial): the unpolarised and the polarised calculation of a closed-shell system, with as many passes, end with
the same energies, eigenvalues, chemical potential and potentials and the same density.
Partial: the number of passes can differ, see `C93_refuted_passes`. -/
theorem C93_scf_partial {F : Functionals G 1} {F' : Functionals G 2} {f : Bool → Solver G → Option (Found G)}
    {W : Workers G r 1 1} {W' : Workers G r 2 2} (hG : Nonempty G.Ix) (hF : SplitFunctionals F F') (hW : PerSolver f W)
    (hW' : PerSolver f W') (o : Options K) (hi : o.iterative = true → o.continuing = true) {A A' : KS G r 1 1}
    {B B' : KS G r 2 2} {log log'} (h : Split A B) (hA : scf F W o A = .ok (A', log)) (hB : scf F' W' o B = .ok (B', log'))
    (hl : log.length = log'.length) : Split A' B' ∧ log'.map Prod.fst = log.map Prod.fst := by
  unfold scf at hA hB
  simp only [Py.do_eq_ok, Py.pure_eq_ok, Prod.exists, Prod.mk.injEq] at hA hB
  obtain ⟨A1, h1, s, log1, h2, rfl, rfl⟩ := hA
  obtain ⟨B1, g1, t, log2, g2, rfl, rfl⟩ := hB
  obtain ⟨B2, k1, hS⟩ := h.start hW hW' o h1
  obtain rfl : B1 = B2 := Except.ok.inj (g1.symm.trans k1)
  obtain ⟨m1, m2⟩ := loop_split (R := SplitState) (fun s t s' dE dn hR hs => Split.body hG hF hW hW' o hi hR hs) _ _ _ _ _ _ _ _ _ _ _
    ⟨hS, rfl, funext fun _ => funext fun _ => (zero_div _).symm⟩ h2 g2 hl
  exact ⟨m1.ks, m2⟩

section Functionals
open Libxc Hartree

/-- The functionals of an unpolarised calculation (kohnsham.py 109-112). -/
noncomputable def Hartree.HGrid.functionals1 (H : HGrid) (O : Op H.grid) (family : String) (X C : Func H.grid 1 1) :
    Functionals H.grid 1 where
  exchange n := (getXc1 O family X n).map fun r => (r.exc, r.epsilon, r.vxc)
  correlation n := (getXc1 O family C n).map fun r => (r.exc, r.epsilon, r.vxc)
  hartree := H.vHartree 1

/-- The functionals of a polarised calculation (kohnsham.py 109-112). -/
noncomputable def Hartree.HGrid.functionals2 (H : HGrid) (O : Op H.grid) (family : String) (X C : Func H.grid 2 3) :
    Functionals H.grid 2 where
  exchange n := (getXc2 O family X n).map fun r => (r.exc, r.epsilon, r.vxc)
  correlation n := (getXc2 O family C n).map fun r => (r.exc, r.epsilon, r.vxc)
  hartree := H.vHartree 2

/-- C93: LDAs (and GGAs without mixed gradients) from libxc and the Hartree potential satisfy the hypothesis of the
theorems above. -/
theorem C93_functionals_partial (H : HGrid) (O : Op H.grid) (X C : Func H.grid 1 1) (X' C' : Func H.grid 2 3)
    (hX : Restricts X X') (hC : Restricts C C') (family : String)
    (hf : family = "lda" ∨ family = "gga" ∧ NoMixed X' ∧ NoMixed C') :
    SplitFunctionals (H.functionals1 O family X C) (H.functionals2 O family X' C') := by
  have key : ∀ (F : Func H.grid 1 1) (F' : Func H.grid 2 3), Restricts F F' → (family = "lda" ∨ family = "gga" ∧ NoMixed F') →
      ∀ n, ((getXc2 O family F' (shared n)).map fun r => (r.exc, r.epsilon, r.vxc)) =
        ((getXc1 O family F n).map fun r => (r.exc, r.epsilon, r.vxc)).map fun x => (x.1, x.2.1, both x.2.2) := by
    intro F F' hR hf n
    obtain ⟨r1, r2, h1, h2, h3, h4, h5⟩ := C70_equal_spins_partial O F F' hR family hf (n 0)
    have hn : n = fun _ => n 0 := by
      funext j
      rw [Subsingleton.elim j 0]
    have h1' : getXc1 O family F n = .ok r1 := by rw [hn]; exact h1
    have h2' : getXc2 O family F' (shared n) = .ok r2 := h2
    rw [h1', h2']
    simp only [Except.map]
    rw [h3, h4, show r2.vxc = both r1.vxc from funext fun a => funext fun k => h5 a k]
  refine ⟨key X X' hX (hf.imp_right fun h => ⟨h.1, h.2.1⟩), key C C' hC (hf.imp_right fun h => ⟨h.1, h.2.2⟩), fun n => ?_⟩
  change H.vHartree 2 (shared n) = (Except.map (both (G := H.grid)) (H.vHartree 1 n) : Py (H.grid.Cols 2))
  have : (fun k => ∑ s, shared n s k) = fun k => ∑ s, n s k := funext fun k => sum_shared n k
  exact congrArg (fun m : H.grid.Fld => (.ok fun _ => H.solve (H.source m) : Py (H.grid.Cols 2))) this

end Functionals

section Counterexample

/-- Two points with weights 1 and 3. -/
abbrev C93_grid : Grid ℚ := { Na := 2, Nr := 1, pi := 1 / 2, ha := 1, hr := 1, wi := fun _ => 1, w := ![1, 3] }

/-- Orbitals found one after the other: `(1,0)`, `(2,0)`, `(1,1/3)`, then always `(1,1/2)`. -/
def C93_work (_ : Bool) (s : Solver C93_grid) : Option (Found C93_grid) :=
  match s.phi with
  | some (p :: _) => some ([-1], some [if p 0 = 2 then ![1, 1 / 3] else if p 1 = 0 then ![2, 0] else ![1, 1 / 2]])
  | _ => some ([-1], some [![1, 0]])

def C93_W (c p : ℕ) : Workers C93_grid 1 c p := fun ks b w => C93_work b { ks.solver w with N := 0, pol := 0 }

/-- Two non-interacting electrons without a nucleus. -/
def C93_ks (c p : ℕ) : KS C93_grid 1 c p :=
  { kind := .ni, sym := false, Za := 0, Zb := 0, a := 1, vnuc := fun _ _ => 0
    solver := fun _ => { Nmo := 1, N := 2 / c, m := 0, pol := c } }

def C93_F (p : ℕ) : Functionals C93_grid p := ⟨fun _ => .error .valueError, fun _ => .error .valueError, fun _ => .error .valueError⟩

def C93_opt (etol : ℚ) : Options ℚ := ⟨false, false, false, false, 10, etol, 1⟩

theorem C93_split : Split (C93_ks 1 1) (C93_ks 2 2) where
  kind := rfl
  sym := rfl
  Za := rfl
  Zb := rfl
  a := rfl
  pol _ := rfl
  solver _ _ := by simp [C93_ks, halfSolver]
  vnuc := rfl
  vext := rfl
  vhxc := rfl
  veff := rfl
  n := rfl
  u := rfl
  homo _ _ := rfl
  V := rfl
  E := .inl ⟨rfl, rfl⟩

/-- The change of the density is measured with the wrong weights for one spin column (`C09`): the unpolarised
calculation stops after 2 passes, the polarised one after 3 with another density. -/
theorem C93_refuted_passes : Split (C93_ks 1 1) (C93_ks 2 2) ∧ SplitFunctionals (C93_F 1) (C93_F 2) ∧
    PerSolver C93_work (C93_W 1 1) ∧ PerSolver C93_work (C93_W 2 2) ∧
    ((scf (C93_F 1) (C93_W 1 1) (C93_opt (9 / 20)) (C93_ks 1 1)).toOption.map fun x =>
      (x.2.length, x.1.n.map fun n => (n 0 0, n 0 1))) = some (2, some (3 / 2, 1 / 6)) ∧
    ((scf (C93_F 2) (C93_W 2 2) (C93_opt (9 / 20)) (C93_ks 2 2)).toOption.map fun x =>
      (x.2.length, x.1.n.map fun n => (n 0 0 + n 1 0, n 0 1 + n 1 1))) = some (3, some (8 / 7, 2 / 7)) :=
  ⟨C93_split, ⟨fun _ => rfl, fun _ => rfl, fun _ => rfl⟩, fun _ _ _ => rfl, fun _ _ _ => rfl, by decide +kernel, by decide +kernel⟩

/-- With a smaller tolerance both calculations run 4 passes and end with the same energy and density. -/
example : ((scf (C93_F 1) (C93_W 1 1) (C93_opt (1 / 100)) (C93_ks 1 1)).toOption.map fun x =>
      (x.2.length, x.1.n.map (fun n => (n 0 0, n 0 1)), x.1.E.map (·.E))) = some (4, some (8 / 7, 2 / 7), some (.fin (-2))) ∧
    ((scf (C93_F 2) (C93_W 2 2) (C93_opt (1 / 100)) (C93_ks 2 2)).toOption.map fun x =>
      (x.2.length, x.1.n.map (fun n => (n 0 0, n 1 0, n 1 1)), x.1.E.map (·.E))) =
        some (4, some (4 / 7, 4 / 7, 1 / 7), some (.fin (-2))) :=
  ⟨by decide +kernel, by decide +kernel⟩

end Counterexample

section Guard

/-- `Vs` of a solver beyond 10^5 is replaced by 0 (`C20`); half of it may be kept. The total is then not the same. -/
theorem C93_refuted_guard : ∃ s : Solver (Grid.tiny ℚ), s.pol = 1 ∧
    (s.calcEnergy.toOption.map fun x => x.1.Vs) = some (.fin 0) ∧
    ((halfSolver s).calcEnergy.toOption.map fun x => x.1.Vs) = some (.fin 60000) :=
  ⟨{ Nmo := 1, N := 2, m := 0, pol := 1, phi := some [fun _ => 1], eig := some [0], veff := some fun _ => 60000 },
    rfl, by decide +kernel, by decide +kernel⟩

/-- Below the threshold the total `Vks` agrees. -/
theorem C93_guard (s : Solver G) (h : s.pol = 1) {e e' : Solver.Energy K} {n n' : G.Fld} {v : G.Fld} (hv : s.veff = some v)
    (hs : s.calcEnergy = .ok (e, n)) (hb : |G.integ fun k => v k * n k| ≤ 10 ^ 5)
    (ht : (halfSolver s).calcEnergy = .ok (e', n')) :
    e.Vs = .fin (G.integ fun k => v k * n k) ∧ e'.Vs = .fin ((G.integ fun k => v k * n k) / 2) := by
  obtain ⟨a, b, w, hw, h1, h2, rfl, h3⟩ := Solver.calcEnergy_fin hs
  obtain ⟨a', b', w', hw', g1, g2, rfl, g3⟩ := Solver.calcEnergy_fin ht
  obtain rfl : w = v := Option.some.inj (hw.symm.trans hv)
  obtain rfl : w' = w := Option.some.inj (hw'.symm.trans hv)
  rw [Solver.half_density s h h2] at g2
  obtain rfl := Except.ok.inj g2
  have hi : (G.integ fun k => w' k * (n k / 2)) = (G.integ fun k => w' k * n k) / 2 := by
    have : (fun k => w' k * (n k / 2)) = fun k => (1 / 2) * (w' k * n k) := by funext k; ring
    rw [this, Grid.integ_smul]
    ring
  refine ⟨congrArg Fl.fin (h3 hb), congrArg Fl.fin ?_⟩
  rw [← hi]
  refine g3 ?_
  rw [hi, abs_div, abs_two]
  have := abs_nonneg (G.integ fun k => w' k * n k)
  linarith

end Guard

end Verif
