import Verif.Model.KsScf
import Verif.Props.C28_C30

namespace Verif
open Spec KS
variable {K : Type} [Field K] [LinearOrder K] [IsStrictOrderedRing K] [FloorRing K]
variable {G : Grid K} {r c p : ℕ}

/-- Two solvers have the same electrons to place. -/
def Solver.Alike (s t : Solver G) : Prop :=
  t.N = s.N ∧ t.m = s.m ∧ t.pol = s.pol ∧ t.fractional = s.fractional

theorem Solver.Alike.electrons {s t : Solver G} (h : s.Alike t) : electrons t = electrons s := by
  obtain ⟨h1, h2, h3, h4⟩ := h
  unfold Spec.electrons
  rw [h1, h2, h3, h4]

theorem Solver.Alike.adequate {s t : Solver G} (h : s.Alike t) {f : Found G} :
    Adequate t f ↔ Adequate s f := by
  obtain ⟨h1, h2, h3, h4⟩ := h
  unfold Adequate
  rw [h1, h2, h3, h4]

namespace KS

/-- Symmetry option and solver occupations are unchanged. -/
structure Keeps (a b : KS G r c p) : Prop where
  sym : b.sym = a.sym
  solver : ∀ w, (a.solver w).Alike (b.solver w)

theorem Keeps.refl (a : KS G r c p) : Keeps a a := ⟨rfl, fun _ => ⟨rfl, rfl, rfl, rfl⟩⟩

theorem Keeps.trans {a b d : KS G r c p} (h : Keeps a b) (h' : Keeps b d) : Keeps a d :=
  ⟨h'.sym.trans h.sym, fun w => by
    obtain ⟨h1, h2, h3, h4⟩ := h.solver w
    obtain ⟨k1, k2, k3, k4⟩ := h'.solver w
    exact ⟨k1.trans h1, k2.trans h2, k3.trans h3, k4.trans h4⟩⟩

theorem mapSolvers_inv (P : Fin r × Fin c → Solver G → Prop) (l : List (Fin r × Fin c))
    (f : Fin r × Fin c → Solver G → Py (Solver G))
    (hf : ∀ w x x', f w x = .ok x' → P w x → P w x') (s s' : Fin r × Fin c → Solver G)
    (h : mapSolvers l f s = .ok s') (hs : ∀ w, P w (s w)) : ∀ w, P w (s' w) := by
  unfold mapSolvers at h
  induction l generalizing s with
  | nil =>
    simp only [List.foldlM_nil, pure, Except.pure, Except.ok.injEq] at h
    subst h; exact hs
  | cons a l ih =>
    rw [List.foldlM_cons, Py.do_eq_ok] at h
    obtain ⟨t, ht, h⟩ := h
    rw [Py.do_eq_ok] at ht
    obtain ⟨x, hx, ht⟩ := ht
    rw [Py.pure_eq_ok] at ht
    subst ht
    refine ih _ h fun w => ?_
    by_cases hw : w = a
    · subst hw; rw [Function.update_self]; exact hf _ _ _ hx (hs _)
    · rw [Function.update_of_ne hw]; exact hs w

theorem distribute_alike {veff : G.Cols p} {s s' : Fin r × Fin c → Solver G}
    (h : distribute veff s = .ok s') (w : Fin r × Fin c) : (s w).Alike (s' w) := by
  refine mapSolvers_inv (fun w x => (s w).Alike x) _ _ ?_ s s' h (fun w => ⟨rfl, rfl, rfl, rfl⟩) w
  intro w x x' hx hP
  rw [Py.do_eq_ok] at hx
  obtain ⟨v, -, hx⟩ := hx
  rw [Py.pure_eq_ok] at hx
  subst hx
  exact hP

theorem setEffectivePotential_keeps {a b : KS G r c p} (h : a.setEffectivePotential = .ok b) :
    Keeps a b ∧ b.n = a.n := by
  unfold setEffectivePotential at h
  simp only [Py.do_eq_ok, Py.pure_eq_ok] at h
  obtain ⟨_, _, _, _, s, hs, rfl⟩ := h
  exact ⟨⟨rfl, distribute_alike hs⟩, rfl⟩

theorem calcHxc_keeps {F : Functionals G p} {a b : KS G r c p} (h : a.calcHxc F = .ok b) :
    Keeps a b ∧ b.n = a.n := by
  unfold calcHxc at h
  rw [Py.do_eq_ok] at h
  obtain ⟨m, hm, h⟩ := h
  have h1 : Keeps a m ∧ m.n = a.n := by
    unfold rawHxc at hm
    cases hk : a.kind with
    | ni =>
      rw [hk] at hm
      simp only [Py.pure_eq_ok] at hm
      subst hm; exact ⟨⟨rfl, fun _ => ⟨rfl, rfl, rfl, rfl⟩⟩, rfl⟩
    | dft =>
      rw [hk] at hm
      simp only [Py.do_eq_ok, Py.pure_eq_ok] at hm
      obtain ⟨_, _, ⟨_, _, _⟩, _, ⟨_, _, _⟩, _, _, _, rfl⟩ := hm
      exact ⟨⟨rfl, fun _ => ⟨rfl, rfl, rfl, rfl⟩⟩, rfl⟩
  simp only [Py.do_eq_ok, Py.pure_eq_ok] at h
  obtain ⟨_, _, rfl⟩ := h
  refine ⟨h1.1.trans ?_, ?_⟩
  · split
    · exact ⟨rfl, fun _ => ⟨rfl, rfl, rfl, rfl⟩⟩
    · exact Keeps.refl _
  · split <;> exact h1.2

theorem energy_keeps {F : Functionals G p} {a b : KS G r c p} (h : a.energy F = .ok b) :
    Keeps a b ∧ b.n = a.n := by
  unfold energy at h
  rw [Py.do_eq_ok] at h
  obtain ⟨⟨_, _, _, _⟩, -, h⟩ := h
  cases hk : a.kind with
  | ni =>
    rw [hk] at h
    simp only [Py.do_eq_ok, Py.pure_eq_ok] at h
    obtain ⟨_, _, _, _, rfl⟩ := h
    exact ⟨⟨rfl, fun _ => ⟨rfl, rfl, rfl, rfl⟩⟩, rfl⟩
  | dft =>
    rw [hk] at h
    simp only [Py.do_eq_ok, Py.pure_eq_ok] at h
    obtain ⟨_, _, _, _, _, _, _, _, _, _, ⟨_, _, _⟩, _, ⟨_, _, _⟩, _, rfl⟩ := h
    exact ⟨⟨rfl, fun _ => ⟨rfl, rfl, rfl, rfl⟩⟩, rfl⟩

theorem calcChempot_keeps {a b : KS G r c p} (h : a.calcChempot = .ok b) : Keeps a b ∧ b.n = a.n := by
  unfold calcChempot at h
  simp only [Py.do_eq_ok, Py.pure_eq_ok] at h
  obtain ⟨_, _, _, _, rfl⟩ := h
  exact ⟨⟨rfl, fun _ => ⟨rfl, rfl, rfl, rfl⟩⟩, rfl⟩

/-- Electrons of column `j`. -/
def _root_.Verif.Spec.columnElectrons (ks : KS G r c p) (j : Fin p) : K :=
  if h : j.1 < c then ∑ i, electrons (ks.solver (i, ⟨j.1, h⟩)) else 0

/-- A density with the electron numbers of the solvers, nowhere negative. -/
structure _root_.Verif.Spec.GoodDensity (ks : KS G r c p) (n : G.Cols p) : Prop where
  count : ∀ j, G.integ (n j) = columnElectrons ks j
  nonneg : ∀ j k, 0 ≤ n j k

theorem Keeps.good {a b : KS G r c p} (h : Keeps a b) {n : G.Cols p} :
    GoodDensity b n ↔ GoodDensity a n := by
  have : ∀ j, columnElectrons b j = columnElectrons a j := by
    intro j
    unfold columnElectrons
    split
    · exact Finset.sum_congr rfl fun i _ => (h.solver _).electrons
    · rfl
  constructor
  · rintro ⟨h1, h2⟩; exact ⟨fun j => (h1 j).trans (this j), h2⟩
  · rintro ⟨h1, h2⟩; exact ⟨fun j => (h1 j).trans (this j).symm, h2⟩

/-- What a successful `calc_density` returns. -/
theorem calcDensity_good {ks ks' : KS G r c p} {nout : G.Cols p}
    {d : Fin r × Fin c → Option (Found G)} (h : ks.calcDensity d = .ok (ks', nout)) (hc : c ≤ p)
    (hG : ks.sym = true → MirrorInvariant G)
    (hpol : ∀ w, (ks.solver w).pol = 1 ∨ (ks.solver w).pol = 2) (hN : ∀ w, 0 ≤ (ks.solver w).N)
    (hd : ∀ w f, d w = some f → Adequate (ks.solver w) f) :
    Keeps ks ks' ∧ ks'.n = ks.n ∧ GoodDensity ks nout := by
  by_cases hex : ∃ w, d w = none
  · unfold calcDensity at h
    rw [collect_error d ks.solver hex] at h
    cases h
  · push Not at hex
    choose f hf using fun w => Option.ne_none_iff_exists'.mp (hex w)
    obtain ⟨n, h1, h2, h3, -⟩ := C30_density ks hc hpol hN d f hf fun w => hd w (f w) (hf w)
    rw [h1] at h
    injection h with h
    injection h with ha hb
    subst ha; subst hb
    exact ⟨⟨rfl, fun _ => ⟨rfl, rfl, rfl, rfl⟩⟩, rfl, ⟨h2 hG, h3⟩⟩

end KS

namespace KsScf

theorem mix_good {ks : KS G r c p} {n m : G.Cols p} (hn : GoodDensity ks n) (hm : GoodDensity ks m)
    {alpha : K} (h0 : 0 ≤ alpha) (h1 : alpha ≤ 1) : GoodDensity ks (mix alpha n m) := by
  constructor
  · intro j
    have : mix alpha n m j = fun k => (1 - alpha) * n j k + alpha * m j k := rfl
    rw [this, G.integ_add (f := fun k => (1 - alpha) * n j k), G.integ_smul, G.integ_smul, hn.count,
      hm.count]
    ring
  · intro j k
    have a := hn.nonneg j k
    have b := hm.nonneg j k
    have c := sub_nonneg.mpr h1
    simp only [mix]
    positivity

theorem loop_inv {S : Type} (step : S → Py (S × Fl K × Fl K)) (P : S → Prop)
    (hstep : ∀ s s' dE dn, P s → step s = .ok (s', dE, dn) → P s') (auto : Bool) (etol : K) :
    ∀ (left : ℕ) (diff : Fl K) (s s' : S) (log), P s → loop step auto etol left diff s = .ok (s', log) →
      P s' := by
  intro left
  induction left with
  | zero =>
    intro diff s s' log hP h
    unfold loop at h
    split at h
    · simp only [Except.ok.injEq, Prod.mk.injEq] at h; exact h.1 ▸ hP
    · split at h
      · cases h
      · simp only [Except.ok.injEq, Prod.mk.injEq] at h; exact h.1 ▸ hP
  | succ left ih =>
    intro diff s s' log hP h
    unfold loop at h
    split at h
    · simp only [Py.do_eq_ok] at h
      obtain ⟨⟨t, dE, dn⟩, ht, h⟩ := h
      split at h
      · cases h
      · simp only [Py.do_eq_ok, Py.pure_eq_ok] at h
        obtain ⟨⟨t', log'⟩, ht', h⟩ := h
        simp only [Prod.mk.injEq] at h
        obtain ⟨rfl, -⟩ := h
        exact ih _ _ _ _ (hstep _ _ _ _ hP ht) ht'
    · split at h
      · cases h
      · simp only [Except.ok.injEq, Prod.mk.injEq] at h; exact h.1 ▸ hP

end KsScf
end Verif
