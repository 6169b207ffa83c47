import Verif.Lemmas.KsScf

namespace Verif
open Spec KS
variable {K : Type} [Field K] [LinearOrder K] [IsStrictOrderedRing K] [FloorRing K]
variable {G : Grid K} {r c p : ℕ}

theorem foldlM_all {W α : Type} (f : α → W → Py α) (Q : W → Prop) (hf : ∀ a w a', f a w = .ok a' → Q w) :
    ∀ (l : List W) (a a' : α), l.foldlM f a = .ok a' → ∀ w ∈ l, Q w := by
  intro l
  induction l with
  | nil => intro a a' _ w hw; cases hw
  | cons x l ih =>
    intro a a' h w hw
    rw [List.foldlM_cons, Py.do_eq_ok] at h
    obtain ⟨b, hb, h⟩ := h
    rcases List.mem_cons.mp hw with rfl | hw
    · exact hf _ _ _ hb
    · exact ih _ _ h w hw

/-- `calc_energy` yields numbers. -/
theorem Solver.calcEnergy_fin {s : Solver G} {e : Energy K} {n : G.Fld} (h : s.calcEnergy = .ok (e, n)) :
    ∃ (a b : K) (v : G.Fld), s.veff = some v ∧ s.calcEks = .ok a ∧ s.calcDensity = .ok n ∧
      e = ⟨.fin a, .fin b, .fin (a - G.integ fun k => v k * n k)⟩ ∧
      (|G.integ fun k => v k * n k| ≤ 10 ^ 5 → b = G.integ fun k => v k * n k) := by
  unfold calcEnergy at h
  simp only [Py.do_eq_ok] at h
  obtain ⟨a, ha, m, hm, h⟩ := h
  cases hv : s.veff with
  | none => rw [hv] at h; cases h
  | some v =>
    rw [hv] at h
    simp only [Py.pure_eq_ok, Prod.mk.injEq] at h
    obtain ⟨rfl, rfl⟩ := h
    by_cases hx : |G.integ fun k => v k * m k| ≤ 10 ^ 5
    · exact ⟨a, _, v, rfl, ha, hm, by simp [energyGuard, not_lt.mpr hx, sub_eq_add_neg, Fl.isnan, Fl.isinf], fun _ => rfl⟩
    · exact ⟨a, 0, v, rfl, ha, hm, by simp [energyGuard, not_le.mp hx, sub_eq_add_neg, Fl.isnan, Fl.isinf],
      fun h => absurd h hx⟩

namespace KS

/-- Solver energies are available. -/
def _root_.Verif.Spec.HasEnergy (s : Solver G) : Prop :=
  (∃ x, s.calcEnergy = .ok x) ∧ ∃ l, s.eig = some l

theorem solverEnergies_has {s : Fin r × Fin c → Solver G} {x} (h : solverEnergies p s = .ok x)
    (w : Fin r × Fin c) : HasEnergy (s w) := by
  refine foldlM_all _ (fun w => HasEnergy (s w)) ?_ _ _ _ h w (mem_rowMajor w)
  intro a w a' h
  simp only [Py.do_eq_ok] at h
  obtain ⟨x, hx, l, hl, -⟩ := h
  refine ⟨⟨x, hx⟩, ?_⟩
  revert hl
  cases (s w).eig with
  | none => intro h; cases h
  | some l => intro _; exact ⟨l, rfl⟩

theorem solverEnergies_fold (hc : c ≤ p) (s : Fin r × Fin c → Solver G) (a b t : Fin r × Fin c → K)
    (n : Fin r × Fin c → G.Fld) (e : Fin r × Fin c → List K)
    (he : ∀ w, (s w).calcEnergy = .ok (⟨.fin (a w), .fin (b w), .fin (t w)⟩, n w))
    (hl : ∀ w, (s w).eig = some (e w)) (l : List (Fin r × Fin c)) (A B : Fin p → K) (T : K) (L : List K) :
    l.foldlM (fun (acc : (Fin p → Fl K) × Fl K × (Fin p → Fl K) × List K) w => do
      let (e, _) ← (s w).calcEnergy
      let eig ← need (s w).eig
      if h : w.2.1 < p then
        let j : Fin p := ⟨w.2.1, h⟩
        pure (Function.update acc.1 j (Fl.add (acc.1 j) e.eks), Fl.add acc.2.1 e.Ts,
          Function.update acc.2.2.1 j (Fl.add (acc.2.2.1 j) e.Vs), acc.2.2.2 ++ eig)
      else .error .indexError) (fun j => .fin (A j), .fin T, fun j => .fin (B j), L) =
    .ok (fun j => .fin (A j + (l.map fun w => if w.2.1 = j.1 then a w else 0).sum),
      .fin (T + (l.map t).sum),
      fun j => .fin (B j + (l.map fun w => if w.2.1 = j.1 then b w else 0).sum),
      L ++ l.flatMap e) := by
  induction l generalizing A B T L with
  | nil => simp [pure, Except.pure]
  | cons w l ih =>
    have hw : w.2.1 < p := by omega
    have hup : ∀ (X : Fin p → K) (x : K), Function.update (fun j => Fl.fin (X j)) ⟨w.2.1, hw⟩
        (Fl.add (.fin (X ⟨w.2.1, hw⟩)) (.fin x)) =
        fun j => .fin (X j + if w.2.1 = j.1 then x else 0) := by
      intro X x
      funext j
      by_cases hj : j = ⟨w.2.1, hw⟩
      · subst hj; simp
      · have : ¬ w.2.1 = j.1 := fun h => hj (Fin.ext h.symm)
        rw [Function.update_of_ne hj, if_neg this, add_zero]
    rw [List.foldlM_cons, he, hl]
    simp only [bind, Except.bind, need, dif_pos hw, pure, Except.pure]
    rw [hup, hup]
    refine (ih _ _ _ _).trans ?_
    simp only [List.map_cons, List.sum_cons, List.flatMap_cons, add_assoc, List.append_assoc]

/-- Sum over the first index of column `j`. -/
theorem sum_col (f : Fin r × Fin c → K) (j : ℕ) :
    ((rowMajor r c).map fun w => if w.2.1 = j then f w else 0).sum =
      if h : j < c then ∑ i, f (i, ⟨j, h⟩) else 0 := by
  rw [sum_map_univ _ nodup_rowMajor mem_rowMajor, Fintype.sum_prod_type]
  by_cases h : j < c
  · rw [dif_pos h]
    refine Finset.sum_congr rfl fun i _ => ?_
    rw [Finset.sum_eq_single ⟨j, h⟩]
    · simp
    · intro b _ hb
      exact if_neg fun h' => hb (Fin.ext h')
    · simp
  · rw [dif_neg h]
    refine Finset.sum_eq_zero fun i _ => Finset.sum_eq_zero fun b _ => if_neg (by omega)

theorem solverEnergies_eq (hc : c ≤ p) (s : Fin r × Fin c → Solver G) (a b t : Fin r × Fin c → K)
    (n : Fin r × Fin c → G.Fld) (e : Fin r × Fin c → List K)
    (he : ∀ w, (s w).calcEnergy = .ok (⟨.fin (a w), .fin (b w), .fin (t w)⟩, n w))
    (hl : ∀ w, (s w).eig = some (e w)) :
    solverEnergies p s = .ok (fun j => .fin (if h : j.1 < c then ∑ i, a (i, ⟨j.1, h⟩) else 0),
      .fin (∑ w, t w), fun j => .fin (if h : j.1 < c then ∑ i, b (i, ⟨j.1, h⟩) else 0),
      (rowMajor r c).flatMap e) := by
  refine (solverEnergies_fold hc s a b t n e he hl (rowMajor r c) (fun _ => 0) (fun _ => 0) 0 []).trans ?_
  simp only [zero_add, List.nil_append, sum_col, sum_map_univ _ nodup_rowMajor mem_rowMajor t]

/-- The functionals return values. -/
def _root_.Verif.Spec.TotalFunctionals (F : Functionals G p) : Prop :=
  ∀ n, (∃ x, F.exchange n = .ok x) ∧ (∃ x, F.correlation n = .ok x) ∧ ∃ x, F.hartree n = .ok x

theorem energy_ok (F : Functionals G p) (ks : KS G r c p) (hc : c ≤ p) (hs : ∀ w, HasEnergy (ks.solver w))
    (hn : ∃ n, ks.n = some n) (hv : ∃ v, ks.vext = some v)
    (hF : ks.kind = .dft → TotalFunctionals F ∧ 0 < p ∧ ∃ v, ks.vhxc = some v) :
    ∃ ks' E, ks.energy F = .ok ks' ∧ ks'.E = some E ∧ ks'.solver = ks.solver ∧ ks'.n = ks.n ∧
      ks'.vext = ks.vext ∧ ks'.kind = ks.kind := by
  choose x hx l hl using fun w => (⟨(hs w).1.choose, (hs w).1.choose_spec, (hs w).2⟩ :
    ∃ x, (ks.solver w).calcEnergy = .ok x ∧ ∃ l, (ks.solver w).eig = some l)
  choose a b v hv' hek hden he hb using fun w =>
    Solver.calcEnergy_fin (s := ks.solver w) (e := (x w).1) (n := (x w).2) (hx w)
  have hx' : ∀ w, (ks.solver w).calcEnergy = .ok (⟨.fin (a w), .fin (b w),
      .fin (a w - G.integ fun k => v w k * (x w).2 k)⟩, (x w).2) := by
    intro w
    rw [hx w, ← he w]
  obtain ⟨n, hn⟩ := hn
  obtain ⟨ve, hve⟩ := hv
  unfold energy
  rw [solverEnergies_eq hc ks.solver a b _ _ l hx' hl]
  cases hk : ks.kind with
  | ni =>
    simp only [bind, Except.bind, hn, hve, need, pure, Except.pure]
    exact ⟨_, _, rfl, rfl, rfl, by simp, by simp, by simp⟩
  | dft =>
    obtain ⟨hF, hp, vh, hvh⟩ := hF hk
    obtain ⟨⟨x1, h1⟩, ⟨x2, h2⟩, ⟨x3, h3⟩⟩ := hF n
    simp only [bind, Except.bind, hn, hve, hvh, need, pure, Except.pure, h1, h2, h3, col, dif_pos hp]
    exact ⟨_, _, rfl, rfl, rfl, by simp, by simp, by simp⟩

theorem pyMax_spec (x : K) (l : List K) : ∃ m, pyMax (x :: l) = .ok m ∧ m ∈ x :: l ∧
    ∀ y ∈ x :: l, y ≤ m := by
  refine ⟨_, rfl, ?_⟩
  induction l generalizing x with
  | nil => simp
  | cons y l ih =>
    rw [List.foldl_cons]
    by_cases h : x < y
    · rw [if_pos h]
      obtain ⟨h1, h2⟩ := ih y
      refine ⟨List.mem_cons_of_mem _ h1, fun z hz => ?_⟩
      rcases List.mem_cons.mp hz with rfl | hz
      · exact h.le.trans (h2 y List.mem_cons_self)
      · exact h2 z hz
    · rw [if_neg h]
      obtain ⟨h1, h2⟩ := ih x
      constructor
      · rcases List.mem_cons.mp h1 with h1 | h1
        · rw [h1]; exact List.mem_cons_self
        · exact List.mem_cons_of_mem _ (List.mem_cons_of_mem _ h1)
      · intro z hz
        rcases List.mem_cons.mp hz with rfl | hz
        · exact h2 _ List.mem_cons_self
        · rcases List.mem_cons.mp hz with rfl | hz
          · exact (not_lt.mp h).trans (h2 _ List.mem_cons_self)
          · exact h2 z (List.mem_cons_of_mem _ hz)

theorem mapM_ok {α β : Type} (f : α → Py β) (g : α → β) (l : List α) (h : ∀ a ∈ l, f a = .ok (g a)) :
    l.mapM f = .ok (l.map g) := by
  induction l with
  | nil => rfl
  | cons a l ih =>
    rw [List.mapM_cons, h a List.mem_cons_self]
    simp only [bind, Except.bind]
    rw [ih fun x hx => h x (List.mem_cons_of_mem _ hx)]
    rfl

theorem mapM_all {α β : Type} (f : α → Py β) (l : List α) (x) (h : l.mapM f = .ok x) :
    ∀ a ∈ l, ∃ y, f a = .ok y := by
  induction l generalizing x with
  | nil => intro a ha; cases ha
  | cons b l ih =>
    intro a ha
    rw [List.mapM_cons, Py.do_eq_ok] at h
    obtain ⟨y, hy, h⟩ := h
    rw [Py.do_eq_ok] at h
    obtain ⟨z, hz, -⟩ := h
    rcases List.mem_cons.mp ha with rfl | ha
    · exact ⟨y, hy⟩
    · exact ih z hz a ha

end KS
end Verif
