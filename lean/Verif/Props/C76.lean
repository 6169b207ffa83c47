import Verif.Model.TwoOrbital
import Verif.Lemmas.Grid
import Verif.Lemmas.PartitionPotential
import Verif.Lemmas.SampleReal

/-! # C76: orbitals and energy of the two-orbital functional -/

namespace Verif
open _root_.Verif.Part
variable {K : Type} [Field K] [LinearOrder K] [IsStrictOrderedRing K] [FloorRing K]
variable {G : Grid K} {r c p : ℕ}

/-- `s` is the square root on non-negative numbers. -/
def Spec.IsRoot (s : K → K) : Prop := ∀ x, 0 ≤ x → 0 ≤ s x ∧ s x * s x = x

omit [LinearOrder K] [IsStrictOrderedRing K] [FloorRing K] in
theorem Grid.integ_sub' (f g : G.Fld) : G.integ (fun k => f k - g k) = G.integ f - G.integ g := by
  simp only [Grid.integ, mul_sub, Finset.sum_sub_distrib]

omit [IsStrictOrderedRing K] [FloorRing K] in
theorem root_ok {T : Env G r c p} {f s : G.Cols p} (h : root T f = .ok s) :
    (∀ j k, 0 ≤ f j k) ∧ s = fun j k => T.sqrt (f j k) := by
  unfold root at h
  split at h
  · exact ⟨by assumption, (Except.ok.inj h).symm⟩
  · exact nomatch h

omit [IsStrictOrderedRing K] [FloorRing K] in
theorem rootNum_ok {T : Env G r c p} {x s : K} (h : rootNum T x = .ok s) : 0 ≤ x ∧ s = T.sqrt x := by
  unfold rootNum at h
  split at h
  · exact ⟨by assumption, (Except.ok.inj h).symm⟩
  · exact nomatch h

omit [IsStrictOrderedRing K] [FloorRing K] in
theorem quot_ok {f g q : G.Cols p} (h : quot f g = .ok q) : (∀ j k, g j k ≠ 0) ∧ q = fun j k => f j k / g j k := by
  unfold quot at h
  split at h
  · exact ⟨by assumption, (Except.ok.inj h).symm⟩
  · exact nomatch h

omit [IsStrictOrderedRing K] [FloorRing K] in
/-- What `twoOrbitals` returns. -/
theorem twoOrbitals_ok {T : Env G r c p} {n1 n2 phi1 phi2 : G.Cols p} (h : twoOrbitals T n1 n2 = .ok (phi1, phi2)) :
    ∃ C h : K, C = G.integ (tot fun j k => (T.sqrt (n1 j k) - T.sqrt (n2 j k)) ^ 2) ∧
      h = T.sqrt (G.integ (tot fun j k => n1 j k + n2 j k) / 2) ∧
      0 ≤ G.integ (tot fun j k => n1 j k + n2 j k) / 2 ∧ 0 ≤ C ∧ (∀ (_ : Fin p) (_ : G.Ix), T.sqrt C ≠ 0) ∧
      phi1 = (fun j k => h * (T.sqrt (n1 j k) - T.sqrt (n2 j k)) / T.sqrt C) ∧
      (∀ j k, 0 ≤ n1 j k ∧ 0 ≤ n2 j k ∧ 0 ≤ n1 j k + n2 j k - phi1 j k ^ 2) ∧
      phi2 = fun j k => T.sqrt (n1 j k + n2 j k - phi1 j k ^ 2) := by
  unfold twoOrbitals twoC at h
  simp only [Py.do_eq_ok, Py.pure_eq_ok, Prod.mk.injEq] at h
  obtain ⟨⟨C, s1, s2⟩, ⟨_, h1, _, h2, h3⟩, hh, h4, rC, h5, q, h6, w, h7, rfl, rfl⟩ := h
  obtain ⟨p1, rfl⟩ := root_ok h1
  obtain ⟨p2, rfl⟩ := root_ok h2
  simp only [Prod.mk.injEq] at h3
  obtain ⟨rfl, rfl, rfl⟩ := h3
  obtain ⟨p4, rfl⟩ := rootNum_ok h4
  obtain ⟨p5, rfl⟩ := rootNum_ok h5
  obtain ⟨p6, rfl⟩ := quot_ok h6
  obtain ⟨p7, rfl⟩ := root_ok h7
  exact ⟨_, _, rfl, rfl, p4, p5, p6, rfl, fun j k => ⟨p1 j k, p2 j k, p7 j k⟩, rfl⟩

/-- C76: the two orbitals of the energy add up to the promolecular density and each holds half of the electrons;
the first one is a multiple of the difference of the fragments' roots, the second one is non-negative. -/
theorem C76_orbitals (T : Env G r c p) (hs : Spec.IsRoot T.sqrt) (n1 n2 phi1 phi2 : G.Cols p)
    (h : twoOrbitals T n1 n2 = .ok (phi1, phi2)) :
    (∀ j k, phi1 j k ^ 2 + phi2 j k ^ 2 = n1 j k + n2 j k) ∧
    G.integ (fun k => ∑ j, phi1 j k ^ 2) = G.integ (fun k => ∑ j, (n1 j k + n2 j k)) / 2 ∧
    G.integ (fun k => ∑ j, phi2 j k ^ 2) = G.integ (fun k => ∑ j, (n1 j k + n2 j k)) / 2 ∧
    (∃ a, 0 ≤ a ∧ ∀ j k, phi1 j k = a * (T.sqrt (n1 j k) - T.sqrt (n2 j k))) ∧ ∀ j k, 0 ≤ phi2 j k := by
  obtain ⟨C, h, hC, hh, h4, h5, h6, h7, h8, h9⟩ := twoOrbitals_ok h
  have e2 : ∀ j k, phi2 j k ^ 2 = n1 j k + n2 j k - phi1 j k ^ 2 := by
    intro j k
    have e : phi2 j k = T.sqrt (n1 j k + n2 j k - phi1 j k ^ 2) := by rw [h9]
    rw [e, sq]
    exact (hs _ (h8 j k).2.2).2
  have e1 : G.integ (fun k => ∑ j, phi1 j k ^ 2) = G.integ (fun k => ∑ j, (n1 j k + n2 j k)) / 2 := by
    have q1 : T.sqrt C * T.sqrt C = C := (hs C h5).2
    have q2 : h * h = G.integ (tot fun j k => n1 j k + n2 j k) / 2 := by rw [hh]; exact (hs _ h4).2
    by_cases hne : T.sqrt C = 0
    · have : (∀ (f : Fin p → G.Ix → K), G.integ (fun k => ∑ j, f j k) = 0) := by
        intro f
        have : (fun k => ∑ j, f j k) = fun _ => 0 := by
          funext k
          exact Finset.sum_eq_zero fun j _ => absurd hne (h6 j k)
        rw [this]; simp [Grid.integ]
      rw [this, this, zero_div]
    · have : (fun k => ∑ j, phi1 j k ^ 2) = fun k => h * h / C * tot (fun j k => (T.sqrt (n1 j k) - T.sqrt (n2 j k)) ^ 2) k := by
        funext k
        simp only [tot, Finset.mul_sum]
        refine Finset.sum_congr rfl fun j _ => ?_
        rw [h7]
        simp only
        rw [div_pow, mul_pow, sq (T.sqrt C), q1, sq h]
        ring
      have hC0 : C ≠ 0 := by rw [← q1]; exact mul_ne_zero hne hne
      rw [this, G.integ_smul, ← hC, q2, div_mul_cancel₀ _ hC0]
      rfl
  refine ⟨fun j k => by rw [e2]; ring, e1, ?_, ?_, fun j k => ?_⟩
  · have : (fun k => ∑ j, phi2 j k ^ 2) = fun k => (∑ j, (n1 j k + n2 j k)) - ∑ j, phi1 j k ^ 2 := by
      funext k
      rw [← Finset.sum_sub_distrib]
      exact Finset.sum_congr rfl fun j _ => e2 j k
    rw [this, G.integ_sub', e1]
    ring
  · refine ⟨h / T.sqrt C, div_nonneg (hh ▸ (hs _ h4).1) (hs _ h5).1, fun j k => ?_⟩
    rw [h7]; ring
  · rw [h9]; exact (hs _ (h8 j k).2.2).1

/-- Kinetic energy of one (real) orbital, `⟨phi | -1/2 lap | phi⟩`; `elap` is the volume element times the
Laplacian. -/
def Spec.orbitalT (G : Grid K) (elap : Matrix G.Ix G.Ix K) (phi : G.Fld) : K :=
  2 * G.pi * G.hr * G.ha * ∑ k, G.wi k * phi k * (-1 / 2 * ∑ l, elap k l * phi l)

omit [IsStrictOrderedRing K] [FloorRing K] in
theorem twoT_ok {T : Env G r c 1} {phi : G.Cols 1} {t : K} (h : twoT T phi = .ok t) :
    t = Spec.orbitalT G T.elap (phi 0) := by
  unfold twoT KS.col at h
  simp only [Py.do_eq_ok, Py.pure_eq_ok] at h
  obtain ⟨f, h1, f0, h2, rfl⟩ := h
  obtain ⟨h3, rfl⟩ := quot_ok h1
  rw [dif_pos one_pos] at h2
  obtain rfl := Except.ok.inj h2
  unfold Grid.integ Spec.orbitalT
  congr 1
  refine Finset.sum_congr rfl fun k _ => ?_
  have : G.w k ≠ 0 := h3 0 k
  simp only [eT, wCols, Fin.zero_eta]
  field_simp

omit [IsStrictOrderedRing K] [FloorRing K] in
theorem twoT_neg (T : Env G r c p) (phi : G.Cols p) : twoT T (fun j k => - phi j k) = twoT T phi := by
  unfold twoT
  have : (fun j k => - phi j k * eT T (fun j k => - phi j k) j k) = fun j k => phi j k * eT T phi j k := by
    funext j k
    simp only [eT, mul_neg, Finset.sum_neg_distrib, neg_mul, neg_neg]
  rw [this]

omit [IsStrictOrderedRing K] [FloorRing K] in
/-- C76: the energy is the sum of the kinetic energies of the two orbitals, and exchanging the fragments
changes nothing. -/
theorem C76_energy (T : Env G r c 1) (n1 n2 : G.Cols 1) :
    (∀ t, twoTsm T n1 n2 = .ok t → ∃ phi1 phi2, twoOrbitals T n1 n2 = .ok (phi1, phi2) ∧
      t = Spec.orbitalT G T.elap (phi1 0) + Spec.orbitalT G T.elap (phi2 0)) ∧
    ∀ t, twoTsm T n1 n2 = .ok t → twoTsm T n2 n1 = .ok t := by
  constructor
  · intro t h
    unfold twoTsm at h
    simp only [Py.do_eq_ok, Py.pure_eq_ok] at h
    obtain ⟨⟨phi1, phi2⟩, h1, t1, h2, t2, h3, rfl⟩ := h
    exact ⟨phi1, phi2, h1, by rw [twoT_ok h2, twoT_ok h3]⟩
  · intro t h
    have sw : ∀ phi1 phi2, twoOrbitals T n1 n2 = .ok (phi1, phi2) →
        twoOrbitals T n2 n1 = .ok (fun j k => - phi1 j k, phi2) := by
      intro phi1 phi2 h
      obtain ⟨C, h, hC, hh, h4, h5, h6, h7, h8, h9⟩ := twoOrbitals_ok h
      have c1 : (tot fun j k => (T.sqrt (n2 j k) - T.sqrt (n1 j k)) ^ 2 : G.Fld) =
          tot fun j k => (T.sqrt (n1 j k) - T.sqrt (n2 j k)) ^ 2 := by
        funext k; unfold tot; exact Finset.sum_congr rfl fun j _ => by ring
      have c2 : (tot fun j k => n2 j k + n1 j k : G.Fld) = tot fun j k => n1 j k + n2 j k := by
        funext k; unfold tot; exact Finset.sum_congr rfl fun j _ => by ring
      have c3 : ∀ j k, phi1 j k = h * (T.sqrt (n1 j k) - T.sqrt (n2 j k)) / T.sqrt C := by rw [h7]; intros; rfl
      have c4 : (fun j k => h * (T.sqrt (n2 j k) - T.sqrt (n1 j k)) / T.sqrt C : G.Cols 1) = fun j k => - phi1 j k := by
        funext j k; rw [c3]; ring
      unfold twoOrbitals twoC root rootNum quot
      simp only [if_pos fun j k => (h8 j k).1, if_pos fun j k => (h8 j k).2.1, bind, Except.bind, c1, c2, ← hC, ← hh,
        if_pos h4, if_pos h5, if_pos h6, pure, Except.pure, c4]
      rw [if_pos fun j k => by rw [neg_sq, add_comm]; exact (h8 j k).2.2]
      simp only
      congr 2
      rw [h9]
      funext j k
      rw [neg_sq, add_comm (n2 j k)]
    unfold twoTsm at h ⊢
    simp only [Py.do_eq_ok, Py.pure_eq_ok] at h ⊢
    obtain ⟨⟨phi1, phi2⟩, h1, t1, h2, t2, h3, rfl⟩ := h
    exact ⟨_, sw _ _ h1, t1, by rw [twoT_neg]; exact h2, t2, h3, rfl⟩

/-- C76: when the orbitals exist. With `N` electrons and the overlap `S = ∫ √(n1 n2)` the condition is `2 S < N` and
`N/2 (√n1 - √n2)² ≤ (N - 2 S) (n1 + n2)` at every point. -/
theorem C76_exists (T : Env G r c p) (hs : Spec.IsRoot T.sqrt) (n1 n2 : G.Cols p)
    (hn : ∀ j k, 0 ≤ n1 j k ∧ 0 ≤ n2 j k) (hN : 0 < G.integ fun k => ∑ j, (n1 j k + n2 j k)) (hne : Nonempty (Fin p × G.Ix)) :
    (∃ phi1 phi2, twoOrbitals T n1 n2 = .ok (phi1, phi2)) ↔
      0 < G.integ (fun k => ∑ j, (n1 j k + n2 j k)) - 2 * G.integ (fun k => ∑ j, T.sqrt (n1 j k) * T.sqrt (n2 j k)) ∧
      ∀ j k, G.integ (fun k => ∑ j, (n1 j k + n2 j k)) / 2 * (T.sqrt (n1 j k) - T.sqrt (n2 j k)) ^ 2 ≤
        (G.integ (fun k => ∑ j, (n1 j k + n2 j k)) - 2 * G.integ (fun k => ∑ j, T.sqrt (n1 j k) * T.sqrt (n2 j k))) *
          (n1 j k + n2 j k) := by
  set N := G.integ fun k => ∑ j, (n1 j k + n2 j k) with hNdef
  set C := G.integ (tot fun j k => (T.sqrt (n1 j k) - T.sqrt (n2 j k)) ^ 2) with hC
  have r1 : ∀ j k, T.sqrt (n1 j k) * T.sqrt (n1 j k) = n1 j k := fun j k => (hs _ (hn j k).1).2
  have r2 : ∀ j k, T.sqrt (n2 j k) * T.sqrt (n2 j k) = n2 j k := fun j k => (hs _ (hn j k).2).2
  have hCN : N - 2 * G.integ (fun k => ∑ j, T.sqrt (n1 j k) * T.sqrt (n2 j k)) = C := by
    rw [hC, hNdef, ← G.integ_smul, ← G.integ_sub']
    congr 1
    funext k
    simp only [tot, Finset.mul_sum, ← Finset.sum_sub_distrib]
    refine Finset.sum_congr rfl fun j _ => ?_
    linear_combination -r1 j k - r2 j k
  have hN2 : (0 : K) ≤ G.integ (tot fun j k => n1 j k + n2 j k) / 2 := by
    have : G.integ (tot fun j k => n1 j k + n2 j k) = N := rfl
    rw [this]; linarith
  have q2 : T.sqrt (G.integ (tot fun j k => n1 j k + n2 j k) / 2) * T.sqrt (G.integ (tot fun j k => n1 j k + n2 j k) / 2) =
    N / 2 := (hs _ hN2).2
  have hphi : 0 < C → ∀ j k, (T.sqrt (G.integ (tot fun j k => n1 j k + n2 j k) / 2) * (T.sqrt (n1 j k) - T.sqrt (n2 j k)) /
      T.sqrt C) ^ 2 = N / 2 * (T.sqrt (n1 j k) - T.sqrt (n2 j k)) ^ 2 / C := by
    intro hC0 j k
    rw [div_pow, mul_pow, sq (T.sqrt C), (hs C hC0.le).2, sq (T.sqrt (_ / 2)), q2]
  rw [hCN]
  constructor
  · rintro ⟨phi1, phi2, h⟩
    obtain ⟨C', h, rfl, rfl, h4, h5, h6, rfl, h8, h9⟩ := twoOrbitals_ok h
    have hC0 : 0 < C := by
      refine lt_of_le_of_ne h5 fun h0 => ?_
      have := (hs 0 le_rfl).2
      rw [h0] at this
      obtain ⟨j, k⟩ := hne
      have h7 := h6 j k
      rw [← hC, ← h0] at h7
      exact h7 (mul_self_eq_zero.mp (hs 0 le_rfl).2)
    refine ⟨hC0, fun j k => ?_⟩
    have := (h8 j k).2.2
    rw [hphi hC0, sub_nonneg, div_le_iff₀ hC0] at this
    linarith
  · rintro ⟨hC0, h5⟩
    have hr : T.sqrt C ≠ 0 := fun h => by
      have := (hs C hC0.le).2
      rw [h, zero_mul] at this
      exact hC0.ne this
    have h6 : ∀ j k, 0 ≤ n1 j k + n2 j k -
        (T.sqrt (G.integ (tot fun j k => n1 j k + n2 j k) / 2) * (T.sqrt (n1 j k) - T.sqrt (n2 j k)) / T.sqrt C) ^ 2 := by
      intro j k
      rw [hphi hC0, sub_nonneg, div_le_iff₀ hC0]
      linarith [h5 j k]
    have : ∃ x, twoOrbitals T n1 n2 = .ok x := by
      unfold twoOrbitals twoC root rootNum quot
      simp only [if_pos fun j k => (hn j k).1, if_pos fun j k => (hn j k).2, bind, Except.bind, pure, Except.pure,
        ← hC, if_pos hC0.le, if_pos hN2]
      rw [if_pos fun _ _ => hr]
      simp only [if_pos h6]
      exact ⟨_, rfl⟩
    obtain ⟨⟨x, y⟩, h⟩ := this
    exact ⟨x, y, h⟩

/-- C76, partial: the orbitals exist whenever the overlap of the fragments is at most a quarter of the number of electrons
(which is positive); if somewhere one fragment is alone they exist only then. Missing: larger overlap, see `C76_refuted`. -/
theorem C76_exists_partial (T : Env G r c p) (hs : Spec.IsRoot T.sqrt) (n1 n2 : G.Cols p)
    (hn : ∀ j k, 0 ≤ n1 j k ∧ 0 ≤ n2 j k) (hN : 0 < G.integ fun k => ∑ j, (n1 j k + n2 j k)) (hne : Nonempty (Fin p × G.Ix)) :
    (G.integ (fun k => ∑ j, T.sqrt (n1 j k) * T.sqrt (n2 j k)) ≤ G.integ (fun k => ∑ j, (n1 j k + n2 j k)) / 4 →
      ∃ phi1 phi2, twoOrbitals T n1 n2 = .ok (phi1, phi2)) ∧
    ∀ j k, (0 < n1 j k ∧ n2 j k = 0 ∨ n1 j k = 0 ∧ 0 < n2 j k) → ∀ phi1 phi2, twoOrbitals T n1 n2 = .ok (phi1, phi2) →
      G.integ (fun k => ∑ j, T.sqrt (n1 j k) * T.sqrt (n2 j k)) ≤ G.integ (fun k => ∑ j, (n1 j k + n2 j k)) / 4 := by
  have hiff := C76_exists T hs n1 n2 hn hN hne
  have r1 : ∀ j k, T.sqrt (n1 j k) * T.sqrt (n1 j k) = n1 j k := fun j k => (hs _ (hn j k).1).2
  have r2 : ∀ j k, T.sqrt (n2 j k) * T.sqrt (n2 j k) = n2 j k := fun j k => (hs _ (hn j k).2).2
  have h0 : T.sqrt 0 = 0 := mul_self_eq_zero.mp (hs 0 le_rfl).2
  constructor
  · intro hS
    refine hiff.mpr ⟨by linarith, fun j k => ?_⟩
    have h7 : (T.sqrt (n1 j k) - T.sqrt (n2 j k)) ^ 2 ≤ n1 j k + n2 j k := by
      have := mul_nonneg (hs _ (hn j k).1).1 (hs _ (hn j k).2).1
      nlinarith [r1 j k, r2 j k]
    exact mul_le_mul (by linarith) h7 (sq_nonneg _) (by linarith)
  · intro j k hjk phi1 phi2 h
    have h1 := (hiff.mp ⟨phi1, phi2, h⟩).2 j k
    rcases hjk with ⟨h2, h3⟩ | ⟨h3, h2⟩
    · rw [h3, h0, sub_zero, sq, r1, add_zero] at h1
      have := le_of_mul_le_mul_right h1 h2
      linarith
    · rw [h3, h0, zero_sub, neg_sq, sq, r2, zero_add] at h1
      have := le_of_mul_le_mul_right h1 h2
      linarith

/-- C76 is false for strongly overlapping fragments.  For equal fragment densities the first orbital is `0/0` at
every point, whatever the densities are. -/
theorem C76_refuted (T : Env G r c p) (hs : Spec.IsRoot T.sqrt) (n : G.Cols p) (hn : ∀ j k, 0 ≤ n j k)
    (hN : 0 ≤ G.integ fun k => ∑ j, n j k) (hne : Nonempty (Fin p × G.Ix)) :
    twoTsm T n n = .error .nonFinite := by
  have h0 : T.sqrt 0 = 0 := mul_self_eq_zero.mp (hs 0 le_rfl).2
  have hC : G.integ (tot fun j k => (T.sqrt (n j k) - T.sqrt (n j k)) ^ 2) = 0 := by
    simp [Grid.integ, tot]
  have hN2 : (0 : K) ≤ G.integ (tot fun j k => n j k + n j k) / 2 := by
    have : G.integ (tot fun j k => n j k + n j k) = 2 * G.integ fun k => ∑ j, n j k := by
      rw [← G.integ_smul]
      congr 1
      funext k
      simp only [tot, Finset.sum_add_distrib]; ring
    rw [this]; linarith
  unfold twoTsm twoOrbitals twoC root rootNum quot
  simp only [if_pos hn, bind, Except.bind, pure, Except.pure, hC, if_pos hN2, le_refl, ↓reduceIte, h0]
  obtain ⟨j, k⟩ := hne
  rw [if_neg fun h => h j k rfl]

theorem Spec.isRoot_sqrt : Spec.IsRoot Real.sqrt := fun x h => ⟨Real.sqrt_nonneg x, Real.mul_self_sqrt h⟩

/-- Fragments on different points: the orbitals exist and their kinetic energy is 1 (for the bonding orbital 0, for
the antibonding one 1). -/
example : twoTsm SampleR.T (SampleR.dens 1 0) (SampleR.dens 0 1) = .ok 1 := by
  have hn : ∀ (j : Fin 1) (k : SampleR.G.Ix), 0 ≤ SampleR.dens 1 0 j k ∧ 0 ≤ SampleR.dens 0 1 j k := by
    intro j k; simp only [SampleR.dens]; split_ifs <;> simp
  obtain ⟨phi1, phi2, h⟩ := (C76_exists_partial SampleR.T Spec.isRoot_sqrt (SampleR.dens 1 0) (SampleR.dens 0 1) hn
    (by rw [Grid.tiny_integ]; simp [SampleR.dens]) ⟨0, 0⟩).1
    (by rw [Grid.tiny_integ, Grid.tiny_integ]; simp [SampleR.dens, SampleR.T]; norm_num)
  have h2 := C76_orbitals SampleR.T Spec.isRoot_sqrt _ _ _ _ h
  obtain ⟨h3, h4, -, ⟨a, ha, h6⟩, h7⟩ := h2
  have p1 := h6 0 0
  have p2 := h6 0 1
  have q1 := h3 0 0
  have q2 := h3 0 1
  rw [Grid.tiny_integ, Grid.tiny_integ] at h4
  simp [SampleR.dens, SampleR.T] at p1 p2 q1 q2 h4
  have e1 : phi1 0 0 ^ 2 = 1 / 2 := by rw [p1, p2] at h4; rw [p1]; nlinarith
  have e2 : phi1 0 1 = - phi1 0 0 := by rw [p1, p2]
  have e3 : phi2 0 0 = phi2 0 1 := by
    have := h7 0 0
    have := h7 0 1
    have : phi2 0 0 ^ 2 = phi2 0 1 ^ 2 := by rw [e2] at q2; linarith [q1, q2, neg_sq (phi1 0 0)]
    nlinarith [sq_eq_sq₀ (h7 0 0) (h7 0 1)]
  have ht : ∀ phi : SampleR.G.Cols 1, twoT SampleR.T phi = .ok (1 / 2 * (phi 0 0 - phi 0 1) ^ 2) := by
    intro phi
    unfold twoT quot KS.col
    have hw : ∀ (j : Fin 1) (k : SampleR.G.Ix), wCols SampleR.G 1 j k ≠ 0 := fun _ _ => one_ne_zero
    rw [if_pos hw]
    simp only [bind, Except.bind, pure, Except.pure, dif_pos one_pos, Grid.tiny_integ, eT, SampleR.T, wCols,
      Grid.tiny_sum]
    congr 1
    simp
    ring
  unfold twoTsm
  rw [h]
  simp only [bind, Except.bind, pure, Except.pure, ht, e2, e3]
  congr 1
  nlinarith

end Verif
