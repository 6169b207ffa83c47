import Verif.Props.C18_C22
import Verif.Model.Orbitals
import Verif.Lemmas.Grid
import Mathlib.Tactic.FinCases

/-!
# C23, C24: iterative orbital updates and symmetrised orbitals
-/

namespace Verif
open Spec Solver SolverR Orbitals

section
variable {G : Grid ℝ}

theorem Orbitals.normalize_list (s : Solver G) (l : List G.Fld) (hl : l.length = s.Nmo) :
    normalizeOrbitals { s with phi := some l } = .ok { s with phi := some (l.map (normalizeOrb s)) } := by
  unfold normalizeOrbitals
  simp only [hl, le_refl, if_true]
  have : (l.mapIdx fun i p => if i < s.Nmo then normalizeOrb { s with phi := some l } p else p) =
      l.map (normalizeOrb s) := by
    apply List.ext_getElem
    · simp
    · intro i h1 h2
      simp only [List.length_mapIdx] at h1
      simp only [List.getElem_mapIdx, List.getElem_map, hl ▸ h1, if_true]
      rfl
  rw [this]; rfl

/-- One step of the loop on an orbital with a large residual. -/
theorem Orbitals.iterStep_exceeds (s : Solver G) (H : Matrix G.Ix G.Ix ℝ) (tol : ℝ) (solve)
    (res : List G.Fld) (st : IterState G) (j : ℕ) (hphi : st.phi.length = s.Nmo)
    (heig : st.eig.length = s.Nmo) (hres : res.length = s.Nmo) (hj : j < s.Nmo)
    (hex : exceeds res[j] tol) :
    iterStep s H tol solve res st j =
      let v := solve (system H st.eig[j] st.phi[j]) (rhs res[j])
      .ok ⟨(st.phi.set j fun k => st.phi[j] k - v (.inl k)).map (normalizeOrb s),
        st.eig.set j (st.eig[j] - v (.inr ())), some v⟩ := by
  unfold iterStep
  rw [pyGet_ofNat res j (by omega), pyGet_ofNat st.phi j (by omega), pyGet_ofNat st.eig j (by omega)]
  simp only [bind, Except.bind, if_pos hex]
  rw [normalize_list _ _ (by simpa using hphi)]
  rfl

theorem Orbitals.own_correction (s : Solver G) (H0 : Matrix G.Ix G.Ix ℝ) (veff : G.Fld) (tol : ℝ)
    (solve : Matrix (G.Ix ⊕ Unit) (G.Ix ⊕ Unit) ℝ → (G.Ix ⊕ Unit → ℝ) → (G.Ix ⊕ Unit → ℝ))
    (phi : List G.Fld) (eig : List ℝ) (hphi : phi.length = s.Nmo) (heig : eig.length = s.Nmo)
    (hex : ∀ j (hj : j < s.Nmo), exceeds (resid (hks H0 veff) eig[j] phi[j]) tol) :
    ∃ st, iterOrbitals s H0 veff tol solve phi eig = .ok st ∧
      ∃ (h1 : st.phi.length = s.Nmo) (h2 : st.eig.length = s.Nmo), ∀ j (hj : j < s.Nmo),
        let q := (normalizeOrb s)^[j] phi[j]
        let v := solve (system (hks H0 veff) eig[j] q) (rhs (resid (hks H0 veff) eig[j] phi[j]))
        st.eig[j] = eig[j] - v (.inr ()) ∧
        st.phi[j] = (normalizeOrb s)^[s.Nmo - j] fun k => q k - v (.inl k) := by
  set H := hks H0 veff with hH
  set res := List.zipWith (fun e p => resid H e p) eig phi with hr
  have hres : res.length = s.Nmo := by rw [hr]; simp [hphi, heig]
  have hresj : ∀ j (hj : j < s.Nmo), res[j] = resid H eig[j] phi[j] := by
    intro j hj; simp [hr]
  have key : ∀ n ≤ s.Nmo, ∃ st,
      (List.range n).foldlM (iterStep s H tol solve res) ⟨phi, eig, none⟩ = .ok st ∧
      ∃ (h1 : st.phi.length = s.Nmo) (h2 : st.eig.length = s.Nmo), ∀ j (hj : j < s.Nmo),
        (n ≤ j → st.eig[j] = eig[j] ∧ st.phi[j] = (normalizeOrb s)^[n] phi[j]) ∧
        (j < n →
          let q := (normalizeOrb s)^[j] phi[j]
          let v := solve (system H eig[j] q) (rhs (resid H eig[j] phi[j]))
          st.eig[j] = eig[j] - v (.inr ()) ∧
          st.phi[j] = (normalizeOrb s)^[n - j] fun k => q k - v (.inl k)) := by
    intro n
    induction n with
    | zero =>
      intro _
      exact ⟨_, rfl, hphi, heig, fun j hj => ⟨fun _ => ⟨rfl, rfl⟩, fun h => by omega⟩⟩
    | succ n ih =>
      intro hn
      obtain ⟨st, hst, h1, h2, h⟩ := ih (by omega)
      rw [List.range_succ, List.foldlM_append, hst]
      have hstep := iterStep_exceeds s H tol solve res st n h1 h2 hres (by omega)
        (by rw [hresj n (by omega)]; exact hex n (by omega))
      obtain ⟨a1, a2⟩ := (h n (by omega)).1 (le_refl _)
      refine ⟨⟨(st.phi.set n fun k => st.phi[n] k -
            solve (system H st.eig[n] st.phi[n]) (rhs res[n]) (.inl k)).map (normalizeOrb s),
          st.eig.set n (st.eig[n] - solve (system H st.eig[n] st.phi[n]) (rhs res[n]) (.inr ())),
          some (solve (system H st.eig[n] st.phi[n]) (rhs res[n]))⟩, ?_, ?_, ?_, ?_⟩
      · simp only [List.foldlM_cons, List.foldlM_nil, bind, Except.bind]
        rw [hstep]; rfl
      · simpa using h1
      · simpa using h2
      · intro j hj
        refine ⟨fun hle => ?_, fun hlt => ?_⟩
        · obtain ⟨b1, b2⟩ := (h j hj).1 (by omega)
          simp only [List.getElem_map, List.getElem_set]
          rw [if_neg (by omega), if_neg (by omega), b1, b2, Function.iterate_succ_apply']
          exact ⟨rfl, rfl⟩
        · rcases Nat.lt_or_ge j n with hjn | hjn
          · obtain ⟨b1, b2⟩ := (h j hj).2 hjn
            simp only [List.getElem_map, List.getElem_set]
            rw [if_neg (by omega), if_neg (by omega), b1, b2]
            refine ⟨rfl, ?_⟩
            rw [show n + 1 - j = (n - j) + 1 by omega, Function.iterate_succ_apply']
          · obtain rfl : j = n := by omega
            simp only [List.getElem_map, List.getElem_set, if_true]
            rw [a1, a2, hresj j hj]
            refine ⟨rfl, ?_⟩
            rw [show j + 1 - j = 1 by omega]
            rfl
  obtain ⟨st, hst, h1, h2, h⟩ := key s.Nmo (le_refl _)
  exact ⟨st, hst, h1, h2, fun j hj => (h j hj).2 hj⟩

/-- `(h + veff - e) p`, multiplied by the volume element: `H0` already contains it. -/
noncomputable def Spec.eigResidual (H0 : Matrix G.Ix G.Ix ℝ) (veff : G.Fld) (e : ℝ) (p : G.Fld) (k : G.Ix) : ℝ :=
  ∑ l, H0 k l * p l + G.w k * (veff k - e) * p k

/-- The correction `(u, l)` of orbital `p` and eigenvalue `e` is the (regularised) Newton step for residual `r`. -/
def Spec.NewtonStep (H0 : Matrix G.Ix G.Ix ℝ) (veff : G.Fld) (e : ℝ) (p r u : G.Fld) (l : ℝ) : Prop :=
  (∀ k, eigResidual H0 veff e u k - l * (G.w k * p k) = r k) ∧ ∑ k, G.w k * p k * u k + l / 10 ^ 12 = 0

theorem Orbitals.resid_eq (H0 : Matrix G.Ix G.Ix ℝ) (veff : G.Fld) (e : ℝ) (p : G.Fld) :
    resid (hks H0 veff) e p = eigResidual H0 veff e p := by
  funext k
  unfold resid hks eigResidual
  rw [Matrix.add_mulVec]
  simp only [Pi.add_apply, Ops.diag, Matrix.mulVec_diagonal, Matrix.mulVec, dotProduct]
  simp [Matrix.of_apply, ite_mul, Finset.sum_ite_eq]
  ring

theorem Orbitals.system_eq (H0 : Matrix G.Ix G.Ix ℝ) (veff : G.Fld) (e : ℝ) (p r : G.Fld) (v : G.Ix ⊕ Unit → ℝ) :
    (system (hks H0 veff) e p).mulVec v = rhs r ↔ NewtonStep H0 veff e p r (fun k => v (.inl k)) (v (.inr ())) := by
  have e1 : ∀ k, (system (hks H0 veff) e p).mulVec v (.inl k) =
      eigResidual H0 veff e (fun k => v (.inl k)) k - v (.inr ()) * (G.w k * p k) := fun k => by
    have h := congrFun (resid_eq H0 veff e fun k => v (.inl k)) k
    rw [← h]
    unfold resid
    rw [Matrix.mulVec, dotProduct, Fintype.sum_sum_type]
    change ∑ l, (hks H0 veff k l - e * (if k = l then G.w k else 0)) * v (.inl l) + ∑ _ : Unit, -(G.w k * p k) * v (.inr ()) = _
    simp only [sub_mul, Finset.sum_sub_distrib, Matrix.mulVec, dotProduct]
    simp
    ring
  have e2 : (system (hks H0 veff) e p).mulVec v (.inr ()) =
      -(∑ k, G.w k * p k * v (.inl k) + v (.inr ()) / 10 ^ 12) := by
    rw [Matrix.mulVec, dotProduct, Fintype.sum_sum_type]
    change ∑ k, -(G.w k * p k) * v (.inl k) + ∑ _ : Unit, (-1 / 10 ^ 12) * v (.inr ()) = _
    simp
    ring
  constructor
  · intro h
    refine ⟨fun k => ?_, ?_⟩
    · rw [← e1, h]; rfl
    · have := congrFun h (.inr ())
      rw [e2] at this
      exact neg_eq_zero.1 this
  · rintro ⟨h1, h2⟩
    funext k
    rcases k with k | ⟨⟩
    · rw [e1, h1]; rfl
    · rw [e2, h2, neg_zero]; rfl

/-- C23, partial: when every residual exceeds the tolerance, orbital `j` and eigenvalue `j` are
changed by orbital `j`'s own Newton step only (and renormalised after every step of the loop).
`solve` solves every system that has a solution.
Missing: orbitals whose residual is within the tolerance, for which the claim is false
(`C23_refuted_unbound`, `C23_refuted_stale`). -/
theorem C23_own_correction_partial (s : Solver G) (H0 : Matrix G.Ix G.Ix ℝ) (veff : G.Fld) (tol : ℝ)
    (solve : Matrix (G.Ix ⊕ Unit) (G.Ix ⊕ Unit) ℝ → (G.Ix ⊕ Unit → ℝ) → (G.Ix ⊕ Unit → ℝ))
    (hsolve : ∀ (C : Matrix _ _ ℝ) r, (∃ x, C.mulVec x = r) → C.mulVec (solve C r) = r)
    (phi : List G.Fld) (eig : List ℝ) (hphi : phi.length = s.Nmo) (heig : eig.length = s.Nmo)
    (hex : ∀ j (hj : j < s.Nmo), ∃ k, tol < |eigResidual H0 veff eig[j] phi[j] k|) :
    ∃ st, iterOrbitals s H0 veff tol solve phi eig = .ok st ∧
      ∃ (h1 : st.phi.length = s.Nmo) (h2 : st.eig.length = s.Nmo), ∀ j (hj : j < s.Nmo),
        let q := (normalizeOrb s)^[j] phi[j]
        ∃ (u : G.Fld) (l : ℝ), st.eig[j] = eig[j] - l ∧
          st.phi[j] = (normalizeOrb s)^[s.Nmo - j] (fun k => q k - u k) ∧
          ((∃ u' l', NewtonStep H0 veff eig[j] q (eigResidual H0 veff eig[j] phi[j]) u' l') →
            NewtonStep H0 veff eig[j] q (eigResidual H0 veff eig[j] phi[j]) u l) := by
  obtain ⟨st, hst, h1, h2, h⟩ := own_correction s H0 veff tol solve phi eig hphi heig fun j hj => by
    rw [resid_eq]; exact hex j hj
  refine ⟨st, hst, h1, h2, fun j hj => ?_⟩
  obtain ⟨he, hp⟩ := h j hj
  rw [resid_eq] at he hp
  refine ⟨_, _, he, hp, ?_⟩
  rintro ⟨u', l', hn⟩
  exact (system_eq _ _ _ _ _ _).1 (hsolve _ _ ⟨Sum.elim u' fun _ => l', (system_eq _ _ _ _ _ _).2 hn⟩)

/-- C23 is false: if the first orbital is converged, `iter_orbitals` raises `UnboundLocalError`. -/
theorem C23_refuted_unbound (s : Solver G) (H0 : Matrix G.Ix G.Ix ℝ) (veff : G.Fld) (tol : ℝ) (solve)
    (phi : List G.Fld) (eig : List ℝ) (hphi : phi.length = s.Nmo) (heig : eig.length = s.Nmo)
    (h0 : 0 < s.Nmo) (hconv : ∀ k, |eigResidual H0 veff eig[0] phi[0] k| ≤ tol) :
    iterOrbitals s H0 veff tol solve phi eig = .error .unboundLocalError := by
  replace hconv : ¬ exceeds (resid (hks H0 veff) eig[0] phi[0]) tol := by
    rw [resid_eq]; rintro ⟨k, hk⟩; exact absurd (hconv k) (not_le.2 hk)
  unfold iterOrbitals
  obtain ⟨n, hn⟩ : ∃ n, s.Nmo = n + 1 := ⟨s.Nmo - 1, by omega⟩
  simp only [hn, List.range_succ_eq_map, List.foldlM_cons]
  have : iterStep s (hks H0 veff) tol solve
      (List.zipWith (fun e p => resid (hks H0 veff) e p) eig phi) ⟨phi, eig, none⟩ 0 =
      .error .unboundLocalError := by
    unfold iterStep
    have hr := pyGet_ofNat (List.zipWith (fun e p => resid (hks H0 veff) e p) eig phi) 0
      (by simp [hphi, heig, h0])
    have hp := pyGet_ofNat phi 0 (by omega)
    have he := pyGet_ofNat eig 0 (by omega)
    rw [hr, hp, he]
    have hl : 0 < (List.zipWith (fun e p => resid (hks H0 veff) e p) eig phi).length := by
      simp [hphi, heig, h0]
    have hc : ¬ exceeds (List.zipWith (fun e p => resid (hks H0 veff) e p) eig phi)[0] tol := by
      simpa only [List.getElem_zipWith] using hconv
    simp only [bind, Except.bind, if_neg hc]
  rw [this]; rfl

/-- The situation of `C23_refuted_unbound` on a two-point grid: the orbital `(1, 0)` is an exact
eigenvector. -/
example (tol : ℝ) (ht : 0 < tol) (solve) :
    iterOrbitals (⟨1, 2, 0, 1, false, false, none, none, none⟩ : Solver (Grid.tiny ℝ)) 0 (fun _ => 0) tol
      solve [![1, 0]] [0] = .error .unboundLocalError := by
  refine C23_refuted_unbound _ _ _ _ _ _ _ rfl rfl Nat.one_pos ?_
  intro k
  simp [eigResidual, ht.le]

/-- C23 is false: a converged orbital is changed by the previous orbital's correction.
Two-point grid, `H0 = diag(1, 5)`, orbital 0 has a wrong eigenvalue 0, orbital 1 is exact with
eigenvalue 5; afterwards eigenvalue 1 is no longer 5.  The linear solver is any exact one. -/
theorem C23_refuted_stale (solve : Matrix ((Grid.tiny ℝ).Ix ⊕ Unit) ((Grid.tiny ℝ).Ix ⊕ Unit) ℝ →
      ((Grid.tiny ℝ).Ix ⊕ Unit → ℝ) → ((Grid.tiny ℝ).Ix ⊕ Unit → ℝ))
    (hsolve : ∀ (C : Matrix _ _ ℝ) r, (∃ x, C.mulVec x = r) → C.mulVec (solve C r) = r) :
    ∃ st, iterOrbitals (⟨2, 4, 0, 1, false, false, none, none, none⟩ : Solver (Grid.tiny ℝ))
        (Ops.diag ![1, 5]) (fun _ => 0) (1 / 10 ^ 15) solve [![1, 0], ![0, 1]] [0, 5] = .ok st ∧
      (eigResidual (G := Grid.tiny ℝ) (Ops.diag ![1, 5]) (fun _ => 0) 5 ![0, 1] = fun _ => 0) ∧
      ∃ e0 e1, st.eig = [e0, e1] ∧ e1 ≠ 5 := by
  set s : Solver (Grid.tiny ℝ) := ⟨2, 4, 0, 1, false, false, none, none, none⟩ with hs
  set H : Matrix (Grid.tiny ℝ).Ix (Grid.tiny ℝ).Ix ℝ := hks (Ops.diag ![1, 5]) (fun _ => 0) with hH
  have r0 : resid (G := Grid.tiny ℝ) H 0 ![1, 0] = ![1, 0] := by
    funext k
    fin_cases k <;> simp [resid, hH, hks, Matrix.mulVec, dotProduct, Ops.diag, Grid.tiny_sum]
  have r1 : resid (G := Grid.tiny ℝ) H 5 ![0, 1] = fun _ => 0 := by
    funext k
    fin_cases k <;> simp [resid, hH, hks, Matrix.mulVec, dotProduct, Ops.diag, Grid.tiny_sum]
  set C := system (G := Grid.tiny ℝ) H 0 ![1, 0] with hC
  set v := solve C (rhs (G := Grid.tiny ℝ) ![1, 0]) with hv
  have hex : exceeds (G := Grid.tiny ℝ) ![1, 0] (1 / 10 ^ 15) := ⟨0, by norm_num⟩
  have hnex : ¬ exceeds (G := Grid.tiny ℝ) (fun _ => 0) (1 / 10 ^ 15) := by
    rintro ⟨k, hk⟩; norm_num at hk
  have hrow : C.mulVec v = rhs (G := Grid.tiny ℝ) ![1, 0] := by
    refine hsolve _ _ ⟨Sum.elim ![1 / (10 ^ 12 + 1), 0] fun _ => -(10 ^ 12 / (10 ^ 12 + 1)), ?_⟩
    funext k
    rcases k with k | k
    · fin_cases k <;>
        norm_num [hC, system, hH, hks, Matrix.mulVec, dotProduct, Ops.diag, Grid.tiny_sum, rhs,
          Matrix.fromBlocks]
    · norm_num [hC, system, hH, hks, Matrix.mulVec, dotProduct, Ops.diag, Grid.tiny_sum, rhs,
          Matrix.fromBlocks]
  have hmu : v (.inr ()) ≠ 0 := by
    have h0 := congrFun hrow (.inl 0)
    have h1 := congrFun hrow (.inr ())
    norm_num [hC, system, hH, hks, Matrix.mulVec, dotProduct, Ops.diag, Grid.tiny_sum, rhs,
          Matrix.fromBlocks] at h0 h1
    intro h
    rw [h] at h0 h1
    norm_num at h0 h1
    rw [h1] at h0
    norm_num at h0
  set res : List (Grid.tiny ℝ).Fld := [![1, 0], fun _ => 0] with hresd
  have hres : List.zipWith (fun e p => resid (G := Grid.tiny ℝ) H e p) [0, 5] [![1, 0], ![0, 1]] = res := by
    simp only [List.zipWith_cons_cons, List.zipWith_nil_left, r0, r1, hresd]
  have s0 := iterStep_exceeds s H (1 / 10 ^ 15) solve res ⟨[![1, 0], ![0, 1]], [0, 5], none⟩ 0
    rfl rfl rfl (by norm_num [hs]) hex
  have s1 : ∀ p0 p1 e0, iterStep s H (1 / 10 ^ 15) solve res ⟨[p0, p1], [e0, 5], some v⟩ 1 =
      .ok ⟨[normalizeOrb s p0, normalizeOrb s fun k => p1 k - v (.inl k)], [e0, 5 - v (.inr ())],
        some v⟩ := by
    intro p0 p1 e0
    unfold iterStep
    have a1 := pyGet_ofNat res 1 (by simp [hresd])
    have a2 := pyGet_ofNat [p0, p1] 1 (by simp)
    have a3 := pyGet_ofNat [e0, (5 : ℝ)] 1 (by simp)
    rw [a1, a2, a3]
    have : ¬ exceeds res[1] (1 / 10 ^ 15) := hnex
    simp only [bind, Except.bind, if_neg this]
    rw [normalize_list _ _ (by simp [hs])]
    rfl
  refine ⟨⟨[normalizeOrb s (normalizeOrb s fun k => ![1, 0] k - v (.inl k)),
      normalizeOrb s fun k => normalizeOrb s ![0, 1] k - v (.inl k)], [0 - v (.inr ()), 5 - v (.inr ())],
        some v⟩, ?_, (resid_eq _ _ _ _).symm.trans r1, 0 - v (.inr ()), 5 - v (.inr ()), ?_, ?_⟩
  · unfold iterOrbitals
    rw [← hH]
    simp only
    rw [hres]
    change ([0, 1] : List ℕ).foldlM _ _ = _
    simp only [List.foldlM_cons, List.foldlM_nil]
    rw [s0]
    exact congrArg (· >>= pure) (s1 _ _ _)
  · rfl
  · intro h; exact hmu (by linarith)

/-- The hypothesis of `C23_own_correction_partial` holds for a single orbital with a wrong
eigenvalue. -/
example (solve) (hsolve : ∀ (C : Matrix ((Grid.tiny ℝ).Ix ⊕ Unit) ((Grid.tiny ℝ).Ix ⊕ Unit) ℝ) r,
      (∃ x, C.mulVec x = r) → C.mulVec (solve C r) = r) :
    ∃ st, iterOrbitals (⟨1, 2, 0, 1, false, false, none, none, none⟩ : Solver (Grid.tiny ℝ))
    (Ops.diag ![1, 5]) (fun _ => 0) (1 / 10 ^ 15) solve [![1, 0]] [0] = .ok st := by
  obtain ⟨st, h, -⟩ := C23_own_correction_partial
    (⟨1, 2, 0, 1, false, false, none, none, none⟩ : Solver (Grid.tiny ℝ))
    (Ops.diag ![1, 5]) (fun _ => 0) (1 / 10 ^ 15) solve hsolve [![1, 0]] [0] rfl rfl (by
      intro j hj
      have : j = 0 := by simp at hj; omega
      subst this
      refine ⟨0, ?_⟩
      norm_num [eigResidual, Ops.diag, Grid.tiny_sum])
  exact ⟨st, h⟩

/-! ## C24 -/

/-- Mirror parity: an eigenvector of `mirror` with eigenvalue `+1` or `-1`. -/
def Spec.HasParity (p : G.Fld) : Prop := (∀ k, G.mir p k = p k) ∨ ∀ k, G.mir p k = -p k

theorem Orbitals.onorm_eq_zero {v : G.Fld} : Orbitals.norm v = 0 ↔ ∀ k, v k = 0 := by
  unfold Orbitals.norm
  rw [Real.sqrt_eq_zero (Finset.sum_nonneg fun k _ => sq_nonneg _),
    Finset.sum_eq_zero_iff_of_nonneg (fun k _ => sq_nonneg _)]
  simp

theorem Orbitals.mir_apply (p : G.Fld) (k : G.Ix) : G.mir (G.mir p) k = p k := by rw [G.mir_mir]

theorem Orbitals.parity_unit {v q : G.Fld} (hv : HasParity v) (h : unit v = some q) : HasParity q := by
  unfold unit at h
  split at h
  · cases h
  · injection h with h
    subst h
    rcases hv with hv | hv
    · left; intro k
      change v (G.mirIx k) / _ = _
      rw [show v (G.mirIx k) = v k from hv k]
    · right; intro k
      change v (G.mirIx k) / _ = _
      rw [show v (G.mirIx k) = -v k from hv k, neg_div]

theorem Orbitals.parity_add (p : G.Fld) : HasParity fun k => p k + G.mir p k := by
  left; intro k
  change G.mir p k + G.mir (G.mir p) k = _
  rw [mir_apply, add_comm]

theorem Orbitals.parity_sub (p : G.Fld) : HasParity fun k => p k - G.mir p k := by
  right; intro k
  change G.mir p k - G.mir (G.mir p) k = _
  rw [mir_apply]; ring

theorem Orbitals.even_even (p q : G.Fld) (k : G.Ix) : G.mir (even p q) k = even p q k := by
  change G.mir p k + G.mir (G.mir p) k + G.mir q k + G.mir (G.mir q) k = _
  rw [mir_apply, mir_apply]; unfold even; ring

theorem Orbitals.odd_odd (p q : G.Fld) (k : G.Ix) : G.mir (odd p q) k = -odd p q k := by
  change G.mir p k - G.mir (G.mir p) k + G.mir q k - G.mir (G.mir q) k = _
  rw [mir_apply, mir_apply]; unfold odd; ring

/-- A non-zero orbital stays non-zero and finite when symmetrised. -/
theorem Orbitals.symmetrise_some (p : G.Fld) :
    ∃ q, symmetrise (some p) = some q ∧ HasParity q ∧ ((∃ k, p k ≠ 0) → ∃ k, q k ≠ 0) := by
  by_cases h : 0 < ∑ k, p k * G.mir p k
  · have h0 : ∃ k, p k + G.mir p k ≠ 0 := by
      by_contra hc
      push Not at hc
      have : ∑ k, p k * G.mir p k ≤ 0 := Finset.sum_nonpos fun k _ => by
        have : G.mir p k = -p k := by linarith [hc k]
        rw [this]; nlinarith [sq_nonneg (p k)]
      linarith
    have hn : Orbitals.norm (fun k => p k + G.mir p k) ≠ 0 := by
      rw [Ne, onorm_eq_zero]; push Not; exact h0
    refine ⟨fun k => (p k + G.mir p k) / Orbitals.norm fun k => p k + G.mir p k, ?_,
      parity_unit (parity_add p) ?_, fun _ => ?_⟩
    · simp only [symmetrise, h, if_true, unit, hn, if_false]
    · simp only [unit, hn, if_false]
    · obtain ⟨k, hk⟩ := h0
      exact ⟨k, div_ne_zero hk hn⟩
  · refine ⟨_, by simp only [symmetrise, h, if_false], parity_sub p, fun ⟨k0, hk0⟩ => ?_⟩
    by_contra hc
    push Not at hc
    apply h
    have : ∑ k, p k * G.mir p k = ∑ k, p k ^ 2 := Finset.sum_congr rfl fun k _ => by
      have : G.mir p k = p k := by linarith [hc k]
      rw [this]; ring
    rw [this]
    exact Finset.sum_pos' (fun k _ => sq_nonneg _) ⟨k0, Finset.mem_univ _, by positivity⟩

variable {n : ℕ}

theorem Orbitals.pairStep_of_ne (eig : Fin n → ℝ) (phi : Fin n → Orb G) (i j l : Fin n) (hi : l ≠ i)
    (hj : l ≠ j) : pairStep eig phi i j l = phi l := by
  unfold pairStep
  split
  · cases phi i <;> cases phi j <;>
      exact (Function.update_of_ne hj _ _).trans (Function.update_of_ne hi _ _)
  · rfl

theorem Orbitals.mem_pairs {i j : Fin n} : (i, j) ∈ pairs n ↔ i < j := by
  simp [pairs, List.mem_flatMap, List.mem_filterMap]

/-- An orbital without a nearly degenerate partner is not touched by the degeneracy loop. -/
theorem Orbitals.degenerate_of_isolated (eig : Fin n → ℝ) (phi : Fin n → Orb G) (l : Fin n)
    (h : ∀ j, j ≠ l → 1 / 10 ^ 9 ≤ |eig l - eig j|) : degenerate eig phi l = phi l := by
  unfold degenerate
  have : ∀ (ps : List (Fin n × Fin n)), (∀ q ∈ ps, q.1 < q.2) → ∀ phi : Fin n → Orb G,
      ps.foldl (fun phi ij => pairStep eig phi ij.1 ij.2) phi l = phi l := by
    intro ps
    induction ps with
    | nil => intro _ _; rfl
    | cons q ps ih =>
      intro hq phi
      rw [List.foldl_cons, ih (fun r hr => hq r (List.mem_cons_of_mem _ hr))]
      have hlt := hq q List.mem_cons_self
      by_cases h1 : l = q.1
      · have : ¬ |eig q.1 - eig q.2| < 1 / 10 ^ 9 := by
          rw [← h1]; exact not_lt.mpr (h q.2 (by rw [h1]; exact hlt.ne'))
        simp only [pairStep, if_neg this]
      · by_cases h2 : l = q.2
        · have : ¬ |eig q.1 - eig q.2| < 1 / 10 ^ 9 := by
            rw [← h2, abs_sub_comm]; exact not_lt.mpr (h q.1 (by rw [h2]; exact hlt.ne))
          simp only [pairStep, if_neg this]
        · exact pairStep_of_ne _ _ _ _ _ h1 h2
  exact this _ (fun q hq => mem_pairs.mp hq) phi

/-- Exactly one nearly degenerate pair: it is replaced by the normalised even and odd
combinations. -/
theorem Orbitals.degenerate_pair (eig : Fin n → ℝ) (phi : Fin n → Orb G) (i j : Fin n) (hij : i < j)
    (hd : |eig i - eig j| < 1 / 10 ^ 9)
    (h : ∀ a b, a < b → |eig a - eig b| < 1 / 10 ^ 9 → a = i ∧ b = j)
    (p q : G.Fld) (hp : phi i = some p) (hq : phi j = some q) :
    degenerate eig phi i = unit (even p q) ∧ degenerate eig phi j = unit (odd p q) := by
  unfold degenerate
  have key : ∀ (ps : List (Fin n × Fin n)), (∀ r ∈ ps, r.1 < r.2) → ps.Nodup → ∀ phi : Fin n → Orb G,
      ps.foldl (fun phi ij => pairStep eig phi ij.1 ij.2) phi =
      if (i, j) ∈ ps then pairStep eig phi i j else phi := by
    intro ps
    induction ps with
    | nil => intro _ _ _; simp
    | cons r ps ih =>
      intro hr hnd phi
      rw [List.foldl_cons, ih (fun r hr' => hr r (List.mem_cons_of_mem _ hr')) (List.nodup_cons.mp hnd).2]
      by_cases hrij : r = (i, j)
      · subst hrij
        rw [if_neg (List.nodup_cons.mp hnd).1, if_pos List.mem_cons_self]
      · have hstep : pairStep eig phi r.1 r.2 = phi := by
          unfold pairStep
          rw [if_neg]
          intro hlt
          obtain ⟨h1, h2⟩ := h _ _ (hr r List.mem_cons_self) hlt
          exact hrij (Prod.ext h1 h2)
        rw [hstep]
        have : (i, j) ∈ r :: ps ↔ (i, j) ∈ ps := by
          rw [List.mem_cons]
          exact ⟨fun h => h.resolve_left fun e => hrij e.symm, Or.inr⟩
        simp only [this]
  have hnd : (pairs n).Nodup := by
    unfold pairs
    rw [List.nodup_flatMap]
    refine ⟨fun a _ => ?_, ?_⟩
    · refine List.Nodup.filterMap ?_ (List.nodup_finRange n)
      intro x y z hx hy
      simp only [Option.mem_def, Option.ite_none_right_eq_some, Option.some.injEq] at hx hy
      have := hx.2.trans hy.2.symm
      exact (Prod.ext_iff.mp this).2
    · refine (List.nodup_finRange n).imp ?_
      intro a b hab
      rw [Function.onFun, List.disjoint_left]
      intro r hr1 hr2
      simp only [List.mem_filterMap, Option.ite_none_right_eq_some, Option.some.injEq] at hr1 hr2
      obtain ⟨_, _, _, e1⟩ := hr1
      obtain ⟨_, _, _, e2⟩ := hr2
      have := e1.trans e2.symm
      exact hab (Prod.ext_iff.mp this).1
  rw [key _ (fun r hr => mem_pairs.mp hr) hnd, if_pos (mem_pairs.mpr hij)]
  unfold pairStep
  rw [if_pos hd, hp, hq]
  refine ⟨?_, ?_⟩
  · exact (Function.update_of_ne hij.ne _ _).trans (Function.update_self _ _ _)
  · exact Function.update_self _ _ _

/-- C24, partial: every finite orbital returned with `sym=True` has a mirror parity; orbitals without
a nearly degenerate partner are finite, non-zero if they were, and built from themselves only.
Missing: orbitals of nearly degenerate pairs can come out as NaN (`C24_refuted`). -/
theorem C24_parity_partial (eigs : ℕ → (Fin n → ℝ) × (Fin n → Orb G)) (a : ℕ) :
    (∀ i p, (calcOrbitals true eigs a).2 i = some p → HasParity p) ∧
    ∀ i, (∀ j, j ≠ i → 1 / 10 ^ 9 ≤ |(calcOrbitals true eigs a).1 i - (calcOrbitals true eigs a).1 j|) →
      ∀ p, (if a = 0 then (eigs 0).2 (Tuple.sort (eigs 0).1 i) else (eigs a).2 i) = some p →
        (∃ k, p k ≠ 0) →
        ∃ q, (calcOrbitals true eigs a).2 i = some q ∧ HasParity q ∧ (∃ k, q k ≠ 0) ∧
          ∃ c : ℝ, (∀ k, q k = c * (p k + G.mir p k)) ∨ ∀ k, q k = c * (p k - G.mir p k) := by
  have hsome : ∀ (o : Orb G) p, symmetrise o = some p → HasParity p := by
    intro o p h
    cases o with
    | none => cases h
    | some q =>
      obtain ⟨q', hq, hp, -⟩ := symmetrise_some q
      rw [hq] at h; injection h with h; exact h ▸ hp
  refine ⟨fun i p h => hsome _ p h, fun i hi p hp hne => ?_⟩
  have hval : (calcOrbitals true eigs a).2 i = symmetrise (some p) := by
    unfold calcOrbitals post at hi ⊢
    by_cases ha : a = 0
    · simp only [ha, if_true, Function.comp] at hp hi ⊢
      rw [degenerate_of_isolated _ _ _ hi, Function.comp, hp]
    · simp only [if_neg ha, if_true] at hp hi ⊢
      rw [degenerate_of_isolated _ _ _ hi, hp]
  obtain ⟨q, hq, hpar, hnz⟩ := symmetrise_some p
  refine ⟨q, hval.trans hq, hpar, hnz hne, ?_⟩
  change (if 0 < ∑ k, p k * G.mir p k then unit fun k => p k + G.mir p k
    else some fun k => p k - G.mir p k) = some q at hq
  split at hq
  · unfold unit at hq
    split at hq
    · cases hq
    · injection hq with hq
      subst hq
      exact ⟨(Orbitals.norm fun k => p k + G.mir p k)⁻¹, .inl fun k => div_eq_inv_mul _ _⟩
  · injection hq with hq
    subst hq
    exact ⟨1, .inr fun k => (one_mul _).symm⟩

/-- C24, nearly degenerate pairs: a single such pair `(p, q)` is replaced by one even and one odd
orbital, provided neither combination vanishes. -/
theorem C24_pair_partial (sym : Bool) (eig : Fin n → ℝ) (phi : Fin n → Orb G) (i j : Fin n) (hij : i < j)
    (hd : |eig i - eig j| < 1 / 10 ^ 9)
    (h : ∀ a b, a < b → |eig a - eig b| < 1 / 10 ^ 9 → a = i ∧ b = j)
    (p q : G.Fld) (hp : phi i = some p) (hq : phi j = some q)
    (he : ∃ k, p k + G.mir p k + q k + G.mir q k ≠ 0) (ho : ∃ k, p k - G.mir p k + q k - G.mir q k ≠ 0) :
    ∃ p' q', post sym eig phi i = some p' ∧ post sym eig phi j = some q' ∧
      (∀ k, G.mir p' k = p' k) ∧ (∀ k, G.mir q' k = -q' k) ∧ (∃ k, p' k ≠ 0) ∧ ∃ k, q' k ≠ 0 := by
  obtain ⟨h1, h2⟩ := degenerate_pair eig phi i j hij hd h p q hp hq
  have hne : Orbitals.norm (even p q) ≠ 0 := by rw [Ne, onorm_eq_zero]; push Not; exact he
  have hno : Orbitals.norm (odd p q) ≠ 0 := by rw [Ne, onorm_eq_zero]; push Not; exact ho
  set e : G.Fld := fun k => even p q k / Orbitals.norm (even p q) with hed
  set o : G.Fld := fun k => odd p q k / Orbitals.norm (odd p q) with hod
  have ee : ∀ k, G.mir e k = e k := fun k => by
    change even p q (G.mirIx k) / _ = _
    rw [show even p q (G.mirIx k) = even p q k from even_even p q k]
  have oo : ∀ k, G.mir o k = -o k := fun k => by
    change odd p q (G.mirIx k) / _ = _
    rw [show odd p q (G.mirIx k) = -odd p q k from odd_odd p q k, neg_div]
  have e0 : ∃ k, e k ≠ 0 := by obtain ⟨k, hk⟩ := he; exact ⟨k, div_ne_zero hk hne⟩
  have o0 : ∃ k, o k ≠ 0 := by obtain ⟨k, hk⟩ := ho; exact ⟨k, div_ne_zero hk hno⟩
  have h1' : degenerate eig phi i = some e := by rw [h1, unit, if_neg hne]
  have h2' : degenerate eig phi j = some o := by rw [h2, unit, if_neg hno]
  cases sym with
  | false =>
    exact ⟨e, o, by simp [post, h1'], by simp [post, h2'], ee, oo, e0, o0⟩
  | true =>
    have se : 0 < ∑ k, e k * G.mir e k := by
      obtain ⟨k0, hk0⟩ := e0
      refine Finset.sum_pos' (fun k _ => ?_) ⟨k0, Finset.mem_univ _, ?_⟩
      · rw [ee]; exact mul_self_nonneg _
      · rw [ee]; exact mul_self_pos.mpr hk0
    have so : ¬ 0 < ∑ k, o k * G.mir o k := by
      refine not_lt.mpr (Finset.sum_nonpos fun k _ => ?_)
      rw [oo]; nlinarith [sq_nonneg (o k)]
    have nz : Orbitals.norm (fun k => e k + G.mir e k) ≠ 0 := by
      rw [Ne, onorm_eq_zero]; push Not
      obtain ⟨k0, hk0⟩ := e0
      refine ⟨k0, ?_⟩
      rw [ee]; intro hc; exact hk0 (by linarith)
    refine ⟨fun k => (e k + G.mir e k) / Orbitals.norm fun k => e k + G.mir e k,
      fun k => o k - G.mir o k, ?_, ?_, fun k => ?_, fun k => ?_, ?_, ?_⟩
    · simp only [post, if_true, h1', symmetrise, se, unit, nz, if_false]
    · simp only [post, if_true, h2', symmetrise, so, if_false]
    · change (e (G.mirIx k) + G.mir (G.mir e) k) / _ = _
      rw [mir_apply]
      change (G.mir e k + e k) / _ = _
      rw [add_comm]
    · change G.mir o k - G.mir (G.mir o) k = _
      rw [mir_apply]; ring
    · obtain ⟨k0, hk0⟩ := e0
      refine ⟨k0, div_ne_zero ?_ nz⟩
      rw [ee]; intro hc; exact hk0 (by linarith)
    · obtain ⟨k0, hk0⟩ := o0
      refine ⟨k0, ?_⟩
      change o k0 - G.mir o k0 ≠ 0
      rw [oo]; intro hc; exact hk0 (by linarith)

/-- C24, density: orbitals of definite parity give a mirror-symmetric density. -/
theorem C24_density (s : Solver G) (hN : 0 ≤ s.N) (l : List G.Fld) (hl : s.phi = some l)
    (hpar : ∀ p ∈ l, HasParity p) (d : G.Fld) (hd : s.calcDensity = .ok d) (k : G.Ix) :
    G.mir d k = d k := by
  rw [calcDensity_eq s hN l hl] at hd
  split at hd
  · injection hd with hd
    subst hd
    change s.scale * _ = s.scale * _
    congr 1
    refine Finset.sum_congr rfl fun i _ => ?_
    have : l[i.1] (G.mirIx k) ^ 2 = l[i.1] k ^ 2 := by
      rcases hpar _ (List.getElem_mem i.2) with h | h
      · rw [show l[i.1] (G.mirIx k) = l[i.1] k from h k]
      · rw [show l[i.1] (G.mirIx k) = -l[i.1] k from h k, neg_sq]
    rw [this]
  · cases hd

/-- C24 is false: two exactly degenerate orbitals that are mirror images of each other (one on each
atom) have a vanishing odd combination, and the second column comes back as NaN. -/
theorem C24_refuted (G : Grid ℝ) (p : G.Fld) (hp : ∃ k, p k + G.mir p k ≠ 0) (e : ℝ) :
    ∃ p', (calcOrbitals (n := 2) true (fun _ => (fun _ => e, ![some p, some (G.mir p)])) 0).2 =
      ![some p', none] := by
  have hs : Tuple.sort (fun _ : Fin 2 => e) = Equiv.refl _ := by
    rw [eq_comm, Tuple.eq_sort_iff]
    exact ⟨fun _ _ _ => le_refl _, fun i j hij _ => hij⟩
  have h0 : degenerate (n := 2) (fun _ => e) ![some p, some (G.mir p)] 0 = unit (even p (G.mir p)) ∧
      degenerate (n := 2) (fun _ => e) ![some p, some (G.mir p)] 1 = unit (odd p (G.mir p)) := by
    refine degenerate_pair _ _ 0 1 (by decide) (by simp) (fun a b hab _ => ?_) _ _ rfl rfl
    have := a.2; have := b.2
    have : a.1 < b.1 := hab
    exact ⟨Fin.ext (by simp; omega), Fin.ext (by simp; omega)⟩
  have hodd : unit (odd p (G.mir p)) = none := by
    unfold unit
    rw [if_pos]
    rw [onorm_eq_zero]
    intro k
    unfold odd
    rw [mir_apply]; ring
  have hev : Orbitals.norm (even p (G.mir p)) ≠ 0 := by
    rw [Ne, onorm_eq_zero]; push Not
    obtain ⟨k, hk⟩ := hp
    refine ⟨k, ?_⟩
    unfold even
    rw [mir_apply]
    intro hc; exact hk (by linarith)
  obtain ⟨q, hq, -⟩ := symmetrise_some (fun k => even p (G.mir p) k / Orbitals.norm (even p (G.mir p)))
  refine ⟨q, ?_⟩
  have hev' : unit (even p (G.mir p)) = some fun k => even p (G.mir p) k / Orbitals.norm (even p (G.mir p)) := by
    unfold unit; rw [if_neg hev]
  funext i
  unfold calcOrbitals post
  simp only [if_true, hs, Equiv.coe_refl, Function.comp_id]
  fin_cases i
  · change symmetrise (degenerate _ _ 0) = some q
    rw [h0.1, hev', hq]
  · change symmetrise (degenerate _ _ 1) = none
    rw [h0.2, hodd]; rfl

/-- The witness of `C24_refuted` exists: an orbital localised on one of two points. -/
example : ∃ p', (calcOrbitals (G := Grid.tiny ℝ) (n := 2) true
    (fun _ => (fun _ => -1, ![some ![1, 0], some ((Grid.tiny ℝ).mir ![1, 0])])) 0).2 = ![some p', none] :=
  C24_refuted (Grid.tiny ℝ) ![1, 0] ⟨0, by
    change (1 : ℝ) + (![1, 0] : Fin 2 → ℝ) 1 ≠ 0
    norm_num⟩ (-1)

end
end Verif
