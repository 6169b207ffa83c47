import Verif.Props.C23_C24
import Verif.Props.C25_C27
import Verif.Props.C18_C22
import Verif.Model.Weights

/-!
# C99: `calc_orbitals` hands on the solutions of the eigenvalue problem, lowest first

The eigensolver is an oracle: its answers are arbitrary pairs.  `SolvesAt` states the eigenvalue
problem entry by entry; nothing here refers to the matrices built by the code.
-/

namespace Verif
open Spec Orbitals Solver

section
variable {G : Grid ℝ} {n : ℕ}

/-- `p` solves the Kohn-Sham equation at energy `e`: `H₀ p + w v p = e w p` at every grid point. -/
def Spec.SolvesAt (H0 : G.Ix → G.Ix → ℝ) (v : G.Fld) (e : ℝ) (p : G.Fld) : Prop :=
  ∀ k, ∑ l, H0 k l * p l + G.w k * v k * p k = e * (G.w k * p k)

/-- The Hamiltonian, the volume element and the potential look the same from both ends of the
molecule. -/
structure Spec.Symmetric (H0 : G.Ix → G.Ix → ℝ) (v : G.Fld) : Prop where
  kinetic : ∀ k l, H0 (G.mirIx k) (G.mirIx l) = H0 k l
  volume : ∀ k, G.w (G.mirIx k) = G.w k
  potential : ∀ k, v (G.mirIx k) = v k

/-- Eigenvalues closer than the threshold of the degeneracy loop coincide. -/
def Spec.CloseMeansEqual (e : Fin n → ℝ) : Prop := ∀ i j, |e i - e j| < 1 / 10 ^ 9 → e i = e j

/-- No two eigenvalues are closer than the threshold of the degeneracy loop. -/
def Spec.WellSeparated (e : Fin n → ℝ) : Prop := ∀ i j, i ≠ j → 1 / 10 ^ 9 ≤ |e i - e j|

theorem Orbitals.mirIx_mirIx (k : G.Ix) : G.mirIx (G.mirIx k) = k := by
  have h : ((G.mirIx (G.mirIx k)).1 : ℝ) = (k.1 : ℝ) := congrFun (G.mir_mir fun l => (l.1 : ℝ)) k
  exact Fin.ext (by exact_mod_cast h)

/-- `mirror` as a permutation of the grid points. -/
def Orbitals.mirEquiv (G : Grid ℝ) : G.Ix ≃ G.Ix := ⟨G.mirIx, G.mirIx, mirIx_mirIx, mirIx_mirIx⟩

variable {H0 : G.Ix → G.Ix → ℝ} {v : G.Fld} {e : ℝ}

theorem Spec.SolvesAt.mir {p : G.Fld} (hs : Symmetric H0 v) (h : SolvesAt H0 v e p) :
    SolvesAt H0 v e (G.mir p) := by
  intro k
  have := h (G.mirIx k)
  rw [hs.volume, hs.potential] at this
  change ∑ l, H0 k l * p (G.mirIx l) + _ * p (G.mirIx k) = e * (_ * p (G.mirIx k))
  rw [← this]
  congr 1
  refine ((mirEquiv G).sum_comp fun l => H0 k l * p (G.mirIx l)).symm.trans ?_
  refine Finset.sum_congr rfl fun l _ => ?_
  change H0 k (G.mirIx l) * p (G.mirIx (G.mirIx l)) = _
  rw [mirIx_mirIx, ← hs.kinetic k, mirIx_mirIx]

theorem Spec.SolvesAt.comb {p q : G.Fld} (a b : ℝ) (h : SolvesAt H0 v e p) (h' : SolvesAt H0 v e q) :
    SolvesAt H0 v e fun k => a * p k + b * q k := by
  intro k
  have e1 : ∑ l, H0 k l * (a * p l + b * q l) = a * ∑ l, H0 k l * p l + b * ∑ l, H0 k l * q l := by
    rw [Finset.mul_sum, Finset.mul_sum, ← Finset.sum_add_distrib]
    exact Finset.sum_congr rfl fun l _ => by ring
  rw [e1]
  linear_combination a * h k + b * h' k

theorem Spec.SolvesAt.congr {p q : G.Fld} (h : SolvesAt H0 v e p) (hpq : ∀ k, q k = p k) :
    SolvesAt H0 v e q := by rwa [show q = p from funext hpq]

theorem Spec.SolvesAt.unit {p q : G.Fld} (h : SolvesAt H0 v e p) (hq : unit p = some q) :
    SolvesAt H0 v e q := by
  unfold Orbitals.unit at hq
  split at hq
  · cases hq
  · injection hq with hq
    subst hq
    exact (SolvesAt.comb (Orbitals.norm p)⁻¹ 0 h h).congr fun k => by ring

/-- All finite columns solve the equation at their eigenvalue. -/
def Orbitals.AllSolve (H0 : G.Ix → G.Ix → ℝ) (v : G.Fld) (eig : Fin n → ℝ) (phi : Fin n → Orb G) : Prop :=
  ∀ i p, phi i = some p → SolvesAt H0 v (eig i) p

theorem Orbitals.pairStep_solves (hs : Symmetric H0 v) {eig : Fin n → ℝ} (hc : CloseMeansEqual eig)
    {phi : Fin n → Orb G} (h : AllSolve H0 v eig phi) (i j : Fin n) :
    AllSolve H0 v eig (pairStep eig phi i j) := by
  unfold pairStep
  split
  · next hd =>
    have hij := hc _ _ hd
    intro l p hl
    by_cases h2 : l = j
    · subst h2
      cases hpi : phi i with
      | none => rw [hpi] at hl; simp at hl
      | some a =>
        cases hpj : phi l with
        | none => rw [hpi, hpj] at hl; simp at hl
        | some b =>
          rw [hpi, hpj] at hl
          dsimp only at hl
          rw [show Function.update (Function.update phi i _) l _ l = _ from Function.update_self _ _ _] at hl
          have ha := h i a hpi
          rw [hij] at ha
          have hb := h l b hpj
          refine SolvesAt.unit ?_ hl
          exact ((SolvesAt.comb 1 (-1) ha (ha.mir hs)).comb 1 1
            (SolvesAt.comb 1 (-1) hb (hb.mir hs))).congr fun k => by unfold odd; ring
    · by_cases h1 : l = i
      · subst h1
        cases hpi : phi l with
        | none =>
          rw [hpi] at hl
          dsimp only at hl
          rw [show Function.update (Function.update phi l none) j none l = none from
            (Function.update_of_ne h2 _ _).trans (Function.update_self _ _ _)] at hl
          cases hl
        | some a =>
          cases hpj : phi j with
          | none =>
            rw [hpi, hpj] at hl
            dsimp only at hl
            rw [show Function.update (Function.update phi l none) j none l = none from
              (Function.update_of_ne h2 _ _).trans (Function.update_self _ _ _)] at hl
            cases hl
          | some b =>
            rw [hpi, hpj] at hl
            dsimp only at hl
            rw [show Function.update (Function.update phi l _) j _ l = _ from
              (Function.update_of_ne h2 _ _).trans (Function.update_self _ _ _)] at hl
            have ha := h l a hpi
            have hb := h j b hpj
            rw [← hij] at hb
            refine SolvesAt.unit ?_ hl
            exact ((SolvesAt.comb 1 1 ha (ha.mir hs)).comb 1 1
              (SolvesAt.comb 1 1 hb (hb.mir hs))).congr fun k => by unfold even; ring
      · refine h l p ?_
        rw [← hl]
        cases phi i <;> cases phi j <;>
          exact ((Function.update_of_ne h2 _ _).trans (Function.update_of_ne h1 _ _)).symm
  · exact h

theorem Orbitals.degenerate_solves (hs : Symmetric H0 v) {eig : Fin n → ℝ} (hc : CloseMeansEqual eig)
    {phi : Fin n → Orb G} (h : AllSolve H0 v eig phi) : AllSolve H0 v eig (degenerate eig phi) := by
  unfold degenerate
  generalize pairs n = ps
  induction ps generalizing phi with
  | nil => exact h
  | cons q ps ih => exact ih (pairStep_solves hs hc h q.1 q.2)

theorem Orbitals.symmetrise_solves (hs : Symmetric H0 v) {o : Orb G}
    (h : ∀ p, o = some p → SolvesAt H0 v e p) (q : G.Fld) (hq : symmetrise o = some q) :
    SolvesAt H0 v e q := by
  cases o with
  | none => cases hq
  | some p =>
    have hp := h p rfl
    change (if 0 < ∑ k, p k * G.mir p k then Orbitals.unit fun k => p k + G.mir p k
      else some fun k => p k - G.mir p k) = some q at hq
    split at hq
    · exact SolvesAt.unit ((SolvesAt.comb 1 1 hp (hp.mir hs)).congr fun k => by ring) hq
    · injection hq with hq
      subst hq
      exact (SolvesAt.comb 1 (-1) hp (hp.mir hs)).congr fun k => by ring

/-- C99, order, partial: when the first answer of the eigensolver is accepted, the eigenvalues come
back ascending and are the eigenvalues it returned.  Missing: a repeated attempt is not sorted
(`C99_refuted_order`). -/
theorem C99_order_partial (sym : Bool) (eigs : ℕ → (Fin n → ℝ) × (Fin n → Orb G)) :
    Monotone (calcOrbitals sym eigs 0).1 ∧
    ∃ σ : Equiv.Perm (Fin n), ∀ i, (calcOrbitals sym eigs 0).1 i = (eigs 0).1 (σ i) :=
  ⟨Tuple.monotone_sort (eigs 0).1, Tuple.sort (eigs 0).1, fun _ => rfl⟩

/-- C99, pairing: without symmetrisation, orbitals whose eigenvalues are all well separated come back
unchanged, each with the eigenvalue it had. -/
theorem C99_pairing (eigs : ℕ → (Fin n → ℝ) × (Fin n → Orb G)) (a : ℕ) (hw : WellSeparated (eigs a).1) :
    ∃ σ : Equiv.Perm (Fin n), ∀ i, (calcOrbitals false eigs a).1 i = (eigs a).1 (σ i) ∧
      (calcOrbitals false eigs a).2 i = (eigs a).2 (σ i) := by
  by_cases ha : a = 0
  · subst ha
    refine ⟨Tuple.sort (eigs 0).1, fun i => ⟨rfl, ?_⟩⟩
    refine (degenerate_of_isolated _ _ _ fun j hj => ?_).trans rfl
    exact hw _ _ fun h => hj ((Tuple.sort (eigs 0).1).injective h).symm
  · refine ⟨1, fun i => ?_⟩
    unfold calcOrbitals
    simp only [if_neg ha]
    refine ⟨rfl, degenerate_of_isolated _ _ _ fun j hj => hw _ _ hj.symm⟩

/-- C99, solutions, partial: in a mirror-symmetric problem in which close eigenvalues are equal, an
eigensolver that returns exact solutions makes every finite orbital that `calc_orbitals` stores an
exact solution at the eigenvalue stored with it, with or without symmetrisation.  Missing: problems
without mirror symmetry (`C99_refuted_solution`). -/
theorem C99_solution_partial (sym : Bool) (eigs : ℕ → (Fin n → ℝ) × (Fin n → Orb G)) (a : ℕ)
    (hs : Symmetric H0 v) (hc : CloseMeansEqual (eigs a).1)
    (hex : ∀ i p, (eigs a).2 i = some p → SolvesAt H0 v ((eigs a).1 i) p) :
    ∀ i p, (calcOrbitals sym eigs a).2 i = some p → SolvesAt H0 v ((calcOrbitals sym eigs a).1 i) p := by
  have key : ∀ (eig : Fin n → ℝ) (phi : Fin n → Orb G), CloseMeansEqual eig → AllSolve H0 v eig phi →
      AllSolve H0 v eig (post sym eig phi) := by
    intro eig phi hc h
    have hd := degenerate_solves hs hc h
    unfold post
    cases sym with
    | false => exact hd
    | true => exact fun i p hp => symmetrise_solves hs (hd i) p hp
  by_cases ha : a = 0
  · subst ha
    exact key _ _ (fun i j h => hc _ _ h) fun i p hp => hex _ p hp
  · unfold calcOrbitals
    simp only [if_neg ha]
    exact key _ _ hc hex

/-- C99, non-zero solutions survive symmetrisation when the eigenvalues are well separated. -/
theorem C99_nonzero (eigs : ℕ → (Fin n → ℝ) × (Fin n → Orb G)) (a : ℕ)
    (hw : WellSeparated (eigs a).1) (hs : Symmetric H0 v)
    (hex : ∀ i, ∃ p, (eigs a).2 i = some p ∧ SolvesAt H0 v ((eigs a).1 i) p ∧ ∃ k, p k ≠ 0) (i : Fin n) :
    ∃ p, (calcOrbitals true eigs a).2 i = some p ∧ SolvesAt H0 v ((calcOrbitals true eigs a).1 i) p ∧
      (∃ k, p k ≠ 0) ∧ HasParity p := by
  have hc : CloseMeansEqual (eigs a).1 := fun i j h => by
    by_contra hne
    exact absurd (hw i j fun hij => hne (by rw [hij])) (not_le.mpr h)
  have hsol := C99_solution_partial true eigs a hs hc
    (fun i p hp => by obtain ⟨q, h1, h2, -⟩ := hex i; rw [h1] at hp; injection hp with hp; exact hp ▸ h2)
  have hw' : ∀ j, j ≠ i → 1 / 10 ^ 9 ≤
      |(calcOrbitals true eigs a).1 i - (calcOrbitals true eigs a).1 j| := by
    intro j hj
    by_cases ha : a = 0
    · subst ha
      exact hw _ _ fun h => hj ((Tuple.sort (eigs 0).1).injective h).symm
    · unfold calcOrbitals
      simp only [if_neg ha]
      exact hw _ _ hj.symm
  obtain ⟨p, hp, hne⟩ : ∃ p, (if a = 0 then (eigs 0).2 (Tuple.sort (eigs 0).1 i) else (eigs a).2 i) = some p ∧
      ∃ k, p k ≠ 0 := by
    by_cases ha : a = 0
    · subst ha
      obtain ⟨p, h1, -, h3⟩ := hex (Tuple.sort (eigs 0).1 i)
      exact ⟨p, by rw [if_pos rfl, h1], h3⟩
    · obtain ⟨p, h1, -, h3⟩ := hex i
      exact ⟨p, by rw [if_neg ha, h1], h3⟩
  obtain ⟨q, hq, hpar, hnz, -⟩ := (C24_parity_partial eigs a).2 i hw' p hp hne
  exact ⟨q, hq, hsol i q hq, hnz, hpar⟩

open FD Init Ops in
/-- C99, where the symmetry comes from: the Hamiltonian of any solver and the volume element of any
grid built by `initialize` are symmetric; so is the problem when the potential is. -/
theorem C99_symmetric {k NP NMa NMr : ℕ} (hk : 0 < k) (hNa : k ≤ NC.npts NP NMa) (hNr : k ≤ NC.npts NP NMr)
    (a : ℝ) {L : ℝ} (hL : 0 < L) (wa : Fin (NC.npts NP NMa) → ℝ) (wr : Fin (NC.npts NP NMr) → ℝ)
    (ds1 ds2 : Fin (2 * k + 1) → ℝ)
    (hds1 : FDC.Returns (fun i => ((centred k i : ℤ) : ℝ)) 1 (.ok ds1))
    (hds2 : FDC.Returns (fun i => ((centred k i : ℤ) : ℝ)) 2 (.ok ds2)) (m : ℕ) :
    ∃ R, build (NC.npts NP NMa) (NC.npts NP NMr) k a L (centred k) ds1 ds2 = .ok R ∧
      ∀ v : (mkGrid NP NMa NMr a L wa wr).Fld, (mkGrid NP NMa NMr a L wa wr).mir v = v →
        Spec.Symmetric (G := mkGrid NP NMa NMr a L wa wr)
          (Solver.hamiltonian m R.elap R.olap (Init.w _ _ a L) (Init.f _ _ a L)) v := by
  obtain ⟨R, hR, -, hcomm⟩ := C26_hamiltonian hk hNa hNr a hL ds1 ds2 hds1 hds2 m
  refine ⟨R, hR, fun v hv => ⟨fun q l => ?_, fun q => ?_, fun q => congrFun hv q⟩⟩
  · have h := congrFun (hcomm 0 rfl (Pi.single ((mkGrid NP NMa NMr a L wa wr).mirIx l) 1)) q
    have hz : (diag fun q => Init.w (NC.npts NP NMa) (NC.npts NP NMr) a L q *
        (0 : Fin (NC.npts NP NMa * NC.npts NP NMr) → ℝ) q) = 0 := by
      ext i j; simp [diag]
    rw [hz, add_zero] at h
    have hs : Init.mir (Pi.single ((mkGrid NP NMa NMr a L wa wr).mirIx l) 1) =
        Pi.single (M := fun _ => ℝ) l 1 := by
      funext j
      change (Pi.single ((mkGrid NP NMa NMr a L wa wr).mirIx l) 1 : _ → ℝ)
        ((mkGrid NP NMa NMr a L wa wr).mirIx j) = _
      by_cases hj : j = l
      · subst hj; simp
      · rw [Pi.single_eq_of_ne hj, Pi.single_eq_of_ne]
        intro hc
        exact hj (by rw [← Orbitals.mirIx_mirIx (G := mkGrid NP NMa NMr a L wa wr) j, hc,
          Orbitals.mirIx_mirIx])
    rw [hs, Matrix.mulVec_single_one] at h
    have h2 : Matrix.mulVec (hamiltonian m R.elap R.olap (Init.w _ _ a L) (Init.f _ _ a L))
        (Pi.single ((mkGrid NP NMa NMr a L wa wr).mirIx l) 1) (mirK q) = _ := h.symm
    rw [Matrix.mulVec_single_one] at h2
    exact h2
  · change Init.w _ _ a L (mirK q) = Init.w _ _ a L q
    rw [w_eq, w_eq, sin_mirK, Xr_mirK]

/-- C99 is false for repeated attempts: when the first answer is all NaN, the second one is stored in
the order it comes, here with the higher state first. -/
theorem C99_refuted_order (G : Grid ℝ) (p q : G.Fld) (sym : Bool) :
    ∃ eigs : ℕ → (Fin 2 → ℝ) × (Fin 2 → Orb G), Accepted eigs 1 ∧ (eigs 1).2 = ![some p, some q] ∧
      (calcOrbitals sym eigs 1).1 0 = 5 ∧ (calcOrbitals sym eigs 1).1 1 = -3 := by
  refine ⟨fun a => if a = 0 then (0, fun _ => none) else (![5, -3], ![some p, some q]), ⟨?_, 0, ?_⟩,
    by simp, by simp [calcOrbitals], by simp [calcOrbitals]⟩
  · intro b hb i
    have : b = 0 := by omega
    simp [this]
  · simp

/-- Three points on a line through the nuclei; `mirror` swaps the ends. -/
noncomputable abbrev C99_grid : Grid ℝ :=
  { Na := 3, Nr := 1, pi := 1 / 2, ha := 1, hr := 1, wi := fun _ => 1, w := fun _ => 1 }

/-- C99 is false without mirror symmetry: two exactly degenerate states are combined with their mirror
images although the potential is different there, and what is stored solves the equation at no
energy. -/
theorem C99_refuted_solution : ∃ (v : C99_grid.Fld)
    (eigs : ℕ → (Fin 2 → ℝ) × (Fin 2 → Orb C99_grid)),
    (∀ i, ∃ p, (eigs 0).2 i = some p ∧ SolvesAt (fun _ _ => 0) v ((eigs 0).1 i) p ∧ ∃ k, p k ≠ 0) ∧
    Accepted eigs 0 ∧ ∃ p, (calcOrbitals false eigs 0).2 0 = some p ∧
      ∀ e, ¬ SolvesAt (fun _ _ => 0) v e p := by
  let P : C99_grid.Fld := ![1, 0, 0]
  let Q : C99_grid.Fld := ![0, 1, 0]
  let V : C99_grid.Fld := ![-2, -2, 3]
  refine ⟨V, fun _ => (fun _ => -2, ![some P, some Q]), ?_, ⟨fun b hb => absurd hb (Nat.not_lt_zero _), 0, by simp⟩, ?_⟩
  · intro i
    fin_cases i
    · refine ⟨P, rfl, fun k => ?_, 0, by simp [P]⟩
      fin_cases k <;> simp [P, V]
    · refine ⟨Q, rfl, fun k => ?_, 1, by simp [Q]⟩
      fin_cases k <;> simp [Q, V]
  · have hs : Tuple.sort (fun _ : Fin 2 => (-2 : ℝ)) = Equiv.refl _ := by
      rw [eq_comm, Tuple.eq_sort_iff]
      exact ⟨fun _ _ _ => le_refl _, fun i j hij _ => hij⟩
    have h0 := (degenerate_pair (n := 2) (fun _ => -2) ![some P, some Q] 0 1 (by decide) (by simp)
      (fun a b hab _ => by
        have := a.2; have := b.2
        have : a.1 < b.1 := hab
        exact ⟨Fin.ext (by simp; omega), Fin.ext (by simp; omega)⟩) P Q rfl rfl).1
    have hP2 : C99_grid.mir P 2 = 1 := rfl
    have hQ2 : C99_grid.mir Q 2 = 0 := rfl
    have hP0 : C99_grid.mir P 0 = 0 := rfl
    have hQ0 : C99_grid.mir Q 0 = 0 := rfl
    have v0 : even P Q 0 = 1 := by unfold even; rw [hP0, hQ0]; norm_num [P, Q]
    have v2 : even P Q 2 = 1 := by unfold even; rw [hP2, hQ2, show P 2 = 0 from rfl, show Q 2 = 0 from rfl]; norm_num
    have hn : Orbitals.norm (even P Q) ≠ 0 := by
      rw [Ne, onorm_eq_zero]
      intro h
      have := h 0
      rw [v0] at this
      exact one_ne_zero this
    refine ⟨fun k => even P Q k / Orbitals.norm (even P Q), ?_, fun e he => ?_⟩
    · unfold calcOrbitals post
      simp only [if_true, hs, Equiv.coe_refl, Function.comp_id, Bool.false_eq_true, if_false]
      rw [h0]
      unfold Orbitals.unit
      rw [if_neg hn]
    · have a0 := he 0
      have a2 := he 2
      simp only [v0, v2, zero_mul, Finset.sum_const_zero, zero_add, one_mul] at a0 a2
      have hV0 : V 0 = -2 := rfl
      have hV2 : V 2 = 3 := rfl
      rw [hV0] at a0
      rw [hV2] at a2
      have hpos : (1 : ℝ) / Orbitals.norm (even P Q) ≠ 0 := by positivity
      have := mul_right_cancel₀ hpos a0
      have := mul_right_cancel₀ hpos a2
      linarith

end

/-! ## Filling from below -/

section
variable {K : Type*} [Field K] [LinearOrder K] [IsStrictOrderedRing K] [FloorRing K] {G : Grid K}

theorem Spec.fill_eq_one (fr : Bool) (x : K) (hx : 0 ≤ x) (i : ℕ) (h : i + 1 < needed fr x) :
    fill fr x i = 1 := by
  have h0 : 0 ≤ ⌊x⌋ := Int.floor_nonneg.mpr hx
  cases fr with
  | false =>
    simp only [needed, Bool.false_eq_true, if_false] at h
    simp only [fill, Bool.false_eq_true, if_false, fillingWhole_eq x hx]
    rw [if_pos (by omega)]
  | true =>
    simp only [needed, if_true] at h
    simp only [fill, if_true, filling_eq x hx]
    have := Int.ceil_le_floor_add_one x
    rw [if_pos (by omega), if_neg (by omega), add_zero]

/-- C99, lowest energy: with ascending eigenvalues, no other way of placing the same number of
electrons on the orbitals, at most the capacity on each, has a smaller sum of orbital energies than
the `eks` of `calc_energy`. -/
theorem C99_lowest (s : Solver G) (hp : s.pol = 1 ∨ s.pol = 2) (hN : 0 ≤ s.N) (e : List K)
    (he : s.eig = some e) (hsort : e.Pairwise (· ≤ ·)) (E : K) (hE : s.calcEks = .ok E)
    (g : Fin e.length → K) (hg0 : ∀ i, 0 ≤ g i)
    (hg1 : ∀ i, g i ≤ (orbitalCapacity s.m (s.pol = 2) : K))
    (hsum : ∑ i, g i = if s.fractional then s.N
      else (orbitalCapacity s.m (s.pol = 2) : K) * ⌊s.N / (orbitalCapacity s.m (s.pol = 2) : K)⌋) :
    E ≤ ∑ i, g i * e[i.1] := by
  rw [← scale_eq s hp] at hg1 hsum
  have hx : 0 ≤ s.N / s.scale := div_nonneg hN s.scale_pos.le
  rw [calcEks_eq s hN e he] at hE
  split at hE
  swap
  · cases hE
  next hlen =>
  injection hE with hE
  set x := s.N / s.scale with hxd
  set fr := s.fractional with hfr
  have htot : ∑ i : Fin e.length, s.scale * fill fr x i.1 = ∑ i, g i := by
    rw [← Finset.mul_sum, sum_fill_one fr x hx _ hlen, hsum]
    cases fr with
    | false => simp
    | true => simp only [if_true, hxd]; field_simp [s.scale_pos.ne']
  have hmono : ∀ i j (hi : i < e.length) (hj : j < e.length), i ≤ j → e[i] ≤ e[j] := by
    intro i j hi hj hij
    rcases Nat.eq_or_lt_of_le hij with h | h
    · subst h; exact le_refl _
    · exact List.pairwise_iff_getElem.mp hsort i j hi hj h
  -- the energy that separates filled from empty orbitals
  obtain ⟨c, hc1, hc2⟩ : ∃ c : K, (∀ i : Fin e.length, fill fr x i.1 ≠ 1 → c ≤ e[i.1]) ∧
      ∀ i : Fin e.length, fill fr x i.1 ≠ 0 → e[i.1] ≤ c := by
    by_cases h0 : needed fr x = 0
    · by_cases hl : 0 < e.length
      · refine ⟨e[0], fun i _ => hmono _ _ _ _ (Nat.zero_le _), fun i hi => ?_⟩
        have := (fill_ne_zero fr x hx i.1).mp hi
        omega
      · exact ⟨0, fun i => absurd i.2 (by omega), fun i => absurd i.2 (by omega)⟩
    · refine ⟨e[needed fr x - 1], fun i hi => hmono _ _ _ _ ?_, fun i hi => hmono _ _ _ _ ?_⟩
      · by_contra hlt
        exact hi (fill_eq_one fr x hx i.1 (by omega))
      · have := (fill_ne_zero fr x hx i.1).mp hi
        omega
  have hterm : ∀ i : Fin e.length, 0 ≤ (g i - s.scale * fill fr x i.1) * (e[i.1] - c) := by
    intro i
    by_cases h1 : fill fr x i.1 = 1
    · have := hc2 i (by rw [h1]; exact one_ne_zero)
      rw [h1, mul_one]
      exact mul_nonneg_of_nonpos_of_nonpos (by linarith [hg1 i]) (by linarith)
    · have a1 := hc1 i h1
      by_cases h0 : fill fr x i.1 = 0
      · rw [h0, mul_zero, sub_zero]
        exact mul_nonneg (hg0 i) (by linarith)
      · have a2 := hc2 i h0
        rw [show e[i.1] - c = 0 by linarith, mul_zero]
  have hall := Finset.sum_nonneg fun i (_ : i ∈ Finset.univ) => hterm i
  have hexp : ∑ i : Fin e.length, (g i - s.scale * fill fr x i.1) * (e[i.1] - c) =
      ∑ i, g i * e[i.1] - s.scale * ∑ i : Fin e.length, fill fr x i.1 * e[i.1] -
        (∑ i, g i - ∑ i : Fin e.length, s.scale * fill fr x i.1) * c := by
    rw [← Finset.sum_sub_distrib, Finset.sum_mul, Finset.mul_sum, ← Finset.sum_sub_distrib,
      ← Finset.sum_sub_distrib]
    exact Finset.sum_congr rfl fun i _ => by ring
  rw [hexp, htot, sub_self, zero_mul, sub_zero, hE] at hall
  linarith

/-! ## Concrete cases -/

end

/-- A symmetric problem on three points: a potential well in the middle, no kinetic energy; the
eigensolver returns the highest state first and a combination of the two ends. -/
noncomputable def C99_answer : ℕ → (Fin 2 → ℝ) × (Fin 2 → Orb C99_grid) :=
  fun _ => (![1, -4], ![some ![2, 0, 1], some ![0, 3, 0]])

example : Spec.Symmetric (G := C99_grid) (fun _ _ => 0) ![1, -4, 1] :=
  ⟨fun _ _ => rfl, fun _ => rfl, fun k => by fin_cases k <;> rfl⟩

/-- The two states come back in the other order, as non-zero solutions of definite parity. -/
example : (calcOrbitals true C99_answer 0).1 0 ≤ (calcOrbitals true C99_answer 0).1 1 ∧
    ∀ i, ∃ p, (calcOrbitals true C99_answer 0).2 i = some p ∧
      SolvesAt (fun _ _ => 0) ![1, -4, 1] ((calcOrbitals true C99_answer 0).1 i) p ∧
      (∃ k, p k ≠ 0) ∧ HasParity p := by
  refine ⟨(C99_order_partial true C99_answer).1 (by decide), fun i => ?_⟩
  refine C99_nonzero C99_answer 0 ?_ ⟨fun _ _ => rfl, fun _ => rfl, fun k => by fin_cases k <;> rfl⟩ ?_ i
  · intro i j hij
    fin_cases i <;> fin_cases j <;> first | exact absurd rfl hij | norm_num [C99_answer, abs_of_pos, abs_of_neg]
  · intro i
    fin_cases i
    · refine ⟨![2, 0, 1], rfl, fun k => ?_, 0, by simp⟩
      fin_cases k <;> norm_num [C99_answer]
    · refine ⟨![0, 3, 0], rfl, fun k => ?_, 1, by simp⟩
      fin_cases k <;> norm_num [C99_answer]

/-- Three electrons, capacity 2: the lowest arrangement is `2·(-5) + 1·(-1) = -11`; spreading them as
`1.5, 1.5` is not lower. -/
example : (-11 : ℚ) ≤ 3 / 2 * (-5) + 3 / 2 * (-1) := by
  have h := C99_lowest (⟨2, 3, 0, 1, true, false, none, some [-5, -1], none⟩ : Solver (Grid.tiny ℚ))
    (.inl rfl) (by norm_num) [-5, -1] rfl (by simp) (-11) (by decide +kernel) (fun _ => 3 / 2)
    (fun _ => by norm_num) (fun _ => by norm_num [orbitalCapacity]) (by norm_num)
  have h2 : ∑ i : Fin [(-5 : ℚ), -1].length, (3 / 2 : ℚ) * [(-5 : ℚ), -1][i.1] =
      3 / 2 * (-5) + 3 / 2 * (-1) := Fin.sum_univ_two _
  exact h.trans_eq h2

end Verif
