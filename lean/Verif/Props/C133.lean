import Verif.Model.EigenStart
import Verif.Lemmas.KsEnergy
import Verif.Props.C28_C30
import Verif.Props.C83
import Verif.Props.C104

/-!
# C133: the starting energies of the eigenvalue search

`calc_orbitals` finds the lowest states if it starts below all energies (`C104_minimum_partial`).
-/

namespace Verif
open Spec FD Init Ops

section table
variable {K : Type} [_root_.Field K] [LinearOrder K] [IsStrictOrderedRing K] [FloorRing K]

theorem KS.init_table {lower : String → String} {coerce : Opt.Kind → Opt.Val → Option Opt.Val} {G : Grid K}
    {coul : K → K → G.Fld} {a : K} {r c r' c' p : ℕ} {Za Zb : K} {Nmo : Fin r × Fin c → ℕ} {N : Fin r' × Fin c' → K}
    {opt : Opt.Dict} {ks : KS G r c p} (h : KS.init lower coerce G coul a p Za Zb Nmo N opt = .ok ks) :
    ks.Za = Za ∧ ks.Zb = Zb ∧ ∀ w, (ks.solver w).m = w.1.1 := by
  unfold KS.init at h
  rw [Py.do_eq_ok] at h
  obtain ⟨o, -, h⟩ := h
  split at h
  swap
  · cases h
  rw [Py.do_eq_ok] at h
  obtain ⟨tab, ht, h⟩ := h
  split at h
  swap
  · cases h
  next hall =>
  obtain rfl := Except.ok.inj h
  refine ⟨rfl, rfl, fun w => ?_⟩
  rw [pssolver_eq] at ht
  have hex : ∀ w, ∃ s, pssolverEntry lower coerce G Nmo N (Opt.solverDict o) w none = .ok s := by
    intro w
    refine foldlM_all _ (fun w => ∃ s, pssolverEntry lower coerce G Nmo N (Opt.solverDict o) w none = .ok s) ?_ _ _ _ ht w
      (mem_rowMajor w)
    intro s w s' h
    rw [Py.do_eq_ok] at h
    obtain ⟨z, hz, -⟩ := h
    exact ⟨z, hz⟩
  choose g hg using hex
  rw [foldlM_update _ nodup_rowMajor _ _ g fun w _ => hg w] at ht
  obtain rfl := Except.ok.inj ht
  have hw := hg w
  simp only [mem_rowMajor, if_true]
  unfold pssolverEntry at hw
  simp only [Py.do_eq_ok, Py.pure_eq_ok] at hw
  obtain ⟨n, -, s, hs, hw⟩ := hw
  have hs' : s.m = w.1.1 := by
    unfold Solver.init at hs
    rw [Py.do_eq_ok] at hs
    obtain ⟨o', -, hs⟩ := hs
    split at hs
    · cases hs
    · obtain rfl := Except.ok.inj hs
      rfl
  have : ∀ (x : Option (Solver G)) (hx : x.isSome = true), x = some s → (x.get hx).m = w.1.1 := by
    rintro _ _ rfl
    exact hs'
  exact this _ _ hw.symm

theorem foldl_update {α β : Type*} [DecidableEq α] (f : α → β) (l : List α) (e : α → β) (w : α) :
    l.foldl (fun e w => Function.update e w (f w)) e w = if w ∈ l then f w else e w := by
  induction l generalizing e with
  | nil => simp
  | cons a l ih =>
    rw [List.foldl_cons, ih]
    by_cases h : w ∈ l
    · simp [h]
    · by_cases h' : w = a
      · subst h'; simp [h]
      · simp [h, h']

/-- C133, values: solver `(i,j)` of a Kohn-Sham object starts at minus the square of the larger charge, times 3/2 without
interaction, divided by `(i+1)²`; exchanging the nuclei changes nothing, and dividing the charges by `x` divides
the starts by `x²`. -/
theorem C133_values (lower : String → String) (coerce : Opt.Kind → Opt.Val → Option Opt.Val) (G : Grid K)
    (coul : K → K → G.Fld) (a : K) {r c r' c' : ℕ} (p : ℕ) (Za Zb : K) (Nmo : Fin r × Fin c → ℕ) (N : Fin r' × Fin c' → K)
    (opt : Opt.Dict) (ks : KS G r c p) (h : KS.init lower coerce G coul a p Za Zb Nmo N opt = .ok ks) :
    (∀ i j, ks.starts (i, j) = -((if ks.kind = .ni then 3 / 2 else 1) * max Za Zb ^ 2 / ((i.1 : K) + 1) ^ 2)) ∧
    (∀ ks', KS.init lower coerce G coul a p Zb Za Nmo N opt = .ok ks' → ks'.starts = ks.starts) ∧
    ∀ x, 0 < x → ∀ ks', KS.init lower coerce G coul a p (Za / x) (Zb / x) Nmo N opt = .ok ks' →
      ∀ w, ks'.starts w = ks.starts w / x ^ 2 := by
  have key : ∀ {Za Zb : K} {ks : KS G r c p}, KS.init lower coerce G coul a p Za Zb Nmo N opt = .ok ks →
      ∀ w, ks.starts w = -((if ks.kind = .ni then 3 / 2 else 1) * max Za Zb ^ 2 / ((w.1.1 : K) + 1) ^ 2) := by
    intro Za Zb ks h w
    obtain ⟨e1, e2, e3⟩ := KS.init_table h
    unfold KS.starts
    rw [foldl_update (fun w => KS.startOf ks.kind ks.Za ks.Zb (ks.solver w).m), if_pos (mem_rowMajor w), e1, e2, e3]
    unfold KS.startOf
    split <;> ring
  have kind : ∀ {Za Zb Za' Zb' : K} {ks ks' : KS G r c p}, KS.init lower coerce G coul a p Za Zb Nmo N opt = .ok ks →
      KS.init lower coerce G coul a p Za' Zb' Nmo N opt = .ok ks' → ks'.kind = ks.kind := by
    intro Za Zb Za' Zb' ks ks' h h'
    unfold KS.init at h h'
    rw [Py.do_eq_ok] at h h'
    obtain ⟨o, ho, h⟩ := h
    obtain ⟨o', ho', h'⟩ := h'
    obtain rfl : o = o' := Except.ok.inj (ho.symm.trans ho')
    split at h
    swap
    · cases h
    rw [Py.do_eq_ok] at h
    obtain ⟨t, -, h⟩ := h
    rename_i hrc
    rw [if_pos hrc, Py.do_eq_ok] at h'
    obtain ⟨t', -, h'⟩ := h'
    split at h
    swap
    · cases h
    split at h'
    swap
    · cases h'
    obtain rfl := Except.ok.inj h
    obtain rfl := Except.ok.inj h'
    rfl
  refine ⟨fun i j => key h (i, j), fun ks' h' => funext fun w => ?_, fun x hx ks' h' w => ?_⟩
  · rw [key h', key h, kind h h', max_comm]
  · rw [key h', key h, kind h h', max_div_div_right hx.le]
    field_simp

end table

section
variable {NP NMa NMr : ℕ} {a L : ℝ} {wa : Fin (NC.npts NP NMa) → ℝ} {wr : Fin (NC.npts NP NMr) → ℝ}
  {ds1 ds2 : Fin (2 * 1 + 1) → ℝ}

/-- C133, grid points away from the nuclei, partial: if no grid point is nearer than `ρ` to a nucleus and
`(Za + Zb) (m+1)² ≤ f max(Za,Zb)² ρ`, `f` being 3/2 without interaction and 1 otherwise, the start is below all energies of
every potential that is not below that of the nuclei.  Missing: grid points near the nuclei (see `C133_heavy_partial`),
and as in `C104_exists_partial`. -/
theorem C133_below_partial (ha : 0 < a) (hL : 0 < L) (hf : FineRadial (hr (NC.npts NP NMr) L))
    (hds1 : FDC.Returns (fun i => ((centred 1 i : ℤ) : ℝ)) 1 (.ok ds1))
    (hds2 : FDC.Returns (fun i => ((centred 1 i : ℤ) : ℝ)) 2 (.ok ds2)) (m : ℕ) :
    ∃ R, build (NC.npts NP NMa) (NC.npts NP NMr) 1 a L (centred 1) ds1 ds2 = .ok R ∧
      let G := mkGrid NP NMa NMr a L wa wr
      ∀ (kind : Interaction) (Za Zb ρ : ℝ) (v : G.Fld), 0 ≤ Za → 0 ≤ Zb → 0 < ρ →
        (∀ k : G.Ix, (Za ≠ 0 → ρ ≤ Spec.dist (Y G.Na G.Nr a L k) (Z G.Na G.Nr a L k) (-a)) ∧
          (Zb ≠ 0 → ρ ≤ Spec.dist (Y G.Na G.Nr a L k) (Z G.Na G.Nr a L k) a)) →
        (Za + Zb) * ((m : ℝ) + 1) ^ 2 ≤ (if kind = .ni then 3 / 2 else 1) * max Za Zb ^ 2 * ρ →
        (∀ k, nuclear G a L Za Zb k ≤ v k) →
        Below (G := G) (Solver.hamiltonian m R.elap R.olap (Init.w _ _ a L) (Init.f _ _ a L)) v (KS.startOf kind Za Zb m) := by
  obtain ⟨R, hR, h⟩ := C104_below_partial (wa := wa) (wr := wr) ha hL hf hds1 hds2 m
  refine ⟨R, hR, fun kind Za Zb ρ v hA hB hρ hd hz hv => h v _ (.inl fun k => le_trans ?_ (hv k))⟩
  obtain ⟨d1, d2⟩ := hd k
  obtain ⟨p1, p2, -⟩ := C05_coulomb a L Za Zb ha hL k
  have hm : (0 : ℝ) < ((m : ℝ) + 1) ^ 2 := by positivity
  have e1 : Za / Spec.dist (Y _ _ a L k) (Z _ _ a L k) (-a) ≤ Za / ρ := by
    rcases eq_or_ne Za 0 with rfl | h0
    · simp
    · exact div_le_div_of_nonneg_left hA hρ (d1 h0)
  have e2 : Zb / Spec.dist (Y _ _ a L k) (Z _ _ a L k) a ≤ Zb / ρ := by
    rcases eq_or_ne Zb 0 with rfl | h0
    · simp
    · exact div_le_div_of_nonneg_left hB hρ (d2 h0)
  have e3 : Za / ρ + Zb / ρ ≤ (if kind = .ni then 3 / 2 else 1) * max Za Zb ^ 2 / ((m : ℝ) + 1) ^ 2 := by
    rw [← add_div, div_le_div_iff₀ hρ hm]
    exact hz
  have e4 : KS.startOf kind Za Zb m = -((if kind = .ni then 3 / 2 else 1) * max Za Zb ^ 2 / ((m : ℝ) + 1) ^ 2) := by
    unfold KS.startOf
    split <;> ring
  rw [e4]
  unfold Spec.nuclear
  rw [neg_div]
  change -_ ≤ -(Za / Spec.dist (Y _ _ a L k) (Z _ _ a L k) (-a)) - Zb / Spec.dist (Y _ _ a L k) (Z _ _ a L k) a
  linarith

/-- C133, heavy nuclei, partial: on a given grid the starts are below all energies for all sufficiently large charges.
Missing: small charges, and as in `C104_exists_partial`. -/
theorem C133_heavy_partial (ha : 0 < a) (hL : 0 < L) (hf : FineRadial (hr (NC.npts NP NMr) L))
    (hds1 : FDC.Returns (fun i => ((centred 1 i : ℤ) : ℝ)) 1 (.ok ds1))
    (hds2 : FDC.Returns (fun i => ((centred 1 i : ℤ) : ℝ)) 2 (.ok ds2)) (m : ℕ) :
    ∃ R, build (NC.npts NP NMa) (NC.npts NP NMr) 1 a L (centred 1) ds1 ds2 = .ok R ∧
      let G := mkGrid NP NMa NMr a L wa wr
      ∃ Z₀ : ℝ, ∀ (kind : Interaction) (Za Zb : ℝ) (v : G.Fld), 0 ≤ Za → 0 ≤ Zb → Z₀ ≤ max Za Zb →
        (∀ k, nuclear G a L Za Zb k ≤ v k) →
        Below (G := G) (Solver.hamiltonian m R.elap R.olap (Init.w _ _ a L) (Init.f _ _ a L)) v (KS.startOf kind Za Zb m) := by
  obtain ⟨R, hR, h⟩ := C133_below_partial (wa := wa) (wr := wr) ha hL hf hds1 hds2 m
  refine ⟨R, hR, ?_⟩
  -- the smallest distance
  obtain ⟨ρ, hρ, hd⟩ : ∃ ρ : ℝ, 0 < ρ ∧ ∀ k : Fin (NC.npts NP NMa * NC.npts NP NMr),
      ρ ≤ Spec.dist (Y _ _ a L k) (Z _ _ a L k) (-a) ∧ ρ ≤ Spec.dist (Y _ _ a L k) (Z _ _ a L k) a := by
    have : Nonempty (Fin (NC.npts NP NMa * NC.npts NP NMr)) := ⟨⟨0, Nat.mul_pos (Nat.succ_pos _) (Nat.succ_pos _)⟩⟩
    obtain ⟨k₁, h₁⟩ := Finite.exists_min fun k : Fin (NC.npts NP NMa * NC.npts NP NMr) =>
      min (Spec.dist (Y _ _ a L k) (Z _ _ a L k) (-a)) (Spec.dist (Y _ _ a L k) (Z _ _ a L k) a)
    obtain ⟨p1, p2, -⟩ := C05_coulomb a L 1 1 ha hL k₁
    exact ⟨_, lt_min p1 p2, fun k => le_min_iff.1 (h₁ k)⟩
  refine ⟨2 * ((m : ℝ) + 1) ^ 2 / ρ, fun kind Za Zb v hA hB hZ hv => h kind Za Zb ρ v hA hB hρ
    (fun k => ⟨fun _ => (hd k).1, fun _ => (hd k).2⟩) ?_ hv⟩
  have hmax : 0 ≤ max Za Zb := hA.trans (le_max_left _ _)
  rw [div_le_iff₀ hρ] at hZ
  have hf : (1 : ℝ) ≤ if kind = .ni then 3 / 2 else 1 := by split <;> norm_num
  have h1 : Za + Zb ≤ 2 * max Za Zb := by linarith [le_max_left Za Zb, le_max_right Za Zb]
  calc (Za + Zb) * ((m : ℝ) + 1) ^ 2 ≤ 2 * max Za Zb * ((m : ℝ) + 1) ^ 2 := mul_le_mul_of_nonneg_right h1 (by positivity)
    _ = max Za Zb * (2 * ((m : ℝ) + 1) ^ 2) := by ring
    _ ≤ max Za Zb * (max Za Zb * ρ) := mul_le_mul_of_nonneg_left hZ hmax
    _ = 1 * max Za Zb ^ 2 * ρ := by ring
    _ ≤ _ := mul_le_mul_of_nonneg_right (mul_le_mul_of_nonneg_right hf (sq_nonneg _)) hρ.le

/-- C133, a test that the start fails: an energy is not above the expectation value at any grid point. -/
theorem C133_point_partial (ha : 0 < a) (hL : 0 < L) (hf : FineRadial (hr (NC.npts NP NMr) L))
    (hds1 : FDC.Returns (fun i => ((centred 1 i : ℤ) : ℝ)) 1 (.ok ds1))
    (hds2 : FDC.Returns (fun i => ((centred 1 i : ℤ) : ℝ)) 2 (.ok ds2)) (m : ℕ) :
    ∃ R, build (NC.npts NP NMa) (NC.npts NP NMr) 1 a L (centred 1) ds1 ds2 = .ok R ∧
      let G := mkGrid NP NMa NMr a L wa wr
      let H0 : G.Ix → G.Ix → ℝ := Solver.hamiltonian m R.elap R.olap (Init.w _ _ a L) (Init.f _ _ a L)
      ∀ (v : G.Fld) (σ : ℝ), Below H0 v σ → ∀ k, σ ≤ H0 k k / G.w k + v k := by
  obtain ⟨R, hR, hgr⟩ := C103_ground_partial (wa := wa) (wr := wr) ha hL hf hds1 hds2 m
  obtain ⟨R', hR', d, hd, -, hvar⟩ := C103_variational_partial (wa := wa) (wr := wr) ha hL hf hds1 hds2 m
  obtain rfl : R = R' := Except.ok.inj (hR.symm.trans hR')
  refine ⟨R, hR, fun v σ hb k => ?_⟩
  obtain ⟨e, p, hp, hl, hpos, -⟩ := hgr v
  have hσ := hb e p hp ⟨k, (hpos k).ne'⟩
  refine hσ.trans ?_
  have hw : 0 < Init.w (NC.npts NP NMa) (NC.npts NP NMr) a L k := Three.w_pos ha hL k
  have hdk := hd k
  have := hvar v e hl (Pi.single k 1)
  rw [Finset.sum_eq_single k (fun l _ hl => by simp [Pi.single_eq_of_ne hl]) (fun h => absurd (Finset.mem_univ _) h),
    Finset.sum_eq_single k (fun l _ hl => by simp [Pi.single_eq_of_ne hl]) (fun h => absurd (Finset.mem_univ _) h),
    Finset.sum_eq_single k (fun l _ hl => by simp [Pi.single_eq_of_ne hl]) (fun h => absurd (Finset.mem_univ _) h)] at this
  simp only [Pi.single_eq_same, one_pow, mul_one] at this
  have hw' : 0 < (mkGrid NP NMa NMr a L wa wr).w k := hw
  rw [div_add' _ _ _ hw'.ne', le_div_iff₀ hw']
  nlinarith

/-- C133 is false for potentials that contain a second nucleus: whatever the start, the rest of the potential and the
weight of the other nucleus, there are energies below the start once its charge is large.  The start of a fragment does not
see the nucleus of the other fragment; the starts of `linresponse` and of solvers made with `Pssolver` see none. -/
theorem C133_refuted (ha : 0 < a) (hL : 0 < L) (hf : FineRadial (hr (NC.npts NP NMr) L))
    (hds1 : FDC.Returns (fun i => ((centred 1 i : ℤ) : ℝ)) 1 (.ok ds1))
    (hds2 : FDC.Returns (fun i => ((centred 1 i : ℤ) : ℝ)) 2 (.ok ds2)) (m : ℕ) :
    ∃ R, build (NC.npts NP NMa) (NC.npts NP NMr) 1 a L (centred 1) ds1 ds2 = .ok R ∧
      let G := mkGrid NP NMa NMr a L wa wr
      ∀ (v t : G.Fld) (σ : ℝ), (∃ k, 0 < t k) → ∃ Z₀ : ℝ, ∀ Z ≥ Z₀, ¬ Below (G := G)
        (Solver.hamiltonian m R.elap R.olap (Init.w _ _ a L) (Init.f _ _ a L)) (fun k => v k + t k * nuclear G a L 0 Z k) σ := by
  obtain ⟨R, hR, h⟩ := C133_point_partial (wa := wa) (wr := wr) ha hL hf hds1 hds2 m
  refine ⟨R, hR, fun v t σ ht => ?_⟩
  obtain ⟨k, hk⟩ := ht
  obtain ⟨-, p2, -⟩ := C05_coulomb a L 0 1 ha hL k
  set r := Spec.dist (Y (NC.npts NP NMa) (NC.npts NP NMr) a L k) (Z (NC.npts NP NMa) (NC.npts NP NMr) a L k) a with hr
  set x := Solver.hamiltonian m R.elap R.olap (Init.w (NC.npts NP NMa) (NC.npts NP NMr) a L)
    (Init.f (NC.npts NP NMa) (NC.npts NP NMr) a L) k k / Init.w (NC.npts NP NMa) (NC.npts NP NMr) a L k with hx
  refine ⟨(|x + v k - σ| + 1) * r / t k, fun Z hZ hb => ?_⟩
  have h1 : σ ≤ x + (v k + t k * nuclear (mkGrid NP NMa NMr a L wa wr) a L 0 Z k) := h _ σ hb k
  have h2 : nuclear (mkGrid NP NMa NMr a L wa wr) a L 0 Z k = -(Z / r) := by
    unfold Spec.nuclear
    rw [neg_zero, zero_div, zero_sub]
  rw [h2] at h1
  rw [ge_iff_le, div_le_iff₀ hk] at hZ
  have h3 : |x + v k - σ| + 1 ≤ t k * (Z / r) := by
    rw [← mul_div_assoc, le_div_iff₀ p2]
    linarith
  have h4 := le_abs_self (x + v k - σ)
  linarith

/-- The default start and that of `linresponse` fail for the molecule as soon as one nucleus is heavy enough. -/
theorem C133_linresponse_refuted (ha : 0 < a) (hL : 0 < L) (hf : FineRadial (hr (NC.npts NP NMr) L))
    (hds1 : FDC.Returns (fun i => ((centred 1 i : ℤ) : ℝ)) 1 (.ok ds1))
    (hds2 : FDC.Returns (fun i => ((centred 1 i : ℤ) : ℝ)) 2 (.ok ds2)) (m : ℕ) :
    ∃ R, build (NC.npts NP NMa) (NC.npts NP NMr) 1 a L (centred 1) ds1 ds2 = .ok R ∧
      let G := mkGrid NP NMa NMr a L wa wr
      ∀ (Za : ℝ), ∃ Z₀ : ℝ, ∀ Zb ≥ Z₀, ∀ (r c : ℕ) (sym : Bool) (e : Fin r × Fin c → ℝ) (w : Fin r × Fin c),
        (sym = true → w.2.1 = 0) → ¬ Below (G := G)
        (Solver.hamiltonian m R.elap R.olap (Init.w _ _ a L) (Init.f _ _ a L)) (nuclear G a L Za Zb) (linresponseStarts sym c e w) := by
  obtain ⟨R, hR, h⟩ := C133_refuted (wa := wa) (wr := wr) ha hL hf hds1 hds2 m
  refine ⟨R, hR, fun Za => ?_⟩
  obtain ⟨Z₀, h0⟩ := h (nuclear _ a L Za 0) (fun _ => 1) (-20) ⟨⟨0, Nat.mul_pos (Nat.succ_pos _) (Nat.succ_pos _)⟩, one_pos⟩
  refine ⟨Z₀, fun Zb hZ r c sym e w hw hb => h0 Zb hZ ?_⟩
  have e1 : linresponseStarts sym c e w = -20 := by
    unfold linresponseStarts
    rw [if_pos]
    cases sym with
    | true => exact hw rfl
    | false => exact w.2.2
  rw [e1] at hb
  have e2 : (fun k => nuclear (mkGrid NP NMa NMr a L wa wr) a L Za 0 k + 1 * nuclear (mkGrid NP NMa NMr a L wa wr) a L 0 Zb k) =
      nuclear (mkGrid NP NMa NMr a L wa wr) a L Za Zb := by
    funext k
    unfold Spec.nuclear
    ring
  rw [e2]
  exact hb

/-- A molecule with two nuclei of charge 2 at the distance 16 without interaction: no point of a grid of three by five points
is nearer than 1 to a nucleus. -/
example : ∃ R, build (NC.npts 3 1) (NC.npts 3 2) 1 8 5 (centred 1) (![-1/2, 0, 1/2] : Fin (2 * 1 + 1) → ℝ) ![1, -2, 1] = .ok R ∧
    let G := mkGrid 3 1 2 8 5 (fun _ => 1) (fun _ => 1)
    Below (G := G) (Solver.hamiltonian 0 R.elap R.olap (Init.w _ _ 8 5) (Init.f _ _ 8 5)) (nuclear G 8 5 2 2) (-6) := by
  have hf : FineRadial (hr (NC.npts 3 2) 5) :=
    fineRadial_of_le (by rw [hr_eq]; norm_num [NC.npts]) (by rw [hr_eq]; norm_num [NC.npts])
  obtain ⟨R, hR, h⟩ := C133_below_partial (NP := 3) (NMa := 1) (NMr := 2) (a := 8) (L := 5) (wa := fun _ => 1)
    (wr := fun _ => 1) (by norm_num) (by norm_num) hf FD.three_point FD.three_point2 0
  refine ⟨R, hR, ?_⟩
  have e : KS.startOf .ni (2 : ℝ) 2 0 = -6 := by norm_num [KS.startOf]
  rw [← e]
  refine h .ni 2 2 1 _ (by norm_num) (by norm_num) one_pos (fun k => ?_) (by norm_num) fun _ => le_rfl
  have hx : (1 : ℝ) / 2 ≤ Xr (NC.npts 3 1) (NC.npts 3 2) 5 k := by
    unfold Xr
    rw [xr_eq]
    have : (0 : ℝ) ≤ ((ir k).1 : ℝ) := Nat.cast_nonneg _
    norm_num [NC.npts]
  have hc : (9 : ℝ) / 8 ≤ Real.cosh (Xr (NC.npts 3 1) (NC.npts 3 2) 5 k) := by
    have h1 : Real.cosh (Xr (NC.npts 3 1) (NC.npts 3 2) 5 k) = 1 + 2 * Real.sinh (Xr (NC.npts 3 1) (NC.npts 3 2) 5 k / 2) ^ 2 := by
      have := Real.cosh_two_mul (Xr (NC.npts 3 1) (NC.npts 3 2) 5 k / 2)
      rw [Real.cosh_sq, mul_div_cancel₀ _ (two_ne_zero)] at this
      linarith
    have h2 : (1 : ℝ) / 4 ≤ Real.sinh (Xr (NC.npts 3 1) (NC.npts 3 2) 5 k / 2) :=
      le_trans (by linarith) (Real.self_le_sinh_iff.mpr (by linarith))
    nlinarith
  have h3 := Real.neg_one_le_cos (Xa (NC.npts 3 1) (NC.npts 3 2) k)
  have h4 := Real.cos_le_one (Xa (NC.npts 3 1) (NC.npts 3 2) k)
  constructor <;> intro _
  · exact le_of_le_of_eq (by linarith) (distA 8 5 (by norm_num) k).symm
  · exact le_of_le_of_eq (by linarith) (distB 8 5 (by norm_num) k).symm

/-- On the same grid: the start of a hydrogen fragment is above an energy of the molecule once the other nucleus is heavy. -/
example : ∃ R, build (NC.npts 3 1) (NC.npts 3 2) 1 8 5 (centred 1) (![-1/2, 0, 1/2] : Fin (2 * 1 + 1) → ℝ) ![1, -2, 1] = .ok R ∧
    let G := mkGrid 3 1 2 8 5 (fun _ => 1) (fun _ => 1)
    ∃ Z₀ : ℝ, ∀ Z ≥ Z₀, ¬ Below (G := G) (Solver.hamiltonian 0 R.elap R.olap (Init.w _ _ 8 5) (Init.f _ _ 8 5))
      (fun k => nuclear G 8 5 1 0 k + 1 * nuclear G 8 5 0 Z k) (KS.startOf .ni 1 0 0) := by
  have hf : FineRadial (hr (NC.npts 3 2) 5) :=
    fineRadial_of_le (by rw [hr_eq]; norm_num [NC.npts]) (by rw [hr_eq]; norm_num [NC.npts])
  obtain ⟨R, hR, h⟩ := C133_refuted (NP := 3) (NMa := 1) (NMr := 2) (a := 8) (L := 5) (wa := fun _ => 1)
    (wr := fun _ => 1) (by norm_num) (by norm_num) hf FD.three_point FD.three_point2 0
  exact ⟨R, hR, h _ (fun _ => 1) _ ⟨⟨0, by decide⟩, one_pos⟩⟩

/-- The starts of a Kohn-Sham object with charges 1 and 2, two angular momenta. -/
example : (KS.init id (fun _ v => some v) (Grid.tiny ℚ) (fun _ _ _ => 0) 1 (r := 2) (c := 1) (r' := 2) (c' := 1) 1 1 2
    (fun _ => 1) (fun _ => 1) [("interaction_type", .str "ni")]).toOption.map (fun ks => [ks.starts (0, 0), ks.starts (1, 0)]) =
      some [-6, -3 / 2] := by decide +kernel

end
end Verif
