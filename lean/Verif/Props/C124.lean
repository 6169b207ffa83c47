import Verif.Model.RoundedKs
import Verif.Lemmas.RoundedDensity
import Verif.Props.C28_C30
import Verif.Props.C123

/-! # C124: densities of a Kohn-Sham calculation in floating-point arithmetic -/

namespace Verif
open Rounding Spec KS
variable {K : Type} [Field K] [LinearOrder K] [IsStrictOrderedRing K] [FloorRing K] {G : Grid K} {r c p : ℕ}
  {R : Rounding K} {u : K}

namespace Rounded

theorem sumDensities_within (h : R.Precise u) {a : ℕ} {s : Fin r × Fin c → Solver G} {o : Order G.Ix}
    (hs : ∀ w, ∃ n m, (s w).calcDensity = .ok n ∧ calcDensity R o (s w) = .ok m ∧ (∀ k, 0 ≤ n k) ∧ ∀ k, Within u a (m k) (n k))
    {n : G.Cols p} (hn : KS.sumDensities p s = .ok n) :
    ∃ m, sumDensities R o p s = .ok m ∧ (∀ j k, 0 ≤ n j k) ∧ ∀ j k, Within u (a + r * c) (m j k) (n j k) := by
  have hlen : (colMajor r c).length = r * c := by
    unfold colMajor
    simp [List.length_flatMap, Nat.mul_comm]
  have key : ∀ (L : List (Fin r × Fin c)) (x y : G.Cols p) (b : ℕ), (∀ j k, 0 ≤ x j k) → (∀ j k, Within u (a + b) (y j k) (x j k)) →
      (L.foldlM (fun (nout : G.Cols p) w => do
        let n ← (s w).calcDensity
        if h : w.2.1 < p then
          pure (Function.update nout ⟨w.2.1, h⟩ fun k => nout ⟨w.2.1, h⟩ k + n k)
        else .error .indexError) x : Py (G.Cols p)) = .ok n →
      ∃ m, (L.foldlM (fun (nout : G.Cols p) w => do
        let n ← calcDensity R o (s w)
        if h : w.2.1 < p then
          pure (Function.update nout ⟨w.2.1, h⟩ fun k => R.add (nout ⟨w.2.1, h⟩ k) (n k))
        else .error .indexError) y : Py (G.Cols p)) = .ok m ∧ (∀ j k, 0 ≤ n j k) ∧
        ∀ j k, Within u (a + (b + L.length)) (m j k) (n j k) := by
    intro L
    induction L with
    | nil => intro x y b hx hy hL; cases hL; exact ⟨y, rfl, hx, hy⟩
    | cons w L ih =>
      intro x y b hx hy hL
      obtain ⟨n₁, m₁, h1, h2, h3, h4⟩ := hs w
      simp only [List.foldlM_cons, h1, h2] at hL ⊢
      by_cases hw : w.2.1 < p
      · simp only [bind, Except.bind, dif_pos hw, pure, Except.pure] at hL ⊢
        have := ih _ (Function.update y ⟨w.2.1, hw⟩ fun k => R.add (y ⟨w.2.1, hw⟩ k) (m₁ k)) (b + 1) ?_ ?_ hL
        · rwa [show b + 1 + L.length = b + (w :: L).length by rw [List.length_cons]; omega] at this
        · intro j k
          by_cases hj : j = ⟨w.2.1, hw⟩
          · subst hj; simp only [Function.update_self]; exact add_nonneg (hx _ _) (h3 k)
          · rw [Function.update_of_ne hj]; exact hx j k
        · intro j k
          by_cases hj : j = ⟨w.2.1, hw⟩
          · subst hj
            simp only [Function.update_self]
            exact ((hy _ k).add ((h4 k).mono h (by omega) (h3 k))).round h (add_nonneg (hx _ _) (h3 k))
          · rw [Function.update_of_ne hj, Function.update_of_ne hj]
            exact (hy j k).mono h (by omega) (hx j k)
      · simp only [bind, Except.bind, dif_neg hw] at hL
        cases hL
  obtain ⟨m, hm, h1, h2⟩ := key (colMajor r c) (fun _ _ => 0) (fun _ _ => 0) 0 (fun _ _ => le_rfl)
    (fun _ _ => Within.refl h le_rfl _) hn
  rw [hlen, Nat.zero_add] at h2
  exact ⟨m, hm, h1, h2⟩

end Rounded

/-- C124: `Kohnsham.calc_density` with rounding: every column holds the electrons of its solvers up to the factor
`(1 - u)^(depth + filled + 15 + solvers)` (`filled`: bound on the filled shells of a solver), and is not negative; with `sym` it is mirror symmetric to the last
digit. -/
theorem C124_columns (h : R.Precise u) (hG : NoNegativeWeights G) {o : Order G.Ix} (ho : o.Complete) (ks : KS G r c p) (hc : c ≤ p)
    (hpol : ∀ w, (ks.solver w).pol = 1 ∨ (ks.solver w).pol = 2) (hN : ∀ w, 0 ≤ (ks.solver w).N)
    (h2 : ∀ w, R.fl ((ks.solver w).N / 2) = (ks.solver w).N / 2) (h4 : ∀ w, R.fl ((ks.solver w).N / 4) = (ks.solver w).N / 4)
    (hsym : ks.sym = true → MirrorInvariant G) {M : ℕ} (hM : ∀ w, ⌊(ks.solver w).N⌋.toNat ≤ M)
    (d : Fin r × Fin c → Option (Found G)) (f : Fin r × Fin c → Found G) (hd : ∀ w, d w = some (f w))
    (hf : ∀ w, Adequate (ks.solver w) (f w)) :
    ∃ n, Rounded.ksDensity R o ks d = .ok n ∧ (∀ j k, 0 ≤ n j k) ∧ (ks.sym = true → G.mirCols n = n) ∧
      ∀ j : Fin p, let N : K := if h : j.1 < c then ∑ i, electrons (ks.solver (i, ⟨j.1, h⟩)) else 0
        (1 - u) ^ (o.depth + M + 15 + r * c) * N ≤ G.integ (n j) ∧ (1 - u) ^ (o.depth + M + 15 + r * c) * G.integ (n j) ≤ N := by
  obtain ⟨nout, hcd, hint, hpos, -⟩ := C30_density ks hc hpol hN d f hd hf
  have hint := hint hsym
  unfold KS.calcDensity at hcd
  unfold Rounded.ksDensity
  cases hcol : KS.collect d ks.solver with
  | error e => rw [hcol] at hcd; cases hcd
  | ok solver =>
    rw [hcol] at hcd
    simp only [bind, Except.bind] at hcd ⊢
    cases hsum : KS.sumDensities p solver with
    | error e => rw [hsum] at hcd; cases hcd
    | ok raw =>
      rw [hsum] at hcd
      simp only [pure, Except.pure, Except.ok.injEq, Prod.mk.injEq] at hcd
      obtain ⟨hks, hout⟩ := hcd
      have hsol : ∀ w, solver w = { ks.solver w with eig := some (f w).1, phi := (f w).2 } := by
        intro w
        have := congrArg (fun k => k.solver w) hks
        exact this
      obtain ⟨m, hm, hr0, hw⟩ := Rounded.sumDensities_within (R := R) (o := o) (s := solver) h (a := o.depth + M + 13) (by
        intro w
        obtain ⟨n, hn, -, -⟩ := (ks.solver w).density_of_adequate (hpol w) (hN w) (f w) (hf w)
        have key := Rounded.calcDensity_within (R := R) (u := u) h hG ho (solver w) (by rw [hsol]; exact hN w)
          (by rw [hsol]; exact h2 w) (by rw [hsol]; exact h4 w) (by
            intro i q _ hq
            rw [hsol] at hq
            unfold Solver.orb at hq
            simp only at hq
            have had := hf w
            unfold Adequate at had
            cases hl : (f w).2 with
            | none => rw [hl] at hq; cases hq
            | some l =>
              rw [hl] at hq had
              simp only at hq had
              by_cases hil : i < l.length
              · rw [pyGet_ofNat l i hil] at hq
                cases hq
                exact (had.2 _ (List.getElem_mem hil)).ne'
              · rw [pyGet_ofNat_oob l i (by omega)] at hq; cases hq)
        have hn' : (solver w).calcDensity = .ok n := by rw [hsol]; exact hn
        rw [hn'] at key
        obtain ⟨m, hm, hn0, hwm⟩ := key
        refine ⟨n, m, hn', hm, hn0, fun k => (hwm k).mono h ?_ (hn0 k)⟩
        have h1 : (solver w).N / (solver w).scale ≤ (solver w).N := by
          refine div_le_self (by rw [hsol]; exact hN w) ?_
          unfold Solver.scale; split <;> split <;> norm_num
        have h3 := Int.floor_mono h1
        have h5 := hM w
        have h6 : (solver w).N = (ks.solver w).N := by rw [hsol]
        rw [h6] at h3
        rw [h6]
        omega) hsum
      rw [hm]
      simp only [pure, Except.pure]
      have hN0 : ∀ j : Fin p, 0 ≤ G.integ (nout j) := fun j => Rounded.integ_nonneg hG (hpos j)
      cases hsy : ks.sym with
      | false =>
        rw [hsy] at hout
        simp only [Bool.false_eq_true, if_false] at hout ⊢
        subst hout
        refine ⟨m, rfl, fun j k => (hw j k).nonneg h (hr0 j k), fun hh => (nomatch hh), fun j => ?_⟩
        have := Rounded.integ_within hG (hw j)
        rw [hint j] at this
        exact this.mono h (by omega) (by rw [← hint j]; exact hN0 j)
      | true =>
        rw [hsy] at hout
        simp only [if_true] at hout ⊢
        have half : (0 : K) ≤ 1 / 2 := by norm_num
        have hpt : ∀ j k, Within u (o.depth + M + 15 + r * c) (Rounded.symmetrised R m j k) (nout j k) := by
          intro j k
          rw [← hout]
          unfold Rounded.symmetrised KS.symmetrised
          have h1 := ((hw j k).add (hw j (G.mirIx k))).round h (add_nonneg (hr0 j k) (hr0 j _))
          have h3 := ((Within.refl h half 0).mul h half (add_nonneg (hr0 j k) (hr0 j _)) h1).round h
            (mul_nonneg half (add_nonneg (hr0 j k) (hr0 j _)))
          exact Within.mono h (by omega) (mul_nonneg half (add_nonneg (hr0 j k) (hr0 j _))) h3
        refine ⟨_, rfl, fun j k => (hpt j k).nonneg h (hpos j k), fun _ => ?_, fun j => ?_⟩
        · funext j k
          unfold Rounded.symmetrised Grid.mirCols Grid.mir
          dsimp only
          rw [G.mirIx_mirIx, R.add_comm]
        · have := Rounded.integ_within hG (hpt j)
          rw [hint j] at this
          exact this

namespace Rounded

theorem mix_within (h : R.Precise u) {alpha : K} (h0 : 0 ≤ alpha) (h1 : alpha ≤ 1) {n nout : G.Fld} (hn : ∀ k, 0 ≤ n k)
    (hm : ∀ k, 0 ≤ nout k) (k : G.Ix) : Within u 3 (mix R alpha n nout k) ((1 - alpha) * n k + alpha * nout k) := by
  have h1' : 0 ≤ 1 - alpha := sub_nonneg.mpr h1
  have a1 : Within u 2 (R.mul (R.sub 1 alpha) (n k)) ((1 - alpha) * n k) :=
    (((Within.fl h h1').mul h h1' (hn k) (.refl h (hn k) 0)).round h (mul_nonneg h1' (hn k)))
  have a2 : Within u 1 (R.mul alpha (nout k)) (alpha * nout k) := Within.fl h (mul_nonneg h0 (hm k))
  exact (a1.add (a2.mono h (by omega) (mul_nonneg h0 (hm k)))).round h
    (add_nonneg (mul_nonneg h1' (hn k)) (mul_nonneg h0 (hm k)))

theorem integ_mix (alpha : K) (n nout : G.Fld) :
    (G.integ fun k => (1 - alpha) * n k + alpha * nout k) = (1 - alpha) * G.integ n + alpha * G.integ nout := by
  rw [G.integ_add (f := fun k => (1 - alpha) * n k), G.integ_smul, G.integ_smul]

/-- One pass: what is known of the density before and of the output is known of the new density. -/
theorem newDensity_within (h : R.Precise u) (hG : NoNegativeWeights G) {alpha : K} (h0 : 0 ≤ alpha) (h1 : alpha ≤ 1) {sf : Bool}
    {N : Fin p → K} (hN0 : ∀ j, 0 ≤ N j) (hsf : sf = true → MirrorInvariant G ∧ ∀ j, N j.rev = N j) {a : ℕ} {n nout : G.Cols p}
    (hn : ∀ j k, 0 ≤ n j k) (hm : ∀ j k, 0 ≤ nout j k) (wn : ∀ j, Within u a (G.integ (n j)) (N j))
    (wm : ∀ j, Within u a (G.integ (nout j)) (N j)) :
    (∀ j k, 0 ≤ newDensity R alpha sf n nout j k) ∧
      ∀ j, Within u (a + 5) (G.integ (newDensity R alpha sf n nout j)) (N j) := by
  have h1' : 0 ≤ 1 - alpha := sub_nonneg.mpr h1
  have hpos : ∀ j k, 0 ≤ (1 - alpha) * n j k + alpha * nout j k := fun j k =>
    add_nonneg (mul_nonneg h1' (hn j k)) (mul_nonneg h0 (hm j k))
  have hw := fun j k => mix_within h h0 h1 (hn j) (hm j) k
  have hmix : ∀ j, Within u a (G.integ fun k => (1 - alpha) * n j k + alpha * nout j k) (N j) := by
    intro j
    rw [integ_mix]
    have := ((Within.refl h h1' 0).mul h h1' (hN0 j) (wn j)).add ((Within.refl h h0 0).mul h h0 (hN0 j) (wm j))
    rw [Nat.zero_add, show (1 - alpha) * N j + alpha * N j = N j by ring] at this
    exact this
  have hm3 : ∀ j, Within u (3 + a) (G.integ (mix R alpha (n j) (nout j))) (N j) := fun j =>
    (integ_within hG (hw j)).trans h (hmix j)
  have hm0 : ∀ j k, 0 ≤ mix R alpha (n j) (nout j) k := fun j k => (hw j k).nonneg h (hpos j k)
  unfold newDensity
  cases sf with
  | false => exact ⟨hm0, fun j => (hm3 j).mono h (by omega) (hN0 j)⟩
  | true =>
    obtain ⟨hmi, hrev⟩ := hsf rfl
    simp only [if_true]
    set x : G.Cols p := fun s => mix R alpha (n s) (nout s) with hx
    have hp : ∀ j k, 0 ≤ (x j k + x j.rev (G.mirIx k)) / 2 := fun j k =>
      div_nonneg (add_nonneg (hm0 j k) (hm0 _ _)) (by norm_num)
    have hpt : ∀ j k, Within u 2 (spinSymmetrised R x j k) ((x j k + x j.rev (G.mirIx k)) / 2) := by
      intro j k
      have h2 : (0 : K) < 2 := by norm_num
      have hs := add_nonneg (hm0 j k) (hm0 j.rev (G.mirIx k))
      exact ((Within.fl h hs).div h hs h2 (.refl h h2.le 0)).round h (div_nonneg hs h2.le)
    refine ⟨fun j k => (hpt j k).nonneg h (hp j k), fun j => ?_⟩
    have e : (G.integ fun k => (x j k + x j.rev (G.mirIx k)) / 2) = 1 / 2 * G.integ (x j) + 1 / 2 * G.integ (x j.rev) := by
      rw [← hmi (x j.rev), ← G.integ_smul, ← G.integ_smul, ← G.integ_add]
      congr 1
      funext k
      unfold Grid.mir
      ring
    have half : (0 : K) ≤ 1 / 2 := by norm_num
    have h3 : Within u (3 + a) (1 / 2 * G.integ (x j) + 1 / 2 * G.integ (x j.rev)) (N j) := by
      have := ((Within.refl h half 0).mul h half (hN0 j) (hm3 j)).add ((Within.refl h half 0).mul h half (hN0 j.rev) (hm3 j.rev))
      rw [Nat.zero_add, hrev, show 1 / 2 * N j + 1 / 2 * N j = N j by ring] at this
      exact this
    rw [← e] at h3
    have := (integ_within hG (hpt j)).trans h h3
    exact this.mono h (by omega) (hN0 j)

theorem newDensity_mirror (R : Rounding K) (alpha : K) (sf : Bool) {n nout : G.Cols p} (hn : G.mirCols n = n)
    (hm : G.mirCols nout = nout) : G.mirCols (newDensity R alpha sf n nout) = newDensity R alpha sf n nout := by
  have hn' : ∀ j k, n j (G.mirIx k) = n j k := fun j k => congrFun (congrFun hn j) k
  have hm' : ∀ j k, nout j (G.mirIx k) = nout j k := fun j k => congrFun (congrFun hm j) k
  funext j k
  unfold newDensity
  cases sf
  · simp only [Bool.false_eq_true, if_false, Grid.mirCols, Grid.mir, mix, hn', hm']
  · simp only [if_true, Grid.mirCols, Grid.mir, mix, spinSymmetrised, Grid.flipCols, hn', hm']

theorem newDensity_spin (R : Rounding K) (alpha : K) (n nout : G.Cols p) :
    G.mirCols (G.flipCols (newDensity R alpha true n nout)) = newDensity R alpha true n nout := by
  funext j k
  unfold newDensity
  simp only [if_true, Grid.mirCols, Grid.mir, spinSymmetrised, Grid.flipCols, G.mirIx_mirIx, Fin.rev_rev]
  rw [R.add_comm]

end Rounded

/-- C124: whatever orbitals the workers find, after `k` passes of `Kohnsham.scf` (initial guess, mixing, symmetrisation with
`spinflipsym`) every column of the density holds the electrons of its solvers up to the factor
`(1 - u)^(depth + filled + 15 + solvers + 5k)` and is not negative anywhere.  With `sym` it is mirror symmetric, with `spinflipsym`
(after a pass) symmetric under mirror with spin flip, both to the last digit. -/
theorem C124_electrons (h : R.Precise u) (hG : NoNegativeWeights G) {o : Order G.Ix} (ho : o.Complete) (ks : KS G r c p) (hc : c ≤ p)
    (hpol : ∀ w, (ks.solver w).pol = 1 ∨ (ks.solver w).pol = 2) (hN : ∀ w, 0 ≤ (ks.solver w).N)
    (h2 : ∀ w, R.fl ((ks.solver w).N / 2) = (ks.solver w).N / 2) (h4 : ∀ w, R.fl ((ks.solver w).N / 4) = (ks.solver w).N / 4)
    (hsym : ks.sym = true → MirrorInvariant G) {M : ℕ} (hM : ∀ w, ⌊(ks.solver w).N⌋.toNat ≤ M)
    {alpha : K} (h0 : 0 ≤ alpha) (h1 : alpha ≤ 1) {sf : Bool} {N : Fin p → K}
    (hNj : ∀ j : Fin p, N j = if h : j.1 < c then ∑ i, electrons (ks.solver (i, ⟨j.1, h⟩)) else 0)
    (hsf : sf = true → MirrorInvariant G ∧ ∀ j, N j.rev = N j)
    (d₀ : Fin r × Fin c → Option (Found G)) (ds : List (Fin r × Fin c → Option (Found G)))
    (hd : ∀ d ∈ d₀ :: ds, ∀ w, ∃ f, d w = some f ∧ Adequate (ks.solver w) f) :
    ∃ n, Rounded.densities R o ks alpha sf d₀ ds = .ok n ∧ (∀ j k, 0 ≤ n j k) ∧ (ks.sym = true → G.mirCols n = n) ∧
      (sf = true → ds ≠ [] → G.mirCols (G.flipCols n) = n) ∧
      ∀ j, (1 - u) ^ (o.depth + M + 15 + r * c + 5 * ds.length) * N j ≤ G.integ (n j) ∧
        (1 - u) ^ (o.depth + M + 15 + r * c + 5 * ds.length) * G.integ (n j) ≤ N j := by
  have cols : ∀ d ∈ d₀ :: ds, ∃ n, Rounded.ksDensity R o ks d = .ok n ∧ (∀ j k, 0 ≤ n j k) ∧ (ks.sym = true → G.mirCols n = n) ∧
      ∀ j, Within u (o.depth + M + 15 + r * c) (G.integ (n j)) (N j) := by
    intro d hdm
    choose f hf1 hf2 using hd d hdm
    obtain ⟨n, e1, e2, e3, e4⟩ := C124_columns h hG ho ks hc hpol hN h2 h4 hsym hM d f hf1 hf2
    exact ⟨n, e1, e2, e3, fun j => by rw [hNj j]; exact e4 j⟩
  have hN0 : ∀ j, 0 ≤ N j := by
    obtain ⟨n, -, e2, -, e4⟩ := cols d₀ (List.mem_cons_self ..)
    intro j
    have := (e4 j).symm.nonneg h (Rounded.integ_nonneg hG (e2 j))
    exact this
  set D := o.depth + M + 15 + r * c with hD
  have loop : ∀ (l : List (Fin r × Fin c → Option (Found G))), (∀ d ∈ l, d ∈ d₀ :: ds) → ∀ (n : G.Cols p) (b : ℕ),
      (∀ j k, 0 ≤ n j k) → (ks.sym = true → G.mirCols n = n) → (∀ j, Within u (D + b) (G.integ (n j)) (N j)) →
      ∃ m, (l.foldlM (fun n d => do
        let nout ← Rounded.ksDensity R o ks d
        pure (Rounded.newDensity R alpha sf n nout)) n : Py (G.Cols p)) = .ok m ∧ (∀ j k, 0 ≤ m j k) ∧
        (ks.sym = true → G.mirCols m = m) ∧ (sf = true → l ≠ [] → G.mirCols (G.flipCols m) = m) ∧
        ∀ j, Within u (D + (b + 5 * l.length)) (G.integ (m j)) (N j) := by
    intro l
    induction l with
    | nil => intro _ n b a1 a2 a3; exact ⟨n, rfl, a1, a2, fun _ hh => absurd rfl hh, a3⟩
    | cons d l ih =>
      intro hl n b a1 a2 a3
      obtain ⟨nout, e1, e2, e3, e4⟩ := cols d (hl d (List.mem_cons_self ..))
      obtain ⟨q1, q2⟩ := Rounded.newDensity_within h hG h0 h1 hN0 hsf a1 e2 a3
        (fun j => (e4 j).mono h (l := D + b) (by omega) (hN0 j))
      obtain ⟨m, f1, f2, f3, f4, f5⟩ := ih (fun d hd => hl d (List.mem_cons_of_mem _ hd)) (Rounded.newDensity R alpha sf n nout) (b + 5)
        q1 (fun hs => Rounded.newDensity_mirror R alpha sf (a2 hs) (e3 hs)) q2
      refine ⟨m, ?_, f2, f3, fun hs _ => ?_, ?_⟩
      · rw [List.foldlM_cons, e1]; exact f1
      · cases l with
        | nil =>
          cases f1
          subst hs
          exact Rounded.newDensity_spin R alpha n nout
        | cons _ _ => exact f4 hs (List.cons_ne_nil _ _)
      · rw [show b + 5 * (d :: l).length = b + 5 + 5 * l.length by rw [List.length_cons]; omega]; exact f5
  obtain ⟨n, e1, e2, e3, e4⟩ := cols d₀ (List.mem_cons_self ..)
  obtain ⟨m, f1, f2, f3, f4, f5⟩ := loop ds (fun d hd => List.mem_cons_of_mem _ hd) n 0 e2 e3 e4
  refine ⟨m, ?_, f2, f3, f4, fun j => ?_⟩
  · unfold Rounded.densities; rw [e1]; exact f1
  · have := f5 j
    rw [Nat.zero_add] at this
    exact this

namespace Sample124
open Sample122

/-- One electron of each spin. -/
def ks : KS grid4 1 2 2 :=
  { kind := .ni, sym := false, Za := 1, Zb := 1, a := 1, solver := fun _ => { Nmo := 1, N := 1, m := 0, pol := 2 },
    vnuc := fun _ _ => 0, scale := some 1 }

/-- An orbital for each spin. -/
def found (f g : grid4.Fld) : Fin 1 × Fin 2 → Option (Found grid4) := fun w => some ([-1], some [if w.2 = 0 then f else g])

def d₀ : Fin 1 × Fin 2 → Option (Found grid4) := found (fun k => k.1 + 1) (fun k => if k.1 = 0 then 3 else 1)
def d₁ : Fin 1 × Fin 2 → Option (Found grid4) := found (fun k => 3 - k.1) (fun k => if k.1 = 3 then 0 else 1)

/-- Electrons of the columns, and the densities at the outer points. -/
def seen (x : Py (grid4.Cols 2)) : Option (List ℚ) :=
  x.toOption.map fun n => [grid4.integ (n 0), grid4.integ (n 1), n 0 (at4 0), n 1 (at4 3)]

theorem found_ok {f g : grid4.Fld} (hf : 0 < grid4.integ fun k => f k ^ 2) (hg : 0 < grid4.integ fun k => g k ^ 2) (w : Fin 1 × Fin 2) :
    ∃ x, found f g w = some x ∧ Adequate (Sample124.ks.solver w) x := by
  refine ⟨_, rfl, ?_, ?_⟩
  · exact (by decide +kernel : ∀ w : Fin 1 × Fin 2, needed (Sample124.ks.solver w).fractional ((Sample124.ks.solver w).N /
      (orbitalCapacity (Sample124.ks.solver w).m ((Sample124.ks.solver w).pol = 2) : ℚ)) ≤ 1) w
  · intro q hq
    rw [List.mem_singleton] at hq
    subst hq
    split_ifs <;> assumption

end Sample124
open Sample122 Sample123

/-- C124: one electron of each spin after a pass, exactly and with three binary digits, which make 9/8 electrons of one;
equal densities at opposite points for opposite spins. -/
example : Sample124.seen (Rounded.densities Rounding.exact o Sample124.ks (1 / 2) true Sample124.d₀ [Sample124.d₁]) =
      some [1, 1, 319 / 1680, 319 / 1680] ∧
    Sample124.seen (Rounded.densities R3 o Sample124.ks (1 / 2) true Sample124.d₀ [Sample124.d₁]) = some [9 / 8, 9 / 8, 3 / 16, 3 / 16] := by
  refine ⟨?_, ?_⟩ <;> decide +kernel

/-- C124: after that pass in double precision. -/
example : ∃ n, Rounded.densities D o Sample124.ks (1 / 2) true Sample124.d₀ [Sample124.d₁] = .ok n ∧
    grid4.mirCols (grid4.flipCols n) = n ∧ ∀ j, (1 - 1 / 2 ^ 53) ^ 26 * 1 ≤ grid4.integ (n j) := by
  have hmi : MirrorInvariant grid4 := by
    intro f
    unfold Grid.integ
    congr 1
    exact Fintype.sum_equiv grid4.mirEquiv _ _ fun k => rfl
  obtain ⟨n, e1, -, -, e4, e5⟩ := C124_electrons (R := D) (u := 1 / 2 ^ 53) (G := grid4) (o := o) (binary_precise 52) Sample122.nonneg
    complete.1 Sample124.ks le_rfl (fun _ => .inr rfl) (fun _ => zero_le_one) (by decide +kernel) (by decide +kernel)
    (fun hh => (nomatch hh)) (M := 1) (by decide +kernel) (alpha := 1 / 2) (by norm_num) (by norm_num) (sf := true)
    (N := fun _ => 1) (by decide +kernel) (fun _ => ⟨hmi, fun _ => rfl⟩) Sample124.d₀ [Sample124.d₁] (by
      intro d hd w
      rcases List.mem_cons.mp hd with rfl | hd
      · exact Sample124.found_ok (by decide +kernel) (by decide +kernel) w
      · rw [List.mem_singleton] at hd
        subst hd
        exact Sample124.found_ok (by decide +kernel) (by decide +kernel) w)
  exact ⟨n, e1, e4 rfl (by decide), fun j => (e5 j).1⟩

end Verif
