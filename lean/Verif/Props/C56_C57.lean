import Verif.Lemmas.Inverter
import Verif.Lemmas.Solver
import Mathlib.Algebra.Order.Floor.Ring

/-!
# C56, C57: loop and occupation set-up of `orbitalinvert`
-/

namespace Verif
open OrbInv

section Loop
variable {K : Type} [Field K] [LinearOrder K] [IsStrictOrderedRing K] {S : Type}
variable (o : Options K) (resid : S → Fl K × Fl K) (renew : Bool → S → Py S)

/-- `loop` unfolded once. -/
theorem loop_eq (left iter : ℕ) (h : Hist K) (X : S) : loop o resid renew left iter h X =
    (if Fl.gt (.fin o.tol) (Fl.pymax (resid X).1 (resid X).2) then
      .ok ⟨X, iter, Fl.pymax (resid X).1 (resid X).2, [resid X]⟩
    else match left with
      | 0 => .ok ⟨X, iter, Fl.pymax (resid X).1 (resid X).2, [resid X]⟩
      | left + 1 => do
        let X' ← renew (newton o (h.next o.avoidLoop iter (resid X).1 (resid X).2)) X
        if Fl.gt (Fl.pymax (resid X).1 (resid X).2) (.fin 100) then
          .ok ⟨X', iter, Fl.pymax (resid X).1 (resid X).2, [resid X]⟩
        else do
          let q ← loop o resid renew left (iter + 1) (h.next o.avoidLoop iter (resid X).1 (resid X).2) X'
          pure ⟨q.X, q.iter, q.res, resid X :: q.log⟩) := by
  rw [loop.eq_def]; cases left <;> rfl

/-- What a finished loop looks like. -/
structure LoopOk (iter left : ℕ) (X : S) (q : Result K S) : Prop where
  lower : iter ≤ q.iter
  upper : q.iter ≤ iter + left
  length : q.log.length = q.iter - iter + 1
  first : q.log.head? = some (resid X)
  last : ∃ r, q.log.getLast? = some r ∧ q.res = Fl.pymax r.1 r.2
  /-- unless the run is abandoned the returned `X` is the one measured last -/
  measured : Fl.gt q.res (.fin 100) = false → q.log.getLast? = some (resid q.X)
  /-- without convergence and without abandonment the budget is used up -/
  full : Fl.gt (.fin o.tol) q.res = false → Fl.gt q.res (.fin 100) = false → q.iter = iter + left
  /-- only the last pass can be converged -/
  early : ∀ r ∈ q.log.dropLast, Fl.gt (.fin o.tol) (Fl.pymax r.1 r.2) = false

theorem loop_ok (left : ℕ) : ∀ (iter : ℕ) (h : Hist K) (X : S) (q : Result K S),
    loop o resid renew left iter h X = .ok q → LoopOk o resid iter left X q := by
  induction left with
  | zero =>
    intro iter h X q hq
    rw [loop_eq] at hq
    have : q = ⟨X, iter, Fl.pymax (resid X).1 (resid X).2, [resid X]⟩ := by
      split at hq <;> exact (Except.ok.inj hq).symm
    subst this
    exact ⟨le_rfl, le_rfl, by simp, rfl, ⟨_, rfl, rfl⟩, fun _ => rfl, fun _ _ => rfl, by simp⟩
  | succ left ih =>
    intro iter h X q hq
    rw [loop_eq] at hq
    split at hq
    · next hc =>
      obtain rfl := Except.ok.inj hq
      exact ⟨le_rfl, by simp, by simp, rfl, ⟨_, rfl, rfl⟩, fun _ => rfl,
        fun h' => absurd hc (by simpa using h'), by simp⟩
    · next hc =>
      simp only [bind, Except.bind] at hq
      split at hq
      · exact nomatch hq
      · next X' hX' =>
        split at hq
        · next hb =>
          obtain rfl := Except.ok.inj hq
          exact ⟨le_rfl, by simp, by simp, rfl, ⟨_, rfl, rfl⟩,
            fun h' => absurd hb (by simpa using h'), fun _ h' => absurd hb (by simpa using h'), by simp⟩
        · split at hq
          · exact nomatch hq
          · next q' hq' =>
            obtain rfl := Except.ok.inj hq
            have H := ih _ _ _ _ hq'
            have hne : q'.log ≠ [] := by
              intro he
              have := H.length
              simp [he] at this
            have hlast : (resid X :: q'.log).getLast? = q'.log.getLast? := by
              rw [List.getLast?_cons]
              cases hl : q'.log.getLast? with
              | none => exact absurd (List.getLast?_eq_none_iff.1 hl) hne
              | some r => rfl
            have hl := H.lower
            have hu := H.upper
            refine ⟨by simp only; omega, by simp only; omega, ?_, rfl, ?_, ?_, ?_, ?_⟩
            · simp only [List.length_cons, H.length]; omega
            · simpa only [hlast] using H.last
            · simpa only [hlast] using H.measured
            · intro h1 h2
              have := H.full h1 h2
              simp only; omega
            · intro r hr
              simp only [List.dropLast_cons_of_ne_nil hne, List.mem_cons] at hr
              rcases hr with rfl | hr
              · simpa using hc
              · exact H.early r hr

/-- The loop only raises what computing a new `X` raises. -/
theorem loop_total (hr : ∀ b X, ∃ Y, renew b X = .ok Y) (left : ℕ) :
    ∀ (iter : ℕ) (h : Hist K) (X : S), ∃ q, loop o resid renew left iter h X = .ok q := by
  induction left with
  | zero => intro iter h X; rw [loop_eq]; split <;> exact ⟨_, rfl⟩
  | succ left ih =>
    intro iter h X
    rw [loop_eq]
    split
    · exact ⟨_, rfl⟩
    · obtain ⟨Y, hY⟩ := hr (newton o (h.next o.avoidLoop iter (resid X).1 (resid X).2)) X
      simp only [hY, bind, Except.bind]
      split
      · exact ⟨_, rfl⟩
      · obtain ⟨q, hq⟩ := ih (iter + 1) (h.next o.avoidLoop iter (resid X).1 (resid X).2) Y
        rw [hq]
        exact ⟨_, rfl⟩

end Loop

namespace Spec
variable {K : Type} [LinearOrder K]

/-- A residual counts as at most `tol`. -/
def AtMost (tol : K) : Fl K → Prop
  | .fin x => x ≤ tol
  | .negInf => True
  | _ => False

end Spec
open Spec

section
variable {K : Type} [Field K] [LinearOrder K] [IsStrictOrderedRing K] {S : Type}

theorem gt_pymax (a b : Fl K) (ha : a ≠ .nan) (hb : b ≠ .nan) (t : K) :
    Fl.gt (Fl.pymax a b) (.fin t) = false ↔ AtMost t a ∧ AtMost t b := by
  cases a with
  | nan => exact absurd rfl ha
  | fin x => cases b with
    | nan => exact absurd rfl hb
    | fin y =>
      simp only [Fl.pymax, Fl.gt_fin, decide_eq_true_eq, AtMost]
      split
      · next h => simp only [Fl.gt_fin, decide_eq_false_iff_not, not_lt]; exact ⟨fun h' => ⟨h.le.trans h', h'⟩, (·.2)⟩
      · next h => simp only [Fl.gt_fin, decide_eq_false_iff_not, not_lt]
                  exact ⟨fun h' => ⟨h', (not_lt.1 h).trans h'⟩, (·.1)⟩
    | _ => simp [Fl.pymax, Fl.gt, AtMost]
  | _ => cases b with
    | nan => exact absurd rfl hb
    | _ => simp [Fl.pymax, Fl.gt, AtMost]

/-- C56 (partial).  Provided new orbitals and Newton steps can be computed, the loop ends after at most
`max(1, max_iter_invert)` passes; it uses the whole budget unless it converges or the residual exceeds
100.  When the residuals of the last pass are numbers, the flag is True exactly when both are at most
the tolerance; the returned `X` is then the one they were measured on (tolerance at most 100). -/
theorem C56_loop_partial (o : Options K) (resid : S → Fl K × Fl K) (renew : Bool → S → Py S) (X : S)
    (hr : ∀ b X, ∃ Y, renew b X = .ok Y) :
    ∃ q, run o resid renew X = .ok q ∧
      1 ≤ q.iter ∧ (q.iter : ℤ) ≤ max 1 o.maxIter ∧ q.log.length = q.iter ∧
      ((q.iter : ℤ) = max 1 o.maxIter ∨ Fl.gt (.fin o.tol) q.res = true ∨ Fl.gt q.res (.fin 100) = true) ∧
      ∃ ks ncon, q.log.getLast? = some (ks, ncon) ∧
        (ks ≠ .nan → ncon ≠ .nan → (flag o q = true ↔ AtMost o.tol ks ∧ AtMost o.tol ncon)) ∧
        (ks ≠ .nan → ncon ≠ .nan → flag o q = true → o.tol ≤ 100 → resid q.X = (ks, ncon)) := by
  obtain ⟨q, hq⟩ := loop_total o resid renew hr (o.maxIter - 1).toNat 1 Hist.start X
  have H := loop_ok o resid renew _ _ _ _ _ hq
  obtain ⟨⟨ks, ncon⟩, hl, hres⟩ := H.last
  have hlo := H.lower
  have hup := H.upper
  have hlen := H.length
  have hflag : ks ≠ .nan → ncon ≠ .nan → (flag o q = true ↔ AtMost o.tol ks ∧ AtMost o.tol ncon) :=
    fun h1 h2 => by
      rw [← gt_pymax ks ncon h1 h2, flag, hres]
      simp
  refine ⟨q, hq, hlo, by omega, by omega, ?_, ks, ncon, hl, hflag, fun h1 h2 hf ht => ?_⟩
  · by_cases h1 : Fl.gt (.fin o.tol) q.res = true
    · exact .inr (.inl h1)
    · by_cases h2 : Fl.gt q.res (.fin 100) = true
      · exact .inr (.inr h2)
      · have := H.full (by simpa using h1) (by simpa using h2)
        left
        omega
  · have hbig : Fl.gt q.res (.fin 100) = false := by
      obtain ⟨ha, hb⟩ := (hflag h1 h2).1 hf
      rw [hres, gt_pymax ks ncon h1 h2]
      refine ⟨?_, ?_⟩
      · cases ks <;> simp_all only [AtMost]; exact le_trans (by assumption) ht
      · cases ncon <;> simp_all only [AtMost]; exact le_trans (by assumption) ht
    have := H.measured hbig
    rw [hl] at this
    exact (Option.some.inj this).symm

/-- The flag is True although the residual is NaN: `not (nan > tol)`. -/
theorem C56_refuted_nan : ∃ q : Result ℚ Unit,
    run ⟨false, false, false, 1 / 1000, 20, 1⟩ (fun _ => (.nan, .fin 5)) (fun _ x => .ok x) () = .ok q ∧
      flag ⟨false, false, false, 1 / 1000, 20, 1⟩ q = true ∧ q.iter = 20 ∧ q.res = .nan :=
  ⟨⟨(), 20, .nan, List.replicate 20 (.nan, .fin 5)⟩, by decide +kernel, by decide +kernel, rfl, rfl⟩

/-- A NaN in the density residual is invisible: `max(res_ks, nan)` is `res_ks`. -/
theorem C56_refuted_hidden_nan : ∃ q : Result ℚ Unit,
    run ⟨false, false, false, 1 / 1000, 20, 1⟩ (fun _ => (.fin 0, .nan)) (fun _ x => .ok x) () = .ok q ∧
      flag ⟨false, false, false, 1 / 1000, 20, 1⟩ q = true ∧ q.iter = 1 ∧ q.res = .fin 0 :=
  ⟨⟨(), 1, .fin 0, [(.fin 0, .nan)]⟩, by decide +kernel, by decide +kernel, rfl, rfl⟩

/-- When the residual exceeds 100 the run is abandoned after updating `X` once more: `nfev` and
`optimality` describe the previous `X`. -/
theorem C56_abandoned : ∃ q : Result ℚ ℕ,
    run ⟨false, false, false, 1 / 1000, 20, 1⟩ (fun x : ℕ => (.fin (200 - (x : ℚ)), .fin 0)) (fun _ x => .ok (x + 1)) 0 =
      .ok q ∧ q.X = 1 ∧ q.iter = 1 ∧ q.res = .fin 200 :=
  ⟨⟨1, 1, .fin 200, [(.fin 200, .fin 0)]⟩, by decide +kernel, rfl, rfl, rfl⟩

/-- Residual halving in every pass: 1/8 ≤ 1/5 after four passes. -/
example : ∃ q : Result ℚ ℕ,
    run ⟨false, false, false, 1 / 5, 20, 1⟩ (fun x => (.fin ((1 / 2) ^ x), .fin 0)) (fun _ x => .ok (x + 1)) 0 =
      .ok q ∧ q.X = 3 ∧ q.iter = 4 ∧ flag ⟨false, false, false, 1 / 5, 20, 1⟩ q = true :=
  ⟨⟨3, 4, .fin (1 / 8), [(.fin 1, .fin 0), (.fin (1 / 2), .fin 0), (.fin (1 / 4), .fin 0), (.fin (1 / 8), .fin 0)]⟩,
    by decide +kernel, rfl, rfl, by decide +kernel⟩

end

/-! ## C57 -/

namespace Spec
variable {K : Type} [Field K] [LinearOrder K] [IsStrictOrderedRing K] [FloorRing K] {G : Grid K}

/-- Electrons `calc_density` puts into orbital `i` of a solver. -/
def electronsIn (s : Solver G) (i : ℕ) : K :=
  let full := s.scale
  if (i : ℤ) < s.occupation.1 then full
  else if (i : ℤ) = s.occupation.1 ∧ s.fractional = true then full * s.occupation.2 else 0

end Spec

section
variable {K : Type} [Field K] [LinearOrder K] [IsStrictOrderedRing K] [FloorRing K] {G : Grid K}

theorem occupationOf_error (s : Solver G) {e : PyErr} (h : occupationOf s = .error e) :
    e = .indexError := by
  unfold occupationOf at h
  by_cases hm : s.m = 0
  · rw [if_pos hm] at h
    simp only at h
    generalize (if s.pol = 1 then (trunc s.N : K) / 2 - ⌊(trunc s.N : K) / 2⌋
      else (trunc s.N : K) - ⌊(trunc s.N : K)⌋) = nu at h
    by_cases hn : nu ≠ 0
    · rw [if_pos hn] at h; exact (Except.error.inj h).symm
    · rw [if_neg hn] at h; exact nomatch h
  · rw [if_neg hm] at h; exact (Except.error.inj h).symm

/-- C57 (partial).  For one `m = 0` solver in a restricted calculation with `2*Nmo` electrons, at least
one orbital, the set-up succeeds with the occupations of `calc_density`. -/
theorem C57_occupations_partial (s : Solver G) (hm : s.m = 0) (hp : s.pol = 1) (hN : s.N = 2 * s.Nmo)
    (h0 : 0 < s.Nmo) :
    ∃ occ, occupations [s] = .ok occ ∧ occ.length = s.Nmo ∧
      ∀ i (h : i < occ.length), occ[i] = electronsIn s i := by
  have ht : trunc s.N = 2 * s.Nmo := by
    rw [trunc, hN, if_pos (by positivity)]
    have : (2 * (s.Nmo : K)) = ((2 * s.Nmo : ℤ) : K) := by push_cast; ring
    rw [this, Int.floor_intCast]
  have e : ((2 * (s.Nmo : ℤ) : ℤ) : K) / 2 = ((s.Nmo : ℤ) : K) := by push_cast; ring
  have h1 : occupationOf s = .ok (List.replicate s.Nmo 2) := by
    simp [occupationOf, hm, hp, ht]
  refine ⟨List.replicate s.Nmo 2, ?_, by simp, fun i h => ?_⟩
  · simp only [occupations, List.mapM_cons, List.mapM_nil, h1, bind, Except.bind, pure, Except.pure]
    simp [pyGet, h0.ne']
  · have hi : i < s.Nmo := by simpa using h
    have : s.occupation = ((s.Nmo : ℤ), s.N / 2 - ((s.Nmo : ℤ) : K)) := by
      have e2 : s.N / 2 = ((s.Nmo : ℤ) : K) := by rw [hN]; push_cast; ring
      simp [Solver.occupation, hm, hp, e2]
    simp [electronsIn, this, hi, Solver.scale, hm, hp]

/-- An odd number of electrons in a restricted calculation raises `IndexError`. -/
theorem C57_odd (s : Solver G) (hm : s.m = 0) (hp : s.pol = 1) (k : ℕ) (hN : s.N = 2 * k + 1) :
    occupations [s] = .error .indexError := by
  have ht : trunc s.N = 2 * k + 1 := by
    rw [trunc, hN, if_pos (by positivity)]
    have : (2 * (k : K) + 1) = ((2 * k + 1 : ℤ) : K) := by push_cast; ring
    rw [this, Int.floor_intCast]
  have hf : ⌊((2 * (k : ℤ) + 1 : ℤ) : K) / 2⌋ = (k : ℤ) := by
    rw [Int.floor_eq_iff]
    push_cast
    constructor <;> linarith
  have h1 : occupationOf s = .error .indexError := by
    simp only [occupationOf, hm, hp, if_true, ht, hf]
    rw [if_pos]
    push_cast
    intro h
    have : (1 : K) / 2 = 0 := by linarith
    norm_num at this
  simp only [occupations, List.mapM_cons, h1, bind, Except.bind]

/-- Any solver with `m ≠ 0` in the column raises `IndexError`, so tables with several `m` levels cannot
be inverted. -/
theorem C57_several_m (s t : Solver G) (rest : List (Solver G)) (ht : t.m ≠ 0) :
    occupations (s :: t :: rest) = .error .indexError := by
  have h1 : occupationOf t = .error .indexError := by simp [occupationOf, ht]
  simp only [occupations, List.mapM_cons, h1, bind, Except.bind]
  cases hs : occupationOf s with
  | ok x => rfl
  | error e =>
    simp only [Except.error.injEq]
    rw [occupationOf_error s hs]

/-- With several `m = 0` solvers in the column only the occupations of the first are kept. -/
theorem C57_first (s : Solver G) (rest : List (Solver G)) (hm : s.m = 0) (occ : List K)
    (h : occupations (s :: rest) = .ok occ) : occ = List.replicate s.Nmo 2 := by
  simp only [occupations, List.mapM_cons, bind, Except.bind, pure, Except.pure] at h
  cases hs : occupationOf s with
  | error e => simp [hs] at h
  | ok x =>
    have hx : x = List.replicate s.Nmo 2 := by
      unfold occupationOf at hs
      rw [if_pos hm] at hs
      simp only at hs
      generalize (if s.pol = 1 then (trunc s.N : K) / 2 - ⌊(trunc s.N : K) / 2⌋
        else (trunc s.N : K) - ⌊(trunc s.N : K)⌋) = nu at hs
      by_cases hn : nu ≠ 0
      · rw [if_pos hn] at hs; exact nomatch hs
      · rw [if_neg hn] at hs; exact (Except.ok.inj hs).symm
    cases hr : List.mapM occupationOf rest with
    | error e => simp [hs, hr] at h
    | ok l =>
      simp only [hs, hr, pyGet] at h
      simp at h
      split at h
      · exact nomatch h
      · rw [← hx, ← Except.ok.inj h]

/-- Two solvers with one and two orbitals: one occupation is returned for three orbitals. -/
example : occupations [(⟨1, 2, 0, 1, false, false, none, none, none⟩ : Solver (Grid.tiny ℚ)),
    ⟨2, 4, 0, 1, false, false, none, none, none⟩] = .ok [2] := by
  decide +kernel

/-- A spin channel without orbitals raises `ValueError`. -/
theorem C57_empty (s : Solver G) (h0 : s.Nmo = 0) (hm : s.m = 0) (hN : s.N = 0) :
    occupations [s] = .error .valueError := by
  have h1 : occupationOf s = .ok [] := by
    simp [occupationOf, hm, hN, h0, trunc]
  simp [occupations, h1, bind, Except.bind, pure, Except.pure, pyGet, h0]

/-- With spin polarisation the set-up gives every orbital two electrons where `calc_density` puts one. -/
theorem C57_refuted : ∃ (s : Solver (Grid.tiny ℚ)) (occ : List ℚ), s.pol = 2 ∧ s.m = 0 ∧ s.N = 3 ∧ s.Nmo = 3 ∧
    occupations [s] = .ok occ ∧ occ = [2, 2, 2] ∧ ∀ i < 3, electronsIn s i = 1 :=
  ⟨⟨3, 3, 0, 2, false, false, none, none, none⟩, [2, 2, 2], rfl, rfl, rfl, rfl, by decide +kernel, rfl, by decide +kernel⟩

/-- Orbitals that are kept but empty also get two electrons. -/
theorem C57_refuted_empty : ∃ (s : Solver (Grid.tiny ℚ)) (occ : List ℚ), s.pol = 1 ∧ s.m = 0 ∧ s.N = 2 ∧
    s.Nmo = 2 ∧ occupations [s] = .ok occ ∧ occ[1]? = some 2 ∧ electronsIn s 1 = 0 :=
  ⟨⟨2, 2, 0, 1, false, false, none, none, none⟩, [2, 2], rfl, rfl, rfl, rfl, by decide +kernel, rfl, by decide +kernel⟩

/-- Fractional electron numbers are truncated. -/
theorem C57_refuted_fractional : ∃ (s : Solver (Grid.tiny ℚ)) (occ : List ℚ), s.pol = 1 ∧ s.m = 0 ∧
    s.N = 5 / 2 ∧ occupations [s] = .ok occ ∧ occ = [2, 2] ∧ electronsIn s 1 = 1 / 2 :=
  ⟨⟨2, 5 / 2, 0, 1, true, false, none, none, none⟩, [2, 2], rfl, rfl, rfl, by decide +kernel, rfl, by decide +kernel⟩

/-- Helium-like: one orbital, two electrons. -/
example : occupations [(⟨1, 2, 0, 1, false, false, none, none, none⟩ : Solver (Grid.tiny ℚ))] = .ok [2] := by
  decide +kernel

end
end Verif
