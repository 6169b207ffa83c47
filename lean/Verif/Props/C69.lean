import Verif.Model.Simple
import Verif.Lemmas.Solver
import Verif.Lemmas.Grid
import Mathlib.Tactic.NormNum
import Mathlib.Tactic.LinearCombination

/-!
# C69: the simple inversion
-/

namespace Verif
namespace Simple

section
variable {K : Type} [Field K] [LinearOrder K] [IsStrictOrderedRing K] [FloorRing K] {G : Grid K}

/-- What a pass leaves behind: solver data belong to the potential before the update. -/
def Good (orb : G.Fld → Py (List G.Fld × List K)) (n0 : G.Fld) (q : St G) : Prop :=
  ∃ (v n : G.Fld) (phi : List G.Fld) (eig : List K), orb v = .ok (phi, eig) ∧ q.s.phi = some phi ∧
    q.s.eig = some eig ∧ q.s.calcDensity = .ok n ∧ q.s.veff = some q.vs ∧ (∀ k, n0 k ≠ 0) ∧
    (∀ k, q.vs k = v k + 1 / 10 * ((n k - n0 k) / n0 k)) ∧ ∀ k, |(n k - n0 k) / n0 k| ≤ q.optimality

theorem calcDensity_veff (s : Solver G) (v : Option G.Fld) :
    ({ s with veff := v } : Solver G).calcDensity = s.calcDensity := rfl

theorem calcEks_veff (s : Solver G) (v : Option G.Fld) :
    ({ s with veff := v } : Solver G).calcEks = s.calcEks := rfl

theorem le_fold (f : G.Fld) (k : G.Ix) : |f k| ≤ Finset.univ.fold max 0 fun k => |f k| :=
  (Finset.le_fold_max _).2 (.inr ⟨k, Finset.mem_univ k, le_rfl⟩)

theorem pass_good (orb : G.Fld → Py (List G.Fld × List K)) (n0 : G.Fld) (q q' : St G)
    (h : pass orb n0 q = .ok q') : Good orb n0 q' ∧ q'.iter = q.iter + 1 := by
  simp only [pass, bind, Except.bind] at h
  split at h
  · exact nomatch h
  next o ho =>
  split at h
  · exact nomatch h
  next n hn =>
  split at h
  case isFalse => exact nomatch h
  next hz =>
  split at h
  · exact nomatch h
  next m hm =>
  obtain rfl := Except.ok.inj h
  refine ⟨⟨q.vs, n, o.1, o.2, ho, rfl, rfl, hn, rfl, hz, fun k => ?_, fun k => ?_⟩, rfl⟩
  · show q.vs k + 1 / 10 * (1 / n0 k * (n k - n0 k)) = _
    ring
  · unfold maxAbs at hm
    split at hm
    · exact nomatch hm
    · obtain rfl := Except.ok.inj hm
      have := le_fold (G := G) (fun k => 1 / n0 k * (n k - n0 k)) k
      rwa [one_div, inv_mul_eq_div] at this

theorem loop_good (orb : G.Fld → Py (List G.Fld × List K)) (n0 : G.Fld) (tol : K) (maxiter fuel : ℕ)
    (q q' : St G) (hf : maxiter ≤ fuel + q.iter) (h : loop orb n0 tol maxiter fuel q = .ok q') :
    (q' = q ∨ Good orb n0 q') ∧ (q'.optimality ≤ tol ∨ maxiter ≤ q'.iter) := by
  induction fuel generalizing q with
  | zero =>
    obtain rfl := Except.ok.inj h
    exact ⟨.inl rfl, .inr (by omega)⟩
  | succ fuel ih =>
    rw [loop] at h
    split at h
    · simp only [bind, Except.bind] at h
      split at h
      · exact nomatch h
      next p hp =>
      obtain ⟨hg, hi⟩ := pass_good orb n0 q p hp
      obtain ⟨h1, h2⟩ := ih p (by omega) h
      refine ⟨.inr ?_, h2⟩
      rcases h1 with rfl | h1
      · exact hg
      · exact h1
    · next hc =>
      obtain rfl := Except.ok.inj h
      refine ⟨.inl rfl, ?_⟩
      by_contra hn
      rw [not_or, not_le, not_le] at hn
      exact hc hn

end
end Simple

open Simple

section
variable {K : Type} [Field K] [LinearOrder K] [IsStrictOrderedRing K] [FloorRing K] {G : Grid K}

/-- C69 (partial).  A run with `tol < 1` and room for one pass that finishes leaves the orbitals of some
potential `v`, their density `n` and the potential `v + 0.1 (n - n0)/n0`; the stored kinetic energy is
that of the orbitals minus `0.1 ∫ n (n - n0)/n0`; and the density meets the tolerance unless all passes
were used.  Partial: flag, chemical potential and kinetic energy, see the refutations. -/
theorem C69_simple_partial (orb : G.Fld → Py (List G.Fld × List K)) (n0 : G.Fld) (tol : K) (maxiter : ℕ)
    (s : Solver G) (hs : s.eig = none) (vs0 : G.Fld) (out : Out G)
    (h : simple orb n0 tol maxiter s vs0 = .ok out) :
    ∃ (v n : G.Fld) (phi : List G.Fld) (eig : List K) (eks : K), orb v = .ok (phi, eig) ∧
      out.s.phi = some phi ∧ out.s.eig = some eig ∧ out.s.calcDensity = .ok n ∧ out.s.calcEks = .ok eks ∧
      out.s.veff = some out.vs ∧ (∀ k, out.vs k = v k + 1 / 10 * ((n k - n0 k) / n0 k)) ∧
      out.Ts = (eks - G.integ fun k => n k * v k) - 1 / 10 * G.integ (fun k => n k * ((n k - n0 k) / n0 k)) ∧
      ((∀ k, |n k - n0 k| ≤ tol * |n0 k|) ∨
        ∃ q, loop orb n0 tol maxiter maxiter ⟨s, vs0, 1, 1⟩ = .ok q ∧ maxiter ≤ q.iter) := by
  simp only [simple, bind, Except.bind] at h
  split at h
  · exact nomatch h
  next q hq =>
  split at h
  · exact nomatch h
  next us hu =>
  split at h
  · exact nomatch h
  next eks he =>
  split at h
  · exact nomatch h
  next n' hn' =>
  obtain rfl := Except.ok.inj h
  obtain ⟨h1, h2⟩ := loop_good orb n0 tol maxiter maxiter _ q (by omega) hq
  rcases h1 with rfl | ⟨v, n, phi, eig, ho, hp, hg, hd, hv, hz, hvs, hopt⟩
  · simp [chemical, hs] at hu
  obtain rfl := Except.ok.inj (hn'.symm.trans hd)
  refine ⟨v, n', phi, eig, eks, ho, hp, hg, hd, he, hv, hvs, ?_, ?_⟩
  · show eks - G.integ (fun k => n' k * q.vs k) = _
    have : (fun k => n' k * q.vs k) = fun k => n' k * v k + 1 / 10 * (n' k * ((n' k - n0 k) / n0 k)) := by
      funext k
      rw [hvs]
      ring
    rw [this, G.integ_add, G.integ_smul]
    ring
  · rcases h2 with h2 | h2
    · refine .inl fun k => ?_
      have := (hopt k).trans h2
      rwa [abs_div, div_le_iff₀ (abs_pos.2 (hz k))] at this
    · exact .inr ⟨q, hq, h2⟩

/-- The chemical potential stored is never negative: for bound electrons it is 0 and not the highest
eigenvalue. -/
theorem C69_refuted_us (orb : G.Fld → Py (List G.Fld × List K)) (n0 : G.Fld) (tol : K) (maxiter : ℕ)
    (s : Solver G) (vs0 : G.Fld) (out : Out G) (h : simple orb n0 tol maxiter s vs0 = .ok out) :
    0 ≤ out.us ∧ ∀ eig, out.s.eig = some eig → (∀ e ∈ eig, e ≤ 0) → out.us = 0 := by
  simp only [simple, bind, Except.bind] at h
  split at h
  · exact nomatch h
  next q hq =>
  split at h
  · exact nomatch h
  next us hu =>
  split at h
  · exact nomatch h
  split at h
  · exact nomatch h
  obtain rfl := Except.ok.inj h
  show 0 ≤ us ∧ ∀ eig, q.s.eig = some eig → _
  unfold chemical at hu
  split at hu
  · exact nomatch hu
  · exact nomatch hu
  next e es he =>
  obtain rfl := Except.ok.inj hu
  constructor
  · show 0 ≤ if es.foldl max e > 0 then es.foldl max e else 0
    split
    · next h => exact h.le
    · exact le_rfl
  · intro eig heig hle
    obtain rfl := Option.some.inj (heig.symm.trans he)
    show (if es.foldl max e > 0 then es.foldl max e else 0) = 0
    have hm : ∀ (l : List K) (a : K), a ≤ 0 → (∀ x ∈ l, x ≤ 0) → l.foldl max a ≤ 0 := by
      intro l
      induction l with
      | nil => intro a ha _; exact ha
      | cons b l ih => intro a ha hl; exact ih _ (max_le ha (hl b (by simp))) fun x hx => hl x (by simp [hx])
    rw [if_neg]
    exact not_lt.2 (hm es e (hle e (by simp)) fun x hx => hle x (by simp [hx]))

end

/-- Two points, one orbital with two electrons whatever the potential, eigenvalue -3. -/
def C69_orb : (Grid.tiny ℚ).Fld → Py (List (Grid.tiny ℚ).Fld × List ℚ) :=
  fun _ => .ok ([fun k => if k = 0 then 1 else 0], [-3])

def C69_solver : Solver (Grid.tiny ℚ) := ⟨1, 2, 0, 1, false, false, none, none, none⟩

/-- The target is `(1,1)`, the density stays `(2,0)`: after one pass `simple` reports success, the
chemical potential 0 for eigenvalue -3, and the kinetic energy -31/5 although the orbital was computed in
the potential 0 and has kinetic energy `2 * (-3)`. -/
theorem C69_refuted : ∃ out, simple C69_orb (fun _ => 1) (1 / 1000) 2 C69_solver (fun _ => 0) = .ok out ∧
    out.flag = true ∧ out.s.calcDensity = .ok (fun k => if k = 0 then 2 else 0) ∧ out.us = 0 ∧
    out.s.eig = some [-3] ∧ out.s.calcEks = .ok (-6) ∧ out.Ts = -31 / 5 := by
  have h : (match simple C69_orb (fun _ => 1) (1 / 1000) 2 C69_solver (fun _ => 0) with
      | .ok out => decide (out.flag = true ∧ (match out.s.calcDensity with
          | .ok n => decide (n 0 = 2 ∧ n 1 = 0)
          | .error _ => false) = true ∧ out.us = 0 ∧ out.s.eig = some [-3] ∧
          out.s.calcEks = .ok (-6) ∧ out.Ts = -31 / 5)
      | .error _ => false) = true := by decide +kernel
  split at h
  · next out ho =>
    obtain ⟨h1, h2, h3⟩ := of_decide_eq_true h
    refine ⟨out, ho, h1, ?_, h3⟩
    split at h2
    · next n hn =>
      have h2 := of_decide_eq_true h2
      rw [hn]
      congr 1
      funext k
      fin_cases k
      · exact h2.1
      · exact h2.2
    · exact nomatch h2
  · exact nomatch h

end Verif
