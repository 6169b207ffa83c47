import Verif.Model.Surprise
import Verif.Props.C84
import Verif.Lemmas.SampleReal
import Mathlib.Analysis.SpecialFunctions.BinaryEntropy

/-! # C101: surprisal -/

namespace Verif
open Spec Part
variable {G : Grid ℝ} {r c p : ℕ}

/-- Entropy, in bits, of the choice between two fragments of densities `a` and `b`. -/
noncomputable def Spec.bits (a b : ℝ) : ℝ := Real.binEntropy (a / (a + b)) / Real.log 2

theorem log2_pos {x : ℝ} (h : 0 < x) : log2 (.fin x) = .fin (Real.logb 2 x) := by
  simp [log2, not_lt.mpr h.le, h.ne']

theorem surprise_shares {na nb nf : G.Cols p} {k : G.Ix} (ha : 0 < tot na k) (hb : 0 < tot nb k)
    (hf : tot nf k = tot na k + tot nb k) :
    share na nf k = .fin (tot na k / (tot na k + tot nb k)) ∧ share nb nf k = .fin (tot nb k / (tot na k + tot nb k)) := by
  have h : tot na k + tot nb k ≠ 0 := by positivity
  simp [share, Fl.div, hf, h]

theorem surprisal_bits {na nb nf : G.Cols p} {k : G.Ix} (ha : 0 < tot na k) (hb : 0 < tot nb k)
    (hf : tot nf k = tot na k + tot nb k) :
    surprisal (share na nf) (share nb nf) k = .fin (bits (tot na k) (tot nb k)) := by
  obtain ⟨e1, e2⟩ := surprise_shares ha hb hf
  have h : 0 < tot na k + tot nb k := by positivity
  have h2 : 1 - tot na k / (tot na k + tot nb k) = tot nb k / (tot na k + tot nb k) := by
    field_simp; ring
  simp only [surprisal, e1, e2, log2_pos (div_pos ha h), log2_pos (div_pos hb h), Fl.neg_fin, Fl.mul_fin, Fl.sub_fin,
    Fl.fin.injEq, bits, Real.binEntropy, h2, Real.log_inv, Real.logb]
  ring

theorem pot_value {na nb nf : G.Cols p} {k : G.Ix} (ha : 0 < tot na k) (hb : 0 < tot nb k)
    (hf : tot nf k = tot na k + tot nb k) :
    surprisalPot (share na nf) (share nb nf) nf k =
      .fin (tot nb k / (tot na k + tot nb k) * Real.logb 2 (tot nb k / tot na k) / (tot na k + tot nb k)) := by
  obtain ⟨e1, e2⟩ := surprise_shares ha hb hf
  have h : 0 < tot na k + tot nb k := by positivity
  have e : tot nb k / (tot na k + tot nb k) / (tot na k / (tot na k + tot nb k)) = tot nb k / tot na k := by
    field_simp
  have hne : tot na k / (tot na k + tot nb k) ≠ 0 := (div_pos ha h).ne'
  simp only [surprisalPot, e1, e2, Fl.div, if_neg hne, e, log2_pos (div_pos hb ha), Fl.mul_fin, hf, if_neg h.ne']

/-- Derivative of the entropy in the first density. -/
theorem bits_derivative {a b : ℝ} (ha : 0 < a) (hb : 0 < b) (δ : ℝ) :
    HasDerivAt (fun t => bits (a + t * δ) b) (b / (a + b) * Real.logb 2 (b / a) / (a + b) * δ) 0 := by
  have hs : a + b ≠ 0 := by positivity
  have h0 : a / (a + b) ≠ 0 := by positivity
  have h1 : a / (a + b) ≠ 1 := by
    intro h
    rw [div_eq_one_iff_eq hs] at h
    linarith
  have hl : HasDerivAt (fun t : ℝ => a + t * δ) δ 0 := by
    simpa using ((hasDerivAt_id (0 : ℝ)).mul_const δ).const_add a
  have hq : HasDerivAt (fun t : ℝ => (a + t * δ) / (a + t * δ + b)) ((δ * (a + 0 * δ + b) - (a + 0 * δ) * δ) / (a + 0 * δ + b) ^ 2) 0 :=
    hl.fun_div (hl.add_const b) (by simpa using hs)
  have he := Real.hasDerivAt_binEntropy h0 h1
  have e0 : (a + 0 * δ) / (a + 0 * δ + b) = a / (a + b) := by simp
  rw [← e0] at he
  have hc := (he.comp (0 : ℝ) hq).div_const (Real.log 2)
  refine (hc.congr_deriv ?_ : HasDerivAt (fun t => bits (a + t * δ) b) _ 0)
  have e1 : 1 - a / (a + b) = b / (a + b) := by field_simp; ring
  rw [e0, e1, Real.log_div hb.ne' hs, Real.log_div ha.ne' hs, Real.logb, Real.log_div hb.ne' ha.ne']
  have : Real.log 2 ≠ 0 := (Real.log_pos (by norm_num)).ne'
  simp only [zero_mul, add_zero]
  field_simp
  ring

/-- After `calc_protomolecule` the total density is the sum of the fragment densities. -/
theorem protomolecule_tot {P P' : Part G r c p} (h : calcProtomolecule P = .ok P') :
    ∃ na nb nf, P'.naFrac = some na ∧ P'.nbFrac = some nb ∧ P'.nf = some nf ∧ ∀ k, tot nf k = tot na k + tot nb k := by
  simp only [calcProtomolecule, Py.do_eq_ok, Py.pure_eq_ok] at h
  obtain ⟨na, -, nb, -, rfl⟩ := h
  exact ⟨_, _, _, rfl, rfl, rfl, fun k => by simp [tot, Finset.sum_add_distrib]⟩

/-- C101 (what `V.s` is): at every point where both fragments have density, `V.s` is the entropy in bits of the
share of the fragments: between 0 and 1, 1 exactly where the densities are equal, and not changed when the
fragments are exchanged. -/
theorem C101_entropy_partial {P P' : Part G r c p} (h : calcProtomolecule P = .ok P') (va vb : List (Option (VArr G)))
    {R : Surprise G} (hR : vpSurprise P' va vb = .ok R) :
    ∃ na nb, P'.naFrac = some na ∧ P'.nbFrac = some nb ∧
      ∀ k, 0 < tot na k → 0 < tot nb k → ∃ x, R.s k = .fin x ∧ x = bits (tot na k) (tot nb k) ∧ 0 ≤ x ∧ x ≤ 1 ∧
        (x = 1 ↔ tot na k = tot nb k) ∧ x = bits (tot nb k) (tot na k) := by
  obtain ⟨na, nb, nf, h1, h2, h3, hf⟩ := protomolecule_tot h
  refine ⟨na, nb, h1, h2, fun k ha hb => ?_⟩
  have hs : R.s = surprisal (share na nf) (share nb nf) := by
    simp only [vpSurprise, h1, h2, h3, KS.need, attr, bind, Except.bind] at hR
    split at hR <;> simp only [pure, Except.pure, Except.ok.injEq] at hR <;> subst hR <;> rfl
  have h : 0 < tot na k + tot nb k := by positivity
  have hl : 0 < Real.log 2 := Real.log_pos (by norm_num)
  have hle : tot na k / (tot na k + tot nb k) ≤ 1 := by rw [div_le_one h]; linarith
  refine ⟨_, by rw [hs, surprisal_bits ha hb (hf k)], rfl, ?_, ?_, ?_, ?_⟩
  · exact div_nonneg (Real.binEntropy_nonneg (div_pos ha h).le hle) hl.le
  · rw [bits, div_le_one hl]
    exact Real.binEntropy_le_log_two
  · rw [bits, div_eq_one_iff_eq hl.ne', Real.binEntropy_eq_log_two, div_eq_iff h.ne']
    constructor <;> intro e <;> linarith
  · have : tot nb k / (tot nb k + tot na k) = 1 - tot na k / (tot na k + tot nb k) := by
      rw [add_comm (tot nb k)]
      field_simp
      ring
    rw [bits, bits, this, Real.binEntropy_one_sub]

/-- C101 (the potential): where both fragments have density everywhere, the array left in `KSa.V.v_s` is the
functional derivative of the integrated entropy with respect to the density of fragment a. -/
theorem C101_potential_partial {P P' : Part G r c p} (h : calcProtomolecule P = .ok P') (o : Option (VArr G))
    (va vb : List (Option (VArr G))) {R : Surprise G} (hR : vpSurprise P' (o :: va) vb = .ok R) :
    ∃ na nb, P'.naFrac = some na ∧ P'.nbFrac = some nb ∧ ((∀ k, 0 < tot na k ∧ 0 < tot nb k) →
      ∃ v : G.Fld, R.va.head? = some (some (.vec fun k => .fin (v k))) ∧ ∀ δ : G.Fld,
        HasDerivAt (fun t => G.integ fun k => bits (tot na k + t * δ k) (tot nb k)) (G.integ fun k => v k * δ k) 0) := by
  obtain ⟨na, nb, nf, h1, h2, h3, hf⟩ := protomolecule_tot h
  refine ⟨na, nb, h1, h2, fun hp => ?_⟩
  refine ⟨fun k => tot nb k / (tot na k + tot nb k) * Real.logb 2 (tot nb k / tot na k) / (tot na k + tot nb k), ?_, fun δ => ?_⟩
  · simp only [vpSurprise, h1, h2, h3, KS.need, attr, bind, Except.bind, assignEach, repeatCols, pure, Except.pure,
      Except.ok.injEq] at hR
    subst hR
    simp only [List.head?_cons, Option.some.injEq, VArr.vec.injEq]
    funext k
    exact pot_value (hp k).1 (hp k).2 (hf k)
  · unfold Grid.integ
    refine HasDerivAt.const_mul _ (HasDerivAt.fun_sum fun k _ => ?_)
    exact (bits_derivative (hp k).1 (hp k).2 (δ k)).const_mul (G.wi k * G.w k)

/-- C101 is false as it stands: `V.v_s` is never given one column for each spin, because `np.repeat(…, axis=1)` is
applied to an array without a second axis.  The call raises for the first fragment, and the other fragments keep
what they had. -/
theorem C101_refuted (P : Part G r c p) (o : Option (VArr G)) (va vb : List (Option (VArr G))) {R : Surprise G}
    (hR : vpSurprise P (o :: va) vb = .ok R) :
    R.raised = some .valueError ∧ R.vb = vb ∧ R.va.tail = va ∧ ∀ cols, R.va.head? ≠ some (some (.mat cols)) := by
  simp only [vpSurprise, Py.do_eq_ok, assignEach, repeatCols, Py.pure_eq_ok] at hR
  obtain ⟨_, -, _, -, _, -, rfl⟩ := hR
  exact ⟨rfl, rfl, rfl, by simp⟩

/-- C101 is false where one fragment has no density: the entropy 0 of a point belonging to one fragment is NaN. -/
theorem C101_refuted_empty {P : Part G r c p} {na nb nf : G.Cols p} (h1 : P.naFrac = some na) (h2 : P.nbFrac = some nb)
    (h3 : P.nf = some nf) (va vb : List (Option (VArr G))) {R : Surprise G} (hR : vpSurprise P va vb = .ok R)
    {k : G.Ix} (ha : tot na k = 0) : R.s k = .nan := by
  have hs : R.s = surprisal (share na nf) (share nb nf) := by
    simp only [vpSurprise, h1, h2, h3, KS.need, attr, bind, Except.bind] at hR
    split at hR <;> simp only [pure, Except.pure, Except.ok.injEq] at hR <;> subst hR <;> rfl
  rw [hs]
  by_cases hf : tot nf k = 0
  · simp [surprisal, share, Fl.div, ha, hf, Fl.neg, Fl.mul, Fl.sub, Fl.add]
  · simp [surprisal, share, Fl.div, ha, hf, log2, Fl.neg, Fl.mul, Fl.sub, Fl.add]

/-- Densities (1, 4) and (4, 1): the call sets `V.s` between 0 and 1 at the first point, the potential of the first
fragment is positive there (a little more of the scarce fragment adds to the entropy), and then raises. -/
example : ∃ P' R, calcProtomolecule (SampleR.part {}) = .ok P' ∧ vpSurprise P' [none] [none] = .ok R ∧
    R.s 0 = .fin (bits 1 4) ∧ 0 < bits 1 4 ∧ bits 1 4 < 1 ∧ R.raised = some .valueError ∧
    ∃ v, R.va = [some (.vec v)] ∧ v 0 = .fin (4 / 5 * 2 / 5) := by
  have hP : calcProtomolecule (SampleR.part {}) = .ok { SampleR.part {} with
      naFrac := some (SampleR.dens 1 4), nbFrac := some (SampleR.dens 4 1),
      nf := some fun j k => SampleR.dens 1 4 j k + SampleR.dens 4 1 j k } := by
    simp [calcProtomolecule, weighted, compsA, compsB, SampleR.part, SampleR.frag, KS.need, addFlip, bind, Except.bind,
      pure, Except.pure]
  have ht : ∀ x y : ℝ, tot (SampleR.dens x y) 0 = x := fun x y => by simp [tot, SampleR.dens]
  have hf : tot (G := SampleR.G) (fun j k => SampleR.dens 1 4 j k + SampleR.dens 4 1 j k) 0 =
      tot (SampleR.dens 1 4) 0 + tot (SampleR.dens 4 1) 0 := by simp [tot, SampleR.dens]
  have ha : 0 < tot (SampleR.dens 1 4) 0 := by rw [ht]; norm_num
  have hb : 0 < tot (SampleR.dens 4 1) 0 := by rw [ht]; norm_num
  have h1 := surprisal_bits ha hb hf
  have h2 := pot_value ha hb hf
  rw [ht, ht] at h1 h2
  have hl : 0 < Real.log 2 := Real.log_pos (by norm_num)
  refine ⟨_, _, hP, rfl, h1, ?_, ?_, rfl, _, rfl, h2.trans ?_⟩
  · exact div_pos (Real.binEntropy_pos (by norm_num) (by norm_num)) hl
  · rw [bits, div_lt_one hl, Real.binEntropy_lt_log_two]
    norm_num
  · have : Real.logb 2 (4 / 1) = 2 := by
      rw [show (4 / 1 : ℝ) = 2 ^ (2 : ℝ) by norm_num]
      exact Real.logb_rpow (by norm_num) (by norm_num)
    rw [this]
    norm_num

end Verif
