import Verif.Lemmas.Partition

/-!
# C37: ensemble weights; C38: promolecular density; C39: Q functions
-/

namespace Verif
open Spec Part
variable {K : Type} [Field K] [LinearOrder K] [IsStrictOrderedRing K] [FloorRing K]
variable {G : Grid K} {r c p : ℕ}

/-! ## C37 -/

/-- Total weight of the components of one fragment; with spin-symmetrised ensembles each component also
stands for its spin-flipped twin. -/
def Spec.totalWeight (K : Type) [Field K] (ensSpinSym : Bool) : K := if ensSpinSym then 1 / 2 else 1

/-- C37, partial: if both ratios are 1 there is one component per fragment with the total weight; if
both differ from 1 there are two, the second with fraction `nu` of the total weight, and the weights
of each fragment sum to the total weight.
Missing: one ratio equal to 1 and the other not (`C37_refuted`). -/
theorem C37_weights_partial (nuA nuB : K) (b : Bool) :
    (nuA = 1 → nuB = 1 →
      scaleFactors nuA nuB b = .ok ((totalWeight K b, totalWeight K b), none)) ∧
    (nuA ≠ 1 → nuB ≠ 1 → ∃ sa sb sA sB : K, scaleFactors nuA nuB b = .ok ((sa, sb), some (sA, sB)) ∧
      sa + sA = totalWeight K b ∧ sb + sB = totalWeight K b ∧
      sA = nuA * totalWeight K b ∧ sB = nuB * totalWeight K b) := by
  constructor
  · rintro rfl rfl
    cases b <;> simp [scaleFactors, totalWeight]
  · intro hA hB
    refine ⟨_, _, _, _, by simp [scaleFactors, hA, hB]; exact ⟨⟨rfl, rfl⟩, rfl, rfl⟩, ?_, ?_, ?_, ?_⟩ <;>
      cases b <;> simp [totalWeight] <;> ring

/-- C37: a pair of ratios in `[0,1]` of which exactly one is 1 is rejected. -/
theorem C37_refuted (nu : K) (_ : 0 ≤ nu) (h1 : nu < 1) (b : Bool) :
    scaleFactors 1 nu b = .error .attributeError ∧ scaleFactors nu 1 b = .error .attributeError := by
  simp [scaleFactors, h1.ne]

example : scaleFactors (K := ℚ) (1 / 4) (1 / 2) true = .ok ((3 / 8, 1 / 4), some (1 / 8, 1 / 4)) := by
  simp [scaleFactors]; norm_num

/-! ## C38 -/

/-- C38: `calc_protomolecule` sets the weighted sums; their electron numbers are the weighted
electron numbers of the components (doubled with `ens_spin_sym`); with `ens_spin_sym` the densities are
unchanged by a spin flip.  Nothing else changes. -/
theorem C38_promolecule (P : Part G r c p) (A B : List (G.Cols p × K)) (hA : Comps P.compsA A)
    (hB : Comps P.compsB B) :
    ∃ na nb : G.Cols p, P.calcProtomolecule = .ok { P with
        naFrac := some na, nbFrac := some nb, nf := some fun j k => na j k + nb j k } ∧
      (P.opt.ensSpinSym = false → na = Spec.average A ∧ nb = Spec.average B) ∧
      (P.opt.ensSpinSym = true →
        (∀ j k, na j k = Spec.average A j k + Spec.average A j.rev k ∧
          nb j k = Spec.average B j k + Spec.average B j.rev k) ∧
        ∀ j k, na j.rev k + nb j.rev k = na j k + nb j k) ∧
      count na = (if P.opt.ensSpinSym then 2 else 1) * (A.map fun x => x.2 * count x.1).sum ∧
      count nb = (if P.opt.ensSpinSym then 2 else 1) * (B.map fun x => x.2 * count x.1).sum := by
  refine ⟨addFlip P.opt.ensSpinSym (Spec.average A), addFlip P.opt.ensSpinSym (Spec.average B), ?_, ?_,
    ?_, ?_, ?_⟩
  · unfold calcProtomolecule
    rw [weighted_eq _ A hA, weighted_eq _ B hB]
    rfl
  · intro h; simp [h, addFlip]
  · intro h
    rw [h]
    refine ⟨fun j k => ⟨rfl, rfl⟩, fun j k => ?_⟩
    simp only [addFlip, ↓reduceIte, Grid.flipCols, Fin.rev_rev]
    ring
  all_goals
    cases P.opt.ensSpinSym
    · simp [addFlip, count_average]
    · simp only [addFlip, ↓reduceIte]
      rw [count_add, count_flip, count_average]
      ring

/-! ## C39 -/

theorem calcQ_eq (P : Part G r c p) (nf : G.Cols p) (hnf : P.nf = some nf)
    (C : List (G.Cols p × K)) (hC : Comps P.comps C) :
    ∃ P', P.calcQ = .ok P' ∧ P'.nf = P.nf ∧ P'.opt = P.opt ∧
      List.Forall₂ (fun f x => f.ks.n = some x.1 ∧ f.ks.scale = some x.2 ∧
        f.ks.Q = some fun j k => if nf j k = 0 then 0 else x.2 * x.1 j k / nf j k) P'.comps C := by
  let g : Frag G r c p → Frag G r c p := fun f => ⟨{ f.ks with
    Q := some fun j k => if nf j k = 0 then 0 else (f.ks.scale.getD 0) * (f.ks.n.getD fun _ _ => 0) j k / nf j k }, f.v⟩
  have hsome : ∀ f ∈ P.comps, ∃ x : G.Cols p × K, f.ks.n = some x.1 ∧ f.ks.scale = some x.2 := by
    intro f hf
    obtain ⟨i, hi, rfl⟩ := List.getElem_of_mem hf
    have hlen := hC.length_eq
    exact ⟨C[i]'(hlen ▸ hi), (List.forall₂_iff_get.mp hC).2 i hi (hlen ▸ hi)⟩
  refine ⟨P.mapPure g, ?_, rfl, rfl, ?_⟩
  · unfold calcQ
    rw [show attr P.nf = .ok nf by rw [hnf]; rfl]
    change P.mapAll _ = _
    refine mapAll_ok _ g P ?_
    intro f hf
    obtain ⟨x, h1, h2⟩ := hsome f hf
    rw [h1, h2]
    change Except.ok _ = _
    simp only [g, h1, h2, Fl.clean_div, Option.getD_some]
  · rw [comps_map]
    rw [List.forall₂_map_left_iff]
    refine hC.imp ?_
    rintro f x ⟨h1, h2⟩
    simp [g, h1, h2]

/-- C39: after `calc_protomolecule`, `calc_Q` sets `Q` functions; where the promolecular density vanishes
they are zero, elsewhere their sum over the components is one (with `ens_spin_sym` the sum plus its
spin flip); for non-negative densities and weights each lies between 0 and 1. -/
theorem C39_partition_of_unity (P P₁ : Part G r c p) (A B : List (G.Cols p × K))
    (hA : Comps P.compsA A) (hB : Comps P.compsB B) (h₁ : P.calcProtomolecule = .ok P₁) :
    ∃ (nf : G.Cols p) (P₂ : Part G r c p) (Qs : List (G.Cols p)), P₁.nf = some nf ∧ P₁.calcQ = .ok P₂ ∧
      List.Forall₂ (fun f Q => f.ks.Q = some Q) P₂.comps Qs ∧
      (∀ j k, nf j k = 0 → ∀ Q ∈ Qs, Q j k = 0) ∧
      (P.opt.ensSpinSym = false → ∀ j k, nf j k ≠ 0 → (Qs.map fun Q => Q j k).sum = 1) ∧
      (P.opt.ensSpinSym = true → ∀ j k, nf j k ≠ 0 →
        (Qs.map fun Q => Q j k).sum + (Qs.map fun Q => Q j.rev k).sum = 1) ∧
      ((∀ x ∈ A ++ B, 0 ≤ x.2 ∧ ∀ j k, 0 ≤ x.1 j k) → ∀ Q ∈ Qs, ∀ j k, 0 ≤ Q j k ∧ Q j k ≤ 1) := by
  obtain ⟨na, nb, h, hno, hes, -, -⟩ := C38_promolecule P A B hA hB
  rw [h] at h₁
  obtain rfl := Except.ok.inj h₁
  set nf : G.Cols p := fun j k => na j k + nb j k with hnf
  have hC : Comps (({ P with naFrac := some na, nbFrac := some nb, nf := some nf } : Part G r c p).comps) (A ++ B) :=
    List.rel_append hA hB
  obtain ⟨P₂, h₂, -, -, hQ⟩ := calcQ_eq { P with naFrac := some na, nbFrac := some nb, nf := some nf } nf
    rfl (A ++ B) hC
  let q : G.Cols p × K → G.Cols p := fun x j k => if nf j k = 0 then 0 else x.2 * x.1 j k / nf j k
  have hsum : ∀ (C : List (G.Cols p × K)) j k, nf j k ≠ 0 →
      ((C.map q).map fun Q => Q j k).sum = Spec.average C j k / nf j k := by
    intro C j k h0
    induction C with
    | nil => simp [Spec.average]
    | cons x C ih =>
      simp only [List.map_cons, List.sum_cons, ih, q, h0, ↓reduceIte, Spec.average, add_div]
  refine ⟨nf, P₂, (A ++ B).map q, rfl, h₂, ?_, ?_, ?_, ?_, ?_⟩
  · rw [List.forall₂_map_right_iff]
    exact hQ.imp fun f x hx => hx.2.2
  · intro j k h0 Q hQ
    obtain ⟨x, -, rfl⟩ := List.mem_map.mp hQ
    simp [q, h0]
  · intro he j k h0
    rw [hsum _ _ _ h0, average_append, ← (hno he).1, ← (hno he).2]
    exact div_self h0
  · intro he j k h0
    have hrev : nf j.rev k = nf j k := (hes he).2 j k
    have h0' : nf j.rev k ≠ 0 := by rw [hrev]; exact h0
    rw [hsum _ _ _ h0, hsum _ _ _ h0', hrev, average_append, average_append, ← add_div]
    have : nf j k = na j k + nb j k := rfl
    rw [div_eq_one_iff_eq h0, this, ((hes he).1 j k).1, ((hes he).1 j k).2]
    ring
  · intro hpos Q hQ j k
    obtain ⟨x, hx, rfl⟩ := List.mem_map.mp hQ
    have havg : ∀ (C : List (G.Cols p × K)), (∀ y ∈ C, 0 ≤ y.2 ∧ ∀ j k, 0 ≤ y.1 j k) → ∀ j k,
        0 ≤ Spec.average C j k := fun C hC j k => List.sum_nonneg (by
      intro z hz
      obtain ⟨y, hy, rfl⟩ := List.mem_map.mp hz
      exact mul_nonneg (hC y hy).1 ((hC y hy).2 j k))
    have hle : x.2 * x.1 j k ≤ Spec.average (A ++ B) j k := List.single_le_sum (by
      intro z hz
      obtain ⟨y, hy, rfl⟩ := List.mem_map.mp hz
      exact mul_nonneg (hpos y hy).1 ((hpos y hy).2 j k)) _ (List.mem_map.mpr ⟨x, hx, rfl⟩)
    have hnn : Spec.average (A ++ B) j k ≤ nf j k := by
      change _ ≤ na j k + nb j k
      rw [average_append]
      cases he : P.opt.ensSpinSym with
      | false => rw [(hno he).1, (hno he).2]
      | true =>
        rw [((hes he).1 j k).1, ((hes he).1 j k).2]
        have h1 := havg A (fun y hy => hpos y (List.mem_append_left _ hy)) j.rev k
        have h2 := havg B (fun y hy => hpos y (List.mem_append_right _ hy)) j.rev k
        linarith
    have hx0 : 0 ≤ x.2 * x.1 j k := mul_nonneg (hpos x hx).1 ((hpos x hx).2 j k)
    by_cases h0 : nf j k = 0
    · simp [q, h0]
    · have hp : 0 < nf j k := lt_of_le_of_ne (hx0.trans (hle.trans hnn)) (Ne.symm h0)
      simp only [q, h0, ↓reduceIte]
      exact ⟨div_nonneg hx0 hp.le, (div_le_one hp).mpr (hle.trans hnn)⟩

/-- A concrete case of C38 and C39: fragments with densities (1,0) and (3,0) and weights 1 have the
promolecular density (4,0), with four electrons, and the Q functions (1/4,0) and (3/4,0). -/
example : ∃ (P₁ P₂ : Part (Grid.tiny ℚ) 0 0 1) (nf qa qb : (Grid.tiny ℚ).Cols 1),
    (Part.sample {} (Frag.sample (fun _ k => if k = 0 then 1 else 0) 1 (KSEnergy.sample 0))
      (Frag.sample (fun _ k => if k = 0 then 3 else 0) 1 (KSEnergy.sample 0)) none).calcProtomolecule = .ok P₁ ∧
    P₁.calcQ = .ok P₂ ∧ P₁.nf = some nf ∧ (∀ j, nf j 0 = 4 ∧ nf j 1 = 0) ∧
    (Grid.tiny ℚ).integ (nf 0) = 4 ∧
    P₂.fa.ks.Q = some qa ∧ P₂.fb.ks.Q = some qb ∧
    (∀ j, qa j 0 = 1 / 4 ∧ qa j 1 = 0) ∧ ∀ j, qb j 0 = 3 / 4 ∧ qb j 1 = 0 := by
  refine ⟨_, _, _, _, _, rfl, rfl, rfl, ?_, ?_, rfl, rfl, ?_, ?_⟩
  · intro j
    simp only [Part.sample]
    norm_num [addFlip]
  · rw [Grid.tiny_integ]
    simp only [Part.sample]
    norm_num [addFlip]
  · intro j
    simp only [Frag.sample, Part.sample, Fl.clean_div]
    simp only [addFlip]
    norm_num
  · intro j
    simp only [Frag.sample, Part.sample, Fl.clean_div]
    simp only [addFlip]
    norm_num

end Verif
