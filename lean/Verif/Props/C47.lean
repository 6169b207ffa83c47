import Verif.Lemmas.PartitionPotential
import Verif.Model.PartitionScf

/-! # C47: von Weizsaecker non-additive kinetic energy -/

namespace Verif
open Spec Part
variable {K : Type} [Field K] [LinearOrder K] [IsStrictOrderedRing K] [FloorRing K]
variable {G : Grid K} {r c p : ℕ}

/-- The von Weizsaecker energy `-1/2 ∫ √n ∇²√n` of a total density: `elap` is the Laplacian times the volume
element, so the integral is the weighted sum of `√n` times `elap √n`. -/
def Spec.weizsacker (T : Env G r c p) (n : G.Fld) : K :=
  2 * G.pi * G.hr * G.ha * ∑ k, G.wi k * T.sqrt (n k) * (-1 / 2 * ∑ l, T.elap k l * T.sqrt (n l))

/-- The array which stands in the code for the fragment sum: for every component the integral of `√n` times
`-1/2 elap √n` at the grid point. -/
def Spec.weizsackerRows (T : Env G r c p) (D : List (G.Fld × K)) (k : G.Ix) : K :=
  (D.map fun d => d.2 * (2 * G.pi * G.hr * G.ha) * (∑ l, G.wi l * T.sqrt (d.1 l)) *
    (-1 / 2 * ∑ l, T.elap k l * T.sqrt (d.1 l))).sum

theorem weizsacker_fold (T : Env G r c p) (c' : K) {l : List (Frag G r c p)} {A : List (G.Cols p × K)}
    (h : Comps l A) (acc : G.Fld) :
    l.foldlM (m := Py) (fun (acc : G.Fld) f => do
      let s ← KS.need f.ks.scale
      let n ← KS.need f.ks.n
      pure fun k => acc k + s * c' * (∑ l, G.wi l * T.sqrt (tot n l)) *
        (-1 / 2 * ∑ l, T.elap k l * T.sqrt (tot n l))) acc =
    .ok fun k => acc k + (A.map fun d => d.2 * c' * (∑ l, G.wi l * T.sqrt (tot d.1 l)) *
        (-1 / 2 * ∑ l, T.elap k l * T.sqrt (tot d.1 l))).sum := by
  induction h generalizing acc with
  | nil =>
    simp only [List.foldlM_nil, List.map_nil, List.sum_nil, add_zero]
    rfl
  | cons hf _ ih =>
    rw [List.foldlM_cons, hf.1, hf.2]
    simp only [KS.need, bind, Except.bind, pure, Except.pure]
    refine (ih _).trans ?_
    congr 1
    funext k
    simp only [List.map_cons, List.sum_cons]
    ring

/-- C47, partial: what `ep_kinetic('vonweiz')` computes.  The result is an array with one entry per grid point;
the molecular term enters each entry as *minus* the von Weizsaecker energy of `nf`.
Missing: a number, and the same functional in both terms (`C47_refuted`). -/
theorem C47_vonweiz_partial (T : Env G r c p) (P : Part G r c p) (hk : P.opt.kin = .vonweiz)
    (nf : G.Cols p) (hnf : P.nf = some nf) (A : List (G.Cols p × K)) (hA : Comps P.comps A) :
    P.epKinetic T = .ok (.vec fun k => .fin (- weizsacker T (fun k => ∑ j, nf j k) -
      (if P.opt.ensSpinSym then 2 else 1) * weizsackerRows T (A.map fun d => (fun k => ∑ j, d.1 j k, d.2)) k)) := by
  unfold epKinetic kineticEnergies vonWeizsackerEnergy
  rw [hk]
  simp only [hnf, attr, bind, Except.bind]
  have := weizsacker_fold T (2 * G.pi * G.hr * G.ha) hA fun _ => 0
  simp only [bind, Except.bind] at this
  rw [this]
  simp only [pure, Except.pure]
  have hneg : 2 * G.pi * G.hr * G.ha * ∑ k, G.wi k * T.sqrt (tot nf k) * (1 / 2 * ∑ l, T.elap k l * T.sqrt (tot nf l)) =
      - weizsacker T (fun k => ∑ j, nf j k) := by
    unfold weizsacker
    rw [← mul_neg, ← Finset.sum_neg_distrib]
    congr 1
    refine Finset.sum_congr rfl fun k _ => ?_
    simp only [tot]
    ring
  rw [hneg]
  cases P.opt.ensSpinSym with
  | false =>
    simp only [Bool.false_eq_true, ↓reduceIte, Tot.sub, Tot.neg, Tot.add, Fl.neg, Fl.add, weizsackerRows,
      List.map_map, Function.comp_def, tot, zero_add, one_mul, sub_eq_add_neg]
  | true =>
    simp only [↓reduceIte, Tot.sub, Tot.neg, Tot.add, Tot.smul, Fl.mul, Fl.neg, Fl.add, weizsackerRows,
      List.map_map, Function.comp_def, tot, zero_add, sub_eq_add_neg]
    congr 2
    funext k
    congr 1
    ring

/-- C47 is false: with 'vonweiz' the result is never a number, ... -/
theorem C47_refuted (T : Env G r c p) (P : Part G r c p) (hk : P.opt.kin = .vonweiz) (t : Tot G)
    (h : P.epKinetic T = .ok t) : ∃ f, t = .vec f := by
  unfold epKinetic kineticEnergies vonWeizsackerEnergy at h
  rw [hk] at h
  simp only [Py.do_eq_ok, Py.pure_eq_ok] at h
  obtain ⟨⟨a, b⟩, ⟨nf, -, f, -, e⟩, rfl⟩ := h
  obtain ⟨rfl, rfl⟩ := Prod.mk.inj e
  cases P.opt.ensSpinSym <;> exact ⟨_, rfl⟩

/-- ... the total energy is an array too, and no pass of a non-isolated `Partition.scf` succeeds (on grids with
more than one point it ends in `ValueError`, the comparison of an array). -/
theorem C47_refuted_scf (T : ℕ → Env G r c p) (W : ℕ → KsScf.Workers G r c p) (o : PartScf.Options K)
    (st : PartScf.State G r c p) (P : Part G r c p)
    (hpass : PartScf.pass (T st.it) (W st.it) o st.dif (PartScf.avoid st.it st.P) = .ok P)
    (e : PartEnergy G p) (he : P.E = some e) (nf : G.Cols p) (hnf : P.nf = some nf) (f) (hvec : e.E = .vec f)
    (hcard : Fintype.card G.Ix ≠ 1) :
    PartScf.body T W o st = .error .valueError := by
  unfold PartScf.body
  rw [hpass]
  simp only [bind, Except.bind, he, hnf, attr, PartScf.difE, hvec, if_neg hcard]

theorem energy_vec (T : Env G r c p) (P P' : Part G r c p) (hk : P.opt.kin = .vonweiz) (hi : P.opt.isolated = false)
    (h : P.energy T = .ok P') : ∃ e f, P'.E = some e ∧ e.E = .vec f := by
  unfold energy at h
  simp only [Py.do_eq_ok, Py.pure_eq_ok] at h
  obtain ⟨⟨sa, sb⟩, -, ⟨Q, x1, x2, x3, x4⟩, hQ, ⟨ea, eb⟩, -, rfl⟩ := h
  unfold partitionEnergy at hQ
  simp only [hi, Bool.false_eq_true, ↓reduceIte, Py.do_eq_ok, Py.pure_eq_ok] at hQ
  obtain ⟨pot, -, kin, hkin, ⟨R, y⟩, -, e⟩ := hQ
  obtain ⟨g, rfl⟩ := C47_refuted T P hk kin hkin
  simp only [Prod.mk.injEq] at e
  obtain ⟨rfl, rfl, rfl, rfl, rfl⟩ := e
  exact ⟨_, _, rfl, rfl⟩

/-- A concrete case: two grid points, densities zero; the code returns an array. -/
example (T : Env (Grid.tiny ℚ) 0 0 1) : ∃ f, ({ Part.sample { kin := .vonweiz }
    (Frag.sample (fun _ _ => 0) 1 (KSEnergy.sample 0)) (Frag.sample (fun _ _ => 0) 1 (KSEnergy.sample 0)) none with
      nf := some fun _ _ => 0 } : Part (Grid.tiny ℚ) 0 0 1).epKinetic T = .ok (.vec f) :=
  ⟨_, rfl⟩

end Verif
