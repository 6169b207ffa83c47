import Verif.Lemmas.PartitionPotential

/-! # C51: Q-averaged energy densities of the fragments in `ep_hxc` -/

namespace Verif
open Spec Part
variable {K : Type} [Field K] [LinearOrder K] [IsStrictOrderedRing K] [FloorRing K]
variable {G : Grid K} {r c p : ℕ}

/-- `Σ_i Q_i e_i` (Q summed over the spins) at a point. -/
def Spec.qSum (D : List (G.Cols p × G.Fld)) (k : G.Ix) : K := (D.map fun d => (∑ j, d.1 j k) * d.2 k).sum

/-- The components have these Q functions and energy densities, and none is frozen. -/
def Spec.HasDensities (x : Frag G r c p → Option G.Fld) (l : List (Frag G r c p))
    (D : List (G.Cols p × G.Fld)) : Prop :=
  List.Forall₂ (fun f d => f.ks.Q = some d.1 ∧ x f = some d.2 ∧ f.v.frozen ≠ some true) l D

theorem addDensity_eq {x : Frag G r c p → Option G.Fld} {f : Frag G r c p} {d : G.Cols p × G.Fld}
    (h : f.ks.Q = some d.1 ∧ x f = some d.2 ∧ f.v.frozen ≠ some true) (acc : G.Fld) :
    addDensity x acc f = .ok fun k => acc k + (∑ j, d.1 j k) * d.2 k := by
  unfold addDensity
  have : f.v.frozen = none ∨ f.v.frozen = some false := by
    rcases hf : f.v.frozen with _ | _ | _
    · exact .inl rfl
    · exact .inr rfl
    · exact absurd hf h.2.2
  rw [if_pos this, h.1, h.2.1]
  rfl

theorem addDensity_fold (x : Frag G r c p → Option G.Fld) {l : List (Frag G r c p)}
    {D : List (G.Cols p × G.Fld)} (h : HasDensities x l D) (acc : G.Fld) :
    l.foldlM (addDensity x) acc = .ok fun k => acc k + qSum D k := by
  induction h generalizing acc with
  | nil =>
    simp only [List.foldlM_nil, qSum, List.map_nil, List.sum_nil, add_zero]
    rfl
  | cons hf _ ih =>
    rw [List.foldlM_cons, addDensity_eq hf]
    simp only [bind, Except.bind, ih]
    congr 1
    funext k
    simp only [qSum, List.map_cons, List.sum_cons]
    ring

/-- The exchange and correlation energy densities (and the Hartree one without `ab_sym`) are Q-averaged as
wished in every case. -/
theorem excf_eq (P : Part G r c p) (x : Frag G r c p → Option G.Fld) (D : List (G.Cols p × G.Fld))
    (h : HasDensities x (if P.opt.abSym then P.compsA else P.comps) D) :
    P.excf x = .ok fun k => if P.opt.abSym then qSum D k + qSum D (G.mirIx k) else qSum D k := by
  unfold excf
  cases hab : P.opt.abSym with
  | false =>
    simp only [hab, Bool.false_eq_true, ↓reduceIte] at h ⊢
    rw [addDensity_fold x h]
    simp
  | true =>
    simp only [hab, ↓reduceIte] at h ⊢
    rw [addDensity_fold x h]
    simp only [bind, Except.bind, zero_add, pure, Except.pure]
    rfl

/-- C51, partial: without `ab_sym`, or with `ab_sym` and no ensemble, `ep_hxc` subtracts from half the
molecular Hartree potential the Q-weighted sum of the components' Hartree energy densities, with `ab_sym` plus
its mirror image once; exchange and correlation likewise, for every ensemble.
Missing: ensembles with `ab_sym` (`C51_refuted`), frozen fragments (`C51_refuted_frozen`). -/
theorem C51_hartree_density_partial (T : Env G r c p) (P : Part G r c p) (Ehf Exf Ecf : K)
    (h : P.opt.abSym = true → P.ens = false) (hd : P.opt.interaction = .dft)
    (Dh Dx Dc : List (G.Cols p × G.Fld))
    (hh : HasDensities (fun f => f.ks.V.eh) (if P.opt.abSym then P.compsA else P.comps) Dh)
    (hx : HasDensities (fun f => f.ks.V.ex) (if P.opt.abSym then P.compsA else P.comps) Dx)
    (hc : HasDensities (fun f => f.ks.V.ec) (if P.opt.abSym then P.compsA else P.comps) Dc)
    (res) (hres : P.epComponents T Ehf Exf Ecf = .ok res) :
    ∃ (nf : G.Cols p) (vh epsX epsC : G.Fld) (eh ex ec : G.Fld), P.nf = some nf ∧
      T.hartree1 (fun k => ∑ j, nf j k) = .ok vh ∧ P.epsX = some epsX ∧ P.epsC = some epsC ∧
      res.2.2.2 = some (eh, ex, ec) ∧
      ∀ k,
        eh k = 1 / 2 * vh k - (if P.opt.abSym then qSum Dh k + qSum Dh (G.mirIx k) else qSum Dh k) ∧
        ex k = epsX k - (if P.opt.abSym then qSum Dx k + qSum Dx (G.mirIx k) else qSum Dx k) ∧
        ec k = epsC k - (if P.opt.abSym then qSum Dc k + qSum Dc (G.mirIx k) else qSum Dc k) := by
  have hehf : P.ehf = .ok fun k => if P.opt.abSym then qSum Dh k + qSum Dh (G.mirIx k) else qSum Dh k := by
    cases hab : P.opt.abSym with
    | false =>
      have e := excf_eq P _ Dh hh
      unfold excf at e
      unfold ehf
      simp only [hab, Bool.false_eq_true, ↓reduceIte] at e ⊢
      exact e
    | true =>
      have hnone : P.fAB = none := by
        have := h hab
        unfold ens at this
        exact Option.isNone_iff_eq_none.mp (by cases hf : P.fAB <;> simp_all)
      simp only [hab, ↓reduceIte, compsA, hnone, Option.map_none, Option.toList_none] at hh
      cases hh with
      | cons h1 h2 =>
        cases h2
        unfold ehf
        simp only [hab, ↓reduceIte, compsA, hnone, Option.map_none, Option.toList_none, List.foldlM_cons,
          List.foldlM_nil, addDensity_eq (x := fun f => f.ks.V.eh) h1, bind, Except.bind, pure, Except.pure]
        congr 1
        funext k
        simp only [Grid.mir, qSum, List.map_cons, List.map_nil, List.sum_cons, List.sum_nil, add_zero, zero_add]
  have hexf := excf_eq P _ Dx hx
  have hecf := excf_eq P _ Dc hc
  unfold epComponents at hres
  rw [hd] at hres
  simp only [Py.do_eq_ok, Py.pure_eq_ok, attr_eq_ok] at hres
  obtain ⟨nf, hnf, vh, hvh, eh, heh, ex, -, epsX, hepsX, exf, he1, ec, -, epsC, hepsC, ecf, he2, rfl⟩ := hres
  rw [hehf] at heh
  rw [hexf] at he1
  rw [hecf] at he2
  obtain rfl := Except.ok.inj heh
  obtain rfl := Except.ok.inj he1
  obtain rfl := Except.ok.inj he2
  exact ⟨nf, vh, epsX, epsC, _, _, _, hnf, hvh, hepsX, hepsC, rfl, fun k => ⟨rfl, rfl, rfl⟩⟩

/-- A component with Q function 1 at both points and the given Hartree energy density. -/
def Frag.withEh (eh : (Grid.tiny ℚ).Fld) (frozen : Bool) : Frag (Grid.tiny ℚ) 0 0 1 :=
  let f := Frag.sample (fun _ _ => 0) 1 (KSEnergy.sample 0)
  ⟨{ f.ks with Q := some fun _ _ => 1, V := { eh := some eh } }, { frozen := some frozen }⟩

/-- C51 is false in ensembles with `ab_sym`: energy densities (1,0) of `KSa` and 0 of `KSA` should give
(1,1), the sum and its mirror image; the code gives (2,2). -/
theorem C51_refuted :
    ∃ (P : Part (Grid.tiny ℚ) 0 0 1) (D : List ((Grid.tiny ℚ).Cols 1 × (Grid.tiny ℚ).Fld)) (e : (Grid.tiny ℚ).Fld),
      P.opt.abSym = true ∧ HasDensities (fun f => f.ks.V.eh) P.compsA D ∧ P.ehf = .ok e ∧
      (∀ k, qSum D k + qSum D ((Grid.tiny ℚ).mirIx k) = 1) ∧ ∀ k, e k = 2 := by
  let f := Frag.withEh (fun k => if k = 0 then 1 else 0) false
  let g := Frag.withEh (fun _ => 0) false
  refine ⟨Part.sample { abSym := true } f f (some (g, g)),
    [(fun _ _ => 1, fun k => if k = 0 then 1 else 0), (fun _ _ => 1, fun _ => 0)], _, rfl,
    .cons ⟨rfl, rfl, (fun h => nomatch h)⟩ (.cons ⟨rfl, rfl, (fun h => nomatch h)⟩ .nil), rfl, ?_, ?_⟩
  · decide +kernel
  · decide +kernel

/-- C51 is false for frozen fragments: their energy densities are left out. -/
theorem C51_refuted_frozen :
    ∃ (P : Part (Grid.tiny ℚ) 0 0 1) (e : (Grid.tiny ℚ).Fld), P.opt.abSym = false ∧ P.ehf = .ok e ∧
      (∀ f ∈ P.comps, ∃ Q, f.ks.Q = some Q ∧ f.ks.V.eh = some (fun _ => 1) ∧ ∀ j k, Q j k = 1) ∧
      ∀ k, e k = 1 := by
  refine ⟨Part.sample {} (Frag.withEh (fun _ => 1) true) (Frag.withEh (fun _ => 1) false) none, _, rfl, rfl,
    ?_, ?_⟩
  · intro f hf
    simp only [Part.sample, comps, compsA, compsB, Option.map_none, Option.toList_none, List.cons_append,
      List.nil_append, List.mem_cons, List.not_mem_nil, or_false] at hf
    rcases hf with rfl | rfl <;> exact ⟨_, rfl, rfl, fun _ _ => rfl⟩
  · decide +kernel

end Verif
