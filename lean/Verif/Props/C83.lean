import Verif.Props.C03_C05
import Verif.Model.Partition

/-! # C83: nuclear potentials -/

namespace Verif
open Spec Init _root_.Verif.Part

variable {r c p : ℕ}

/-- Potential of point charges `Za`, `Zb` on the axis at `-a` and `a`, at a grid point. -/
noncomputable def Spec.nuclear (G : Grid ℝ) (a L Za Zb : ℝ) (k : G.Ix) : ℝ :=
  -Za / Spec.dist (Y G.Na G.Nr a L k) (Z G.Na G.Nr a L k) (-a) - Zb / Spec.dist (Y G.Na G.Nr a L k) (Z G.Na G.Nr a L k) a

theorem coulomb_eq_nuclear (G : Grid ℝ) {a L : ℝ} (ha : 0 < a) (hL : 0 < L) (Za Zb : ℝ) :
    coulomb G.Na G.Nr a L Za Zb = nuclear G a L Za Zb :=
  funext fun k => (C05_coulomb a L Za Zb ha hL k).2.2

/-- C83: for one or two spins every column of `vnuc` is the potential of the two nuclei; with `sym` it is the potential
of two nuclei that share the charge equally, so nothing changes for equal nuclei. -/
theorem C83_nuclear (G : Grid ℝ) {a L : ℝ} (ha : 0 < a) (hL : 0 < L) (Za Zb : ℝ) (hp : p = 1 ∨ p = 2) (s : Fin p) (k : G.Ix) :
    KS.nuclearPotential G p false (coulomb G.Na G.Nr a L Za Zb) s k = nuclear G a L Za Zb k ∧
    KS.nuclearPotential G p true (coulomb G.Na G.Nr a L Za Zb) s k = nuclear G a L ((Za + Zb) / 2) ((Za + Zb) / 2) k ∧
    (Za = Zb → KS.nuclearPotential G p true (coulomb G.Na G.Nr a L Za Zb) s k = nuclear G a L Za Zb k) := by
  have h1 : KS.nuclearPotential G p false (coulomb G.Na G.Nr a L Za Zb) s k = nuclear G a L Za Zb k := by
    unfold KS.nuclearPotential
    simp only [if_pos hp, coulomb_eq_nuclear G ha hL]
    rfl
  have h2 : KS.nuclearPotential G p true (coulomb G.Na G.Nr a L Za Zb) s k =
      nuclear G a L ((Za + Zb) / 2) ((Za + Zb) / 2) k := by
    rw [← coulomb_eq_nuclear G ha hL]
    unfold KS.nuclearPotential KS.symmetrised
    simp only [if_pos hp, if_true, Grid.mirCols, Grid.mir]
    have e : G.mirIx k = mirK k := rfl
    rw [e]
    unfold coulomb
    rw [Xr_mirK, cos_mirK]
    ring
  refine ⟨h1, h2, fun h => ?_⟩
  rw [h2, h]
  congr 1 <;> ring

/-- C83, fragments: without `sym`, the nuclear part of a fragment's partition potential is the potential of the nuclei the
fragment does not have. -/
theorem C83_fragments_partial (G : Grid ℝ) {a L : ℝ} (ha : 0 < a) (hL : 0 < L) (hp : p = 1 ∨ p = 2) (P : Part G r c p)
    (hva : P.va = coulomb G.Na G.Nr a L P.Za 0) (hvb : P.vb = coulomb G.Na G.Nr a L 0 P.Zb)
    (hA : ∀ f ∈ P.compsA, f.ks.vnuc = KS.nuclearPotential G p false (coulomb G.Na G.Nr a L P.Za 0))
    (hB : ∀ f ∈ P.compsB, f.ks.vnuc = KS.nuclearPotential G p false (coulomb G.Na G.Nr a L 0 P.Zb)) :
    ∃ P', P.vpNuclear = .ok P' ∧
      (∀ f ∈ P'.compsA, f.v.vpPot = some fun _ => nuclear G a L 0 P.Zb) ∧
      (∀ f ∈ P'.compsB, f.v.vpPot = some fun _ => nuclear G a L P.Za 0) ∧
      (∀ s k, P.vextMol s k = nuclear G a L P.Za P.Zb k) := by
  have hx : ∀ s k, P.vextMol s k = nuclear G a L P.Za P.Zb k := fun s k => by
    unfold Part.vextMol
    rw [hva, hvb, coulomb_eq_nuclear G ha hL, coulomb_eq_nuclear G ha hL]
    unfold nuclear
    ring
  have key : ∀ (Za Zb : ℝ) (f : Frag G r c p), f.ks.vnuc = KS.nuclearPotential G p false (coulomb G.Na G.Nr a L Za Zb) →
      (fun j k => P.vextMol j k - f.ks.vnuc j k) = fun _ => nuclear G a L (P.Za - Za) (P.Zb - Zb) := fun Za Zb f h => by
    funext j k
    rw [hx, h, (C83_nuclear G ha hL Za Zb hp j k).1]
    unfold nuclear
    ring
  have kA : ∀ f ∈ P.compsA, (fun j k => P.vextMol j k - f.ks.vnuc j k) = fun _ => nuclear G a L 0 P.Zb := fun f hf => by
    rw [key _ _ f (hA f hf), sub_self, sub_zero]
  have kB : ∀ f ∈ P.compsB, (fun j k => P.vextMol j k - f.ks.vnuc j k) = fun _ => nuclear G a L P.Za 0 := fun f hf => by
    rw [key _ _ f (hB f hf), sub_self, sub_zero]
  unfold vpNuclear mapAll mapA mapB
  rcases hfab : P.fAB with _ | ⟨A, B⟩
  · simp only [compsA, compsB, hfab, Option.map_none, Option.toList_none, List.mem_singleton, forall_eq] at kA kB
    refine ⟨_, rfl, ?_, ?_, hx⟩
    · intro f hf
      simp only [compsA, Option.map_none, Option.toList_none, List.mem_singleton] at hf
      subst hf
      exact congrArg some kA
    · intro f hf
      simp only [compsB, Option.map_none, Option.toList_none, List.mem_singleton] at hf
      subst hf
      exact congrArg some kB
  · simp only [compsA, compsB, hfab, Option.map_some, Option.toList_some, List.mem_cons, List.not_mem_nil, or_false,
      forall_eq_or_imp, forall_eq] at kA kB
    refine ⟨_, rfl, ?_, ?_, hx⟩
    · intro f hf
      simp only [compsA, Option.map_some, Option.toList_some, List.mem_cons, List.not_mem_nil, or_false] at hf
      rcases hf with rfl | rfl
      · exact congrArg some kA.1
      · exact congrArg some kA.2
    · intro f hf
      simp only [compsB, Option.map_some, Option.toList_some, List.mem_cons, List.not_mem_nil, or_false] at hf
      rcases hf with rfl | rfl
      · exact congrArg some kB.1
      · exact congrArg some kB.2

/-- Two spins, hydrogen molecule, a 2 x 1 grid: both columns hold the same attractive potential with and without `sym`. -/
example (sym : Bool) (s : Fin 2) (k : Fin (2 * 1)) :
    KS.nuclearPotential (⟨2, 1, 0, 0, 0, fun _ => 0, fun _ => 0⟩ : Grid ℝ) 2 sym (coulomb 2 1 1 1 1 1) s k < 0 := by
  have h := C83_nuclear (p := 2) (⟨2, 1, 0, 0, 0, fun _ => 0, fun _ => 0⟩ : Grid ℝ) one_pos one_pos 1 1 (Or.inr rfl) s k
  have e := coulomb_eq_nuclear (⟨2, 1, 0, 0, 0, fun _ => 0, fun _ => 0⟩ : Grid ℝ) one_pos one_pos 1 1
  have n : coulomb 2 1 1 1 1 1 k < 0 := (C05_coulomb_laws 1 1 one_pos one_pos).2.1 1 1 k zero_le_one zero_le_one (by norm_num)
  cases sym
  · exact h.1.trans_lt (by rw [← e]; exact n)
  · exact (h.2.2 rfl).trans_lt (by rw [← e]; exact n)

end Verif
