import Verif.Model.Libxc
import Verif.Lemmas.Grid
import Verif.Lemmas.Solver
import Mathlib.Data.Matrix.Mul
import Mathlib.Tactic.Ring
import Mathlib.Tactic.FieldSimp
import Mathlib.Tactic.NormNum
import Mathlib.Tactic.FinCases

/-!
# C62, C70: exchange-correlation energy and potential from libxc
-/

namespace Verif
open Libxc

section
variable {K : Type} [Field K] {G : Grid K}

/-- A functional that treats the spins alike: exchanging the columns of the density and the outer
columns of `sigma` exchanges the columns of the results. -/
def Spec.SpinSymmetric (F : Func G 2 3) : Prop :=
  ∀ n s, F (G.flipCols n) (s.map G.flipCols) =
    ⟨(F n s).zk, G.flipCols (F n s).vrho, G.flipCols (F n s).vsigma⟩

/-- The arguments `get_xc` hands to the functional: nothing but the density for an LDA, the contracted
gradients for a GGA. -/
theorem dict2_eq (O : Op G) (F : Func G 2 3) (n : G.Cols 2) :
    dict2 O "lda" F n = .ok (F n none) ∧ ∃ s : G.Cols 3, dict2 O "gga" F n = .ok (F n (some s)) ∧
      dict2 O "gga" F (G.flipCols n) = .ok (F (G.flipCols n) (some (G.flipCols s))) := by
  refine ⟨rfl, _, rfl, ?_⟩
  unfold dict2
  rw [if_neg (by decide), if_pos rfl]
  refine congrArg (fun s : G.Cols 3 => (Except.ok (F (G.flipCols n) (some s)) : Py (Vals G 2 3))) ?_
  funext j k
  fin_cases j
  · rfl
  · change dotProduct (Matrix.vecMul (O.grada.mulVec (n 1)) O.grada) (n 0) +
        dotProduct (Matrix.vecMul (O.gradr.mulVec (n 1)) O.gradr) (n 0) =
      dotProduct (Matrix.vecMul (O.grada.mulVec (n 0)) O.grada) (n 1) +
        dotProduct (Matrix.vecMul (O.gradr.mulVec (n 0)) O.gradr) (n 1)
    simp only [← Matrix.dotProduct_mulVec]
    rw [dotProduct_comm, dotProduct_comm (O.gradr.mulVec (n 1))]
  · rfl

/-- C62, spins: exchanging the spins of the density exchanges those of the potential and keeps energy and
energy density. -/
theorem C62_spinflip (O : Op G) (family : String) (F : Func G 2 3) (hF : Spec.SpinSymmetric F) (n : G.Cols 2) :
    getXc2 O family F (G.flipCols n) =
      (getXc2 O family F n).map fun r => ⟨r.exc, r.epsilon, G.flipCols r.vxc⟩ := by
  have key : ∀ d : Vals G 2 3, ∀ v : G.Cols 2,
      (G.integ fun k => ∑ s, d.zk k * G.flipCols n s k) = G.integ fun k => ∑ s, d.zk k * n s k := fun d v => by
    congr 1
    funext k
    rw [Fin.sum_univ_two, Fin.sum_univ_two, add_comm]
    rfl
  by_cases hl : family = "lda"
  · subst hl
    have h := hF n none
    unfold getXc2
    rw [(dict2_eq O F n).1, (dict2_eq O F (G.flipCols n)).1]
    rw [Option.map_none] at h
    rw [h]
    simp only [bind, Except.bind, pure, Except.pure, Except.map, key _ n, if_neg (show ¬ "lda" = "gga" by decide)]
  by_cases hg : family = "gga"
  · subst hg
    obtain ⟨-, s, h1, h2⟩ := dict2_eq O F n
    have h := hF n (some s)
    unfold getXc2
    rw [h1, h2]
    rw [Option.map_some] at h
    rw [h]
    simp only [bind, Except.bind, pure, Except.pure, Except.map, key _ n, if_true]
    congr 2
    funext j k
    fin_cases j <;> rfl
  · simp only [getXc2, dict2, if_neg hl, if_neg hg]
    rfl

/-- C62, energy and potential: the energy is the integral of the energy density times the total density;
each spin's potential is `∂e/∂n` minus the divergence of the derivative with respect to the gradient of
that spin's density (an LDA has no gradient part); other families are rejected. -/
theorem C62_polarised (O : Op G) (family : String) (F : Func G 2 3) (n : G.Cols 2) :
    (family ≠ "lda" ∧ family ≠ "gga" → getXc2 O family F n = .error .valueError) ∧
    (family = "lda" → ∃ r, getXc2 O family F n = .ok r ∧ r.epsilon = (F n none).zk ∧
      r.exc = G.integ (fun k => r.epsilon k * (n 0 k + n 1 k)) ∧ r.vxc = (F n none).vrho) ∧
    (family = "gga" → ∃ r s, getXc2 O family F n = .ok r ∧ r.epsilon = (F n (some s)).zk ∧
      r.exc = G.integ (fun k => r.epsilon k * (n 0 k + n 1 k)) ∧
      ∀ a b : Fin 2, a ≠ b → ∀ k, r.vxc a k = (F n (some s)).vrho a k -
        (O.diva.mulVec (fun l => 2 * (F n (some s)).vsigma (if a = 0 then 0 else 2) l * O.grada.mulVec (n a) l +
            (F n (some s)).vsigma 1 l * O.grada.mulVec (n b) l) k +
         O.divr.mulVec (fun l => 2 * (F n (some s)).vsigma (if a = 0 then 0 else 2) l * O.gradr.mulVec (n a) l +
            (F n (some s)).vsigma 1 l * O.gradr.mulVec (n b) l) k)) := by
  have key : ∀ z : G.Fld, (G.integ fun k => ∑ s, z k * n s k) = G.integ fun k => z k * (n 0 k + n 1 k) := fun z => by
    congr 1
    funext k
    rw [Fin.sum_univ_two]
    ring
  have lin : ∀ (M : Matrix G.Ix G.Ix K) (f g : G.Fld) (k : G.Ix),
      M.mulVec (fun l => 2 * f l + g l) k = 2 * M.mulVec f k + M.mulVec g k := fun M f g k => by
    have : (fun l => 2 * f l + g l) = (2 : K) • f + g := rfl
    rw [this, Matrix.mulVec_add, Matrix.mulVec_smul]
    rfl
  refine ⟨fun h => ?_, fun h => ?_, fun h => ?_⟩
  · simp only [getXc2, dict2, if_neg h.1, if_neg h.2]
    rfl
  · subst h
    exact ⟨_, rfl, rfl, key _, rfl⟩
  · subst h
    obtain ⟨-, s, h1, -⟩ := dict2_eq O F n
    refine ⟨_, s, by rw [getXc2, h1]; rfl, rfl, key _, fun a b hab k => ?_⟩
    simp only [mul_assoc, lin]
    fin_cases a <;> fin_cases b
    · exact absurd rfl hab
    · simp only [Op.div, if_true, Matrix.cons_val_zero, Fin.zero_eta, Fin.mk_one]
      ring
    · simp only [Op.div, if_true, Matrix.cons_val_one, Fin.zero_eta, Fin.mk_one, Matrix.cons_val_fin_one,
        one_ne_zero, if_false]
      ring
    · exact absurd rfl hab

/-- C62 for one column. -/
theorem C62_unpolarised (O : Op G) (family : String) (F : Func G 1 1) (n : G.Cols 1) :
    (family ≠ "lda" ∧ family ≠ "gga" → getXc1 O family F n = .error .valueError) ∧
    (family = "lda" → ∃ r, getXc1 O family F n = .ok r ∧ r.epsilon = (F n none).zk ∧
      r.exc = G.integ (fun k => r.epsilon k * n 0 k) ∧ r.vxc = (F n none).vrho) ∧
    (family = "gga" → ∃ r, let s : G.Cols 1 := fun _ k => O.grada.mulVec (n 0) k ^ 2 + O.gradr.mulVec (n 0) k ^ 2
      getXc1 O family F n = .ok r ∧ r.epsilon = (F n (some s)).zk ∧
      r.exc = G.integ (fun k => r.epsilon k * n 0 k) ∧
      ∀ k, r.vxc 0 k = (F n (some s)).vrho 0 k -
        (O.diva.mulVec (fun l => 2 * (F n (some s)).vsigma 0 l * O.grada.mulVec (n 0) l) k +
         O.divr.mulVec (fun l => 2 * (F n (some s)).vsigma 0 l * O.gradr.mulVec (n 0) l) k)) := by
  have key : ∀ z : G.Fld, (G.integ fun k => ∑ s : Fin 1, z k * n s k) = G.integ fun k => z k * n 0 k := fun z => by
    congr 1
    funext k
    simp
  have lin : ∀ (M : Matrix G.Ix G.Ix K) (f : G.Fld) (k : G.Ix),
      M.mulVec (fun l => 2 * f l) k = 2 * M.mulVec f k := fun M f k => by
    have : (fun l => 2 * f l) = (2 : K) • f := rfl
    rw [this, Matrix.mulVec_smul]
    rfl
  refine ⟨fun h => ?_, fun h => ?_, fun h => ?_⟩
  · simp only [getXc1, dict1, if_neg h.1, if_neg h.2]
    rfl
  · subst h
    exact ⟨_, rfl, rfl, key _, rfl⟩
  · subst h
    refine ⟨_, rfl, rfl, key _, fun k => ?_⟩
    simp only [mul_assoc, lin, Op.div, if_true]
    ring

end

section
variable {K : Type} [Field K] [CharZero K] {G : Grid K}

/-- The polarised functional restricted to equal spins is the unpolarised one (chain rule included). -/
def Spec.Restricts (F1 : Func G 1 1) (F2 : Func G 2 3) : Prop :=
  (∀ n : G.Fld, let d1 := F1 (fun _ => n) none; let d2 := F2 (fun _ k => n k / 2) none
    d2.zk = d1.zk ∧ ∀ a, d2.vrho a = d1.vrho 0) ∧
  (∀ n s : G.Fld, let d1 := F1 (fun _ => n) (some fun _ => s)
    let d2 := F2 (fun _ k => n k / 2) (some fun _ k => s k / 4)
    d2.zk = d1.zk ∧ (∀ a, d2.vrho a = d1.vrho 0) ∧ d2.vsigma 0 = d2.vsigma 2 ∧
      ∀ k, d1.vsigma 0 k = (d2.vsigma 0 k + d2.vsigma 1 k + d2.vsigma 2 k) / 4)

/-- An exchange-like functional: the mixed gradient contraction does not matter. -/
def Spec.NoMixed (F2 : Func G 2 3) : Prop :=
  ∀ n s s', s 0 = s' 0 → s 2 = s' 2 → F2 n (some s) = F2 n (some s')

/-- C70 (partial).  For equal spins the polarised call gives the energy, energy density and potential of
the unpolarised call: for every LDA, and for every GGA that ignores the mixed contraction (exchange).
Partial: other GGAs, see `C70_refuted`. -/
theorem C70_equal_spins_partial (O : Op G) (F1 : Func G 1 1) (F2 : Func G 2 3) (hR : Spec.Restricts F1 F2)
    (family : String) (hf : family = "lda" ∨ family = "gga" ∧ Spec.NoMixed F2) (n : G.Fld) :
    ∃ r1 r2, getXc1 O family F1 (fun _ => n) = .ok r1 ∧ getXc2 O family F2 (fun _ k => n k / 2) = .ok r2 ∧
      r2.exc = r1.exc ∧ r2.epsilon = r1.epsilon ∧ ∀ a k, r2.vxc a k = r1.vxc 0 k := by
  have hsum : ∀ z : G.Fld, (G.integ fun k => z k * (n k / 2 + n k / 2)) = G.integ fun k => z k * n k := fun z => by
    congr 1
    funext k
    rw [add_halves]
  rcases hf with rfl | ⟨rfl, hm⟩
  · obtain ⟨r1, h1, e1, x1, v1⟩ := (C62_unpolarised O "lda" F1 fun _ => n).2.1 rfl
    obtain ⟨r2, h2, e2, x2, v2⟩ := (C62_polarised O "lda" F2 fun _ k => n k / 2).2.1 rfl
    obtain ⟨hz, hv⟩ := hR.1 n
    refine ⟨r1, r2, h1, h2, ?_, e2.trans (hz.trans e1.symm), fun a k => ?_⟩
    · rw [x1, x2, hsum, e2, e1, hz]
    · rw [v1, v2, hv]
  · obtain ⟨r1, h1, e1, x1, v1⟩ := (C62_unpolarised O "gga" F1 fun _ => n).2.2 rfl
    set s : G.Fld := fun k => O.grada.mulVec n k ^ 2 + O.gradr.mulVec n k ^ 2 with hs
    have half : ∀ M : Matrix G.Ix G.Ix K, ∀ k, M.mulVec (fun k => n k / 2) k = M.mulVec n k / 2 := fun M k => by
      have : (fun k => n k / 2) = (2 : K)⁻¹ • n := by
        funext k; simp only [Pi.smul_apply, smul_eq_mul]; ring
      rw [this, Matrix.mulVec_smul, Pi.smul_apply, smul_eq_mul]
      ring
    obtain ⟨hz, hv, hs02, hvs⟩ := hR.2 n s
    have hd : dict2 O "gga" F2 (fun _ k => n k / 2) = .ok (F2 (fun _ k => n k / 2) (some fun _ k => s k / 4)) := by
      unfold dict2
      rw [if_neg (by decide), if_pos rfl]
      refine congrArg Except.ok (hm _ _ _ ?_ ?_)
      · funext k
        change O.grada.mulVec (fun k => n k / 2) k ^ 2 + O.gradr.mulVec (fun k => n k / 2) k ^ 2 = s k / 4
        rw [half, half, hs]
        ring
      · funext k
        change O.grada.mulVec (fun k => n k / 2) k ^ 2 + O.gradr.mulVec (fun k => n k / 2) k ^ 2 = s k / 4
        rw [half, half, hs]
        ring
    have e1' : r1.epsilon = (F1 (fun _ => n) (some fun _ => s)).zk := e1
    have v1' : ∀ k, r1.vxc 0 k = (F1 (fun _ => n) (some fun _ => s)).vrho 0 k -
        (O.diva.mulVec (fun l => 2 * (F1 (fun _ => n) (some fun _ => s)).vsigma 0 l * O.grada.mulVec n l) k +
         O.divr.mulVec (fun l => 2 * (F1 (fun _ => n) (some fun _ => s)).vsigma 0 l * O.gradr.mulVec n l) k) := v1
    generalize F1 (fun _ => n) (some fun _ => s) = d1 at *
    generalize F2 (fun _ k => n k / 2) (some fun _ k => s k / 4) = d2 at *
    have lin : ∀ (M D : Matrix G.Ix G.Ix K) (k : G.Ix) (x : Fin 3), (x = 0 ∨ x = 2) →
        M.mulVec (fun l => 2 * d1.vsigma 0 l * D.mulVec n l) k =
        2 * M.mulVec (fun l => d2.vsigma x l * D.mulVec (fun k => n k / 2) l) k +
          M.mulVec (fun l => d2.vsigma 1 l * D.mulVec (fun k => n k / 2) l) k := fun M D k x hx => by
      have hx' : d2.vsigma x = d2.vsigma 0 := by
        rcases hx with rfl | rfl
        · rfl
        · exact hs02.symm
      have : (fun l => 2 * d1.vsigma 0 l * D.mulVec n l) =
          (2 : K) • (fun l => d2.vsigma x l * D.mulVec (fun k => n k / 2) l) +
            fun l => d2.vsigma 1 l * D.mulVec (fun k => n k / 2) l := by
        funext l
        simp only [Pi.add_apply, Pi.smul_apply, smul_eq_mul, half, hx', hvs, ← hs02]
        ring
      rw [this, Matrix.mulVec_add, Matrix.mulVec_smul]
      rfl
    refine ⟨r1, _, h1, by rw [getXc2, hd]; rfl, ?_, hz.trans e1'.symm, fun a k => ?_⟩
    · rw [x1, e1', ← hz, ← hsum]
      simp only [Fin.sum_univ_two, mul_add]
    · rw [v1' k, ← hv a]
      fin_cases a
      · simp only [if_true, Fin.zero_eta, Matrix.cons_val_zero, Op.div]
        rw [lin O.diva O.grada k 0 (.inl rfl), lin O.divr O.gradr k 0 (.inl rfl)]
        ring
      · simp only [if_true, Fin.mk_one, Matrix.cons_val_one, Matrix.cons_val_fin_one, Op.div]
        rw [lin O.diva O.grada k 2 (.inr rfl), lin O.divr O.gradr k 2 (.inr rfl)]
        ring

end

/-- Energy per electron `|∇n|²`, one and two spins. -/
def C70_F1 : Func (Grid.tiny ℚ) 1 1 := fun n s => match s with
  | none => ⟨fun _ => 0, fun _ _ => 0, fun _ _ => 0⟩
  | some s => ⟨s 0, fun _ => s 0, n⟩

def C70_F2 : Func (Grid.tiny ℚ) 2 3 := fun n s => match s with
  | none => ⟨fun _ => 0, fun _ _ => 0, fun _ _ => 0⟩
  | some s => ⟨fun k => s 0 k + 2 * s 1 k + s 2 k, fun _ k => s 0 k + 2 * s 1 k + s 2 k,
      fun a k => (if a = 1 then 2 else 1) * (n 0 k + n 1 k)⟩

def C70_op : Op (Grid.tiny ℚ) := ⟨1, 0, 1, 0⟩

/-- The functional restricts correctly and is spin symmetric, but the mixed contraction handed to it is
the sum over the grid at every point: the energy of density `(2,2)` is 16 unpolarised and 24 as `(1,1)`
in each spin. -/
theorem C70_refuted : Spec.Restricts C70_F1 C70_F2 ∧ Spec.SpinSymmetric C70_F2 ∧
    ∃ r1 r2, getXc1 C70_op "gga" C70_F1 (fun _ _ => 2) = .ok r1 ∧
      getXc2 C70_op "gga" C70_F2 (fun _ _ => 1) = .ok r2 ∧ r1.exc = 16 ∧ r2.exc = 24 := by
  refine ⟨⟨fun n => ⟨rfl, fun a => rfl⟩, fun n s => ⟨?_, fun a => ?_, ?_, fun k => ?_⟩⟩, fun n s => ?_,
    _, _, rfl, rfl, ?_, ?_⟩
  · funext k
    change s k / 4 + 2 * (s k / 4) + s k / 4 = s k
    ring
  · funext k
    change s k / 4 + 2 * (s k / 4) + s k / 4 = s k
    ring
  · rfl
  · change n k = (1 * (n k / 2 + n k / 2) + 2 * (n k / 2 + n k / 2) + 1 * (n k / 2 + n k / 2)) / 4
    ring
  · cases s with
    | none => rfl
    | some s =>
      simp only [C70_F2, Option.map_some, Grid.flipCols]
      congr 1
      · funext k
        change s 2 k + 2 * s 1 k + s 0 k = _
        ring
      · funext a k
        change s 2 k + 2 * s 1 k + s 0 k = s 0 k + 2 * s 1 k + s 2 k
        ring
      · funext a k
        change _ * (n 1 k + n 0 k) = _
        rw [add_comm (n 1 k)]
        fin_cases a <;> rfl
  · decide +kernel
  · decide +kernel

end Verif
