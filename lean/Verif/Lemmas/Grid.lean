import Verif.Model.Grid
import Verif.Lemmas.Mirror

namespace Verif
namespace Grid
variable {K : Type*} (G : Grid K)
open Arr

theorem Na_pos (k : G.Ix) : 0 < G.Na := by
  have h : 0 < G.Na * G.Nr := Nat.lt_of_le_of_lt (Nat.zero_le _) k.2
  exact Nat.pos_of_mul_pos_right h

@[simp] theorem mirIx_mirIx (k : G.Ix) : G.mirIx (G.mirIx k) = k :=
  Fin.ext (flip0Pos_flip0Pos (G.Na_pos k))

@[simp] theorem mir_mir (f : G.Fld) : G.mir (G.mir f) = f := by
  funext k; simp [mir]

/-- `mirIx` as a permutation. -/
def mirEquiv : G.Ix ≃ G.Ix := ⟨G.mirIx, G.mirIx, G.mirIx_mirIx, G.mirIx_mirIx⟩

@[simp] theorem mirEquiv_apply (k : G.Ix) : G.mirEquiv k = G.mirIx k := rfl

theorem sum_mir [AddCommMonoid K] (f : G.Fld) : ∑ k, G.mir f k = ∑ k, f k :=
  Equiv.sum_comp G.mirEquiv f

theorem mirror_ofVec (f : G.Fld) (hNa : 0 < G.Na) (hNr : 0 < G.Nr) :
    Psgrid.mirror G.Na G.Nr (Arr.ofVec f) = .ok (Arr.ofVec (G.mir f)) := by
  rw [Psgrid.mirror_eq hNa hNr _ (by simp [Arr.ofVec])]
  rfl

theorem mirror_ofCols {p : ℕ} (f : G.Cols p) (hNa : 0 < G.Na) (hNr : 0 < G.Nr) :
    Psgrid.mirror G.Na G.Nr (Arr.ofCols (fun k s => f s k)) =
      .ok (Arr.ofCols (fun k s => G.mirCols f s k)) := by
  rw [Psgrid.mirror_eq hNa hNr _ (by simp [Arr.ofCols])]
  simp only [Arr.ofCols, Except.ok.injEq, Arr.mk.injEq, heq_eq_eq, true_and]
  funext k
  have hk : k.1 < G.Na * G.Nr * p := by simpa using k.2
  have hm : flip0Pos G.Na k.1 % (G.Na * G.Nr) = flip0Pos G.Na (k.1 % (G.Na * G.Nr)) := by
    unfold flip0Pos
    rw [Nat.mod_mul_right_mod, Nat.mod_mul_right_div_self]
    have h1 : k.1 / G.Na = k.1 / G.Na % G.Nr + G.Nr * (k.1 / G.Na / G.Nr) :=
      (Nat.mod_add_div _ _).symm
    conv_lhs => rw [h1]
    rw [Nat.mul_add, ← Nat.mul_assoc, ← Nat.add_assoc, Nat.add_mul_mod_self_left,
      Nat.mod_eq_of_lt]
    have : k.1 / G.Na % G.Nr < G.Nr := Nat.mod_lt _ hNr
    have h2 := Nat.mul_le_mul_left G.Na (Nat.succ_le_of_lt this)
    rw [Nat.mul_succ] at h2
    omega
  have hd : flip0Pos G.Na k.1 / (G.Na * G.Nr) = k.1 / (G.Na * G.Nr) := by
    rw [← Nat.div_div_eq_div_mul, flip0Pos_div hNa, Nat.div_div_eq_div_mul]
  simp only [mirCols, mir, mirIx]
  simp only [hd, hm]

theorem spinflip_ofCols {p : ℕ} (f : G.Cols p) (hN : 0 < G.Na * G.Nr) :
    Psgrid.spinflip (Arr.ofCols (fun k s => f s k)) =
      .ok (Arr.ofCols (fun k s => G.flipCols f s k)) := by
  simp only [Psgrid.spinflip, Arr.ofCols, List.length_cons, List.length_nil, Nat.reduceAdd,
    OfNat.ofNat_ne_one, if_false, Arr.flip1, Except.ok.injEq, Arr.mk.injEq, heq_eq_eq, true_and]
  funext k
  have hk : k.1 < G.Na * G.Nr * p := by simpa using k.2
  have h2 : k.1 / (G.Na * G.Nr) < p := Nat.div_lt_of_lt_mul hk
  have hp : 0 < p := Nat.lt_of_le_of_lt (Nat.zero_le _) h2
  simp only [flipCols]
  have e1 : flip1Pos (G.Na * G.Nr) p k.1 / (G.Na * G.Nr) = p - (k.1 / (G.Na * G.Nr) + 1) := by
    rw [flip1Pos_div hN]
    unfold flip0Pos
    rw [Nat.mod_eq_of_lt h2, Nat.div_eq_of_lt h2]; omega
  have e2 : flip1Pos (G.Na * G.Nr) p k.1 % (G.Na * G.Nr) = k.1 % (G.Na * G.Nr) := flip1Pos_mod
  simp only [e1, e2]
  rfl

end Grid
end Verif
