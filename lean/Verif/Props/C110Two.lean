import Verif.Props.C115
import Verif.Model.TwoOrbital

/-! # C110, C115: the two-orbital functional prefers fragment A

`dTO1_dn1` and `dTO1_dn2` (vp_kinetic.py 145-146) integrate different functions, so that the potentials of two equal fragments
are not mirror images of each other. -/

namespace Verif
open Spec
namespace Sample110

/-- Two points, each with weight 1/2. -/
abbrev G : Grid ℚ := { Na := 2, Nr := 1, pi := 1 / 2, ha := 1 / 2, hr := 1, wi := fun _ => 1, w := fun _ => 1 }

/-- The root of a square of a rational number. -/
def root (x : ℚ) : ℚ := (Nat.sqrt x.num.toNat : ℚ) / Nat.sqrt x.den

/-- The two-orbital functional of the code, with a symmetric kinetic energy operator; no other functionals. -/
def T : Env G 1 1 1 :=
  Env.withTwoOrbital
    { exchange := fun _ => .error .valueError, correlation := fun _ => .error .valueError, hartree := fun _ => .error .valueError
      hartree1 := fun _ => .error .valueError, kinetic := fun _ => .error .valueError, invert := fun _ => .error .valueError
      twoOrbitalPot := fun _ => .error .valueError, twoOrbitalEnergy := fun _ => .error .valueError
      sqrt := root, erf := id, dErf := id, elap := !![-2, 1; 1, -2] }

/-- Two electrons with density `n` in the potential of a nucleus at one of the points. -/
def ks (Za Zb : ℚ) (n : G.Fld) : KS G 1 1 1 :=
  { kind := .ni, sym := false, Za, Zb, a := 1, vnuc := fun _ => ![-Za - Zb / 2, -Zb - Za / 2], scale := some 1, n := some fun _ => n
    solver := fun _ => { Nmo := 1, N := 2, m := 0, pol := 1 } }

def na : G.Fld := ![64 / 25, 36 / 25]
def nb : G.Fld := ![36 / 25, 64 / 25]

/-- One such fragment at each nucleus. -/
def P : Part G 1 1 1 :=
  { opt := { hxc := .exact, kin := .twoorbital, interaction := .ni }
    Za := 1, Zb := 1, a := 1, va := ![-1, -1 / 2], vb := ![-1 / 2, -1]
    fa := ⟨ks 1 0 na, {}⟩, fb := ⟨ks 0 1 nb, {}⟩, naFrac := some fun _ => na, nbFrac := some fun _ => nb, nf := some fun _ _ => 4 }

theorem mir (f : G.Fld) : G.mir f = ![f 1, f 0] := by
  funext k
  match k with
  | ⟨0, _⟩ => exact congrArg f (show G.mirIx 0 = 1 by decide)
  | ⟨1, _⟩ => exact congrArg f (show G.mirIx 1 = 0 by decide)

theorem mir_na : G.mirCols (fun _ : Fin 1 => na) = fun _ => nb := funext fun _ => mir _

theorem mir_nb : G.mirCols (fun _ : Fin 1 => nb) = fun _ => na := funext fun _ => mir _

theorem twins : Twins P.fa P.fb := by
  refine ⟨⟨rfl, rfl, rfl, rfl, rfl, fun w => ⟨rfl, rfl, rfl, rfl, rfl, rfl, rfl, rfl, .none⟩, ?_, rfl, rfl, rfl, congrArg some mir_na.symm,
    rfl, rfl, rfl, rfl, rfl, rfl, rfl⟩, ⟨rfl, rfl, rfl, rfl, rfl, rfl, rfl, rfl, rfl, rfl, rfl, rfl, rfl⟩⟩
  funext s
  change ![-0 - 1 / 2, -1 - 0 / 2] = G.mir ![-1 - 0 / 2, -0 - 1 / 2]
  rw [mir]
  rfl

theorem nuclei : P.vb = G.mir P.va := by
  change ![-1 / 2, -1] = G.mir ![-1, -1 / 2]
  rw [mir]
  rfl

theorem nuclei' : P.va = G.mir P.vb := by rw [nuclei, G.mir_mir]

theorem nf : G.mirCols (fun (_ : Fin 1) _ => (4 : ℚ)) = fun _ _ => 4 := rfl

theorem symmetric : SymmetricPart P := by
  refine ⟨rfl, twins, nuclei, congrArg some mir_na.symm, ?_, nofun⟩
  rintro _ ⟨⟩
  rfl

theorem exchanged : Exchanged P P :=
  ⟨rfl, rfl, rfl, rfl, nuclei', nuclei, twins.symm, twins, rfl, rfl, congrArg some mir_nb.symm, congrArg some mir_na.symm, rfl, rfl, rfl, rfl,
    rfl, rfl, rfl, rfl, rfl, rfl, rfl, rfl, rfl, rfl, rfl, rfl, rfl, rfl, rfl, rfl, rfl, rfl, rfl, rfl, rfl, rfl, rfl, rfl⟩

theorem env : SidelessEnv T := by
  refine { exchange := fun _ => rfl, correlation := fun _ => rfl, hartree := fun _ => rfl, kinetic := fun _ => rfl, elap := ?_,
           weight := fun _ => rfl, hartree1 := fun _ => rfl, wi := fun _ => rfl }
  have h : ∀ k l : Fin 2, (id (T.elap (G.mirIx k) (G.mirIx l)) : ℚ) = id (T.elap k l) := by
    refine Fin.forall_fin_two.mpr ⟨Fin.forall_fin_two.mpr ⟨?_, ?_⟩, Fin.forall_fin_two.mpr ⟨?_, ?_⟩⟩ <;> decide +kernel
  exact h

/-- `root` is the root of every number the functional takes one of. -/
theorem roots : ∀ x ∈ [64 / 25, 36 / 25, 4 / 25, 1, 256 / 625, 144 / 625], root x ^ 2 = x ∧ 0 ≤ root x := by
  decide +kernel

/-- The potentials `vp_kin` of both fragments. -/
def pots (P : Part G 1 1 1) : Option (ℚ × ℚ × ℚ × ℚ) := do
  let a ← P.fa.v.vpKin
  let b ← P.fb.v.vpKin
  pure (a 0 0, a 0 1, b 0 0, b 0 1)

theorem result : (P.vpKinetic T).toOption.bind pots = some (73 / 32, -73 / 24, 1 / 12, -1 / 16) := by
  decide +kernel

theorem not_twins {P' : Part G 1 1 1} (h : P.vpKinetic T = .ok P') : ¬ Twins P'.fa P'.fb := by
  intro ht
  have hr := result
  rw [h] at hr
  have hb := ht.v.vpKin
  change pots P' = _ at hr
  unfold pots at hr
  rw [hb] at hr
  cases ha : P'.fa.v.vpKin with
  | none => rw [ha] at hr; cases hr
  | some a =>
    rw [ha] at hr
    have e := Option.some.inj hr
    have e1 : G.mirCols a 0 = ![a 0 1, a 0 0] := mir _
    have h1 : a 0 0 = 73 / 32 := congrArg (·.1) e
    have h2 : G.mirCols a 0 1 = -1 / 16 := congrArg (·.2.2.2) e
    rw [e1] at h2
    change a 0 0 = _ at h2
    rw [h1] at h2
    norm_num at h2

end Sample110

/-- C110 fails for the two-orbital functional: for a symmetric molecule, `vp_kinetic` without `ab_sym` succeeds and gives the two
equal fragments potentials that are not mirror images of each other, whereas with `ab_sym` fragment B is the mirror image of A. -/
theorem C110_refuted_twoorbital : SymmetricPart Sample110.P ∧ MirrorEnv Sample110.T ∧ Sample110.P.opt.abSym = false ∧
    ∃ P', Sample110.P.vpKinetic Sample110.T = .ok P' ∧ ¬ SymmetricPart P' := by
  refine ⟨Sample110.symmetric, Sample110.env.toMirrorEnv, rfl, ?_⟩
  cases h : Sample110.P.vpKinetic Sample110.T with
  | error e => have := Sample110.result; rw [h] at this; cases this
  | ok P' => exact ⟨P', rfl, fun hs => Sample110.not_twins h hs.twins⟩

/-- C115 fails for the two-orbital functional: the molecule seen from the other side is the same molecule, but the potentials
are not exchanged. -/
theorem C115_refuted_twoorbital : Exchanged Sample110.P Sample110.P ∧ SidelessEnv Sample110.T ∧
    ∃ P', Sample110.P.vpKinetic Sample110.T = .ok P' ∧ ¬ Exchanged P' P' := by
  refine ⟨Sample110.exchanged, Sample110.env, ?_⟩
  obtain ⟨P', h, -⟩ := C110_refuted_twoorbital.2.2.2
  exact ⟨P', h, fun hs => Sample110.not_twins h hs.fb⟩

end Verif
