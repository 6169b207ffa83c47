import Verif.Model.Partition
import Mathlib.Analysis.SpecialFunctions.Log.Base

/-!
# Surprisal (`partition/vp_surprise.py`)

What the call leaves behind is kept also when it raises: `V.s`, and the `V.v_s` of the fragments that were
reached.
-/

namespace Verif
namespace Part
variable {G : Grid ℝ} {r c p : ℕ}

/-- `np.log2` -/
noncomputable def log2 : Fl ℝ → Fl ℝ
  | .fin x => if x < 0 then .nan else if x = 0 then .negInf else .fin (Real.logb 2 x)
  | .posInf => .posInf
  | _ => .nan

/-- Arrays of one value per point, or of several columns. -/
inductive VArr (G : Grid ℝ)
  | vec (v : G.Ix → Fl ℝ)
  | mat (cols : List (G.Ix → Fl ℝ))

/-- `np.repeat(x, n, axis=1)`: `AxisError` (a `ValueError`) when there is no second axis. -/
def repeatCols (n : ℕ) : VArr G → Py (VArr G)
  | .vec _ => .error .valueError
  | .mat cols => .ok (.mat (cols.flatMap (List.replicate n)))

/-- `Pa`, `Pb` (vp_surprise.py 11-12). -/
noncomputable def share (n nf : G.Cols p) : G.Ix → Fl ℝ := fun k => Fl.div (.fin (tot n k)) (.fin (tot nf k))

/-- `self.V.s` (vp_surprise.py 14). -/
noncomputable def surprisal (Pa Pb : G.Ix → Fl ℝ) : G.Ix → Fl ℝ := fun k =>
  Fl.sub (Fl.mul (Fl.neg (Pa k)) (log2 (Pa k))) (Fl.mul (Pb k) (log2 (Pb k)))

/-- `Pb * np.log2(Pb/Pa) / np.sum(self.nf, axis=1)` (vp_surprise.py 25, 29). -/
noncomputable def surprisalPot (own other : G.Ix → Fl ℝ) (nf : G.Cols p) : G.Ix → Fl ℝ := fun k =>
  Fl.div (Fl.mul (other k) (log2 (Fl.div (other k) (own k)))) (.fin (tot nf k))

/-- One of the loops over the fragments (vp_surprise.py 24-26, 28-30): what each fragment holds afterwards, and
the exception if there was one. -/
def assignEach (v : G.Ix → Fl ℝ) : List (Option (VArr G)) → List (Option (VArr G)) × Option PyErr
  | [] => ([], none)
  | _ :: l =>
    match repeatCols 2 (.vec v) with
    | .error e => (some (.vec v) :: l, some e)
    | .ok a => (some a :: (assignEach v l).1, (assignEach v l).2)

/-- What `vp_surprise` leaves behind. -/
structure Surprise (G : Grid ℝ) where
  /-- `self.V.s` -/
  s : G.Ix → Fl ℝ
  /-- `KSa.V.v_s`, with an ensemble also of `KSA` -/
  va : List (Option (VArr G))
  /-- `KSb.V.v_s`, with an ensemble also of `KSB` -/
  vb : List (Option (VArr G))
  /-- the exception, if the call ends with one -/
  raised : Option PyErr

/-- `vp_surprise` (vp_surprise.py 8-30); `va`, `vb` the `V.v_s` before the call. -/
noncomputable def vpSurprise (P : Part G r c p) (va vb : List (Option (VArr G))) : Py (Surprise G) := do
  let na ← KS.need P.naFrac
  let nf ← attr P.nf
  let nb ← attr P.nbFrac
  let Pa := share na nf
  let Pb := share nb nf
  let s := surprisal Pa Pb
  let A := assignEach (surprisalPot Pa Pb nf) va
  match A.2 with
  | some e => pure { s := s, va := A.1, vb := vb, raised := some e }
  | none =>
    let B := assignEach (surprisalPot Pb Pa nf) vb
    pure { s := s, va := A.1, vb := B.1, raised := B.2 }

end Part
end Verif
