import Verif.Lemmas.PartitionScf
import Verif.Lemmas.Grid

/-! # A partition calculation on two points

The Hartree potential is 1 everywhere, exchange and correlation energies are the density at the first
point, their potentials vanish.  The single orbital of a fragment sits on the first point where the
effective potential vanishes there and on the second one otherwise. -/

namespace Verif
open Part
namespace Sample

abbrev G := Grid.tiny ℚ

def T : Env G 1 1 1 where
  exchange := fun n => .ok (n 0 0, fun k => n 0 k, fun _ _ => 0)
  correlation := fun n => .ok (n 0 0, fun k => n 0 k, fun _ _ => 0)
  hartree := fun _ => .ok fun _ _ => 1
  hartree1 := fun _ => .ok fun _ => 1
  kinetic := fun n => .ok (n 0 0, fun _ _ => 0)
  invert := fun _ => .error .attributeError
  twoOrbitalPot := fun _ => .error .attributeError
  twoOrbitalEnergy := fun _ => .error .attributeError
  sqrt := id
  erf := id
  dErf := id
  elap := 0

def W : KsScf.Workers G 1 1 1 := fun ks _ _ =>
  match ks.veff with
  | none => none
  | some v => if v 0 0 = 0 then some ([-1], some [fun k => if k = 0 then 1 else 0])
    else some ([-1], some [fun k => if k = 0 then 0 else 1])

def frag (kind : Interaction) : Frag G 1 1 1 :=
  ⟨{ kind, sym := false, Za := 0, Zb := 0, a := 1, solver := fun _ => { Nmo := 1, N := 2, m := 0, pol := 1 },
     vnuc := fun _ _ => 0, scale := some 1 }, {}⟩

def part (o : PartOpt) : Part G 1 1 1 where
  opt := o
  Za := 1
  Zb := 1
  a := 1
  va := fun _ => 0
  vb := fun _ => 0
  fa := frag o.interaction
  fb := frag o.interaction

def run (s : PartScf.Options ℚ) (o : PartOpt) : Py (Part G 1 1 1 × List (Fl ℚ) × ℕ) :=
  PartScf.scf (fun _ => T) (fun _ => W) s (part o)

/-- What a successful run returns. -/
theorem run_ok {α : Type} (s : PartScf.Options ℚ) (o : PartOpt) (f : Part G 1 1 1 × List (Fl ℚ) × ℕ → α) (y : α)
    (h : (run s o).toOption.map f = some y) : ∃ P log w, run s o = .ok (P, log, w) ∧ f (P, log, w) = y := by
  cases hr : run s o with
  | error e => rw [hr] at h; exact nomatch h
  | ok x => rw [hr] at h; exact ⟨x.1, x.2.1, x.2.2, rfl, Option.some.inj h⟩

end Sample
end Verif
