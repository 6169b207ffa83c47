import Verif.Props.C43

/-! # Fragment energy sums -/

namespace Verif
variable {K : Type} [Field K] [LinearOrder K] [IsStrictOrderedRing K] [FloorRing K]
variable {G : Grid K} {r c p : ℕ}

namespace Spec

/-- Weight and energies of a component. -/
structure FragEnergy (K : Type) (p : ℕ) where
  s : K
  E : K
  Ts : K
  Eks : Fin p → K
  Enuc : K
  Ex : K
  Ec : K
  Eh : K
  Vhxc : K

/-- The components have these weights and (finite) energies. -/
def HasEnergies (dft : Bool) (l : List (Frag G r c p)) (L : List (FragEnergy K p)) : Prop :=
  List.Forall₂ (fun f x => f.ks.scale = some x.s ∧ ∃ e, f.ks.E = some e ∧ e.E = .fin x.E ∧
    e.Ts = .fin x.Ts ∧ (∀ j, e.Eks j = .fin (x.Eks j)) ∧ e.Enuc = x.Enuc ∧
    (dft = true → e.Ex = x.Ex ∧ e.Ec = x.Ec ∧ e.Eh = some x.Eh ∧ e.Vhxc = some x.Vhxc)) l L

/-- Ensemble average of an energy. -/
def avg (L : List (FragEnergy K p)) (x : FragEnergy K p → K) : K := (L.map fun y => y.s * x y).sum

end Spec

namespace Part
open Spec

theorem Sums.addComp_fin (dft : Bool) (f : Frag G r c p) (x : FragEnergy K p)
    (h : HasEnergies dft [f] [x]) (E Ts Enuc Ex Ec Eh Vhxc : K) (Eks : Fin p → K) :
    Sums.addComp dft ⟨.fin E, .fin Ts, fun j => .fin (Eks j), Enuc, Ex, Ec, Eh, Vhxc⟩ f =
      .ok ⟨.fin (E + x.s * x.E), .fin (Ts + x.s * x.Ts), fun j => .fin (Eks j + x.s * x.Eks j),
        Enuc + x.s * x.Enuc, Ex + (if dft then x.s * x.Ex else 0), Ec + (if dft then x.s * x.Ec else 0),
        Eh + (if dft then x.s * x.Eh else 0), Vhxc + (if dft then x.s * x.Vhxc else 0)⟩ := by
  cases h with
  | cons h _ =>
    obtain ⟨hs, e, he, h1, h2, h3, h4, h5⟩ := h
    unfold Sums.addComp
    rw [hs, he]
    cases dft with
    | false => simp [bind, Except.bind, pure, Except.pure, h1, h2, h3, h4]
    | true =>
      obtain ⟨k1, k2, k3, k4⟩ := h5 rfl
      simp [bind, Except.bind, pure, Except.pure, h1, h2, h3, h4, k1, k2, k3, k4]

theorem fragSums_fold (dft : Bool) (l : List (Frag G r c p)) (L : List (FragEnergy K p))
    (h : HasEnergies dft l L) (E Ts Enuc Ex Ec Eh Vhxc : K) (Eks : Fin p → K) :
    l.foldlM (Sums.addComp dft) ⟨.fin E, .fin Ts, fun j => .fin (Eks j), Enuc, Ex, Ec, Eh, Vhxc⟩ =
      .ok ⟨.fin (E + avg L (·.E)), .fin (Ts + avg L (·.Ts)), fun j => .fin (Eks j + avg L (·.Eks j)),
        Enuc + avg L (·.Enuc), Ex + (if dft then avg L (·.Ex) else 0),
        Ec + (if dft then avg L (·.Ec) else 0), Eh + (if dft then avg L (·.Eh) else 0),
        Vhxc + (if dft then avg L (·.Vhxc) else 0)⟩ := by
  induction h generalizing E Ts Enuc Ex Ec Eh Vhxc Eks with
  | nil => simp [avg]; rfl
  | @cons f x l L hf _ ih =>
    rw [List.foldlM_cons, Sums.addComp_fin dft f x (.cons hf .nil)]
    change Except.bind (.ok _) _ = _
    simp only [Except.bind]
    rw [ih]
    cases dft <;> simp [avg, add_assoc]

theorem fragSums_eq (dft : Bool) (l : List (Frag G r c p)) (L : List (FragEnergy K p))
    (h : HasEnergies dft l L) :
    fragSums dft l = .ok ⟨.fin (avg L (·.E)), .fin (avg L (·.Ts)), fun j => .fin (avg L (·.Eks j)),
        avg L (·.Enuc), (if dft then avg L (·.Ex) else 0),
        (if dft then avg L (·.Ec) else 0), (if dft then avg L (·.Eh) else 0),
        (if dft then avg L (·.Vhxc) else 0)⟩ := by
  unfold fragSums
  rw [fragSums_fold dft l L h]
  simp

/-- Factor for the spin-flipped twins. -/
def _root_.Verif.Spec.twins (K : Type) [Field K] (b : Bool) : K := if b then 2 else 1

theorem sums_double (b : Bool) (E Ts Enuc Ex Ec Eh Vhxc : K) (Eks : Fin p → K) :
    Sums.double b ⟨.fin E, .fin Ts, fun j => .fin (Eks j), Enuc, Ex, Ec, Eh, Vhxc⟩ =
      ⟨.fin (twins K b * E), .fin (twins K b * Ts), fun j => .fin (twins K b * Eks j), twins K b * Enuc,
        twins K b * Ex, twins K b * Ec, twins K b * Eh, twins K b * Vhxc⟩ := by
  cases b <;> simp [Sums.double, twins, mul_comm]

/-- The energies of fragment B that `energy()` should use. -/
theorem sumsAB_eq (P : Part G r c p) (L M : List (FragEnergy K p))
    (hL : HasEnergies (decide (P.opt.interaction = .dft)) P.compsA L)
    (hM : P.opt.abSym = false → HasEnergies (decide (P.opt.interaction = .dft)) P.compsB M)
    (hens : P.opt.abSym = true ∨ P.fAB = none) (hLM : P.opt.abSym = true → M = L) :
    P.sumsAB =
      .ok ((⟨.fin (avg L (·.E)), .fin (avg L (·.Ts)), fun j => .fin (avg L (·.Eks j)),
        avg L (·.Enuc), (if P.opt.interaction = .dft then avg L (·.Ex) else 0),
        (if P.opt.interaction = .dft then avg L (·.Ec) else 0),
        (if P.opt.interaction = .dft then avg L (·.Eh) else 0),
        (if P.opt.interaction = .dft then avg L (·.Vhxc) else 0)⟩ : Sums K p).double P.opt.ensSpinSym,
       (⟨.fin (avg M (·.E)), .fin (avg M (·.Ts)), fun j => .fin (avg M (·.Eks j)),
        avg M (·.Enuc), (if P.opt.interaction = .dft then avg M (·.Ex) else 0),
        (if P.opt.interaction = .dft then avg M (·.Ec) else 0),
        (if P.opt.interaction = .dft then avg M (·.Eh) else 0),
        (if P.opt.interaction = .dft then avg M (·.Vhxc) else 0)⟩ : Sums K p).double P.opt.ensSpinSym) := by
  unfold sumsAB
  rw [fragSums_eq _ _ L hL]
  change Except.bind (sumsB _ P _) _ = _
  unfold sumsB
  cases hab : P.opt.abSym with
  | true =>
    rw [hLM hab]
    simp only [decide_eq_true_eq]
    rfl
  | false =>
    have hnone : P.fAB = none := by
      rcases hens with h | h
      · rw [hab] at h; exact absurd h (by simp)
      · exact h
    have : P.energyCompsB = P.compsB := by simp [energyCompsB, compsB, hnone]
    rw [this, fragSums_eq _ _ M (hM hab)]
    simp only [decide_eq_true_eq]
    rfl

end Part
end Verif
