import Verif.Props.C34_C36
import Verif.Props.C41_C42
import Verif.Lemmas.PartitionScfSample

/-! # C75: the eigenvalue lists -/

namespace Verif
variable {K : Type} [Field K] [LinearOrder K] [IsStrictOrderedRing K] [FloorRing K]
variable {G : Grid K} {r c p : ℕ}

/-- Eigenvalues stored by the last `energy()` of a component. -/
def Spec.storedEvals (f : Frag G r c p) : List K := (f.ks.E.map KSEnergy.evals).getD []

/-- C75: `Kohnsham.energy()` stores the eigenvalues of all solvers, row by row (angular momentum outside,
spin inside), each solver's in the order it found them. -/
theorem C75_kohnsham (F : Functionals G p) (ks ks' : KS G r c p) (hc : c ≤ p) (h : ks.energy F = .ok ks') :
    ∃ (E : KSEnergy K p) (eig : Fin r → Fin c → List K), ks'.E = some E ∧
      (∀ i j, (ks.solver (i, j)).eig = some (eig i j)) ∧
      E.evals = (List.finRange r).flatMap fun i => (List.finRange c).flatMap fun j => eig i j := by
  unfold KS.energy at h
  rw [Py.do_eq_ok] at h
  obtain ⟨⟨Eks, Ts, Vks, evals⟩, hs, h⟩ := h
  have hall := KS.solverEnergies_has hs
  choose x hx l hl using fun w => (⟨(hall w).1.choose, (hall w).1.choose_spec, (hall w).2⟩ :
    ∃ x, (ks.solver w).calcEnergy = .ok x ∧ ∃ l, (ks.solver w).eig = some l)
  choose a b v hv hek hden he hb using fun w =>
    Solver.calcEnergy_fin (s := ks.solver w) (e := (x w).1) (n := (x w).2) (hx w)
  have hx' : ∀ w, (ks.solver w).calcEnergy = .ok (⟨.fin (a w), .fin (b w),
      .fin (a w - G.integ fun k => v w k * (x w).2 k)⟩, (x w).2) := by
    intro w
    rw [hx w, ← he w]
  have heq := KS.solverEnergies_eq hc ks.solver a b _ _ l hx' hl
  rw [hs] at heq
  simp only [Except.ok.injEq, Prod.mk.injEq] at heq
  obtain ⟨rfl, rfl, rfl, rfl⟩ := heq
  have hrow : (rowMajor r c).flatMap l =
      (List.finRange r).flatMap fun i => (List.finRange c).flatMap fun j => l (i, j) := by
    simp only [rowMajor, List.flatMap_assoc, List.flatMap_map]
  cases hk : ks.kind with
  | ni =>
    rw [hk] at h
    simp only [Py.do_eq_ok, Py.pure_eq_ok] at h
    obtain ⟨n, hn, vext, hvext, rfl⟩ := h
    exact ⟨_, fun i j => l (i, j), rfl, fun i j => hl _, hrow⟩
  | dft =>
    rw [hk] at h
    simp only [Py.do_eq_ok, Py.pure_eq_ok] at h
    obtain ⟨n, hn, vext, hvext, vhxc, hvhxc, vh, hvh, vh0, hvh0, ⟨Ex, ex, vx⟩, hex, ⟨Ec, ec, vc⟩, hec, rfl⟩ := h
    exact ⟨_, fun i j => l (i, j), rfl, fun i j => hl _, hrow⟩

omit [Field K] [LinearOrder K] [IsStrictOrderedRing K] [FloorRing K] in
open _root_.Verif.Part in
theorem appendEvals_eq (l : List (Frag G r c p)) (x : List K) (h : appendEvals l = .ok x) :
    x = l.flatMap Spec.storedEvals := by
  suffices H : ∀ (l : List (Frag G r c p)) (acc x : List K), l.foldlM (fun acc f => do
      let E ← attr f.ks.E
      pure (acc ++ E.evals)) acc = Except.ok (ε := PyErr) x → x = acc ++ l.flatMap Spec.storedEvals by
    simpa using H l [] x h
  intro l
  induction l with
  | nil => intro acc x h; obtain rfl := Except.ok.inj h; simp
  | cons f l ih =>
    intro acc x h
    rw [List.foldlM_cons] at h
    simp only [Py.do_eq_ok, Py.pure_eq_ok] at h
    obtain ⟨_, ⟨E, hE, rfl⟩, h⟩ := h
    rw [ih _ _ h]
    have hE := attr_eq_ok.mp hE
    simp [Spec.storedEvals, hE]

omit [Field K] [LinearOrder K] [IsStrictOrderedRing K] [FloorRing K] in
theorem flatMap_congr₂ {l m : List (Frag G r c p)}
    (h : List.Forall₂ (fun x y => y.ks = x.ks ∧ y.v.frozen = x.v.frozen) l m) :
    m.flatMap Spec.storedEvals = l.flatMap Spec.storedEvals := by
  induction h with
  | nil => rfl
  | cons a _ ih => simp only [List.flatMap_cons, ih, Spec.storedEvals, a.1]

/-- C75: `Partition.energy()` lists for each fragment the eigenvalues of all its components, each component
once: of KSa (and KSA) for A; of KSb (and KSB) for B, or, with `ab_sym`, those of A. -/
theorem C75_partition (T : Env G r c p) (P P' : Part G r c p) (h : P.energy T = .ok P') :
    ∃ e : PartEnergy G p, P'.E = some e ∧
      e.evalsA = Spec.storedEvals P.fa ++ (match P.fAB with | none => [] | some (A, _) => Spec.storedEvals A) ∧
      e.evalsB = if P.opt.abSym then e.evalsA
        else Spec.storedEvals P.fb ++ (match P.fAB with | none => [] | some (_, B) => Spec.storedEvals B) := by
  obtain ⟨sa, sb, P₁, pot, hxc, kin, ep, ea, eb, -, h2, h3, rfl⟩ := energy_inv h
  have hf := Part.partitionEnergy_frame h2
  refine ⟨_, rfl, ?_⟩
  have cA : P.compsA.flatMap Spec.storedEvals =
      Spec.storedEvals P.fa ++ (match P.fAB with | none => [] | some (A, _) => Spec.storedEvals A) := by
    unfold Part.compsA; cases P.fAB <;> simp
  have cB : P.compsB.flatMap Spec.storedEvals =
      Spec.storedEvals P.fb ++ (match P.fAB with | none => [] | some (_, B) => Spec.storedEvals B) := by
    unfold Part.compsB; cases P.fAB <;> simp
  unfold Part.evalsAB at h3
  rw [Py.do_eq_ok] at h3
  obtain ⟨a, ha, h3⟩ := h3
  have ha := (appendEvals_eq _ _ ha).trans (flatMap_congr₂ hf.ksA)
  rw [hf.opt] at h3
  dsimp only
  rw [← cA, ← cB]
  split at h3
  · rename_i hs
    simp only [Py.pure_eq_ok, Prod.mk.injEq] at h3
    obtain ⟨rfl, rfl⟩ := h3
    exact ⟨ha, by rw [if_pos hs]⟩
  · rename_i hs
    simp only [Py.do_eq_ok, Py.pure_eq_ok, Prod.mk.injEq] at h3
    obtain ⟨b, hb, rfl, rfl⟩ := h3
    exact ⟨ha, by rw [if_neg hs, (appendEvals_eq _ _ hb).trans (flatMap_congr₂ hf.ksB)]⟩

/-- One iteration on two points: each fragment has one eigenvalue, `-1`. -/
example : ∃ P l w, Sample.run { etol := 0, maxIter := 1, alpha := [1] } { kin := .none } = .ok (P, l, w) ∧
    P.E.map (fun e => (e.evalsA, e.evalsB)) = some ([-1], [-1]) :=
  Sample.run_ok { etol := 0, maxIter := 1, alpha := [1] } { kin := .none }
    (fun x => x.1.E.map fun e => (e.evalsA, e.evalsB)) _ (by decide +kernel)

end Verif
