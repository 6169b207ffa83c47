import Verif.Lemmas.PartitionDerivative
import Verif.Props.C84
import Verif.Props.C87

/-! # C88: the partition potential as the functional derivative of the partition energy -/

namespace Verif
open Spec Part PartScf
noncomputable section
variable {G : Grid ℝ} {r c p : ℕ}

/-- A component with density `n`, weight `s` and a direction in which the density changes. -/
structure Spec.Move (G : Grid ℝ) (p : ℕ) where
  n : G.Cols p
  s : ℝ
  δ : G.Cols p

/-- Density and weight after a step of length `t`. -/
def Spec.Move.to (t : ℝ) (x : Move G p) : G.Cols p × ℝ := (fun j k => x.n j k + t * x.δ j k, x.s)

/-- First order change of an energy with potentials `V` for the components. -/
def Spec.work (L : List (Move G p)) (V : List (G.Cols p)) : ℝ :=
  (List.zipWith (fun x v => x.s * ∑ j, G.integ fun k => v j k * x.δ j k) L V).sum

theorem work_map (L : List (Move G p)) (w : Move G p → G.Cols p) :
    work L (L.map w) = (L.map fun x => x.s * ∑ j, G.integ fun k => w x j k * x.δ j k).sum := by
  induction L with
  | nil => rfl
  | cons x L ih =>
    simp only [work, List.map_cons, List.zipWith_cons_cons, List.sum_cons] at ih ⊢
    rw [ih]

/-- Change of the promolecular density. -/
def shift (b : Bool) (L : List (Move G p)) : G.Cols p := addFlip b fun j k => (L.map fun x => x.s * x.δ j k).sum

theorem average_to (b : Bool) (L : List (Move G p)) (t : ℝ) (j : Fin p) (k : G.Ix) :
    addFlip b (Spec.average (L.map (Move.to t))) j k =
      addFlip b (Spec.average (L.map (Move.to 0))) j k + t * shift b L j k := by
  have h : ∀ (j : Fin p) (k : G.Ix), Spec.average (L.map (Move.to t)) j k =
      Spec.average (L.map (Move.to 0)) j k + t * (L.map fun x => x.s * x.δ j k).sum := by
    intro j k
    simp only [Spec.average, List.map_map, Function.comp_def, Move.to]
    induction L with
    | nil => simp
    | cons x L ih =>
      simp only [List.map_cons, List.sum_cons]
      rw [ih]
      ring
  cases b with
  | false => simpa [addFlip, shift] using h j k
  | true =>
    simp only [addFlip, shift, ↓reduceIte, Grid.flipCols, h]
    ring

/-- Paired with a potential that does not depend on the spin direction, the spin flip doubles. -/
theorem flip_pair (b : Bool) (v f : G.Cols p) (hv : b = true → ∀ j k, v j.rev k = v j k) :
    ∑ j, G.integ (fun k => v j k * addFlip b f j k) = twins ℝ b * ∑ j, G.integ fun k => v j k * f j k := by
  cases b with
  | false => simp [addFlip, twins]
  | true =>
    simp only [addFlip, ↓reduceIte, twins, Grid.flipCols, mul_add, G.integ_add, Finset.sum_add_distrib]
    have : ∑ j, G.integ (fun k => v j k * f j.rev k) = ∑ j, G.integ fun k => v j k * f j k := by
      rw [Fintype.sum_equiv Fin.revPerm (fun j : Fin p => G.integ fun k => v j k * f j.rev k)
        (fun j => G.integ fun k => v j k * f j k)]
      intro j
      simp only [Fin.revPerm_apply, hv rfl]
    rw [this]
    ring

theorem pair_sum (v : G.Cols p) (L : List (Move G p)) :
    ∑ j, G.integ (fun k => v j k * (L.map fun x => x.s * x.δ j k).sum) =
      (L.map fun x => x.s * ∑ j, G.integ fun k => v j k * x.δ j k).sum := by
  induction L with
  | nil => simp [G.integ_zero]
  | cons x L ih =>
    simp only [List.map_cons, List.sum_cons, mul_add, G.integ_add, Finset.sum_add_distrib]
    rw [ih, Finset.mul_sum]
    congr 1
    refine Finset.sum_congr rfl fun j _ => ?_
    rw [← G.integ_smul]
    congr 1
    funext k
    ring

theorem shift_pair (b : Bool) (v : G.Cols p) (L : List (Move G p)) (hv : b = true → ∀ j k, v j.rev k = v j k) :
    ∑ j, G.integ (fun k => v j k * shift b L j k) =
      twins ℝ b * (L.map fun x => x.s * ∑ j, G.integ fun k => v j k * x.δ j k).sum := by
  unfold shift
  rw [flip_pair b v _ hv, pair_sum]

/-- The promolecular density of components `A`. -/
def Spec.jointDensity (b : Bool) (A : List (G.Cols p × ℝ)) : G.Cols p := addFlip b (Spec.average A)

/-- A functional of the promolecular density minus its fragment sum. -/
def Spec.nonAdditive (b : Bool) (E : G.Cols p → ℝ) (A : List (G.Cols p × ℝ)) : ℝ :=
  E (jointDensity b A) - twins ℝ b * (A.map fun x => x.2 * E x.1).sum

theorem map_sum_sub {α : Type*} (L : List α) (f g : α → ℝ) : (L.map f).sum - (L.map g).sum = (L.map fun x => f x - g x).sum := by
  induction L with
  | nil => simp
  | cons x L ih =>
    simp only [List.map_cons, List.sum_cons]
    linear_combination ih

theorem map_sum_add {α : Type*} (L : List α) (f g : α → ℝ) : (L.map f).sum + (L.map g).sum = (L.map fun x => f x + g x).sum := by
  induction L with
  | nil => simp
  | cons x L ih =>
    simp only [List.map_cons, List.sum_cons]
    linear_combination ih

theorem sum_line (E : G.Cols p → ℝ) (v : G.Cols p → G.Cols p) (L : List (Move G p))
    (hL : ∀ x ∈ L, FunctionalDerivative E (v x.n) x.n) :
    HasDerivAt (fun t => (L.map fun x => x.s * E (x.to t).1).sum)
      (L.map fun x => x.s * ∑ j, G.integ fun k => v x.n j k * x.δ j k).sum 0 := by
  induction L with
  | nil => simpa using hasDerivAt_const (0 : ℝ) (0 : ℝ)
  | cons x L ih =>
    simp only [List.map_cons, List.sum_cons]
    exact ((hL x (List.mem_cons_self ..) x.δ).const_mul x.s).add (ih fun y hy => hL y (List.mem_cons_of_mem _ hy))

/-- Its derivative: the potential of the promolecular density minus that of the component. -/
theorem nonAdditive_line (b : Bool) (E : G.Cols p → ℝ) (v : G.Cols p → G.Cols p) (L : List (Move G p)) (nf : G.Cols p)
    (hnf : nf = jointDensity b (L.map (Move.to 0))) (h0 : FunctionalDerivative E (v nf) nf)
    (hL : ∀ x ∈ L, FunctionalDerivative E (v x.n) x.n) (hb : b = true → ∀ j k, v nf j.rev k = v nf j k) :
    HasDerivAt (fun t => nonAdditive b E (L.map (Move.to t)))
      (twins ℝ b * (L.map fun x => x.s * ∑ j, G.integ fun k => (v nf j k - v x.n j k) * x.δ j k).sum) 0 := by
  have h1 := h0 (shift b L)
  have h2 := (h1.sub ((sum_line E v L hL).const_mul (twins ℝ b)))
  refine (h2.congr_deriv ?_).congr_of_eventuallyEq (.of_forall fun t => ?_)
  · rw [shift_pair b _ L hb, ← mul_sub, map_sum_sub]
    congr 3
    funext x
    rw [← mul_sub, ← Finset.sum_sub_distrib]
    congr 1
    refine Finset.sum_congr rfl fun j _ => ?_
    simp only [sub_mul]
    rw [show (fun k => v nf j k * x.δ j k - v x.n j k * x.δ j k) =
      fun k => v nf j k * x.δ j k + (-1) * (v x.n j k * x.δ j k) from funext fun k => by ring, G.integ_add, G.integ_smul]
    ring
  · rw [hnf]
    simp only [nonAdditive, List.map_map, Function.comp_def, Pi.sub_apply]
    congr 2
    funext j k
    exact average_to b L t j k

/-- Hartree energy and potential. -/
def Spec.hartreeEnergy (H : G.Fld →ₗ[ℝ] G.Fld) (n : G.Cols p) : ℝ :=
  1 / 2 * G.integ fun k => (∑ j, n j k) * H (fun k => ∑ j, n j k) k

def Spec.hartreePotential (H : G.Fld →ₗ[ℝ] G.Fld) (n : G.Cols p) : G.Cols p := fun _ => H fun k => ∑ j, n j k

theorem hartree_derivative (H : G.Fld →ₗ[ℝ] G.Fld)
    (hH : ∀ f g : G.Fld, G.integ (fun k => f k * H g k) = G.integ fun k => g k * H f k) (n : G.Cols p) :
    FunctionalDerivative (hartreeEnergy H) (hartreePotential H n) n := by
  intro δ
  have h := hartree_line H (fun k => ∑ s, n s k) fun k => ∑ s, δ s k
  refine (h.congr_deriv ?_).congr_of_eventuallyEq (.of_forall fun t => ?_)
  · rw [hH, sub_self, mul_zero, add_zero, ← G.integ_sum]
    congr 1
    funext k
    rw [Finset.mul_sum]
    rfl
  · unfold hartreeEnergy
    have q : ∀ k, (∑ s, (n s k + t * δ s k)) = (∑ s, n s k) + t * ∑ s, δ s k := fun k => by
      rw [Finset.sum_add_distrib, Finset.mul_sum]
    simp only [q]

/-- The energy of the components in a potential. -/
theorem nuclear_line (b : Bool) (v : G.Fld) (L : List (Move G p)) :
    HasDerivAt (fun t => G.integ fun k => (∑ j, jointDensity b (L.map (Move.to t)) j k) * v k)
      (twins ℝ b * (L.map fun x => x.s * ∑ j, G.integ fun k => v k * x.δ j k).sum) 0 := by
  have e : (fun t => G.integ fun k => (∑ j, jointDensity b (L.map (Move.to t)) j k) * v k) = fun t =>
      (G.integ fun k => (∑ j, jointDensity b (L.map (Move.to 0)) j k) * v k) +
        t * ∑ j, G.integ fun k => v k * shift b L j k := by
    funext t
    rw [← G.integ_sum, ← G.integ_smul, ← G.integ_add]
    congr 1
    funext k
    simp only [jointDensity, average_to b L t, Finset.sum_add_distrib, ← Finset.mul_sum]
    ring
  rw [e]
  have := ((hasDerivAt_id (0 : ℝ)).mul_const (∑ j, G.integ fun k => v k * shift b L j k)).const_add
    (G.integ fun k => (∑ j, jointDensity b (L.map (Move.to 0)) j k) * v k)
  refine this.congr_deriv ?_
  rw [one_mul]
  exact shift_pair b (fun _ => v) L fun _ _ _ => rfl

/-- Density functionals, with the potential of the Hartree energy the same for both spins. -/
structure Spec.Theory (G : Grid ℝ) (p : ℕ) where
  Ex : G.Cols p → ℝ
  Ec : G.Cols p → ℝ
  Tk : G.Cols p → ℝ
  vx : G.Cols p → G.Cols p
  vc : G.Cols p → G.Cols p
  vk : G.Cols p → G.Cols p
  H : G.Fld →ₗ[ℝ] G.Fld

/-- The functions passed to the partition compute them. -/
structure Spec.Theory.Computed (D : Theory G p) (T : Env G r c p) (o : KinPart) : Prop where
  laws : Laws T.toFunctionals D.Ex D.Ec D.vx D.vc D.H
  hartree1 : ∀ n, T.hartree1 n = .ok (D.H n)
  kinetic : KineticLaw T o D.Tk D.vk

/-- A component in the nuclear potential `v` whose stored energies and potentials belong to its density. -/
def Spec.Solved (D : Theory G p) (v : G.Fld) (f : Frag G r c p) (x : G.Cols p × ℝ) : Prop :=
  f.ks.n = some x.1 ∧ f.ks.scale = some x.2 ∧ (∀ j k, f.ks.vnuc j k = v k) ∧
  f.ks.V.vh = some (hartreePotential D.H x.1) ∧ f.ks.V.vx = some (D.vx x.1) ∧ f.ks.V.vc = some (D.vc x.1) ∧
  ∃ (e : KSEnergy ℝ p) (en ts vhxc : ℝ) (eks : Fin p → ℝ), f.ks.E = some e ∧ e.E = .fin en ∧ e.Ts = .fin ts ∧
    (∀ j, e.Eks j = .fin (eks j)) ∧ e.Vhxc = some vhxc ∧ e.Ex = D.Ex x.1 ∧ e.Ec = D.Ec x.1 ∧
    e.Eh = some (hartreeEnergy D.H x.1)

/-- `energy()` of the component leaves such a state. -/
theorem solved_of_energy (D : Theory G p) (T : Env G r c p) (o : KinPart) (hD : D.Computed T o) (f : Frag G r c p)
    (ks : KS G r c p) (hc : c ≤ p) (h : f.ks.energy T.toFunctionals = .ok ks) (hd : f.ks.kind = .dft) (v : G.Fld)
    (hv : ∀ j k, f.ks.vnuc j k = v k) (n : G.Cols p) (hn : f.ks.n = some n) (s : ℝ) (hs : f.ks.scale = some s) :
    Solved D v { f with ks := ks } (n, s) := by
  obtain ⟨E, es, vs, ts, m, vext, hE, h1, -, -, h2, h3, -, h4, -, -, -, h5⟩ := C34_energy _ f.ks ks hc h
  obtain ⟨Eh, vh, ex, vx, ec, vc, hp, k1, k2, k3, k4, k5, k6⟩ := h5 hd
  obtain rfl := Option.some.inj (hn.symm.trans h1)
  unfold KS.energy at h
  rw [hd] at h
  simp only [Py.do_eq_ok, Py.pure_eq_ok] at h
  obtain ⟨_, _, m, hm, _, _, _, _, vh', a1, _, _, ⟨ex', ex'', vx'⟩, a2, ⟨ec', ec'', vc'⟩, a3, rfl⟩ := h
  obtain rfl := Option.some.inj (hn.symm.trans (need_eq_ok.mp hm))
  rw [hD.laws.hartree] at a1 k2
  obtain ⟨q1, hx⟩ := hD.laws.exchange n
  obtain ⟨q2, hcc⟩ := hD.laws.correlation n
  rw [hx] at a2 k3
  rw [hcc] at a3 k4
  simp only [Except.ok.injEq, Prod.mk.injEq] at a1 a2 a3 k2 k3 k4
  obtain ⟨rfl, rfl, rfl⟩ := a2
  obtain ⟨rfl, rfl, rfl⟩ := a3
  subst a1 k2
  simp only [Option.some.injEq] at hE
  obtain ⟨y, hy⟩ : ∃ y, E.Vhxc = some y := hE ▸ ⟨_, rfl⟩
  refine ⟨hn, hs, hv, rfl, rfl, rfl, E, _, _, y, _, congrArg some hE, k6, h2, h3, hy, k3.1.symm, k4.1.symm, ?_⟩
  rw [k1, k5]
  rfl

theorem fAB_none {P : Part G r c p} : P.fAB = none ↔ P.compsA.length = 1 := by
  unfold compsA
  cases P.fAB <;> simp

/-- The state before `partition_potential`. -/
theorem run_inv (D : Theory G p) {T : Env G r c p} {P Q : Part G r c p} {vp : G.Cols p} {A B : List (G.Cols p × ℝ)}
    {va vb : G.Fld} (hA : List.Forall₂ (Solved D va) P.compsA A) (hB : List.Forall₂ (Solved D vb) P.compsB B)
    (h : (do let P ← P.calcProtomolecule; let P ← P.calcQ; P.partitionPotential T) = .ok (Q, vp)) :
    ∃ P' : Part G r c p, P'.partitionPotential T = .ok (Q, vp) ∧ P'.opt = P.opt ∧ P'.va = P.va ∧ P'.vb = P.vb ∧
      P'.naFrac = some (jointDensity P.opt.ensSpinSym A) ∧ P'.nbFrac = some (jointDensity P.opt.ensSpinSym B) ∧
      P'.nf = some (jointDensity P.opt.ensSpinSym (A ++ B)) ∧
      List.Forall₂ (Solved D va) P'.compsA A ∧ List.Forall₂ (Solved D vb) P'.compsB B ∧
      List.Forall₂ (fun f x => f.ks.Q = some fun j k => if jointDensity P.opt.ensSpinSym (A ++ B) j k = 0 then 0
        else x.2 * x.1 j k / jointDensity P.opt.ensSpinSym (A ++ B) j k) P'.comps (A ++ B) := by
  have cA : Comps P.compsA A := hA.imp fun f x h => ⟨h.1, h.2.1⟩
  have cB : Comps P.compsB B := hB.imp fun f x h => ⟨h.1, h.2.1⟩
  simp only [Py.do_eq_ok] at h
  obtain ⟨P₁, h1, P₂, h2, h3⟩ := h
  unfold calcProtomolecule at h1
  rw [weighted_eq _ A cA, weighted_eq _ B cB] at h1
  simp only [bind, Except.bind, pure, Except.pure, Except.ok.injEq] at h1
  have hnf : (fun j k => addFlip P.opt.ensSpinSym (Spec.average A) j k + addFlip P.opt.ensSpinSym (Spec.average B) j k) =
      jointDensity P.opt.ensSpinSym (A ++ B) := by
    funext j k
    unfold jointDensity
    cases P.opt.ensSpinSym
    · simp [addFlip, average_append]
    · simp only [addFlip, ↓reduceIte, Grid.flipCols, average_append]
      ring
  rw [hnf] at h1
  subst h1
  unfold calcQ at h2
  rw [Py.do_eq_ok] at h2
  obtain ⟨m, hm, h2⟩ := h2
  obtain rfl := Except.ok.inj hm
  obtain ⟨⟨a, b, AB, same⟩, m1, m2⟩ := mapAll_inv h2
  have key : ∀ {l l' : List (Frag G r c p)} {A' : List (G.Cols p × ℝ)} {v : G.Fld}, List.Forall₂ (Solved D v) l A' →
      List.Forall₂ (fun x y => (do
        let n ← KS.need x.ks.n
        let s ← KS.need x.ks.scale
        pure { x with ks := { x.ks with
          Q := some fun j k => Fl.clean (Fl.div (.fin (s * n j k))
            (.fin (jointDensity P.opt.ensSpinSym (A ++ B) j k))) } } : Py (Frag G r c p)) = .ok y) l l' →
      List.Forall₂ (Solved D v) l' A' ∧ List.Forall₂ (fun f x => f.ks.Q = some fun j k =>
        if jointDensity P.opt.ensSpinSym (A ++ B) j k = 0 then 0
        else x.2 * x.1 j k / jointDensity P.opt.ensSpinSym (A ++ B) j k) l' A' := by
    intro l l' A' v hs hm
    induction hm generalizing A' with
    | nil => cases hs; exact ⟨.nil, .nil⟩
    | cons e _ ih =>
      cases hs with
      | cons s1 s2 =>
        obtain ⟨i1, i2⟩ := ih s2
        simp only [Py.do_eq_ok, Py.pure_eq_ok] at e
        obtain ⟨n, e1, s, e2, rfl⟩ := e
        obtain rfl := Option.some.inj (s1.1.symm.trans (need_eq_ok.mp e1))
        obtain rfl := Option.some.inj (s1.2.1.symm.trans (need_eq_ok.mp e2))
        refine ⟨.cons s1 i1, .cons ?_ i2⟩
        simp only [Fl.clean_div]
  obtain ⟨kA, qA⟩ := key hA m1
  obtain ⟨kB, qB⟩ := key hB m2
  exact ⟨P₂, h3, by rw [same], by rw [same], by rw [same], by rw [same]; rfl, by rw [same]; rfl, by rw [same], kA, kB,
    List.rel_append qA qB⟩

/-- With `ab_sym` the energies of A are used for B: B must have the same. -/
def Spec.SameEnergies (D : Theory G p) (A B : List (G.Cols p × ℝ)) : Prop :=
  List.Forall₂ (fun x y => x.2 = y.2 ∧ D.Ex x.1 = D.Ex y.1 ∧ D.Ec x.1 = D.Ec y.1 ∧
    hartreeEnergy D.H x.1 = hartreeEnergy D.H y.1) A B

theorem solved_energies (D : Theory G p) {v : G.Fld} {l : List (Frag G r c p)} {A : List (G.Cols p × ℝ)}
    (h : List.Forall₂ (Solved D v) l A) : ∃ L : List (FragEnergy ℝ p), HasEnergies true l L ∧
      avg L (·.Ex) = (A.map fun x => x.2 * D.Ex x.1).sum ∧ avg L (·.Ec) = (A.map fun x => x.2 * D.Ec x.1).sum ∧
      avg L (·.Eh) = (A.map fun x => x.2 * hartreeEnergy D.H x.1).sum := by
  induction h with
  | nil => exact ⟨[], .nil, rfl, rfl, rfl⟩
  | @cons f x l A hf _ ih =>
    obtain ⟨L, i0, i1, i2, i3⟩ := ih
    obtain ⟨-, hs, -, -, -, -, e, en, ts, vhxc, eks, h1, h2, h3, h4, h5, h6, h7, h8⟩ := hf
    refine ⟨⟨x.2, en, ts, eks, e.Enuc, D.Ex x.1, D.Ec x.1, hartreeEnergy D.H x.1, vhxc⟩ :: L,
      .cons ⟨hs, e, h1, h2, h3, h4, rfl, fun _ => ⟨h6, h7, h8, h5⟩⟩ i0, ?_, ?_, ?_⟩
    all_goals simp only [avg, List.map_cons, List.sum_cons] at i1 i2 i3 ⊢
    · rw [i1]
    · rw [i2]
    · rw [i3]

/-- The fragment sums of `energy()`. -/
theorem fragment_sums (D : Theory G p) {P : Part G r c p} {A B : List (G.Cols p × ℝ)} {va vb : G.Fld}
    (hA : List.Forall₂ (Solved D va) P.compsA A) (hB : List.Forall₂ (Solved D vb) P.compsB B)
    (hd : P.opt.interaction = .dft) (hens : P.opt.abSym = true ∨ P.fAB = none)
    (hab : P.opt.abSym = true → SameEnergies D A B) {sa sb : Sums ℝ p} (h : P.sumsAB = .ok (sa, sb)) :
    sa.Ex + sb.Ex = twins ℝ P.opt.ensSpinSym * ((A ++ B).map fun x => x.2 * D.Ex x.1).sum ∧
    sa.Ec + sb.Ec = twins ℝ P.opt.ensSpinSym * ((A ++ B).map fun x => x.2 * D.Ec x.1).sum ∧
    sa.Eh + sb.Eh = twins ℝ P.opt.ensSpinSym * ((A ++ B).map fun x => x.2 * hartreeEnergy D.H x.1).sum := by
  obtain ⟨L, hL, l1, l2, l3⟩ := solved_energies D hA
  have hM : ∃ M : List (FragEnergy ℝ p), (P.opt.abSym = false → HasEnergies true P.compsB M) ∧ (P.opt.abSym = true → M = L) ∧
      avg M (·.Ex) = (B.map fun x => x.2 * D.Ex x.1).sum ∧ avg M (·.Ec) = (B.map fun x => x.2 * D.Ec x.1).sum ∧
      avg M (·.Eh) = (B.map fun x => x.2 * hartreeEnergy D.H x.1).sum := by
    cases hs : P.opt.abSym with
    | false =>
      obtain ⟨M, hM, m⟩ := solved_energies D hB
      exact ⟨M, fun _ => hM, (fun h => nomatch h), m⟩
    | true =>
      have key : ∀ E : G.Cols p → ℝ, (∀ x y : G.Cols p × ℝ, (x.2 = y.2 ∧ D.Ex x.1 = D.Ex y.1 ∧ D.Ec x.1 = D.Ec y.1 ∧
          hartreeEnergy D.H x.1 = hartreeEnergy D.H y.1) → E x.1 = E y.1) →
          (A.map fun x => x.2 * E x.1).sum = (B.map fun x => x.2 * E x.1).sum := by
        intro E hE
        have := hab hs
        unfold SameEnergies at this
        clear hA hB l1 l2 l3 hab
        induction this with
        | nil => rfl
        | cons e _ ih =>
          simp only [List.map_cons, List.sum_cons]
          rw [ih, e.1, hE _ _ e]
      exact ⟨L, (fun h => nomatch h), fun _ => rfl, l1.trans (key _ fun x y h => h.2.1), l2.trans (key _ fun x y h => h.2.2.1),
        l3.trans (key _ fun x y h => h.2.2.2)⟩
  obtain ⟨M, hM, hLM, m1, m2, m3⟩ := hM
  have hdec : decide (P.opt.interaction = .dft) = true := by simp [hd]
  rw [sumsAB_eq P L M (by rw [hdec]; exact hL) (fun h => by rw [hdec]; exact hM h) hens hLM, sums_double, sums_double] at h
  simp only [Except.ok.injEq, Prod.mk.injEq, hd, ↓reduceIte] at h
  obtain ⟨rfl, rfl⟩ := h
  simp only [List.map_append, List.sum_append, l1, l2, l3, m1, m2, m3]
  exact ⟨by ring, by ring, by ring⟩

/-- The interaction part of the partition energy. -/
def Spec.HxcEnergy (D : Theory G p) (o : HxcPart) (b : Bool) (A : List (G.Cols p × ℝ)) (F e : ℝ) : Prop :=
  (o = .exact → e = nonAdditive b (hartreeEnergy D.H) A + nonAdditive b D.Ex A + nonAdditive b D.Ec A) ∧
  (o = .hartree → e = nonAdditive b (hartreeEnergy D.H) A) ∧
  (o = .overlapXc → e = nonAdditive b (hartreeEnergy D.H) A + F * (nonAdditive b D.Ex A + nonAdditive b D.Ec A))

theorem solved_frame (D : Theory G p) {l l' : List (Frag G r c p)} {A : List (G.Cols p × ℝ)} {v : G.Fld}
    (hs : List.Forall₂ (Solved D v) l A)
    (hm : List.Forall₂ (fun f g => g.ks = f.ks ∧ g.v.frozen = f.v.frozen) l l') : List.Forall₂ (Solved D v) l' A := by
  induction hm generalizing A with
  | nil => exact hs
  | cons e _ ih =>
    cases hs with
    | cons s1 s2 =>
      refine .cons ?_ (ih s2)
      unfold Solved at s1 ⊢
      rw [e.1]
      exact s1

theorem fold_Ts {l : List (Frag G r c p)} {A : List (G.Cols p × ℝ)} {E : G.Cols p → ℝ}
    (h : List.Forall₂ (fun f x => f.ks.scale = some x.2 ∧ f.v.Ts = some (E x.1)) l A) (a : ℝ) :
    l.foldlM (fun (acc : ℝ) f => do
      let s ← KS.need f.ks.scale
      let t ← attr f.v.Ts
      pure (acc + s * t)) a = (.ok (a + (A.map fun x => x.2 * E x.1).sum) : Py ℝ) := by
  induction h generalizing a with
  | nil => simp; rfl
  | @cons f x l A hf _ ih =>
    rw [List.foldlM_cons, hf.1, hf.2]
    change Except.bind (.ok _) _ = _
    simp only [Except.bind]
    rw [ih]
    simp [add_assoc]

/-- `Ep_kin`. -/
theorem kinetic_value {T : Env G r c p} {Q : Part G r c p} {A : List (G.Cols p × ℝ)} {Tk : G.Cols p → ℝ}
    {vk : G.Cols p → G.Cols p} (hk : KineticLaw T Q.opt.kin Tk vk)
    (h1 : Q.opt.kin = .libxcke → Q.Tsm = some (Tk (jointDensity Q.opt.ensSpinSym A)))
    (h2 : Q.opt.kin = .libxcke → List.Forall₂ (fun f x => f.ks.scale = some x.2 ∧ f.v.Ts = some (Tk x.1)) Q.comps A)
    {kin : Tot G} (h : Q.epKinetic T = .ok kin) : kin = .num (.fin (nonAdditive Q.opt.ensSpinSym Tk A)) := by
  unfold epKinetic kineticEnergies at h
  rcases hk with ⟨hk, h0, -⟩ | ⟨hk, -⟩ <;> rw [hk] at h
  · simp only [bind, Except.bind, pure, Except.pure, Except.ok.injEq] at h
    rw [← h]
    simp only [nonAdditive, h0, mul_zero, List.map_const', List.sum_replicate, nsmul_zero, sub_zero]
    cases Q.opt.ensSpinSym <;> simp [Tot.sub, Tot.add, Tot.neg, Tot.smul]
  · rw [h1 hk, fold_Ts (h2 hk)] at h
    simp only [bind, Except.bind, pure, Except.pure, Except.ok.injEq, attr] at h
    rw [← h]
    simp only [nonAdditive]
    cases Q.opt.ensSpinSym <;> simp [Tot.sub, Tot.add, Tot.neg, Tot.smul, twins, sub_eq_add_neg, mul_comm]

/-- `Ep` after `partition_potential` and `energy`. -/
theorem ep_value (D : Theory G p) {T : Env G r c p} {P Q R : Part G r c p} {vp : G.Cols p} {A B : List (G.Cols p × ℝ)}
    {va vb : G.Fld} (hD : D.Computed T P.opt.kin) (hva : P.va = va) (hvb : P.vb = vb)
    (hA : List.Forall₂ (Solved D va) P.compsA A) (hB : List.Forall₂ (Solved D vb) P.compsB B)
    (hd : P.opt.interaction = .dft) (hi : P.opt.isolated = false)
    (ho : P.opt.hxc = .exact ∨ P.opt.hxc = .hartree ∨ P.opt.hxc = .overlapXc)
    (hens : P.opt.abSym = true ∨ P.fAB = none) (hab : P.opt.abSym = true → SameEnergies D A B)
    (h : (do let P ← P.calcProtomolecule; let P ← P.calcQ; P.partitionPotential T) = .ok (Q, vp))
    (hR : Q.energy T = .ok R) :
    ∃ (e : PartEnergy G p) (F hxc : ℝ), R.E = some e ∧ HxcEnergy D P.opt.hxc P.opt.ensSpinSym (A ++ B) F hxc ∧
      (P.opt.hxc = .overlapXc → F = T.erf (2 * G.integ fun k => T.sqrt (tot (jointDensity P.opt.ensSpinSym A) k *
        tot (jointDensity P.opt.ensSpinSym B) k))) ∧
      e.Ep = .num (.fin ((G.integ fun k => (∑ j, jointDensity P.opt.ensSpinSym A j k) * vb k) +
        (G.integ fun k => (∑ j, jointDensity P.opt.ensSpinSym B j k) * va k) +
        nonAdditive P.opt.ensSpinSym D.Tk (A ++ B) + hxc)) := by
  obtain ⟨P', h', o', a', b', n1, n2, n3, kA, kB, -⟩ := run_inv D hA hB h
  have fr := partitionPotential_frame h'
  have sA := solved_frame D kA fr.ksA
  have sB := solved_frame D kB fr.ksB
  have oQ : Q.opt = P.opt := fr.opt.trans o'
  obtain ⟨p1, mh, mx, mc, ex, ec, F', Ex', Ec', eX, eC, p2, p3, p4, p5, p6⟩ := potential_parts h' (o' ▸ hd) (o' ▸ hi) (o' ▸ ho)
    (o' ▸ hD.kinetic) n3
  obtain ⟨nf', ex', ec', _, _, _, _, q1, q2, q3, q4, q5⟩ := partitionPotential_xc h' (o' ▸ hd)
  obtain rfl := Option.some.inj (n3.symm.trans q1)
  obtain ⟨e, sa, sb, na, nb, nf, vh, ex₂, ec₂, kin, hxc, e1, e2, e3, e4, e5, e6, e7, e8, e9, e10, e11, e12, e13⟩ :=
    energy_values hR (oQ ▸ hi) (oQ ▸ hd)
  obtain rfl := Option.some.inj ((fr.naFrac.trans n1).symm.trans e3)
  obtain rfl := Option.some.inj ((fr.nbFrac.trans n2).symm.trans e4)
  obtain rfl := Option.some.inj ((fr.nf.trans n3).symm.trans e5)
  obtain rfl := Option.some.inj (q4.symm.trans e7)
  obtain rfl := Option.some.inj (q5.symm.trans e8)
  rw [hD.hartree1] at e6
  obtain rfl := Except.ok.inj e6
  obtain ⟨_, hx⟩ := hD.laws.exchange (jointDensity P.opt.ensSpinSym (A ++ B))
  obtain ⟨_, hcc⟩ := hD.laws.correlation (jointDensity P.opt.ensSpinSym (A ++ B))
  rw [hx] at q2
  rw [hcc] at q3
  simp only [Except.ok.injEq, Prod.mk.injEq] at q2 q3
  obtain ⟨rfl, -, -⟩ := q2
  obtain ⟨rfl, -, -⟩ := q3
  have hensQ : Q.opt.abSym = true ∨ Q.fAB = none := by
    rw [oQ]
    refine hens.imp id fun hn => ?_
    rw [fAB_none] at hn ⊢
    rw [sA.length_eq, ← hA.length_eq, hn]
  obtain ⟨s1, s2, s3⟩ := fragment_sums D sA sB (oQ ▸ hd) hensQ (oQ ▸ hab) e2
  have hkin := kinetic_value (A := A ++ B) (oQ ▸ hD.kinetic) (fun hl => by
      rw [oQ]
      exact p1 (by rw [o', ← oQ]; exact hl)) (fun hl => ?_) e9
  swap
  · have : List.Forall₂ (fun f x => f.ks.n = some x.1 ∧ f.ks.scale = some x.2) Q.comps (A ++ B) :=
      List.rel_append (sA.imp fun f x h => ⟨h.1, h.2.1⟩) (sB.imp fun f x h => ⟨h.1, h.2.1⟩)
    exact (forall₂_mem this).imp fun f x hf => ⟨hf.1.2, (p6 f hf.2 x.1 hf.1.1).1 (by rw [o', ← oQ]; exact hl)⟩
  rw [oQ] at s1 s2 s3 hkin e11 e12 e13
  rw [s1, s2, s3] at e11 e13
  rw [s3] at e12
  have hval : e.Ep = .num (.fin ((G.integ fun k => (∑ j, jointDensity P.opt.ensSpinSym A j k) * vb k) +
        (G.integ fun k => (∑ j, jointDensity P.opt.ensSpinSym B j k) * va k) +
        nonAdditive P.opt.ensSpinSym D.Tk (A ++ B) + hxc)) := by
    rw [e10, hkin, fr.va, fr.vb, a', b', hva, hvb]
    rfl
  suffices hend : ∃ F, HxcEnergy D P.opt.hxc P.opt.ensSpinSym (A ++ B) F hxc ∧ (P.opt.hxc = .overlapXc →
      F = T.erf (2 * G.integ fun k => T.sqrt (tot (jointDensity P.opt.ensSpinSym A) k *
        tot (jointDensity P.opt.ensSpinSym B) k))) by
    obtain ⟨F, h1, h2⟩ := hend
    exact ⟨e, F, hxc, e1, h1, h2, hval⟩
  rcases ho with ho | ho | ho
  · refine ⟨0, ?_, fun h => absurd (ho.symm.trans h) (by decide)⟩
    rw [ho]
    exact ⟨fun _ => (e11 ho).1, (fun h => nomatch h), (fun h => nomatch h)⟩
  · refine ⟨0, ?_, fun h => absurd (ho.symm.trans h) (by decide)⟩
    rw [ho]
    exact ⟨(fun h => nomatch h), fun _ => (e12 ho).1, (fun h => nomatch h)⟩
  · obtain ⟨S, S', F, w1, w2, -, w3, -, -, -, w4, -, -, -, w5⟩ := e13 ho
    refine ⟨F, ?_, fun _ => ?_⟩
    · rw [ho]
      exact ⟨(fun h => nomatch h), (fun h => nomatch h), fun _ => w5⟩
    · have := (vpOverlap_values w3 w1 w2).2
      rw [w4] at this
      exact Option.some.inj this

/-- Potentials that are functional derivatives at a density. -/
structure Spec.Theory.Derivatives (D : Theory G p) (n : G.Cols p) : Prop where
  x : FunctionalDerivative D.Ex (D.vx n) n
  c : FunctionalDerivative D.Ec (D.vc n) n
  k : FunctionalDerivative D.Tk (D.vk n) n

/-- Exchanging the spins of the density exchanges the spins of the potentials. -/
structure Spec.Theory.Flips (D : Theory G p) : Prop where
  x : ∀ n, D.vx (G.flipCols n) = G.flipCols (D.vx n)
  c : ∀ n, D.vc (G.flipCols n) = G.flipCols (D.vc n)
  k : ∀ n, D.vk (G.flipCols n) = G.flipCols (D.vk n)

/-- The functionals are differentiable at the promolecular density and at the component densities. -/
structure Spec.Theory.Smooth (D : Theory G p) (b : Bool) (L : List (Move G p)) : Prop where
  hartree : ∀ f g : G.Fld, G.integ (fun k => f k * D.H g k) = G.integ fun k => g k * D.H f k
  joint : D.Derivatives (jointDensity b (L.map (Move.to 0)))
  parts : ∀ x ∈ L, D.Derivatives x.n
  flips : b = true → D.Flips

theorem flip_joint (A : List (G.Cols p × ℝ)) : G.flipCols (jointDensity true A) = jointDensity true A := by
  funext j k
  simp only [jointDensity, addFlip, ↓reduceIte, Grid.flipCols, Fin.rev_rev]
  ring

theorem flip_potential {v : G.Cols p → G.Cols p} {b : Bool} {A : List (G.Cols p × ℝ)}
    (h : b = true → ∀ n, v (G.flipCols n) = G.flipCols (v n)) :
    b = true → ∀ j k, v (jointDensity b A) j.rev k = v (jointDensity b A) j k := by
  rintro rfl j k
  have := h rfl (jointDensity true A)
  rw [flip_joint] at this
  exact (congrFun (congrFun this j) k).symm

/-- The potential of a component with density `n`: the other nucleus and the differences of the potentials of the
promolecule and of the component. -/
def Spec.gap (D : Theory G p) (o : HxcPart) (v : G.Fld) (nf n : G.Cols p) (F E : ℝ) (d : G.Cols p) : G.Cols p := fun j k =>
  v k + (D.vk nf j k - D.vk n j k) + (hartreePotential D.H nf j k - hartreePotential D.H n j k) +
    match o with
    | .exact => (D.vx nf j k - D.vx n j k) + (D.vc nf j k - D.vc n j k)
    | .overlapXc => F * ((D.vx nf j k - D.vx n j k) + (D.vc nf j k - D.vc n j k)) + E * d j k
    | _ => 0

/-- What `partition_potential` leaves in the components. -/
theorem vp_value (D : Theory G p) {T : Env G r c p} {P Q : Part G r c p} {vp : G.Cols p} {A B : List (G.Cols p × ℝ)}
    {va vb : G.Fld} (hD : D.Computed T P.opt.kin) (hva : P.va = va) (hvb : P.vb = vb)
    (hA : List.Forall₂ (Solved D va) P.compsA A) (hB : List.Forall₂ (Solved D vb) P.compsB B)
    (hd : P.opt.interaction = .dft) (hi : P.opt.isolated = false)
    (ho : P.opt.hxc = .exact ∨ P.opt.hxc = .hartree ∨ P.opt.hxc = .overlapXc)
    (hens : P.opt.abSym = true ∨ P.fAB = none) (hab : P.opt.abSym = true → SameEnergies D A B)
    (h : (do let P ← P.calcProtomolecule; let P ← P.calcQ; P.partitionPotential T) = .ok (Q, vp)) :
    ∃ F E : ℝ, (P.opt.hxc = .overlapXc → E = nonAdditive P.opt.ensSpinSym D.Ex (A ++ B) +
        nonAdditive P.opt.ensSpinSym D.Ec (A ++ B) ∧ ∃ S S' : Part G r c p,
          S.naFrac = some (jointDensity P.opt.ensSpinSym A) ∧ S.nbFrac = some (jointDensity P.opt.ensSpinSym B) ∧
          S.vpOverlap T = .ok S' ∧ S'.F = some F ∧ List.Forall₂ SameD S'.compsA Q.compsA ∧
          List.Forall₂ SameD S'.compsB Q.compsB) ∧
      List.Forall₂ (fun f x => f.ks.scale = some x.2 ∧ ∃ d, (P.opt.hxc = .overlapXc → f.v.dFdn = some d) ∧
        f.v.vp = some (gap D P.opt.hxc vb (jointDensity P.opt.ensSpinSym (A ++ B)) x.1 F E d)) Q.compsA A ∧
      List.Forall₂ (fun f x => f.ks.scale = some x.2 ∧ ∃ d, (P.opt.hxc = .overlapXc → f.v.dFdn = some d) ∧
        f.v.vp = some (gap D P.opt.hxc va (jointDensity P.opt.ensSpinSym (A ++ B)) x.1 F E d)) Q.compsB B := by
  obtain ⟨P', h', o', a', b', n1, n2, n3, kA, kB, -⟩ := run_inv D hA hB h
  have fr := partitionPotential_frame h'
  have sA := solved_frame D kA fr.ksA
  have sB := solved_frame D kB fr.ksB
  obtain ⟨p1, mh, mx, mc, ex, ec, F, Ex, Ec, eX, eC, p2, p3, p4, p5, p6⟩ := potential_parts h' (o' ▸ hd) (o' ▸ hi) (o' ▸ ho)
    (o' ▸ hD.kinetic) n3
  obtain ⟨_, hx⟩ := hD.laws.exchange (jointDensity P.opt.ensSpinSym (A ++ B))
  obtain ⟨_, hcc⟩ := hD.laws.correlation (jointDensity P.opt.ensSpinSym (A ++ B))
  rw [hD.laws.hartree] at p2
  rw [hx] at p3
  rw [hcc] at p4
  simp only [Except.ok.injEq, Prod.mk.injEq] at p2 p3 p4
  obtain ⟨rfl, -, rfl⟩ := p3
  obtain ⟨rfl, -, rfl⟩ := p4
  subst p2
  rw [o'] at p5 p6
  refine ⟨F, Ex + Ec, fun hov => ?_, ?_, ?_⟩
  · obtain ⟨S, S', Pm, sa, sb, s1, s2, s3, s4, s5, s6, s7, s8, rfl, rfl⟩ := p5 hov
    have hensP : P'.fAB = none → Pm.fAB = none := fun hn => by
      rw [fAB_none] at hn ⊢
      rw [(solved_frame D kA s7.ksA).length_eq, ← kA.length_eq, hn]
    have hens' : Pm.opt.abSym = true ∨ Pm.fAB = none := by
      rw [s7.opt, o']
      refine hens.imp id fun hn => hensP ?_
      rw [fAB_none] at hn ⊢
      rw [kA.length_eq, ← hA.length_eq, hn]
    obtain ⟨f1, f2, -⟩ := fragment_sums D (solved_frame D kA s7.ksA) (solved_frame D kB s7.ksB) (by rw [s7.opt, o']; exact hd)
      hens' (by rw [s7.opt, o']; exact hab) s8
    rw [s7.opt, o'] at f1 f2
    refine ⟨?_, S, S', s1.trans n1, s2.trans n2, s3, s4, s5, s6⟩
    rw [f1, f2]
    rfl
  · refine (forall₂_mem sA).imp fun f x hf => ⟨hf.1.2.1, ?_⟩
    obtain ⟨-, d, fh, fx, fc, w, q1, q2, q3, q4, q5, q6⟩ := p6 f (by simp only [comps, List.mem_append]; exact .inl hf.2) x.1 hf.1.1
    obtain ⟨-, -, hv, v1, v2, v3, -⟩ := hf.1
    obtain rfl := Option.some.inj (q1.symm.trans v1)
    obtain rfl := Option.some.inj (q2.symm.trans v2)
    obtain rfl := Option.some.inj (q3.symm.trans v3)
    refine ⟨d, q4, q6.trans (congrArg some (funext fun j => funext fun k => ?_))⟩
    obtain ⟨r1, r2, r3⟩ := q5 j k
    rw [hv, a', b', hva, hvb]
    unfold gap
    rcases ho with ho | ho | ho <;> simp only [ho]
    · rw [r1 ho]; simp only [hartreePotential]; ring
    · rw [r2 ho]; simp only [hartreePotential]; ring
    · rw [r3 ho]; simp only [hartreePotential]; ring
  · refine (forall₂_mem sB).imp fun f x hf => ⟨hf.1.2.1, ?_⟩
    obtain ⟨-, d, fh, fx, fc, w, q1, q2, q3, q4, q5, q6⟩ := p6 f (by simp only [comps, List.mem_append]; exact .inr hf.2) x.1 hf.1.1
    obtain ⟨-, -, hv, v1, v2, v3, -⟩ := hf.1
    obtain rfl := Option.some.inj (q1.symm.trans v1)
    obtain rfl := Option.some.inj (q2.symm.trans v2)
    obtain rfl := Option.some.inj (q3.symm.trans v3)
    refine ⟨d, q4, q6.trans (congrArg some (funext fun j => funext fun k => ?_))⟩
    obtain ⟨r1, r2, r3⟩ := q5 j k
    rw [hv, a', b', hva, hvb]
    unfold gap
    rcases ho with ho | ho | ho <;> simp only [ho]
    · rw [r1 ho]; simp only [hartreePotential]; ring
    · rw [r2 ho]; simp only [hartreePotential]; ring
    · rw [r3 ho]; simp only [hartreePotential]; ring

/-- First order change of an energy whose potential for the component `x` is `w x`. -/
def lin (L : List (Move G p)) (w : Move G p → G.Cols p) : ℝ :=
  (L.map fun x => x.s * ∑ j, G.integ fun k => w x j k * x.δ j k).sum

theorem lin_add (L : List (Move G p)) (v w : Move G p → G.Cols p) :
    lin L v + lin L w = lin L fun x j k => v x j k + w x j k := by
  unfold lin
  rw [map_sum_add]
  congr 2
  funext x
  rw [← mul_add, ← Finset.sum_add_distrib]
  congr 1
  refine Finset.sum_congr rfl fun j _ => ?_
  rw [← G.integ_add]
  congr 1
  funext k
  ring

theorem lin_smul (L : List (Move G p)) (a : ℝ) (w : Move G p → G.Cols p) : a * lin L w = lin L fun x j k => a * w x j k := by
  unfold lin
  induction L with
  | nil => simp
  | cons x L ih =>
    simp only [List.map_cons, List.sum_cons, mul_add]
    rw [ih]
    congr 1
    rw [mul_left_comm, Finset.mul_sum]
    congr 1
    refine Finset.sum_congr rfl fun j _ => ?_
    rw [← G.integ_smul]
    congr 1
    funext k
    ring

theorem lin_append (A B : List (Move G p)) (w : Move G p → G.Cols p) : lin (A ++ B) w = lin A w + lin B w := by
  simp [lin]

theorem lin_congr {L : List (Move G p)} {v w : Move G p → G.Cols p} (h : ∀ x ∈ L, v x = w x) : lin L v = lin L w := by
  unfold lin
  congr 1
  exact List.map_congr_left fun x hx => by rw [h x hx]

/-- Nuclear, kinetic and Hartree part along a line. -/
theorem base_line (D : Theory G p) (b : Bool) (A B : List (Move G p)) (va vb : G.Fld) (hs : D.Smooth b (A ++ B))
    (nf : G.Cols p) (hnf : nf = jointDensity b ((A ++ B).map (Move.to 0))) :
    HasDerivAt (fun t => (G.integ fun k => (∑ j, jointDensity b (A.map (Move.to t)) j k) * vb k) +
        (G.integ fun k => (∑ j, jointDensity b (B.map (Move.to t)) j k) * va k) +
        nonAdditive b D.Tk ((A ++ B).map (Move.to t)) + nonAdditive b (hartreeEnergy D.H) ((A ++ B).map (Move.to t)))
      (twins ℝ b * (lin A (fun x => gap D .hartree vb nf x.n 0 0 0) + lin B fun x => gap D .hartree va nf x.n 0 0 0)) 0 := by
  have h1 := nuclear_line b vb A
  have h2 := nuclear_line b va B
  have h3 := nonAdditive_line b D.Tk D.vk (A ++ B) nf hnf (hnf ▸ hs.joint.k) (fun x hx => (hs.parts x hx).k)
    (hnf ▸ flip_potential fun hb => (hs.flips hb).k)
  have h4 := nonAdditive_line b (hartreeEnergy D.H) (hartreePotential D.H) (A ++ B) nf hnf (hartree_derivative D.H hs.hartree nf)
    (fun x _ => hartree_derivative D.H hs.hartree x.n) fun _ _ _ => rfl
  refine (((h1.add h2).add h3).add h4).congr_deriv ?_
  change twins ℝ b * lin A (fun _ _ => vb) + twins ℝ b * lin B (fun _ _ => va) +
    twins ℝ b * lin (A ++ B) (fun x j k => D.vk nf j k - D.vk x.n j k) + twins ℝ b * lin (A ++ B) (fun x j k =>
      hartreePotential D.H nf j k - hartreePotential D.H x.n j k) = _
  rw [lin_append, lin_append, ← mul_add, ← mul_add, ← mul_add]
  congr 1
  have e : ∀ v, (fun x : Move G p => gap D .hartree v nf x.n 0 0 0) = fun x j k => (v k + (D.vk nf j k - D.vk x.n j k)) +
      (hartreePotential D.H nf j k - hartreePotential D.H x.n j k) := fun v => by
    funext x j k
    simp [gap]
  rw [e, e, ← lin_add, ← lin_add, ← lin_add, ← lin_add]
  ring

/-- Exchange and correlation along a line. -/
theorem xc_line (D : Theory G p) (b : Bool) (L : List (Move G p)) (hs : D.Smooth b L) (nf : G.Cols p)
    (hnf : nf = jointDensity b (L.map (Move.to 0))) :
    HasDerivAt (fun t => nonAdditive b D.Ex (L.map (Move.to t)) + nonAdditive b D.Ec (L.map (Move.to t)))
      (twins ℝ b * lin L fun x j k => (D.vx nf j k - D.vx x.n j k) + (D.vc nf j k - D.vc x.n j k)) 0 := by
  have h3 := nonAdditive_line b D.Ex D.vx L nf hnf (hnf ▸ hs.joint.x) (fun x hx => (hs.parts x hx).x)
    (hnf ▸ flip_potential fun hb => (hs.flips hb).x)
  have h4 := nonAdditive_line b D.Ec D.vc L nf hnf (hnf ▸ hs.joint.c) (fun x hx => (hs.parts x hx).c)
    (hnf ▸ flip_potential fun hb => (hs.flips hb).c)
  refine (h3.add h4).congr_deriv ?_
  rw [← lin_add, mul_add]
  rfl

theorem work_forall₂ {l : List (Frag G r c p)} {L : List (Move G p)} {w : G.Cols p → G.Cols p}
    (h : List.Forall₂ (fun f (x : G.Cols p × ℝ) => f.v.vp = some (w x.1)) l (L.map (Move.to 0))) :
    ∃ V, List.Forall₂ (fun f v => f.v.vp = some v) l V ∧ work L V = lin L fun x => w x.n := by
  refine ⟨L.map fun x => w x.n, ?_, by rw [work_map]; rfl⟩
  rw [List.forall₂_map_right_iff] at h ⊢
  exact h.imp fun f x h => by simpa [Move.to] using h

/-- The family of partitions: the components move along lines, everything stored belongs to their densities. -/
structure Spec.Family (D : Theory G p) (T : Env G r c p) (o : PartOpt) (va vb : G.Fld) (A B : List (Move G p))
    (P Q R : ℝ → Part G r c p) (vp : ℝ → G.Cols p) : Prop where
  computed : D.Computed T o.kin
  dft : o.interaction = .dft
  bound : o.isolated = false
  opt : ∀ t, (P t).opt = o
  nucA : ∀ t, (P t).va = va
  nucB : ∀ t, (P t).vb = vb
  compsA : ∀ t, List.Forall₂ (Solved D va) (P t).compsA (A.map (Move.to t))
  compsB : ∀ t, List.Forall₂ (Solved D vb) (P t).compsB (B.map (Move.to t))
  ens : ∀ t, o.abSym = true ∨ (P t).fAB = none
  sym : ∀ t, o.abSym = true → SameEnergies D (A.map (Move.to t)) (B.map (Move.to t))
  potential : ∀ t, (do let P ← (P t).calcProtomolecule; let P ← P.calcQ; P.partitionPotential T) = .ok (Q t, vp t)
  energy : ∀ t, (Q t).energy T = .ok (R t)

/-- C88: with `hxc_part_type` 'exact' or 'hartree', and with no kinetic part or a kinetic functional, the partition
potentials of the components are the functional derivatives of the partition energy `Ep`: if every component's density
moves along a line, the derivative of `Ep` is the sum over the components of weight times the integral of its potential
`vp` with its direction (twice that with `ens_spin_sym`, where the spin-flipped components move along). -/
theorem C88_derivative_partial (D : Theory G p) (T : Env G r c p) (o : PartOpt) (va vb : G.Fld) (A B : List (Move G p))
    (P Q R : ℝ → Part G r c p) (vp : ℝ → G.Cols p) (h : Family D T o va vb A B P Q R vp)
    (ho : o.hxc = .exact ∨ o.hxc = .hartree) (hs : D.Smooth o.ensSpinSym (A ++ B)) :
    ∃ (e : ℝ → PartEnergy G p) (Ep : ℝ → ℝ) (VA VB : List (G.Cols p)),
      (∀ t, (R t).E = some (e t) ∧ (e t).Ep = .num (.fin (Ep t))) ∧
      List.Forall₂ (fun f v => f.v.vp = some v) (Q 0).compsA VA ∧ List.Forall₂ (fun f v => f.v.vp = some v) (Q 0).compsB VB ∧
      HasDerivAt Ep (twins ℝ o.ensSpinSym * (work A VA + work B VB)) 0 := by
  have ho' : o.hxc = .exact ∨ o.hxc = .hartree ∨ o.hxc = .overlapXc := ho.elim .inl fun h => .inr (.inl h)
  have hov : o.hxc ≠ .overlapXc := by rcases ho with ho | ho <;> rw [ho] <;> decide
  have key := fun t => ep_value D (h.opt t ▸ h.computed) (h.nucA t) (h.nucB t) (h.compsA t) (h.compsB t) (h.opt t ▸ h.dft)
    (h.opt t ▸ h.bound) (h.opt t ▸ ho') (h.opt t ▸ h.ens t) (h.opt t ▸ h.sym t) (h.potential t) (h.energy t)
  choose e F hxc e1 e2 _ e4 using key
  obtain ⟨F0, E0, -, vA, vB⟩ := vp_value D (h.opt 0 ▸ h.computed) (h.nucA 0) (h.nucB 0) (h.compsA 0) (h.compsB 0) (h.opt 0 ▸ h.dft)
    (h.opt 0 ▸ h.bound) (h.opt 0 ▸ ho') (h.opt 0 ▸ h.ens 0) (h.opt 0 ▸ h.sym 0) (h.potential 0)
  simp only [h.opt, ← List.map_append] at e2 e4 vA vB
  set nf := jointDensity o.ensSpinSym ((A ++ B).map (Move.to 0)) with hnf
  have hgap : ∀ v n F E d, gap D o.hxc v nf n F E d = gap D o.hxc v nf n 0 0 0 := by
    intro v n F E d
    funext j k
    rcases ho with ho | ho <;> simp [gap, ho]
  obtain ⟨VA, a1, a2⟩ := work_forall₂ (w := fun n => gap D o.hxc vb nf n 0 0 0) (vA.imp fun f x hf => by
    obtain ⟨-, d, -, hv⟩ := hf
    rw [hv, hgap])
  obtain ⟨VB, b1, b2⟩ := work_forall₂ (w := fun n => gap D o.hxc va nf n 0 0 0) (vB.imp fun f x hf => by
    obtain ⟨-, d, -, hv⟩ := hf
    rw [hv, hgap])
  refine ⟨e, _, VA, VB, fun t => ⟨e1 t, e4 t⟩, a1, b1, ?_⟩
  rw [a2, b2]
  have base := base_line D o.ensSpinSym A B va vb hs nf hnf
  rcases ho with ho | ho
  · have xc := xc_line D o.ensSpinSym (A ++ B) hs nf hnf
    refine ((base.add xc).congr_deriv ?_).congr_of_eventuallyEq (.of_forall fun t => ?_)
    · rw [lin_append]
      have q : ∀ (L : List (Move G p)) v, lin L (fun x => gap D o.hxc v nf x.n 0 0 0) =
          lin L (fun x => gap D .hartree v nf x.n 0 0 0) +
            lin L fun x j k => (D.vx nf j k - D.vx x.n j k) + (D.vc nf j k - D.vc x.n j k) := fun L v => by
        rw [lin_add]
        refine lin_congr fun x _ => ?_
        funext j k
        simp [gap, ho]
      rw [q, q]
      ring
    · simp only [Pi.add_apply]
      rw [(e2 t).1 ho]
      ring
  · rw [ho]
    refine base.congr_of_eventuallyEq (.of_forall fun t => ?_)
    simp only
    rw [(e2 t).2.1 ho]

/-- The local Q share of a component with density `n` and weight `s`. -/
def Spec.share (nf : G.Cols p) (x : Move G p) : G.Cols p := fun j k => if nf j k = 0 then 0 else x.s * x.n j k / nf j k

theorem work_share {L : List (Move G p)} {V : List (G.Cols p)} {q : Move G p → G.Cols p} {η : G.Cols p}
    (hV : V.length = L.length) (hδ : ∀ x ∈ L, ∀ j k, x.s * x.δ j k = q x j k * η j k) :
    work L V = ∑ j, G.integ fun k => (List.zipWith (fun x (v : G.Cols p) => q x j k * v j k) L V).sum * η j k := by
  unfold work
  induction L generalizing V with
  | nil => simp [G.integ_zero]
  | cons x L ih =>
    cases V with
    | nil => exact nomatch hV
    | cons v V =>
      simp only [List.zipWith_cons_cons, List.sum_cons, add_mul, G.integ_add, Finset.sum_add_distrib]
      rw [ih (by simpa using hV) fun y hy => hδ y (List.mem_cons_of_mem _ hy)]
      congr 1
      rw [Finset.mul_sum]
      refine Finset.sum_congr rfl fun j _ => ?_
      rw [← G.integ_smul]
      congr 1
      funext k
      linear_combination v j k * hδ x (List.mem_cons_self ..) j k

theorem pair_twin (b : Bool) (f η : G.Cols p) (hη : b = true → ∀ j k, η j.rev k = η j k) :
    ∑ j, G.integ (fun k => withTwin b f j k * η j k) = twins ℝ b * ∑ j, G.integ fun k => f j k * η j k := by
  have h := flip_pair b η f hη
  have e : withTwin b f = addFlip b f := by
    funext j k
    cases b <;> simp [withTwin, addFlip, Grid.flipCols]
  rw [e]
  simpa only [mul_comm] using h

theorem pair_mirror (b : Bool) (f η : G.Cols p)
    (hη : b = true → (∀ k, weight G (G.mirIx k) = weight G k) ∧ ∀ j k, η j (G.mirIx k) = η j k) :
    ∑ j, G.integ (fun k => withMirror b f j k * η j k) = ∑ j, G.integ fun k => f j k * η j k := by
  cases b with
  | false => simp [withMirror]
  | true =>
    obtain ⟨hw, hη⟩ := hη rfl
    refine Finset.sum_congr rfl fun j _ => ?_
    have e : G.integ (fun k => f j (G.mirIx k) * η j k) = G.integ fun k => f j k * η j k := by
      rw [integ_weight, integ_weight]
      refine Fintype.sum_equiv G.mirEquiv _ _ fun k => ?_
      change _ = weight G (G.mirIx k) * (f j (G.mirIx k) * η j (G.mirIx k))
      rw [hw, hη]
    have e2 : (fun k => withMirror true f j k * η j k) = fun k => 1 / 2 * (f j k * η j k + f j (G.mirIx k) * η j k) := by
      funext k
      simp only [withMirror, ↓reduceIte]
      ring
    rw [e2, G.integ_smul, G.integ_add, e]
    ring

/-- Changes in the proportions of the weights add up to `η`. -/
theorem shift_share {L : List (Move G p)} {b : Bool} {η nf : G.Cols p} (hnf : nf = jointDensity b (L.map (Move.to 0)))
    (hδ : ∀ x ∈ L, ∀ j k, x.s * x.δ j k = share nf x j k * η j k) (hb : b = true → ∀ j k, η j.rev k = η j k)
    (j : Fin p) (k : G.Ix) (h0 : nf j k ≠ 0) : shift b L j k = η j k := by
  have key : ∀ j, nf j k ≠ 0 → (L.map fun x => x.s * x.δ j k).sum =
      Spec.average (L.map (Move.to 0)) j k / nf j k * η j k := by
    intro j h0
    clear hnf
    induction L with
    | nil => simp [Spec.average]
    | cons x L ih =>
      have h1 := ih fun y hy => hδ y (List.mem_cons_of_mem _ hy)
      have h2 := hδ x (List.mem_cons_self ..) j k
      simp only [share, if_neg h0] at h2
      simp only [Spec.average, List.map_map, Function.comp_def, Move.to, List.map_cons, List.sum_cons, zero_mul, add_zero] at h1 ⊢
      rw [h1, h2]
      ring
  cases b with
  | false =>
    simp only [shift, addFlip, Bool.false_eq_true, if_false]
    rw [key j h0]
    have : nf j k = Spec.average (L.map (Move.to 0)) j k := by rw [hnf]; rfl
    rw [← this, div_self h0, one_mul]
  | true =>
    have hr : nf j.rev k = nf j k := by
      rw [hnf]
      exact congrFun (congrFun (flip_joint (L.map (Move.to 0))) j) k
    simp only [shift, addFlip, ↓reduceIte, Grid.flipCols]
    rw [key j h0, key j.rev (hr ▸ h0), hr, hb rfl]
    have : nf j k = Spec.average (L.map (Move.to 0)) j k + Spec.average (L.map (Move.to 0)) j.rev k := by rw [hnf]; rfl
    rw [← add_mul, ← add_div, ← this, div_self h0, one_mul]

/-- C88: if the components share a change `η` of the total density as their local weights `Q` say, the derivative of `Ep`
is the integral of `vp` with `η`: `V.vp` is the functional derivative of `Ep` with respect to the total density under this
rule.  With the symmetry options `η` has the symmetry. -/
theorem C88_average_partial (D : Theory G p) (T : Env G r c p) (o : PartOpt) (va vb : G.Fld) (A B : List (Move G p))
    (P Q R : ℝ → Part G r c p) (vp : ℝ → G.Cols p) (h : Family D T o va vb A B P Q R vp)
    (ho : o.hxc = .exact ∨ o.hxc = .hartree) (hs : D.Smooth o.ensSpinSym (A ++ B)) (η nf : G.Cols p)
    (hnf : nf = jointDensity o.ensSpinSym ((A ++ B).map (Move.to 0)))
    (hδ : ∀ x ∈ A ++ B, ∀ j k, x.s * x.δ j k = share nf x j k * η j k)
    (hb : o.ensSpinSym = true → ∀ j k, η j.rev k = η j k)
    (hm : o.abSym = true → (∀ k, weight G (G.mirIx k) = weight G k) ∧ ∀ j k, η j (G.mirIx k) = η j k) :
    (∀ t j k, nf j k ≠ 0 → jointDensity o.ensSpinSym ((A ++ B).map (Move.to t)) j k = nf j k + t * η j k) ∧
    ∃ (e : ℝ → PartEnergy G p) (Ep : ℝ → ℝ), (∀ t, (R t).E = some (e t) ∧ (e t).Ep = .num (.fin (Ep t))) ∧
      (Q 0).vp = some (vp 0) ∧ HasDerivAt Ep (∑ j, G.integ fun k => vp 0 j k * η j k) 0 := by
  obtain ⟨e, Ep, VA, VB, h1, h2, h3, h4⟩ := C88_derivative_partial D T o va vb A B P Q R vp h ho hs
  obtain ⟨P', h', o', -, -, -, -, -, kA, kB, q⟩ := run_inv D (h.compsA 0) (h.compsB 0) (h.potential 0)
  rw [h.opt, ← List.map_append, ← hnf] at q
  obtain ⟨c1, ⟨W, c2, c3⟩, -, -⟩ := C40_average T P' (Q 0) (vp 0) h'
  have fr := partitionPotential_frame h'
  rw [o', h.opt] at c3
  have hV : List.Forall₂ (fun f v => f.v.vp = some v) (Q 0).comps (VA ++ VB) := List.rel_append h2 h3
  have hq : List.Forall₂ (fun (f : Frag G r c p) x => f.ks.Q = some (share nf x)) (Q 0).comps (A ++ B) := by
    rw [List.forall₂_map_right_iff] at q
    have hks : List.Forall₂ (fun f g => g.ks = f.ks ∧ g.v.frozen = f.v.frozen) P'.comps (Q 0).comps :=
      List.rel_append fr.ksA fr.ksB
    have := forall₂_trans (U := fun x (f : Frag G r c p) => f.ks.Q = some (share nf x)) (fun x f g h h' => by rw [h'.1]; exact h)
      (q.flip.imp fun x f hf => by
        refine Eq.trans hf (congrArg some (funext fun j => funext fun k => ?_))
        simp [share, Move.to]) hks
    exact this.flip
  have hsum : ∀ j k, (W.map fun d => d.2 j k * d.1 j k).sum =
      (List.zipWith (fun x (v : G.Cols p) => share nf x j k * v j k) (A ++ B) (VA ++ VB)).sum := by
    intro j k
    clear c3
    generalize (Q 0).comps = l at c2 hV hq
    generalize A ++ B = L at hq
    generalize VA ++ VB = V at hV
    induction c2 generalizing L V with
    | nil => cases hV; cases hq; rfl
    | cons e _ ih =>
      cases hV with
      | cons v1 v2 =>
        cases hq with
        | cons q1 q2 =>
          simp only [List.map_cons, List.sum_cons, List.zipWith_cons_cons]
          rw [ih _ q2 _ v2, Option.some.inj (e.1.symm.trans v1), Option.some.inj (e.2.1.symm.trans q1)]
  refine ⟨fun t j k h0 => ?_, e, Ep, h1, c1, h4.congr_deriv ?_⟩
  · rw [jointDensity, average_to, shift_share hnf hδ hb j k h0, hnf]
    rfl
  · have hlA : VA.length = A.length := by
      rw [← h2.length_eq, ← (fr.ksA).length_eq, kA.length_eq, List.length_map]
    have hlB : VB.length = B.length := by
      rw [← h3.length_eq, ← (fr.ksB).length_eq, kB.length_eq, List.length_map]
    have hw : work A VA + work B VB = work (A ++ B) (VA ++ VB) := by
      unfold work
      rw [List.zipWith_append hlA.symm, List.sum_append]
    rw [c3, pair_mirror _ _ _ hm, pair_twin _ _ _ hb, hw, work_share (q := share nf) (η := η) (by simp [hlA, hlB]) hδ]
    simp only [hsum]

/-- The root of a product along a line in both factors. -/
theorem root_line₂ (a b α β : ℝ) (ha : 0 ≤ a) (hb : 0 ≤ b) (hα : 0 < a ∨ α = 0) (hβ : 0 < b ∨ β = 0) :
    HasDerivAt (fun t : ℝ => √((a + t * α) * (b + t * β))) (1 / 2 * √(b / a) * α + 1 / 2 * √(a / b) * β) 0 := by
  rcases hα with ha' | rfl
  · rcases hβ with hb' | rfl
    · have l : ∀ c γ : ℝ, HasDerivAt (fun t : ℝ => c + t * γ) γ 0 := fun c γ => by
        simpa using ((hasDerivAt_id (0 : ℝ)).mul_const γ).const_add c
      have h2 := ((l a α).mul (l b β)).sqrt (by simp [ha'.ne', hb'.ne'])
      refine h2.congr_deriv ?_
      simp only [Pi.mul_apply, zero_mul, add_zero]
      have p1 := (Real.sqrt_pos.mpr ha').ne'
      have p2 := (Real.sqrt_pos.mpr hb').ne'
      rw [Real.sqrt_mul ha, Real.sqrt_div hb, Real.sqrt_div ha]
      field_simp
      rw [Real.sq_sqrt ha, Real.sq_sqrt hb]
      ring
    · simpa using root_line a b α hb (.inl ha')
  · have := root_line b a β ha hβ
    simpa [mul_comm] using this

/-- The overlap functional along a line in both densities. -/
theorem overlap_line₂ (a b α β : G.Fld) (ha : ∀ k, 0 ≤ a k) (hb : ∀ k, 0 ≤ b k) (hα : ∀ k, 0 < a k ∨ α k = 0)
    (hβ : ∀ k, 0 < b k ∨ β k = 0) :
    HasDerivAt (fun t => erf (2 * G.integ fun k => √((a k + t * α k) * (b k + t * β k))))
      (deriv (fun S => erf (2 * S)) (G.integ fun k => √(a k * b k)) * ((G.integ fun k => 1 / 2 * √(b k / a k) * α k) +
        G.integ fun k => 1 / 2 * √(a k / b k) * β k)) 0 := by
  have h1 : HasDerivAt (fun t => G.integ fun k => √((a k + t * α k) * (b k + t * β k)))
      ((G.integ fun k => 1 / 2 * √(b k / a k) * α k) + G.integ fun k => 1 / 2 * √(a k / b k) * β k) 0 := by
    rw [← G.integ_add]
    simp only [integ_weight]
    exact HasDerivAt.fun_sum (u := Finset.univ) (A := fun k t => weight G k * √((a k + t * α k) * (b k + t * β k)))
      (A' := fun k => weight G k * (1 / 2 * √(b k / a k) * α k + 1 / 2 * √(a k / b k) * β k)) (x := (0 : ℝ))
      fun k _ => (root_line₂ (a k) (b k) (α k) (β k) (ha k) (hb k) (hα k) (hβ k)).const_mul _
  have h2 : ∀ S, HasDerivAt (fun S => erf (2 * S)) (deriv (fun S => erf (2 * S)) S) S := fun S =>
    (((erf_hasDerivAt (2 * S)).comp S ((hasDerivAt_id S).const_mul 2)).differentiableAt).hasDerivAt
  have h3 := (h2 (G.integ fun k => √((a k + 0 * α k) * (b k + 0 * β k)))).comp (0 : ℝ) h1
  simp only [zero_mul, add_zero] at h3
  exact h3

theorem tot_shift (b : Bool) (L : List (Move G p)) (k : G.Ix) :
    tot (shift b L) k = twins ℝ b * (L.map fun x => x.s * tot x.δ k).sum := by
  unfold shift
  rw [tot_addFlip]
  congr 1
  unfold tot
  induction L with
  | nil => simp
  | cons x L ih =>
    simp only [List.map_cons, List.sum_cons, Finset.sum_add_distrib]
    rw [ih, Finset.mul_sum]

theorem tot_to (b : Bool) (L : List (Move G p)) (t : ℝ) (k : G.Ix) :
    tot (jointDensity b (L.map (Move.to t))) k = tot (jointDensity b (L.map (Move.to 0))) k + t * tot (shift b L) k := by
  simp only [tot, jointDensity, average_to b L t, Finset.sum_add_distrib, Finset.mul_sum]

/-- One side of the derivative of the overlap functional. -/
theorem overlap_part (b : Bool) (na nb : G.Cols p) (C : ℝ) (L : List (Move G p)) (ha : ∀ j k, 0 ≤ na j k)
    (hpol : SamePolarisation na nb) (hδ : ∀ x ∈ L, ∀ j k, 0 < na j k ∨ x.δ j k = 0) :
    C * (G.integ fun k => 1 / 2 * √(tot nb k / tot na k) * tot (shift b L) k) = twins ℝ b * (L.map fun x => ∑ j, G.integ fun k =>
      (C * if na j k = 0 then 0 else x.s * (1 / 2) * √(nb j k / na j k)) * x.δ j k).sum := by
  simp only [tot_shift]
  have e : ∀ f : G.Fld, (G.integ fun k => 1 / 2 * √(tot nb k / tot na k) * (twins ℝ b * f k)) =
      twins ℝ b * G.integ fun k => 1 / 2 * √(tot nb k / tot na k) * f k := fun f => by
    rw [← G.integ_smul]
    congr 1
    funext k
    ring
  rw [e fun k => (L.map fun x => x.s * tot x.δ k).sum, mul_left_comm]
  congr 1
  induction L with
  | nil => simp [G.integ_zero]
  | cons x L ih =>
    simp only [List.map_cons, List.sum_cons, mul_add, G.integ_add]
    rw [ih fun y hy => hδ y (List.mem_cons_of_mem _ hy)]
    congr 1
    rw [spin_sum C x.s (fun k => √(tot nb k / tot na k))]
    intro j k
    rcases hδ x (List.mem_cons_self ..) j k with h0 | h0
    · rw [if_neg h0.ne', polarised_ratio hpol ha h0]
    · rw [h0, mul_zero, mul_zero]

theorem no_density {na : G.Cols p} {L : List (Move G p)} {b : Bool} (ha : ∀ j k, 0 ≤ na j k)
    (hδ : ∀ x ∈ L, ∀ j k, 0 < na j k ∨ x.δ j k = 0) (k : G.Ix) : 0 < tot na k ∨ tot (shift b L) k = 0 := by
  by_cases h0 : ∃ j, 0 < na j k
  · obtain ⟨j, hj⟩ := h0
    exact .inl (lt_of_lt_of_le hj (Finset.single_le_sum (f := fun i => na i k) (fun i _ => ha i k) (Finset.mem_univ j)))
  · refine .inr ?_
    rw [tot_shift, List.sum_eq_zero, mul_zero]
    intro y hy
    obtain ⟨x, hx, rfl⟩ := List.mem_map.mp hy
    have : tot x.δ k = 0 := Finset.sum_eq_zero fun j _ => (hδ x hx j k).resolve_left fun h => h0 ⟨j, h⟩
    rw [this, mul_zero]

/-- First order change weighted with one minus the weight of the component. -/
def Spec.slack (L : List (Move G p)) (V : List (G.Cols p)) : ℝ :=
  (List.zipWith (fun x v => (1 - x.s) * ∑ j, G.integ fun k => v j k * x.δ j k) L V).sum

theorem slack_map (L : List (Move G p)) (w : Move G p → G.Cols p) :
    slack L (L.map w) = (L.map fun x => ∑ j, G.integ fun k => w x j k * x.δ j k).sum - lin L w := by
  induction L with
  | nil => simp [slack, lin]
  | cons x L ih =>
    simp only [slack, lin, List.map_cons, List.zipWith_cons_cons, List.sum_cons] at ih ⊢
    rw [ih]
    ring

/-- Derivative of the overlap functional for a component of the fragment with density `na`. -/
def dOverlap (na nb : G.Cols p) (C : ℝ) (x : Move G p) : G.Cols p := fun j k =>
  C * if na j k = 0 then 0 else x.s * (1 / 2) * √(nb j k / na j k)

theorem dOverlap_side {l m : List (Frag G r c p)} {L : List (Move G p)} {na nb : G.Cols p} {C : ℝ} (hlm : List.Forall₂ SameD l m)
    (hd : ∀ f ∈ l, ∃ s d, f.ks.scale = some s ∧ f.v.dFdn = some d ∧ ∀ j k, d j k =
      C * if na j k = 0 then 0 else s * (1 / 2) * √(nb j k / na j k))
    {g : G.Cols p → G.Cols p → G.Cols p}
    (hv : List.Forall₂ (fun f (x : G.Cols p × ℝ) => f.ks.scale = some x.2 ∧ ∃ d, f.v.dFdn = some d ∧ f.v.vp = some (g x.1 d)) m
      (L.map (Move.to 0))) :
    List.Forall₂ (fun f v => f.v.dFdn = some v) m (L.map (dOverlap na nb C)) ∧
    List.Forall₂ (fun f v => f.v.vp = some v) m (L.map fun x => g x.n (dOverlap na nb C x)) := by
  rw [List.forall₂_map_right_iff] at hv
  have key : List.Forall₂ (fun (f : Frag G r c p) x => f.v.dFdn = some (dOverlap na nb C x) ∧
      f.v.vp = some (g x.n (dOverlap na nb C x))) m L := by
    refine (forall₂_mem hv).imp fun f x hf => ?_
    obtain ⟨⟨h1, d, h2, h3⟩, hm⟩ := hf
    obtain ⟨f', hf', e1, e2⟩ := mem_of_forall₂ hlm hm
    obtain ⟨s, d', q1, q2, q3⟩ := hd f' hf'
    rw [e1] at h1
    obtain rfl := Option.some.inj (q1.symm.trans h1)
    rw [e2] at h2
    obtain rfl := Option.some.inj (q2.symm.trans h2)
    have : d' = dOverlap na nb C x := by
      funext j k
      rw [q3]
      rfl
    refine ⟨by rw [e2, q2, this], ?_⟩
    rw [h3, this]
    simp [Move.to]
  rw [List.forall₂_map_right_iff, List.forall₂_map_right_iff]
  exact ⟨key.imp fun _ _ h => h.1, key.imp fun _ _ h => h.2⟩

/-- As below, with the derivatives of the overlap functional. -/
theorem overlap_derivative (D : Theory G p) (T : Env G r c p) (o : PartOpt) (va vb : G.Fld) (A B : List (Move G p))
    (P Q R : ℝ → Part G r c p) (vp : ℝ → G.Cols p) (h : Family D T o va vb A B P Q R vp)
    (ho : o.hxc = .overlapXc) (hs : D.Smooth o.ensSpinSym (A ++ B)) (hT : RealFunctions T) (hw : ∀ k, 0 ≤ weight G k)
    (na nb : G.Cols p) (hna : na = jointDensity o.ensSpinSym (A.map (Move.to 0)))
    (hnb : nb = jointDensity o.ensSpinSym (B.map (Move.to 0))) (ha : ∀ j k, 0 ≤ na j k) (hb : ∀ j k, 0 ≤ nb j k)
    (hpol : SamePolarisation na nb) (hA : ∀ x ∈ A, ∀ j k, 0 < na j k ∨ x.δ j k = 0)
    (hB : ∀ x ∈ B, ∀ j k, 0 < nb j k ∨ x.δ j k = 0) :
    ∃ (e : ℝ → PartEnergy G p) (Ep : ℝ → ℝ) (VA VB DA DB : List (G.Cols p)) (E : ℝ),
      (∀ t, (R t).E = some (e t) ∧ (e t).Ep = .num (.fin (Ep t))) ∧
      List.Forall₂ (fun f v => f.v.vp = some v) (Q 0).compsA VA ∧ List.Forall₂ (fun f v => f.v.vp = some v) (Q 0).compsB VB ∧
      List.Forall₂ (fun f v => f.v.dFdn = some v) (Q 0).compsA DA ∧ List.Forall₂ (fun f v => f.v.dFdn = some v) (Q 0).compsB DB ∧
      E = nonAdditive o.ensSpinSym D.Ex ((A ++ B).map (Move.to 0)) + nonAdditive o.ensSpinSym D.Ec ((A ++ B).map (Move.to 0)) ∧
      HasDerivAt Ep (twins ℝ o.ensSpinSym * (work A VA + work B VB + E * (slack A DA + slack B DB))) 0 ∧
      (HasDerivAt Ep (twins ℝ o.ensSpinSym * (work A VA + work B VB)) 0 ↔ E * (slack A DA + slack B DB) = 0) ∧
      ((∀ x ∈ A ++ B, x.s = 1) → HasDerivAt Ep (twins ℝ o.ensSpinSym * (work A VA + work B VB)) 0) ∧
      ∃ C, 0 < C ∧ DA = A.map (dOverlap na nb C) ∧ DB = B.map (dOverlap nb na C) := by
  have ho' : o.hxc = .exact ∨ o.hxc = .hartree ∨ o.hxc = .overlapXc := .inr (.inr ho)
  have key := fun t => ep_value D (h.opt t ▸ h.computed) (h.nucA t) (h.nucB t) (h.compsA t) (h.compsB t) (h.opt t ▸ h.dft)
    (h.opt t ▸ h.bound) (h.opt t ▸ ho') (h.opt t ▸ h.ens t) (h.opt t ▸ h.sym t) (h.potential t) (h.energy t)
  choose e F hxc e1 e2 e3 e4 using key
  obtain ⟨F0, E, hE, vA, vB⟩ := vp_value D (h.opt 0 ▸ h.computed) (h.nucA 0) (h.nucB 0) (h.compsA 0) (h.compsB 0) (h.opt 0 ▸ h.dft)
    (h.opt 0 ▸ h.bound) (h.opt 0 ▸ ho') (h.opt 0 ▸ h.ens 0) (h.opt 0 ▸ h.sym 0) (h.potential 0)
  simp only [h.opt, ← List.map_append] at e2 e3 e4 vA vB hE
  obtain ⟨hE, S, S', s1, s2, s3, s4, s5, s6⟩ := hE ho
  rw [← hna] at s1
  rw [← hnb] at s2
  set nf := jointDensity o.ensSpinSym ((A ++ B).map (Move.to 0)) with hnf
  obtain ⟨S0, F1, -, c1, hS, -, -, c2, -, -, cA, cB⟩ := C52_overlap T hT S S' s3 na nb s1 s2 hw ha hb
  obtain rfl := Option.some.inj (s4.symm.trans c1)
  set C := deriv (fun S => erf (2 * S)) S0 with hC
  obtain ⟨dA, uA⟩ := dOverlap_side (g := fun n d => gap D o.hxc vb nf n F0 E d) s5 cA (vA.imp fun f x hf => by
    obtain ⟨q1, d, q2, q3⟩ := hf
    exact ⟨q1, d, q2 ho, q3⟩)
  obtain ⟨dB, uB⟩ := dOverlap_side (g := fun n d => gap D o.hxc va nf n F0 E d) s6 cB (vB.imp fun f x hf => by
    obtain ⟨q1, d, q2, q3⟩ := hf
    exact ⟨q1, d, q2 ho, q3⟩)
  have hpol' : SamePolarisation nb na := fun j k => by
    have := hpol j k
    linear_combination -this
  have hF : ∀ t, F t = erf (2 * G.integ fun k => √((tot na k + t * tot (shift o.ensSpinSym A) k) *
      (tot nb k + t * tot (shift o.ensSpinSym B) k))) := by
    intro t
    rw [e3 t ho, hT.erf, hT.sqrt]
    simp only [tot_to _ _ t]
    rw [hna, hnb]
  have hF0 : F 0 = F0 := by
    rw [hF, c2, hS]
    simp only [zero_mul, add_zero]
    rfl
  have hS' : S0 = G.integ fun k => √(tot na k * tot nb k) := hS
  have dF := overlap_line₂ (tot na) (tot nb) (tot (shift o.ensSpinSym A)) (tot (shift o.ensSpinSym B))
    (fun k => Finset.sum_nonneg fun j _ => ha j k) (fun k => Finset.sum_nonneg fun j _ => hb j k) (no_density ha hA) (no_density hb hB)
  rw [← hS', ← hC, mul_add, overlap_part _ na nb C A ha hpol hA, overlap_part _ nb na C B hb hpol' hB, ← mul_add] at dF
  have base := base_line D o.ensSpinSym A B va vb hs nf hnf
  have xc := xc_line D o.ensSpinSym (A ++ B) hs nf hnf
  have q : ∀ (L : List (Move G p)) v d, lin L (fun x => gap D o.hxc v nf x.n F0 E (d x)) =
      lin L (fun x => gap D .hartree v nf x.n 0 0 0) +
        F0 * lin L (fun x j k => (D.vx nf j k - D.vx x.n j k) + (D.vc nf j k - D.vc x.n j k)) + E * lin L d := fun L v d => by
    rw [lin_smul, lin_smul, lin_add, lin_add]
    refine lin_congr fun x _ => ?_
    funext j k
    simp [gap, ho]
    ring
  have hder : HasDerivAt (fun t => (G.integ fun k => (∑ j, jointDensity o.ensSpinSym (A.map (Move.to t)) j k) * vb k) +
        (G.integ fun k => (∑ j, jointDensity o.ensSpinSym (B.map (Move.to t)) j k) * va k) +
        nonAdditive o.ensSpinSym D.Tk ((A ++ B).map (Move.to t)) + hxc t)
      (twins ℝ o.ensSpinSym * (work A (A.map fun x => gap D o.hxc vb nf x.n F0 E (dOverlap na nb C x)) +
        work B (B.map fun x => gap D o.hxc va nf x.n F0 E (dOverlap nb na C x)) +
        E * (slack A (A.map (dOverlap na nb C)) + slack B (B.map (dOverlap nb na C))))) 0 := by
    refine ((base.add (dF.mul xc)).congr_deriv ?_).congr_of_eventuallyEq (.of_forall fun t => ?_)
    · rw [work_map, work_map]
      change _ = twins ℝ o.ensSpinSym * (lin A _ + lin B _ + _)
      rw [q A vb (dOverlap na nb C), q B va (dOverlap nb na C), slack_map, slack_map, lin_append, ← hF, hF0, ← hE]
      unfold dOverlap
      ring
    · simp only [Pi.add_apply, Pi.mul_apply]
      rw [(e2 t).2.2 ho, hF]
      ring
  refine ⟨e, _, _, _, _, _, E, fun t => ⟨e1 t, e4 t⟩, uA, uB, dA, dB, hE, hder, ⟨fun h' => ?_, fun h0 => ?_⟩, fun h1 => ?_, C, ?_, rfl, rfl⟩
  · have := hder.unique h'
    have h2 : twins ℝ o.ensSpinSym ≠ 0 := by cases o.ensSpinSym <;> simp [twins]
    have h3 := mul_left_cancel₀ h2 this
    linear_combination h3
  · rw [h0, add_zero] at hder
    exact hder
  · have hz : ∀ (L : List (Move G p)) (V : List (G.Cols p)), (∀ x ∈ L, x.s = 1) → slack L V = 0 := by
      intro L V hL
      unfold slack
      induction L generalizing V with
      | nil => simp
      | cons x L ih =>
        cases V with
        | nil => simp
        | cons v V =>
          rw [List.zipWith_cons_cons, List.sum_cons, ih V fun y hy => hL y (List.mem_cons_of_mem _ hy),
            hL x (List.mem_cons_self ..)]
          ring
    rw [hz A _ fun x hx => h1 x (List.mem_append_left _ hx), hz B _ fun x hx => h1 x (List.mem_append_right _ hx), add_zero,
      mul_zero, add_zero] at hder
    exact hder
  · have hd : HasDerivAt (fun S => erf (2 * S)) (2 / √Real.pi * Real.exp (-(2 * S0) ^ 2) * (2 * 1)) S0 :=
      (erf_hasDerivAt (2 * S0)).comp S0 ((hasDerivAt_id S0).const_mul 2)
    rw [hC, hd.deriv]
    have := Real.pi_pos
    positivity

/-- C88 for `hxc_part_type` 'overlap_xc' and equally polarised fragments: the derivative of `Ep` along the moving components
is the one of the potentials plus the non-additive exchange-correlation energy times `∑ (1 - s) ∫ dFdn δ`.
So the potentials are the derivatives exactly when this last term vanishes; it does when all components have weight one. -/
theorem C88_overlap_partial (D : Theory G p) (T : Env G r c p) (o : PartOpt) (va vb : G.Fld) (A B : List (Move G p))
    (P Q R : ℝ → Part G r c p) (vp : ℝ → G.Cols p) (h : Family D T o va vb A B P Q R vp)
    (ho : o.hxc = .overlapXc) (hs : D.Smooth o.ensSpinSym (A ++ B)) (hT : RealFunctions T) (hw : ∀ k, 0 ≤ weight G k)
    (na nb : G.Cols p) (hna : na = jointDensity o.ensSpinSym (A.map (Move.to 0)))
    (hnb : nb = jointDensity o.ensSpinSym (B.map (Move.to 0))) (ha : ∀ j k, 0 ≤ na j k) (hb : ∀ j k, 0 ≤ nb j k)
    (hpol : SamePolarisation na nb) (hA : ∀ x ∈ A, ∀ j k, 0 < na j k ∨ x.δ j k = 0)
    (hB : ∀ x ∈ B, ∀ j k, 0 < nb j k ∨ x.δ j k = 0) :
    ∃ (e : ℝ → PartEnergy G p) (Ep : ℝ → ℝ) (VA VB DA DB : List (G.Cols p)) (E : ℝ),
      (∀ t, (R t).E = some (e t) ∧ (e t).Ep = .num (.fin (Ep t))) ∧
      List.Forall₂ (fun f v => f.v.vp = some v) (Q 0).compsA VA ∧ List.Forall₂ (fun f v => f.v.vp = some v) (Q 0).compsB VB ∧
      List.Forall₂ (fun f v => f.v.dFdn = some v) (Q 0).compsA DA ∧ List.Forall₂ (fun f v => f.v.dFdn = some v) (Q 0).compsB DB ∧
      E = nonAdditive o.ensSpinSym D.Ex ((A ++ B).map (Move.to 0)) + nonAdditive o.ensSpinSym D.Ec ((A ++ B).map (Move.to 0)) ∧
      HasDerivAt Ep (twins ℝ o.ensSpinSym * (work A VA + work B VB + E * (slack A DA + slack B DB))) 0 ∧
      (HasDerivAt Ep (twins ℝ o.ensSpinSym * (work A VA + work B VB)) 0 ↔ E * (slack A DA + slack B DB) = 0) ∧
      ((∀ x ∈ A ++ B, x.s = 1) → HasDerivAt Ep (twins ℝ o.ensSpinSym * (work A VA + work B VB)) 0) := by
  obtain ⟨e, Ep, VA, VB, DA, DB, E, h1, h2, h3, h4, h5, h6, h7, h8, h9, -⟩ :=
    overlap_derivative D T o va vb A B P Q R vp h ho hs hT hw na nb hna hnb ha hb hpol hA hB
  exact ⟨e, Ep, VA, VB, DA, DB, E, h1, h2, h3, h4, h5, h6, h7, h8, h9⟩

/-! ## An ensemble -/

/-- Exchange `∫ n²`, Hartree potential the density, nothing else. -/
noncomputable def toyTheory : Theory (Grid.tiny ℝ) 1 where
  Ex n := (Grid.tiny ℝ).integ fun k => n 0 k ^ 2
  Ec _ := 0
  Tk _ := 0
  vx n _ k := 2 * n 0 k
  vc _ _ _ := 0
  vk _ _ _ := 0
  H := LinearMap.id

noncomputable def toyEnv : Env (Grid.tiny ℝ) 0 0 1 where
  exchange n := .ok (toyTheory.Ex n, fun _ => 0, toyTheory.vx n)
  correlation n := .ok (0, fun _ => 0, fun _ _ => 0)
  hartree n := .ok fun _ k => ∑ s, n s k
  hartree1 n := .ok n
  kinetic _ := .error .valueError
  invert _ := .error .valueError
  twoOrbitalPot _ := .error .valueError
  twoOrbitalEnergy _ := .error .valueError
  sqrt := Real.sqrt
  erf := Spec.erf
  dErf x := 2 * Real.pi ^ (-(1 / 2) : ℝ) * Real.exp (-x ^ 2)
  elap := 0

noncomputable def toyPot (n : (Grid.tiny ℝ).Cols 1) : KSPot (Grid.tiny ℝ) 1 :=
  ⟨some (toyTheory.vx n), some fun _ _ => 0, some (hartreePotential toyTheory.H n), some fun _ => 0, some fun _ => 0, some fun _ => 0⟩

noncomputable def toyFrag (n : (Grid.tiny ℝ).Cols 1) (s : ℝ) : Frag (Grid.tiny ℝ) 0 0 1 :=
  ⟨{ kind := .dft, sym := false, Za := 0, Zb := 0, a := 1, solver := fun w => w.1.elim0, vnuc := fun _ _ => 0, n := some n,
     scale := some s, V := toyPot n,
     E := some ⟨fun _ => .fin 0, fun _ => .fin 0, .fin 0, [], 0, 0, some 0, some (hartreeEnergy toyTheory.H n), toyTheory.Ex n, 0,
       .fin 0, 0, .fin 0⟩ }, {}⟩

theorem toy_smooth (n : (Grid.tiny ℝ).Cols 1) : toyTheory.Derivatives n := by
  refine ⟨fun δ => ?_, fun δ => ?_, fun δ => ?_⟩
  · have h := (hartree_line (G := Grid.tiny ℝ) LinearMap.id (n 0) (δ 0)).const_mul 2
    refine (h.congr_deriv ?_).congr_of_eventuallyEq (.of_forall fun t => ?_)
    · simp only [LinearMap.id_apply, toyTheory]
      rw [Fin.sum_univ_one]
      simp only [Grid.tiny_integ]
      ring
    · simp only [LinearMap.id_apply, toyTheory, pow_two]
      ring
  · simpa [toyTheory, Grid.integ_zero] using hasDerivAt_const (0 : ℝ) (0 : ℝ)
  · simpa [toyTheory, Grid.integ_zero] using hasDerivAt_const (0 : ℝ) (0 : ℝ)

noncomputable def toyMoves (L : List ℝ) : List (Move (Grid.tiny ℝ) 1) := L.map fun s => ⟨fun _ _ => 1, s, fun _ _ => 1⟩

noncomputable def toyPart (o : PartOpt) (t : ℝ) : Part (Grid.tiny ℝ) 0 0 1 :=
  let f := toyFrag (fun _ _ => 1 + t * 1) (1 / 2)
  Part.sample o f f (some (f, f))

theorem toy_family (o : PartOpt) (ho : o = { kin := .none, hxc := .overlapXc, abSym := true } ∨ o = { kin := .none, abSym := true }) :
    ∃ (Q R : ℝ → Part (Grid.tiny ℝ) 0 0 1) (vp : ℝ → (Grid.tiny ℝ).Cols 1),
      Family toyTheory toyEnv o (fun _ => 0) (fun _ => 0) (toyMoves [1 / 2, 1 / 2]) (toyMoves [1 / 2, 1 / 2]) (toyPart o) Q R vp := by
  have hr : ∀ t, ∃ (Q R : Part (Grid.tiny ℝ) 0 0 1) (vp : (Grid.tiny ℝ).Cols 1),
      (do let P ← (toyPart o t).calcProtomolecule; let P ← P.calcQ; P.partitionPotential toyEnv) = .ok (Q, vp) ∧
      Q.energy toyEnv = .ok R := by
    intro t
    have : ∃ x, (do
        let P ← (toyPart o t).calcProtomolecule
        let P ← P.calcQ
        let Q ← P.partitionPotential toyEnv
        let R ← Q.1.energy toyEnv
        pure (Q, R) : Py _) = .ok x := by
      rcases ho with rfl | rfl
      · exact ⟨_, rfl⟩
      · exact ⟨_, rfl⟩
    obtain ⟨x, hx⟩ := this
    simp only [Py.do_eq_ok, Py.pure_eq_ok] at hx ⊢
    obtain ⟨P₁, h1, P₂, h2, Q, h3, R, h4, rfl⟩ := hx
    exact ⟨Q.1, R, Q.2, ⟨P₁, h1, P₂, h2, h3⟩, h4⟩
  choose Q R vp h1 h2 using hr
  have hsol : ∀ t, Solved (r := 0) (c := 0) toyTheory (fun _ => 0) (toyFrag (fun _ _ => 1 + t * 1) (1 / 2))
      (Move.to t ⟨fun _ _ => 1, 1 / 2, fun _ _ => 1⟩) := fun t =>
    ⟨rfl, rfl, fun _ _ => rfl, rfl, rfl, rfl, _, 0, 0, 0, fun _ => 0, rfl, rfl, rfl, fun _ => rfl, rfl, rfl, rfl, rfl⟩
  refine ⟨Q, R, vp, ⟨⟨?_, fun n => rfl, ?_⟩, ?_, ?_, fun t => rfl, fun t => rfl, fun t => rfl, fun t => ?_, fun t => ?_, fun t => ?_,
    fun t _ => ?_, h1, h2⟩⟩
  · exact ⟨fun n => ⟨_, rfl⟩, fun n => ⟨_, rfl⟩, fun n => rfl⟩
  · exact .inl ⟨by rcases ho with rfl | rfl <;> rfl, fun _ => rfl, fun _ _ _ => rfl⟩
  · rcases ho with rfl | rfl <;> rfl
  · rcases ho with rfl | rfl <;> rfl
  · exact .cons (hsol t) (.cons (hsol t) .nil)
  · exact .cons (hsol t) (.cons (hsol t) .nil)
  · exact .inl (by rcases ho with rfl | rfl <;> rfl)
  · exact .cons ⟨rfl, rfl, rfl, rfl⟩ (.cons ⟨rfl, rfl, rfl, rfl⟩ .nil)

theorem toy_weight (k : (Grid.tiny ℝ).Ix) : weight (Grid.tiny ℝ) k = 1 := by
  have h := integ_weight (G := Grid.tiny ℝ) fun l => if l = k then 1 else 0
  simp only [mul_ite, mul_one, mul_zero, Finset.sum_ite_eq', Finset.mem_univ, if_true] at h
  rw [← h, Grid.tiny_integ]
  fin_cases k <;> simp

theorem toy_theory (L : List (Move (Grid.tiny ℝ) 1)) : toyTheory.Smooth false L :=
  ⟨fun f g => by simp only [toyTheory, LinearMap.id_apply, mul_comm], toy_smooth _, fun x _ => toy_smooth x.n, fun h => nomatch h⟩

theorem toy_joint (L : List ℝ) (j : Fin 1) (k : (Grid.tiny ℝ).Ix) :
    jointDensity false ((toyMoves L).map (Move.to 0)) j k = L.sum := by
  simp only [jointDensity, addFlip, Bool.false_eq_true, if_false, Spec.average, toyMoves, List.map_map, Function.comp_def, Move.to,
    zero_mul, add_zero, mul_one, List.map_id']

/-- With two components of weight 1/2 in each fragment the potentials of 'overlap_xc' are not the derivatives of `Ep`. -/
theorem C88_overlap_refuted : ∃ (o : PartOpt) (L : List (Move (Grid.tiny ℝ) 1)) (P Q R : ℝ → Part (Grid.tiny ℝ) 0 0 1)
    (vp : ℝ → (Grid.tiny ℝ).Cols 1), o.hxc = .overlapXc ∧ RealFunctions toyEnv ∧ toyTheory.Smooth o.ensSpinSym (L ++ L) ∧
    Family toyTheory toyEnv o (fun _ => 0) (fun _ => 0) L L P Q R vp ∧ L.length = 2 ∧
    (∀ x ∈ L, x.s = 1 / 2 ∧ ∀ j k, x.n j k = 1 ∧ x.δ j k = 1) ∧
    ∃ (e : ℝ → PartEnergy (Grid.tiny ℝ) 1) (Ep : ℝ → ℝ) (VA VB : List ((Grid.tiny ℝ).Cols 1)),
      (∀ t, (R t).E = some (e t) ∧ (e t).Ep = .num (.fin (Ep t))) ∧
      List.Forall₂ (fun f v => f.v.vp = some v) (Q 0).compsA VA ∧ List.Forall₂ (fun f v => f.v.vp = some v) (Q 0).compsB VB ∧
      DifferentiableAt ℝ Ep 0 ∧ ¬ HasDerivAt Ep (twins ℝ o.ensSpinSym * (work L VA + work L VB)) 0 := by
  obtain ⟨Q, R, vp, hf⟩ := toy_family { kin := .none, hxc := .overlapXc, abSym := true } (.inl rfl)
  have hT : RealFunctions toyEnv := ⟨rfl, rfl, rfl⟩
  obtain ⟨L, hL⟩ : ∃ L, L = toyMoves [1 / 2, 1 / 2] := ⟨_, rfl⟩
  rw [← hL] at hf
  have hmem : ∀ x ∈ L, x.s = 1 / 2 ∧ ∀ j k, x.n j k = 1 ∧ x.δ j k = 1 := by
    intro x hx
    simp only [hL, toyMoves, List.map_cons, List.map_nil, List.mem_cons, List.not_mem_nil, or_false, or_self] at hx
    subst hx
    exact ⟨rfl, fun _ _ => ⟨rfl, rfl⟩⟩
  set na := jointDensity false (L.map (Move.to 0)) with hna
  have h1 : ∀ j k, na j k = 1 := fun j k => by
    rw [hna, hL, toy_joint]
    norm_num
  have hpol : SamePolarisation na na := fun j k => by rw [mul_comm]
  have hpos : ∀ x ∈ L, ∀ j k, 0 < na j k ∨ x.δ j k = 0 := fun x _ j k => .inl (by rw [h1]; exact one_pos)
  obtain ⟨e, Ep, VA, VB, DA, DB, E, g1, g2, g3, -, -, g4, g5, g6, -, C, hC, rfl, rfl⟩ := overlap_derivative _ _ _ _ _ L L _ Q R vp hf rfl
    (toy_theory _) hT (fun k => by rw [toy_weight]; exact zero_le_one) na na rfl rfl (fun j k => by rw [h1]; exact zero_le_one)
    (fun j k => by rw [h1]; exact zero_le_one) hpol hpos hpos
  refine ⟨_, L, _, Q, R, vp, rfl, hT, toy_theory _, hf, by rw [hL]; rfl, hmem, e, Ep, VA, VB, g1, g2, g3, g5.differentiableAt, fun hbad => ?_⟩
  have h0 := g6.mp hbad
  have hE : E = 4 := by
    have hj : ∀ k, jointDensity false ((L ++ L).map (Move.to 0)) 0 k = 2 := fun k => by
      have : L ++ L = toyMoves [1 / 2, 1 / 2, 1 / 2, 1 / 2] := by rw [hL]; rfl
      rw [this, toy_joint]
      norm_num
    have hx : nonAdditive false toyTheory.Ex ((L ++ L).map (Move.to 0)) = 4 := by
      simp only [nonAdditive, toyTheory, hj]
      simp only [hL, toyMoves, Grid.tiny_integ, Move.to, List.map_cons, List.map_nil, List.cons_append,
        List.nil_append, List.sum_cons, List.sum_nil, twins]
      norm_num
    have hc : nonAdditive false toyTheory.Ec ((L ++ L).map (Move.to 0)) = 0 := by
      simp [nonAdditive, toyTheory, Function.comp_def]
    rw [g4]
    exact (congrArg₂ (· + ·) hx hc).trans (add_zero 4)
  have hS : slack L (L.map (dOverlap na na C)) = C / 2 := by
    simp only [slack, dOverlap, h1, hL, toyMoves, List.map_cons, List.map_nil, List.zipWith_cons_cons, List.zipWith_nil_right,
      List.sum_cons, List.sum_nil, Fin.sum_univ_one, Grid.tiny_integ]
    norm_num
    ring
  rw [hE, hS] at h0
  have : C = 0 := by linarith
  exact hC.ne' this

theorem toy_pair {l : List (Frag (Grid.tiny ℝ) 0 0 1)} {V : List ((Grid.tiny ℝ).Cols 1)}
    (h : List.Forall₂ (fun f v => f.v.vp = some v) l V) (hl : l.length = 2) (hm : ∀ f ∈ l, f.v.vp = some fun _ _ => 3) :
    V = [fun _ _ => 3, fun _ _ => 3] := by
  have h2 : V.length = 2 := h.length_eq.symm.trans hl
  have h3 : ∀ v ∈ V, v = fun _ _ => 3 := fun v hv => by
    obtain ⟨f, hf, e⟩ := mem_of_forall₂ h hv
    exact Option.some.inj (e.symm.trans (hm f hf))
  exact List.eq_replicate_iff.mpr ⟨h2, h3⟩

/-- The same ensemble with 'exact': `Ep` changes at the rate 12, and this is the work of the potentials. -/
example : ∃ (L : List (Move (Grid.tiny ℝ) 1)) (P Q R : ℝ → Part (Grid.tiny ℝ) 0 0 1) (vp : ℝ → (Grid.tiny ℝ).Cols 1),
    Family toyTheory toyEnv { kin := .none, abSym := true } (fun _ => 0) (fun _ => 0) L L P Q R vp ∧
    (∀ x ∈ L, x.s = 1 / 2 ∧ ∀ j k, x.n j k = 1 ∧ x.δ j k = 1) ∧
    ∃ (e : ℝ → PartEnergy (Grid.tiny ℝ) 1) (Ep : ℝ → ℝ), (∀ t, (R t).E = some (e t) ∧ (e t).Ep = .num (.fin (Ep t))) ∧
      (∀ f ∈ (Q 0).comps, f.v.vp = some fun _ _ => 3) ∧ (Q 0).vp = some (vp 0) ∧
      (∑ j, (Grid.tiny ℝ).integ fun k => vp 0 j k * 2) = 12 ∧ HasDerivAt Ep 12 0 := by
  obtain ⟨Q, R, vp, hf⟩ := toy_family { kin := .none, abSym := true } (.inr rfl)
  obtain ⟨L, hL⟩ : ∃ L, L = toyMoves [1 / 2, 1 / 2] := ⟨_, rfl⟩
  rw [← hL] at hf
  have hmem : ∀ x ∈ L, x.s = 1 / 2 ∧ ∀ j k, x.n j k = 1 ∧ x.δ j k = 1 := by
    intro x hx
    simp only [hL, toyMoves, List.map_cons, List.map_nil, List.mem_cons, List.not_mem_nil, or_false, or_self] at hx
    subst hx
    exact ⟨rfl, fun _ _ => ⟨rfl, rfl⟩⟩
  have hj : ∀ j k, jointDensity false ((L ++ L).map (Move.to 0)) j k = 2 := fun j k => by
    have : L ++ L = toyMoves [1 / 2, 1 / 2, 1 / 2, 1 / 2] := by rw [hL]; rfl
    rw [this, toy_joint]
    norm_num
  obtain ⟨-, e, Ep, h1, h2, h3⟩ := C88_average_partial _ _ _ _ _ L L _ Q R vp hf (.inl rfl) (toy_theory _) (fun _ _ => 2) _ rfl
    (fun x hx j k => by
      obtain ⟨q1, q2⟩ := hmem x (by simpa using hx)
      simp only [share, hj, q1, (q2 j k).1, (q2 j k).2]
      norm_num) (fun h => nomatch h) (fun _ => ⟨fun k => by rw [toy_weight, toy_weight], fun _ _ => rfl⟩)
  obtain ⟨F0, E0, -, vA, vB⟩ := vp_value toyTheory hf.computed rfl rfl (hf.compsA 0) (hf.compsB 0) rfl rfl (.inl rfl)
    (hf.ens 0) (hf.sym 0) (hf.potential 0)
  have hv : ∀ (x : (Grid.tiny ℝ).Cols 1 × ℝ) (d : (Grid.tiny ℝ).Cols 1), x ∈ L.map (Move.to 0) →
      gap toyTheory .exact (fun _ => 0) (jointDensity false (L.map (Move.to 0) ++ L.map (Move.to 0))) x.1 F0 E0 d = fun _ _ => 3 := by
    intro x d hx
    obtain ⟨y, hy, rfl⟩ := List.mem_map.mp hx
    funext j k
    rw [← List.map_append]
    have hn : ∀ j k, (Move.to 0 y).1 j k = 1 := fun j k => by simp [Move.to, ((hmem y hy).2 j k).1]
    simp only [gap, toyTheory, hartreePotential, LinearMap.id_apply, Fin.sum_univ_one, hj, hn]
    norm_num
  have side : ∀ {l : List (Frag (Grid.tiny ℝ) 0 0 1)}, List.Forall₂ (fun f (x : (Grid.tiny ℝ).Cols 1 × ℝ) => f.ks.scale = some x.2 ∧
      ∃ d, (HxcPart.exact = .overlapXc → f.v.dFdn = some d) ∧ f.v.vp = some (gap toyTheory .exact (fun _ => 0)
        (jointDensity false (L.map (Move.to 0) ++ L.map (Move.to 0))) x.1 F0 E0 d)) l (L.map (Move.to 0)) →
      ∀ f ∈ l, f.v.vp = some fun _ _ => 3 := by
    intro l hl f hfl
    obtain ⟨x, hx, -, d, -, h⟩ := mem_of_forall₂ hl.flip hfl
    rw [h, hv x d hx]
  have hvp : ∀ f ∈ (Q 0).comps, f.v.vp = some fun _ _ => 3 := by
    intro f hf
    rcases List.mem_append.mp hf with h | h
    · exact side vA f h
    · exact side vB f h
  refine ⟨L, _, Q, R, vp, hf, hmem, e, Ep, h1, hvp, h2, ?_⟩
  obtain ⟨e', Ep', VA, VB, k1, k2, k3, k4⟩ := C88_derivative_partial _ _ _ _ _ L L _ Q R vp hf (.inl rfl) (toy_theory _)
  have hEp : Ep' = Ep := funext fun t => by
    have := (k1 t).2
    rw [← Option.some.inj ((h1 t).1.symm.trans (k1 t).1), (h1 t).2] at this
    simpa using this.symm
  have hV := @toy_pair
  have lA : (Q 0).compsA.length = 2 := by rw [vA.length_eq, hL]; rfl
  have lB : (Q 0).compsB.length = 2 := by rw [vB.length_eq, hL]; rfl
  rw [hV k2 lA fun f h => hvp f (List.mem_append_left _ h), hV k3 lB fun f h => hvp f (List.mem_append_right _ h), hEp] at k4
  have h12 : HasDerivAt Ep 12 0 := by
    refine k4.congr_deriv ?_
    simp only [work, hL, toyMoves, List.map_cons, List.map_nil, List.zipWith_cons_cons, List.zipWith_nil_right, List.sum_cons,
      List.sum_nil, Fin.sum_univ_one, Grid.tiny_integ, twins]
    norm_num
  exact ⟨h3.unique h12, h12⟩

end

end Verif
