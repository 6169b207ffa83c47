import Verif.Model.RoundedPartition
import Verif.Lemmas.RoundedDensity
import Verif.Lemmas.RoundedExact
import Verif.Props.C40
import Verif.Props.C123

/-! # C125: promolecule and Q functions in floating-point arithmetic -/

namespace Verif
open Rounding Spec Part
variable {K : Type} [Field K] [LinearOrder K] [IsStrictOrderedRing K] [FloorRing K] {G : Grid K} {r c p : ℕ}
  {R : Rounding K} {u : K}

namespace Rounded

/-- What the loop of `calc_protomolecule` adds up. -/
def wsum (R : Rounding K) (A : List (G.Cols p × K)) (acc : G.Cols p) : G.Cols p :=
  A.foldl (fun acc x j k => R.add (acc j k) (R.mul (x.1 j k) x.2)) acc

theorem weighted_eq (R : Rounding K) {l : List (Frag G r c p)} {A : List (G.Cols p × K)} (h : Comps l A) :
    weighted R l = .ok (wsum R A fun _ _ => 0) := by
  unfold weighted
  generalize (fun _ _ => 0 : G.Cols p) = acc
  induction h generalizing acc with
  | nil => rfl
  | @cons f x l A h _ ih =>
    rw [List.foldlM_cons, h.1, h.2]
    exact ih _

theorem wsum_within (h : R.Precise u) {A : List (G.Cols p × K)} (hA : ∀ x ∈ A, 0 ≤ x.2 ∧ ∀ j k, 0 ≤ x.1 j k) (j : Fin p) (k : G.Ix) :
    Within u (1 + A.length) (wsum R A (fun _ _ => 0) j k) (Spec.average A j k) := by
  have key : ∀ (A : List (G.Cols p × K)) (acc : G.Cols p) (y : K) (b : ℕ), (∀ x ∈ A, 0 ≤ x.2 ∧ ∀ j k, 0 ≤ x.1 j k) → 0 ≤ y →
      Within u (1 + b) (acc j k) y → Within u (1 + (b + A.length)) (wsum R A acc j k) (y + Spec.average A j k) := by
    intro A
    induction A with
    | nil => intro acc y b _ _ hw; simpa [wsum, Spec.average] using hw
    | cons x A ih =>
      intro acc y b hA hy hw
      obtain ⟨h1, h2⟩ := hA x (List.mem_cons_self ..)
      have hx := mul_nonneg h1 (h2 j k)
      have e : Within u 1 (R.mul (x.1 j k) x.2) (x.2 * x.1 j k) := by
        unfold Rounding.mul
        rw [mul_comm (x.1 j k)]
        exact Within.fl h hx
      have := ih (fun j k => R.add (acc j k) (R.mul (x.1 j k) x.2)) (y + x.2 * x.1 j k) (b + 1)
        (fun z hz => hA z (List.mem_cons_of_mem _ hz)) (add_nonneg hy hx)
        ((hw.add (e.mono h (by omega) hx)).round h (add_nonneg hy hx))
      rw [show b + 1 + A.length = b + (x :: A).length by rw [List.length_cons]; omega] at this
      simpa [wsum, Spec.average, add_assoc] using this
  have := key A (fun _ _ => 0) 0 0 hA le_rfl (.refl h le_rfl _)
  simpa using this

theorem average_nonneg {A : List (G.Cols p × K)} (hA : ∀ x ∈ A, 0 ≤ x.2 ∧ ∀ j k, 0 ≤ x.1 j k) (j : Fin p) (k : G.Ix) :
    0 ≤ Spec.average A j k :=
  List.sum_nonneg (by
    intro z hz
    obtain ⟨y, hy, rfl⟩ := List.mem_map.mp hz
    exact mul_nonneg (hA y hy).1 ((hA y hy).2 j k))

theorem withTwin_nonneg {b : Bool} {A : List (G.Cols p × K)} (hA : ∀ x ∈ A, 0 ≤ x.2 ∧ ∀ j k, 0 ≤ x.1 j k) (j : Fin p) (k : G.Ix) :
    0 ≤ withTwin b (Spec.average A) j k := by
  unfold withTwin
  cases b
  · simpa using average_nonneg hA j k
  · exact add_nonneg (average_nonneg hA j k) (average_nonneg hA j.rev k)

theorem addFlip_within (h : R.Precise u) {a : ℕ} {f g : G.Cols p} (hg : ∀ j k, 0 ≤ g j k) (hw : ∀ j k, Within u a (f j k) (g j k))
    (b : Bool) (j : Fin p) (k : G.Ix) : Within u (a + 1) (addFlip R b f j k) (withTwin b g j k) := by
  unfold addFlip withTwin
  cases b
  · simpa using (hw j k).mono h (Nat.le_succ a) (hg j k)
  · exact ((hw j k).add (hw j.rev k)).round h (add_nonneg (hg j k) (hg _ k))

theorem length_le {P : Part G r c p} {A B : List (G.Cols p × K)} (hA : Comps P.compsA A) (hB : Comps P.compsB B) :
    A.length ≤ 2 ∧ B.length ≤ 2 := by
  have h1 := hA.length_eq
  have h2 := hB.length_eq
  unfold Part.compsA at h1
  unfold Part.compsB at h2
  cases h : P.fAB <;> rw [h] at h1 h2 <;> simp at h1 h2 <;> omega

/-- The fragment density. -/
def frac (R : Rounding K) (b : Bool) (A : List (G.Cols p × K)) : G.Cols p := addFlip R b (wsum R A fun _ _ => 0)

theorem calcProtomolecule_eq (R : Rounding K) (P : Part G r c p) {A B : List (G.Cols p × K)} (hA : Comps P.compsA A)
    (hB : Comps P.compsB B) :
    calcProtomolecule R P = .ok { P with
      naFrac := some (frac R P.opt.ensSpinSym A)
      nbFrac := some (frac R P.opt.ensSpinSym B)
      nf := some fun j k => R.add (frac R P.opt.ensSpinSym A j k) (frac R P.opt.ensSpinSym B j k) } := by
  unfold calcProtomolecule
  rw [weighted_eq R hA, weighted_eq R hB]
  rfl

theorem frac_close (h : R.Precise u) {A : List (G.Cols p × K)} (hA : ∀ x ∈ A, 0 ≤ x.2 ∧ ∀ j k, 0 ≤ x.1 j k) (h2 : A.length ≤ 2)
    (b : Bool) (j : Fin p) (k : G.Ix) : Within u 4 (frac R b A j k) (withTwin b (Spec.average A) j k) :=
  (addFlip_within h (average_nonneg hA) (fun j k => wsum_within h hA j k) b j k).mono h (by omega) (withTwin_nonneg hA j k)

theorem clean_quot (R : Rounding K) (x y : K) : Fl.clean (quot R x y) = if y = 0 then 0 else R.fl (x / y) := by
  unfold quot Fl.div
  by_cases h : y = 0
  · simp only [h, ↓reduceIte]; split_ifs <;> rfl
  · simp only [h, ↓reduceIte]; rfl

theorem calcQ_eq (R : Rounding K) (P : Part G r c p) (nf : G.Cols p) (hnf : P.nf = some nf)
    (C : List (G.Cols p × K)) (hC : Comps P.comps C) :
    ∃ P', calcQ R P = .ok P' ∧ P'.nf = P.nf ∧ P'.opt = P.opt ∧
      List.Forall₂ (fun f x => f.ks.n = some x.1 ∧ f.ks.scale = some x.2 ∧
        f.ks.Q = some fun j k => if nf j k = 0 then 0 else R.fl (R.mul x.2 (x.1 j k) / nf j k)) P'.comps C := by
  let g : Frag G r c p → Frag G r c p := fun f => ⟨{ f.ks with
    Q := some fun j k => if nf j k = 0 then 0 else R.fl (R.mul (f.ks.scale.getD 0) ((f.ks.n.getD fun _ _ => 0) j k) / nf j k) }, f.v⟩
  have hsome : ∀ f ∈ P.comps, ∃ x : G.Cols p × K, f.ks.n = some x.1 ∧ f.ks.scale = some x.2 := by
    intro f hf
    obtain ⟨i, hi, rfl⟩ := List.getElem_of_mem hf
    have hlen := hC.length_eq
    exact ⟨C[i]'(hlen ▸ hi), (List.forall₂_iff_get.mp hC).2 i hi (hlen ▸ hi)⟩
  refine ⟨P.mapPure g, ?_, rfl, rfl, ?_⟩
  · unfold calcQ
    rw [show attr P.nf = .ok nf by rw [hnf]; rfl]
    change P.mapAll _ = _
    refine mapAll_ok _ g P ?_
    intro f hf
    obtain ⟨x, h1, h2⟩ := hsome f hf
    rw [h1, h2]
    change Except.ok _ = _
    simp only [g, h1, h2, clean_quot, Option.getD_some]
  · rw [comps_map]
    rw [List.forall₂_map_left_iff]
    refine hC.imp ?_
    rintro f x ⟨h1, h2⟩
    simp [g, h1, h2]

/-- Adding something not negative does not make a machine number smaller. -/
theorem le_add (hs : R.Stable) {x y : K} (hx : R.fl x = x) (hy : 0 ≤ y) : x ≤ R.add x y := by
  have := R.mono (show x ≤ x + y by linarith)
  rwa [hx] at this

theorem wsum_machine (hs : R.Stable) (A : List (G.Cols p × K)) (acc : G.Cols p) (hacc : ∀ j k, R.fl (acc j k) = acc j k) (j : Fin p)
    (k : G.Ix) : R.fl (wsum R A acc j k) = wsum R A acc j k := by
  induction A generalizing acc with
  | nil => exact hacc j k
  | cons x A ih => exact ih _ fun j k => hs.again _

theorem wsum_ge (hs : R.Stable) {A : List (G.Cols p × K)} (hA : ∀ x ∈ A, 0 ≤ x.2 ∧ ∀ j k, 0 ≤ x.1 j k) (acc : G.Cols p)
    (h0 : ∀ j k, 0 ≤ acc j k) (hacc : ∀ j k, R.fl (acc j k) = acc j k) (j : Fin p) (k : G.Ix) :
    acc j k ≤ wsum R A acc j k ∧ ∀ x ∈ A, R.mul x.2 (x.1 j k) ≤ wsum R A acc j k := by
  induction A generalizing acc with
  | nil => exact ⟨le_rfl, fun x hx => (nomatch hx)⟩
  | cons y A ih =>
    have hm : ∀ j k, 0 ≤ R.mul (y.1 j k) y.2 := fun j k =>
      R.fl_nonneg (mul_nonneg ((hA y (List.mem_cons_self ..)).2 j k) (hA y (List.mem_cons_self ..)).1)
    obtain ⟨h1, h2⟩ := ih (fun z hz => hA z (List.mem_cons_of_mem _ hz)) (fun j k => R.add (acc j k) (R.mul (y.1 j k) y.2))
      (fun j k => R.fl_nonneg (add_nonneg (h0 j k) (hm j k))) (fun j k => hs.again _)
    refine ⟨(le_add hs (hacc j k) (hm j k)).trans h1, fun x hx => ?_⟩
    rcases List.mem_cons.mp hx with rfl | hx
    · refine le_trans ?_ h1
      have e : R.mul x.2 (x.1 j k) = R.mul (x.1 j k) x.2 := by unfold Rounding.mul; rw [mul_comm]
      rw [e]
      have := le_add hs (x := R.mul (x.1 j k) x.2) (hs.again _) (h0 j k)
      rwa [R.add_comm] at this
    · exact h2 x hx

theorem frac_ge (hs : R.Stable) {A : List (G.Cols p × K)} (hA : ∀ x ∈ A, 0 ≤ x.2 ∧ ∀ j k, 0 ≤ x.1 j k) (b : Bool) (j : Fin p)
    (k : G.Ix) : 0 ≤ frac R b A j k ∧ R.fl (frac R b A j k) = frac R b A j k ∧ ∀ x ∈ A, R.mul x.2 (x.1 j k) ≤ frac R b A j k := by
  have z : ∀ j k, R.fl ((fun _ _ => 0 : G.Cols p) j k) = (fun _ _ => 0 : G.Cols p) j k := fun _ _ => R.fl_zero
  have h1 := fun j => wsum_ge hs hA (fun _ _ => 0) (fun _ _ => le_rfl) z j k
  have h2 := fun j => wsum_machine hs A (fun _ _ => 0) z j k
  unfold frac addFlip
  cases b
  · exact ⟨(h1 j).1, h2 j, (h1 j).2⟩
  · refine ⟨R.fl_nonneg (add_nonneg (h1 j).1 (h1 _).1), hs.again _, fun x hx => ?_⟩
    exact ((h1 j).2 x hx).trans (le_add hs (h2 j) (h1 j.rev).1)

end Rounded

/-- C125: `calc_protomolecule` with rounding.  At every point the densities of the fragments are the exact ones (weighted sums of the
densities of the components, with `ens_spin_sym` with the spins exchanged added) up to the factor `(1 - u)^4`, that of the molecule up to
`(1 - u)^5`; so are the electron numbers of every column.  With `ens_spin_sym` both spins have the same density, to the last digit. -/
theorem C125_promolecule (h : R.Precise u) (P : Part G r c p) (A B : List (G.Cols p × K)) (hA : Comps P.compsA A)
    (hB : Comps P.compsB B) (pos : ∀ x ∈ A ++ B, 0 ≤ x.2 ∧ ∀ j k, 0 ≤ x.1 j k) :
    ∃ na nb nf : G.Cols p, Rounded.calcProtomolecule R P = .ok { P with naFrac := some na, nbFrac := some nb, nf := some nf } ∧
      (∀ j k, (1 - u) ^ 4 * withTwin P.opt.ensSpinSym (Spec.average A) j k ≤ na j k ∧
        (1 - u) ^ 4 * na j k ≤ withTwin P.opt.ensSpinSym (Spec.average A) j k) ∧
      (∀ j k, (1 - u) ^ 4 * withTwin P.opt.ensSpinSym (Spec.average B) j k ≤ nb j k ∧
        (1 - u) ^ 4 * nb j k ≤ withTwin P.opt.ensSpinSym (Spec.average B) j k) ∧
      (∀ j k, (1 - u) ^ 5 * withTwin P.opt.ensSpinSym (Spec.average (A ++ B)) j k ≤ nf j k ∧
        (1 - u) ^ 5 * nf j k ≤ withTwin P.opt.ensSpinSym (Spec.average (A ++ B)) j k) ∧
      (NoNegativeWeights G → ∀ j,
        (1 - u) ^ 5 * G.integ (withTwin P.opt.ensSpinSym (Spec.average (A ++ B)) j) ≤ G.integ (nf j) ∧
        (1 - u) ^ 5 * G.integ (nf j) ≤ G.integ (withTwin P.opt.ensSpinSym (Spec.average (A ++ B)) j)) ∧
      (P.opt.ensSpinSym = true → G.flipCols nf = nf) := by
  obtain ⟨hl, hl'⟩ := Rounded.length_le hA hB
  have pA : ∀ x ∈ A, 0 ≤ x.2 ∧ ∀ j k, 0 ≤ x.1 j k := fun x hx => pos x (List.mem_append_left _ hx)
  have pB : ∀ x ∈ B, 0 ≤ x.2 ∧ ∀ j k, 0 ≤ x.1 j k := fun x hx => pos x (List.mem_append_right _ hx)
  have wA := fun j k => Rounded.frac_close h pA hl P.opt.ensSpinSym j k
  have wB := fun j k => Rounded.frac_close h pB hl' P.opt.ensSpinSym j k
  have wf : ∀ j k, Within u 5 (R.add (Rounded.frac R P.opt.ensSpinSym A j k) (Rounded.frac R P.opt.ensSpinSym B j k))
      (withTwin P.opt.ensSpinSym (Spec.average (A ++ B)) j k) := by
    intro j k
    have e : withTwin P.opt.ensSpinSym (Spec.average (A ++ B)) j k =
        withTwin P.opt.ensSpinSym (Spec.average A) j k + withTwin P.opt.ensSpinSym (Spec.average B) j k := by
      unfold withTwin
      rw [average_append, average_append]
      split_ifs <;> ring
    rw [e]
    exact ((wA j k).add (wB j k)).round h (add_nonneg (Rounded.withTwin_nonneg pA j k) (Rounded.withTwin_nonneg pB j k))
  refine ⟨_, _, _, Rounded.calcProtomolecule_eq R P hA hB, wA, wB, wf, fun hG j => Rounded.integ_within hG (wf j), fun hs => ?_⟩
  funext j k
  simp only [Grid.flipCols, Rounded.frac, Rounded.addFlip, hs, if_true, Fin.rev_rev]
  rw [R.add_comm (Rounded.wsum R A _ j.rev k), R.add_comm (Rounded.wsum R B _ j.rev k)]

/-- C125: `calc_Q` with rounding, underflow included: Q functions never leave the interval from 0 to 1, and are 0 where the computed
density of the molecule is. -/
theorem C125_range (hs : R.Stable) (P P₁ : Part G r c p) (A B : List (G.Cols p × K)) (hA : Comps P.compsA A)
    (hB : Comps P.compsB B) (pos : ∀ x ∈ A ++ B, 0 ≤ x.2 ∧ ∀ j k, 0 ≤ x.1 j k) (h₁ : Rounded.calcProtomolecule R P = .ok P₁) :
    ∃ (nf : G.Cols p) (P₂ : Part G r c p) (Qs : List (G.Cols p)), P₁.nf = some nf ∧ Rounded.calcQ R P₁ = .ok P₂ ∧
      List.Forall₂ (fun f Q => f.ks.Q = some Q) P₂.comps Qs ∧
      (∀ j k, nf j k = 0 → ∀ Q ∈ Qs, Q j k = 0) ∧ ∀ Q ∈ Qs, ∀ j k, 0 ≤ Q j k ∧ Q j k ≤ 1 := by
  have pA : ∀ x ∈ A, 0 ≤ x.2 ∧ ∀ j k, 0 ≤ x.1 j k := fun x hx => pos x (List.mem_append_left _ hx)
  have pB : ∀ x ∈ B, 0 ≤ x.2 ∧ ∀ j k, 0 ≤ x.1 j k := fun x hx => pos x (List.mem_append_right _ hx)
  rw [Rounded.calcProtomolecule_eq R P hA hB] at h₁
  obtain rfl := Except.ok.inj h₁
  obtain ⟨P₂, h2, -, -, h3⟩ := Rounded.calcQ_eq R { P with
      naFrac := some (Rounded.frac R P.opt.ensSpinSym A)
      nbFrac := some (Rounded.frac R P.opt.ensSpinSym B)
      nf := some fun j k => R.add (Rounded.frac R P.opt.ensSpinSym A j k) (Rounded.frac R P.opt.ensSpinSym B j k) } _ rfl (A ++ B)
    (List.rel_append hA hB)
  refine ⟨_, P₂, (A ++ B).map fun x j k => if R.add (Rounded.frac R P.opt.ensSpinSym A j k) (Rounded.frac R P.opt.ensSpinSym B j k) = 0
    then 0 else R.fl (R.mul x.2 (x.1 j k) / R.add (Rounded.frac R P.opt.ensSpinSym A j k) (Rounded.frac R P.opt.ensSpinSym B j k)),
    rfl, h2, ?_, ?_, ?_⟩
  · rw [List.forall₂_map_right_iff]
    exact h3.imp fun f x hx => hx.2.2
  · intro j k h0 Q hQ
    obtain ⟨x, -, rfl⟩ := List.mem_map.mp hQ
    simp only [h0, if_true]
  · intro Q hQ j k
    obtain ⟨x, hx, rfl⟩ := List.mem_map.mp hQ
    obtain ⟨a1, a2, a3⟩ := Rounded.frac_ge hs pA P.opt.ensSpinSym j k
    obtain ⟨b1, b2, b3⟩ := Rounded.frac_ge hs pB P.opt.ensSpinSym j k
    have hx0 : 0 ≤ R.mul x.2 (x.1 j k) := R.fl_nonneg (mul_nonneg (pos x hx).1 ((pos x hx).2 j k))
    have hle : R.mul x.2 (x.1 j k) ≤ R.add (Rounded.frac R P.opt.ensSpinSym A j k) (Rounded.frac R P.opt.ensSpinSym B j k) := by
      rcases List.mem_append.mp hx with hx | hx
      · exact (a3 x hx).trans (Rounded.le_add hs a2 b1)
      · rw [R.add_comm]
        exact (b3 x hx).trans (Rounded.le_add hs b2 a1)
    dsimp only
    split_ifs with h0
    · exact ⟨le_rfl, zero_le_one⟩
    · have hp := lt_of_le_of_ne (hx0.trans hle) (Ne.symm h0)
      refine ⟨R.fl_nonneg (div_nonneg hx0 hp.le), ?_⟩
      have := R.mono ((div_le_one hp).mpr hle)
      rwa [hs.one] at this

/-- C125: where the exact density of the molecule is positive the Q functions (with `ens_spin_sym`: and those of the other spin) add up to
1 up to the factor `(1 - u)^7`; where it is 0 they are 0.  Missing: underflow (`C125_refuted_underflow`). -/
theorem C125_unity_partial (h : R.Precise u) (P P₁ : Part G r c p) (A B : List (G.Cols p × K)) (hA : Comps P.compsA A)
    (hB : Comps P.compsB B) (pos : ∀ x ∈ A ++ B, 0 ≤ x.2 ∧ ∀ j k, 0 ≤ x.1 j k) (h₁ : Rounded.calcProtomolecule R P = .ok P₁) :
    ∃ (P₂ : Part G r c p) (Qs : List (G.Cols p)), Rounded.calcQ R P₁ = .ok P₂ ∧
      List.Forall₂ (fun f Q => f.ks.Q = some Q) P₂.comps Qs ∧
      ∀ j k, let S := withTwin P.opt.ensSpinSym (fun j k => (Qs.map fun Q => Q j k).sum) j k
        (0 < withTwin P.opt.ensSpinSym (Spec.average (A ++ B)) j k → (1 - u) ^ 7 ≤ S ∧ (1 - u) ^ 7 * S ≤ 1) ∧
        (withTwin P.opt.ensSpinSym (Spec.average (A ++ B)) j k = 0 → ∀ Q ∈ Qs, Q j k = 0) := by
  obtain ⟨na, nb, nf, e, -, -, hf, -, -⟩ := C125_promolecule h P A B hA hB pos
  rw [e] at h₁
  obtain rfl := Except.ok.inj h₁
  obtain ⟨P₂, h2, -, -, h3⟩ := Rounded.calcQ_eq R { P with naFrac := some na, nbFrac := some nb, nf := some nf } nf rfl (A ++ B)
    (List.rel_append hA hB)
  set q : G.Cols p × K → G.Cols p := fun x j k => if nf j k = 0 then 0 else R.fl (R.mul x.2 (x.1 j k) / nf j k) with hq
  refine ⟨P₂, (A ++ B).map q, h2, ?_, fun j k => ⟨fun hp => ?_, fun h0 Q hQ => ?_⟩⟩
  · rw [List.forall₂_map_right_iff]
    exact h3.imp fun f x hx => hx.2.2
  · have key : ∀ j : Fin p, 0 < withTwin P.opt.ensSpinSym (Spec.average (A ++ B)) j k →
        Within u 7 (((A ++ B).map q).map fun Q => Q j k).sum
          (Spec.average (A ++ B) j k / withTwin P.opt.ensSpinSym (Spec.average (A ++ B)) j k) := by
      intro j hp
      have hn : nf j k ≠ 0 := (Within.pos h (hf j k) hp).ne'
      have gen : ∀ C : List (G.Cols p × K), (∀ x ∈ C, 0 ≤ x.2 ∧ ∀ j k, 0 ≤ x.1 j k) →
          Within u 7 ((C.map q).map fun Q => Q j k).sum
            (Spec.average C j k / withTwin P.opt.ensSpinSym (Spec.average (A ++ B)) j k) := by
        intro C hC
        induction C with
        | nil => simp [Spec.average, Within]
        | cons x C ih =>
          obtain ⟨x1, x2⟩ := hC x (List.mem_cons_self ..)
          have hx := mul_nonneg x1 (x2 j k)
          have w1 : Within u 1 (R.mul x.2 (x.1 j k)) (x.2 * x.1 j k) := Within.fl h hx
          have w2 := (w1.div h hx hp (hf j k)).round h (div_nonneg hx hp.le)
          have w3 := w2.add ((ih fun z hz => hC z (List.mem_cons_of_mem _ hz)))
          simpa [Spec.average, hq, hn, add_div] using w3
      exact gen _ pos
    have hS : Within u 7 (withTwin P.opt.ensSpinSym (fun j k => (((A ++ B).map q).map fun Q => Q j k).sum) j k) 1 := by
      have h1 := key j hp
      cases hb : P.opt.ensSpinSym with
      | false =>
        rw [hb] at h1 hp
        simp only [withTwin, Bool.false_eq_true, if_false, add_zero] at h1 hp ⊢
        rwa [div_self hp.ne'] at h1
      | true =>
        have h2 := key j.rev
        rw [hb] at h1 h2 hp
        simp only [withTwin, if_true, Fin.rev_rev] at h1 h2 hp ⊢
        rw [add_comm (Spec.average (A ++ B) j.rev k)] at h2
        have h3 := h1.add (h2 hp)
        rwa [← add_div, div_self hp.ne'] at h3
    exact ⟨by simpa using hS.1, hS.2⟩
  · obtain ⟨x, hx, rfl⟩ := List.mem_map.mp hQ
    have hn : nf j k = 0 := by
      have h5 := hf j k
      rw [h0, mul_zero] at h5
      exact le_antisymm (by
        by_contra hlt
        exact absurd h5.2 (not_le.mpr (mul_pos (h.pow_pos 5) (not_le.mp hlt)))) h5.1
    simp only [hq, hn, if_true]

namespace Rounded

theorem wsum_mirror (R : Rounding K) (A : List (G.Cols p × K)) (acc : G.Cols p) :
    wsum R (A.map fun x => (G.mirCols x.1, x.2)) (G.mirCols acc) = G.mirCols (wsum R A acc) := by
  induction A generalizing acc with
  | nil => rfl
  | cons x A ih => exact ih fun j k => R.add (acc j k) (R.mul (x.1 j k) x.2)

theorem frac_mirror (R : Rounding K) (b : Bool) (A : List (G.Cols p × K)) :
    frac R b (A.map fun x => (G.mirCols x.1, x.2)) = G.mirCols (frac R b A) := by
  have h := wsum_mirror R A (fun _ _ => 0)
  unfold frac
  rw [show (fun _ _ => 0 : G.Cols p) = G.mirCols (fun _ _ => 0) from rfl, h]
  cases b <;> rfl

end Rounded

/-- C125: if the densities of the components of B are the mirror images of those of A (`mirrorAB`), with the same weights, then whatever
the rounding the fragment density of B is the mirror image of that of A, the density of the molecule its own mirror image and the Q
functions of B are the mirror images of those of A, all to the last digit. -/
theorem C125_mirror (R : Rounding K) (P P₁ : Part G r c p) (A : List (G.Cols p × K)) (hA : Comps P.compsA A)
    (hB : Comps P.compsB (A.map fun x => (G.mirCols x.1, x.2))) (h₁ : Rounded.calcProtomolecule R P = .ok P₁) :
    ∃ (na nf : G.Cols p) (P₂ : Part G r c p) (Qs : List (G.Cols p)), P₁.naFrac = some na ∧ P₁.nbFrac = some (G.mirCols na) ∧
      P₁.nf = some nf ∧ G.mirCols nf = nf ∧ Rounded.calcQ R P₁ = .ok P₂ ∧
      List.Forall₂ (fun f Q => f.ks.Q = some Q) P₂.comps (Qs ++ Qs.map G.mirCols) ∧ Qs.length = A.length := by
  rw [Rounded.calcProtomolecule_eq R P hA hB, Rounded.frac_mirror] at h₁
  obtain rfl := Except.ok.inj h₁
  set na := Rounded.frac R P.opt.ensSpinSym A with hna
  have hm : G.mirCols (fun j k => R.add (na j k) (G.mirCols na j k)) = fun j k => R.add (na j k) (G.mirCols na j k) := by
    funext j k
    simp only [Grid.mirCols, Grid.mir, G.mirIx_mirIx]
    rw [R.add_comm]
  set nf : G.Cols p := fun j k => R.add (na j k) (G.mirCols na j k) with hnf
  obtain ⟨P₂, h2, -, -, h3⟩ := Rounded.calcQ_eq R { P with naFrac := some na, nbFrac := some (G.mirCols na), nf := some nf } nf rfl _
    (List.rel_append hA hB)
  refine ⟨na, nf, P₂, A.map fun x j k => if nf j k = 0 then 0 else R.fl (R.mul x.2 (x.1 j k) / nf j k), rfl, rfl, rfl, hm, h2, ?_,
    List.length_map _⟩
  have hm' : ∀ j k, nf j (G.mirIx k) = nf j k := fun j k => congrFun (congrFun hm j) k
  have e : (A.map fun x j k => if nf j k = 0 then 0 else R.fl (R.mul x.2 (x.1 j k) / nf j k)).map G.mirCols =
      (A.map fun x => (G.mirCols x.1, x.2)).map fun x j k => if nf j k = 0 then 0 else R.fl (R.mul x.2 (x.1 j k) / nf j k) := by
    rw [List.map_map, List.map_map]
    refine List.map_congr_left fun x _ => ?_
    funext j k
    simp only [Function.comp, Grid.mirCols, Grid.mir, hm']
  rw [e, ← List.map_append, List.forall₂_map_right_iff]
  exact h3.imp fun f x hx => hx.2.2

/-- Half the smallest number is rounded to 0. -/
theorem half_smallest (p : ℕ) (b : ℤ) : (binary p (some b) : Rounding K).fl (2 ^ b * (1 / 2)) = 0 := by
  have two : (0 : K) < 2 := by norm_num
  have hp : (0 : K) < 2 ^ b * (1 / 2) := mul_pos (zpow_pos two _) (by norm_num)
  change (if _ then _ else _) = _
  rw [if_pos hp]
  have he : expo p (some b) ((2 : K) ^ b * (1 / 2)) = b := by
    have h1 : (2 : K) ^ b * (1 / 2) = ((2 : ℕ) : K) ^ (b - 1) := by
      push_cast; rw [zpow_sub₀ two.ne', zpow_one]; ring
    unfold expo
    simp only
    rw [h1, Int.log_zpow (by norm_num)]
    omega
  unfold flPos
  rw [he, mul_comm ((2 : K) ^ b), mul_div_assoc, div_self (zpow_pos two _).ne', mul_one]
  have : nearest (1 / 2 : K) = 0 := by
    have hf : ⌊(1 / 2 : K)⌋ = 0 := by rw [Int.floor_eq_iff]; norm_num
    unfold nearest
    rw [hf]
    norm_num
  rw [this]
  simp

namespace Sample125
open Sample122

/-- Two fragments with `ens_spin_sym`, the smallest positive number as density. -/
def dim (b : ℤ) : Part grid4 0 0 1 :=
  Part.sample { ensSpinSym := true } (Frag.sample (fun _ _ => 2 ^ b) (1 / 2) (KSEnergy.sample 0))
    (Frag.sample (fun _ _ => 2 ^ b) (1 / 2) (KSEnergy.sample 0)) none

def nA : grid4.Cols 1 := fun _ k => if k.1 = 0 then 5 else if k.1 = 1 then 3 else 0
def nB : grid4.Cols 1 := fun _ k => if k.1 = 3 then 5 else if k.1 = 2 then 3 else if k.1 = 1 then 7 else 0

/-- An ensemble. -/
def pair : Part grid4 0 0 1 :=
  Part.sample {} (Frag.sample nA (2 / 3) (KSEnergy.sample 0)) (Frag.sample nB (1 / 4) (KSEnergy.sample 0))
    (some (Frag.sample nB (1 / 3) (KSEnergy.sample 0), Frag.sample nA (3 / 4) (KSEnergy.sample 0)))

def A : List (grid4.Cols 1 × ℚ) := [(nA, 2 / 3), (nB, 1 / 3)]
def B : List (grid4.Cols 1 × ℚ) := [(nB, 1 / 4), (nA, 3 / 4)]

theorem compsA : Comps pair.compsA A := .cons ⟨rfl, rfl⟩ (.cons ⟨rfl, rfl⟩ .nil)
theorem compsB : Comps pair.compsB B := .cons ⟨rfl, rfl⟩ (.cons ⟨rfl, rfl⟩ .nil)

theorem pos : ∀ x ∈ A ++ B, 0 ≤ x.2 ∧ ∀ j k, 0 ≤ x.1 j k := by
  have h1 : ∀ j k, 0 ≤ nA j k := by intro j k; unfold nA; split_ifs <;> norm_num
  have h2 : ∀ j k, 0 ≤ nB j k := by intro j k; unfold nB; split_ifs <;> norm_num
  intro x hx
  simp only [A, B, List.cons_append, List.nil_append, List.mem_cons, List.not_mem_nil, or_false] at hx
  rcases hx with rfl | rfl | rfl | rfl <;> exact ⟨by norm_num, by assumption⟩

/-- Mirror images. -/
def twins : Part grid4 0 0 1 :=
  Part.sample {} (Frag.sample nB (1 / 3) (KSEnergy.sample 0)) (Frag.sample (grid4.mirCols nB) (1 / 3) (KSEnergy.sample 0)) none

/-- Density of the molecule and Q functions at the second point. -/
def seen (R : Rounding ℚ) (P : Part grid4 0 0 1) : Option (ℚ × List ℚ) :=
  ((Rounded.calcProtomolecule R P).bind fun P₁ => (Rounded.calcQ R P₁).bind fun P₂ =>
    (.ok ((P₂.nf.map fun n => n 0 (at4 1)).getD (-1), P₂.comps.map fun f => (f.ks.Q.map fun q => q 0 (at4 1)).getD (-1)) :
      Py (ℚ × List ℚ))).toOption

end Sample125
open Sample122 Sample123 Sample125

/-- C125: the Q functions need not add up to 1 where the density is positive if numbers underflow: halves of the smallest number are
rounded to 0, all Q functions are 0 although the density is positive everywhere.  For every number of digits and every smallest number. -/
theorem C125_refuted_underflow (q : ℕ) (b : ℤ) (hb : b ≤ 0) :
    (binary q (some b) : Rounding ℚ).Stable ∧
    ∃ (P P₁ P₂ : Part grid4 0 0 1) (A B : List (grid4.Cols 1 × ℚ)) (Qs : List (grid4.Cols 1)), Comps P.compsA A ∧ Comps P.compsB B ∧
      (∀ x ∈ A ++ B, 0 ≤ x.2 ∧ ∀ j k, 0 < x.1 j k) ∧ (∀ j k, 0 < withTwin P.opt.ensSpinSym (Spec.average (A ++ B)) j k) ∧
      Rounded.calcProtomolecule (binary q (some b)) P = .ok P₁ ∧ Rounded.calcQ (binary q (some b)) P₁ = .ok P₂ ∧
      List.Forall₂ (fun f Q => f.ks.Q = some Q) P₂.comps Qs ∧ ∀ Q ∈ Qs, ∀ j k, Q j k = 0 := by
  have hst : (binary q (some b) : Rounding ℚ).Stable := binary_stable q (some b) (fun x hx => by cases hx; exact hb)
  have two : (0 : ℚ) < 2 ^ b := zpow_pos (by norm_num) _
  let l : List (grid4.Cols 1 × ℚ) := [(fun _ _ => 2 ^ b, 1 / 2)]
  have hl : ∀ P : Frag grid4 0 0 1, P = Frag.sample (fun _ _ => 2 ^ b) (1 / 2) (KSEnergy.sample 0) → Comps [P] l := by
    rintro P rfl; exact .cons ⟨rfl, rfl⟩ .nil
  have hpos : ∀ x ∈ l ++ l, 0 ≤ x.2 ∧ ∀ j k, 0 < x.1 j k := by
    intro x hx
    simp only [l, List.cons_append, List.nil_append, List.mem_cons, List.not_mem_nil, or_false, or_self] at hx
    subst hx
    exact ⟨by norm_num, fun _ _ => two⟩
  have hA : Comps (dim b).compsA l := hl _ rfl
  have hB : Comps (dim b).compsB l := hl _ rfl
  have e1 := Rounded.calcProtomolecule_eq (binary q (some b)) (dim b) hA hB
  obtain ⟨nf, P₂, Qs, a1, a2, a3, a4, -⟩ := C125_range hst (dim b) _ l l hA hB
    (fun x hx => ⟨(hpos x hx).1, fun j k => ((hpos x hx).2 j k).le⟩) e1
  refine ⟨hst, dim b, _, P₂, l, l, Qs, hA, hB, hpos, fun j k => ?_, e1, a2, a3, fun Q hQ j k => a4 j k ?_ Q hQ⟩
  · simp only [withTwin, Spec.average, l, dim, Part.sample, if_true]
    simp only [List.cons_append, List.nil_append, List.map_cons, List.map_nil, List.sum_cons, List.sum_nil]
    positivity
  · have e := half_smallest (K := ℚ) q b
    rw [← Option.some.inj a1]
    have hw : ∀ j k, Rounded.wsum (binary q (some b)) l (fun _ _ => 0) j k = 0 := by
      intro j k
      simp only [Rounded.wsum, l, List.foldl_cons, List.foldl_nil, Rounding.add, Rounding.mul, e, add_zero, fl_zero]
    have hf : ∀ j k, Rounded.frac (binary q (some b)) (dim b).opt.ensSpinSym l j k = 0 := by
      intro j k
      change (binary q (some b)).fl (Rounded.wsum _ l _ j k + Rounded.wsum _ l _ j.rev k) = 0
      rw [hw, hw, add_zero, fl_zero]
    simp only [hf, Rounding.add, add_zero, fl_zero]

/-- C125: an ensemble, exactly and with three binary digits; the Q functions then add up to 33/32. -/
example : seen Rounding.exact pair = some (25 / 3, [6 / 25, 7 / 25, 21 / 100, 27 / 100]) ∧
    seen R3 pair = some (8, [1 / 4, 5 / 16, 7 / 32, 1 / 4]) := by
  refine ⟨?_, ?_⟩ <;> decide +kernel

/-- C125: in double precision. -/
example : ∃ P₁ P₂ : Part grid4 0 0 1, Rounded.calcProtomolecule D pair = .ok P₁ ∧ Rounded.calcQ D P₁ = .ok P₂ ∧
    ∃ Qs : List (grid4.Cols 1), List.Forall₂ (fun f Q => f.ks.Q = some Q) P₂.comps Qs ∧
      (1 - 1 / 2 ^ 53) ^ 7 ≤ (Qs.map fun Q => Q 0 (at4 1)).sum := by
  have e := Rounded.calcProtomolecule_eq D pair Sample125.compsA Sample125.compsB
  obtain ⟨P₂, Qs, h1, h2, h3⟩ := C125_unity_partial (R := D) (u := 1 / 2 ^ 53) (binary_precise 52) pair _ Sample125.A Sample125.B
    Sample125.compsA Sample125.compsB Sample125.pos e
  refine ⟨_, P₂, e, h1, Qs, h2, ?_⟩
  have := ((h3 0 (at4 1)).1 (by decide +kernel)).1
  simpa [withTwin, pair, Part.sample] using this

/-- C125: two mirrored fragments with weight 1/3: density and Q functions at opposite points with three binary digits. -/
example : ((Rounded.calcProtomolecule R3 twins).bind fun P₁ => (Rounded.calcQ R3 P₁).bind fun P₂ =>
    (.ok ((P₂.nf.map fun n => [n 0 (at4 1), n 0 (at4 2)]),
      P₂.fa.ks.Q.map fun q => q 0 (at4 1), P₂.fb.ks.Q.map fun q => q 0 (at4 2)) : Py _)).toOption =
    some (some [7 / 2, 7 / 2], some (3 / 4), some (3 / 4)) := by
  decide +kernel

end Verif
