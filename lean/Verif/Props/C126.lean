import Verif.Props.C125

/-! # C126: the partition potential in floating-point arithmetic -/

namespace Verif
open Rounding Spec Part
variable {K : Type} [Field K] [LinearOrder K] [IsStrictOrderedRing K] [FloorRing K] {G : Grid K} {r c p : ℕ}
  {R : Rounding K} {u : K}

namespace Rounded

/-- What the loop of `partition_potential` adds up. -/
def qsum (R : Rounding K) (D : List (G.Cols p × G.Cols p)) (acc : G.Cols p) : G.Cols p :=
  D.foldl (fun acc d j k => R.add (acc j k) (R.mul (d.1 j k) (d.2 j k))) acc

theorem qAverage_eq (R : Rounding K) {x : Frag G r c p → Option (G.Cols p)} {P : Part G r c p} {D : List (G.Cols p × G.Cols p)}
    (h : List.Forall₂ (fun f d => x f = some d.1 ∧ f.ks.Q = some d.2) P.comps D) :
    qAverage R x P = .ok (qsum R D fun _ _ => 0) := by
  unfold qAverage
  generalize P.comps = l at h
  generalize (fun _ _ => 0 : G.Cols p) = acc
  induction h generalizing acc with
  | nil => rfl
  | @cons f d l D h _ ih =>
    rw [List.foldlM_cons, h.1, h.2]
    exact ih _

/-- Every entry of `T`: a computed potential, the exact one, a bound, the Q function. -/
theorem qsum_off (h : R.Precise u) {a : ℕ} {j : Fin p} {k : G.Ix} (T : List (G.Cols p × G.Cols p × G.Cols p × G.Cols p)) :
    (∀ t ∈ T, Off u a (t.1 j k) (t.2.1 j k) (t.2.2.1 j k)) → ∀ {acc : G.Cols p} {y Y : K} {b : ℕ}, Off u (a + 1 + b) (acc j k) y Y →
      Off u (a + 1 + (b + T.length)) (qsum R (T.map fun t => (t.1, t.2.2.2)) acc j k)
        (y + (T.map fun t => t.2.2.2 j k * t.2.1 j k).sum) (Y + (T.map fun t => |t.2.2.2 j k| * t.2.2.1 j k).sum) := by
  induction T with
  | nil => intro _ acc y Y b hw; simpa [qsum] using hw
  | cons t T ih =>
    intro hT acc y Y b hw
    have h1 := ((hT t (List.mem_cons_self ..)).mul h (Off.refl (t.2.2.2 j k))).round h
    have h2 := (hw.add (h1.mono h (l := a + 1 + b) (by omega))).round h
    have h3 := ih (fun x hx => hT x (List.mem_cons_of_mem _ hx))
      (acc := fun j k => R.add (acc j k) (R.mul (t.1 j k) (t.2.2.2 j k))) (b := b + 1) h2
    rw [show b + 1 + T.length = b + (t :: T).length by rw [List.length_cons]; omega] at h3
    simp only [List.map_cons, List.sum_cons]
    rw [← add_assoc y, ← add_assoc Y, mul_comm (t.2.2.2 j k), mul_comm |t.2.2.2 j k|]
    exact h3

theorem addFlip_off (h : R.Precise u) {a : ℕ} {f g B : G.Cols p} (hw : ∀ j k, Off u a (f j k) (g j k) (B j k)) (b : Bool) (j : Fin p)
    (k : G.Ix) : Off u (a + 1) (addFlip R b f j k) (withTwin b g j k) (withTwin b B j k) := by
  unfold addFlip withTwin
  cases b
  · simpa using (hw j k).mono h (Nat.le_succ a)
  · exact ((hw j k).add (hw j.rev k)).round h

theorem addMirror_off (h : R.Precise u) {a : ℕ} {f g B : G.Cols p} (hw : ∀ j k, Off u a (f j k) (g j k) (B j k)) (b : Bool) (j : Fin p)
    (k : G.Ix) : Off u (a + 2) (addMirror R b f j k) (withMirror b g j k) (withMirror b B j k) := by
  unfold addMirror withMirror
  cases b
  · simpa using (hw j k).mono h (Nat.le_add_right a 2)
  · have h1 := ((hw j k).add (hw j (G.mirIx k))).round h
    have h2 := ((Off.refl (u := u) (1 / 2 : K)).mul h h1).round h
    rw [abs_of_nonneg (by norm_num : (0 : K) ≤ 1 / 2)] at h2
    simp only [if_true]
    rw [show (g j k + g j (G.mirIx k)) / 2 = 1 / 2 * (g j k + g j (G.mirIx k)) by ring,
      show (B j k + B j (G.mirIx k)) / 2 = 1 / 2 * (B j k + B j (G.mirIx k)) by ring]
    exact h2.mono h (by omega)

theorem comps_length (P : Part G r c p) : P.comps.length ≤ 4 := by
  unfold Part.comps Part.compsA Part.compsB
  cases P.fAB <;> simp

theorem average_off (h : R.Precise u) {a : ℕ} {x : Frag G r c p → Option (G.Cols p)} {P : Part G r c p}
    {T : List (G.Cols p × G.Cols p × G.Cols p × G.Cols p)}
    (hT : List.Forall₂ (fun f t => x f = some t.1 ∧ f.ks.Q = some t.2.2.2) P.comps T)
    (ho : ∀ t ∈ T, ∀ j k, Off u a (t.1 j k) (t.2.1 j k) (t.2.2.1 j k)) :
    ∃ v, average R P x = .ok v ∧ ∀ j k, Off u (a + 8) (v j k)
      (withMirror P.opt.abSym (withTwin P.opt.ensSpinSym fun j k => (T.map fun t => t.2.2.2 j k * t.2.1 j k).sum) j k)
      (withMirror P.opt.abSym (withTwin P.opt.ensSpinSym fun j k => (T.map fun t => |t.2.2.2 j k| * t.2.2.1 j k).sum) j k) := by
  have e := qAverage_eq R (x := x) (P := P) (D := T.map fun t => (t.1, t.2.2.2)) (List.forall₂_map_right_iff.mpr hT)
  refine ⟨addMirror R P.opt.abSym (addFlip R P.opt.ensSpinSym (qsum R (T.map fun t => (t.1, t.2.2.2)) fun _ _ => 0)), ?_, fun j k => ?_⟩
  · unfold average; rw [e]; rfl
  · have hl : T.length ≤ 4 := hT.length_eq ▸ comps_length P
    have h1 : ∀ j k, Off u (a + 5) (qsum R (T.map fun t => (t.1, t.2.2.2)) (fun _ _ => 0) j k)
        ((T.map fun t => t.2.2.2 j k * t.2.1 j k).sum) ((T.map fun t => |t.2.2.2 j k| * t.2.2.1 j k).sum) := by
      intro j k
      have := qsum_off (R := R) h T (j := j) (k := k) (fun t ht => ho t ht j k) (acc := fun _ _ => 0) (y := 0) (Y := 0) (b := 0)
        ⟨by simp, by simp⟩
      simp only [zero_add] at this
      exact this.mono h (by omega)
    exact addMirror_off h (fun j k => addFlip_off h h1 P.opt.ensSpinSym j k) P.opt.abSym j k

theorem average_symm (R : Rounding K) {x : Frag G r c p → Option (G.Cols p)} {P : Part G r c p} {v : G.Cols p}
    (h : average R P x = .ok v) :
    (P.opt.abSym = true → G.mirCols v = v) ∧ (P.opt.ensSpinSym = true → G.flipCols v = v) := by
  unfold average at h
  simp only [Py.do_eq_ok, Py.pure_eq_ok] at h
  obtain ⟨w, -, rfl⟩ := h
  have hf : P.opt.ensSpinSym = true → ∀ j k, addFlip R P.opt.ensSpinSym w j.rev k = addFlip R P.opt.ensSpinSym w j k := by
    intro hb j k
    simp only [addFlip, hb, if_true, Grid.flipCols, Fin.rev_rev]
    rw [R.add_comm]
  constructor
  · intro hb
    funext j k
    simp only [addMirror, hb, if_true, symmetrised, Grid.mirCols, Grid.mir, G.mirIx_mirIx]
    rw [R.add_comm]
  · intro hb
    funext j k
    unfold addMirror
    simp only [Grid.flipCols]
    split_ifs
    · simp only [symmetrised, Grid.mirCols, Grid.mir, hf hb]
    · exact hf hb j k

end Rounded

/-- C126: every average of `partition_potential` (the partition potential and its parts) with rounding: it differs from the exact
Q-average of what it is computed from by no more than `(1 + u)^8 - 1` times the average of the absolute values.  With `ab_sym` it is
mirror symmetric, with `ens_spin_sym` the same for both spins, to the last digit. -/
theorem C126_error (h : R.Precise u) (P : Part G r c p) (x : Frag G r c p → Option (G.Cols p)) (D : List (G.Cols p × G.Cols p))
    (hD : List.Forall₂ (fun f d => x f = some d.1 ∧ f.ks.Q = some d.2) P.comps D) :
    ∃ v, Rounded.average R P x = .ok v ∧
      (∀ j k, |v j k - withMirror P.opt.abSym (withTwin P.opt.ensSpinSym fun j k => (D.map fun d => d.2 j k * d.1 j k).sum) j k| ≤
        ((1 + u) ^ 8 - 1) *
          withMirror P.opt.abSym (withTwin P.opt.ensSpinSym fun j k => (D.map fun d => |d.2 j k| * |d.1 j k|).sum) j k) ∧
      (P.opt.abSym = true → G.mirCols v = v) ∧ (P.opt.ensSpinSym = true → G.flipCols v = v) := by
  obtain ⟨v, e, hv⟩ := Rounded.average_off h (a := 0) (x := x) (P := P)
    (T := D.map fun d => (d.1, d.1, (fun j k => |d.1 j k|), d.2)) (List.forall₂_map_right_iff.mpr hD) (by
      intro t ht j k
      obtain ⟨d, -, rfl⟩ := List.mem_map.mp ht
      exact Off.refl _)
  refine ⟨v, e, fun j k => ?_, Rounded.average_symm R e⟩
  have := (hv j k).1
  simpa only [List.map_map, Function.comp_def, Nat.zero_add] using this

/-- C126: for Q functions that are not negative and add up to no more than `s`, and potentials between `-M` and `M`, the average stays
between `-(1 + u)^8 s M` and `(1 + u)^8 s M`. -/
theorem C126_bounded (h : R.Precise u) (P : Part G r c p) (x : Frag G r c p → Option (G.Cols p)) (D : List (G.Cols p × G.Cols p))
    (hD : List.Forall₂ (fun f d => x f = some d.1 ∧ f.ks.Q = some d.2) P.comps D) (hQ : ∀ d ∈ D, ∀ j k, 0 ≤ d.2 j k) {s M : K}
    (hM : ∀ d ∈ D, ∀ j k, |d.1 j k| ≤ M) (hs : ∀ j k, withTwin P.opt.ensSpinSym (fun j k => (D.map fun d => d.2 j k).sum) j k ≤ s)
    (hM0 : 0 ≤ M) : ∃ v, Rounded.average R P x = .ok v ∧ ∀ j k, |v j k| ≤ (1 + u) ^ 8 * (s * M) := by
  obtain ⟨v, e, hv⟩ := Rounded.average_off h (a := 0) (x := x) (P := P)
    (T := D.map fun d => (d.1, d.1, (fun j k => |d.1 j k|), d.2)) (List.forall₂_map_right_iff.mpr hD) (by
      intro t ht j k
      obtain ⟨d, -, rfl⟩ := List.mem_map.mp ht
      exact Off.refl _)
  simp only [Nat.zero_add] at hv
  refine ⟨v, e, fun j k => ((hv j k).bound).trans (mul_le_mul_of_nonneg_left ?_ (by linarith [h.one_le 8]))⟩
  simp only [List.map_map, Function.comp_def]
  have key : ∀ j k, (D.map fun d => |d.2 j k| * |d.1 j k|).sum ≤ (D.map fun d => d.2 j k).sum * M := by
    intro j k
    have gen : ∀ D : List (G.Cols p × G.Cols p), (∀ d ∈ D, ∀ j k, 0 ≤ d.2 j k) → (∀ d ∈ D, ∀ j k, |d.1 j k| ≤ M) →
        (D.map fun d => |d.2 j k| * |d.1 j k|).sum ≤ (D.map fun d => d.2 j k).sum * M := by
      intro D
      induction D with
      | nil => intro _ _; simp
      | cons d D ih =>
        intro h1 h2
        simp only [List.map_cons, List.sum_cons, add_mul]
        refine add_le_add ?_ (ih (fun d hd => h1 d (List.mem_cons_of_mem _ hd)) fun d hd => h2 d (List.mem_cons_of_mem _ hd))
        rw [abs_of_nonneg (h1 d (List.mem_cons_self ..) j k)]
        exact mul_le_mul_of_nonneg_left (h2 d (List.mem_cons_self ..) j k) (h1 d (List.mem_cons_self ..) j k)
    exact gen D hQ hM
  have key2 : ∀ j k, withTwin P.opt.ensSpinSym (fun j k => (D.map fun d => |d.2 j k| * |d.1 j k|).sum) j k ≤ s * M := by
    intro j k
    refine le_trans ?_ (mul_le_mul_of_nonneg_right (hs j k) hM0)
    unfold withTwin
    cases P.opt.ensSpinSym
    · simpa using key j k
    · simp only [if_true]
      rw [add_mul]
      exact add_le_add (key j k) (key j.rev k)
  unfold withMirror
  split_ifs
  · linarith [key2 j k, key2 j (G.mirIx k)]
  · exact key2 j k

/-- C126: the partition potential computed with rounding is the sum of its stored nuclear, kinetic and interaction parts up to
`2 ((1 + u)^10 - 1)` times the average of the sum of the absolute values of the parts. -/
theorem C126_parts (h : R.Precise u) (P : Part G r c p) (D : List (G.Cols p × G.Cols p × G.Cols p × G.Cols p))
    (hD : List.Forall₂ (fun f d => f.v.vpPot = some d.1 ∧ f.v.vpKin = some d.2.1 ∧ f.v.vpHxc = some d.2.2.1 ∧ f.ks.Q = some d.2.2.2)
      P.comps D) :
    ∃ (P' : Part G r c p) (vp pot kin hxc : G.Cols p), Rounded.addTerms R P = .ok P' ∧
      Rounded.average R P' (fun f => f.v.vp) = .ok vp ∧ Rounded.average R P' (fun f => f.v.vpPot) = .ok pot ∧
      Rounded.average R P' (fun f => f.v.vpKin) = .ok kin ∧ Rounded.average R P' (fun f => f.v.vpHxc) = .ok hxc ∧
      ∀ j k, |vp j k - (pot j k + kin j k + hxc j k)| ≤ 2 * ((1 + u) ^ 10 - 1) *
        withMirror P.opt.abSym (withTwin P.opt.ensSpinSym fun j k =>
          (D.map fun d => |d.2.2.2 j k| * (|d.1 j k| + |d.2.1 j k| + |d.2.2.1 j k|)).sum) j k := by
  have hsome : ∀ f ∈ P.comps, ∃ d : G.Cols p × G.Cols p × G.Cols p × G.Cols p, f.v.vpPot = some d.1 ∧ f.v.vpKin = some d.2.1 ∧
      f.v.vpHxc = some d.2.2.1 ∧ f.ks.Q = some d.2.2.2 := by
    intro f hf
    obtain ⟨i, hi, rfl⟩ := List.getElem_of_mem hf
    have hlen := hD.length_eq
    exact ⟨D[i]'(hlen ▸ hi), (List.forall₂_iff_get.mp hD).2 i hi (hlen ▸ hi)⟩
  let z : G.Cols p := fun _ _ => 0
  let g : Frag G r c p → Frag G r c p := fun f => { f with v := { f.v with
    vp := some fun j k => R.add (R.add ((f.v.vpPot.getD z) j k) ((f.v.vpKin.getD z) j k)) ((f.v.vpHxc.getD z) j k) } }
  have e0 : Rounded.addTerms R P = .ok (P.mapPure g) := by
    unfold Rounded.addTerms
    refine mapAll_ok _ g P ?_
    intro f hf
    obtain ⟨d, h1, h2, h3, -⟩ := hsome f hf
    simp only [g, h1, h2, h3, Option.getD_some]
    rfl
  have hopt : (P.mapPure g).opt = P.opt := rfl
  have run : ∀ (x : Frag G r c p → Option (G.Cols p)) (t : G.Cols p × G.Cols p × G.Cols p × G.Cols p → G.Cols p × G.Cols p × G.Cols p),
      (∀ f d, f.v.vpPot = some d.1 ∧ f.v.vpKin = some d.2.1 ∧ f.v.vpHxc = some d.2.2.1 ∧ f.ks.Q = some d.2.2.2 →
        x (g f) = some (t d).1) → (∀ d j k, Off u 2 ((t d).1 j k) ((t d).2.1 j k) ((t d).2.2 j k)) →
      ∃ v, Rounded.average R (P.mapPure g) x = .ok v ∧ ∀ j k, Off u 10 (v j k)
        (withMirror P.opt.abSym (withTwin P.opt.ensSpinSym fun j k => (D.map fun d => d.2.2.2 j k * (t d).2.1 j k).sum) j k)
        (withMirror P.opt.abSym (withTwin P.opt.ensSpinSym fun j k => (D.map fun d => |d.2.2.2 j k| * (t d).2.2 j k).sum) j k) := by
    intro x t h1 h2
    obtain ⟨v, e, hv⟩ := Rounded.average_off h (a := 2) (x := x) (P := P.mapPure g)
      (T := D.map fun d => ((t d).1, (t d).2.1, (t d).2.2, d.2.2.2)) (by
        rw [comps_map, List.forall₂_map_left_iff, List.forall₂_map_right_iff]
        exact hD.imp fun f d hfd => ⟨h1 f d hfd, hfd.2.2.2⟩) (by
        intro w hw j k
        obtain ⟨d, -, rfl⟩ := List.mem_map.mp hw
        exact h2 d j k)
    refine ⟨v, e, fun j k => ?_⟩
    have := hv j k
    simpa only [List.map_map, Function.comp_def] using this
  obtain ⟨vp, e1, w1⟩ := run (fun f => f.v.vp) (fun d => ((fun j k => R.add (R.add (d.1 j k) (d.2.1 j k)) (d.2.2.1 j k)),
      (fun j k => d.1 j k + d.2.1 j k + d.2.2.1 j k), fun j k => |d.1 j k| + |d.2.1 j k| + |d.2.2.1 j k|)) (by
      rintro f d ⟨h1, h2, h3, -⟩
      simp only [g, h1, h2, h3, Option.getD_some]) (fun d j k => by
      have a1 := ((Off.refl (u := u) (d.1 j k)).add (Off.refl (d.2.1 j k))).round h
      exact (a1.add ((Off.refl (u := u) (d.2.2.1 j k)).mono h (Nat.zero_le 1))).round h)
  obtain ⟨pot, e2, w2⟩ := run (fun f => f.v.vpPot) (fun d => (d.1, d.1, fun j k => |d.1 j k|)) (fun f d hfd => hfd.1)
    (fun d j k => (Off.refl (d.1 j k)).mono h (Nat.zero_le 2))
  obtain ⟨kin, e3, w3⟩ := run (fun f => f.v.vpKin) (fun d => (d.2.1, d.2.1, fun j k => |d.2.1 j k|)) (fun f d hfd => hfd.2.1)
    (fun d j k => (Off.refl (d.2.1 j k)).mono h (Nat.zero_le 2))
  obtain ⟨hxc, e4, w4⟩ := run (fun f => f.v.vpHxc) (fun d => (d.2.2.1, d.2.2.1, fun j k => |d.2.2.1 j k|)) (fun f d hfd => hfd.2.2.1)
    (fun d j k => (Off.refl (d.2.2.1 j k)).mono h (Nat.zero_le 2))
  refine ⟨_, vp, pot, kin, hxc, e0, e1, e2, e3, e4, fun j k => ?_⟩
  have split : ∀ (s : K → K) (f₁ f₂ f₃ : G.Cols p × G.Cols p × G.Cols p × G.Cols p → G.Cols p),
      withMirror P.opt.abSym (withTwin P.opt.ensSpinSym fun j k =>
        (D.map fun d => s (d.2.2.2 j k) * (f₁ d j k + f₂ d j k + f₃ d j k)).sum) j k =
      withMirror P.opt.abSym (withTwin P.opt.ensSpinSym fun j k => (D.map fun d => s (d.2.2.2 j k) * f₁ d j k).sum) j k +
      withMirror P.opt.abSym (withTwin P.opt.ensSpinSym fun j k => (D.map fun d => s (d.2.2.2 j k) * f₂ d j k).sum) j k +
      withMirror P.opt.abSym (withTwin P.opt.ensSpinSym fun j k => (D.map fun d => s (d.2.2.2 j k) * f₃ d j k).sum) j k := by
    intro s f₁ f₂ f₃
    have hs : ∀ j k, (D.map fun d => s (d.2.2.2 j k) * (f₁ d j k + f₂ d j k + f₃ d j k)).sum =
        (D.map fun d => s (d.2.2.2 j k) * f₁ d j k).sum + (D.map fun d => s (d.2.2.2 j k) * f₂ d j k).sum +
        (D.map fun d => s (d.2.2.2 j k) * f₃ d j k).sum := by
      intro j k
      rw [← List.sum_map_add, ← List.sum_map_add]
      simp only [mul_add]
    unfold withMirror withTwin
    simp only [hs]
    split_ifs <;> ring
  have s1 := split id (fun d => d.1) (fun d => d.2.1) (fun d => d.2.2.1)
  have s2 := split abs (fun d j k => |d.1 j k|) (fun d j k => |d.2.1 j k|) (fun d j k => |d.2.2.1 j k|)
  have b1 := (w1 j k).1
  have b2 := ((w2 j k).add (w3 j k)).add (w4 j k)
  have b2 := b2.1
  simp only [id] at s1
  rw [s1] at b1
  rw [← s2] at b2
  rw [abs_sub_comm] at b2
  exact ((abs_sub_le _ _ _).trans (add_le_add b1 b2)).trans (le_of_eq (by ring))

/-- C126: without ensembles, if potential and Q function of B are the mirror images of those of A the average is its own mirror image to
the last digit, also without `ab_sym`.  Missing: ensembles (`C126_refuted_ensemble`). -/
theorem C126_mirror_partial (hs : R.Stable) (P : Part G r c p) (x : Frag G r c p → Option (G.Cols p)) (hP : P.fAB = none) (v Q : G.Cols p)
    (hA : x P.fa = some v ∧ P.fa.ks.Q = some Q) (hB : x P.fb = some (G.mirCols v) ∧ P.fb.ks.Q = some (G.mirCols Q)) :
    ∃ w, Rounded.average R P x = .ok w ∧ G.mirCols w = w := by
  have e := Rounded.qAverage_eq R (x := x) (P := P) (D := [(v, Q), (G.mirCols v, G.mirCols Q)]) (by
    unfold Part.comps Part.compsA Part.compsB
    rw [hP]
    exact .cons hA (.cons hB .nil))
  refine ⟨_, by unfold Rounded.average; rw [e]; rfl, ?_⟩
  have h0 : ∀ j k, Rounded.qsum R [(v, Q), (G.mirCols v, G.mirCols Q)] (fun _ _ => 0) j (G.mirIx k) =
      Rounded.qsum R [(v, Q), (G.mirCols v, G.mirCols Q)] (fun _ _ => 0) j k := by
    intro j k
    simp only [Rounded.qsum, List.foldl_cons, List.foldl_nil, Grid.mirCols, Grid.mir, G.mirIx_mirIx]
    have z : ∀ y : K, R.add 0 (R.fl y) = R.fl y := fun y => by unfold Rounding.add; rw [zero_add, hs.again]
    unfold Rounding.mul
    rw [z, z, R.add_comm]
  have h1 : ∀ j k, Rounded.addFlip R P.opt.ensSpinSym (Rounded.qsum R [(v, Q), (G.mirCols v, G.mirCols Q)] fun _ _ => 0) j (G.mirIx k) =
      Rounded.addFlip R P.opt.ensSpinSym (Rounded.qsum R [(v, Q), (G.mirCols v, G.mirCols Q)] fun _ _ => 0) j k := by
    intro j k
    unfold Rounded.addFlip
    split_ifs
    · simp only [Grid.flipCols, h0]
    · exact h0 j k
  funext j k
  simp only [Grid.mirCols, Grid.mir]
  unfold Rounded.addMirror
  split_ifs
  · simp only [Rounded.symmetrised, Grid.mirCols, Grid.mir, h1]
  · exact h1 j k

namespace Sample126
open Sample122

/-- A component with a potential and a Q function. -/
def comp (v Q : grid4.Cols 1) : Frag grid4 0 0 1 :=
  let f := Frag.sample (fun _ _ => 1) 1 (KSEnergy.sample 0)
  { f with ks := { f.ks with Q := some Q }, v := { f.v with vp := some v } }

def quarter : grid4.Cols 1 := fun _ _ => 1 / 4
def v₁ : grid4.Cols 1 := fun _ k => if k.1 < 2 then 16 else 2
def v₂ : grid4.Cols 1 := fun _ _ => 2

/-- An ensemble, B the mirror image of A; with or without `ab_sym`. -/
def ens (b : Bool) : Part grid4 0 0 1 :=
  Part.sample { abSym := b } (comp v₁ quarter) (comp (grid4.mirCols v₁) (grid4.mirCols quarter))
    (some (comp v₂ quarter, comp (grid4.mirCols v₂) (grid4.mirCols quarter)))

/-- The potential at the four points. -/
def seen (R : Rounding ℚ) (P : Part grid4 0 0 1) : Option (List ℚ) :=
  (Rounded.average R P fun f => f.v.vp).toOption.map fun v => (List.finRange 4).map fun i => v 0 (at4 i)

end Sample126
open Sample122 Sample123 Sample126

/-- C126: in an ensemble without `ab_sym` the potential of mirror images need not be mirror symmetric: the components are added in the
order a, A, b, B. -/
theorem C126_refuted_ensemble : ∃ (R : Rounding ℚ) (P : Part grid4 0 0 1) (w : grid4.Cols 1), R.Stable ∧ R.Precise (1 / 8) ∧
    (∃ a A b B : Frag grid4 0 0 1, P.fa = a ∧ P.fb = b ∧ P.fAB = some (A, B) ∧ b.v.vp = a.v.vp.map grid4.mirCols ∧
      b.ks.Q = a.ks.Q.map grid4.mirCols ∧ B.v.vp = A.v.vp.map grid4.mirCols ∧ B.ks.Q = A.ks.Q.map grid4.mirCols) ∧
    Rounded.average R P (fun f => f.v.vp) = .ok w ∧ grid4.mirCols w ≠ w := by
  have hpr : R3.Precise (1 / 8) := by
    have := binary_precise (K := ℚ) 2
    norm_num at this ⊢
    exact this
  refine ⟨R3, ens false, _, binary_stable 2 none (fun _ hb => (nomatch hb)), hpr, ⟨_, _, _, _, rfl, rfl, rfl, rfl, rfl, rfl, rfl⟩, rfl, ?_⟩
  intro h
  have := congrFun (congrFun h 0) (at4 0)
  revert this
  decide +kernel

/-- C126: that ensemble: the potential exactly, and with three binary digits without and with `ab_sym`. -/
example : seen Rounding.exact (ens false) = some [11 / 2, 11 / 2, 11 / 2, 11 / 2] ∧ seen R3 (ens false) = some [4, 4, 6, 6] ∧
    seen R3 (ens true) = some [5, 5, 5, 5] := by
  refine ⟨?_, ?_, ?_⟩ <;> decide +kernel

/-- C126: the bound in double precision for that ensemble. -/
example : ∃ w, Rounded.average D (ens false) (fun f => f.v.vp) = .ok w ∧ ∀ j k, |w j k| ≤ (1 + 1 / 2 ^ 53) ^ 8 * (1 * 16) := by
  refine C126_bounded (R := D) (u := 1 / 2 ^ 53) (binary_precise 52) (ens false) (fun f => f.v.vp)
    [(v₁, quarter), (v₂, quarter), (grid4.mirCols v₁, grid4.mirCols quarter), (grid4.mirCols v₂, grid4.mirCols quarter)]
    (.cons ⟨rfl, rfl⟩ (.cons ⟨rfl, rfl⟩ (.cons ⟨rfl, rfl⟩ (.cons ⟨rfl, rfl⟩ .nil)))) ?_ ?_ ?_ (by norm_num)
  · decide +kernel
  · decide +kernel
  · decide +kernel

end Verif
