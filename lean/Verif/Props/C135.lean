import Verif.Lemmas.PartitionScfSample

/-! # C135: what a partition calculation leaves behind is up to date -/

namespace Verif
open Part
variable {K : Type} [Field K] [LinearOrder K] [IsStrictOrderedRing K] [FloorRing K]
variable {G : Grid K} {r c p : ℕ}

namespace Spec

/-- An isolated calculation, or one that does not solve for two orbitals. -/
def Readable (o : PartOpt) : Prop := o.isolated = true ∨ o.kin ≠ .twoorbital

end Spec

namespace UpToDate

/-- An update that changes nothing when it is repeated can be repeated for all components. -/
theorem mapAll_again {f : Frag G r c p → Py (Frag G r c p)} (hf : ∀ x y, f x = .ok y → f y = .ok y) {P P' : Part G r c p}
    (h : P.mapAll f = .ok P') : P'.mapAll f = .ok P' := by
  unfold Part.mapAll Part.mapA Part.mapB at h ⊢
  simp only [Py.do_eq_ok] at h
  obtain ⟨P1, ⟨a, ha, h1⟩, b, hb, h2⟩ := h
  cases hAB : P.fAB with
  | none =>
    simp only [hAB, Py.pure_eq_ok] at h1
    subst h1
    simp only [hAB, Py.pure_eq_ok] at h2
    subst h2
    simp only [hf _ _ ha, hf _ _ hb, bind, Except.bind, hAB, pure, Except.pure]
  | some AB =>
    obtain ⟨A, B⟩ := AB
    simp only [hAB, Py.do_eq_ok, Py.pure_eq_ok] at h1
    obtain ⟨A', hA, rfl⟩ := h1
    simp only [Py.do_eq_ok, Py.pure_eq_ok] at h2
    obtain ⟨B', hB, rfl⟩ := h2
    simp only [hf _ _ ha, hf _ _ hb, hf _ _ hA, hf _ _ hB, bind, Except.bind, pure, Except.pure]

/-- The attributes of a component the promolecule is made of. -/
def SameN (x y : Frag G r c p) : Prop := y.ks.n = x.ks.n ∧ y.ks.scale = x.ks.scale

theorem mapAll_same {f : Frag G r c p → Py (Frag G r c p)} (hf : ∀ x y, f x = .ok y → SameN x y) {P P' : Part G r c p}
    (h : P.mapAll f = .ok P') : ∃ fa fb fAB, P' = { P with fa, fb, fAB } ∧
      List.Forall₂ SameN P.compsA P'.compsA ∧ List.Forall₂ SameN P.compsB P'.compsB := by
  unfold Part.mapAll Part.mapA Part.mapB at h
  simp only [Py.do_eq_ok] at h
  obtain ⟨P1, ⟨a, ha, h1⟩, b, hb, h2⟩ := h
  cases hAB : P.fAB with
  | none =>
    simp only [hAB, Py.pure_eq_ok] at h1
    subst h1
    simp only [hAB, Py.pure_eq_ok] at h2
    subst h2
    refine ⟨a, b, none, rfl, ?_, ?_⟩
    · simp only [compsA, hAB, Option.map_none, Option.toList]
      exact .cons (hf _ _ ha) .nil
    · simp only [compsB, hAB, Option.map_none, Option.toList]
      exact .cons (hf _ _ hb) .nil
  | some AB =>
    obtain ⟨A, B⟩ := AB
    simp only [hAB, Py.do_eq_ok, Py.pure_eq_ok] at h1
    obtain ⟨A', hA, rfl⟩ := h1
    simp only [Py.do_eq_ok, Py.pure_eq_ok] at h2
    obtain ⟨B', hB, rfl⟩ := h2
    refine ⟨a, b, some (A', B'), rfl, ?_, ?_⟩
    · simp only [compsA, hAB, Option.map_some, Option.toList]
      exact .cons (hf _ _ ha) (.cons (hf _ _ hA) .nil)
    · simp only [compsB, hAB, Option.map_some, Option.toList]
      exact .cons (hf _ _ hb) (.cons (hf _ _ hB) .nil)

theorem weighted_same {l l' : List (Frag G r c p)} (h : List.Forall₂ SameN l l') : weighted l' = weighted l := by
  unfold weighted
  generalize (fun _ _ => 0 : G.Cols p) = acc
  induction h generalizing acc with
  | nil => rfl
  | cons hx _ ih =>
    rw [List.foldlM_cons, List.foldlM_cons, hx.1, hx.2]
    congr 1
    funext y
    exact ih y

/-- `calc_Q` for one component. -/
def qStep (nf : G.Cols p) (f : Frag G r c p) : Py (Frag G r c p) := do
  let n ← KS.need f.ks.n
  let s ← KS.need f.ks.scale
  pure { f with ks := { f.ks with Q := some fun j k => Fl.clean (Fl.div (.fin (s * n j k)) (.fin (nf j k))) } }

theorem qStep_again (nf : G.Cols p) (x y : Frag G r c p) (h : qStep nf x = .ok y) : qStep nf y = .ok y ∧ SameN x y := by
  unfold qStep at h ⊢
  simp only [Py.do_eq_ok, Py.pure_eq_ok] at h ⊢
  obtain ⟨n, hn, s, hs, rfl⟩ := h
  exact ⟨⟨n, hn, s, hs, rfl⟩, rfl, rfl⟩

theorem calcQ_again {P P' : Part G r c p} (h : P.calcQ = .ok P') : P'.calcQ = .ok P' ∧
    ∃ fa fb fAB, P' = { P with fa, fb, fAB } ∧ List.Forall₂ SameN P.compsA P'.compsA ∧ List.Forall₂ SameN P.compsB P'.compsB := by
  unfold Part.calcQ at h
  rw [Py.do_eq_ok] at h
  obtain ⟨nf, hnf, h⟩ := h
  change P.mapAll (qStep nf) = .ok P' at h
  have h1 := mapAll_again (fun x y hx => (qStep_again nf x y hx).1) h
  have h2 := mapAll_same (fun x y hx => (qStep_again nf x y hx).2) h
  refine ⟨?_, h2⟩
  obtain ⟨fa, fb, fAB, rfl, -⟩ := h2
  unfold Part.calcQ
  rw [Py.do_eq_ok]
  exact ⟨nf, hnf, h1⟩

theorem proto_of {P : Part G r c p} {na nb} (ha : weighted P.compsA = .ok na) (hb : weighted P.compsB = .ok nb) :
    P.calcProtomolecule = .ok { P with
      naFrac := some (addFlip P.opt.ensSpinSym na), nbFrac := some (addFlip P.opt.ensSpinSym nb),
      nf := some fun j k => addFlip P.opt.ensSpinSym na j k + addFlip P.opt.ensSpinSym nb j k } := by
  unfold Part.calcProtomolecule
  simp only [Py.do_eq_ok, Py.pure_eq_ok]
  exact ⟨na, ha, nb, hb, rfl⟩

theorem promolecule_again {o : PartScf.Options K} {P P' : Part G r c p} (h : PartScf.promolecule o P = .ok P') :
    PartScf.promolecule o P' = .ok P' ∧ P'.calcQ = .ok P' ∧ (o.fromTarget = false → P'.calcProtomolecule = .ok P') := by
  unfold PartScf.promolecule at h ⊢
  by_cases ho : o.fromTarget = true
  · rw [if_pos ho] at h ⊢
    have := (calcQ_again h).1
    exact ⟨this, this, fun h => by rw [ho] at h; cases h⟩
  · rw [if_neg ho] at h ⊢
    rw [Py.do_eq_ok] at h
    obtain ⟨P1, h1, h2⟩ := h
    obtain ⟨h3, fa, fb, fAB, rfl, hA, hB⟩ := calcQ_again h2
    unfold Part.calcProtomolecule at h1
    simp only [Py.do_eq_ok, Py.pure_eq_ok] at h1
    obtain ⟨na, hna, nb, hnb, rfl⟩ := h1
    have hp := proto_of (P := { P with naFrac := _, nbFrac := _, nf := _, fa, fb, fAB })
      ((weighted_same hA).trans hna) ((weighted_same hB).trans hnb)
    refine ⟨?_, h3, fun _ => hp⟩
    rw [Py.do_eq_ok]
    exact ⟨_, hp, h3⟩

/-- What `energy()` writes to a fragment: `V.dFdn`, `V.vhcor`, `Ehcor`. -/
def wrF (f : Frag G r c p) (t : Option (G.Cols p) × Option (G.Cols p) × Option K) : Frag G r c p :=
  ⟨f.ks, { f.v with dFdn := t.1, vhcor := t.2.1, Ehcor := t.2.2 }⟩

/-- The attributes `energy()` writes. -/
structure Written {K : Type} (G : Grid K) (p : ℕ) where
  E : Option (PartEnergy G p)
  h : Option K
  x : Option K
  cc : Option K
  D : Option (G.Fld × G.Fld × G.Fld)
  S : Option K
  F : Option K
  Ehcor : Option K
  a : Option (G.Cols p) × Option (G.Cols p) × Option K
  b : Option (G.Cols p) × Option (G.Cols p) × Option K
  A : Option (G.Cols p) × Option (G.Cols p) × Option K
  B : Option (G.Cols p) × Option (G.Cols p) × Option K

/-- What `energy()` writes. -/
def wr (P : Part G r c p) (w : Written G p) : Part G r c p :=
  { P with E := w.E, EpH := w.h, EpX := w.x, EpC := w.cc, epDens := w.D, S := w.S, F := w.F, Ehcor := w.Ehcor,
           fa := wrF P.fa w.a, fb := wrF P.fb w.b, fAB := P.fAB.map fun q => (wrF q.1 w.A, wrF q.2 w.B) }

theorem wr_wr (P : Part G r c p) (w w' : Written G p) : wr (wr P w) w' = wr P w' := by
  rcases P with ⟨_, _, _, _, _, _, _, _, _ | ⟨A, B⟩⟩ <;> rfl

theorem sums_wr (P : Part G r c p) (w : Written G p) : (wr P w).sumsAB = P.sumsAB := by
  rcases P with ⟨_, _, _, _, _, _, _, _, _ | ⟨A, B⟩⟩ <;> rfl

theorem evals_wr (P : Part G r c p) (w : Written G p) : (wr P w).evalsAB = P.evalsAB := by
  rcases P with ⟨_, _, _, _, _, _, _, _, _ | ⟨A, B⟩⟩ <;> rfl

theorem kinetic_wr (T : Env G r c p) (P : Part G r c p) (hk : P.opt.kin ≠ .twoorbital) (w : Written G p) :
    Part.epKinetic T (wr P w) = P.epKinetic T := by
  have : Part.kineticEnergies T (wr P w) = P.kineticEnergies T := by
    unfold Part.kineticEnergies
    have e : (wr P w).opt = P.opt := rfl
    rw [e]
    cases hkk : P.opt.kin <;>
      first
      | exact absurd hkk hk
      | (rcases P with ⟨⟨_, _, _, _, _ | _, _, _⟩, _, _, _, _, _, _, _, _ | ⟨A, B⟩⟩ <;> rfl)
  unfold Part.epKinetic
  rw [this]
  rfl

theorem comp_wr (T : Env G r c p) (P : Part G r c p) (w : Written G p) (h x cc : K) :
    Part.epComponents T (wr P w) h x cc = P.epComponents T h x cc := by
  rcases P with ⟨_, _, _, _, _, _, _, _, _ | ⟨A, B⟩⟩ <;> rfl

theorem mapA_fix {f : Frag G r c p → Py (Frag G r c p)} {P : Part G r c p} (h : ∀ x ∈ P.compsA, f x = .ok x) :
    P.mapA f = .ok P := by
  rcases P with ⟨_, _, _, _, _, _, _, _, _ | ⟨A, B⟩⟩
  · have := h _ (List.mem_cons_self ..)
    simp only [Part.mapA, this, bind, Except.bind, pure, Except.pure]
  · have h1 := h _ (List.mem_cons_self ..)
    have h2 := h A (List.mem_cons_of_mem _ (List.mem_singleton.2 rfl))
    simp only [Part.mapA, h1, h2, bind, Except.bind, pure, Except.pure]

theorem mapB_fix {f : Frag G r c p → Py (Frag G r c p)} {P : Part G r c p} (h : ∀ x ∈ P.compsB, f x = .ok x) :
    P.mapB f = .ok P := by
  rcases P with ⟨_, _, _, _, _, _, _, _, _ | ⟨A, B⟩⟩
  · have := h _ (List.mem_cons_self ..)
    simp only [Part.mapB, this, bind, Except.bind, pure, Except.pure]
  · have h1 := h _ (List.mem_cons_self ..)
    have h2 := h B (List.mem_cons_of_mem _ (List.mem_singleton.2 rfl))
    simp only [Part.mapB, h1, h2, bind, Except.bind, pure, Except.pure]

/-- The overlap of two densities and the derivative of `F`. -/
def ovS (T : Env G r c p) (na nb : G.Cols p) : K := G.integ fun k => T.sqrt (tot na k * tot nb k)

def ovD (T : Env G r c p) (na nb : G.Cols p) (s : K) (x y : G.Cols p) : G.Cols p := fun j k =>
  T.dErf (2 * ovS T na nb) * 2 * Fl.clean (Fl.mul (.fin (s * (1 / 2))) (rootRatio T (x j k) (y j k)))

/-- The overlap stored in the partition is that of its densities. -/
def FixOv (T : Env G r c p) (P : Part G r c p) : Prop :=
  ∃ na nb, KS.need P.naFrac = .ok na ∧ attr P.nbFrac = .ok nb ∧ P.S = some (ovS T na nb) ∧
    P.F = some (T.erf (2 * ovS T na nb)) ∧
    (∀ f ∈ P.compsA, ∃ s, KS.need f.ks.scale = .ok s ∧ f.v.dFdn = some (ovD T na nb s nb na)) ∧
    ∀ f ∈ P.compsB, ∃ s, KS.need f.ks.scale = .ok s ∧ f.v.dFdn = some (ovD T na nb s na nb)

theorem ov_fix {T : Env G r c p} {P : Part G r c p} (h : FixOv T P) : P.vpOverlap T = .ok P := by
  obtain ⟨na, nb, ha, hb, hS, hF, hA, hB⟩ := h
  have e : ({ P with S := some (ovS T na nb), F := some (T.erf (2 * ovS T na nb)) } : Part G r c p) = P := by
    rw [← hS, ← hF]
  have step : ∀ (f : Frag G r c p) (x y : G.Cols p), (∃ s, KS.need f.ks.scale = .ok s ∧ f.v.dFdn = some (ovD T na nb s x y)) →
      (do
        let s ← KS.need f.ks.scale
        pure { f with v := { f.v with dFdn := some (ovD T na nb s x y) } } : Py (Frag G r c p)) = .ok f := by
    rintro f x y ⟨s, hs, hd⟩
    rw [Py.do_eq_ok]
    refine ⟨s, hs, ?_⟩
    rw [← hd]
    rfl
  unfold Part.vpOverlap
  simp only [Py.do_eq_ok]
  refine ⟨na, ha, nb, hb, P, ?_, ?_⟩
  · refine (congrArg (Part.mapA _) e).trans (mapA_fix fun f hf => step f _ _ (hA f hf))
  · exact mapB_fix fun f hf => step f _ _ (hB f hf)

theorem ov_inv {T : Env G r c p} {P P' : Part G r c p} (h : P.vpOverlap T = .ok P') : FixOv T P' ∧
    ∃ w, P' = wr P w ∧ w.h = P.EpH ∧ w.x = P.EpX ∧ w.cc = P.EpC ∧ w.D = P.epDens := by
  rcases P with ⟨opt, Za, Zb, a, va, vb, fa, fb, _ | ⟨A, B⟩⟩
  · unfold Part.vpOverlap Part.mapA Part.mapB at h
    simp only [Py.do_eq_ok, Py.pure_eq_ok] at h
    obtain ⟨na, hna, nb, hnb, P1, ⟨f1, ⟨s1, hs1, rfl⟩, rfl⟩, f2, ⟨s2, hs2, rfl⟩, h⟩ := h
    simp only [Py.pure_eq_ok] at h
    subst h
    refine ⟨⟨na, nb, hna, hnb, rfl, rfl, ?_, ?_⟩, ⟨_, _, _, _, _, _, _, _, (_, _, _), (_, _, _), (none, none, none),
      (none, none, none)⟩, rfl, rfl, rfl, rfl, rfl⟩
    · intro f hf
      obtain rfl := List.mem_singleton.1 hf
      exact ⟨s1, hs1, rfl⟩
    · intro f hf
      obtain rfl := List.mem_singleton.1 hf
      exact ⟨s2, hs2, rfl⟩
  · unfold Part.vpOverlap Part.mapA Part.mapB at h
    simp only [Py.do_eq_ok, Py.pure_eq_ok] at h
    obtain ⟨na, hna, nb, hnb, P1, ⟨f1, ⟨s1, hs1, rfl⟩, f3, ⟨s3, hs3, rfl⟩, rfl⟩, f2, ⟨s2, hs2, rfl⟩, h⟩ := h
    simp only [Py.do_eq_ok, Py.pure_eq_ok] at h
    obtain ⟨f4, ⟨s4, hs4, rfl⟩, rfl⟩ := h
    refine ⟨⟨na, nb, hna, hnb, rfl, rfl, ?_, ?_⟩, ⟨_, _, _, _, _, _, _, _, (_, _, _), (_, _, _), (_, _, _),
      (_, _, _)⟩, rfl, rfl, rfl, rfl, rfl⟩
    · intro f hf
      rcases List.mem_cons.1 hf with rfl | hf
      · exact ⟨s1, hs1, rfl⟩
      obtain rfl := List.mem_singleton.1 hf
      exact ⟨s3, hs3, rfl⟩
    · intro f hf
      rcases List.mem_cons.1 hf with rfl | hf
      · exact ⟨s2, hs2, rfl⟩
      obtain rfl := List.mem_singleton.1 hf
      exact ⟨s4, hs4, rfl⟩

theorem cor_inv {T : Env G r c p} {P P' : Part G r c p} (hP : FixOv T P) (h : P.ensCorHar = .ok P') : FixOv T P' ∧
    (∀ E', Part.ensCorHar { P' with E := E' } = .ok { P' with E := E' }) ∧ P'.F = P.F ∧
    ∃ w, P' = wr P w ∧ w.h = P.EpH ∧ w.x = P.EpX ∧ w.cc = P.EpC ∧ w.D = P.epDens := by
  rcases P with ⟨opt, Za, Zb, a, va, vb, fa, fb, _ | ⟨A, B⟩⟩
  · exact nomatch h
  · unfold Part.ensCorHar at h
    simp only [Py.do_eq_ok, Py.pure_eq_ok] at h
    obtain ⟨⟨x1, e1⟩, ⟨n1, hn1, v1, hv1, s1, hs1, h1⟩, ⟨x2, e2⟩, ⟨n2, hn2, v2, hv2, s2, hs2, h2⟩,
      ⟨x3, e3⟩, ⟨n3, hn3, v3, hv3, s3, hs3, h3⟩, ⟨x4, e4⟩, ⟨n4, hn4, v4, hv4, s4, hs4, h4⟩, rfl⟩ := h
    cases h1; cases h2; cases h3; cases h4
    obtain ⟨na, nb, hna, hnb, hS, hF, hA, hB⟩ := hP
    refine ⟨⟨na, nb, hna, hnb, hS, hF, ?_, ?_⟩, ?_, rfl, ⟨_, _, _, _, _, _, _, _, (_, _, _), (_, _, _), (_, _, _),
      (_, _, _)⟩, rfl, rfl, rfl, rfl, rfl⟩
    · intro f hf
      rcases List.mem_cons.1 hf with rfl | hf
      · exact hA fa (List.mem_cons_self ..)
      obtain rfl := List.mem_singleton.1 hf
      exact hA A (List.mem_cons_of_mem _ (List.mem_singleton.2 rfl))
    · intro f hf
      rcases List.mem_cons.1 hf with rfl | hf
      · exact hB fb (List.mem_cons_self ..)
      obtain rfl := List.mem_singleton.1 hf
      exact hB B (List.mem_cons_of_mem _ (List.mem_singleton.2 rfl))
    · intro E'
      unfold Part.ensCorHar
      simp only [Py.do_eq_ok, Py.pure_eq_ok]
      exact ⟨(_, _), ⟨n1, hn1, v1, hv1, s1, hs1, rfl⟩, (_, _), ⟨n2, hn2, v2, hv2, s2, hs2, rfl⟩,
        (_, _), ⟨n3, hn3, v3, hv3, s3, hs3, rfl⟩, (_, _), ⟨n4, hn4, v4, hv4, s4, hs4, rfl⟩, rfl⟩

theorem ovE {T : Env G r c p} {P : Part G r c p} (h : FixOv T P) (E' : Option (PartEnergy G p)) :
    FixOv T { P with E := E' } := h

theorem self_wr (P : Part G r c p) : ∃ w, P = wr P w ∧ w.h = P.EpH ∧ w.x = P.EpX ∧ w.cc = P.EpC ∧ w.D = P.epDens := by
  rcases P with ⟨opt, Za, Zb, a, va, vb, fa, fb, _ | ⟨A, B⟩⟩
  · exact ⟨⟨_, _, _, _, _, _, _, _, (_, _, _), (_, _, _), (none, none, none), (none, none, none)⟩, rfl, rfl, rfl, rfl, rfl⟩
  · exact ⟨⟨_, _, _, _, _, _, _, _, (_, _, _), (_, _, _), (_, _, _), (_, _, _)⟩, rfl, rfl, rfl, rfl, rfl⟩

theorem collect_inv {T : Env G r c p} {P P' : Part G r c p} {h x cc e : K} (hc : P.epCollect T h x cc = .ok (P', e)) :
    (∀ E', Part.epCollect T { P' with E := E' } h x cc = .ok ({ P' with E := E' }, e)) ∧
    ∃ w, P' = wr P w ∧ w.h = P.EpH ∧ w.x = P.EpX ∧ w.cc = P.EpC ∧ w.D = P.epDens := by
  have ho : ∀ {Q : Part G r c p} {w : Written G p}, Q = wr P w → ∀ E' : Option (PartEnergy G p),
      ({ Q with E := E' } : Part G r c p).opt = P.opt := by
    rintro _ _ rfl _
    rfl
  unfold Part.epCollect at hc
  cases hx : P.opt.hxc with
  | «exact» =>
    simp only [hx, Py.pure_eq_ok] at hc
    cases hc
    refine ⟨fun E' => ?_, self_wr P⟩
    unfold Part.epCollect
    simp only [hx]
    rfl
  | hartree =>
    simp only [hx, Py.pure_eq_ok] at hc
    cases hc
    refine ⟨fun E' => ?_, self_wr P⟩
    unfold Part.epCollect
    simp only [hx]
    rfl
  | surprisal =>
    simp only [hx] at hc
    exact nomatch hc
  | overlapXc =>
    simp only [hx, Py.do_eq_ok, Py.pure_eq_ok] at hc
    obtain ⟨P1, h1, F, hF, hc⟩ := hc
    cases hc
    obtain ⟨f1, w, hw⟩ := ov_inv h1
    refine ⟨fun E' => ?_, w, hw⟩
    unfold Part.epCollect
    rw [ho hw.1 E', hx]
    simp only [Py.do_eq_ok, Py.pure_eq_ok]
    exact ⟨_, ov_fix (ovE f1 E'), F, hF, rfl⟩
  | overlapHxc =>
    simp only [hx, Py.do_eq_ok, Py.pure_eq_ok] at hc
    obtain ⟨P1, h1, P2, h2, F, hF, e0, he, hc⟩ := hc
    cases hc
    obtain ⟨f1, w, rfl, w1, w2, w3, w4⟩ := ov_inv h1
    obtain ⟨f2, hco, -, w', hw, w1', w2', w3', w4'⟩ := cor_inv f1 h2
    have hw' := hw.trans (wr_wr P w w')
    refine ⟨fun E' => ?_, w', hw', w1'.trans w1, w2'.trans w2, w3'.trans w3, w4'.trans w4⟩
    unfold Part.epCollect
    have hx' : P'.opt.hxc = P.opt.hxc := congrArg PartOpt.hxc (ho hw' none)
    rw [hx] at hx'
    simp only [hx', Py.do_eq_ok, Py.pure_eq_ok]
    exact ⟨_, ov_fix (ovE f2 E'), _, hco E', F, hF, e0, he, rfl⟩
  | overlapHxc2 =>
    simp only [hx, Py.do_eq_ok, Py.pure_eq_ok] at hc
    obtain ⟨P1, h1, P2, h2, F, hF, e0, he, hc⟩ := hc
    cases hc
    obtain ⟨f1, w, rfl, w1, w2, w3, w4⟩ := ov_inv h1
    obtain ⟨f2, hco, -, w', hw, w1', w2', w3', w4'⟩ := cor_inv f1 h2
    have hw' := hw.trans (wr_wr P w w')
    refine ⟨fun E' => ?_, w', hw', w1'.trans w1, w2'.trans w2, w3'.trans w3, w4'.trans w4⟩
    unfold Part.epCollect
    have hx' : P'.opt.hxc = P.opt.hxc := congrArg PartOpt.hxc (ho hw' none)
    rw [hx] at hx'
    simp only [hx', Py.do_eq_ok, Py.pure_eq_ok]
    exact ⟨_, ov_fix (ovE f2 E'), _, hco E', F, hF, e0, he, rfl⟩

theorem setE_wr (P : Part G r c p) (w : Written G p) (E') :
    ({ wr P w with E := E' } : Part G r c p) = wr P { w with E := E' } := rfl

theorem energy_again {T : Env G r c p} {P P' : Part G r c p} (hp : Spec.Readable P.opt) (h : P.energy T = .ok P') :
    P'.energy T = .ok P' ∧ ∃ w, P' = wr P w := by
  unfold Part.energy at h
  simp only [Py.do_eq_ok, Py.pure_eq_ok] at h
  obtain ⟨⟨sa, sb⟩, hs, ⟨P1, pot, kin, hxc, Ep⟩, hpe, ⟨ea, eb⟩, hev, rfl⟩ := h
  obtain ⟨w, rfl, hpart⟩ : ∃ w, P1 = wr P w ∧ ∀ E' : Option (PartEnergy G p),
      Part.partitionEnergy T { P1 with E := E' } (sa.Eh + sb.Eh) (sa.Ex + sb.Ex) (sa.Ec + sb.Ec) =
        .ok ({ P1 with E := E' }, pot, kin, hxc, Ep) := by
    unfold Part.partitionEnergy at hpe
    by_cases hi : P.opt.isolated = true
    · rw [if_pos hi, Py.pure_eq_ok] at hpe
      cases hpe
      obtain ⟨w, hw, -⟩ := self_wr P
      refine ⟨w, hw, fun E' => ?_⟩
      unfold Part.partitionEnergy
      exact if_pos hi
    · rw [if_neg hi] at hpe
      have hk : P.opt.kin ≠ .twoorbital := hp.resolve_left hi
      simp only [Py.do_eq_ok, Py.pure_eq_ok] at hpe
      obtain ⟨pot', hpot, kin', hkin, ⟨P2, hxc'⟩, hh, he⟩ := hpe
      cases he
      unfold Part.epHxc at hh
      simp only [Py.do_eq_ok] at hh
      obtain ⟨⟨x, y, z, d⟩, hc, hh⟩ := hh
      obtain ⟨hcol, w, hw, w1, w2, w3, w4⟩ := collect_inv hh
      obtain ⟨w0, hw0, -⟩ := self_wr P
      have hw' : P2 = wr P w := by
        rw [hw]
        rcases P with ⟨_, _, _, _, _, _, _, _, _ | ⟨A, B⟩⟩ <;> rfl
      refine ⟨w, hw', fun E' => ?_⟩
      have hd : d.or (d.or P.epDens) = d.or P.epDens := by cases d <;> rfl
      have hset : ({ ({ P2 with E := E' } : Part G r c p) with
          EpH := some x, EpX := some y, EpC := some z, epDens := d.or P2.epDens } : Part G r c p) = { P2 with E := E' } := by
        subst hw'
        simp only [wr, w1, w2, w3, w4, hd]
      unfold Part.partitionEnergy
      have hi' : ¬ ({ P2 with E := E' } : Part G r c p).opt.isolated = true := by subst hw'; exact hi
      rw [if_neg hi']
      simp only [Py.do_eq_ok, Py.pure_eq_ok]
      refine ⟨pot, ?_, kin, ?_, (_, hxc'), ?_, rfl⟩
      · subst hw'
        exact hpot
      · subst hw'
        exact (kinetic_wr T P hk { w with E := E' }).trans hkin
      · unfold Part.epHxc
        simp only [Py.do_eq_ok]
        refine ⟨(x, y, z, d), ?_, ?_⟩
        · subst hw'
          exact (comp_wr T P { w with E := E' } _ _ _).trans hc
        · exact (congrArg (fun X => Part.epCollect T X x y z) hset).trans (hcol E')
  refine ⟨?_, _, setE_wr P w _⟩
  unfold Part.energy
  simp only [Py.do_eq_ok, Py.pure_eq_ok]
  exact ⟨_, (sums_wr P { w with E := _ }).trans hs, _, hpart _, (ea, eb), (evals_wr P { w with E := _ }).trans ((evals_wr P w).symm.trans hev), rfl⟩

theorem proto_wr {P : Part G r c p} (w : Written G p) (hq : P.calcProtomolecule = .ok P) :
    (wr P w).calcProtomolecule = .ok (wr P w) := by
  have hA : weighted (wr P w).compsA = weighted P.compsA := by
    rcases P with ⟨_, _, _, _, _, _, _, _, _ | ⟨A, B⟩⟩ <;> rfl
  have hB : weighted (wr P w).compsB = weighted P.compsB := by
    rcases P with ⟨_, _, _, _, _, _, _, _, _ | ⟨A, B⟩⟩ <;> rfl
  unfold Part.calcProtomolecule at hq ⊢
  rw [hA, hB]
  simp only [Py.do_eq_ok, Py.pure_eq_ok] at hq ⊢
  obtain ⟨na, ha, nb, hb, he⟩ := hq
  exact ⟨na, ha, nb, hb, congrArg (fun X => wr X w) he⟩

theorem qStep_wr {nf : G.Cols p} {f : Frag G r c p} (t) (h : qStep nf f = .ok f) : qStep nf (wrF f t) = .ok (wrF f t) := by
  unfold qStep at h ⊢
  simp only [Py.do_eq_ok, Py.pure_eq_ok] at h ⊢
  obtain ⟨n, hn, s, hs, e⟩ := h
  exact ⟨n, hn, s, hs, congrArg (fun X => wrF X t) e⟩

theorem calcQ_wr {P : Part G r c p} (w : Written G p) (hq : P.calcQ = .ok P) : (wr P w).calcQ = .ok (wr P w) := by
  unfold Part.calcQ at hq ⊢
  rw [Py.do_eq_ok] at hq ⊢
  obtain ⟨nf, hnf, hq⟩ := hq
  refine ⟨nf, hnf, ?_⟩
  change P.mapAll (qStep nf) = .ok P at hq
  change Part.mapAll (qStep nf) _ = .ok _
  unfold Part.mapAll at hq ⊢
  rw [Py.do_eq_ok]
  rcases P with ⟨opt, Za, Zb, a, va, vb, fa, fb, _ | ⟨A, B⟩⟩
  · unfold Part.mapA Part.mapB at hq
    simp only [Py.do_eq_ok, Py.pure_eq_ok] at hq
    obtain ⟨P1, ⟨x, hx, rfl⟩, y, hy, hq⟩ := hq
    simp only [Py.pure_eq_ok] at hq
    cases hq
    refine ⟨_, mapA_fix fun f hf => ?_, mapB_fix fun f hf => ?_⟩
    · obtain rfl := List.mem_singleton.1 hf
      exact qStep_wr _ hx
    · obtain rfl := List.mem_singleton.1 hf
      exact qStep_wr _ hy
  · unfold Part.mapA Part.mapB at hq
    simp only [Py.do_eq_ok, Py.pure_eq_ok] at hq
    obtain ⟨P1, ⟨x, hx, x', hx', rfl⟩, y, hy, hq⟩ := hq
    simp only [Py.do_eq_ok, Py.pure_eq_ok] at hq
    obtain ⟨y', hy', hq⟩ := hq
    cases hq
    refine ⟨_, mapA_fix fun f hf => ?_, mapB_fix fun f hf => ?_⟩
    · rcases List.mem_cons.1 hf with rfl | hf
      · exact qStep_wr _ hx
      obtain rfl := List.mem_singleton.1 hf
      exact qStep_wr _ hx'
    · rcases List.mem_cons.1 hf with rfl | hf
      · exact qStep_wr _ hy
      obtain rfl := List.mem_singleton.1 hf
      exact qStep_wr _ hy'

theorem pass_again {T : Env G r c p} {W : KsScf.Workers G r c p} {o : PartScf.Options K} {dif : Fl K} {P P' : Part G r c p}
    (hp : Spec.Readable P.opt) (h : PartScf.pass T W o dif P = .ok P') :
    Spec.Readable P'.opt ∧ P'.calcQ = .ok P' ∧ (o.fromTarget = false → P'.calcProtomolecule = .ok P') ∧ P'.energy T = .ok P' := by
  obtain ⟨_, _, _, _, _, P6, _, -, -, -, -, -, h6, h7, -, -, -, -, -, o6, o7⟩ := PartScf.pass_inv h
  obtain ⟨-, hq, hm⟩ := promolecule_again h6
  obtain ⟨he, w, rfl⟩ := energy_again (by rw [o6.1]; exact hp) h7
  exact ⟨by rw [o7.1]; exact hp, calcQ_wr w hq, fun ho => proto_wr w (hm ho), he⟩

end UpToDate

/-- `energy()` once more changes nothing. -/
theorem C135_energy (T : Env G r c p) (P P' : Part G r c p) (hp : Spec.Readable P.opt) (h : P.energy T = .ok P') :
    P'.energy T = .ok P' :=
  (UpToDate.energy_again hp h).1

/-- C135. After a partition calculation that made at least one pass, the promolecule, the weights of the fragments and
the energies belong to the fragments' final densities: computing them once more changes no attribute. -/
theorem C135_fresh (T : ℕ → Env G r c p) (W : ℕ → KsScf.Workers G r c p) (o : PartScf.Options K) (P P' : Part G r c p)
    (log : List (Fl K)) (w : ℕ) (hp : Spec.Readable P.opt) (h : PartScf.scf T W o P = .ok (P', log, w)) (hl : log ≠ []) :
    P'.calcQ = .ok P' ∧ (o.fromTarget = false → P'.calcProtomolecule = .ok P') ∧ ∃ i, P'.energy (T i) = .ok P' := by
  obtain ⟨S, nf, st, h0, -, hr, rfl⟩ := PartScf.scf_inv h
  have hS : Spec.Readable S.opt := by rw [(PartScf.start_inv h0).1.1]; exact hp
  obtain ⟨t, d, ht, hb⟩ := PartScf.loop_last (PartScf.body T W o) (fun st => Spec.Readable st.P.opt)
    (fun s s' d hs hb => (UpToDate.pass_again (by
      have : (PartScf.avoid s.it s.P).opt = s.P.opt := by unfold PartScf.avoid; split <;> rfl
      rw [this]; exact hs) (PartScf.body_inv hb)).1) _ _ _ _ _ _ _ _ hS hr hl
  have ht' : (PartScf.avoid t.it t.P).opt = t.P.opt := by unfold PartScf.avoid; split <;> rfl
  obtain ⟨-, h1, h2, h3⟩ := UpToDate.pass_again (by rw [ht']; exact ht) (PartScf.body_inv hb)
  exact ⟨h1, h2, _, h3⟩

/-- A calculation of no passes leaves the promolecule and the weights up to date, too; there is no energy yet. -/
theorem C135_start (W : KsScf.Workers G r c p) (o : PartScf.Options K) (P P' : Part G r c p)
    (h : PartScf.start W o P = .ok P') :
    P'.calcQ = .ok P' ∧ (o.fromTarget = false → P'.calcProtomolecule = .ok P') := by
  unfold PartScf.start at h
  simp only [Py.do_eq_ok] at h
  obtain ⟨_, -, _, -, _, -, h⟩ := h
  exact (UpToDate.promolecule_again h).2

/-- Before the calculation: the scale factors are set by the constructor, but without energies of the fragments `energy()`
raises AttributeError, and without a promolecule so does `calc_Q()` on fragments with densities. -/
theorem C135_before (T : Env G r c p) (P : Part G r c p) :
    (P.fa.ks.scale ≠ none → P.fa.ks.E = none → P.energy T = .error .attributeError) ∧
    (P.fa.ks.scale ≠ none → P.fa.ks.n ≠ none → P.nf = none → P.calcQ = .error .attributeError) := by
  refine ⟨fun hs hE => ?_, fun _ _ hn => ?_⟩
  · obtain ⟨s, hs⟩ := Option.ne_none_iff_exists'.1 hs
    simp [Part.energy, sumsAB, fragSums, compsA, Sums.addComp, hs, hE, KS.need, attr, bind, Except.bind, List.foldlM]
  · simp [Part.calcQ, hn, attr, bind, Except.bind]

namespace Sample135

/-- A partition that was only constructed. -/
example : (Sample.part { kin := .none }).energy Sample.T = .error .attributeError :=
  (C135_before _ _).1 nofun rfl

/-- Two passes. -/
example : ∃ P log w, Sample.run { etol := 0, maxIter := 2, alpha := [1] } { kin := .none } = .ok (P, log, w) ∧ log ≠ [] ∧
    P.nf ≠ none ∧ P.calcQ = .ok P ∧ P.calcProtomolecule = .ok P ∧ P.energy Sample.T = .ok P := by
  obtain ⟨P, l, w, h1, h2⟩ := Sample.run_ok { etol := 0, maxIter := 2, alpha := [1] } { kin := .none }
    (fun x => (x.2.1.length, x.1.nf.isSome)) (2, true) (by decide +kernel)
  have hl : l ≠ [] := by rintro rfl; exact absurd (congrArg Prod.fst h2) (show ¬(0 = 2) by decide)
  obtain ⟨a, b, i, e⟩ := C135_fresh (fun _ => Sample.T) (fun _ => Sample.W) _ _ _ _ _ (.inr (by decide)) h1 hl
  refine ⟨P, l, w, h1, hl, ?_, a, b rfl, e⟩
  intro hn
  have := congrArg Prod.snd h2
  simp only [hn] at this
  exact absurd this (by decide)

/-- A run, after which the option is changed to the overlap approximation: `energy()` now also writes `F` and its
derivatives, the second call nothing. -/
example : ∃ P P' : Part Sample.G 1 1 1, P.opt.hxc = .overlapXc ∧ P.F = none ∧ P.energy Sample.T = .ok P' ∧ P'.F ≠ none ∧
    P'.fa.v.dFdn ≠ none ∧ P'.energy Sample.T = .ok P' := by
  obtain ⟨P, l, w, h1, h2⟩ := Sample.run_ok { etol := 0, maxIter := 1, alpha := [1] } { kin := .none }
    (fun x => (x.1.F.isSome, ((Part.energy Sample.T { x.1 with opt := { kin := .none, hxc := .overlapXc } }).toOption.map
      fun Q => (Q.F.isSome, Q.fa.v.dFdn.isSome)))) (false, some (true, true)) (by decide +kernel)
  simp only [Prod.mk.injEq] at h2
  cases he : Part.energy Sample.T { P with opt := { kin := .none, hxc := .overlapXc } } with
  | error e => rw [he] at h2; exact nomatch h2.2
  | ok Q =>
    rw [he] at h2
    have h3 := Prod.mk.inj (Option.some.inj h2.2)
    refine ⟨{ P with opt := { kin := .none, hxc := .overlapXc } }, Q, rfl, Option.isSome_eq_false_iff.1 h2.1 |> Option.isNone_iff_eq_none.1, he, ?_, ?_, ?_⟩
    · intro hn
      rw [hn] at h3
      exact nomatch h3.1
    · intro hn
      rw [hn] at h3
      exact nomatch h3.2
    · exact C135_energy _ _ _ (.inr (nofun : KinPart.none ≠ .twoorbital)) he

end Sample135
end Verif
