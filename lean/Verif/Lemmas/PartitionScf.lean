import Verif.Lemmas.PartitionPotential
import Verif.Lemmas.KsScf
import Verif.Model.PartitionScf

/-! # One pass of `Partition.scf` -/

namespace Verif
open Part
variable {K : Type} [Field K] [LinearOrder K] [IsStrictOrderedRing K] [FloorRing K]
variable {G : Grid K} {r c p : ℕ}

/-! ## External potential, weight and mixing parameter through the Kohn-Sham steps -/

namespace KS

/-- Attributes the Kohn-Sham steps leave alone. -/
structure Ext (a b : KS G r c p) : Prop where
  vext : b.vext = a.vext
  scale : b.scale = a.scale
  alpha : b.alpha = a.alpha
  kind : b.kind = a.kind
  vnuc : b.vnuc = a.vnuc

theorem Ext.refl (a : KS G r c p) : Ext a a := ⟨rfl, rfl, rfl, rfl, rfl⟩

theorem Ext.trans {a b d : KS G r c p} (h : Ext a b) (h' : Ext b d) : Ext a d :=
  ⟨h'.1.trans h.1, h'.2.trans h.2, h'.3.trans h.3, h'.4.trans h.4, h'.5.trans h.5⟩

theorem setEffectivePotential_ext {a b : KS G r c p} (h : a.setEffectivePotential = .ok b) : Ext a b := by
  unfold setEffectivePotential at h
  simp only [Py.do_eq_ok, Py.pure_eq_ok] at h
  obtain ⟨_, _, _, _, s, hs, rfl⟩ := h
  exact ⟨rfl, rfl, rfl, rfl, rfl⟩

theorem calcHxc_ext {F : Functionals G p} {a b : KS G r c p} (h : a.calcHxc F = .ok b) : Ext a b := by
  unfold calcHxc at h
  rw [Py.do_eq_ok] at h
  obtain ⟨m, hm, h⟩ := h
  have h1 : Ext a m := by
    unfold rawHxc at hm
    cases hk : a.kind with
    | ni =>
      rw [hk] at hm
      simp only [Py.pure_eq_ok] at hm
      subst hm; exact ⟨rfl, rfl, rfl, hk.symm ▸ rfl, rfl⟩
    | dft =>
      rw [hk] at hm
      simp only [Py.do_eq_ok, Py.pure_eq_ok] at hm
      obtain ⟨_, _, ⟨_, _, _⟩, _, ⟨_, _, _⟩, _, _, _, rfl⟩ := hm
      exact ⟨rfl, rfl, rfl, hk.symm ▸ rfl, rfl⟩
  simp only [Py.do_eq_ok, Py.pure_eq_ok] at h
  obtain ⟨_, _, rfl⟩ := h
  split
  · exact h1.trans ⟨rfl, rfl, rfl, rfl, rfl⟩
  · exact h1

theorem calcDensity_ext {d : Fin r × Fin c → Option (Found G)} {a b : KS G r c p} {n : G.Cols p}
    (h : a.calcDensity d = .ok (b, n)) : Ext a b ∧ b.n = a.n := by
  unfold calcDensity at h
  simp only [Py.do_eq_ok, Py.pure_eq_ok] at h
  obtain ⟨_, _, _, _, h⟩ := h
  obtain ⟨rfl, -⟩ := Prod.mk.inj h
  exact ⟨⟨rfl, rfl, rfl, rfl, rfl⟩, rfl⟩

theorem calcChempot_ext {a b : KS G r c p} (h : a.calcChempot = .ok b) : Ext a b := by
  unfold calcChempot at h
  simp only [Py.do_eq_ok, Py.pure_eq_ok] at h
  obtain ⟨_, _, _, _, rfl⟩ := h
  exact ⟨rfl, rfl, rfl, rfl, rfl⟩

theorem energy_ext {F : Functionals G p} {a b : KS G r c p} (h : a.energy F = .ok b) : Ext a b := by
  unfold energy at h
  rw [Py.do_eq_ok] at h
  obtain ⟨⟨_, _, _, _⟩, -, h⟩ := h
  cases hk : a.kind with
  | ni =>
    rw [hk] at h
    simp only [Py.do_eq_ok, Py.pure_eq_ok] at h
    obtain ⟨_, _, _, _, rfl⟩ := h
    exact ⟨rfl, rfl, rfl, hk.symm ▸ rfl, rfl⟩
  | dft =>
    rw [hk] at h
    simp only [Py.do_eq_ok, Py.pure_eq_ok] at h
    obtain ⟨_, _, _, _, _, _, _, _, _, _, ⟨_, _, _⟩, _, ⟨_, _, _⟩, _, rfl⟩ := h
    exact ⟨rfl, rfl, rfl, hk.symm ▸ rfl, rfl⟩

end KS

namespace PartScf

/-- `P'` differs from `P` at most in the components. -/
def SameBut (P P' : Part G r c p) : Prop :=
  ∃ (a b : Frag G r c p) (AB : Option (Frag G r c p × Frag G r c p)), P' = { P with fa := a, fb := b, fAB := AB }

theorem mapB_inv {f : Frag G r c p → Py (Frag G r c p)} {P P' : Part G r c p} (h : P.mapB f = .ok P') :
    SameBut P P' ∧ List.Forall₂ (fun x y => f x = .ok y) P.compsB P'.compsB ∧ P'.compsA = P.compsA := by
  unfold mapB at h
  cases hAB : P.fAB with
  | none =>
    rw [hAB] at h
    simp only [Py.do_eq_ok, Py.pure_eq_ok] at h
    obtain ⟨a, ha, rfl⟩ := h
    refine ⟨⟨P.fa, a, none, by cases P; rfl⟩, ?_, by simp only [compsA, hAB]⟩
    simp only [compsB, hAB]; exact .cons ha .nil
  | some x =>
    obtain ⟨A, B⟩ := x
    rw [hAB] at h
    simp only [Py.do_eq_ok, Py.pure_eq_ok] at h
    obtain ⟨a, ha, A', hA, rfl⟩ := h
    refine ⟨⟨P.fa, a, _, by cases P; rfl⟩, ?_, ?_⟩
    · simp only [compsB, hAB]; exact .cons ha (.cons hA .nil)
    · simp only [compsA, hAB]; rfl

theorem mapA_inv {f : Frag G r c p → Py (Frag G r c p)} {P P' : Part G r c p} (h : P.mapA f = .ok P') :
    SameBut P P' ∧ List.Forall₂ (fun x y => f x = .ok y) P.compsA P'.compsA ∧ P'.compsB = P.compsB := by
  unfold mapA at h
  cases hAB : P.fAB with
  | none =>
    rw [hAB] at h
    simp only [Py.do_eq_ok, Py.pure_eq_ok] at h
    obtain ⟨a, ha, rfl⟩ := h
    refine ⟨⟨a, P.fb, none, by cases P; rfl⟩, ?_, by simp only [compsB, hAB]⟩
    simp only [compsA, hAB]; exact .cons ha .nil
  | some x =>
    obtain ⟨A, B⟩ := x
    rw [hAB] at h
    simp only [Py.do_eq_ok, Py.pure_eq_ok] at h
    obtain ⟨a, ha, A', hA, rfl⟩ := h
    refine ⟨⟨a, P.fb, _, by cases P; rfl⟩, ?_, ?_⟩
    · simp only [compsA, hAB]; exact .cons ha (.cons hA .nil)
    · simp only [compsB, hAB]; rfl

theorem onKSab_inv {f : Frag G r c p → Py (Frag G r c p)} {P P' : Part G r c p} (h : onKSab f P = .ok P') :
    SameBut P P' ∧ List.Forall₂ (fun x y => f x = .ok y) P.compsA P'.compsA ∧
    (P.opt.abSym = true → P'.compsB = P.compsB) ∧
    (P.opt.abSym = false → List.Forall₂ (fun x y => f x = .ok y) P.compsB P'.compsB) := by
  unfold onKSab at h
  cases hab : P.opt.abSym with
  | true =>
    rw [hab, if_pos rfl] at h
    obtain ⟨h1, h2, h3⟩ := mapA_inv h
    exact ⟨h1, h2, fun _ => h3, fun h => nomatch h⟩
  | false =>
    rw [hab, if_neg (by decide)] at h
    obtain ⟨h1, h2, h3⟩ := mapAll_inv h
    exact ⟨h1, h2, (fun h => nomatch h), fun _ => h3⟩

theorem mirrorAB_inv {P P' : Part G r c p} (h : P.mirrorAB = .ok P') :
    SameBut P P' ∧ P'.compsA = P.compsA ∧
    ∃ l : List (Frag G r c p), l = P.compsB ∧
      List.Forall₂ (fun (x : Frag G r c p × Frag G r c p) y => mirrorOf x.1 x.2 = .ok y) (P.compsA.zip P.compsB)
        P'.compsB := by
  unfold mirrorAB at h
  cases hAB : P.fAB with
  | none =>
    rw [hAB] at h
    simp only [Py.do_eq_ok, Py.pure_eq_ok] at h
    obtain ⟨a, ha, rfl⟩ := h
    refine ⟨⟨P.fa, a, none, by cases P; rfl⟩, by simp only [compsA, hAB], _, rfl, ?_⟩
    simp only [compsA, compsB, hAB]
    exact .cons ha .nil
  | some x =>
    obtain ⟨A, B⟩ := x
    rw [hAB] at h
    simp only [Py.do_eq_ok, Py.pure_eq_ok] at h
    obtain ⟨a, ha, A', hA, rfl⟩ := h
    refine ⟨⟨P.fa, a, _, by cases P; rfl⟩, ?_, _, rfl, ?_⟩
    · simp only [compsA, hAB]; rfl
    · simp only [compsA, compsB, hAB]
      exact .cons ha (.cons hA .nil)

theorem mirrorIf_inv {P P' : Part G r c p} (h : mirrorIf P = .ok P') :
    SameBut P P' ∧ P'.compsA = P.compsA ∧ (P.opt.abSym = false → P' = P) ∧
    (P.opt.abSym = true → List.Forall₂ (fun (x : Frag G r c p × Frag G r c p) y => mirrorOf x.1 x.2 = .ok y)
      (P.compsA.zip P.compsB) P'.compsB) := by
  unfold mirrorIf at h
  cases hab : P.opt.abSym with
  | true =>
    rw [hab, if_pos rfl] at h
    obtain ⟨h1, h2, _, -, h3⟩ := mirrorAB_inv h
    exact ⟨h1, h2, (fun h => nomatch h), fun _ => h3⟩
  | false =>
    rw [hab, if_neg (by decide)] at h
    obtain rfl := Except.ok.inj h
    exact ⟨⟨P.fa, P.fb, P.fAB, by cases P; rfl⟩, rfl, (fun _ => rfl), fun h => nomatch h⟩

/-- Only `Q` is new. -/
def NewQ (f g : Frag G r c p) : Prop := g = ⟨{ f.ks with Q := g.ks.Q }, f.v⟩ ∧ ∃ Q, g.ks.Q = some Q

theorem calcQ_inv {P P' : Part G r c p} (h : P.calcQ = .ok P') :
    SameBut P P' ∧ List.Forall₂ NewQ P.compsA P'.compsA ∧ List.Forall₂ NewQ P.compsB P'.compsB ∧
    ∃ nf, P.nf = some nf := by
  unfold calcQ at h
  rw [Py.do_eq_ok] at h
  obtain ⟨nf, hnf, h⟩ := h
  obtain ⟨h1, h2, h3⟩ := mapAll_inv h
  have : ∀ x y : Frag G r c p, (do
      let n ← KS.need x.ks.n
      let s ← KS.need x.ks.scale
      pure { x with ks := { x.ks with
        Q := some fun j k => Fl.clean (Fl.div (.fin (s * n j k)) (.fin (nf j k))) } } : Py (Frag G r c p)) = .ok y →
      NewQ x y := by
    intro x y hxy
    simp only [Py.do_eq_ok, Py.pure_eq_ok] at hxy
    obtain ⟨_, _, _, _, rfl⟩ := hxy
    exact ⟨rfl, _, rfl⟩
  exact ⟨h1, h2.imp this, h3.imp this, nf, attr_eq_ok.mp hnf⟩

theorem promolecule_inv {o : Options K} {P P' : Part G r c p} (h : promolecule o P = .ok P') :
    P'.opt = P.opt ∧ (P'.Za = P.Za ∧ P'.Zb = P.Zb ∧ P'.a = P.a) ∧
    P'.vh = P.vh ∧ (P'.ex = P.ex ∧ P'.ec = P.ec) ∧ (∃ nf, P'.nf = some nf) ∧
    List.Forall₂ NewQ P.compsA P'.compsA ∧ List.Forall₂ NewQ P.compsB P'.compsB := by
  unfold promolecule at h
  cases ho : o.fromTarget with
  | true =>
    rw [ho, if_pos rfl] at h
    obtain ⟨⟨a, b, AB, h1⟩, h2, h3, nf, hnf⟩ := calcQ_inv h
    refine ⟨by rw [h1], by rw [h1]; exact ⟨rfl, rfl, rfl⟩, by rw [h1], by rw [h1]; exact ⟨rfl, rfl⟩, ⟨nf, by rw [h1]; exact hnf⟩, h2, h3⟩
  | false =>
    rw [ho, if_neg (by decide)] at h
    unfold calcProtomolecule at h
    simp only [Py.do_eq_ok, Py.pure_eq_ok] at h
    obtain ⟨P₁, ⟨na, -, nb, -, rfl⟩, h⟩ := h
    obtain ⟨⟨a, b, AB, h1⟩, h2, h3, nf, hnf⟩ := calcQ_inv h
    refine ⟨by rw [h1], by rw [h1]; exact ⟨rfl, rfl, rfl⟩, by rw [h1], by rw [h1]; exact ⟨rfl, rfl⟩, ⟨nf, by rw [h1]; exact hnf⟩, h2, h3⟩

/-- Options and nuclei are the same. -/
def SameOpt (P P' : Part G r c p) : Prop := P'.opt = P.opt ∧ P'.Za = P.Za ∧ P'.Zb = P.Zb ∧ P'.a = P.a

theorem SameBut.opt {P P' : Part G r c p} (h : SameBut P P') : SameOpt P P' := by
  obtain ⟨a, b, AB, rfl⟩ := h
  exact ⟨rfl, rfl, rfl, rfl⟩

theorem SameOpt.trans {P P' P'' : Part G r c p} (h : SameOpt P P') (h' : SameOpt P' P'') : SameOpt P P'' :=
  ⟨h'.1.trans h.1, h'.2.1.trans h.2.1, h'.2.2.1.trans h.2.2.1, h'.2.2.2.trans h.2.2.2⟩

theorem _root_.Verif.Part.Frame.sameOpt {P P' : Part G r c p} (h : Frame P P') : SameOpt P P' := ⟨h.opt, h.Z⟩

theorem potential_inv {T : Env G r c p} {P P' : Part G r c p} {vp : G.Cols p} (h : potential T P = .ok (P', vp)) :
    Frame P P' := by
  unfold potential at h
  cases hi : P.opt.isolated with
  | true =>
    rw [hi, if_pos rfl] at h
    simp only [Py.do_eq_ok, Py.pure_eq_ok] at h
    obtain ⟨nf, -, Q, hQ, h⟩ := h
    obtain ⟨rfl, -⟩ := Prod.mk.inj h
    unfold onKSab at hQ
    have hf : ∀ x y : Frag G r c p, (pure ⟨x.ks, { x.v with vp := some fun _ _ => 0 }⟩ : Py (Frag G r c p)) = .ok y →
        y.ks = x.ks ∧ y.v.frozen = x.v.frozen := by
      intro x y hxy
      obtain rfl := Except.ok.inj hxy
      exact ⟨rfl, rfl⟩
    cases hab : P.opt.abSym with
    | true =>
      rw [hab, if_pos rfl] at hQ
      exact frame_mapA hQ hf
    | false =>
      rw [hab, if_neg (by decide)] at hQ
      exact frame_mapAll hQ hf
  | false =>
    rw [hi, if_neg (by decide)] at h
    exact partitionPotential_frame h

/-- The intermediate states of a pass. -/
theorem pass_inv {T : Env G r c p} {W : KsScf.Workers G r c p} {o : Options K} {dif : Fl K} {P P' : Part G r c p}
    (h : pass T W o dif P = .ok P') :
    ∃ (P₁ P₂ P₃ P₄ P₅ P₆ : Part G r c p) (vp : G.Cols p),
      onKSab (hxcUpdate T.toFunctionals) P = .ok P₁ ∧ mirrorIf P₁ = .ok P₂ ∧ potential T P₂ = .ok (P₃, vp) ∧
      onKSab (fragment T.toFunctionals W o dif vp) P₃ = .ok P₄ ∧ mirrorIf P₄ = .ok P₅ ∧
      promolecule o P₅ = .ok P₆ ∧ P₆.energy T = .ok P' ∧
      SameOpt P P₁ ∧ SameOpt P P₂ ∧ SameOpt P P₃ ∧ SameOpt P P₄ ∧ SameOpt P P₅ ∧ SameOpt P P₆ ∧ SameOpt P P' := by
  unfold pass at h
  simp only [Py.do_eq_ok] at h
  obtain ⟨P₁, h1, P₂, h2, ⟨P₃, vp⟩, h3, P₄, h4, P₅, h5, P₆, h6, h7⟩ := h
  have o1 := (onKSab_inv h1).1.opt
  have o2 := o1.trans (mirrorIf_inv h2).1.opt
  have o3 := o2.trans (potential_inv h3).sameOpt
  have o4 := o3.trans (onKSab_inv h4).1.opt
  have o5 := o4.trans (mirrorIf_inv h5).1.opt
  have o6 := o5.trans ⟨(promolecule_inv h6).1, (promolecule_inv h6).2.1⟩
  have o7 := o6.trans (energy_frame h7).sameOpt
  exact ⟨P₁, P₂, P₃, P₄, P₅, P₆, vp, h1, h2, h3, h4, h5, h6, h7, o1, o2, o3, o4, o5, o6, o7⟩

/-- Every invariant of the body is one of the loop. -/
theorem loop_inv {S : Type} (step : S → Py (S × Fl K)) (P : S → Prop)
    (hstep : ∀ s s' d, P s → step s = .ok (s', d) → P s') (auto : Bool) (etol : K) :
    ∀ (left : ℕ) (dif : Fl K) (s s' : S) (log) (w), P s → loop step auto etol left dif s = .ok (s', log, w) →
      P s' := by
  intro left
  induction left with
  | zero =>
    intro dif s s' log w hP h
    unfold loop at h
    split at h
    · split at h
      · exact nomatch h
      · simp only [Except.ok.injEq, Prod.mk.injEq] at h; exact h.1 ▸ hP
    · simp only [Except.ok.injEq, Prod.mk.injEq] at h; exact h.1 ▸ hP
  | succ left ih =>
    intro dif s s' log w hP h
    unfold loop at h
    split at h
    · split at h
      · exact nomatch h
      · simp only [Except.ok.injEq, Prod.mk.injEq] at h; exact h.1 ▸ hP
    · simp only [Py.do_eq_ok, Py.pure_eq_ok] at h
      obtain ⟨⟨t, d⟩, ht, ⟨t', log', w'⟩, ht', h⟩ := h
      simp only [Prod.mk.injEq] at h
      obtain ⟨rfl, -⟩ := h
      exact ih _ _ _ _ _ (hstep _ _ _ hP ht) ht'

/-- A loop that made a pass ends with a state some pass returned. -/
theorem loop_last {S : Type} (step : S → Py (S × Fl K)) (P : S → Prop)
    (hstep : ∀ s s' d, P s → step s = .ok (s', d) → P s') (auto : Bool) (etol : K) :
    ∀ (left : ℕ) (dif : Fl K) (s s' : S) (log) (w), P s → loop step auto etol left dif s = .ok (s', log, w) →
      log ≠ [] → ∃ t d, P t ∧ step t = .ok (s', d) := by
  intro left
  induction left with
  | zero =>
    intro dif s s' log w hP h hl
    unfold loop at h
    split at h
    · split at h
      · exact nomatch h
      · simp only [Except.ok.injEq, Prod.mk.injEq] at h; exact absurd h.2.1.symm hl
    · simp only [Except.ok.injEq, Prod.mk.injEq] at h; exact absurd h.2.1.symm hl
  | succ left ih =>
    intro dif s s' log w hP h hl
    unfold loop at h
    split at h
    · split at h
      · exact nomatch h
      · simp only [Except.ok.injEq, Prod.mk.injEq] at h; exact absurd h.2.1.symm hl
    · simp only [Py.do_eq_ok, Py.pure_eq_ok] at h
      obtain ⟨⟨t, d⟩, ht, ⟨t', log', w'⟩, ht', h⟩ := h
      simp only [Prod.mk.injEq] at h
      obtain ⟨rfl, -⟩ := h
      by_cases hlog : log' = []
      · subst hlog
        -- the rest made no pass
        have e : t' = t := by
          cases left with
          | zero =>
            unfold loop at ht'
            split at ht'
            · split at ht'
              · exact nomatch ht'
              · simp only [Except.ok.injEq, Prod.mk.injEq] at ht'; exact ht'.1.symm
            · simp only [Except.ok.injEq, Prod.mk.injEq] at ht'; exact ht'.1.symm
          | succ left =>
            unfold loop at ht'
            split at ht'
            · split at ht'
              · exact nomatch ht'
              · simp only [Except.ok.injEq, Prod.mk.injEq] at ht'; exact ht'.1.symm
            · simp only [Py.do_eq_ok, Py.pure_eq_ok] at ht'
              obtain ⟨_, _, ⟨_, _, _⟩, _, ht'⟩ := ht'
              simp only [Prod.mk.injEq] at ht'
              exact nomatch ht'.2.1
        subst e
        exact ⟨s, d, hP, ht⟩
      · exact ih _ _ _ _ _ (hstep _ _ _ hP ht) ht' hlog

theorem body_inv {T : ℕ → Env G r c p} {W : ℕ → KsScf.Workers G r c p} {o : Options K} {st st' : State G r c p}
    {d : Fl K} (h : body T W o st = .ok (st', d)) :
    pass (T st.it) (W st.it) o st.dif (avoid st.it st.P) = .ok st'.P := by
  unfold body at h
  simp only [Py.do_eq_ok, Py.pure_eq_ok] at h
  obtain ⟨P, hP, e, -, nf, -, ⟨E, dE⟩, -, dn, -, k, -, h⟩ := h
  simp only [Prod.mk.injEq] at h
  obtain ⟨rfl, -⟩ := h
  exact hP

theorem avoid_same (it : ℕ) (P : Part G r c p) :
    SameOpt P (avoid it P) ∧ (avoid it P).compsA = P.compsA ∧ (avoid it P).compsB = P.compsB ∧
    (avoid it P).nf = P.nf := by
  unfold avoid
  split
  · exact ⟨⟨rfl, rfl, rfl, rfl⟩, rfl, rfl, rfl⟩
  · exact ⟨⟨rfl, rfl, rfl, rfl⟩, rfl, rfl, rfl⟩

theorem scf_inv {T : ℕ → Env G r c p} {W : ℕ → KsScf.Workers G r c p} {o : Options K} {P P' : Part G r c p}
    {log : List (Fl K)} {w : ℕ} (h : scf T W o P = .ok (P', log, w)) :
    ∃ (P₀ : Part G r c p) (nf : G.Cols p) (st : State G r c p), start (W 0) o P = .ok P₀ ∧ P₀.nf = some nf ∧
      loop (body T W o) o.autoTol o.etol o.maxIter.toNat (.fin 10) ⟨P₀, .fin 0, nf, .fin 10, 1, 0⟩ =
        .ok (st, log, w) ∧ P' = st.P := by
  unfold scf at h
  simp only [Py.do_eq_ok, Py.pure_eq_ok] at h
  obtain ⟨P₀, h0, nf, hnf, ⟨st, lg, ww⟩, hrun, h⟩ := h
  simp only [Prod.mk.injEq] at h
  obtain ⟨rfl, rfl, rfl⟩ := h
  exact ⟨P₀, nf, st, h0, attr_eq_ok.mp hnf, hrun, rfl⟩

/-! ## External potentials and the frozen flag -/

theorem fragment_inv {F : Functionals G p} {W : KsScf.Workers G r c p} {o : Options K} {dif : Fl K} {vp : G.Cols p}
    {f g : Frag G r c p} (h : fragment F W o dif vp f = .ok g) :
    g.v = f.v ∧ (f.v.frozen = some true → g.ks.vext = f.ks.vext) ∧
    (f.v.frozen ≠ some true → g.ks.vext = match o.calcType with | .pdft => some vp | .sdft => f.v.vp) := by
  unfold fragment at h
  simp only [Py.do_eq_ok, Py.pure_eq_ok] at h
  obtain ⟨f₁, h1, k₂, h2, ⟨k₃, nout⟩, h3, k₄, h4, al, -, n, -, k₅, h5, rfl⟩ := h
  have hv : k₅.vext = f₁.ks.vext := by
    have h6 := (KS.energy_ext h5).vext
    rw [h6]
    exact (KS.calcChempot_ext h4).vext.trans ((KS.calcDensity_ext h3).1.vext.trans
      (KS.setEffectivePotential_ext h2).vext)
  unfold external at h1
  by_cases hf : f.v.frozen = some true
  · rw [if_pos hf] at h1
    obtain rfl := Except.ok.inj h1
    exact ⟨rfl, fun _ => hv, fun h => absurd hf h⟩
  · rw [if_neg hf] at h1
    cases ho : o.calcType with
    | pdft =>
      rw [ho] at h1
      obtain rfl := Except.ok.inj h1
      exact ⟨rfl, fun h => absurd h hf, fun _ => hv⟩
    | sdft =>
      rw [ho] at h1
      simp only [Py.do_eq_ok, Py.pure_eq_ok] at h1
      obtain ⟨v, hvv, rfl⟩ := h1
      exact ⟨rfl, fun h => absurd h hf, fun _ => hv.trans (attr_eq_ok.mp hvv).symm⟩

theorem hxcUpdate_inv {F : Functionals G p} {f g : Frag G r c p} (h : hxcUpdate F f = .ok g) :
    g.v = f.v ∧ KS.Ext f.ks g.ks := by
  unfold hxcUpdate at h
  simp only [Py.do_eq_ok, Py.pure_eq_ok] at h
  obtain ⟨k, h1, _, _, rfl⟩ := h
  exact ⟨rfl, KS.calcHxc_ext h1⟩

theorem mirrorOf_frozen {A B B' : Frag G r c p} (h : mirrorOf A B = .ok B') :
    B'.v.frozen = B.v.frozen ∧ (∃ v, A.ks.vext = some v ∧ B'.ks.vext = some (G.mirCols v)) ∧
    B'.v.vp = (A.v.vp.map G.mirCols).or B.v.vp := by
  unfold mirrorOf at h
  simp only [Py.do_eq_ok, Py.pure_eq_ok] at h
  obtain ⟨_, _, _, _, v, hv, rfl⟩ := h
  exact ⟨rfl, ⟨v, attr_eq_ok.mp hv, rfl⟩, rfl⟩

/-- A frozen component keeps its external potential. -/
def Hold (f g : Frag G r c p) : Prop :=
  g.v.frozen = f.v.frozen ∧ (f.v.frozen = some true → g.ks.vext = f.ks.vext)

theorem Hold.refl (f : Frag G r c p) : Hold f f := ⟨rfl, fun _ => rfl⟩

theorem Hold.trans {f g h : Frag G r c p} (a : Hold f g) (b : Hold g h) : Hold f h :=
  ⟨b.1.trans a.1, fun hf => (b.2 (a.1.trans hf)).trans (a.2 hf)⟩

theorem NewQ.hold {f g : Frag G r c p} (h : NewQ f g) : Hold f g := by
  rw [h.1]; exact ⟨rfl, fun _ => rfl⟩

theorem zip_frozen {x y : List (Frag G r c p)} (hl : x.length = y.length) {z : List (Frag G r c p)}
    (h : List.Forall₂ (fun (x : Frag G r c p × Frag G r c p) y => mirrorOf x.1 x.2 = .ok y) (x.zip y) z) :
    List.Forall₂ (fun f g => g.v.frozen = f.v.frozen) y z := by
  induction x generalizing y z with
  | nil =>
    cases y with
    | nil => cases h; exact .nil
    | cons => simp at hl
  | cons a x ih =>
    cases y with
    | nil => simp at hl
    | cons b y =>
      rw [List.zip_cons_cons] at h
      cases h with
      | cons e r' => exact .cons (mirrorOf_frozen e).1 (ih (by simpa using hl) r')

theorem comps_length (P : Part G r c p) : P.compsA.length = P.compsB.length := by
  unfold compsA compsB
  cases P.fAB <;> rfl

theorem sameFrozen (l : List (Frag G r c p)) : List.Forall₂ (fun f g => g.v.frozen = f.v.frozen) l l :=
  forall₂_self (R := fun f g : Frag G r c p => g.v.frozen = f.v.frozen) (fun _ => rfl) l

theorem mem_right {α β : Type*} {R : α → β → Prop} {l : List α} {m : List β} (h : List.Forall₂ R l m) {y : β}
    (hy : y ∈ m) : ∃ x ∈ l, R x y := by
  induction h with
  | nil => exact nomatch hy
  | cons e _ ih =>
    rcases List.mem_cons.mp hy with rfl | hy
    · exact ⟨_, List.mem_cons_self .., e⟩
    · obtain ⟨x, hx, h⟩ := ih hy
      exact ⟨x, List.mem_cons_of_mem _ hx, h⟩

/-- What a step does to frozen flags and external potentials of frozen components. -/
structure Holds (P P' : Part G r c p) : Prop where
  opt : SameOpt P P'
  A : List.Forall₂ Hold P.compsA P'.compsA
  B : List.Forall₂ (fun f g => g.v.frozen = f.v.frozen) P.compsB P'.compsB
  B' : P.opt.abSym = false → List.Forall₂ Hold P.compsB P'.compsB

theorem Holds.refl (P : Part G r c p) : Holds P P :=
  ⟨⟨rfl, rfl, rfl, rfl⟩, forall₂_self Hold.refl _, sameFrozen _, fun _ => forall₂_self Hold.refl _⟩

theorem Holds.trans {P Q R : Part G r c p} (h : Holds P Q) (h' : Holds Q R) : Holds P R :=
  ⟨h.opt.trans h'.opt, forall₂_trans (R := Hold) (S := Hold) (fun _ _ _ => Hold.trans) h.A h'.A,
    forall₂_trans (fun _ _ _ a b => b.trans a) h.B h'.B,
    fun hs => forall₂_trans (R := Hold) (S := Hold) (fun _ _ _ => Hold.trans) (h.B' hs) (h'.B' (h.opt.1 ▸ hs))⟩

theorem onKSab_holds {f : Frag G r c p → Py (Frag G r c p)} {P P' : Part G r c p} (h : onKSab f P = .ok P')
    (hf : ∀ x y, f x = .ok y → Hold x y) : Holds P P' := by
  obtain ⟨h1, h2, h3, h4⟩ := onKSab_inv h
  refine ⟨h1.opt, h2.imp fun x y => hf x y, ?_, fun hs => (h4 hs).imp fun x y => hf x y⟩
  cases hs : P.opt.abSym with
  | true => rw [h3 hs]; exact sameFrozen _
  | false => exact (h4 hs).imp fun x y hxy => (hf x y hxy).1

theorem mirrorIf_holds {P P' : Part G r c p} (h : mirrorIf P = .ok P') : Holds P P' := by
  obtain ⟨h1, h2, h3, h4⟩ := mirrorIf_inv h
  refine ⟨h1.opt, by rw [h2]; exact forall₂_self Hold.refl _, ?_, fun hs => by
    rw [h3 hs]; exact forall₂_self Hold.refl _⟩
  cases hs : P.opt.abSym with
  | false => rw [h3 hs]; exact sameFrozen _
  | true => exact zip_frozen (comps_length P) (h4 hs)

theorem _root_.Verif.Part.Frame.holds {P P' : Part G r c p} (h : Frame P P') : Holds P P' := by
  have e : ∀ f g : Frag G r c p, g.ks = f.ks ∧ g.v.frozen = f.v.frozen → Hold f g :=
    fun f g h => ⟨h.2, fun _ => by rw [h.1]⟩
  exact ⟨h.sameOpt, h.ksA.imp e, h.ksB.imp fun _ _ h => h.2, fun _ => h.ksB.imp e⟩

theorem promolecule_holds {o : Options K} {P P' : Part G r c p} (h : promolecule o P = .ok P') : Holds P P' := by
  obtain ⟨h1, h2, -, -, -, h3, h4⟩ := promolecule_inv h
  exact ⟨⟨h1, h2⟩, h3.imp fun _ _ => NewQ.hold, h4.imp fun _ _ h => (NewQ.hold h).1, fun _ => h4.imp fun _ _ => NewQ.hold⟩

theorem pass_holds {T : Env G r c p} {W : KsScf.Workers G r c p} {o : Options K} {dif : Fl K} {P P' : Part G r c p}
    (h : pass T W o dif P = .ok P') : Holds P P' := by
  obtain ⟨P₁, P₂, P₃, P₄, P₅, P₆, vp, h1, h2, h3, h4, h5, h6, h7, -⟩ := pass_inv h
  refine (onKSab_holds h1 fun x y hxy => ?_).trans <| (mirrorIf_holds h2).trans <| (potential_inv h3).holds.trans <|
    (onKSab_holds h4 fun x y hxy => ?_).trans <| (mirrorIf_holds h5).trans <| (promolecule_holds h6).trans
    (energy_frame h7).holds
  · obtain ⟨e1, e2⟩ := hxcUpdate_inv hxy
    exact ⟨by rw [e1], fun _ => e2.vext⟩
  · obtain ⟨e1, e2, -⟩ := fragment_inv hxy
    exact ⟨by rw [e1], e2⟩

theorem avoid_holds (it : ℕ) (P : Part G r c p) : Holds P (avoid it P) := by
  obtain ⟨h1, h2, h3, -⟩ := avoid_same it P
  exact ⟨h1, by rw [h2]; exact forall₂_self Hold.refl _, by rw [h3]; exact sameFrozen _,
    fun _ => by rw [h3]; exact forall₂_self Hold.refl _⟩

theorem body_holds {T : ℕ → Env G r c p} {W : ℕ → KsScf.Workers G r c p} {o : Options K} {st st' : State G r c p}
    {d : Fl K} (h : body T W o st = .ok (st', d)) : Holds st.P st'.P :=
  (avoid_holds st.it st.P).trans (pass_holds (body_inv h))

/-- The flags and external potentials with which the loop starts. -/
theorem guess_inv {W : KsScf.Workers G r c p} {o : Options K} {f g : Frag G r c p} (h : guess W o f = .ok g) :
    g.v = f.v ∧ g.ks.vext = if o.continuing then f.ks.vext else some fun _ _ => 0 := by
  unfold guess at h
  cases ho : o.continuing with
  | true =>
    rw [ho, if_pos rfl] at h
    split at h
    · exact nomatch h
    · obtain rfl := Except.ok.inj h
      exact ⟨rfl, rfl⟩
  | false =>
    rw [ho, if_neg (by decide)] at h
    simp only [Py.do_eq_ok, Py.pure_eq_ok] at h
    obtain ⟨k₁, h1, ⟨k₂, n⟩, h2, k₃, h3, rfl⟩ := h
    refine ⟨rfl, ?_⟩
    have e := (KS.calcChempot_ext h3).vext
    rw [e]
    exact (KS.calcDensity_ext h2).1.vext.trans (KS.setEffectivePotential_ext h1).vext

theorem setup_inv {o : Options K} {P P' : Part G r c p} (h : setup o P = .ok P') :
    SameBut P P' ∧
    List.Forall₂ (fun f g => g.v.frozen = some o.freezeA ∧ g.ks.vext = f.ks.vext) P.compsA P'.compsA ∧
    List.Forall₂ (fun f g => g.v.frozen = some o.freezeB ∧ g.ks.vext = f.ks.vext) P.compsB P'.compsB := by
  have key : ∀ x y : K, SameBut P (setup.go o P x y) ∧
      List.Forall₂ (fun f g => g.v.frozen = some o.freezeA ∧ g.ks.vext = f.ks.vext) P.compsA (setup.go o P x y).compsA ∧
      List.Forall₂ (fun f g => g.v.frozen = some o.freezeB ∧ g.ks.vext = f.ks.vext) P.compsB (setup.go o P x y).compsB := by
    intro x y
    refine ⟨⟨_, _, _, rfl⟩, ?_, ?_⟩
    · unfold setup.go compsA
      cases P.fAB with
      | none => exact .cons ⟨rfl, rfl⟩ .nil
      | some AB => exact .cons ⟨rfl, rfl⟩ (.cons ⟨rfl, rfl⟩ .nil)
    · unfold setup.go compsB
      cases P.fAB with
      | none => exact .cons ⟨rfl, rfl⟩ .nil
      | some AB => exact .cons ⟨rfl, rfl⟩ (.cons ⟨rfl, rfl⟩ .nil)
  unfold setup at h
  split at h
  · obtain rfl := Except.ok.inj h; exact key _ _
  · obtain rfl := Except.ok.inj h; exact key _ _
  · exact nomatch h

/-- Frozen flag and external potential after the initial guess. -/
theorem start_inv {W : KsScf.Workers G r c p} {o : Options K} {P P' : Part G r c p} (h : start W o P = .ok P') :
    SameOpt P P' ∧
    List.Forall₂ (fun f g => g.v.frozen = some o.freezeA ∧
      g.ks.vext = if o.continuing then f.ks.vext else some fun _ _ => 0) P.compsA P'.compsA ∧
    (∀ g ∈ P'.compsB, g.v.frozen = some o.freezeB) ∧
    (P.opt.abSym = false → List.Forall₂ (fun f g => g.ks.vext =
      if o.continuing then f.ks.vext else some fun _ _ => 0) P.compsB P'.compsB) := by
  unfold start at h
  simp only [Py.do_eq_ok] at h
  obtain ⟨P₁, h1, P₂, h2, P₃, h3, h4⟩ := h
  obtain ⟨a1, a2, a3⟩ := setup_inv h1
  obtain ⟨b1, b2, b3, b4⟩ := onKSab_inv h2
  obtain ⟨c1, c2, c3, c4⟩ := mirrorIf_inv h3
  obtain ⟨d1, d2, -, -, -, d3, d4⟩ := promolecule_inv h4
  have hopt : SameOpt P P₁ := a1.opt
  refine ⟨hopt.trans (b1.opt.trans (c1.opt.trans ⟨d1, d2⟩)), ?_, ?_, ?_⟩
  · have e1 := forall₂_trans (U := fun f g => g.v.frozen = some o.freezeA ∧
      g.ks.vext = if o.continuing then f.ks.vext else some fun _ _ => 0) (fun x y z hx hy => by
        obtain ⟨g1, g2⟩ := guess_inv hy
        exact ⟨by rw [g1]; exact hx.1, by rw [g2, hx.2]⟩) a2 b2
    rw [← c2] at e1
    exact forall₂_trans (fun x y z hx hy => by rw [hy.1]; exact hx) e1 d3
  · have e0 : ∀ g ∈ P₁.compsB, g.v.frozen = some o.freezeB := fun g hg => by
      obtain ⟨f, _, hf⟩ := mem_right a3 hg
      exact hf.1
    have e1 : List.Forall₂ (fun f g => g.v.frozen = f.v.frozen) P₁.compsB P₂.compsB := by
      cases hs : P₁.opt.abSym with
      | true => rw [b3 hs]; exact sameFrozen _
      | false => exact (b4 hs).imp fun x y hxy => by rw [(guess_inv hxy).1]
    have e2 := forall₂_trans (U := fun f g => g.v.frozen = f.v.frozen) (fun x y z hx hy => hy.trans hx) e1 (mirrorIf_holds h3).B
    have e3 := forall₂_trans (U := fun f g => g.v.frozen = f.v.frozen) (fun x y z hx hy => hy.trans hx) e2
      (d4.imp fun _ _ h => (NewQ.hold h).1)
    intro g hg
    obtain ⟨f, hf, e⟩ := mem_right e3 hg
    exact e.trans (e0 f hf)
  · intro hs
    have hs1 : P₁.opt.abSym = false := by rw [hopt.1]; exact hs
    have hs2 : P₂.opt.abSym = false := by rw [b1.opt.1]; exact hs1
    have e1 := forall₂_trans (U := fun f g =>
      g.ks.vext = if o.continuing then f.ks.vext else some fun _ _ => 0) (fun x y z hx hy => by
        obtain ⟨g1, g2⟩ := guess_inv hy
        rw [g2, hx.2]) a3 (b4 hs1)
    rw [c3 hs2] at d4
    exact forall₂_trans (fun x y z hx hy => by rw [hy.1]; exact hx) e1 d4

end PartScf
end Verif
