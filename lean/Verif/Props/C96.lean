import Verif.Lemmas.PartitionScfSample

/-! # C96: options of `Partition.scf` act on the fragment they are for, in every pass -/

namespace Verif
open Part PartScf
variable {K : Type} [Field K] [LinearOrder K] [IsStrictOrderedRing K] [FloorRing K]
variable {G : Grid K} {r c p : ℕ}

/-- Mixing parameter of fragment A: the first entry of `alpha`. -/
def Spec.mixingA (l : List K) : Option K := l[0]?

/-- Mixing parameter of fragment B: the second entry of `alpha`, the only one if there is one. -/
def Spec.mixingB (l : List K) : Option K := if l.length = 1 then l[0]? else l[1]?

/-- Every component has the mixing parameter and the freezing switch of its fragment. -/
structure Spec.Settings (o : Options K) (P : Part G r c p) : Prop where
  length : o.alpha.length = 1 ∨ o.alpha.length = 2
  A : ∀ f ∈ P.compsA, f.v.frozen = some o.freezeA ∧ f.ks.alpha = mixingA o.alpha
  B : ∀ f ∈ P.compsB, f.v.frozen = some o.freezeB ∧ f.ks.alpha = mixingB o.alpha

/-- `g` is the component `f` after a pass: the new density of its Kohn-Sham problem, mixed into the old
one with weight `α`.  The Kohn-Sham problem has the nuclear potential and the weight of the component,
and if frozen its old external potential. -/
def Spec.Mixed (W : KsScf.Workers G r c p) (α : K) (f g : Frag G r c p) : Prop :=
  ∃ (n nout : G.Cols p) (k k' : KS G r c p) (it : Bool),
    f.ks.n = some n ∧ k.calcDensity (W k it) = .ok (k', nout) ∧
    k.vnuc = f.ks.vnuc ∧ k.scale = f.ks.scale ∧ (f.v.frozen = some true → k.vext = f.ks.vext) ∧
    g.ks.n = some fun j x => (1 - α) * n j x + α * nout j x

open Spec

namespace PartScf

/-- Same density, parameters and switches. -/
structure Same (f g : Frag G r c p) : Prop where
  n : g.ks.n = f.ks.n
  alpha : g.ks.alpha = f.ks.alpha
  frozen : g.v.frozen = f.v.frozen
  vnuc : g.ks.vnuc = f.ks.vnuc
  scale : g.ks.scale = f.ks.scale
  vext : g.ks.vext = f.ks.vext

theorem Same.refl (f : Frag G r c p) : Same f f := ⟨rfl, rfl, rfl, rfl, rfl, rfl⟩

theorem Same.trans {f g h : Frag G r c p} (a : Same f g) (b : Same g h) : Same f h :=
  ⟨b.1.trans a.1, b.2.trans a.2, b.3.trans a.3, b.4.trans a.4, b.5.trans a.5, b.6.trans a.6⟩

theorem Same.of_ks {f g : Frag G r c p} (h : g.ks = f.ks ∧ g.v.frozen = f.v.frozen) : Same f g :=
  ⟨by rw [h.1], by rw [h.1], h.2, by rw [h.1], by rw [h.1], by rw [h.1]⟩

theorem NewQ.same {f g : Frag G r c p} (h : NewQ f g) : Same f g := by
  rw [h.1]; exact ⟨rfl, rfl, rfl, rfl, rfl, rfl⟩

theorem hxcUpdate_same {F : Functionals G p} {f g : Frag G r c p} (h : hxcUpdate F f = .ok g) : Same f g := by
  unfold hxcUpdate at h
  simp only [Py.do_eq_ok, Py.pure_eq_ok] at h
  obtain ⟨k, h1, _, _, rfl⟩ := h
  have e := KS.calcHxc_ext h1
  exact ⟨(KS.calcHxc_keeps h1).2, e.alpha, rfl, e.vnuc, e.scale, e.vext⟩

/-- Switch and parameter. -/
def Set' (f g : Frag G r c p) : Prop := g.v.frozen = f.v.frozen ∧ g.ks.alpha = f.ks.alpha

theorem mirrorOf_set {A B B' : Frag G r c p} (h : mirrorOf A B = .ok B') : Set' B B' := by
  unfold mirrorOf at h
  simp only [Py.do_eq_ok, Py.pure_eq_ok] at h
  obtain ⟨_, _, _, _, v, hv, rfl⟩ := h
  exact ⟨rfl, rfl⟩

theorem zip_set {x y : List (Frag G r c p)} (hl : x.length = y.length) {z : List (Frag G r c p)}
    (h : List.Forall₂ (fun (x : Frag G r c p × Frag G r c p) y => mirrorOf x.1 x.2 = .ok y) (x.zip y) z) :
    List.Forall₂ Set' y z := by
  induction x generalizing y z with
  | nil =>
    cases y with
    | nil => cases h; exact .nil
    | cons => simp at hl
  | cons a x ih =>
    cases y with
    | nil => simp at hl
    | cons b y =>
      rw [List.zip_cons_cons] at h
      cases h with
      | cons e r' => exact .cons (mirrorOf_set e) (ih (by simpa using hl) r')

theorem zip_mirror {x y : List (Frag G r c p)} (hl : x.length = y.length) {z : List (Frag G r c p)}
    (h : List.Forall₂ (fun (x : Frag G r c p × Frag G r c p) y => mirrorOf x.1 x.2 = .ok y) (x.zip y) z) :
    List.Forall₂ (fun f g => ∃ n, f.ks.n = some n ∧ g.ks.n = some (G.mirCols n)) x z := by
  induction x generalizing y z with
  | nil =>
    cases y with
    | nil => cases h; exact .nil
    | cons => simp at hl
  | cons a x ih =>
    cases y with
    | nil => simp at hl
    | cons b y =>
      rw [List.zip_cons_cons] at h
      cases h with
      | cons e r' =>
        refine .cons ?_ (ih (by simpa using hl) r')
        unfold mirrorOf at e
        simp only [Py.do_eq_ok, Py.pure_eq_ok] at e
        obtain ⟨n, hn, _, _, v, hv, rfl⟩ := e
        exact ⟨n, attr_eq_ok.mp hn, rfl⟩

/-- One fragment in one pass. -/
theorem fragment_mixed {F : Functionals G p} {W : KsScf.Workers G r c p} {o : Options K} {dif : Fl K}
    {vp : G.Cols p} {f g : Frag G r c p} (h : fragment F W o dif vp f = .ok g) :
    Set' f g ∧ ∀ α, f.ks.alpha = some α → Mixed W α f g := by
  unfold fragment at h
  simp only [Py.do_eq_ok, Py.pure_eq_ok] at h
  obtain ⟨f₁, h1, k₂, h2, ⟨k₃, nout⟩, h3, k₄, h4, al, hal, n, hn, k₅, h5, rfl⟩ := h
  have e1 : f₁.v = f.v ∧ f₁.ks.alpha = f.ks.alpha ∧ f₁.ks.n = f.ks.n ∧ f₁.ks.vnuc = f.ks.vnuc ∧
      f₁.ks.scale = f.ks.scale ∧ (f.v.frozen = some true → f₁.ks.vext = f.ks.vext) := by
    unfold external at h1
    by_cases hf : f.v.frozen = some true
    · rw [if_pos hf] at h1
      obtain rfl := Except.ok.inj h1
      exact ⟨rfl, rfl, rfl, rfl, rfl, fun _ => rfl⟩
    · rw [if_neg hf] at h1
      cases ho : o.calcType with
      | pdft =>
        rw [ho] at h1
        obtain rfl := Except.ok.inj h1
        exact ⟨rfl, rfl, rfl, rfl, rfl, fun h => absurd h hf⟩
      | sdft =>
        rw [ho] at h1
        simp only [Py.do_eq_ok, Py.pure_eq_ok] at h1
        obtain ⟨v, hvv, rfl⟩ := h1
        exact ⟨rfl, rfl, rfl, rfl, rfl, fun h => absurd h hf⟩
  obtain ⟨a1, a2, a3, a4, a5, a6⟩ := e1
  have x2 := KS.setEffectivePotential_ext h2
  have x3 := KS.calcDensity_ext h3
  have x4 := KS.calcChempot_ext h4
  have x5 := KS.energy_ext h5
  have eal : k₄.alpha = f.ks.alpha := x4.alpha.trans (x3.1.alpha.trans (x2.alpha.trans a2))
  have en : k₄.n = f.ks.n := (KS.calcChempot_keeps h4).2.trans (x3.2.trans
    ((KS.setEffectivePotential_keeps h2).2.trans a3))
  refine ⟨⟨by rw [a1], x5.alpha.trans eal⟩, fun α hα => ?_⟩
  have e : al = α := by
    have := attr_eq_ok.mp hal
    rw [eal, hα] at this
    exact (Option.some.inj this).symm
  subst e
  refine ⟨n, nout, k₂, k₃, _, by rw [← en]; exact need_eq_ok.mp hn, h3, x2.vnuc.trans a4, x2.scale.trans a5,
    fun hf => x2.vext.trans (a6 hf), ?_⟩
  exact (KS.energy_keeps h5).2

theorem Mixed.congr {W : KsScf.Workers G r c p} {α : K} {f f' g g' : Frag G r c p} (h : Mixed W α f' g)
    (hf : Same f f') (hg : Same g g') : Mixed W α f g' := by
  obtain ⟨n, nout, k, k', it, h1, h2, h3, h4, h5, h6⟩ := h
  exact ⟨n, nout, k, k', it, by rw [← hf.n]; exact h1, h2, h3.trans hf.vnuc, h4.trans hf.scale,
    fun h => (h5 (hf.frozen.trans h)).trans hf.vext, by rw [hg.n]; exact h6⟩

theorem forall₂_left {α β : Type*} {R S : α → β → Prop} {l : List α} {m : List β} (h : List.Forall₂ R l m)
    (hs : ∀ x ∈ l, ∀ y, R x y → S x y) : List.Forall₂ S l m := by
  induction h with
  | nil => exact .nil
  | cons e _ ih => exact .cons (hs _ (List.mem_cons_self ..) _ e) (ih fun x hx => hs x (List.mem_cons_of_mem _ hx))

theorem Set'.refl (f : Frag G r c p) : Set' f f := ⟨rfl, rfl⟩

theorem Set'.trans {f g h : Frag G r c p} (a : Set' f g) (b : Set' g h) : Set' f h :=
  ⟨b.1.trans a.1, b.2.trans a.2⟩

theorem Same.set {f g : Frag G r c p} (h : Same f g) : Set' f g := ⟨h.frozen, h.alpha⟩

/-- Parameters and switches of all components. -/
structure Sets (P P' : Part G r c p) : Prop where
  A : List.Forall₂ Set' P.compsA P'.compsA
  B : List.Forall₂ Set' P.compsB P'.compsB

theorem Sets.refl (P : Part G r c p) : Sets P P := ⟨forall₂_self Set'.refl _, forall₂_self Set'.refl _⟩

theorem Sets.trans {P Q R : Part G r c p} (h : Sets P Q) (h' : Sets Q R) : Sets P R :=
  ⟨forall₂_trans (R := Set') (S := Set') (fun _ _ _ => Set'.trans) h.A h'.A, forall₂_trans (R := Set') (S := Set') (fun _ _ _ => Set'.trans) h.B h'.B⟩

theorem onKSab_sets {f : Frag G r c p → Py (Frag G r c p)} {P P' : Part G r c p} (h : onKSab f P = .ok P')
    (hf : ∀ x y, f x = .ok y → Set' x y) : Sets P P' := by
  obtain ⟨-, h2, h3, h4⟩ := onKSab_inv h
  refine ⟨h2.imp fun x y => hf x y, ?_⟩
  cases hs : P.opt.abSym with
  | true => rw [h3 hs]; exact forall₂_self Set'.refl _
  | false => exact (h4 hs).imp fun x y => hf x y

theorem mirrorIf_sets {P P' : Part G r c p} (h : mirrorIf P = .ok P') : Sets P P' := by
  obtain ⟨-, h2, h3, h4⟩ := mirrorIf_inv h
  refine ⟨by rw [h2]; exact forall₂_self Set'.refl _, ?_⟩
  cases hs : P.opt.abSym with
  | false => rw [h3 hs]; exact forall₂_self Set'.refl _
  | true => exact zip_set (comps_length P) (h4 hs)

theorem promolecule_sets {o : Options K} {P P' : Part G r c p} (h : promolecule o P = .ok P') : Sets P P' := by
  obtain ⟨-, -, -, -, -, h3, h4⟩ := promolecule_inv h
  exact ⟨h3.imp fun _ _ h => (NewQ.same h).set, h4.imp fun _ _ h => (NewQ.same h).set⟩

theorem _root_.Verif.Part.Frame.sets {P P' : Part G r c p} (h : Frame P P') : Sets P P' :=
  ⟨h.ksA.imp fun _ _ h => (Same.of_ks h).set, h.ksB.imp fun _ _ h => (Same.of_ks h).set⟩

theorem guess_set {W : KsScf.Workers G r c p} {o : Options K} {f g : Frag G r c p} (h : guess W o f = .ok g) :
    Set' f g := by
  refine ⟨by rw [(guess_inv h).1], ?_⟩
  unfold guess at h
  cases ho : o.continuing with
  | true =>
    rw [ho, if_pos rfl] at h
    split at h
    · exact nomatch h
    · obtain rfl := Except.ok.inj h; rfl
  | false =>
    rw [ho, if_neg (by decide)] at h
    simp only [Py.do_eq_ok, Py.pure_eq_ok] at h
    obtain ⟨k₁, h1, ⟨k₂, n⟩, h2, k₃, h3, rfl⟩ := h
    exact (KS.calcChempot_ext h3).alpha.trans ((KS.calcDensity_ext h2).1.alpha.trans
      (KS.setEffectivePotential_ext h1).alpha)

theorem Sets.settings {o : Options K} {P P' : Part G r c p} (h : Sets P P') (hs : Settings o P) : Settings o P' := by
  refine ⟨hs.length, fun g hg => ?_, fun g hg => ?_⟩
  · obtain ⟨f, hf, e⟩ := mem_right h.A hg
    exact ⟨e.1.trans (hs.A f hf).1, e.2.trans (hs.A f hf).2⟩
  · obtain ⟨f, hf, e⟩ := mem_right h.B hg
    exact ⟨e.1.trans (hs.B f hf).1, e.2.trans (hs.B f hf).2⟩

theorem setup_settings {o : Options K} {P P' : Part G r c p} (h : setup o P = .ok P') : Settings o P' := by
  unfold setup at h
  split at h
  · rename_i x hx
    obtain rfl := Except.ok.inj h
    refine ⟨.inl (by rw [hx]; rfl), fun f hf => ?_, fun f hf => ?_⟩
    · unfold compsA setup.go at hf
      rw [hx]
      cases hAB : P.fAB <;> simp [hAB] at hf <;> [subst hf; obtain rfl | rfl := hf] <;> exact ⟨rfl, rfl⟩
    · unfold compsB setup.go at hf
      rw [hx]
      cases hAB : P.fAB <;> simp [hAB] at hf <;> [subst hf; obtain rfl | rfl := hf] <;> exact ⟨rfl, rfl⟩
  · rename_i x y hx
    obtain rfl := Except.ok.inj h
    refine ⟨.inr (by rw [hx]; rfl), fun f hf => ?_, fun f hf => ?_⟩
    · unfold compsA setup.go at hf
      rw [hx]
      cases hAB : P.fAB <;> simp [hAB] at hf <;> [subst hf; obtain rfl | rfl := hf] <;> exact ⟨rfl, rfl⟩
    · unfold compsB setup.go at hf
      rw [hx]
      cases hAB : P.fAB <;> simp [hAB] at hf <;> [subst hf; obtain rfl | rfl := hf] <;> exact ⟨rfl, rfl⟩
  · exact nomatch h

theorem start_settings {W : KsScf.Workers G r c p} {o : Options K} {P P' : Part G r c p}
    (h : start W o P = .ok P') : Settings o P' := by
  unfold start at h
  simp only [Py.do_eq_ok] at h
  obtain ⟨P₁, h1, P₂, h2, P₃, h3, h4⟩ := h
  exact ((onKSab_sets h2 fun _ _ => guess_set).trans ((mirrorIf_sets h3).trans (promolecule_sets h4))).settings
    (setup_settings h1)

/-- What a pass does to the components. -/
theorem pass_mixed {T : Env G r c p} {W : KsScf.Workers G r c p} {o : Options K} {dif : Fl K} {P P' : Part G r c p}
    (h : pass T W o dif P = .ok P') :
    Sets P P' ∧ SameOpt P P' ∧
    List.Forall₂ (fun f g => ∀ α, f.ks.alpha = some α → Mixed W α f g) P.compsA P'.compsA ∧
    (P.opt.abSym = false →
      List.Forall₂ (fun f g => ∀ α, f.ks.alpha = some α → Mixed W α f g) P.compsB P'.compsB) ∧
    (P.opt.abSym = true →
      List.Forall₂ (fun f g => ∃ n, f.ks.n = some n ∧ g.ks.n = some (G.mirCols n)) P'.compsA P'.compsB) := by
  obtain ⟨P₁, P₂, P₃, P₄, P₅, P₆, vp, h1, h2, h3, h4, h5, h6, h7, o1, o2, o3, o4, o5, o6, o7⟩ := pass_inv h
  have hset : Sets P P' := (onKSab_sets h1 fun _ _ h => (hxcUpdate_same h).set).trans <| (mirrorIf_sets h2).trans <|
    (potential_inv h3).sets.trans <| (onKSab_sets h4 fun _ _ h => (fragment_mixed h).1).trans <|
    (mirrorIf_sets h5).trans <| (promolecule_sets h6).trans (energy_frame h7).sets
  obtain ⟨-, a1, -, a4⟩ := onKSab_inv h1
  obtain ⟨-, b1, b2, -⟩ := mirrorIf_inv h2
  have fr := potential_inv h3
  obtain ⟨-, d1, -, d4⟩ := onKSab_inv h4
  obtain ⟨-, e1, e2, e3⟩ := mirrorIf_inv h5
  obtain ⟨-, -, -, -, -, f1, f2⟩ := promolecule_inv h6
  have g := energy_frame h7
  have sA : List.Forall₂ Same P.compsA P₃.compsA := by
    refine forall₂_trans (R := Same) (S := Same) (fun _ _ _ => Same.trans) (a1.imp fun _ _ => hxcUpdate_same) ?_
    rw [← b1]
    exact fr.ksA.imp fun _ _ => Same.of_ks
  have tA : List.Forall₂ Same P₄.compsA P'.compsA := by
    rw [← e1]
    exact forall₂_trans (R := Same) (S := Same) (fun _ _ _ => Same.trans) (f1.imp fun _ _ => NewQ.same) (g.ksA.imp fun _ _ => Same.of_ks)
  have comb : ∀ {l₁ l₂ l₃ l₄ : List (Frag G r c p)}, List.Forall₂ Same l₁ l₂ →
      List.Forall₂ (fun x y => fragment T.toFunctionals W o dif vp x = .ok y) l₂ l₃ → List.Forall₂ Same l₃ l₄ →
      List.Forall₂ (fun f g => ∀ α, f.ks.alpha = some α → Mixed W α f g) l₁ l₄ := by
    intro l₁ l₂ l₃ l₄ x y z
    refine forall₂_trans (R := Same)
      (S := fun f g => ∀ α, f.ks.alpha = some α → Mixed W α f g) (fun a b d hab hbd α hα =>
      Mixed.congr (hbd α (Same.alpha hab |>.trans hα)) hab (Same.refl _)) x ?_
    exact forall₂_trans (S := Same) (fun a b d hab hbd α hα => Mixed.congr ((fragment_mixed hab).2 α hα) (Same.refl _) hbd) y z
  refine ⟨hset, o7, comb sA d1 tA, fun hs => ?_, fun hs => ?_⟩
  · have hs2 : P₁.opt.abSym = false := by rw [o1.1]; exact hs
    have hs3 : P₃.opt.abSym = false := by rw [o3.1]; exact hs
    have hs4 : P₄.opt.abSym = false := by rw [o4.1]; exact hs
    have sB : List.Forall₂ Same P.compsB P₃.compsB := by
      refine forall₂_trans (R := Same) (S := Same) (fun _ _ _ => Same.trans) ((a4 hs).imp fun _ _ => hxcUpdate_same) ?_
      rw [← b2 hs2]
      exact fr.ksB.imp fun _ _ => Same.of_ks
    have tB : List.Forall₂ Same P₄.compsB P'.compsB := by
      rw [← e2 hs4]
      exact forall₂_trans (R := Same) (S := Same) (fun _ _ _ => Same.trans) (f2.imp fun _ _ => NewQ.same) (g.ksB.imp fun _ _ => Same.of_ks)
    exact comb sB (d4 hs3) tB
  · have hs4 : P₄.opt.abSym = true := by rw [o4.1]; exact hs
    have m := zip_mirror (comps_length P₄) (e3 hs4)
    have tB : List.Forall₂ Same P₅.compsB P'.compsB :=
      forall₂_trans (R := Same) (S := Same) (fun _ _ _ => Same.trans) (f2.imp fun _ _ => NewQ.same) (g.ksB.imp fun _ _ => Same.of_ks)
    have m2 := forall₂_trans (U := fun f g => ∃ n, f.ks.n = some n ∧ g.ks.n = some (G.mirCols n))
      (fun a b d hab hbd => by
        obtain ⟨n, hn, hb⟩ := hab
        exact ⟨n, hn, by rw [hbd.n]; exact hb⟩) m tB
    exact forall₂_trans (S := fun f g => ∃ n, f.ks.n = some n ∧ g.ks.n = some (G.mirCols n))
      (R := fun f g => Same g f) (fun a b d hab hbd => by
        obtain ⟨n, hn, hb⟩ := hbd
        exact ⟨n, by rw [hab.n]; exact hn, hb⟩) (List.Forall₂.flip tA) m2

/-- The states a loop goes through. -/
theorem loop_trace {S : Type} (step : S → Py (S × Fl K)) (auto : Bool) (etol : K) :
    ∀ (left : ℕ) (dif : Fl K) (s s' : S) (log) (w), loop step auto etol left dif s = .ok (s', log, w) →
      ∃ f : ℕ → S, f 0 = s ∧ f log.length = s' ∧
        ∀ i < log.length, ∃ d, log[i]? = some d ∧ step (f i) = .ok (f (i + 1), d) := by
  intro left
  induction left with
  | zero =>
    intro dif s s' log w h
    unfold loop at h
    split at h
    · split at h
      · exact nomatch h
      · simp only [Except.ok.injEq, Prod.mk.injEq] at h
        obtain ⟨rfl, rfl, -⟩ := h
        exact ⟨fun _ => s, rfl, rfl, fun i hi => nomatch hi⟩
    · simp only [Except.ok.injEq, Prod.mk.injEq] at h
      obtain ⟨rfl, rfl, -⟩ := h
      exact ⟨fun _ => s, rfl, rfl, fun i hi => nomatch hi⟩
  | succ left ih =>
    intro dif s s' log w h
    unfold loop at h
    split at h
    · split at h
      · exact nomatch h
      · simp only [Except.ok.injEq, Prod.mk.injEq] at h
        obtain ⟨rfl, rfl, -⟩ := h
        exact ⟨fun _ => s, rfl, rfl, fun i hi => nomatch hi⟩
    · simp only [Py.do_eq_ok, Py.pure_eq_ok] at h
      obtain ⟨⟨t, d⟩, ht, ⟨t', log', w'⟩, ht', h⟩ := h
      simp only [Prod.mk.injEq] at h
      obtain ⟨rfl, rfl, -⟩ := h
      obtain ⟨f, f0, fl, fs⟩ := ih _ _ _ _ _ ht'
      refine ⟨fun i => match i with | 0 => s | i + 1 => f i, rfl, fl, fun i hi => ?_⟩
      cases i with
      | zero => exact ⟨d, rfl, by dsimp only; rw [f0]; exact ht⟩
      | succ i =>
        obtain ⟨e, he, hs⟩ := fs i (by simpa using hi)
        exact ⟨e, by simpa using he, hs⟩

end PartScf

/-- **C96**, length of `alpha`: neither one nor two entries raise `ValueError`. -/
theorem C96_length (T : ℕ → Env G r c p) (W : ℕ → KsScf.Workers G r c p) (o : Options K) (P : Part G r c p)
    (h : o.alpha.length ≠ 1) (h' : o.alpha.length ≠ 2) : scf T W o P = .error .valueError := by
  unfold scf start setup
  split
  · rename_i hx; rw [hx] at h; exact absurd rfl h
  · rename_i hx; rw [hx] at h'; exact absurd rfl h'
  · rfl

/-- **C96**, settings: after `scf` every component has the parameter and the switch of its fragment,
whatever it had before. -/
theorem C96_settings (T : ℕ → Env G r c p) (W : ℕ → KsScf.Workers G r c p) (o : Options K) (P P' : Part G r c p)
    (log : List (Fl K)) (w : ℕ) (h : scf T W o P = .ok (P', log, w)) : Settings o P' := by
  obtain ⟨P₀, nf, st, h0, -, hl, rfl⟩ := scf_inv h
  refine loop_inv _ (fun s : State G r c p => Settings o s.P) (fun s s' d hs hb => ?_) _ _ _ _ _ _ _ _
    (start_settings h0) hl
  refine (pass_mixed (body_inv hb)).1.settings ?_
  obtain ⟨-, e1, e2, -⟩ := avoid_same s.it s.P
  exact ⟨hs.length, by rw [e1]; exact hs.A, by rw [e2]; exact hs.B⟩

/-- **C96**, every pass: the run goes through partitions `Q 0, ..., Q n`, one per pass.  In each pass the
density of every component of A is mixed with the first parameter and (without `ab_sym`) the density of
every component of B with the second one; with `ab_sym` the densities of B are the mirror images of those
of A.  Frozen fragments keep their external potential while solved. -/
theorem C96_mixing (T : ℕ → Env G r c p) (W : ℕ → KsScf.Workers G r c p) (o : Options K) (P P' : Part G r c p)
    (log : List (Fl K)) (w : ℕ) (h : scf T W o P = .ok (P', log, w)) :
    ∃ (α β : K) (Q : ℕ → Part G r c p), mixingA o.alpha = some α ∧ mixingB o.alpha = some β ∧
      Q log.length = P' ∧ ∀ i < log.length,
        Settings o (Q i) ∧ (Q i).opt = P.opt ∧
        List.Forall₂ (Mixed (W (i + 1)) α) (Q i).compsA (Q (i + 1)).compsA ∧
        (P.opt.abSym = false → List.Forall₂ (Mixed (W (i + 1)) β) (Q i).compsB (Q (i + 1)).compsB) ∧
        (P.opt.abSym = true → List.Forall₂ (fun f g => ∃ n, f.ks.n = some n ∧ g.ks.n = some (G.mirCols n))
          (Q (i + 1)).compsA (Q (i + 1)).compsB) := by
  obtain ⟨P₀, nf, st, h0, -, hl, rfl⟩ := scf_inv h
  obtain ⟨f, f0, fl, fs⟩ := loop_trace _ _ _ _ _ _ _ _ _ hl
  have set0 := start_settings h0
  have inv : ∀ i ≤ log.length, Settings o (f i).P ∧ (f i).P.opt = P.opt ∧ (f i).it = i + 1 := by
    intro i
    induction i with
    | zero => intro _; rw [f0]; exact ⟨set0, (start_inv h0).1.1, rfl⟩
    | succ i ih =>
      intro hi
      obtain ⟨a, b, d⟩ := ih (by omega)
      obtain ⟨x, -, hx⟩ := fs i (by omega)
      have hp := pass_mixed (body_inv hx)
      obtain ⟨e0, e1, e2, -⟩ := avoid_same (f i).it (f i).P
      refine ⟨hp.1.settings ⟨a.length, by rw [e1]; exact a.A, by rw [e2]; exact a.B⟩,
        (hp.2.1.1.trans e0.1).trans b, ?_⟩
      unfold body at hx
      simp only [Py.do_eq_ok, Py.pure_eq_ok] at hx
      obtain ⟨P, hP, e, -, nf, -, ⟨E, dE⟩, -, dn, -, k, -, hx⟩ := hx
      simp only [Prod.mk.injEq] at hx
      rw [← hx.1]
      change (f i).it + 1 = i + 1 + 1
      rw [d]
  obtain ⟨α, hα⟩ : ∃ α, mixingA o.alpha = some α := by
    have := set0.length
    unfold mixingA
    exact ⟨_, List.getElem?_eq_getElem (by omega)⟩
  obtain ⟨β, hβ⟩ : ∃ β, mixingB o.alpha = some β := by
    have := set0.length
    unfold mixingB
    split
    · exact ⟨_, List.getElem?_eq_getElem (by omega)⟩
    · exact ⟨_, List.getElem?_eq_getElem (by omega)⟩
  refine ⟨α, β, fun i => (f i).P, hα, hβ, by dsimp only; rw [fl], fun i hi => ?_⟩
  obtain ⟨a, b, d⟩ := inv i (by omega)
  obtain ⟨x, -, hx⟩ := fs i hi
  obtain ⟨-, -, q1, q2, q3⟩ := pass_mixed (body_inv hx)
  obtain ⟨e0, e1, e2, -⟩ := avoid_same (f i).it (f i).P
  rw [e1] at q1
  rw [e2, e0.1, b] at q2
  rw [e0.1, b] at q3
  rw [d] at q1 q2
  exact ⟨a, b, forall₂_left q1 fun x hx y hxy => hxy α ((a.A x hx).2.trans hα),
    fun hs => forall₂_left (q2 hs) fun x hx y hxy => hxy β ((a.B x hx).2.trans hβ), q3⟩

/-! ## `avoid_loop` -/

/-- The environment of every pass, with an inverter that refuses to work unless `avoid_loop` is set in the
first pass and clear in the others. -/
def Spec.picky (T : ℕ → Env G r c p) : ℕ → Env G r c p := fun i =>
  { T i with invert := fun P => if P.avoidLoop = decide (i = 1) then (T i).invert P else .error .systemExit }

namespace PartScf

theorem _root_.Verif.Part.mapAll_avoid {f : Frag G r c p → Py (Frag G r c p)} {P P' : Part G r c p}
    (h : P.mapAll f = .ok P') : P'.avoidLoop = P.avoidLoop ∧ P'.opt = P.opt := by
  obtain ⟨⟨_, _, _, h⟩, -⟩ := mapAll_inv h
  rw [h]
  exact ⟨rfl, rfl⟩

theorem bind_congr_ok {α β : Type} {x : Py α} {f g : α → Py β} (h : ∀ a, x = .ok a → f a = g a) :
    (x >>= f) = (x >>= g) := by
  cases x with
  | error e => rfl
  | ok a => exact h a rfl

theorem vpKinetic_picky (T : ℕ → Env G r c p) (i : ℕ) (P : Part G r c p)
    (h : P.opt.kin = .inversion → P.avoidLoop = decide (i = 1)) :
    P.vpKinetic (picky T i) = P.vpKinetic (T i) := by
  unfold vpKinetic
  cases hk : P.opt.kin with
  | inversion =>
    dsimp only
    refine bind_congr_ok fun Q hQ => ?_
    have e := mapAll_avoid hQ
    have : (picky T i).invert Q = (T i).invert Q := by
      change (if Q.avoidLoop = decide (i = 1) then _ else _) = _
      rw [if_pos (e.1.trans (h hk))]
    rw [this]
  | _ => rfl

theorem potential_picky (T : ℕ → Env G r c p) (i : ℕ) (P : Part G r c p)
    (h : P.opt.kin = .inversion → P.opt.isolated = false → P.avoidLoop = decide (i = 1)) :
    potential (picky T i) P = potential (T i) P := by
  unfold potential
  cases hi : P.opt.isolated with
  | true => rfl
  | false =>
    rw [if_neg (by decide), if_neg (by decide)]
    unfold partitionPotential
    cases P.opt.vpCalc with
    | potentialInversion => rfl
    | component =>
      dsimp only
      refine bind_congr_ok fun Q hQ => ?_
      have e : Q.avoidLoop = P.avoidLoop ∧ Q.opt = P.opt := mapAll_avoid hQ
      rw [vpKinetic_picky T i Q fun hk => e.1.trans (h (e.2 ▸ hk) hi)]
      rfl

theorem SameBut.avoid {P P' : Part G r c p} (h : SameBut P P') : P'.avoidLoop = P.avoidLoop := by
  obtain ⟨_, _, _, rfl⟩ := h
  rfl

theorem pass_picky (T : ℕ → Env G r c p) (W : KsScf.Workers G r c p) (o : Options K) (dif : Fl K) (i : ℕ)
    (P : Part G r c p) (h : P.opt.kin = .inversion → P.opt.isolated = false → P.avoidLoop = decide (i = 1)) :
    pass (picky T i) W o dif P = pass (T i) W o dif P := by
  unfold pass
  refine bind_congr_ok fun P₁ h1 => bind_congr_ok fun P₂ h2 => ?_
  have e1 := (onKSab_inv h1).1
  have e2 := (mirrorIf_inv h2).1
  rw [potential_picky T i P₂ fun hk hi => ?_]
  · rfl
  · have eo := (e1.opt.trans e2.opt).1
    rw [eo] at hk hi
    rw [e2.avoid, e1.avoid]
    exact h hk hi

theorem body_picky (T : ℕ → Env G r c p) (W : ℕ → KsScf.Workers G r c p) (o : Options K) :
    body (picky T) W o = body T W o := by
  funext st
  unfold body
  rw [pass_picky]
  intro hk hi
  have e := (avoid_same st.it st.P).1.1
  rw [e] at hk hi
  unfold avoid
  rw [if_pos ⟨hk, hi⟩]

end PartScf

/-- **C96**, `avoid_loop`: an inverter that insists on `avoid_loop` being set in the first pass and clear
in all others gives the same run. -/
theorem C96_avoid (T : ℕ → Env G r c p) (W : ℕ → KsScf.Workers G r c p) (o : Options K) (P : Part G r c p) :
    scf (picky T) W o P = scf T W o P := by
  unfold scf
  rw [body_picky]

/-! ## Concrete cases -/

/-- An inverter that reports the flag as kinetic energy. -/
def Sample.flagged : Env (Grid.tiny ℚ) 1 1 1 :=
  { Sample.T with invert := fun P => .ok (fun _ _ => 0, if P.avoidLoop then 1 else 0, []) }

/-- C96: the flag is set in the first pass and clear in the second. -/
example : ([1, 2].map fun m => (scf (fun _ => Sample.flagged) (fun _ => Sample.W)
    { etol := 0, maxIter := m, alpha := [1/2] } (Sample.part { kin := .inversion })).toOption.map fun x =>
      (x.1.invTs, x.1.avoidLoop, x.2.1.length)) = [some (some 1, true, 1), some (some 0, false, 2)] := by
  decide +kernel

/-- C96: two passes with different parameters; A moves halfway to the second point in each pass, B at once. -/
example : (Sample.run { etol := 0, maxIter := 2, alpha := [1/2, 1] } { kin := .none }).toOption.map
    (fun x => (x.1.fa.ks.n.map fun n => (n 0 0, n 0 1), x.1.fb.ks.n.map fun n => (n 0 0, n 0 1),
      x.1.fa.ks.alpha, x.1.fb.ks.alpha, x.2.1.length)) =
      some (some (1/2, 3/2), some (0, 2), some (1/2), some 1, 2) := by decide +kernel

/-- C96: with `ab_sym` the second parameter is stored but B follows A. -/
example : (Sample.run { etol := 0, maxIter := 1, alpha := [1/2, 1] } { kin := .none, abSym := true }).toOption.map
    (fun x => (x.1.fa.ks.n.map fun n => (n 0 0, n 0 1), x.1.fb.ks.n.map fun n => (n 0 0, n 0 1),
      x.1.fb.ks.alpha)) = some (some (1, 1), some (1, 1), some 1) := by decide +kernel

/-- C96: three parameters. -/
example : Sample.run { etol := 0, alpha := [1/2, 1, 1] } { kin := .none } = .error .valueError :=
  C96_length _ _ _ _ (by decide) (by decide)

end Verif
