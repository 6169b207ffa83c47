import Verif.Lemmas.PartitionScfSample
import Verif.Props.C37_C39
import Verif.Props.C43

/-! # C90: electron number, sign and partition of unity through the passes of `Partition.scf` -/

namespace Verif
open Spec Part PartScf
variable {K : Type} [Field K] [LinearOrder K] [IsStrictOrderedRing K] [FloorRing K]
variable {G : Grid K} {r c p : ℕ}

/-- A component the solvers can occupy: `pol` 1 or 2, no negative electron number, a grid with mirror
symmetric quadrature if the option `sym` is set; in every pass the workers asked for a state of this
component (same option `sym`, same occupations) return enough orbitals of positive norm, or fail. -/
structure Spec.Regular (W : ℕ → KsScf.Workers G r c p) (f : Frag G r c p) : Prop where
  pol : ∀ w, (f.ks.solver w).pol = 1 ∨ (f.ks.solver w).pol = 2
  N : ∀ w, 0 ≤ (f.ks.solver w).N
  sym : f.ks.sym = true → MirrorInvariant G
  workers : ∀ i ks it w x, KS.Keeps f.ks ks → W i ks it w = some x → Adequate (f.ks.solver w) x

/-- Electrons of a component, all columns. -/
def Spec.allElectrons (f : Frag G r c p) : K := ∑ j, columnElectrons f.ks j

/-- Electrons of an ensemble, weighted. -/
def Spec.ensembleElectrons (l : List (Frag G r c p)) : K :=
  (l.map fun f => (f.ks.scale.getD 0) * allElectrons f).sum

namespace PartScf

/-- `g` is a later state of `f` with a proper density and mixing parameter. -/
structure Sound (f g : Frag G r c p) : Prop where
  keeps : KS.Keeps f.ks g.ks
  scale : g.ks.scale = f.ks.scale
  alpha : ∃ x, g.ks.alpha = some x ∧ 0 ≤ x ∧ x ≤ 1
  n : ∃ n, g.ks.n = some n ∧ GoodDensity f.ks n

variable {W : ℕ → KsScf.Workers G r c p}

/-- A step that keeps `Sound`. -/
def Keep (W : ℕ → KsScf.Workers G r c p) (x y : Frag G r c p) : Prop :=
  y.ks.scale = x.ks.scale ∧ ∀ f : Frag G r c p, Regular W f → Sound f x → Sound f y

theorem Keep.refl (x : Frag G r c p) : Keep W x x := ⟨rfl, fun _ _ h => h⟩

theorem Keep.trans {x y z : Frag G r c p} (a : Keep W x y) (b : Keep W y z) : Keep W x z :=
  ⟨b.1.trans a.1, fun f hf h => b.2 f hf (a.2 f hf h)⟩

theorem Keep.of_ks {x y : Frag G r c p} (h : y.ks = x.ks) : Keep W x y :=
  ⟨by rw [h], fun _ _ s => ⟨by rw [h]; exact s.keeps, by rw [h]; exact s.scale, by rw [h]; exact s.alpha,
    by rw [h]; exact s.n⟩⟩

theorem NewQ.keep {x y : Frag G r c p} (h : NewQ x y) : Keep W x y := by
  rw [h.1]
  exact ⟨rfl, fun _ _ s => ⟨⟨s.keeps.sym, s.keeps.solver⟩, s.scale, s.alpha, s.n⟩⟩

theorem density_good (hc : c ≤ p) {i : ℕ} {f : Frag G r c p}
    (hf : Regular W f) {a b : KS G r c p} {it : Bool} {nout : G.Cols p} (hk : KS.Keeps f.ks a)
    (h : a.calcDensity (W i a it) = .ok (b, nout)) :
    KS.Keeps f.ks b ∧ b.n = a.n ∧ GoodDensity f.ks nout := by
  obtain ⟨h1, h2, h3⟩ := KS.calcDensity_good h hc (fun hs => hf.sym (hk.sym ▸ hs))
    (fun w => by rw [(hk.solver w).2.2.1]; exact hf.pol w) (fun w => by rw [(hk.solver w).1]; exact hf.N w)
    (fun w x hx => (hk.solver w).adequate.mpr (hf.workers _ _ _ w x hk hx))
  exact ⟨hk.trans h1, h2, hk.good.mp h3⟩

theorem hxcUpdate_keep {F : Functionals G p} {x y : Frag G r c p} (h : hxcUpdate F x = .ok y) : Keep W x y := by
  have he := (hxcUpdate_inv h).2
  unfold hxcUpdate at h
  simp only [Py.do_eq_ok, Py.pure_eq_ok] at h
  obtain ⟨k, h1, _, _, rfl⟩ := h
  obtain ⟨h2, h3⟩ := KS.calcHxc_keeps h1
  exact ⟨he.scale, fun f _ s => ⟨s.keeps.trans h2, he.scale.trans s.scale, by
    obtain ⟨a, ha⟩ := s.alpha; exact ⟨a, he.alpha.trans ha.1, ha.2⟩, by
    obtain ⟨n, hn⟩ := s.n; exact ⟨n, h3.trans hn.1, hn.2⟩⟩⟩

theorem fragment_keep {F : Functionals G p} (hc : c ≤ p) {i : ℕ}
   {o : Options K} {dif : Fl K} {vp : G.Cols p} {x y : Frag G r c p}
    (h : fragment F (W i) o dif vp x = .ok y) : Keep W x y := by
  unfold fragment at h
  simp only [Py.do_eq_ok, Py.pure_eq_ok] at h
  obtain ⟨x₁, h1, k₂, h2, ⟨k₃, nout⟩, h3, k₄, h4, al, hal, n, hn, k₅, h5, rfl⟩ := h
  have e1 : KS.Keeps x.ks x₁.ks ∧ x₁.ks.n = x.ks.n ∧ x₁.ks.scale = x.ks.scale ∧ x₁.ks.alpha = x.ks.alpha := by
    unfold external at h1
    split at h1
    · obtain rfl := Except.ok.inj h1
      exact ⟨.refl _, rfl, rfl, rfl⟩
    · split at h1
      · obtain rfl := Except.ok.inj h1
        exact ⟨⟨rfl, fun _ => ⟨rfl, rfl, rfl, rfl⟩⟩, rfl, rfl, rfl⟩
      · simp only [Py.do_eq_ok, Py.pure_eq_ok] at h1
        obtain ⟨v, -, rfl⟩ := h1
        exact ⟨⟨rfl, fun _ => ⟨rfl, rfl, rfl, rfl⟩⟩, rfl, rfl, rfl⟩
  have a2 := KS.setEffectivePotential_ext h2
  have a3 := (KS.calcDensity_ext h3).1
  have a4 := KS.calcChempot_ext h4
  have a5 := KS.energy_ext h5
  have b2 := KS.setEffectivePotential_keeps h2
  have b4 := KS.calcChempot_keeps h4
  have b5 := KS.energy_keeps h5
  have hsc : k₅.scale = x.ks.scale :=
    a5.scale.trans (a4.scale.trans (a3.scale.trans (a2.scale.trans e1.2.2.1)))
  have hal4 : k₄.alpha = x.ks.alpha := a4.alpha.trans (a3.alpha.trans (a2.alpha.trans e1.2.2.2))
  refine ⟨hsc, fun f hf s => ?_⟩
  have hk2 := (s.keeps.trans e1.1).trans b2.1
  obtain ⟨c1, c2, c3⟩ := density_good hc hf hk2 h3
  obtain ⟨m, hm, hg⟩ := s.n
  have hn4 : k₄.n = some m := b4.2.trans (c2.trans (b2.2.trans (e1.2.1.trans hm)))
  obtain rfl : m = n := Option.some.inj (hn4.symm.trans (need_eq_ok.mp hn))
  obtain ⟨α, hα, h0, h1'⟩ := s.alpha
  obtain rfl : α = al := Option.some.inj (hα.symm.trans (hal4.symm.trans (attr_eq_ok.mp hal)))
  refine ⟨?_, hsc.trans s.scale, ⟨α, a5.alpha.trans (hal4.trans hα), h0, h1'⟩, _, b5.2.trans rfl,
    KsScf.mix_good hg c3 h0 h1'⟩
  exact (c1.trans b4.1).trans ⟨b5.1.sym, b5.1.solver⟩

/-- What a step does to the components. -/
structure Keeps (W : ℕ → KsScf.Workers G r c p) (P P' : Part G r c p) : Prop where
  opt : SameOpt P P'
  A : List.Forall₂ (Keep W) P.compsA P'.compsA
  B : List.Forall₂ (fun f g => g.ks.scale = f.ks.scale) P.compsB P'.compsB
  B' : P.opt.abSym = false → List.Forall₂ (Keep W) P.compsB P'.compsB

theorem sameScale (l : List (Frag G r c p)) : List.Forall₂ (fun f g => g.ks.scale = f.ks.scale) l l :=
  forall₂_self (R := fun f g : Frag G r c p => g.ks.scale = f.ks.scale) (fun _ => rfl) l

theorem Keeps.refl (P : Part G r c p) : Keeps W P P :=
  ⟨⟨rfl, rfl, rfl, rfl⟩, forall₂_self Keep.refl _, sameScale _, fun _ => forall₂_self Keep.refl _⟩

theorem Keeps.trans {P Q R : Part G r c p} (h : Keeps W P Q) (h' : Keeps W Q R) : Keeps W P R :=
  ⟨h.opt.trans h'.opt, forall₂_trans (R := Keep W) (S := Keep W) (fun _ _ _ => Keep.trans) h.A h'.A,
    forall₂_trans (fun _ _ _ a b => b.trans a) h.B h'.B,
    fun hs => forall₂_trans (R := Keep W) (S := Keep W) (fun _ _ _ => Keep.trans) (h.B' hs) (h'.B' (h.opt.1 ▸ hs))⟩

theorem onKSab_keeps {f : Frag G r c p → Py (Frag G r c p)} {P P' : Part G r c p} (h : onKSab f P = .ok P')
    (hf : ∀ x y, f x = .ok y → Keep W x y) : Keeps W P P' := by
  obtain ⟨h1, h2, h3, h4⟩ := onKSab_inv h
  refine ⟨h1.opt, h2.imp fun x y => hf x y, ?_, fun hs => (h4 hs).imp fun x y => hf x y⟩
  cases hs : P.opt.abSym with
  | true => rw [h3 hs]; exact sameScale _
  | false => exact (h4 hs).imp fun x y hxy => (hf x y hxy).1

theorem mirrorOf_density {A B B' : Frag G r c p} (h : mirrorOf A B = .ok B') :
    B'.ks.scale = B.ks.scale ∧ ∃ n, A.ks.n = some n ∧ B'.ks.n = some (G.mirCols n) := by
  unfold mirrorOf at h
  simp only [Py.do_eq_ok, Py.pure_eq_ok] at h
  obtain ⟨n, hn, _, _, v, hv, rfl⟩ := h
  exact ⟨rfl, n, attr_eq_ok.mp hn, rfl⟩

/-- The density of `g` is the mirror image of the density of `f`. -/
def Reflected (f g : Frag G r c p) : Prop := ∃ n, f.ks.n = some n ∧ g.ks.n = some (G.mirCols n)

theorem zip_density {x y : List (Frag G r c p)} (hl : x.length = y.length) {z : List (Frag G r c p)}
    (h : List.Forall₂ (fun (x : Frag G r c p × Frag G r c p) y => mirrorOf x.1 x.2 = .ok y) (x.zip y) z) :
    List.Forall₂ (fun f g => g.ks.scale = f.ks.scale) y z ∧ List.Forall₂ Reflected x z := by
  induction x generalizing y z with
  | nil =>
    cases y with
    | nil => cases h; exact ⟨.nil, .nil⟩
    | cons => simp at hl
  | cons a x ih =>
    cases y with
    | nil => simp at hl
    | cons b y =>
      rw [List.zip_cons_cons] at h
      cases h with
      | cons e r' =>
        obtain ⟨h1, h2⟩ := ih (by simpa using hl) r'
        exact ⟨.cons (mirrorOf_density e).1 h1, .cons (mirrorOf_density e).2 h2⟩

theorem mirrorIf_keeps {P P' : Part G r c p} (h : mirrorIf P = .ok P') :
    Keeps W P P' ∧ (P.opt.abSym = true → List.Forall₂ Reflected P'.compsA P'.compsB) := by
  obtain ⟨h1, h2, h3, h4⟩ := mirrorIf_inv h
  refine ⟨⟨h1.opt, by rw [h2]; exact forall₂_self Keep.refl _, ?_, fun hs => by
    rw [h3 hs]; exact forall₂_self Keep.refl _⟩, fun hs => ?_⟩
  · cases hs : P.opt.abSym with
    | false => rw [h3 hs]; exact sameScale _
    | true => exact (zip_density (comps_length P) (h4 hs)).1
  · rw [h2]
    exact (zip_density (comps_length P) (h4 hs)).2

theorem _root_.Verif.Part.Frame.keeps {P P' : Part G r c p} (h : Frame P P') : Keeps W P P' :=
  ⟨h.sameOpt, h.ksA.imp fun _ _ h => .of_ks h.1, h.ksB.imp fun _ _ h => by rw [h.1],
    fun _ => h.ksB.imp fun _ _ h => .of_ks h.1⟩

theorem promolecule_keeps {o : Options K} {P P' : Part G r c p} (h : promolecule o P = .ok P') : Keeps W P P' := by
  obtain ⟨h1, h2, -, -, -, h3, h4⟩ := promolecule_inv h
  exact ⟨⟨h1, h2⟩, h3.imp fun _ _ => NewQ.keep, h4.imp fun _ _ h => (NewQ.keep (W := W) h).1, fun _ => h4.imp fun _ _ => NewQ.keep⟩

/-- The last steps before a pass ends: mirror image, promolecule and quantities derived from it. -/
def Formed (o : Options K) (P : Part G r c p) : Prop :=
  ∃ P₅ P₆ : Part G r c p, promolecule o P₅ = .ok P₆ ∧ SameOpt P₅ P ∧
    (P₅.opt.abSym = true → List.Forall₂ Reflected P₅.compsA P₅.compsB) ∧ P.nf = P₆.nf ∧
    List.Forall₂ (fun f g => g.ks = f.ks) P₆.compsA P.compsA ∧ List.Forall₂ (fun f g => g.ks = f.ks) P₆.compsB P.compsB

theorem pass_keeps {T : Env G r c p} (hc : c ≤ p) {i : ℕ}
   {o : Options K} {dif : Fl K} {P P' : Part G r c p} (h : pass T (W i) o dif P = .ok P') :
    Keeps W P P' ∧ Formed o P' := by
  obtain ⟨P₁, P₂, P₃, P₄, P₅, P₆, vp, h1, h2, h3, h4, h5, h6, h7, -⟩ := pass_inv h
  constructor
  · exact (onKSab_keeps h1 fun x y hxy => hxcUpdate_keep hxy).trans <| (mirrorIf_keeps h2).1.trans <|
      (potential_inv h3).keeps.trans <| (onKSab_keeps h4 fun x y hxy => fragment_keep hc hxy).trans <|
      (mirrorIf_keeps h5).1.trans <| (promolecule_keeps h6).trans (energy_frame h7).keeps
  · have f := energy_frame h7
    exact ⟨P₅, P₆, h6, (promolecule_keeps (W := W) h6).opt.trans f.sameOpt,
      (fun hs => (mirrorIf_keeps (W := W) h5).2 (by rw [(mirrorIf_keeps (W := W) h5).1.opt.1] at hs; exact hs)), f.nf,
      f.ksA.imp fun _ _ h => h.1, f.ksB.imp fun _ _ h => h.1⟩

theorem body_keeps {T : ℕ → Env G r c p} (hc : c ≤ p)
   {o : Options K} {st st' : State G r c p} {d : Fl K}
    (h : body T W o st = .ok (st', d)) : Keeps W st.P st'.P ∧ Formed o st'.P := by
  obtain ⟨h1, h2, h3, -⟩ := avoid_same st.it st.P
  obtain ⟨h4, h5⟩ := pass_keeps hc (body_inv h)
  refine ⟨Keeps.trans ⟨h1, ?_, ?_, fun _ => ?_⟩ h4, h5⟩
  · rw [h2]; exact forall₂_self Keep.refl _
  · rw [h3]; exact sameScale _
  · rw [h3]; exact forall₂_self Keep.refl _

theorem guess_sound (hc : c ≤ p) {i : ℕ} {o : Options K}
    {f x y : Frag G r c p} (h : guess (W i) o x = .ok y) (hf : Regular W f) (hk : KS.Keeps f.ks x.ks)
    (hs : x.ks.scale = f.ks.scale) (ha : ∃ α, x.ks.alpha = some α ∧ 0 ≤ α ∧ α ≤ 1)
    (hn : o.continuing = true → ∀ n, x.ks.n = some n → GoodDensity f.ks n) : Sound f y := by
  unfold guess at h
  cases ho : o.continuing with
  | true =>
    rw [ho, if_pos rfl] at h
    split at h
    · exact nomatch h
    · rename_i n hxn
      obtain rfl := Except.ok.inj h
      exact ⟨hk, hs, ha, n, hxn, hn ho n hxn⟩
  | false =>
    rw [ho, if_neg (by decide)] at h
    simp only [Py.do_eq_ok, Py.pure_eq_ok] at h
    obtain ⟨k₁, h1, ⟨k₂, n⟩, h2, k₃, h3, rfl⟩ := h
    have a1 := KS.setEffectivePotential_ext h1
    have a2 := (KS.calcDensity_ext h2).1
    have a3 := KS.calcChempot_ext h3
    have b1 := KS.setEffectivePotential_keeps h1
    have b3 := KS.calcChempot_keeps h3
    have hk1 : KS.Keeps f.ks k₁ := hk.trans ⟨b1.1.sym, b1.1.solver⟩
    obtain ⟨c1, -, c3⟩ := density_good hc hf hk1 h2
    refine ⟨c1.trans ⟨b3.1.sym, b3.1.solver⟩,
      (a3.scale.trans (a2.scale.trans a1.scale)).trans hs, ?_, n, b3.2, c3⟩
    obtain ⟨α, h, h'⟩ := ha
    exact ⟨α, (a3.alpha.trans (a2.alpha.trans a1.alpha)).trans h, h'⟩

theorem setup_comps {o : Options K} {P P' : Part G r c p} (h : setup o P = .ok P')
    (ho : ∀ x ∈ o.alpha, 0 ≤ x ∧ x ≤ 1) :
    SameBut P P' ∧
    List.Forall₂ (fun f g => ∃ x b, 0 ≤ x ∧ x ≤ 1 ∧ g = equip b x f) P.compsA P'.compsA ∧
    List.Forall₂ (fun f g => ∃ x b, 0 ≤ x ∧ x ≤ 1 ∧ g = equip b x f) P.compsB P'.compsB := by
  have key : ∀ x ∈ o.alpha, ∀ y ∈ o.alpha, SameBut P (setup.go o P x y) ∧
      List.Forall₂ (fun f g => ∃ x b, 0 ≤ x ∧ x ≤ 1 ∧ g = equip b x f) P.compsA (setup.go o P x y).compsA ∧
      List.Forall₂ (fun f g => ∃ x b, 0 ≤ x ∧ x ≤ 1 ∧ g = equip b x f) P.compsB (setup.go o P x y).compsB := by
    intro x hx y hy
    refine ⟨⟨_, _, _, rfl⟩, ?_, ?_⟩
    · unfold setup.go compsA
      cases P.fAB with
      | none => exact .cons ⟨x, _, (ho x hx).1, (ho x hx).2, rfl⟩ .nil
      | some AB => exact .cons ⟨x, _, (ho x hx).1, (ho x hx).2, rfl⟩ (.cons ⟨x, _, (ho x hx).1, (ho x hx).2, rfl⟩ .nil)
    · unfold setup.go compsB
      cases P.fAB with
      | none => exact .cons ⟨y, _, (ho y hy).1, (ho y hy).2, rfl⟩ .nil
      | some AB => exact .cons ⟨y, _, (ho y hy).1, (ho y hy).2, rfl⟩ (.cons ⟨y, _, (ho y hy).1, (ho y hy).2, rfl⟩ .nil)
  unfold setup at h
  split at h
  · rename_i x hx
    obtain rfl := Except.ok.inj h; exact key _ (by rw [hx]; simp) _ (by rw [hx]; simp)
  · rename_i x y hx
    obtain rfl := Except.ok.inj h; exact key _ (by rw [hx]; simp) _ (by rw [hx]; simp)
  · exact nomatch h

/-- State of the components after the initial guess or after some passes. -/
structure Kept (P P' : Part G r c p) : Prop where
  opt : SameOpt P P'
  A : List.Forall₂ Sound P.compsA P'.compsA
  B : List.Forall₂ (fun f g => g.ks.scale = f.ks.scale) P.compsB P'.compsB
  B' : P.opt.abSym = false → List.Forall₂ Sound P.compsB P'.compsB

theorem forall₂_mem {α β : Type*} {R : α → β → Prop} {l : List α} {m : List β} (h : List.Forall₂ R l m) :
    List.Forall₂ (fun a b => a ∈ l ∧ R a b) l m := by
  induction h with
  | nil => exact .nil
  | cons e _ ih =>
    exact .cons ⟨List.mem_cons_self .., e⟩ (ih.imp fun _ _ h => ⟨List.mem_cons_of_mem _ h.1, h.2⟩)

theorem Kept.trans {P Q R : Part G r c p} (h : Kept P Q) (h' : Keeps W Q R) (hA : ∀ f ∈ P.compsA, Regular W f)
    (hB : P.opt.abSym = false → ∀ f ∈ P.compsB, Regular W f) : Kept P R :=
  ⟨h.opt.trans h'.opt,
    forall₂_trans (S := Keep W) (fun _ _ _ a b => b.2 _ (hA _ a.1) a.2) (forall₂_mem h.A) h'.A,
    forall₂_trans (fun _ _ _ a b => b.trans a) h.B h'.B,
    fun hs => forall₂_trans (S := Keep W) (fun _ _ _ a b => b.2 _ (hB hs _ a.1) a.2) (forall₂_mem (h.B' hs))
      (h'.B' (h.opt.1 ▸ hs))⟩

theorem start_kept (hc : c ≤ p) {i : ℕ} {o : Options K}
    (ho : ∀ x ∈ o.alpha, 0 ≤ x ∧ x ≤ 1) {P P' : Part G r c p} (h : start (W i) o P = .ok P')
    (hA : ∀ f ∈ P.compsA, Regular W f) (hB : P.opt.abSym = false → ∀ f ∈ P.compsB, Regular W f)
    (hnA : o.continuing = true → ∀ f ∈ P.compsA, ∀ n, f.ks.n = some n → GoodDensity f.ks n)
    (hnB : o.continuing = true → P.opt.abSym = false → ∀ f ∈ P.compsB, ∀ n, f.ks.n = some n → GoodDensity f.ks n) :
    Kept P P' ∧ Formed o P' := by
  unfold start at h
  simp only [Py.do_eq_ok] at h
  obtain ⟨P₁, h1, P₂, h2, P₃, h3, h4⟩ := h
  obtain ⟨a1, a2, a3⟩ := setup_comps h1 ho
  obtain ⟨b1, b2, b3, b4⟩ := onKSab_inv h2
  have hab : P₁.opt = P.opt := a1.opt.1
  have hsound : ∀ f x y : Frag G r c p, Regular W f →
      (o.continuing = true → ∀ n, f.ks.n = some n → GoodDensity f.ks n) →
      (∃ α b, 0 ≤ α ∧ α ≤ 1 ∧ x = equip b α f) → guess (W i) o x = .ok y → Sound f y := by
    rintro f x y hf hn ⟨α, b, g1, g2, rfl⟩ hg
    exact guess_sound hc hg hf ⟨rfl, fun _ => ⟨rfl, rfl, rfl, rfl⟩⟩ rfl ⟨α, rfl, g1, g2⟩ hn
  have k2 : Kept P P₂ := by
    refine ⟨a1.opt.trans b1.opt, forall₂_trans (fun f x y u v => hsound f x y (hA f u.1)
      (fun hco => hnA hco f u.1) u.2 v) (forall₂_mem a2) b2, ?_, fun hs => ?_⟩
    · have e : List.Forall₂ (fun f g : Frag G r c p => g.ks.scale = f.ks.scale) P₁.compsB P₂.compsB := by
        cases hs : P.opt.abSym with
        | true => rw [b3 (by rw [hab]; exact hs)]; exact sameScale _
        | false =>
          exact (forall₂_trans (U := fun f g : Frag G r c p => g.ks.scale = f.ks.scale) (fun f x y u v => (hsound f x y (hB hs f u.1)
            (fun hco => hnB hco hs f u.1) u.2 v).scale) (forall₂_mem a3) (b4 (by rw [hab]; exact hs))) |> fun H => by
              have e0 : List.Forall₂ (fun g f : Frag G r c p => g.ks.scale = f.ks.scale) P₁.compsB P.compsB := by
                refine (List.Forall₂.flip a3).imp ?_
                rintro x f ⟨α, b, -, -, rfl⟩
                rfl
              exact forall₂_trans (fun x f y u v => v.trans u.symm) e0 H
      refine forall₂_trans (fun f x y u v => ?_) a3 e
      obtain ⟨α, b, -, -, rfl⟩ := u
      exact v
    · exact forall₂_trans (fun f x y u v => hsound f x y (hB hs f u.1)
        (fun hco => hnB hco hs f u.1) u.2 v) (forall₂_mem a3) (b4 (by rw [hab]; exact hs))
  obtain ⟨k3, m3⟩ := mirrorIf_keeps (W := W) h3
  have k4 := promolecule_keeps (W := W) h4
  refine ⟨(k2.trans k3 hA hB).trans k4 hA hB, P₃, P', h4, k4.opt, fun hs => m3 (by rw [k3.opt.1] at hs; exact hs),
    rfl, forall₂_self (R := fun f g : Frag G r c p => g.ks = f.ks) (fun _ => rfl) _,
    forall₂_self (R := fun f g : Frag G r c p => g.ks = f.ks) (fun _ => rfl) _⟩

theorem scf_kept {T : ℕ → Env G r c p} (hc : c ≤ p)
   {o : Options K} (ho : ∀ x ∈ o.alpha, 0 ≤ x ∧ x ≤ 1) {P P' : Part G r c p}
    {log : List (Fl K)} {w : ℕ} (h : scf T W o P = .ok (P', log, w))
    (hA : ∀ f ∈ P.compsA, Regular W f) (hB : P.opt.abSym = false → ∀ f ∈ P.compsB, Regular W f)
    (hnA : o.continuing = true → ∀ f ∈ P.compsA, ∀ n, f.ks.n = some n → GoodDensity f.ks n)
    (hnB : o.continuing = true → P.opt.abSym = false → ∀ f ∈ P.compsB, ∀ n, f.ks.n = some n → GoodDensity f.ks n) :
    Kept P P' ∧ Formed o P' := by
  obtain ⟨P₀, nf, st, h0, -, hrun, rfl⟩ := scf_inv h
  exact PartScf.loop_inv (body T W o) (fun st => Kept P st.P ∧ Formed o st.P)
    (fun s s' d hs hb => ⟨hs.1.trans (body_keeps hc hb).1 hA hB, (body_keeps hc hb).2⟩) _ _ _ _ _ _ _ _
    (start_kept hc ho h0 hA hB hnA hnB) hrun

theorem forall₂_comp {α β γ : Type*} {R : α → β → Prop} {l : List α} {m : List β} (h : List.Forall₂ R l m)
    {f : α → γ} {g : β → γ} (hfg : ∀ a b, R a b → f a = g b) : l.map f = m.map g := by
  induction h with
  | nil => rfl
  | cons e _ ih => rw [List.map_cons, List.map_cons, ih, hfg _ _ e]

/-- Densities and weights of components that all have them. -/
theorem exists_comps {l : List (Frag G r c p)} (h : ∀ f ∈ l, (∃ n, f.ks.n = some n) ∧ ∃ s, f.ks.scale = some s) :
    ∃ A, Comps l A := by
  induction l with
  | nil => exact ⟨[], .nil⟩
  | cons f l ih =>
    obtain ⟨A, hA⟩ := ih fun g hg => h g (List.mem_cons_of_mem _ hg)
    obtain ⟨⟨n, hn⟩, s, hs⟩ := h f (List.mem_cons_self ..)
    exact ⟨(n, s) :: A, .cons ⟨hn, hs⟩ hA⟩

theorem weighted_has {l : List (Frag G r c p)} {x : G.Cols p} (h : weighted l = .ok x) :
    ∀ f ∈ l, (∃ n, f.ks.n = some n) ∧ ∃ s, f.ks.scale = some s := by
  unfold weighted at h
  generalize (fun _ _ => 0 : G.Cols p) = acc at h
  induction l generalizing acc with
  | nil => intro f hf; exact nomatch hf
  | cons g l ih =>
    rw [List.foldlM_cons] at h
    simp only [Py.do_eq_ok, Py.pure_eq_ok] at h
    obtain ⟨a, ⟨n, hn, s, hs, rfl⟩, h⟩ := h
    intro f hf
    rcases List.mem_cons.mp hf with rfl | hf
    · exact ⟨⟨n, need_eq_ok.mp hn⟩, s, need_eq_ok.mp hs⟩
    · exact ih _ h f hf

end PartScf

/-- C90, the components, partial: however many passes `Partition.scf` makes, whatever the functionals and
adequate worker results, each component of fragment A has after it a non-negative density with the electron
numbers of its solvers in each column, and its weight; likewise fragment B if it is calculated (no
`ab_sym`).  With `ab_sym` the densities of B are the mirror images of those of A.  When continuing, the
densities given must have these properties.
Missing: with `ab_sym` the electron numbers of fragment B (`C90_refuted`). -/
theorem C90_components_partial (T : ℕ → Env G r c p) (W : ℕ → KsScf.Workers G r c p) (o : Options K)
    (P P' : Part G r c p) (log : List (Fl K)) (w : ℕ) (h : scf T W o P = .ok (P', log, w)) (hc : c ≤ p)
    (ho : ∀ x ∈ o.alpha, 0 ≤ x ∧ x ≤ 1)
    (hA : ∀ f ∈ P.compsA, Regular W f) (hB : P.opt.abSym = false → ∀ f ∈ P.compsB, Regular W f)
    (hnA : o.continuing = true → ∀ f ∈ P.compsA, ∀ n, f.ks.n = some n → GoodDensity f.ks n)
    (hnB : o.continuing = true → P.opt.abSym = false → ∀ f ∈ P.compsB, ∀ n, f.ks.n = some n → GoodDensity f.ks n) :
    List.Forall₂ (fun f g => g.ks.scale = f.ks.scale ∧ ∃ n, g.ks.n = some n ∧ GoodDensity f.ks n)
      P.compsA P'.compsA ∧
    (P.opt.abSym = false →
      List.Forall₂ (fun f g => g.ks.scale = f.ks.scale ∧ ∃ n, g.ks.n = some n ∧ GoodDensity f.ks n)
        P.compsB P'.compsB) ∧
    (P.opt.abSym = true →
      List.Forall₂ (fun f g => g.ks.scale = f.ks.scale) P.compsB P'.compsB ∧
      List.Forall₂ (fun f g => ∃ n, f.ks.n = some n ∧ g.ks.n = some fun j k => n j (G.mirIx k))
        P'.compsA P'.compsB) := by
  obtain ⟨hk, P₅, P₆, h6, o5, hm, -, fA, fB⟩ := scf_kept hc ho h hA hB hnA hnB
  refine ⟨hk.A.imp fun _ _ s => ⟨s.scale, s.n⟩, fun hs => (hk.B' hs).imp fun _ _ s => ⟨s.scale, s.n⟩,
    fun hs => ⟨hk.B, ?_⟩⟩
  have hs5 : P₅.opt.abSym = true := by rw [← o5.1, hk.opt.1]; exact hs
  obtain ⟨-, -, -, -, -, q3, q4⟩ := promolecule_inv h6
  have m6 : List.Forall₂ Reflected P₆.compsA P₅.compsB :=
    forall₂_trans (R := fun g f => NewQ f g) (fun x f y u v => by
      obtain ⟨n, e1, e2⟩ := v
      exact ⟨n, by rw [u.1]; exact e1, e2⟩) (List.Forall₂.flip q3) (hm hs5)
  have m7 : List.Forall₂ Reflected P'.compsA P₅.compsB :=
    forall₂_trans (R := fun g f : Frag G r c p => g.ks = f.ks) (fun x f y u v => by
      obtain ⟨n, e1, e2⟩ := v
      exact ⟨n, by rw [u]; exact e1, e2⟩) (List.Forall₂.flip fA) m6
  have m8 : List.Forall₂ Reflected P'.compsA P₆.compsB :=
    forall₂_trans (S := NewQ) (fun x f y u v => by
      obtain ⟨n, e1, e2⟩ := u
      exact ⟨n, e1, by rw [v.1]; exact e2⟩) m7 q4
  exact forall₂_trans (S := fun f g : Frag G r c p => g.ks = f.ks) (fun x f y u v => by
    obtain ⟨n, e1, e2⟩ := u
    exact ⟨n, e1, by rw [v]; exact e2⟩) m8 fB

/-- C90, the promolecule: the density `nf` after `Partition.scf` (without `from_target_density`), however many
passes it makes, is non-negative; it contains the weighted electron numbers of the components, once more
if `ens_spin_sym` adds the spin flip; with `ab_sym` it is mirror symmetric and contains twice the electrons of
fragment A.  The `Q` functions lie between 0 and 1, vanish where `nf` does, and elsewhere sum to one over the
components (with `ens_spin_sym` the sum and its spin flip together). -/
theorem C90_promolecule (T : ℕ → Env G r c p) (W : ℕ → KsScf.Workers G r c p) (o : Options K)
    (P P' : Part G r c p) (log : List (Fl K)) (w : ℕ) (h : scf T W o P = .ok (P', log, w)) (hc : c ≤ p)
    (ho : ∀ x ∈ o.alpha, 0 ≤ x ∧ x ≤ 1)
    (hA : ∀ f ∈ P.compsA, Regular W f) (hB : P.opt.abSym = false → ∀ f ∈ P.compsB, Regular W f)
    (hnA : o.continuing = true → ∀ f ∈ P.compsA, ∀ n, f.ks.n = some n → GoodDensity f.ks n)
    (hnB : o.continuing = true → P.opt.abSym = false → ∀ f ∈ P.compsB, ∀ n, f.ks.n = some n → GoodDensity f.ks n)
    (hs : ∀ f ∈ P.comps, ∀ s, f.ks.scale = some s → 0 ≤ s)
    (hab : P.opt.abSym = true → MirrorInvariant G ∧
      List.Forall₂ (fun f g => f.ks.scale = g.ks.scale) P.compsA P.compsB)
    (ht : o.fromTarget = false) :
    ∃ (nf : G.Cols p) (Qs : List (G.Cols p)), P'.nf = some nf ∧ (∀ j k, 0 ≤ nf j k) ∧
      (∑ j, G.integ (nf j) = (if P.opt.ensSpinSym then 2 else 1) * (ensembleElectrons P.compsA +
        if P.opt.abSym then ensembleElectrons P.compsA else ensembleElectrons P.compsB)) ∧
      (P.opt.abSym = true → ∀ j k, nf j (G.mirIx k) = nf j k) ∧
      List.Forall₂ (fun f Q => f.ks.Q = some Q) P'.comps Qs ∧
      (∀ Q ∈ Qs, ∀ j k, 0 ≤ Q j k ∧ Q j k ≤ 1 ∧ (nf j k = 0 → Q j k = 0)) ∧
      (P.opt.ensSpinSym = false → ∀ j k, nf j k ≠ 0 → (Qs.map fun Q => Q j k).sum = 1) ∧
      (P.opt.ensSpinSym = true → ∀ j k, nf j k ≠ 0 →
        (Qs.map fun Q => Q j k).sum + (Qs.map fun Q => Q j.rev k).sum = 1) := by
  obtain ⟨c1, c2, c3⟩ := C90_components_partial T W o P P' log w h hc ho hA hB hnA hnB
  obtain ⟨hk, P₅, P₆, h6, o5, -, hnf, fA, fB⟩ := scf_kept hc ho h hA hB hnA hnB
  obtain ⟨-, -, -, -, -, q3, q4⟩ := promolecule_inv h6
  have hopt : P₅.opt = P.opt := by rw [← o5.1, hk.opt.1]
  unfold promolecule at h6
  rw [ht, if_neg (by decide), Py.do_eq_ok] at h6
  obtain ⟨P₅', h5', h6⟩ := h6
  -- the components before forming the promolecule
  have hasA : ∀ f ∈ P₅.compsA, (∃ n, f.ks.n = some n) ∧ ∃ s, f.ks.scale = some s := by
    have := h5'
    unfold calcProtomolecule at this
    simp only [Py.do_eq_ok, Py.pure_eq_ok] at this
    obtain ⟨na, e, -⟩ := this
    exact weighted_has e
  have hasB : ∀ f ∈ P₅.compsB, (∃ n, f.ks.n = some n) ∧ ∃ s, f.ks.scale = some s := by
    have := h5'
    unfold calcProtomolecule at this
    simp only [Py.do_eq_ok, Py.pure_eq_ok] at this
    obtain ⟨na, -, nb, e, -⟩ := this
    exact weighted_has e
  obtain ⟨A, hCA⟩ := exists_comps hasA
  obtain ⟨B, hCB⟩ := exists_comps hasB
  have same : ∀ {l m n : List (Frag G r c p)} {A : List (G.Cols p × K)}, Comps l A → List.Forall₂ NewQ l m →
      List.Forall₂ (fun f g => g.ks = f.ks) m n → Comps n A := by
    intro l m n A h0 h1 h2
    have e1 : Comps m A := forall₂_trans (R := fun g f => NewQ f g) (fun x f y u v => by
      rw [u.1]; exact v) (List.Forall₂.flip h1) h0
    exact forall₂_trans (R := fun g f : Frag G r c p => g.ks = f.ks) (fun x f y u v => by
      rw [u]; exact v) (List.Forall₂.flip h2) e1
  have hA' : Comps P'.compsA A := same hCA q3 fA
  have hB' : Comps P'.compsB B := same hCB q4 fB
  -- electron numbers and signs of the components
  have hgA : List.Forall₂ (fun f x => GoodDensity f.ks x.1 ∧ f.ks.scale = some x.2) P.compsA A :=
    forall₂_trans (fun f g x u v => by
      obtain ⟨u1, n, u2, u3⟩ := u
      obtain ⟨v1, v2⟩ := v
      obtain rfl := Option.some.inj (u2.symm.trans v1)
      exact ⟨u3, by rw [← u1]; exact v2⟩) c1 hA'
  have hgB : P.opt.abSym = false →
      List.Forall₂ (fun f x => GoodDensity f.ks x.1 ∧ f.ks.scale = some x.2) P.compsB B := fun hs =>
    forall₂_trans (fun f g x u v => by
      obtain ⟨u1, n, u2, u3⟩ := u
      obtain ⟨v1, v2⟩ := v
      obtain rfl := Option.some.inj (u2.symm.trans v1)
      exact ⟨u3, by rw [← u1]; exact v2⟩) (c2 hs) hB'
  have hAB : P.opt.abSym = true → B = A.map fun x => (G.mirCols x.1, x.2) := by
    intro hsym
    have s1 : List.Forall₂ (fun f g : Frag G r c p => g.ks.scale = f.ks.scale) P'.compsA P.compsB :=
      forall₂_trans (R := fun g f : Frag G r c p => g.ks.scale = f.ks.scale) (fun x f y u v => by
        rw [u, v]) (List.Forall₂.flip (c1.imp fun _ _ h => h.1)) (hab hsym).2
    have s2 : List.Forall₂ (fun f g : Frag G r c p => g.ks.scale = f.ks.scale) P'.compsA P'.compsB :=
      forall₂_trans (fun x f y u v => by rw [v, u]) s1 (c3 hsym).1
    have d2 := (c3 hsym).2
    clear hCA hCB
    generalize P'.compsA = l at hA' s2 d2
    generalize P'.compsB = m at hB' s2 d2
    clear hgA hgB same
    induction s2 generalizing A B with
    | nil => cases hA'; cases hB'; rfl
    | cons e _ ih =>
      cases hA' with
      | cons a1 a2 =>
        cases hB' with
        | cons b1 b2 =>
          cases d2 with
          | cons d d' =>
            rw [List.map_cons, ih _ _ a2 b2 d']
            obtain ⟨n, n1, n2⟩ := d
            congr 1
            obtain ⟨a1, a3⟩ := a1
            obtain ⟨b1, b3⟩ := b1
            obtain rfl := Option.some.inj (n1.symm.trans a1)
            refine Prod.ext ?_ ?_
            · exact (Option.some.inj (n2.symm.trans b1)).symm
            · exact (Option.some.inj (b3.symm.trans (e.trans a3)))
  have hpos : ∀ x ∈ A ++ B, 0 ≤ x.2 ∧ ∀ j k, 0 ≤ x.1 j k := by
    have posA : ∀ x ∈ A, 0 ≤ x.2 ∧ ∀ j k, 0 ≤ x.1 j k := by
      intro x hx
      obtain ⟨f, hf, h1, h2⟩ := mem_right hgA hx
      exact ⟨hs f (List.mem_append_left _ hf) _ h2, h1.nonneg⟩
    intro x hx
    rcases List.mem_append.mp hx with hx | hx
    · exact posA x hx
    · cases hsym : P.opt.abSym with
      | true =>
        rw [hAB hsym] at hx
        obtain ⟨y, hy, rfl⟩ := List.mem_map.mp hx
        exact ⟨(posA y hy).1, fun j k => (posA y hy).2 j _⟩
      | false =>
        obtain ⟨f, hf, h1, h2⟩ := mem_right (hgB hsym) hx
        exact ⟨hs f (List.mem_append_right _ hf) _ h2, h1.nonneg⟩
  have havg : ∀ (C : List (G.Cols p × K)), (∀ y ∈ C, 0 ≤ y.2 ∧ ∀ j k, 0 ≤ y.1 j k) → ∀ j k,
      0 ≤ Spec.average C j k := fun C hC j k => List.sum_nonneg (by
    intro z hz
    obtain ⟨y, hy, rfl⟩ := List.mem_map.mp hz
    exact mul_nonneg (hC y hy).1 ((hC y hy).2 j k))
  have hcount : ∀ {l : List (Frag G r c p)} {A : List (G.Cols p × K)},
      List.Forall₂ (fun f x => GoodDensity f.ks x.1 ∧ f.ks.scale = some x.2) l A →
      (A.map fun x => x.2 * count x.1).sum = ensembleElectrons l := by
    intro l A hl
    unfold ensembleElectrons
    congr 1
    symm
    refine forall₂_comp hl ?_
    rintro f x ⟨h1, h2⟩
    rw [h2, Option.getD_some]
    congr 1
    exact Finset.sum_congr rfl fun j _ => (h1.count j).symm
  obtain ⟨na, nb, e1, e2, e3, e4, e5⟩ := C38_promolecule P₅ A B hCA hCB
  obtain ⟨nf, P₂, Qs, g1, g2, g3, g4, g5, g6, g7⟩ := C39_partition_of_unity P₅ P₅' A B hCA hCB h5'
  obtain rfl := Except.ok.inj (g2.symm.trans h6)
  have hnf' : nf = fun j k => na j k + nb j k := by
    rw [e1] at h5'
    obtain rfl := Except.ok.inj h5'
    exact (Option.some.inj g1).symm
  have hnf6 : P'.nf = some nf := by
    rw [hnf, ← g1]
    obtain ⟨⟨_, _, _, e⟩, -⟩ := calcQ_inv h6
    rw [e]
  rw [hopt] at e2 e3 e4 e5 g5 g6
  refine ⟨nf, Qs, hnf6, ?_, ?_, ?_, ?_, ?_, g5, g6⟩
  · intro j k
    have a := havg A (fun y hy => hpos y (List.mem_append_left _ hy))
    have b := havg B (fun y hy => hpos y (List.mem_append_right _ hy))
    rw [hnf']
    cases hens : P.opt.ensSpinSym with
    | false =>
      obtain ⟨rfl, rfl⟩ := e2 hens
      exact add_nonneg (a j k) (b j k)
    | true =>
      obtain ⟨u, v⟩ := (e3 hens).1 j k
      simp only [u, v]
      have := a j k; have := a j.rev k; have := b j k; have := b j.rev k
      linarith
  · have : ∑ j, G.integ (nf j) = count na + count nb := by
      rw [hnf', ← count_add]; rfl
    rw [this, e4, e5, hcount hgA]
    cases hsym : P.opt.abSym with
    | false => rw [hcount (hgB hsym)]; simp only [Bool.false_eq_true, if_false]; ring
    | true =>
      rw [hAB hsym, List.map_map, ← hcount hgA]
      have : (fun x : G.Cols p × K => x.2 * count x.1) ∘ (fun x : G.Cols p × K => (G.mirCols x.1, x.2)) =
          fun x => x.2 * count x.1 := by
        funext x
        simp only [Function.comp]
        congr 1
        exact Finset.sum_congr rfl fun j _ => (hab hsym).1 (x.1 j)
      rw [this]; simp only [if_true]; ring
  · intro hsym j k
    have mA : ∀ j k, Spec.average B j k = Spec.average A j (G.mirIx k) := by
      intro j k
      rw [hAB hsym]
      simp only [Spec.average, List.map_map]
      rfl
    have inv : ∀ k, G.mirIx (G.mirIx k) = k := fun k => G.mirIx_mirIx k
    rw [hnf']
    cases hens : P.opt.ensSpinSym with
    | false =>
      obtain ⟨rfl, rfl⟩ := e2 hens
      simp only [mA, inv]
      ring
    | true =>
      simp only [fun j k => ((e3 hens).1 j k).1, fun j k => ((e3 hens).1 j k).2, mA, inv]
      ring
  · have : List.Forall₂ (fun f g : Frag G r c p => g.ks = f.ks) P₂.comps P'.comps := List.rel_append fA fB
    exact forall₂_trans (R := fun g f : Frag G r c p => g.ks = f.ks) (fun x f y u v => by
      rw [u]; exact v) (List.Forall₂.flip this) g3
  · intro Q hQ j k
    exact ⟨(g7 hpos Q hQ j k).1, (g7 hpos Q hQ j k).2, fun h0 => g4 j k h0 Q hQ⟩

/-- Fragment A as in `Sample`, fragment B with one electron instead of two. -/
def Sample.uneven (o : PartOpt) : Part Sample.G 1 1 1 :=
  { Sample.part o with fb := ⟨{ (Sample.frag o.interaction).ks with
      solver := fun _ => { Nmo := 1, N := 1, m := 0, pol := 1, fractional := true } }, {}⟩ }

/-- C90 is false for fragment B with `ab_sym`: its solver is asked for one electron, after a pass its density
contains two. -/
theorem C90_refuted : ∃ (s : Options ℚ) (o : PartOpt) (P' : Part Sample.G 1 1 1) (l : List (Fl ℚ)) (w : ℕ)
    (n : Sample.G.Cols 1), o.abSym = true ∧
    scf (fun _ => Sample.T) (fun _ => Sample.W) s (Sample.uneven o) = .ok (P', l, w) ∧ P'.fb.ks.n = some n ∧
    allElectrons (Sample.uneven o).fb = 1 ∧ ∑ j, Sample.G.integ (n j) = 2 := by
  let s : Options ℚ := { etol := 0, alpha := [1], maxIter := 1 }
  let o : PartOpt := { kin := .none, abSym := true }
  have key : (scf (fun _ => Sample.T) (fun _ => Sample.W) s (Sample.uneven o)).toOption.map
      (fun x => x.1.fb.ks.n.map fun n => ∑ j, Sample.G.integ (n j)) = some (some 2) := by decide +kernel
  cases hr : scf (fun _ => Sample.T) (fun _ => Sample.W) s (Sample.uneven o) with
  | error e => rw [hr] at key; exact nomatch key
  | ok x =>
    rw [hr] at key
    obtain ⟨n, h1, h2⟩ := Option.map_eq_some_iff.mp (Option.some.inj key)
    exact ⟨s, o, x.1, x.2.1, x.2.2, n, rfl, hr, h1, by
      simp [allElectrons, columnElectrons, electrons, Sample.uneven], h2⟩

/-- The components of `Sample` satisfy the hypotheses. -/
theorem Sample.regular (o : PartOpt) : ∀ f ∈ (Sample.part o).comps, Regular (fun _ => Sample.W) f := by
  intro f hf
  have hf' : f = Sample.frag o.interaction := by
    simpa [Sample.part, Part.comps, Part.compsA, Part.compsB] using hf
  subst hf'
  refine ⟨fun _ => .inl rfl, fun _ => by norm_num [Sample.frag], (fun h => nomatch h), ?_⟩
  intro i ks it w x _ hx
  have hneed : needed false ((2 : ℚ) / ((orbitalCapacity 0 false : ℕ) : ℚ)) ≤ 1 := by decide +kernel
  unfold Sample.W at hx
  split at hx
  · exact nomatch hx
  · split at hx
    · obtain rfl := Option.some.inj hx
      exact ⟨hneed, by simp only [List.mem_singleton, forall_eq]; decide +kernel⟩
    · obtain rfl := Option.some.inj hx
      exact ⟨hneed, by simp only [List.mem_singleton, forall_eq]; decide +kernel⟩

/-- C90 applied to `Sample`: four electrons after any number of passes with any mixing parameter. -/
example (α : ℚ) (h0 : 0 ≤ α) (h1 : α ≤ 1) (m : ℤ) (P' : Part Sample.G 1 1 1) (l : List (Fl ℚ)) (w : ℕ)
    (h : Sample.run { etol := 0, maxIter := m, alpha := [α] } { kin := .none } = .ok (P', l, w)) :
    ∃ nf, P'.nf = some nf ∧ (∀ j k, 0 ≤ nf j k) ∧ ∑ j, Sample.G.integ (nf j) = 4 := by
  obtain ⟨nf, -, h1, h2, h3, -⟩ := C90_promolecule _ _ _ _ _ _ _ h le_rfl (by simpa using ⟨h0, h1⟩)
    (fun f hf => Sample.regular _ f (List.mem_append_left _ hf))
    (fun _ f hf => Sample.regular _ f (List.mem_append_right _ hf)) (fun h => nomatch h) (fun h => nomatch h)
    (by decide +kernel) (fun h => nomatch h) rfl
  refine ⟨nf, h1, h2, h3.trans ?_⟩
  have e : ∀ i, allElectrons (Sample.frag i) = 2 := fun i => by
    simp [allElectrons, columnElectrons, electrons, Sample.frag, orbitalCapacity]
  have e' : ∀ i, (Sample.frag i).ks.scale = some 1 := fun _ => rfl
  simp [ensembleElectrons, Sample.part, Part.compsA, Part.compsB, e, e']
  norm_num

/-- A concrete case of C90: two passes with mixing; the promolecule has the four electrons of the two
fragments, spread over both points. -/
example : (Sample.run { etol := 0, maxIter := 2, alpha := [1/2] } { kin := .none }).toOption.map
    (fun x => (x.1.nf.map fun n => (n 0 0, n 0 1, Sample.G.integ (n 0)), x.2.1.length)) =
      some (some (1, 3, 4), 2) := by decide +kernel

end Verif
