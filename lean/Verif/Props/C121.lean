import Verif.Lemmas.PartitionScf
import Verif.Lemmas.PartitionScfSample
import Verif.Props.C120
import Mathlib.Data.List.Forall2

/-! # C121: interrupting and continuing a partition calculation -/

namespace Verif
open Part PartScf
variable {K : Type} [Field K] [LinearOrder K] [IsStrictOrderedRing K] [FloorRing K]
variable {G : Grid K} {r c p : ℕ}

namespace Restart

/-! ## Lists of components -/

theorem mapAll_to {f : Frag G r c p → Py (Frag G r c p)} {P P' : Part G r c p} (h : SameBut P P')
    (hA : List.Forall₂ (fun x y => f x = .ok y) P.compsA P'.compsA)
    (hB : List.Forall₂ (fun x y => f x = .ok y) P.compsB P'.compsB) : P.mapAll f = .ok P' := by
  obtain ⟨a, b, AB, rfl⟩ := h
  unfold mapAll mapA mapB
  cases hP : P.fAB with
  | none =>
    simp only [compsA, compsB, hP, Option.map_none, Option.map_some, Option.toList_none, Option.toList_some] at hA hB
    cases AB with
    | none =>
      simp only [Option.map_none, Option.toList_none, List.forall₂_cons, List.Forall₂.nil, and_true] at hA hB
      simp only [hA, hB, bind, Except.bind, pure, Except.pure]
    | some x => cases hA with | cons _ h => cases h
  | some x =>
    obtain ⟨A, B⟩ := x
    simp only [compsA, compsB, hP, Option.map_none, Option.map_some, Option.toList_none, Option.toList_some] at hA hB
    cases AB with
    | none => cases hA with | cons _ h => cases h
    | some y =>
      simp only [Option.map_some, Option.toList_some, List.forall₂_cons, List.Forall₂.nil, and_true] at hA hB
      simp only [hA, hB, bind, Except.bind, pure, Except.pure]

theorem mapA_self {f : Frag G r c p → Py (Frag G r c p)} {P : Part G r c p} (h : ∀ x ∈ P.compsA, f x = .ok x) :
    P.mapA f = .ok P := by
  unfold mapA
  cases hP : P.fAB with
  | none =>
    simp only [compsA, hP, Option.map_none, Option.map_some, Option.toList_none, Option.toList_some, List.mem_singleton, forall_eq] at h
    simp only [h, bind, Except.bind, pure, Except.pure]
    rw [← hP]
  | some x =>
    simp only [compsA, hP, Option.map_none, Option.map_some, Option.toList_none, Option.toList_some, List.mem_cons, List.not_mem_nil, or_false, forall_eq_or_imp, forall_eq] at h
    simp only [h, bind, Except.bind, pure, Except.pure]
    rw [← hP]

theorem mapB_self {f : Frag G r c p → Py (Frag G r c p)} {P : Part G r c p} (h : ∀ x ∈ P.compsB, f x = .ok x) :
    P.mapB f = .ok P := by
  unfold mapB
  cases hP : P.fAB with
  | none =>
    simp only [compsB, hP, Option.map_none, Option.map_some, Option.toList_none, Option.toList_some, List.mem_singleton, forall_eq] at h
    simp only [h, bind, Except.bind, pure, Except.pure]
    rw [← hP]
  | some x =>
    simp only [compsB, hP, Option.map_none, Option.map_some, Option.toList_none, Option.toList_some, List.mem_cons, List.not_mem_nil, or_false, forall_eq_or_imp, forall_eq] at h
    simp only [h, bind, Except.bind, pure, Except.pure]
    rw [← hP]

theorem onKSab_self {f : Frag G r c p → Py (Frag G r c p)} {P : Part G r c p} (hA : ∀ x ∈ P.compsA, f x = .ok x)
    (hB : ∀ x ∈ P.compsB, f x = .ok x) : onKSab f P = .ok P := by
  unfold onKSab mapAll
  split
  · exact mapA_self hA
  · simp only [mapA_self hA, bind, Except.bind, mapB_self hB]

theorem mirrorAB_to {P P' : Part G r c p} (h : SameBut P P') (hA : P'.compsA = P.compsA)
    (hB : List.Forall₂ (fun (x : Frag G r c p × Frag G r c p) y => mirrorOf x.1 x.2 = .ok y) (P.compsA.zip P.compsB) P'.compsB) :
    P.mirrorAB = .ok P' := by
  obtain ⟨a, b, AB, rfl⟩ := h
  unfold mirrorAB
  cases hP : P.fAB with
  | none =>
    simp only [compsA, compsB, hP, Option.map_none, Option.map_some, Option.toList_none, Option.toList_some] at hA hB
    cases AB with
    | none =>
      simp only [Option.map_none, Option.toList_none, List.zip_cons_cons, List.zip_nil_left, List.forall₂_cons, List.Forall₂.nil, and_true] at hB
      simp only [Option.map_none, Option.toList_none, Option.map_some, Option.toList_some, List.cons.injEq, and_true] at hA
      simp only [hB, hA, bind, Except.bind, pure, Except.pure]
    | some x => simp at hA
  | some x =>
    obtain ⟨A, B⟩ := x
    simp only [compsA, compsB, hP, Option.map_none, Option.map_some, Option.toList_none, Option.toList_some] at hA hB
    cases AB with
    | none => simp at hA
    | some y =>
      simp only [Option.map_some, Option.toList_some, List.zip_cons_cons, List.zip_nil_left, List.forall₂_cons, List.Forall₂.nil, and_true] at hB
      simp only [Option.map_none, Option.toList_none, Option.map_some, Option.toList_some, List.cons.injEq, and_true] at hA
      simp only [hB, hA.1, bind, Except.bind, pure, Except.pure]
      rw [← hA.2]

theorem forall₂_eq_of {α : Type*} {l : List α} {R : α → α → Prop} (h : ∀ x ∈ l, R x x) : List.Forall₂ R l l := by
  induction l with
  | nil => exact .nil
  | cons x l ih => exact .cons (h x (by simp)) (ih fun y hy => h y (by simp [hy]))

theorem forall₂_mem {α : Type*} {l l' : List α} {R S : α → α → Prop} (h : List.Forall₂ R l l')
    (hS : ∀ x, ∀ y ∈ l', R x y → S x y) : List.Forall₂ S l l' := by
  induction h with
  | nil => exact .nil
  | cons e _ ih => exact .cons (hS _ _ (by simp) e) (ih fun x y hy => hS x y (by simp [hy]))

theorem forall₂_and {α : Type*} {l l' : List α} {R S U : α → α → Prop} (h : List.Forall₂ R l l') (h' : List.Forall₂ S l l')
    (hU : ∀ x y, R x y → S x y → U x y) : List.Forall₂ U l l' := by
  induction h with
  | nil => exact .nil
  | cons e _ ih =>
    cases h' with
    | cons e' r' => exact .cons (hU _ _ e e') (ih r')

/-! ## Mixing parameter and frozen flag -/

/-- Mixing parameter and frozen flag are the same. -/
def Eqp (f g : Frag G r c p) : Prop := g.ks.alpha = f.ks.alpha ∧ g.v.frozen = f.v.frozen

theorem Eqp.refl (f : Frag G r c p) : Eqp f f := ⟨rfl, rfl⟩

theorem Eqp.trans {f g h : Frag G r c p} (a : Eqp f g) (b : Eqp g h) : Eqp f h := ⟨b.1.trans a.1, b.2.trans a.2⟩

structure Two (P P' : Part G r c p) : Prop where
  A : List.Forall₂ Eqp P.compsA P'.compsA
  B : List.Forall₂ Eqp P.compsB P'.compsB

theorem Two.trans {P P' P'' : Part G r c p} (a : Two P P') (b : Two P' P'') : Two P P'' :=
  ⟨forall₂_trans (R := Eqp) (S := Eqp) (U := Eqp) (fun _ _ _ x y => Eqp.trans x y) a.A b.A, forall₂_trans (R := Eqp) (S := Eqp) (U := Eqp) (fun _ _ _ x y => Eqp.trans x y) a.B b.B⟩

theorem onKSab_two {f : Frag G r c p → Py (Frag G r c p)} {P P' : Part G r c p} (h : onKSab f P = .ok P')
    (hf : ∀ x y, f x = .ok y → Eqp x y) : Two P P' := by
  obtain ⟨-, hA, hB, hB'⟩ := onKSab_inv h
  refine ⟨hA.imp hf, ?_⟩
  cases hs : P.opt.abSym with
  | true => rw [hB hs]; exact forall₂_self Eqp.refl _
  | false => exact (hB' hs).imp hf

theorem zip_rel {R S : Frag G r c p → Frag G r c p → Prop} (hR : ∀ A B B', mirrorOf A B = .ok B' → R B B' ∧ S A B')
    {x y z : List (Frag G r c p)} (hl : x.length = y.length)
    (h : List.Forall₂ (fun (x : Frag G r c p × Frag G r c p) y => mirrorOf x.1 x.2 = .ok y) (x.zip y) z) :
    List.Forall₂ R y z ∧ List.Forall₂ S x z := by
  induction x generalizing y z with
  | nil =>
    cases y with
    | nil => cases h; exact ⟨.nil, .nil⟩
    | cons => simp at hl
  | cons a x ih =>
    cases y with
    | nil => simp at hl
    | cons b y =>
      rw [List.zip_cons_cons] at h
      cases h with
      | cons e r' =>
        obtain ⟨h1, h2⟩ := ih (by simpa using hl) r'
        obtain ⟨h3, h4⟩ := hR _ _ _ e
        exact ⟨.cons h3 h1, .cons h4 h2⟩

theorem mirrorOf_eqp {A B B' : Frag G r c p} (h : mirrorOf A B = .ok B') : Eqp B B' := by
  unfold mirrorOf at h
  simp only [Py.do_eq_ok, Py.pure_eq_ok] at h
  obtain ⟨_, _, _, _, v, hv, rfl⟩ := h
  exact ⟨rfl, rfl⟩

theorem mirrorIf_two {P P' : Part G r c p} (h : mirrorIf P = .ok P') : Two P P' := by
  obtain ⟨-, hA, hB, hB'⟩ := mirrorIf_inv h
  refine ⟨hA ▸ forall₂_self Eqp.refl _, ?_⟩
  cases hs : P.opt.abSym with
  | true => exact (zip_rel (S := fun _ _ => True) (fun A B B' h => ⟨mirrorOf_eqp h, trivial⟩) (comps_length P) (hB' hs)).1
  | false => rw [hB hs]; exact forall₂_self Eqp.refl _

theorem Two.of_frame {P P' : Part G r c p} (h : Frame P P') : Two P P' :=
  ⟨h.ksA.imp fun _ _ e => ⟨by rw [e.1], e.2⟩, h.ksB.imp fun _ _ e => ⟨by rw [e.1], e.2⟩⟩

theorem NewQ.eqp {f g : Frag G r c p} (h : NewQ f g) : Eqp f g := by
  rw [h.1]
  exact ⟨rfl, rfl⟩

theorem promolecule_two {o : Options K} {P P' : Part G r c p} (h : promolecule o P = .ok P') : Two P P' := by
  obtain ⟨-, -, -, -, -, hA, hB⟩ := promolecule_inv h
  exact ⟨hA.imp fun _ _ => NewQ.eqp, hB.imp fun _ _ => NewQ.eqp⟩

theorem fragment_eqp {F : Functionals G p} {W : KsScf.Workers G r c p} {o : Options K} {dif : Fl K} {vp : G.Cols p}
    {f g : Frag G r c p} (h : fragment F W o dif vp f = .ok g) : Eqp f g := by
  unfold fragment at h
  simp only [Py.do_eq_ok, Py.pure_eq_ok] at h
  obtain ⟨f₁, h1, k₂, h2, ⟨k₃, nout⟩, h3, k₄, h4, al, -, n, -, k₅, h5, rfl⟩ := h
  have hv : k₅.alpha = f₁.ks.alpha := by
    have h6 := (KS.energy_ext h5).alpha
    rw [h6]
    exact (KS.calcChempot_ext h4).alpha.trans ((KS.calcDensity_ext h3).1.alpha.trans
      (KS.setEffectivePotential_ext h2).alpha)
  unfold external at h1
  split at h1
  · obtain rfl := Except.ok.inj h1
    exact ⟨hv, rfl⟩
  · cases ho : o.calcType with
    | pdft =>
      rw [ho] at h1
      obtain rfl := Except.ok.inj h1
      exact ⟨hv, rfl⟩
    | sdft =>
      rw [ho] at h1
      simp only [Py.do_eq_ok, Py.pure_eq_ok] at h1
      obtain ⟨v, hvv, rfl⟩ := h1
      exact ⟨hv, rfl⟩

theorem hxcUpdate_eqp {F : Functionals G p} {f g : Frag G r c p} (h : hxcUpdate F f = .ok g) : Eqp f g := by
  obtain ⟨h1, h2⟩ := hxcUpdate_inv h
  exact ⟨h2.alpha, by rw [h1]⟩

theorem guess_eqp {W : KsScf.Workers G r c p} {o : Options K} {f g : Frag G r c p} (h : guess W o f = .ok g) : Eqp f g := by
  unfold guess at h
  split at h
  · split at h
    · exact nomatch h
    · obtain rfl := Except.ok.inj h
      exact Eqp.refl _
  · simp only [Py.do_eq_ok, Py.pure_eq_ok] at h
    obtain ⟨k₁, h1, ⟨k₂, n⟩, h2, k₃, h3, rfl⟩ := h
    refine ⟨?_, rfl⟩
    have e := (KS.calcChempot_ext h3).alpha
    rw [e]
    exact (KS.calcDensity_ext h2).1.alpha.trans (KS.setEffectivePotential_ext h1).alpha

/-! ## The mirror image -/

/-- B is the mirror image of A, up to its `Q`. -/
def Mirrored (A B : Frag G r c p) : Prop := ∃ Q, mirrorOf A B = .ok ⟨{ B.ks with Q := Q }, B.v⟩

theorem or_or {α : Type*} (a b : Option α) : a.or (a.or b) = a.or b := by
  cases a <;> rfl

theorem mirrorOf_mirrored {A B B' : Frag G r c p} (h : mirrorOf A B = .ok B') : Mirrored A B' := by
  unfold mirrorOf at h
  simp only [Py.do_eq_ok, Py.pure_eq_ok] at h
  obtain ⟨n, hn, veff, hv, vext, hx, rfl⟩ := h
  refine ⟨A.ks.Q.map G.mirCols, ?_⟩
  unfold mirrorOf
  simp only [Py.do_eq_ok, Py.pure_eq_ok]
  exact ⟨n, hn, veff, hv, vext, hx, by simp only [or_or]⟩

/-- The same up to `Q` and up to attributes of `V` other than the flag and `vp`. -/
def Near (f g : Frag G r c p) : Prop := g.ks = { f.ks with Q := g.ks.Q } ∧ g.v.vp = f.v.vp

theorem Mirrored.near {A B A' B' : Frag G r c p} (h : Mirrored A B) (hA : Near A A') (hB : Near B B') : Mirrored A' B' := by
  obtain ⟨Q, h⟩ := h
  obtain ⟨a1, a2⟩ := hA
  obtain ⟨b1, b2⟩ := hB
  refine ⟨A'.ks.Q.map G.mirCols, ?_⟩
  unfold mirrorOf at h ⊢
  simp only [Py.do_eq_ok, Py.pure_eq_ok] at h ⊢
  obtain ⟨n, hn, veff, hv, vext, hx, e⟩ := h
  refine ⟨n, by rw [a1]; exact hn, veff, by rw [a1]; exact hv, vext, by rw [a1]; exact hx, ?_⟩
  have e1 := congrArg Frag.ks e
  have e2 := congrArg (fun f => f.v.vp) e
  simp only at e1 e2
  rw [a2, b2, a1]
  have e3 : ({ B'.v with vp := (A.v.vp.map G.mirCols).or B.v.vp } : FragV G p) = B'.v := by
    rw [e2, ← b2]
  rw [e3]
  rw [b1]
  simp only
  simp only [KS.mk.injEq] at e1
  congr 1
  simp only [KS.mk.injEq]
  simp only [e1, and_self]

theorem forall₂_near {x y x' y' : List (Frag G r c p)} (h : List.Forall₂ Mirrored x y) (hx : List.Forall₂ Near x x')
    (hy : List.Forall₂ Near y y') : List.Forall₂ Mirrored x' y' := by
  induction h generalizing x' y' with
  | nil => cases hx; cases hy; exact .nil
  | cons e _ ih =>
    cases hx with
    | cons a as =>
      cases hy with
      | cons b bs => exact .cons (e.near a b) (ih as bs)

theorem NewQ.near {f g : Frag G r c p} (h : NewQ f g) : Near f g := by
  refine ⟨congrArg Frag.ks h.1, ?_⟩
  rw [h.1]

/-! ## The energy leaves `vp` alone -/

structure KeepVp (P P' : Part G r c p) : Prop where
  A : List.Forall₂ (fun f g => g.v.vp = f.v.vp) P.compsA P'.compsA
  B : List.Forall₂ (fun f g => g.v.vp = f.v.vp) P.compsB P'.compsB

theorem KeepVp.refl (P : Part G r c p) : KeepVp P P :=
  ⟨forall₂_self (R := fun f g : Frag G r c p => g.v.vp = f.v.vp) (fun _ => rfl) _, forall₂_self (R := fun f g : Frag G r c p => g.v.vp = f.v.vp) (fun _ => rfl) _⟩

theorem KeepVp.trans {P P' P'' : Part G r c p} (a : KeepVp P P') (b : KeepVp P' P'') : KeepVp P P'' :=
  ⟨forall₂_trans (U := fun f g => g.v.vp = f.v.vp) (fun _ _ _ x y => y.trans x) a.A b.A,
    forall₂_trans (U := fun f g => g.v.vp = f.v.vp) (fun _ _ _ x y => y.trans x) a.B b.B⟩

theorem vpOverlap_vp {T : Env G r c p} {P P' : Part G r c p} (h : P.vpOverlap T = .ok P') : KeepVp P P' := by
  unfold vpOverlap at h
  simp only [Py.do_eq_ok] at h
  obtain ⟨na, _, nb, _, P₁, h1, h2⟩ := h
  obtain ⟨-, hA, hB⟩ := mapA_inv h1
  obtain ⟨-, hB', hA'⟩ := mapB_inv h2
  refine ⟨?_, ?_⟩
  · rw [hA']
    refine hA.imp fun x y hxy => ?_
    simp only [Py.do_eq_ok, Py.pure_eq_ok] at hxy
    obtain ⟨_, _, rfl⟩ := hxy
    rfl
  · rw [hB] at hB'
    refine hB'.imp fun x y hxy => ?_
    simp only [Py.do_eq_ok, Py.pure_eq_ok] at hxy
    obtain ⟨_, _, rfl⟩ := hxy
    rfl

theorem ensCorHar_vp {P P' : Part G r c p} (h : P.ensCorHar = .ok P') : KeepVp P P' := by
  unfold ensCorHar at h
  cases hAB : P.fAB with
  | none => rw [hAB] at h; exact nomatch h
  | some x =>
    obtain ⟨A, B⟩ := x
    rw [hAB] at h
    simp only [Py.do_eq_ok, Py.pure_eq_ok] at h
    obtain ⟨⟨a, ea⟩, ⟨_, _, _, _, _, _, h1⟩, ⟨A', eA⟩, ⟨_, _, _, _, _, _, h2⟩, ⟨b, eb⟩,
      ⟨_, _, _, _, _, _, h3⟩, ⟨B', eB⟩, ⟨_, _, _, _, _, _, h4⟩, rfl⟩ := h
    simp only [Prod.mk.injEq] at h1 h2 h3 h4
    obtain ⟨rfl, -⟩ := h1
    obtain ⟨rfl, -⟩ := h2
    obtain ⟨rfl, -⟩ := h3
    obtain ⟨rfl, -⟩ := h4
    refine ⟨?_, ?_⟩
    · simp only [compsA, hAB]; exact .cons rfl (.cons rfl .nil)
    · simp only [compsB, hAB]; exact .cons rfl (.cons rfl .nil)

theorem epCollect_vp {T : Env G r c p} {P P' : Part G r c p} {h x cc e : K}
    (H : P.epCollect T h x cc = .ok (P', e)) : KeepVp P P' := by
  unfold epCollect at H
  cases hk : P.opt.hxc <;> rw [hk] at H <;> simp only [Py.do_eq_ok, Py.pure_eq_ok, Prod.mk.injEq] at H
  case exact => obtain ⟨rfl, -⟩ := H; exact KeepVp.refl _
  case hartree => obtain ⟨rfl, -⟩ := H; exact KeepVp.refl _
  case overlapXc => obtain ⟨P₁, h1, _, _, rfl, -⟩ := H; exact vpOverlap_vp h1
  case surprisal => exact nomatch H
  all_goals
    obtain ⟨P₁, h1, P₂, h2, _, _, _, _, rfl, -⟩ := H
    exact (vpOverlap_vp h1).trans (ensCorHar_vp h2)

theorem energy_vp {T : Env G r c p} {P P' : Part G r c p} (h : P.energy T = .ok P') : KeepVp P P' := by
  unfold energy at h
  simp only [Py.do_eq_ok, Py.pure_eq_ok] at h
  obtain ⟨⟨sa, sb⟩, _, ⟨P₁, pot, kin, hxc, ep⟩, h2, ⟨ea, eb⟩, -, rfl⟩ := h
  have h3 : KeepVp P P₁ := by
    unfold partitionEnergy epHxc at h2
    split_ifs at h2
    · obtain ⟨rfl, -⟩ := Prod.mk.inj (Except.ok.inj h2)
      exact KeepVp.refl _
    · simp only [Py.do_eq_ok, Py.pure_eq_ok, Prod.mk.injEq] at h2
      obtain ⟨_, _, _, _, ⟨P₂, e⟩, ⟨⟨h', x, cc, d⟩, _, h2⟩, rfl, -⟩ := h2
      have := epCollect_vp h2
      exact ⟨this.A, this.B⟩
  exact ⟨h3.A, h3.B⟩

/-! ## Promolecule and `Q` -/

/-- The `Q` of `calc_Q`. -/
def qOf (s : K) (n nf : G.Cols p) : G.Cols p := fun j k => Fl.clean (Fl.div (.fin (s * n j k)) (.fin (nf j k)))

def HasQ (nf : G.Cols p) (f : Frag G r c p) : Prop :=
  ∃ n s, f.ks.n = some n ∧ f.ks.scale = some s ∧ f.ks.Q = some (qOf s n nf)

/-- Promolecular density and `Q` belong to the densities of the components. -/
structure Pro (o : Options K) (P : Part G r c p) : Prop where
  dens : o.fromTarget = false → ∃ na nb, weighted P.compsA = .ok na ∧ weighted P.compsB = .ok nb ∧
    P.naFrac = some (addFlip P.opt.ensSpinSym na) ∧ P.nbFrac = some (addFlip P.opt.ensSpinSym nb) ∧
    P.nf = some fun j k => addFlip P.opt.ensSpinSym na j k + addFlip P.opt.ensSpinSym nb j k
  Q : ∃ nf, P.nf = some nf ∧ (∀ f ∈ P.compsA, HasQ nf f) ∧ ∀ f ∈ P.compsB, HasQ nf f

/-- The same density and weight. -/
def SameN (f g : Frag G r c p) : Prop := g.ks.n = f.ks.n ∧ g.ks.scale = f.ks.scale

theorem weighted_congr {l l' : List (Frag G r c p)} (h : List.Forall₂ SameN l l') : weighted l' = weighted l := by
  unfold weighted
  generalize (fun _ _ => 0 : G.Cols p) = acc
  induction h generalizing acc with
  | nil => rfl
  | cons e _ ih =>
    simp only [List.foldlM_cons, e.1, e.2, ih]

theorem NewQ.sameN {f g : Frag G r c p} (h : NewQ f g) : SameN f g := by
  rw [h.1]
  exact ⟨rfl, rfl⟩

theorem calcQ_pro {P P' : Part G r c p} (h : P.calcQ = .ok P') :
    SameBut P P' ∧ List.Forall₂ SameN P.compsA P'.compsA ∧ List.Forall₂ SameN P.compsB P'.compsB ∧
    ∃ nf, P.nf = some nf ∧ (∀ f ∈ P'.compsA, HasQ nf f) ∧ ∀ f ∈ P'.compsB, HasQ nf f := by
  have h0 := calcQ_inv h
  refine ⟨h0.1, h0.2.1.imp fun _ _ => NewQ.sameN, h0.2.2.1.imp fun _ _ => NewQ.sameN, ?_⟩
  unfold calcQ at h
  rw [Py.do_eq_ok] at h
  obtain ⟨nf, hnf, h⟩ := h
  obtain ⟨h1, h2, h3⟩ := mapAll_inv h
  have : ∀ x y : Frag G r c p, (do
      let n ← KS.need x.ks.n
      let s ← KS.need x.ks.scale
      pure { x with ks := { x.ks with
        Q := some fun j k => Fl.clean (Fl.div (.fin (s * n j k)) (.fin (nf j k))) } } : Py (Frag G r c p)) = .ok y →
      HasQ nf y := by
    intro x y hxy
    simp only [Py.do_eq_ok, Py.pure_eq_ok] at hxy
    obtain ⟨n, hn, s, hs, rfl⟩ := hxy
    exact ⟨n, s, need_eq_ok.mp hn, need_eq_ok.mp hs, rfl⟩
  refine ⟨nf, attr_eq_ok.mp hnf, fun f hf => ?_, fun f hf => ?_⟩
  · obtain ⟨x, -, hx⟩ := mem_right h2 hf
    exact this _ _ hx
  · obtain ⟨x, -, hx⟩ := mem_right h3 hf
    exact this _ _ hx

theorem promolecule_pro {o : Options K} {P P' : Part G r c p} (h : promolecule o P = .ok P') : Pro o P' := by
  unfold promolecule at h
  cases ho : o.fromTarget with
  | true =>
    rw [ho, if_pos rfl] at h
    obtain ⟨⟨a, b, AB, h1⟩, -, -, nf, hnf, h2⟩ := calcQ_pro h
    exact ⟨fun e => (by rw [ho] at e; cases e), nf, by rw [h1]; exact hnf, h2⟩
  | false =>
    rw [ho, if_neg (by decide)] at h
    unfold calcProtomolecule at h
    simp only [Py.do_eq_ok, Py.pure_eq_ok] at h
    obtain ⟨P₁, ⟨na, ha, nb, hb, rfl⟩, h⟩ := h
    obtain ⟨⟨a, b, AB, h1⟩, hA, hB, nf, hnf, h2⟩ := calcQ_pro h
    refine ⟨fun _ => ⟨na, nb, ?_, ?_, by rw [h1], by rw [h1], by rw [h1]⟩, nf, by rw [h1]; exact hnf, h2⟩
    · rw [weighted_congr hA]
      exact ha
    · rw [weighted_congr hB]
      exact hb

theorem Pro.frame {o : Options K} {P P' : Part G r c p} (h : Pro o P) (hF : Frame P P') : Pro o P' := by
  obtain ⟨hd, nf, hnf, hA, hB⟩ := h
  have sA : List.Forall₂ SameN P.compsA P'.compsA := hF.ksA.imp fun _ _ e => ⟨by rw [e.1], by rw [e.1]⟩
  have sB : List.Forall₂ SameN P.compsB P'.compsB := hF.ksB.imp fun _ _ e => ⟨by rw [e.1], by rw [e.1]⟩
  refine ⟨fun e => ?_, nf, hF.nf.trans hnf, fun f hf => ?_, fun f hf => ?_⟩
  · obtain ⟨na, nb, h1, h2, h3, h4, h5⟩ := hd e
    rw [hF.opt, hF.naFrac, hF.nbFrac, hF.nf, weighted_congr sA, weighted_congr sB]
    exact ⟨na, nb, h1, h2, h3, h4, h5⟩
  · obtain ⟨x, hx, e⟩ := mem_right hF.ksA hf
    obtain ⟨n, s, q1, q2, q3⟩ := hA x hx
    exact ⟨n, s, by rw [e.1]; exact q1, by rw [e.1]; exact q2, by rw [e.1]; exact q3⟩
  · obtain ⟨x, hx, e⟩ := mem_right hF.ksB hf
    obtain ⟨n, s, q1, q2, q3⟩ := hB x hx
    exact ⟨n, s, by rw [e.1]; exact q1, by rw [e.1]; exact q2, by rw [e.1]; exact q3⟩

/-- The same up to `Q`. -/
def ButQ (f g : Frag G r c p) : Prop := g = ⟨{ f.ks with Q := g.ks.Q }, f.v⟩

theorem pro_to {o : Options K} {P P' : Part G r c p} (hP : Pro o P) (hS : SameBut P' P)
    (hA : List.Forall₂ ButQ P'.compsA P.compsA) (hB : List.Forall₂ ButQ P'.compsB P.compsB) : promolecule o P' = .ok P := by
  obtain ⟨hd, nf, hnf, hqA, hqB⟩ := hP
  have key : ∀ (R : Part G r c p), R.nf = some nf → SameBut R P → List.Forall₂ ButQ R.compsA P.compsA →
      List.Forall₂ ButQ R.compsB P.compsB → R.calcQ = .ok P := by
    intro R hR hS hA hB
    unfold calcQ
    rw [Py.do_eq_ok]
    refine ⟨nf, attr_eq_ok.mpr hR, mapAll_to hS ?_ ?_⟩
    · refine forall₂_mem hA fun x y hy e => ?_
      obtain ⟨n, s, q1, q2, q3⟩ := hqA y hy
      unfold ButQ at e
      simp only [Py.do_eq_ok, Py.pure_eq_ok]
      refine ⟨n, ?_, s, ?_, ?_⟩
      · rw [need_eq_ok, ← q1, e]
      · rw [need_eq_ok, ← q2, e]
      · conv_rhs => rw [e, q3]
        rfl
    · refine forall₂_mem hB fun x y hy e => ?_
      obtain ⟨n, s, q1, q2, q3⟩ := hqB y hy
      unfold ButQ at e
      simp only [Py.do_eq_ok, Py.pure_eq_ok]
      refine ⟨n, ?_, s, ?_, ?_⟩
      · rw [need_eq_ok, ← q1, e]
      · rw [need_eq_ok, ← q2, e]
      · conv_rhs => rw [e, q3]
        rfl
  unfold promolecule
  cases ho : o.fromTarget with
  | true =>
    rw [if_pos rfl]
    refine key P' ?_ hS hA hB
    obtain ⟨a, b, AB, h1⟩ := hS
    rw [h1] at hnf
    exact hnf
  | false =>
    rw [if_neg (by decide), Py.do_eq_ok]
    obtain ⟨na, nb, h1, h2, h3, h4, h5⟩ := hd ho
    obtain ⟨a, b, AB, e⟩ := hS
    have sA : List.Forall₂ SameN P'.compsA P.compsA := hA.imp fun x y e => by
      unfold ButQ at e
      rw [e]
      exact ⟨rfl, rfl⟩
    have sB : List.Forall₂ SameN P'.compsB P.compsB := hB.imp fun x y e => by
      unfold ButQ at e
      rw [e]
      exact ⟨rfl, rfl⟩
    refine ⟨P', ?_, key P' ?_ ⟨a, b, AB, e⟩ hA hB⟩
    · unfold calcProtomolecule
      simp only [Py.do_eq_ok, Py.pure_eq_ok]
      rw [weighted_congr sA] at h1
      rw [weighted_congr sB] at h2
      refine ⟨na, h1, nb, h2, ?_⟩
      rw [e] at h3 h4 h5
      simp only at h3 h4 h5
      rw [← h3, ← h4, ← h5]
    · rw [e] at hnf
      exact hnf

/-! ## States from which a calculation can be continued -/

/-- The mixing parameters (scf.py 54-64). -/
def alphas (o : Options K) : Option (K × K) :=
  match o.alpha with
  | [x] => some (x, x)
  | [x, y] => some (x, y)
  | _ => none

/-- What holds after the initial guess and after every pass. -/
structure Settled (o : Options K) (P : Part G r c p) : Prop where
  eqp : ∃ x y, alphas o = some (x, y) ∧ (∀ f ∈ P.compsA, f.ks.alpha = some x ∧ f.v.frozen = some o.freezeA) ∧
    ∀ f ∈ P.compsB, f.ks.alpha = some y ∧ f.v.frozen = some o.freezeB
  mirror : P.opt.abSym = true → List.Forall₂ Mirrored P.compsA P.compsB
  pro : Pro o P

theorem equip_self {b : Bool} {x : K} {f : Frag G r c p} (h : f.ks.alpha = some x ∧ f.v.frozen = some b) : equip b x f = f := by
  unfold equip
  rw [← h.1, ← h.2]

theorem setup_self {o : Options K} {P : Part G r c p} {x y : K} (h : alphas o = some (x, y))
    (hA : ∀ f ∈ P.compsA, f.ks.alpha = some x ∧ f.v.frozen = some o.freezeA)
    (hB : ∀ f ∈ P.compsB, f.ks.alpha = some y ∧ f.v.frozen = some o.freezeB) : setup o P = .ok P := by
  have e : setup.go o P x y = P := by
    unfold setup.go
    unfold compsA at hA
    unfold compsB at hB
    rw [equip_self (hA P.fa (by simp)), equip_self (hB P.fb (by simp))]
    cases hP : P.fAB with
    | none =>
      rw [Option.map_none, ← hP]
    | some AB =>
      rw [hP] at hA hB
      rw [Option.map_some, equip_self (hA AB.1 (by simp)), equip_self (hB AB.2 (by simp)), Prod.mk.eta, ← hP]
  unfold setup
  unfold alphas at h
  split at h
  · obtain ⟨rfl, rfl⟩ := Prod.mk.inj (Option.some.inj h)
    simp only [*]
    rfl
  · obtain ⟨rfl, rfl⟩ := Prod.mk.inj (Option.some.inj h)
    simp only [*]
    rfl
  · cases h

theorem setup_eqp {o : Options K} {P P' : Part G r c p} (h : setup o P = .ok P') :
    ∃ x y, alphas o = some (x, y) ∧ (∀ f ∈ P'.compsA, f.ks.alpha = some x ∧ f.v.frozen = some o.freezeA) ∧
      ∀ f ∈ P'.compsB, f.ks.alpha = some y ∧ f.v.frozen = some o.freezeB := by
  have key : ∀ x y : K, (∀ f ∈ (setup.go o P x y).compsA, f.ks.alpha = some x ∧ f.v.frozen = some o.freezeA) ∧
      ∀ f ∈ (setup.go o P x y).compsB, f.ks.alpha = some y ∧ f.v.frozen = some o.freezeB := by
    intro x y
    unfold setup.go compsA compsB
    cases P.fAB <;> simp [equip]
  unfold setup at h
  unfold alphas
  split at h
  · rename_i x e
    obtain rfl := Except.ok.inj h
    exact ⟨x, x, by rw [e], key x x⟩
  · rename_i x y e
    obtain rfl := Except.ok.inj h
    exact ⟨x, y, by rw [e], key x y⟩
  · exact nomatch h

theorem Two.keep {o : Options K} {P P' : Part G r c p} (h : Two P P') {x y : K}
    (hA : ∀ f ∈ P.compsA, f.ks.alpha = some x ∧ f.v.frozen = some o.freezeA)
    (hB : ∀ f ∈ P.compsB, f.ks.alpha = some y ∧ f.v.frozen = some o.freezeB) :
    (∀ f ∈ P'.compsA, f.ks.alpha = some x ∧ f.v.frozen = some o.freezeA) ∧
      ∀ f ∈ P'.compsB, f.ks.alpha = some y ∧ f.v.frozen = some o.freezeB := by
  refine ⟨fun f hf => ?_, fun f hf => ?_⟩
  · obtain ⟨g, hg, e⟩ := mem_right h.A hf
    exact ⟨e.1.trans (hA g hg).1, e.2.trans (hA g hg).2⟩
  · obtain ⟨g, hg, e⟩ := mem_right h.B hf
    exact ⟨e.1.trans (hB g hg).1, e.2.trans (hB g hg).2⟩

theorem mirrorIf_mirrored {P P' : Part G r c p} (h : mirrorIf P = .ok P') (hs : P.opt.abSym = true) :
    List.Forall₂ Mirrored P'.compsA P'.compsB := by
  obtain ⟨-, hA, -, hB⟩ := mirrorIf_inv h
  rw [hA]
  exact (zip_rel (R := fun _ _ => True) (fun A B B' h => ⟨trivial, mirrorOf_mirrored h⟩) (comps_length P) (hB hs)).2

theorem start_settled {W : KsScf.Workers G r c p} {o : Options K} {P P' : Part G r c p} (h : start W o P = .ok P') :
    Settled o P' := by
  unfold start at h
  simp only [Py.do_eq_ok] at h
  obtain ⟨P₁, h1, P₂, h2, P₃, h3, h4⟩ := h
  obtain ⟨x, y, hxy, hA, hB⟩ := setup_eqp h1
  have ht := ((onKSab_two h2 fun _ _ => guess_eqp).trans (mirrorIf_two h3)).trans (promolecule_two h4)
  have hp := promolecule_inv h4
  refine ⟨⟨x, y, hxy, ht.keep hA hB⟩, fun hs => ?_, promolecule_pro h4⟩
  have h5 := mirrorIf_mirrored h3 (by rw [hp.1, (mirrorIf_inv h3).1.opt.1] at hs; exact hs)
  exact forall₂_near h5 (hp.2.2.2.2.2.1.imp fun _ _ => NewQ.near) (hp.2.2.2.2.2.2.imp fun _ _ => NewQ.near)

theorem pass_settled {T : Env G r c p} {W : KsScf.Workers G r c p} {o : Options K} {dif : Fl K} {P P' : Part G r c p}
    (h : pass T W o dif P = .ok P') (hP : Settled o P) : Settled o P' := by
  obtain ⟨P₁, P₂, P₃, P₄, P₅, P₆, vp, h1, h2, h3, h4, h5, h6, h7, o1, o2, o3, o4, o5, o6, o7⟩ := pass_inv h
  have ht : Two P P' := ((((((onKSab_two h1 fun _ _ => hxcUpdate_eqp).trans (mirrorIf_two h2)).trans
    (.of_frame (potential_inv h3))).trans (onKSab_two h4 fun _ _ => fragment_eqp)).trans (mirrorIf_two h5)).trans
    (promolecule_two h6)).trans (.of_frame (energy_frame h7))
  obtain ⟨x, y, hxy, hA, hB⟩ := hP.eqp
  refine ⟨⟨x, y, hxy, ht.keep hA hB⟩, fun hs => ?_, (promolecule_pro h6).frame (energy_frame h7)⟩
  have hp := promolecule_inv h6
  have hm := mirrorIf_mirrored h5 (by rw [o4.1, ← o7.1]; exact hs)
  have h8 := forall₂_near hm (hp.2.2.2.2.2.1.imp fun _ _ => NewQ.near) (hp.2.2.2.2.2.2.imp fun _ _ => NewQ.near)
  refine forall₂_near h8 ?_ ?_
  · exact forall₂_and (energy_frame h7).ksA (energy_vp h7).A fun x y a b => ⟨by rw [a.1], b⟩
  · exact forall₂_and (energy_frame h7).ksB (energy_vp h7).B fun x y a b => ⟨by rw [a.1], b⟩

/-- A settled state is taken over as it is. -/
theorem start_continue {W : KsScf.Workers G r c p} {o : Options K} {P : Part G r c p} (hP : Settled o P)
    (ho : o.continuing = true) : start W o P = .ok P := by
  obtain ⟨⟨x, y, hxy, hA, hB⟩, hm, hp⟩ := hP
  have hn : (∀ f ∈ P.compsA, ∃ n, f.ks.n = some n) ∧ ∀ f ∈ P.compsB, ∃ n, f.ks.n = some n := by
    obtain ⟨-, nf, -, h1, h2⟩ := hp
    exact ⟨fun f hf => by obtain ⟨n, _, h, -⟩ := h1 f hf; exact ⟨n, h⟩, fun f hf => by obtain ⟨n, _, h, -⟩ := h2 f hf; exact ⟨n, h⟩⟩
  have hg : ∀ f : Frag G r c p, (∃ n, f.ks.n = some n) → guess W o f = .ok f := by
    rintro f ⟨n, h⟩
    unfold guess
    rw [if_pos ho, h]
    rfl
  unfold start
  simp only [Py.do_eq_ok]
  refine ⟨P, setup_self hxy hA hB, P, onKSab_self (fun f hf => hg f (hn.1 f hf)) fun f hf => hg f (hn.2 f hf), ?_⟩
  cases hs : P.opt.abSym with
  | false =>
    refine ⟨P, by unfold mirrorIf; rw [hs]; rfl, pro_to hp ⟨P.fa, P.fb, P.fAB, by cases P; rfl⟩ ?_ ?_⟩
    · exact forall₂_self (R := ButQ) (fun _ => rfl) _
    · exact forall₂_self (R := ButQ) (fun _ => rfl) _
  | true =>
    have hm := hm hs
    obtain ⟨P', h1, h2, h3, h4⟩ : ∃ P' : Part G r c p, SameBut P P' ∧ P'.compsA = P.compsA ∧
        List.Forall₂ (fun (x : Frag G r c p × Frag G r c p) y => mirrorOf x.1 x.2 = .ok y) (P.compsA.zip P.compsB) P'.compsB ∧
        List.Forall₂ ButQ P'.compsB P.compsB := by
      unfold compsA compsB at hm
      cases hAB : P.fAB with
      | none =>
        simp only [hAB, Option.map_none, Option.toList_none, List.forall₂_cons, List.Forall₂.nil, and_true] at hm
        obtain ⟨Q, hm⟩ := hm
        refine ⟨{ P with fb := ⟨{ P.fb.ks with Q := Q }, P.fb.v⟩ }, ⟨P.fa, _, P.fAB, rfl⟩, rfl, ?_, ?_⟩
        · simp only [compsA, compsB, hAB]
          exact .cons hm .nil
        · simp only [compsB, hAB]
          exact .cons rfl .nil
      | some AB =>
        obtain ⟨A, B⟩ := AB
        simp only [hAB, Option.map_some, Option.toList_some, List.forall₂_cons, List.Forall₂.nil, and_true] at hm
        obtain ⟨⟨Q, hm⟩, Q', hm'⟩ := hm
        refine ⟨{ P with fb := ⟨{ P.fb.ks with Q := Q }, P.fb.v⟩, fAB := some (A, ⟨{ B.ks with Q := Q' }, B.v⟩) },
          ⟨P.fa, _, _, rfl⟩, ?_, ?_, ?_⟩
        · simp only [compsA, hAB]
          rfl
        · simp only [compsA, compsB, hAB]
          exact .cons hm (.cons hm' .nil)
        · simp only [compsB, hAB]
          exact .cons rfl (.cons rfl .nil)
    refine ⟨P', by unfold mirrorIf; rw [if_pos hs]; exact mirrorAB_to h1 h2 h3, pro_to hp ?_ ?_ h4⟩
    · obtain ⟨a, b, AB, rfl⟩ := h1
      exact ⟨P.fa, P.fb, P.fAB, rfl⟩
    · rw [h2]
      exact forall₂_self (R := ButQ) (fun _ => rfl) _

/-! ## Passes -/

/-- Whether `iter_orbitals` is used after the change `d` (kohnsham.py 202, 213). -/
def flag (o : Options K) (d : Fl K) : Bool := o.iterative && Fl.gt (.fin (1 / 100)) d

theorem pass_flag (T : Env G r c p) (W : KsScf.Workers G r c p) {o o' : Options K} {d d' : Fl K} (h : flag o d = flag o' d')
    (hc : o'.calcType = o.calcType) (ht : o'.fromTarget = o.fromTarget) (P : Part G r c p) :
    pass T W o d P = pass T W o' d' P := by
  unfold flag at h
  have e : ∀ vp : G.Cols p, fragment T.toFunctionals W o d vp = fragment T.toFunctionals W o' d' vp := by
    intro vp
    funext f
    unfold fragment external
    rw [h, hc]
  have e' : promolecule o = promolecule (G := G) (r := r) (c := c) (p := p) o' := by
    funext P
    unfold promolecule
    rw [ht]
  unfold pass
  simp only [e, e']

/-- Several passes after the changes in the list. -/
def passes (T : ℕ → Env G r c p) (W : ℕ → KsScf.Workers G r c p) (o : Options K) : ℕ → List (Fl K) → Part G r c p → Py (Part G r c p)
  | _, [], P => pure P
  | it, d :: l, P => do
    let P ← pass (T it) (W it) o d P
    passes T W o (it + 1) l P

theorem passes_append (T : ℕ → Env G r c p) (W : ℕ → KsScf.Workers G r c p) (o : Options K) (l' : List (Fl K)) :
    ∀ (l : List (Fl K)) (it : ℕ) (P : Part G r c p),
      passes T W o it (l ++ l') P = (passes T W o it l P >>= passes T W o (it + l.length) l') := by
  intro l
  induction l with
  | nil =>
    intro it P
    rfl
  | cons d l ih =>
    intro it P
    rw [List.cons_append, passes, passes, bind_assoc]
    congr 1
    funext P
    rw [ih, List.length_cons, show it + 1 + l.length = it + (l.length + 1) by omega]

/-- Without an inversion, or for isolated fragments. -/
def NoInv (P : Part G r c p) : Prop := ¬ (P.opt.kin = .inversion ∧ P.opt.isolated = false)

theorem loop_passes {T : ℕ → Env G r c p} {W : ℕ → KsScf.Workers G r c p} {o : Options K} (auto : Bool) (etol : K) :
    ∀ (left : ℕ) (st st' : State G r c p) (log : List (Fl K)) (w : ℕ), NoInv st.P →
      loop (body T W o) auto etol left st.dif st = .ok (st', log, w) →
      passes T W o st.it (st.dif :: log).dropLast st.P = .ok st'.P := by
  intro left
  induction left with
  | zero =>
    intro st st' log w hN h
    unfold loop at h
    split at h
    · split at h
      · exact nomatch h
      · simp only [Except.ok.injEq, Prod.mk.injEq] at h; obtain ⟨rfl, rfl, -⟩ := h; rfl
    · simp only [Except.ok.injEq, Prod.mk.injEq] at h; obtain ⟨rfl, rfl, -⟩ := h; rfl
  | succ left ih =>
    intro st st' log w hN h
    unfold loop at h
    split at h
    · split at h
      · exact nomatch h
      · simp only [Except.ok.injEq, Prod.mk.injEq] at h; obtain ⟨rfl, rfl, -⟩ := h; rfl
    · simp only [Py.do_eq_ok, Py.pure_eq_ok] at h
      obtain ⟨⟨t, d⟩, ht, ⟨t', log', w'⟩, ht', h⟩ := h
      simp only [Prod.mk.injEq] at h
      obtain ⟨rfl, rfl, -⟩ := h
      have hp := body_inv ht
      have ha : avoid st.it st.P = st.P := by
        unfold avoid
        rw [if_neg hN]
      rw [ha] at hp
      have hd : d = t.dif ∧ t.it = st.it + 1 := by
        unfold body at ht
        simp only [Py.do_eq_ok, Py.pure_eq_ok] at ht
        obtain ⟨P, -, e, -, nf, -, ⟨E, dE⟩, -, dn, -, k, -, h⟩ := ht
        simp only [Prod.mk.injEq] at h
        obtain ⟨rfl, rfl⟩ := h
        exact ⟨rfl, rfl⟩
      have hN' : NoInv t.P := by
        obtain ⟨_, _, _, _, _, _, _, -, -, -, -, -, -, -, -, -, -, -, -, -, o7⟩ := pass_inv hp
        unfold NoInv
        rw [o7.1]
        exact hN
      rw [hd.1] at ht'
      have := ih t _ log' w' hN' ht'
      rw [hd.2] at this
      rw [List.dropLast_cons_of_ne_nil (by simp), passes, Py.do_eq_ok]
      exact ⟨t.P, hp, by rw [hd.1]; exact this⟩

theorem passes_congr (T : ℕ → Env G r c p) (W : ℕ → KsScf.Workers G r c p) {o o' : Options K} (k : ℕ)
    (hc : o'.calcType = o.calcType) (ht : o'.fromTarget = o.fromTarget) :
    ∀ (l l' : List (Fl K)) (it : ℕ) (P : Part G r c p), l.map (flag o) = l'.map (flag o') →
      passes T W o (k + it) l P = passes (fun i => T (k + i)) (fun i => W (k + i)) o' it l' P := by
  intro l
  induction l with
  | nil =>
    intro l' it P h
    rw [List.map_nil] at h
    rw [List.map_eq_nil_iff.mp h.symm]
    rfl
  | cons d l ih =>
    intro l' it P h
    cases l' with
    | nil => simp at h
    | cons d' l' =>
      rw [List.map_cons, List.map_cons, List.cons.injEq] at h
      rw [passes, passes, pass_flag _ _ h.1 hc ht]
      congr 1
      funext P
      exact ih l' (it + 1) P h.2

/-- Two runs that differ in limit and tolerance make the same passes as long as both make any. -/
theorem loop_prefix {S : Type} (step : S → Py (S × Fl K)) (auto : Bool) (etol etol' : K) :
    ∀ (left left' : ℕ) (dif : Fl K) (s s' s'' : S) (log log' : List (Fl K)) (w w' : ℕ),
      loop step auto etol left dif s = .ok (s', log, w) → loop step auto etol' left' dif s = .ok (s'', log', w') →
      log.length ≤ log'.length → log <+: log' := by
  intro left
  induction left with
  | zero =>
    intro left' dif s s' s'' log log' w w' h h' hl
    unfold loop at h
    split at h
    · split at h
      · exact nomatch h
      · simp only [Except.ok.injEq, Prod.mk.injEq] at h; obtain ⟨-, rfl, -⟩ := h; exact List.nil_prefix
    · simp only [Except.ok.injEq, Prod.mk.injEq] at h; obtain ⟨-, rfl, -⟩ := h; exact List.nil_prefix
  | succ left ih =>
    intro left' dif s s' s'' log log' w w' h h' hl
    unfold loop at h
    split at h
    · split at h
      · exact nomatch h
      · simp only [Except.ok.injEq, Prod.mk.injEq] at h; obtain ⟨-, rfl, -⟩ := h; exact List.nil_prefix
    · simp only [Py.do_eq_ok, Py.pure_eq_ok] at h
      obtain ⟨⟨t, d⟩, ht, ⟨t', lg, wt⟩, ht', h⟩ := h
      simp only [Prod.mk.injEq] at h
      obtain ⟨rfl, rfl, -⟩ := h
      unfold loop at h'
      split at h'
      · split at h'
        · exact nomatch h'
        · simp only [Except.ok.injEq, Prod.mk.injEq] at h'; obtain ⟨-, rfl, -⟩ := h'; simp at hl
      · cases left' with
        | zero => simp only [Except.ok.injEq, Prod.mk.injEq] at h'; obtain ⟨-, rfl, -⟩ := h'; simp at hl
        | succ left' =>
          simp only [Py.do_eq_ok, Py.pure_eq_ok] at h'
          obtain ⟨⟨u, e⟩, hu, ⟨u', lg', wu⟩, hu', h'⟩ := h'
          simp only [Prod.mk.injEq] at h'
          obtain ⟨rfl, rfl, -⟩ := h'
          rw [ht] at hu
          simp only [Except.ok.injEq, Prod.mk.injEq] at hu
          obtain ⟨rfl, rfl⟩ := hu
          simp only [List.length_cons, Nat.add_le_add_iff_right] at hl
          rw [List.cons_prefix_cons]
          exact ⟨rfl, ih _ _ _ _ _ _ _ _ _ ht' hu' hl⟩

theorem passes_settled {T : ℕ → Env G r c p} {W : ℕ → KsScf.Workers G r c p} {o : Options K} :
    ∀ (l : List (Fl K)) (it : ℕ) {P P' : Part G r c p}, Settled o P → passes T W o it l P = .ok P' → Settled o P' := by
  intro l
  induction l with
  | nil =>
    intro it P P' hP h
    obtain rfl := Except.ok.inj h
    exact hP
  | cons d l ih =>
    intro it P P' hP h
    rw [passes, Py.do_eq_ok] at h
    obtain ⟨Q, hQ, h⟩ := h
    exact ih _ (pass_settled hQ hP) h

theorem scf_passes {T : ℕ → Env G r c p} {W : ℕ → KsScf.Workers G r c p} {o : Options K} {P P' : Part G r c p}
    {log : List (Fl K)} {w : ℕ} (hN : NoInv P) (h : scf T W o P = .ok (P', log, w)) :
    ∃ S, start (W 0) o P = .ok S ∧ Settled o S ∧ passes T W o 1 ((.fin 10 : Fl K) :: log).dropLast S = .ok P' := by
  obtain ⟨S, nf, st, h0, -, hl, rfl⟩ := scf_inv h
  refine ⟨S, h0, start_settled h0, ?_⟩
  refine loop_passes o.autoTol o.etol _ ⟨S, .fin 0, nf, .fin 10, 1, 0⟩ st log w ?_ hl
  unfold NoInv
  simp only
  rw [(start_inv h0).1.1]
  exact hN

end Restart

open Restart

/-- C121 (continuing), partial: a partition calculation that is interrupted and continued ends in the same state as one that
makes the same number of passes without interruption.  Limits and tolerances may be chosen freely, and what the
numerical back ends return may change from pass to pass.  Not for calculations with an inversion; with `iterative`
only where neither run uses `iter_orbitals` after the interruption. -/
theorem C121_continue_partial (T : ℕ → Env G r c p) (W : ℕ → KsScf.Workers G r c p) (o : Options K) (m₂ m₃ : ℤ) (tol₂ tol₃ : K)
    {P P₁ P₂ P₃ : Part G r c p} {log₁ log₂ log₃ : List (Fl K)} {w₁ w₂ w₃ : ℕ}
    (hN : ¬ (P.opt.kin = .inversion ∧ P.opt.isolated = false))
    (h₁ : scf T W o P = .ok (P₁, log₁, w₁))
    (h₂ : scf (fun i => T (log₁.length + i)) (fun i => W (log₁.length + i))
      { o with continuing := true, maxIter := m₂, etol := tol₂ } P₁ = .ok (P₂, log₂, w₂))
    (h₃ : scf T W { o with maxIter := m₃, etol := tol₃ } P = .ok (P₃, log₃, w₃))
    (hlen : log₃.length = log₁.length + log₂.length)
    (hit : o.iterative = true → (∀ x ∈ (log₃.drop (log₁.length - 1)).dropLast, Fl.gt (.fin (1 / 100)) x = false) ∧
      ∀ x ∈ log₂.dropLast, Fl.gt (.fin (1 / 100)) x = false) : P₃ = P₂ := by
  obtain ⟨S, hS, hSS, hp⟩ := scf_passes hN h₁
  have hs1 : Settled o P₁ := passes_settled _ _ hSS hp
  have hN1 : NoInv P₁ := by
    obtain ⟨S', nf, st, h0, -, hl, rfl⟩ := scf_inv h₁
    have : NoInv st.P := by
      refine loop_inv (body T W o) (fun st => NoInv st.P) (fun s s' d hs hb => ?_) _ _ _ _ _ _ _ _ ?_ hl
      · obtain ⟨_, _, _, _, _, _, _, -, -, -, -, -, -, -, -, -, -, -, -, -, o7⟩ := pass_inv (body_inv hb)
        unfold NoInv
        rw [o7.1, (avoid_same s.it s.P).1.1]
        exact hs
      · unfold NoInv
        simp only
        rw [(start_inv h0).1.1]
        exact hN
    exact this
  obtain ⟨S₂, hS₂, -, hp₂⟩ := scf_passes hN1 h₂
  obtain ⟨S₃, hS₃, -, hp₃⟩ := scf_passes hN h₃
  have e3 : S₃ = S := by
    have : start (W 0) { o with maxIter := m₃, etol := tol₃ } P = start (W 0) o P := rfl
    rw [this, hS] at hS₃
    exact (Except.ok.inj hS₃).symm
  have e2 : S₂ = P₁ := by
    have := start_continue (W := W (log₁.length + 0)) (o := { o with continuing := true, maxIter := m₂, etol := tol₂ })
      (P := P₁) ⟨hs1.eqp, hs1.mirror, ⟨hs1.pro.dens, hs1.pro.Q⟩⟩ rfl
    rw [this] at hS₂
    exact (Except.ok.inj hS₂).symm
  subst e3 e2
  have hlen' : ∀ l : List (Fl K), ((.fin 10 : Fl K) :: l).dropLast.length = l.length := fun l => by simp
  have h10 : flag o (.fin 10) = false := by
    unfold flag
    rw [Fl.gt_fin, decide_eq_false (by norm_num), Bool.and_false]
  have hflags : ((.fin 10 : Fl K) :: log₃).dropLast.map (flag o) =
      (((.fin 10 : Fl K) :: log₁).dropLast ++ ((.fin 10 : Fl K) :: log₂).dropLast).map (flag o) := by
    cases hi : o.iterative with
    | false =>
      have : flag o = fun _ => false := by
        funext d
        unfold flag
        rw [hi, Bool.false_and]
      rw [this, List.map_const', List.map_const', List.length_append, hlen', hlen', hlen', hlen]
    | true =>
      obtain ⟨g3, g2⟩ := hit hi
      have hpre : log₁ <+: log₃ := by
        obtain ⟨S', nf, st, h0, hnf, hl, -⟩ := scf_inv h₁
        obtain ⟨S'', nf', st', h0', hnf', hl', -⟩ := scf_inv h₃
        have e : start (W 0) { o with maxIter := m₃, etol := tol₃ } P = start (W 0) o P := rfl
        rw [e, h0] at h0'
        obtain rfl := Except.ok.inj h0'
        rw [hnf] at hnf'
        obtain rfl := Option.some.inj hnf'
        have e : body T W { o with maxIter := m₃, etol := tol₃ } = body T W o := rfl
        rw [e] at hl'
        exact loop_prefix _ _ _ _ _ _ _ _ _ _ _ _ _ _ hl hl' (by omega)
      obtain ⟨rest, rfl⟩ := hpre
      have hrest : rest.length = log₂.length := by
        rw [List.length_append] at hlen
        omega
      refine List.ext_getElem (by rw [List.length_map, List.length_map, List.length_append, hlen', hlen', hlen', hlen])
        fun i hi1 hi2 => ?_
      rw [List.length_map, hlen', List.length_append] at hi1
      rw [List.getElem_map, List.getElem_map, List.getElem_dropLast]
      by_cases hik : i < log₁.length
      · rw [List.getElem_append_left (by rw [hlen']; exact hik), List.getElem_dropLast]
        congr 1
        cases i with
        | zero => rfl
        | succ i =>
          rw [List.getElem_cons_succ, List.getElem_cons_succ, List.getElem_append_left (by omega)]
      · rw [List.getElem_append_right (by rw [hlen']; omega), List.getElem_dropLast]
        have a1 : flag o ((Fl.fin 10 :: (log₁ ++ rest))[i]'(by simp; omega)) = false := by
          cases i with
          | zero => exact h10
          | succ i =>
            unfold flag
            rw [List.getElem_cons_succ]
            rw [g3 _ (List.mem_iff_getElem.mpr ⟨i - (log₁.length - 1), by simp; omega, ?_⟩), Bool.and_false]
            rw [List.getElem_dropLast, List.getElem_drop]
            congr 1
            omega
        have a2 : ∀ (j : ℕ) (hj : j < log₂.length), flag o ((Fl.fin 10 :: log₂)[j]'(by simp; omega)) = false := by
          intro j hj
          cases j with
          | zero => exact h10
          | succ j =>
            unfold flag
            rw [List.getElem_cons_succ]
            rw [g2 _ (List.mem_iff_getElem.mpr ⟨j, by simp; omega, List.getElem_dropLast _⟩), Bool.and_false]
        rw [a1]
        exact (a2 _ (by rw [hlen']; omega)).symm
  have e := passes_congr T W (o := o) (o' := { o with maxIter := m₃, etol := tol₃ }) 0 rfl rfl
    (((.fin 10 : Fl K) :: log₁).dropLast ++ ((.fin 10 : Fl K) :: log₂).dropLast) ((.fin 10 : Fl K) :: log₃).dropLast 1 S₃ hflags.symm
  simp only [Nat.zero_add] at e
  rw [← e, passes_append, hp] at hp₃
  have e' := passes_congr T W (o := o) (o' := { o with continuing := true, maxIter := m₂, etol := tol₂ }) log₁.length rfl rfl
    ((.fin 10 : Fl K) :: log₂).dropLast ((.fin 10 : Fl K) :: log₂).dropLast 1 S₂ rfl
  rw [hlen', Nat.add_comm 1] at hp₃
  rw [← e'] at hp₂
  exact Except.ok.inj (hp₃.symm.trans hp₂)

namespace Sample121

/-- The orbital sits on the first point if `iter_orbitals` is used and on the second one otherwise. -/
def W : KsScf.Workers Sample.G 1 1 1 := fun _ it _ => some ([-1], some [fun k => if (k = 0) = it then 1 else 0])

/-- The same, where `iter_orbitals` without orbitals to start from does what `calc_orbitals` does. -/
def W' : KsScf.Workers Sample.G 1 1 1 := fun ks it w =>
  some ([-1], some [fun k => if (k = 0) = (it && (ks.solver w).phi.isSome) then 1 else 0])

theorem ownData : Spec.OwnData W := ⟨fun _ _ _ _ => rfl, fun _ _ _ _ => rfl⟩

theorem ownData' : Spec.OwnData W' := ⟨fun _ _ _ _ => rfl, fun a b w h => by unfold W'; rw [h]⟩

/-- An inversion whose potential depends on `avoid_loop`. -/
def T : Env Sample.G 1 1 1 :=
  { Sample.T with invert := fun P => .ok (fun _ _ => if P.avoidLoop then 1 else 0, 0, [.fin 0]) }

/-- Options: continuing or not, iterative or not, limit, mixing parameter. -/
def o (cont it : Bool) (m : ℤ) (alpha : ℚ) : Options ℚ :=
  { etol := 1 / 1000, maxIter := m, alpha := [alpha], continuing := cont, iterative := it }

def isolated : PartOpt := { hxc := .exact, kin := .none, interaction := .ni, isolated := true }
def inversion : PartOpt := { hxc := .exact, kin := .inversion, interaction := .ni, isolated := false }
def dft (b : Bool) : PartOpt := { hxc := .exact, kin := .none, interaction := .dft, isolated := false, abSym := b }

def run (W : KsScf.Workers Sample.G 1 1 1) (p : PartOpt) (o : Options ℚ) : Py (Part Sample.G 1 1 1 × List (Fl ℚ) × ℕ) :=
  scf (fun _ => T) (fun _ => W) o (Sample.part p)

def thenRun (W : KsScf.Workers Sample.G 1 1 1) (p : PartOpt) (o₁ o₂ : Options ℚ) :
    Py (Part Sample.G 1 1 1 × List (Fl ℚ) × ℕ) := do
  let x ← run W p o₁
  scf (fun _ => T) (fun _ => W) o₂ x.1

/-- Density, kinetic potential at the first point, number of passes. -/
def seen (x : Py (Part Sample.G 1 1 1 × List (Fl ℚ) × ℕ)) : Option (Option (ℚ × ℚ) × Option ℚ × ℕ) :=
  x.toOption.map fun y => (y.1.nf.map fun n => (n 0 0, n 0 1), y.1.vt.map fun v => v 0 0, y.2.1.length)

theorem split {W : KsScf.Workers Sample.G 1 1 1} {p : PartOpt} {o₁ o₂ o₃ : Options ℚ} {a b d : Option (ℚ × ℚ) × Option ℚ × ℕ}
    (h₁ : seen (run W p o₁) = some a) (h₂ : seen (thenRun W p o₁ o₂) = some b) (h₃ : seen (run W p o₃) = some d) :
    ∃ P₁ P₂ P₃ log₁ log₂ log₃ w₁ w₂ w₃, scf (fun _ => T) (fun _ => W) o₁ (Sample.part p) = .ok (P₁, log₁, w₁) ∧
      scf (fun _ => T) (fun _ => W) o₂ P₁ = .ok (P₂, log₂, w₂) ∧
      scf (fun _ => T) (fun _ => W) o₃ (Sample.part p) = .ok (P₃, log₃, w₃) ∧
      log₁.length = a.2.2 ∧ (P₂.nf.map (fun n => (n 0 0, n 0 1)) = b.1 ∧ P₂.vt.map (fun v => v 0 0) = b.2.1 ∧ log₂.length = b.2.2) ∧
      P₃.nf.map (fun n => (n 0 0, n 0 1)) = d.1 ∧ P₃.vt.map (fun v => v 0 0) = d.2.1 ∧ log₃.length = d.2.2 := by
  unfold thenRun at h₂
  unfold run at h₁ h₂ h₃
  unfold seen at h₁ h₂ h₃
  cases e₁ : scf (fun _ => T) (fun _ => W) o₁ (Sample.part p) with
  | error e => rw [e₁] at h₁; cases h₁
  | ok x =>
    rw [e₁] at h₁ h₂
    simp only [bind, Except.bind] at h₂
    cases e₂ : scf (fun _ => T) (fun _ => W) o₂ x.1 with
    | error e => rw [e₂] at h₂; cases h₂
    | ok y =>
      rw [e₂] at h₂
      cases e₃ : scf (fun _ => T) (fun _ => W) o₃ (Sample.part p) with
      | error e => rw [e₃] at h₃; cases h₃
      | ok z =>
        rw [e₃] at h₃
        simp only [Except.toOption, Option.map_some, Option.some.injEq] at h₁ h₂ h₃
        subst h₁ h₂ h₃
        exact ⟨x.1, y.1, z.1, x.2.1, y.2.1, z.2.1, x.2.2, y.2.2, z.2.2, rfl, e₂, rfl, rfl, ⟨rfl, rfl, rfl⟩, rfl, rfl, rfl⟩

end Sample121

open Sample121

/-- C121 is false with `iterative`, the default: the calculation whose changes are already below 0.01 goes on with
`iter_orbitals`, the interrupted one starts again with `calc_orbitals` (and the change 10), the opposite of
`Kohnsham.scf` (C120).  Three passes in both, different densities. -/
theorem C121_refuted_iterative : ∃ (W : KsScf.Workers Sample.G 1 1 1) (o : Options ℚ) (P : Part Sample.G 1 1 1),
    Spec.OwnData W ∧ P.opt.kin ≠ .inversion ∧ ∃ P₁ P₂ P₃ log₁ log₂ log₃ w₁ w₂ w₃,
      scf (fun _ => Sample121.T) (fun _ => W) o P = .ok (P₁, log₁, w₁) ∧
      scf (fun _ => Sample121.T) (fun _ => W) { o with continuing := true, maxIter := 1 } P₁ = .ok (P₂, log₂, w₂) ∧
      scf (fun _ => Sample121.T) (fun _ => W) { o with maxIter := 3 } P = .ok (P₃, log₃, w₃) ∧
      log₃.length = log₁.length + log₂.length ∧ P₃.nf ≠ P₂.nf := by
  obtain ⟨P₁, P₂, P₃, log₁, log₂, log₃, w₁, w₂, w₃, h₁, h₂, h₃, l₁, ⟨n₂, -, l₂⟩, n₃, -, l₃⟩ :=
    split (W := Sample121.W) (p := isolated) (o₁ := o false true 2 (199 / 200)) (o₂ := o true true 1 (199 / 200))
      (o₃ := o false true 3 (199 / 200)) (a := (some (1 / 10000, 39999 / 10000), none, 2))
      (b := (some (1 / 2000000, 7999999 / 2000000), none, 1)) (d := (some (7960001 / 2000000, 39999 / 2000000), none, 3))
      (by decide +kernel) (by decide +kernel) (by decide +kernel)
  refine ⟨Sample121.W, o false true 2 (199 / 200), Sample.part isolated, Sample121.ownData, by decide, P₁, P₂, P₃, log₁, log₂, log₃, w₁, w₂, w₃,
    h₁, h₂, h₃, l₃.trans (congrArg₂ (· + ·) l₁ l₂).symm, fun e => ?_⟩
  rw [e, n₂] at n₃
  exact absurd n₃ (by decide +kernel)

/-- C121 is false with an inversion: in the first pass of a continued calculation the inverter is told to avoid loops
(scf.py 147-151), in the same pass of the uninterrupted one it is not. -/
theorem C121_refuted_inversion : ∃ (o : Options ℚ) (P : Part Sample.G 1 1 1), o.iterative = false ∧
    ∃ P₁ P₂ P₃ log₁ log₂ log₃ w₁ w₂ w₃,
      scf (fun _ => Sample121.T) (fun _ => Sample121.W) o P = .ok (P₁, log₁, w₁) ∧
      scf (fun _ => Sample121.T) (fun _ => Sample121.W) { o with continuing := true, maxIter := 1 } P₁ = .ok (P₂, log₂, w₂) ∧
      scf (fun _ => Sample121.T) (fun _ => Sample121.W) { o with maxIter := 2 } P = .ok (P₃, log₃, w₃) ∧
      log₃.length = log₁.length + log₂.length ∧ P₃.vt ≠ P₂.vt := by
  obtain ⟨P₁, P₂, P₃, log₁, log₂, log₃, w₁, w₂, w₃, h₁, h₂, h₃, l₁, ⟨-, n₂, l₂⟩, -, n₃, l₃⟩ :=
    split (W := Sample121.W) (p := inversion) (o₁ := o false false 1 (1 / 2)) (o₂ := o true false 1 (1 / 2))
      (o₃ := o false false 2 (1 / 2)) (a := (some (0, 4), some 1, 1)) (b := (some (0, 4), some 1, 1))
      (d := (some (0, 4), some 0, 2)) (by decide +kernel) (by decide +kernel) (by decide +kernel)
  refine ⟨o false false 1 (1 / 2), Sample.part inversion, rfl, P₁, P₂, P₃, log₁, log₂, log₃, w₁, w₂, w₃,
    h₁, h₂, h₃, l₃.trans (congrArg₂ (· + ·) l₁ l₂).symm, fun e => ?_⟩
  rw [e, n₂] at n₃
  exact absurd n₃ (by decide +kernel)

/-- Repeating a partition calculation need not give the same (C120 for `Kohnsham.scf`): with `iterative` the initial guess is
made with `iter_orbitals` (scf.py 116 passes no change), from the orbitals that the calculation before left. -/
theorem C121_refuted_repeat : ∃ (W : KsScf.Workers Sample.G 1 1 1) (o : Options ℚ) (P : Part Sample.G 1 1 1),
    Spec.OwnData W ∧ o.continuing = false ∧ ∃ P₁ P₂ log₁ log₂ w₁ w₂,
      scf (fun _ => Sample121.T) (fun _ => W) o P = .ok (P₁, log₁, w₁) ∧
      scf (fun _ => Sample121.T) (fun _ => W) o P₁ = .ok (P₂, log₂, w₂) ∧ P₂.nf ≠ P₁.nf := by
  obtain ⟨P₁, P₂, P₃, log₁, log₂, log₃, w₁, w₂, w₃, h₁, h₂, h₃, l₁, ⟨n₂, -, l₂⟩, n₃, -, l₃⟩ :=
    split (W := Sample121.W') (p := isolated) (o₁ := o false true 1 (199 / 200)) (o₂ := o false true 1 (199 / 200))
      (o₃ := o false true 1 (199 / 200)) (a := (some (0, 4), none, 1)) (b := (some (1 / 50, 199 / 50), none, 1))
      (d := (some (0, 4), none, 1)) (by decide +kernel) (by decide +kernel) (by decide +kernel)
  refine ⟨Sample121.W', o false true 1 (199 / 200), Sample.part isolated, Sample121.ownData', rfl, P₁, P₂, log₁, log₂, w₁, w₂, h₁, h₂, fun e => ?_⟩
  rw [h₁] at h₃
  obtain ⟨rfl, -⟩ := Prod.mk.inj (Except.ok.inj h₃)
  rw [e, n₃] at n₂
  exact absurd n₂ (by decide +kernel)

/-- C121: an interacting calculation with three passes, in one run and interrupted after the second, without and
with `ab_sym`. -/
example : seen (run Sample.W (dft false) (o false false 3 (1 / 2))) = some (some (1 / 2, 7 / 2), some 0, 3) ∧
    seen (thenRun Sample.W (dft false) (o false false 2 (1 / 2)) (o true false 1 (1 / 2))) = some (some (1 / 2, 7 / 2), some 0, 1) ∧
    seen (run Sample.W (dft true) (o false false 3 (1 / 2))) = some (some (2, 2), some 0, 2) ∧
    seen (thenRun Sample.W (dft true) (o false false 1 (1 / 2)) (o true false 1 (1 / 2))) = some (some (2, 2), some 0, 1) := by
  refine ⟨?_, ?_, ?_, ?_⟩ <;> decide +kernel

end Verif
