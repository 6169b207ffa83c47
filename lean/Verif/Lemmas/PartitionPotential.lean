import Verif.Lemmas.Partition

/-! # Inversion of the fragment loops -/

namespace Verif
variable {K : Type} [Field K] [LinearOrder K] [IsStrictOrderedRing K] [FloorRing K]
variable {G : Grid K} {r c p : ℕ}

namespace Part

/-- A successful loop over all components: other attributes stay. -/
theorem mapAll_inv {f : Frag G r c p → Py (Frag G r c p)} {P P' : Part G r c p} (h : P.mapAll f = .ok P') :
    (∃ (a b : Frag G r c p) (AB : Option (Frag G r c p × Frag G r c p)),
      P' = { P with fa := a, fb := b, fAB := AB }) ∧
    List.Forall₂ (fun x y => f x = .ok y) P.compsA P'.compsA ∧
    List.Forall₂ (fun x y => f x = .ok y) P.compsB P'.compsB := by
  unfold mapAll mapA mapB at h
  cases hAB : P.fAB with
  | none =>
    rw [hAB] at h
    simp only [Py.do_eq_ok, Py.pure_eq_ok] at h
    obtain ⟨P₁, ⟨a, ha, rfl⟩, b, hb, h⟩ := h
    simp only [Py.pure_eq_ok] at h
    subst h
    refine ⟨⟨a, b, none, rfl⟩, ?_, ?_⟩
    · simp only [compsA, hAB]; exact .cons ha .nil
    · simp only [compsB, hAB]; exact .cons hb .nil
  | some x =>
    obtain ⟨A, B⟩ := x
    rw [hAB] at h
    simp only [Py.do_eq_ok, Py.pure_eq_ok] at h
    obtain ⟨P₁, ⟨a, ha, A', hA, rfl⟩, b, hb, h⟩ := h
    simp only [Py.do_eq_ok, Py.pure_eq_ok] at h
    obtain ⟨B', hB, rfl⟩ := h
    refine ⟨⟨a, b, some (A', B'), rfl⟩, ?_, ?_⟩
    · simp only [compsA, hAB]; exact .cons ha (.cons hA .nil)
    · simp only [compsB, hAB]; exact .cons hb (.cons hB .nil)

theorem mapAll_comps {f : Frag G r c p → Py (Frag G r c p)} {P P' : Part G r c p} (h : P.mapAll f = .ok P') :
    List.Forall₂ (fun x y => f x = .ok y) P.comps P'.comps :=
  List.rel_append (mapAll_inv h).2.1 (mapAll_inv h).2.2

/-- Result of `qAverage`. -/
theorem qAverage_fold {x : Frag G r c p → Option (G.Cols p)} (l : List (Frag G r c p)) (acc v : G.Cols p)
    (h : l.foldlM (fun (acc : G.Cols p) f => do
      let v ← attr (x f)
      let Q ← needQ f.ks.Q
      pure fun j k => acc j k + v j k * Q j k) acc = .ok v) :
    ∃ D : List (G.Cols p × G.Cols p), List.Forall₂ (fun f d => x f = some d.1 ∧ f.ks.Q = some d.2) l D ∧
      ∀ j k, v j k = acc j k + (D.map fun d => d.2 j k * d.1 j k).sum := by
  induction l generalizing acc with
  | nil =>
    rw [List.foldlM_nil] at h
    obtain rfl := Except.ok.inj h
    exact ⟨[], .nil, fun j k => by simp⟩
  | cons f l ih =>
    rw [List.foldlM_cons] at h
    simp only [Py.do_eq_ok, Py.pure_eq_ok] at h
    obtain ⟨acc', ⟨w, hw, Q, hQ, rfl⟩, h⟩ := h
    obtain ⟨D, hD, hv⟩ := ih _ h
    refine ⟨(w, Q) :: D, .cons ⟨attr_eq_ok.mp hw, needQ_eq_ok.mp hQ⟩ hD, fun j k => ?_⟩
    rw [hv]
    simp only [List.map_cons, List.sum_cons]
    ring

end Part
end Verif

namespace Verif
variable {K : Type} [Field K] [LinearOrder K] [IsStrictOrderedRing K] [FloorRing K]
variable {G : Grid K} {r c p : ℕ}
namespace Part

/-- The potential and energy functions only change derived attributes: not the options, the nuclei, the
promolecular density or the Kohn-Sham state of the components. -/
structure Frame (P P' : Part G r c p) : Prop where
  opt : P'.opt = P.opt
  Z : P'.Za = P.Za ∧ P'.Zb = P.Zb ∧ P'.a = P.a
  va : P'.va = P.va
  vb : P'.vb = P.vb
  naFrac : P'.naFrac = P.naFrac
  nbFrac : P'.nbFrac = P.nbFrac
  nf : P'.nf = P.nf
  ksA : List.Forall₂ (fun f g => g.ks = f.ks ∧ g.v.frozen = f.v.frozen) P.compsA P'.compsA
  ksB : List.Forall₂ (fun f g => g.ks = f.ks ∧ g.v.frozen = f.v.frozen) P.compsB P'.compsB

theorem forall₂_self {α : Type*} {R : α → α → Prop} (h : ∀ x, R x x) (l : List α) : List.Forall₂ R l l := by
  induction l with
  | nil => exact .nil
  | cons x l ih => exact .cons (h x) ih

theorem forall₂_trans {α β γ : Type*} {R : α → β → Prop} {S : β → γ → Prop} {U : α → γ → Prop}
    (h : ∀ x y z, R x y → S y z → U x z) {l : List α} {m : List β} {n : List γ} (a : List.Forall₂ R l m)
    (b : List.Forall₂ S m n) : List.Forall₂ U l n := by
  induction a generalizing n with
  | nil => cases b; exact .nil
  | cons e _ ih =>
    cases b with
    | cons e' r' => exact .cons (h _ _ _ e e') (ih r')

theorem Frame.refl (P : Part G r c p) : Frame P P :=
  ⟨rfl, ⟨rfl, rfl, rfl⟩, rfl, rfl, rfl, rfl, rfl, forall₂_self (fun _ => ⟨rfl, rfl⟩) _,
    forall₂_self (fun _ => ⟨rfl, rfl⟩) _⟩

theorem Frame.trans {P Q R : Part G r c p} (h : Frame P Q) (h' : Frame Q R) : Frame P R :=
  ⟨h'.opt.trans h.opt, ⟨h'.Z.1.trans h.Z.1, h'.Z.2.1.trans h.Z.2.1, h'.Z.2.2.trans h.Z.2.2⟩,
    h'.va.trans h.va, h'.vb.trans h.vb, h'.naFrac.trans h.naFrac, h'.nbFrac.trans h.nbFrac,
    h'.nf.trans h.nf,
    forall₂_trans (fun _ _ _ a b => ⟨b.1.trans a.1, b.2.trans a.2⟩) h.ksA h'.ksA,
    forall₂_trans (fun _ _ _ a b => ⟨b.1.trans a.1, b.2.trans a.2⟩) h.ksB h'.ksB⟩

theorem Frame.ks {P P' : Part G r c p} (h : Frame P P') :
    List.Forall₂ (fun f g => g.ks = f.ks ∧ g.v.frozen = f.v.frozen) P.comps P'.comps :=
  List.rel_append h.ksA h.ksB

theorem frame_mapAll {f : Frag G r c p → Py (Frag G r c p)} {P P' : Part G r c p}
    (h : P.mapAll f = .ok P') (hf : ∀ x y, f x = .ok y → y.ks = x.ks ∧ y.v.frozen = x.v.frozen) :
    Frame P P' := by
  obtain ⟨⟨a, b, AB, hP⟩, hA, hB⟩ := mapAll_inv h
  refine ⟨?_, ?_, ?_, ?_, ?_, ?_, ?_, hA.imp fun x y => hf x y, hB.imp fun x y => hf x y⟩ <;> rw [hP]
  exact ⟨rfl, rfl, rfl⟩

theorem frame_mapA {f : Frag G r c p → Py (Frag G r c p)} {P P' : Part G r c p}
    (h : P.mapA f = .ok P') (hf : ∀ x y, f x = .ok y → y.ks = x.ks ∧ y.v.frozen = x.v.frozen) :
    Frame P P' := by
  unfold mapA at h
  cases hAB : P.fAB with
  | none =>
    rw [hAB] at h
    simp only [Py.do_eq_ok, Py.pure_eq_ok] at h
    obtain ⟨a, ha, rfl⟩ := h
    refine ⟨rfl, ⟨rfl, rfl, rfl⟩, rfl, rfl, rfl, rfl, rfl, ?_, ?_⟩
    · simp only [compsA, hAB]; exact .cons (hf _ _ ha) .nil
    · simp only [compsB, hAB]; exact .cons ⟨rfl, rfl⟩ .nil
  | some x =>
    obtain ⟨A, B⟩ := x
    rw [hAB] at h
    simp only [Py.do_eq_ok, Py.pure_eq_ok] at h
    obtain ⟨a, ha, A', hA, rfl⟩ := h
    refine ⟨rfl, ⟨rfl, rfl, rfl⟩, rfl, rfl, rfl, rfl, rfl, ?_, ?_⟩
    · simp only [compsA, hAB]; exact .cons (hf _ _ ha) (.cons (hf _ _ hA) .nil)
    · simp only [compsB, hAB]; exact .cons ⟨rfl, rfl⟩ (.cons ⟨rfl, rfl⟩ .nil)

theorem frame_mapB {f : Frag G r c p → Py (Frag G r c p)} {P P' : Part G r c p}
    (h : P.mapB f = .ok P') (hf : ∀ x y, f x = .ok y → y.ks = x.ks ∧ y.v.frozen = x.v.frozen) :
    Frame P P' := by
  unfold mapB at h
  cases hAB : P.fAB with
  | none =>
    rw [hAB] at h
    simp only [Py.do_eq_ok, Py.pure_eq_ok] at h
    obtain ⟨a, ha, rfl⟩ := h
    refine ⟨rfl, ⟨rfl, rfl, rfl⟩, rfl, rfl, rfl, rfl, rfl, ?_, ?_⟩
    · simp only [compsA, hAB]; exact .cons ⟨rfl, rfl⟩ .nil
    · simp only [compsB, hAB]; exact .cons (hf _ _ ha) .nil
  | some x =>
    obtain ⟨A, B⟩ := x
    rw [hAB] at h
    simp only [Py.do_eq_ok, Py.pure_eq_ok] at h
    obtain ⟨a, ha, A', hA, rfl⟩ := h
    refine ⟨rfl, ⟨rfl, rfl, rfl⟩, rfl, rfl, rfl, rfl, rfl, ?_, ?_⟩
    · simp only [compsA, hAB]; exact .cons ⟨rfl, rfl⟩ (.cons ⟨rfl, rfl⟩ .nil)
    · simp only [compsB, hAB]; exact .cons (hf _ _ ha) (.cons (hf _ _ hA) .nil)

theorem vpNuclear_frame {P P' : Part G r c p} (h : P.vpNuclear = .ok P') : Frame P P' :=
  frame_mapAll h fun x y hxy => by
    obtain rfl := Except.ok.inj hxy
    exact ⟨rfl, rfl⟩

theorem finishKinetic_frame {vt : G.Cols p} {P P' : Part G r c p} (h : P.finishKinetic vt = .ok P') :
    Frame P P' := by
  unfold finishKinetic at h
  have h1 : Frame P { P with vt := some vt } :=
    ⟨rfl, ⟨rfl, rfl, rfl⟩, rfl, rfl, rfl, rfl, rfl, (Frame.refl P).ksA, (Frame.refl P).ksB⟩
  refine h1.trans (frame_mapAll h fun x y hxy => ?_)
  simp only [Py.do_eq_ok, Py.pure_eq_ok] at hxy
  obtain ⟨_, _, rfl⟩ := hxy
  exact ⟨rfl, rfl⟩

theorem vpKinetic_frame {T : Env G r c p} {P P' : Part G r c p} (h : P.vpKinetic T = .ok P') :
    Frame P P' := by
  unfold vpKinetic at h
  cases hk : P.opt.kin with
  | vonweiz =>
    rw [hk] at h
    simp only [Py.do_eq_ok] at h
    obtain ⟨nf, _, h⟩ := h
    refine frame_mapAll h fun x y hxy => ?_
    simp only [Py.do_eq_ok, Py.pure_eq_ok] at hxy
    obtain ⟨_, _, _, _, rfl⟩ := hxy
    exact ⟨rfl, rfl⟩
  | libxcke =>
    rw [hk] at h
    simp only [Py.do_eq_ok] at h
    obtain ⟨nf, _, ⟨Ts, vt⟩, _, P₁, h1, h⟩ := h
    refine (frame_mapAll h1 fun x y hxy => ?_).trans (Frame.trans ?_ (finishKinetic_frame h))
    · simp only [Py.do_eq_ok, Py.pure_eq_ok] at hxy
      obtain ⟨_, _, _, _, rfl⟩ := hxy
      exact ⟨rfl, rfl⟩
    · exact ⟨rfl, ⟨rfl, rfl, rfl⟩, rfl, rfl, rfl, rfl, rfl, (Frame.refl P₁).ksA, (Frame.refl P₁).ksB⟩
  | paramke => rw [hk] at h; exact nomatch h
  | inversion =>
    rw [hk] at h
    simp only [Py.do_eq_ok] at h
    obtain ⟨P₁, h1, ⟨vt, Ts⟩, _, h⟩ := h
    refine (frame_mapAll h1 fun x y hxy => ?_).trans (Frame.trans ?_ (finishKinetic_frame h))
    · unfold eulerVt at hxy
      simp only [Py.do_eq_ok, Py.pure_eq_ok] at hxy
      obtain ⟨_, _, rfl⟩ := hxy
      exact ⟨rfl, rfl⟩
    · exact ⟨rfl, ⟨rfl, rfl, rfl⟩, rfl, rfl, rfl, rfl, rfl, (Frame.refl P₁).ksA, (Frame.refl P₁).ksB⟩
  | none =>
    rw [hk] at h
    simp only [Py.do_eq_ok] at h
    obtain ⟨nf, _, P₁, h1, h⟩ := h
    refine (frame_mapAll h1 fun x y hxy => ?_).trans (finishKinetic_frame h)
    obtain rfl := Except.ok.inj hxy
    exact ⟨rfl, rfl⟩
  | twoorbital =>
    rw [hk] at h
    simp only at h
    split_ifs at h
    simp only [Py.do_eq_ok, Py.pure_eq_ok] at h
    obtain ⟨⟨v1, v2, vf⟩, _, P₁, h1, ta, _, tb, _, h⟩ := h
    refine (frame_mapAll h1 fun x y hxy => ?_).trans ?_
    · obtain rfl := Except.ok.inj hxy
      exact ⟨rfl, rfl⟩
    · rw [← h]
      refine ⟨rfl, ⟨rfl, rfl, rfl⟩, rfl, rfl, rfl, rfl, rfl, ?_, ?_⟩
      · exact .cons ⟨rfl, rfl⟩ (forall₂_self (fun _ => ⟨rfl, rfl⟩) _)
      · exact .cons ⟨rfl, rfl⟩ (forall₂_self (fun _ => ⟨rfl, rfl⟩) _)
  | fixed =>
    rw [hk] at h
    obtain rfl := Except.ok.inj h
    exact Frame.refl _

theorem vpOverlap_frame {T : Env G r c p} {P P' : Part G r c p} (h : P.vpOverlap T = .ok P') :
    Frame P P' := by
  unfold vpOverlap at h
  simp only [Py.do_eq_ok] at h
  obtain ⟨na, _, nb, _, P₁, h1, h2⟩ := h
  have h0 : ∀ S F, Frame P { P with S := S, F := F } := fun S F =>
    ⟨rfl, ⟨rfl, rfl, rfl⟩, rfl, rfl, rfl, rfl, rfl, (Frame.refl P).ksA, (Frame.refl P).ksB⟩
  refine (h0 _ _).trans ((frame_mapA h1 fun x y hxy => ?_).trans (frame_mapB h2 fun x y hxy => ?_))
  all_goals
    simp only [Py.do_eq_ok, Py.pure_eq_ok] at hxy
    obtain ⟨_, _, rfl⟩ := hxy
    exact ⟨rfl, rfl⟩

theorem ensCorHar_frame {P P' : Part G r c p} (h : P.ensCorHar = .ok P') : Frame P P' := by
  unfold ensCorHar at h
  cases hAB : P.fAB with
  | none => rw [hAB] at h; exact nomatch h
  | some x =>
    obtain ⟨A, B⟩ := x
    rw [hAB] at h
    simp only [Py.do_eq_ok, Py.pure_eq_ok] at h
    obtain ⟨⟨a, ea⟩, ⟨_, _, _, _, _, _, h1⟩, ⟨A', eA⟩, ⟨_, _, _, _, _, _, h2⟩, ⟨b, eb⟩,
      ⟨_, _, _, _, _, _, h3⟩, ⟨B', eB⟩, ⟨_, _, _, _, _, _, h4⟩, rfl⟩ := h
    simp only [Prod.mk.injEq] at h1 h2 h3 h4
    obtain ⟨rfl, -⟩ := h1
    obtain ⟨rfl, -⟩ := h2
    obtain ⟨rfl, -⟩ := h3
    obtain ⟨rfl, -⟩ := h4
    refine ⟨rfl, ⟨rfl, rfl, rfl⟩, rfl, rfl, rfl, rfl, rfl, ?_, ?_⟩
    · simp only [compsA, hAB]; exact .cons ⟨rfl, rfl⟩ (.cons ⟨rfl, rfl⟩ .nil)
    · simp only [compsB, hAB]; exact .cons ⟨rfl, rfl⟩ (.cons ⟨rfl, rfl⟩ .nil)

theorem epCollect_frame {T : Env G r c p} {P P' : Part G r c p} {h x cc e : K}
    (H : P.epCollect T h x cc = .ok (P', e)) : Frame P P' := by
  unfold epCollect at H
  cases hk : P.opt.hxc <;> rw [hk] at H <;> simp only [Py.do_eq_ok, Py.pure_eq_ok, Prod.mk.injEq] at H
  case exact => obtain ⟨rfl, -⟩ := H; exact Frame.refl _
  case hartree => obtain ⟨rfl, -⟩ := H; exact Frame.refl _
  case overlapXc => obtain ⟨P₁, h1, _, _, rfl, -⟩ := H; exact vpOverlap_frame h1
  case surprisal => exact nomatch H
  all_goals
    obtain ⟨P₁, h1, P₂, h2, _, _, _, _, rfl, -⟩ := H
    exact (vpOverlap_frame h1).trans (ensCorHar_frame h2)

theorem partitionEnergy_frame {T : Env G r c p} {P : Part G r c p} {a b d : K}
    {R : Part G r c p × K × Tot G × K × Tot G} (h : P.partitionEnergy T a b d = .ok R) : Frame P R.1 := by
  unfold partitionEnergy epHxc at h
  split_ifs at h
  · simp only [Py.pure_eq_ok] at h
    subst h
    exact Frame.refl _
  · simp only [Py.do_eq_ok, Py.pure_eq_ok] at h
    obtain ⟨_, _, _, _, ⟨P₁, e⟩, ⟨⟨h', x, cc, d⟩, _, h2⟩, rfl⟩ := h
    refine Frame.trans ?_ (epCollect_frame h2)
    exact ⟨rfl, ⟨rfl, rfl, rfl⟩, rfl, rfl, rfl, rfl, rfl, (Frame.refl P).ksA, (Frame.refl P).ksB⟩

theorem energy_frame {T : Env G r c p} {P P' : Part G r c p} (h : P.energy T = .ok P') : Frame P P' := by
  unfold energy at h
  simp only [Py.do_eq_ok, Py.pure_eq_ok] at h
  obtain ⟨⟨sa, sb⟩, _, ⟨P₁, pot, kin, hxc, ep⟩, h2, ⟨ea, eb⟩, -, rfl⟩ := h
  refine (partitionEnergy_frame h2).trans ?_
  exact ⟨rfl, ⟨rfl, rfl, rfl⟩, rfl, rfl, rfl, rfl, rfl, (Frame.refl P₁).ksA, (Frame.refl P₁).ksB⟩

theorem hxcComponents_frame {T : Env G r c p} {P P' : Part G r c p} (h : P.hxcComponents T = .ok P') :
    Frame P P' := by
  unfold hxcComponents at h
  simp only [Py.do_eq_ok] at h
  obtain ⟨nf, _, vh, _, ⟨ex, epsX, vx⟩, _, ⟨ec, epsC, vc⟩, _, h⟩ := h
  refine Frame.trans ?_ (frame_mapAll h fun x y hxy => ?_)
  · exact ⟨rfl, ⟨rfl, rfl, rfl⟩, rfl, rfl, rfl, rfl, rfl, (Frame.refl P).ksA, (Frame.refl P).ksB⟩
  · simp only [Py.do_eq_ok, Py.pure_eq_ok] at hxy
    obtain ⟨_, _, _, _, _, _, rfl⟩ := hxy
    exact ⟨rfl, rfl⟩

theorem hxcZero_frame {P P' : Part G r c p} (h : P.hxcZero = .ok P') : Frame P P' := by
  unfold hxcZero at h
  simp only [Py.do_eq_ok] at h
  obtain ⟨nf, _, h⟩ := h
  refine frame_mapAll h fun x y hxy => ?_
  obtain rfl := Except.ok.inj hxy
  exact ⟨rfl, rfl⟩

theorem hxcStart_frame {T : Env G r c p} {P P' : Part G r c p} (h : P.hxcStart T = .ok P') :
    Frame P P' := by
  unfold hxcStart at h
  split_ifs at h
  · exact hxcZero_frame h
  · exact hxcComponents_frame h

theorem hxcCollect_frame {T : Env G r c p} {P P' : Part G r c p} (h : P.hxcCollect T = .ok P') :
    Frame P P' := by
  unfold hxcCollect at h
  cases hk : P.opt.hxc <;> rw [hk] at h
  case exact =>
    refine frame_mapAll h fun x y hxy => ?_
    simp only [Py.do_eq_ok, Py.pure_eq_ok] at hxy
    obtain ⟨_, _, _, _, _, _, rfl⟩ := hxy
    exact ⟨rfl, rfl⟩
  case hartree =>
    refine frame_mapAll h fun x y hxy => ?_
    simp only [Py.do_eq_ok, Py.pure_eq_ok] at hxy
    obtain ⟨_, _, rfl⟩ := hxy
    exact ⟨rfl, rfl⟩
  case overlapXc =>
    simp only [Py.do_eq_ok] at h
    obtain ⟨P₁, h1, P₂, h2, _, _, _, _, _, _, h⟩ := h
    refine (vpOverlap_frame h1).trans ((energy_frame h2).trans (frame_mapAll h fun x y hxy => ?_))
    simp only [Py.do_eq_ok, Py.pure_eq_ok] at hxy
    obtain ⟨_, _, _, _, _, _, _, _, rfl⟩ := hxy
    exact ⟨rfl, rfl⟩
  case overlapHxc =>
    simp only [Py.do_eq_ok] at h
    obtain ⟨P₁, h1, P₂, h2, P₃, h3, _, _, _, _, _, _, _, _, _, _, h⟩ := h
    refine (vpOverlap_frame h1).trans ((ensCorHar_frame h2).trans ((energy_frame h3).trans
      (frame_mapAll h fun x y hxy => ?_)))
    simp only [Py.do_eq_ok, Py.pure_eq_ok] at hxy
    obtain ⟨_, _, _, _, _, _, _, _, _, _, rfl⟩ := hxy
    exact ⟨rfl, rfl⟩
  case surprisal => exact nomatch h
  case overlapHxc2 => exact nomatch h

/-- `vp` of every component is the sum of its three parts. -/
def addParts (f : Frag G r c p) : Py (Frag G r c p) := do
  let a ← attr f.v.vpPot
  let b ← attr f.v.vpKin
  let d ← attr f.v.vpHxc
  pure ⟨f.ks, { f.v with vp := some fun j k => a j k + b j k + d j k }⟩

/-- The steps of a successful call of `partition_potential`. -/
theorem partitionPotential_inv {T : Env G r c p} {P P' : Part G r c p} {vp : G.Cols p}
    (h : P.partitionPotential T = .ok (P', vp)) :
    P.opt.vpCalc = .component ∧ ∃ (P₁ P₂ P₃ P₄ P₅ : Part G r c p) (pot kin hxc hh x cc : G.Cols p),
      P.vpNuclear = .ok P₁ ∧ P₁.vpKinetic T = .ok P₂ ∧ P₂.hxcStart T = .ok P₃ ∧ P₃.hxcCollect T = .ok P₄ ∧
      P₄.mapAll addParts = .ok P₅ ∧ P₅.average (fun f => f.v.vp) = .ok vp ∧
      P₅.average (fun f => f.v.vpPot) = .ok pot ∧ P₅.average (fun f => f.v.vpKin) = .ok kin ∧
      P₅.average (fun f => f.v.vpHxc) = .ok hxc ∧
      P' = { P₅ with vp := some vp, vpPot := some pot, vpKin := some kin, vpHxc := some hxc, vpH := some hh,
                     vpX := some x, vpC := some cc } := by
  unfold partitionPotential vpHxcStep at h
  cases hc : P.opt.vpCalc <;> rw [hc] at h
  · simp only [Py.do_eq_ok, Py.pure_eq_ok] at h
    obtain ⟨P₁, h1, P₂, h2, P₄, ⟨P₃, h3, h4⟩, _, _, P₅, h5, vp', h6, pot, h7, kin, h8, hxc, h9, hh, _, x, _,
      cc, _, h⟩ := h
    simp only [Prod.mk.injEq] at h
    obtain ⟨h, rfl⟩ := h
    exact ⟨rfl, P₁, P₂, P₃, P₄, P₅, pot, kin, hxc, hh, x, cc, h1, h2, h3, h4, h5, h6, h7, h8, h9, h.symm⟩
  · dsimp only at h; split at h <;> exact nomatch h

theorem addParts_frame {P P' : Part G r c p} (h : P.mapAll addParts = .ok P') : Frame P P' := by
  refine frame_mapAll h fun x y hxy => ?_
  unfold addParts at hxy
  simp only [Py.do_eq_ok, Py.pure_eq_ok] at hxy
  obtain ⟨_, _, _, _, _, _, rfl⟩ := hxy
  exact ⟨rfl, rfl⟩

theorem partitionPotential_frame {T : Env G r c p} {P P' : Part G r c p} {vp : G.Cols p}
    (h : P.partitionPotential T = .ok (P', vp)) : Frame P P' := by
  obtain ⟨-, P₁, P₂, P₃, P₄, P₅, pot, kin, hxc, hh, x, cc, h1, h2, h3, h4, h5, -, -, -, -, rfl⟩ :=
    partitionPotential_inv h
  refine (vpNuclear_frame h1).trans ((vpKinetic_frame h2).trans ((hxcStart_frame h3).trans
    ((hxcCollect_frame h4).trans ((addParts_frame h5).trans ?_))))
  exact ⟨rfl, ⟨rfl, rfl, rfl⟩, rfl, rfl, rfl, rfl, rfl, (Frame.refl P₅).ksA, (Frame.refl P₅).ksB⟩

end Part
end Verif
