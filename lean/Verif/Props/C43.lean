import Verif.Props.C37_C39

/-! # C43: `mirrorAB` -/

namespace Verif
open Spec Part
variable {K : Type} [Field K] [LinearOrder K] [IsStrictOrderedRing K] [FloorRing K]
variable {G : Grid K} {r c p : ℕ}

/-- `B` carries the mirror image of the state of `A`. -/
structure Spec.MirrorImage (A B : Frag G r c p) : Prop where
  n : B.ks.n = A.ks.n.map G.mirCols
  Q : B.ks.Q = A.ks.Q.map G.mirCols
  veff : B.ks.veff = A.ks.veff.map G.mirCols
  vext : B.ks.vext = A.ks.vext.map G.mirCols
  vx : ∀ x, A.ks.V.vx = some x → B.ks.V.vx = some (G.mirCols x)
  vc : ∀ x, A.ks.V.vc = some x → B.ks.V.vc = some (G.mirCols x)
  vh : ∀ x, A.ks.V.vh = some x → B.ks.V.vh = some (G.mirCols x)
  vp : ∀ x, A.v.vp = some x → B.v.vp = some (G.mirCols x)
  ex : ∀ x, A.ks.V.ex = some x → B.ks.V.ex = some (G.mir x)
  ec : ∀ x, A.ks.V.ec = some x → B.ks.V.ec = some (G.mir x)
  eh : ∀ x, A.ks.V.eh = some x → B.ks.V.eh = some (G.mir x)
  E : B.ks.E = A.ks.E
  u : B.ks.u = A.ks.u

/-- `B` keeps what `mirrorAB` must not touch. -/
structure Spec.SameFragment (A B : Frag G r c p) : Prop where
  scale : A.ks.scale = B.ks.scale
  solver : A.ks.solver = B.ks.solver
  charge : A.ks.Za = B.ks.Za ∧ A.ks.Zb = B.ks.Zb
  vnuc : A.ks.vnuc = B.ks.vnuc
  frozen : A.v.frozen = B.v.frozen

theorem mirrorOf_ok (A B : Frag G r c p) (hn : A.ks.n.isSome) (hv : A.ks.veff.isSome)
    (hx : A.ks.vext.isSome) :
    ∃ B', mirrorOf A B = .ok B' ∧ MirrorImage A B' ∧ SameFragment B B' ∧ mirrorOf A B' = .ok B' := by
  obtain ⟨n, hn⟩ := Option.isSome_iff_exists.mp hn
  obtain ⟨v, hv⟩ := Option.isSome_iff_exists.mp hv
  obtain ⟨x, hx⟩ := Option.isSome_iff_exists.mp hx
  unfold mirrorOf
  rw [hn, hv, hx]
  refine ⟨_, rfl, ?_, ⟨rfl, rfl, ⟨rfl, rfl⟩, rfl, rfl⟩, ?_⟩
  · constructor <;> first | (intro x hx; simp [hx]) | simp [hn, hv, hx]
  · simp only [attr_some]
    cases A.ks.V.vx <;> cases A.ks.V.vc <;> cases A.ks.V.vh <;> cases A.ks.V.ex <;> cases A.ks.V.ec <;>
      cases A.ks.V.eh <;> cases A.v.vp <;> rfl

theorem average_mirror {l m : List (Frag G r c p)} {A : List (G.Cols p × K)}
    (h : List.Forall₂ MirrorImage l m) (hs : List.Forall₂ (fun f g => f.ks.scale = g.ks.scale) l m)
    (hA : Comps l A) :
    ∃ B, Comps m B ∧ Spec.average B = G.mirCols (Spec.average A) := by
  induction hA generalizing m with
  | nil =>
    cases h
    exact ⟨[], .nil, rfl⟩
  | @cons f x l A hf _ ih =>
    cases h with
    | @cons _ g _ m h1 h2 =>
      cases hs with
      | cons s1 s2 =>
        obtain ⟨B, hB, hav⟩ := ih h2 s2
        refine ⟨(G.mirCols x.1, x.2) :: B, .cons ⟨by rw [h1.n, hf.1]; rfl, by rw [← s1, hf.2]⟩ hB, ?_⟩
        funext j k
        have := congrFun (congrFun hav j) k
        simp only [Spec.average, Grid.mirCols, Grid.mir, List.map_cons, List.sum_cons] at this ⊢
        rw [this]

/-- C43: `mirrorAB` leaves fragment A alone and makes every component of B the mirror image of the
corresponding component of A; a second call changes nothing; if the weights agree, the promolecular
density computed from the result is mirror symmetric. -/
theorem C43_mirrorAB (P : Part G r c p)
    (hset : ∀ f ∈ P.compsA, f.ks.n.isSome ∧ f.ks.veff.isSome ∧ f.ks.vext.isSome) :
    ∃ P', P.mirrorAB = .ok P' ∧ P'.compsA = P.compsA ∧
      List.Forall₂ MirrorImage P.compsA P'.compsB ∧ List.Forall₂ SameFragment P.compsB P'.compsB ∧
      P'.mirrorAB = .ok P' ∧
      (List.Forall₂ (fun f g => f.ks.scale = g.ks.scale) P.compsA P.compsB →
        (∀ f ∈ P.compsA, f.ks.scale.isSome) →
        ∃ (P'' : Part G r c p) (nf : G.Cols p), P'.calcProtomolecule = .ok P'' ∧ P''.nf = some nf ∧
          G.mirCols nf = nf) := by
  have main : ∃ P', P.mirrorAB = .ok P' ∧ P'.compsA = P.compsA ∧
      List.Forall₂ MirrorImage P.compsA P'.compsB ∧ List.Forall₂ SameFragment P.compsB P'.compsB ∧
      P'.mirrorAB = .ok P' := by
    obtain ⟨b, h1, h2, h3, h4⟩ := mirrorOf_ok P.fa P.fb (hset P.fa (by simp [compsA])).1
      (hset P.fa (by simp [compsA])).2.1 (hset P.fa (by simp [compsA])).2.2
    cases hAB : P.fAB with
    | none =>
      refine ⟨{ P with fb := b }, ?_, ?_, ?_, ?_, ?_⟩
      · unfold mirrorAB; rw [h1]; simp only [hAB]; rfl
      · simp [compsA, hAB]
      · simp only [compsA, compsB, hAB]; exact .cons h2 .nil
      · simp only [compsB, hAB]; exact .cons h3 .nil
      · unfold mirrorAB; rw [h4]; simp only [hAB]; rfl
    | some x =>
      obtain ⟨A, B⟩ := x
      have hmem : A ∈ P.compsA := by simp [compsA, hAB]
      obtain ⟨B', k1, k2, k3, k4⟩ := mirrorOf_ok A B (hset A hmem).1 (hset A hmem).2.1 (hset A hmem).2.2
      refine ⟨{ P with fb := b, fAB := some (A, B') }, ?_, ?_, ?_, ?_, ?_⟩
      · unfold mirrorAB; rw [h1]; simp only [hAB, k1]; rfl
      · simp [compsA, hAB]
      · simp only [compsA, compsB, hAB]; exact .cons h2 (.cons k2 .nil)
      · simp only [compsB, hAB]; exact .cons h3 (.cons k3 .nil)
      · unfold mirrorAB; rw [h4]; simp only [k4]; rfl
  obtain ⟨P', h1, h2, h3, h4, h5⟩ := main
  refine ⟨P', h1, h2, h3, h4, h5, fun hs hsome => ?_⟩
  have hcomps : ∀ l : List (Frag G r c p), (∀ f ∈ l, f.ks.n.isSome ∧ f.ks.scale.isSome) →
      ∃ A, Comps l A := by
    intro l hl
    induction l with
    | nil => exact ⟨[], .nil⟩
    | cons f l ih =>
      obtain ⟨A, hA⟩ := ih fun g hg => hl g (List.mem_cons_of_mem _ hg)
      obtain ⟨n, hn⟩ := Option.isSome_iff_exists.mp (hl f (List.mem_cons_self ..)).1
      obtain ⟨s, hs⟩ := Option.isSome_iff_exists.mp (hl f (List.mem_cons_self ..)).2
      exact ⟨(n, s) :: A, .cons ⟨hn, hs⟩ hA⟩
  obtain ⟨A, hA⟩ := hcomps P.compsA fun f hf => ⟨(hset f hf).1, hsome f hf⟩
  have hs' : List.Forall₂ (fun f g => f.ks.scale = g.ks.scale) P.compsA P'.compsB := by
    have trans : ∀ {l m n : List (Frag G r c p)}, List.Forall₂ (fun f g => f.ks.scale = g.ks.scale) l m →
        List.Forall₂ SameFragment m n → List.Forall₂ (fun f g => f.ks.scale = g.ks.scale) l n := by
      intro l m n a b
      induction a generalizing n with
      | nil => cases b; exact .nil
      | cons e _ ih =>
        cases b with
        | cons e' r' => exact .cons (e.trans e'.scale) (ih r')
    exact trans hs h4
  obtain ⟨B, hB, hav⟩ := average_mirror h3 hs' hA
  obtain ⟨na, nb, h, hno, hes, -, -⟩ := C38_promolecule P' A B (h2 ▸ hA) hB
  refine ⟨_, _, h, rfl, ?_⟩
  funext j k
  change na j (G.mirIx k) + nb j (G.mirIx k) = na j k + nb j k
  have hm : ∀ j k, Spec.average B j (G.mirIx k) = Spec.average A j k := fun j k => by
    rw [hav]; simp [Grid.mirCols, Grid.mir]
  have hm' : ∀ j k, Spec.average A j (G.mirIx k) = Spec.average B j k := fun j k => by
    rw [hav]; rfl
  cases he : P'.opt.ensSpinSym with
  | false =>
    rw [(hno he).1, (hno he).2, hm, hm']
    ring
  | true =>
    obtain ⟨h1, -⟩ := hes he
    rw [(h1 _ _).1, (h1 _ _).2, (h1 _ _).1, (h1 _ _).2, hm, hm, hm', hm']
    ring

/-- A concrete case of C43: the density (1,0) of fragment A becomes (0,1) on fragment B. -/
example : ∃ (P' : Part (Grid.tiny ℚ) 0 0 1) (n : (Grid.tiny ℚ).Cols 1),
    (let f : Frag (Grid.tiny ℚ) 0 0 1 :=
        Frag.sample (fun _ k => if k = 0 then 1 else 0) 1 (KSEnergy.sample 0)
      let f : Frag (Grid.tiny ℚ) 0 0 1 :=
        { f with ks := { f.ks with veff := some fun _ _ => 0, vext := some fun _ _ => 0 } }
      (Part.sample { abSym := true } f f none).mirrorAB) = .ok P' ∧
    P'.fb.ks.n = some n ∧ n 0 0 = 0 ∧ n 0 1 = 1 := by
  refine ⟨_, _, rfl, rfl, ?_, ?_⟩ <;> decide

end Verif
