import Verif.Props.C109
import Verif.Model.PartitionScf

/-! # C110: `ab_sym` is a shortcut, not a different calculation -/

namespace Verif
open Spec Part PartScf
variable {K : Type} [_root_.Field K] [LinearOrder K] [IsStrictOrderedRing K] [FloorRing K]
variable {G : Grid K} {r c p : ℕ}

/-- The partition attributes of a fragment and of its mirror image. -/
structure Spec.MirrorV (x y : FragV G p) : Prop where
  frozen : y.frozen = x.frozen
  vt : y.vt = x.vt.map G.mirCols
  vp : y.vp = x.vp.map G.mirCols
  vpPot : y.vpPot = x.vpPot.map G.mirCols
  vpKin : y.vpKin = x.vpKin.map G.mirCols
  vpHxc : y.vpHxc = x.vpHxc.map G.mirCols
  vpH : y.vpH = x.vpH.map G.mirCols
  vpX : y.vpX = x.vpX.map G.mirCols
  vpC : y.vpC = x.vpC.map G.mirCols
  Ts : y.Ts = x.Ts
  dFdn : y.dFdn = x.dFdn.map G.mirCols
  vhcor : y.vhcor = x.vhcor.map G.mirCols
  Ehcor : y.Ehcor = x.Ehcor

/-- Fragment `B` is the mirror image of fragment `A`. -/
structure Spec.Twins (A B : Frag G r c p) : Prop where
  ks : Reflected A.ks B.ks
  v : MirrorV A.v B.v

/-- Two equal fragments at the two nuclei: everything known about the molecule is mirror symmetric. -/
structure Spec.SymmetricPart (P : Part G r c p) : Prop where
  fAB : P.fAB = none
  twins : Twins P.fa P.fb
  nuclei : P.vb = G.mir P.va
  frac : P.nbFrac = P.naFrac.map G.mirCols
  nf : ∀ n, P.nf = some n → G.mirCols n = n
  vp : ∀ v, P.vp = some v → G.mirCols v = v

/-- Parameters that do not prefer one side of the molecule. -/
structure Spec.MirrorEnv (T : Env G r c p) : Prop extends MirrorFunctionals T.toFunctionals where
  kinetic : ∀ n, T.kinetic (G.mirCols n) = (T.kinetic n).map fun x => (x.1, G.mirCols x.2)
  elap : ∀ k l, T.elap (G.mirIx k) (G.mirIx l) = T.elap k l
  weight : ∀ k, G.w (G.mirIx k) = G.w k

/-- The same partition, calculated without and with the shortcut: all attributes agree, except that with the shortcut the
solvers, HOMOs and `vhxc` of fragment B were not calculated. -/
structure Spec.Shortcut (S N : Part G r c p) : Prop where
  on : S.opt.abSym = true
  rest : N = { S with opt := { S.opt with abSym := false }, fb := N.fb }
  ks : N.fb.ks = { S.fb.ks with solver := N.fb.ks.solver, vhxc := N.fb.ks.vhxc, homo := N.fb.ks.homo }
  v : N.fb.v = S.fb.v

namespace C110

/-- What `mirrorAB` needs. -/
def Ready (x : Frag G r c p) : Prop := x.ks.n.isSome ∧ x.ks.veff.isSome ∧ x.ks.vext.isSome

/-- `Twins`, and `A` has a density and potentials if `ρ`. -/
structure Tw (ρ : Prop) (A B : Frag G r c p) : Prop extends Twins A B where
  ready : ρ → Ready A

/-- The two fragments B of `Shortcut`, the attribute `vp` only if `b`. -/
def Alike (b : Prop) (x y : Frag G r c p) : Prop :=
  ∃ s vh ho vp, y = ⟨{ x.ks with solver := s, vhxc := vh, homo := ho }, { x.v with vp := vp }⟩ ∧ (b → vp = x.v.vp)

/-- `S` without the shortcut and with fragment B `y`. -/
def off (S : Part G r c p) (y : Frag G r c p) : Part G r c p :=
  { S with opt := { S.opt with abSym := false }, fb := y }

structure Short (b ρ : Prop) (S : Part G r c p) (y : Frag G r c p) : Prop where
  on : S.opt.abSym = true
  kin : S.opt.kin ≠ .inversion ∧ S.opt.kin ≠ .twoorbital
  fAB : S.fAB = none
  nuclei : S.vb = G.mir S.va
  frac : S.nbFrac = S.naFrac.map G.mirCols
  nf : ∀ n, S.nf = some n → G.mirCols n = n
  vp : ∀ v, S.vp = some v → G.mirCols v = v
  twins : Tw ρ S.fa y
  alike : Alike b S.fb y

/-- The relation between the results of the two runs. -/
def R (b ρ : Prop) (S N : Part G r c p) : Prop := ∃ y, N = off S y ∧ Short b ρ S y

theorem Alike.weaken {b : Prop} {x y : Frag G r c p} (h : Alike True x y) : Alike b x y := by
  obtain ⟨s, vh, ho, vp, rfl, h⟩ := h
  exact ⟨s, vh, ho, vp, rfl, fun _ => h trivial⟩

theorem Short.weaken {b ρ : Prop} {S : Part G r c p} {y : Frag G r c p} (h : Short True ρ S y) : Short b ρ S y :=
  { h with alike := h.alike.weaken }

theorem relAttr {α β : Type} {R : α → β → Prop} {x : Option α} (f : α → β) (hf : ∀ a, R a (f a)) :
    Py.Rel R (attr x) (attr (x.map f)) := by
  cases x with
  | none => exact .error _
  | some a => exact .ok (hf a)

/-- Attribute reads whose value is known to satisfy a predicate. -/
theorem attrSelf {α : Type} {Q : α → Prop} {x : Option α} (hf : ∀ a, x = some a → Q a) :
    Py.Rel (fun a b => b = a ∧ Q a) (attr x) (attr x) := by
  cases x with
  | none => exact .error _
  | some a => exact .ok ⟨rfl, hf a rfl⟩

theorem mapA_none {P : Part G r c p} (h : P.fAB = none) (f : Frag G r c p → Py (Frag G r c p)) :
    P.mapA f = (f P.fa >>= fun x => pure { P with fa := x }) := by
  unfold mapA
  rw [h]

theorem mapB_none {P : Part G r c p} (h : P.fAB = none) (f : Frag G r c p → Py (Frag G r c p)) :
    P.mapB f = (f P.fb >>= fun x => pure { P with fb := x }) := by
  unfold mapB
  rw [h]

theorem mapAll_none {P : Part G r c p} (h : P.fAB = none) (f : Frag G r c p → Py (Frag G r c p)) :
    P.mapAll f = (f P.fa >>= fun x => f P.fb >>= fun z => pure { P with fa := x, fb := z }) := by
  rw [Part.mapAll, mapA_none h]
  cases f P.fa with
  | error e => rfl
  | ok x => exact mapB_none (P := { P with fa := x }) h f

/-- An update of the components of A, then of those of B. -/
theorem Short.pair {b b' ρ ρ' : Prop} {S : Part G r c p} {y : Frag G r c p} (h : Short b ρ S y)
    {f g : Frag G r c p → Py (Frag G r c p)} (hT : Tw ρ S.fa y → Py.Rel (Tw ρ') (f S.fa) (g y))
    (hV : ∀ x y, Alike b x y → Py.Rel (Alike b') (g x) (g y)) :
    Py.Rel (R b' ρ') (S.mapA f >>= fun P => P.mapB g) ((off S y).mapA f >>= fun P => P.mapB g) := by
  rw [mapA_none h.fAB, mapA_none (P := off S y) h.fAB]
  have hT := hT h.twins
  have hV := hV _ _ h.alike
  change Py.Rel _ _ ((f S.fa >>= fun x => pure { off S y with fa := x }) >>= fun P => P.mapB g)
  revert hT hV
  cases hfa : f S.fa with
  | error e => exact fun _ _ => .error e
  | ok x =>
    intro hT hV
    change Py.Rel _ (mapB g { S with fa := x }) (mapB g { off S y with fa := x })
    rw [mapB_none (P := { S with fa := x }) h.fAB, mapB_none (P := { off S y with fa := x }) h.fAB]
    change Py.Rel _ (g S.fb >>= _) (g y >>= _)
    revert hT hV
    cases g y with
    | error e => intro hT; cases hT
    | ok z =>
      intro hT hV
      cases hT with
      | ok hT =>
        revert hV
        generalize g S.fb = q
        intro hV
        cases hV with
        | ok hV => exact .ok ⟨z, rfl, { h with twins := hT, alike := hV }⟩

theorem Short.mapAll {b b' ρ ρ' : Prop} {S : Part G r c p} {y : Frag G r c p} (h : Short b ρ S y)
    {f : Frag G r c p → Py (Frag G r c p)} (hT : Tw ρ S.fa y → Py.Rel (Tw ρ') (f S.fa) (f y))
    (hV : ∀ x y, Alike b x y → Py.Rel (Alike b') (f x) (f y)) :
    Py.Rel (R b' ρ') (S.mapAll f) ((off S y).mapAll f) := h.pair hT hV

theorem relAnd {α β : Type} {R : α → β → Prop} {Q : α → Prop} {x : Py α} {y : Py β} (h : Py.Rel R x y) (hQ : ∀ a, x = .ok a → Q a) :
    Py.Rel (fun a b => R a b ∧ Q a) x y := by
  cases h with
  | ok h => exact .ok ⟨h, hQ _ rfl⟩
  | error e => exact .error e

theorem mapAll_fa {P P' : Part G r c p} (h : P.fAB = none) {f : Frag G r c p → Py (Frag G r c p)} (hP : P.mapAll f = .ok P') :
    ∃ x, f P.fa = .ok x ∧ x = P'.fa := by
  rw [Part.mapAll, mapA_none h] at hP
  cases hx : f P.fa with
  | error e =>
    rw [hx] at hP
    cases hP
  | ok x =>
    rw [hx] at hP
    change mapB f { P with fa := x } = _ at hP
    rw [mapB_none (P := { P with fa := x }) h] at hP
    refine ⟨x, rfl, ?_⟩
    change (f P.fb >>= _) = _ at hP
    revert hP
    cases f P.fb with
    | error e => exact fun h => nomatch h
    | ok z =>
      intro hP
      rw [← Except.ok.inj hP]

section Steps
variable {b ρ : Prop} {S : Part G r c p} {y : Frag G r c p}

theorem needSelf {α : Type} (x : Option α) : Py.Rel Eq (KS.need x) (KS.need x) := .of_eq rfl

theorem calcQ (h : Short b ρ S y) : Py.Rel (R b ρ) S.calcQ (off S y).calcQ := by
  unfold Part.calcQ
  refine (attrSelf h.nf).bind fun nf nf' hn => ?_
  obtain ⟨rfl, hn⟩ := hn
  refine h.mapAll (fun hT => ?_) fun x z hV => ?_
  · rw [hT.ks.n, hT.ks.scale]
    refine (Py.Rel.need (R := fun x y => y = G.mirCols x) _ fun _ => rfl).bind fun n n' hn' => (needSelf _).bind fun s s' hs => .pure ?_
    subst hn' hs
    refine { ks := { hT.ks with Q := ?_, n := hT.ks.n, scale := hT.ks.scale }, v := hT.v, ready := hT.ready }
    refine congrArg some ?_
    funext j k
    have : nf' j k = nf' j (G.mirIx k) := (congrFun (congrFun hn j) k).symm
    simp only [this, Grid.mirCols, Grid.mir]
  · obtain ⟨s, vh, ho, vp, rfl, hV⟩ := hV
    refine (needSelf _).bind fun n n' hn' => (needSelf _).bind fun s s' hs => .pure ?_
    subst hn' hs
    exact ⟨_, _, _, _, rfl, hV⟩

theorem weighted_twin (hT : Twins S.fa y) :
    Py.Rel (fun a b => b = G.mirCols a) (weighted [S.fa]) (weighted [y]) := by
  unfold weighted
  simp only [List.foldlM_cons, List.foldlM_nil, bind_pure]
  rw [hT.ks.n, hT.ks.scale]
  refine (Py.Rel.need (R := fun x y => y = G.mirCols x) _ fun _ => rfl).bind fun n n' hn' => (needSelf _).bind fun s s' hs => .pure ?_
  subst hn' hs
  rfl

theorem addFlip_mirCols (f : Bool) (n : G.Cols p) : addFlip f (G.mirCols n) = G.mirCols (addFlip f n) := by
  unfold addFlip
  split <;> rfl

theorem mirCols_mirCols (n : G.Cols p) : G.mirCols (G.mirCols n) = n := by
  funext j k
  simp only [Grid.mirCols, Grid.mir, G.mirIx_mirIx]

theorem calcProtomolecule (h : Short b ρ S y) : Py.Rel (R b ρ) S.calcProtomolecule (off S y).calcProtomolecule := by
  unfold Part.calcProtomolecule
  have e1 : S.compsA = [S.fa] := by simp [compsA, h.fAB]
  have e2 : S.compsB = [S.fb] := by simp [compsB, h.fAB]
  have e3 : (off S y).compsA = [S.fa] := by simp [compsA, h.fAB, off]
  have e4 : (off S y).compsB = [y] := by simp [compsB, h.fAB, off]
  have e5 : weighted [S.fb] = weighted [y] := by
    obtain ⟨s, vh, ho, vp, e, -⟩ := h.alike
    rw [e]
    rfl
  rw [e1, e2, e3, e4, e5]
  have hw := weighted_twin h.twins.toTwins
  revert hw
  cases weighted [S.fa] with
  | error e => exact fun _ => .error e
  | ok na =>
    generalize weighted [y] = q
    intro hw
    cases hw with
    | @ok _ nb hw =>
      subst hw
      refine .ok ⟨y, rfl, { h with frac := ?_, nf := fun n hn => ?_ }⟩
      · exact congrArg some (addFlip_mirCols _ na)
      · obtain rfl := Option.some.inj hn
        rw [addFlip_mirCols]
        funext j k
        simp only [Grid.mirCols, Grid.mir, G.mirIx_mirIx]
        exact add_comm _ _

theorem promolecule (o : PartScf.Options K) (h : Short b ρ S y) :
    Py.Rel (R b ρ) (PartScf.promolecule o S) (PartScf.promolecule o (off S y)) := by
  unfold PartScf.promolecule
  split
  · exact calcQ h
  · refine (calcProtomolecule h).bind fun S' N hS => ?_
    obtain ⟨y', rfl, h⟩ := hS
    exact calcQ h

/-- An update of the partition attributes of a fragment only. -/
theorem vpNuclear (h : Short b ρ S y) : Py.Rel (R b ρ) S.vpNuclear (off S y).vpNuclear := by
  unfold Part.vpNuclear
  refine h.mapAll (f := fun f => pure { f with v := { f.v with vpPot := some fun j k => S.vextMol j k - f.ks.vnuc j k } })
    (fun hT => .pure ?_) fun x z hV => ?_
  · refine { ks := hT.ks, v := { hT.v with vpPot := ?_ }, ready := hT.ready }
    refine congrArg some ?_
    funext j k
    simp only [vextMol, hT.ks.vnuc, h.nuclei, Grid.mirCols, Grid.mir, G.mirIx_mirIx]
    rw [add_comm]
  · obtain ⟨s, vh, ho, vp, rfl, hV⟩ := hV
    exact .pure ⟨_, _, _, _, rfl, hV⟩

theorem vpOverlap (T : Env G r c p) (h : Short b ρ S y) : Py.Rel (R b ρ) (S.vpOverlap T) ((off S y).vpOverlap T) := by
  unfold Part.vpOverlap
  have h1 : Py.Rel (fun a b => b = a ∧ S.naFrac = some a) (KS.need S.naFrac) (KS.need S.naFrac) := by
    cases S.naFrac with
    | none => exact .error _
    | some a => exact .ok ⟨rfl, rfl⟩
  refine h1.bind fun na na' hna => ?_
  obtain ⟨rfl, hna⟩ := hna
  have h2 : Py.Rel (fun a b => b = a ∧ a = G.mirCols na') (attr S.nbFrac) (attr S.nbFrac) := by
    rw [h.frac, hna]
    exact .ok ⟨rfl, rfl⟩
  refine h2.bind fun nb nb' hnb => ?_
  obtain ⟨rfl, rfl⟩ := hnb
  refine Short.pair (S := { S with S := some _, F := some _ }) (b := b) (ρ := ρ) { h with } (fun hT => ?_) fun x z hV => ?_
  · dsimp only
    rw [hT.ks.scale]
    refine (needSelf _).bind fun s s' hs => .pure ?_
    subst hs
    refine { ks := { hT.ks with scale := hT.ks.scale }, v := { hT.v with dFdn := ?_ }, ready := hT.ready }
    refine congrArg some ?_
    funext j k
    simp only [Grid.mirCols, Grid.mir, G.mirIx_mirIx]
  · obtain ⟨s, vh, ho, vp, rfl, hV⟩ := hV
    refine (needSelf _).bind fun s s' hs => .pure ?_
    subst hs
    exact ⟨_, _, _, _, rfl, hV⟩

theorem ensCorHar (h : Short b ρ S y) : Py.Rel (R b ρ) S.ensCorHar (off S y).ensCorHar := by
  unfold Part.ensCorHar
  change Py.Rel _ _ (match S.fAB with | none => _ | some (A, B) => _)
  rw [h.fAB]
  exact .error _

/-- A functional of a mirror-symmetric density. -/
theorem selfMap {α β : Type} {F : α → Py β} {m : α → α} {f : β → β} (hF : ∀ n, F (m n) = (F n).map f) {n : α} (hn : m n = n) :
    Py.Rel (fun a b => b = a ∧ f a = a) (F n) (F n) := by
  have := hF n
  rw [hn] at this
  revert this
  cases F n with
  | error e => exact fun _ => .error e
  | ok x => exact fun h => .ok ⟨rfl, (Except.ok.inj h).symm⟩

theorem hxcComponents {T : Env G r c p} (hE : MirrorEnv T) (h : Short b ρ S y) :
    Py.Rel (R b ρ) (S.hxcComponents T) ((off S y).hxcComponents T) := by
  unfold Part.hxcComponents
  refine (attrSelf h.nf).bind fun nf nf' hn => ?_
  obtain ⟨rfl, hn⟩ := hn
  refine (selfMap hE.hartree hn).bind fun vh vh' hvh => (selfMap hE.exchange hn).bind fun x x' hx =>
    (selfMap hE.correlation hn).bind fun q q' hq => ?_
  obtain ⟨rfl, hvh⟩ := hvh
  obtain ⟨rfl, hx⟩ := hx
  obtain ⟨rfl, hq⟩ := hq
  obtain ⟨ex, epsX, vx⟩ := x'
  obtain ⟨ec, epsC, vc⟩ := q'
  have hx : G.mirCols vx = vx := congrArg (·.2.2) hx
  have hq : G.mirCols vc = vc := congrArg (·.2.2) hq
  refine Short.mapAll (S := { S with vh := some _, vx := some _, vc := some _, ex := some _, ec := some _, epsX := some _, epsC := some _ }) (b := b) (ρ := ρ) { h with }
    (fun hT => ?_) fun x z hV => ?_
  · dsimp only
    rw [hT.ks.V]
    refine (relAttr (R := fun x y => y = G.mirCols x) _ fun _ => rfl).bind fun a a' ha =>
      (relAttr (R := fun x y => y = G.mirCols x) _ fun _ => rfl).bind fun u u' hu =>
      (relAttr (R := fun x y => y = G.mirCols x) _ fun _ => rfl).bind fun d d' hd => .pure ?_
    subst ha hu hd
    have e1 : ∀ j k, vh' j (G.mirIx k) = vh' j k := fun j k => congrFun (congrFun hvh j) k
    have e2 : ∀ j k, vx j (G.mirIx k) = vx j k := fun j k => congrFun (congrFun hx j) k
    have e3 : ∀ j k, vc j (G.mirIx k) = vc j k := fun j k => congrFun (congrFun hq j) k
    refine { ks := { hT.ks with V := hT.ks.V }, v := { hT.v with vpH := ?_, vpX := ?_, vpC := ?_, vpHxc := ?_ }, ready := hT.ready } <;>
    · refine congrArg some ?_
      funext j k
      simp only [Grid.mirCols, Grid.mir, e1, e2, e3]
  · obtain ⟨s, vh, ho, vp, rfl, hV⟩ := hV
    refine (Py.Rel.of_eq rfl).bind fun a a' ha => (Py.Rel.of_eq rfl).bind fun u u' hu => (Py.Rel.of_eq rfl).bind fun d d' hd => .pure ?_
    subst ha hu hd
    exact ⟨_, _, _, _, rfl, hV⟩

theorem hxcZero (h : Short b ρ S y) : Py.Rel (R b ρ) S.hxcZero (off S y).hxcZero := by
  unfold Part.hxcZero
  refine (Py.Rel.of_eq rfl).bind fun _ _ _ => h.mapAll (fun hT => .pure ?_) fun x z hV => ?_
  · exact { ks := hT.ks, v := { hT.v with vpH := rfl, vpX := rfl, vpC := rfl }, ready := hT.ready }
  · obtain ⟨s, vh, ho, vp, rfl, hV⟩ := hV
    exact .pure ⟨_, _, _, _, rfl, hV⟩

theorem hxcStart {T : Env G r c p} (hE : MirrorEnv T) (h : Short b ρ S y) :
    Py.Rel (R b ρ) (S.hxcStart T) ((off S y).hxcStart T) := by
  unfold Part.hxcStart
  change Py.Rel _ _ (if S.opt.hxc = _ ∧ S.opt.interaction = _ then _ else if S.opt.interaction = _ then _ else _)
  split
  · exact hxcZero h
  · split
    · exact .error _
    · exact hxcComponents hE h

theorem vonWeizsacker_mir {T : Env G r c p} (hE : MirrorEnv T) (n : G.Cols p) (j : Fin p) (k : G.Ix) :
    vonWeizsacker T (G.mirCols n) j k = vonWeizsacker T n j (G.mirIx k) := by
  unfold vonWeizsacker
  have : ∑ l, T.elap k l * T.sqrt (G.mirCols n j l) = ∑ l, T.elap (G.mirIx k) l * T.sqrt (n j l) := by
    rw [← G.sum_mir]
    refine Finset.sum_congr rfl fun l _ => ?_
    simp only [Grid.mirCols, Grid.mir, G.mirIx_mirIx]
    rw [← hE.elap k, G.mirIx_mirIx]
  rw [this, hE.weight]
  rfl

theorem finishKinetic {vt : G.Cols p} (hvt : G.mirCols vt = vt) (h : Short b ρ S y) :
    Py.Rel (R b ρ) (Part.finishKinetic vt S) (Part.finishKinetic vt (off S y)) := by
  unfold Part.finishKinetic
  refine Short.mapAll (S := { S with vt := some vt }) (b := b) (ρ := ρ) { h with } (fun hT => ?_) fun x z hV => ?_
  · dsimp only
    rw [hT.v.vt]
    refine (relAttr (R := fun x y => y = G.mirCols x) _ fun _ => rfl).bind fun a a' ha => .pure ?_
    subst ha
    have e1 : ∀ j k, vt j (G.mirIx k) = vt j k := fun j k => congrFun (congrFun hvt j) k
    refine { ks := hT.ks, v := { hT.v with vpKin := ?_, vt := rfl }, ready := hT.ready }
    refine congrArg some ?_
    funext j k
    simp only [Grid.mirCols, Grid.mir, e1]
  · obtain ⟨s, vh, ho, vp, rfl, hV⟩ := hV
    refine (Py.Rel.of_eq rfl).bind fun a a' ha => .pure ?_
    subst ha
    exact ⟨_, _, _, _, rfl, hV⟩

theorem vpKinetic {T : Env G r c p} (hE : MirrorEnv T) (h : Short b ρ S y) :
    Py.Rel (R b ρ) (S.vpKinetic T) ((off S y).vpKinetic T) := by
  unfold Part.vpKinetic
  change Py.Rel _ _ (match S.opt.kin with | .vonweiz => _ | .libxcke => _ | .paramke => _ | .inversion => _ | .none => _ | .twoorbital => _ | .fixed => _)
  cases hk : S.opt.kin with
  | inversion => exact absurd hk h.kin.1
  | twoorbital => exact absurd hk h.kin.2
  | paramke => exact .error _
  | fixed => exact .pure ⟨y, rfl, h⟩
  | none =>
    refine (Py.Rel.of_eq rfl).bind fun _ _ _ => Py.Rel.bind (h.mapAll (b' := b) (ρ' := ρ) (fun hT => .pure ?_) fun x z hV => ?_) fun S N hS => ?_
    · exact { ks := hT.ks, v := { hT.v with vt := rfl }, ready := hT.ready }
    · obtain ⟨s, vh, ho, vp, rfl, hV⟩ := hV
      exact .pure ⟨_, _, _, _, rfl, hV⟩
    · obtain ⟨y, rfl, h⟩ := hS
      exact finishKinetic rfl h
  | vonweiz =>
    refine (attrSelf h.nf).bind fun nf nf' hn => ?_
    obtain ⟨rfl, hn⟩ := hn
    refine h.mapAll (fun hT => ?_) fun x z hV => ?_
    · rw [hT.ks.n]
      refine (Py.Rel.need (R := fun x y => y = G.mirCols x) _ fun _ => rfl).bind fun n n' hn' => ?_
      subst hn'
      have ev : (fun j k => Fl.clean (vonWeizsacker T (G.mirCols n) j k)) = G.mirCols fun j k => Fl.clean (vonWeizsacker T n j k) := by
        funext j k
        rw [vonWeizsacker_mir hE]
        rfl
      have en : ∀ j k, vonWeizsacker T nf' j (G.mirIx k) = vonWeizsacker T nf' j k := fun j k => by
        rw [← vonWeizsacker_mir hE, hn]
      dsimp only
      rw [ev]
      have hd : Py.Rel (fun a a' => a' = G.mirCols a) (kineticDifference (vonWeizsacker T nf') fun j k => Fl.clean (vonWeizsacker T n j k))
          (kineticDifference (vonWeizsacker T nf') (G.mirCols fun j k => Fl.clean (vonWeizsacker T n j k))) := by
        unfold kineticDifference
        split
        · refine .ok ?_
          funext j k
          simp only [Grid.mirCols, Grid.mir, en]
        · exact .error _
      refine hd.bind fun d d' hd => .pure ?_
      subst hd
      exact { ks := { hT.ks with n := hT.ks.n }, v := { hT.v with vt := rfl, vpKin := rfl }, ready := hT.ready }
    · obtain ⟨s, vh, ho, vp, rfl, hV⟩ := hV
      refine (Py.Rel.of_eq rfl).bind fun a a' ha => ?_
      subst ha
      refine (Py.Rel.of_eq rfl).bind fun a a' ha => .pure ?_
      subst ha
      exact ⟨_, _, _, _, rfl, hV⟩
  | libxcke =>
    refine (attrSelf h.nf).bind fun nf nf' hn => ?_
    obtain ⟨rfl, hn⟩ := hn
    refine (selfMap hE.kinetic hn).bind fun x x' hx => ?_
    obtain ⟨rfl, hx⟩ := hx
    obtain ⟨Ts, vt⟩ := x'
    have hx : G.mirCols vt = vt := congrArg (·.2) hx
    refine Py.Rel.bind (h.mapAll (b' := b) (ρ' := ρ) (fun hT => ?_) fun x z hV => ?_) fun S N hS => ?_
    · rw [hT.ks.n]
      refine (Py.Rel.need (R := fun x y => y = G.mirCols x) _ fun _ => rfl).bind fun n n' hn' => ?_
      subst hn'
      refine (Py.Rel.of_map _ (R := fun x y => y = (x.1, G.mirCols x.2)) (fun _ => rfl) (hE.kinetic n)).bind fun q q' hq => .pure ?_
      subst hq
      exact { ks := { hT.ks with n := hT.ks.n }, v := { hT.v with vt := rfl, Ts := rfl }, ready := hT.ready }
    · obtain ⟨s, vh, ho, vp, rfl, hV⟩ := hV
      refine (Py.Rel.of_eq rfl).bind fun a a' ha => ?_
      subst ha
      refine (Py.Rel.of_eq rfl).bind fun a a' ha => .pure ?_
      subst ha
      exact ⟨_, _, _, _, rfl, hV⟩
    · obtain ⟨y, rfl, h⟩ := hS
      exact finishKinetic (S := { S with Tsm := some Ts }) hx { h with }

theorem foldlM_alike {α : Type} {l m : List (Frag G r c p)} (h : List.Forall₂ (Alike b) l m) {f : α → Frag G r c p → Py α}
    (hf : ∀ a x y, Alike b x y → f a y = f a x) (a : α) : m.foldlM f a = l.foldlM f a := by
  induction h generalizing a with
  | nil => rfl
  | cons hxy _ ih =>
    rw [List.foldlM_cons, List.foldlM_cons, hf _ _ _ hxy]
    congr 1
    funext a
    exact ih a

theorem alike_self (x : Frag G r c p) : Alike b x x := ⟨_, _, _, _, rfl, fun _ => rfl⟩

theorem comps_alike (h : Short b ρ S y) : List.Forall₂ (Alike b) S.comps (off S y).comps := by
  have e1 : S.comps = [S.fa, S.fb] := by simp [comps, compsA, compsB, h.fAB]
  have e2 : (off S y).comps = [S.fa, y] := by simp [comps, compsA, compsB, h.fAB, off]
  rw [e1, e2]
  exact .cons (alike_self _) (.cons h.alike .nil)

theorem sumsAB (h : Short b ρ S y) : (off S y).sumsAB = S.sumsAB := by
  have e1 : S.compsA = [S.fa] := by simp [compsA, h.fAB]
  have e3 : (off S y).compsA = [S.fa] := by simp [compsA, h.fAB, off]
  have e4 : (off S y).energyCompsB = [y] := by simp [energyCompsB, h.fAB, off]
  unfold Part.sumsAB sumsB
  rw [e1, e3, e4]
  have e5 : ∀ dft, fragSums dft [y] = fragSums dft [S.fa] := by
    intro dft
    unfold fragSums
    simp only [List.foldlM_cons, List.foldlM_nil, bind_pure]
    unfold Sums.addComp
    rw [h.twins.ks.scale, h.twins.ks.E]
  simp only [e5, h.on, off, if_true, Bool.false_eq_true, if_false]
  have twice : ∀ (X : Py (Sums K p)) (g : Sums K p → Sums K p → Py (Sums K p × Sums K p)),
      (X >>= fun sa => X >>= fun sb => g sa sb) = (X >>= fun sa => pure sa >>= fun sb => g sa sb) := fun X g => by cases X <;> rfl
  exact twice _ _

theorem evalsAB (h : Short b ρ S y) : (off S y).evalsAB = S.evalsAB := by
  have e1 : S.compsA = [S.fa] := by simp [compsA, h.fAB]
  have e3 : (off S y).compsA = [S.fa] := by simp [compsA, h.fAB, off]
  have e4 : (off S y).compsB = [y] := by simp [compsB, h.fAB, off]
  unfold Part.evalsAB
  have e5 : appendEvals [y] = appendEvals [S.fa] := by
    unfold appendEvals
    simp only [List.foldlM_cons, List.foldlM_nil, bind_pure]
    rw [h.twins.ks.E]
  rw [e1, e3, e4, e5]
  simp only [h.on, off]
  cases appendEvals [S.fa] <;> rfl

theorem kineticEnergies (T : Env G r c p) (h : Short b ρ S y) : (off S y).kineticEnergies T = S.kineticEnergies T := by
  have hc := comps_alike h
  unfold Part.kineticEnergies
  change (match S.opt.kin with | .vonweiz => _ | .libxcke => _ | .paramke => _ | .inversion => _ | .none => _ | .twoorbital => _ | .fixed => _) = _
  cases hk : S.opt.kin with
  | inversion => exact absurd hk h.kin.1
  | twoorbital => exact absurd hk h.kin.2
  | fixed => rfl
  | none => rfl
  | vonweiz =>
    dsimp only
    unfold vonWeizsackerEnergy
    change (attr S.nf >>= _) = _
    congr 1
    funext nf
    dsimp only
    rw [foldlM_alike hc]
    intro a x z hxz
    obtain ⟨s, vh, ho, vp, rfl, -⟩ := hxz
    rfl
  | libxcke =>
    dsimp only
    change (attr S.Tsm >>= _) = _
    congr 1
    funext nf
    rw [foldlM_alike hc]
    intro a x z hxz
    obtain ⟨s, vh, ho, vp, rfl, -⟩ := hxz
    rfl
  | paramke =>
    dsimp only
    change (attr S.Tsm >>= _) = _
    congr 1
    funext nf
    rw [foldlM_alike hc]
    intro a x z hxz
    obtain ⟨s, vh, ho, vp, rfl, -⟩ := hxz
    rfl

theorem epKinetic (T : Env G r c p) (h : Short b ρ S y) : (off S y).epKinetic T = S.epKinetic T := by
  unfold Part.epKinetic
  rw [kineticEnergies T h]
  rfl

/-- The contribution of B's mirror image. -/
theorem addDensity_twin (hT : Twins S.fa y) {x : Frag G r c p → Option G.Fld} (hx : x y = (x S.fa).map G.mir) :
    (addDensity x (fun _ => 0) S.fa >>= fun e => addDensity x e y) =
      (addDensity x (fun _ => 0) S.fa >>= fun e => pure fun k => e k + G.mir e k) := by
  unfold addDensity
  rw [hT.v.frozen, hT.ks.Q, hx]
  split
  · cases S.fa.ks.Q with
    | none => rfl
    | some Q =>
      cases x S.fa with
      | none => rfl
      | some e =>
        change Except.ok _ = Except.ok _
        congr 1
        funext k
        simp only [zero_add]
        rfl
  · change Except.ok _ = Except.ok _
    congr 1
    funext k
    exact (add_zero (0 : K)).symm

theorem ehf (h : Short b ρ S y) : (off S y).ehf = S.ehf := by
  have e1 : S.compsA = [S.fa] := by simp [compsA, h.fAB]
  have e2 : (off S y).comps = [S.fa, y] := by simp [comps, compsA, compsB, h.fAB, off]
  unfold Part.ehf
  rw [e1, e2, h.on]
  simp only [List.foldlM_cons, List.foldlM_nil, bind_pure, if_true, off, if_false, Bool.false_eq_true]
  exact addDensity_twin h.twins.toTwins (x := fun f => f.ks.V.eh) (by simp only [h.twins.ks.V])

theorem excf {x : Frag G r c p → Option G.Fld} (hx : x y = (x S.fa).map G.mir) (h : Short b ρ S y) : (off S y).excf x = S.excf x := by
  have e1 : S.compsA = [S.fa] := by simp [compsA, h.fAB]
  have e2 : (off S y).comps = [S.fa, y] := by simp [comps, compsA, compsB, h.fAB, off]
  unfold Part.excf
  rw [e1, e2, h.on]
  simp only [List.foldlM_cons, List.foldlM_nil, bind_pure, if_true, off, if_false, Bool.false_eq_true]
  exact addDensity_twin h.twins.toTwins hx

theorem epComponents (T : Env G r c p) (h : Short b ρ S y) (Ehf Exf Ecf : K) :
    (off S y).epComponents T Ehf Exf Ecf = S.epComponents T Ehf Exf Ecf := by
  unfold Part.epComponents
  rw [ehf h, excf (x := fun f => f.ks.V.ex) (by simp only [h.twins.ks.V]) h, excf (x := fun f => f.ks.V.ec) (by simp only [h.twins.ks.V]) h]
  rfl

theorem epCollect (T : Env G r c p) (h : Short b ρ S y) (eh ex ec : K) :
    Py.Rel (fun u w => R b ρ u.1 w.1 ∧ w.2 = u.2) (Part.epCollect T S eh ex ec) (Part.epCollect T (off S y) eh ex ec) := by
  unfold Part.epCollect
  change Py.Rel _ _ (match S.opt.hxc with | .exact => _ | .hartree => _ | .overlapXc => _ | .overlapHxc => _ | .overlapHxc2 => _ | .surprisal => _)
  cases S.opt.hxc with
  | exact => exact .pure ⟨⟨y, rfl, h⟩, rfl⟩
  | hartree => exact .pure ⟨⟨y, rfl, h⟩, rfl⟩
  | surprisal => exact .error _
  | overlapXc =>
    refine (vpOverlap T h).bind fun S N hS => ?_
    obtain ⟨y, rfl, h⟩ := hS
    refine (Py.Rel.of_eq rfl).bind fun F F' hF => .pure ⟨⟨y, rfl, h⟩, ?_⟩
    rw [hF]
  | overlapHxc =>
    refine (vpOverlap T h).bind fun S N hS => ?_
    obtain ⟨y, rfl, h⟩ := hS
    refine (ensCorHar h).bind fun S N hS => ?_
    obtain ⟨y, rfl, h⟩ := hS
    refine (Py.Rel.of_eq rfl).bind fun F F' hF => (Py.Rel.of_eq rfl).bind fun e e' he => .pure ⟨⟨y, rfl, h⟩, ?_⟩
    rw [hF, he]
  | overlapHxc2 =>
    refine (vpOverlap T h).bind fun S N hS => ?_
    obtain ⟨y, rfl, h⟩ := hS
    refine (ensCorHar h).bind fun S N hS => ?_
    obtain ⟨y, rfl, h⟩ := hS
    refine (Py.Rel.of_eq rfl).bind fun F F' hF => (Py.Rel.of_eq rfl).bind fun e e' he => .pure ⟨⟨y, rfl, h⟩, ?_⟩
    rw [hF, he]

theorem partitionEnergy (T : Env G r c p) (h : Short b ρ S y) (Ehf Exf Ecf : K) :
    Py.Rel (fun u w => R b ρ u.1 w.1 ∧ w.2 = u.2) (S.partitionEnergy T Ehf Exf Ecf) ((off S y).partitionEnergy T Ehf Exf Ecf) := by
  unfold Part.partitionEnergy
  change Py.Rel _ _ (if S.opt.isolated then _ else _)
  split
  · exact .pure ⟨⟨y, rfl, h⟩, rfl⟩
  · rw [epKinetic T h]
    refine (Py.Rel.of_eq rfl).bind fun a a' ha => (Py.Rel.of_eq rfl).bind fun d d' hd => ?_
    subst ha hd
    refine Py.Rel.bind (R := fun u w => R b ρ u.1 w.1 ∧ w.2 = u.2) ?_ fun u w huw => .pure ⟨huw.1, ?_⟩
    · unfold Part.epHxc
      rw [epComponents T h]
      refine (Py.Rel.of_eq rfl).bind fun q q' hq => ?_
      subst hq
      obtain ⟨eh, ex, ec, d⟩ := q
      exact epCollect (S := { S with EpH := some eh, EpX := some ex, EpC := some ec, epDens := d.or S.epDens }) T { h with } eh ex ec
    · rw [huw.2]

theorem energy (T : Env G r c p) (h : Short b ρ S y) : Py.Rel (R b ρ) (S.energy T) ((off S y).energy T) := by
  unfold Part.energy
  rw [sumsAB h]
  refine (Py.Rel.of_eq rfl).bind fun a a' ha => ?_
  subst ha
  obtain ⟨sa, sb⟩ := a
  refine (partitionEnergy T h _ _ _).bind fun u w huw => ?_
  obtain ⟨S', u1, u2, u3, u4⟩ := u
  obtain ⟨N', w⟩ := w
  obtain ⟨⟨y, h1, h⟩, h2⟩ := huw
  dsimp only at h1 h2 h
  subst h1 h2
  dsimp only
  rw [evalsAB h]
  refine (Py.Rel.of_eq rfl).bind fun e e' he => .pure ⟨y, ?_, { h with }⟩
  subst he
  rfl

theorem hxcCollect (T : Env G r c p) (h : Short b ρ S y) : Py.Rel (R b ρ) (S.hxcCollect T) ((off S y).hxcCollect T) := by
  unfold Part.hxcCollect
  change Py.Rel _ _ (match S.opt.hxc with | .exact => _ | .hartree => _ | .overlapXc => _ | .overlapHxc => _ | .surprisal => _ | .overlapHxc2 => _)
  cases S.opt.hxc with
  | surprisal => exact .error _
  | overlapHxc2 => exact .error _
  | overlapHxc =>
    refine (vpOverlap T h).bind fun S N hS => ?_
    obtain ⟨y, rfl, h⟩ := hS
    unfold Part.ensCorHar
    change Py.Rel _ ((match S.fAB with | none => _ | some (A, B) => _) >>= _) ((match S.fAB with | none => _ | some (A, B) => _) >>= _)
    rw [h.fAB]
    exact .error _
  | exact =>
    refine h.mapAll (fun hT => ?_) fun x z hV => ?_
    · rw [hT.v.vpH, hT.v.vpX, hT.v.vpC]
      refine (relAttr (R := fun x y => y = G.mirCols x) _ fun _ => rfl).bind fun a a' ha =>
        (relAttr (R := fun x y => y = G.mirCols x) _ fun _ => rfl).bind fun u u' hu =>
        (relAttr (R := fun x y => y = G.mirCols x) _ fun _ => rfl).bind fun d d' hd => .pure ?_
      subst ha hu hd
      exact { ks := hT.ks, v := { hT.v with vpHxc := rfl }, ready := hT.ready }
    · obtain ⟨s, vh, ho, vp, rfl, hV⟩ := hV
      refine (Py.Rel.of_eq rfl).bind fun a a' ha => (Py.Rel.of_eq rfl).bind fun u u' hu => (Py.Rel.of_eq rfl).bind fun d d' hd => .pure ?_
      subst ha hu hd
      exact ⟨_, _, _, _, rfl, hV⟩
  | hartree =>
    refine h.mapAll (fun hT => ?_) fun x z hV => ?_
    · rw [hT.v.vpH]
      refine (relAttr (R := fun x y => y = G.mirCols x) _ fun _ => rfl).bind fun a a' ha => .pure ?_
      subst ha
      exact { ks := hT.ks, v := { hT.v with vpHxc := rfl }, ready := hT.ready }
    · obtain ⟨s, vh, ho, vp, rfl, hV⟩ := hV
      refine (Py.Rel.of_eq rfl).bind fun a a' ha => .pure ?_
      subst ha
      exact ⟨_, _, _, _, rfl, hV⟩
  | overlapXc =>
    refine (vpOverlap T h).bind fun S N hS => ?_
    obtain ⟨y, rfl, h⟩ := hS
    refine (energy T h).bind fun S N hS => ?_
    obtain ⟨y, rfl, h⟩ := hS
    refine (Py.Rel.of_eq rfl).bind fun F F' hF => (Py.Rel.of_eq rfl).bind fun ex ex' hex => (Py.Rel.of_eq rfl).bind fun ec ec' hec => ?_
    subst hF hex hec
    refine h.mapAll (fun hT => ?_) fun x z hV => ?_
    · rw [hT.v.vpH, hT.v.vpX, hT.v.vpC, hT.v.dFdn]
      refine (relAttr (R := fun x y => y = G.mirCols x) _ fun _ => rfl).bind fun a a' ha =>
        (relAttr (R := fun x y => y = G.mirCols x) _ fun _ => rfl).bind fun u u' hu =>
        (relAttr (R := fun x y => y = G.mirCols x) _ fun _ => rfl).bind fun d d' hd =>
        (relAttr (R := fun x y => y = G.mirCols x) _ fun _ => rfl).bind fun q q' hq => .pure ?_
      subst ha hu hd hq
      exact { ks := hT.ks, v := { hT.v with vpHxc := rfl }, ready := hT.ready }
    · obtain ⟨s, vh, ho, vp, rfl, hV⟩ := hV
      refine (Py.Rel.of_eq rfl).bind fun a a' ha => (Py.Rel.of_eq rfl).bind fun u u' hu => (Py.Rel.of_eq rfl).bind fun d d' hd =>
        (Py.Rel.of_eq rfl).bind fun q q' hq => .pure ?_
      subst ha hu hd hq
      exact ⟨_, _, _, _, rfl, hV⟩

/-- The average of a mirrored pair is mirror symmetric, so that symmetrising it changes nothing. -/
theorem average {x : Frag G r c p → Option (G.Cols p)} (hx : x y = (x S.fa).map G.mirCols) (hb : x y = x S.fb) (h : Short b ρ S y) :
    Py.Rel (fun a a' => a' = a ∧ G.mirCols a = a) (S.average x) ((off S y).average x) := by
  have e1 : S.comps = [S.fa, S.fb] := by simp [comps, compsA, compsB, h.fAB]
  have e2 : (off S y).comps = [S.fa, y] := by simp [comps, compsA, compsB, h.fAB, off]
  have e3 : S.fb.ks.Q = y.ks.Q := by
    obtain ⟨s, vh, ho, vp, e, -⟩ := h.alike
    rw [e]
  have main : Py.Rel (fun a a' => a' = a ∧ G.mirCols a = a) (S.qAverage x) ((off S y).qAverage x) := by
    unfold qAverage
    rw [e1, e2]
    simp only [List.foldlM_cons, List.foldlM_nil, bind_pure]
    rw [← hb, e3, hx, h.twins.ks.Q]
    cases x S.fa with
    | none => exact .error _
    | some v =>
      cases S.fa.ks.Q with
      | none => exact .error _
      | some Q =>
        refine .ok ⟨rfl, ?_⟩
        funext j k
        simp only [Grid.mirCols, Grid.mir, G.mirIx_mirIx]
        ring
  unfold Part.average
  refine main.bind fun a a' ha => .pure ?_
  obtain ⟨rfl, ha⟩ := ha
  have hs : G.mirCols (addFlip S.opt.ensSpinSym a') = addFlip S.opt.ensSpinSym a' := by
    rw [← addFlip_mirCols, ha]
  rw [h.on]
  change addFlip S.opt.ensSpinSym a' = _ ∧ _
  have he : addMirror true (addFlip S.opt.ensSpinSym a') = addFlip S.opt.ensSpinSym a' := by
    unfold addMirror KS.symmetrised
    rw [if_pos rfl, hs]
    funext j k
    ring
  rw [he]
  exact ⟨rfl, hs⟩

theorem partitionPotential {T : Env G r c p} (hE : MirrorEnv T) (h : Short b ρ S y) :
    Py.Rel (fun u w => R True ρ u.1 w.1 ∧ w.2 = u.2 ∧ G.mirCols u.2 = u.2 ∧ u.1.fa.v.vp.isSome) (S.partitionPotential T)
      ((off S y).partitionPotential T) := by
  unfold Part.partitionPotential
  change Py.Rel _ _ (match S.opt.vpCalc with | .potentialInversion => _ | .component => _)
  cases S.opt.vpCalc with
  | potentialInversion =>
    dsimp only
    change Py.Rel _ _ (if p = 2 then .error (if S.opt.ensSpinSym then _ else _) else _)
    split <;> exact .error _
  | component =>
    refine (vpNuclear h).bind fun S N hS => ?_
    obtain ⟨y, rfl, h⟩ := hS
    refine (vpKinetic hE h).bind fun S N hS => ?_
    obtain ⟨y, rfl, h⟩ := hS
    refine Py.Rel.bind (R := R b ρ) ?_ fun S N hS => ?_
    · unfold vpHxcStep
      refine (hxcStart hE h).bind fun S N hS => ?_
      obtain ⟨y, rfl, h⟩ := hS
      exact hxcCollect T h
    obtain ⟨y, rfl, h⟩ := hS
    refine (Py.Rel.of_eq rfl).bind fun _ _ _ => ?_
    refine Py.Rel.bind (R := fun S N => R True ρ S N ∧ S.fa.v.vp.isSome) ?_ fun S N hS => ?_
    · have hm := h.mapAll (b' := True) (ρ' := ρ) (f := fun f => do
          let a ← attr f.v.vpPot
          let b ← attr f.v.vpKin
          let d ← attr f.v.vpHxc
          pure { f with v := { f.v with vp := some fun j k => a j k + b j k + d j k } }) (fun hT => ?_) fun x z hV => ?_
      · refine relAnd hm fun P hP => ?_
        obtain ⟨x, hx, rfl⟩ := mapAll_fa h.fAB hP
        obtain ⟨a, -, hx⟩ := Py.bind_eq_ok.1 hx
        obtain ⟨d, -, hx⟩ := Py.bind_eq_ok.1 hx
        obtain ⟨q, -, hx⟩ := Py.bind_eq_ok.1 hx
        rw [← Except.ok.inj hx]
        rfl
      · rw [hT.v.vpPot, hT.v.vpKin, hT.v.vpHxc]
        refine (relAttr (R := fun x y => y = G.mirCols x) _ fun _ => rfl).bind fun a a' ha =>
          (relAttr (R := fun x y => y = G.mirCols x) _ fun _ => rfl).bind fun u u' hu =>
          (relAttr (R := fun x y => y = G.mirCols x) _ fun _ => rfl).bind fun d d' hd => .pure ?_
        subst ha hu hd
        exact { ks := hT.ks, v := { hT.v with vp := rfl }, ready := hT.ready }
      · obtain ⟨s, vh, ho, vp, rfl, hV⟩ := hV
        refine (Py.Rel.of_eq rfl).bind fun a a' ha => (Py.Rel.of_eq rfl).bind fun u u' hu => (Py.Rel.of_eq rfl).bind fun d d' hd => .pure ?_
        subst ha hu hd
        exact ⟨_, _, _, _, rfl, fun _ => rfl⟩
    · obtain ⟨⟨y, rfl, h⟩, hsome⟩ := hS
      obtain ⟨s, vh, ho, vp, e, hvp⟩ := h.alike
      have hv := h.twins.v
      refine (average (x := fun f => f.v.vp) hv.vp (by rw [e]; exact hvp trivial) h).bind fun a a' ha => ?_
      refine (average (x := fun f => f.v.vpPot) hv.vpPot (by rw [e]) h).bind fun a1 a1' ha1 => ?_
      refine (average (x := fun f => f.v.vpKin) hv.vpKin (by rw [e]) h).bind fun a2 a2' ha2 => ?_
      refine (average (x := fun f => f.v.vpHxc) hv.vpHxc (by rw [e]) h).bind fun a3 a3' ha3 => ?_
      refine (average (x := fun f => f.v.vpH) hv.vpH (by rw [e]) h).bind fun a4 a4' ha4 => ?_
      refine (average (x := fun f => f.v.vpX) hv.vpX (by rw [e]) h).bind fun a5 a5' ha5 => ?_
      refine (average (x := fun f => f.v.vpC) hv.vpC (by rw [e]) h).bind fun a6 a6' ha6 => .pure ?_
      obtain ⟨rfl, ha⟩ := ha
      obtain ⟨rfl, -⟩ := ha1
      obtain ⟨rfl, -⟩ := ha2
      obtain ⟨rfl, -⟩ := ha3
      obtain ⟨rfl, -⟩ := ha4
      obtain ⟨rfl, -⟩ := ha5
      obtain ⟨rfl, -⟩ := ha6
      refine ⟨⟨y, rfl, { h with vp := fun v hv => ?_ }⟩, rfl, ha, hsome⟩
      obtain rfl := Option.some.inj hv
      exact ha

end Steps

section Mirror

/-- Potentials that were set stay set. -/
structure Mono (x y : KSPot G p) : Prop where
  vx : y.vx = none → x.vx = none
  vc : y.vc = none → x.vc = none
  vh : y.vh = none → x.vh = none
  ex : y.ex = none → x.ex = none
  ec : y.ec = none → x.ec = none
  eh : y.eh = none → x.eh = none

theorem Mono.refl (x : KSPot G p) : Mono x x := ⟨id, id, id, id, id, id⟩

/-- What one step of one fragment leaves alone. -/
structure Keeps (x y : Frag G r c p) : Prop where
  kind : y.ks.kind = x.ks.kind
  sym : y.ks.sym = x.ks.sym
  Za : y.ks.Za = x.ks.Za
  Zb : y.ks.Zb = x.ks.Zb
  a : y.ks.a = x.ks.a
  vnuc : y.ks.vnuc = x.ks.vnuc
  scale : y.ks.scale = x.ks.scale
  alpha : y.ks.alpha = x.ks.alpha
  V : Mono x.ks.V y.ks.V
  v : y.v = x.v

theorem alike_of {x y : Frag G r c p} (h1 : y.ks = { x.ks with solver := y.ks.solver, vhxc := y.ks.vhxc, homo := y.ks.homo })
    (h2 : y.v = x.v) : Alike True x y := by
  obtain ⟨ky, vy⟩ := y
  dsimp only at h1 h2
  subst h2
  exact ⟨ky.solver, ky.vhxc, ky.homo, x.v.vp, by rw [Frag.mk.injEq]; exact ⟨h1, rfl⟩, fun _ => rfl⟩

theorem mirrorOf_alike {b : Prop} {x z y y' : Frag G r c p} (hT : Tw True x y') (hz : Alike b z y) (hk : Keeps y y')
    (hvp : x.v.vp = none → z.v.vp = none) : ∃ z', mirrorOf x z = .ok z' ∧ Alike True z' y' := by
  obtain ⟨h1, h2, h3⟩ := hT.ready trivial
  obtain ⟨n, hn⟩ := Option.isSome_iff_exists.mp h1
  obtain ⟨veff, hve⟩ := Option.isSome_iff_exists.mp h2
  obtain ⟨vext, hvx⟩ := Option.isSome_iff_exists.mp h3
  unfold mirrorOf
  rw [hn, hve, hvx]
  refine ⟨_, rfl, alike_of ?_ ?_⟩
  · have hR := hT.ks
    have orElse : ∀ {α : Type} {m : α → α} {u w : Option α}, (u.map m = none → w = none) → (u.map m).or w = u.map m := by
      intro α m u w h
      cases u with
      | none => exact h rfl
      | some u => rfl
    obtain ⟨s, vh, ho, vp, rfl, -⟩ := hz
    have hV := hk.V
    rw [hR.V] at hV
    have e : y'.ks.V = ⟨(x.ks.V.vx.map G.mirCols).or z.ks.V.vx, (x.ks.V.vc.map G.mirCols).or z.ks.V.vc,
        (x.ks.V.vh.map G.mirCols).or z.ks.V.vh, (x.ks.V.ex.map G.mir).or z.ks.V.ex,
        (x.ks.V.ec.map G.mir).or z.ks.V.ec, (x.ks.V.eh.map G.mir).or z.ks.V.eh⟩ := by
      rw [orElse hV.vx, orElse hV.vc, orElse hV.vh, orElse hV.ex, orElse hV.ec, orElse hV.eh, hR.V]
    rw [← e]
    have e1 := hk.kind
    have e2 := hk.sym
    have e3 := hk.Za
    have e4 := hk.Zb
    have e5 := hk.a
    have e6 := hk.vnuc
    have e7 := hk.scale
    have e8 := hk.alpha
    have f1 := hR.n
    have f2 := hR.veff
    have f3 := hR.vext
    have f4 := hR.Q
    have f5 := hR.E
    have f6 := hR.u
    rw [hn] at f1
    rw [hve] at f2
    rw [hvx] at f3
    obtain ⟨⟨_, _, _, _, _, _, _, _, _, _, _, _, _, _, _, _, _, _⟩, _⟩ := y'
    dsimp only at e1 e2 e3 e4 e5 e6 e7 e8 f1 f2 f3 f4 f5 f6 ⊢
    subst e1 e2 e3 e4 e5 e6 e7 e8 f1 f2 f3 f4 f5 f6
    rfl
  · have hv := hT.v.vp
    obtain ⟨s, vh, ho, vp, rfl, -⟩ := hz
    have e := hk.v
    dsimp only at e
    rw [e] at hv ⊢
    dsimp only at hv ⊢
    subst hv
    cases hx : x.v.vp with
    | none => simp only [hvp hx, Option.map_none, Option.none_or]
    | some u => rfl

/-- A step of the fragments that are calculated, then `mirrorAB`. -/
theorem onMirror {b ρ : Prop} {S : Part G r c p} {y : Frag G r c p} (h : Short b ρ S y) {f : Frag G r c p → Py (Frag G r c p)}
    (hT : Tw ρ S.fa y → Py.Rel (Tw True) (f S.fa) (f y)) (hk : ∀ x', f y = .ok x' → Keeps y x')
    (hvp : ∀ x, f S.fa = .ok x → x.v.vp = none → S.fb.v.vp = none) :
    Py.Rel (R True True) (onKSab f S >>= mirrorIf) (onKSab f (off S y) >>= mirrorIf) := by
  have hT := hT h.twins
  have e1 : onKSab f S = S.mapA f := by simp [onKSab, h.on]
  have e2 : onKSab f (off S y) = (off S y).mapAll f := rfl
  rw [e1, e2, mapA_none h.fAB, Part.mapAll, mapA_none (P := off S y) h.fAB]
  change Py.Rel _ _ (((f S.fa >>= fun x => pure { off S y with fa := x }) >>= fun P => P.mapB f) >>= mirrorIf)
  revert hT hvp
  cases f S.fa with
  | error e => exact fun _ _ => .error e
  | ok x =>
    intro hvp hT
    change Py.Rel _ (mirrorIf { S with fa := x }) (mapB f { off S y with fa := x } >>= mirrorIf)
    rw [mapB_none (P := { off S y with fa := x }) h.fAB]
    change Py.Rel _ _ ((f y >>= _) >>= mirrorIf)
    revert hT hk
    cases f y with
    | error e => intro hk hT; cases hT
    | ok y' =>
      intro hk hT
      cases hT with
      | ok hT =>
        obtain ⟨z', hz, ha⟩ := mirrorOf_alike hT h.alike (hk _ rfl) (hvp _ rfl)
        have e3 : mirrorIf { S with fa := x } = .ok { S with fa := x, fb := z' } := by
          unfold mirrorIf mirrorAB
          dsimp only
          rw [if_pos h.on, hz, h.fAB]
          rfl
        rw [e3]
        exact .ok ⟨y', rfl, { h with twins := hT, alike := ha }⟩

end Mirror

section KohnSham
variable {A B : KS G r c p}

theorem setEffectivePotential_ok (h : A.setEffectivePotential = .ok B) :
    ∃ v s, B = { A with veff := some v, solver := s } ∧ A.vext.isSome := by
  unfold KS.setEffectivePotential at h
  obtain ⟨x, hx, h⟩ := Py.bind_eq_ok.1 h
  obtain ⟨_, -, h⟩ := Py.bind_eq_ok.1 h
  obtain ⟨s, -, h⟩ := Py.bind_eq_ok.1 h
  refine ⟨_, s, (Except.ok.inj h).symm, ?_⟩
  cases hv : A.vext with
  | none => rw [hv] at hx; cases hx
  | some v => rfl

theorem calcDensity_ok {d : Fin r × Fin c → Option (KS.Found G)} {q} (h : A.calcDensity d = .ok q) : ∃ s, q.1 = { A with solver := s } := by
  unfold KS.calcDensity at h
  obtain ⟨s, -, h⟩ := Py.bind_eq_ok.1 h
  obtain ⟨_, -, h⟩ := Py.bind_eq_ok.1 h
  exact ⟨s, by rw [← Except.ok.inj h]⟩

theorem calcChempot_ok (h : A.calcChempot = .ok B) : ∃ u ho, B = { A with u := u, homo := ho } := by
  unfold KS.calcChempot at h
  obtain ⟨_, -, h⟩ := Py.bind_eq_ok.1 h
  obtain ⟨_, -, h⟩ := Py.bind_eq_ok.1 h
  exact ⟨_, _, (Except.ok.inj h).symm⟩

theorem calcHxc_ok {F : Functionals G p} (h : A.calcHxc F = .ok B) : ∃ v V, B = { A with vhxc := v, V := V } ∧ Mono A.V V := by
  unfold KS.calcHxc at h
  obtain ⟨C, hC, h⟩ := Py.bind_eq_ok.1 h
  have : ∃ v V, C = { A with vhxc := v, V := V } ∧ Mono A.V V := by
    unfold KS.rawHxc at hC
    split at hC
    · exact ⟨_, _, (Except.ok.inj hC).symm, .refl _⟩
    · obtain ⟨_, -, hC⟩ := Py.bind_eq_ok.1 hC
      obtain ⟨_, -, hC⟩ := Py.bind_eq_ok.1 hC
      obtain ⟨_, -, hC⟩ := Py.bind_eq_ok.1 hC
      obtain ⟨_, -, hC⟩ := Py.bind_eq_ok.1 hC
      exact ⟨_, _, (Except.ok.inj hC).symm, ⟨nofun, nofun, nofun, id, id, id⟩⟩
  obtain ⟨v, V, rfl, hV⟩ := this
  obtain ⟨_, -, h⟩ := Py.bind_eq_ok.1 h
  have h := Except.ok.inj h
  split at h
  · exact ⟨_, V, h.symm, hV⟩
  · exact ⟨_, V, h.symm, hV⟩

theorem energy_ok {F : Functionals G p} (h : A.energy F = .ok B) : ∃ E V, B = { A with E := E, V := V } ∧ Mono A.V V := by
  unfold KS.energy at h
  obtain ⟨q, -, h⟩ := Py.bind_eq_ok.1 h
  obtain ⟨_, _, _, _⟩ := q
  dsimp only at h
  split at h
  · obtain ⟨_, -, h⟩ := Py.bind_eq_ok.1 h
    obtain ⟨_, -, h⟩ := Py.bind_eq_ok.1 h
    exact ⟨_, _, (Except.ok.inj h).symm, .refl _⟩
  · obtain ⟨_, -, h⟩ := Py.bind_eq_ok.1 h
    obtain ⟨_, -, h⟩ := Py.bind_eq_ok.1 h
    obtain ⟨_, -, h⟩ := Py.bind_eq_ok.1 h
    obtain ⟨_, -, h⟩ := Py.bind_eq_ok.1 h
    obtain ⟨_, -, h⟩ := Py.bind_eq_ok.1 h
    obtain ⟨_, -, h⟩ := Py.bind_eq_ok.1 h
    obtain ⟨_, -, h⟩ := Py.bind_eq_ok.1 h
    exact ⟨_, _, (Except.ok.inj h).symm, ⟨nofun, nofun, nofun, nofun, nofun, nofun⟩⟩

end KohnSham

section Scf
variable {b ρ : Prop} {S : Part G r c p} {y : Frag G r c p} {T : Env G r c p} {W : KsScf.Workers G r c p} {o : PartScf.Options K}

theorem hxcUpdate (hE : MirrorEnv T) (h : Short True True S y) :
    Py.Rel (R True True) (onKSab (PartScf.hxcUpdate T.toFunctionals) S >>= mirrorIf)
      (onKSab (PartScf.hxcUpdate T.toFunctionals) (off S y) >>= mirrorIf) := by
  have keep : ∀ x x' : Frag G r c p, PartScf.hxcUpdate T.toFunctionals x = .ok x' →
      Keeps x x' ∧ x'.ks.n = x.ks.n ∧ x'.ks.veff = x.ks.veff ∧ x'.ks.vext = x.ks.vext := by
    intro x x' hx
    obtain ⟨k, hk, hx⟩ := Py.bind_eq_ok.1 hx
    obtain ⟨_, -, hx⟩ := Py.bind_eq_ok.1 hx
    obtain rfl := Except.ok.inj hx
    obtain ⟨v, V, rfl, hV⟩ := calcHxc_ok hk
    exact ⟨⟨rfl, rfl, rfl, rfl, rfl, rfl, rfl, rfl, hV, rfl⟩, rfl, rfl, rfl⟩
  refine onMirror h (fun hT => ?_) (fun x' hx => (keep _ _ hx).1) fun x hx hn => ?_
  · refine (relAnd (Q := fun x => Ready x) (R := Twins) ?_ fun x hx => ?_).mono fun x z hxz => { hxz.1 with ready := fun _ => hxz.2 }
    · unfold PartScf.hxcUpdate
      refine (hT.ks.calcHxc hE.toMirrorFunctionals).bind fun A B hAB => ?_
      rw [hT.ks.vhxc]
      refine (Py.Rel.need (R := fun _ _ => True) _ fun _ => trivial).bind fun _ _ _ => .pure ⟨hAB, hT.v⟩
    · obtain ⟨-, h1, h2, h3⟩ := keep _ _ hx
      unfold Ready
      rw [h1, h2, h3]
      exact hT.ready trivial
  · rw [(keep _ _ hx).1.v] at hn
    obtain ⟨s, vh, ho, vp, e, hvp⟩ := h.alike
    have hv := h.twins.v.vp
    rw [hn, e] at hv
    exact (hvp trivial).symm.trans hv

theorem guess (hG : MirrorInvariant G) (hW : MirrorWorkers W) (h : Short True (o.continuing = true) S y) :
    Py.Rel (R True True) (onKSab (PartScf.guess W o) S >>= mirrorIf) (onKSab (PartScf.guess W o) (off S y) >>= mirrorIf) := by
  have keep : ∀ x x' : Frag G r c p, PartScf.guess W o x = .ok x' → Keeps x x' ∧ ((o.continuing = true → Ready x) → Ready x') := by
    intro x x' hx
    unfold PartScf.guess at hx
    split at hx
    · rename_i hc
      split at hx
      · cases hx
      · obtain rfl := Except.ok.inj hx
        exact ⟨⟨rfl, rfl, rfl, rfl, rfl, rfl, rfl, rfl, .refl _, rfl⟩, fun h => h hc⟩
    · obtain ⟨k, hk, hx⟩ := Py.bind_eq_ok.1 hx
      obtain ⟨q, hq, hx⟩ := Py.bind_eq_ok.1 hx
      obtain ⟨k', n⟩ := q
      obtain ⟨k2, hk2, hx⟩ := Py.bind_eq_ok.1 hx
      obtain rfl := Except.ok.inj hx
      obtain ⟨v, s, rfl, -⟩ := setEffectivePotential_ok hk
      obtain ⟨s', e⟩ := calcDensity_ok hq
      dsimp only at e
      subst e
      obtain ⟨u, ho, rfl⟩ := calcChempot_ok hk2
      exact ⟨⟨rfl, rfl, rfl, rfl, rfl, rfl, rfl, rfl, .refl _, rfl⟩, fun _ => ⟨rfl, rfl, rfl⟩⟩
  refine onMirror h (fun hT => ?_) (fun x' hx => (keep _ _ hx).1) fun x hx hn => ?_
  · refine (relAnd (Q := fun x => Ready x) (R := Twins) ?_ fun x hx => (keep _ _ hx).2 hT.ready).mono
      fun x z hxz => { hxz.1 with ready := fun _ => hxz.2 }
    unfold PartScf.guess
    split
    · rw [hT.ks.n]
      cases S.fa.ks.n with
      | none => exact .error _
      | some n => exact .pure hT.toTwins
    · have h1 : Reflected { S.fa.ks with vext := some fun _ _ => 0, vhxc := some fun _ _ => 0 }
          { y.ks with vext := some fun _ _ => 0, vhxc := some fun _ _ => 0 } := { hT.ks with vext := rfl, vhxc := rfl }
      refine h1.setEffectivePotential.bind fun A B h => (h.calcDensity hG (hW A B h _)).bind fun u w huw => ?_
      obtain ⟨h2, h3, -⟩ := huw
      obtain ⟨A', n⟩ := u
      obtain ⟨B', n'⟩ := w
      dsimp only at h2 h3
      subst h3
      have h4 : Reflected { A' with n := some n } { B' with n := some (G.mirCols n) } := { h2 with n := rfl }
      exact h4.calcChempot.bind fun A B h => .pure ⟨h, hT.v⟩
  · rw [(keep _ _ hx).1.v] at hn
    obtain ⟨s, vh, ho, vp, e, hvp⟩ := h.alike
    have hv := h.twins.v.vp
    rw [hn, e] at hv
    exact (hvp trivial).symm.trans hv

theorem fragment (hG : MirrorInvariant G) (hE : MirrorEnv T) (hW : MirrorWorkers W) (dif : Fl K) {vp : G.Cols p}
    (hvp : G.mirCols vp = vp) (hsome : S.fa.v.vp.isSome) (h : Short b True S y) :
    Py.Rel (R True True) (onKSab (PartScf.fragment T.toFunctionals W o dif vp) S >>= mirrorIf)
      (onKSab (PartScf.fragment T.toFunctionals W o dif vp) (off S y) >>= mirrorIf) := by
  have keep : ∀ x x' : Frag G r c p, PartScf.fragment T.toFunctionals W o dif vp x = .ok x' → Keeps x x' ∧ (Ready x → Ready x') := by
    intro x x' hx
    unfold PartScf.fragment at hx
    obtain ⟨f, hf, hx⟩ := Py.bind_eq_ok.1 hx
    have hf : ∃ v, f = ⟨{ x.ks with vext := v }, x.v⟩ ∧ (x.ks.vext.isSome → v.isSome) := by
      unfold external at hf
      split at hf
      · obtain rfl := Except.ok.inj hf
        exact ⟨_, rfl, id⟩
      · split at hf
        · exact ⟨_, (Except.ok.inj hf).symm, fun _ => rfl⟩
        · obtain ⟨v, -, hf⟩ := Py.bind_eq_ok.1 hf
          exact ⟨_, (Except.ok.inj hf).symm, fun _ => rfl⟩
    obtain ⟨v, rfl, hv⟩ := hf
    obtain ⟨k, hk, hx⟩ := Py.bind_eq_ok.1 hx
    obtain ⟨q, hq, hx⟩ := Py.bind_eq_ok.1 hx
    obtain ⟨k', n⟩ := q
    obtain ⟨k2, hk2, hx⟩ := Py.bind_eq_ok.1 hx
    obtain ⟨_, -, hx⟩ := Py.bind_eq_ok.1 hx
    obtain ⟨_, -, hx⟩ := Py.bind_eq_ok.1 hx
    obtain ⟨k3, hk3, hx⟩ := Py.bind_eq_ok.1 hx
    obtain rfl := Except.ok.inj hx
    obtain ⟨_, s, rfl, -⟩ := setEffectivePotential_ok hk
    obtain ⟨s', e⟩ := calcDensity_ok hq
    dsimp only at e
    subst e
    obtain ⟨u, ho, rfl⟩ := calcChempot_ok hk2
    obtain ⟨E, V, rfl, hV⟩ := energy_ok hk3
    exact ⟨⟨rfl, rfl, rfl, rfl, rfl, rfl, rfl, rfl, hV, rfl⟩, fun h => ⟨rfl, rfl, hv h.2.2⟩⟩
  refine onMirror h (fun hT => ?_) (fun x' hx => (keep _ _ hx).1) fun x hx hn => ?_
  · refine (relAnd (Q := fun x => Ready x) (R := Twins) ?_ fun x hx => (keep _ _ hx).2 (hT.ready trivial)).mono
      fun x z hxz => { hxz.1 with ready := fun _ => hxz.2 }
    unfold PartScf.fragment
    refine Py.Rel.bind (R := Twins) ?_ fun x z hxz => ?_
    · unfold external
      rw [hT.v.frozen]
      split
      · exact .pure hT.toTwins
      · split
        · exact .pure ⟨{ hT.ks with vext := congrArg some hvp.symm }, hT.v⟩
        · rw [hT.v.vp]
          refine (relAttr (R := fun x y => y = G.mirCols x) _ fun _ => rfl).bind fun v v' hv => .pure ?_
          subst hv
          exact ⟨{ hT.ks with vext := rfl }, hT.v⟩
    · refine hxz.ks.setEffectivePotential.bind fun A B h => (h.calcDensity hG (hW A B h _)).bind fun u w huw => ?_
      obtain ⟨h2, h3, -⟩ := huw
      obtain ⟨A', n⟩ := u
      obtain ⟨B', n'⟩ := w
      dsimp only at h2 h3
      subst h3
      refine h2.calcChempot.bind fun A B h => ?_
      rw [h.alpha, h.n]
      refine (Py.Rel.of_eq rfl).bind fun α α' hα => ?_
      subst hα
      refine (Py.Rel.need (R := fun x y => y = G.mirCols x) _ fun _ => rfl).bind fun m m' hm => ?_
      subst hm
      have h4 : Reflected { A with n := some (KsScf.mix α m n) } { B with n := some (KsScf.mix α (G.mirCols m) (G.mirCols n)), alpha := A.alpha } :=
        { h with n := rfl, alpha := rfl }
      exact Py.Rel.bind (f := fun ks => pure (⟨ks, x.v⟩ : Frag G r c p)) (g := fun ks => pure (⟨ks, z.v⟩ : Frag G r c p))
        (h4.energy hG hE.toMirrorFunctionals) fun A B h => .pure ⟨h, hxz.v⟩
  · rw [(keep _ _ hx).1.v] at hn
    rw [hn] at hsome
    cases hsome

/-- Options that treat both fragments alike. -/
def _root_.Verif.Spec.EqualTreatment (o : PartScf.Options K) : Prop :=
  o.freezeA = o.freezeB ∧ ∀ x y, o.alpha = [x, y] → x = y

theorem setup (ho : EqualTreatment o) (h : Short True ρ S y) :
    Py.Rel (R True ρ) (PartScf.setup o S) (PartScf.setup o (off S y)) := by
  have main : ∀ x, R True ρ (setup.go o S x x) (setup.go o (off S y) x x) := by
    intro x
    refine ⟨equip o.freezeB x y, ?_, { h with fAB := ?_, twins := ?_, alike := ?_ }⟩
    · unfold setup.go off
      simp only [h.fAB]
    · simp only [setup.go, h.fAB, Option.map_none]
    · have hT := h.twins
      exact { ks := { hT.ks with alpha := rfl }, v := { hT.v with frozen := congrArg some ho.1.symm }, ready := hT.ready }
    · obtain ⟨s, vh, ho, vp, rfl, hV⟩ := h.alike
      exact ⟨_, _, _, _, rfl, hV⟩
  unfold PartScf.setup
  split
  · exact .pure (main _)
  · rename_i u w e
    obtain rfl := ho.2 u w e
    exact .pure (main _)
  · exact .error _

theorem start (hG : MirrorInvariant G) (hW : MirrorWorkers W) (ho : EqualTreatment o) (h : Short True (o.continuing = true) S y) :
    Py.Rel (R True True) (PartScf.start W o S) (PartScf.start W o (off S y)) := by
  unfold PartScf.start
  refine (setup ho h).bind fun S N hS => ?_
  obtain ⟨y, rfl, h⟩ := hS
  rw [← bind_assoc (onKSab _ S), ← bind_assoc (onKSab _ (off S y))]
  refine (guess hG hW h).bind fun S N hS => ?_
  obtain ⟨y, rfl, h⟩ := hS
  exact promolecule o h

theorem pass (hG : MirrorInvariant G) (hE : MirrorEnv T) (hW : MirrorWorkers W) (dif : Fl K) (h : Short True True S y) :
    Py.Rel (R True True) (PartScf.pass T W o dif S) (PartScf.pass T W o dif (off S y)) := by
  unfold PartScf.pass
  rw [← bind_assoc (onKSab _ S), ← bind_assoc (onKSab _ (off S y))]
  refine (hxcUpdate hE h).bind fun S N hS => ?_
  obtain ⟨y, rfl, h⟩ := hS
  have hp : Py.Rel (fun u w => R False True u.1 w.1 ∧ w.2 = u.2 ∧ G.mirCols u.2 = u.2 ∧ u.1.fa.v.vp.isSome)
      (PartScf.potential T S) (PartScf.potential T (off S y)) := by
    unfold PartScf.potential
    change Py.Rel _ _ (if S.opt.isolated then _ else _)
    split
    · refine (Py.Rel.of_eq rfl).bind fun _ _ _ => ?_
      have e1 : onKSab (fun f : Frag G r c p => pure ⟨f.ks, { f.v with vp := some fun _ _ => 0 }⟩) S =
          pure { S with fa := ⟨S.fa.ks, { S.fa.v with vp := some fun _ _ => 0 }⟩ } := by
        unfold onKSab
        rw [if_pos h.on]
        exact mapA_none h.fAB _
      have e2 : onKSab (fun f : Frag G r c p => pure ⟨f.ks, { f.v with vp := some fun _ _ => 0 }⟩) (off S y) =
          pure { off S y with
            fa := ⟨S.fa.ks, { S.fa.v with vp := some fun _ _ => 0 }⟩, fb := ⟨y.ks, { y.v with vp := some fun _ _ => 0 }⟩ } := by
        change Part.mapAll _ _ = _
        rw [mapAll_none (P := off S y) h.fAB]
        rfl
      rw [e1, e2]
      refine .pure ⟨⟨⟨y.ks, { y.v with vp := some fun _ _ => 0 }⟩, rfl, { h with twins := ?_, alike := ?_ }⟩, rfl, rfl, rfl⟩
      · have hT := h.twins
        exact { ks := hT.ks, v := { hT.v with vp := rfl }, ready := hT.ready }
      · obtain ⟨s, vh, ho, vp, rfl, hV⟩ := h.alike
        exact ⟨_, _, _, _, rfl, False.elim⟩
    · refine (partitionPotential hE h).mono fun u w huw => ⟨?_, huw.2⟩
      obtain ⟨⟨y, e, h⟩, -⟩ := huw
      exact ⟨y, e, h.weaken⟩
  refine hp.bind fun u w huw => ?_
  obtain ⟨S, vp⟩ := u
  obtain ⟨N, vp'⟩ := w
  obtain ⟨⟨y, h1, h⟩, h2, h3, h4⟩ := huw
  dsimp only at h1 h2 h3 h4 h
  subst h1 h2
  dsimp only
  rw [← bind_assoc (onKSab _ S), ← bind_assoc (onKSab _ (off S y))]
  refine (fragment hG hE hW dif h3 h4 h).bind fun S N hS => ?_
  obtain ⟨y, rfl, h⟩ := hS
  refine (promolecule o h).bind fun S N hS => ?_
  obtain ⟨y, rfl, h⟩ := hS
  exact energy T h

/-- Loop states of the two runs. -/
structure RS (s t : PartScf.State G r c p) : Prop where
  P : R True True s.P t.P
  oldE : t.oldE = s.oldE
  oldNf : t.oldNf = s.oldNf
  dif : t.dif = s.dif
  it : t.it = s.it
  failures : t.failures = s.failures

theorem body (hG : MirrorInvariant G) {T : ℕ → Env G r c p} (hE : ∀ i, MirrorEnv (T i)) {W : ℕ → KsScf.Workers G r c p}
    (hW : ∀ i, MirrorWorkers (W i)) {s t : PartScf.State G r c p} (h : RS s t) :
    Py.Rel (fun u w => RS u.1 w.1 ∧ w.2 = u.2) (PartScf.body T W o s) (PartScf.body T W o t) := by
  obtain ⟨S, _, _, _, _, _⟩ := s
  obtain ⟨N, e1, e2, e3, e4, e5⟩ := t
  obtain ⟨⟨y, h1, h⟩, h2, h3, h4, h5, h6⟩ := h
  dsimp only at h1 h2 h3 h4 h5 h6 h
  subst h1 h2 h3 h4 h5 h6
  unfold PartScf.body
  dsimp only
  have ha : ∀ (S : Part G r c p) (y), Short True True S y → PartScf.avoid e4 S = S ∧ PartScf.avoid e4 (off S y) = off S y := by
    intro S y h
    unfold PartScf.avoid
    exact ⟨if_neg fun hk => h.kin.1 hk.1, if_neg fun hk => h.kin.1 hk.1⟩
  rw [(ha S y h).1, (ha S y h).2]
  refine (pass hG (hE e4) (hW e4) e3 h).bind fun S N hS => ?_
  obtain ⟨y, rfl, h⟩ := hS
  refine (Py.Rel.of_eq rfl).bind fun a a' ha => (Py.Rel.of_eq rfl).bind fun q q' hq => ?_
  subst ha hq
  refine (Py.Rel.of_eq rfl).bind fun d d' hd => (Py.Rel.of_eq rfl).bind fun m m' hm => ?_
  subst hm
  subst hd
  have hc : ∀ N : Part G r c p, N.opt.kin = S.opt.kin → checkInversion N e5 = pure e5 := by
    intro N hN
    unfold checkInversion
    exact if_neg fun hk => h.kin.1 (hN ▸ hk.1)
  rw [hc S rfl, hc (off S y) rfl]
  exact .pure ⟨⟨⟨y, rfl, h⟩, rfl, rfl, rfl, rfl, rfl⟩, rfl⟩

theorem loop {σ : Type} {Q : σ → σ → Prop} {f g : σ → Py (σ × Fl K)} (auto : Bool) (etol : K)
    (h : ∀ a b, Q a b → Py.Rel (fun x y => Q x.1 y.1 ∧ y.2 = x.2) (f a) (g b)) : ∀ (left : ℕ) (dif : Fl K) (a b : σ), Q a b →
    Py.Rel (fun x y => Q x.1 y.1 ∧ y.2 = x.2) (PartScf.loop f auto etol left dif a) (PartScf.loop g auto etol left dif b)
  | left, dif, a, b, hab => by
    unfold PartScf.loop
    split
    · split
      · exact .error _
      · exact .ok ⟨hab, rfl⟩
    · cases left with
      | zero => exact .ok ⟨hab, rfl⟩
      | succ left =>
        refine Py.Rel.bind (h a b hab) fun x y hxy => ?_
        obtain ⟨x, u⟩ := x
        obtain ⟨y, u'⟩ := y
        obtain ⟨h1, h2⟩ := hxy
        dsimp only at h1 h2
        subst h2
        refine Py.Rel.bind (loop auto etol h left _ x y h1) fun z z' hz => .pure ⟨hz.1, ?_⟩
        simp only [hz.2]

end Scf

end C110

/-- C110: for two equal fragments without ensemble, and any functional part except inversion and the two-orbital functional,
`scf` with `ab_sym` and `scf` without it do the same: both raise the same exception, or both return after the same number of
passes with the same changes and warnings, with the same attributes of the partition and of its fragments.  The run
without `ab_sym` stays mirror symmetric by itself. -/
theorem C110_scf_partial (hG : MirrorInvariant G) {T : ℕ → Env G r c p} (hE : ∀ i, MirrorEnv (T i)) {W : ℕ → KsScf.Workers G r c p}
    (hW : ∀ i, MirrorWorkers (W i)) {o : PartScf.Options K} (ho : EqualTreatment o) {P : Part G r c p} (hP : SymmetricPart P)
    (hk : P.opt.kin ≠ .inversion ∧ P.opt.kin ≠ .twoorbital)
    (hc : o.continuing = true → P.fa.ks.n.isSome ∧ P.fa.ks.veff.isSome ∧ P.fa.ks.vext.isSome) :
    Py.Rel (fun s n => Shortcut s.1 n.1 ∧ SymmetricPart n.1 ∧ n.2 = s.2)
      (scf T W o { P with opt := { P.opt with abSym := true } }) (scf T W o { P with opt := { P.opt with abSym := false } }) := by
  have h0 : C110.Short True (o.continuing = true) { P with opt := { P.opt with abSym := true } } P.fb :=
    ⟨rfl, hk, hP.fAB, hP.nuclei, hP.frac, hP.nf, hP.vp, { hP.twins with ready := hc }, C110.alike_self _⟩
  unfold scf
  refine (C110.start hG (hW 0) ho h0).bind fun S N hS => ?_
  obtain ⟨y, rfl, h⟩ := hS
  refine (Py.Rel.of_eq rfl).bind fun nf nf' hn => ?_
  subst hn
  unfold run
  refine Py.Rel.bind (C110.loop (Q := C110.RS) _ _ (fun s t h => C110.body hG hE hW h) _ _ _ _
    ⟨⟨y, rfl, h⟩, rfl, rfl, rfl, rfl, rfl⟩) fun u w huw => ?_
  obtain ⟨⟨S, _, _, _, _, _⟩, log⟩ := u
  obtain ⟨⟨N, _, _, _, _, _⟩, log'⟩ := w
  obtain ⟨⟨⟨y, h1, h⟩, -⟩, h2⟩ := huw
  dsimp only at h1 h2 h
  subst h1 h2
  refine .pure ⟨⟨h.on, rfl, ?_, ?_⟩, ⟨h.fAB, h.twins.toTwins, h.nuclei, h.frac, h.nf, h.vp⟩, rfl⟩
  · obtain ⟨s, vh, ho, vp, rfl, hV⟩ := h.alike
    rfl
  · obtain ⟨s, vh, ho, vp, rfl, hV⟩ := h.alike
    change ({ S.fb.v with vp := vp } : FragV G p) = S.fb.v
    rw [hV trivial]

section Example

abbrev C110_G : Grid ℚ := C109_grid 1

/-- Two non-interacting electrons at one of two points. -/
def C110_ks (Za Zb : ℚ) : KS C110_G 1 1 1 :=
  { kind := .ni, sym := false, Za, Zb, a := 1, vnuc := fun _ => ![-Za - Zb / 2, -Zb - Za / 2], scale := some 1
    solver := fun _ => { Nmo := 1, N := 2, m := 0, pol := 1 } }

/-- One such fragment at each nucleus. -/
def C110_P (b : Bool) : Part C110_G 1 1 1 :=
  { opt := { hxc := .exact, kin := .none, interaction := .ni, abSym := b }
    Za := 1, Zb := 1, a := 1, va := ![-1, -1 / 2], vb := ![-1 / 2, -1]
    fa := ⟨C110_ks 1 0, {}⟩, fb := ⟨C110_ks 0 1, {}⟩ }

def C110_T : Env C110_G 1 1 1 :=
  { C109_F 1 with
    hartree1 := fun _ => .error .valueError, kinetic := fun _ => .error .valueError, invert := fun _ => .error .valueError
    twoOrbitalPot := fun _ => .error .valueError, twoOrbitalEnergy := fun _ => .error .valueError
    sqrt := id, erf := id, dErf := id, elap := 1 }

def C110_o (alpha : List ℚ) : PartScf.Options ℚ := { etol := 1 / 10, maxIter := 1, alpha }

/-- The density of fragment B, the partition potential and the number of passes. -/
def C110_run (b : Bool) (alpha : List ℚ) : Option (ℕ × Option (ℚ × ℚ) × Option (ℚ × ℚ)) :=
  (scf (fun _ => C110_T) (fun _ => C109_W 1) (C110_o alpha) (C110_P b)).toOption.map fun x =>
    (x.2.1.length, x.1.fb.ks.n.map fun n => (n 0 0, n 0 1), x.1.vp.map fun v => (v 0 0, v 0 1))

theorem C110_mir (u w : ℚ) : C110_G.mir ![u, w] = ![w, u] := C109_mir 1 _

theorem C110_symmetric (b : Bool) : SymmetricPart (C110_P b) := by
  refine ⟨rfl, ⟨⟨rfl, rfl, rfl, rfl, rfl, fun w => ⟨rfl, rfl, rfl, rfl, rfl, rfl, rfl, rfl, .none⟩, ?_, rfl, rfl, rfl, rfl, rfl, rfl, rfl,
    rfl, rfl, rfl, rfl⟩, ⟨rfl, rfl, rfl, rfl, rfl, rfl, rfl, rfl, rfl, rfl, rfl, rfl, rfl⟩⟩, (C110_mir _ _).symm, rfl, nofun, nofun⟩
  funext s
  change ![-0 - 1 / 2, -1 - 0 / 2] = C110_G.mir ![-1 - 0 / 2, -0 - 1 / 2]
  rw [C110_mir]

theorem C110_env : MirrorEnv C110_T := by
  refine { exchange := fun _ => rfl, correlation := fun _ => rfl, hartree := fun _ => rfl, kinetic := fun _ => rfl, elap := fun k l => ?_, weight := fun _ => rfl }
  change (1 : Matrix C110_G.Ix C110_G.Ix ℚ) _ _ = (1 : Matrix C110_G.Ix C110_G.Ix ℚ) _ _
  have : C110_G.mirIx k = C110_G.mirIx l ↔ k = l :=
    ⟨fun h => by rw [← C110_G.mirIx_mirIx k, h, C110_G.mirIx_mirIx], fun h => by rw [h]⟩
  simp only [Matrix.one_apply, this]

/-- The hypotheses can be met, and the two runs agree. -/
example : MirrorInvariant C110_G ∧ MirrorEnv C110_T ∧ MirrorWorkers (C109_W 1) ∧ EqualTreatment (C110_o [1 / 2]) ∧
    SymmetricPart (C110_P false) ∧ C110_run true [1 / 2] = some (1, some (982 / 1885, 2788 / 1885), some (-3 / 5, -3 / 5)) ∧ C110_run false [1 / 2] = some (1, some (982 / 1885, 2788 / 1885), some (-3 / 5, -3 / 5)) := by
  refine ⟨fun f => ?_, C110_env, C109_workers_example 1, ⟨rfl, fun _ _ h => by simp [C110_o] at h⟩, C110_symmetric false, by decide +kernel, by decide +kernel⟩
  rw [C109_mir]
  simp [Grid.integ, Fin.sum_univ_two, add_comm]

/-- Different mixing parameters for the two fragments: with `ab_sym` the second one is not used. -/
theorem C110_refuted_alpha : SymmetricPart (C110_P true) ∧ C110_run true [1 / 2, 1] = some (1, some (982 / 1885, 2788 / 1885), some (-3 / 5, -3 / 5)) ∧ C110_run false [1 / 2, 1] = some (1, some (242 / 377, 512 / 377), some (-3 / 5, -3 / 5)) :=
  ⟨C110_symmetric true, by decide +kernel, by decide +kernel⟩

/-- A component with energy `e`. -/
def C110_f (e Za Zb : ℚ) : Frag C110_G 1 1 1 :=
  ⟨{ C110_ks Za Zb with scale := some (1 / 2), E := some ⟨fun _ => .fin 0, fun _ => .fin 0, .fin 0, [], 0, 0, none, none, 0, 0, .fin e, 0, .fin e⟩ }, {}⟩

/-- An ensemble of two components of equal weight in each fragment. -/
def C110_E (b : Bool) : Part C110_G 1 1 1 :=
  { C110_P b with
    opt := { hxc := .exact, kin := .none, interaction := .ni, abSym := b, isolated := true }
    fa := C110_f 1 1 0, fb := C110_f 1 0 1, fAB := some (C110_f 3 1 0, C110_f 3 0 1) }

/-- In an ensemble the energy of fragment B differs: without `ab_sym` it is twice that of the second component (C42). -/
theorem C110_refuted_ensemble : Twins (C110_E true).fa (C110_E true).fb ∧ (∃ A B, (C110_E true).fAB = some (A, B) ∧ Twins A B) ∧
    (((C110_E true).energy C110_T).toOption.bind fun P => P.E.map (·.Eb)) = some (.fin 2) ∧
    (((C110_E false).energy C110_T).toOption.bind fun P => P.E.map (·.Eb)) = some (.fin 3) := by
  have h : ∀ e, Twins (C110_f e 1 0) (C110_f e 0 1) := by
    intro e
    exact ⟨{ (C110_symmetric true).twins.ks with scale := rfl, E := rfl }, (C110_symmetric true).twins.v⟩
  exact ⟨h 1, ⟨_, _, rfl, h 3⟩, by decide +kernel, by decide +kernel⟩

/-- Fragments with two solvers and the given HOMOs. -/
def C110_I (a b : Fin 2 × Fin 1 → Option ℚ) : Part C110_G 2 1 1 :=
  { opt := { kin := .inversion }, Za := 1, Zb := 1, a := 1, va := ![-1, -1 / 2], vb := ![-1 / 2, -1]
    fa := ⟨{ kind := .ni, sym := false, Za := 1, Zb := 0, a := 1, vnuc := fun _ => ![-1, -1 / 2], homo := a
             solver := fun w => { Nmo := 1, N := 2, m := w.1.1, pol := 1 } }, {}⟩
    fb := ⟨{ kind := .ni, sym := false, Za := 0, Zb := 1, a := 1, vnuc := fun _ => ![-1 / 2, -1], homo := b
             solver := fun w => { Nmo := 1, N := 2, m := w.1.1, pol := 1 } }, {}⟩ }

/-- Inversion: with `ab_sym` the HOMOs of B are not known and the reference is the highest HOMO of A, `-1`; without it the last
HOMO of B, `-3`, replaces it (C45). -/
theorem C110_refuted_inversion :
    (C110_I (fun w => some (-1 - 2 * w.1.1)) fun _ => none).inversionU = -1 ∧
    (C110_I (fun w => some (-1 - 2 * w.1.1)) fun w => some (-1 - 2 * w.1.1)).inversionU = -3 := by
  decide +kernel

end Example

end Verif
