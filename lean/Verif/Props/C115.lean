import Verif.Props.C110
import Verif.Props.C113
import Verif.Model.Construct

/-! # C115: which fragment is called A does not matter -/

namespace Verif
open Spec Part PartScf
variable {K : Type} [_root_.Field K] [LinearOrder K] [IsStrictOrderedRing K] [FloorRing K]
variable {G : Grid K} {r c p : ℕ}

/-- A number stays, an array is mirrored. -/
def Spec.mirTot : Tot G → Tot G
  | .num x => .num x
  | .vec f => .vec fun k => f (G.mirIx k)

/-- The energies with the names of the fragments exchanged. -/
def Spec.exchangedEnergy (E : PartEnergy G p) : PartEnergy G p :=
  { E with
    Ea := E.Eb, Eb := E.Ea, evalsA := E.evalsB, evalsB := E.evalsA
    EpKin := mirTot E.EpKin, Ep := mirTot E.Ep, Et := mirTot E.Et, E := mirTot E.E }

/-- The same molecule seen from the other side: what was fragment A is now fragment B, all fields are mirrored, all
numbers are the same. -/
structure Spec.Exchanged (P Q : Part G r c p) : Prop where
  opt : Q.opt = P.opt
  Za : Q.Za = P.Zb
  Zb : Q.Zb = P.Za
  a : Q.a = P.a
  va : Q.va = G.mir P.vb
  vb : Q.vb = G.mir P.va
  fa : Twins P.fb Q.fa
  fb : Twins P.fa Q.fb
  single : P.fAB = none
  single' : Q.fAB = none
  naFrac : Q.naFrac = P.nbFrac.map G.mirCols
  nbFrac : Q.nbFrac = P.naFrac.map G.mirCols
  nf : Q.nf = P.nf.map G.mirCols
  vt : Q.vt = P.vt.map G.mirCols
  vh : Q.vh = P.vh.map G.mirCols
  vx : Q.vx = P.vx.map G.mirCols
  vc : Q.vc = P.vc.map G.mirCols
  vp : Q.vp = P.vp.map G.mirCols
  vpPot : Q.vpPot = P.vpPot.map G.mirCols
  vpKin : Q.vpKin = P.vpKin.map G.mirCols
  vpHxc : Q.vpHxc = P.vpHxc.map G.mirCols
  vpH : Q.vpH = P.vpH.map G.mirCols
  vpX : Q.vpX = P.vpX.map G.mirCols
  vpC : Q.vpC = P.vpC.map G.mirCols
  ex : Q.ex = P.ex
  ec : Q.ec = P.ec
  epsX : Q.epsX = P.epsX.map G.mir
  epsC : Q.epsC = P.epsC.map G.mir
  epDens : Q.epDens = P.epDens.map fun d => (G.mir d.1, G.mir d.2.1, G.mir d.2.2)
  Tsm : Q.Tsm = P.Tsm
  invTs : Q.invTs = P.invTs
  invInfo : Q.invInfo = P.invInfo
  avoidLoop : Q.avoidLoop = P.avoidLoop
  S : Q.S = P.S
  F : Q.F = P.F
  Ehcor : Q.Ehcor = P.Ehcor
  EpH : Q.EpH = P.EpH
  EpX : Q.EpX = P.EpX
  EpC : Q.EpC = P.EpC
  E : Q.E = P.E.map exchangedEnergy

/-- The options of `scf` with the names of the fragments exchanged. -/
def Spec.exchangedOptions (o : PartScf.Options K) : PartScf.Options K :=
  { o with alpha := o.alpha.reverse, freezeA := o.freezeB, freezeB := o.freezeA }

/-- Parameters that do not prefer one side of the molecule. -/
structure Spec.SidelessEnv (T : Env G r c p) : Prop extends MirrorEnv T where
  hartree1 : ∀ n, T.hartree1 (G.mir n) = (T.hartree1 n).map G.mir
  wi : ∀ k, G.wi (G.mirIx k) = G.wi k

theorem Py.Sim.of_rel {α β : Type} {R : α → β → Prop} {x : Py α} {y : Py β} (h : Py.Rel R x y) : Py.Sim R x y :=
  fun _ hx => h.ok_left hx

theorem Py.Sim.attrOf {α β : Type} {f : α → β} {x : Option α} {y : Option β} (h : y = x.map f) :
    Py.Sim (fun a b => b = f a) (Verif.attr x) (Verif.attr y) := by
  subst h
  exact .of_rel (C110.relAttr f fun _ => rfl)

theorem Py.Sim.needOf {α β : Type} {f : α → β} {x : Option α} {y : Option β} (h : y = x.map f) :
    Py.Sim (fun a b => b = f a) (KS.need x) (KS.need y) := by
  subst h
  exact .need f fun _ => rfl

theorem Py.Sim.same {α : Type} {x y : Py α} (h : y = x) : Py.Sim (fun a b => b = a) x y := by
  subst h
  exact .refl _

namespace C115

/-- `Exchanged`, for calculations with options for which the code treats both fragments alike. -/
structure X (ω : PartOpt) (P Q : Part G r c p) : Prop extends Exchanged P Q where
  options : P.opt = ω
  both : ω.abSym = false
  kin : ω.isolated = true ∨ ω.kin ≠ .inversion ∧ ω.kin ≠ .twoorbital

variable {ω : PartOpt}

theorem pair {P Q : Part G r c p} (h : X ω P Q) {f g f' g' : Frag G r c p → Py (Frag G r c p)}
    (hf : Twins P.fa Q.fb → Py.Sim Twins (f P.fa) (f' Q.fb)) (hg : Twins P.fb Q.fa → Py.Sim Twins (g P.fb) (g' Q.fa)) :
    Py.Sim (X ω) (P.mapA f >>= fun P => P.mapB g) (Q.mapA g' >>= fun Q => Q.mapB f') := by
  intro a ha
  rw [C110.mapA_none h.single] at ha
  obtain ⟨P1, h1, ha⟩ := Py.bind_eq_ok.1 ha
  obtain ⟨x, hx, h1⟩ := Py.bind_eq_ok.1 h1
  obtain rfl := Except.ok.inj h1
  rw [C110.mapB_none (P := { P with fa := x }) h.single] at ha
  obtain ⟨z, hz, ha⟩ := Py.bind_eq_ok.1 ha
  obtain rfl := Except.ok.inj ha
  obtain ⟨x', hx', hxx⟩ := hf h.fb x hx
  obtain ⟨z', hz', hzz⟩ := hg h.fa z hz
  refine ⟨{ Q with fa := z', fb := x' }, ?_, { h with fa := hzz, fb := hxx }⟩
  rw [C110.mapA_none h.single', hz']
  change Part.mapB f' { Q with fa := z' } = _
  rw [C110.mapB_none (P := { Q with fa := z' }) h.single', hx']
  rfl

theorem mapAll {P Q : Part G r c p} (h : X ω P Q) {f f' : Frag G r c p → Py (Frag G r c p)}
    (hf : ∀ x y, Twins x y → Py.Sim Twins (f x) (f' y)) : Py.Sim (X ω) (P.mapAll f) (Q.mapAll f') :=
  pair h (hf _ _) (hf _ _)

theorem onKSab {P Q : Part G r c p} (h : X ω P Q) {f f' : Frag G r c p → Py (Frag G r c p)}
    (hf : ∀ x y, Twins x y → Py.Sim Twins (f x) (f' y)) : Py.Sim (X ω) (PartScf.onKSab f P) (PartScf.onKSab f' Q) := by
  unfold PartScf.onKSab
  rw [h.opt, h.options, h.both]
  exact mapAll h hf

theorem mirrorIf {P Q : Part G r c p} (h : X ω P Q) : Py.Sim (X ω) (PartScf.mirrorIf P) (PartScf.mirrorIf Q) := by
  unfold PartScf.mirrorIf
  rw [h.opt, h.options, h.both]
  exact .pure h

theorem comps_eq {P : Part G r c p} (h : P.fAB = none) :
    P.compsA = [P.fa] ∧ P.compsB = [P.fb] ∧ P.comps = [P.fa, P.fb] ∧ P.energyCompsB = [P.fb] := by
  simp [comps, compsA, compsB, energyCompsB, h]

/-- Contributions of the two fragments to a sum. -/
theorem fold_pair {α β : Type} {P Q : Part G r c p} (h : X ω P Q) {R : α → α → Prop} {g g' : Frag G r c p → Py β} {m : β → β}
    {op : α → β → α} {f f' : α → Frag G r c p → Py α} (hf : ∀ a x, f a x = (g x).map (op a)) (hf' : ∀ a x, f' a x = (g' x).map (op a))
    {a b : α} (hop : ∀ u v, R (op (op a u) v) (op (op b (m v)) (m u)))
    (hg : ∀ x y, Twins x y → Py.Sim (fun u v => v = m u) (g x) (g' y)) :
    Py.Sim R (P.comps.foldlM f a) (Q.comps.foldlM f' b) := by
  rw [(comps_eq h.single).2.2.1, (comps_eq h.single').2.2.1]
  simp only [List.foldlM_cons, List.foldlM_nil, bind_pure, hf, hf']
  intro z hz
  obtain ⟨u, hu, hz⟩ := Py.bind_eq_ok.1 hz
  cases hA : g P.fa with
  | error e => rw [hA] at hu; cases hu
  | ok s =>
    rw [hA] at hu
    obtain rfl := Except.ok.inj hu
    cases hB : g P.fb with
    | error e => rw [hB] at hz; cases hz
    | ok t =>
      rw [hB] at hz
      obtain rfl := Except.ok.inj hz
      obtain ⟨_, hs, rfl⟩ := hg _ _ h.fb _ hA
      obtain ⟨_, ht, rfl⟩ := hg _ _ h.fa _ hB
      rw [hs, ht]
      exact ⟨_, rfl, hop s t⟩

section Steps
variable {P Q : Part G r c p}

theorem mir_mir (f : G.Fld) : G.mir (G.mir f) = f := by
  funext k
  simp only [Grid.mir, G.mirIx_mirIx]

theorem calcQ (h : X ω P Q) : Py.Sim (X ω) P.calcQ Q.calcQ := by
  unfold Part.calcQ
  refine (Py.Sim.attrOf h.nf).bind fun nf nf' hn => ?_
  subst hn
  refine mapAll h fun x y hT => ?_
  refine (Py.Sim.needOf hT.ks.n).bind fun n n' hn => (Py.Sim.same (congrArg KS.need hT.ks.scale)).bind fun s s' hs => .pure ?_
  subst hn hs
  exact ⟨{ hT.ks with Q := rfl, n := hT.ks.n, scale := hT.ks.scale }, hT.v⟩

theorem weighted {x y : Frag G r c p} (hT : Twins x y) : Py.Sim (fun a b => b = G.mirCols a) (Part.weighted [x]) (Part.weighted [y]) := by
  unfold Part.weighted
  simp only [List.foldlM_cons, List.foldlM_nil, bind_pure]
  refine (Py.Sim.needOf hT.ks.n).bind fun n n' hn => (Py.Sim.same (congrArg KS.need hT.ks.scale)).bind fun s s' hs => .pure ?_
  subst hn hs
  rfl

theorem calcProtomolecule (h : X ω P Q) : Py.Sim (X ω) P.calcProtomolecule Q.calcProtomolecule := by
  unfold Part.calcProtomolecule
  rw [(comps_eq h.single).1, (comps_eq h.single).2.1, (comps_eq h.single').1, (comps_eq h.single').2.1]
  intro z hz
  obtain ⟨na, ha, hz⟩ := Py.bind_eq_ok.1 hz
  obtain ⟨nb, hb, hz⟩ := Py.bind_eq_ok.1 hz
  obtain rfl := Except.ok.inj hz
  obtain ⟨_, ha', rfl⟩ := weighted h.fb _ ha
  obtain ⟨_, hb', rfl⟩ := weighted h.fa _ hb
  rw [ha', hb']
  refine ⟨_, rfl, { h with naFrac := ?_, nbFrac := ?_, nf := ?_ }⟩
  · rw [h.opt]
    exact congrArg some (C110.addFlip_mirCols _ _)
  · rw [h.opt]
    exact congrArg some (C110.addFlip_mirCols _ _)
  · refine congrArg some ?_
    rw [h.opt, C110.addFlip_mirCols, C110.addFlip_mirCols]
    funext j k
    exact add_comm _ _

theorem promolecule (o : PartScf.Options K) (h : X ω P Q) :
    Py.Sim (X ω) (PartScf.promolecule o P) (PartScf.promolecule (exchangedOptions o) Q) := by
  unfold PartScf.promolecule
  change Py.Sim (X ω) _ (if o.fromTarget then _ else _)
  split
  · exact calcQ h
  · exact (calcProtomolecule h).bind fun P Q h => calcQ h

theorem vpNuclear (h : X ω P Q) : Py.Sim (X ω) P.vpNuclear Q.vpNuclear := by
  unfold Part.vpNuclear
  refine mapAll h fun x y hT => .pure ⟨hT.ks, { hT.v with vpPot := congrArg some ?_ }⟩
  funext j k
  simp only [vextMol, hT.ks.vnuc, h.va, h.vb, Grid.mirCols, Grid.mir]
  rw [add_comm]

theorem vpOverlap (T : Env G r c p) (hG : MirrorInvariant G) (h : X ω P Q) : Py.Sim (X ω) (P.vpOverlap T) (Q.vpOverlap T) := by
  unfold Part.vpOverlap
  intro z hz
  obtain ⟨na, ha, hz⟩ := Py.bind_eq_ok.1 hz
  obtain ⟨nb, hb, hz⟩ := Py.bind_eq_ok.1 hz
  have ha := need_eq_ok.1 ha
  have hb := attr_eq_ok.1 hb
  have eS : (G.integ fun k => T.sqrt (tot (G.mirCols nb) k * tot (G.mirCols na) k)) = G.integ fun k => T.sqrt (tot na k * tot nb k) := by
    rw [← hG fun k => T.sqrt (tot na k * tot nb k)]
    congr 1
    funext k
    rw [mul_comm]
    rfl
  have ha' : KS.need Q.naFrac = .ok (G.mirCols nb) := by rw [h.naFrac, hb]; rfl
  have hb' : attr Q.nbFrac = .ok (G.mirCols na) := by rw [h.nbFrac, ha]; rfl
  rw [ha', hb']
  have red : ∀ {α β : Type} (a : α) (f : α → Py β), ((Except.ok a : Py α) >>= f) = f a := fun _ _ => rfl
  rw [red, red]
  dsimp only at hz ⊢
  rw [eS]
  refine pair (P := { P with S := some _, F := some _ }) (Q := { Q with S := some _, F := some _ }) { h with S := rfl, F := rfl }
    (fun hT => ?_) (fun hT => ?_) z hz
  · refine (Py.Sim.same (congrArg KS.need hT.ks.scale)).bind fun s s' hs => .pure ?_
    subst hs
    exact ⟨{ hT.ks with scale := hT.ks.scale }, { hT.v with dFdn := rfl }⟩
  · refine (Py.Sim.same (congrArg KS.need hT.ks.scale)).bind fun s s' hs => .pure ?_
    subst hs
    exact ⟨{ hT.ks with scale := hT.ks.scale }, { hT.v with dFdn := rfl }⟩

theorem ensCorHar (h : X ω P Q) {y : Py (Part G r c p)} : Py.Sim (X ω) P.ensCorHar y := by
  unfold Part.ensCorHar
  rw [h.single]
  exact .error

theorem hxcComponents {T : Env G r c p} (hE : SidelessEnv T) (h : X ω P Q) : Py.Sim (X ω) (P.hxcComponents T) (Q.hxcComponents T) := by
  unfold Part.hxcComponents
  refine (Py.Sim.attrOf h.nf).bind fun nf nf' hn => ?_
  subst hn
  refine (Py.Sim.of_map _ (R := fun x y => y = G.mirCols x) (fun _ => rfl) (hE.hartree nf)).bind fun vh vh' hvh =>
    (Py.Sim.of_map _ (R := fun x y => y = (x.1, G.mir x.2.1, G.mirCols x.2.2)) (fun _ => rfl) (hE.exchange nf)).bind fun x x' hx =>
    (Py.Sim.of_map _ (R := fun x y => y = (x.1, G.mir x.2.1, G.mirCols x.2.2)) (fun _ => rfl) (hE.correlation nf)).bind fun q q' hq => ?_
  subst hvh hx hq
  refine mapAll (P := { P with vh := some _, vx := some _, vc := some _, ex := some _, ec := some _, epsX := some _, epsC := some _ })
    (Q := { Q with vh := some _, vx := some _, vc := some _, ex := some _, ec := some _, epsX := some _, epsC := some _ })
    { h with vh := rfl, vx := rfl, vc := rfl, ex := rfl, ec := rfl, epsX := rfl, epsC := rfl, nf := h.nf } fun x y hT => ?_
  refine (Py.Sim.attrOf (congrArg (·.vh) hT.ks.V)).bind fun a a' ha =>
    (Py.Sim.attrOf (congrArg (·.vx) hT.ks.V)).bind fun u u' hu =>
    (Py.Sim.attrOf (congrArg (·.vc) hT.ks.V)).bind fun d d' hd => .pure ?_
  subst ha hu hd
  exact ⟨{ hT.ks with V := hT.ks.V }, { hT.v with vpH := rfl, vpX := rfl, vpC := rfl, vpHxc := rfl }⟩

theorem hxcZero (h : X ω P Q) : Py.Sim (X ω) P.hxcZero Q.hxcZero := by
  unfold Part.hxcZero
  refine (Py.Sim.attrOf h.nf).bind fun _ _ _ => mapAll h fun x y hT => .pure ?_
  exact ⟨hT.ks, { hT.v with vpH := rfl, vpX := rfl, vpC := rfl }⟩

theorem hxcStart {T : Env G r c p} (hE : SidelessEnv T) (h : X ω P Q) : Py.Sim (X ω) (P.hxcStart T) (Q.hxcStart T) := by
  unfold Part.hxcStart
  rw [h.opt, h.options]
  split
  · exact hxcZero h
  · split
    · exact .error
    · exact hxcComponents hE h

theorem finishKinetic (vt : G.Cols p) (h : X ω P Q) : Py.Sim (X ω) (Part.finishKinetic vt P) (Part.finishKinetic (G.mirCols vt) Q) := by
  unfold Part.finishKinetic
  refine mapAll (P := { P with vt := some vt }) (Q := { Q with vt := some _ }) { h with vt := rfl } fun x y hT => ?_
  refine (Py.Sim.attrOf hT.v.vt).bind fun a a' ha => .pure ?_
  subst ha
  exact ⟨hT.ks, { hT.v with vpKin := rfl, vt := hT.v.vt }⟩

theorem vpKinetic {T : Env G r c p} (hE : SidelessEnv T) (hk : ω.kin ≠ .inversion ∧ ω.kin ≠ .twoorbital) (h : X ω P Q) :
    Py.Sim (X ω) (P.vpKinetic T) (Q.vpKinetic T) := by
  unfold Part.vpKinetic
  rw [h.opt, h.options]
  cases hkin : ω.kin with
  | inversion => exact absurd hkin hk.1
  | twoorbital => exact absurd hkin hk.2
  | paramke => exact .error
  | fixed => exact .pure h
  | none =>
    dsimp only
    refine (Py.Sim.attrOf h.nf).bind fun _ _ _ =>
      (mapAll h (f := zeroVt) (f' := zeroVt) fun x y hT => .pure ⟨hT.ks, { hT.v with vt := rfl }⟩).bind fun P Q h => finishKinetic _ h
  | vonweiz =>
    dsimp only
    refine (Py.Sim.attrOf h.nf).bind fun nf nf' hn => ?_
    subst hn
    refine mapAll h fun x y hT => ?_
    refine (Py.Sim.needOf hT.ks.n).bind fun n n' hn' => ?_
    subst hn'
    have ev : ∀ n : G.Cols p, vonWeizsacker T (G.mirCols n) = fun j k => vonWeizsacker T n j (G.mirIx k) := fun n => by
      funext j k
      exact C110.vonWeizsacker_mir hE.toMirrorEnv n j k
    rw [ev, ev]
    have hd : Py.Sim (fun a a' => a' = G.mirCols a) (kineticDifference (vonWeizsacker T nf) fun j k => Fl.clean (vonWeizsacker T n j k))
        (kineticDifference (fun j k => vonWeizsacker T nf j (G.mirIx k)) fun j k => Fl.clean (vonWeizsacker T n j (G.mirIx k))) := by
      unfold kineticDifference
      split
      · rename_i hf
        rw [if_pos fun j k => hf j (G.mirIx k)]
        exact .ok rfl
      · exact .error
    refine hd.bind fun d d' hd => .pure ?_
    subst hd
    exact ⟨{ hT.ks with n := hT.ks.n }, { hT.v with vt := rfl, vpKin := rfl }⟩
  | libxcke =>
    dsimp only
    refine (Py.Sim.attrOf h.nf).bind fun nf nf' hn => ?_
    subst hn
    refine (Py.Sim.of_map _ (R := fun x y => y = (x.1, G.mirCols x.2)) (fun _ => rfl) (hE.kinetic nf)).bind fun x x' hx => ?_
    subst hx
    refine Py.Sim.bind (R := X ω) (mapAll h fun x y hT => ?_) fun P Q h => ?_
    · refine (Py.Sim.needOf hT.ks.n).bind fun n n' hn' => ?_
      subst hn'
      refine (Py.Sim.of_map _ (R := fun x y => y = (x.1, G.mirCols x.2)) (fun _ => rfl) (hE.kinetic n)).bind fun q q' hq => .pure ?_
      subst hq
      exact ⟨{ hT.ks with n := hT.ks.n }, { hT.v with vt := rfl, Ts := rfl }⟩
    · exact finishKinetic (P := { P with Tsm := some _ }) (Q := { Q with Tsm := some _ }) _ { h with Tsm := rfl }

theorem fragSums (dft : Bool) {x y : Frag G r c p} (hT : Twins x y) : Part.fragSums dft [y] = Part.fragSums dft [x] := by
  unfold Part.fragSums
  simp only [List.foldlM_cons, List.foldlM_nil, bind_pure]
  unfold Sums.addComp
  rw [hT.ks.scale, hT.ks.E]

theorem sumsAB (h : X ω P Q) : Py.Sim (fun s t => t = s.swap) P.sumsAB Q.sumsAB := by
  unfold Part.sumsAB sumsB
  rw [(comps_eq h.single).1, (comps_eq h.single').1, (comps_eq h.single).2.2.2, (comps_eq h.single').2.2.2, h.opt, h.options, h.both,
    fragSums _ h.fb, fragSums _ h.fa]
  intro z hz
  obtain ⟨sa, ha, hz⟩ := Py.bind_eq_ok.1 hz
  obtain ⟨sb, hb, hz⟩ := Py.bind_eq_ok.1 hz
  obtain rfl := Except.ok.inj hz
  rw [if_neg Bool.false_ne_true] at hb
  refine ⟨_, ?_, rfl⟩
  simp only [if_neg Bool.false_ne_true, hb, ha]
  rfl

theorem appendEvals {x y : Frag G r c p} (hT : Twins x y) : Part.appendEvals [y] = Part.appendEvals [x] := by
  unfold Part.appendEvals
  simp only [List.foldlM_cons, List.foldlM_nil, bind_pure]
  rw [hT.ks.E]

theorem evalsAB (h : X ω P Q) : Py.Sim (fun s t => t = s.swap) P.evalsAB Q.evalsAB := by
  unfold Part.evalsAB
  rw [(comps_eq h.single).1, (comps_eq h.single').1, (comps_eq h.single).2.1, (comps_eq h.single').2.1, h.opt, h.options, h.both,
    appendEvals h.fb, appendEvals h.fa]
  intro z hz
  obtain ⟨sa, ha, hz⟩ := Py.bind_eq_ok.1 hz
  rw [if_neg Bool.false_ne_true] at hz
  obtain ⟨sb, hb, hz⟩ := Py.bind_eq_ok.1 hz
  obtain rfl := Except.ok.inj hz
  refine ⟨_, ?_, rfl⟩
  simp only [if_neg Bool.false_ne_true, hb, ha]
  rfl

theorem epNuclear (hG : MirrorInvariant G) (h : X ω P Q) : Py.Sim (fun s t => t = s) P.epNuclear Q.epNuclear := by
  unfold Part.epNuclear
  intro z hz
  obtain ⟨na, ha, hz⟩ := Py.bind_eq_ok.1 hz
  obtain ⟨nb, hb, hz⟩ := Py.bind_eq_ok.1 hz
  obtain rfl := Except.ok.inj hz
  refine ⟨_, ?_, rfl⟩
  rw [h.naFrac, h.nbFrac, need_eq_ok.1 ha, attr_eq_ok.1 hb, h.va, h.vb]
  refine congrArg Except.ok ?_
  rw [← hG fun k => tot na k * P.vb k, ← hG fun k => tot nb k * P.va k]
  exact add_comm _ _

theorem mirTot_add (x y : Tot G) : mirTot (Tot.add x y) = Tot.add (mirTot x) (mirTot y) := by cases x <;> cases y <;> rfl

theorem mirTot_smul (x : Fl K) (y : Tot G) : mirTot (Tot.smul x y) = Tot.smul x (mirTot y) := by cases y <;> rfl

theorem mirTot_sub (x y : Tot G) : mirTot (Tot.sub x y) = Tot.sub (mirTot x) (mirTot y) := by
  cases x <;> cases y <;> rfl

theorem tot_mirCols (n : G.Cols p) : tot (G.mirCols n) = G.mir (tot n) := rfl

theorem lap_mir {T : Env G r c p} (hE : SidelessEnv T) (f : G.Fld) (k : G.Ix) :
    ∑ l, T.elap k l * f (G.mirIx l) = ∑ l, T.elap (G.mirIx k) l * f l := by
  rw [← G.sum_mir]
  refine Finset.sum_congr rfl fun l _ => ?_
  rw [Grid.mir, G.mirIx_mirIx, ← hE.elap k, G.mirIx_mirIx]

theorem vonWeizsackerEnergy {T : Env G r c p} (hE : SidelessEnv T) (h : X ω P Q) :
    Py.Sim (fun x y => y = (mirTot x.1, mirTot x.2)) (P.vonWeizsackerEnergy T) (Q.vonWeizsackerEnergy T) := by
  unfold Part.vonWeizsackerEnergy
  refine (Py.Sim.attrOf h.nf).bind fun nf nf' hn => ?_
  subst hn
  dsimp only
  refine Py.Sim.bind (R := fun x y => y = G.mir x) (fold_pair h (m := G.mir)
    (g := fun f => do
      let s ← KS.need f.ks.scale
      let n ← KS.need f.ks.n
      pure fun k => s * (2 * G.pi * G.hr * G.ha) * (∑ l, G.wi l * T.sqrt (tot n l)) * (-1 / 2 * ∑ l, T.elap k l * T.sqrt (tot n l)))
    (g' := fun f => do
      let s ← KS.need f.ks.scale
      let n ← KS.need f.ks.n
      pure fun k => s * (2 * G.pi * G.hr * G.ha) * (∑ l, G.wi l * T.sqrt (tot n l)) * (-1 / 2 * ∑ l, T.elap k l * T.sqrt (tot n l)))
    (op := fun a u k => a k + u k) (fun a x => ?_) (fun a x => ?_) (fun u v => ?_) fun x y hT => ?_) fun t t' ht => .pure ?_
  · cases x.ks.scale <;> cases x.ks.n <;> rfl
  · cases x.ks.scale <;> cases x.ks.n <;> rfl
  · funext k
    simp only [Grid.mir]
    ring
  · refine (Py.Sim.same (congrArg KS.need hT.ks.scale)).bind fun s s' hs => (Py.Sim.needOf hT.ks.n).bind fun n n' hn => .pure ?_
    subst hs hn
    funext k
    have e1 : ∑ l, G.wi l * T.sqrt (tot (G.mirCols n) l) = ∑ l, G.wi l * T.sqrt (tot n l) := by
      rw [← G.sum_mir]
      refine Finset.sum_congr rfl fun l _ => ?_
      rw [tot_mirCols, Grid.mir, Grid.mir, hE.wi, G.mirIx_mirIx]
    rw [e1]
    simp only [Grid.mir]
    congr 2
    exact lap_mir hE (fun l => T.sqrt (tot n l)) k
  · subst ht
    refine Prod.ext ?_ rfl
    simp only [mirTot]
    congr 3
    rw [← G.sum_mir]
    refine Finset.sum_congr rfl fun k _ => ?_
    simp only [tot_mirCols, Grid.mir, G.mirIx_mirIx, hE.wi]
    rw [lap_mir hE (fun l => T.sqrt (tot nf l)) (G.mirIx k), G.mirIx_mirIx]

theorem kineticEnergies {T : Env G r c p} (hE : SidelessEnv T) (hk : ω.kin ≠ .inversion ∧ ω.kin ≠ .twoorbital) (h : X ω P Q) :
    Py.Sim (fun x y => y = (mirTot x.1, mirTot x.2)) (P.kineticEnergies T) (Q.kineticEnergies T) := by
  have lib : Py.Sim (fun x y => y = (mirTot x.1, mirTot x.2))
      (do
        let Tsm ← attr P.Tsm
        let Tsf ← P.comps.foldlM (fun (acc : K) f => do
          let s ← KS.need f.ks.scale
          let t ← attr f.v.Ts
          pure (acc + s * t)) 0
        pure ((.num (.fin Tsm), .num (.fin Tsf)) : Tot G × Tot G))
      (do
        let Tsm ← attr Q.Tsm
        let Tsf ← Q.comps.foldlM (fun (acc : K) f => do
          let s ← KS.need f.ks.scale
          let t ← attr f.v.Ts
          pure (acc + s * t)) 0
        pure (.num (.fin Tsm), .num (.fin Tsf))) := by
    refine (Py.Sim.same (congrArg attr h.Tsm)).bind fun t t' ht => ?_
    subst ht
    refine Py.Sim.bind (R := fun x y => y = x) (fold_pair h (m := id)
      (g := fun f => do
        let s ← KS.need f.ks.scale
        let t ← attr f.v.Ts
        pure (s * t))
      (g' := fun f => do
        let s ← KS.need f.ks.scale
        let t ← attr f.v.Ts
        pure (s * t))
      (op := fun a u => a + u) (fun a x => ?_) (fun a x => ?_) (fun u v => ?_) fun x y hT => ?_) fun t t' ht => .pure ?_
    · cases x.ks.scale <;> cases x.v.Ts <;> rfl
    · cases x.ks.scale <;> cases x.v.Ts <;> rfl
    · simp only [id]
      ring
    · refine (Py.Sim.same (congrArg KS.need hT.ks.scale)).bind fun s s' hs => (Py.Sim.same (congrArg attr hT.v.Ts)).bind fun n n' hn => .pure ?_
      subst hs hn
      rfl
    · subst ht
      rfl
  unfold Part.kineticEnergies
  rw [h.opt, h.options]
  cases hkin : ω.kin with
  | inversion => exact absurd hkin hk.1
  | twoorbital => exact absurd hkin hk.2
  | fixed => exact .error
  | none => exact .pure rfl
  | vonweiz => exact vonWeizsackerEnergy hE h
  | libxcke => exact lib
  | paramke => exact lib

theorem epKinetic {T : Env G r c p} (hE : SidelessEnv T) (hk : ω.kin ≠ .inversion ∧ ω.kin ≠ .twoorbital) (h : X ω P Q) :
    Py.Sim (fun x y => y = mirTot x) (P.epKinetic T) (Q.epKinetic T) := by
  unfold Part.epKinetic
  refine (kineticEnergies hE hk h).bind fun x y hxy => ?_
  subst hxy
  rw [h.opt]
  refine .pure ?_
  rw [mirTot_sub]
  split
  · rw [mirTot_smul]
  · rfl

/-- A fragment energy density. -/
theorem density {x : Frag G r c p → Option G.Fld} (hx : ∀ f g, Twins f g → x g = (x f).map G.mir) (h : X ω P Q) :
    Py.Sim (fun a b => b = G.mir a) (P.comps.foldlM (addDensity x) fun _ => 0) (Q.comps.foldlM (addDensity x) fun _ => 0) := by
  have main : ∀ (a : G.Fld) (f : Frag G r c p), addDensity x a f =
      (if f.v.frozen = none ∨ f.v.frozen = some false then do
        let Q ← needQ f.ks.Q
        let e ← attr (x f)
        pure fun k => tot Q k * e k
      else pure fun _ => 0 : Py G.Fld).map fun u k => a k + u k := by
    intro a f
    unfold addDensity
    split
    · cases f.ks.Q with
      | none => rfl
      | some Q => cases x f <;> rfl
    · refine congrArg Except.ok ?_
      funext k
      exact (add_zero _).symm
  refine fold_pair h (m := G.mir) (op := fun a u k => a k + u k) main main (fun u v => ?_) fun f g hT => ?_
  · funext k
    simp only [Grid.mir]
    ring
  · rw [hT.v.frozen, hT.ks.Q, hx f g hT]
    split
    · cases f.ks.Q with
      | none => exact .error
      | some Q =>
        cases x f with
        | none => exact .error
        | some e => exact .ok rfl
    · exact .ok rfl

theorem epComponents {T : Env G r c p} (hG : MirrorInvariant G) (hE : SidelessEnv T) (h : X ω P Q) (Ehf Exf Ecf : K) :
    Py.Sim (fun x y => y = (x.1, x.2.1, x.2.2.1, x.2.2.2.map fun d => (G.mir d.1, G.mir d.2.1, G.mir d.2.2)))
      (P.epComponents T Ehf Exf Ecf) (Q.epComponents T Ehf Exf Ecf) := by
  unfold Part.epComponents
  rw [h.opt, h.options]
  cases ω.interaction with
  | ni => exact .pure rfl
  | dft =>
    have e1 : Py.Sim (fun a b => b = G.mir a) P.ehf Q.ehf := by
      unfold Part.ehf
      rw [h.opt, h.options, h.both]
      exact density (fun f g hT => congrArg (·.eh) hT.ks.V) h
    have e2 : ∀ x : Frag G r c p → Option G.Fld, (∀ f g, Twins f g → x g = (x f).map G.mir) →
        Py.Sim (fun a b => b = G.mir a) (P.excf x) (Q.excf x) := fun x hx => by
      unfold Part.excf
      rw [h.opt, h.options, h.both]
      exact density hx h
    refine (Py.Sim.attrOf h.nf).bind fun nf nf' hn => ?_
    subst hn
    rw [tot_mirCols]
    refine (Py.Sim.of_map _ (R := fun x y => y = G.mir x) (fun _ => rfl) (hE.hartree1 (tot nf))).bind fun vh vh' hvh => e1.bind fun eh eh' heh =>
      (Py.Sim.same (congrArg attr h.ex)).bind fun ex ex' hex => (Py.Sim.attrOf h.epsX).bind fun epx epx' hepx =>
      (e2 _ fun f g hT => congrArg (·.ex) hT.ks.V).bind fun exf exf' hexf => (Py.Sim.same (congrArg attr h.ec)).bind fun ec ec' hec =>
      (Py.Sim.attrOf h.epsC).bind fun epc epc' hepc => (e2 _ fun f g hT => congrArg (·.ec) hT.ks.V).bind fun ecf ecf' hecf => .pure ?_
    subst hvh heh hex hepx hexf hec hepc hecf
    have e : (G.integ fun k => G.mir (tot nf) k * (1 / 2 * G.mir vh k)) = G.integ fun k => tot nf k * (1 / 2 * vh k) :=
      hG fun k => tot nf k * (1 / 2 * vh k)
    rw [e]
    rfl

theorem epCollect {T : Env G r c p} (hG : MirrorInvariant G) (h : X ω P Q) (eh ex ec : K) :
    Py.Sim (fun u w => X ω u.1 w.1 ∧ w.2 = u.2) (Part.epCollect T P eh ex ec) (Part.epCollect T Q eh ex ec) := by
  unfold Part.epCollect
  rw [h.opt, h.options]
  cases ω.hxc with
  | exact => exact .pure ⟨h, rfl⟩
  | hartree => exact .pure ⟨h, rfl⟩
  | surprisal => exact .error
  | overlapXc =>
    refine (vpOverlap T hG h).bind fun P Q h => (Py.Sim.same (congrArg attr h.F)).bind fun F F' hF => .pure ⟨h, ?_⟩
    rw [hF]
  | overlapHxc => exact (vpOverlap T hG h).bind fun P Q h => Py.Sim.bind (ensCorHar h) (y := Q.ensCorHar) fun P Q h =>
      (Py.Sim.same (congrArg attr h.F)).bind fun F F' hF => (Py.Sim.same (congrArg attr h.Ehcor)).bind fun e e' he => .pure ⟨h, by rw [hF, he]⟩
  | overlapHxc2 => exact (vpOverlap T hG h).bind fun P Q h => Py.Sim.bind (ensCorHar h) (y := Q.ensCorHar) fun P Q h =>
      (Py.Sim.same (congrArg attr h.F)).bind fun F F' hF => (Py.Sim.same (congrArg attr h.Ehcor)).bind fun e e' he => .pure ⟨h, by rw [hF, he]⟩

theorem partitionEnergy {T : Env G r c p} (hG : MirrorInvariant G) (hE : SidelessEnv T) (h : X ω P Q) (Ehf Exf Ecf : K) :
    Py.Sim (fun u w => X ω u.1 w.1 ∧ w.2 = (u.2.1, mirTot u.2.2.1, u.2.2.2.1, mirTot u.2.2.2.2)) (P.partitionEnergy T Ehf Exf Ecf)
      (Q.partitionEnergy T Ehf Exf Ecf) := by
  unfold Part.partitionEnergy
  rw [h.opt, h.options]
  split
  · exact .pure ⟨h, rfl⟩
  · rename_i hi
    have hk := h.kin.resolve_left hi
    refine (epNuclear hG h).bind fun a a' ha => (epKinetic hE hk h).bind fun d d' hd => ?_
    subst ha hd
    refine Py.Sim.bind (R := fun u w => X ω u.1 w.1 ∧ w.2 = u.2) ?_ fun u w huw => .pure ⟨huw.1, ?_⟩
    · unfold Part.epHxc
      refine (epComponents hG hE h _ _ _).bind fun q q' hq => ?_
      subst hq
      obtain ⟨eh, ex, ec, d⟩ := q
      exact epCollect (P := { P with EpH := some eh, EpX := some ex, EpC := some ec, epDens := d.or P.epDens })
        (Q := { Q with EpH := some eh, EpX := some ex, EpC := some ec, epDens := (d.map _).or Q.epDens }) hG
        { h with EpH := rfl, EpX := rfl, EpC := rfl, epDens := by rw [h.epDens]; cases d <;> rfl } eh ex ec
    · rw [huw.2, mirTot_add, mirTot_add]
      rfl

theorem Fl.add_comm (x y : Fl K) : Fl.add x y = Fl.add y x := by
  cases x <;> cases y <;> first | rfl | exact congrArg Fl.fin (_root_.add_comm _ _)

theorem energy {T : Env G r c p} (hG : MirrorInvariant G) (hE : SidelessEnv T) (h : X ω P Q) : Py.Sim (X ω) (P.energy T) (Q.energy T) := by
  unfold Part.energy
  refine (sumsAB h).bind fun s t hst => ?_
  subst hst
  obtain ⟨sa, sb⟩ := s
  dsimp only [Prod.swap]
  rw [add_comm sb.Eh, add_comm sb.Ex, add_comm sb.Ec]
  refine (partitionEnergy hG hE h _ _ _).bind fun u w huw => ?_
  obtain ⟨P, u1, u2, u3, u4⟩ := u
  obtain ⟨Q, w⟩ := w
  obtain ⟨h, h2⟩ := huw
  dsimp only at h2 h
  subst h2
  dsimp only
  refine (evalsAB h).bind fun e e' he => .pure { h with E := ?_ }
  subst he
  refine congrArg some ?_
  simp only [exchangedEnergy, Prod.swap, mirTot_add, Fl.add_comm sb.E, Fl.add_comm sb.Ts, add_comm sb.Enuc, add_comm sb.Vhxc, h.Za, h.Zb, h.a,
    mul_comm P.Zb, funext fun j => Fl.add_comm (sb.Eks j) (sa.Eks j)]
  rfl

theorem hxcCollect {T : Env G r c p} (hG : MirrorInvariant G) (hE : SidelessEnv T) (h : X ω P Q) : Py.Sim (X ω) (P.hxcCollect T) (Q.hxcCollect T) := by
  unfold Part.hxcCollect
  rw [h.opt, h.options]
  cases ω.hxc with
  | surprisal => exact .error
  | overlapHxc2 => exact .error
  | overlapHxc =>
    refine (vpOverlap T hG h).bind fun P Q h => ?_
    unfold Part.ensCorHar
    rw [h.single]
    exact .error
  | exact =>
    refine mapAll h fun x y hT => (Py.Sim.attrOf hT.v.vpH).bind fun a a' ha => (Py.Sim.attrOf hT.v.vpX).bind fun u u' hu =>
      (Py.Sim.attrOf hT.v.vpC).bind fun d d' hd => .pure ?_
    subst ha hu hd
    exact ⟨hT.ks, { hT.v with vpHxc := rfl }⟩
  | hartree =>
    refine mapAll h fun x y hT => (Py.Sim.attrOf hT.v.vpH).bind fun a a' ha => .pure ?_
    subst ha
    exact ⟨hT.ks, { hT.v with vpHxc := rfl }⟩
  | overlapXc =>
    refine (vpOverlap T hG h).bind fun P Q h => (energy hG hE h).bind fun P Q h => (Py.Sim.same (congrArg attr h.F)).bind fun F F' hF =>
      (Py.Sim.same (congrArg attr h.EpX)).bind fun ex ex' hex => (Py.Sim.same (congrArg attr h.EpC)).bind fun ec ec' hec => ?_
    subst hF hex hec
    refine mapAll h fun x y hT => (Py.Sim.attrOf hT.v.vpH).bind fun a a' ha => (Py.Sim.attrOf hT.v.vpX).bind fun u u' hu =>
      (Py.Sim.attrOf hT.v.vpC).bind fun d d' hd => (Py.Sim.attrOf hT.v.dFdn).bind fun q q' hq => .pure ?_
    subst ha hu hd hq
    exact ⟨hT.ks, { hT.v with vpHxc := rfl }⟩

theorem average {x : Frag G r c p → Option (G.Cols p)} (hx : ∀ f g, Twins f g → x g = (x f).map G.mirCols) (h : X ω P Q) :
    Py.Sim (fun a b => b = G.mirCols a) (P.average x) (Q.average x) := by
  unfold Part.average qAverage
  rw [h.opt, h.options, h.both]
  refine Py.Sim.bind (R := fun a b => b = G.mirCols a) (fold_pair h (m := G.mirCols)
    (g := fun f => do
      let v ← attr (x f)
      let Q ← needQ f.ks.Q
      pure fun j k => v j k * Q j k)
    (g' := fun f => do
      let v ← attr (x f)
      let Q ← needQ f.ks.Q
      pure fun j k => v j k * Q j k)
    (op := fun a u j k => a j k + u j k) (fun a f => ?_) (fun a f => ?_) (fun u v => ?_) fun f g hT => ?_) fun a b hab => .pure ?_
  · cases x f <;> cases f.ks.Q <;> rfl
  · cases x f <;> cases f.ks.Q <;> rfl
  · funext j k
    simp only [Grid.mirCols, Grid.mir]
    ring
  · rw [hx f g hT, hT.ks.Q]
    cases x f with
    | none => exact .error
    | some v =>
      cases f.ks.Q with
      | none => exact .error
      | some Q => exact .ok rfl
  · subst hab
    exact C110.addFlip_mirCols _ _

theorem partitionPotential {T : Env G r c p} (hG : MirrorInvariant G) (hE : SidelessEnv T)
    (hk : ω.kin ≠ .inversion ∧ ω.kin ≠ .twoorbital) (h : X ω P Q) :
    Py.Sim (fun u w => X ω u.1 w.1 ∧ w.2 = G.mirCols u.2) (P.partitionPotential T) (Q.partitionPotential T) := by
  unfold Part.partitionPotential
  rw [h.opt, h.options]
  cases ω.vpCalc with
  | potentialInversion =>
    dsimp only
    split <;> exact .error
  | component =>
    refine (vpNuclear h).bind fun P Q h => (vpKinetic hE hk h).bind fun P Q h =>
      Py.Sim.bind (R := X ω) ((hxcStart hE h).bind fun P Q h => hxcCollect hG hE h) fun P Q h => (Py.Sim.attrOf h.nf).bind fun _ _ _ =>
      Py.Sim.bind (R := X ω) (mapAll h fun x y hT => ?_) fun P Q h => ?_
    · refine (Py.Sim.attrOf hT.v.vpPot).bind fun a a' ha => (Py.Sim.attrOf hT.v.vpKin).bind fun u u' hu =>
        (Py.Sim.attrOf hT.v.vpHxc).bind fun d d' hd => .pure ?_
      subst ha hu hd
      exact ⟨hT.ks, { hT.v with vp := rfl }⟩
    · refine (average (fun f g hT => hT.v.vp) h).bind fun a a' ha => (average (fun f g hT => hT.v.vpPot) h).bind fun a1 a1' ha1 =>
        (average (fun f g hT => hT.v.vpKin) h).bind fun a2 a2' ha2 => (average (fun f g hT => hT.v.vpHxc) h).bind fun a3 a3' ha3 =>
        (average (fun f g hT => hT.v.vpH) h).bind fun a4 a4' ha4 => (average (fun f g hT => hT.v.vpX) h).bind fun a5 a5' ha5 =>
        (average (fun f g hT => hT.v.vpC) h).bind fun a6 a6' ha6 => .pure ?_
      subst ha ha1 ha2 ha3 ha4 ha5 ha6
      exact ⟨{ h with vp := rfl, vpPot := rfl, vpKin := rfl, vpHxc := rfl, vpH := rfl, vpX := rfl, vpC := rfl }, rfl⟩

end Steps

section Scf
variable {P Q : Part G r c p} {T : Env G r c p} {W : KsScf.Workers G r c p} {o : PartScf.Options K}

theorem setup (h : X ω P Q) : Py.Sim (X ω) (PartScf.setup o P) (PartScf.setup (exchangedOptions o) Q) := by
  have main : ∀ x y, X ω (setup.go o P x y) (setup.go (exchangedOptions o) Q y x) := by
    intro x y
    refine { h with fa := ?_, fb := ?_, single := ?_, single' := ?_ }
    · exact ⟨{ h.fa.ks with alpha := rfl }, { h.fa.v with frozen := rfl }⟩
    · exact ⟨{ h.fb.ks with alpha := rfl }, { h.fb.v with frozen := rfl }⟩
    · simp only [setup.go, h.single, Option.map_none]
    · simp only [setup.go, h.single', Option.map_none]
  unfold PartScf.setup
  change Py.Sim _ _ (match o.alpha.reverse with | [x] => _ | [x, y] => _ | _ => _)
  match ha : o.alpha with
  | [] => exact .error
  | [x] => exact .pure (main x x)
  | [x, y] => exact .pure (main x y)
  | _ :: _ :: _ :: _ => exact .error

theorem guess (hG : MirrorInvariant G) (hW : MirrorWorkers W) {x y : Frag G r c p} (hT : Twins x y) :
    Py.Sim Twins (PartScf.guess W o x) (PartScf.guess W (exchangedOptions o) y) := by
  refine .of_rel ?_
  unfold PartScf.guess
  change Py.Rel _ _ (if o.continuing then _ else _)
  split
  · rw [hT.ks.n]
    cases x.ks.n with
    | none => exact .error _
    | some n => exact .pure hT
  · have h1 : Reflected { x.ks with vext := some fun _ _ => 0, vhxc := some fun _ _ => 0 }
        { y.ks with vext := some fun _ _ => 0, vhxc := some fun _ _ => 0 } := { hT.ks with vext := rfl, vhxc := rfl }
    refine h1.setEffectivePotential.bind fun A B h => (h.calcDensity hG (hW A B h _)).bind fun u w huw => ?_
    obtain ⟨h2, h3, -⟩ := huw
    obtain ⟨A', n⟩ := u
    obtain ⟨B', n'⟩ := w
    dsimp only at h2 h3
    subst h3
    have h4 : Reflected { A' with n := some n } { B' with n := some (G.mirCols n) } := { h2 with n := rfl }
    exact h4.calcChempot.bind fun A B h => .pure ⟨h, hT.v⟩

theorem start (hG : MirrorInvariant G) (hW : MirrorWorkers W) (h : X ω P Q) :
    Py.Sim (X ω) (PartScf.start W o P) (PartScf.start W (exchangedOptions o) Q) := by
  unfold PartScf.start
  exact (setup h).bind fun P Q h => (onKSab h fun x y hT => guess hG hW hT).bind fun P Q h => (mirrorIf h).bind fun P Q h => promolecule o h

theorem hxcUpdate (hE : SidelessEnv T) {x y : Frag G r c p} (hT : Twins x y) :
    Py.Sim Twins (PartScf.hxcUpdate T.toFunctionals x) (PartScf.hxcUpdate T.toFunctionals y) := by
  unfold PartScf.hxcUpdate
  exact (Py.Sim.of_rel (hT.ks.calcHxc hE.toMirrorFunctionals)).bind fun A B hAB => (Py.Sim.needOf hT.ks.vhxc).bind fun _ _ _ => .pure ⟨hAB, hT.v⟩

theorem fragment (hG : MirrorInvariant G) (hE : SidelessEnv T) (hW : MirrorWorkers W) (dif : Fl K) (vp : G.Cols p) {x y : Frag G r c p}
    (hT : Twins x y) :
    Py.Sim Twins (PartScf.fragment T.toFunctionals W o dif vp x)
      (PartScf.fragment T.toFunctionals W (exchangedOptions o) dif (G.mirCols vp) y) := by
  refine .of_rel ?_
  unfold PartScf.fragment
  refine Py.Rel.bind (R := Twins) ?_ fun x z hxz => ?_
  · unfold external
    rw [hT.v.frozen]
    change Py.Rel _ _ (if _ then _ else match o.calcType with | .pdft => _ | .sdft => _)
    split
    · exact .pure hT
    · cases o.calcType with
      | pdft => exact .pure ⟨{ hT.ks with vext := rfl }, hT.v⟩
      | sdft =>
        dsimp only
        rw [hT.v.vp]
        refine (C110.relAttr (R := fun x y => y = G.mirCols x) _ fun _ => rfl).bind fun v v' hv => .pure ?_
        subst hv
        exact ⟨{ hT.ks with vext := rfl }, hT.v⟩
  · refine hxz.ks.setEffectivePotential.bind fun A B h => (h.calcDensity hG (hW A B h _)).bind fun u w huw => ?_
    obtain ⟨h2, h3, -⟩ := huw
    obtain ⟨A', n⟩ := u
    obtain ⟨B', n'⟩ := w
    dsimp only at h2 h3
    subst h3
    refine h2.calcChempot.bind fun A B h => ?_
    rw [h.alpha, h.n]
    refine (Py.Rel.of_eq rfl).bind fun α α' hα => ?_
    subst hα
    refine (Py.Rel.need (R := fun x y => y = G.mirCols x) _ fun _ => rfl).bind fun m m' hm => ?_
    subst hm
    have h4 : Reflected { A with n := some (KsScf.mix α m n) } { B with n := some (KsScf.mix α (G.mirCols m) (G.mirCols n)), alpha := A.alpha } :=
      { h with n := rfl, alpha := rfl }
    exact Py.Rel.bind (f := fun ks => pure (⟨ks, x.v⟩ : Frag G r c p)) (g := fun ks => pure (⟨ks, z.v⟩ : Frag G r c p))
      (h4.energy hG hE.toMirrorFunctionals) fun A B h => .pure ⟨h, hxz.v⟩

theorem potential (hG : MirrorInvariant G) (hE : SidelessEnv T) (h : X ω P Q) :
    Py.Sim (fun u w => X ω u.1 w.1 ∧ w.2 = G.mirCols u.2) (PartScf.potential T P) (PartScf.potential T Q) := by
  unfold PartScf.potential
  rw [h.opt, h.options]
  split
  · refine (Py.Sim.attrOf h.nf).bind fun _ _ _ => Py.Sim.bind (R := X ω) (onKSab h fun x y hT => ?_) fun P Q h => .pure ⟨h, rfl⟩
    exact .pure ⟨hT.ks, { hT.v with vp := rfl }⟩
  · rename_i hi
    exact partitionPotential hG hE (h.kin.resolve_left hi) h

theorem pass (hG : MirrorInvariant G) (hE : SidelessEnv T) (hW : MirrorWorkers W) (dif : Fl K) (h : X ω P Q) :
    Py.Sim (X ω) (PartScf.pass T W o dif P) (PartScf.pass T W (exchangedOptions o) dif Q) := by
  unfold PartScf.pass
  refine (onKSab h fun x y hT => hxcUpdate hE hT).bind fun P Q h => (mirrorIf h).bind fun P Q h => (potential hG hE h).bind fun u w huw => ?_
  obtain ⟨P, vp⟩ := u
  obtain ⟨Q, vp'⟩ := w
  obtain ⟨h, h2⟩ := huw
  dsimp only at h h2
  subst h2
  exact (onKSab h fun x y hT => fragment hG hE hW dif vp hT).bind fun P Q h => (mirrorIf h).bind fun P Q h =>
    (promolecule o h).bind fun P Q h => energy hG hE h

/-- Loop states of the two runs. -/
structure RS (ω : PartOpt) (s t : PartScf.State G r c p) : Prop where
  P : X ω s.P t.P
  oldE : t.oldE = s.oldE
  oldNf : t.oldNf = G.mirCols s.oldNf
  dif : t.dif = s.dif
  it : t.it = s.it
  failures : t.failures = s.failures

theorem body (hG : MirrorInvariant G) {T : ℕ → Env G r c p} (hE : ∀ i, SidelessEnv (T i)) {W : ℕ → KsScf.Workers G r c p}
    (hW : ∀ i, MirrorWorkers (W i)) {s t : PartScf.State G r c p} (h : RS ω s t) :
    Py.Sim (fun u w => RS ω u.1 w.1 ∧ w.2 = u.2) (PartScf.body T W o s) (PartScf.body T W (exchangedOptions o) t) := by
  obtain ⟨P, _, _, _, _, _⟩ := s
  obtain ⟨Q, e1, e2, e3, e4, e5⟩ := t
  obtain ⟨h, h2, h3, h4, h5, h6⟩ := h
  dsimp only at h h2 h3 h4 h5 h6
  subst h2 h3 h4 h5 h6
  unfold PartScf.body
  dsimp only
  have ha : X ω (PartScf.avoid e4 P) (PartScf.avoid e4 Q) := by
    unfold PartScf.avoid
    have : (Q.opt.kin = .inversion ∧ Q.opt.isolated = false) ↔ (P.opt.kin = .inversion ∧ P.opt.isolated = false) := by rw [h.opt]
    by_cases hc : P.opt.kin = .inversion ∧ P.opt.isolated = false
    · rw [if_pos hc, if_pos (this.2 hc)]
      exact { h with avoidLoop := rfl }
    · rw [if_neg hc, if_neg fun hq => hc (this.1 hq)]
      exact h
  refine (pass hG (hE e4) (hW e4) e3 ha).bind fun P Q h => (Py.Sim.attrOf h.E).bind fun e e' he => (Py.Sim.attrOf h.nf).bind fun q q' hq => ?_
  subst he hq
  refine Py.Sim.bind (R := fun a b => b = a) (.same ?_) fun d d' hd => ?_
  · change difE e1 (mirTot e.E) = _
    cases e.E <;> rfl
  · subst hd
    rw [difN_mirCols hG]
    refine (Py.Sim.refl _).bind fun m m' hm => ?_
    subst hm
    refine Py.Sim.bind (R := fun a b => b = a) (.same ?_) fun k k' hk => ?_
    · unfold checkInversion
      rw [h.opt, h.invInfo]
    · subst hk
      exact .pure ⟨⟨h, rfl, rfl, rfl, rfl, rfl⟩, rfl⟩

theorem loop {σ : Type} {Q : σ → σ → Prop} {f g : σ → Py (σ × Fl K)} (auto : Bool) (etol : K)
    (h : ∀ a b, Q a b → Py.Sim (fun x y => Q x.1 y.1 ∧ y.2 = x.2) (f a) (g b)) : ∀ (left : ℕ) (dif : Fl K) (a b : σ), Q a b →
    Py.Sim (fun x y => Q x.1 y.1 ∧ y.2 = x.2) (PartScf.loop f auto etol left dif a) (PartScf.loop g auto etol left dif b)
  | left, dif, a, b, hab => by
    unfold PartScf.loop
    split
    · split
      · exact .error
      · exact .ok ⟨hab, rfl⟩
    · cases left with
      | zero => exact .ok ⟨hab, rfl⟩
      | succ left =>
        refine Py.Sim.bind (h a b hab) fun x y hxy => ?_
        obtain ⟨x, u⟩ := x
        obtain ⟨y, u'⟩ := y
        obtain ⟨h1, h2⟩ := hxy
        dsimp only at h1 h2
        subst h2
        refine Py.Sim.bind (loop auto etol h left _ x y h1) fun z z' hz => .pure ⟨hz.1, ?_⟩
        simp only [hz.2]

end Scf
end C115

section Symmetry

theorem C115.back {α : Type} {f : α → α} (hf : ∀ a, f (f a) = a) {x y : Option α} (h : y = x.map f) : x = y.map f := by
  subst h
  cases x with
  | none => rfl
  | some a => exact congrArg some (hf a).symm

theorem Spec.MirrorOrbital.symm {f g : G.Fld} (h : MirrorOrbital f g) : MirrorOrbital g f := by
  obtain ⟨x, hx, rfl⟩ := h
  refine ⟨x⁻¹, inv_ne_zero hx, ?_⟩
  funext k
  simp only [Grid.mir, G.mirIx_mirIx]
  rw [inv_mul_cancel_left₀ hx]

theorem Spec.MirrorOrbitals.symm {a b : Option (List G.Fld)} (h : MirrorOrbitals a b) : MirrorOrbitals b a := by
  cases h with
  | none => exact .none
  | some h => exact .some (h.flip.imp fun _ _ h => Spec.MirrorOrbital.symm h)

theorem Spec.MirrorSolver.symm {s t : Solver G} (h : MirrorSolver s t) : MirrorSolver t s :=
  ⟨h.Nmo.symm, h.N.symm, h.m.symm, h.pol.symm, h.fractional.symm, h.sym.symm, h.eig.symm, C115.back C115.mir_mir h.veff, h.phi.symm⟩

theorem Spec.Reflected.symm {A B : KS G r c p} (h : Reflected A B) : Reflected B A := by
  have hm := C110.mirCols_mirCols (G := G) (p := p)
  refine ⟨h.kind.symm, h.sym.symm, h.Zb.symm, h.Za.symm, h.a.symm, fun w => (h.solver w).symm, ?_, C115.back hm h.vext, C115.back hm h.vhxc,
    C115.back hm h.veff, C115.back hm h.n, h.u.symm, h.E.symm, ?_, h.scale.symm, C115.back hm h.Q, h.alpha.symm, h.homo.symm⟩
  · rw [h.vnuc, hm]
  · rw [← C115.back hm (congrArg (·.vx) h.V), ← C115.back hm (congrArg (·.vc) h.V), ← C115.back hm (congrArg (·.vh) h.V),
      ← C115.back C115.mir_mir (congrArg (·.ex) h.V), ← C115.back C115.mir_mir (congrArg (·.ec) h.V), ← C115.back C115.mir_mir (congrArg (·.eh) h.V)]

theorem Spec.Twins.symm {x y : Frag G r c p} (h : Twins x y) : Twins y x := by
  have hm := C110.mirCols_mirCols (G := G) (p := p)
  exact ⟨h.ks.symm, h.v.frozen.symm, C115.back hm h.v.vt, C115.back hm h.v.vp, C115.back hm h.v.vpPot, C115.back hm h.v.vpKin, C115.back hm h.v.vpHxc,
    C115.back hm h.v.vpH, C115.back hm h.v.vpX, C115.back hm h.v.vpC, h.v.Ts.symm, C115.back hm h.v.dFdn, C115.back hm h.v.vhcor, h.v.Ehcor.symm⟩

theorem C115.mirTot_mirTot (x : Tot G) : mirTot (mirTot x) = x := by
  cases x with
  | num x => rfl
  | vec f => simp only [mirTot, G.mirIx_mirIx]

theorem Spec.Exchanged.symm {P Q : Part G r c p} (h : Exchanged P Q) : Exchanged Q P := by
  have hm := C110.mirCols_mirCols (G := G) (p := p)
  have hm1 := C115.mir_mir (G := G)
  refine ⟨h.opt.symm, h.Zb.symm, h.Za.symm, h.a.symm, ?_, ?_, h.fb.symm, h.fa.symm, h.single', h.single, C115.back hm h.nbFrac, C115.back hm h.naFrac,
    C115.back hm h.nf, C115.back hm h.vt, C115.back hm h.vh, C115.back hm h.vx, C115.back hm h.vc, C115.back hm h.vp, C115.back hm h.vpPot, C115.back hm h.vpKin,
    C115.back hm h.vpHxc, C115.back hm h.vpH, C115.back hm h.vpX, C115.back hm h.vpC, h.ex.symm, h.ec.symm, C115.back hm1 h.epsX, C115.back hm1 h.epsC,
    C115.back (fun d => ?_) h.epDens, h.Tsm.symm, h.invTs.symm, h.invInfo.symm, h.avoidLoop.symm, h.S.symm, h.F.symm, h.Ehcor.symm, h.EpH.symm,
    h.EpX.symm, h.EpC.symm, C115.back (fun E => ?_) h.E⟩
  · rw [h.vb, hm1]
  · rw [h.va, hm1]
  · simp only [hm1]
  · simp only [exchangedEnergy, C115.mirTot_mirTot]

end Symmetry

/-- C115: `scf` of the exchanged partition succeeds if `scf` of the original does, after the same number of passes with the
same changes and warnings, and returns the exchanged partition: mirrored densities and potentials, the same energies.
Fragments of one component, without `ab_sym`, and (unless `isolated`) any kinetic functional except inversion and the
two-orbital functional. -/
theorem C115_scf_partial (hG : MirrorInvariant G) {T : ℕ → Env G r c p} (hE : ∀ i, SidelessEnv (T i)) {W : ℕ → KsScf.Workers G r c p}
    (hW : ∀ i, MirrorWorkers (W i)) (o : PartScf.Options K) {P Q : Part G r c p} (hPQ : Exchanged P Q) (hab : P.opt.abSym = false)
    (hk : P.opt.isolated = true ∨ P.opt.kin ≠ .inversion ∧ P.opt.kin ≠ .twoorbital) {P'} {log} (hP : scf T W o P = .ok (P', log)) :
    ∃ Q', scf T W (exchangedOptions o) Q = .ok (Q', log) ∧ Exchanged P' Q' := by
  have h0 : C115.X P.opt P Q := { hPQ with options := rfl, both := hab, kin := hk }
  have main : Py.Sim (fun u w => Exchanged u.1 w.1 ∧ w.2 = u.2) (scf T W o P) (scf T W (exchangedOptions o) Q) := by
    unfold scf
    refine (C115.start hG (hW 0) h0).bind fun P Q h => (Py.Sim.attrOf h.nf).bind fun nf nf' hn => ?_
    subst hn
    unfold run
    refine Py.Sim.bind (C115.loop (Q := C115.RS _) _ _ (fun s t h => C115.body hG hE hW h) _ _ _ _ ⟨h, rfl, rfl, rfl, rfl, rfl⟩)
      fun u w huw => .pure ⟨huw.1.P.toExchanged, ?_⟩
    exact huw.2
  obtain ⟨⟨Q', log'⟩, hQ, h1, h2⟩ := main _ hP
  dsimp only at h1 h2
  subst h2
  exact ⟨Q', hQ, h1⟩

/-- C115: the two calculations succeed together. -/
theorem C115_success_partial (hG : MirrorInvariant G) {T : ℕ → Env G r c p} (hE : ∀ i, SidelessEnv (T i)) {W : ℕ → KsScf.Workers G r c p}
    (hW : ∀ i, MirrorWorkers (W i)) (o : PartScf.Options K) {P Q : Part G r c p} (hPQ : Exchanged P Q) (hab : P.opt.abSym = false)
    (hk : P.opt.isolated = true ∨ P.opt.kin ≠ .inversion ∧ P.opt.kin ≠ .twoorbital) :
    (∃ x, scf T W o P = .ok x) ↔ ∃ y, scf T W (exchangedOptions o) Q = .ok y := by
  constructor
  · rintro ⟨⟨P', log⟩, h⟩
    obtain ⟨Q', hQ, -⟩ := C115_scf_partial hG hE hW o hPQ hab hk h
    exact ⟨_, hQ⟩
  · rintro ⟨⟨Q', log⟩, h⟩
    have ho : exchangedOptions (exchangedOptions o) = o := by simp only [exchangedOptions, List.reverse_reverse]
    obtain ⟨P', hP, -⟩ := C115_scf_partial hG hE hW _ hPQ.symm (hPQ.opt ▸ hab) (hPQ.opt ▸ hk) h
    rw [ho] at hP
    exact ⟨_, hP⟩

/-- C115: the constructor with exchanged arguments returns the exchanged partition. -/
theorem C115_init (lower : String → String) (coerce : Opt.Kind → Opt.Val → Option Opt.Val) (coul : K → K → G.Fld)
    (hcoul : ∀ Za Zb, coul Zb Za = G.mir (coul Za Zb)) (a : K) {r' c' : ℕ} (Za Zb : K) (occA occB : Occ K r c r' c') (opt : Opt.Dict)
    {P : Part G r c p} (hP : Part.init lower coerce G coul a p Za Zb 1 1 occA occB opt = .ok P) :
    ∃ Q, Part.init lower coerce G coul a p Zb Za 1 1 occB occA opt = .ok Q ∧ Exchanged P Q := by
  unfold Part.init at hP ⊢
  obtain ⟨d, hd, hP⟩ := Py.bind_eq_ok.1 hP
  rw [hd]
  have red : ∀ {α β : Type} (a : α) (f : α → Py β), ((Except.ok a : Py α) >>= f) = f a := fun _ _ => rfl
  have redp : ∀ {α β : Type} (a : α) (f : α → Py β), ((pure a : Py α) >>= f) = f a := fun _ _ => rfl
  simp only [and_self, if_true, scaleFactors, not_true, if_false, redp, red] at hP ⊢
  obtain ⟨u, hu, hP⟩ := Py.bind_eq_ok.1 hP
  obtain ⟨ka, hka, hP⟩ := Py.bind_eq_ok.1 hP
  obtain ⟨kb, hkb, hP⟩ := Py.bind_eq_ok.1 hP
  obtain ⟨ka', hka', ha⟩ := (C109_init lower coerce G coul hcoul a p Za 0 occA.Nmo occA.N _).ok_left hka
  obtain ⟨kb', hkb', hb⟩ := (C109_init lower coerce G coul hcoul a p 0 Zb occB.Nmo occB.N _).ok_left hkb
  have hu' : checkAbSym (Opt.flag d "ab_sym") Zb Za = .ok u := by
    unfold checkAbSym at hu ⊢
    exact (if_congr (and_congr_right fun _ => ne_comm) rfl rfl).trans hu
  rw [hu', red, hkb', red, hka', red]
  split at hP
  · cases hP
  · rename_i hp
    rw [if_neg hp]
    obtain rfl := Except.ok.inj hP
    refine ⟨_, rfl, ?_⟩
    have hv : MirrorV ({} : FragV G p) {} := ⟨rfl, rfl, rfl, rfl, rfl, rfl, rfl, rfl, rfl, rfl, rfl, rfl, rfl⟩
    refine ⟨rfl, rfl, rfl, rfl, hcoul 0 Zb, hcoul Za 0, ⟨{ hb with scale := rfl }, hv⟩, ⟨{ ha with scale := rfl }, hv⟩, rfl, rfl, rfl, rfl, rfl, rfl, rfl, rfl,
      rfl, rfl, rfl, rfl, rfl, rfl, rfl, rfl, rfl, rfl, rfl, rfl, rfl, rfl, rfl, rfl, rfl, rfl, rfl, rfl, rfl, rfl, rfl, rfl⟩

section RealGrid
open FD Init Ops Libxc Hartree

/-- C115: on the real grid, with functionals from libxc and a Hartree potential whose factorisation needs no exchanges, the
environment treats both sides alike. -/
theorem C115_environment_partial (H : Hartree.HGrid) (hk : 0 < H.bcN) (hNa : H.bcN ≤ H.Na) (ha0 : 0 < H.a) (hL0 : 0 < H.L)
    (ds1 ds2 : Fin (2 * H.bcN + 1) → ℝ) (hds1 : FDC.Returns (fun i => ((centred H.bcN i : ℤ) : ℝ)) 1 (.ok ds1))
    (hds2 : FDC.Returns (fun i => ((centred H.bcN i : ℤ) : ℝ)) 2 (.ok ds2)) (R : Result ℝ H.Na H.Nr H.bcN)
    (hR : build H.Na H.Nr H.bcN H.a H.L (centred H.bcN) ds1 ds2 = .ok R) (hlu : IsSplu R.elap 1 1 H.Llap H.Ulap)
    (hbl : H.blap = R.blap) (hwi : ∀ k, H.wi (mirK k) = H.wi k) (family : String) (X C Ki : Func H.grid 1 1) (hX : Pointwise X)
    (hC : Pointwise C) (hK : Pointwise Ki) {r c : ℕ} (T : Env H.grid r c 1)
    (hF : T.toFunctionals = H.functionals1 ⟨R.grada, R.gradr, R.diva, R.divr⟩ family X C)
    (hH : ∀ n, T.hartree1 n = .ok (H.solve (H.source n)))
    (hT : ∀ n, T.kinetic n = (getXc1 ⟨R.grada, R.gradr, R.diva, R.divr⟩ family Ki n).map fun x => (x.exc, x.vxc))
    (hE : T.elap = R.elap) : SidelessEnv T := by
  have hG : MirrorInvariant H.grid := fun f => H.integ_mirror hwi f
  obtain ⟨R', hR', hO⟩ := C109_operators hk hNa H.hb ha0 hL0 ds1 ds2 hds1 hds2 H.grid.pi H.grid.ha H.grid.hr H.grid.wi H.grid.w
  obtain rfl : R = R' := Except.ok.inj (hR.symm.trans hR')
  obtain ⟨R', hR', hl, -⟩ := C14_mirror hk hNa H.hb H.a hL0 ds1 ds2 hds1 hds2
  obtain rfl : R = R' := Except.ok.inj (hR.symm.trans hR')
  have hm := (C109_functionals_partial H hk hNa ha0 hL0 ds1 ds2 hds1 hds2 R hR hlu hbl hwi family).1 X C hX hC
  rw [← hF] at hm
  refine { hm with kinetic := fun n => ?_, elap := fun k l => ?_, weight := fun k => ?_, hartree1 := fun n => ?_, wi := hwi }
  · rw [hT, hT, C109_xc1 hG hO family hK n]
    cases getXc1 (G := H.grid) ⟨R.grada, R.gradr, R.diva, R.divr⟩ family Ki n <;> rfl
  · rw [hE]
    have e1 : Init.mir (Pi.single l (1 : ℝ)) = Pi.single (mirK l) 1 := by
      funext q
      change (Pi.single l (1 : ℝ) : Fin (H.Na * H.Nr) → ℝ) (mirK q) = _
      by_cases hq : q = mirK l
      · subst hq
        rw [mirK_mirK, Pi.single_eq_same, Pi.single_eq_same]
      · rw [Pi.single_eq_of_ne hq, Pi.single_eq_of_ne]
        rintro rfl
        exact hq (mirK_mirK q).symm
    change R.elap (mirK k) (mirK l) = R.elap k l
    have e2 := congrFun (hl (Pi.single l 1)) (mirK k)
    rw [e1, Matrix.mulVec_single_one, show Init.mir (R.elap.mulVec (Pi.single l 1)) (mirK k) = R.elap.mulVec (Pi.single l 1) k from
      congrArg _ (mirK_mirK k), Matrix.mulVec_single_one] at e2
    exact e2
  · change Init.w H.Na H.Nr H.a H.L (mirK k) = Init.w H.Na H.Nr H.a H.L k
    rw [w_eq, w_eq, Xr_mirK, sin_mirK]
  · rw [hH, hH]
    exact congrArg Except.ok (congrFun (C17_mirror_partial H hk hNa hL0 ds1 ds2 hds1 hds2 R hR hlu hbl hwi n) 0)

end RealGrid

section Example

/-- A fragment of charge `Za` at the first and one of charge `Zb` at the second of two points. -/
def C115_P (Za Zb : ℚ) : Part C110_G 1 1 1 :=
  { opt := { hxc := .exact, kin := .none, interaction := .ni }
    Za, Zb, a := 1, va := ![-Za, -Za / 2], vb := ![-Zb / 2, -Zb]
    fa := ⟨C110_ks Za 0, {}⟩, fb := ⟨C110_ks 0 Zb, {}⟩ }

theorem C115_twins (Z : ℚ) : Twins (⟨C110_ks Z 0, {}⟩ : Frag C110_G 1 1 1) ⟨C110_ks 0 Z, {}⟩ := by
  refine ⟨⟨rfl, rfl, rfl, rfl, rfl, fun w => ⟨rfl, rfl, rfl, rfl, rfl, rfl, rfl, rfl, .none⟩, ?_, rfl, rfl, rfl, rfl, rfl, rfl, rfl,
    rfl, rfl, rfl, rfl⟩, ⟨rfl, rfl, rfl, rfl, rfl, rfl, rfl, rfl, rfl, rfl, rfl, rfl, rfl⟩⟩
  funext s
  change ![-0 - Z / 2, -Z - 0 / 2] = C110_G.mir ![-Z - 0 / 2, -0 - Z / 2]
  rw [C110_mir]

theorem C115_exchanged (Za Zb : ℚ) : Exchanged (C115_P Za Zb) (C115_P Zb Za) :=
  ⟨rfl, rfl, rfl, rfl, (C110_mir _ _).symm, (C110_mir _ _).symm, (C115_twins Zb).symm, C115_twins Za, rfl, rfl, rfl, rfl, rfl, rfl, rfl, rfl,
    rfl, rfl, rfl, rfl, rfl, rfl, rfl, rfl, rfl, rfl, rfl, rfl, rfl, rfl, rfl, rfl, rfl, rfl, rfl, rfl, rfl, rfl, rfl, rfl⟩

theorem C115_env : SidelessEnv C110_T :=
  { C110_env with
    hartree1 := fun _ => rfl
    wi := fun k => (by decide : ∀ k, C110_G.wi (C110_G.mirIx k) = C110_G.wi k) k }

def C115_o (alpha : List ℚ) : PartScf.Options ℚ := { etol := 1 / 10, maxIter := 1, alpha }

/-- Energies, densities of the fragments and partition potential. -/
def C115_run (Za Zb : ℚ) (alpha : List ℚ) : Option (List ℚ) := do
  let x ← (scf (fun _ => C110_T) (fun _ => C109_W 1) (C115_o alpha) (C115_P Za Zb)).toOption
  let E ← x.1.E
  let na ← x.1.fa.ks.n
  let nb ← x.1.fb.ks.n
  let vp ← x.1.vp
  pure [x.2.1.length, Fl.clean E.Ea, Fl.clean E.Eb, na 0 0, na 0 1, nb 0 0, nb 0 1, vp 0 0, vp 0 1]

/-- The hypotheses hold for a partition of two different nuclei; the result of the exchanged calculation is the exchanged
result. -/
example : MirrorInvariant C110_G ∧ MirrorWorkers (C109_W 1) ∧ (C115_P 2 1).opt.abSym = false ∧
    exchangedOptions (C115_o [1 / 2, 1]) = C115_o [1, 1 / 2] ∧
    C115_run 2 1 [1 / 2, 1] = some [1, -2961 / 370, -2685 / 569, 541 / 370, 199 / 370, 338 / 569, 800 / 569, -4 / 5, -1] ∧
    C115_run 1 2 [1, 1 / 2] = some [1, -2685 / 569, -2961 / 370, 800 / 569, 338 / 569, 199 / 370, 541 / 370, -1, -4 / 5] := by
  refine ⟨fun f => ?_, C109_workers_example 1, rfl, rfl, ?_, ?_⟩
  · rw [C109_mir]
    simp [Grid.integ, Fin.sum_univ_two, add_comm]
  · decide +kernel
  · decide +kernel

/-- An ensemble of two components of equal weight in each fragment. -/
def C115_E (a A b B : ℚ) : Part C110_G 1 1 1 :=
  { C115_P 1 1 with
    opt := { hxc := .exact, kin := .none, interaction := .ni, isolated := true }
    fa := C110_f a 1 0, fb := C110_f b 0 1, fAB := some (C110_f A 1 0, C110_f B 0 1) }

/-- In an ensemble the total energy depends on the names of the fragments: 12 and 8 (C42). -/
theorem C115_refuted_ensemble :
    (∀ e, Twins (C110_f e 1 0) (C110_f e 0 1)) ∧
    (((C115_E 1 3 0 10).energy C110_T).toOption.bind fun P => P.E.map (·.Ef)) = some (.fin 12) ∧
    (((C115_E 0 10 1 3).energy C110_T).toOption.bind fun P => P.E.map (·.Ef)) = some (.fin 8) :=
  ⟨fun _ => ⟨{ (C115_twins 1).ks with scale := rfl, E := rfl }, (C115_twins 1).v⟩, by decide +kernel, by decide +kernel⟩

/-- Inversion: the reference is the last HOMO of fragment B, whatever that of A is (C45). -/
theorem C115_refuted_inversion :
    (C110_I (fun _ => some (-1)) fun _ => some (-3)).inversionU = -3 ∧ (C110_I (fun _ => some (-3)) fun _ => some (-1)).inversionU = -1 := by
  decide +kernel

end Example

end Verif
