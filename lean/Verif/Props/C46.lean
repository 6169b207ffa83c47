import Verif.Props.C47
import Verif.Props.C48

/-! # C46: option values and successful calculations -/

namespace Verif
open Spec Part PartScf
variable {K : Type} [Field K] [LinearOrder K] [IsStrictOrderedRing K] [FloorRing K]
variable {G : Grid K} {r c p : ℕ}

/-! ## Options that always raise -/

/-- The option values with which a non-isolated calculation can get through a pass (`ens`: the partition has
ensemble components, `p`: spins). -/
def Spec.Working (p : ℕ) (ens : Bool) (o : PartOpt) : Prop :=
  o.vpCalc = .component ∧ o.kin ≠ .paramke ∧ o.kin ≠ .fixed ∧ o.kin ≠ .vonweiz ∧
  (o.kin = .twoorbital → p ≠ 2) ∧
  o.hxc ≠ .surprisal ∧ o.hxc ≠ .overlapHxc2 ∧ (o.hxc = .overlapHxc → ens = true) ∧
  (o.interaction = .ni → o.hxc = .exact)

theorem energy_fixed {T : Env G r c p} {P P' : Part G r c p} (h : P.energy T = .ok P')
    (hi : P.opt.isolated = false) : P.opt.kin ≠ .fixed := by
  intro hk
  obtain ⟨sa, sb, P₁, pot, hxc, kin, ep, ea, eb, -, h2, -, -⟩ := energy_inv h
  unfold partitionEnergy epKinetic kineticEnergies at h2
  rw [if_neg (by rw [hi]; decide), hk] at h2
  simp only [Py.do_eq_ok] at h2
  obtain ⟨_, _, _, ⟨_, h3, _⟩, _⟩ := h2
  exact nomatch h3

theorem fAB_of_ks {P P' : Part G r c p} (h : List.Forall₂ (fun f g => g.ks = f.ks ∧ g.v.frozen = f.v.frozen)
    P.compsA P'.compsA) : P'.ens = P.ens := by
  unfold ens
  unfold compsA at h
  have := h.length_eq
  cases h1 : P.fAB <;> cases h2 : P'.fAB <;> rw [h1, h2] at this <;> simp at this ⊢

/-- What a successful evaluation of the partition potential says about the options. -/
theorem partitionPotential_options {T : Env G r c p} {P P' : Part G r c p} {vp : G.Cols p}
    (h : P.partitionPotential T = .ok (P', vp)) :
    P.opt.vpCalc = .component ∧ P.opt.kin ≠ .paramke ∧ (P.opt.kin = .twoorbital → p ≠ 2) ∧
    P.opt.hxc ≠ .surprisal ∧ P.opt.hxc ≠ .overlapHxc2 ∧ (P.opt.hxc = .overlapHxc → P.ens = true) ∧
    (P.opt.interaction = .ni → P.opt.hxc = .exact) := by
  obtain ⟨hc, P₁, P₂, P₃, P₄, P₅, pot, kin, hxc, hh, x, cc, h1, h2, h3, h4, h5, -⟩ := partitionPotential_inv h
  have f1 := vpNuclear_frame h1
  have f2 := f1.trans (vpKinetic_frame h2)
  have f3 := f2.trans (hxcStart_frame h3)
  refine ⟨hc, ?_, ?_, ?_, ?_, ?_, ?_⟩
  · intro hk
    unfold vpKinetic at h2
    rw [f1.opt, hk] at h2
    exact nomatch h2
  · intro hk hp
    unfold vpKinetic at h2
    rw [f1.opt, hk] at h2
    simp only [hp, ↓reduceIte] at h2
    exact nomatch h2
  · intro hk
    unfold hxcCollect at h4
    rw [f3.opt, hk] at h4
    exact nomatch h4
  · intro hk
    unfold hxcCollect at h4
    rw [f3.opt, hk] at h4
    exact nomatch h4
  · intro hk
    unfold hxcCollect at h4
    rw [f3.opt, hk] at h4
    simp only [Py.do_eq_ok] at h4
    obtain ⟨Q, hQ, R, hR, -⟩ := h4
    have fQ := f3.trans (vpOverlap_frame hQ)
    unfold ensCorHar at hR
    rw [← fAB_of_ks fQ.ksA]
    unfold ens
    cases hAB : Q.fAB with
    | none => rw [hAB] at hR; exact nomatch hR
    | some x => rfl
  · intro hn
    by_contra hx
    unfold hxcStart at h3
    rw [f2.opt, if_neg (fun h => hx h.1), if_pos hn] at h3
    exact nomatch h3

theorem ens_sameBut {P P' : Part G r c p} (h : P.compsA.length = P'.compsA.length) : P'.ens = P.ens := by
  unfold ens
  unfold compsA at h
  cases h1 : P.fAB <;> cases h2 : P'.fAB <;> rw [h1, h2] at h <;> simp at h ⊢

theorem Holds.ens {P P' : Part G r c p} (h : Holds P P') : P'.ens = P.ens := ens_sameBut h.A.length_eq

/-- C46 is false: a pass of a non-isolated `Partition.scf` can only succeed with the option values `Working`
(on a grid of more than one point), whatever densities, functionals and orbitals are.  Accepted
values not among them: 'potential_inversion', 'paramke', 'fixed', 'vonweiz', 'surprisal',
'overlap_hxc_2', 'overlap_hxc' without an ensemble, 'twoorbital' with two spins, and any
`hxc_part_type` but 'exact' without interaction. -/
theorem C46_refuted (T : ℕ → Env G r c p) (W : ℕ → KsScf.Workers G r c p) (o : Options K)
    (st st' : State G r c p) (d : Fl K) (h : body T W o st = .ok (st', d)) (hi : st.P.opt.isolated = false)
    (hcard : Fintype.card G.Ix ≠ 1) :
    Working p st.P.ens st.P.opt := by
  have hb := body_inv h
  have ha := avoid_holds st.it st.P
  obtain ⟨P₁, P₂, P₃, P₄, P₅, P₆, vp, h1, h2, h3, h4, h5, h6, h7, o1, o2, o3, o4, o5, o6, o7⟩ := pass_inv hb
  have hopt : ∀ {Q : Part G r c p}, SameOpt (avoid st.it st.P) Q → Q.opt = st.P.opt := fun hq => hq.1.trans ha.opt.1
  unfold potential at h3
  rw [if_neg (by rw [hopt o2, hi]; decide)] at h3
  obtain ⟨k1, k2, k3, k4, k5, k6, k7⟩ := partitionPotential_options h3
  rw [hopt o2] at k1 k2 k3 k4 k5 k6 k7
  have hens : P₂.ens = st.P.ens := by
    have e1 := (onKSab_inv h1).2.1.length_eq
    have e2 := (mirrorIf_inv h2).2.1
    have e0 := ha.A.length_eq
    exact ens_sameBut (by rw [e2, ← e1, e0])
  rw [hens] at k6
  have hi6 : P₆.opt.isolated = false := by rw [hopt o6]; exact hi
  refine ⟨k1, k2, ?_, ?_, k3, k4, k5, k6, k7⟩
  · have := energy_fixed h7 hi6
    rwa [hopt o6] at this
  · intro hk
    obtain ⟨e, f, he, hv⟩ := energy_vec _ P₆ st'.P (by rw [hopt o6]; exact hk) hi6 h7
    obtain ⟨nf, hnf⟩ := (promolecule_inv h6).2.2.2.2.1
    have := C47_refuted_scf T W o st st'.P hb e he nf ((energy_frame h7).nf.trans hnf) f hv hcard
    rw [h] at this
    exact nomatch this

/-- Concrete refutations: the two-point calculation fails with these values (and runs with others, see the
example below). -/
theorem C46_refuted_values :
    (∀ o ∈ [({ kin := .none, vpCalc := .potentialInversion } : PartOpt), { kin := .paramke }, { kin := .fixed },
      { kin := .vonweiz }, { kin := .none, hxc := .surprisal }, { kin := .none, hxc := .overlapHxc2 },
      { kin := .none, hxc := .overlapHxc }, { kin := .none, hxc := .overlapXc },
      { kin := .none, hxc := .hartree, interaction := .ni }],
      (Sample.run { etol := 0, maxIter := 1, alpha := [1] } o).toOption.isNone = true) := by decide +kernel

/-! ## Options that work -/

theorem mapA_ok {f : Frag G r c p → Py (Frag G r c p)} {P : Part G r c p}
    (h : ∀ x ∈ P.compsA, ∃ y, f x = .ok y) : ∃ P', P.mapA f = .ok P' := by
  obtain ⟨a, ha⟩ := h P.fa (List.mem_cons_self ..)
  unfold mapA
  cases hAB : P.fAB with
  | none => exact ⟨_, by rw [ha]; rfl⟩
  | some x =>
    obtain ⟨A, hA⟩ := h x.1 (by simp [compsA, hAB])
    exact ⟨{ P with fa := a, fAB := some (A, x.2) }, by rw [ha]; simp only [bind, Except.bind, hA]; rfl⟩

theorem mapAll_ok {f : Frag G r c p → Py (Frag G r c p)} {P : Part G r c p} (post : Frag G r c p → Prop)
    (h : ∀ x ∈ P.comps, ∃ y, f x = .ok y ∧ post y) :
    ∃ P', P.mapAll f = .ok P' ∧ SameBut P P' ∧ ∀ y ∈ P'.comps, post y := by
  have hex : ∃ P', P.mapAll f = .ok P' := by
    obtain ⟨P₁, h1⟩ := mapA_ok (P := P) fun x hx => by
      obtain ⟨y, hy, -⟩ := h x (List.mem_append_left _ hx)
      exact ⟨y, hy⟩
    have hB : P₁.compsB = P.compsB := (mapA_inv h1).2.2
    unfold mapAll
    rw [h1]
    change ∃ P', P₁.mapB f = .ok P'
    obtain ⟨b, hb, -⟩ := h P₁.fb (List.mem_append_right _ (hB ▸ List.mem_cons_self ..))
    unfold mapB
    cases hAB : P₁.fAB with
    | none => exact ⟨_, by rw [hb]; rfl⟩
    | some x =>
      obtain ⟨B, hB', -⟩ := h x.2 (List.mem_append_right _ (hB ▸ by simp [compsB, hAB]))
      exact ⟨{ P₁ with fb := b, fAB := some (x.1, B) }, by rw [hb]; simp only [bind, Except.bind, hB']; rfl⟩
  obtain ⟨P', hP⟩ := hex
  refine ⟨P', hP, (mapAll_inv hP).1, fun y hy => ?_⟩
  obtain ⟨x, hx, hxy⟩ := mem_right (mapAll_comps hP) hy
  obtain ⟨y', hy', hp⟩ := h x hx
  obtain rfl := Except.ok.inj (hxy.symm.trans hy')
  exact hp

/-- A component after a Kohn-Sham step with energies: density, weight, Q function, potentials and energies
are there. -/
structure Spec.Ready (dft : Bool) (f : Frag G r c p) : Prop where
  n : ∃ n, f.ks.n = some n
  scale : ∃ s, f.ks.scale = some s
  Q : ∃ Q, f.ks.Q = some Q
  veff : ∃ v, f.ks.veff = some v
  E : ∃ e, f.ks.E = some e ∧ (dft = true → (∃ x, e.Eh = some x) ∧ ∃ x, e.Vhxc = some x)
  V : dft = true → (∃ x, f.ks.V.vh = some x) ∧ (∃ x, f.ks.V.vx = some x) ∧ (∃ x, f.ks.V.vc = some x) ∧
    (∃ x, f.ks.V.ex = some x) ∧ (∃ x, f.ks.V.ec = some x) ∧ ∃ x, f.ks.V.eh = some x

/-- Functionals, inversion and two-orbital functional return. -/
structure Spec.Total (T : Env G r c p) : Prop where
  exchange : ∀ n, ∃ x, T.exchange n = .ok x
  correlation : ∀ n, ∃ x, T.correlation n = .ok x
  hartree : ∀ n, ∃ x, T.hartree n = .ok x
  hartree1 : ∀ n, ∃ x, T.hartree1 n = .ok x
  kinetic : ∀ n, ∃ x, T.kinetic n = .ok x
  invert : ∀ P, ∃ x, T.invert P = .ok x
  twoPot : ∀ P, ∃ x, T.twoOrbitalPot P = .ok x
  twoEnergy : ∀ P, ∃ x, T.twoOrbitalEnergy P = .ok x

theorem foldlM_ok {α β : Type} {f : β → α → Py β} (l : List α) (h : ∀ x ∈ l, ∀ b, ∃ b', f b x = .ok b') (b : β) :
    ∃ b', l.foldlM f b = .ok b' := by
  induction l generalizing b with
  | nil => exact ⟨b, rfl⟩
  | cons x l ih =>
    obtain ⟨b', hb⟩ := h x (List.mem_cons_self ..) b
    rw [List.foldlM_cons, hb]
    exact ih (fun y hy => h y (List.mem_cons_of_mem _ hy)) b'

theorem ready_mem {dft : Bool} {P P' : Part G r c p} (h : Frame P P') (hr : ∀ f ∈ P.comps, Ready dft f) :
    ∀ f ∈ P'.comps, Ready dft f := fun f hf => by
  obtain ⟨x, hx, e⟩ := mem_right h.ks hf
  obtain ⟨a, b, c, d, e', g⟩ := hr x hx
  exact ⟨e.1 ▸ a, e.1 ▸ b, e.1 ▸ c, e.1 ▸ d, e.1 ▸ e', e.1 ▸ g⟩

theorem average_ok {P : Part G r c p} {dft : Bool} (hr : ∀ f ∈ P.comps, Ready dft f)
    (x : Frag G r c p → Option (G.Cols p)) (hx : ∀ f ∈ P.comps, ∃ v, x f = some v) : ∃ v, P.average x = .ok v := by
  have : ∃ v, P.qAverage x = .ok v := by
    unfold qAverage
    refine foldlM_ok _ (fun f hf b => ?_) _
    obtain ⟨v, hv⟩ := hx f hf
    obtain ⟨Q, hQ⟩ := (hr f hf).Q
    exact ⟨fun j k => b j k + v j k * Q j k, by rw [hv, hQ]; rfl⟩
  obtain ⟨v, hv⟩ := this
  exact ⟨_, by unfold Part.average; rw [hv]; rfl⟩

theorem kinetic_ok {T : Env G r c p} (hT : Total T) {P : Part G r c p} {dft : Bool} (hr : ∀ f ∈ P.comps, Ready dft f)
    (nf : G.Cols p) (hnf : P.nf = some nf) (hpot : ∀ f ∈ P.comps, ∃ v, f.v.vpPot = some v)
    (hk : P.opt.kin = .libxcke ∨ P.opt.kin = .none ∨ P.opt.kin = .inversion ∨
      (P.opt.kin = .twoorbital ∧ p ≠ 2 ∧ P.fAB = none)) :
    ∃ P', P.vpKinetic T = .ok P' ∧ (∀ f ∈ P'.comps, (∃ v, f.v.vpPot = some v) ∧ ∃ v, f.v.vpKin = some v) ∧
      (P.opt.kin = .libxcke → (∃ t, P'.Tsm = some t) ∧ ∀ f ∈ P'.comps, ∃ t, f.v.Ts = some t) ∧
      (P.opt.kin = .inversion → ∃ t, P'.invTs = some t) := by
  have fin : ∀ (Q : Part G r c p) (vt : G.Cols p) (R : Frag G r c p → Prop),
      (∀ f ∈ Q.comps, (∃ v, f.v.vpPot = some v) ∧ (∃ v, f.v.vt = some v) ∧ R f) →
      (∀ (f : Frag G r c p) x, R f → R ⟨f.ks, { f.v with vpKin := some x }⟩) →
      ∃ P', finishKinetic vt Q = .ok P' ∧
        (∀ f ∈ P'.comps, ((∃ v, f.v.vpPot = some v) ∧ ∃ v, f.v.vpKin = some v) ∧ R f) ∧
        P'.Tsm = Q.Tsm ∧ P'.invTs = Q.invTs := by
    intro Q vt R hQ hR
    obtain ⟨P', h1, ⟨a, b, AB, h2⟩, h3⟩ := mapAll_ok (P := { Q with vt := some vt })
      (f := fun f => do
        let v ← attr f.v.vt
        pure { f with v := { f.v with vpKin := some fun j k => vt j k - v j k } })
      (post := fun f => ((∃ v, f.v.vpPot = some v) ∧ ∃ v, f.v.vpKin = some v) ∧ R f) (fun x hx => by
        obtain ⟨h1, ⟨v, h2⟩, h3⟩ := hQ x hx
        exact ⟨⟨x.ks, { x.v with vpKin := some fun j k => vt j k - v j k }⟩, by rw [h2]; rfl, ⟨h1, _, rfl⟩,
          hR x _ h3⟩)
    exact ⟨P', h1, h3, by rw [h2], by rw [h2]⟩
  rcases hk with hk | hk | hk | ⟨hk, hp, hAB⟩
  · obtain ⟨⟨Ts, vt⟩, ht⟩ := hT.kinetic nf
    obtain ⟨Q, h1, h2, h3⟩ := mapAll_ok (P := P)
      (f := fun f => do
        let n ← KS.need f.ks.n
        let (Tf, v) ← T.kinetic n
        pure { f with v := { f.v with vt := some v, Ts := some Tf } })
      (post := fun f => (∃ v, f.v.vpPot = some v) ∧ (∃ v, f.v.vt = some v) ∧ ∃ t, f.v.Ts = some t) (fun x hx => by
        obtain ⟨n, hn⟩ := (hr x hx).n
        obtain ⟨⟨Tf, v⟩, hv⟩ := hT.kinetic n
        exact ⟨⟨x.ks, { x.v with vt := some v, Ts := some Tf }⟩,
          by rw [hn]; simp only [KS.need, bind, Except.bind, hv]; rfl, hpot x hx, ⟨_, rfl⟩, _, rfl⟩)
    obtain ⟨P', g1, g2, g3, g4⟩ := fin { Q with Tsm := some Ts } vt (fun f => ∃ t, f.v.Ts = some t) h3
      (fun f x hf => hf)
    refine ⟨P', ?_, fun f hf => (g2 f hf).1, fun _ => ⟨⟨Ts, g3⟩, fun f hf => (g2 f hf).2⟩, fun h => ?_⟩
    · unfold vpKinetic
      rw [hk, hnf]
      simp only [attr, bind, Except.bind, ht]
      have h1' : P.mapAll (fun f => (do
        let n ← KS.need f.ks.n
        let (Tf, v) ← T.kinetic n
        pure { f with v := { f.v with vt := some v, Ts := some Tf } } : Py (Frag G r c p))) = .ok Q := h1
      simp only [bind, Except.bind] at h1'
      rw [h1']
      exact g1
    · rw [hk] at h; exact nomatch h
  · obtain ⟨Q, h1, h2, h3⟩ := mapAll_ok (P := P) (f := zeroVt)
      (post := fun f => (∃ v, f.v.vpPot = some v) ∧ (∃ v, f.v.vt = some v) ∧ True)
      (fun x hx => ⟨_, rfl, hpot x hx, ⟨_, rfl⟩, trivial⟩)
    obtain ⟨P', g1, g2, g3, g4⟩ := fin Q (fun _ _ => 0) (fun _ => True) h3 (fun f x hf => hf)
    refine ⟨P', ?_, fun f hf => (g2 f hf).1, fun h => ?_, fun h => ?_⟩
    · unfold vpKinetic
      rw [hk, hnf]
      simp only [attr, bind, Except.bind, h1]
      exact g1
    · rw [hk] at h; exact nomatch h
    · rw [hk] at h; exact nomatch h
  · obtain ⟨Q, h1, h2, h3⟩ := mapAll_ok (P := P) (f := eulerVt P.inversionU)
      (post := fun f => (∃ v, f.v.vpPot = some v) ∧ (∃ v, f.v.vt = some v) ∧ True)
      (fun x hx => by
        obtain ⟨v, hv⟩ := (hr x hx).veff
        exact ⟨⟨x.ks, { x.v with vt := some fun j k => P.inversionU - v j k }⟩, by unfold eulerVt; rw [hv]; rfl,
          hpot x hx, ⟨_, rfl⟩, trivial⟩)
    obtain ⟨⟨vt, Ts, info⟩, ht⟩ := hT.invert Q
    obtain ⟨P', g1, g2, g3, g4⟩ := fin { Q with invTs := some Ts, invInfo := some info } vt (fun _ => True) h3
      (fun f x hf => hf)
    refine ⟨P', ?_, fun f hf => (g2 f hf).1, fun h => ?_, fun _ => ⟨Ts, g4⟩⟩
    · unfold vpKinetic
      rw [hk]
      simp only [bind, Except.bind, h1, ht]
      exact g1
    · rw [hk] at h; exact nomatch h
  · obtain ⟨⟨v1, v2, vf⟩, ht⟩ := hT.twoPot P
    obtain ⟨Q, h1, ⟨a, b, AB, h2⟩, h3⟩ := mapAll_ok (P := P)
      (f := fun f => pure { f with v := { f.v with vt := some (vf f) } })
      (post := fun f => (∃ v, f.v.vpPot = some v) ∧ (∃ v, f.v.vt = some v))
      (fun x hx => ⟨_, rfl, hpot x hx, ⟨_, rfl⟩⟩)
    have hQ : Q.fAB = none := by
      have e := (mapAll_inv h1).2.1.length_eq
      unfold compsA at e
      rw [hAB] at e
      cases hq : Q.fAB with
      | none => rfl
      | some x => rw [hq] at e; simp at e
    obtain ⟨⟨pa, hpa⟩, ta, hta⟩ := h3 Q.fa (by simp [comps, compsA])
    obtain ⟨⟨pb, hpb⟩, tb, htb⟩ := h3 Q.fb (by simp [comps, compsB])
    refine ⟨{ Q with
      fa := ⟨Q.fa.ks, { Q.fa.v with vpKin := some fun j k => v1 k - ta j k }⟩
      fb := ⟨Q.fb.ks, { Q.fb.v with vpKin := some fun j k => v2 k - tb j k }⟩ }, ?_, ?_, fun h => ?_, fun h => ?_⟩
    · unfold vpKinetic
      rw [hk]
      simp only [if_neg hp, bind, Except.bind, ht]
      simp only [pure] at h1
      simp only [pure]
      rw [h1]
      simp only [hta, htb, attr]
      rfl
    · intro f hf
      simp only [comps, compsA, compsB, hQ, Option.map_none, Option.toList_none, List.cons_append,
        List.nil_append, List.mem_cons, List.not_mem_nil, or_false] at hf
      rcases hf with rfl | rfl
      · exact ⟨⟨pa, hpa⟩, _, rfl⟩
      · exact ⟨⟨pb, hpb⟩, _, rfl⟩
    · rw [hk] at h; exact nomatch h
    · rw [hk] at h; exact nomatch h

/-- Attributes of a component that the overlap functions and `energy()` keep. -/
structure VKeep (f g : Frag G r c p) : Prop where
  vpPot : g.v.vpPot = f.v.vpPot
  vpKin : g.v.vpKin = f.v.vpKin
  vpH : g.v.vpH = f.v.vpH
  vpX : g.v.vpX = f.v.vpX
  vpC : g.v.vpC = f.v.vpC
  Ts : g.v.Ts = f.v.Ts
  dFdn : (∃ x, f.v.dFdn = some x) → ∃ x, g.v.dFdn = some x
  vhcor : (∃ x, f.v.vhcor = some x) → ∃ x, g.v.vhcor = some x

theorem VKeep.refl (f : Frag G r c p) : VKeep f f := ⟨rfl, rfl, rfl, rfl, rfl, rfl, id, id⟩

theorem VKeep.trans {f g h : Frag G r c p} (a : VKeep f g) (b : VKeep g h) : VKeep f h :=
  ⟨b.1.trans a.1, b.2.trans a.2, b.3.trans a.3, b.4.trans a.4, b.5.trans a.5, b.6.trans a.6,
    fun x => b.7 (a.7 x), fun x => b.8 (a.8 x)⟩

abbrev VKeeps (P P' : Part G r c p) : Prop := List.Forall₂ VKeep P.comps P'.comps

theorem VKeeps.trans {P Q R : Part G r c p} (a : VKeeps P Q) (b : VKeeps Q R) : VKeeps P R :=
  forall₂_trans (R := VKeep) (S := VKeep) (fun _ _ _ => VKeep.trans) a b

/-- What the molecule has stored after `vp_kinetic` and the first part of `vp_hxc`. -/
structure Stored (dft : Bool) (P : Part G r c p) : Prop where
  nf : ∃ x, P.nf = some x
  naFrac : ∃ x, P.naFrac = some x
  nbFrac : ∃ x, P.nbFrac = some x
  xc : dft = true → (∃ x, P.ex = some x) ∧ (∃ x, P.ec = some x) ∧ (∃ x, P.epsX = some x) ∧ ∃ x, P.epsC = some x
  Tsm : P.opt.kin = .libxcke → (∃ t, P.Tsm = some t) ∧ ∀ f ∈ P.comps, ∃ t, f.v.Ts = some t
  invTs : P.opt.kin = .inversion → ∃ t, P.invTs = some t

theorem mapB_ok {f : Frag G r c p → Py (Frag G r c p)} {P : Part G r c p}
    (h : ∀ x ∈ P.compsB, ∃ y, f x = .ok y) : ∃ P', P.mapB f = .ok P' := by
  obtain ⟨a, ha⟩ := h P.fb (List.mem_cons_self ..)
  unfold mapB
  cases hAB : P.fAB with
  | none => exact ⟨_, by rw [ha]; rfl⟩
  | some x =>
    obtain ⟨A, hA⟩ := h x.2 (by simp [compsB, hAB])
    exact ⟨{ P with fb := a, fAB := some (x.1, A) }, by rw [ha]; simp only [bind, Except.bind, hA]; rfl⟩

theorem bind_ok {α β : Type} {x : Py α} {f : α → Py β} (hx : ∃ a, x = .ok a)
    (hf : ∀ a, x = .ok a → ∃ b, f a = .ok b) : ∃ b, (x >>= f) = .ok b := by
  obtain ⟨a, rfl⟩ := hx
  exact hf a rfl

/-- `vp_overlap` succeeds, sets `F` and every `dFdn`. -/
theorem vpOverlap_ok {T : Env G r c p} {P : Part G r c p} {dft : Bool} (hr : ∀ f ∈ P.comps, Ready dft f)
    (ha : ∃ x, P.naFrac = some x) (hb : ∃ x, P.nbFrac = some x) :
    ∃ P', P.vpOverlap T = .ok P' ∧ (∃ x, P'.F = some x) ∧ VKeeps P P' ∧
      (∀ f ∈ P'.comps, ∃ x, f.v.dFdn = some x) ∧
      (∀ d, Stored d P → Stored d P') ∧ P'.ens = P.ens := by
  obtain ⟨na, hna⟩ := ha
  obtain ⟨nb, hnb⟩ := hb
  have key : ∃ P', P.vpOverlap T = .ok P' := by
    unfold vpOverlap
    rw [hna, hnb]
    simp only [KS.need, attr]
    refine bind_ok ⟨_, rfl⟩ fun x hx => bind_ok ⟨_, rfl⟩ fun y hy => bind_ok (mapA_ok fun f hf => ?_)
      fun P₁ h1 => mapB_ok fun f hf => ?_
    · obtain ⟨s, hs⟩ := (hr f (List.mem_append_left _ hf)).scale
      exact ⟨_, by rw [hs]; rfl⟩
    · obtain ⟨-, -, hB⟩ := mapA_inv h1
      rw [hB] at hf
      obtain ⟨s, hs⟩ := (hr f (List.mem_append_right _ hf)).scale
      exact ⟨_, by rw [hs]; rfl⟩
  obtain ⟨P', hP⟩ := key
  refine ⟨P', hP, ?_⟩
  have hfr := vpOverlap_frame hP
  have hxc := vpOverlap_xc hP
  have hens := fAB_of_ks hfr.ksA
  unfold vpOverlap at hP
  rw [hna, hnb] at hP
  simp only [Py.do_eq_ok] at hP
  obtain ⟨na', _, nb', _, P₁, h1, h2⟩ := hP
  obtain ⟨⟨a, b, AB, e1⟩, hA, hB⟩ := mapA_inv h1
  obtain ⟨⟨a', b', AB', e2⟩, hB', hA'⟩ := mapB_inv h2
  have conv : ∀ (D : K → G.Cols p) (x y : Frag G r c p), (do
      let s ← KS.need x.ks.scale
      pure { x with v := { x.v with dFdn := some (D s) } } : Py (Frag G r c p)) = .ok y →
      VKeep x y ∧ ∃ d, y.v.dFdn = some d := by
    intro D x y hxy
    simp only [Py.do_eq_ok, Py.pure_eq_ok] at hxy
    obtain ⟨s, _, rfl⟩ := hxy
    exact ⟨⟨rfl, rfl, rfl, rfl, rfl, rfl, fun _ => ⟨_, rfl⟩, id⟩, _, rfl⟩
  have cA := hA.imp fun x y hxy => conv _ x y hxy
  have cB := hB'.imp fun x y hxy => conv _ x y hxy
  rw [← hA'] at cA
  rw [hB] at cB
  have call : List.Forall₂ (fun (x y : Frag G r c p) => VKeep x y ∧ ∃ d, y.v.dFdn = some d) P.comps P'.comps :=
    List.rel_append cA cB
  have keep : VKeeps P P' := call.imp fun _ _ h => h.1
  refine ⟨⟨_, by rw [e2, e1]⟩, keep, fun f hf => ?_, fun d hs => ?_, hens⟩
  · obtain ⟨x, _, h⟩ := mem_right call hf
    exact h.2
  · refine ⟨hfr.nf ▸ hs.nf, hfr.naFrac ▸ hs.naFrac, hfr.nbFrac ▸ hs.nbFrac, ?_, ?_, ?_⟩
    · rw [e2, e1]; exact hs.xc
    · intro hk
      rw [hfr.opt] at hk
      obtain ⟨t1, t2⟩ := hs.Tsm hk
      refine ⟨by rw [e2, e1]; exact t1, fun f hf => ?_⟩
      obtain ⟨x, hx, h⟩ := mem_right keep hf
      rw [h.Ts]; exact t2 x hx
    · intro hk
      rw [hfr.opt] at hk
      rw [e2, e1]; exact hs.invTs hk

/-- `EnsCorHar` succeeds for ensembles. -/
theorem ensCorHar_ok {P : Part G r c p} (hr : ∀ f ∈ P.comps, Ready true f) (he : P.ens = true) :
    ∃ P', P.ensCorHar = .ok P' ∧ (∃ x, P'.Ehcor = some x) ∧ VKeeps P P' ∧ P'.F = P.F ∧
      (∀ f ∈ P'.comps, ∃ x, f.v.vhcor = some x) ∧ (∀ d, Stored d P → Stored d P') := by
  cases hAB : P.fAB with
  | none => simp [ens, hAB] at he
  | some x =>
    obtain ⟨A, B⟩ := x
    obtain ⟨⟨na, ka⟩, ⟨sa, la⟩, -, -, -, Va⟩ := hr P.fa (by simp [comps, compsA])
    obtain ⟨⟨nA, kA⟩, ⟨sA, lA⟩, -, -, -, VA⟩ := hr A (by simp [comps, compsA, hAB])
    obtain ⟨⟨nb, kb⟩, ⟨sb, lb⟩, -, -, -, Vb⟩ := hr P.fb (by simp [comps, compsB])
    obtain ⟨⟨nB, kB⟩, ⟨sB, lB⟩, -, -, -, VB⟩ := hr B (by simp [comps, compsB, hAB])
    obtain ⟨⟨va, ma⟩, -⟩ := Va rfl
    obtain ⟨⟨vA, mA⟩, -⟩ := VA rfl
    obtain ⟨⟨vb, mb⟩, -⟩ := Vb rfl
    obtain ⟨⟨vB, mB⟩, -⟩ := VB rfl
    have key : ∃ P', P.ensCorHar = .ok P' := by
      unfold ensCorHar
      rw [hAB]
      simp only [ka, la, ma, kA, lA, mA, kb, lb, mb, kB, lB, mB, KS.need, attr, bind, Except.bind, pure,
        Except.pure]
      exact ⟨_, rfl⟩
    obtain ⟨P', hP⟩ := key
    refine ⟨P', hP, ?_⟩
    have hfr := ensCorHar_frame hP
    unfold ensCorHar at hP
    rw [hAB] at hP
    simp only [Py.do_eq_ok, Py.pure_eq_ok] at hP
    obtain ⟨⟨a, ea⟩, ⟨_, _, _, _, _, _, h1⟩, ⟨A', eA⟩, ⟨_, _, _, _, _, _, h2⟩, ⟨b, eb⟩,
      ⟨_, _, _, _, _, _, h3⟩, ⟨B', eB⟩, ⟨_, _, _, _, _, _, h4⟩, hP'⟩ := hP
    simp only [Prod.mk.injEq] at h1 h2 h3 h4
    obtain ⟨rfl, -⟩ := h1
    obtain ⟨rfl, -⟩ := h2
    obtain ⟨rfl, -⟩ := h3
    obtain ⟨rfl, -⟩ := h4
    have conv : ∀ (x : Frag G r c p) (v : G.Cols p) (e : K),
        VKeep x ⟨x.ks, { x.v with vhcor := some v, Ehcor := some e }⟩ :=
      fun x v e => ⟨rfl, rfl, rfl, rfl, rfl, rfl, id, fun _ => ⟨_, rfl⟩⟩
    have keep : VKeeps P P' := by
      have : P.comps = [P.fa, A, P.fb, B] := by simp [comps, compsA, compsB, hAB]
      unfold VKeeps
      rw [this, ← hP']
      exact .cons (conv _ _ _) (.cons (conv _ _ _) (.cons (conv _ _ _) (.cons (conv _ _ _) .nil)))
    refine ⟨⟨_, by rw [← hP']⟩, keep, by rw [← hP'], ?_, fun d hs => ⟨by rw [← hP']; exact hs.nf,
      by rw [← hP']; exact hs.naFrac, by rw [← hP']; exact hs.nbFrac, by rw [← hP']; exact hs.xc, fun hk => ?_,
      by rw [← hP']; exact hs.invTs⟩⟩
    · intro f hf
      rw [← hP'] at hf
      simp only [comps, compsA, compsB, Option.map_some, Option.toList_some, List.cons_append, List.nil_append,
        List.mem_cons, List.not_mem_nil, or_false] at hf
      rcases hf with rfl | rfl | rfl | rfl <;> exact ⟨_, rfl⟩
    · obtain ⟨t1, t2⟩ := hs.Tsm (hfr.opt ▸ hk)
      refine ⟨by rw [← hP']; exact t1, fun f hf => ?_⟩
      obtain ⟨x, hx, h⟩ := mem_right keep hf
      rw [h.Ts]; exact t2 x hx

theorem fragSums_ok {dft : Bool} (l : List (Frag G r c p)) (hr : ∀ f ∈ l, Ready dft f) :
    ∃ s, fragSums dft l = .ok s := by
  unfold fragSums
  refine foldlM_ok _ (fun f hf b => ?_) _
  obtain ⟨s, hs⟩ := (hr f hf).scale
  obtain ⟨e, he, h⟩ := (hr f hf).E
  unfold Sums.addComp
  rw [hs, he]
  cases dft with
  | false => exact ⟨_, rfl⟩
  | true =>
    obtain ⟨⟨x, hx⟩, y, hy⟩ := h rfl
    simp only [KS.need, attr, bind, Except.bind, hx, hy]
    exact ⟨_, rfl⟩

theorem addDensity_ok {x : Frag G r c p → Option G.Fld} {f : Frag G r c p} {dft : Bool} (hr : Ready dft f)
    (hx : ∃ e, x f = some e) (acc : G.Fld) : ∃ b, addDensity x acc f = .ok b := by
  obtain ⟨Q, hQ⟩ := hr.Q
  obtain ⟨e, he⟩ := hx
  unfold addDensity
  split
  · exact ⟨_, by rw [hQ, he]; rfl⟩
  · exact ⟨_, rfl⟩

theorem excf_ok {x : Frag G r c p → Option G.Fld} {P : Part G r c p} {dft : Bool} (hr : ∀ f ∈ P.comps, Ready dft f)
    (hx : ∀ f ∈ P.comps, ∃ e, x f = some e) : ∃ b, excf x P = .ok b := by
  unfold excf
  split
  · obtain ⟨b, hb⟩ := foldlM_ok (f := addDensity x) P.compsA (fun f hf acc =>
      addDensity_ok (hr f (List.mem_append_left _ hf)) (hx f (List.mem_append_left _ hf)) acc) fun _ => 0
    exact ⟨_, by rw [hb]; rfl⟩
  · exact foldlM_ok _ (fun f hf acc => addDensity_ok (hr f hf) (hx f hf) acc) _

theorem ehf_ok {P : Part G r c p} {dft : Bool} (hr : ∀ f ∈ P.comps, Ready dft f)
    (hx : ∀ f ∈ P.comps, ∃ e, f.ks.V.eh = some e) : ∃ b, P.ehf = .ok b := by
  unfold ehf
  split
  · refine foldlM_ok _ (fun f hf acc => ?_) _
    obtain ⟨b, hb⟩ := addDensity_ok (x := fun f => f.ks.V.eh) (hr f (List.mem_append_left _ hf))
      (hx f (List.mem_append_left _ hf)) acc
    exact ⟨_, by rw [hb]; rfl⟩
  · exact foldlM_ok _ (fun f hf acc => addDensity_ok (hr f hf) (hx f hf) acc) _

/-- Options handled by `energy()`. -/
def EnergyOpt (P : Part G r c p) : Prop :=
  (P.opt.kin = .libxcke ∨ P.opt.kin = .none ∨ P.opt.kin = .inversion ∨ P.opt.kin = .twoorbital) ∧
  (P.opt.hxc = .exact ∨ P.opt.hxc = .hartree ∨ P.opt.hxc = .overlapXc ∨
    (P.opt.hxc = .overlapHxc ∧ P.ens = true ∧ P.opt.interaction = .dft))

theorem epKinetic_ok {T : Env G r c p} (hT : Total T) {P : Part G r c p} {dft : Bool}
    (hr : ∀ f ∈ P.comps, Ready dft f) (hs : Stored dft P) (ho : EnergyOpt P) : ∃ t, P.epKinetic T = .ok t := by
  have : ∃ t, P.kineticEnergies T = .ok t := by
    unfold kineticEnergies
    rcases ho.1 with hk | hk | hk | hk <;> rw [hk]
    · obtain ⟨⟨t, ht⟩, h2⟩ := hs.Tsm hk
      obtain ⟨b, hb⟩ := foldlM_ok (f := fun (acc : K) (f : Frag G r c p) => do
        let s ← KS.need f.ks.scale
        let t ← attr f.v.Ts
        pure (acc + s * t)) P.comps (fun f hf acc => by
          obtain ⟨s, hs⟩ := (hr f hf).scale
          obtain ⟨t, ht⟩ := h2 f hf
          exact ⟨_, by rw [hs, ht]; rfl⟩) 0
      simp only [bind, Except.bind] at hb
      simp only [ht, attr, bind, Except.bind]
      simp only [attr] at hb
      rw [hb]
      exact ⟨_, rfl⟩
    · exact ⟨_, rfl⟩
    · obtain ⟨t, ht⟩ := hs.invTs hk
      obtain ⟨b, hb⟩ := foldlM_ok (f := fun (acc : Fl K) (f : Frag G r c p) => do
        let E ← attr f.ks.E
        let s ← KS.need f.ks.scale
        pure (Fl.add acc (Fl.mul (.fin s) E.Ts))) (if P.opt.abSym then P.compsA else P.comps) (fun f hf acc => by
          have hf' : f ∈ P.comps := by
            split at hf
            · exact List.mem_append_left _ hf
            · exact hf
          obtain ⟨s, hs⟩ := (hr f hf').scale
          obtain ⟨e, he, -⟩ := (hr f hf').E
          exact ⟨_, by rw [hs, he]; rfl⟩) (.fin 0)
      simp only [bind, Except.bind] at hb
      simp only [ht, attr, bind, Except.bind]
      simp only [attr] at hb
      rw [hb]
      exact ⟨_, rfl⟩
    · obtain ⟨⟨a, b⟩, ht⟩ := hT.twoEnergy P
      simp only [ht, bind, Except.bind]
      exact ⟨_, rfl⟩
  obtain ⟨t, ht⟩ := this
  unfold epKinetic
  rw [ht]
  exact ⟨_, rfl⟩

theorem epCollect_ok {T : Env G r c p} {P : Part G r c p}
    (hr : ∀ f ∈ P.comps, Ready (decide (P.opt.interaction = .dft)) f)
    (hs : Stored (decide (P.opt.interaction = .dft)) P) (ho : EnergyOpt P) (h x cc : K) :
    ∃ P' e, P.epCollect T h x cc = .ok (P', e) ∧ VKeeps P P' ∧ (∀ d, Stored d P → Stored d P') ∧
      (P.opt.hxc = .overlapXc ∨ P.opt.hxc = .overlapHxc → ∃ F, P'.F = some F) ∧
      (P.opt.hxc = .overlapHxc → ∃ e, P'.Ehcor = some e) := by
  unfold epCollect
  rcases ho.2 with hk | hk | hk | ⟨hk, he, hd⟩ <;> rw [hk]
  · exact ⟨_, _, rfl, forall₂_self VKeep.refl _, fun d h => h, fun h => (by rcases h with h | h <;> exact absurd h (by decide)),
      fun h => nomatch h⟩
  · exact ⟨_, _, rfl, forall₂_self VKeep.refl _, fun d h => h, fun h => (by rcases h with h | h <;> exact absurd h (by decide)),
      fun h => nomatch h⟩
  · obtain ⟨P', h1, ⟨F, hF⟩, h3, -, h4, -⟩ := vpOverlap_ok (T := T) hr hs.naFrac hs.nbFrac
    exact ⟨P', _, by rw [h1]; simp only [bind, Except.bind, hF, attr]; rfl, h3, h4, fun _ => ⟨F, hF⟩,
      fun h => nomatch h⟩
  · obtain ⟨P₁, h1, ⟨F, hF⟩, h3, -, h4, h5⟩ := vpOverlap_ok (T := T) hr hs.naFrac hs.nbFrac
    have hr1 := ready_mem (vpOverlap_frame h1) hr
    rw [hd] at hr1
    obtain ⟨P₂, g1, ⟨c, hc⟩, g3, g4, -, g5⟩ := ensCorHar_ok (P := P₁) hr1 (h5.trans he)
    refine ⟨P₂, _, by rw [h1]; simp only [bind, Except.bind, g1, g4, hF, hc, attr]; rfl, VKeeps.trans h3 g3,
      fun d h => g5 d (h4 d h), fun _ => ⟨F, g4.trans hF⟩, fun _ => ⟨c, hc⟩⟩

theorem appendEvals_ok {d : Bool} (l : List (Frag G r c p)) (hr : ∀ f ∈ l, Ready d f) :
    ∃ x, appendEvals l = .ok x :=
  foldlM_ok l (fun f hf acc => by
    obtain ⟨e, he, -⟩ := (hr f hf).E
    exact ⟨_, by rw [he]; rfl⟩) []

theorem evalsAB_ok {d : Bool} {P : Part G r c p} (hr : ∀ f ∈ P.comps, Ready d f) : ∃ x, P.evalsAB = .ok x := by
  obtain ⟨a, ha⟩ := appendEvals_ok P.compsA fun f hf => hr f (List.mem_append_left _ hf)
  obtain ⟨b, hb⟩ := appendEvals_ok P.compsB fun f hf => hr f (List.mem_append_right _ hf)
  unfold evalsAB
  rw [ha]
  simp only [bind, Except.bind, hb]
  split
  · exact ⟨_, rfl⟩
  · exact ⟨_, rfl⟩

/-- `energy()` succeeds, sets the partition energies and keeps everything the potential needs. -/
theorem energy_ok {T : Env G r c p} (hT : Total T) {P : Part G r c p} (hi : P.opt.isolated = false)
    (hr : ∀ f ∈ P.comps, Ready (decide (P.opt.interaction = .dft)) f)
    (hs : Stored (decide (P.opt.interaction = .dft)) P) (ho : EnergyOpt P) :
    ∃ P', P.energy T = .ok P' ∧ VKeeps P P' ∧ (∀ d, Stored d P → Stored d P') ∧
      (∃ x, P'.EpH = some x) ∧ (∃ x, P'.EpX = some x) ∧ (∃ x, P'.EpC = some x) ∧
      (P.opt.hxc = .overlapXc ∨ P.opt.hxc = .overlapHxc → ∃ F, P'.F = some F) ∧
      (P.opt.hxc = .overlapHxc → ∃ e, P'.Ehcor = some e) := by
  set dft := decide (P.opt.interaction = .dft) with hdft
  obtain ⟨sa, hsa⟩ := fragSums_ok P.compsA fun f hf => hr f (List.mem_append_left _ hf)
  have hsb : ∃ sb, P.sumsB dft sa = .ok sb := by
    unfold sumsB
    split
    · exact ⟨_, rfl⟩
    · refine fragSums_ok _ fun f hf => hr f ?_
      unfold energyCompsB at hf
      cases hAB : P.fAB with
      | none => rw [hAB] at hf; obtain rfl := List.mem_singleton.mp hf; simp [comps, compsB]
      | some x =>
        rw [hAB] at hf
        obtain rfl : f = x.2 := by simpa using hf
        simp [comps, compsB, hAB]
  obtain ⟨sb, hsb⟩ := hsb
  have hsum : ∃ s, P.sumsAB = .ok s := by
    unfold sumsAB
    rw [← hdft, hsa]
    simp only [bind, Except.bind, hsb]
    exact ⟨_, rfl⟩
  obtain ⟨⟨s1, s2⟩, hsum⟩ := hsum
  obtain ⟨na, hna⟩ := hs.naFrac
  obtain ⟨nb, hnb⟩ := hs.nbFrac
  obtain ⟨nf, hnf⟩ := hs.nf
  obtain ⟨t, ht⟩ := epKinetic_ok hT hr hs ho
  have hcomp : ∃ x, P.epComponents T (s1.Eh + s2.Eh) (s1.Ex + s2.Ex) (s1.Ec + s2.Ec) = .ok x := by
    unfold epComponents
    cases hint : P.opt.interaction with
    | ni => exact ⟨_, rfl⟩
    | dft =>
      have hd : dft = true := by rw [hdft, hint]; rfl
      rw [hd] at hr
      obtain ⟨⟨ex, hex⟩, ⟨ec, hec⟩, ⟨px, hpx⟩, pc, hpc⟩ := hs.xc hd
      obtain ⟨vh, hvh⟩ := hT.hartree1 (tot nf)
      obtain ⟨e1, h1⟩ := ehf_ok hr fun f hf => ((hr f hf).V rfl).2.2.2.2.2
      obtain ⟨e2, h2⟩ := excf_ok (x := fun f => f.ks.V.ex) hr fun f hf => ((hr f hf).V rfl).2.2.2.1
      obtain ⟨e3, h3⟩ := excf_ok (x := fun f => f.ks.V.ec) hr fun f hf => ((hr f hf).V rfl).2.2.2.2.1
      rw [hnf]
      simp only [attr, bind, Except.bind, hvh, h1, h2, h3, hex, hec, hpx, hpc]
      exact ⟨_, rfl⟩
  obtain ⟨⟨h', x, cc, d⟩, hcomp⟩ := hcomp
  obtain ⟨P', e, g1, g2, g3, g4, g5⟩ := epCollect_ok (T := T)
    (P := { P with EpH := some h', EpX := some x, EpC := some cc, epDens := d.or P.epDens }) hr
    ⟨hs.nf, hs.naFrac, hs.nbFrac, hs.xc, hs.Tsm, hs.invTs⟩ ho h' x cc
  have gx := epCollect_xc g1
  have hpot : ∃ v, P.epNuclear = .ok v := by
    unfold epNuclear
    rw [hna, hnb]
    exact ⟨_, rfl⟩
  obtain ⟨pot, hpot⟩ := hpot
  have hh : P.epHxc T (s1.Eh + s2.Eh) (s1.Ex + s2.Ex) (s1.Ec + s2.Ec) = .ok (P', e) := by
    unfold epHxc
    rw [hcomp]
    exact g1
  have hpe : ∃ kp, P.partitionEnergy T (s1.Eh + s2.Eh) (s1.Ex + s2.Ex) (s1.Ec + s2.Ec) =
      .ok (P', kp) := by
    unfold partitionEnergy
    rw [if_neg (by rw [hi]; decide), hpot, ht, hh]
    exact ⟨_, rfl⟩
  obtain ⟨⟨k1, k2, k3, k4⟩, hpe⟩ := hpe
  obtain ⟨⟨ea, eb⟩, hev⟩ := evalsAB_ok (ready_mem (partitionEnergy_frame hpe) hr)
  have he : ∃ E, P.energy T = .ok { P' with E := some E } := by
    unfold energy
    rw [hsum]
    simp only [bind, Except.bind, hpe, hev]
    exact ⟨_, rfl⟩
  obtain ⟨E, he⟩ := he
  refine ⟨_, he, g2, fun d' hs' => ?_, ⟨_, gx.2.1⟩, ⟨_, gx.2.2.1⟩, ⟨_, gx.2.2.2⟩, g4, g5⟩
  obtain ⟨q1, q2, q3, q4, q5, q6⟩ := g3 d' ⟨hs'.nf, hs'.naFrac, hs'.nbFrac, hs'.xc, hs'.Tsm, hs'.invTs⟩
  exact ⟨q1, q2, q3, q4, q5, q6⟩

/-- The potentials that `vp_nuclear`, `vp_kinetic` and the first part of `vp_hxc` give a component. -/
def Parts (f : Frag G r c p) : Prop :=
  (∃ v, f.v.vpPot = some v) ∧ (∃ v, f.v.vpKin = some v) ∧ (∃ v, f.v.vpH = some v) ∧ (∃ v, f.v.vpX = some v) ∧
    ∃ v, f.v.vpC = some v

theorem parts_keep {P P' : Part G r c p} (h : VKeeps P P') (hP : ∀ f ∈ P.comps, Parts f) :
    ∀ f ∈ P'.comps, Parts f := fun f hf => by
  obtain ⟨x, hx, e⟩ := mem_right h hf
  obtain ⟨a, b, c, d, e'⟩ := hP x hx
  exact ⟨e.vpPot ▸ a, e.vpKin ▸ b, e.vpH ▸ c, e.vpX ▸ d, e.vpC ▸ e'⟩

theorem hxcStart_ok {T : Env G r c p} (hT : Total T) {P : Part G r c p}
    (hr : ∀ f ∈ P.comps, Ready (decide (P.opt.interaction = .dft)) f)
    (ho : P.opt.interaction = .ni → P.opt.hxc = .exact)
    (hs : Stored false P) (hk : ∀ f ∈ P.comps, (∃ v, f.v.vpPot = some v) ∧ ∃ v, f.v.vpKin = some v) :
    ∃ P', P.hxcStart T = .ok P' ∧ (∀ f ∈ P'.comps, Parts f) ∧
      Stored (decide (P.opt.interaction = .dft)) P' := by
  obtain ⟨nf, hnf⟩ := hs.nf
  have keepTs : ∀ {Q Q' : Part G r c p} {F}, Q.comps = P.comps → Q.mapAll F = .ok Q' →
      (∀ x y, F x = .ok y → y.v.Ts = x.v.Ts) → P.opt.kin = .libxcke → ∀ f ∈ Q'.comps, ∃ t, f.v.Ts = some t := by
    intro Q Q' F hQ hF hTs hkin f hf
    obtain ⟨x, hx, hxy⟩ := mem_right (mapAll_comps hF) hf
    rw [hTs _ _ hxy]
    exact (hs.Tsm hkin).2 x (hQ ▸ hx)
  unfold hxcStart
  cases hint : P.opt.interaction with
  | ni =>
    rw [if_pos ⟨ho hint, rfl⟩]
    unfold hxcZero
    rw [hnf]
    obtain ⟨P', h1, ⟨a, b, AB, h2⟩, h3⟩ := mapAll_ok (P := P)
      (f := fun f : Frag G r c p => pure { f with v := { f.v with
        vpH := some fun _ _ => 0, vpX := some fun _ _ => 0, vpC := some fun _ _ => 0 } }) (post := Parts)
      (fun x hx => ⟨_, rfl, (hk x hx).1, (hk x hx).2, ⟨_, rfl⟩, ⟨_, rfl⟩, ⟨_, rfl⟩⟩)
    have h4 := keepTs rfl h1 (fun x y hxy => by obtain rfl := Except.ok.inj hxy; rfl)
    refine ⟨P', h1, h3, ⟨_, by rw [h2]; exact hnf⟩, by rw [h2]; exact hs.naFrac, by rw [h2]; exact hs.nbFrac,
      (fun h => nomatch h), fun hkin => ?_, by rw [h2]; exact hs.invTs⟩
    rw [h2] at hkin
    exact ⟨by rw [h2]; exact (hs.Tsm hkin).1, h4 hkin⟩
  | dft =>
    rw [if_neg (fun h => nomatch h.2), if_neg (fun h => nomatch h)]
    rw [hint] at hr
    obtain ⟨vh, hvh⟩ := hT.hartree nf
    obtain ⟨⟨ex, epsX, vx⟩, hvx⟩ := hT.exchange nf
    obtain ⟨⟨ec, epsC, vc⟩, hvc⟩ := hT.correlation nf
    unfold hxcComponents
    rw [hnf]
    simp only [attr, bind, Except.bind, hvh, hvx, hvc]
    obtain ⟨P', h1, ⟨a, b, AB, h2⟩, h3⟩ := mapAll_ok (P := { P with
        nf := some nf, vh := some vh, vx := some vx, vc := some vc, ex := some ex, ec := some ec, epsX := some epsX,
        epsC := some epsC })
      (f := fun f => do
        let fvh ← attr f.ks.V.vh
        let fvx ← attr f.ks.V.vx
        let fvc ← attr f.ks.V.vc
        let h : G.Cols p := fun j k => vh j k - fvh j k
        let x : G.Cols p := fun j k => vx j k - fvx j k
        let cc : G.Cols p := fun j k => vc j k - fvc j k
        pure { f with v := { f.v with
          vpH := some h, vpX := some x, vpC := some cc,
          vpHxc := some fun j k => h j k + x j k + cc j k } }) (post := Parts)
      (fun x hx => by
        obtain ⟨⟨a, ha⟩, ⟨b, hb⟩, ⟨cc, hc⟩, -⟩ := (hr x hx).V rfl
        rw [ha, hb, hc]
        exact ⟨_, rfl, (hk x hx).1, (hk x hx).2, ⟨_, rfl⟩, ⟨_, rfl⟩, ⟨_, rfl⟩⟩)
    have h4 := keepTs (by simp only [comps, compsA, compsB]) h1 (fun x y hxy => by
      simp only [Py.do_eq_ok, Py.pure_eq_ok] at hxy
      obtain ⟨_, _, _, _, _, _, rfl⟩ := hxy
      rfl)
    refine ⟨P', ?_, h3, ⟨_, by rw [h2]⟩, by rw [h2]; exact hs.naFrac, by rw [h2]; exact hs.nbFrac,
      fun _ => ?_, fun hkin => ?_, by rw [h2]; exact hs.invTs⟩
    · simp only [attr, bind, Except.bind] at h1
      exact h1
    · rw [h2]
      exact ⟨⟨_, rfl⟩, ⟨_, rfl⟩, ⟨_, rfl⟩, ⟨_, rfl⟩⟩
    · rw [h2] at hkin
      exact ⟨by rw [h2]; exact (hs.Tsm hkin).1, h4 hkin⟩

theorem hxcCollect_ok {T : Env G r c p} (hT : Total T) {P : Part G r c p} (hi : P.opt.isolated = false)
    (hr : ∀ f ∈ P.comps, Ready (decide (P.opt.interaction = .dft)) f)
    (hs : Stored (decide (P.opt.interaction = .dft)) P) (ho : EnergyOpt P) (hP : ∀ f ∈ P.comps, Parts f) :
    ∃ P', P.hxcCollect T = .ok P' ∧ (∀ f ∈ P'.comps, Parts f ∧ ∃ v, f.v.vpHxc = some v) ∧
      ∀ d, Stored d P → Stored d P' := by
  have stored : ∀ {Q Q' : Part G r c p} {F}, Q.mapAll F = .ok Q' → (∀ x y, F x = .ok y → y.v.Ts = x.v.Ts) →
      ∀ d, Stored d Q → Stored d Q' := by
    intro Q Q' F hF hTs d hd
    obtain ⟨a, b, AB, h2⟩ := (mapAll_inv hF).1
    refine ⟨by rw [h2]; exact hd.nf, by rw [h2]; exact hd.naFrac, by rw [h2]; exact hd.nbFrac,
      by rw [h2]; exact hd.xc, fun hkin => ?_, by rw [h2]; exact hd.invTs⟩
    rw [h2] at hkin
    refine ⟨by rw [h2]; exact (hd.Tsm hkin).1, fun f hf => ?_⟩
    obtain ⟨x, hx, hxy⟩ := mem_right (mapAll_comps hF) hf
    rw [hTs _ _ hxy]
    exact (hd.Tsm hkin).2 x hx
  have fin : ∀ {Q : Part G r c p} {F : Frag G r c p → Py (Frag G r c p)}, (∀ d, Stored d P → Stored d Q) →
      (∀ x y, F x = .ok y → ∃ v, y = ⟨x.ks, { x.v with vpHxc := some v }⟩) → (∀ f ∈ Q.comps, Parts f) →
      (∀ f ∈ Q.comps, ∃ y, F f = .ok y) →
      ∃ P', Q.mapAll F = .ok P' ∧ (∀ f ∈ P'.comps, Parts f ∧ ∃ v, f.v.vpHxc = some v) ∧
        ∀ d, Stored d P → Stored d P' := by
    intro Q F hQ hF hp hok
    obtain ⟨P', h1, -, h3⟩ := mapAll_ok (P := Q) (f := F) (post := fun f => Parts f ∧ ∃ v, f.v.vpHxc = some v)
      (fun x hx => by
        obtain ⟨y, hy⟩ := hok x hx
        obtain ⟨v, rfl⟩ := hF x y hy
        exact ⟨_, hy, hp x hx, v, rfl⟩)
    exact ⟨P', h1, h3, fun d hd => stored h1 (fun x y hxy => by obtain ⟨v, rfl⟩ := hF x y hxy; rfl) d (hQ d hd)⟩
  unfold hxcCollect
  rcases ho.2 with hk | hk | hk | ⟨hk, he, hd⟩ <;> rw [hk]
  · refine fin (fun d h => h) (fun x y hxy => ?_) hP (fun f hf => ?_)
    · simp only [Py.do_eq_ok, Py.pure_eq_ok] at hxy
      obtain ⟨_, _, _, _, _, _, rfl⟩ := hxy
      exact ⟨_, rfl⟩
    · obtain ⟨-, -, ⟨a, ha⟩, ⟨b, hb⟩, cc, hc⟩ := hP f hf
      rw [ha, hb, hc]
      exact ⟨_, rfl⟩
  · refine fin (fun d h => h) (fun x y hxy => ?_) hP (fun f hf => ?_)
    · simp only [Py.do_eq_ok, Py.pure_eq_ok] at hxy
      obtain ⟨_, _, rfl⟩ := hxy
      exact ⟨_, rfl⟩
    · obtain ⟨-, -, ⟨a, ha⟩, -⟩ := hP f hf
      rw [ha]
      exact ⟨_, rfl⟩
  · obtain ⟨P₁, h1, -, h3, h4, h5, h6⟩ := vpOverlap_ok (T := T) hr hs.naFrac hs.nbFrac
    have f1 := vpOverlap_frame h1
    obtain ⟨P₂, g1, g2, g3, -, ⟨ex, gx⟩, ⟨ec, gc⟩, g4, -⟩ := energy_ok hT (P := P₁) (by rw [f1.opt]; exact hi)
      (by rw [f1.opt]; exact ready_mem f1 hr) (by rw [f1.opt]; exact h5 _ hs)
      (by unfold EnergyOpt; rw [f1.opt, h6]; exact ho)
    obtain ⟨F, hF⟩ := g4 (.inl (by rw [f1.opt]; exact hk))
    rw [h1]
    simp only [bind, Except.bind, g1, hF, gx, gc]
    refine fin (fun d h => g3 d (h5 d h)) (fun x y hxy => ?_) (parts_keep g2 (parts_keep h3 hP)) (fun f hf => ?_)
    · replace hxy : (do
        let h ← attr x.v.vpH
        let x' ← attr x.v.vpX
        let cc ← attr x.v.vpC
        let d ← attr x.v.dFdn
        pure { x with v := { x.v with
          vpHxc := some fun j k => h j k + F * (x' j k + cc j k) + (ex + ec) * d j k } } : Py (Frag G r c p)) = .ok y := hxy
      simp only [Py.do_eq_ok, Py.pure_eq_ok] at hxy
      obtain ⟨_, _, _, _, _, _, _, _, rfl⟩ := hxy
      exact ⟨_, rfl⟩
    · obtain ⟨-, -, ⟨a, ha⟩, ⟨b, hb⟩, cc, hc⟩ := parts_keep g2 (parts_keep h3 hP) f hf
      obtain ⟨x, hx, e⟩ := mem_right g2 hf
      obtain ⟨d, hd⟩ := e.dFdn (h4 x hx)
      rw [ha, hb, hc, hd]
      exact ⟨_, rfl⟩
  · obtain ⟨P₁, h1, -, h3, h4, h5, h6⟩ := vpOverlap_ok (T := T) hr hs.naFrac hs.nbFrac
    have f1 := vpOverlap_frame h1
    have hr1 := ready_mem f1 hr
    have hr1' := hr1
    rw [hd] at hr1'
    obtain ⟨P₂, k1, -, k3, -, k4, k5⟩ := ensCorHar_ok (P := P₁) hr1' (h6.trans he)
    have f2 := f1.trans (ensCorHar_frame k1)
    obtain ⟨P₃, g1, g2, g3, ⟨eh, gh⟩, ⟨ex, gx⟩, ⟨ec, gc⟩, g4, g5⟩ := energy_ok hT (P := P₂) (by rw [f2.opt]; exact hi)
      (by rw [f2.opt]; exact ready_mem f2 hr) (by rw [f2.opt]; exact k5 _ (h5 _ hs))
      (by unfold EnergyOpt; rw [f2.opt, fAB_of_ks f2.ksA]; exact ho)
    obtain ⟨F, hF⟩ := g4 (.inr (by rw [f2.opt]; exact hk))
    obtain ⟨cor, hcor⟩ := g5 (by rw [f2.opt]; exact hk)
    rw [h1]
    simp only [bind, Except.bind, k1, g1, hF, gh, gx, gc, hcor]
    have hpp := parts_keep g2 (parts_keep k3 (parts_keep h3 hP))
    refine fin (fun d h => g3 d (k5 d (h5 d h))) (fun x y hxy => ?_) hpp (fun f hf => ?_)
    · replace hxy : (do
        let h ← attr x.v.vpH
        let x' ← attr x.v.vpX
        let cc ← attr x.v.vpC
        let d ← attr x.v.dFdn
        let vcor ← attr x.v.vhcor
        pure { x with v := { x.v with
          vpHxc := some fun j k => F * (h j k + x' j k + cc j k) + (eh + ex + ec) * d j k +
            (1 - F) * vcor j k + cor * d j k } } : Py (Frag G r c p)) = .ok y := hxy
      simp only [Py.do_eq_ok, Py.pure_eq_ok] at hxy
      obtain ⟨_, _, _, _, _, _, _, _, _, _, rfl⟩ := hxy
      exact ⟨_, rfl⟩
    · obtain ⟨-, -, ⟨a, ha⟩, ⟨b, hb⟩, cc, hc⟩ := hpp f hf
      obtain ⟨x, hx, e⟩ := mem_right g2 hf
      obtain ⟨x', hx', e'⟩ := mem_right k3 hx
      obtain ⟨d, hd⟩ := e.dFdn (e'.dFdn (h4 x' hx'))
      obtain ⟨v, hv⟩ := e.vhcor (k4 x hx)
      rw [ha, hb, hc, hd, hv]
      exact ⟨_, rfl⟩

/-- C46, converse: with a `Working` option value ('twoorbital' without an ensemble) and components that
have been through a Kohn-Sham step with energies, the partition potential and then the energy are
evaluated without an exception.  Every density, functional and orbital set is covered.

What is missing (and false by `C46_refuted`): the other accepted values. -/
theorem C46_options_partial (T : Env G r c p) (hT : Total T) (P : Part G r c p) (hi : P.opt.isolated = false)
    (hw : Working p P.ens P.opt) (htwo : P.opt.kin = .twoorbital → P.ens = false)
    (hr : ∀ f ∈ P.comps, Ready (decide (P.opt.interaction = .dft)) f)
    (hnf : ∃ x, P.nf = some x) (hna : ∃ x, P.naFrac = some x) (hnb : ∃ x, P.nbFrac = some x) :
    ∃ P₁ vp, P.partitionPotential T = .ok (P₁, vp) ∧ ∃ P₂ E, P₁.energy T = .ok P₂ ∧ P₂.E = some E := by
  obtain ⟨w1, w2, w3, w4, w5, w6, w7, w8, w9⟩ := hw
  have hkin : P.opt.kin = .libxcke ∨ P.opt.kin = .none ∨ P.opt.kin = .inversion ∨
      (P.opt.kin = .twoorbital ∧ p ≠ 2 ∧ P.ens = false) := by
    cases h : P.opt.kin <;> simp_all
  have hdft : P.opt.interaction = .dft ∨ P.opt.interaction = .ni := by cases P.opt.interaction <;> simp
  have ho : EnergyOpt P := by
    refine ⟨by rcases hkin with h | h | h | h <;> simp [h], ?_⟩
    cases h : P.opt.hxc <;> simp_all
    all_goals
      rcases hdft with hd | hd
      · exact hd
      · exact absurd hd w9
  -- nuclear part
  obtain ⟨P₁, h1, -, h1p⟩ := mapAll_ok (P := P) (f := fun f => pure { f with v := { f.v with
    vpPot := some fun j k => P.vextMol j k - f.ks.vnuc j k } }) (post := fun f => ∃ v, f.v.vpPot = some v)
    (fun x _ => ⟨_, rfl, _, rfl⟩)
  replace h1 : P.vpNuclear = .ok P₁ := h1
  have f1 := vpNuclear_frame h1
  have e1 := fAB_of_ks f1.ksA
  obtain ⟨nf, hnf⟩ := hnf
  -- kinetic part
  obtain ⟨P₂, h2, h2p, h2t, h2i⟩ := kinetic_ok hT (P := P₁) (ready_mem f1 hr) nf (f1.nf.trans hnf) h1p (by
    rw [f1.opt]
    rcases hkin with h | h | h | ⟨h, hp, he⟩
    · exact .inl h
    · exact .inr (.inl h)
    · exact .inr (.inr (.inl h))
    · refine .inr (.inr (.inr ⟨h, hp, ?_⟩))
      rw [← e1] at he
      unfold ens at he
      cases hq : P₁.fAB with
      | none => rfl
      | some x => rw [hq] at he; exact nomatch he)
  have f2 := f1.trans (vpKinetic_frame h2)
  have e2 := fAB_of_ks f2.ksA
  rw [f1.opt] at h2t h2i
  have s2 : Stored false P₂ := ⟨⟨nf, f2.nf.trans hnf⟩, f2.naFrac ▸ hna, f2.nbFrac ▸ hnb, (fun h => nomatch h),
    fun h => h2t (f2.opt ▸ h), fun h => h2i (f2.opt ▸ h)⟩
  -- exchange-correlation part
  obtain ⟨P₃, h3, h3p, h3s⟩ := hxcStart_ok hT (P := P₂) (by rw [f2.opt]; exact ready_mem f2 hr)
    (by rw [f2.opt]; exact w9) s2 h2p
  have f3 := f2.trans (hxcStart_frame h3)
  rw [f2.opt, ← f3.opt] at h3s
  have r3 := ready_mem f3 hr
  rw [← f3.opt] at r3
  have o3 : EnergyOpt P₃ := by unfold EnergyOpt; rw [f3.opt, fAB_of_ks f3.ksA]; exact ho
  obtain ⟨P₄, h4, h4p, h4s⟩ := hxcCollect_ok hT (P := P₃) (by rw [f3.opt]; exact hi) r3 h3s o3 h3p
  have f4 := f3.trans (hxcCollect_frame h4)
  have h34 : P₂.vpHxcStep T = .ok P₄ := by
    unfold vpHxcStep
    rw [h3]
    exact h4
  -- total
  obtain ⟨P₅, h5, ⟨a, b, AB, h5e⟩, h5p⟩ := mapAll_ok (P := P₄)
    (f := fun f => do
      let a ← attr f.v.vpPot
      let b ← attr f.v.vpKin
      let d ← attr f.v.vpHxc
      pure { f with v := { f.v with vp := some fun j k => a j k + b j k + d j k } })
    (post := fun f => (Parts f ∧ ∃ v, f.v.vpHxc = some v) ∧ ∃ v, f.v.vp = some v) (fun x hx => by
      have hp := h4p x hx
      obtain ⟨⟨⟨a, ha⟩, ⟨b, hb⟩, -⟩, d, hd⟩ := hp
      exact ⟨⟨x.ks, { x.v with vp := some fun j k => a j k + b j k + d j k }⟩, by rw [ha, hb, hd]; rfl, h4p x hx,
        _, rfl⟩)
  have hxy : ∀ x y : Frag G r c p, (do
      let a ← attr x.v.vpPot
      let b ← attr x.v.vpKin
      let d ← attr x.v.vpHxc
      pure { x with v := { x.v with vp := some fun j k => a j k + b j k + d j k } } : Py (Frag G r c p)) = .ok y →
      y.ks = x.ks ∧ y.v.frozen = x.v.frozen ∧ y.v.Ts = x.v.Ts := by
    intro x y hxy
    simp only [Py.do_eq_ok, Py.pure_eq_ok] at hxy
    obtain ⟨_, _, _, _, _, _, rfl⟩ := hxy
    exact ⟨rfl, rfl, rfl⟩
  have f45 : Frame P₄ P₅ := frame_mapAll h5 fun x y h => ⟨(hxy x y h).1, (hxy x y h).2.1⟩
  have f5 := f4.trans f45
  have r5 := ready_mem f5 hr
  obtain ⟨vp, a1⟩ := average_ok r5 (fun f => f.v.vp) fun f hf => (h5p f hf).2
  obtain ⟨pot, a2⟩ := average_ok r5 (fun f => f.v.vpPot) fun f hf => (h5p f hf).1.1.1
  obtain ⟨kin, a3⟩ := average_ok r5 (fun f => f.v.vpKin) fun f hf => (h5p f hf).1.1.2.1
  obtain ⟨hxc, a4⟩ := average_ok r5 (fun f => f.v.vpHxc) fun f hf => (h5p f hf).1.2
  obtain ⟨h, a5⟩ := average_ok r5 (fun f => f.v.vpH) fun f hf => (h5p f hf).1.1.2.2.1
  obtain ⟨x, a6⟩ := average_ok r5 (fun f => f.v.vpX) fun f hf => (h5p f hf).1.1.2.2.2.1
  obtain ⟨cc, a7⟩ := average_ok r5 (fun f => f.v.vpC) fun f hf => (h5p f hf).1.1.2.2.2.2
  have hpp : P.partitionPotential T = .ok ({ P₅ with
      vp := some vp, vpPot := some pot, vpKin := some kin, vpHxc := some hxc, vpH := some h,
      vpX := some x, vpC := some cc }, vp) := by
    unfold partitionPotential
    rw [w1, h1]
    simp only [bind, Except.bind, h2, h34, f4.nf, hnf, attr]
    simp only [attr, bind, Except.bind] at h5
    rw [h5]
    simp only [a1, a2, a3, a4, a5, a6, a7]
    rfl
  have hopt5 : P₅.opt = P.opt := f5.opt
  obtain ⟨P₆, g1, -⟩ := energy_ok hT (P := { P₅ with
      vp := some vp, vpPot := some pot, vpKin := some kin, vpHxc := some hxc, vpH := some h,
      vpX := some x, vpC := some cc }) (by rw [hopt5]; exact hi)
    (by rw [hopt5]; exact r5) (by
      have s4 := h4s _ h3s
      rw [f3.opt, ← hopt5] at s4
      refine ⟨f45.nf ▸ s4.nf, f45.naFrac ▸ s4.naFrac, f45.nbFrac ▸ s4.nbFrac, fun hd => (by have := s4.xc hd; rw [h5e]; exact this),
        fun hk => ?_,
        fun hk => (by
          have := s4.invTs (by rw [← f45.opt]; exact hk)
          rw [h5e]; exact this)⟩
      have hk' : P₄.opt.kin = .libxcke := by rw [← f45.opt]; exact hk
      refine ⟨by rw [h5e]; exact (s4.Tsm hk').1, fun f hf => ?_⟩
      obtain ⟨y, hy, e⟩ := mem_right (mapAll_comps h5) hf
      rw [(hxy _ _ e).2.2]
      exact (s4.Tsm hk').2 y hy)
    (by
      have e5 := fAB_of_ks f5.ksA
      unfold EnergyOpt
      rw [hopt5]
      unfold ens at e5 ⊢
      rw [e5]
      exact ho)
  obtain ⟨sa, sb, Q, pot', hxc', kin', ep', ea, eb, -, -, -, hE⟩ := energy_inv g1
  exact ⟨_, _, hpp, P₆, _, g1, congrArg Part.E hE⟩

/-- Runs of the two-point calculation that succeed. -/
example : ∀ o ∈ [({ kin := .none } : PartOpt), { kin := .libxcke }, { kin := .none, hxc := .hartree },
    { kin := .libxcke, hxc := .hartree }, { kin := .none, hxc := .exact, interaction := .ni }],
    (Sample.run { etol := 0, maxIter := 1, alpha := [1] } o).toOption.isSome = true := by decide +kernel

end Verif
