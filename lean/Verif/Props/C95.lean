import Verif.Props.C48
import Verif.Props.C47
import Verif.Props.C51
import Verif.Props.C37_C39
import Verif.Model.EnergyDensity

/-! # C95: energy densities integrate to the energies -/

namespace Verif
open Spec Part
variable {K : Type} [Field K] [LinearOrder K] [IsStrictOrderedRing K] [FloorRing K]
variable {G : Grid K} {r c p : ℕ}

/-! ## Hartree, exchange and correlation -/

/-- What a component carries: weight and energies, density, energy densities. -/
structure Spec.CompData {K : Type} (G : Grid K) (p : ℕ) where
  x : FragEnergy K p
  n : G.Cols p
  eh : G.Fld
  ex : G.Fld
  ec : G.Fld

/-- The component `f` carries these data, is not frozen, and its energies are the integrals of density times
energy density. -/
structure Spec.Own (f : Frag G r c p) (d : CompData G p) : Prop where
  n : f.ks.n = some d.n
  free : f.v.frozen ≠ some true
  eh : f.ks.V.eh = some d.eh
  ex : f.ks.V.ex = some d.ex
  ec : f.ks.V.ec = some d.ec
  energies : HasEnergies true [f] [d.x]
  Eh : d.x.Eh = G.integ fun k => (∑ j, d.n j k) * d.eh k
  Ex : d.x.Ex = G.integ fun k => (∑ j, d.n j k) * d.ex k
  Ec : d.x.Ec = G.integ fun k => (∑ j, d.n j k) * d.ec k

/-- `energy()` of an interacting component leaves energies which are the integrals of its density times the
energy densities it stores, if the functionals return such energies (as `get_xc` does). -/
theorem KS.energy_own {F : Functionals G p} {ks ks' : KS G r c p} (h : KS.energy F ks = .ok ks')
    (hk : ks.kind = .dft)
    (hx : ∀ n E e v, F.exchange n = .ok (E, e, v) → E = G.integ fun k => (∑ j, n j k) * e k)
    (hc : ∀ n E e v, F.correlation n = .ok (E, e, v) → E = G.integ fun k => (∑ j, n j k) * e k) :
    ∃ (n : G.Cols p) (E : KSEnergy K p) (eh ex ec : G.Fld), ks'.n = some n ∧ ks'.E = some E ∧
      ks'.V.eh = some eh ∧ ks'.V.ex = some ex ∧ ks'.V.ec = some ec ∧
      E.Eh = some (G.integ fun k => (∑ j, n j k) * eh k) ∧ (E.Ex = G.integ fun k => (∑ j, n j k) * ex k) ∧
      E.Ec = G.integ fun k => (∑ j, n j k) * ec k := by
  unfold KS.energy at h
  rw [hk] at h
  simp only [Py.do_eq_ok, Py.pure_eq_ok] at h
  obtain ⟨⟨Eks, Ts, Vks, evals⟩, -, n, hn, vext, -, vhxc, -, vh, -, vh0, -, ⟨Ex, ex, vx⟩, h1, ⟨Ec, ec, vc⟩, h2, rfl⟩ := h
  exact ⟨n, _, _, _, _, need_eq_ok.mp hn, rfl, rfl, rfl, rfl, rfl, hx _ _ _ _ h1, hc _ _ _ _ h2⟩

/-- The Q function `calc_Q` sets. -/
def Spec.qWeight (nf : G.Cols p) (s : K) (n : G.Cols p) : G.Cols p := fun j k =>
  if nf j k = 0 then 0 else s * n j k / nf j k

theorem calcQ_own {P P' : Part G r c p} (h : P.calcQ = .ok P') {nf : G.Cols p} (hnf : P.nf = some nf) :
    PartScf.SameBut P P' ∧
    List.Forall₂ (fun f g => ∃ n s, f.ks.n = some n ∧ f.ks.scale = some s ∧
      g = ⟨{ f.ks with Q := some (qWeight nf s n) }, f.v⟩) P.compsA P'.compsA ∧
    List.Forall₂ (fun f g => ∃ n s, f.ks.n = some n ∧ f.ks.scale = some s ∧
      g = ⟨{ f.ks with Q := some (qWeight nf s n) }, f.v⟩) P.compsB P'.compsB := by
  unfold calcQ at h
  rw [hnf] at h
  simp only [attr, Py.do_eq_ok] at h
  obtain ⟨nf', e, h⟩ := h
  obtain rfl := Except.ok.inj e
  obtain ⟨h1, h2, h3⟩ := mapAll_inv h
  have : ∀ x y : Frag G r c p, (do
      let n ← KS.need x.ks.n
      let s ← KS.need x.ks.scale
      pure { x with ks := { x.ks with
        Q := some fun j k => Fl.clean (Fl.div (.fin (s * n j k)) (.fin (nf j k))) } } : Py (Frag G r c p)) = .ok y →
      ∃ n s, x.ks.n = some n ∧ x.ks.scale = some s ∧ y = ⟨{ x.ks with Q := some (qWeight nf s n) }, x.v⟩ := by
    intro x y hxy
    simp only [Py.do_eq_ok, Py.pure_eq_ok] at hxy
    obtain ⟨n, hn, s, hs, rfl⟩ := hxy
    refine ⟨n, s, need_eq_ok.mp hn, need_eq_ok.mp hs, ?_⟩
    simp only [Fl.clean_div]
    rfl
  exact ⟨h1, h2.imp this, h3.imp this⟩

theorem integ_congr {f g : G.Fld} (h : ∀ k, f k = g k) : G.integ f = G.integ g := by
  rw [funext h]

theorem integ_sub (f g : G.Fld) : G.integ (fun k => f k - g k) = G.integ f - G.integ g := by
  unfold Grid.integ
  rw [← mul_sub, ← Finset.sum_sub_distrib]
  exact congrArg _ (Finset.sum_congr rfl fun k _ => by ring)

/-- With a promolecular density that is the same for all spins, weighting with Q gives back the scaled
component `p` times: Q is summed over the spins, and so is the density. -/
theorem weight_integral {nf : G.Cols p} (hb : ∀ i j k, nf i k = nf j k) {s : K} {n : G.Cols p}
    (hz : ∀ j k, nf j k = 0 → s * n j k = 0) (e : G.Fld) :
    G.integ (fun k => (∑ j, nf j k) * ((∑ j, qWeight nf s n j k) * e k)) =
      p * (s * G.integ fun k => (∑ j, n j k) * e k) := by
  rw [← G.integ_smul, ← G.integ_smul]
  refine integ_congr fun k => ?_
  have h1 : ∀ j, (∑ i, nf i k) * qWeight nf s n j k = p * (s * n j k) := by
    intro j
    rw [Finset.sum_congr rfl fun i _ => hb i j k, Finset.sum_const, Finset.card_univ, Fintype.card_fin,
      nsmul_eq_mul, mul_assoc]
    congr 1
    unfold qWeight
    split_ifs with h0
    · rw [mul_zero, hz j k h0]
    · rw [mul_div_cancel₀ _ h0]
  rw [← mul_assoc, Finset.mul_sum, Finset.sum_congr rfl fun j _ => h1 j, ← Finset.mul_sum, ← Finset.mul_sum]
  ring

theorem qSum_integral {nf : G.Cols p} (hb : ∀ i j k, nf i k = nf j k) (L : List (CompData G p))
    (hz : ∀ d ∈ L, ∀ j k, nf j k = 0 → d.x.s * d.n j k = 0) (e : CompData G p → G.Fld)
    (E : FragEnergy K p → K) (hE : ∀ d ∈ L, E d.x = G.integ fun k => (∑ j, d.n j k) * e d k) :
    G.integ (fun k => (∑ j, nf j k) * qSum (L.map fun d => (qWeight nf d.x.s d.n, e d)) k) =
      p * avg (L.map CompData.x) E := by
  induction L with
  | nil => simp [qSum, avg, Grid.integ_zero]
  | cons d L ih =>
    have := ih (fun d hd => hz d (List.mem_cons_of_mem _ hd)) fun d hd => hE d (List.mem_cons_of_mem _ hd)
    simp only [qSum, avg, List.map_cons, List.sum_cons, mul_add, Grid.integ_add] at this ⊢
    rw [this, weight_integral hb (hz d List.mem_cons_self), hE d List.mem_cons_self]

theorem integ_mir (hwi : ∀ k, G.wi (G.mirIx k) = G.wi k) (hw : ∀ k, G.w (G.mirIx k) = G.w k) (f : G.Fld) :
    G.integ (fun k => f (G.mirIx k)) = G.integ f := by
  unfold Grid.integ
  congr 1
  refine Eq.trans ?_ (Equiv.sum_comp G.mirEquiv fun k => G.wi k * G.w k * f k)
  exact Finset.sum_congr rfl fun k _ => by rw [Grid.mirEquiv_apply, hwi, hw]

theorem vpOverlap_dens {T : Env G r c p} {P P' : Part G r c p} (h : P.vpOverlap T = .ok P') :
    P'.epDens = P.epDens := by
  unfold vpOverlap at h
  simp only [Py.do_eq_ok] at h
  obtain ⟨na, _, nb, _, P₁, h1, h2⟩ := h
  obtain ⟨_, _, _, rfl⟩ := (PartScf.mapA_inv h1).1
  obtain ⟨_, _, _, rfl⟩ := mapB_same h2
  rfl

theorem ensCorHar_dens {P P' : Part G r c p} (h : P.ensCorHar = .ok P') : P'.epDens = P.epDens := by
  unfold ensCorHar at h
  cases hAB : P.fAB with
  | none => rw [hAB] at h; exact nomatch h
  | some x =>
    obtain ⟨A, B⟩ := x
    rw [hAB] at h
    simp only [Py.do_eq_ok, Py.pure_eq_ok] at h
    obtain ⟨⟨a, ea⟩, -, ⟨A', eA⟩, -, ⟨b, eb⟩, -, ⟨B', eB⟩, -, rfl⟩ := h
    rfl

theorem epCollect_dens {T : Env G r c p} {P P' : Part G r c p} {h x cc e : K}
    (H : P.epCollect T h x cc = .ok (P', e)) : P'.epDens = P.epDens := by
  unfold epCollect at H
  cases hk : P.opt.hxc <;> rw [hk] at H <;> simp only [Py.do_eq_ok, Py.pure_eq_ok, Prod.mk.injEq] at H
  case exact => obtain ⟨rfl, -⟩ := H; rfl
  case hartree => obtain ⟨rfl, -⟩ := H; rfl
  case overlapXc => obtain ⟨P₁, h1, _, _, rfl, -⟩ := H; exact vpOverlap_dens h1
  case surprisal => exact nomatch H
  all_goals
    obtain ⟨P₁, h1, P₂, h2, _, _, _, _, rfl, -⟩ := H
    exact (ensCorHar_dens h2).trans (vpOverlap_dens h1)

/-- `energy()` stores what `ep_hxc` computed from the fragment sums. -/
theorem energy_dens {T : Env G r c p} {P P' : Part G r c p} (h : P.energy T = .ok P')
    (hi : P.opt.isolated = false) :
    ∃ (e : PartEnergy G p) (res : K × K × K × Option (G.Fld × G.Fld × G.Fld)), P'.E = some e ∧
      P.epComponents T e.Ehf e.Exf e.Ecf = .ok res ∧ P'.EpH = some res.1 ∧ P'.EpX = some res.2.1 ∧
      P'.EpC = some res.2.2.1 ∧ P'.epDens = res.2.2.2.or P.epDens := by
  obtain ⟨sa, sb, P₁, pot, hxc, kin, ep, ea, eb, -, h2, -, rfl⟩ := energy_inv h
  unfold partitionEnergy epHxc at h2
  rw [if_neg (by rw [hi]; decide)] at h2
  simp only [Py.do_eq_ok, Py.pure_eq_ok] at h2
  obtain ⟨_, _, _, _, ⟨P₂, e⟩, ⟨⟨h', x, cc, d⟩, h1, h3⟩, h4⟩ := h2
  simp only [Prod.mk.injEq] at h4
  obtain ⟨rfl, -⟩ := h4
  obtain ⟨-, f1, f2, f3⟩ := epCollect_xc h3
  exact ⟨_, _, rfl, h1, f1, f2, f3, epCollect_dens h3⟩

/-- After `calc_Q` the components carry the same data and the Q functions. -/
theorem own_after {nf : G.Cols p} {l m : List (Frag G r c p)} {L : List (CompData G p)}
    (h : List.Forall₂ (fun f g => ∃ n s, f.ks.n = some n ∧ f.ks.scale = some s ∧
      g = ⟨{ f.ks with Q := some (qWeight nf s n) }, f.v⟩) l m) (hL : List.Forall₂ Own l L) :
    List.Forall₂ (fun g d => Own g d ∧ g.ks.Q = some (qWeight nf d.x.s d.n)) m L := by
  induction h generalizing L with
  | nil => cases hL; exact .nil
  | cons hf _ ih =>
    cases hL with
    | cons h1 h2 =>
      obtain ⟨n, s, e1, e2, rfl⟩ := hf
      refine .cons ⟨⟨h1.n, h1.free, h1.eh, h1.ex, h1.ec, ?_, h1.Eh, h1.Ex, h1.Ec⟩, ?_⟩ (ih h2)
      · have := h1.energies
        cases this with
        | cons a _ => exact .cons a .nil
      · obtain rfl := Option.some.inj (h1.n.symm.trans e1)
        have := h1.energies
        cases this with
        | cons a _ =>
          obtain rfl := Option.some.inj (a.1.symm.trans e2)
          rfl

theorem has_of_own {nf : G.Cols p} {m : List (Frag G r c p)} {L : List (CompData G p)}
    (x : Frag G r c p → Option G.Fld) (e : CompData G p → G.Fld) (hx : ∀ f d, Own f d → x f = some (e d))
    (h : List.Forall₂ (fun g d => Own g d ∧ g.ks.Q = some (qWeight nf d.x.s d.n)) m L) :
    HasDensities x m (L.map fun d => (qWeight nf d.x.s d.n, e d)) := by
  unfold HasDensities
  rw [List.forall₂_map_right_iff]
  exact h.imp fun f d hd => ⟨hd.2, hx f d hd.1, hd.1.free⟩

theorem energies_of_own {nf : G.Cols p} {m : List (Frag G r c p)} {L : List (CompData G p)}
    (h : List.Forall₂ (fun g d => Own g d ∧ g.ks.Q = some (qWeight nf d.x.s d.n)) m L) :
    HasEnergies true m (L.map CompData.x) := by
  unfold HasEnergies
  rw [List.forall₂_map_right_iff]
  refine h.imp fun f d hd => ?_
  have := hd.1.energies
  cases this with
  | cons a _ => exact a

theorem avg_append (L M : List (FragEnergy K p)) (x) : avg (L ++ M) x = avg L x + avg M x := by
  simp [avg]

/-- C95 for Hartree, exchange and correlation: no ensemble, no fragment frozen, components with energies that
are integrals of their energy densities, stored molecular energies that are integrals of `epsilon_x`,
`epsilon_c` with the current `nf`, `nf` equal in all spin columns (and mirror symmetric with `ab_sym`).  After
`calc_Q` and `energy()` the integral of `nf` times `ep_h` is the molecular energy minus `p` times the scaled sum
over the components, where `Ep_h` contains the sum once, or twice with `ens_spin_sym`.  Likewise for exchange and
correlation. -/
theorem C95_hxc (T : Env G r c p) (P P₁ P₂ : Part G r c p) (h₁ : P.calcQ = .ok P₁) (h₂ : P₁.energy T = .ok P₂)
    (hi : P.opt.isolated = false) (hd : P.opt.interaction = .dft) (hens : P.fAB = none)
    (A B : List (CompData G p)) (hA : List.Forall₂ Own P.compsA A)
    (hB : if P.opt.abSym then B = A else List.Forall₂ Own P.compsB B)
    (nf : G.Cols p) (hnf : P.nf = some nf) (hb : ∀ i j k, nf i k = nf j k)
    (hz : ∀ d ∈ A ++ B, ∀ j k, nf j k = 0 → d.x.s * d.n j k = 0)
    (hsym : P.opt.abSym = true → (∀ k, G.wi (G.mirIx k) = G.wi k) ∧ (∀ k, G.w (G.mirIx k) = G.w k) ∧
      ∀ j k, nf j (G.mirIx k) = nf j k)
    (epsX epsC : G.Fld) (hX : P.epsX = some epsX) (hC : P.epsC = some epsC)
    (hex : P.ex = some (G.integ fun k => (∑ j, nf j k) * epsX k))
    (hec : P.ec = some (G.integ fun k => (∑ j, nf j k) * epsC k)) :
    ∃ (h x cc : K) (eh ex ec : G.Fld), P₂.EpH = some h ∧ P₂.EpX = some x ∧ P₂.EpC = some cc ∧
      P₂.epDens = some (eh, ex, ec) ∧
      (G.integ fun k => (∑ j, nf j k) * eh k) =
        h + (twins K P.opt.ensSpinSym - p) * avg ((A ++ B).map CompData.x) (·.Eh) ∧
      (G.integ fun k => (∑ j, nf j k) * ex k) =
        x + (twins K P.opt.ensSpinSym - p) * avg ((A ++ B).map CompData.x) (·.Ex) ∧
      (G.integ fun k => (∑ j, nf j k) * ec k) =
        cc + (twins K P.opt.ensSpinSym - p) * avg ((A ++ B).map CompData.x) (·.Ec) := by
  obtain ⟨hs, hqA, hqB⟩ := calcQ_own h₁ hnf
  have hA' := own_after hqA hA
  obtain ⟨o1, o2, o3, o4, o5, o6⟩ : P₁.opt = P.opt ∧ P₁.nf = some nf ∧ P₁.epsX = some epsX ∧ P₁.epsC = some epsC ∧
      P₁.ex = P.ex ∧ P₁.ec = P.ec := by
    obtain ⟨_, _, _, rfl⟩ := hs
    exact ⟨rfl, hnf, hX, hC, rfl, rfl⟩
  have hens' : P₁.fAB = none := by
    have := hqA.length_eq
    simp only [compsA, hens, Option.map_none, Option.toList_none, List.length_cons, List.length_nil] at this
    cases hf : P₁.fAB with
    | none => rfl
    | some x => simp [hf] at this
  obtain ⟨e, res, he, hres, r1, r2, r3, r4⟩ := energy_dens h₂ (o1 ▸ hi)
  have hdft : decide (P₁.opt.interaction = .dft) = true := by rw [o1, hd]; rfl
  have hB' : P.opt.abSym = false →
      List.Forall₂ (fun g d => Own g d ∧ g.ks.Q = some (qWeight nf d.x.s d.n)) P₁.compsB B := by
    intro hab
    rw [hab] at hB
    exact own_after hqB hB
  have hBA : P.opt.abSym = true → B = A := by
    intro hab
    rwa [hab, if_pos rfl] at hB
  obtain ⟨e', he', -, -, -, -, -, -, -, hsum⟩ := C42_fragment_energies_partial T P₁ P₂ h₂ (A.map CompData.x)
    (B.map CompData.x) (hdft ▸ energies_of_own hA') (by
      rw [hdft, o1]
      cases hab : P.opt.abSym with
      | true => simp [hBA hab]
      | false => simpa using energies_of_own (hB' hab)) (.inr hens')
  obtain rfl := Option.some.inj (he.symm.trans he')
  obtain ⟨sx, sc, sh, -⟩ := hsum (o1 ▸ hd)
  rw [o1] at sx sc sh
  -- densities
  let L := if P.opt.abSym then A else A ++ B
  have hL : List.Forall₂ (fun g d => Own g d ∧ g.ks.Q = some (qWeight nf d.x.s d.n))
      (if P₁.opt.abSym then P₁.compsA else P₁.comps) L := by
    rw [o1]
    cases hab : P.opt.abSym with
    | true => simpa [L, hab] using hA'
    | false => simpa [L, hab, comps] using List.rel_append hA' (hB' hab)
  have hint : ∀ (ε : CompData G p → G.Fld) (E : FragEnergy K p → K),
      (∀ f d, Own (r := r) (c := c) f d → E d.x = G.integ fun k => (∑ j, d.n j k) * ε d k) →
      (G.integ fun k => (∑ j, nf j k) * (if P₁.opt.abSym then
        qSum (L.map fun d => (qWeight nf d.x.s d.n, ε d)) k +
          qSum (L.map fun d => (qWeight nf d.x.s d.n, ε d)) (G.mirIx k)
        else qSum (L.map fun d => (qWeight nf d.x.s d.n, ε d)) k)) =
      p * avg ((A ++ B).map CompData.x) E := by
    intro ε E hE
    have key : G.integ (fun k => (∑ j, nf j k) * qSum (L.map fun d => (qWeight nf d.x.s d.n, ε d)) k) =
        p * avg (L.map CompData.x) E := by
      refine qSum_integral hb L ?_ ε E ?_
      · intro d hd
        refine hz d ?_
        cases hab : P.opt.abSym with
        | true => simp only [L, hab, ↓reduceIte] at hd; exact List.mem_append_left _ hd
        | false => simpa [L, hab] using hd
      · intro d hd
        obtain ⟨i, hi, rfl⟩ := List.getElem_of_mem hd
        have hlen := hL.length_eq
        exact hE _ _ ((List.forall₂_iff_get.mp hL).2 i (hlen ▸ hi) hi).1
    rw [o1]
    cases hab : P.opt.abSym with
    | false =>
      simp only [Bool.false_eq_true, ↓reduceIte]
      rw [key]
      simp [L, hab]
    | true =>
      obtain ⟨w1, w2, w3⟩ := hsym hab
      have hm : G.integ (fun k => (∑ j, nf j k) * qSum (L.map fun d => (qWeight nf d.x.s d.n, ε d)) (G.mirIx k)) =
          p * avg (L.map CompData.x) E := by
        rw [← key, ← integ_mir w1 w2 fun k => (∑ j, nf j k) * qSum (L.map fun d => (qWeight nf d.x.s d.n, ε d)) k]
        exact integ_congr fun k => by rw [Finset.sum_congr rfl fun j _ => w3 j k]
      simp only [↓reduceIte, mul_add, Grid.integ_add]
      rw [key, hm, hBA hab, List.map_append, avg_append]
      simp only [L, hab, ↓reduceIte]
      ring
  have hsumE : ∀ E : FragEnergy K p → K, avg (A.map CompData.x) E + avg (B.map CompData.x) E =
      avg ((A ++ B).map CompData.x) E := fun E => by rw [List.map_append, avg_append]
  obtain ⟨nf', vh, epsX', epsC', eh, ex, ec, d1, d2, d3, d4, d5, d6⟩ := C51_hartree_density_partial T P₁ e.Ehf e.Exf
    e.Ecf (fun _ => by unfold ens; rw [hens']; rfl) (o1 ▸ hd)
    _ _ _ (has_of_own (fun f => f.ks.V.eh) CompData.eh (fun _ _ h => h.eh) hL)
    (has_of_own (fun f => f.ks.V.ex) CompData.ex (fun _ _ h => h.ex) hL)
    (has_of_own (fun f => f.ks.V.ec) CompData.ec (fun _ _ h => h.ec) hL) res hres
  obtain rfl := Option.some.inj (o2.symm.trans d1)
  obtain rfl := Option.some.inj (o3.symm.trans d3)
  obtain rfl := Option.some.inj (o4.symm.trans d4)
  unfold epComponents at hres
  rw [o1, hd] at hres
  simp only [Py.do_eq_ok, Py.pure_eq_ok, attr_eq_ok] at hres
  obtain ⟨_, g1, vh', g2, _, -, Ex, g3, _, -, _, -, Ec, g4, _, -, _, -, rfl⟩ := hres
  obtain rfl := Option.some.inj (o2.symm.trans g1)
  obtain rfl := Except.ok.inj (d2.symm.trans g2)
  obtain rfl := Option.some.inj ((o5.trans hex).symm.trans g3)
  obtain rfl := Option.some.inj ((o6.trans hec).symm.trans g4)
  simp only at d5 r1 r2 r3 r4
  rw [d5] at r4
  refine ⟨_, _, _, eh, ex, ec, r1, r2, r3, r4, ?_, ?_, ?_⟩
  · have := hint CompData.eh (·.Eh) fun _ _ h => h.Eh
    rw [integ_congr fun k => by rw [(d6 k).1, mul_sub], integ_sub, this, sh, hsumE]
    simp only [tot]
    ring
  · have := hint CompData.ex (·.Ex) fun _ _ h => h.Ex
    rw [integ_congr fun k => by rw [(d6 k).2.1, mul_sub], integ_sub, this, sx, hsumE]
    ring
  · have := hint CompData.ec (·.Ec) fun _ _ h => h.Ec
    rw [integ_congr fun k => by rw [(d6 k).2.2, mul_sub], integ_sub, this, sc, hsumE]
    ring

/-- C95, partial: without an ensemble and without frozen fragments, for one spin column, or for two columns with
`ens_spin_sym`, the energy densities `ep_h`, `ep_x`, `ep_c` integrate with the promolecular density to `Ep_h`,
`Ep_x`, `Ep_c`, if the stored molecular energies belong to the current density (`C48_refuted`: they need not).
Missing: two columns without `ens_spin_sym` (`C95_refuted`), ensembles, the kinetic part
(`C95_libxcke_partial` and the theorems after it). -/
theorem C95_hxc_partial (T : Env G r c p) (P P₁ P₂ : Part G r c p) (h₁ : P.calcQ = .ok P₁) (h₂ : P₁.energy T = .ok P₂)
    (hp : p = if P.opt.ensSpinSym then 2 else 1)
    (hi : P.opt.isolated = false) (hd : P.opt.interaction = .dft) (hens : P.fAB = none)
    (A B : List (CompData G p)) (hA : List.Forall₂ Own P.compsA A)
    (hB : if P.opt.abSym then B = A else List.Forall₂ Own P.compsB B)
    (nf : G.Cols p) (hnf : P.nf = some nf) (hb : P.opt.ensSpinSym = true → ∀ i j k, nf i k = nf j k)
    (hz : ∀ d ∈ A ++ B, ∀ j k, nf j k = 0 → d.x.s * d.n j k = 0)
    (hsym : P.opt.abSym = true → (∀ k, G.wi (G.mirIx k) = G.wi k) ∧ (∀ k, G.w (G.mirIx k) = G.w k) ∧
      ∀ j k, nf j (G.mirIx k) = nf j k)
    (epsX epsC : G.Fld) (hX : P.epsX = some epsX) (hC : P.epsC = some epsC)
    (hex : P.ex = some (G.integ fun k => (∑ j, nf j k) * epsX k))
    (hec : P.ec = some (G.integ fun k => (∑ j, nf j k) * epsC k)) :
    ∃ eh ex ec : G.Fld, P₂.epDens = some (eh, ex, ec) ∧
      P₂.EpH = some (G.integ fun k => (∑ j, nf j k) * eh k) ∧
      P₂.EpX = some (G.integ fun k => (∑ j, nf j k) * ex k) ∧
      P₂.EpC = some (G.integ fun k => (∑ j, nf j k) * ec k) := by
  have hb' : ∀ i j k, nf i k = nf j k := by
    cases he : P.opt.ensSpinSym with
    | true => exact hb he
    | false =>
      rw [he] at hp
      simp only [Bool.false_eq_true, ↓reduceIte] at hp
      subst hp
      intro i j k
      rw [Subsingleton.elim i j]
  obtain ⟨h, x, cc, eh, ex, ec, e1, e2, e3, e4, e5, e6, e7⟩ := C95_hxc T P P₁ P₂ h₁ h₂ hi hd hens A B hA hB nf hnf
    hb' hz hsym epsX epsC hX hC hex hec
  have ht : twins K P.opt.ensSpinSym - (p : K) = 0 := by
    generalize P.opt.ensSpinSym = b at hp ⊢
    rw [hp]
    cases b <;> simp [twins]
  rw [ht, zero_mul, add_zero] at e5 e6 e7
  exact ⟨eh, ex, ec, e4, by rw [e5, e1], by rw [e6, e2], by rw [e7, e3]⟩

namespace C95

/-- A component with one electron per spin at every point and Hartree energy density 1. -/
def data (p : ℕ) : CompData (Grid.tiny ℚ) p where
  x := ⟨1, 0, 0, fun _ => 0, 0, (Grid.tiny ℚ).integ fun _ => (∑ _j : Fin p, 1) * 0,
    (Grid.tiny ℚ).integ fun _ => (∑ _j : Fin p, 1) * 0, (Grid.tiny ℚ).integ fun _ => (∑ _j : Fin p, 1) * 1, 0⟩
  n := fun _ _ => 1
  eh := fun _ => 1
  ex := fun _ => 0
  ec := fun _ => 0

def frag (p : ℕ) : Frag (Grid.tiny ℚ) 0 0 p :=
  let f := Frag.sample (fun _ _ => 1) 1 ⟨fun _ => .fin 0, fun _ => .fin 0, .fin 0, [], 0, 0, some 0,
    some (data p).x.Eh, (data p).x.Ex, (data p).x.Ec, .fin 0, 0, .fin 0⟩
  ⟨{ f.ks with V := { eh := some fun _ => 1, ex := some fun _ => 0, ec := some fun _ => 0 } }, {}⟩

def env (p : ℕ) : Env (Grid.tiny ℚ) 0 0 p where
  hartree _ := .ok fun _ _ => 0
  exchange _ := .ok (0, fun _ => 0, fun _ _ => 0)
  correlation _ := .ok (0, fun _ => 0, fun _ _ => 0)
  hartree1 _ := .ok fun _ => 0
  kinetic _ := .ok (0, fun _ _ => 0)
  invert _ := .error .valueError
  twoOrbitalPot _ := .error .valueError
  twoOrbitalEnergy _ := .error .valueError
  sqrt x := x
  erf x := x
  dErf x := x
  elap := 0

def part (p : ℕ) : Part (Grid.tiny ℚ) 0 0 p :=
  { Part.sample { kin := .none } (frag p) (frag p) none with
    naFrac := some fun _ _ => 1, nbFrac := some fun _ _ => 1, nf := some fun _ _ => 2
    ex := some ((Grid.tiny ℚ).integ fun _ => (∑ _j : Fin p, 2) * 0)
    ec := some ((Grid.tiny ℚ).integ fun _ => (∑ _j : Fin p, 2) * 0)
    epsX := some fun _ => 0, epsC := some fun _ => 0 }

theorem own (p : ℕ) : Own (frag p) (data p) where
  n := rfl
  free := fun h => nomatch h
  eh := rfl
  ex := rfl
  ec := rfl
  energies := .cons ⟨rfl, _, rfl, rfl, rfl, fun _ => rfl, rfl, fun _ => ⟨rfl, rfl, rfl, rfl⟩⟩ .nil
  Eh := rfl
  Ex := rfl
  Ec := rfl

theorem runs (p : ℕ) : ∃ P₁ P₂, (part p).calcQ = .ok P₁ ∧ P₁.energy (env p) = .ok P₂ := ⟨_, _, rfl, rfl⟩

end C95

/-- C95 is false for two spin columns: Q is summed over the spins, so for closed-shell densities the fragment
energy densities count twice. -/
theorem C95_refuted : ∃ (T : Env (Grid.tiny ℚ) 0 0 2) (P P₁ P₂ : Part (Grid.tiny ℚ) 0 0 2) (nf : (Grid.tiny ℚ).Cols 2)
    (A B : List (CompData (Grid.tiny ℚ) 2)) (h : ℚ) (eh ex ec : (Grid.tiny ℚ).Fld),
    List.Forall₂ Own P.compsA A ∧ List.Forall₂ Own P.compsB B ∧ P.calcQ = .ok P₁ ∧ P₁.energy T = .ok P₂ ∧
    P.nf = some nf ∧ (∀ j k, nf j k = ((A ++ B).map fun d => d.x.s * d.n j k).sum) ∧
    P₂.EpH = some h ∧ P₂.epDens = some (eh, ex, ec) ∧
    ((Grid.tiny ℚ).integ fun k => (∑ j, nf j k) * eh k) = h - avg ((A ++ B).map CompData.x) (·.Eh) ∧
    avg ((A ++ B).map CompData.x) (·.Eh) ≠ 0 := by
  obtain ⟨P₁, P₂, h₁, h₂⟩ := C95.runs 2
  obtain ⟨h, x, cc, eh, ex, ec, e1, e2, e3, e4, e5, -⟩ := C95_hxc (C95.env 2) (C95.part 2) P₁ P₂ h₁ h₂ rfl rfl rfl
    [C95.data 2] [C95.data 2] (.cons (C95.own 2) .nil) (.cons (C95.own 2) .nil) (fun _ _ => 2) rfl (fun _ _ _ => rfl)
    (fun _ _ _ _ h => absurd h (by norm_num)) (fun h => nomatch h) (fun _ => 0) (fun _ => 0) rfl rfl rfl rfl
  refine ⟨_, _, P₁, P₂, _, [C95.data 2], [C95.data 2], h, eh, ex, ec, .cons (C95.own 2) .nil, .cons (C95.own 2) .nil,
    h₁, h₂, rfl, ?_, e1, e4, ?_, ?_⟩
  · intro j k
    norm_num [C95.data]
  · rw [e5]
    have : twins ℚ (C95.part 2).opt.ensSpinSym - ((2 : ℕ) : ℚ) = -1 := by
      change twins ℚ false - _ = _
      norm_num [twins]
    rw [this]
    ring
  · decide +kernel

/-- The same fragments in one spin column satisfy the hypotheses of `C95_hxc_partial`. -/
example : ∃ (P₁ P₂ : Part (Grid.tiny ℚ) 0 0 1) (eh ex ec : (Grid.tiny ℚ).Fld), (C95.part 1).calcQ = .ok P₁ ∧
    P₁.energy (C95.env 1) = .ok P₂ ∧ P₂.epDens = some (eh, ex, ec) ∧
    P₂.EpH = some ((Grid.tiny ℚ).integ fun k => (∑ j : Fin 1, 2) * eh k) := by
  obtain ⟨P₁, P₂, h₁, h₂⟩ := C95.runs 1
  obtain ⟨eh, ex, ec, e1, e2, -⟩ := C95_hxc_partial (C95.env 1) (C95.part 1) P₁ P₂ h₁ h₂ rfl rfl rfl rfl
    [C95.data 1] [C95.data 1] (.cons (C95.own 1) .nil) (.cons (C95.own 1) .nil) (fun _ _ => 2) rfl (fun h => nomatch h)
    (fun _ _ _ _ h => absurd h (by norm_num)) (fun h => nomatch h) (fun _ => 0) (fun _ => 0) rfl rfl rfl rfl
  exact ⟨P₁, P₂, eh, ex, ec, h₁, h₂, e1, e2⟩

/-! ## The kinetic part -/

/-- The integral of a density times an energy density per particle, for arrays that can be read as a field. -/
def Spec.totalOf (n : G.Fld) : KinDens.Arr G → Option K
  | .flat f => some (G.integ fun k => n k * f k)
  | .cols 1 f => some (G.integ fun k => n k * f 0 k)
  | _ => none

/-- Weight, density and kinetic energy density of a component. -/
structure Spec.KinData {K : Type} (G : Grid K) (p : ℕ) where
  s : K
  n : G.Cols p
  t : G.Fld

/-- Kinetic energy of the component: the integral of density times energy density. -/
def Spec.KinData.T (d : KinData G p) : K := G.integ fun k => (∑ j, d.n j k) * d.t k

/-- The component has this weight and density, `calc_Q` was called with the promolecular density `nf`, and `ts`
yields its kinetic energy density. -/
def Spec.HasKin (nf : G.Cols p) (ts : Frag G r c p → Py G.Fld) (f : Frag G r c p) (d : KinData G p) : Prop :=
  f.ks.scale = some d.s ∧ f.ks.n = some d.n ∧ f.ks.Q = some (qWeight nf d.s d.n) ∧ ts f = .ok d.t

theorem addScaled_fold {nf : G.Cols p} {ts : Frag G r c p → Py G.Fld} {l : List (Frag G r c p)}
    {L : List (KinData G p)} (h : List.Forall₂ (HasKin nf ts) l L) (acc : G.Fld) :
    l.foldlM (KinDens.addScaled ts) acc =
      .ok fun k => acc k + (L.map fun d => d.s * ((∑ j, qWeight nf d.s d.n j k) * d.t k)).sum := by
  induction h generalizing acc with
  | nil =>
    simp only [List.foldlM_nil, List.map_nil, List.sum_nil, add_zero]
    rfl
  | cons hf _ ih =>
    obtain ⟨h1, h2, h3, h4⟩ := hf
    rw [List.foldlM_cons]
    simp only [KinDens.addScaled, h1, h3, h4, KS.need, needQ, bind, Except.bind, pure, Except.pure, ih]
    congr 1
    funext k
    simp only [List.map_cons, List.sum_cons, tot]
    ring

theorem kin_integral {nf : G.Cols p} (hb : ∀ i j k, nf i k = nf j k) (L : List (KinData G p))
    (hz : ∀ d ∈ L, ∀ j k, nf j k = 0 → d.s * d.n j k = 0) :
    G.integ (fun k => (∑ j, nf j k) * (L.map fun d => d.s * ((∑ j, qWeight nf d.s d.n j k) * d.t k)).sum) =
      p * (L.map fun d => d.s ^ 2 * d.T).sum := by
  induction L with
  | nil => simp [Grid.integ_zero]
  | cons d L ih =>
    have := ih fun d hd => hz d (List.mem_cons_of_mem _ hd)
    simp only [List.map_cons, List.sum_cons, mul_add, Grid.integ_add] at this ⊢
    rw [this, integ_congr fun k => mul_left_comm (∑ j, nf j k) d.s _, Grid.integ_smul,
      weight_integral hb (hz d List.mem_cons_self)]
    unfold KinData.T
    ring

theorem smul_if (b : Bool) (f : G.Fld) :
    (if b then KinDens.Arr.smul 2 (.flat f) else .flat f) = KinDens.Arr.flat fun k => twins K b * f k := by
  cases b <;> simp [KinDens.Arr.smul, twins, mul_comm]

theorem kin_total {nf : G.Cols p} {tsm tsf : G.Fld} {b : Bool} {a : KinDens.Arr G}
    (h : (KinDens.Arr.flat tsm).sub (if b then (KinDens.Arr.flat tsf).smul 2 else .flat tsf) = .ok a) :
    totalOf (fun k => ∑ j, nf j k) a = some ((G.integ fun k => (∑ j, nf j k) * tsm k) -
      twins K b * G.integ fun k => (∑ j, nf j k) * tsf k) := by
  rw [smul_if] at h
  obtain rfl := Except.ok.inj h
  simp only [totalOf, mul_sub, integ_sub, ← Grid.integ_smul]
  congr 2
  exact integ_congr fun k => by ring

theorem scaled_fold {l : List (Frag G r c p)} {L : List (K × K)}
    (h : List.Forall₂ (fun f d => f.ks.scale = some d.1 ∧ f.v.Ts = some d.2) l L) (acc : K) :
    l.foldlM (m := Py) (fun (acc : K) f => do
      let s ← KS.need f.ks.scale
      let t ← attr f.v.Ts
      pure (acc + s * t)) acc = .ok (acc + (L.map fun d => d.1 * d.2).sum) := by
  induction h generalizing acc with
  | nil =>
    simp only [List.foldlM_nil, List.map_nil, List.sum_nil, add_zero]
    rfl
  | cons hf _ ih =>
    rw [List.foldlM_cons, hf.1, hf.2]
    simp only [KS.need, attr, bind, Except.bind, pure, Except.pure]
    refine (ih _).trans ?_
    simp [add_assoc]

/-- C95 for `libxcke`: the integral of `nf` times `ep_kin` contains the square of the weights, since Q contains
the weight already, and a factor `p`; `Ep_kin` contains the weights once. -/
theorem C95_libxcke (T : Env G r c p) (D : KinDens.KinIn G r c p) (P : Part G r c p)
    (hk : P.opt.kin = .libxcke ∨ P.opt.kin = .paramke) (nf : G.Cols p) (hb : ∀ i j k, nf i k = nf j k)
    (L : List (KinData G p))
    (hL : List.Forall₂ (fun f d => HasKin nf (fun f => attr (D.ts f)) f d ∧ f.v.Ts = some d.T) P.comps L)
    (hz : ∀ d ∈ L, ∀ j k, nf j k = 0 → d.s * d.n j k = 0)
    (tsm : G.Fld) (hm : D.tsm = some tsm) (hTm : P.Tsm = some (G.integ fun k => (∑ j, nf j k) * tsm k)) :
    ∃ a E, KinDens.epKin T D P = .ok a ∧ P.epKinetic T = .ok (.num (.fin E)) ∧
      E = (G.integ fun k => (∑ j, nf j k) * tsm k) - twins K P.opt.ensSpinSym * (L.map fun d => d.s * d.T).sum ∧
      totalOf (fun k => ∑ j, nf j k) a = some ((G.integ fun k => (∑ j, nf j k) * tsm k) -
        twins K P.opt.ensSpinSym * (p * (L.map fun d => d.s ^ 2 * d.T).sum)) := by
  have hd : KinDens.densities T D P = .ok (.flat tsm, .flat fun k => 0 +
      (L.map fun d => d.s * ((∑ j, qWeight nf d.s d.n j k) * d.t k)).sum) := by
    unfold KinDens.densities
    rcases hk with hk | hk <;> rw [hk] <;> dsimp only <;>
      rw [hm, addScaled_fold (hL.imp fun _ _ h => h.1)] <;> rfl
  have hE : P.kineticEnergies T = .ok (.num (.fin (G.integ fun k => (∑ j, nf j k) * tsm k)),
      .num (.fin (L.map fun d => d.s * d.T).sum)) := by
    have hs : List.Forall₂ (fun (f : Frag G r c p) (d : K × K) => f.ks.scale = some d.1 ∧ f.v.Ts = some d.2) P.comps
        (L.map fun d => (d.s, d.T)) := by
      rw [List.forall₂_map_right_iff]
      exact hL.imp fun f d h => ⟨h.1.1, h.2⟩
    unfold kineticEnergies
    rcases hk with hk | hk <;> rw [hk] <;> dsimp only <;>
      rw [hTm, scaled_fold hs, zero_add, List.map_map] <;> rfl
  refine ⟨.flat fun k => tsm k - twins K P.opt.ensSpinSym * (0 +
      (L.map fun d => d.s * ((∑ j, qWeight nf d.s d.n j k) * d.t k)).sum), _, ?_, ?_, rfl, ?_⟩
  · unfold KinDens.epKin
    rw [hd]
    simp only [bind, Except.bind, smul_if]
    rfl
  · unfold epKinetic
    rw [hE]
    cases P.opt.ensSpinSym <;> simp [bind, Except.bind, pure, Except.pure, Tot.sub, Tot.neg, Tot.add, Tot.smul, Fl.neg,
      Fl.add, Fl.mul, twins, sub_eq_add_neg, mul_comm]
  · refine (kin_total (nf := nf) (tsm := tsm) (b := P.opt.ensSpinSym) (by rw [smul_if]; rfl)).trans ?_
    simp only [zero_add]
    rw [kin_integral hb L hz]

/-- C95, partial, for `libxcke`: with one spin column and weights 1 the integral of `nf` times `ep_kin` is
`Ep_kin`.  Missing: other weights (`C95_refuted_libxcke`), two columns. -/
theorem C95_libxcke_partial (T : Env G r c 1) (D : KinDens.KinIn G r c 1) (P : Part G r c 1)
    (hk : P.opt.kin = .libxcke ∨ P.opt.kin = .paramke) (nf : G.Cols 1) (L : List (KinData G 1))
    (hL : List.Forall₂ (fun f d => HasKin nf (fun f => attr (D.ts f)) f d ∧ f.v.Ts = some d.T) P.comps L)
    (h1 : ∀ d ∈ L, d.s = 1) (hz : ∀ d ∈ L, ∀ j k, nf j k = 0 → d.n j k = 0)
    (tsm : G.Fld) (hm : D.tsm = some tsm) (hTm : P.Tsm = some (G.integ fun k => (∑ j, nf j k) * tsm k)) :
    ∃ a E, KinDens.epKin T D P = .ok a ∧ P.epKinetic T = .ok (.num (.fin E)) ∧
      totalOf (fun k => ∑ j, nf j k) a = some E := by
  obtain ⟨a, E, e1, e2, e3, e4⟩ := C95_libxcke T D P hk nf (fun i j k => by rw [Subsingleton.elim i j]) L hL
    (fun d hd j k h => by rw [hz d hd j k h, mul_zero]) tsm hm hTm
  refine ⟨a, E, e1, e2, e4.trans ?_⟩
  rw [e3, Nat.cast_one, one_mul, List.map_congr_left fun d hd => show d.s ^ 2 * d.T = d.s * d.T by rw [h1 d hd]; ring]

/-- A component with weight `s`, density `1` and kinetic energy density `1` (promolecular density 1). -/
def C95.kinFrag (s : ℚ) : Frag (Grid.tiny ℚ) 0 0 1 :=
  let f := Frag.sample (fun _ _ => 1) s (KSEnergy.sample 0)
  ⟨{ f.ks with Q := some (qWeight (fun _ _ => 1) s fun _ _ => 1) },
    { Ts := some ((Grid.tiny ℚ).integ fun _ => (∑ _j : Fin 1, 1) * 1) }⟩

def C95.kinPart (s : ℚ) : Part (Grid.tiny ℚ) 0 0 1 :=
  { Part.sample { kin := .libxcke } (C95.kinFrag s) (C95.kinFrag s) none with
    nf := some fun _ _ => 1
    Tsm := some ((Grid.tiny ℚ).integ fun _ => (∑ _j : Fin 1, 1) * 1) }

/-- C95 is false for `libxcke` with fractional weights: two components with weight 1/2 make up the molecule, all
kinetic energy densities are 1, so the energy is additive and `Ep_kin` is 0; the energy density integrates to half
the molecular energy. -/
theorem C95_refuted_libxcke (T : Env (Grid.tiny ℚ) 0 0 1) :
    ∃ (D : KinDens.KinIn (Grid.tiny ℚ) 0 0 1) (P : Part (Grid.tiny ℚ) 0 0 1) (nf : (Grid.tiny ℚ).Cols 1)
      (L : List (KinData (Grid.tiny ℚ) 1)) (a : KinDens.Arr (Grid.tiny ℚ)) (E x : ℚ),
      P.opt.kin = .libxcke ∧ P.nf = some nf ∧ (∀ j k, nf j k = (L.map fun d => d.s * d.n j k).sum) ∧
      List.Forall₂ (fun f d => HasKin nf (fun f => attr (D.ts f)) f d ∧ f.v.Ts = some d.T) P.comps L ∧
      KinDens.epKin T D P = .ok a ∧ P.epKinetic T = .ok (.num (.fin E)) ∧
      totalOf (fun k => ∑ j, nf j k) a = some x ∧ E = 0 ∧ x ≠ 0 := by
  let d : KinData (Grid.tiny ℚ) 1 := ⟨1 / 2, fun _ _ => 1, fun _ => 1⟩
  let D : KinDens.KinIn (Grid.tiny ℚ) 0 0 1 := { tsm := some fun _ => 1, ts := fun _ => some fun _ => 1 }
  have hL : List.Forall₂ (fun f d => HasKin (fun _ _ => 1) (fun f => attr (D.ts f)) f d ∧ f.v.Ts = some d.T)
      (C95.kinPart (1 / 2)).comps [d, d] := .cons ⟨⟨rfl, rfl, rfl, rfl⟩, rfl⟩ (.cons ⟨⟨rfl, rfl, rfl, rfl⟩, rfl⟩ .nil)
  obtain ⟨a, E, e1, e2, e3, e4⟩ := C95_libxcke T D (C95.kinPart (1 / 2)) (.inl rfl) (fun _ _ => 1) (fun _ _ _ => rfl)
    [d, d] hL (fun _ _ _ _ h => absurd h one_ne_zero) (fun _ => 1) rfl rfl
  refine ⟨D, C95.kinPart (1 / 2), fun _ _ => 1, [d, d], a, E, _, rfl, rfl, ?_, hL, e1, e2, e4, ?_, ?_⟩
  · intro j k
    norm_num [d]
  · rw [e3]
    decide +kernel
  · decide +kernel

/-- Same state with weights 1: the hypotheses of `C95_libxcke_partial` hold (promolecular density 1 as before). -/
example (T : Env (Grid.tiny ℚ) 0 0 1) : ∃ a E, KinDens.epKin T { tsm := some fun _ => 1, ts := fun _ => some fun _ => 1 }
    (C95.kinPart 1) = .ok a ∧ (C95.kinPart 1).epKinetic T = .ok (.num (.fin E)) ∧
    totalOf (fun _ => ∑ _j : Fin 1, 1) a = some E := by
  let d : KinData (Grid.tiny ℚ) 1 := ⟨1, fun _ _ => 1, fun _ => 1⟩
  exact C95_libxcke_partial T _ (C95.kinPart 1) (.inl rfl) (fun _ _ => 1) [d, d]
    (.cons ⟨⟨rfl, rfl, rfl, rfl⟩, rfl⟩ (.cons ⟨⟨rfl, rfl, rfl, rfl⟩, rfl⟩ .nil))
    (by simp [d]) (fun _ _ _ _ h => absurd h one_ne_zero) (fun _ => 1) rfl rfl

/-! ### von Weizsaecker -/

theorem weizsacker_integral {T : Env G r c p} {n : G.Fld} (hs : ∀ k, T.sqrt (n k) ^ 2 = n k) {t : G.Fld}
    (h : KinDens.weizsacker T n = .ok t) : (G.integ fun k => n k * t k) = Spec.weizsacker T n := by
  unfold KinDens.weizsacker at h
  split_ifs at h with hp
  obtain rfl := Except.ok.inj h
  unfold Grid.integ Spec.weizsacker
  congr 1
  refine Finset.sum_congr rfl fun k _ => ?_
  have h1 := hs k
  have h2 : T.sqrt (n k) ≠ 0 := fun h0 => by rw [h0] at h1; exact (hp k).1.ne (by simpa using h1)
  have h3 := (hp k).2
  have : n k * (1 / T.sqrt (n k)) = T.sqrt (n k) := by
    nth_rw 1 [← h1]
    field_simp
  calc G.wi k * G.w k * (n k * (1 / T.sqrt (n k) / G.w k * (-1 / 2 * ∑ l, T.elap k l * T.sqrt (n l))))
      = G.wi k * (n k * (1 / T.sqrt (n k))) * (-1 / 2 * ∑ l, T.elap k l * T.sqrt (n l)) * (G.w k / G.w k) := by ring
    _ = _ := by rw [this, div_self h3, mul_one]

/-- C95, partial, for `vonweiz`: with a promolecular density equal in all columns, the integral of `nf` times
`ep_kin` is the von Weizsaecker energy of the molecule minus `p` times the sum over the components with the squares
of the weights; for one column and weights 1 the non-additive energy.
Missing: `Ep_kin` itself is an array (`C47_refuted`). -/
theorem C95_vonweiz_partial (T : Env G r c p) (D : KinDens.KinIn G r c p) (P : Part G r c p)
    (hk : P.opt.kin = .vonweiz) (nf : G.Cols p) (hnf : P.nf = some nf)
    (hb : ∀ i j k, nf i k = nf j k) (L : List (KinData G p))
    (hL : List.Forall₂ (HasKin nf fun f => do
      let n ← KS.need f.ks.n
      KinDens.weizsacker T (tot n)) P.comps L)
    (hs : ∀ k, T.sqrt (∑ j, nf j k) ^ 2 = ∑ j, nf j k)
    (hs' : ∀ d ∈ L, ∀ k, T.sqrt (∑ j, d.n j k) ^ 2 = ∑ j, d.n j k)
    (hz : ∀ d ∈ L, ∀ j k, nf j k = 0 → d.s * d.n j k = 0) (a) (h : KinDens.epKin T D P = .ok a) :
    totalOf (fun k => ∑ j, nf j k) a = some (Spec.weizsacker T (fun k => ∑ j, nf j k) - twins K P.opt.ensSpinSym *
      (p * (L.map fun d => d.s ^ 2 * Spec.weizsacker T fun k => ∑ j, d.n j k).sum)) := by
  unfold KinDens.epKin KinDens.densities at h
  rw [hk] at h
  dsimp only at h
  rw [hnf, addScaled_fold hL] at h
  simp only [Py.do_eq_ok, Py.pure_eq_ok, attr_eq_ok] at h
  obtain ⟨_, ⟨nf', e1, tsm, e2, tsf, e3, rfl⟩, h⟩ := h
  obtain rfl := Option.some.inj e1
  obtain rfl := Except.ok.inj e3
  rw [kin_total h, weizsacker_integral hs (n := fun k => ∑ j, nf j k) e2]
  simp only [zero_add]
  rw [kin_integral hb L hz]
  have : L.map (fun d => d.s ^ 2 * d.T) = L.map fun d => d.s ^ 2 * Spec.weizsacker T fun k => ∑ j, d.n j k := by
    refine List.map_congr_left fun d hd => ?_
    obtain ⟨i, hi, rfl⟩ := List.getElem_of_mem hd
    have hlen := hL.length_eq
    obtain ⟨-, h2, -, h4⟩ := (List.forall₂_iff_get.mp hL).2 i (hlen ▸ hi) hi
    simp only [h2, KS.need, bind, Except.bind] at h4
    exact congrArg _ (weizsacker_integral (hs' _ hd) h4)
  rw [this]

/-! ### The other choices -/

/-- C95 for `none`: zero. -/
theorem C95_none (T : Env G r c p) (D : KinDens.KinIn G r c p) (P : Part G r c p) (hk : P.opt.kin = .none) (n : G.Fld) :
    ∃ a, KinDens.epKin T D P = .ok a ∧ P.epKinetic T = .ok (.num (.fin 0)) ∧ totalOf n a = some 0 := by
  unfold KinDens.epKin KinDens.densities epKinetic kineticEnergies
  rw [hk]
  refine ⟨.cols 1 fun _ _ => 0, ?_, ?_, ?_⟩
  · cases P.opt.ensSpinSym <;> simp [bind, Except.bind, pure, Except.pure, KinDens.Arr.sub, KinDens.Arr.smul]
  · cases P.opt.ensSpinSym <;> simp [bind, Except.bind, pure, Except.pure, Tot.sub, Tot.neg, Tot.add, Tot.smul, Fl.neg,
      Fl.add, Fl.mul]
  · simp [totalOf, Grid.integ_zero]

/-- C95 is false for the inversion: `ep_kin` is not one number per grid point but a square table, with the molecular
energy density at one point minus the energy density of the fragments (and their mirror images with `ab_sym`) at another
in each entry. -/
theorem C95_refuted_inversion (T : Env G r c p) (D : KinDens.KinIn G r c p) (P : Part G r c p)
    (hk : P.opt.kin = .inversion) (a) (h : KinDens.epKin T D P = .ok a) : ∃ (nf t : G.Cols p) (tsf : G.Fld),
    P.nf = some nf ∧ D.invTs = .ok t ∧
    (if P.opt.abSym then P.compsA else P.comps).foldlM (KinDens.addInversion D.ked) (fun _ => 0) = .ok tsf ∧
    a = .table fun k l => (∑ j, t j l) / (∑ j, nf j l) - twins K P.opt.ensSpinSym *
      (tsf k + if P.opt.abSym then tsf (G.mirIx k) else 0) := by
  unfold KinDens.epKin KinDens.densities at h
  rw [hk] at h
  simp only [Py.do_eq_ok, attr_eq_ok] at h
  obtain ⟨x, ⟨nf, h1, t, h2, tsf, h3, h4⟩, h5⟩ := h
  refine ⟨nf, t, tsf, h1, h2, h3, ?_⟩
  cases ha : P.opt.abSym <;> simp only [ha, Bool.false_eq_true, if_true, if_false] at h4 <;>
    split_ifs at h4 with hc <;> obtain rfl := Except.ok.inj h4 <;> cases hb : P.opt.ensSpinSym <;>
    rw [hb] at h5 <;> obtain rfl := Except.ok.inj h5 <;> simp [twins, tot, Grid.mir, mul_comm]

theorem rowsTs_columns {step : G.Cols p → Fin r × Fin p → Py (G.Cols p)} {t : Fin r → Fin p → G.Fld}
    (hk : ∀ acc w, step acc w = .ok (Function.update acc w.2 (t w.1 w.2))) (i : Fin r) (l : List (Fin p)) (acc : G.Cols p) :
    (l.map fun j => (i, j)).foldlM step acc = .ok fun j => if j ∈ l then t i j else acc j := by
  induction l generalizing acc with
  | nil => simp; rfl
  | cons j l ih =>
    rw [List.map_cons, List.foldlM_cons]
    simp only [hk, bind, Except.bind]
    rw [ih]
    congr 1
    funext j'
    by_cases h1 : j' ∈ l
    · simp [h1]
    · by_cases h2 : j' = j
      · subst h2; simp [h1]
      · simp [h1, h2]

theorem rowsTs_fold {m : ℕ} {step : G.Cols p → Fin (m + 1) × Fin p → Py (G.Cols p)} {t : Fin (m + 1) → Fin p → G.Fld}
    (hk : ∀ acc w, step acc w = .ok (Function.update acc w.2 (t w.1 w.2))) (acc : G.Cols p) :
    (rowMajor (m + 1) p).foldlM step acc = .ok (t (Fin.last m)) := by
  have hfold : ∀ (l : List (Fin (m + 1))) (acc : G.Cols p), ∃ b : G.Cols p,
      (l.flatMap fun i => (List.finRange p).map fun j => (i, j)).foldlM step acc = .ok b := by
    intro l
    induction l with
    | nil => exact fun acc => ⟨acc, rfl⟩
    | cons i l ih =>
      intro acc
      rw [List.flatMap_cons, List.foldlM_append, rowsTs_columns hk]
      exact ih _
  unfold rowMajor
  rw [List.finRange_succ_last, List.flatMap_append, List.foldlM_append]
  obtain ⟨b, hb⟩ := hfold ((List.finRange m).map Fin.castSucc) acc
  rw [hb, List.flatMap_singleton]
  refine (rowsTs_columns hk _ _ _).trans ?_
  simp

/-- Only the kinetic energy densities of the last row of solvers, the largest angular momentum, are kept. -/
theorem rowsTs_last {m : ℕ} {ked : Fin (m + 1) → Fin p → Py (Option G.Fld)} {t : Fin (m + 1) → Fin p → G.Fld}
    (hk : ∀ i j, ked i j = .ok (some (t i j))) : KinDens.rowsTs ked = .ok (t (Fin.last m)) := by
  refine rowsTs_fold (fun acc w => ?_) _
  simp [hk, bind, Except.bind, pure, Except.pure]

/-- The term of a fragment in the inversion, with kinetic energy densities `t i j` of its solvers: the orbitals of all but
the largest angular momentum are lost, and the rest counts once for every solver and spin column. -/
theorem C95_refuted_inversion_term {m : ℕ} (ked : Frag G (m + 1) p p → Fin (m + 1) → Fin p → Py (Option G.Fld))
    (f : Frag G (m + 1) p p) (t : Fin (m + 1) → Fin p → G.Fld) (hk : ∀ i j, ked f i j = .ok (some (t i j)))
    (E) (hE : f.ks.E = some E) (s : K) (hs : f.ks.scale = some s) (n Q : G.Cols p) (hn : f.ks.n = some n)
    (hQ : f.ks.Q = some Q) (h0 : ∀ k, ∑ j, n j k ≠ 0) (acc : G.Fld) :
    KinDens.addInversion ked acc f = .ok fun k => acc k + s * (∑ j, Q j k) *
      (p * ((m + 1) * p) * ((∑ j, t (Fin.last m) j k) / ∑ j, n j k)) := by
  unfold KinDens.addInversion
  simp only [hE, hs, hn, hQ, attr, KS.need, needQ, rowsTs_last hk, bind, Except.bind, pure, Except.pure]
  rw [if_pos (show ∀ k, tot n k ≠ 0 from h0)]
  simp only [tot, Finset.sum_const, Finset.card_univ, Fintype.card_prod, Fintype.card_fin, nsmul_eq_mul]
  congr 1
  funext k
  push_cast
  ring

/-- The two fragments above with an inversion that found the kinetic energy density 2. -/
example : ((KinDens.epKin (C95.env 1) { invTs := .ok fun _ _ => 2 }
    { C95.kinPart 1 with opt := { kin := .inversion } }).toOption.bind fun a => match a with
      | .table t => some (t 0 1)
      | _ => none) = some 2 := by
  decide +kernel

/-! ### Two orbitals -/

theorem twoFrag_integral {T : Env G r c p} {s : K} {n : G.Fld} {t : G.Fld}
    (h : KinDens.twoFrag T s n = .ok t) :
    twoFragT T n = .ok (Spec.weizsacker T n) ∧ (G.integ fun k => n k * t k) = s * Spec.weizsacker T n := by
  unfold KinDens.twoFrag at h
  split_ifs at h with hp
  obtain rfl := Except.ok.inj h
  refine ⟨if_pos fun k => (hp k).1.le, ?_⟩
  unfold Grid.integ Spec.weizsacker
  rw [mul_left_comm]
  congr 1
  rw [Finset.mul_sum]
  refine Finset.sum_congr rfl fun k _ => ?_
  have h2 := (hp k).1.ne'
  have h3 := (hp k).2
  field_simp

theorem twoT_integral {T : Env G r c 1} {phi : G.Cols 1} {x : K} (h : twoT T phi = .ok x) :
    x = G.integ fun k => phi 0 k * eT T phi 0 k / G.w k := by
  unfold twoT quot at h
  simp only [Py.do_eq_ok] at h
  obtain ⟨f, h1, f0, h2, h3⟩ := h
  split_ifs at h1 with hc
  obtain rfl := Except.ok.inj h1
  obtain rfl := Except.ok.inj (show Except.ok _ = Except.ok f0 from h2)
  exact (Except.ok.inj h3).symm

/-- A component with weight, density and Q function, as in the loop of the two-orbital functional. -/
def Spec.HasTwo (nf : G.Cols 1) (f : Frag G r c 1) (d : G.Cols 1 × K) : Prop :=
  f.ks.n = some d.1 ∧ f.ks.scale = some d.2 ∧ f.ks.Q = some (qWeight nf d.2 d.1)

theorem two_fold {T : Env G r c 1} {nf : G.Cols 1} {l : List (Frag G r c 1)}
    {L : List (G.Cols 1 × K)} (h : List.Forall₂ (HasTwo nf) l L)
    (hz : ∀ d ∈ L, ∀ j k, nf j k = 0 → d.2 * d.1 j k = 0) (acc tsf : G.Cols 1)
    (hf : l.foldlM (m := Py) (fun (acc : G.Cols 1) f => do
      let s ← KS.need f.ks.scale
      let n ← KS.need f.ks.n
      let t ← KinDens.twoFrag T s (tot n)
      let Q ← needQ f.ks.Q
      pure fun j k => acc j k + Q j k * t k) acc = .ok tsf) (e : K) :
    l.foldlM (m := Py) (fun (acc : K) f => do
      let s ← KS.need f.ks.scale
      let n ← KS.need f.ks.n
      let t ← twoFragT T (tot n)
      pure (acc + s * t)) e = .ok (e + (L.map fun d => d.2 * Spec.weizsacker T (tot d.1)).sum) ∧
    (G.integ fun k => (∑ j, nf j k) * tsf 0 k) = (G.integ fun k => (∑ j, nf j k) * acc 0 k) +
      (L.map fun d => d.2 ^ 2 * Spec.weizsacker T (tot d.1)).sum := by
  induction h generalizing acc e with
  | nil =>
    obtain rfl := Except.ok.inj (show Except.ok _ = Except.ok tsf from hf)
    simp only [List.foldlM_nil, List.map_nil, List.sum_nil, add_zero]
    exact ⟨rfl, trivial⟩
  | @cons f d l L hfd _ ih =>
    obtain ⟨h1, h2, h3⟩ := hfd
    rw [List.foldlM_cons, Py.do_eq_ok] at hf
    obtain ⟨acc', ha, hf⟩ := hf
    simp only [h1, h2, h3, KS.need, needQ, Py.do_eq_ok, Py.pure_eq_ok, Except.ok.injEq] at ha
    obtain ⟨_, rfl, _, rfl, t, ht, _, rfl, rfl⟩ := ha
    obtain ⟨i1, i2⟩ := ih (fun d hd => hz d (List.mem_cons_of_mem _ hd)) _ hf (e + d.2 * Spec.weizsacker T (tot d.1))
    obtain ⟨t1, t2⟩ := twoFrag_integral ht
    constructor
    · rw [List.foldlM_cons, h1, h2]
      simp only [KS.need, bind, Except.bind, pure, Except.pure, t1]
      refine i1.trans ?_
      simp [add_assoc]
    · rw [i2]
      have := weight_integral (nf := nf) (s := d.2) (n := d.1) (fun i j k => by rw [Subsingleton.elim i j])
        (hz d List.mem_cons_self) t
      simp only [Fin.sum_univ_one, Fin.isValue, Nat.cast_one, one_mul] at this
      simp only [mul_add, Grid.integ_add, List.map_cons, List.sum_cons, Fin.sum_univ_one, this]
      have e2 : (G.integ fun k => d.1 0 k * t k) = d.2 * Spec.weizsacker T (tot d.1) := by
        rw [← t2]
        exact integ_congr fun k => by simp [tot]
      rw [e2]
      ring

/-- C95 for the two-orbital functional and one spin column: the integral of `nf` times `ep_kin` contains the squares
of the weights, and with `ab_sym` three times A's term where `Ep_kin` contains it twice. -/
theorem C95_twoorbital (T : Env G r c 1)
    (hT : T.twoOrbitalEnergy = twoOrbitalEnergy T) (D : KinDens.KinIn G r c 1) (P : Part G r c 1)
    (hk : P.opt.kin = .twoorbital) (nf : G.Cols 1) (hnf : P.nf = some nf)
    (L : List (G.Cols 1 × K)) (hL : List.Forall₂ (HasTwo nf) (if P.opt.abSym then [P.fa] else [P.fa, P.fb]) L)
    (hz : ∀ d ∈ L, ∀ j k, nf j k = 0 → d.2 * d.1 j k = 0)
    (hsym : P.opt.abSym = true → (∀ k, G.wi (G.mirIx k) = G.wi k) ∧ (∀ k, G.w (G.mirIx k) = G.w k) ∧
      ∀ j k, nf j (G.mirIx k) = nf j k)
    (a) (h : KinDens.epKin T D P = .ok a) (t) (ht : P.epKinetic T = .ok t) :
    ∃ M : K, t = .num (.fin (M - twins K P.opt.ensSpinSym * ((if P.opt.abSym then 2 else 1) *
        (L.map fun d => d.2 * Spec.weizsacker T (tot d.1)).sum))) ∧
      totalOf (fun k => ∑ j, nf j k) a = some (M - twins K P.opt.ensSpinSym * ((if P.opt.abSym then 3 else 1) *
        (L.map fun d => d.2 ^ 2 * Spec.weizsacker T (tot d.1)).sum)) := by
  unfold KinDens.epKin KinDens.densities at h
  rw [hk] at h
  simp only [Py.do_eq_ok] at h
  obtain ⟨_, ⟨⟨tsm, tsf'⟩, h1, h2⟩, h3⟩ := h
  obtain rfl := Except.ok.inj h2
  unfold KinDens.twoOrbital at h1
  simp only [Py.do_eq_ok, Py.pure_eq_ok, attr_eq_ok] at h1
  obtain ⟨n1, k1, n2, k2, nf', k3, ⟨phi1, phi2⟩, k4, q, k5, tsm', k6, tsf, k7, k8⟩ := h1
  obtain rfl := Option.some.inj (hnf.symm.trans k3)
  simp only [Prod.mk.injEq] at k8
  obtain ⟨rfl, rfl⟩ := k8
  unfold quot at k5 k6
  split_ifs at k5 with hw
  split_ifs at k6 with hn
  obtain rfl := Except.ok.inj k5
  obtain rfl := Except.ok.inj k6
  obtain ⟨f1, f2⟩ := two_fold hL hz _ _ k7 0
  -- the energy
  unfold epKinetic kineticEnergies at ht
  rw [hk] at ht
  simp only [hT, Py.do_eq_ok, Py.pure_eq_ok] at ht
  obtain ⟨⟨Tm, Tf⟩, ⟨⟨M, F⟩, e1, e2⟩, rfl⟩ := ht
  unfold twoOrbitalEnergy at e1
  simp only [Py.do_eq_ok, Py.pure_eq_ok] at e1
  obtain ⟨n1', l1, n2', l2, M', l3, F', l4, l5⟩ := e1
  rw [k1] at l1
  obtain rfl := Except.ok.inj l1
  rw [k2] at l2
  obtain rfl := Except.ok.inj (show Except.ok n2 = Except.ok n2' from l2)
  rw [f1] at l4
  obtain rfl := Except.ok.inj l4
  simp only [Prod.mk.injEq] at l5 e2
  obtain ⟨rfl, rfl⟩ := l5
  obtain ⟨rfl, rfl⟩ := e2
  unfold twoTsm at l3
  simp only [k4, Py.do_eq_ok, Py.pure_eq_ok, Except.ok.injEq] at l3
  obtain ⟨_, rfl, t1, m1, t2, m2, rfl⟩ := l3
  have hM : (G.integ fun k => (∑ j, nf j k) * ((phi1 0 k * eT T phi1 0 k + phi2 0 k * eT T phi2 0 k) /
      wCols G 1 0 k / tot nf k)) = t1 + t2 := by
    rw [twoT_integral m1, twoT_integral m2, ← Grid.integ_add]
    refine integ_congr fun k => ?_
    have := hn 0 k
    have h4 : (∑ j, nf j k) = tot nf k := rfl
    rw [h4, mul_div_cancel₀ _ this]
    simp only [wCols]
    ring
  refine ⟨t1 + t2, ?_, ?_⟩
  · cases P.opt.ensSpinSym <;> cases P.opt.abSym <;> simp [Tot.sub, Tot.neg, Tot.add, Tot.smul, Fl.neg,
      Fl.add, Fl.mul, twins, sub_eq_add_neg, mul_comm]
  · simp only [mul_zero, Grid.integ_zero, zero_add] at f2
    have hF : (G.integ fun k => (∑ j, nf j k) * (if P.opt.abSym then fun j k => tsf j k + (tsf j k + G.mirCols tsf j k)
        else tsf : G.Cols 1) 0 k) = (if P.opt.abSym then 3 else 1) *
        (L.map fun d => d.2 ^ 2 * Spec.weizsacker T (tot d.1)).sum := by
      cases hab : P.opt.abSym with
      | false => simp only [Bool.false_eq_true, ↓reduceIte, one_mul]; exact f2
      | true =>
        obtain ⟨w1, w2, w3⟩ := hsym hab
        have hm : (G.integ fun k => (∑ j, nf j k) * G.mirCols tsf 0 k) = G.integ fun k => (∑ j, nf j k) * tsf 0 k := by
          rw [← integ_mir w1 w2 fun k => (∑ j, nf j k) * tsf 0 k]
          refine integ_congr fun k => ?_
          rw [Finset.sum_congr rfl fun j _ => w3 j k]
          rfl
        simp only [↓reduceIte, mul_add, Grid.integ_add, hm, f2]
        ring
    rw [← hM, ← hF]
    generalize (if P.opt.abSym then fun j k => tsf j k + (tsf j k + G.mirCols tsf j k) else tsf : G.Cols 1) = g at h3 ⊢
    cases hb : P.opt.ensSpinSym with
    | false =>
      rw [hb] at h3
      obtain rfl := Except.ok.inj (show Except.ok (KinDens.Arr.cols 1 _) = Except.ok a from h3)
      simp only [totalOf, twins, Bool.false_eq_true, ↓reduceIte, one_mul, mul_sub, integ_sub]
    | true =>
      rw [hb] at h3
      obtain rfl := Except.ok.inj (show Except.ok (KinDens.Arr.cols 1 _) = Except.ok a from h3)
      simp only [totalOf, twins, ↓reduceIte, mul_sub, integ_sub]
      congr 2
      rw [← Grid.integ_smul]
      exact integ_congr fun k => by ring

/-- C95, partial, for the two-orbital functional: with one spin column, weights 1 and no `ab_sym`, the integral of
`nf` times `ep_kin` is `Ep_kin`.  Missing: other weights, `ab_sym` (`C95_refuted_twoorbital`). -/
theorem C95_twoorbital_partial (T : Env G r c 1) (hT : T.twoOrbitalEnergy = twoOrbitalEnergy T)
    (D : KinDens.KinIn G r c 1) (P : Part G r c 1) (hk : P.opt.kin = .twoorbital) (hab : P.opt.abSym = false)
    (nf : G.Cols 1) (hnf : P.nf = some nf) (na nb : G.Cols 1) (ha : HasTwo nf P.fa (na, 1)) (hb : HasTwo nf P.fb (nb, 1))
    (hz : ∀ j k, nf j k = 0 → na j k = 0 ∧ nb j k = 0) (a) (h : KinDens.epKin T D P = .ok a)
    (t) (ht : P.epKinetic T = .ok t) :
    ∃ E, t = .num (.fin E) ∧ totalOf (fun k => ∑ j, nf j k) a = some E := by
  obtain ⟨M, e1, e2⟩ := C95_twoorbital T hT D P hk nf hnf [(na, 1), (nb, 1)]
    (by rw [hab]; exact .cons ha (.cons hb .nil)) (by
      intro d hd j k h0
      simp only [List.mem_cons, List.not_mem_nil, or_false] at hd
      rcases hd with rfl | rfl
      · simp [(hz j k h0).1]
      · simp [(hz j k h0).2]) (fun h' => by rw [hab] at h'; exact nomatch h') a h t ht
  refine ⟨_, e1, e2.trans ?_⟩
  simp [hab]

/-- On the two-point grid with `elap` the identity (and `sqrt` the identity, right at 0 and 1). -/
def C95.twoEnv : Env (Grid.tiny ℚ) 0 0 1 := { C95.env 1 with elap := 1 }.withTwoOrbital

def C95.twoPart (ab : Bool) : Part (Grid.tiny ℚ) 0 0 1 :=
  { Part.sample { kin := .twoorbital, abSym := ab } (C95.kinFrag 1) (C95.kinFrag 1) none with
    naFrac := some fun _ _ => 1, nbFrac := some fun _ _ => 0, nf := some fun _ _ => 1 }

/-- C95 is false for the two-orbital functional with `ab_sym`: the term of A enters the energy twice and its density
three times. -/
theorem C95_refuted_twoorbital : ∃ (T : Env (Grid.tiny ℚ) 0 0 1) (D : KinDens.KinIn (Grid.tiny ℚ) 0 0 1)
    (P : Part (Grid.tiny ℚ) 0 0 1) (nf : (Grid.tiny ℚ).Cols 1) (a : KinDens.Arr (Grid.tiny ℚ)) (E x : ℚ), P.opt.kin = .twoorbital ∧
    P.opt.abSym = true ∧ P.nf = some nf ∧ HasTwo nf P.fa (fun _ _ => 1, 1) ∧
    KinDens.epKin T D P = .ok a ∧ P.epKinetic T = .ok (.num (.fin E)) ∧ totalOf (fun k => ∑ j, nf j k) a = some x ∧
    E ≠ x := by
  have h1 : ((KinDens.epKin C95.twoEnv {} (C95.twoPart true)).toOption).isSome = true := by decide +kernel
  have h2 : (((C95.twoPart true).epKinetic C95.twoEnv).toOption).isSome = true := by decide +kernel
  cases e1 : KinDens.epKin C95.twoEnv {} (C95.twoPart true) with
  | error x => rw [e1] at h1; exact nomatch h1
  | ok a =>
  cases e2 : (C95.twoPart true).epKinetic C95.twoEnv with
  | error x => rw [e2] at h2; exact nomatch h2
  | ok t =>
  obtain ⟨M, g1, g2⟩ := C95_twoorbital C95.twoEnv rfl {} (C95.twoPart true) rfl (fun _ _ => 1) rfl [(fun _ _ => 1, 1)]
    (.cons ⟨rfl, rfl, rfl⟩ .nil) (fun _ _ _ _ h => absurd h one_ne_zero)
    (fun _ => ⟨by decide +kernel, by decide +kernel, fun _ _ => rfl⟩) a e1 t e2
  subst g1
  refine ⟨C95.twoEnv, {}, C95.twoPart true, fun _ _ => 1, a, _, _, rfl, rfl, rfl, ⟨rfl, rfl, rfl⟩, e1, e2, g2, ?_⟩
  intro h
  have hw : Spec.weizsacker C95.twoEnv (tot (p := 1) fun _ _ => (1 : ℚ)) ≠ 0 := by decide +kernel
  apply hw
  change M - twins ℚ false * (2 * _) = M - twins ℚ false * (3 * _) at h
  simp only [twins, Bool.false_eq_true, ↓reduceIte, List.map_cons, List.map_nil, List.sum_cons, List.sum_nil] at h
  linarith

/-- Without `ab_sym` the same state satisfies the hypotheses of `C95_twoorbital_partial`. -/
example : ((KinDens.epKin C95.twoEnv {} (C95.twoPart false)).toOption).isSome = true ∧
    (((C95.twoPart false).epKinetic C95.twoEnv).toOption).isSome = true ∧
    HasTwo (fun _ _ => 1) (C95.twoPart false).fa (fun _ _ => 1, 1) :=
  ⟨by decide +kernel, by decide +kernel, rfl, rfl, rfl⟩

/-- The same fragments with the von Weizsaecker functional. -/
example : ∃ a, KinDens.epKin C95.twoEnv {} { C95.kinPart 1 with opt := { kin := .vonweiz } } = .ok a ∧
    totalOf (fun _ => ∑ _j : Fin 1, 1) a = some (Spec.weizsacker C95.twoEnv (fun _ => ∑ _j : Fin 1, 1) -
      2 * Spec.weizsacker C95.twoEnv fun _ => ∑ _j : Fin 1, 1) := by
  have h1 : ((KinDens.epKin C95.twoEnv {} { C95.kinPart 1 with opt := { kin := .vonweiz } }).toOption).isSome = true := by
    decide +kernel
  cases e1 : KinDens.epKin C95.twoEnv {} { C95.kinPart 1 with opt := { kin := .vonweiz } } with
  | error x => rw [e1] at h1; exact nomatch h1
  | ok a =>
  refine ⟨a, rfl, ?_⟩
  have hw : ∃ t, KinDens.weizsacker C95.twoEnv (tot (p := 1) fun _ _ => (1 : ℚ)) = .ok t :=
    ⟨_, if_pos (by decide +kernel)⟩
  obtain ⟨t, hw⟩ := hw
  let d : KinData (Grid.tiny ℚ) 1 := ⟨1, fun _ _ => 1, t⟩
  have := C95_vonweiz_partial C95.twoEnv {} { C95.kinPart 1 with opt := { kin := .vonweiz } } rfl (fun _ _ => 1) rfl
    (fun _ _ _ => rfl) [d, d] (.cons ⟨rfl, rfl, rfl, hw⟩ (.cons ⟨rfl, rfl, rfl, hw⟩ .nil))
    (by decide +kernel) (by
      intro x hx
      simp only [List.mem_cons, List.not_mem_nil, or_false, or_self] at hx
      subst hx
      change ∀ _, (∑ _j : Fin 1, (1 : ℚ)) ^ 2 = ∑ _j : Fin 1, (1 : ℚ)
      norm_num) (fun _ _ _ _ h => absurd h one_ne_zero) a e1
  rw [this]
  simp only [twins, d, List.map_cons, List.map_nil, List.sum_cons, List.sum_nil]
  norm_num
  ring

end Verif
