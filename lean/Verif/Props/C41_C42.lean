import Verif.Lemmas.PartitionEnergy
import Verif.Props.C34_C36

/-! # C41: total energy; C42: fragment energies; C50: isolated fragments (energies) -/

namespace Verif
open Spec Part
variable {K : Type} [Field K] [LinearOrder K] [IsStrictOrderedRing K] [FloorRing K]
variable {G : Grid K} {r c p : ℕ}

/-! ## C42 -/

theorem energy_inv {T : Env G r c p} {P P' : Part G r c p} (h : P.energy T = .ok P') :
    ∃ (sa sb : Sums K p) (P₁ : Part G r c p) (pot hxc : K) (kin ep : Tot G) (ea eb : List K), P.sumsAB = .ok (sa, sb) ∧
      P.partitionEnergy T (sa.Eh + sb.Eh) (sa.Ex + sb.Ex) (sa.Ec + sb.Ec) = .ok (P₁, pot, kin, hxc, ep) ∧
      P₁.evalsAB = .ok (ea, eb) ∧
      P' = { P₁ with E := some ⟨sa.E, sb.E, Fl.add sa.E sb.E, Fl.add sa.Ts sb.Ts,
        fun j => Fl.add (sa.Eks j) (sb.Eks j), sa.Enuc + sb.Enuc, sa.Ex + sb.Ex, sa.Ec + sb.Ec,
        sa.Eh + sb.Eh, sa.Vhxc + sb.Vhxc, pot, kin, hxc, ep, Tot.add (.num (Fl.add sa.E sb.E)) ep,
        P₁.Za * P₁.Zb / (2 * P₁.a), Tot.add (Tot.add (.num (Fl.add sa.E sb.E)) ep)
          (.num (.fin (P₁.Za * P₁.Zb / (2 * P₁.a)))), ea, eb⟩ } := by
  unfold energy at h
  simp only [Py.do_eq_ok, Py.pure_eq_ok] at h
  obtain ⟨⟨sa, sb⟩, h1, ⟨P₁, pot, kin, hxc, ep⟩, h2, ⟨ea, eb⟩, h3, h4⟩ := h
  exact ⟨sa, sb, P₁, pot, hxc, kin, ep, ea, eb, h1, h2, h3, h4.symm⟩

/-- C42, partial: without an ensemble or with `ab_sym`, `energy()` sets the energy of each fragment to the
ensemble average of its components (doubled with `ens_spin_sym`); B's equals A's with `ab_sym`; the
sum of the fragment energies is the sum of the two, likewise for the components.
Missing: ensembles without `ab_sym` (`C42_refuted`). -/
theorem C42_fragment_energies_partial (T : Env G r c p) (P P' : Part G r c p) (h : P.energy T = .ok P')
    (L M : List (FragEnergy K p)) (hL : HasEnergies (decide (P.opt.interaction = .dft)) P.compsA L)
    (hM : if P.opt.abSym then M = L else HasEnergies (decide (P.opt.interaction = .dft)) P.compsB M)
    (hens : P.opt.abSym = true ∨ P.fAB = none) :
    ∃ e : PartEnergy G p, P'.E = some e ∧
      e.Ea = .fin (twins K P.opt.ensSpinSym * avg L (·.E)) ∧
      e.Eb = .fin (twins K P.opt.ensSpinSym * avg M (·.E)) ∧
      e.Ef = .fin (twins K P.opt.ensSpinSym * avg L (·.E) + twins K P.opt.ensSpinSym * avg M (·.E)) ∧
      (P.opt.abSym = true → e.Eb = e.Ea) ∧
      e.Tsf = .fin (twins K P.opt.ensSpinSym * (avg L (·.Ts) + avg M (·.Ts))) ∧
      (∀ j, e.Eksf j = .fin (twins K P.opt.ensSpinSym * (avg L (·.Eks j) + avg M (·.Eks j)))) ∧
      e.Enucf = twins K P.opt.ensSpinSym * (avg L (·.Enuc) + avg M (·.Enuc)) ∧
      (P.opt.interaction = .dft →
        e.Exf = twins K P.opt.ensSpinSym * (avg L (·.Ex) + avg M (·.Ex)) ∧
        e.Ecf = twins K P.opt.ensSpinSym * (avg L (·.Ec) + avg M (·.Ec)) ∧
        e.Ehf = twins K P.opt.ensSpinSym * (avg L (·.Eh) + avg M (·.Eh)) ∧
        e.Vhxcf = twins K P.opt.ensSpinSym * (avg L (·.Vhxc) + avg M (·.Vhxc))) := by
  obtain ⟨sa, sb, P₁, pot, hxc, kin, ep, ea, eb, h1, -, -, rfl⟩ := energy_inv h
  rw [sumsAB_eq P L M hL (fun h => by simpa [h] using hM) hens (fun h => by simpa [h] using hM)] at h1
  rw [sums_double, sums_double] at h1
  simp only [Except.ok.injEq, Prod.mk.injEq] at h1
  obtain ⟨rfl, rfl⟩ := h1
  refine ⟨_, rfl, rfl, rfl, rfl, ?_, ?_, ?_, ?_, ?_⟩
  · intro hab
    rw [if_pos hab] at hM
    rw [hM]
  · simp [mul_add]
  · intro j; simp [mul_add]
  · simp [mul_add]
  · intro hd
    simp [hd, mul_add]

/-- C42: in an ensemble without `ab_sym` the energy of fragment B is wrong: components with weights 1/2 and
energies 0 (`KSb`) and 6 (`KSB`) average to 3, the code sets 6. -/
theorem C42_refuted (T : Env (Grid.tiny ℚ) 0 0 1) :
    ∃ (P P' : Part (Grid.tiny ℚ) 0 0 1) (e : PartEnergy (Grid.tiny ℚ) 1) (M : List (FragEnergy ℚ 1)),
      HasEnergies false P.compsB M ∧ avg M (·.E) = 3 ∧ P.energy T = .ok P' ∧ P'.E = some e ∧
      P.opt.ensSpinSym = false ∧ e.Eb = .fin 6 := by
  let f : ℚ → Frag (Grid.tiny ℚ) 0 0 1 := fun e => Frag.sample (fun _ _ => 0) (1 / 2) (KSEnergy.sample e)
  refine ⟨Part.sample ⟨.component, .exact, .none, .ni, false, false, true⟩ (f 0) (f 0) (some (f 0, f 6)), _,
    _, [⟨1 / 2, 0, 0, fun _ => 0, 0, 0, 0, 0, 0⟩, ⟨1 / 2, 6, 0, fun _ => 0, 0, 0, 0, 0, 0⟩], ?_, ?_, rfl, rfl,
    rfl, ?_⟩
  · exact .cons ⟨rfl, _, rfl, rfl, rfl, fun _ => rfl, rfl, by simp⟩
      (.cons ⟨rfl, _, rfl, rfl, rfl, fun _ => rfl, rfl, by simp⟩ .nil)
  · norm_num [avg]
  · change Fl.fin _ = Fl.fin _
    norm_num [Frag.sample, KSEnergy.sample, f]

/-! ## C41 -/

/-- Spins summed, the spin flip doubles. -/
theorem tot_addFlip (b : Bool) (f : G.Cols p) (k : G.Ix) : tot (addFlip b f) k = twins K b * tot f k := by
  cases b with
  | false => simp [addFlip, twins]
  | true =>
    simp only [tot, addFlip, ↓reduceIte, twins, Finset.sum_add_distrib, Grid.flipCols]
    rw [Fintype.sum_equiv Fin.revPerm (fun j : Fin p => f j.rev k) (fun j => f j k) fun _ => rfl]
    ring

/-- A component whose total energy has the terms of a density functional calculation in the potential `v`
(what `Kohnsham.energy` computes, `decomposed_of_energy`). -/
def Spec.Decomposed (v : G.Fld) (f : Frag G r c p) : Prop :=
  ∃ (n : G.Cols p) (e : KSEnergy K p) (ts eh vhxc : K) (eks : Fin p → K), f.ks.n = some n ∧ f.ks.E = some e ∧
    e.Ts = .fin ts ∧ e.Eh = some eh ∧ e.Vhxc = some vhxc ∧ (∀ j, e.Eks j = .fin (eks j)) ∧
    e.Enuc = G.integ (fun k => tot n k * v k) ∧ e.E = .fin (ts + e.Enuc + eh + e.Ex + e.Ec)

theorem decomposed_of_energy (F : Functionals G p) (f : Frag G r c p) (ks' : KS G r c p) (hc : c ≤ p)
    (h : f.ks.energy F = .ok ks') (hd : f.ks.kind = .dft) (v : G.Fld) (hv : ∀ j, f.ks.vnuc j = v)
    (hZ : f.ks.Za = 0 ∨ f.ks.Zb = 0) (hn : ks'.n = f.ks.n) : Decomposed v { f with ks := ks' } := by
  obtain ⟨E, es, vs, ts, n, vext, hE, h1, -, -, h2, h3, -, h4, -, -, -, h5⟩ := C34_energy F f.ks ks' hc h
  obtain ⟨Eh, vh, ex, vx, ec, vc, hp, k1, k2, k3, k4, k5, k6⟩ := h5 hd
  have hvhxc : ∃ x, E.Vhxc = some x := by
    unfold KS.energy at h
    rw [hd] at h
    simp only [Py.do_eq_ok, Py.pure_eq_ok] at h
    obtain ⟨_, _, _, _, _, _, _, _, _, _, _, _, _, _, _, _, h⟩ := h
    subst h
    simp only [Option.some.injEq] at hE
    rw [← hE]
    exact ⟨_, rfl⟩
  obtain ⟨x, hx⟩ := hvhxc
  refine ⟨n, E, _, Eh, x, _, hn.trans h1, hE, h2, k1, hx, h3, ?_, ?_⟩
  · rw [h4]
    simp only [hv, tot, Finset.sum_mul]
  · rw [k6]
    rcases hZ with h | h <;> simp [h]

theorem decomposed_list (v : G.Fld) (l : List (Frag G r c p)) (A : List (G.Cols p × K)) (hA : Comps l A)
    (hd : ∀ f ∈ l, Decomposed v f) :
    ∃ L : List (FragEnergy K p), HasEnergies true l L ∧
      avg L (·.E) = avg L (·.Ts) + avg L (·.Eh) + avg L (·.Ex) + avg L (·.Ec) +
        G.integ (fun k => tot (Spec.average A) k * v k) := by
  induction hA with
  | nil =>
    refine ⟨[], .nil, ?_⟩
    have h : ∀ k, tot (Spec.average (p := p) (G := G) []) k = 0 := fun k => by simp [tot, Spec.average]
    simp [avg, h, G.integ_zero]
  | @cons f x l A hf _ ih =>
    obtain ⟨L, hL, hs⟩ := ih fun g hg => hd g (List.mem_cons_of_mem _ hg)
    obtain ⟨n, e, ts, eh, vhxc, eks, h1, h2, h3, h4, h5, h6, h7, h8⟩ := hd f (List.mem_cons_self ..)
    obtain rfl : n = x.1 := Option.some.inj (h1.symm.trans hf.1)
    refine ⟨⟨x.2, ts + e.Enuc + eh + e.Ex + e.Ec, ts, eks, e.Enuc, e.Ex, e.Ec, eh, vhxc⟩ :: L,
      .cons ⟨hf.2, e, h2, h8, h3, h6, rfl, fun _ => ⟨rfl, rfl, h4, h5⟩⟩ hL, ?_⟩
    have h : (fun k => tot (Spec.average (x :: A)) k * v k) =
        fun k => x.2 * (tot x.1 k * v k) + tot (Spec.average A) k * v k := by
      funext k
      simp only [tot, Spec.average, List.map_cons, List.sum_cons, Finset.sum_add_distrib, add_mul,
        ← Finset.mul_sum]
      ring
    rw [h, G.integ_add, G.integ_smul, ← h7]
    simp only [avg, List.map_cons, List.sum_cons] at hs ⊢
    rw [hs]
    ring

theorem kineticSum_fold (dft : Bool) (l : List (Frag G r c p)) (L : List (FragEnergy K p))
    (h : HasEnergies dft l L) (t : K) :
    l.foldlM (fun (acc : Fl K) f => do
      let E ← attr f.ks.E
      let s ← KS.need f.ks.scale
      pure (Fl.add acc (Fl.mul (.fin s) E.Ts))) (.fin t) = (.ok (.fin (t + avg L (·.Ts))) : Py (Fl K)) := by
  induction h generalizing t with
  | nil => simp [avg]; rfl
  | @cons f x l L hf _ ih =>
    obtain ⟨hs, e, he, -, h2, -⟩ := hf
    rw [List.foldlM_cons, he, hs]
    change Except.bind (.ok _) _ = _
    simp only [Except.bind, h2, Fl.mul_fin, Fl.add_fin]
    rw [ih]
    simp [avg, add_assoc]

theorem kineticSum_eq (dft : Bool) (l : List (Frag G r c p)) (L : List (FragEnergy K p))
    (h : HasEnergies dft l L) :
    l.foldlM (fun (acc : Fl K) f => do
      let E ← attr f.ks.E
      let s ← KS.need f.ks.scale
      pure (Fl.add acc (Fl.mul (.fin s) E.Ts))) (.fin 0) = (.ok (.fin (avg L (·.Ts))) : Py (Fl K)) := by
  rw [kineticSum_fold dft l L h, zero_add]

/-- C41, partial: with exact partition functionals and density functional interaction, the total energy is
the fragments' kinetic energy plus `Ep_kin`, the energy of the promolecular density in both nuclei's
potential, its Hartree, exchange and correlation energies and the nuclear repulsion; with the kinetic
part from inversion the first two terms are the inverter's kinetic energy.
Hypotheses: the promolecular density is that of the fragments (`calc_protomolecule` would change nothing)
and the stored exchange and correlation energies `e_x`, `e_c` belong to it - `energy()` does not
recompute them (`C48_refuted`).
Missing: ensembles without `ab_sym` (`C41_refuted`, a consequence of `C42_refuted`). -/
theorem C41_total_energy_partial (T : Env G r c p) (P P' : Part G r c p) (h : P.energy T = .ok P')
    (hx : P.opt.hxc = .exact) (hd : P.opt.interaction = .dft) (hi : P.opt.isolated = false)
    (hens : P.opt.abSym = true ∨ P.fAB = none)
    (A B : List (G.Cols p × K)) (hA : Comps P.compsA A) (hB : Comps P.compsB B)
    (hcur : P.calcProtomolecule = .ok P)
    (hdA : ∀ f ∈ P.compsA, Decomposed P.va f) (hdB : P.opt.abSym = false → ∀ f ∈ P.compsB, Decomposed P.vb f)
    (hab : P.opt.abSym = true → MirrorInvariant G ∧ P.vb = G.mir P.va ∧
      Spec.average B = G.mirCols (Spec.average A))
    (nf : G.Cols p) (hnf : P.nf = some nf) (ex ec : K) (epsX epsC : G.Fld) (vx vc : G.Cols p)
    (hex : T.exchange nf = .ok (ex, epsX, vx)) (hec : T.correlation nf = .ok (ec, epsC, vc))
    (hsx : P.ex = some ex) (hsc : P.ec = some ec) (t : K) (e : PartEnergy G p) (he : P'.E = some e)
    (ht : e.EpKin = .num (.fin t)) :
    ∃ (Tsf : K) (vh : G.Fld), e.Tsf = .fin Tsf ∧ T.hartree1 (fun k => ∑ j, nf j k) = .ok vh ∧
      e.E = .num (.fin (Tsf + t + G.integ (fun k => (∑ j, nf j k) * (P.va k + P.vb k)) +
        1 / 2 * G.integ (fun k => (∑ j, nf j k) * vh k) + ex + ec + P.Za * P.Zb / (2 * P.a))) ∧
      (P.opt.kin = .inversion → ∃ Tsm, P.invTs = some Tsm ∧ Tsf + t = Tsm) := by
  obtain ⟨L, hL, hLs⟩ := decomposed_list P.va P.compsA A hA hdA
  have hBpart : ∃ M : List (FragEnergy K p), (if P.opt.abSym then M = L else HasEnergies true P.compsB M) ∧
      avg M (·.E) = avg M (·.Ts) + avg M (·.Eh) + avg M (·.Ex) + avg M (·.Ec) +
        G.integ (fun k => tot (Spec.average B) k * P.vb k) := by
    cases hs : P.opt.abSym with
    | false =>
      obtain ⟨M, hM, hMs⟩ := decomposed_list P.vb P.compsB B hB (hdB hs)
      exact ⟨M, hM, hMs⟩
    | true =>
      obtain ⟨hG, hv, hav⟩ := hab hs
      refine ⟨L, rfl, ?_⟩
      rw [hLs, ← hG, hv, hav]
      rfl
  obtain ⟨M, hM, hMs⟩ := hBpart
  set d := twins K P.opt.ensSpinSym with hdef
  obtain ⟨sa, sb, P₁, pot, hxc, kin, ep, ea, eb, h1, h2, -, rfl⟩ := energy_inv h
  have hdec : decide (P.opt.interaction = .dft) = true := by simp [hd]
  rw [sumsAB_eq P L M (by rw [hdec]; exact hL) (fun h => by rw [hdec]; simpa [h] using hM) hens
    (fun h => by simpa [h] using hM), sums_double, sums_double] at h1
  simp only [Except.ok.injEq, Prod.mk.injEq, hd, ↓reduceIte] at h1
  obtain ⟨rfl, rfl⟩ := h1
  simp only [Option.some.injEq] at he
  subst he
  simp only at ht
  subst ht
  unfold partitionEnergy at h2
  rw [hi] at h2
  simp only [Bool.false_eq_true, ↓reduceIte, Py.do_eq_ok, Py.pure_eq_ok] at h2
  obtain ⟨pot', hpot, kin', hkin, ⟨P₂, hxc'⟩, hhxc, heq⟩ := h2
  simp only [Prod.mk.injEq] at heq
  obtain ⟨rfl, rfl, rfl, rfl, rfl⟩ := heq
  -- the promolecule
  obtain ⟨na, nb, hp, -⟩ := C38_promolecule P A B hA hB
  have hp' := hcur
  unfold calcProtomolecule at hp'
  rw [weighted_eq _ A hA, weighted_eq _ B hB] at hp'
  have hp'' := Except.ok.inj hp'
  have hna : P.naFrac = some (addFlip P.opt.ensSpinSym (Spec.average A)) := by rw [← hp'']
  have hnb : P.nbFrac = some (addFlip P.opt.ensSpinSym (Spec.average B)) := by rw [← hp'']
  have hnf' : P.nf = some fun j k => addFlip P.opt.ensSpinSym (Spec.average A) j k +
      addFlip P.opt.ensSpinSym (Spec.average B) j k := by rw [← hp'']
  obtain rfl : nf = _ := Option.some.inj (hnf.symm.trans hnf')
  have htot : ∀ k, (∑ j, (addFlip P.opt.ensSpinSym (Spec.average A) j k +
      addFlip P.opt.ensSpinSym (Spec.average B) j k)) =
      d * tot (Spec.average A) k + d * tot (Spec.average B) k := fun k => by
    rw [Finset.sum_add_distrib]
    exact congrArg₂ _ (tot_addFlip ..) (tot_addFlip ..)
  unfold epNuclear at hpot
  rw [hna, hnb] at hpot
  have hpot' : pot' = G.integ (fun k => d * (tot (Spec.average A) k * P.vb k)) +
      G.integ (fun k => d * (tot (Spec.average B) k * P.va k)) := by
    rw [← Except.ok.inj hpot]
    simp only [tot_addFlip, mul_assoc]
    rfl
  unfold epHxc epComponents epCollect at hhxc
  simp only [hd, hx, hnf, hsx, hsc, attr_some, Py.do_eq_ok, Py.pure_eq_ok] at hhxc
  obtain ⟨⟨h₀, x₀, c₀, d₀⟩, ⟨nf₁, e₁, vh, hvh, eh, -, ex', e₂, eps, -, exf, -, ec', e₃, eps', -, ecf, -, e₄⟩, e₅⟩ := hhxc
  obtain rfl := Except.ok.inj e₁
  obtain rfl := Except.ok.inj e₂
  obtain rfl := Except.ok.inj e₃
  simp only [Prod.mk.injEq] at e₄ e₅
  obtain ⟨rfl, rfl, rfl, rfl⟩ := e₄
  obtain ⟨rfl, rfl⟩ := e₅
  refine ⟨d * avg L (·.Ts) + d * avg M (·.Ts), vh, rfl, hvh, ?_, ?_⟩
  · have hnuc : G.integ (fun k => (∑ j, (addFlip P.opt.ensSpinSym (Spec.average A) j k +
        addFlip P.opt.ensSpinSym (Spec.average B) j k)) * (P.va k + P.vb k)) =
        d * G.integ (fun k => tot (Spec.average A) k * P.va k) +
        d * G.integ (fun k => tot (Spec.average A) k * P.vb k) +
        (d * G.integ (fun k => tot (Spec.average B) k * P.va k) +
        d * G.integ (fun k => tot (Spec.average B) k * P.vb k)) := by
      rw [← G.integ_smul, ← G.integ_smul, ← G.integ_smul, ← G.integ_smul, ← G.integ_add, ← G.integ_add,
        ← G.integ_add]
      congr 1
      funext k
      rw [htot]
      ring
    have hhart : G.integ (fun k => tot (fun j k => addFlip P.opt.ensSpinSym (Spec.average A) j k +
        addFlip P.opt.ensSpinSym (Spec.average B) j k) k * (1 / 2 * vh k)) =
        1 / 2 * G.integ (fun k => (∑ j, (addFlip P.opt.ensSpinSym (Spec.average A) j k +
        addFlip P.opt.ensSpinSym (Spec.average B) j k)) * vh k) := by
      rw [← G.integ_smul]
      congr 1
      funext k
      simp only [tot]
      ring
    rw [hnuc]
    simp only [Tot.add, Fl.add_fin, Tot.num.injEq, Fl.fin.injEq, hhart, hLs, hMs, hpot', G.integ_smul]
    ring
  · intro hk
    unfold epKinetic kineticEnergies at hkin
    rw [hk] at hkin
    simp only [Py.do_eq_ok, Py.pure_eq_ok] at hkin
    obtain ⟨⟨Tsm, Tsf⟩, ⟨tm, h5, tf, h6, h7⟩, h8⟩ := hkin
    refine ⟨tm, attr_eq_ok.mp h5, ?_⟩
    simp only [Prod.mk.injEq] at h7
    obtain ⟨rfl, rfl⟩ := h7
    cases hs : P.opt.abSym with
    | true =>
      rw [hs] at h6 h8 hM
      simp only [↓reduceIte] at h6 h8 hM
      rw [kineticSum_eq true P.compsA L hL] at h6
      obtain rfl := Except.ok.inj h6
      cases hb : P.opt.ensSpinSym <;> rw [hb] at h8 hdef <;>
        simp [Tot.sub, Tot.neg, Tot.add, Tot.smul] at h8 <;> rw [hdef, hM, ← h8] <;> simp [twins] <;> ring
    | false =>
      rw [hs] at h6 h8 hM
      simp only [Bool.false_eq_true, ↓reduceIte] at h6 h8 hM
      rw [kineticSum_eq true P.comps (L ++ M) (List.rel_append hL hM)] at h6
      obtain rfl := Except.ok.inj h6
      have hsum : avg (L ++ M) (·.Ts) = avg L (·.Ts) + avg M (·.Ts) := by simp [avg]
      cases hb : P.opt.ensSpinSym <;> rw [hb] at h8 hdef <;>
        simp [Tot.sub, Tot.neg, Tot.add, Tot.smul] at h8 <;> rw [hdef, ← h8, hsum] <;> simp [twins] <;> ring

/-- C41: in an ensemble without `ab_sym` the total energy is not the molecular functional of the
promolecular density.  Two points, no functionals, `va = 0`, `vb = -1`; `KSB` has one electron per point
and weight 1/2: the energy in the nuclear potential is `-1`, the repulsion `1/2`; the code finds `-3/2`. -/
theorem C41_refuted : ∃ (T : Env (Grid.tiny ℚ) 0 0 1) (P P' : Part (Grid.tiny ℚ) 0 0 1)
    (e : PartEnergy (Grid.tiny ℚ) 1) (nf : (Grid.tiny ℚ).Cols 1),
    P.opt.hxc = .exact ∧ P.opt.interaction = .dft ∧ P.opt.isolated = false ∧ P.opt.kin = .none ∧
    P.calcProtomolecule = .ok P ∧ (∀ f ∈ P.compsA, Decomposed P.va f) ∧ (∀ f ∈ P.compsB, Decomposed P.vb f) ∧
    P.energy T = .ok P' ∧ P'.E = some e ∧ P.nf = some nf ∧ P.ex = some 0 ∧ P.ec = some 0 ∧
    (∀ n, T.hartree1 n = .ok fun _ => 0) ∧ (∀ n, T.exchange n = .ok (0, fun _ => 0, fun _ _ => 0)) ∧
    (∀ n, T.correlation n = .ok (0, fun _ => 0, fun _ _ => 0)) ∧
    e.Tsf = .fin 0 ∧ e.EpKin = .num (.fin 0) ∧
    (Grid.tiny ℚ).integ (fun k => (∑ j, nf j k) * (P.va k + P.vb k)) + P.Za * P.Zb / (2 * P.a) = -1 / 2 ∧
    e.E = .num (.fin (-3 / 2)) := by
  let T : Env (Grid.tiny ℚ) 0 0 1 :=
    { exchange := fun _ => .ok (0, fun _ => 0, fun _ _ => 0)
      correlation := fun _ => .ok (0, fun _ => 0, fun _ _ => 0)
      hartree := fun _ => .ok fun _ _ => 0
      hartree1 := fun _ => .ok fun _ => 0
      kinetic := fun _ => .error .attributeError
      invert := fun _ => .error .attributeError
      twoOrbitalPot := fun _ => .error .attributeError
      twoOrbitalEnergy := fun _ => .error .attributeError
      sqrt := id, erf := id, dErf := id, elap := 0 }
  let f : ℚ → ℚ → Frag (Grid.tiny ℚ) 0 0 1 := fun n E =>
    ⟨{ kind := .dft, sym := false, Za := 0, Zb := 0, a := 1, solver := fun w => w.1.elim0,
       vnuc := fun _ _ => 0, n := some fun _ _ => n, scale := some (1 / 2), Q := some fun _ _ => 0,
       E := some ⟨fun _ => .fin 0, fun _ => .fin 0, .fin 0, [], E, 0, some 0, some 0, 0, 0, .fin E, 0, .fin E⟩
       V := { ex := some fun _ => 0, ec := some fun _ => 0, eh := some fun _ => 0 } }, {}⟩
  let P : Part (Grid.tiny ℚ) 0 0 1 :=
    { opt := { kin := .none }, Za := 1, Zb := 1, a := 1, va := fun _ => 0, vb := fun _ => -1
      fa := f 0 0, fb := f 0 0, fAB := some (f 0 0, f 1 (-2))
      naFrac := some fun _ _ => 0, nbFrac := some fun _ _ => 1 / 2, nf := some fun _ _ => 1 / 2
      ex := some 0, ec := some 0, epsX := some fun _ => 0, epsC := some fun _ => 0 }
  refine ⟨T, P, _, _, fun _ _ => 1 / 2, rfl, rfl, rfl, rfl, ?_, ?_, ?_, rfl, rfl, rfl, rfl, rfl, fun _ => rfl,
    fun _ => rfl, fun _ => rfl, ?_, ?_, ?_, ?_⟩
  · have hA : weighted P.compsA = .ok fun _ _ => 0 := by
      refine (weighted_eq _ [(fun _ _ => 0, 1 / 2), (fun _ _ => 0, 1 / 2)]
        (.cons ⟨rfl, rfl⟩ (.cons ⟨rfl, rfl⟩ .nil))).trans ?_
      congr 1
      funext j k
      simp [Spec.average]
    have hB : weighted P.compsB = .ok fun _ _ => 1 / 2 := by
      refine (weighted_eq _ [(fun _ _ => 0, 1 / 2), (fun _ _ => 1, 1 / 2)]
        (.cons ⟨rfl, rfl⟩ (.cons ⟨rfl, rfl⟩ .nil))).trans ?_
      congr 1
      funext j k
      simp [Spec.average]
    unfold calcProtomolecule
    rw [hA, hB]
    change Except.ok _ = Except.ok _
    simp [addFlip, P]
  · intro g hg
    simp only [compsA, P, Option.map_some, Option.toList_some, List.mem_cons, List.not_mem_nil, or_false,
      or_self] at hg
    subst hg
    refine ⟨fun _ _ => 0, _, 0, 0, 0, fun _ => 0, rfl, rfl, rfl, rfl, rfl, fun _ => rfl, ?_, ?_⟩
    · simp [Grid.tiny_integ, tot, P]
    · simp
  · intro g hg
    simp only [compsB, P, Option.map_some, Option.toList_some, List.mem_cons, List.not_mem_nil, or_false] at hg
    rcases hg with rfl | rfl
    · refine ⟨fun _ _ => 0, _, 0, 0, 0, fun _ => 0, rfl, rfl, rfl, rfl, rfl, fun _ => rfl, ?_, ?_⟩
      · simp [Grid.tiny_integ, tot, P]
      · simp
    · refine ⟨fun _ _ => 1, _, 0, 0, 0, fun _ => 0, rfl, rfl, rfl, rfl, rfl, fun _ => rfl, ?_, ?_⟩
      · simp [Grid.tiny_integ, tot, P]; norm_num
      · simp
  · change Fl.fin _ = Fl.fin _
    simp
  · change Tot.num (Fl.fin _) = _
    simp
  · simp [Grid.tiny_integ, P]; norm_num
  · change Tot.num (Fl.fin _) = _
    simp [Grid.tiny_integ, tot, P, f, T, Sums.double]
    norm_num

end Verif
