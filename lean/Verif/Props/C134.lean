import Verif.Props.C120
import Verif.Props.C34_C36
import Verif.Model.Construct

/-! # C134: the life of a Kohn-Sham object: what works before and after `scf` -/

namespace Verif
open KS KsScf
variable {K : Type} [Field K] [LinearOrder K] [IsStrictOrderedRing K] [FloorRing K]
variable {G : Grid K} {r c p : ℕ}

namespace Spec

/-- An object no calculation was made with. -/
structure UnusedKs (ks : KS G r c p) : Prop where
  vext : ks.vext = none
  veff : ks.veff = none
  n : ks.n = none
  eig : ∀ w, (ks.solver w).eig = none
  phi : ∀ w, (ks.solver w).phi = none
  pot : ∀ w, (ks.solver w).veff = none

/-- Methods of `Kohnsham` other than `scf`. -/
inductive KsCall (G : Grid K) (p : ℕ)
  | setEffectivePotential
  | setVeffExternal (v : G.Cols p)
  | calcDensity (iterative : Bool)
  | energy
  | calcHxc
  | calcChempot

/-- What the call leaves behind when it returns. -/
def KsCall.run (F : Functionals G p) (W : Workers G r c p) (ks : KS G r c p) : KsCall G p → Py (KS G r c p)
  | .setEffectivePotential => ks.setEffectivePotential
  | .setVeffExternal v => ks.setVeffExternal v
  | .calcDensity i => Prod.fst <$> ks.calcDensity (W ks i)
  | .energy => ks.energy F
  | .calcHxc => ks.calcHxc F
  | .calcChempot => ks.calcChempot

/-- Histories without `scf`.  A call that raises leaves at most other energies behind. -/
inductive Lived (F : Functionals G p) (W : Workers G r c p) : KS G r c p → KS G r c p → Prop
  | refl (a) : Lived F W a a
  | returned {a b d} (x : KsCall G p) : Lived F W a b → x.run F W b = .ok d → Lived F W a d
  | raised {a b} (x : KsCall G p) (e : PyErr) (E : Option (KSEnergy K p)) : Lived F W a b → x.run F W b = .error e →
      Lived F W a { b with E }

/-- A worker whose solver has states to find but no potential dies: `len(None)` is a `TypeError` (calc_orbitals.py 18,
iter_orbitals.py 21). -/
def NeedPotential (W : Workers G r c p) : Prop :=
  ∀ ks i w, (ks.solver w).Nmo ≠ 0 → (ks.solver w).veff = none → W ks i w = none

end Spec

open Spec

namespace Life

theorem colMajor_cons (hr : 0 < r) (hc : 0 < c) : ∃ w l, colMajor r c = w :: l := by
  cases h : colMajor r c with
  | cons w l => exact ⟨w, l, rfl⟩
  | nil =>
    have : ((⟨0, hr⟩, ⟨0, hc⟩) : Fin r × Fin c) ∈ colMajor r c := by
      unfold colMajor
      exact List.mem_flatMap.mpr ⟨_, List.mem_finRange _, List.mem_map.mpr ⟨_, List.mem_finRange _, rfl⟩⟩
    rw [h] at this
    cases this

theorem rowMajor_cons (hr : 0 < r) (hc : 0 < c) : ∃ w l, rowMajor r c = w :: l := by
  cases h : rowMajor r c with
  | cons w l => exact ⟨w, l, rfl⟩
  | nil =>
    have : ((⟨0, hr⟩, ⟨0, hc⟩) : Fin r × Fin c) ∈ rowMajor r c := by
      unfold rowMajor
      exact List.mem_flatMap.mpr ⟨_, List.mem_finRange _, List.mem_map.mpr ⟨_, List.mem_finRange _, rfl⟩⟩
    rw [h] at this
    cases this

theorem foldlM_head {W α : Type} (f : α → W → Py α) (a : α) {w : W} {l : List W} {e : PyErr} (h : f a w = .error e) :
    (w :: l).foldlM f a = .error e := by
  rw [List.foldlM_cons, h]
  rfl

/-- A loop that can only raise one kind of exception. -/
theorem foldlM_one {W α : Type} (f : α → W → Py α) (e : PyErr) (h : ∀ a w, (∃ b, f a w = .ok b) ∨ f a w = .error e)
    (l : List W) : ∀ a, (∃ b, l.foldlM f a = .ok b) ∨ l.foldlM f a = .error e := by
  induction l with
  | nil => intro a; exact .inl ⟨a, rfl⟩
  | cons w l ih =>
    intro a
    rw [List.foldlM_cons]
    rcases h a w with ⟨b, hb⟩ | hb
    · rw [hb]; exact ih b
    · rw [hb]; exact .inr rfl

theorem calcEnergy_unused {s : Solver G} (h1 : s.eig = none) (h2 : s.phi = none) (h3 : s.veff = none) :
    s.calcEnergy = .error .typeError := by
  have e1 : ∀ i, s.eigAt i = .error .typeError := fun i => by rw [Solver.eigAt, h1]
  have e2 : ∀ i, s.orb i = .error .typeError := fun i => by rw [Solver.orb, h2]
  have k1 : (∃ x, s.calcEks = .ok x) ∨ s.calcEks = .error .typeError := by
    unfold Solver.calcEks
    simp only [e1]
    rcases foldlM_one (fun (e : K) (_ : ℕ) => (Except.error .typeError >>= fun x => pure (e + x) : Py K)) .typeError
      (fun _ _ => .inr rfl) (pyRange s.occupation.1) 0 with ⟨b, hb⟩ | hb
    · rw [hb]
      by_cases h : s.fractional = true ∧ s.occupation.2 ≠ 0
      · simp only [if_pos h]; exact .inr rfl
      · simp only [if_neg h]; exact .inl ⟨_, rfl⟩
    · rw [hb]; exact .inr rfl
  have k2 : (∃ x, s.calcDensity = .ok x) ∨ s.calcDensity = .error .typeError := by
    unfold Solver.calcDensity
    simp only [e2]
    rcases foldlM_one (fun (n : G.Fld) (_ : ℕ) => (Except.error .typeError >>= fun (p : G.Fld) =>
        pure fun k => n k + p k ^ 2 / G.integ fun k => p k ^ 2 : Py G.Fld)) .typeError
      (fun _ _ => .inr rfl) (pyRange s.occupation.1) (fun _ => 0) with ⟨b, hb⟩ | hb
    · rw [hb]
      by_cases h : s.fractional = true ∧ s.occupation.2 ≠ 0
      · simp only [if_pos h]; exact .inr rfl
      · simp only [if_neg h]; exact .inl ⟨_, rfl⟩
    · rw [hb]; exact .inr rfl
  unfold Solver.calcEnergy
  rcases k1 with ⟨x, hx⟩ | hx
  · rw [hx]
    rcases k2 with ⟨y, hy⟩ | hy
    · rw [hy, h3]; rfl
    · rw [hy]; rfl
  · rw [hx]; rfl

theorem getHomo_unused {s : Solver G} (h : s.eig = none) :
    (s.getHomo = .ok Solver.noElectrons ∨ s.getHomo = .error .typeError) ∧ (0 < s.N → s.getHomo = .error .typeError) := by
  have e1 : ∀ i, s.eigAt i = .error .typeError := fun i => by rw [Solver.eigAt, h]
  have k : s.getHomo = if (if s.occupation.2 ≠ 0 then s.occupation.1 + 1 else s.occupation.1) ≠ 0 then .error .typeError
      else .ok Solver.noElectrons := by
    unfold Solver.getHomo
    simp only [e1]
  refine ⟨by
    rw [k]
    by_cases h0 : (if s.occupation.2 ≠ 0 then s.occupation.1 + 1 else s.occupation.1) ≠ 0
    · rw [if_pos h0]; exact .inr rfl
    · rw [if_neg h0]; exact .inl rfl, fun hN => ?_⟩
  have key : ∀ x : K, 0 < x → (if x - ⌊x⌋ ≠ 0 then ⌊x⌋ + 1 else ⌊x⌋) ≠ 0 := by
    intro x hx
    have h0 : 0 ≤ ⌊x⌋ := Int.floor_nonneg.mpr hx.le
    by_cases hf : x - ⌊x⌋ ≠ 0
    · rw [if_pos hf]; omega
    · rw [if_neg hf]
      intro h1
      rw [h1] at hf
      push Not at hf
      simp only [Int.cast_zero, sub_zero] at hf
      exact hx.ne' hf
  rw [k, if_pos]
  have h2 := key (s.N / 2) (by positivity)
  have h4 := key (s.N / 4) (by positivity)
  have h1 := key s.N hN
  unfold Solver.occupation
  by_cases hm : s.m = 0 <;> by_cases hp : s.pol = 1 <;> simp only [hm, hp, if_true, if_false] <;> assumption

theorem mapM_one {W α : Type} (f : W → Py α) (e : PyErr) (l : List W) (h : ∀ w ∈ l, (∃ b, f w = .ok b) ∨ f w = .error e)
    {w : W} (hw : w ∈ l) (he : f w = .error e) : l.mapM f = .error e := by
  induction l with
  | nil => cases hw
  | cons x l ih =>
    rw [List.mapM_cons]
    rcases h x List.mem_cons_self with ⟨b, hb⟩ | hb
    · have : w ∈ l := by
        rcases List.mem_cons.mp hw with rfl | hw
        · rw [he] at hb; cases hb
        · exact hw
      rw [hb, ih (fun y hy => h y (List.mem_cons_of_mem _ hy)) this]
      rfl
    · rw [hb]; rfl

theorem mem_rowMajor (w : Fin r × Fin c) : w ∈ rowMajor r c := by
  unfold rowMajor
  exact List.mem_flatMap.mpr ⟨w.1, List.mem_finRange _, List.mem_map.mpr ⟨w.2, List.mem_finRange _, rfl⟩⟩

theorem calls_unused (hr : 0 < r) (hc : 0 < c) (F : Functionals G p) {W : Workers G r c p} (hW : NeedPotential W)
    {ks : KS G r c p} (h : UnusedKs ks) (hN : ∀ w, (ks.solver w).Nmo ≠ 0) :
    ks.setEffectivePotential = .error .typeError ∧ (∀ v, ks.setVeffExternal v = .error .typeError) ∧
    (∀ i, ks.calcDensity (W ks i) = .error .keyError) ∧ ks.energy F = .error .typeError ∧
    (ks.kind = .dft → ∃ e, ks.calcHxc F = .error e) ∧
    ((∃ w, 0 < (ks.solver w).N) → ks.calcChempot = .error .typeError) := by
  refine ⟨?_, fun v => ?_, fun i => ?_, ?_, fun hk => ?_, fun ⟨w, hw⟩ => ?_⟩
  · unfold KS.setEffectivePotential; rw [h.vext]; rfl
  · unfold KS.setVeffExternal; rw [h.veff]; rfl
  · obtain ⟨w, l, hl⟩ := colMajor_cons hr hc
    have : collect (W ks i) ks.solver = .error .keyError := by
      unfold KS.collect KS.mapSolvers
      rw [hl]
      apply foldlM_head
      simp only [hW ks i w (hN w) (h.pot w)]
      rfl
    unfold KS.calcDensity
    rw [this]
    rfl
  · obtain ⟨w, l, hl⟩ := rowMajor_cons hr hc
    have : solverEnergies p ks.solver = .error .typeError := by
      unfold KS.solverEnergies
      rw [hl]
      apply foldlM_head
      rw [calcEnergy_unused (h.eig w) (h.phi w) (h.pot w)]
      rfl
    unfold KS.energy
    rw [this]
    rfl
  · unfold KS.calcHxc KS.rawHxc
    rw [hk, h.n]
    exact ⟨_, rfl⟩
  · unfold KS.calcChempot
    rw [mapM_one (fun w => (ks.solver w).getHomo) .typeError _ (fun w _ => ?_) (mem_rowMajor w)
      ((getHomo_unused (h.eig w)).2 hw)]
    · rfl
    · rcases (getHomo_unused (h.eig w)).1 with k | k
      · exact .inl ⟨_, k⟩
      · exact .inr k

end Life

open Life

/-- C134: as long as `scf` has not been called the object stays unused, whatever else is called in whatever order: no potential,
density or energy can be had.  (`calc_hxc_potential` may return for non-interacting electrons, `calc_chempot` returns for a table
without electrons.  Which exception `calc_hxc_potential` raises is left open: it is the `AttributeError` of `None.shape`, libxc.py
40, where the model has the `TypeError` of `need`.) -/
theorem C134_before (hr : 0 < r) (hc : 0 < c) (F : Functionals G p) {W : Workers G r c p} (hW : NeedPotential W)
    {a b : KS G r c p} (ha : UnusedKs a) (hN : ∀ w, (a.solver w).Nmo ≠ 0) (h : Lived F W a b) :
    UnusedKs b ∧ b.solver = a.solver ∧ b.setEffectivePotential = .error .typeError ∧
    (∀ v, b.setVeffExternal v = .error .typeError) ∧ (∀ i, b.calcDensity (W b i) = .error .keyError) ∧
    b.energy F = .error .typeError ∧ (a.kind = .dft → ∃ e, b.calcHxc F = .error e) ∧
    ((∃ w, 0 < (a.solver w).N) → b.calcChempot = .error .typeError) ∧
    (∀ o, o.continuing = true → scf F W o b = .error .typeError) := by
  have main : UnusedKs b ∧ b.solver = a.solver ∧ b.kind = a.kind := by
    induction h with
    | refl => exact ⟨ha, rfl, rfl⟩
    | raised x e E _ _ ih => exact ⟨⟨ih.1.1, ih.1.2, ih.1.3, ih.1.4, ih.1.5, ih.1.6⟩, ih.2⟩
    | @returned b d x _ hx ih =>
      obtain ⟨h1, h2, h3, h4, -, -⟩ := calls_unused hr hc F hW ih.1 (by rw [ih.2.1]; exact hN)
      cases x with
      | setEffectivePotential => rw [KsCall.run, h1] at hx; cases hx
      | setVeffExternal v => rw [KsCall.run, h2] at hx; cases hx
      | calcDensity i => rw [KsCall.run, h3] at hx; cases hx
      | energy => rw [KsCall.run, h4] at hx; cases hx
      | calcHxc =>
        rw [KsCall.run] at hx
        cases hk : b.kind with
        | dft =>
          unfold KS.calcHxc KS.rawHxc at hx
          rw [hk, ih.1.n] at hx
          cases hx
        | ni =>
          unfold KS.calcHxc KS.rawHxc at hx
          simp only [hk, Py.do_eq_ok, Py.pure_eq_ok] at hx
          obtain ⟨m, rfl, v, -, rfl⟩ := hx
          split
          · exact ⟨⟨ih.1.1, ih.1.2, ih.1.3, ih.1.4, ih.1.5, ih.1.6⟩, ih.2.1, hk ▸ ih.2.2⟩
          · exact ⟨⟨ih.1.1, ih.1.2, ih.1.3, ih.1.4, ih.1.5, ih.1.6⟩, ih.2.1, hk ▸ ih.2.2⟩
      | calcChempot =>
        rw [KsCall.run] at hx
        unfold KS.calcChempot at hx
        simp only [Py.do_eq_ok, Py.pure_eq_ok] at hx
        obtain ⟨_, -, _, -, rfl⟩ := hx
        exact ⟨⟨ih.1.1, ih.1.2, ih.1.3, ih.1.4, ih.1.5, ih.1.6⟩, ih.2⟩
  obtain ⟨hu, hs, hk⟩ := main
  obtain ⟨h1, h2, h3, h4, h5, h6⟩ := calls_unused hr hc F hW hu (by rw [hs]; exact hN)
  refine ⟨hu, hs, h1, h2, h3, h4, fun h => h5 (hk ▸ h), fun h => h6 (hs ▸ h), fun o ho => ?_⟩
  unfold scf start
  simp only [ho, if_true, hu.n]
  rfl

namespace Life

theorem energy_again {F : Functionals G p} {a b : KS G r c p} (h : a.energy F = .ok b) (u : Option K)
    (t : Fin r × Fin c → Option K) : { b with u, homo := t }.energy F = .ok { b with u, homo := t } := by
  unfold KS.energy at h ⊢
  simp only [Py.do_eq_ok] at h ⊢
  obtain ⟨y, hy, h⟩ := h
  cases hk : a.kind <;> simp only [hk, Py.do_eq_ok, Py.pure_eq_ok] at h
  · obtain ⟨n, hn, ve, hve, vh, hvh, H, hH, v0, hv0, ⟨Ex, ex, vx⟩, hx, ⟨Ec, ec, vc⟩, hc, rfl⟩ := h
    refine ⟨y, hy, ?_⟩
    simp only [hk, Py.do_eq_ok, Py.pure_eq_ok]
    exact ⟨n, hn, ve, hve, vh, hvh, H, hH, v0, hv0, ⟨Ex, ex, vx⟩, hx, ⟨Ec, ec, vc⟩, hc, rfl⟩
  · obtain ⟨n, hn, ve, hve, rfl⟩ := h
    refine ⟨y, hy, ?_⟩
    simp only [hk, Py.do_eq_ok, Py.pure_eq_ok]
    exact ⟨n, hn, ve, hve, rfl⟩

theorem chempot_again {a b : KS G r c p} (h : a.calcChempot = .ok b) :
    b.calcChempot = .ok b ∧ ∃ u t, b = { a with u, homo := t } := by
  unfold KS.calcChempot at h ⊢
  simp only [Py.do_eq_ok, Py.pure_eq_ok] at h ⊢
  obtain ⟨l, hl, u, hu, rfl⟩ := h
  exact ⟨⟨l, hl, u, hu, rfl⟩, _, _, rfl⟩

theorem mapSolvers_id (l : List (Fin r × Fin c)) (f : Fin r × Fin c → Solver G → Py (Solver G))
    (s : Fin r × Fin c → Solver G) (h : ∀ w, f w (s w) = .ok (s w)) : mapSolvers l f s = .ok s := by
  unfold mapSolvers
  induction l with
  | nil => rfl
  | cons w l ih =>
    rw [List.foldlM_cons, h w]
    simp only [bind, Except.bind, pure, Except.pure, Function.update_eq_self]
    exact ih

/-- What a pass leaves behind. -/
structure Settled (F : Functionals G p) (flip : Bool) (b : KS G r c p) : Prop where
  energy : b.energy F = .ok b
  chempot : b.calcChempot = .ok b
  pot : ∃ vext vhxc, b.vext = some vext ∧ b.vhxc = some vhxc ∧
    b.veff = some (if flip then spinSymmetrised fun s k => b.vnuc s k + vext s k + vhxc s k
      else fun s k => b.vnuc s k + vext s k + vhxc s k) ∧
    ∀ (w : Fin r × Fin c) (h : w.2.1 < p), (b.solver w).veff = some fun k => b.vnuc ⟨w.2.1, h⟩ k + vext ⟨w.2.1, h⟩ k + vhxc ⟨w.2.1, h⟩ k
  hxc : ∃ E, b.E = some E ∧ ((b.kind = .ni ∧ b.vhxc = some fun _ _ => 0) ∨ b.kind = .dft)

theorem energy_frame {F : Functionals G p} {a b : KS G r c p} (h : a.energy F = .ok b) :
    ∃ E V, b = { a with E := some E, V } := by
  unfold KS.energy at h
  simp only [Py.do_eq_ok] at h
  obtain ⟨y, hy, h⟩ := h
  cases hk : a.kind <;> simp only [hk, Py.do_eq_ok, Py.pure_eq_ok] at h
  · obtain ⟨n, hn, ve, hve, vh, hvh, H, hH, v0, hv0, ⟨Ex, ex, vx⟩, hx, ⟨Ec, ec, vc⟩, hc, rfl⟩ := h
    exact ⟨_, _, by rw [← hk]⟩
  · obtain ⟨n, hn, ve, hve, rfl⟩ := h
    exact ⟨_, _, by rw [← hk]⟩

theorem symmetrised_zero : symmetrised (fun _ _ => 0 : G.Cols p) = fun _ _ => 0 := by
  funext s k
  simp [symmetrised, Grid.mirCols, Grid.mir]

theorem calcHxc_ni {F : Functionals G p} {a b : KS G r c p} (hk : a.kind = .ni) (h : a.calcHxc F = .ok b) :
    b = { a with vhxc := some fun _ _ => 0 } := by
  unfold KS.calcHxc KS.rawHxc at h
  simp only [hk, Py.do_eq_ok, Py.pure_eq_ok] at h
  obtain ⟨m, rfl, v, hv, rfl⟩ := h
  cases hv
  simp only [symmetrised_zero]
  split <;> rw [← hk]

theorem objPass_settled (hc : c ≤ p) {F : Functionals G p} {W : Workers G r c p} {flip it : Bool} {alpha : K} {a b : KS G r c p}
    (h : objPass F W flip alpha it a = .ok b) : Settled F flip b := by
  unfold objPass at h
  simp only [Py.do_eq_ok] at h
  obtain ⟨ks1, h1, ⟨ks2, nout⟩, h2, n, h3, ks4, h4, h5⟩ := h
  obtain ⟨veff, vext, vhxc, e1, e2, e3, rfl, e5⟩ := C35_scf_potential F a ks1 hc h1
  have hni : ks1.kind = .ni → ks1.vhxc = some fun _ _ => 0 := by
    unfold potential at h1
    simp only [Py.do_eq_ok, Py.pure_eq_ok] at h1
    obtain ⟨m, hm, v, hv, w, hw, s, hs, rfl⟩ := h1
    intro hk
    have hka : a.kind = .ni := by
      have := (calcHxc_keeps hm)
      unfold KS.calcHxc KS.rawHxc at hm
      cases ha : a.kind with
      | ni => rfl
      | dft =>
        simp only [ha, Py.do_eq_ok, Py.pure_eq_ok] at hm
        obtain ⟨x, ⟨_, -, ⟨_, _, _⟩, -, ⟨_, _, _⟩, -, _, -, rfl⟩, v, -, rfl⟩ := hm
        revert hk
        simp only
        split <;> simp
    rw [calcHxc_ni hka hm]
  obtain ⟨hb, u, t, rfl⟩ := chempot_again h5
  have hE := energy_again h4 u t
  obtain ⟨E, V, rfl⟩ := energy_frame h4
  generalize hq : (if flip = true then { ks1 with veff := ks1.veff.map KS.spinSymmetrised } else ks1) = q at h2
  have q1 : q.kind = ks1.kind := by subst hq; cases flip <;> rfl
  have q2 : q.vext = some vext := by subst hq; cases flip <;> exact e2
  have q3 : q.vhxc = ks1.vhxc := by subst hq; cases flip <;> rfl
  have q4 : q.solver = ks1.solver := by subst hq; cases flip <;> rfl
  have q5 : q.vnuc = ks1.vnuc := by subst hq; cases flip <;> rfl
  have q6 : q.veff = some (if flip then spinSymmetrised fun s k => ks1.vnuc s k + vext s k + vhxc s k
      else fun s k => ks1.vnuc s k + vext s k + vhxc s k) := by
    subst hq
    cases flip <;> simp [e1]
  unfold KS.calcDensity at h2
  simp only [Py.do_eq_ok, Py.pure_eq_ok, Prod.mk.injEq] at h2
  obtain ⟨s, hs, m, hm, rfl, rfl⟩ := h2
  have hv : ∀ w, (s w).veff = (ks1.solver w).veff := by
    rw [q4] at hs
    refine mapSolvers_inv (fun w x => x.veff = (ks1.solver w).veff) _ _ ?_ ks1.solver s hs fun _ => rfl
    intro w x x' hx hP
    split at hx
    · cases hx
    · obtain rfl := Except.ok.inj hx
      exact hP
  refine ⟨hE, hb, ⟨vext, vhxc, q2, q3.trans e3, q5 ▸ q6, fun w hw => ?_⟩, E, rfl, ?_⟩
  · simp only [q5]
    exact (hv w).trans (e5 w.1 w.2)
  · by_cases hk : ks1.kind = .ni
    · exact .inl ⟨q1.trans hk, q3.trans (hni hk)⟩
    · right
      refine q1.trans ?_
      revert hk
      cases ks1.kind <;> simp

theorem objPasses_settled (hc : c ≤ p) {F : Functionals G p} {W : Workers G r c p} {flip : Bool} {alpha : K} (l : List Bool) :
    ∀ {a b : KS G r c p}, l ≠ [] → objPasses F W flip alpha l a = .ok b → Settled F flip b := by
  induction l with
  | nil => intro a b h; exact absurd rfl h
  | cons x l ih =>
    intro a b _ h
    rw [objPasses, Py.do_eq_ok] at h
    obtain ⟨m, hm, h⟩ := h
    by_cases hl : l = []
    · subst hl
      rw [objPasses, Py.pure_eq_ok] at h
      subst h
      exact objPass_settled hc hm
    · exact ih hl h

theorem scf_settled (hc : c ≤ p) {F : Functionals G p} {W : Workers G r c p} {o : Options K} {ks ks' : KS G r c p}
    {log : List (Fl K × Fl K)} (h : scf F W o ks = .ok (ks', log)) (hl : log ≠ []) : Settled F o.spinflipsym ks' := by
  unfold scf at h
  simp only [Py.do_eq_ok, Py.pure_eq_ok] at h
  obtain ⟨s, -, ⟨st, log'⟩, h, e⟩ := h
  obtain ⟨rfl, rfl⟩ := Prod.mk.inj e
  refine objPasses_settled hc _ ?_ (loop_obj (o := o) o.autoTol o.etol _ ⟨s, .fin 0, fun _ _ => 0, .fin 10⟩ st log' h)
  cases log' with
  | nil => exact absurd rfl hl
  | cons x l => simp

theorem distribute_same (hc : c ≤ p) {v : G.Cols p} {s : Fin r × Fin c → Solver G}
    (h : ∀ (w : Fin r × Fin c) (hw : w.2.1 < p), (s w).veff = some (v ⟨w.2.1, hw⟩)) : distribute v s = .ok s := by
  apply mapSolvers_id
  intro w
  have hw : w.2.1 < p := by omega
  rw [KS.col, dif_pos hw]
  change Except.ok { s w with veff := some (v ⟨w.2.1, hw⟩) } = _
  rw [← h w hw]

end Life

/-- C134: a run of `scf` that returns has made no pass exactly if the limit or the tolerance forbids the first one. -/
theorem C134_passes {F : Functionals G p} {W : Workers G r c p} {o : Options K} {ks ks' : KS G r c p}
    {log : List (Fl K × Fl K)} (h : scf F W o ks = .ok (ks', log)) : log = [] ↔ o.maxiter ≤ 1 ∨ 10 ≤ o.etol := by
  unfold scf run at h
  simp only [Py.do_eq_ok, Py.pure_eq_ok] at h
  obtain ⟨s, -, ⟨st, log'⟩, h, e⟩ := h
  obtain ⟨rfl, rfl⟩ := Prod.mk.inj e
  by_cases ht : o.etol < 10
  · have hg : Fl.gt (.fin 10 : Fl K) (.fin o.etol) = true := by simpa [Fl.gt] using ht
    unfold loop at h
    rw [if_pos hg] at h
    cases hm : (o.maxiter - 1).toNat with
    | zero =>
      rw [hm] at h
      obtain ⟨-, rfl⟩ := Prod.mk.inj (Except.ok.inj h)
      exact ⟨fun _ => .inl (by omega), fun _ => rfl⟩
    | succ k =>
      rw [hm] at h
      simp only [Py.do_eq_ok] at h
      obtain ⟨⟨t, dE, dn⟩, -, h⟩ := h
      split at h
      · cases h
      · simp only [Py.do_eq_ok, Py.pure_eq_ok] at h
        obtain ⟨⟨t', l⟩, -, h⟩ := h
        obtain ⟨-, rfl⟩ := Prod.mk.inj h
        constructor
        · intro h; cases h
        · rintro (h | h)
          · omega
          · exact absurd ht (not_lt.mpr h)
  · have hg : ¬ Fl.gt (.fin 10 : Fl K) (.fin o.etol) = true := by simpa [Fl.gt] using ht
    unfold loop at h
    rw [if_neg hg] at h
    split at h
    · cases h
    · obtain ⟨-, rfl⟩ := Prod.mk.inj (Except.ok.inj h)
      exact ⟨fun _ => .inr (not_lt.mp ht), fun _ => rfl⟩

/-- C134: after a pass nothing is left to be brought up to date: `energy()`, `calc_chempot()` and (without `spinflipsym`) the two
methods for the potential return and leave the object as it is.  With `spinflipsym` `set_effective_potential()` only puts back
the potential that was not symmetrised, which the solvers have kept. -/
theorem C134_after (hc : c ≤ p) {F : Functionals G p} {W : Workers G r c p} {o : Options K} {ks ks' : KS G r c p}
    {log : List (Fl K × Fl K)} (h : scf F W o ks = .ok (ks', log)) (hl : log ≠ []) :
    ks'.energy F = .ok ks' ∧ ks'.calcChempot = .ok ks' ∧
    (o.spinflipsym = false → ks'.setEffectivePotential = .ok ks' ∧ ∀ v, ks'.setVeffExternal v = .ok ks') ∧
    (o.spinflipsym = true → ∃ veff, ks'.veff = some (spinSymmetrised veff) ∧
      ks'.setEffectivePotential = .ok { ks' with veff := some veff }) := by
  obtain ⟨h1, h2, ⟨vext, vhxc, p1, p2, p3, p4⟩, -⟩ := scf_settled hc h hl
  have hd : distribute (fun s k => ks'.vnuc s k + vext s k + vhxc s k) ks'.solver = .ok ks'.solver :=
    distribute_same hc p4
  have hs : ks'.setEffectivePotential = .ok { ks' with veff := some fun s k => ks'.vnuc s k + vext s k + vhxc s k } := by
    unfold KS.setEffectivePotential
    rw [p1, p2]
    simp only [need, bind, Except.bind, hd]
    rfl
  refine ⟨h1, h2, fun ho => ⟨?_, fun v => ?_⟩, fun ho => ⟨_, ?_, hs⟩⟩
  · rw [hs]
    rw [ho] at p3
    simp only [Bool.false_eq_true, if_false] at p3
    rw [← p3]
  · rw [ho] at p3
    simp only [Bool.false_eq_true, if_false] at p3
    have hn : need ks'.veff = .ok fun s k => ks'.vnuc s k + vext s k + vhxc s k := by rw [p3]; rfl
    unfold KS.setVeffExternal
    rw [hn]
    simp only [bind, Except.bind, hd]
    rfl
  · rw [ho] at p3
    exact p3

/-- C134: `calc_hxc_potential()` after a pass takes the potential of the mixed density, and of all stored energies and energy
densities a following `energy()` changes `E.Vhxc` alone. -/
theorem C134_hxc (hc : c ≤ p) {F : Functionals G p} {W : Workers G r c p} {o : Options K} {ks ks' : KS G r c p}
    {log : List (Fl K × Fl K)} (h : scf F W o ks = .ok (ks', log)) (hl : log ≠ []) :
    ∃ a b E v, ks'.calcHxc F = .ok a ∧ a.energy F = .ok b ∧ ks'.E = some E ∧
      b = { ks' with vhxc := a.vhxc, E := some { E with Vhxc := v } } := by
  obtain ⟨h1, h2, -, E, hE, ⟨hk, hv⟩ | hk⟩ := scf_settled hc h hl
  · have : ks'.calcHxc F = .ok ks' := by
      obtain ⟨kind, sym, Za, Zb, a, solver, vnuc, vext, vhxc, veff, n0, u, E0, V, scale, Q, alpha, homo⟩ := ks'
      subst hk hv
      unfold KS.calcHxc KS.rawHxc
      simp only [bind, Except.bind, need, pure, Except.pure, symmetrised_zero, ite_self]
    exact ⟨ks', ks', E, E.Vhxc, this, h1, hE, by rw [← hE]⟩
  · unfold KS.energy at h1
    simp only [Py.do_eq_ok, hk, Py.pure_eq_ok] at h1
    obtain ⟨y, hy, n, hn, ve, hve, vh, hvh, H, hH, v0, hv0, ⟨Ex, ex, vx⟩, hx, ⟨Ec, ec, vc⟩, hcc, e⟩ := h1
    obtain ⟨kind, sym, Za, Zb, a, solver, vnuc, vext, vhxc, veff, n0, u, E0, V, scale, Q, alpha, homo⟩ := ks'
    simp only [KS.mk.injEq, true_and, and_true] at e hk hE hn hve hvh hy
    obtain ⟨-, eE, eV⟩ := e
    subst hk hE eV
    obtain rfl := Option.some.inj eE
    cases n0 with
    | none => cases hn
    | some n0 =>
    obtain rfl := Except.ok.inj hn
    have hr : ∀ E1, KS.calcHxc F ⟨.dft, sym, Za, Zb, a, solver, vnuc, vext, vhxc, veff, some n0, u, E1,
        ⟨some vx, some vc, some H, some ex, some ec, some fun k => 1 / 2 * v0 k⟩, scale, Q, alpha, homo⟩ =
        .ok ⟨.dft, sym, Za, Zb, a, solver, vnuc, vext, some (if sym then symmetrised fun s k => vx s k + vc s k + H s k
          else fun s k => vx s k + vc s k + H s k), veff, some n0, u, E1,
          ⟨some vx, some vc, some H, some ex, some ec, some fun k => 1 / 2 * v0 k⟩, scale, Q, alpha, homo⟩ := by
      intro E1
      unfold KS.calcHxc KS.rawHxc
      simp only [need, hx, hcc, hH, bind, Except.bind, pure, Except.pure]
      cases sym <;> rfl
    refine ⟨_, _, _, some (inner n0 (if sym then symmetrised fun s k => vx s k + vc s k + H s k
          else fun s k => vx s k + vc s k + H s k)), hr _, ?_, rfl, rfl⟩
    unfold KS.energy
    simp only [Py.do_eq_ok, Py.pure_eq_ok]
    exact ⟨y, hy, n0, rfl, ve, hve, _, rfl, H, hH, v0, hv0, (Ex, ex, vx), hx, (Ec, ec, vc), hcc, rfl⟩

/-- C134: the constructor gives an unused object. -/
theorem C134_new {lower : String → String} {coerce : Opt.Kind → Opt.Val → Option Opt.Val} {coul : K → K → G.Fld} {a : K} {r' c' : ℕ}
    {Za Zb : K} {Nmo : Fin r × Fin c → ℕ} {N : Fin r' × Fin c' → K} {opt : Opt.Dict} {ks : KS G r c p}
    (h : KS.init lower coerce G coul a p Za Zb Nmo N opt = .ok ks) : UnusedKs ks := by
  unfold KS.init at h
  simp only [Py.do_eq_ok] at h
  obtain ⟨o, -, h⟩ := h
  split at h
  · simp only [Py.do_eq_ok] at h
    obtain ⟨tab, ht, h⟩ := h
    split at h
    · next hs =>
      rw [Py.pure_eq_ok] at h
      have key : ∀ w s, tab w = some s → s.eig = none ∧ s.phi = none ∧ s.veff = none := by
        unfold pssolver at ht
        have inv : ∀ (l : List (Fin r × Fin c)) (t t' : Fin r × Fin c → Option (Solver G)),
            (∀ w s, t w = some s → s.eig = none ∧ s.phi = none ∧ s.veff = none) →
            l.foldlM (fun tab ij => do
              let N ← entry N ij.1.1 ij.2.1
              let s ← Solver.init lower coerce G (Nmo ij) N ij.1.1 c (Opt.solverDict o)
              pure (Function.update tab ij (some s))) t = .ok t' →
            ∀ w s, t' w = some s → s.eig = none ∧ s.phi = none ∧ s.veff = none := by
          intro l
          induction l with
          | nil =>
            intro t t' h0 h1
            obtain rfl := Except.ok.inj h1
            exact h0
          | cons x l ih =>
            intro t t' h0 h1
            rw [List.foldlM_cons, Py.do_eq_ok] at h1
            obtain ⟨m, hm, h1⟩ := h1
            simp only [Py.do_eq_ok, Py.pure_eq_ok] at hm
            obtain ⟨_, -, s, hs, rfl⟩ := hm
            refine ih _ _ (fun w s' hw => ?_) h1
            by_cases hx : w = x
            · subst hx
              rw [Function.update_self] at hw
              obtain rfl := Option.some.inj hw
              unfold Solver.init at hs
              simp only [Py.do_eq_ok] at hs
              obtain ⟨_, -, hs⟩ := hs
              split at hs
              · cases hs
              · rw [Py.pure_eq_ok] at hs
                subst hs
                exact ⟨rfl, rfl, rfl⟩
            · rw [Function.update_of_ne hx] at hw
              exact h0 w s' hw
        exact inv _ _ _ (fun _ _ h => by cases h) ht
      subst h
      have k := fun w => key w _ (Option.some_get (hs w)).symm
      exact ⟨rfl, rfl, rfl, fun w => (k w).1, fun w => (k w).2.1, fun w => (k w).2.2⟩
    · cases h
  · cases h

namespace Sample134
open Sample120

/-- The new object of C120 has no potential; a worker without potential dies. -/
def W' : Workers (Grid.tiny ℚ) 1 1 1 := fun ks it w => if (ks.solver w).veff.isSome then W ks it w else none

theorem unused : UnusedKs ks := ⟨rfl, rfl, rfl, fun _ => rfl, fun _ => rfl, fun _ => rfl⟩

theorem needs : NeedPotential W' := fun ks i w _ h => by simp [W', h]

/-- After `energy()` (which raised) and `calc_hxc_potential()` nothing has changed for the other methods. -/
example : ∃ b, Lived F W' ks b ∧ b.energy F = .error .typeError ∧
    b.calcDensity (W' b false) = .error .keyError ∧ b.calcChempot = .error .typeError := by
  have e := C134_before (by decide) (by decide) F needs unused (fun _ => by simp [ks]) (.refl _)
  have h1 : Lived F W' ks { ks with E := none } := .raised .energy _ none (.refl _) e.2.2.2.2.2.1
  obtain ⟨b, hb⟩ : ∃ b, KsCall.run F W' { ks with E := none } .calcHxc = .ok b := ⟨_, rfl⟩
  have h2 := Lived.returned _ h1 hb
  have e2 := C134_before (by decide) (by decide) F needs unused (fun _ => by simp [ks]) h2
  exact ⟨b, h2, e2.2.2.2.2.2.1, e2.2.2.2.2.1 false, e2.2.2.2.2.2.2.2.1 ⟨(0, 0), by simp [ks]⟩⟩

/-- `scf` with one pass returns, and `energy()` afterwards changes nothing. -/
example : ∃ ks' log, scf F W' (o false false 2) ks = .ok (ks', log) ∧ log.length = 1 ∧ ks'.energy F = .ok ks' := by
  obtain ⟨⟨ks', log⟩, h⟩ := returns (x := scf F W' (o false false 2) ks) (by decide +kernel)
  have hl : log ≠ [] := fun hl => by
    rcases (C134_passes h).mp hl with h | h
    · exact absurd h (by decide)
    · exact absurd h (by norm_num [o])
  have h1 : (scf F W' (o false false 2) ks).toOption.map (fun x => x.2.length) = some 1 := by decide +kernel
  rw [h] at h1
  exact ⟨ks', log, h, Option.some.inj h1, (C134_after (by decide) h hl).1⟩

end Sample134
end Verif
