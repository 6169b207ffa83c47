import Verif.Lemmas.KsScf
import Verif.Lemmas.PyRel
import Verif.Lemmas.Grid
import Mathlib.Tactic.Linarith

/-! # C120: interrupting, continuing and repeating a Kohn-Sham calculation -/

namespace Verif
open KS KsScf
variable {K : Type} [Field K] [LinearOrder K] [IsStrictOrderedRing K] [FloorRing K]
variable {G : Grid K} {r c p : ℕ}

/-- A solver without the orbitals it found. -/
def Spec.blank (s : Solver G) : Solver G := { s with phi := none, eig := none }

/-- A solver without orbitals and potential. -/
def Spec.bare (s : Solver G) : Solver G := { s with phi := none, eig := none, veff := none }

/-- What the worker processes can see: `calc_orbitals` (`false`) only the solver with its potential, `iter_orbitals` (`true`)
also the orbitals the solver holds. -/
structure Spec.OwnData (W : Workers G r c p) : Prop where
  full : ∀ a b w, blank (a.solver w) = blank (b.solver w) → W a false w = W b false w
  iter : ∀ a b w, a.solver w = b.solver w → W a true w = W b true w

namespace KsScf
open Spec

/-- What a pass does to the object; the flag says whether `iter_orbitals` is used. -/
def objPass (F : Functionals G p) (W : Workers G r c p) (flip : Bool) (alpha : K) (it : Bool) (ks : KS G r c p) :
    Py (KS G r c p) := do
  let ks ← potential F ks
  let ks := if flip then { ks with veff := ks.veff.map KS.spinSymmetrised } else ks
  let (ks, nout) ← ks.calcDensity (W ks it)
  let n ← KS.need ks.n
  let n := mix alpha n nout
  let ks ← { ks with n := some (if flip then KS.spinSymmetrised n else n) }.energy F
  ks.calcChempot

/-- Several passes. -/
def objPasses (F : Functionals G p) (W : Workers G r c p) (flip : Bool) (alpha : K) : List Bool → KS G r c p → Py (KS G r c p)
  | [], ks => pure ks
  | b :: l, ks => do
    let ks ← objPass F W flip alpha b ks
    objPasses F W flip alpha l ks

theorem objPasses_append (F : Functionals G p) (W : Workers G r c p) (flip : Bool) (alpha : K) (l l' : List Bool) :
    ∀ {a b d : KS G r c p}, objPasses F W flip alpha l a = .ok b → objPasses F W flip alpha l' b = .ok d →
      objPasses F W flip alpha (l ++ l') a = .ok d := by
  induction l with
  | nil =>
    intro a b d h h'
    rw [objPasses, Py.pure_eq_ok] at h
    subst h
    exact h'
  | cons x l ih =>
    intro a b d h h'
    rw [objPasses, Py.do_eq_ok] at h
    obtain ⟨m, hm, h⟩ := h
    rw [List.cons_append, objPasses, Py.do_eq_ok]
    exact ⟨m, hm, ih h h'⟩

/-- Whether `iter_orbitals` is used after the change `d`. -/
def flagOf (o : Options K) (d : Fl K) : Bool := o.iterative && (o.continuing || Fl.gt (.fin (1 / 100)) d)

theorem body_obj {F : Functionals G p} {W : Workers G r c p} {o : Options K} {st st' : State G r c p} {d : Fl K × Fl K}
    (h : body F W o st = .ok (st', d)) :
    objPass F W o.spinflipsym o.alpha (flagOf o st.diff) st.ks = .ok st'.ks ∧ st'.diff = Fl.pymax d.1 d.2 := by
  have hf : (o.iterative && Fl.gt (.fin (1 / 100)) (if o.iterative ∧ o.continuing then (.fin 0 : Fl K) else st.diff)) =
      flagOf o st.diff := by
    unfold flagOf
    cases o.iterative <;> cases o.continuing <;> simp [Fl.gt]
  unfold body at h
  simp only [Py.do_eq_ok, Py.pure_eq_ok, density, hf] at h
  obtain ⟨ks1, h1, ks3, ⟨x, h2, n, h3, rfl⟩, ks4, h4, ks5, h5, n5, h6, E, h7, dn, h8, h9⟩ := h
  obtain ⟨rfl, rfl⟩ := Prod.mk.inj h9
  refine ⟨?_, rfl⟩
  unfold objPass
  simp only [Py.do_eq_ok]
  refine ⟨ks1, h1, x, h2, n, h3, ks4, h4, h5⟩

theorem loop_obj {F : Functionals G p} {W : Workers G r c p} {o : Options K} (auto : Bool) (etol : K) :
    ∀ (left : ℕ) (st st' : State G r c p) (log : List (Fl K × Fl K)),
      loop (body F W o) auto etol left st.diff st = .ok (st', log) →
      objPasses F W o.spinflipsym o.alpha
        (((st.diff :: log.map fun x => Fl.pymax x.1 x.2).dropLast).map (flagOf o)) st.ks = .ok st'.ks := by
  intro left
  induction left with
  | zero =>
    intro st st' log h
    unfold loop at h
    split at h
    · simp only [Except.ok.injEq, Prod.mk.injEq] at h
      obtain ⟨rfl, rfl⟩ := h
      rfl
    · split at h
      · cases h
      · simp only [Except.ok.injEq, Prod.mk.injEq] at h
        obtain ⟨rfl, rfl⟩ := h
        rfl
  | succ left ih =>
    intro st st' log h
    unfold loop at h
    split at h
    · simp only [Py.do_eq_ok] at h
      obtain ⟨⟨t, dE, dn⟩, ht, h⟩ := h
      split at h
      · cases h
      · simp only [Py.do_eq_ok, Py.pure_eq_ok] at h
        obtain ⟨⟨t', log'⟩, ht', h⟩ := h
        obtain ⟨rfl, rfl⟩ := Prod.mk.inj h
        obtain ⟨h1, h2⟩ := body_obj ht
        rw [List.map_cons, List.dropLast_cons_cons, List.map_cons, objPasses, Py.do_eq_ok]
        refine ⟨_, h1, ?_⟩
        have := ih t t' log' (h2 ▸ ht')
        rwa [h2] at this
    · split at h
      · cases h
      · simp only [Except.ok.injEq, Prod.mk.injEq] at h
        obtain ⟨rfl, rfl⟩ := h
        rfl

/-- The changes before the passes of a run. -/
def before (log : List (Fl K × Fl K)) : List (Fl K) := ((.fin 10 : Fl K) :: log.map fun x => Fl.pymax x.1 x.2).dropLast

theorem before_length (log : List (Fl K × Fl K)) : (before log).length = log.length := by
  simp [before]

theorem before_getElem (log : List (Fl K × Fl K)) (i : ℕ) (hi : i < (before log).length) : (before log)[i] =
    if h : i = 0 then .fin 10 else Fl.pymax (log[i - 1]'(by rw [before_length] at hi; omega)).1
      (log[i - 1]'(by rw [before_length] at hi; omega)).2 := by
  have hi0 : i < (((.fin 10 : Fl K) :: log.map fun x => Fl.pymax x.1 x.2).dropLast).length := hi
  change (((.fin 10 : Fl K) :: log.map fun x => Fl.pymax x.1 x.2).dropLast)[i]'hi0 = _
  rw [List.getElem_dropLast]
  cases i with
  | zero => simp
  | succ i => simp

theorem scf_obj {F : Functionals G p} {W : Workers G r c p} {o : Options K} {ks ks' : KS G r c p} {log : List (Fl K × Fl K)}
    (h : scf F W o ks = .ok (ks', log)) :
    ∃ s, start W o ks = .ok s ∧ objPasses F W o.spinflipsym o.alpha ((before log).map (flagOf o)) s = .ok ks' := by
  unfold scf run at h
  simp only [Py.do_eq_ok, Py.pure_eq_ok] at h
  obtain ⟨s, hs, ⟨st, l⟩, hl, h⟩ := h
  obtain ⟨rfl, rfl⟩ := Prod.mk.inj h
  exact ⟨s, hs, loop_obj _ _ _ ⟨s, .fin 0, fun _ _ => 0, .fin 10⟩ _ _ hl⟩

/-- Two runs with the same steps report the same changes as long as both go on. -/
theorem loop_prefix {S : Type} (step : S → Py (S × Fl K × Fl K)) (auto auto' : Bool) (etol etol' : K) :
    ∀ (left left' : ℕ) (diff : Fl K) (s s1 s2 : S) (l1 l2 : List (Fl K × Fl K)),
      loop step auto etol left diff s = .ok (s1, l1) → loop step auto' etol' left' diff s = .ok (s2, l2) →
      l1.length ≤ l2.length → l1 <+: l2 := by
  intro left
  induction left with
  | zero =>
    intro left' diff s s1 s2 l1 l2 h h' hl
    unfold loop at h
    have : l1 = [] := by
      split at h
      · simp only [Except.ok.injEq, Prod.mk.injEq] at h
        exact h.2.symm
      · split at h
        · cases h
        · simp only [Except.ok.injEq, Prod.mk.injEq] at h
          exact h.2.symm
    rw [this]
    exact List.nil_prefix
  | succ left ih =>
    intro left' diff s s1 s2 l1 l2 h h' hl
    unfold loop at h
    split at h
    · simp only [Py.do_eq_ok] at h
      obtain ⟨⟨t, dE, dn⟩, ht, h⟩ := h
      split at h
      · cases h
      · simp only [Py.do_eq_ok, Py.pure_eq_ok] at h
        obtain ⟨⟨t', log'⟩, ht', h⟩ := h
        obtain ⟨rfl, rfl⟩ := Prod.mk.inj h
        unfold loop at h'
        have ne : l2 ≠ [] := fun e => by rw [e] at hl; simp at hl
        split at h'
        · cases left' with
          | zero =>
            simp only [Except.ok.injEq, Prod.mk.injEq] at h'
            exact absurd h'.2.symm ne
          | succ left' =>
            simp only [ht, Py.do_eq_ok, Except.ok.injEq] at h'
            obtain ⟨x, rfl, h'⟩ := h'
            split at h'
            · cases h'
            · simp only [Py.do_eq_ok, Py.pure_eq_ok] at h'
              obtain ⟨⟨t'', log''⟩, ht'', h'⟩ := h'
              obtain ⟨rfl, rfl⟩ := Prod.mk.inj h'
              have := ih left' _ _ _ _ _ _ ht' ht'' (by simpa using hl)
              exact (List.prefix_cons_inj _).mpr this
        · split at h'
          · cases h'
          · simp only [Except.ok.injEq, Prod.mk.injEq] at h'
            exact absurd h'.2.symm ne
    · split at h
      · cases h
      · simp only [Except.ok.injEq, Prod.mk.injEq] at h
        rw [← h.2]
        exact List.nil_prefix

/-- External potential and density are there. -/
def Set (ks : KS G r c p) : Prop := ks.vext.isSome ∧ ks.n.isSome

theorem objPass_set {F : Functionals G p} {W : Workers G r c p} {flip it : Bool} {alpha : K} {a b : KS G r c p} (ha : Set a)
    (h : objPass F W flip alpha it a = .ok b) : Set b := by
  unfold objPass at h
  simp only [Py.do_eq_ok, Py.pure_eq_ok] at h
  obtain ⟨ks1, h1, x, h2, n, h3, ks4, h4, h5⟩ := h
  have e1 : ks1.vext.isSome := by
    unfold potential at h1
    simp only [Py.do_eq_ok, Py.pure_eq_ok] at h1
    obtain ⟨m, hm, v, hv, w, hw, s, hs, rfl⟩ := h1
    change m.vext.isSome
    cases hx : m.vext with
    | none => rw [hx] at hv; cases hv
    | some _ => rfl
  have e2 : x.1.vext.isSome := by
    unfold KS.calcDensity at h2
    simp only [Py.do_eq_ok, Py.pure_eq_ok] at h2
    obtain ⟨s, -, m, -, rfl⟩ := h2
    cases flip <;> exact e1
  have h4' := energy_keeps h4
  have h5' := calcChempot_keeps h5
  refine ⟨?_, by rw [h5'.2, h4'.2]; rfl⟩
  have e4 : ks4.vext = x.1.vext := by
    unfold KS.energy at h4
    simp only [Py.do_eq_ok] at h4
    obtain ⟨y, -, h4⟩ := h4
    cases hk : x.1.kind <;> simp only [hk, Py.do_eq_ok, Py.pure_eq_ok] at h4
    · obtain ⟨_, -, _, -, _, -, _, -, _, -, ⟨_, _, _⟩, -, ⟨_, _, _⟩, -, rfl⟩ := h4
      rfl
    · obtain ⟨_, -, _, -, rfl⟩ := h4
      rfl
  have e5 : b.vext = ks4.vext := by
    unfold KS.calcChempot at h5
    simp only [Py.do_eq_ok, Py.pure_eq_ok] at h5
    obtain ⟨_, -, _, -, rfl⟩ := h5
    rfl
  rw [e5, e4]
  exact e2

theorem objPasses_set {F : Functionals G p} {W : Workers G r c p} {flip : Bool} {alpha : K} (l : List Bool) :
    ∀ {a b : KS G r c p}, Set a → objPasses F W flip alpha l a = .ok b → Set b := by
  induction l with
  | nil =>
    intro a b ha h
    rw [objPasses, Py.pure_eq_ok] at h
    exact h ▸ ha
  | cons x l ih =>
    intro a b ha h
    rw [objPasses, Py.do_eq_ok] at h
    obtain ⟨m, hm, h⟩ := h
    exact ih (objPass_set ha hm) h

theorem start_set {W : Workers G r c p} {o : Options K} {a b : KS G r c p} (h : start W o a = .ok b) : Set b := by
  unfold start at h
  cases ho : o.continuing
  · simp only [ho, Bool.false_eq_true, if_false, Py.do_eq_ok, Py.pure_eq_ok] at h
    obtain ⟨m, hm, ⟨x, nout⟩, hx, rfl⟩ := h
    unfold KS.setEffectivePotential at hm
    unfold KS.calcDensity at hx
    simp only [Py.do_eq_ok, Py.pure_eq_ok] at hm hx
    obtain ⟨_, -, _, -, _, -, rfl⟩ := hm
    obtain ⟨s, -, m, -, hx⟩ := hx
    obtain ⟨rfl, rfl⟩ := Prod.mk.inj hx
    exact ⟨rfl, rfl⟩
  · simp only [ho, if_true, Py.do_eq_ok, Py.pure_eq_ok] at h
    obtain ⟨n, hn, rfl⟩ := h
    refine ⟨rfl, ?_⟩
    change a.n.isSome
    change need a.n = _ at hn
    cases hx : a.n with
    | none => rw [hx] at hn; cases hn
    | some _ => rfl

theorem start_continue {W : Workers G r c p} {o : Options K} (ho : o.continuing = true) {a : KS G r c p} (ha : Set a) :
    start W o a = .ok a := by
  obtain ⟨v, hv⟩ := Option.isSome_iff_exists.mp ha.1
  obtain ⟨n, hn⟩ := Option.isSome_iff_exists.mp ha.2
  cases a
  simp only at hv hn
  subst hv hn
  simp [start, ho, KS.need, bind, Except.bind, pure, Except.pure]

end KsScf
open Spec

/-- C120 (continuing), partial: a calculation that is interrupted and continued ends in the same state as one that makes the
same number of passes without interruption: potentials, density, orbitals, energies and chemical potential.  The
iteration limits and the tolerances may be chosen freely.  With `iterative` this needs that the uninterrupted
calculation has already switched to `iter_orbitals` where it is interrupted (change below 0.01), or is itself a
continued one. -/
theorem C120_continue_partial (F : Functionals G p) (W : Workers G r c p) (o : Options K) (m₂ m₃ : ℤ) (tol₂ tol₃ : K)
    {ks ks₁ ks₂ ks₃ : KS G r c p} {log₁ log₂ log₃ : List (Fl K × Fl K)}
    (h₁ : scf F W o ks = .ok (ks₁, log₁))
    (h₂ : scf F W { o with continuing := true, maxiter := m₂, etol := tol₂ } ks₁ = .ok (ks₂, log₂))
    (h₃ : scf F W { o with maxiter := m₃, etol := tol₃ } ks = .ok (ks₃, log₃))
    (hlen : log₃.length = log₁.length + log₂.length)
    (hit : o.iterative = true → o.continuing = true ∨
      log₁ ≠ [] ∧ ∀ x ∈ (log₃.drop (log₁.length - 1)).dropLast, Fl.gt (.fin (1 / 100)) (Fl.pymax x.1 x.2) = true) :
    ks₃ = ks₂ := by
  obtain ⟨s, hs, hp⟩ := scf_obj h₁
  obtain ⟨s₂, hs₂, hp₂⟩ := scf_obj h₂
  obtain ⟨s₃, hs₃, hp₃⟩ := scf_obj h₃
  have e3 : s₃ = s := by
    have : start W { o with maxiter := m₃, etol := tol₃ } ks = start W o ks := rfl
    rw [this, hs] at hs₃
    exact (Except.ok.inj hs₃).symm
  subst e3
  have hset := objPasses_set _ (start_set hs) hp
  rw [start_continue rfl hset] at hs₂
  obtain rfl := Except.ok.inj hs₂
  have hpre : log₁ <+: log₃ := by
    unfold scf run at h₁ h₃
    have : start W { o with maxiter := m₃, etol := tol₃ } ks = start W o ks := rfl
    rw [this] at h₃
    simp only [hs, Py.do_eq_ok, Py.pure_eq_ok, Except.ok.injEq, exists_eq_left'] at h₁ h₃
    obtain ⟨⟨t1, l1⟩, hl1, e1⟩ := h₁
    obtain ⟨⟨t3, l3⟩, hl3, e3⟩ := h₃
    obtain ⟨rfl, rfl⟩ := Prod.mk.inj e1
    obtain ⟨rfl, rfl⟩ := Prod.mk.inj e3
    exact loop_prefix _ _ _ _ _ _ _ _ _ _ _ _ _ hl1 hl3 (by omega)
  obtain ⟨rest, rfl⟩ := hpre
  have hr : rest.length = log₂.length := by simpa using hlen
  have key : (before (log₁ ++ rest)).map (flagOf { o with maxiter := m₃, etol := tol₃ }) =
      (before log₁).map (flagOf o) ++
        (before log₂).map (flagOf { o with continuing := true, maxiter := m₂, etol := tol₂ }) := by
    have fm : ∀ d : Fl K, flagOf { o with maxiter := m₃, etol := tol₃ } d = flagOf o d := fun _ => rfl
    have fc : ∀ d : Fl K, flagOf { o with continuing := true, maxiter := m₂, etol := tol₂ } d = o.iterative :=
      fun _ => by simp [flagOf]
    refine List.ext_getElem (by simp [before_length, hr]) fun i hi hi' => ?_
    rw [List.length_map, before_length, List.length_append] at hi
    by_cases hlt : i < log₁.length
    · rw [List.getElem_append_left (by simpa [before_length] using hlt), List.getElem_map, List.getElem_map, fm,
        before_getElem, before_getElem]
      split
      · rfl
      · rw [List.getElem_append_left (by omega)]
    · rw [List.getElem_append_right (by simpa [before_length] using hlt), List.getElem_map, List.getElem_map, fm, fc,
        before_getElem]
      unfold flagOf
      rcases Bool.eq_false_or_eq_true o.iterative with hi2 | hi2
      case inr => simp only [hi2, Bool.false_and]
      case inl =>
        simp only [hi2, Bool.true_and]
        rcases hit hi2 with hc | ⟨hne, hall⟩
        · simp [hc]
        · have h0 : 0 < log₁.length := List.length_pos_iff.mpr hne
          rw [dif_neg (by omega)]
          rw [hall _ (List.mem_iff_getElem.mpr ⟨i - log₁.length, by simp; omega, ?_⟩)]
          · simp
          · rw [List.getElem_dropLast, List.getElem_drop]
            congr 1
            omega
  have h := objPasses_append F W o.spinflipsym o.alpha _ _ hp hp₂
  rw [← key] at h
  have h3' : objPasses F W o.spinflipsym o.alpha ((before (log₁ ++ rest)).map (flagOf { o with maxiter := m₃, etol := tol₃ })) s₃ =
    .ok ks₃ := hp₃
  rw [h] at h3'
  exact (Except.ok.inj h3').symm

/-- C120 (the tolerance after a restart): the first change of the energy is taken against 0, so it is 1 whatever the
state the calculation starts from.  A converged calculation that is continued therefore makes at least two passes,
unless the limit forbids it or the energy is 0 or not a number. -/
theorem C120_two_passes (F : Functionals G p) (W : Workers G r c p) (o : Options K) {ks ks' : KS G r c p}
    {log : List (Fl K × Fl K)} (h : scf F W o ks = .ok (ks', log)) (hm : 3 ≤ o.maxiter) (ht : o.etol < 1) :
    2 ≤ log.length ∨ ∃ E, ks'.E = some E ∧ ∀ x, E.E = .fin x → x = 0 := by
  obtain ⟨n, hn⟩ : ∃ n : ℕ, (o.maxiter - 1).toNat = n + 2 := ⟨(o.maxiter - 3).toNat, by omega⟩
  unfold scf run at h
  simp only [Py.do_eq_ok, Py.pure_eq_ok] at h
  obtain ⟨s, -, ⟨st, l⟩, hl, h⟩ := h
  obtain ⟨rfl, rfl⟩ := Prod.mk.inj h
  rw [hn] at hl
  unfold loop at hl
  have h10 : Fl.gt (.fin 10 : Fl K) (.fin o.etol) = true := by
    rw [Fl.gt_fin, decide_eq_true_eq]
    linarith
  rw [if_pos h10] at hl
  simp only [Py.do_eq_ok] at hl
  obtain ⟨⟨t, dE, dn⟩, hb, hl⟩ := hl
  split at hl
  · cases hl
  rename_i hauto
  simp only [Py.do_eq_ok, Py.pure_eq_ok] at hl
  obtain ⟨⟨t', log'⟩, hl', hl⟩ := hl
  obtain ⟨rfl, rfl⟩ := Prod.mk.inj hl
  unfold body at hb
  simp only [Py.do_eq_ok, Py.pure_eq_ok] at hb
  obtain ⟨ks1, -, ks3, -, ks4, -, ks5, h5, n5, h6, E, h7, dn', h8, h9⟩ := hb
  simp only [Prod.mk.injEq] at h9
  obtain ⟨rfl, rfl, rfl⟩ := h9
  have hE : ks5.E = some E := by
    cases hx : ks5.E with
    | none => rw [hx] at h7; cases h7
    | some y => rw [hx] at h7; exact congrArg some (Except.ok.inj h7)
  by_cases hz : ∃ x, E.E = .fin x ∧ x ≠ 0
  · left
    obtain ⟨x, hx, hx0⟩ := hz
    have h1 : Fl.abs (Fl.div (Fl.sub E.E (.fin 0)) E.E) = .fin 1 := by
      rw [hx, Fl.sub_fin, sub_zero]
      simp [Fl.div, hx0]
    rw [h1] at hl'
    have hgt : Fl.gt (Fl.pymax (.fin 1) dn') (.fin o.etol) = true := by
      unfold Fl.pymax
      split
      · rename_i hd
        cases dn' with
        | fin y =>
          rw [Fl.gt_fin, decide_eq_true_eq] at hd ⊢
          exact ht.trans hd
        | nan => simp [Fl.gt] at hd
        | posInf => rfl
        | negInf => simp [Fl.gt] at hd
      · rw [Fl.gt_fin, decide_eq_true_eq]
        exact ht
    unfold loop at hl'
    rw [if_pos hgt] at hl'
    simp only [Py.do_eq_ok, hauto] at hl'
    obtain ⟨⟨u, eE, en⟩, -, hl'⟩ := hl'
    simp only [Bool.false_eq_true, if_false, Py.do_eq_ok, Py.pure_eq_ok] at hl'
    obtain ⟨⟨u', log''⟩, -, hl'⟩ := hl'
    obtain ⟨rfl, rfl⟩ := Prod.mk.inj hl'
    simp
  · by_cases hlog : log' = []
    · right
      have : t' = ⟨ks5, E.E, n5, Fl.pymax (Fl.abs (Fl.div (Fl.sub E.E (.fin 0)) E.E)) dn'⟩ := by
        subst hlog
        unfold loop at hl'
        split at hl'
        · simp only [Py.do_eq_ok] at hl'
          obtain ⟨x, -, y, -, hl'⟩ := hl'
          cases hl'
        · simp only [Except.ok.injEq, Prod.mk.injEq] at hl'
          exact hl'.1.symm
      rw [this]
      exact ⟨E, hE, fun x hx => by_contra fun h0 => hz ⟨x, hx, h0⟩⟩
    · left
      have := List.length_pos_iff.mpr hlog
      simp only [List.length_cons]
      omega

/-- Two objects that differ at most in what a calculation computes: density, potentials, orbitals and energies. -/
structure Spec.Reused (a b : KS G r c p) : Prop where
  kind : b.kind = a.kind
  sym : b.sym = a.sym
  Za : b.Za = a.Za
  Zb : b.Zb = a.Zb
  a_ : b.a = a.a
  vnuc : b.vnuc = a.vnuc
  vext : (b.vext.getD fun _ _ => 0) = a.vext.getD fun _ _ => 0
  scale : b.scale = a.scale
  Q : b.Q = a.Q
  alpha : b.alpha = a.alpha
  solver : ∀ w, bare (b.solver w) = bare (a.solver w)
  /-- a non-interacting calculation never touches these -/
  ni : a.kind = .ni → b.V = a.V ∧ (b.E.map KSEnergy.Ex).getD 0 = (a.E.map KSEnergy.Ex).getD 0 ∧
    (b.E.map KSEnergy.Ec).getD 0 = (a.E.map KSEnergy.Ec).getD 0

namespace KsScf
open Spec

/-- Two objects that agree in all that the next pass reads. -/
structure Alike (a b : KS G r c p) : Prop where
  kind : b.kind = a.kind
  sym : b.sym = a.sym
  Za : b.Za = a.Za
  Zb : b.Zb = a.Zb
  a_ : b.a = a.a
  vnuc : b.vnuc = a.vnuc
  vext : b.vext = a.vext
  vhxc : b.vhxc = a.vhxc
  veff : b.veff = a.veff
  n : b.n = a.n
  scale : b.scale = a.scale
  Q : b.Q = a.Q
  alpha : b.alpha = a.alpha
  solver : b.solver = a.solver
  ni : a.kind = .ni → b.V = a.V ∧ (b.E.map KSEnergy.Ex).getD 0 = (a.E.map KSEnergy.Ex).getD 0 ∧
    (b.E.map KSEnergy.Ec).getD 0 = (a.E.map KSEnergy.Ec).getD 0

theorem Alike.refl (a : KS G r c p) : Alike a a :=
  ⟨rfl, rfl, rfl, rfl, rfl, rfl, rfl, rfl, rfl, rfl, rfl, rfl, rfl, rfl, fun _ => ⟨rfl, rfl, rfl⟩⟩

theorem collect_rel {d d' : Fin r × Fin c → Option (Found G)} (hd : d' = d) {s s' : Fin r × Fin c → Solver G}
    (hs : ∀ w, blank (s' w) = blank (s w)) : Py.Rel Eq (collect d s) (collect d' s') := by
  subst hd
  by_cases h : ∃ w, d' w = none
  · rw [collect_error _ _ h, collect_error _ _ h]
    exact .error _
  · push Not at h
    have h' : ∀ w, d' w = some ((d' w).getD ([], none)) := fun w => by
      obtain ⟨x, hx⟩ := Option.ne_none_iff_exists'.mp (h w)
      rw [hx]
      rfl
    rw [collect_ok _ _ _ h', collect_ok _ _ _ h']
    refine .ok (funext fun w => ?_)
    have e := hs w
    unfold blank at e
    cases hx : s w
    cases hy : s' w
    rw [hx, hy] at e
    simp only [Solver.mk.injEq, and_true] at e ⊢
    obtain ⟨rfl, rfl, rfl, rfl, rfl, rfl, rfl⟩ := by simpa using e
    simp

theorem start_rel (hc : c ≤ p) {W : Workers G r c p} (hW : OwnData W) {o : Options K} (ho : o.continuing = false)
    {a b : KS G r c p} (h : Reused a b) : Py.Rel Alike (start W o a) (start W o b) := by
  unfold start
  simp only [ho, Bool.false_eq_true, if_false]
  have hs : Py.Rel (fun x y : KS G r c p => (∀ w, blank (y.solver w) = blank (x.solver w)) ∧
      y = { x with solver := y.solver, n := y.n, u := y.u, E := y.E, V := y.V, homo := y.homo } ∧
      (x.kind = .ni → y.V = x.V ∧ (y.E.map KSEnergy.Ex).getD 0 = (x.E.map KSEnergy.Ex).getD 0 ∧
        (y.E.map KSEnergy.Ec).getD 0 = (x.E.map KSEnergy.Ec).getD 0))
      ({ a with vext := some (a.vext.getD fun _ _ => 0), vhxc := some fun _ _ => 0 }.setEffectivePotential)
      ({ b with vext := some (b.vext.getD fun _ _ => 0), vhxc := some fun _ _ => 0 }.setEffectivePotential) := by
    simp only [setEffectivePotential, KS.need, distribute_ok _ hc, bind, Except.bind, pure, Except.pure]
    refine .ok ⟨fun w => ?_, ?_, h.ni⟩
    · have e := h.solver w
      unfold blank
      unfold bare at e
      simp only [Solver.mk.injEq] at e ⊢
      obtain ⟨e1, e2, e3, e4, e5, e6, -⟩ := e
      refine ⟨e1, e2, e3, e4, e5, e6, trivial, trivial, ?_⟩
      rw [h.vnuc, h.vext]
    · rw [h.kind, h.sym, h.Za, h.Zb, h.a_, h.vnuc, h.vext, h.scale, h.Q, h.alpha]
  refine hs.bind fun x y hxy => ?_
  obtain ⟨h1, h2, h3⟩ := hxy
  refine Py.Rel.bind (R := fun u v => Alike { u.1 with n := none } { v.1 with n := none } ∧ u.2 = v.2) ?_
    fun u v huv => .ok ?_
  · unfold KS.calcDensity
    refine (collect_rel (funext fun w => hW.full y x w (h1 w)) h1).bind fun t t' htt => ?_
    subst htt
    have hk : y.sym = x.sym := by rw [h2]
    rw [hk]
    refine (Py.Rel.of_eq rfl).bind fun m m' hm => ?_
    subst hm
    refine .ok ⟨?_, rfl⟩
    rw [h2]
    exact ⟨rfl, rfl, rfl, rfl, rfl, rfl, rfl, rfl, rfl, rfl, rfl, rfl, rfl, rfl, h3⟩
  · obtain ⟨e, e'⟩ := huv
    exact ⟨e.kind, e.sym, e.Za, e.Zb, e.a_, e.vnuc, e.vext, e.vhxc, e.veff, by rw [e'], e.scale, e.Q, e.alpha, e.solver, e.ni⟩

theorem Alike.norm {a b : KS G r c p} (h : Alike a b) : b = { a with u := b.u, E := b.E, V := b.V, homo := b.homo } := by
  cases a
  cases b
  obtain ⟨h1, h2, h3, h4, h5, h6, h7, h8, h9, h10, h11, h12, h13, h14, -⟩ := h
  simp only at h1 h2 h3 h4 h5 h6 h7 h8 h9 h10 h11 h12 h13 h14
  subst h1 h2 h3 h4 h5 h6 h7 h8 h9 h10 h11 h12 h13 h14
  rfl

theorem potential_ready (F : Functionals G p) {a b : KS G r c p} (h : Alike a b) :
    Py.Rel Alike (potential F a) (potential F b) := by
  unfold potential
  have h1 : Py.Rel Alike (a.calcHxc F) (b.calcHxc F) := by
    unfold KS.calcHxc
    have h2 : Py.Rel Alike (a.rawHxc F) (b.rawHxc F) := by
      unfold KS.rawHxc
      rw [h.kind]
      cases hk : a.kind with
      | ni =>
        exact .ok ⟨rfl, h.sym, h.Za, h.Zb, h.a_, h.vnuc, h.vext, rfl, h.veff, h.n, h.scale, h.Q, h.alpha, h.solver,
          fun _ => h.ni hk⟩
      | dft =>
        simp only
        rw [h.n]
        refine (Py.Rel.of_eq rfl).bind fun n n' hn => ?_
        subst hn
        refine (Py.Rel.of_eq rfl).bind fun x x' hx => ?_
        subst hx
        refine (Py.Rel.of_eq rfl).bind fun y y' hy => ?_
        subst hy
        refine (Py.Rel.of_eq rfl).bind fun z z' hz => ?_
        subst hz
        exact .ok ⟨rfl, h.sym, h.Za, h.Zb, h.a_, h.vnuc, h.vext, rfl, h.veff, rfl, h.scale, h.Q, h.alpha, h.solver,
          fun e => by cases e⟩
    refine h2.bind fun x y hxy => ?_
    rw [hxy.vhxc, hxy.sym]
    refine (Py.Rel.of_eq rfl).bind fun n n' hn => ?_
    subst hn
    cases hx : x.sym
    · exact .ok hxy
    · exact .ok ⟨hxy.kind, rfl, hxy.Za, hxy.Zb, hxy.a_, hxy.vnuc, hxy.vext, rfl, hxy.veff, hxy.n,
        hxy.scale, hxy.Q, hxy.alpha, hxy.solver, hxy.ni⟩
  refine h1.bind fun x y hxy => ?_
  rw [hxy.vext, hxy.vhxc, hxy.vnuc, hxy.solver]
  refine (Py.Rel.of_eq rfl).bind fun n n' hn => ?_
  subst hn
  refine (Py.Rel.of_eq rfl).bind fun n n' hn => ?_
  subst hn
  refine (Py.Rel.of_eq rfl).bind fun n n' hn => ?_
  subst hn
  exact .ok ⟨hxy.kind, hxy.sym, hxy.Za, hxy.Zb, hxy.a_, rfl, rfl, rfl, rfl, hxy.n, hxy.scale, hxy.Q, hxy.alpha, rfl, hxy.ni⟩

theorem workers_ready {W : Workers G r c p} (hW : OwnData W) {a b : KS G r c p} (h : Alike a b) (i : Bool) : W b i = W a i := by
  funext w
  cases i
  · exact hW.full _ _ _ (by rw [h.solver])
  · exact hW.iter _ _ _ (by rw [h.solver])

theorem density_ready {W : Workers G r c p} (hW : OwnData W) (o : Options K) (diff : Fl K) {a b : KS G r c p} (h : Alike a b) :
    Py.Rel Alike (density W o diff a) (density W o diff b) := by
  unfold density
  simp only [workers_ready hW h]
  refine Py.Rel.bind (R := fun u v => Alike u.1 v.1 ∧ v.2 = u.2) ?_ fun u v huv => ?_
  · unfold KS.calcDensity
    rw [h.solver, h.sym]
    refine (Py.Rel.of_eq rfl).bind fun n n' hn => ?_
    subst hn
    refine (Py.Rel.of_eq rfl).bind fun n n' hn => ?_
    subst hn
    exact .ok ⟨⟨h.kind, rfl, h.Za, h.Zb, h.a_, h.vnuc, h.vext, h.vhxc, h.veff, h.n, h.scale, h.Q, h.alpha, rfl, h.ni⟩, rfl⟩
  · obtain ⟨h, e⟩ := huv
    rw [h.n, e]
    refine (Py.Rel.of_eq rfl).bind fun n n' hn => ?_
    subst hn
    exact .ok ⟨h.kind, h.sym, h.Za, h.Zb, h.a_, h.vnuc, h.vext, h.vhxc, h.veff, rfl, h.scale, h.Q, h.alpha, h.solver, h.ni⟩

/-- After `energy` the objects agree except for the chemical potential. -/
theorem energy_ready (F : Functionals G p) {a b : KS G r c p} (h : Alike a b) :
    Py.Rel (fun x y => y = { x with u := y.u, homo := y.homo }) (a.energy F) (b.energy F) := by
  rw [h.norm]
  unfold KS.energy
  refine (Py.Rel.of_eq rfl).bind fun x x' hx => ?_
  subst hx
  cases hk : a.kind with
  | ni =>
    simp only
    refine (Py.Rel.of_eq rfl).bind fun n n' hn => ?_
    subst hn
    refine (Py.Rel.of_eq rfl).bind fun n n' hn => ?_
    subst hn
    obtain ⟨h1, h2, h3⟩ := h.ni hk
    refine .ok ?_
    rw [h1, h2, h3]
  | dft =>
    simp only
    refine (Py.Rel.of_eq rfl).bind fun n n' hn => ?_
    subst hn
    refine (Py.Rel.of_eq rfl).bind fun n n' hn => ?_
    subst hn
    refine (Py.Rel.of_eq rfl).bind fun n n' hn => ?_
    subst hn
    refine (Py.Rel.of_eq rfl).bind fun n n' hn => ?_
    subst hn
    refine (Py.Rel.of_eq rfl).bind fun n n' hn => ?_
    subst hn
    refine (Py.Rel.of_eq rfl).bind fun n n' hn => ?_
    subst hn
    refine (Py.Rel.of_eq rfl).bind fun n n' hn => ?_
    subst hn
    exact .ok rfl

theorem body_ready (F : Functionals G p) {W : Workers G r c p} (hW : OwnData W) (o : Options K) {a b : KS G r c p} (h : Alike a b)
    (E : Fl K) (n : G.Cols p) (d : Fl K) : body F W o ⟨b, E, n, d⟩ = body F W o ⟨a, E, n, d⟩ := by
  refine Py.Rel.eq ?_
  unfold body
  refine (potential_ready F h).bind fun x y hxy => ?_
  have hf : Alike (flipPotential o x) (flipPotential o y) := by
    unfold flipPotential
    split
    · exact ⟨hxy.kind, hxy.sym, hxy.Za, hxy.Zb, hxy.a_, hxy.vnuc, hxy.vext, hxy.vhxc, congrArg (Option.map _) hxy.veff, hxy.n,
        hxy.scale, hxy.Q, hxy.alpha, hxy.solver, hxy.ni⟩
    · exact hxy
  refine (density_ready hW o d hf).bind fun x y hxy => ?_
  refine (energy_ready F hxy).bind fun x y hxy => ?_
  have hc : y.calcChempot = x.calcChempot := by
    rw [hxy]
    rfl
  refine (Py.Rel.of_eq hc).bind fun x y hxy => ?_
  subst hxy
  exact .of_eq rfl

end KsScf

/-- C120 (repeating): a calculation that is started anew does not depend on what the object was used for before.  For objects
that differ only in what a calculation computes (density, potentials, orbitals, energies), the results are equal:
the same exception, or the same final object and the same changes in every pass. -/
theorem C120_fresh (hc : c ≤ p) (F : Functionals G p) {W : Workers G r c p} (hW : OwnData W) (o : Options K)
    (ho : o.continuing = false) (hm : 2 ≤ o.maxiter) (ht : o.etol < 10) {a b : KS G r c p} (h : Reused a b) :
    scf F W o b = scf F W o a := by
  refine Py.Rel.eq ?_
  unfold scf
  refine (start_rel hc hW ho h).bind fun x y hxy => ?_
  obtain ⟨n, hn⟩ : ∃ n : ℕ, (o.maxiter - 1).toNat = n + 1 := ⟨(o.maxiter - 2).toNat, by omega⟩
  have h10 : Fl.gt (.fin 10 : Fl K) (.fin o.etol) = true := by
    rw [Fl.gt_fin, decide_eq_true_eq]
    exact ht
  have e : run (body F W o) o.autoTol o.etol o.maxiter ⟨y, .fin 0, fun _ _ => 0, .fin 10⟩ =
      run (body F W o) o.autoTol o.etol o.maxiter ⟨x, .fin 0, fun _ _ => 0, .fin 10⟩ := by
    unfold run
    rw [hn]
    unfold loop
    rw [if_pos h10, if_pos h10, body_ready F hW o hxy]
  refine (Py.Rel.of_eq e).bind fun u v huv => ?_
  subst huv
  exact .of_eq rfl

namespace KsScf

theorem _root_.Verif.Spec.Reused.refl (a : KS G r c p) : Reused a a :=
  ⟨rfl, rfl, rfl, rfl, rfl, rfl, rfl, rfl, rfl, rfl, fun _ => rfl, fun _ => ⟨rfl, rfl, rfl⟩⟩

theorem _root_.Verif.Spec.Reused.trans {a b d : KS G r c p} (h : Reused a b) (h' : Reused b d) : Reused a d :=
  ⟨h'.kind.trans h.kind, h'.sym.trans h.sym, h'.Za.trans h.Za, h'.Zb.trans h.Zb, h'.a_.trans h.a_, h'.vnuc.trans h.vnuc,
    h'.vext.trans h.vext, h'.scale.trans h.scale, h'.Q.trans h.Q, h'.alpha.trans h.alpha,
    fun w => (h'.solver w).trans (h.solver w), fun e => by
      obtain ⟨a1, a2, a3⟩ := h.ni e
      obtain ⟨b1, b2, b3⟩ := h'.ni (h.kind.trans e)
      exact ⟨b1.trans a1, b2.trans a2, b3.trans a3⟩⟩

theorem distribute_bare {veff : G.Cols p} {s s' : Fin r × Fin c → Solver G} (h : distribute veff s = .ok s') :
    ∀ w, bare (s' w) = bare (s w) := by
  refine mapSolvers_inv (fun w x => bare x = bare (s w)) _ _ ?_ s s' h fun _ => rfl
  intro w x x' hx hP
  rw [Py.do_eq_ok] at hx
  obtain ⟨v, -, hx⟩ := hx
  rw [Py.pure_eq_ok] at hx
  subst hx
  exact hP

theorem collect_bare {d : Fin r × Fin c → Option (Found G)} {s s' : Fin r × Fin c → Solver G} (h : collect d s = .ok s') :
    ∀ w, bare (s' w) = bare (s w) := by
  refine mapSolvers_inv (fun w x => bare x = bare (s w)) _ _ ?_ s s' h fun _ => rfl
  intro w x x' hx hP
  split at hx
  · cases hx
  · obtain rfl := Except.ok.inj hx
    exact hP

theorem calcDensity_fresh {d : Fin r × Fin c → Option (Found G)} {a b : KS G r c p} {n : G.Cols p}
    (h : a.calcDensity d = .ok (b, n)) : Reused a b := by
  unfold KS.calcDensity at h
  simp only [Py.do_eq_ok, Py.pure_eq_ok] at h
  obtain ⟨s, hs, m, -, h⟩ := h
  obtain ⟨rfl, -⟩ := Prod.mk.inj h
  exact ⟨rfl, rfl, rfl, rfl, rfl, rfl, rfl, rfl, rfl, rfl, collect_bare hs, fun _ => ⟨rfl, rfl, rfl⟩⟩

theorem start_fresh {W : Workers G r c p} {o : Options K} {a b : KS G r c p} (h : start W o a = .ok b) : Reused a b := by
  unfold start at h
  cases ho : o.continuing
  · simp only [ho, Bool.false_eq_true, if_false, Py.do_eq_ok, Py.pure_eq_ok] at h
    obtain ⟨m, hm, ⟨x, nout⟩, hx, rfl⟩ := h
    have h2 := calcDensity_fresh hx
    unfold KS.setEffectivePotential at hm
    simp only [Py.do_eq_ok, Py.pure_eq_ok] at hm
    obtain ⟨_, e1, _, -, s, hs, rfl⟩ := hm
    have h1 : Reused a x := Reused.trans (b := { a with solver := s, vext := some (a.vext.getD fun _ _ => 0) })
      ⟨rfl, rfl, rfl, rfl, rfl, rfl, rfl, rfl, rfl, rfl, distribute_bare hs, fun _ => ⟨rfl, rfl, rfl⟩⟩
      ⟨h2.kind, h2.sym, h2.Za, h2.Zb, h2.a_, h2.vnuc, h2.vext, h2.scale, h2.Q, h2.alpha, h2.solver, h2.ni⟩
    exact h1.trans ⟨rfl, rfl, rfl, rfl, rfl, rfl, rfl, rfl, rfl, rfl, fun _ => rfl, fun _ => ⟨rfl, rfl, rfl⟩⟩
  · simp only [ho, if_true, Py.do_eq_ok, Py.pure_eq_ok] at h
    obtain ⟨n, hn, rfl⟩ := h
    exact ⟨rfl, rfl, rfl, rfl, rfl, rfl, rfl, rfl, rfl, rfl, fun _ => rfl, fun _ => ⟨rfl, rfl, rfl⟩⟩

theorem body_fresh {F : Functionals G p} {W : Workers G r c p} {o : Options K} {st st' : State G r c p} {d : Fl K × Fl K}
    (h : body F W o st = .ok (st', d)) : Reused st.ks st'.ks := by
  unfold body at h
  simp only [Py.do_eq_ok, Py.pure_eq_ok, density] at h
  obtain ⟨ks1, h1, ks3, ⟨x, h2, n, h3, rfl⟩, ks4, h4, ks5, h5, n5, h6, E, h7, dn, h8, h9⟩ := h
  obtain ⟨rfl, rfl⟩ := Prod.mk.inj h9
  have f1 : Reused st.ks ks1 := by
    unfold potential at h1
    simp only [Py.do_eq_ok, Py.pure_eq_ok] at h1
    obtain ⟨m, hm, _, -, _, -, s, hs, rfl⟩ := h1
    have hm' : Reused st.ks m := by
      unfold KS.calcHxc at hm
      simp only [Py.do_eq_ok, Py.pure_eq_ok] at hm
      obtain ⟨q, hq, _, -, rfl⟩ := hm
      have hq' : Reused st.ks q := by
        unfold KS.rawHxc at hq
        cases hk : st.ks.kind with
        | ni =>
          rw [hk] at hq
          simp only [Py.pure_eq_ok] at hq
          subst hq
          exact ⟨hk.symm, rfl, rfl, rfl, rfl, rfl, rfl, rfl, rfl, rfl, fun _ => rfl, fun _ => ⟨rfl, rfl, rfl⟩⟩
        | dft =>
          rw [hk] at hq
          simp only [Py.do_eq_ok, Py.pure_eq_ok] at hq
          obtain ⟨_, -, ⟨_, _, _⟩, -, ⟨_, _, _⟩, -, _, -, rfl⟩ := hq
          exact ⟨hk.symm, rfl, rfl, rfl, rfl, rfl, rfl, rfl, rfl, rfl, fun _ => rfl, fun e => by rw [hk] at e; cases e⟩
      refine hq'.trans ?_
      split
      · exact ⟨rfl, rfl, rfl, rfl, rfl, rfl, rfl, rfl, rfl, rfl, fun _ => rfl, fun _ => ⟨rfl, rfl, rfl⟩⟩
      · exact Reused.refl _
    exact hm'.trans ⟨rfl, rfl, rfl, rfl, rfl, rfl, rfl, rfl, rfl, rfl, distribute_bare hs, fun _ => ⟨rfl, rfl, rfl⟩⟩
  have f2 : Reused ks1 x.1 := by
    refine Reused.trans ?_ (calcDensity_fresh h2)
    unfold flipPotential
    split
    · exact ⟨rfl, rfl, rfl, rfl, rfl, rfl, rfl, rfl, rfl, rfl, fun _ => rfl, fun _ => ⟨rfl, rfl, rfl⟩⟩
    · exact Reused.refl _
  have f4 : Reused x.1 ks4 := by
    unfold KS.energy at h4
    simp only [Py.do_eq_ok] at h4
    obtain ⟨y, -, h4⟩ := h4
    cases hk : x.1.kind <;> simp only [hk, Py.do_eq_ok, Py.pure_eq_ok] at h4
    · obtain ⟨_, -, _, -, _, -, _, -, _, -, ⟨_, _, _⟩, -, ⟨_, _, _⟩, -, rfl⟩ := h4
      exact ⟨hk.symm, rfl, rfl, rfl, rfl, rfl, rfl, rfl, rfl, rfl, fun _ => rfl, fun e => by rw [hk] at e; cases e⟩
    · obtain ⟨_, -, _, -, rfl⟩ := h4
      exact ⟨hk.symm, rfl, rfl, rfl, rfl, rfl, rfl, rfl, rfl, rfl, fun _ => rfl, fun _ => ⟨rfl, rfl, rfl⟩⟩
  have f5 : Reused ks4 ks5 := by
    unfold KS.calcChempot at h5
    simp only [Py.do_eq_ok, Py.pure_eq_ok] at h5
    obtain ⟨_, -, _, -, rfl⟩ := h5
    exact ⟨rfl, rfl, rfl, rfl, rfl, rfl, rfl, rfl, rfl, rfl, fun _ => rfl, fun _ => ⟨rfl, rfl, rfl⟩⟩
  exact ((f1.trans f2).trans f4).trans f5

theorem scf_fresh {F : Functionals G p} {W : Workers G r c p} {o : Options K} {a b : KS G r c p} {log : List (Fl K × Fl K)}
    (h : scf F W o a = .ok (b, log)) : Reused a b := by
  unfold scf run at h
  simp only [Py.do_eq_ok, Py.pure_eq_ok] at h
  obtain ⟨s, hs, ⟨st, l⟩, hl, h⟩ := h
  obtain ⟨rfl, rfl⟩ := Prod.mk.inj h
  exact loop_inv _ (fun st => Reused a st.ks) (fun s s' dE dn hP hb => hP.trans (body_fresh hb)) _ _ _ _ _ _ _
    (start_fresh hs) hl

end KsScf

/-- C120 (repeating): after any calculation, a new one gives what it would have given without the first, and the same
calculation made twice gives the same object twice. -/
theorem C120_repeat (hc : c ≤ p) (F : Functionals G p) {W : Workers G r c p} (hW : OwnData W) (o o' : Options K)
    (ho : o.continuing = false) (hm : 2 ≤ o.maxiter) (ht : o.etol < 10) {a b : KS G r c p} {log : List (Fl K × Fl K)}
    (h : scf F W o' a = .ok (b, log)) : scf F W o b = scf F W o a :=
  C120_fresh hc F hW o ho hm ht (scf_fresh h)

/-- C120 (repeating) is false for a limit of at most one: no pass is made, and the object keeps the energies and the
chemical potential of the calculation before, beside the density of the bare nuclei. -/
theorem C120_refuted_maxiter (F : Functionals G p) (W : Workers G r c p) (o : Options K) (hm : o.maxiter ≤ 1)
    {a b : KS G r c p} {log : List (Fl K × Fl K)} (h : scf F W o a = .ok (b, log)) :
    b.E = a.E ∧ b.u = a.u ∧ (o.continuing = false → b.vhxc = some fun _ _ => 0) := by
  unfold scf run at h
  rw [show (o.maxiter - 1).toNat = 0 by omega] at h
  simp only [Py.do_eq_ok, Py.pure_eq_ok] at h
  obtain ⟨s, hs, ⟨st, l⟩, hl, h⟩ := h
  obtain ⟨rfl, rfl⟩ := Prod.mk.inj h
  have e : st.ks = s := by
    unfold loop at hl
    split at hl
    · obtain ⟨rfl, -⟩ := Prod.mk.inj (Except.ok.inj hl)
      rfl
    · split at hl
      · cases hl
      · obtain ⟨rfl, -⟩ := Prod.mk.inj (Except.ok.inj hl)
        rfl
  rw [e]
  unfold start at hs
  cases ho : o.continuing
  · simp only [ho, Bool.false_eq_true, if_false, Py.do_eq_ok, Py.pure_eq_ok] at hs
    obtain ⟨m, hm, ⟨x, nout⟩, hx, rfl⟩ := hs
    unfold KS.setEffectivePotential at hm
    simp only [Py.do_eq_ok, Py.pure_eq_ok] at hm
    obtain ⟨_, e1, _, e2, s, hs, rfl⟩ := hm
    unfold KS.calcDensity at hx
    simp only [Py.do_eq_ok, Py.pure_eq_ok] at hx
    obtain ⟨s, hs, m, -, h⟩ := hx
    obtain ⟨rfl, -⟩ := Prod.mk.inj h
    exact ⟨rfl, rfl, fun _ => rfl⟩
  · simp only [ho, if_true, Py.do_eq_ok, Py.pure_eq_ok] at hs
    obtain ⟨n, hn, rfl⟩ := hs
    exact ⟨rfl, rfl, fun h => by cases h⟩

namespace Sample120

/-- Two non-interacting electrons on the two-point grid. -/
def ks : KS (Grid.tiny ℚ) 1 1 1 :=
  ⟨.ni, false, 1, 2, 1 / 2, fun _ => ⟨1, 2, 0, 1, false, false, none, none, none⟩,
    fun _ _ => -1, none, none, none, none, none, none, {}, none, none, none, fun _ => none⟩

/-- `calc_orbitals` finds the eigenvalue 3, `iter_orbitals` the better value 2. -/
def W : Workers (Grid.tiny ℚ) 1 1 1 := fun _ it _ => some ([if it then 2 else 3], some [fun _ => 1])

theorem ownData : OwnData W := ⟨fun _ _ _ _ => rfl, fun _ _ _ _ => rfl⟩

def F : Functionals (Grid.tiny ℚ) 1 :=
  ⟨fun _ => .error .valueError, fun _ => .error .valueError, fun _ => .error .valueError⟩

/-- Options: continuing or not, iterative or not, limit. -/
def o (cont it : Bool) (m : ℤ) : Options ℚ := ⟨cont, it, false, false, m, 1 / 1000, 1 / 2⟩

/-- The part of a result that is looked at: chemical potential, energy and the number of passes. -/
def seen (x : Py (KS (Grid.tiny ℚ) 1 1 1 × List (Fl ℚ × Fl ℚ))) : Option (Option ℚ × Option (Fl ℚ) × ℕ) :=
  x.toOption.map fun y => (y.1.u, y.1.E.map KSEnergy.E, y.2.length)

/-- One calculation after another. -/
def thenRun (o1 o2 : Options ℚ) : Py (KS (Grid.tiny ℚ) 1 1 1 × List (Fl ℚ × Fl ℚ)) := do
  let x ← scf F W o1 ks
  scf F W o2 x.1

theorem returns {α : Type} {x : Py α} (h : x.toOption.isSome = true) : ∃ a, x = .ok a := by
  cases x
  · cases h
  · exact ⟨_, rfl⟩

end Sample120

open Sample120

/-- C120 (continuing) is false with `iterative`: the calculation that is interrupted after one pass goes on with
`iter_orbitals` at once, the uninterrupted one with `calc_orbitals`.  Two passes in both, and a different energy. -/
theorem C120_refuted_iterative : ∃ (W : Workers (Grid.tiny ℚ) 1 1 1) (o : Options ℚ), OwnData W ∧
    ∃ ks₁ ks₂ ks₃ log₁ log₂ log₃, scf F W o ks = .ok (ks₁, log₁) ∧
      scf F W { o with continuing := true } ks₁ = .ok (ks₂, log₂) ∧ scf F W { o with maxiter := 3 } ks = .ok (ks₃, log₃) ∧
      log₃.length = log₁.length + log₂.length ∧ ks₃.u = some 3 ∧ ks₂.u = some 2 := by
  refine ⟨W, o false true 2, ownData, ?_⟩
  obtain ⟨⟨ks₁, log₁⟩, h₁⟩ := returns (x := scf F W (o false true 2) ks) (by decide +kernel)
  obtain ⟨⟨ks₂, log₂⟩, h₂⟩ := returns (x := thenRun (o false true 2) (o true true 2)) (by decide +kernel)
  obtain ⟨⟨ks₃, log₃⟩, h₃⟩ := returns (x := scf F W (o false true 3) ks) (by decide +kernel)
  have e₁ : (seen (scf F W (o false true 2) ks)).map (fun x => x.2.2) = some 1 := by decide +kernel
  have e₂ : (seen (thenRun (o false true 2) (o true true 2))).map (fun x => (x.1, x.2.2)) = some (some 2, 1) := by decide +kernel
  have e₃ : (seen (scf F W (o false true 3) ks)).map (fun x => (x.1, x.2.2)) = some (some 3, 2) := by decide +kernel
  rw [h₁] at e₁
  rw [h₂] at e₂
  rw [h₃] at e₃
  simp only [seen, Except.toOption, Option.map_some, Option.some.injEq, Prod.mk.injEq] at e₁ e₂ e₃
  unfold thenRun at h₂
  rw [h₁] at h₂
  exact ⟨ks₁, ks₂, ks₃, log₁, log₂, log₃, h₁, h₂, h₃, by omega, e₃.1, e₂.1⟩

/-- C120: without `iterative` the interrupted and continued calculation is the uninterrupted one; a continued calculation that
has converged makes two more passes; a repeated one gives the same; with the limit 1 the energy of the first remains. -/
example : seen (thenRun (o false false 2) (o true false 2)) = some (some 3, some (.fin 8), 1) ∧
    seen (scf F W (o false false 3) ks) = some (some 3, some (.fin 8), 2) ∧
    seen (thenRun (o false false 30) (o true false 30)) = some (some 3, some (.fin 8), 2) ∧
    seen (thenRun (o true true 30) (o false true 30)) = none ∧
    seen (thenRun (o false true 30) (o false true 30)) = some (some 3, some (.fin 8), 2) ∧
    seen (thenRun (o false true 30) (o false true 1)) = some (some 3, some (.fin 8), 0) ∧
    seen (scf F W (o false true 1) ks) = some (none, none, 0) := by
  refine ⟨?_, ?_, ?_, ?_, ?_, ?_, ?_⟩ <;> decide +kernel

/-- C120: the hypotheses of `C120_repeat` hold for this calculation. -/
example : ∃ b log, scf F W (o false true 30) ks = .ok (b, log) ∧ scf F W (o false true 30) b = .ok (b, log) := by
  obtain ⟨⟨b, log⟩, h⟩ := returns (x := scf F W (o false true 30) ks) (by decide +kernel)
  refine ⟨b, log, h, ?_⟩
  rw [C120_repeat le_rfl F ownData (o false true 30) _ rfl (by decide) (by simp only [o]; norm_num) h, h]

end Verif
