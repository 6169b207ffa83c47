import Verif.Model.InverterApi
import Verif.Lemmas.Solver
import Verif.Lemmas.Grid
import Mathlib.Tactic.NormNum

/-!
# C59 - C61, C68: inversion methods, kinetic energies, Wu-Yang residual, kinetic potential
-/

namespace Verif
open Inv

/-! ## C59 -/

/-- C59 (partial), dispatch: three of the six accepted names reach a method, every other string is
rejected. -/
theorem C59_dispatch_partial :
    (∀ v ∈ ["wuyang", "simple", "orbitalinvert"], validate v = .ok v ∧ ∃ m, dispatch v = .ok m) ∧
    (∀ v, validate v = .error .valueError → dispatch v = .error .valueError) ∧
    (∀ v, validate v = .ok v ∨ validate v = .error .valueError) := by
  refine ⟨fun v hv => ?_, fun v h => ?_, fun v => ?_⟩
  · simp only [List.mem_cons, List.not_mem_nil, or_false] at hv
    rcases hv with rfl | rfl | rfl
    · exact ⟨rfl, .linresponse, rfl⟩
    · exact ⟨rfl, .simple, rfl⟩
    · exact ⟨rfl, .orbitalinvert, rfl⟩
  · unfold validate at h
    split at h
    · exact nomatch h
    · next hv =>
      simp only [accepted, List.mem_cons, List.not_mem_nil, or_false, not_or] at hv
      obtain ⟨h1, h2, h3, h4, h5, h6⟩ := hv
      simp only [dispatch, h1, h2, h3, h4, h5, h6, if_false]
  · unfold validate
    split
    · exact .inl rfl
    · exact .inr rfl

/-- Three accepted names lead to `AttributeError`. -/
theorem C59_refuted_dispatch : ∀ v ∈ ["qinvert", "eigensolveinvert", "test"],
    validate v = .ok v ∧ dispatch v = .error .attributeError := by decide

section
variable {K : Type} [Field K] [LinearOrder K] [IsStrictOrderedRing K] [FloorRing K] {G : Grid K} {r c : ℕ}

/-- C59 (partial), Wu-Yang for a density with one column: the potential found by `least_squares` and the
chemical potential of the first solver are stored. -/
theorem C59_wuyang_partial (lsq : Lsq G r c) (t t' : Table G r c) (n0 v x : G.Fld) (vs0 : Option (List G.Fld))
    (ispin : ℕ) (hv : (t 0 0).veff = some v ∨ (t 0 0).veff = none ∧ vs0 = some [v])
    (hl : lsq 0 t v = .ok (t', x)) (u : K) (hu : (t' 0 0).getHomo = .ok u) :
    invertWuYang lsq false t [n0] vs0 ispin = .ok ⟨t', [x], .row [u]⟩ := by
  have hs : startPotential t vs0 = .ok [v] := by
    rcases hv with h | ⟨h, h'⟩
    · simp [startPotential, h]
    · simp [startPotential, h, h']
  have htop : ∀ t : Table G r c, top t 0 = .ok (t 0 0) := fun t => by simp [top]
  have h0 : ∀ y : G.Fld, pyGet [y] 0 = .ok y := fun y => rfl
  simp only [invertWuYang, linresponse, hs, bind, Except.bind, pure, Except.pure, List.map_cons, List.map_nil,
    List.length_singleton, Bool.false_eq_true, if_false, show List.range 1 = [0] from rfl, List.foldlM_cons,
    List.foldlM_nil, lrSpin, htop, Nat.cast_zero, h0, hl, hu, setRow, if_true, List.set_cons_zero]

/-- `setRow` never works for the second spin. -/
theorem lrSpin_second (lsq : Lsq G r c) (vs0 : List G.Fld) (s s' : Table G r c × List G.Fld × List K) (i : ℕ) :
    lrSpin lsq vs0 s (i + 1) ≠ .ok s' := by
  intro h
  simp only [lrSpin, bind, Except.bind] at h
  split at h
  · exact nomatch h
  split at h
  · exact nomatch h
  split at h
  · exact nomatch h
  split at h
  · exact nomatch h
  split at h
  · exact nomatch h
  split at h
  · exact nomatch h
  simp [setRow] at h

/-- A two-column density is never inverted by the Wu-Yang method without `ens_spin_sym`, whatever the
solvers, the start potential and the answers of `least_squares`: `self.us` has one row only. -/
theorem C59_refuted_two_spins (lsq : Lsq G r c) (t : Table G r c) (n0 : List G.Fld) (hn : n0.length = 2)
    (vs0 : Option (List G.Fld)) (ispin : ℕ) (st : State G r c) :
    invertWuYang lsq false t n0 vs0 ispin ≠ .ok st := by
  intro h
  simp only [invertWuYang, linresponse, bind, Except.bind, hn, Bool.false_eq_true, if_false,
    show List.range 2 = [0, 1] from rfl, List.foldlM_cons, List.foldlM_nil] at h
  split at h
  · exact nomatch h
  split at h
  · exact nomatch h
  · next s hs =>
    split at hs
    · exact nomatch hs
    split at hs
    · exact nomatch hs
    · next s1 _ s2 hs2 => exact lrSpin_second _ _ _ _ 0 hs2

/-- The spin index is ignored: asking for spin 1 inverts with the solvers of spin 0. -/
theorem C59_refuted_ispin (lsq : Lsq G r c) (ens : Bool) (t : Table G r c) (n0 : List G.Fld)
    (vs0 : Option (List G.Fld)) (i j : ℕ) :
    invertWuYang lsq ens t n0 vs0 i = invertWuYang lsq ens t n0 vs0 j := rfl

/-- Without a start potential the Wu-Yang method raises `NameError` instead of building its own. -/
theorem C59_refuted_guess (lsq : Lsq G r c) (ens : Bool) (t : Table G r c) (n0 : List G.Fld) (i : ℕ)
    (h : (t 0 0).veff = none) : invertWuYang lsq ens t n0 none i = .error .nameError := by
  simp [invertWuYang, linresponse, startPotential, h, bind, Except.bind]

/-- `simple` raises for every 2-d density and for every solver that already has a potential. -/
theorem C59_refuted_simple (t : Table G r c) :
    (∀ d, d ≠ 1 → simpleStart d t = .error .unboundLocalError) ∧
    (∀ v, (t 0 0).veff = some v → simpleStart 1 t = .error .attributeError) ∧
    ((t 0 0).veff = none → simpleStart 1 t = .ok ()) := by
  refine ⟨fun d hd => by simp [simpleStart, hd], fun v hv => by simp [simpleStart, hv],
    fun hv => by simp [simpleStart, hv]⟩

/-- With `ens_spin_sym`, a density with one column, and two spins in the table: potential and chemical
potential are stored for both spins, and the first solver of the second spin gets the potential. -/
theorem C59_ens (lsq : Lsq G r (c + 1)) (t t' : Table G r (c + 1)) (n0 v x : G.Fld)
    (vs0 : Option (List G.Fld)) (ispin : ℕ)
    (hv : (t 0 0).veff = some v ∨ (t 0 0).veff = none ∧ vs0 = some [v])
    (hl : lsq 0 t v = .ok (t', x)) (u : K) (hu : (t' 0 0).getHomo = .ok u) :
    ∃ st, invertWuYang lsq true t [n0] vs0 ispin = .ok st ∧ st.vs = [x, x] ∧ st.us = .row [u, u] ∧
      (st.solver 0 1).veff = some x ∧ ∀ i j, ¬ (i = 0 ∧ j = 1) → st.solver i j = t' i j := by
  have hs : startPotential t vs0 = .ok [v] := by
    rcases hv with h | ⟨h, h'⟩
    · simp [startPotential, h]
    · simp [startPotential, h, h']
  have h1 : 1 < c + 1 + 1 := by omega
  have e : (⟨1, h1⟩ : Fin (c + 1 + 1)) = 1 := rfl
  have h0 : ∀ y : G.Fld, pyGet [y] 0 = .ok y := fun y => rfl
  have h0' : ∀ y z : G.Fld, pyGet [y, z] 0 = .ok y := fun y z => rfl
  simp only [invertWuYang, linresponse, hs, bind, Except.bind, pure, Except.pure, List.map_cons, List.map_nil,
    if_true, lrEns, h0, hl, hu, setRow, List.set_cons_zero, dif_pos h1, List.cons_append, List.nil_append, h0', e]
  refine ⟨_, rfl, rfl, rfl, ?_, fun i j hij => ?_⟩
  · simp
  · simp [hij]

example : ∃ st, invertWuYang (fun _ t v => .ok (t, fun k => v k + 1)) false
    (fun (_ : Fin 1) (_ : Fin 1) => (⟨1, 2, 0, 1, false, false, none, some [-3], some fun _ => 5⟩ :
      Solver (Grid.tiny ℚ))) [fun _ => 1] none 0 = .ok st ∧ st.vs = [fun _ => 6] := by
  refine ⟨_, C59_wuyang_partial (v := fun _ => 5) _ _ _ _ _ _ _ (.inl rfl) rfl (-3) (by decide +kernel), ?_⟩
  simp only [List.cons.injEq, and_true]
  funext k
  norm_num

/-! ## C68: the kinetic potential -/

/-- C68 (partial).  `get_vt` is the chemical potential minus the potential, spin by spin, for the `(1,p)`
array of chemical potentials the Wu-Yang method leaves. -/
theorem C68_vt_partial (u : List K) (vs : List G.Fld) (h : u.length = vs.length) :
    ∃ vt, getVt (.row u) vs = .ok vt ∧ vt.length = vs.length ∧
      ∀ j (hu : j < u.length) (hv : j < vs.length) (ht : j < vt.length) k, vt[j] k = u[j] - vs[j] k := by
  refine ⟨List.zipWith (fun a v => fun k => a - v k) u vs, by simp [getVt, h], by simp [h],
    fun j hu hv ht k => by simp⟩

/-- After `orbitalinvert` the chemical potential is stored at one grid point only: with a non-zero
chemical potential `get_vt` misses it everywhere else. -/
theorem C68_refuted : ∃ us, setPoint (G := Grid.tiny ℚ) [fun _ => 0] 0 (-3) = .ok us ∧
    ∃ vt, getVt (.full us) [fun _ => -5] = .ok [vt] ∧ vt 0 = -3 - (-5) ∧ vt 1 ≠ -3 - (-5) := by
  refine ⟨_, rfl, _, rfl, ?_, ?_⟩ <;> decide +kernel

/-- With chemical potential 0 (the case of `C67_converged`) the result is right everywhere. -/
theorem C68_zero (vs : G.Fld) (ispin : ℕ) (hi : ispin < G.Na * G.Nr) :
    ∃ us, setPoint [(fun _ => 0 : G.Fld)] ispin 0 = .ok us ∧
      getVt (.full us) [vs] = .ok [fun k => 0 - vs k] := by
  refine ⟨[fun _ => 0], ?_, rfl⟩
  simp [setPoint, hi]

/-! ## C60 -/

theorem calcEnergy_Ts (s : Solver G) (E : Solver.Energy K) (n : G.Fld) (h : s.calcEnergy = .ok (E, n)) :
    ∃ T, E.Ts = .fin T := by
  simp only [Solver.calcEnergy, bind, Except.bind] at h
  split at h
  · exact nomatch h
  split at h
  · exact nomatch h
  split at h
  · exact nomatch h
  · obtain rfl := (Prod.ext_iff.1 (Except.ok.inj h)).1
    exact ⟨_, rfl⟩

theorem foldlM_add {ι : Type} (l : List ι) (f : ι → Py (Fl K)) (g : ι → K) (h : ∀ i ∈ l, f i = .ok (.fin (g i)))
    (a : K) : l.foldlM (fun (T : Fl K) i => do let x ← f i; pure (Fl.add T x)) (.fin a) =
      (.ok (.fin (a + (l.map g).sum)) : Py (Fl K)) := by
  induction l generalizing a with
  | nil => simp; rfl
  | cons i l ih =>
    simp only [List.foldlM_cons, h i (by simp), bind, Except.bind, pure, Except.pure, Fl.add_fin]
    have := ih (fun j hj => h j (by simp [hj])) (a + g i)
    simp only [bind, Except.bind, pure, Except.pure] at this
    rw [this]
    simp [add_assoc]

/-- C60, `get_Ts`: the sum of the kinetic energies of all solvers; with `ens_spin_sym` twice the sum over
the first spin. -/
theorem C60_Ts (t : Table G r c) (T : Fin (r + 1) → Fin (c + 1) → K)
    (hE : ∀ i j, ∃ E n, (t i j).calcEnergy = .ok (E, n) ∧ E.Ts = .fin (T i j)) :
    getTs false t = .ok (.fin (∑ i, ∑ j, T i j)) ∧ getTs true t = .ok (.fin (2 * ∑ i, T i 0)) := by
  constructor
  · have inner : ∀ i (a : K), (List.finRange (c + 1)).foldlM (fun (Ts : Fl K) j => do
        let E ← (t i j).calcEnergy
        pure (Fl.add Ts E.1.Ts)) (.fin a) = (.ok (.fin (a + ∑ j, T i j)) : Py (Fl K)) := fun i a => by
      have := foldlM_add (List.finRange (c + 1)) (fun j => do let E ← (t i j).calcEnergy; pure E.1.Ts) (T i)
        (fun j _ => by
          obtain ⟨E, n, h1, h2⟩ := hE i j
          simp [h1, h2, bind, Except.bind, pure, Except.pure]) a
      rw [List.sum_ofFn.symm, List.ofFn_eq_map, ← this]
      congr 1
      funext Ts j
      obtain ⟨E, n, h1, h2⟩ := hE i j
      simp [h1, bind, Except.bind, pure, Except.pure]
    have outer : ∀ (l : List (Fin (r + 1))) (a : K), l.foldlM (fun (Ts : Fl K) i =>
        (List.finRange (c + 1)).foldlM (fun (Ts : Fl K) j => do
          let E ← (t i j).calcEnergy
          pure (Fl.add Ts E.1.Ts)) Ts) (.fin a) =
        (.ok (.fin (a + (l.map fun i => ∑ j, T i j).sum)) : Py (Fl K)) := fun l => by
      induction l with
      | nil => intro a; simp; rfl
      | cons i l ih =>
        intro a
        rw [List.foldlM_cons, inner i a]
        change List.foldlM _ _ l = _
        rw [ih]
        simp [add_assoc]
    rw [getTs, if_neg (by simp), outer, zero_add, ← List.ofFn_eq_map, List.sum_ofFn]
  · have := foldlM_add (List.finRange (r + 1))
      (fun i => do let E ← (t i 0).calcEnergy; pure (Fl.mul (.fin 2) E.1.Ts)) (fun i => 2 * T i 0)
      (fun i _ => by
        obtain ⟨E, n, h1, h2⟩ := hE i 0
        simp [h1, h2, bind, Except.bind, pure, Except.pure]) 0
    rw [zero_add, ← List.ofFn_eq_map, List.sum_ofFn, ← Finset.mul_sum] at this
    rw [getTs, if_pos rfl, ← this]
    congr 1
    funext Ts i
    obtain ⟨E, n, h1, h2⟩ := hE i 0
    simp [h1, bind, Except.bind, pure, Except.pure]

end
end Verif
