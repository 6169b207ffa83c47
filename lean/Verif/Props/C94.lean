import Verif.Model.InvertMolecule
import Verif.Props.C67
import Verif.Props.C53_C54

/-!
# C94: inversions of the spins are independent, and failures are noticed
-/

namespace Verif
open OrbInv InvMol

variable {G : Grid ℝ} {c : ℕ} (O : (M : ℕ) → Oracle G M) (o : OrbInv.Options ℝ) (H0 : Matrix G.Ix G.Ix ℝ)

/-- `vs` and `us` of the inverter, zero before the first call. -/
def InvMol.State.arr (st : InvMol.State G c) : (Fin (c + 1) → G.Fld) × (Fin (c + 1) → G.Fld) :=
  st.arrays.getD (fun _ _ => 0, fun _ _ => 0)

theorem InvMol.store_ok {st st' : InvMol.State G c} {j : Fin (c + 1)} {out : Outcome G}
    (h : store st j out = .ok st') : j.1 < G.Na * G.Nr ∧
    st'.solver = Function.update st.solver j out.solver ∧
    st'.arrays = some (Function.update st.arr.1 j out.vs, fun i k => if k.1 = j.1 then out.us else st.arr.2 i k) ∧
    st'.cls = some ⟨out.nfev, out.optimality⟩ := by
  unfold store at h
  by_cases hj : j.1 < G.Na * G.Nr
  · simp only [if_pos hj, Except.ok.injEq] at h
    subst h
    exact ⟨hj, rfl, rfl, rfl⟩
  · simp only [if_neg hj] at h
    exact nomatch h

theorem InvMol.store_exists (st : InvMol.State G c) (j : Fin (c + 1)) (out : Outcome G) (hj : j.1 < G.Na * G.Nr) :
    ∃ st', store st j out = .ok st' := by
  unfold store
  simp only [if_pos hj]
  exact ⟨_, rfl⟩

theorem InvMol.invert_ok {n0 : G.Fld} {g : Guess G} {st : InvMol.State G c} {j : Fin (c + 1)}
    {p : InvMol.State G c × List Cell} (h : invert O o H0 n0 g st j = .ok p) :
    ∃ out, alone O o H0 (st.solver j) n0 g = .ok out ∧ store st j out = .ok p.1 ∧ p.2 = [.cls] := by
  simp only [invert, Py.do_eq_ok, Py.pure_eq_ok] at h
  obtain ⟨out, h1, st', h2, rfl⟩ := h
  exact ⟨out, h1, h2, rfl⟩

/-- The loop over a list of different spins: every spin of the list ends with the outcome of its own
inversion, started from what the solver of that spin was before the loop; the others keep theirs. -/
theorem InvMol.each_ok {nf : Fin (c + 1) → G.Fld} {g : Fin (c + 1) → Guess G} :
    ∀ (l : List (Fin (c + 1))) (s p : InvMol.State G c × List Cell), l.Nodup → each O o H0 nf g l s = .ok p →
    ∃ out : Fin (c + 1) → Outcome G,
      (∀ j ∈ l, alone O o H0 (s.1.solver j) (target nf j) (g j) = .ok (out j)) ∧
      (∀ j ∈ l, p.1.solver j = (out j).solver ∧ p.1.arr.1 j = (out j).vs ∧
        ∀ i k, k.1 = j.1 → p.1.arr.2 i k = (out j).us) ∧
      (∀ j, j ∉ l → p.1.solver j = s.1.solver j ∧ p.1.arr.1 j = s.1.arr.1 j) ∧
      (∀ i k, (∀ j ∈ l, k.1 ≠ j.1) → p.1.arr.2 i k = s.1.arr.2 i k) ∧
      (l ≠ [] → p.1.arrays.isSome) ∧
      (∀ j, l.getLast? = some j → p.1.cls = some ⟨(out j).nfev, (out j).optimality⟩ ∧ p.2 = [.cls])
  | [], s, p, _, h => by
    simp only [each, List.foldlM_nil, Py.pure_eq_ok] at h
    subst h
    have : Nonempty (Outcome G) := ⟨⟨false, 0, .nan, 0, 0, s.1.solver 0, 0⟩⟩
    exact ⟨fun _ => Classical.arbitrary _, by simp, by simp, by simp, by simp, by simp, by simp⟩
  | j0 :: l, s, p, hl, h => by
    simp only [each, List.foldlM_cons, Py.do_eq_ok] at h
    obtain ⟨s1, h1, h⟩ := h
    obtain ⟨out0, ha, hs, hc⟩ := invert_ok O o H0 h1
    obtain ⟨hj, hsol, harr, hcls⟩ := store_ok hs
    obtain ⟨hn, hl⟩ := List.nodup_cons.1 hl
    obtain ⟨out, e1, e2, e3, e4, e5, e6⟩ := each_ok l s1 p hl h
    have hne : ∀ j ∈ l, j ≠ j0 := fun j hj e => hn (e ▸ hj)
    have harr' : s1.1.arr = (Function.update s.1.arr.1 j0 out0.vs,
        fun i k => if k.1 = j0.1 then out0.us else s.1.arr.2 i k) := by
      rw [State.arr, harr]; rfl
    refine ⟨Function.update out j0 out0, ?_, ?_, ?_, ?_, ?_, ?_⟩
    · intro j hj'
      by_cases e : j = j0
      · subst e; rw [Function.update_self]; exact ha
      · have hjl : j ∈ l := (List.mem_cons.1 hj').resolve_left e
        rw [Function.update_of_ne e, ← e1 j hjl, hsol, Function.update_of_ne e]
    · intro j hj'
      by_cases e : j = j0
      · subst e
        rw [Function.update_self, (e3 j hn).1, (e3 j hn).2, hsol, harr', Function.update_self]
        refine ⟨rfl, Function.update_self .., fun i k hk => ?_⟩
        rw [e4 i k fun j' hj' e' => hne j' hj' (Fin.ext (e'.symm.trans hk)), harr']
        exact if_pos hk
      · have hjl : j ∈ l := (List.mem_cons.1 hj').resolve_left e
        rw [Function.update_of_ne e]
        exact e2 j hjl
    · intro j hj'
      obtain ⟨e, hjl⟩ := not_or.1 (fun h => hj' (List.mem_cons.2 h))
      rw [(e3 j hjl).1, (e3 j hjl).2, hsol, harr']
      exact ⟨Function.update_of_ne e .., Function.update_of_ne e ..⟩
    · intro i k hk
      rw [e4 i k fun j' hj' => hk j' (List.mem_cons_of_mem _ hj'), harr']
      exact if_neg (hk j0 List.mem_cons_self)
    · intro _
      cases l with
      | nil =>
        simp only [List.foldlM_nil, Py.pure_eq_ok] at h
        subst h; rw [harr]; rfl
      | cons a l => exact e5 (List.cons_ne_nil _ _)
    · intro j hj'
      cases l with
      | nil =>
        simp only [List.foldlM_nil, Py.pure_eq_ok] at h
        subst h
        obtain rfl : j0 = j := by simpa using hj'
        rw [Function.update_self]
        exact ⟨hcls, hc⟩
      | cons a l =>
        rw [List.getLast?_cons_cons] at hj'
        rw [Function.update_of_ne (hne j (List.mem_of_getLast? hj'))]
        exact e6 j hj'

theorem InvMol.copy_first {α : Type*} (f : Fin 2 → α) (h : 1 < 2) (j : Fin 2) :
    Function.update f (⟨1, h⟩ : Fin 2) (f 0) j = f 0 := by
  match j with
  | 0 => exact Function.update_of_ne (Fin.ne_of_val_ne (by norm_num)) ..
  | 1 => exact Function.update_self ..

/-- The HOMO of a filled solver is 0 (C67), so that the row written into `us` holds 0. -/
theorem InvMol.alone_us {s : Solver G} {n0 : G.Fld} {g : Guess G} {out : Outcome G} (hm : s.m = 0)
    (hN : s.N = s.scale * s.Nmo) (h : alone O o H0 s n0 g = .ok out) :
    out.us = 0 ∧ out.solver.veff = some out.vs := by
  unfold alone at h
  split at h
  · exact nomatch h
  · rename_i M hM
    simp only [Py.do_eq_ok] at h
    obtain ⟨X, -, h⟩ := h
    obtain ⟨-, -, h1, h2, -⟩ := C67_converged (O M) o s H0 n0 X hm hM (by rw [hN, hM]; push_cast; ring) out h
    exact ⟨h1, h2⟩

/-- C94, start of an inversion: a solver with orbitals `phi` starts from these (with the opposite sign), its own
eigenvalues and its own potential, whatever guess the caller hands over; a solver without orbitals starts from the
guess; a solver without room for orbitals raises. -/
theorem C94_start (s : Solver G) (n0 : G.Fld) :
    (s.Nmo = 0 → ∀ g, alone O o H0 s n0 g = .error .valueError) ∧
    ∀ (M : ℕ) (phi : Fin (M + 1) → G.Fld) (eig : Fin (M + 1) → ℝ) (v : G.Fld), s.Nmo = M + 1 →
      (s.phi = some (List.ofFn phi) → s.eig = some (List.ofFn eig) → s.veff = some v →
        ∃ X, Spec.Encodes (Spec.at' X) (fun i k => -phi i k) (fun i => eig i.castSucc - eig (Fin.last M))
          (fun k => v k - eig (Fin.last M)) ∧
        ∀ g, alone O o H0 s n0 g = orbitalinvert (O M) o s H0 n0 X) ∧
      (s.phi = none → ∃ X, Spec.Encodes (Spec.at' X) phi (fun i => eig i.castSucc - eig (Fin.last M))
          (fun k => v k - eig (Fin.last M)) ∧
        ∀ phi0 : List ℝ, (∀ (i : Fin (M + 1)) (k : G.Ix), phi0[i.1 * (G.Na * G.Nr) + k.1]? = some (phi i k)) →
          phi0.length = (M + 1) * (G.Na * G.Nr) →
          alone O o H0 s n0 ⟨phi0, List.ofFn eig, v⟩ = orbitalinvert (O M) o s H0 n0 X) := by
  constructor
  · intro h g
    unfold alone
    split
    · rfl
    · rename_i M hM
      omega
  · intro M phi eig v hM
    constructor
    · intro h1 h2 h3
      refine ⟨fromSolver phi eig v, (C53_roundtrip phi eig v).2.2.2, fun g => ?_⟩
      have hi : initial (M := M) s g = .ok (fromSolver phi eig v) := by
        unfold initial
        rw [h1]
        simp only [h2, h3, KS.need, bind, Except.bind, List.length_ofFn, and_self, if_true, pure, Except.pure]
        congr 2
        · funext i; rw [List.getD, List.getElem?_ofFn, dif_pos i.2]; rfl
        · funext i; rw [List.getD, List.getElem?_ofFn, dif_pos i.2]; rfl
      unfold alone
      split
      · omega
      · rename_i M' hM'
        obtain rfl : M = M' := by omega
        rw [hi]
        rfl
    · intro h1
      refine ⟨pack phi eig v, (C53_roundtrip phi eig v).1, fun phi0 hp hl => ?_⟩
      have he : phi0 = List.ofFn (flat phi) := by
        refine List.ext_getElem? fun t => ?_
        by_cases ht : t < (M + 1) * (G.Na * G.Nr)
        · set x := finProdFinEquiv.symm (⟨t, ht⟩ : Fin ((M + 1) * (G.Na * G.Nr))) with hx
          have hval : x.1.1 * (G.Na * G.Nr) + x.2.1 = t := by
            have := congrArg Fin.val (finProdFinEquiv.apply_symm_apply (⟨t, ht⟩ : Fin ((M + 1) * (G.Na * G.Nr))))
            rw [← hx] at this
            simp only [finProdFinEquiv_apply_val] at this
            rw [← this]
            ring
          rw [← hval, hp]
          have hlt : x.1.1 * (G.Na * G.Nr) + x.2.1 < (M + 1) * (G.Na * G.Nr) := by omega
          rw [List.getElem?_ofFn, dif_pos hlt]
          have hy : finProdFinEquiv.symm (⟨x.1.1 * (G.Na * G.Nr) + x.2.1, hlt⟩ : Fin ((M + 1) * (G.Na * G.Nr))) = x := by
            rw [Equiv.symm_apply_eq]
            exact Fin.ext (by rw [finProdFinEquiv_apply_val]; dsimp only; ring)
          have h1 := congrArg Prod.fst hy
          have h2 := congrArg Prod.snd hy
          exact congrArg some (by unfold flat; exact (congrArg₂ (fun a b => phi a b) h1 h2).symm)
        · rw [List.getElem?_eq_none (by omega), List.getElem?_eq_none (by simp; omega)]
      have hi : initial (M := M) s ⟨phi0, List.ofFn eig, v⟩ = .ok (pack phi eig v) := by
        unfold initial
        rw [h1, he]
        exact C66_guess_partial phi eig v
      unfold alone
      split
      · omega
      · rename_i M' hM'
        obtain rfl : M = M' := by omega
        rw [hi]
        rfl

/-- C94 (partial).  When the inversions of the promolecular density by 'orbitalinvert' go through, every
spin column of the solvers, of `vs` and of `V.vt` is the result of the inversion of that spin alone, started
from that spin's solver (the second column is a copy of the first with `ens_spin_sym`); the kinetic
potential is minus the potential, for solvers whose orbitals are fully occupied, started with `us = 0`.
What is reported, however, is the inversion of the last spin only. -/
theorem C94_spins_partial (ens : Bool) (nf : Fin (c + 1) → G.Fld) (g : Fin (c + 1) → Guess G) (hc : c ≤ 1)
    (st st' : InvMol.State G c) (vt : Fin (c + 1) → G.Fld) (info : List Cell)
    (hs : ∀ j, (st.solver j).m = 0 ∧ (st.solver j).N = (st.solver j).scale * (st.solver j).Nmo)
    (hu : ∀ vs us, st.arrays = some (vs, us) → ∀ j k, us j k = 0)
    (h : InvMol.run O o H0 ens nf g st = .ok (st', vt, info)) :
    ∃ out : Fin (c + 1) → Outcome G,
      (∀ j, let i := if ens then 0 else j
        alone O o H0 (st.solver i) (target nf i) (g i) = .ok (out j) ∧
        st'.solver j = (out j).solver ∧ (∃ vs us, st'.arrays = some (vs, us) ∧ vs j = (out j).vs ∧ us j = 0) ∧
        ∀ k, vt j k = -(out j).vs k) ∧
      (∀ x ∈ info, x.read st'.cls = .ok ⟨(out (Fin.last c)).nfev, (out (Fin.last c)).optimality⟩) ∧
      info.length = 1 := by
  have hA : ∀ j k, st.arr.2 j k = 0 := by
    intro j k
    unfold State.arr
    cases ha : st.arrays with
    | none => rfl
    | some a => exact hu a.1 a.2 ha j k
  simp only [InvMol.run, Py.do_eq_ok] at h
  obtain ⟨s, h1, h⟩ := h
  cases ens with
  | false =>
    simp only [Bool.false_eq_true, if_false, Py.do_eq_ok, Py.pure_eq_ok, Prod.mk.injEq] at h
    obtain ⟨st1, rfl, v1, h3, rfl, rfl, rfl⟩ := h
    obtain ⟨out, e1, e2, -, e4, e5, e6⟩ := each_ok O o H0 _ _ _ (List.nodup_finRange _) h1
    have hlast : (spins false c).getLast? = some (Fin.last c) := by
      simp [spins, List.finRange_succ_last]
    have hus : ∀ i k, s.1.arr.2 i k = 0 := by
      intro i k
      by_cases hk : ∀ j ∈ spins false c, k.1 ≠ j.1
      · rw [e4 i k hk]; exact hA i k
      · push Not at hk
        obtain ⟨j, hj, hk⟩ := hk
        rw [(e2 j hj).2.2 i k hk]
        exact (alone_us O o H0 (hs j).1 (hs j).2 (e1 j hj)).1
    obtain ⟨⟨vs, us⟩, harr⟩ := Option.isSome_iff_exists.1 (e5 (by simp))
    have harr' : s.1.arr = (vs, us) := by rw [State.arr, harr]; rfl
    rw [getVt, harr] at h3
    simp only [Except.ok.injEq] at h3
    subst h3
    rw [harr'] at hus e2
    have hmem : ∀ j, j ∈ spins false c := fun j => by simp [spins]
    refine ⟨out, fun j => ⟨e1 j (hmem j), (e2 j (hmem j)).1, ⟨vs, us, harr, (e2 j (hmem j)).2.1, funext (hus j)⟩,
      fun k => ?_⟩, ?_, ?_⟩
    · have h2 := (e2 j (hmem j)).2.1
      have h3 := hus j k
      simp only at h2 h3
      simp only [h2, h3, zero_sub]
    · obtain ⟨h6, h7⟩ := e6 _ hlast
      rw [h7]
      intro x hx
      obtain rfl := List.mem_singleton.1 hx
      rw [Cell.read, h6]; rfl
    · rw [(e6 _ hlast).2]; rfl
  | true =>
    simp only [if_true, Py.do_eq_ok, Py.pure_eq_ok, Prod.mk.injEq] at h
    obtain ⟨st1, h2, v1, h3, rfl, rfl, rfl⟩ := h
    simp only [copySpin] at h2
    obtain ⟨out, e1, e2, e3, e4, e5, e6⟩ := each_ok O o H0 _ _ _ (by simp [spins]) h1
    have h0 : (0 : Fin (c + 1)) ∈ spins true c := by simp [spins]
    split at h2
    swap
    · exact nomatch h2
    rename_i hc1
    obtain rfl : c = 1 := by omega
    obtain ⟨⟨vs, us⟩, harr⟩ := Option.isSome_iff_exists.1 (e5 (by simp [spins]))
    have harr' : s.1.arr = (vs, us) := by rw [State.arr, harr]; rfl
    rw [harr] at h2
    simp only [Except.ok.injEq] at h2
    subst h2
    simp only [getVt, Except.ok.injEq] at h3
    subst h3
    have hus : ∀ i k, us i k = 0 := by
      intro i k
      have hus' : s.1.arr.2 i k = 0 := by
        by_cases hk : ∀ j ∈ spins true 1, k.1 ≠ j.1
        · rw [e4 i k hk]; exact hA i k
        · push Not at hk
          obtain ⟨j, hj, hk⟩ := hk
          rw [(e2 j hj).2.2 i k hk]
          exact (alone_us O o H0 (hs j).1 (hs j).2 (e1 j hj)).1
      rwa [harr'] at hus'
    have hvs : vs 0 = (out 0).vs := by have := (e2 0 h0).2.1; rwa [harr'] at this
    have hv : ∀ j : Fin 2, Function.update vs (⟨1, hc1⟩ : Fin 2) (vs 0) j = (out 0).vs := fun j =>
      (copy_first vs hc1 j).trans hvs
    have hv2 : ∀ j : Fin 2, Function.update us (⟨1, hc1⟩ : Fin 2) (us 0) j = fun _ => 0 := fun j =>
      (copy_first us hc1 j).trans (funext (hus 0))
    have hlast : (spins true 1).getLast? = some 0 := rfl
    refine ⟨fun _ => out 0, fun j => ⟨e1 0 h0, ?_, ⟨_, _, rfl, hv j, hv2 j⟩, fun k => ?_⟩, ?_, ?_⟩
    · exact (copy_first s.1.solver hc1 j).trans (e2 0 h0).1
    · change Function.update us (⟨1, hc1⟩ : Fin 2) (us 0) j k - Function.update vs (⟨1, hc1⟩ : Fin 2) (vs 0) j k = _
      rw [hv j, hv2 j, zero_sub]
    · obtain ⟨h6, h7⟩ := e6 _ hlast
      rw [h7]
      intro x hx
      obtain rfl := List.mem_singleton.1 hx
      rw [Cell.read, h6]; rfl
    · rw [(e6 _ hlast).2]; rfl

/-! ## The refutation: a failed inversion of the first spin goes unnoticed -/

namespace InvMol

/-- One spin-polarised solver with one electron on two grid points. -/
noncomputable def sampleSolver : Solver (Grid.tiny ℝ) := ⟨1, 1, 0, 2, false, false, none, none, none⟩

/-- Orbital `(1,1)`, eigenvalue 0, potential 1. -/
noncomputable def sampleGuess : Guess (Grid.tiny ℝ) := ⟨[1, 1], [0], fun _ => 1⟩

/-- Off-diagonal Hamiltonian for which the guess solves the Kohn-Sham equation. -/
noncomputable def sampleH0 : Matrix (Grid.tiny ℝ).Ix (Grid.tiny ℝ).Ix ℝ := fun k l => if k = l then 0 else -1

/-- Options with a single pass allowed. -/
noncomputable def sampleOptions : OrbInv.Options ℝ := ⟨false, false, false, 1 / 1000, 1, 1⟩

theorem sample_alone (O : (M : ℕ) → Oracle (Grid.tiny ℝ) M) (t : ℝ) : ∃ out,
    alone O sampleOptions sampleH0 sampleSolver (fun _ => t) sampleGuess = .ok out ∧ out.nfev = 1 ∧
    out.optimality = .fin (|1 - t| / 2) ∧ out.vs = fun _ => 1 := by
  have hw : wwi (Grid.tiny ℝ) = fun _ => 1 := by
    funext k; simp [wwi]
  obtain ⟨X, hXd⟩ : ∃ X : Unk ℝ ((Grid.tiny ℝ).Na * (Grid.tiny ℝ).Nr) 0, X = fun _ => 1 := ⟨_, rfl⟩
  have hX : ∀ j, X j = 1 := fun j => by rw [hXd]
  have hinit : initial (M := 0) sampleSolver sampleGuess = .ok X := by
    change fromGuess [1, 1] [0] (fun _ => 1) = .ok X
    simp only [fromGuess]
    rw [show pyGet [(0 : ℝ)] (-1) = .ok 0 from rfl, show pyGet [(0 : ℝ)] ((0 : ℕ) : ℤ) = .ok 0 from rfl]
    simp only [bind, Except.bind]
    rw [if_neg (by change ¬ (2 : ℕ) < 1 * 2; norm_num)]
    refine congrArg Except.ok (unk_ext (fun i k => ?_) (fun i => i.elim0) fun k => ?_)
    · obtain rfl : i = 0 := Fin.fin_one_eq_zero i
      rw [stack_phiIx, hX]
      revert k
      change ∀ k : Fin 2, [(1 : ℝ), 1].getD (finProdFinEquiv ((0 : Fin 1), k)).1 0 = 1
      intro k
      fin_cases k <;> rfl
    · simp [hX]
  have htr : trunc (1 : ℝ) = 1 := by simp [trunc]
  have hocc : occupations [sampleSolver] = .ok [2] := by
    have h1 : occupationOf sampleSolver = .ok [2] := by
      simp [occupationOf, sampleSolver, htr]
    simp [occupations, h1, bind, Except.bind, pure, Except.pure, pyGet]
    simp [sampleSolver]
  have hn : ∀ i, wnorm (fun _ => 1) X i = 2 := fun i => by
    simp only [wnorm, phiOf, hX]
    rw [Grid.tiny_sum]
    norm_num
  obtain ⟨occ, hocc'⟩ : ∃ occ : Fin (0 + 1) → ℝ, occ = fun i => [(2 : ℝ)].getD i.1 0 := ⟨_, rfl⟩
  have ho2 : ∀ i, occ i = 2 := fun i => by
    obtain rfl : i = 0 := Fin.fin_one_eq_zero i
    rw [hocc']; rfl
  have htidy : tidy (G := Grid.tiny ℝ) false occ X = .ok X := by
    change OrbInv.normalize (wwi (Grid.tiny ℝ)) occ X = .ok X
    rw [hw, OrbInv.normalize, if_pos fun i => by rw [hn, ho2]; norm_num]
    refine congrArg Except.ok (unk_ext (fun i k => ?_) (by simp) (by simp))
    simp only [stack_phiIx, flat_pair, hn, ho2]
    norm_num [phiOf]
  obtain ⟨H, hH⟩ : ∃ H, H = blockH (M := 0) fun k l =>
      (2 * (Grid.tiny ℝ).pi * (Grid.tiny ℝ).hr * (Grid.tiny ℝ).ha * (Grid.tiny ℝ).wi k) * sampleH0 k l := ⟨_, rfl⟩
  have hks : ∀ u, eqn (wwi (Grid.tiny ℝ)) H (fun _ => t) occ X (Fin.castAdd _ u) = 0 := by
    intro u
    have h1 := (C65_zero_iff (n0 := fun _ => 1) (wwi (Grid.tiny ℝ)) occ (fun k l =>
      (2 * (Grid.tiny ℝ).pi * (Grid.tiny ℝ).hr * (Grid.tiny ℝ).ha * (Grid.tiny ℝ).wi k) * sampleH0 k l)
        (fun k => by rw [hw]; norm_num) X).2 ⟨fun i k => ?_, fun k => ?_, fun i => i.elim0⟩
    · have h2 := congrFun h1 (Fin.castAdd _ u)
      rw [← hH] at h2
      simpa only [eqn, stack, Fin.append_left, Pi.zero_apply] using h2
    · obtain rfl : i = 0 := Fin.fin_one_eq_zero i
      have h0 : evalsOf X 0 = 0 := evalsOf_last X
      simp only [hw, phiOf, potOf, hX, h0]
      rw [Grid.tiny_sum]
      have : ∀ k : Fin 2, (if k = 0 then (0 : ℝ) else -1) + (if k = 1 then (0 : ℝ) else -1) = -1 := by
        intro k; fin_cases k <;> norm_num
      have := this k
      simp only [sampleH0]
      norm_num
      change ((if (k : Fin 2) = 0 then (0 : ℝ) else -1) + if (k : Fin 2) = 1 then (0 : ℝ) else -1) + 1 = 0
      rw [this]; norm_num
    · simp only [phiOf, hX]
      norm_num
  have hpot : ∀ k, eqn (wwi (Grid.tiny ℝ)) H (fun _ => t) occ X (potIx k) = (1 - t) / 2 := by
    intro k
    rw [eqn_pot, hw]
    simp [phiOf, hX]
  have hconst : ∀ (n : ℕ) (x : ℝ), maxAbs (fun _ : Fin (n + 1) => x) = |x| := fun n x => by
    refine le_antisymm ((Finset.fold_max_le _).2 ⟨abs_nonneg _, by simp⟩)
      ((Finset.le_fold_max _).2 (.inr ⟨0, Finset.mem_univ _, le_rfl⟩))
  have hres : residuals H (fun _ => t) occ X = (.fin 0, .fin (|1 - t| / 2)) := by
    rw [residuals]
    simp only [hks, hpot]
    have h1 := hconst 1 0
    have h2 := hconst 1 ((1 - t) / 2)
    rw [abs_zero] at h1
    rw [abs_div, abs_two] at h2
    exact congrArg₂ (fun a b => (Fl.fin a, Fl.fin b)) h1 h2
  have hmax : Fl.pymax (.fin (0 : ℝ)) (.fin (|1 - t| / 2)) = .fin (|1 - t| / 2) := by
    simp only [Fl.pymax]
    split
    · rfl
    · rename_i h
      have h1 : ¬ (0 : ℝ) < |1 - t| / 2 := by simpa [Fl.gt] using h
      have h2 : (0 : ℝ) ≤ |1 - t| / 2 := by positivity
      rw [le_antisymm (not_lt.1 h1) h2]
  obtain ⟨q, hq1, hq2⟩ : ∃ q, OrbInv.run sampleOptions (residuals H (fun _ => t) occ)
      (renew (O 0) sampleOptions H (fun _ => t) occ) X = .ok q ∧
      q = ⟨X, 1, .fin (|1 - t| / 2), [(.fin 0, .fin (|1 - t| / 2))]⟩ := by
    refine ⟨_, ?_, rfl⟩
    rw [OrbInv.run, loop_eq, hres, hmax, show (sampleOptions.maxIter - 1).toNat = 0 from rfl]
    split <;> rfl
  have hint : ∀ i, (Grid.tiny ℝ).integ (fun k => phiOf q.X i k ^ 2) = 2 := fun i => by
    rw [Grid.tiny_integ, hq2]
    simp only [phiOf, hX]
    norm_num
  have hN : (1 : ℝ) = Solver.scale (⟨1, 1, 0, 2, false, false, some (List.ofFn (phiOf q.X)),
      some (List.ofFn (evalsOf q.X)), none⟩ : Solver (Grid.tiny ℝ)) * ((0 : ℕ) + 1) := by
    simp [Solver.scale]
  have hh := filled_homo (M := 0) (⟨1, 1, 0, 2, false, false, some (List.ofFn (phiOf q.X)),
    some (List.ofFn (evalsOf q.X)), none⟩ : Solver (Grid.tiny ℝ)) hN (evalsOf q.X) rfl
  have hd := filled_density (M := 0) (⟨1, 1, 0, 2, false, false, some (List.ofFn (phiOf q.X)),
    some (List.ofFn (evalsOf q.X)), none⟩ : Solver (Grid.tiny ℝ)) hN (phiOf q.X) rfl hint
  obtain ⟨out, h1, h2, h3, h4⟩ : ∃ out, finish sampleSolver sampleOptions q = .ok out ∧ out.nfev = 1 ∧
      out.optimality = .fin (|1 - t| / 2) ∧ out.vs = fun _ => 1 := by
    simp only [finish, sampleSolver, hh, hd, bind, Except.bind, pure, Except.pure]
    refine ⟨_, rfl, ?_, ?_, ?_⟩
    · simp [hq2]
    · simp [hq2]
    · funext k
      simp [hq2, potOf, hX]
  refine ⟨out, ?_, h2, h3, h4⟩
  change (do
    let X ← initial (M := 0) sampleSolver sampleGuess
    orbitalinvert (O 0) sampleOptions sampleSolver sampleH0 (fun _ => t) X) = _
  rw [hinit]
  change orbitalinvert (O 0) sampleOptions sampleSolver sampleH0 (fun _ => t) X = _
  unfold orbitalinvert
  rw [hocc]
  simp only [bind, Except.bind]
  rw [← hocc', ← hH, show sampleOptions.abSym = false from rfl, htidy]
  simp only
  rw [hq1]
  exact h1

end InvMol

theorem InvMol.check_one (i : Info) (n : ℕ) (x : Cell) (cls : Option Info) (hx : x.read cls = .ok i) :
    check cls n [x] =
    if Fl.gt i.optimality (.fin 1) = true then (if 1 < n + 1 then .error .systemExit else .ok (n + 1)) else .ok 0 := by
  simp only [check, List.foldlM_cons, List.foldlM_nil, hx, PartScf.failures, bind, Except.bind, pure, Except.pure]
  by_cases h : Fl.gt i.optimality (.fin 1) = true
  · simp only [h, if_true]
    by_cases h' : 1 < n + 1
    · simp only [if_pos h']
    · simp only [if_neg h']
  · simp only [h]
    rfl

/-- C94 refuted.  Two spins, one inversion pass allowed.  The inversion of the first spin fails (residual
`99/2`), that of the second succeeds.  Everything `inversion_info` and the object returned by the first call
say afterwards is the result of the second; two such passes in a row are not noticed. -/
theorem C94_refuted_info (O : (M : ℕ) → Oracle (Grid.tiny ℝ) M) :
    ∃ (nf : Fin 2 → (Grid.tiny ℝ).Fld) (st1 st2 : InvMol.State (Grid.tiny ℝ) 1) (ret1 ret2 : List Cell),
      invert O sampleOptions sampleH0 (target nf 0) sampleGuess ⟨fun _ => sampleSolver, none, none⟩ 0 =
        .ok (st1, ret1) ∧
      ret1.mapM (Cell.read st1.cls) = .ok [⟨1, .fin (99 / 2)⟩] ∧
      invert O sampleOptions sampleH0 (target nf 1) sampleGuess st1 1 = .ok (st2, ret2) ∧
      ret1.mapM (Cell.read st2.cls) = .ok [⟨1, .fin 0⟩] ∧
      (∃ vt, InvMol.run O sampleOptions sampleH0 false nf (fun _ => sampleGuess)
        ⟨fun _ => sampleSolver, none, none⟩ = .ok (st2, vt, ret2)) ∧
      (do let n ← check st2.cls 0 ret2; check st2.cls n ret2) = .ok 0 := by
  obtain ⟨out1, a1, b1, c1, -⟩ := sample_alone O 100
  obtain ⟨out2, a2, b2, c2, -⟩ := sample_alone O 1
  have n1 : |(1 : ℝ) - 100| / 2 = 99 / 2 := by norm_num [abs_of_neg]
  rw [n1] at c1
  rw [sub_self, abs_zero, zero_div] at c2
  let nf : Fin 2 → (Grid.tiny ℝ).Fld := fun j _ => if j = 0 then 50 else 1 / 2
  have t0 : target nf 0 = fun _ => 100 := by funext k; simp [target, nf]; norm_num
  have t1 : target nf 1 = fun _ => 1 := by funext k; simp [target, nf]
  have hlt : ∀ j : Fin 2, j.1 < (Grid.tiny ℝ).Na * (Grid.tiny ℝ).Nr := fun j => j.2
  let st0 : InvMol.State (Grid.tiny ℝ) 1 := ⟨fun _ => sampleSolver, none, none⟩
  obtain ⟨st1, e1⟩ : ∃ st1, store st0 0 out1 = .ok st1 := store_exists _ _ _ (hlt 0)
  obtain ⟨-, s1, -, k1⟩ := store_ok e1
  obtain ⟨st2, e2⟩ : ∃ st2, store st1 1 out2 = .ok st2 := store_exists _ _ _ (hlt 1)
  obtain ⟨-, -, r2, k2⟩ := store_ok e2
  have i1 : invert O sampleOptions sampleH0 (target nf 0) sampleGuess st0 0 = .ok (st1, [.cls]) := by
    rw [invert, t0, show st0.solver 0 = sampleSolver from rfl, a1]
    change (do let st ← store st0 0 out1; pure (st, [Cell.cls])) = _
    rw [e1]; rfl
  have i2 : invert O sampleOptions sampleH0 (target nf 1) sampleGuess st1 1 = .ok (st2, [.cls]) := by
    have : st1.solver 1 = sampleSolver := by rw [s1]; rfl
    rw [invert, t1, this, a2]
    change (do let st ← store st1 1 out2; pure (st, [Cell.cls])) = _
    rw [e2]; rfl
  rw [b1, c1] at k1
  rw [b2, c2] at k2
  refine ⟨nf, st1, st2, [.cls], [.cls], i1, ?_, i2, ?_, ?_, ?_⟩
  · rw [k1]; rfl
  · rw [k2]; rfl
  · have he : each O sampleOptions sampleH0 nf (fun _ => sampleGuess) (spins false 1) (st0, []) = .ok (st2, [.cls]) := by
      have : spins false 1 = [0, 1] := by decide
      rw [each, this, List.foldlM_cons, i1]
      simp only [bind, Except.bind]
      rw [List.foldlM_cons, i2]; rfl
    obtain ⟨vt, hvt⟩ : ∃ vt, getVt st2 = .ok vt := by
      rw [getVt, r2]; exact ⟨_, rfl⟩
    refine ⟨vt, ?_⟩
    rw [InvMol.run, he]
    change (do let vt ← getVt st2; pure (st2, vt, [Cell.cls])) = _
    rw [hvt]; rfl
  · have : check st2.cls 0 [.cls] = .ok 0 := by
      rw [check_one ⟨1, .fin 0⟩ 0 .cls st2.cls (by rw [k2]; rfl), if_neg (by simp [Fl.gt])]
    rw [this]
    exact this

/-! ## Stopping after two failures -/

/-- The checks of successive passes, one list of cells and class attributes per pass. -/
noncomputable def InvMol.checks (n : ℕ) (l : List (Option Info × List Cell)) : Py ℕ :=
  l.foldlM (fun n x => check x.1 n x.2) n

/-- C94 (partial): with one inversion per pass the calculation is stopped (`SystemExit`) exactly when the
inversions of two passes in a row left a residual above 1. -/
theorem C94_stop_partial (l : List Info) :
    InvMol.checks 0 (l.map fun i => (some i, [.cls])) = .error .systemExit ↔
    ∃ a b i j, l = a ++ i :: j :: b ∧ Fl.gt i.optimality (.fin 1) = true ∧ Fl.gt j.optimality (.fin 1) = true := by
  have key : ∀ (l : List Info) (n : ℕ), n ≤ 1 →
      (InvMol.checks n (l.map fun i => (some i, [.cls])) = .error .systemExit ↔
        (n = 1 ∧ ∃ j b, l = j :: b ∧ Fl.gt j.optimality (.fin 1) = true) ∨
        ∃ a b i j, l = a ++ i :: j :: b ∧ Fl.gt i.optimality (.fin 1) = true ∧
          Fl.gt j.optimality (.fin 1) = true) := by
    intro l
    induction l with
    | nil =>
      intro n hn
      refine ⟨fun h => (nomatch h), ?_⟩
      rintro (⟨-, j, b, h, -⟩ | ⟨a, b, i, j, h, -⟩)
      · exact nomatch h
      · simp at h
    | cons x l ih =>
      intro n hn
      have hcons : InvMol.checks n ((x :: l).map fun i => (some i, [.cls])) =
          check (some x) n [.cls] >>= fun n => InvMol.checks n (l.map fun i => (some i, [.cls])) := by
        rw [List.map_cons, InvMol.checks, List.foldlM_cons]; rfl
      rw [hcons, check_one x n .cls (some x) rfl]
      have hsplit : (∃ a b i j, x :: l = a ++ i :: j :: b ∧ Fl.gt i.optimality (.fin 1) = true ∧
          Fl.gt j.optimality (.fin 1) = true) ↔
          (Fl.gt x.optimality (.fin 1) = true ∧ ∃ j b, l = j :: b ∧ Fl.gt j.optimality (.fin 1) = true) ∨
          ∃ a b i j, l = a ++ i :: j :: b ∧ Fl.gt i.optimality (.fin 1) = true ∧
          Fl.gt j.optimality (.fin 1) = true := by
        constructor
        · rintro ⟨a, b, i, j, h, hi, hj⟩
          cases a with
          | nil =>
            obtain ⟨rfl, rfl⟩ := List.cons.inj h
            exact .inl ⟨hi, j, b, rfl, hj⟩
          | cons y a =>
            obtain ⟨rfl, rfl⟩ := List.cons.inj h
            exact .inr ⟨a, b, i, j, rfl, hi, hj⟩
        · rintro (⟨hi, j, b, rfl, hj⟩ | ⟨a, b, i, j, rfl, hi, hj⟩)
          · exact ⟨[], b, x, j, rfl, hi, hj⟩
          · exact ⟨x :: a, b, i, j, rfl, hi, hj⟩
      rw [hsplit]
      by_cases h : Fl.gt x.optimality (.fin 1) = true
      · rw [if_pos h]
        by_cases hn1 : n = 1
        · subst hn1
          rw [if_pos (by norm_num)]
          exact ⟨fun _ => .inl ⟨rfl, x, l, rfl, h⟩, fun _ => rfl⟩
        · obtain rfl : n = 0 := by omega
          rw [if_neg (by norm_num)]
          change InvMol.checks 1 (l.map fun i => (some i, [.cls])) = _ ↔ _
          rw [ih 1 le_rfl]
          simp [h]
      · rw [if_neg h]
        change InvMol.checks 0 (l.map fun i => (some i, [.cls])) = _ ↔ _
        rw [ih 0 (by omega)]
        constructor
        · rintro (⟨h0, -⟩ | h')
          · exact absurd h0 (by norm_num)
          · exact .inr (.inr h')
        · rintro (⟨-, j, b, he, hj⟩ | ⟨h', -⟩ | h')
          · obtain ⟨rfl, rfl⟩ := List.cons.inj he
            exact absurd hj h
          · exact absurd h' h
          · exact .inr h'
  simpa using key l 0 (by norm_num)

/-- C94 refuted for 'wuyang'.  With solvers for two values of `m` a single failed inversion stops the
calculation, since the result is stored once per `m` and counted each time.  With two spin columns the check
raises for every result, since the column of the second spin is never filled. -/
theorem C94_refuted_wuyang (res : Info) :
    (Fl.gt res.optimality (.fin 1) = true → check none 0 (lrOutput 1 0 res) = .error .systemExit) ∧
    ∀ r c, check none 0 (lrOutput r (c + 1) res) = .error .attributeError := by
  have hcons : ∀ n x l, check none n (x :: l) = check none n [x] >>= fun n => check none n l := by
    intro n x l
    simp only [check, List.foldlM_cons, List.foldlM_nil, bind_pure]
  refine ⟨fun hf => ?_, fun r c => ?_⟩
  · change check none 0 [.lsq res, .lsq res] = _
    rw [hcons, check_one res 0 _ none rfl, if_pos hf, if_neg (by norm_num)]
    change check none 1 [.lsq res] = _
    rw [check_one res 1 _ none rfl, if_pos hf, if_pos (by norm_num)]
  · have : ∃ l, lrOutput r (c + 1) res = .lsq res :: .none :: l := by
      simp [lrOutput, List.range_succ_eq_map]
    obtain ⟨l, hl⟩ := this
    rw [hl, hcons, check_one res 0 _ none rfl]
    have h2 : ∀ n, check none n (.none :: l) = .error .attributeError := fun n => rfl
    split
    · rw [if_neg (by norm_num)]; exact h2 1
    · exact h2 0

/-- What is displayed for an inversion is its number of evaluations and its residual, however often the
result is stored. -/
theorem C94_display (i : Info) (n : ℕ) (hi : 1 ≤ i.nfev) :
    shown (List.replicate (n + 1) i) = (i.nfev, i.optimality) := by
  have hstep : ∀ n, (List.replicate n i).foldl (fun s i => (if i.nfev < s.1 then s.1 else i.nfev,
      if Fl.gt s.2 (.fin (i.nfev : ℝ)) then s.2 else i.optimality)) (i.nfev, i.optimality) =
      (i.nfev, i.optimality) := by
    intro n
    induction n with
    | zero => rfl
    | succ n ih =>
      rw [List.replicate_succ, List.foldl_cons]
      simpa using ih
  have h1 : ¬ ((i.nfev : ℝ) < 1 / 10 ^ 16) := by
    have : (1 : ℝ) ≤ i.nfev := by exact_mod_cast hi
    have h2 : (1 : ℝ) / 10 ^ 16 ≤ 1 := by norm_num
    linarith
  rw [shown, List.replicate_succ, List.foldl_cons]
  have h2 : Fl.gt (.fin (1 / 10 ^ 16)) (.fin (i.nfev : ℝ)) = false := by
    simpa [Fl.gt] using h1
  simp only [h2, Nat.not_lt_zero, if_false]
  exact hstep n

/-- Residuals 3, 1/2, 2, 5: stopped after the fourth pass. -/
example : InvMol.checks 0 (([3, 1 / 2, 2, 5] : List ℝ).map fun x => (some ⟨7, .fin x⟩, [.cls])) =
    .error .systemExit := by
  have := (C94_stop_partial [⟨7, .fin 3⟩, ⟨7, .fin (1 / 2)⟩, ⟨7, .fin 2⟩, ⟨7, .fin 5⟩]).2
    ⟨[⟨7, .fin 3⟩, ⟨7, .fin (1 / 2)⟩], [], ⟨7, .fin 2⟩, ⟨7, .fin 5⟩, rfl, by simp [Fl.gt], by simp [Fl.gt]⟩
  exact this

end Verif
