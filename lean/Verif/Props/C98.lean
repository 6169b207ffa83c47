import Verif.Props.C67

/-!
# C98: the steps of `orbitalinvert`
-/

namespace Verif
open OrbInv

namespace Spec
section
variable {K : Type} [Field K] [LinearOrder K] {S : Type}

/-- The residuals `(res_ks, res_ncon)` suggest that the iteration goes round in circles.  `past` holds
those of the earlier passes, the latest first; `ref` is the pass whose `res_ks` is the lower reference. -/
def circling (ref : K × K → K × K → K) (now : K × K) : List (K × K) → Prop
  | last :: older :: _ => max now.1 now.2 < 1 / 10 ^ 6 ∧ ref last older / 10 < now.1 ∧ now.1 < 10 * older.1 ∧
      older.2 / 10 < now.2 ∧ now.2 < 10 * older.2
  | _ => False

/-- When a Newton step is due. -/
def NewtonDue (ref : K × K → K × K → K) (tol factor : K) (avoid : Bool) (past : List (K × K)) (now : K × K) : Prop :=
  factor * now.1 < now.2 ∨ now.1 < 100 * tol ∨ (avoid = true ∧ circling ref now past)

open Classical in
/-- The iteration, told by the list of all residuals so far: stop when converged or out of passes, stop
after the next step when the residual exceeds 100. -/
noncomputable def inversion (ref : K × K → K × K → K) (tol factor : K) (avoid : Bool) (resid : S → K × K)
    (step : Bool → S → Py S) : ℕ → List (K × K) → S → Py (S × List (K × K))
  | left, past, X =>
    let now := resid X
    if max now.1 now.2 < tol then .ok (X, now :: past)
    else match left with
      | 0 => .ok (X, now :: past)
      | left + 1 => do
        let X' ← step (decide (NewtonDue ref tol factor avoid past now)) X
        if 100 < max now.1 now.2 then .ok (X', now :: past)
        else inversion ref tol factor avoid resid step left (now :: past) X'

end

/-- The linear solver solves. -/
def SolvesLinear {G : Grid ℝ} {M : ℕ} (O : Oracle G M) : Prop :=
  ∀ A b d, O.solve A b = .ok d → ∀ r, ∑ j, A r j * d j = b r

/-- The eigensolver solves `(A + w v) phi = e w phi`. -/
def SolvesEigen {G : Grid ℝ} {M : ℕ} (O : Oracle G M) (w : G.Fld) (A : Matrix G.Ix G.Ix ℝ) : Prop :=
  ∀ p e v q f, O.orbitals p e v = .ok (q, f) →
    ∀ i k, (∑ l, A k l * q i l) + w k * v k * q i k = f i * (w k * q i k)

end Spec
open Spec

section Loop
variable {K : Type} [Field K] [LinearOrder K] [IsStrictOrderedRing K] {S : Type}

/-- The history the code keeps, from the list of earlier residuals. -/
structure Remembers (avoid : Bool) (past : List (K × K)) (h : Hist K) : Prop where
  force : past.length ≤ 2 → h.force = false
  off : avoid = false → h.force = false
  now : avoid = true → ∀ a l, past = a :: l → h.ks = .fin a.1 ∧ h.ncon = .fin a.2
  old : avoid = true → ∀ a b l, past = a :: b :: l → h.oldKs = .fin b.1 ∧ h.oldNcon = .fin b.2

theorem pymax_fin (a b : K) : Fl.pymax (.fin a) (.fin b) = .fin (max a b) := by
  simp only [Fl.pymax, Fl.gt_fin, decide_eq_true_eq]
  split
  · next h => rw [max_eq_right h.le]
  · next h => rw [max_eq_left (not_lt.1 h)]

theorem remembers_next (avoid : Bool) (past : List (K × K)) (h : Hist K) (H : Remembers avoid past h) (r : K × K) :
    Remembers avoid (r :: past) (h.next avoid (past.length + 1) (.fin r.1) (.fin r.2)) ∧
    ((h.next avoid (past.length + 1) (.fin r.1) (.fin r.2)).force = true ↔
      avoid = true ∧ circling (fun last _ => last.1) r past) := by
  cases avoid with
  | false =>
    refine ⟨⟨fun _ => ?_, fun _ => ?_, (fun h => nomatch h), (fun h => nomatch h)⟩, ?_⟩ <;>
      simp [Hist.next, H.off rfl]
  | true =>
    match past, H with
    | [], H => 
      have hf := H.force (by simp)
      refine ⟨⟨fun _ => ?_, (fun h => nomatch h), fun _ a l h => ?_, fun _ a b l h => ?_⟩, ?_⟩
      · simp [Hist.next, hf]
      · obtain ⟨rfl, rfl⟩ := List.cons.inj h; simp [Hist.next]
      · simp at h
      · simp [Hist.next, hf, circling]
    | [a], H =>
      have hf := H.force (by simp)
      obtain ⟨h1, h2⟩ := H.now rfl a [] rfl
      refine ⟨⟨fun _ => ?_, (fun h => nomatch h), fun _ a l h => ?_, fun _ a b l h => ?_⟩, ?_⟩
      · simp [Hist.next, hf]
      · obtain ⟨rfl, rfl⟩ := List.cons.inj h; simp [Hist.next]
      · simp only [List.cons.injEq] at h
        obtain ⟨rfl, rfl, rfl⟩ := h
        simp [Hist.next, h1, h2]
      · simp [Hist.next, hf, circling]
    | a :: b :: l, H =>
      obtain ⟨h1, h2⟩ := H.now rfl a _ rfl
      obtain ⟨h3, h4⟩ := H.old rfl a b _ rfl
      refine ⟨⟨fun h => ?_, (fun h => nomatch h), fun _ a l h => ?_, fun _ a b l h => ?_⟩, ?_⟩
      · simp only [List.length_cons] at h; omega
      · obtain ⟨rfl, rfl⟩ := List.cons.inj h; simp [Hist.next]
      · simp only [List.cons.injEq] at h
        obtain ⟨rfl, rfl, rfl⟩ := h
        simp [Hist.next, h1, h2]
      · simp only [Hist.next, List.length_cons, Bool.true_and, pymax_fin, h1, h3, h4, Fl.mul_fin, Fl.gt_fin,
          circling, true_and]
        rw [if_pos (by simp), if_pos (by simp)]
        simp only [h1, h3, h4, Fl.mul_fin, Fl.gt_fin, Bool.and_eq_true, decide_eq_true_eq, and_assoc]
        rw [mul_one_div, mul_one_div, mul_comm b.1, mul_comm b.2]

omit [IsStrictOrderedRing K] in
theorem next_ks (avoid : Bool) (iter : ℕ) (h : Hist K) (ks ncon : Fl K) :
    (h.next avoid iter ks ncon).ks = ks ∧ (h.next avoid iter ks ncon).ncon = ncon := ⟨rfl, rfl⟩

theorem loop_history (o : Options K) (resid : S → K × K) (step : Bool → S → Py S) (left : ℕ) :
    ∀ (past : List (K × K)) (h : Hist K) (X : S), Remembers o.avoidLoop past h →
    ((loop o (fun X => (.fin (resid X).1, .fin (resid X).2)) step left (past.length + 1) h X).map
      fun q => (q.X, q.iter, q.res, past.reverse.map (fun r => (Fl.fin r.1, Fl.fin r.2)) ++ q.log)) =
    (inversion (fun last _ => last.1) o.tol o.resFactor o.avoidLoop resid step left past X).map
      fun q => (q.1, q.2.length, (match q.2 with | r :: _ => Fl.fin (max r.1 r.2) | [] => .nan),
        q.2.reverse.map fun r => (Fl.fin r.1, Fl.fin r.2)) := by
  induction left with
  | zero =>
    intro past h X H
    rw [loop_eq, inversion]
    simp only [pymax_fin, Fl.gt_fin, decide_eq_true_eq]
    split <;> simp [Except.map]
  | succ left ih =>
    intro past h X H
    obtain ⟨H1, H2⟩ := remembers_next _ _ _ H (resid X)
    rw [loop_eq, inversion]
    simp only [pymax_fin, Fl.gt_fin, decide_eq_true_eq]
    have hn : newton o (h.next o.avoidLoop (past.length + 1) (.fin (resid X).1) (.fin (resid X).2)) =
        (open Classical in decide (NewtonDue (fun last _ => last.1) o.tol o.resFactor o.avoidLoop past (resid X))) := by
      rw [Bool.eq_iff_iff]
      simp only [newton, next_ks, Fl.mul_fin, Fl.gt_fin, Bool.or_eq_true, decide_eq_true_eq, H2, NewtonDue]
      rw [mul_comm (resid X).1, mul_comm o.tol, or_assoc]
      exact (@decide_eq_true_iff _ (_)).symm
    split
    · simp [Except.map]
    · rw [hn]
      simp only [bind, Except.bind]
      cases hs : step _ X with
      | error e => simp [Except.map]
      | ok X' =>
        simp only
        split
        · simp [Except.map]
        · have := ih (resid X :: past) _ X' H1
          rw [← this]
          simp only [List.length_cons]
          cases loop o (fun X => (Fl.fin (resid X).1, Fl.fin (resid X).2)) step left (past.length + 1 + 1)
            (h.next o.avoidLoop (past.length + 1) (Fl.fin (resid X).1) (Fl.fin (resid X).2)) X' <;>
            simp [Except.map, pure, Except.pure]

/-- C98 (partial).  Which step a pass makes depends on its residuals and, with `avoid_loop`, on those of
the two passes before it: a Newton step when `res_ncon > res_factor*res_ks`, when
`res_ks < 100*tol_invert`, or (from the third pass on) when both residuals are below `1e-6`, less than ten
times and more than a tenth of those two passes earlier, except that `res_ks` has to exceed a tenth of
the value one pass earlier. -/
theorem C98_choice_partial (o : Options K) (resid : S → K × K) (step : Bool → S → Py S) (X : S) :
    (run o (fun X => (.fin (resid X).1, .fin (resid X).2)) step X).map
      (fun q => (q.X, q.iter, q.log)) =
    (inversion (fun last _ => last.1) o.tol o.resFactor o.avoidLoop resid step (o.maxIter - 1).toNat [] X).map
      fun q => (q.1, q.2.length, q.2.reverse.map fun r => (Fl.fin r.1, Fl.fin r.2)) := by
  have := loop_history o resid step (o.maxIter - 1).toNat [] Hist.start X
    ⟨fun _ => rfl, fun _ => rfl, fun _ _ _ h => by simp at h, fun _ _ _ _ h => by simp at h⟩
  have h2 := congrArg (Except.map fun q : S × ℕ × Fl K × List (Fl K × Fl K) => (q.1, q.2.1, q.2.2.2)) this
  simp only [run]
  revert h2
  simp only [List.length_nil, zero_add]
  cases loop o (fun X => (Fl.fin (resid X).1, Fl.fin (resid X).2)) step (o.maxIter - 1).toNat 1 Hist.start X <;>
    cases inversion (fun last _ => last.1) o.tol o.resFactor o.avoidLoop resid step (o.maxIter - 1).toNat [] X <;>
    simp [Except.map]

/-- The two states of a cycle (0 and 1) and the solution (2), with their residuals. -/
def cycleResiduals : Fin 3 → ℚ × ℚ := ![(1 / 10 ^ 8, 1 / 10 ^ 7), (9 / 10 ^ 7, 1 / 10 ^ 7), (0, 0)]

/-- Orbital steps change between the states, a Newton step finds the solution. -/
def cycleStep (b : Bool) (x : Fin 3) : Py (Fin 3) := .ok (if b then 2 else ![1, 0, 2] x)

/-- A cycle of length two is not recognised when it comes round: pass 3 has exactly the residuals of pass
1, all below `1e-6`, but another orbital step is made and the budget of four passes is used up. -/
theorem C98_refuted : (∃ q : Result ℚ (Fin 3),
      run ⟨false, false, true, 1 / 10 ^ 12, 4, 100⟩
        (fun x => (.fin (cycleResiduals x).1, .fin (cycleResiduals x).2)) cycleStep 0 = .ok q ∧
      q.X = 1 ∧ q.iter = 4 ∧ q.log[2]? = q.log[0]? ∧
      flag ⟨false, false, true, 1 / 10 ^ 12, 4, 100⟩ q = false) ∧
    NewtonDue (fun _ older => older.1) (1 / 10 ^ 12) 100 true [cycleResiduals 1, cycleResiduals 0] (cycleResiduals 0) ∧
    ¬ NewtonDue (fun last _ => last.1) (1 / 10 ^ 12) 100 true [cycleResiduals 1, cycleResiduals 0] (cycleResiduals 0) :=
  ⟨⟨⟨1, 4, .fin (9 / 10 ^ 7), [0, 1, 0, 1].map fun x => (.fin (cycleResiduals x).1, .fin (cycleResiduals x).2)⟩,
    by decide +kernel, rfl, rfl, by decide +kernel, by decide +kernel⟩,
    by simp only [NewtonDue, circling]; decide +kernel, by simp only [NewtonDue, circling]; decide +kernel⟩

/-- The other phase of the cycle is recognised: started in state 1 the Newton step is made in pass 3. -/
example : ∃ q : Result ℚ (Fin 3),
    run ⟨false, false, true, 1 / 10 ^ 12, 4, 100⟩
      (fun x => (.fin (cycleResiduals x).1, .fin (cycleResiduals x).2)) cycleStep 1 = .ok q ∧
    q.X = 2 ∧ q.iter = 4 :=
  ⟨⟨2, 4, .fin 0, [1, 0, 1, 2].map fun x => (.fin (cycleResiduals x).1, .fin (cycleResiduals x).2)⟩,
    by decide +kernel, rfl, rfl⟩

end Loop

section Steps
variable {G : Grid ℝ} {M : ℕ}

theorem blockH_row {n : ℕ} (A : Matrix (Fin n) (Fin n) ℝ) (X : Unk ℝ n M) (i : Fin (M + 1)) (k : Fin n) :
    ∑ t, blockH (M := M) A (finProdFinEquiv (i, k)) t * X (Fin.castAdd _ t) = ∑ l, A k l * phiOf X i l := by
  rw [sum_orb (M := M)]
  rw [Finset.sum_eq_single i]
  · simp [blockH, phiOf, phiIx]
  · intro j _ hj
    simp [blockH, Ne.symm hj]
  · simp

/-- C98, Newton step.  With a linear solver that solves, what the step leaves of the Kohn-Sham and density
equations is a product of changes, for any number of orbitals; so is what it leaves of the norm equation
of orbital 0. -/
theorem C98_newton (O : Oracle G M) (hO : SolvesLinear O)
    (H : Matrix (Fin ((M + 1) * (G.Na * G.Nr))) (Fin ((M + 1) * (G.Na * G.Nr))) ℝ)
    (n0 : G.Fld) (occ : Fin (M + 1) → ℝ) (X Y : Unk ℝ (G.Na * G.Nr) M)
    (h : newtonStep O false H n0 occ X = .ok Y) :
    (∀ i k, eqn (wwi G) H n0 occ Y (phiIx i k) = wwi G k *
      ((potOf Y k - potOf X k) - (evalsOf Y i - evalsOf X i)) * (phiOf Y i k - phiOf X i k)) ∧
    (∀ k, eqn (wwi G) H n0 occ Y (potIx k) = wwi G k * (∑ i, (phiOf Y i k - phiOf X i k) ^ 2) / 2) ∧
    (∀ i : Fin M, i.1 = 0 → eqn (wwi G) H n0 occ Y (eigIx i) =
      -(∑ k, wwi G k * (phiOf Y i.castSucc k - phiOf X i.castSucc k) ^ 2) / 2) := by
  simp only [newtonStep, Bool.false_eq_true, if_false, bind, Except.bind] at h
  split at h
  · exact nomatch h
  next d hd =>
  have hY : Y = fun j => X j - d j := (Except.ok.inj h).symm
  have hsol := hO _ _ _ hd
  obtain ⟨D, hD⟩ : ∃ D : Unk ℝ (G.Na * G.Nr) M, D = Y - X := ⟨_, rfl⟩
  have hdD : ∀ j, D j = - d j := fun j => by rw [hD, hY]; simp
  have hYX : Y = X + D := by rw [hD]; abel
  have hlin : ∀ r, (∑ j, jac (wwi G) H X r j * D j) = - eqn (wwi G) H n0 occ X r := fun r => by
    rw [← hsol r, ← Finset.sum_neg_distrib]
    exact Finset.sum_congr rfl fun j _ => by rw [hdD]; ring
  have hphi : ∀ i k, phiOf Y i k - phiOf X i k = phiOf D i k := fun i k => by rw [hD]; rfl
  have hpot : ∀ k, potOf Y k - potOf X k = potOf D k := fun k => by rw [hD]; rfl
  have hev : ∀ i, evalsOf Y i - evalsOf X i = evalsOf D i := fun i => by
    rw [hYX, evalsOf_add]; ring
  refine ⟨fun i k => ?_, fun k => ?_, fun i hi => ?_⟩
  · have h1 := hlin (phiIx i k)
    rw [jac_phi, eqn_phi] at h1
    rw [hphi, hpot, hev, hYX, eqn_phi]
    simp only [evalsOf_add, phiOf_add, potOf_add, Pi.add_apply, mul_add (H _ _), Finset.sum_add_distrib]
    linear_combination h1
  · have h1 := hlin (potIx k)
    rw [jac_pot, eqn_pot] at h1
    simp only [hphi]
    rw [hYX, eqn_pot]
    simp only [phiOf_add, add_sq, Finset.sum_add_distrib]
    have : ∑ i, 2 * phiOf X i k * phiOf D i k = 2 * ∑ i, phiOf X i k * phiOf D i k := by
      rw [Finset.mul_sum]; exact Finset.sum_congr rfl fun i _ => by ring
    rw [this]
    have h2 : ∑ i, wwi G k * phiOf X i k * phiOf D i k = wwi G k * ∑ i, phiOf X i k * phiOf D i k := by
      rw [Finset.mul_sum]; exact Finset.sum_congr rfl fun i _ => by ring
    rw [h2] at h1
    linear_combination h1
  · have h0 : i.castSucc = (0 : Fin (M + 1)) := Fin.ext hi
    have h1 := hlin (eigIx i)
    rw [jac_eig, eqn_eig, h0] at h1
    simp only [hphi]
    rw [hYX, eqn_eig, h0]
    simp only [phiOf_add, add_sq, mul_add, Finset.sum_add_distrib]
    have : ∑ k, wwi G k * (2 * phiOf X 0 k * phiOf D 0 k) = 2 * ∑ k, wwi G k * phiOf X 0 k * phiOf D 0 k := by
      rw [Finset.mul_sum]; exact Finset.sum_congr rfl fun i _ => by ring
    rw [this]
    linear_combination h1

/-- C98, Newton step.  A solution with normalised orbitals is left alone when the matrix of the step is
regular. -/
theorem C98_fixed (O : Oracle G M) (hO : SolvesLinear O) (o : Options ℝ)
    (H : Matrix (Fin ((M + 1) * (G.Na * G.Nr))) (Fin ((M + 1) * (G.Na * G.Nr))) ℝ)
    (n0 : G.Fld) (occ : Fin (M + 1) → ℝ) (X Y : Unk ℝ (G.Na * G.Nr) M) (hs : o.abSym = false)
    (ho : ∀ i, 0 < occ i) (hn : ∀ i, ∑ k, wwi G k * phiOf X i k ^ 2 = occ i)
    (hreg : ∀ d : Unk ℝ (G.Na * G.Nr) M, (∀ r, ∑ j, jac (wwi G) H X r j * d j = 0) → d = 0)
    (h0 : ∀ r, eqn (wwi G) H n0 occ X r = 0)
    (h : renew O o H n0 occ true X = .ok Y) : Y = X := by
  simp only [renew, if_true, bind, Except.bind] at h
  split at h
  · exact nomatch h
  next Z hZ =>
  have hZX : Z = X := by
    unfold newtonStep at hZ
    split at hZ
    · exact nomatch hZ
    simp only [bind, Except.bind] at hZ
    split at hZ
    · exact nomatch hZ
    next d hd =>
    have hd0 := hreg d fun r => by rw [hO _ _ _ hd r, h0]
    rw [← Except.ok.inj hZ, hd0]
    funext j
    simp
  rw [hZX] at h
  have h' : OrbInv.normalize (wwi G) occ X = .ok Y := by rw [hs] at h; exact h
  have hw : ∀ i, wnorm (wwi G) X i = occ i := hn
  have hpos : ∀ i, 0 < wnorm (wwi G) X i := fun i => by rw [hw]; exact ho i
  rw [OrbInv.normalize, if_pos fun i => ⟨(hpos i).ne', by rw [hw, div_self (ho i).ne']; exact zero_le_one⟩] at h'
  rw [← Except.ok.inj h']
  refine unk_ext (fun i k => ?_) (fun i => by simp) fun k => by simp
  rw [stack_phiIx, flat_pair, hw, div_self (ho i).ne', Real.one_rpow, mul_one]
  rfl

/-- C98.  With `use_iterative` no Newton step succeeds. -/
theorem C98_iterative (O : Oracle G M) (o : Options ℝ) (hi : o.useIterative = true)
    (H : Matrix (Fin ((M + 1) * (G.Na * G.Nr))) (Fin ((M + 1) * (G.Na * G.Nr))) ℝ)
    (n0 : G.Fld) (occ : Fin (M + 1) → ℝ) (X : Unk ℝ (G.Na * G.Nr) M) :
    renew O o H n0 occ true X = .error .nameError := by
  simp [renew, newtonStep, hi, bind, Except.bind]

/-- C98, orbital step.  With an eigensolver that solves, the step keeps the potential up to a constant, the
one that makes the last eigenvalue zero; the orbitals are those of the eigensolver up to a factor each and
solve their Kohn-Sham equations, so the residual of these is zero and, with a positive tolerance, the step
after it (if any) is a Newton step. -/
theorem C98_orbitals (O : Oracle G M) (o : Options ℝ) (A : Matrix G.Ix G.Ix ℝ) (hO : SolvesEigen O (wwi G) A)
    (n0 : G.Fld) (occ : Fin (M + 1) → ℝ) (X Y : Unk ℝ (G.Na * G.Nr) M) (hs : o.abSym = false)
    (h : renew O o (blockH A) n0 occ false X = .ok Y) :
    (∃ p e, O.orbitals (phiOf X) (evalsOf X) (potOf X) = .ok (p, e) ∧
      (∀ k, potOf Y k = potOf X k - e (Fin.last M)) ∧ (∀ i, evalsOf Y i = e i - e (Fin.last M)) ∧
      ∀ i, ∃ a, ∀ k, phiOf Y i k = a * p i k) ∧
    (∀ i k, (∑ l, A k l * phiOf Y i l) + wwi G k * potOf Y k * phiOf Y i k =
      evalsOf Y i * (wwi G k * phiOf Y i k)) ∧
    (residuals (blockH A) n0 occ Y).1 = .fin 0 ∧
    (0 < o.tol → ∀ hist : Hist ℝ, ∀ iter, newton o (hist.next o.avoidLoop iter
      (residuals (blockH A) n0 occ Y).1 (residuals (blockH A) n0 occ Y).2) = true) := by
  simp only [renew, Bool.false_eq_true, if_false, bind, Except.bind] at h
  split at h
  · exact nomatch h
  next Z hZ =>
  simp only [orbitalStep, bind, Except.bind] at hZ
  split at hZ
  · exact nomatch hZ
  next pe hpe =>
  obtain ⟨p, e⟩ := pe
  have hZ' : Z = pack p e (potOf X) := (Except.ok.inj hZ).symm
  have h' : OrbInv.normalize (wwi G) occ Z = .ok Y := by rw [hs] at h; exact h
  have hY : ∃ a : Fin (M + 1) → ℝ, Y = stack (flat fun i k => a i * p i k)
      (fun i => e i.castSucc - e (Fin.last M)) fun k => potOf X k - e (Fin.last M) := by
    unfold OrbInv.normalize at h'
    split at h'
    · refine ⟨fun i => (occ i / wnorm (wwi G) Z i) ^ (1 / 2 : ℝ), ?_⟩
      rw [← Except.ok.inj h']
      refine unk_ext (fun i k => ?_) (fun i => ?_) fun k => ?_
      · rw [stack_phiIx, flat_pair, stack_phiIx, flat_pair, mul_comm]
        congr 1
        rw [hZ', pack, phiOf_stack, flat_pair]
      · rw [stack_eigIx, stack_eigIx, hZ', pack, stack_eigIx]
      · rw [stack_potIx, stack_potIx, hZ', pack, stack_potIx]
    · exact nomatch h'
  obtain ⟨a, hY⟩ := hY
  have hphi : ∀ i k, phiOf Y i k = a i * p i k := fun i k => by rw [hY, phiOf_stack, flat_pair]
  have hpot : ∀ k, potOf Y k = potOf X k - e (Fin.last M) := fun k => by rw [hY, potOf_stack]
  have hev : ∀ i, evalsOf Y i = e i - e (Fin.last M) := fun i => by
    induction i using Fin.lastCases with
    | last => simp
    | cast i => rw [evalsOf_castSucc, hY, stack_eigIx]
  have hks : ∀ i k, (∑ l, A k l * phiOf Y i l) + wwi G k * potOf Y k * phiOf Y i k =
      evalsOf Y i * (wwi G k * phiOf Y i k) := fun i k => by
    have := hO _ _ _ _ _ hpe i k
    simp only [hphi, hpot, hev]
    have hsum : ∑ l, A k l * (a i * p i l) = a i * ∑ l, A k l * p i l := by
      rw [Finset.mul_sum]; exact Finset.sum_congr rfl fun l _ => by ring
    rw [hsum]
    linear_combination a i * this
  have hres : (residuals (blockH A) n0 occ Y).1 = .fin 0 := by
    have : ∀ t, eqn (wwi G) (blockH A) n0 occ Y (Fin.castAdd _ t) = 0 := fun t => by
      rw [← pair_eta t]
      show eqn (wwi G) (blockH A) n0 occ Y (phiIx t.divNat t.modNat) = 0
      rw [eqn_phi, blockH_row]
      linear_combination hks t.divNat t.modNat
    simp only [residuals, this, maxAbs, abs_zero]
    congr 1
    exact le_antisymm ((Finset.fold_max_le _).2 ⟨le_rfl, fun _ _ => le_rfl⟩)
      ((Finset.le_fold_max _).2 (.inl le_rfl))
  refine ⟨⟨p, e, hpe, hpot, hev, fun i => ⟨a i, hphi i⟩⟩, hks, hres, fun ht hist iter => ?_⟩
  rw [hres]
  have : (Fl.fin (o.tol * 100)).gt (Fl.fin 0) = true := by
    rw [Fl.gt_fin, decide_eq_true_eq]; positivity
  simp only [newton, next_ks, this, Bool.or_true, Bool.true_or]

/-! ## Two points, one orbital -/

open Classical in
/-- Exact linear solver; orbitals concentrated in the first point, exact for the Hamiltonian 0. -/
noncomputable def exactOracle : Oracle (Grid.tiny ℝ) 0 where
  solve A b := if h : ∃ d, ∀ r, ∑ j, A r j * d j = b r then .ok h.choose else .error .valueError
  orbitals _ _ v := .ok (fun _ => ![1, 0], fun _ => v (0 : Fin 2))

theorem exactOracle_linear : SolvesLinear exactOracle := by
  intro A b d h r
  simp only [exactOracle] at h
  split at h
  · next hd => rw [← Except.ok.inj h]; exact hd.choose_spec r
  · exact nomatch h

theorem wwi_tiny : wwi (Grid.tiny ℝ) = fun _ => 1 := by
  funext k; simp [wwi, Grid.tiny]

theorem exactOracle_eigen : SolvesEigen exactOracle (wwi (Grid.tiny ℝ)) 0 := by
  intro p e v q f h i k
  simp only [exactOracle, Except.ok.injEq, Prod.mk.injEq] at h
  obtain ⟨rfl, rfl⟩ := h
  simp only [wwi_tiny, Matrix.zero_apply, zero_mul, Finset.sum_const_zero, one_mul, zero_add]
  have : ∀ k : Fin 2, v k * (![1, 0] : Fin 2 → ℝ) k = v (0 : Fin 2) * (![1, 0] : Fin 2 → ℝ) k := by
    intro k; fin_cases k <;> simp
  exact this k

/-- Newton's step from the density `1` towards `4` takes the orbital from `1` to `5/2`. -/
example : ∃ Y, newtonStep exactOracle false 0 (fun _ => 4) (fun _ => 2)
      (stack (flat fun _ _ => 1) (fun _ => 0) fun _ => 0) = .ok Y ∧ ∀ i k, phiOf Y i k = 5 / 2 := by
  obtain ⟨X, hX⟩ : ∃ X : Unk ℝ ((Grid.tiny ℝ).Na * (Grid.tiny ℝ).Nr) 0,
    X = stack (flat fun _ _ => 1) (fun _ => 0) fun _ => 0 := ⟨_, rfl⟩
  have hphi : ∀ i k, phiOf X i k = 1 := fun i k => by rw [hX, phiOf_stack, flat_pair]
  have hpot : ∀ k, potOf X k = 0 := fun k => by rw [hX, potOf_stack]
  have hev : ∀ (X : Unk ℝ ((Grid.tiny ℝ).Na * (Grid.tiny ℝ).Nr) 0) i, evalsOf X i = 0 := fun X i => by
    obtain rfl : i = 0 := Fin.fin_one_eq_zero i
    exact evalsOf_last X
  have hd : ∃ d : Unk ℝ ((Grid.tiny ℝ).Na * (Grid.tiny ℝ).Nr) 0, ∀ r, ∑ j, jac (wwi (Grid.tiny ℝ)) 0 X r j * d j =
      eqn (wwi (Grid.tiny ℝ)) 0 (fun _ => 4) (fun _ => 2) X r := by
    refine ⟨stack (flat fun _ _ => -(3 / 2)) (fun _ => 0) fun _ => 0, fun r => ?_⟩
    induction r using ix_cases with
    | h1 i k => rw [jac_phi, eqn_phi]; simp [hphi, hpot, hev]
    | h2 i => exact i.elim0
    | h3 k =>
      rw [jac_pot, eqn_pot]
      simp [hphi, wwi_tiny]
      norm_num
      rfl
  obtain ⟨d, hs⟩ : ∃ d, exactOracle.solve (jac (wwi (Grid.tiny ℝ)) 0 X)
      (eqn (wwi (Grid.tiny ℝ)) 0 (fun _ => 4) (fun _ => 2) X) = .ok d := by
    simp only [exactOracle]
    rw [dif_pos hd]
    exact ⟨_, rfl⟩
  rw [← hX]
  refine ⟨fun j => X j - d j, ?_, fun i k => ?_⟩
  · simp only [newtonStep, Bool.false_eq_true, if_false, hs, bind, Except.bind]
    rfl
  · have := exactOracle_linear _ _ _ hs (potIx k)
    rw [jac_pot, eqn_pot] at this
    obtain rfl : i = 0 := Fin.fin_one_eq_zero i
    simp [hphi, wwi_tiny] at this
    have h1 : phiOf (fun j => X j - d j) 0 k = phiOf X 0 k - phiOf d 0 k := rfl
    rw [h1, hphi, this]
    norm_num

/-- An orbital step in the potential `(3, 7)` shifts it to `(0, 4)`. -/
example : ∃ Y, renew exactOracle ⟨false, false, false, 1 / 1000, 20, 1⟩ (blockH 0) (fun _ => 1) (fun _ => 2) false
      (stack (flat fun _ _ => 1) (fun _ => 0) (![3, 7] : Fin 2 → ℝ)) = .ok Y ∧
    potOf Y = (![0, 4] : Fin 2 → ℝ) ∧ (residuals (blockH 0) (fun _ => 1) (fun _ => 2) Y).1 = .fin 0 := by
  obtain ⟨X, hX⟩ : ∃ X : Unk ℝ ((Grid.tiny ℝ).Na * (Grid.tiny ℝ).Nr) 0,
    X = stack (flat fun _ _ => 1) (fun _ => 0) (![3, 7] : Fin 2 → ℝ) := ⟨_, rfl⟩
  have hpot : potOf X = (![3, 7] : Fin 2 → ℝ) := by rw [hX, potOf_stack]
  have hn : ∀ i, wnorm (wwi (Grid.tiny ℝ)) (pack (fun _ => ![1, 0]) (fun _ => potOf X (0 : Fin 2)) (potOf X) :
      Unk ℝ ((Grid.tiny ℝ).Na * (Grid.tiny ℝ).Nr) 0) i = 1 := fun i => by
    simp only [pack, wnorm_stack, wwi_tiny]
    rw [Grid.tiny_sum]
    simp
  have hY : ∃ Y, renew exactOracle ⟨false, false, false, 1 / 1000, 20, 1⟩ (blockH 0) (fun _ => 1) (fun _ => 2) false X =
      .ok Y := by
    refine ⟨_, show OrbInv.normalize (wwi (Grid.tiny ℝ)) (fun _ => 2) (pack (fun _ => ![1, 0])
      (fun _ => potOf X (0 : Fin 2)) (potOf X)) = _ from if_pos fun i => ?_⟩
    rw [hn]
    norm_num
  obtain ⟨Y, hY⟩ := hY
  obtain ⟨⟨p, e, h1, h2, -⟩, -, h3, -⟩ := C98_orbitals exactOracle _ 0 exactOracle_eigen _ _ _ _ rfl hY
  refine ⟨Y, by rw [hX] at hY; exact hY, ?_, h3⟩
  simp only [exactOracle, Except.ok.injEq, Prod.mk.injEq] at h1
  have he : e (Fin.last 0) = 3 := by rw [← h1.2, hpot]; rfl
  funext k
  rw [h2, he, hpot]
  have : ∀ k : Fin 2, (![3, 7] : Fin 2 → ℝ) k - 3 = (![0, 4] : Fin 2 → ℝ) k := by
    intro k; fin_cases k <;> norm_num
  exact this k

end Steps
end Verif
