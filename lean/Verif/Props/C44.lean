import Verif.Model.PartitionScf
import Verif.Py.Basic

/-! # C44: termination of `Partition.scf` and its report of non-convergence -/

namespace Verif
open PartScf
variable {K : Type} [Field K] [LinearOrder K] [IsStrictOrderedRing K] [FloorRing K]
variable {G : Grid K} {r c p : ℕ}

/-- The change that decides whether another pass is made. -/
def Spec.lastChange (log : List (Fl K)) (first : Fl K) : Fl K := log.getLast?.getD first

theorem lastChange_cons (d first : Fl K) (log : List (Fl K)) :
    Spec.lastChange (d :: log) first = Spec.lastChange log d := by
  cases h : log.getLast? with
  | none =>
    rw [List.getLast?_eq_none_iff] at h
    subst h
    rfl
  | some x => simp [Spec.lastChange, List.getLast?_cons, h]

/-- What a finished loop tells: number of passes, the changes, the warnings. -/
theorem PartScf.loop_log {S : Type} (step : S → Py (S × Fl K)) (auto : Bool) (etol : K) :
    ∀ (left : ℕ) (dif : Fl K) (s s' : S) (log : List (Fl K)) (w : ℕ),
      loop step auto etol left dif s = .ok (s', log, w) →
      log.length ≤ left ∧
      (∀ d ∈ (dif :: log).dropLast, Fl.gt d (.fin etol) = true) ∧
      (log.length < left → Fl.gt (Spec.lastChange log dif) (.fin etol) = false) ∧
      w = (if 2 ≤ left ∧ left - 1 ≤ log.length then 1 else 0) ∧
      (auto = true → log.length = left ∧ Fl.gt (Spec.lastChange log dif) (.fin etol) = true) := by
  intro left
  induction left with
  | zero =>
    intro dif s s' log w h
    unfold loop at h
    split at h
    · split at h
      · exact nomatch h
      · rename_i hg ha
        simp only [Except.ok.injEq, Prod.mk.injEq] at h
        obtain ⟨-, rfl, rfl⟩ := h
        refine ⟨by simp, by simp, by simp, by simp, fun h => absurd h ha⟩
    · rename_i hg
      simp only [Except.ok.injEq, Prod.mk.injEq] at h
      obtain ⟨-, rfl, rfl⟩ := h
      simpa [Spec.lastChange] using fun _ => hg
  | succ left ih =>
    intro dif s s' log w h
    unfold loop at h
    split at h
    · split at h
      · exact nomatch h
      · rename_i hg ha
        simp only [Except.ok.injEq, Prod.mk.injEq] at h
        obtain ⟨-, rfl, rfl⟩ := h
        refine ⟨by simp, by simp, fun _ => by simpa [Spec.lastChange] using hg, ?_, fun h => absurd h ha⟩
        rw [if_neg]
        simp only [List.length_nil]
        omega
    · rename_i hg
      simp only [Py.do_eq_ok, Py.pure_eq_ok] at h
      obtain ⟨⟨t, d⟩, ht, ⟨t', log', w'⟩, ht', h⟩ := h
      simp only [Prod.mk.injEq] at h
      obtain ⟨-, rfl, rfl⟩ := h
      obtain ⟨h1, h2, h3, h4, h5⟩ := ih _ _ _ _ _ ht'
      rw [lastChange_cons]
      refine ⟨by simpa using h1, ?_, fun hlt => h3 (by simpa using hlt), ?_,
        fun ha => ⟨by simpa using (h5 ha).1, (h5 ha).2⟩⟩
      · intro x hx
        rw [List.dropLast_cons_of_ne_nil (by simp)] at hx
        rcases List.mem_cons.mp hx with rfl | hx
        · simpa using hg
        · exact h2 x hx
      · rw [h4]
        simp only [List.length_cons]
        by_cases h1 : left = 1
        · subst h1; simp
        · by_cases h0 : left = 0
          · subst h0; simp
          · have e : (2 ≤ left + 1 ∧ left + 1 - 1 ≤ log'.length + 1) ↔ (2 ≤ left ∧ left - 1 ≤ log'.length) := by
              omega
            simp only [h1, if_false, zero_add, e]

/-- C44, partial: a finished `Partition.scf` made at most `max_iter` passes; every pass but the last was
followed by another because its change exceeded `e_tol`; if fewer than `max_iter` passes were made the last
change does not exceed `e_tol`: it is a number at most `e_tol`, or NaN (or no pass was made because
`e_tol ≥ 10`).  It warns at most once, and does so exactly when at least `max_iter - 1 ≥ 1` passes were made.
With `auto_tol` it only finishes by exhausting the budget without convergence.
Missing: NaN (`C44_refuted_nan`), the right condition for the warning (`C44_refuted_warning`), `auto_tol`
after convergence (`C44_refuted_auto`). -/
theorem C44_budget_partial (T : ℕ → Env G r c p) (W : ℕ → KsScf.Workers G r c p) (o : PartScf.Options K)
    (P P' : Part G r c p) (log : List (Fl K)) (w : ℕ) (h : scf T W o P = .ok (P', log, w)) :
    log.length ≤ o.maxIter.toNat ∧
    (∀ d ∈ log.dropLast, Fl.gt d (.fin o.etol) = true) ∧
    (log.length < o.maxIter.toNat →
      match log.getLast? with
      | none => 10 ≤ o.etol
      | some (.fin d) => d ≤ o.etol
      | some d => d = .nan ∨ d = .negInf) ∧
    w = (if 2 ≤ o.maxIter ∧ o.maxIter - 1 ≤ log.length then 1 else 0) ∧
    (o.autoTol = true → log.length = o.maxIter.toNat ∧ ∀ d, log.getLast? = some d →
      Fl.gt d (.fin o.etol) = true) := by
  unfold scf at h
  simp only [Py.do_eq_ok, Py.pure_eq_ok] at h
  obtain ⟨P₀, -, nf, -, ⟨st, lg, ww⟩, hrun, h⟩ := h
  simp only [Prod.mk.injEq] at h
  obtain ⟨-, rfl, rfl⟩ := h
  obtain ⟨h1, h2, h3, h4, h5⟩ := loop_log _ _ _ _ _ _ _ _ _ hrun
  refine ⟨h1, ?_, ?_, ?_, ?_⟩
  · intro d hd
    refine h2 d ?_
    rw [List.dropLast_cons_of_ne_nil (by rintro rfl; simp at hd)]
    exact List.mem_cons_of_mem _ hd
  · intro hlt
    have := h3 hlt
    unfold Spec.lastChange at this
    cases hl : lg.getLast? with
    | none => rw [hl] at this; simpa using this
    | some d =>
      rw [hl] at this
      simp only [Option.getD_some] at this
      revert this
      cases d <;> simp [Fl.gt]
  · rw [h4]
    have e : (2 ≤ o.maxIter.toNat ∧ o.maxIter.toNat - 1 ≤ lg.length) ↔
        (2 ≤ o.maxIter ∧ o.maxIter - 1 ≤ (lg.length : ℤ)) := by omega
    simp only [e]
  · intro ha
    refine ⟨(h5 ha).1, fun d hd => ?_⟩
    have := (h5 ha).2
    rwa [Spec.lastChange, hd] at this

/-- The loop ends however the body behaves: it makes at most `max_iter` calls, so a body that returns makes
`scf` return (or raise the `TypeError` of `auto_tol`). -/
theorem C44_terminates {S : Type} (step : S → Py (S × Fl K)) (hstep : ∀ s, ∃ x, step s = .ok x) (etol : K)
    (maxIter : ℤ) (s : S) : ∃ x, run step false etol maxIter s = .ok x := by
  unfold run
  generalize (Fl.fin 10 : Fl K) = dif
  induction maxIter.toNat generalizing dif s with
  | zero =>
    unfold loop
    split
    · exact ⟨_, rfl⟩
    · exact ⟨_, rfl⟩
  | succ left ih =>
    unfold loop
    split
    · exact ⟨_, rfl⟩
    · obtain ⟨⟨t, d⟩, ht⟩ := hstep s
      obtain ⟨⟨a, b, e⟩, hx⟩ := ih t d
      simp only [ht, bind, Except.bind, hx]
      exact ⟨_, rfl⟩

theorem PartScf.loop_stop {S : Type} (step : S → Py (S × Fl K)) (etol : K) (left : ℕ) (dif : Fl K)
    (s : S) (h : Fl.gt dif (.fin etol) = false) : loop step false etol left dif s = .ok (s, [], 0) := by
  unfold loop
  simp [h]

theorem PartScf.loop_pass {S : Type} (step : S → Py (S × Fl K)) (auto : Bool) (etol : K) (left : ℕ)
    (dif d : Fl K) (s s' s'' : S) (log) (w : ℕ) (h : Fl.gt dif (.fin etol) = true)
    (hs : step s = .ok (s', d)) (hl : loop step auto etol left d s' = .ok (s'', log, w)) :
    loop step auto etol (left + 1) dif s = .ok (s'', d :: log, (if left = 1 then 1 else 0) + w) := by
  rw [loop]
  simp [h, hs, hl, bind, Except.bind, pure, Except.pure]

/-- C44 is false for the warning: with `max_iter = 2` and convergence in the first pass the code warns;
with `max_iter = 1` and no convergence it does not. -/
theorem C44_refuted_warning :
    run (fun _ : Unit => .ok ((), (.fin 0 : Fl ℚ))) false (1 / 100) 2 () = .ok ((), [.fin 0], 1) ∧
    run (fun _ : Unit => .ok ((), (.fin 1 : Fl ℚ))) false (1 / 100) 1 () = .ok ((), [.fin 1], 0) := by
  constructor
  · refine loop_pass _ _ _ 1 _ _ _ _ _ _ _ (by simp; norm_num) rfl (loop_stop _ _ _ _ _ (by simp [Fl.gt]))
  · have h0 : loop (fun _ : Unit => .ok ((), (.fin 1 : Fl ℚ))) false (1 / 100) 0 (.fin 1) () =
        .ok ((), [], 0) := by
      unfold loop
      norm_num
    exact loop_pass _ false (1 / 100) 0 (.fin 10) (.fin 1) () () () [] 0 (by simp; norm_num) rfl h0

/-- C44 is false for NaN: a change that is NaN ends the loop. -/
theorem C44_refuted_nan :
    run (fun _ : Unit => .ok ((), (.nan : Fl ℚ))) false (1 / 100) 100 () = .ok ((), [.nan], 0) := by
  refine loop_pass _ _ _ 99 _ _ _ _ _ _ _ (by simp; norm_num) rfl (loop_stop _ _ _ _ _ (by simp [Fl.gt]))

/-- C44 is false with `auto_tol`: when a pass reaches the tolerance the next test raises `TypeError`. -/
theorem C44_refuted_auto {S : Type} (step : S → Py (S × Fl K)) (etol : K) (maxIter : ℤ) (s s' : S) (d : Fl K)
    (he : etol < 10) (hm : 1 ≤ maxIter) (hs : step s = .ok (s', d)) (hd : Fl.gt d (.fin etol) = false) :
    run step true etol maxIter s = .error .typeError := by
  unfold run
  obtain ⟨n, hn⟩ : ∃ n, maxIter.toNat = n + 1 := ⟨maxIter.toNat - 1, by omega⟩
  rw [hn, loop]
  have : loop step true etol n d s' = .error .typeError := by
    unfold loop
    simp [hd]
  simp [he, hs, bind, Except.bind, this]

/-- A concrete case of C44: changes `1` and `1/1000`, tolerance `1/100`, budget 100: two passes, no warning. -/
example : run (fun i : ℕ => .ok (i + 1, (.fin (1 / 1000 ^ i) : Fl ℚ))) false (1 / 100) 100 0 =
    .ok (2, [.fin 1, .fin (1 / 1000)], 0) := by
  have h := loop_pass (fun i : ℕ => .ok (i + 1, (.fin (1 / 1000 ^ i) : Fl ℚ))) false (1 / 100) 99
    (.fin 10) _ 0 _ _ _ _ (by simp; norm_num) rfl (loop_pass _ _ _ 98 _ _ _ _ _ _ _
      (by simp; norm_num) rfl (loop_stop _ _ _ _ _ (by simp; norm_num)))
  unfold run
  rw [show (100 : ℤ).toNat = 99 + 1 from rfl, h]
  norm_num

end Verif
