import Verif.Model.KohnSham
import Verif.Lemmas.Solver
import Verif.Lemmas.Grid
import Mathlib.Data.List.FinRange
import Mathlib.Data.Fintype.BigOperators
import Mathlib.Algebra.BigOperators.Group.Finset.Piecewise

namespace Verif
variable {K : Type} [Field K] [LinearOrder K] [IsStrictOrderedRing K] [FloorRing K]
variable {r c p : ℕ}

theorem mem_rowMajor (w : Fin r × Fin c) : w ∈ rowMajor r c := by
  simp only [rowMajor, List.mem_flatMap, List.mem_map, List.mem_finRange, true_and]
  exact ⟨w.1, w.2, rfl⟩

theorem mem_colMajor (w : Fin r × Fin c) : w ∈ colMajor r c := by
  simp only [colMajor, List.mem_flatMap, List.mem_map, List.mem_finRange, true_and]
  exact ⟨w.2, w.1, rfl⟩

theorem nodup_rowMajor : (rowMajor r c).Nodup := by
  unfold rowMajor
  rw [List.nodup_flatMap]
  refine ⟨fun i _ => (List.nodup_finRange c).map fun a b h => (Prod.mk.inj h).2, ?_⟩
  refine (List.nodup_finRange r).imp fun hab => ?_
  intro x hx hy
  simp only [List.mem_map] at hx hy
  obtain ⟨_, _, rfl⟩ := hx
  obtain ⟨_, _, h⟩ := hy
  exact hab (Prod.mk.inj h).1.symm

theorem nodup_colMajor : (colMajor r c).Nodup := by
  unfold colMajor
  rw [List.nodup_flatMap]
  refine ⟨fun i _ => (List.nodup_finRange r).map fun a b h => (Prod.mk.inj h).1, ?_⟩
  refine (List.nodup_finRange c).imp fun hab => ?_
  intro x hx hy
  simp only [List.mem_map] at hx hy
  obtain ⟨_, _, rfl⟩ := hx
  obtain ⟨_, _, h⟩ := hy
  exact hab (Prod.mk.inj h).2.symm

/-- A list without repetitions that contains everything sums like the whole type. -/
theorem sum_map_univ {W M : Type*} [DecidableEq W] [Fintype W] [AddCommMonoid M] (l : List W)
    (hl : l.Nodup) (hm : ∀ w, w ∈ l) (f : W → M) : (l.map f).sum = ∑ w, f w := by
  rw [← List.sum_toFinset f hl]
  congr 1
  ext w; simp [hm w]

/-- Assigning every entry of a table in some order. -/
theorem foldlM_update {W α : Type} [DecidableEq W] (l : List W) (hl : l.Nodup)
    (f : W → α → Py α) (s g : W → α) (h : ∀ w ∈ l, f w (s w) = .ok (g w)) :
    l.foldlM (fun s w => do
      let x ← f w (s w)
      pure (Function.update s w x)) s = .ok fun w => if w ∈ l then g w else s w := by
  induction l generalizing s with
  | nil => simp [pure, Except.pure]
  | cons a l ih =>
    obtain ⟨ha, hl⟩ := List.nodup_cons.mp hl
    simp only [List.foldlM_cons, h a List.mem_cons_self, bind, Except.bind, pure, Except.pure] at ih ⊢
    rw [ih hl]
    · congr 1
      funext w
      by_cases hw : w = a
      · subst hw; simp [ha]
      · simp [hw]
    · intro w hw
      rw [Function.update_of_ne (by rintro rfl; exact ha hw)]
      exact h w (List.mem_cons_of_mem _ hw)

theorem foldlM_update_error {W α : Type} [DecidableEq W] (l : List W) (hl : l.Nodup)
    (f : W → α → Py α) (s : W → α) (e : PyErr)
    (h : ∀ w ∈ l, (∃ x, f w (s w) = .ok x) ∨ f w (s w) = .error e)
    (hex : ∃ w ∈ l, f w (s w) = .error e) :
    l.foldlM (fun s w => do
      let x ← f w (s w)
      pure (Function.update s w x)) s = (.error e : Py (W → α)) := by
  induction l generalizing s with
  | nil => obtain ⟨w, hw, -⟩ := hex; cases hw
  | cons a l ih =>
    obtain ⟨ha, hl⟩ := List.nodup_cons.mp hl
    rcases h a List.mem_cons_self with ⟨x, hx⟩ | hx
    · simp only [List.foldlM_cons, hx, bind, Except.bind, pure, Except.pure] at ih ⊢
      have hne : ∀ w ∈ l, Function.update s a x w = s w := fun w hw =>
        Function.update_of_ne (by rintro rfl; exact ha hw) _ _
      apply ih hl
      · intro w hw; rw [hne w hw]; exact h w (List.mem_cons_of_mem _ hw)
      · obtain ⟨w, hw, hwe⟩ := hex
        rcases List.mem_cons.mp hw with rfl | hw
        · rw [hx] at hwe; cases hwe
        · exact ⟨w, hw, by rw [hne w hw]; exact hwe⟩
    · simp [List.foldlM_cons, hx, bind, Except.bind]

namespace KS
variable {G : Grid K}

theorem mapSolvers_ok (l : List (Fin r × Fin c)) (hl : l.Nodup) (hm : ∀ w, w ∈ l)
    (f : Fin r × Fin c → Solver G → Py (Solver G)) (s g : Fin r × Fin c → Solver G)
    (h : ∀ w, f w (s w) = .ok (g w)) : mapSolvers l f s = .ok g := by
  unfold mapSolvers
  rw [foldlM_update l hl f s g fun w _ => h w]
  simp [hm]

theorem distribute_ok (veff : G.Cols p) (hc : c ≤ p) (s : Fin r × Fin c → Solver G) :
    distribute veff s = .ok fun w => { s w with veff := some (veff ⟨w.2.1, by omega⟩) } := by
  apply mapSolvers_ok _ nodup_colMajor mem_colMajor
  intro w
  have : w.2.1 < p := by omega
  simp [col, this, bind, Except.bind, pure, Except.pure]

theorem collect_ok (d : Fin r × Fin c → Option (Found G)) (s : Fin r × Fin c → Solver G)
    (f : Fin r × Fin c → Found G) (h : ∀ w, d w = some (f w)) :
    collect d s = .ok fun w => { s w with eig := some (f w).1, phi := (f w).2 } := by
  apply mapSolvers_ok _ nodup_colMajor mem_colMajor
  intro w
  simp [h w]

theorem collect_error (d : Fin r × Fin c → Option (Found G)) (s : Fin r × Fin c → Solver G)
    (h : ∃ w, d w = none) : collect d s = .error .keyError := by
  refine foldlM_update_error (colMajor r c) nodup_colMajor (fun w x => match d w with
    | none => .error .keyError
    | some f => .ok { x with eig := some f.1, phi := f.2 }) s .keyError (fun w _ => ?_) ?_
  · cases d w
    · exact .inr rfl
    · exact .inl ⟨_, rfl⟩
  · obtain ⟨w, hw⟩ := h
    exact ⟨w, mem_colMajor w, by simp [hw]⟩

theorem foldlM_cols (l : List (Fin r × Fin c)) (s : Fin r × Fin c → Solver G)
    (n : Fin r × Fin c → G.Fld) (hn : ∀ w, (s w).calcDensity = .ok (n w)) (hc : c ≤ p)
    (acc : G.Cols p) :
    l.foldlM (fun (nout : G.Cols p) w => do
      let n ← (s w).calcDensity
      if h : w.2.1 < p then
        pure (Function.update nout ⟨w.2.1, h⟩ fun k => nout ⟨w.2.1, h⟩ k + n k)
      else .error .indexError) acc =
    .ok fun q k => acc q k + (l.map fun w => if w.2.1 = q.1 then n w k else 0).sum := by
  induction l generalizing acc with
  | nil => simp [pure, Except.pure]
  | cons a l ih =>
    have ha : a.2.1 < p := by omega
    simp only [List.foldlM_cons, hn a, bind, Except.bind, pure, Except.pure, ha, dif_pos] at ih ⊢
    rw [ih]
    congr 1
    funext q k
    by_cases hq : a.2.1 = q.1
    · have : q = ⟨a.2.1, ha⟩ := Fin.ext hq.symm
      subst this
      simp [add_assoc]
    · have : q ≠ ⟨a.2.1, ha⟩ := fun h => hq (by rw [h])
      simp [this, hq]

/-- `calc_density` adds the solver densities of each column. -/
theorem sumDensities_eq (s : Fin r × Fin c → Solver G) (n : Fin r × Fin c → G.Fld)
    (hn : ∀ w, (s w).calcDensity = .ok (n w)) (hc : c ≤ p) :
    sumDensities p s = .ok fun q k => if h : q.1 < c then ∑ i, n (i, ⟨q.1, h⟩) k else 0 := by
  unfold sumDensities
  rw [foldlM_cols _ s n hn hc]
  congr 1
  funext q k
  rw [zero_add, sum_map_univ _ nodup_colMajor mem_colMajor, Fintype.sum_prod_type]
  by_cases h : q.1 < c
  · rw [dif_pos h]
    refine Finset.sum_congr rfl fun i _ => ?_
    rw [Finset.sum_eq_single ⟨q.1, h⟩]
    · simp
    · intro j _ hj
      rw [if_neg fun e => hj (Fin.ext e)]
    · simp
  · rw [dif_neg h]
    refine Finset.sum_eq_zero fun i _ => Finset.sum_eq_zero fun j _ => ?_
    rw [if_neg fun e => h (by rw [← e]; exact j.2)]

/-- The shared dictionary after all workers were joined. -/
theorem run_eq {W R : Type*} [DecidableEq W] {work : W → Option R} {pending : List W}
    {d d' : W → Option R} (h : Run work pending d d') (w : W) :
    d' w = if w ∈ pending then (work w).or (d w) else d w := by
  induction h with
  | joined d => simp
  | @writes pending d d' v x hv hx _ ih =>
    by_cases hw : w = v
    · subst hw
      rw [ih, if_pos hv, hx]
      split <;> simp
    · rw [ih]
      rw [Function.update_of_ne hw]
      simp [List.mem_erase_of_ne hw]
  | @dies pending d d' v hv hx _ ih =>
    by_cases hw : w = v
    · subst hw
      rw [ih, if_pos hv, hx]
      split <;> simp
    · rw [ih]
      simp [List.mem_erase_of_ne hw]

end KS
end Verif
