import Verif.Props.C59_C61
import Verif.Props.C25_C27

/-!
# C60, C61: kinetic energy density of the inverter, Wu-Yang residual and Jacobian
-/

namespace Verif
open Inv Spec

section
variable {G : Grid ℝ} {r c : ℕ}

theorem collect_last (ked : Keds G r c) (d : Fin (r + 1) → Fin (c + 1) → G.Fld) (j : Fin (c + 1))
    (h : ∀ i, ked i j = some (d i j)) : collect ked j = d (Fin.last r) j := by
  unfold collect
  rw [List.finRange_succ_last, List.foldl_append]
  simp [h]

/-- The rows of the table stored by the nested loops. -/
theorem keds_inner (ens : Bool) (t : Table G r c) (H0 : Fin (r + 1) → Matrix G.Ix G.Ix ℝ)
    (d : Fin (r + 1) → Fin (c + 1) → G.Fld) (hd : ∀ i j, SolverR.calcKed (t i j) (H0 i) = .ok (d i j))
    (i : Fin (r + 1)) (l : List (Fin (c + 1))) (ked : Keds G r c) : ∃ ked' : Keds G r c,
    (l.foldlM (fun (ked : Keds G r c) j =>
      if ens = true ∧ j ≠ 0 then .ok ked else do
        let f ← SolverR.calcKed (t i j) (H0 i)
        pure (Function.update ked i (Function.update (ked i) j (some f)))) ked : Py (Keds G r c)) = .ok ked' ∧
    ∀ i' j', ked' i' j' = if i' = i ∧ j' ∈ l ∧ (ens = true → j' = 0) then some (d i' j') else ked i' j' := by
  induction l generalizing ked with
  | nil => exact ⟨ked, rfl, by simp⟩
  | cons j l ih =>
    rw [List.foldlM_cons]
    by_cases hj : ens = true ∧ j ≠ 0
    · rw [if_pos hj]
      obtain ⟨ked', h1, h2⟩ := ih ked
      refine ⟨ked', h1, fun i' j' => ?_⟩
      rw [h2]
      by_cases hjj : j' = j
      · subst hjj; simp [hj.1, hj.2]
      · simp [hjj]
    · rw [if_neg hj, hd]
      obtain ⟨ked', h1, h2⟩ := ih (Function.update ked i (Function.update (ked i) j (some (d i j))))
      refine ⟨ked', h1, fun i' j' => ?_⟩
      rw [h2]
      have hj' : ens = true → j = 0 := fun h => by_contra fun h' => hj ⟨h, h'⟩
      by_cases hi : i' = i
      · subst hi
        by_cases hjj : j' = j
        · subst hjj
          simp only [true_and, List.mem_cons, true_or, Function.update_self]
          rw [if_pos hj', ite_self]
        · simp [hjj]
      · simp [hi]

theorem keds_outer (ens : Bool) (t : Table G r c) (H0 : Fin (r + 1) → Matrix G.Ix G.Ix ℝ)
    (d : Fin (r + 1) → Fin (c + 1) → G.Fld) (hd : ∀ i j, SolverR.calcKed (t i j) (H0 i) = .ok (d i j))
    (l : List (Fin (r + 1))) (ked : Keds G r c) : ∃ ked' : Keds G r c,
    (l.foldlM (fun (ked : Keds G r c) i =>
      (List.finRange (c + 1)).foldlM (fun (ked : Keds G r c) j =>
        if ens = true ∧ j ≠ 0 then .ok ked else do
          let f ← SolverR.calcKed (t i j) (H0 i)
          pure (Function.update ked i (Function.update (ked i) j (some f)))) ked) ked : Py (Keds G r c)) = .ok ked' ∧
    ∀ i' j', ked' i' j' = if i' ∈ l ∧ (ens = true → j' = 0) then some (d i' j') else ked i' j' := by
  induction l generalizing ked with
  | nil => exact ⟨ked, rfl, by simp⟩
  | cons i l ih =>
    rw [List.foldlM_cons]
    obtain ⟨k1, h1, h2⟩ := keds_inner ens t H0 d hd i (List.finRange (c + 1)) ked
    rw [h1]
    obtain ⟨k2, h3, h4⟩ := ih k1
    refine ⟨k2, h3, fun i' j' => ?_⟩
    rw [h4, h2]
    by_cases hi : i' = i
    · subst hi
      have hmem : i' ∈ i' :: l := List.mem_cons_self
      have hfin := List.mem_finRange j'
      split_ifs <;> first | rfl | (exfalso; tauto)
    · simp [hi]

/-- What `get_ts_WFI` returns: for every spin the density of the last row of the table. -/
theorem getTsWFI_eq (t : Table G r c) (H0 : Fin (r + 1) → Matrix G.Ix G.Ix ℝ) (ked : Keds G r c)
    (d : Fin (r + 1) → Fin (c + 1) → G.Fld) (hd : ∀ i j, SolverR.calcKed (t i j) (H0 i) = .ok (d i j)) :
    ∃ ts, getTsWFI false t H0 ked = .ok ts ∧ ∀ j, ts j = d (Fin.last r) j := by
  obtain ⟨ked', h1, h2⟩ := keds_outer false t H0 d hd (List.finRange (r + 1)) ked
  refine ⟨collect ked', ?_, fun j => collect_last _ d j fun i => by simp [h2]⟩
  unfold getTsWFI
  rw [h1]
  rfl

/-- C60 (partial), `get_ts_WFI`: with one row of solvers it is the sum over the rows.  Partial: with more
rows only the last one is kept, see `C60_refuted`. -/
theorem C60_ts_partial (t : Table G 0 c) (H0 : Fin 1 → Matrix G.Ix G.Ix ℝ) (ked : Keds G 0 c)
    (d : Fin 1 → Fin (c + 1) → G.Fld) (hd : ∀ i j, SolverR.calcKed (t i j) (H0 i) = .ok (d i j)) :
    ∃ ts, getTsWFI false t H0 ked = .ok ts ∧ ∀ j k, ts j k = ∑ i, d i j k := by
  obtain ⟨ts, h1, h2⟩ := getTsWFI_eq t H0 ked d hd
  exact ⟨ts, h1, fun j k => by rw [h2]; simp⟩

/-- With `ens_spin_sym` and nothing stored before, the second spin gets no density at all. -/
theorem C60_refuted_ens (t : Table G 0 1) (H0 : Fin 1 → Matrix G.Ix G.Ix ℝ)
    (d : Fin 1 → Fin 2 → G.Fld) (hd : ∀ i j, SolverR.calcKed (t i j) (H0 i) = .ok (d i j)) :
    ∃ ts, getTsWFI true t H0 (fun _ _ => none) = .ok ts ∧ ts 0 = d 0 0 ∧ ts 1 = fun _ => 0 := by
  obtain ⟨ked', h1, h2⟩ := keds_outer true t H0 d hd (List.finRange 1) fun _ _ => none
  refine ⟨collect ked', ?_, ?_, ?_⟩
  · unfold getTsWFI
    rw [h1]
    rfl
  · simp [collect, h2, show List.finRange 1 = [0] from rfl]
  · simp [collect, h2, show List.finRange 1 = [0] from rfl]

/-- Two rows (`m = 0` with two electrons, `m = 1` empty): the density returned integrates to 0 while the
kinetic energies of the two rows sum to 2. -/
theorem C60_refuted :
    let t : Table (Grid.tiny ℝ) 1 0 := fun i _ =>
      ⟨1, if i = 0 then 2 else 0, i, 1, false, false, some [fun _ => 1], none, none⟩
    ∃ (d : Fin 2 → Fin 1 → (Grid.tiny ℝ).Fld) (ts : _), (∀ i j, SolverR.calcKed (t i j) 1 = .ok (d i j)) ∧
      getTsWFI false t (fun _ => 1) (fun _ _ => none) = .ok ts ∧
      (Grid.tiny ℝ).integ (ts 0) = 0 ∧ ∑ i, (Grid.tiny ℝ).integ (d i 0) = 2 := by
  intro t
  have hp : ∀ p ∈ [(fun _ => 1 : (Grid.tiny ℝ).Fld)], 0 < (Grid.tiny ℝ).integ fun k => p k ^ 2 := by
    intro p hp
    simp only [List.mem_singleton] at hp
    subst hp
    rw [Grid.tiny_integ]; norm_num
  have hkin : kinetic (G := Grid.tiny ℝ) 1 (fun _ => 1) = 1 := by
    simp only [kinetic, Matrix.one_mulVec, Grid.tiny_integ]
    norm_num
  obtain ⟨d0, h0, e0⟩ := (C27_integral_partial (t 0 0) (.inl rfl) (by norm_num [t]) 1 _ rfl hp (.inl rfl)).1
    (by norm_num [needed, orbitalCapacity, t])
  obtain ⟨d1, h1, e1⟩ := (C27_integral_partial (t 1 0) (.inl rfl) (by norm_num [t]) 1 _ rfl hp (.inl rfl)).1
    (by norm_num [needed, orbitalCapacity, t])
  have hd : ∀ i j, SolverR.calcKed (t i j) 1 = .ok ((![fun _ => d0, fun _ => d1] : Fin 2 → Fin 1 → _) i j) := by
    intro i j
    obtain rfl : j = 0 := Fin.ext (by have := j.2; omega)
    fin_cases i
    · exact h0
    · exact h1
  obtain ⟨ts, hts, hl⟩ := getTsWFI_eq t (fun _ => 1) (fun _ _ => none) _ hd
  have E0 : (Grid.tiny ℝ).integ d0 = 2 := by
    rw [e0]
    simp [orbitalCapacity, fill, fillingWhole, t, hkin]
  have E1 : (Grid.tiny ℝ).integ d1 = 0 := by
    rw [e1]
    simp [orbitalCapacity, fill, fillingWhole, t]
  refine ⟨_, ts, hd, hts, ?_, ?_⟩
  · rw [hl]; exact E1
  · rw [Fin.sum_univ_two]
    change (Grid.tiny ℝ).integ d0 + (Grid.tiny ℝ).integ d1 = 2
    rw [E0, E1, add_zero]

/-! ## C61 -/

/-- The residual: relative density error, density summed over all rows, both symmetrised with `ab_sym`;
the responses of all rows are left in the solvers. -/
theorem C61_residual (ab : Bool) (orb : Fin (r + 1) → G.Fld → Py (List G.Fld × List ℝ))
    (H0 : Fin (r + 1) → Matrix G.Ix G.Ix ℝ) (s : Fin (r + 1) → Solver G) (n0 : G.Fld) (pin : ℝ) (v : G.Fld)
    (hn0 : ∀ k, n0 k ≠ 0) (n : Fin (r + 1) → G.Fld) (chi : Fin (r + 1) → Matrix G.Ix G.Ix ℝ)
    (h : ∀ i, respond (orb i) (H0 i) (s i) (if ab then fun k => (v k + G.mir v k) / 2 else v) = .ok (n i, chi i)) :
    let m : G.Fld := fun k => ∑ i, n i k
    let m' : G.Fld := if ab then fun k => (m k + G.mir m k) / 2 else m
    ws ab orb H0 s n0 pin v = .ok ((fun k => (m' k - n0 k) / n0 k, pin), chi) := by
  intro m m'
  have hav : ∀ f : G.Fld, average ab f = if ab then fun k => (f k + G.mir f k) / 2 else f := fun f => by
    unfold average
    cases ab
    · rfl
    · simp only [if_true]; funext k; ring
  have hm : (List.finRange (r + 1)).mapM (fun i => respond (orb i) (H0 i) (s i) (average ab v)) =
      .ok ((List.finRange (r + 1)).map fun i => (n i, chi i)) := by
    rw [hav]
    generalize List.finRange (r + 1) = l
    induction l with
    | nil => rfl
    | cons i l ih => rw [List.mapM_cons, h i, ih]; rfl
  unfold ws
  simp only [hm, bind, Except.bind, timesB, if_pos hn0, pure, Except.pure, List.map_map]
  have e1 : (fun k => (List.map ((fun o : G.Fld × Matrix G.Ix G.Ix ℝ => o.1 k) ∘ fun i => (n i, chi i))
      (List.finRange (r + 1))).sum) = m := by
    funext k
    rw [← List.ofFn_eq_map, List.sum_ofFn]
    rfl
  rw [e1, hav]
  refine congrArg Except.ok (Prod.ext (Prod.ext ?_ rfl) ?_)
  · funext k
    simp only [m']
    ring
  · funext i
    have hi : i.1 < (List.finRange (r + 1)).length := by rw [List.length_finRange]; exact i.2
    change List.getD _ i.1 0 = chi i
    rw [List.getD_eq_getElem?_getD, List.getElem?_map, List.getElem?_eq_getElem hi]
    simp

/-- C61 (partial).  With one row of solvers the Jacobian consists of the relative responses.  Partial:
the pinned component and several rows, see the refutations. -/
theorem C61_jacobian_partial (ab : Bool) (n0 : G.Fld) (hn0 : ∀ k, n0 k ≠ 0)
    (chi : Fin 1 → Matrix G.Ix G.Ix ℝ) :
    ∃ J last, jacobian ab n0 chi = .ok (J, last) ∧ ∀ k l, J k l = (∑ i, chi i k l) / n0 k := by
  refine ⟨_, _, if_pos hn0, fun k l => ?_⟩
  simp only [Finset.univ_unique, Fin.default_eq_zero, Finset.sum_singleton]
  ring

/-- In general the rows other than the first must not respond at all. -/
theorem C61_jacobian_iff (ab : Bool) (n0 : G.Fld) (hn0 : ∀ k, n0 k ≠ 0)
    (chi : Fin (r + 1) → Matrix G.Ix G.Ix ℝ) :
    ∃ J last, jacobian ab n0 chi = .ok (J, last) ∧
      ((∀ k l, J k l = (∑ i, chi i k l) / n0 k) ↔ ∀ k l, ∑ i : Fin r, chi i.succ k l = 0) := by
  refine ⟨_, _, if_pos hn0, forall_congr' fun k => forall_congr' fun l => ?_⟩
  rw [Fin.sum_univ_succ, one_div, inv_mul_eq_div, div_left_inj' (hn0 k)]
  constructor
  · intro h; linarith
  · intro h; rw [h, add_zero]

/-- Two responding rows: the Jacobian has half of the derivative. -/
theorem C61_refuted : ∃ (chi : Fin 2 → Matrix (Grid.tiny ℝ).Ix (Grid.tiny ℝ).Ix ℝ) (J : _) (last : _),
    jacobian (G := Grid.tiny ℝ) false (fun _ => 1) chi = .ok (J, last) ∧ J 0 0 = -1 ∧ ∑ i, chi i 0 0 = -2 := by
  refine ⟨fun _ => -1, _, _, if_pos (by simp), ?_, ?_⟩
  · simp
  · simp

/-- The pinned component does not depend on the potential, yet the last row of the Jacobian claims it
has derivative 1 with respect to the last point. -/
theorem C61_refuted_pin (ab : Bool) (orb : Fin (r + 1) → G.Fld → Py (List G.Fld × List ℝ))
    (H0 : Fin (r + 1) → Matrix G.Ix G.Ix ℝ) (s : Fin (r + 1) → Solver G) (n0 : G.Fld) (pin : ℝ) :
    (∀ v w, ws ab orb H0 s n0 pin v = .ok w → w.1.2 = pin) ∧
    (∀ chi : Fin (r + 1) → Matrix G.Ix G.Ix ℝ, ∀ J last, jacobian false n0 chi = .ok (J, last) →
      ∀ k : G.Ix, k.1 + 1 = G.Na * G.Nr → last k = 1) := by
  constructor
  · intro v w h
    simp only [ws, bind, Except.bind] at h
    split at h
    · exact nomatch h
    split at h
    · exact nomatch h
    obtain rfl := Except.ok.inj h
    rfl
  · intro chi J last h k hk
    unfold jacobian at h
    split at h
    · obtain ⟨-, rfl⟩ := Prod.ext_iff.1 (Except.ok.inj h)
      simp [lastRow, average, hk]
    · exact nomatch h

end
end Verif
