import Verif.Props.C32_C33
import Verif.Props.C34_C36
import Verif.Props.C44
import Verif.Lemmas.PartitionScf

/-! # C86: what convergence of the SCF loops means -/

namespace Verif
open Spec KS KsScf
variable {K : Type} [Field K] [LinearOrder K] [IsStrictOrderedRing K] [FloorRing K]
variable {G : Grid K} {r c p : ℕ}

/-- The quadrature weights are not negative. -/
def Spec.NonnegWeights (G : Grid K) : Prop := ∀ k, 0 ≤ 2 * G.pi * G.hr * G.ha * (G.wi k * G.w k)

/-- Relative change of the density of every spin, in the integral norm. -/
def Spec.Close (etol : K) (n old : G.Cols p) : Prop :=
  ∀ s, G.integ (fun k => |n s k - old s k|) ≤ etol * G.integ (fun k => |n s k|)

theorem Grid.integ_nonneg (hG : NonnegWeights G) {f : G.Fld} (hf : ∀ k, 0 ≤ f k) : 0 ≤ G.integ f := by
  unfold integ
  rw [Finset.mul_sum]
  exact Finset.sum_nonneg fun k _ => by
    rw [← mul_assoc]
    exact mul_nonneg (hG k) (hf k)

theorem KsScf.foldl_max (l : List (Fl K)) : ∀ (x : Fl K) (d : K),
    l.foldl (fun m y => if m.isnan then m else if y.isnan then y else if Fl.gt y m then y else m) x = .fin d →
    ∀ y ∈ x :: l, (∃ v, y = .fin v ∧ v ≤ d) ∨ y = .negInf := by
  induction l with
  | nil =>
    intro x d h y hy
    rw [List.mem_singleton] at hy
    subst hy
    exact .inl ⟨d, h, le_rfl⟩
  | cons z l ih =>
    intro x d h y hy
    rw [List.foldl_cons] at h
    have hx := ih _ d h
    have h0 := hx _ List.mem_cons_self
    have hl : ∀ w ∈ l, (∃ v, w = .fin v ∧ v ≤ d) ∨ w = .negInf := fun w hw => hx w (List.mem_cons_of_mem _ hw)
    have hxz : ((∃ v, x = .fin v ∧ v ≤ d) ∨ x = .negInf) ∧ ((∃ v, z = .fin v ∧ v ≤ d) ∨ z = .negInf) := by
      revert h0
      cases x <;> cases z <;> simp [Fl.isnan, Fl.gt]
      rename_i a b
      split
      · rename_i hab
        simp only [Fl.fin.injEq, exists_eq_left', or_false, reduceCtorEq]
        exact fun h => ⟨hab.le.trans h, h⟩
      · rename_i hab
        simp only [Fl.fin.injEq, exists_eq_left', or_false, reduceCtorEq]
        exact fun h => ⟨h, (not_lt.mp hab).trans h⟩
    simp only [List.mem_cons] at hy
    rcases hy with rfl | rfl | hy
    · exact hxz.1
    · exact hxz.2
    · exact hl y hy

/-- A numeric `dif_n` bounds the relative change of every spin density. -/
theorem KsScf.difN_close (hp : 2 ≤ p) (hG : NonnegWeights G) {n old : G.Cols p} {d etol : K}
    (h : difN n old = .ok (.fin d)) (hd : d ≤ etol) : Close etol n old := by
  obtain _ | _ | p := p
  · omega
  · omega
  simp only [difN, Grid.integrate] at h
  rw [dif_pos trivial] at h
  intro s
  generalize hl : ((List.finRange (p + 1 + 1)).flatMap fun s => (List.finRange (G.Na * G.Nr)).map fun _ =>
      Fl.div (.fin (2 * G.pi * G.hr * G.ha * ∑ k, G.wi k * G.w k * |n s k - old s k|))
        (.fin (2 * G.pi * G.hr * G.ha * ∑ k, G.wi k * G.w k * |n s k|))) = l at h
  have hne : 0 < G.Na * G.Nr := by
    rcases Nat.eq_zero_or_pos (G.Na * G.Nr) with h0 | h0
    · have : l = [] := by
        rw [← hl, List.flatMap_eq_nil_iff]
        intro s _
        rw [List.map_eq_nil_iff, ← List.length_eq_zero_iff, List.length_finRange, h0]
      rw [this] at h
      exact nomatch h
    · exact h0
  have hmem : Fl.div (.fin (G.integ fun k => |n s k - old s k|)) (.fin (G.integ fun k => |n s k|)) ∈ l := by
    rw [← hl]
    exact List.mem_flatMap.mpr ⟨s, List.mem_finRange _, List.mem_map.mpr ⟨⟨0, hne⟩, List.mem_finRange _, rfl⟩⟩
  have hall : ∀ y ∈ l, (∃ v, y = .fin v ∧ v ≤ d) ∨ y = .negInf := by
    cases l with
    | nil => exact nomatch h
    | cons x l => exact foldl_max l x d (Except.ok.inj h)
  have h1 : 0 ≤ G.integ fun k => |n s k - old s k| := G.integ_nonneg hG fun k => abs_nonneg _
  have h2 : 0 ≤ G.integ fun k => |n s k| := G.integ_nonneg hG fun k => abs_nonneg _
  rcases hall _ hmem with ⟨v, hv, hvd⟩ | hv
  · unfold Fl.div at hv
    by_cases h0 : G.integ (fun k => |n s k|) = 0
    · simp only [h0, if_true] at hv
      split at hv
      · exact nomatch hv
      · split at hv <;> exact nomatch hv
    · simp only [h0, if_false, Fl.fin.injEq] at hv
      have hpos := lt_of_le_of_ne h2 (Ne.symm h0)
      rw [div_eq_iff h0] at hv
      rw [hv]
      exact mul_le_mul_of_nonneg_right (hvd.trans hd) h2
  · exfalso
    unfold Fl.div at hv
    simp only at hv
    split at hv
    · split at hv
      · exact nomatch hv
      · rename_i hx
        rw [if_pos (lt_of_le_of_ne h1 (Ne.symm hx))] at hv
        exact nomatch hv
    · exact nomatch hv

/-- With electrons of both spins `dif_n` is a number. -/
theorem KsScf.difN_fin (hp : 2 ≤ p) {n old : G.Cols p}
    (hpos : ∀ s, 0 < G.integ fun k => |n s k|) {x : Fl K} (h : difN n old = .ok x) : ∃ y, x = .fin y := by
  obtain _ | _ | p := p
  · omega
  · omega
  simp only [difN, Grid.integrate] at h
  rw [dif_pos trivial] at h
  generalize hl : ((List.finRange (p + 1 + 1)).flatMap fun s => (List.finRange (G.Na * G.Nr)).map fun _ =>
      Fl.div (.fin (2 * G.pi * G.hr * G.ha * ∑ k, G.wi k * G.w k * |n s k - old s k|))
        (.fin (2 * G.pi * G.hr * G.ha * ∑ k, G.wi k * G.w k * |n s k|))) = l at h
  have hall : ∀ y ∈ l, ∃ v, y = .fin v := by
    intro y hy
    rw [← hl] at hy
    obtain ⟨s, -, hy⟩ := List.mem_flatMap.mp hy
    obtain ⟨_, -, rfl⟩ := List.mem_map.mp hy
    have : (2 * G.pi * G.hr * G.ha * ∑ k, G.wi k * G.w k * |n s k|) ≠ 0 := (hpos s).ne'
    exact ⟨_, by unfold Fl.div; simp only [if_neg this]; rfl⟩
  have key : ∀ (l : List (Fl K)) (x : Fl K), (∀ y ∈ x :: l, ∃ v, y = .fin v) →
      ∃ v, l.foldl (fun m y => if m.isnan then m else if y.isnan then y else if Fl.gt y m then y else m) x = .fin v := by
    intro l
    induction l with
    | nil => intro x hx; exact hx x List.mem_cons_self
    | cons z l ih =>
      intro x hx
      rw [List.foldl_cons]
      apply ih
      intro y hy
      rw [List.mem_cons] at hy
      rcases hy with rfl | hy
      · split
        · exact hx _ List.mem_cons_self
        · split
          · exact hx _ (List.mem_cons_of_mem _ List.mem_cons_self)
          · split
            · exact hx _ (List.mem_cons_of_mem _ List.mem_cons_self)
            · exact hx _ List.mem_cons_self
      · exact hx _ (List.mem_cons_of_mem _ (List.mem_cons_of_mem _ hy))
  cases l with
  | nil => exact nomatch h
  | cons z l =>
    obtain ⟨v, hv⟩ := key l z hall
    exact ⟨v, (Except.ok.inj h).symm.trans hv⟩

/-- A numeric `dif_E` is a relative change of two numbers. -/
theorem Fl.relative {E old : Fl K} {d : K} (h : Fl.abs (Fl.div (Fl.sub E old) E) = .fin d) :
    ∃ e e0, E = .fin e ∧ old = .fin e0 ∧ e ≠ 0 ∧ |e - e0| = d * |e| := by
  cases E with
  | nan => cases old <;> simp [Fl.sub, Fl.neg, Fl.add, Fl.div, Fl.abs] at h
  | posInf => cases old <;> simp [Fl.sub, Fl.neg, Fl.add, Fl.div, Fl.abs] at h
  | negInf => cases old <;> simp [Fl.sub, Fl.neg, Fl.add, Fl.div, Fl.abs] at h
  | fin e =>
    cases old with
    | nan => simp [Fl.sub, Fl.neg, Fl.add, Fl.div, Fl.abs] at h
    | posInf =>
      simp only [Fl.sub, Fl.neg, Fl.add, Fl.div] at h
      split at h <;> simp [Fl.abs] at h
    | negInf =>
      simp only [Fl.sub, Fl.neg, Fl.add, Fl.div] at h
      split at h <;> simp [Fl.abs] at h
    | fin e0 =>
      rw [Fl.sub_fin] at h
      unfold Fl.div at h
      by_cases h0 : e = 0
      · subst h0
        simp only [if_true] at h
        split at h
        · exact nomatch h
        · split at h <;> exact nomatch h
      · simp only [h0, if_false, Fl.abs_fin, Fl.fin.injEq] at h
        refine ⟨e, e0, rfl, rfl, h0, ?_⟩
        rw [← h, abs_div, div_mul_cancel₀ _ (abs_ne_zero.mpr h0)]

/-- The last pass of the loop, and whether it was the first. -/
theorem KsScf.loop_end {S : Type} (step : S → Py (S × Fl K × Fl K)) (etol : K) :
    ∀ (left : ℕ) (diff : Fl K) (s s' : S) (log) (d), loop step false etol left diff s = .ok (s', log) →
      log.getLast? = some d → ∃ t, (t = s ∨ ∃ t0 d0, step t0 = .ok (t, d0)) ∧ step t = .ok (s', d) := by
  intro left
  induction left with
  | zero =>
    intro diff s s' log d h hl
    unfold loop at h
    split at h
    all_goals
      simp only [Bool.false_eq_true, if_false, Except.ok.injEq, Prod.mk.injEq] at h
      rw [← h.2] at hl
      exact nomatch hl
  | succ left ih =>
    intro diff s s' log d h hl
    unfold loop at h
    split at h
    · simp only [Py.do_eq_ok, Bool.false_eq_true, if_false, Py.pure_eq_ok] at h
      obtain ⟨⟨t, dE, dn⟩, ht, ⟨t', log'⟩, ht', h⟩ := h
      simp only [Prod.mk.injEq] at h
      obtain ⟨rfl, rfl⟩ := h
      cases hl' : log'.getLast? with
      | none =>
        rw [List.getLast?_eq_none_iff] at hl'
        subst hl'
        have e : t' = t := by
          cases left with
          | zero =>
            unfold loop at ht'
            split at ht' <;>
              simp only [Bool.false_eq_true, if_false, Except.ok.injEq, Prod.mk.injEq] at ht' <;> exact ht'.1.symm
          | succ left =>
            unfold loop at ht'
            split at ht'
            · simp only [Py.do_eq_ok, Bool.false_eq_true, if_false, Py.pure_eq_ok] at ht'
              obtain ⟨_, _, _, _, h⟩ := ht'
              exact nomatch (Prod.mk.inj h).2
            · simp only [Bool.false_eq_true, if_false, Except.ok.injEq, Prod.mk.injEq] at ht'
              exact ht'.1.symm
        simp only [List.getLast?_singleton, Option.some.injEq] at hl
        subst e hl
        exact ⟨s, .inl rfl, ht⟩
      | some d' =>
        have : d' = d := by
          rw [List.getLast?_cons, hl'] at hl
          simpa using hl
        subst this
        obtain ⟨u, hu, hs⟩ := ih _ _ _ _ _ ht' hl'
        refine ⟨u, .inr ?_, hs⟩
        rcases hu with rfl | hu
        · exact ⟨s, _, ht⟩
        · exact hu
    · simp only [Bool.false_eq_true, if_false, Except.ok.injEq, Prod.mk.injEq] at h
      rw [← h.2] at hl
      exact nomatch hl

/-- C86 for `Kohnsham.scf`, partial: two spins, no `auto_tol`, no `spinflipsym`, `e_tol < 1`. If the loop ends before its
budget is used up and the last changes are numbers, the final density `n` mixes the density `n0` before the last pass with
the density `nout` of the orbitals in the potential of `n0`; the two differ by at most `e_tol / alpha` in the integral
norm, spin by spin, and the last energies differ by at most `e_tol`, relative to the final values.
Missing: one column (`C86_refuted_one`) and a spin without electrons (`C86_refuted_empty`). -/
theorem C86_kohnsham_partial (F : Functionals G p) (W : Workers G r c p) (o : Options K) (hp : 2 ≤ p) (hc : c ≤ p)
    (hG : NonnegWeights G) (ks ks' : KS G r c p) (log) (hauto : o.autoTol = false) (hflip : o.spinflipsym = false)
    (htol : o.etol < 1) (h : scf F W o ks = .ok (ks', log)) (hstop : log.length < (o.maxiter - 1).toNat) (dE dn : K)
    (hlast : log.getLast? = some (.fin dE, .fin dn)) :
    ∃ (ks0 m a b : KS G r c p) (n0 nout n vext vhxc : G.Cols p) (it : Bool),
      ks0.n = some n0 ∧ ks'.n = some n ∧
      -- the potential of `n0`
      ks0.calcHxc F = .ok m ∧ m.vhxc = some vhxc ∧ m.vext = some vext ∧
      (∀ i j, (a.solver (i, j)).veff = some fun k => m.vnuc ⟨j.1, by omega⟩ k + vext ⟨j.1, by omega⟩ k + vhxc ⟨j.1, by omega⟩ k) ∧
      -- the density of its orbitals
      a.calcDensity (W a it) = .ok (b, nout) ∧
      (∀ s k, n s k = (1 - o.alpha) * n0 s k + o.alpha * nout s k) ∧
      (∀ s, |o.alpha| * G.integ (fun k => |nout s k - n0 s k|) ≤ o.etol * G.integ fun k => |n s k|) ∧
      ∃ E0 E e0 e, ks0.E = some E0 ∧ ks'.E = some E ∧ E0.E = .fin e0 ∧ E.E = .fin e ∧ |e - e0| ≤ o.etol * |e| := by
  have hb := (C33_budget_partial F W o ks ks' log hauto h).2 hstop
  rw [hlast] at hb
  simp only at hb
  unfold scf at h
  simp only [Py.do_eq_ok, Py.pure_eq_ok, hauto] at h
  obtain ⟨k0, -, ⟨st, lg⟩, hrun, h⟩ := h
  simp only [Prod.mk.injEq] at h
  obtain ⟨rfl, rfl⟩ := h
  obtain ⟨t, ht, hs⟩ := loop_end _ _ _ _ _ _ _ _ hrun hlast
  -- what a pass does
  have need_some : ∀ {α : Type} {x : Option α} {y : α}, need x = .ok y → x = some y := by
    intro α x y hx
    cases x with
    | none => exact nomatch hx
    | some z => exact congrArg some (Except.ok.inj hx)
  have hbody : ∀ {s s' : State G r c p} {d}, body F W o s = .ok (s', d) →
      s'.ks.n = some s'.oldN ∧ ∃ E, s'.ks.E = some E ∧ E.E = s'.oldE := by
    intro s s' d hs
    unfold body at hs
    simp only [Py.do_eq_ok, Py.pure_eq_ok] at hs
    obtain ⟨a, -, b, -, e, -, u, hu, n', hn', E, hE, dn', -, hs⟩ := hs
    simp only [Prod.mk.injEq] at hs
    obtain ⟨rfl, -⟩ := hs
    exact ⟨need_some hn', E, need_some hE, rfl⟩
  unfold body at hs
  simp only [Py.do_eq_ok, Py.pure_eq_ok] at hs
  obtain ⟨a, ha, b, hb', e, he, u, hu, n', hn', E, hE, dn', hdn, hs⟩ := hs
  simp only [Prod.mk.injEq] at hs
  obtain ⟨rfl, hdE, hdn'⟩ := hs
  subst hdn'
  obtain ⟨x, x0, hx, hx0, hxne, hrel⟩ := Fl.relative hdE
  rcases ht with rfl | ⟨t0, d0, ht0⟩
  · -- the first pass is not converged
    exfalso
    have h0 : x0 = 0 := (Fl.fin.inj hx0).symm
    subst h0
    rw [sub_zero] at hrel
    have : dE = 1 := by
      have hpos := abs_pos.mpr hxne
      have : (dE - 1) * |x| = 0 := by linear_combination -hrel
      rcases mul_eq_zero.mp this with h | h
      · linear_combination h
      · exact absurd h hpos.ne'
    linarith [hb.1]
  · obtain ⟨hn0, E0, hE0, hE0'⟩ := hbody ht0
    unfold potential at ha
    simp only [Py.do_eq_ok, Py.pure_eq_ok] at ha
    obtain ⟨m, hm, vext, hv, vhxc, hh, sv, hsv, rfl⟩ := ha
    rw [distribute_ok _ hc] at hsv
    injection hsv with hsv
    subst hsv
    unfold density flipPotential at hb'
    simp only [hflip, Bool.false_eq_true, if_false, Py.do_eq_ok, Py.pure_eq_ok] at hb'
    obtain ⟨⟨b1, nout⟩, hd, n1, hn1, rfl⟩ := hb'
    simp only at hn1
    have k1 : b1.n = m.n := by
      have h1 := hd
      unfold calcDensity at h1
      simp only [Py.do_eq_ok, Py.pure_eq_ok] at h1
      obtain ⟨_, _, _, _, h1⟩ := h1
      obtain ⟨rfl, -⟩ := Prod.mk.inj h1
      rfl
    have hn1' : n1 = t.oldN := by
      have h2 := need_some hn1
      rw [k1, (calcHxc_keeps hm).2, hn0] at h2
      exact (Option.some.inj h2).symm
    subst hn1'
    have hn'' : n' = mix o.alpha t.oldN nout := by
      have h2 := need_some hn'
      rw [(calcChempot_keeps hu).2, (energy_keeps he).2] at h2
      exact (Option.some.inj h2).symm
    subst hn''
    refine ⟨t.ks, m, _, b1, t.oldN, nout, _, vext, vhxc, _, hn0, need_some hn', hm, need_some hh, need_some hv,
      fun i j => rfl, hd, fun s k => rfl, fun s => ?_, E0, E, x0, x, hE0, need_some hE, hE0'.trans hx0, hx, ?_⟩
    · have hcl := difN_close hp hG hdn hb.2 s
      refine le_trans (le_of_eq ?_) hcl
      rw [← Grid.integ_smul]
      congr 1
      funext k
      rw [← abs_mul]
      congr 1
      unfold mix
      ring
    · rw [hrel]
      exact mul_le_mul_of_nonneg_right hb.1 (abs_nonneg _)

/-- C86 is false for a single column: `integrate` multiplies all weights with all values, so `dif_n` compares plain sums.
Here it is 1/1000 although the densities differ by 1000 times the integral of the final one. -/
theorem C86_refuted_one : ∃ (G : Grid ℚ) (n old : G.Cols 1), NonnegWeights G ∧ (∀ s k, 0 ≤ n s k) ∧ (∀ s k, 0 ≤ old s k) ∧
    difN n old = .ok (.fin (1 / 1000)) ∧
    G.integ (fun k => |n 0 k - old 0 k|) = 1000 * G.integ (fun k => |n 0 k|) ∧ 0 < G.integ (fun k => |n 0 k|) := by
  refine ⟨⟨2, 1, 1 / 2, 1, 1, fun _ => 1, fun k => if k = 0 then 1000000 else 1⟩, fun _ k => if k.1 = 0 then 0 else 1,
    fun _ k => if k.1 = 0 then 1 / 1000 else 1, ?_, ?_, ?_, ?_, ?_, ?_⟩
  · unfold NonnegWeights; decide +kernel
  all_goals decide +kernel

theorem KsScf.foldl_nan (l : List (Fl K)) : ∀ (x : Fl K), .nan ∈ x :: l →
    l.foldl (fun m y => if m.isnan then m else if y.isnan then y else if Fl.gt y m then y else m) x = .nan := by
  induction l with
  | nil => intro x hx; rw [List.mem_singleton] at hx; exact hx.symm
  | cons z l ih =>
    intro x hx
    rw [List.foldl_cons]
    apply ih
    simp only [List.mem_cons] at hx ⊢
    rcases hx with hx | hx | hx
    · left; rw [← hx]; rfl
    · left
      subst hx
      cases x <;> rfl
    · exact .inr hx

/-- C86 is false for a spin without electrons (hydrogen with two spins): `dif_n` is NaN whatever the other spin density
does, and only the energy decides whether the loop goes on. -/
theorem C86_refuted_empty (hG : Nonempty G.Ix) (n old : G.Cols 2) (h1 : ∀ k, n 1 k = 0) (h2 : ∀ k, old 1 k = 0) :
    difN n old = .ok .nan ∧ ∀ dE : Fl K, Fl.pymax dE .nan = dE := by
  refine ⟨?_, fun dE => by simp [Fl.pymax]⟩
  obtain ⟨k0⟩ := hG
  simp only [difN, Grid.integrate]
  rw [dif_pos trivial]
  generalize hl : ((List.finRange 2).flatMap fun s => (List.finRange (G.Na * G.Nr)).map fun _ =>
      Fl.div (.fin (2 * G.pi * G.hr * G.ha * ∑ k, G.wi k * G.w k * |n s k - old s k|))
        (.fin (2 * G.pi * G.hr * G.ha * ∑ k, G.wi k * G.w k * |n s k|))) = l
  have hmem : Fl.nan ∈ l := by
    rw [← hl]
    refine List.mem_flatMap.mpr ⟨1, List.mem_finRange _, List.mem_map.mpr ⟨k0, List.mem_finRange _, ?_⟩⟩
    simp [h1, h2, Fl.div]
  cases l with
  | nil => exact nomatch hmem
  | cons x l => exact congrArg Except.ok (foldl_nan l x hmem)

namespace PartScf
open Part

theorem loop_end {S : Type} (step : S → Py (S × Fl K)) (etol : K) :
    ∀ (left : ℕ) (dif : Fl K) (s s' : S) (log) (w d), loop step false etol left dif s = .ok (s', log, w) →
      log.getLast? = some d → ∃ t, (t = s ∨ ∃ t0 d0, step t0 = .ok (t, d0)) ∧ step t = .ok (s', d) := by
  intro left
  induction left with
  | zero =>
    intro dif s s' log w d h hl
    unfold loop at h
    split at h
    all_goals
      simp only [Bool.false_eq_true, if_false, Except.ok.injEq, Prod.mk.injEq] at h
      rw [← h.2.1] at hl
      exact nomatch hl
  | succ left ih =>
    intro dif s s' log w d h hl
    unfold loop at h
    split at h
    · simp only [Bool.false_eq_true, if_false, Except.ok.injEq, Prod.mk.injEq] at h
      rw [← h.2.1] at hl
      exact nomatch hl
    · simp only [Py.do_eq_ok, Py.pure_eq_ok] at h
      obtain ⟨⟨t, d1⟩, ht, ⟨t', log', w'⟩, ht', h⟩ := h
      simp only [Prod.mk.injEq] at h
      obtain ⟨rfl, rfl, -⟩ := h
      cases hl' : log'.getLast? with
      | none =>
        rw [List.getLast?_eq_none_iff] at hl'
        subst hl'
        have e : t' = t := by
          cases left with
          | zero =>
            unfold loop at ht'
            split at ht' <;>
              simp only [Bool.false_eq_true, if_false, Except.ok.injEq, Prod.mk.injEq] at ht' <;> exact ht'.1.symm
          | succ left =>
            unfold loop at ht'
            split at ht'
            · simp only [Bool.false_eq_true, if_false, Except.ok.injEq, Prod.mk.injEq] at ht'
              exact ht'.1.symm
            · simp only [Py.do_eq_ok, Py.pure_eq_ok] at ht'
              obtain ⟨_, _, _, _, h⟩ := ht'
              exact nomatch (Prod.mk.inj (Prod.mk.inj h).2).1
        simp only [List.getLast?_singleton, Option.some.injEq] at hl
        subst e hl
        exact ⟨s, .inl rfl, ht⟩
      | some d' =>
        have : d' = d := by
          rw [List.getLast?_cons, hl'] at hl
          simpa using hl
        subst this
        obtain ⟨u, hu, hs⟩ := ih _ _ _ _ _ _ ht' hl'
        refine ⟨u, .inr ?_, hs⟩
        rcases hu with rfl | hu
        · exact ⟨s, _, ht⟩
        · exact hu

theorem SameBut.nf {P P' : Part G r c p} (h : SameBut P P') : P'.nf = P.nf := by
  obtain ⟨a, b, AB, rfl⟩ := h
  rfl

/-- C86 for `Partition.scf`, partial: two spins, both with electrons, no `auto_tol`, `e_tol < 1`. If the loop ends before
its budget is used up and the last change is a number, the promolecular density and the total energy changed by at
most `e_tol` (relative to the final values) in the last pass.
Missing: the fragments' own densities, `from_target_density` (`C86_refuted_target`), one column, a spin without electrons. -/
theorem C86_partition_partial (T : ℕ → Env G r c p) (W : ℕ → KsScf.Workers G r c p) (o : Options K) (hp : 2 ≤ p)
    (hG : NonnegWeights G) (P P' : Part G r c p) (log) (w) (hauto : o.autoTol = false)
    (htol : o.etol < 1) (h : scf T W o P = .ok (P', log, w)) (hstop : log.length < o.maxIter.toNat) (d : K)
    (hlast : log.getLast? = some (.fin d)) (hpos : ∀ nf, P'.nf = some nf → ∀ s, 0 < G.integ fun k => |nf s k|) :
    ∃ (t : State G r c p) (nf0 nf : G.Cols p), t.P.nf = some nf0 ∧ P'.nf = some nf ∧
      pass (T t.it) (W t.it) o t.dif (avoid t.it t.P) = .ok P' ∧ Close o.etol nf nf0 ∧
      ∃ E0 E e0 e, t.P.E = some E0 ∧ P'.E = some E ∧ E0.E = .num (.fin e0) ∧ E.E = .num (.fin e) ∧
        |e - e0| ≤ o.etol * |e| := by
  have hd := (C44_budget_partial T W o P P' log w h).2.2.1 hstop
  rw [hlast] at hd
  simp only at hd
  unfold scf at h
  simp only [Py.do_eq_ok, Py.pure_eq_ok, hauto] at h
  obtain ⟨P₀, -, nf₀, -, ⟨st, lg, ws⟩, hrun, h⟩ := h
  simp only [Prod.mk.injEq] at h
  obtain ⟨rfl, rfl, rfl⟩ := h
  obtain ⟨t, ht, hs⟩ := loop_end _ _ _ _ _ _ _ _ _ hrun hlast
  have hE : ∀ {old : Fl K} {E : Tot G} {x : Fl K × Fl K}, difE old E = .ok x →
      E = .num x.1 ∧ x.2 = Fl.abs (Fl.div (Fl.sub x.1 old) x.1) := by
    intro old E x hx
    cases E with
    | num y => obtain rfl := Except.ok.inj hx; exact ⟨rfl, rfl⟩
    | vec f =>
      unfold difE at hx
      simp only at hx
      split at hx <;> exact nomatch hx
  have hbody : ∀ {s s' : State G r c p} {d}, body T W o s = .ok (s', d) →
      s'.P.nf = some s'.oldNf ∧ ∃ E, s'.P.E = some E ∧ E.E = .num s'.oldE := by
    intro s s' d hs
    unfold body at hs
    simp only [Py.do_eq_ok, Py.pure_eq_ok] at hs
    obtain ⟨Q, -, e, he, nf, hnf, ⟨E, x⟩, hx, dn, -, k, -, hs⟩ := hs
    simp only [Prod.mk.injEq] at hs
    obtain ⟨rfl, -⟩ := hs
    exact ⟨attr_eq_ok.mp hnf, e, attr_eq_ok.mp he, (hE hx).1⟩
  unfold body at hs
  simp only [Py.do_eq_ok, Py.pure_eq_ok] at hs
  obtain ⟨Q, hQ, e, he, nf, hnf, ⟨E, x⟩, hx, dn, hdn, k, -, hs⟩ := hs
  simp only [Prod.mk.injEq] at hs
  obtain ⟨rfl, hmax⟩ := hs
  obtain ⟨hEe, hxe⟩ := hE hx
  simp only at hEe hxe
  have hnf' := attr_eq_ok.mp hnf
  have hp' := hpos nf hnf'
  -- both changes are numbers
  obtain ⟨dn, rfl⟩ : ∃ y, dn = .fin y := KsScf.difN_fin hp hp' hdn
  obtain ⟨dE, rfl, hdE, hdn'⟩ : ∃ y, x = .fin y ∧ y ≤ d ∧ dn ≤ d := by
    cases x with
    | fin y =>
      simp only [Fl.pymax, Fl.gt_fin, decide_eq_true_eq] at hmax
      split at hmax
      · rename_i hlt
        obtain rfl := Fl.fin.inj hmax
        exact ⟨y, rfl, hlt.le, le_rfl⟩
      · rename_i hlt
        obtain rfl := Fl.fin.inj hmax
        exact ⟨y, rfl, le_rfl, not_lt.mp hlt⟩
    | nan => simp [Fl.pymax] at hmax
    | posInf => simp [Fl.pymax, Fl.gt] at hmax
    | negInf =>
      exfalso
      revert hxe
      cases (Fl.div (Fl.sub E t.oldE) E) <;> simp [Fl.abs]
  obtain ⟨x, x0, hx1, hx0, hxne, hrel⟩ := Fl.relative hxe.symm
  rcases ht with rfl | ⟨t0, d0, ht0⟩
  · exfalso
    have h0 : x0 = 0 := (Fl.fin.inj hx0).symm
    subst h0
    rw [sub_zero] at hrel
    have : dE = 1 := by
      have hpos := abs_pos.mpr hxne
      have : (dE - 1) * |x| = 0 := by linear_combination -hrel
      rcases mul_eq_zero.mp this with h | h
      · linear_combination h
      · exact absurd h hpos.ne'
    linarith
  · obtain ⟨hn0, E0, hE0, hE0'⟩ := hbody ht0
    refine ⟨t, t.oldNf, nf, hn0, hnf', hQ, KsScf.difN_close hp hG hdn (hdn'.trans hd), E0, e, x0, x, hE0,
      attr_eq_ok.mp he, by rw [hE0', hx0], by rw [hEe, hx1], ?_⟩
    rw [hrel]
    exact mul_le_mul_of_nonneg_right (hdE.trans hd) (abs_nonneg _)

/-- C86 is false with `from_target_density`: a pass leaves `nf` as it is, so the density part of the check is empty
however much the fragments change. -/
theorem C86_refuted_target (T : Env G r c p) (W : KsScf.Workers G r c p) (o : Options K) (ho : o.fromTarget = true)
    (dif : Fl K) (P P' : Part G r c p) (h : pass T W o dif P = .ok P') : P'.nf = P.nf := by
  obtain ⟨P₁, P₂, P₃, P₄, P₅, P₆, vp, h1, h2, h3, h4, h5, h6, h7, -⟩ := pass_inv h
  unfold promolecule at h6
  rw [ho, if_pos rfl] at h6
  rw [(energy_frame h7).nf, SameBut.nf (calcQ_inv h6).1, SameBut.nf (mirrorIf_inv h5).1, SameBut.nf (onKSab_inv h4).1,
    (potential_inv h3).nf, SameBut.nf (mirrorIf_inv h2).1, SameBut.nf (onKSab_inv h1).1]

end PartScf

/-- Two spins, densities `2, 2` and `1, 2` on one point: half of the first spin changed. -/
example : difN (G := Grid.tiny ℚ) (p := 2) (fun _ _ => 2) (fun s _ => 1 + s.1) = .ok (.fin (1 / 2)) := by decide +kernel

end Verif
