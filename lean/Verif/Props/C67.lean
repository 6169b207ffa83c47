import Verif.Props.C53_C54
import Verif.Props.C55
import Verif.Props.C56_C57

/-!
# C67: what a converged `orbitalinvert` delivers
-/

namespace Verif
open OrbInv Spec

section Loop
variable {K : Type} [Field K] [LinearOrder K] [IsStrictOrderedRing K] {S : Type}

/-- An invariant of `renew` is an invariant of the loop. -/
theorem loop_inv (o : Options K) (resid : S → Fl K × Fl K) (renew : Bool → S → Py S) (I : S → Prop)
    (hI : ∀ b X Y, I X → renew b X = .ok Y → I Y) (left : ℕ) : ∀ (iter : ℕ) (h : Hist K) (X : S) (q : Result K S),
    I X → loop o resid renew left iter h X = .ok q → I q.X := by
  induction left with
  | zero =>
    intro iter h X q hX hq
    rw [loop_eq] at hq
    split at hq <;> (obtain rfl := Except.ok.inj hq; exact hX)
  | succ left ih =>
    intro iter h X q hX hq
    rw [loop_eq] at hq
    split at hq
    · obtain rfl := Except.ok.inj hq; exact hX
    · simp only [bind, Except.bind] at hq
      split at hq
      · exact nomatch hq
      · next X' hX' =>
        have hI' := hI _ _ _ hX hX'
        split at hq
        · obtain rfl := Except.ok.inj hq; exact hI'
        · split at hq
          · exact nomatch hq
          · next q' hq' =>
            obtain rfl := Except.ok.inj hq
            exact ih _ _ _ q' hI' hq'

end Loop

section
variable {G : Grid ℝ} {M : ℕ}

theorem maxAbs_le {n : ℕ} {f : Fin n → ℝ} {t : ℝ} (h : maxAbs f ≤ t) (i : Fin n) : |f i| ≤ t :=
  ((Finset.fold_max_le _).1 h).2 i (Finset.mem_univ _)

theorem sum_wwi (f : G.Fld) : ∑ k, wwi G k * f k = G.integ f := by
  rw [Grid.integ, Finset.mul_sum]
  exact Finset.sum_congr rfl fun k _ => by rw [wwi]; ring

/-- Whatever `normalize` returns is normalised. -/
theorem normalize_norm {n : ℕ} (w : Fin n → ℝ) (occ : Fin (M + 1) → ℝ) (X Y : Unk ℝ n M) (ho : ∀ i, 0 < occ i)
    (h : OrbInv.normalize w occ X = .ok Y) (i : Fin (M + 1)) : wnorm w Y i = occ i := by
  have hc : ∀ i, wnorm w X i ≠ 0 ∧ 0 ≤ occ i / wnorm w X i := by
    by_contra hc
    rw [OrbInv.normalize, if_neg hc] at h
    exact nomatch h
  have hS : ∀ i, 0 < wnorm w X i := fun i => by
    obtain ⟨h1, h2⟩ := hc i
    rcases lt_or_gt_of_ne h1 with h3 | h3
    · exact absurd h2 (not_le.2 (div_neg_of_pos_of_neg (ho i) h3))
    · exact h3
  obtain ⟨Y', h1, h2, -⟩ := C54_normalize w occ X hS ho
  obtain rfl := Except.ok.inj (h1.symm.trans h)
  exact h2 i

theorem tidy_norm (ab : Bool) (occ : Fin (M + 1) → ℝ) (ho : ∀ i, 0 < occ i) (X Y : Unk ℝ (G.Na * G.Nr) M)
    (h : tidy ab occ X = .ok Y) (i : Fin (M + 1)) : wnorm (wwi G) Y i = occ i := by
  cases ab with
  | false => exact normalize_norm _ _ _ _ ho h i
  | true =>
    obtain ⟨X', -, h⟩ := Py.bind_eq_ok.1 (show Except.bind (abSymmetrize X) _ = .ok Y from h)
    exact normalize_norm _ _ _ _ ho h i

theorem renew_norm (O : Oracle G M) (o : Options ℝ)
    (H : Matrix (Fin ((M + 1) * (G.Na * G.Nr))) (Fin ((M + 1) * (G.Na * G.Nr))) ℝ)
    (n0 : G.Fld) (occ : Fin (M + 1) → ℝ) (ho : ∀ i, 0 < occ i) (b : Bool) (X Y : Unk ℝ (G.Na * G.Nr) M)
    (h : renew O o H n0 occ b X = .ok Y) (i : Fin (M + 1)) : wnorm (wwi G) Y i = occ i := by
  cases b with
  | false =>
    obtain ⟨X', -, h⟩ := Py.bind_eq_ok.1 (show Except.bind (orbitalStep O X) _ = .ok Y from h)
    exact tidy_norm _ _ ho _ _ h i
  | true =>
    obtain ⟨X', -, h⟩ := Py.bind_eq_ok.1
      (show Except.bind (newtonStep O o.useIterative H n0 occ X) _ = .ok Y from h)
    exact tidy_norm _ _ ho _ _ h i

/-- Density of `Nmo` filled orbitals that are normalised to 2. -/
theorem filled_density (s : Solver G) (hN : s.N = s.scale * (M + 1)) (phi : Fin (M + 1) → G.Fld)
    (hphi : s.phi = some (List.ofFn phi)) (h2 : ∀ i, G.integ (fun k => phi i k ^ 2) = 2) :
    s.calcDensity = .ok fun k => s.scale / 2 * ∑ i, phi i k ^ 2 := by
  have hs := s.scale_pos
  have hx : s.N / s.scale = ((M + 1 : ℕ) : ℝ) := by rw [hN]; push_cast; field_simp
  have hne : needed s.fractional (s.N / s.scale) = M + 1 := by
    rw [hx, needed]
    split
    · rw [Int.ceil_natCast]; rfl
    · rw [Int.floor_natCast]; rfl
  have hN0 : 0 ≤ s.N := by rw [hN]; positivity
  rw [Solver.calcDensity_eq s hN0 _ hphi, hne, if_pos (by simp)]
  refine congrArg Except.ok (funext fun k => ?_)
  have hf : ∀ i : Fin (List.ofFn phi).length, fill s.fractional (s.N / s.scale) i.1 *
      ((List.ofFn phi)[i.1] k ^ 2 / G.integ fun k => (List.ofFn phi)[i.1] k ^ 2) =
      phi (i.cast (by simp)) k ^ 2 / 2 := fun i => by
    have hi : i.1 < M + 1 := by have := i.2; simpa using this
    have hi' : (i.1 : ℝ) + 1 ≤ M + 1 := by exact_mod_cast hi
    have e : fill s.fractional (s.N / s.scale) i.1 = 1 := by
      rw [hx, fill]
      push_cast
      split
      · rw [filling, max_eq_right (by linarith), min_eq_left (by linarith)]
      · rw [fillingWhole, if_pos hi']
    rw [e, one_mul]
    simp only [List.getElem_ofFn]
    exact congrArg (phi (i.cast (by simp)) k ^ 2 / ·) (h2 _)
  rw [Finset.sum_congr rfl fun i _ => hf i]
  have : ∑ i : Fin (List.ofFn phi).length, phi (i.cast (by simp)) k ^ 2 / 2 = ∑ i, phi i k ^ 2 / 2 :=
    Equiv.sum_comp (finCongr (by simp)) fun i => phi i k ^ 2 / 2
  rw [this, Finset.mul_sum, Finset.mul_sum]
  exact Finset.sum_congr rfl fun i _ => by ring

/-- Its highest occupied eigenvalue is the last one. -/
theorem filled_homo (s : Solver G) (hN : s.N = s.scale * (M + 1)) (ev : Fin (M + 1) → ℝ)
    (hev : s.eig = some (List.ofFn ev)) : s.getHomo = .ok (ev (Fin.last M)) := by
  have hs := s.scale_pos
  have hx : s.N / s.scale = ((M + 1 : ℕ) : ℝ) := by rw [hN]; push_cast; field_simp
  have ho : s.occupation = (((M + 1 : ℕ) : ℤ), 0) := by
    rw [Solver.occupation_eq, hx, Int.floor_natCast]; simp
  have e : ((M + 1 : ℕ) : ℤ) - 1 = (M : ℤ) := by push_cast; ring
  have e' : ((M + 1 : ℕ) : ℤ) ≠ 0 := by omega
  simp only [Solver.getHomo, ho, ne_eq, not_true_eq_false, if_false]
  rw [if_pos e', e, Solver.eigAt, hev]
  simp only
  rw [pyGet_ofNat _ _ (by simp), List.getElem_ofFn]
  rfl

/-- Residuals of finite vectors are finite. -/
theorem log_fin (H : Matrix (Fin ((M + 1) * (G.Na * G.Nr))) (Fin ((M + 1) * (G.Na * G.Nr))) ℝ)
    (n0 : G.Fld) (occ : Fin (M + 1) → ℝ) (o : Options ℝ) (renew : Bool → Unk ℝ (G.Na * G.Nr) M → Py (Unk ℝ (G.Na * G.Nr) M))
    (left : ℕ) : ∀ (iter : ℕ) (h : Hist ℝ) (X) (q : Result ℝ (Unk ℝ (G.Na * G.Nr) M)),
    loop o (residuals H n0 occ) renew left iter h X = .ok q →
    ∀ r ∈ q.log, ∃ x y, r = ((.fin x, .fin y) : Fl ℝ × Fl ℝ) := by
  induction left with
  | zero =>
    intro iter h X q hq r hr
    rw [loop_eq] at hq
    split at hq <;> (obtain rfl := Except.ok.inj hq; rw [List.mem_singleton.1 hr]; exact ⟨_, _, rfl⟩)
  | succ left ih =>
    intro iter h X q hq r hr
    rw [loop_eq] at hq
    split at hq
    · obtain rfl := Except.ok.inj hq; rw [List.mem_singleton.1 hr]; exact ⟨_, _, rfl⟩
    · simp only [bind, Except.bind] at hq
      split at hq
      · exact nomatch hq
      · split at hq
        · obtain rfl := Except.ok.inj hq; rw [List.mem_singleton.1 hr]; exact ⟨_, _, rfl⟩
        · split at hq
          · exact nomatch hq
          · next q' hq' =>
            obtain rfl := Except.ok.inj hq
            rcases List.mem_cons.1 hr with rfl | hr
            · exact ⟨_, _, rfl⟩
            · exact ih _ _ _ _ hq' r hr

theorem occupationOf_ok (s : Solver G) (hm : s.m = 0) {l : List ℝ} (h : occupationOf s = .ok l) :
    l = List.replicate s.Nmo 2 := by
  unfold occupationOf at h
  rw [if_pos hm] at h
  simp only at h
  generalize (if s.pol = 1 then (trunc s.N : ℝ) / 2 - ⌊(trunc s.N : ℝ) / 2⌋
    else (trunc s.N : ℝ) - ⌊(trunc s.N : ℝ)⌋) = nu at h
  by_cases hn : nu ≠ 0
  · rw [if_pos hn] at h; exact nomatch h
  · rw [if_neg hn] at h; exact (Except.ok.inj h).symm

/-- C67.  For an `m = 0` solver whose `Nmo` orbitals are all full: whenever `orbitalinvert` returns, it
has made at most `max(1, max_iter_invert)` passes, the solver holds orbitals normalised to 2 and
eigenvalues whose last entry, and the stored chemical potential, are 0, and the potential it stored.
If moreover the flag is True (tolerance at most 100) then at every point the weighted difference of the
solver's density (doubled when spin-polarised) and the target is at most twice the tolerance, and
the Kohn-Sham equation of every orbital holds up to the tolerance. -/
theorem C67_converged (O : Oracle G M) (o : Options ℝ) (s : Solver G) (H0 : Matrix G.Ix G.Ix ℝ) (n0 : G.Fld)
    (X0 : Unk ℝ (G.Na * G.Nr) M) (hm : s.m = 0) (hNmo : s.Nmo = M + 1)
    (hN : s.N = s.scale * (M + 1)) (out : Outcome G) (h : orbitalinvert O o s H0 n0 X0 = .ok out) :
    1 ≤ out.nfev ∧ (out.nfev : ℤ) ≤ max 1 o.maxIter ∧ out.us = 0 ∧ out.solver.veff = some out.vs ∧
    ∃ (phi : Fin (M + 1) → G.Fld) (ev : Fin (M + 1) → ℝ),
      out.solver.phi = some (List.ofFn phi) ∧ out.solver.eig = some (List.ofFn ev) ∧ ev (Fin.last M) = 0 ∧
      (∀ i, G.integ (fun k => phi i k ^ 2) = 2) ∧
      (∀ k, out.n k = s.scale / 2 * ∑ i, phi i k ^ 2) ∧
      (out.flag = true → o.tol ≤ 100 →
        (∀ k, |G.w k * (2 * G.pi * G.hr * G.ha * G.wi k) * (2 / s.scale * out.n k - n0 k)| ≤ 2 * o.tol) ∧
        ∀ i k, |2 * G.pi * G.hr * G.ha * G.wi k *
          ((∑ l, H0 k l * phi i l) + G.w k * (out.vs k - ev i) * phi i k)| ≤ o.tol) := by
  simp only [orbitalinvert, bind, Except.bind] at h
  split at h
  · exact nomatch h
  next occl hocc =>
  split at h
  · exact nomatch h
  next X hX =>
  split at h
  · exact nomatch h
  next q hq =>
  -- occupations
  have hrep : occl = List.replicate s.Nmo 2 := by
    simp only [occupations, List.mapM_cons, List.mapM_nil, bind, Except.bind, pure, Except.pure] at hocc
    split at hocc
    · exact nomatch hocc
    next D hD =>
    have hD' : D = [List.replicate s.Nmo 2] := by
      split at hD
      · exact nomatch hD
      next l hl =>
      obtain rfl := Except.ok.inj hD
      rw [occupationOf_ok s hm hl]
    rw [hD'] at hocc
    simp only [pyGet] at hocc
    simp [hNmo] at hocc
    rw [← hocc, hNmo]
  obtain ⟨occ, hocc'⟩ : ∃ occ : Fin (M + 1) → ℝ, occ = fun i => occl.getD i.1 0 := ⟨_, rfl⟩
  rw [← hocc'] at hX hq
  have ho2 : ∀ i, occ i = 2 := fun i => by
    have : i.1 < s.Nmo := by omega
    rw [hocc', hrep]
    simp [List.getD, this]
  have ho : ∀ i, 0 < occ i := fun i => by rw [ho2]; norm_num
  obtain ⟨H, hH⟩ : ∃ H, H = blockH (M := M) fun k l => (2 * G.pi * G.hr * G.ha * G.wi k) * H0 k l := ⟨_, rfl⟩
  rw [← hH] at hq
  have hn : ∀ i, wnorm (wwi G) q.X i = occ i :=
    loop_inv o _ _ (fun X => ∀ i, wnorm (wwi G) X i = occ i)
      (fun b X Y _ hY => renew_norm O o H n0 occ ho b X Y hY) _ _ _ _ _ (tidy_norm _ _ ho _ _ hX) hq
  have hint : ∀ i, G.integ (fun k => phiOf q.X i k ^ 2) = 2 := fun i => by
    rw [← sum_wwi, ← ho2 i, ← hn i]; rfl
  have L := loop_ok o _ _ _ _ _ _ _ hq
  -- final part
  simp only [finish] at h
  have hh := filled_homo { s with
    phi := some (List.ofFn (phiOf q.X)), eig := some (List.ofFn (evalsOf q.X)) } hN (evalsOf q.X) rfl
  have hd := filled_density { s with
    phi := some (List.ofFn (phiOf q.X)), eig := some (List.ofFn (evalsOf q.X)) } hN (phiOf q.X) rfl hint
  simp only [hh, hd, bind, Except.bind, pure, Except.pure] at h
  obtain rfl := Except.ok.inj h
  have hlo := L.lower
  have hup := L.upper
  refine ⟨hlo, by simp only; omega, evalsOf_last _, rfl, phiOf q.X, evalsOf q.X, rfl, rfl, evalsOf_last _, hint,
    fun k => rfl, fun hf ht => ?_⟩
  obtain ⟨⟨ks, ncon⟩, hl, hres⟩ := L.last
  have hle : Fl.gt q.res (.fin o.tol) = false := by simpa [flag] using hf
  -- the last residuals are those of q.X
  have hfin : ∃ x y, ks = .fin x ∧ ncon = .fin y := by
    have hmem : ∀ r ∈ q.log, ∃ x y, r = ((.fin x, .fin y) : Fl ℝ × Fl ℝ) := log_fin H n0 occ o _ _ _ _ _ _ hq
    obtain ⟨x, y, hxy⟩ := hmem (ks, ncon) (List.mem_of_getLast? hl)
    exact ⟨x, y, (Prod.ext_iff.1 hxy).1, (Prod.ext_iff.1 hxy).2⟩
  obtain ⟨x, y, rfl, rfl⟩ := hfin
  rw [hres, gt_pymax (.fin x) (.fin y) (fun h => nomatch h) (fun h => nomatch h)] at hle
  have hbig : Fl.gt q.res (.fin 100) = false := by
    rw [hres, gt_pymax (.fin x) (.fin y) (fun h => nomatch h) (fun h => nomatch h)]
    exact ⟨le_trans hle.1 ht, le_trans hle.2 ht⟩
  have hm' := L.measured hbig
  rw [hl] at hm'
  obtain ⟨hx, hy⟩ := Prod.ext_iff.1 (Option.some.inj hm')
  simp only [residuals, Fl.fin.injEq] at hx hy
  have hx' : maxAbs (fun t => eqn (wwi G) H n0 occ q.X (Fin.castAdd _ t)) ≤ o.tol := hx ▸ hle.1
  have hy' : maxAbs (fun k => eqn (wwi G) H n0 occ q.X (potIx k)) ≤ o.tol := hy ▸ hle.2
  have hs := s.scale_pos
  refine ⟨fun k => ?_, fun i k => ?_⟩
  · have := maxAbs_le hy' k
    simp only [eqn_pot] at this
    have e : G.w k * (2 * G.pi * G.hr * G.ha * G.wi k) *
        (2 / s.scale * (s.scale / 2 * ∑ i, phiOf q.X i k ^ 2) - n0 k) =
        2 * (wwi G k * (((∑ i, phiOf q.X i k ^ 2) - n0 k) / 2)) := by
      rw [wwi]; field_simp
    change |G.w k * (2 * G.pi * G.hr * G.ha * G.wi k) *
        (2 / s.scale * (s.scale / 2 * ∑ i, phiOf q.X i k ^ 2) - n0 k)| ≤ _
    rw [e, abs_mul, abs_two]
    linarith
  · have := maxAbs_le hx' (finProdFinEquiv (i, k))
    have e : eqn (wwi G) H n0 occ q.X (Fin.castAdd _ (finProdFinEquiv (i, k))) =
        2 * G.pi * G.hr * G.ha * G.wi k * ((∑ l, H0 k l * phiOf q.X i l) +
          G.w k * (potOf q.X k - evalsOf q.X i) * phiOf q.X i k) := by
      have e1 := eqn_phi (wwi G) H n0 occ q.X i k
      rw [show phiIx i k = Fin.castAdd _ (finProdFinEquiv (i, k)) from rfl] at e1
      rw [e1, hH, sum_orb, Finset.sum_eq_single i]
      · simp only [blockH, divNat_pair, modNat_pair, if_true]
        rw [mul_add, Finset.mul_sum]
        congr 1
        · exact Finset.sum_congr rfl fun l _ => by rw [mul_assoc]; rfl
        · rw [wwi]; ring
      · intro j _ hj
        simp [blockH, Ne.symm hj]
      · simp
    rw [← e]
    exact this

/-- Two points, one orbital `(1,1)`, `H0 = [[0,-1],[-1,0]]`, potential 1, target density `(1,1)`: the
inversion starts at the solution and stops after one pass with flag True. -/
example (O : Oracle (Grid.tiny ℝ) 0) : ∃ out,
    orbitalinvert O ⟨false, false, false, 1 / 1000, 20, 1⟩
      (⟨1, 2, 0, 1, false, false, none, none, none⟩ : Solver (Grid.tiny ℝ)) ![![0, -1], ![-1, 0]] ![1, 1]
      (![1, 1, 1, 1] : Fin 4 → ℝ) = .ok out ∧ out.flag = true ∧ out.nfev = 1 := by
  have hw : wwi (Grid.tiny ℝ) = fun _ => 1 := by
    funext k; simp [wwi, Grid.tiny]
  let X : Unk ℝ ((Grid.tiny ℝ).Na * (Grid.tiny ℝ).Nr) 0 := (![1, 1, 1, 1] : Fin 4 → ℝ)
  have hX : ∀ j, X j = 1 := fun j => by
    change (![1, 1, 1, 1] : Fin 4 → ℝ) j = 1
    revert j
    intro j
    have : ∀ j : Fin 4, (![1, 1, 1, 1] : Fin 4 → ℝ) j = 1 := by
      intro j; fin_cases j <;> rfl
    exact this j
  have hocc : occupations [(⟨1, 2, 0, 1, false, false, none, none, none⟩ : Solver (Grid.tiny ℝ))] = .ok [2] := by
    obtain ⟨occ, h1, h2, h3⟩ := C57_occupations_partial
      (⟨1, 2, 0, 1, false, false, none, none, none⟩ : Solver (Grid.tiny ℝ)) rfl rfl (by norm_num) (by norm_num)
    rw [h1]
    match occ, h2, h3 with
    | [x], _, h3 =>
      have := h3 0 (by simp)
      simp only [List.getElem_cons_zero] at this
      rw [this]
      simp [electronsIn, Solver.occupation, Solver.scale]
  have hn : ∀ i, wnorm (fun _ => 1) X i = 2 := fun i => by
    simp only [wnorm, phiOf, hX]
    rw [Grid.tiny_sum]
    norm_num
  obtain ⟨occ, hocc'⟩ : ∃ occ : Fin (0 + 1) → ℝ, occ = fun i => [(2 : ℝ)].getD i.1 0 := ⟨_, rfl⟩
  have ho2 : ∀ i, occ i = 2 := fun i => by
    obtain rfl : i = 0 := Fin.fin_one_eq_zero i
    rw [hocc']; rfl
  have htidy : tidy (G := Grid.tiny ℝ) false occ X = .ok X := by
    change OrbInv.normalize (wwi (Grid.tiny ℝ)) occ X = .ok X
    rw [hw, OrbInv.normalize, if_pos fun i => by rw [hn, ho2]; norm_num]
    refine congrArg Except.ok (unk_ext (fun i k => ?_) (by simp) (by simp))
    simp only [stack_phiIx, flat_pair, hn, ho2]
    norm_num [phiOf]
  have hzero : eqn (wwi (Grid.tiny ℝ)) (blockH (M := 0) fun k l =>
      (2 * (Grid.tiny ℝ).pi * (Grid.tiny ℝ).hr * (Grid.tiny ℝ).ha * (Grid.tiny ℝ).wi k) *
        (![![0, -1], ![-1, 0]] : Matrix (Fin 2) (Fin 2) ℝ) k l) ![1, 1] occ X = 0 := by
    refine (C65_zero_iff (wwi (Grid.tiny ℝ)) _ occ _ (fun k => by rw [hw]; norm_num) X).2
      ⟨fun i k => ?_, fun k => ?_, fun i => i.elim0⟩
    · obtain rfl : i = 0 := Fin.fin_one_eq_zero i
      have h0 : evalsOf X 0 = 0 := evalsOf_last X
      simp only [hw, phiOf, potOf, hX, h0]
      rw [Grid.tiny_sum]
      have : ∀ k : Fin 2, (![![0, -1], ![-1, 0]] : Matrix (Fin 2) (Fin 2) ℝ) k 0 +
          (![![0, -1], ![-1, 0]] : Matrix (Fin 2) (Fin 2) ℝ) k 1 = -1 := by
        intro k; fin_cases k <;> norm_num
      have := this k
      linarith
    · simp only [phiOf, hX]
      have : ∀ k : Fin 2, (![1, 1] : Fin 2 → ℝ) k = 1 := by intro k; fin_cases k <;> rfl
      rw [this k]
      norm_num
  have hmax : ∀ n, maxAbs (fun _ : Fin n => (0 : ℝ)) = 0 := fun n => by
    refine le_antisymm ((Finset.fold_max_le _).2 ⟨le_rfl, by simp⟩) ((Finset.le_fold_max _).2 (.inl le_rfl))
  have hres : residuals (G := Grid.tiny ℝ) (blockH (M := 0) fun k l =>
      (2 * (Grid.tiny ℝ).pi * (Grid.tiny ℝ).hr * (Grid.tiny ℝ).ha * (Grid.tiny ℝ).wi k) *
        (![![0, -1], ![-1, 0]] : Matrix (Fin 2) (Fin 2) ℝ) k l) ![1, 1] occ X = (.fin 0, .fin 0) := by
    rw [residuals, hzero]
    simp only [Pi.zero_apply, hmax]
  obtain ⟨q, hq1, hq2⟩ : ∃ q, run (⟨false, false, false, 1 / 1000, 20, 1⟩ : OrbInv.Options ℝ)
      (residuals (G := Grid.tiny ℝ) (blockH (M := 0) fun k l =>
      (2 * (Grid.tiny ℝ).pi * (Grid.tiny ℝ).hr * (Grid.tiny ℝ).ha * (Grid.tiny ℝ).wi k) *
        (![![0, -1], ![-1, 0]] : Matrix (Fin 2) (Fin 2) ℝ) k l) ![1, 1] occ) (renew O ⟨false, false, false, 1 / 1000, 20, 1⟩
        (blockH (M := 0) fun k l =>
      (2 * (Grid.tiny ℝ).pi * (Grid.tiny ℝ).hr * (Grid.tiny ℝ).ha * (Grid.tiny ℝ).wi k) *
        (![![0, -1], ![-1, 0]] : Matrix (Fin 2) (Fin 2) ℝ) k l) ![1, 1] occ) X = .ok q ∧
      q = ⟨X, 1, .fin 0, [(.fin 0, .fin 0)]⟩ := by
    refine ⟨_, ?_, rfl⟩
    have : Fl.pymax (.fin (0 : ℝ)) (.fin 0) = .fin 0 := by simp [Fl.pymax]
    rw [run, loop_eq, hres, this, if_pos (by simp)]
  have hfin : ∃ out, finish (⟨1, 2, 0, 1, false, false, none, none, none⟩ : Solver (Grid.tiny ℝ))
      ⟨false, false, false, 1 / 1000, 20, 1⟩ q = .ok out ∧ out.flag = true ∧ out.nfev = 1 := by
    have hint : ∀ i, (Grid.tiny ℝ).integ (fun k => phiOf q.X i k ^ 2) = 2 := fun i => by
      rw [Grid.tiny_integ, hq2]
      simp only [phiOf, hX]
      norm_num
    have hN : (2 : ℝ) = Solver.scale (⟨1, 2, 0, 1, false, false, some (List.ofFn (phiOf q.X)),
        some (List.ofFn (evalsOf q.X)), none⟩ : Solver (Grid.tiny ℝ)) * ((0 : ℕ) + 1) := by
      simp [Solver.scale]
    have hh := filled_homo (M := 0) (⟨1, 2, 0, 1, false, false, some (List.ofFn (phiOf q.X)),
      some (List.ofFn (evalsOf q.X)), none⟩ : Solver (Grid.tiny ℝ)) hN (evalsOf q.X) rfl
    have hd := filled_density (M := 0) (⟨1, 2, 0, 1, false, false, some (List.ofFn (phiOf q.X)),
      some (List.ofFn (evalsOf q.X)), none⟩ : Solver (Grid.tiny ℝ)) hN (phiOf q.X) rfl hint
    simp only [finish, hh, hd, bind, Except.bind, pure, Except.pure]
    refine ⟨_, rfl, ?_, ?_⟩
    · simp [flag, hq2]
    · simp [hq2]
  obtain ⟨out, h1, h2, h3⟩ := hfin
  refine ⟨out, ?_, h2, h3⟩
  unfold orbitalinvert
  rw [hocc]
  simp only [bind, Except.bind]
  rw [← hocc', show (![1, 1, 1, 1] : Fin 4 → ℝ) = X from rfl, htidy]
  simp only
  rw [hq1]
  exact h1

end
end Verif
