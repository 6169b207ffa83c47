import Verif.Props.C122
import Verif.Lemmas.Solver

/-! # `calc_density` with rounding: invariants of the loop, comparison with exact arithmetic -/

namespace Verif
namespace Rounded
open Rounding Solver
variable {K : Type*} [Field K] [LinearOrder K] [IsStrictOrderedRing K] [FloorRing K] {G : Grid K}

/-- What is added at each step has the property `P`, so the density has it. -/
theorem calcDensity_inv (R : Rounding K) (o : Order G.Ix) (s : Solver G) {n : G.Fld} (P : G.Fld → Prop)
    (h0 : P fun _ => 0)
    (h1 : ∀ n (i : ℤ) p, P n → s.orb i = .ok p → P fun k => R.add (n k) (term R o p k))
    (h2 : ∀ n (i : ℤ) p, P n → s.orb i = .ok p → P fun k => R.add (n k) (R.div (R.mul (R.sub (shells R s) ⌊shells R s⌋)
      (R.mul (p k) (p k))) (integ R G o fun k => R.mul (p k) (p k))))
    (h3 : ∀ n (c : K), 0 ≤ c → P n → P fun k => R.mul c (n k))
    (h : calcDensity R o s = .ok n) : P n := by
  have loop : ∀ (L : List ℕ) (n m : G.Fld), P n → (L.foldlM (fun (n : G.Fld) (i : ℕ) => do
      let p ← s.orb i
      pure fun k => R.add (n k) (term R o p k)) n : Py G.Fld) = .ok m → P m := by
    intro L
    induction L with
    | nil => intro n m hn hm; cases hm; exact hn
    | cons i L ih =>
      intro n m hn hm
      rw [List.foldlM_cons] at hm
      cases hp : s.orb i with
      | error e => rw [hp] at hm; cases hm
      | ok p => rw [hp] at hm; exact ih _ _ (h1 n i p hn hp) hm
  unfold calcDensity at h
  simp only at h
  cases hl : ((pyRange ⌊shells R s⌋).foldlM (fun (n : G.Fld) (i : ℕ) => do
      let p ← s.orb i
      pure fun k => R.add (n k) (term R o p k)) (fun _ => 0) : Py G.Fld) with
  | error e => rw [hl] at h; cases h
  | ok m =>
    rw [hl] at h
    have hm := loop _ _ _ h0 hl
    have fin : ∀ m : G.Fld, P m → P (fun k => if s.m = 0 then (if s.pol = 1 then R.mul 2 (m k) else m k)
        else (if s.pol = 1 then R.mul 4 (m k) else R.mul 2 (m k))) := by
      intro m hm
      split_ifs
      · exact h3 _ _ (by norm_num) hm
      · exact hm
      · exact h3 _ _ (by norm_num) hm
      · exact h3 _ _ (by norm_num) hm
    simp only [bind, Except.bind] at h
    by_cases hf : s.fractional = true ∧ R.sub (shells R s) ⌊shells R s⌋ ≠ 0
    · rw [if_pos hf] at h
      cases hp : s.orb ⌊shells R s⌋ with
      | error e => rw [hp] at h; cases h
      | ok p =>
        rw [hp] at h
        rw [← Except.ok.inj h]
        exact fin _ (h2 _ _ p hm hp)
    · rw [if_neg hf] at h
      rw [← Except.ok.inj h]
      exact fin _ hm

section
variable {R : Rounding K} {u : K}

theorem sq_within (h : R.Precise u) (x : K) : Within u 1 (R.mul x x) (x ^ 2) := by
  rw [pow_two]; exact Within.fl h (mul_self_nonneg x)

theorem integ_within (hG : Spec.NoNegativeWeights G) {k : ℕ} {f g : G.Fld} (w : ∀ i, Within u k (f i) (g i)) :
    Within u k (G.integ f) (G.integ g) := by
  have hC : 0 ≤ 2 * G.pi * G.hr * G.ha := mul_nonneg (mul_nonneg (mul_nonneg (by norm_num) hG.pi) hG.hr) hG.ha
  have hw : ∀ i, 0 ≤ G.wi i * G.w i := fun i => mul_nonneg (hG.wi i) (hG.w i)
  unfold Grid.integ
  constructor <;> rw [mul_left_comm, Finset.mul_sum] <;>
    refine mul_le_mul_of_nonneg_left (Finset.sum_le_sum fun i _ => ?_) hC <;> rw [mul_left_comm]
  · exact mul_le_mul_of_nonneg_left (w i).1 (hw i)
  · exact mul_le_mul_of_nonneg_left (w i).2 (hw i)

theorem integ_nonneg (hG : Spec.NoNegativeWeights G) {f : G.Fld} (hf : ∀ i, 0 ≤ f i) : 0 ≤ G.integ f :=
  mul_nonneg (mul_nonneg (mul_nonneg (mul_nonneg (by norm_num) hG.pi) hG.hr) hG.ha)
    (Finset.sum_nonneg fun i _ => mul_nonneg (mul_nonneg (hG.wi i) (hG.w i)) (hf i))

theorem norm_within (h : R.Precise u) (hG : Spec.NoNegativeWeights G) {o : Order G.Ix} (ho : o.Complete) (p : G.Fld) :
    Within u (o.depth + 7) (integ R G o fun k => R.mul (p k) (p k)) (G.integ fun k => p k ^ 2) :=
  Within.trans (k := o.depth + 6) (l := 1) h (C122_relative h hG ho fun k => R.fl_nonneg (mul_self_nonneg (p k)))
    (integ_within hG fun k => sq_within h (p k))

theorem term_within (h : R.Precise u) (hG : Spec.NoNegativeWeights G) {o : Order G.Ix} (ho : o.Complete) {p : G.Fld}
    (hp : 0 < G.integ fun k => p k ^ 2) (k : G.Ix) :
    Within u (o.depth + 9) (term R o p k) (p k ^ 2 / G.integ fun k => p k ^ 2) := by
  have := ((sq_within h (p k)).div h (sq_nonneg _) hp (norm_within h hG ho p)).round h (div_nonneg (sq_nonneg _) hp.le)
  rwa [show 1 + (o.depth + 7) + 1 = o.depth + 9 by omega] at this

theorem frac_within (h : R.Precise u) (hG : Spec.NoNegativeWeights G) {o : Order G.Ix} (ho : o.Complete) {p : G.Fld}
    (hp : 0 < G.integ fun k => p k ^ 2) {x : K} (hx : 0 ≤ x) (k : G.Ix) :
    Within u (o.depth + 11) (R.div (R.mul (R.fl x) (R.mul (p k) (p k))) (integ R G o fun k => R.mul (p k) (p k)))
      (x * p k ^ 2 / G.integ fun k => p k ^ 2) := by
  have h1 := ((Within.fl h hx).mul h hx (sq_nonneg (p k)) (sq_within h (p k))).round h (mul_nonneg hx (sq_nonneg _))
  have := (h1.div h (mul_nonneg hx (sq_nonneg _)) hp (norm_within h hG ho p)).round h
    (div_nonneg (mul_nonneg hx (sq_nonneg _)) hp.le)
  rwa [show 1 + 1 + 1 + (o.depth + 7) + 1 = o.depth + 11 by omega] at this

theorem loop_within (h : R.Precise u) (hG : Spec.NoNegativeWeights G) {o : Order G.Ix} (ho : o.Complete) {s : Solver G} :
    ∀ (L : List ℕ), (∀ i ∈ L, ∀ p, s.orb i = .ok p → 0 < G.integ fun k => p k ^ 2) → ∀ (n m : G.Fld) (j : ℕ), (∀ k, 0 ≤ n k) →
      (∀ k, Within u (o.depth + 9 + j) (m k) (n k)) →
      match (L.foldlM (fun (n : G.Fld) (i : ℕ) => do
          let p ← s.orb i
          pure fun k => n k + p k ^ 2 / G.integ fun k => p k ^ 2) n : Py G.Fld) with
      | .ok n' => ∃ m', (L.foldlM (fun (n : G.Fld) (i : ℕ) => do
          let p ← s.orb i
          pure fun k => R.add (n k) (term R o p k)) m : Py G.Fld) = .ok m' ∧ (∀ k, 0 ≤ n' k) ∧
            ∀ k, Within u (o.depth + 9 + (j + L.length)) (m' k) (n' k)
      | .error e => (L.foldlM (fun (n : G.Fld) (i : ℕ) => do
          let p ← s.orb i
          pure fun k => R.add (n k) (term R o p k)) m : Py G.Fld) = .error e := by
  intro L
  induction L with
  | nil => intro _ n m j hn hm; exact ⟨m, rfl, hn, hm⟩
  | cons i L ih =>
    intro hL n m j hn hm
    simp only [List.foldlM_cons]
    cases hp : s.orb i with
    | error e => rfl
    | ok p =>
      have hpos := hL i (List.mem_cons_self ..) p hp
      have ht := fun k => div_nonneg (sq_nonneg (p k)) hpos.le
      have := ih (fun i hi => hL i (List.mem_cons_of_mem _ hi)) (fun k => n k + p k ^ 2 / G.integ fun k => p k ^ 2)
        (fun k => R.add (m k) (term R o p k)) (j + 1) (fun k => add_nonneg (hn k) (ht k)) (fun k =>
          ((hm k).add ((term_within h hG ho hpos k).mono h (by omega) (ht k))).round h (add_nonneg (hn k) (ht k)))
      rw [show j + 1 + L.length = j + (i :: L).length by rw [List.length_cons]; omega] at this
      exact this

theorem shells_eq (R : Rounding K) (s : Solver G) (h2 : R.fl (s.N / 2) = s.N / 2) (h4 : R.fl (s.N / 4) = s.N / 4) :
    shells R s = s.N / s.scale := by
  unfold shells scale Rounding.div
  split <;> split <;> simp [h2, h4]

/-- `calc_density` with and without rounding, side by side. -/
theorem calcDensity_within (h : R.Precise u) (hG : Spec.NoNegativeWeights G) {o : Order G.Ix} (ho : o.Complete) (s : Solver G)
    (hN : 0 ≤ s.N) (h2 : R.fl (s.N / 2) = s.N / 2) (h4 : R.fl (s.N / 4) = s.N / 4)
    (hn : ∀ (i : ℕ) p, (i : K) < s.N / s.scale → s.orb i = .ok p → (G.integ fun k => p k ^ 2) ≠ 0) :
    match s.calcDensity with
    | .ok n => ∃ m, calcDensity R o s = .ok m ∧ (∀ k, 0 ≤ n k) ∧
        ∀ k, Within u (o.depth + ⌊s.N / s.scale⌋.toNat + 13) (m k) (n k)
    | .error e => calcDensity R o s = .error e := by
  have hx : 0 ≤ s.N / s.scale := div_nonneg hN s.scale_pos.le
  have hfl : 0 ≤ ⌊s.N / s.scale⌋ := Int.floor_nonneg.mpr hx
  have hpos : ∀ (i : ℕ) p, (i : K) < s.N / s.scale → s.orb i = .ok p → 0 < G.integ fun k => p k ^ 2 := fun i p hi hp =>
    lt_of_le_of_ne (integ_nonneg hG fun k => sq_nonneg (p k)) (hn i p hi hp).symm
  have hloop := loop_within h hG ho (s := s) (pyRange ⌊s.N / s.scale⌋) (by
    intro i hi p hp
    refine hpos i p ?_ hp
    have hi' : i < ⌊s.N / s.scale⌋.toNat := List.mem_range.mp hi
    have : (i : ℤ) + 1 ≤ ⌊s.N / s.scale⌋ := by omega
    have h1 := (Int.cast_le (R := K)).mpr this
    push_cast at h1
    have h3 := Int.floor_le (s.N / s.scale)
    linarith) (fun _ => 0) (fun _ => 0) 0 (fun _ => le_rfl) (fun _ => Within.refl h le_rfl _)
  have hlen : (pyRange ⌊s.N / s.scale⌋).length = ⌊s.N / s.scale⌋.toNat := by unfold pyRange; rw [List.length_range]
  rw [hlen, Nat.zero_add] at hloop
  set N0 := ⌊s.N / s.scale⌋.toNat with hN0
  unfold Solver.calcDensity calcDensity
  rw [occupation_eq, shells_eq R s h2 h4]
  simp only
  set nu : K := s.N / s.scale - ⌊s.N / s.scale⌋ with hnu
  have hnu0 : 0 ≤ nu := sub_nonneg.mpr (Int.floor_le _)
  have hz : (R.sub (s.N / s.scale) ⌊s.N / s.scale⌋ ≠ 0) ↔ nu ≠ 0 := by
    unfold Rounding.sub
    rw [← hnu]
    constructor
    · intro h1 h0; exact h1 (by rw [h0, R.fl_zero])
    · intro h1; exact ((Within.fl h hnu0).pos h (lt_of_le_of_ne hnu0 h1.symm)).ne'
  have fin : ∀ (n m : G.Fld), (∀ k, 0 ≤ n k) → (∀ k, Within u (o.depth + N0 + 12) (m k) (n k)) →
      (∀ k, 0 ≤ s.scale * n k) ∧ ∀ k, Within u (o.depth + N0 + 13)
        (if s.m = 0 then (if s.pol = 1 then R.mul 2 (m k) else m k)
          else (if s.pol = 1 then R.mul 4 (m k) else R.mul 2 (m k))) (s.scale * n k) := by
    intro n m hn0 hm
    have mulc : ∀ (c : K), 0 ≤ c → ∀ k, Within u (o.depth + N0 + 13) (R.mul c (m k)) (c * n k) := fun c hc k => by
      have := ((Within.refl h hc 0).mul h hc (hn0 k) (hm k)).round h (mul_nonneg hc (hn0 k))
      rwa [Nat.zero_add] at this
    refine ⟨fun k => mul_nonneg s.scale_pos.le (hn0 k), fun k => ?_⟩
    unfold scale
    split_ifs
    · exact mulc 2 (by norm_num) k
    · rw [one_mul]; exact (hm k).mono h (by omega) (hn0 k)
    · exact mulc 4 (by norm_num) k
    · exact mulc 2 (by norm_num) k
  revert hloop
  cases ((pyRange ⌊s.N / s.scale⌋).foldlM (fun (n : G.Fld) (i : ℕ) => do
          let p ← s.orb i
          pure fun k => n k + p k ^ 2 / G.integ fun k => p k ^ 2) (fun _ => 0) : Py G.Fld) with
  | error e => intro hloop; simp only at hloop; rw [hloop]; rfl
  | ok n =>
    rintro ⟨m, hm, hn0, hmn⟩
    rw [hm]
    simp only [bind, Except.bind]
    by_cases hf : s.fractional = true ∧ nu ≠ 0
    · rw [if_pos hf, if_pos ⟨hf.1, hz.mpr hf.2⟩]
      cases hp : s.orb ⌊s.N / s.scale⌋ with
      | error e => rfl
      | ok p =>
        have hnupos : 0 < nu := lt_of_le_of_ne hnu0 hf.2.symm
        have hcast : ((N0 : ℕ) : ℤ) = ⌊s.N / s.scale⌋ := Int.toNat_of_nonneg hfl
        have hpp := hpos N0 p (by
          have : ((N0 : ℕ) : K) = ((⌊s.N / s.scale⌋ : ℤ) : K) := by rw [← hcast, Int.cast_natCast]
          rw [this]; linarith [hnupos, hnu]) (by rw [hcast]; exact hp)
        have ht : ∀ k, 0 ≤ nu * p k ^ 2 / G.integ fun k => p k ^ 2 := fun k =>
          div_nonneg (mul_nonneg hnu0 (sq_nonneg _)) hpp.le
        obtain ⟨f1, f2⟩ := fin (fun k => n k + nu * p k ^ 2 / G.integ fun k => p k ^ 2)
          (fun k => R.add (m k) (R.div (R.mul (R.sub (s.N / s.scale) ⌊s.N / s.scale⌋) (R.mul (p k) (p k)))
            (integ R G o fun k => R.mul (p k) (p k)))) (fun k => add_nonneg (hn0 k) (ht k)) (fun k => by
              have := (((hmn k).mono h (l := o.depth + N0 + 11) (by omega) (hn0 k)).add
                ((frac_within h hG ho hpp hnu0 k).mono h (l := o.depth + N0 + 11) (by omega) (ht k))).round h
                (add_nonneg (hn0 k) (ht k))
              exact this)
        exact ⟨_, rfl, f1, f2⟩
    · rw [if_neg hf, if_neg (fun hh => hf ⟨hh.1, hz.mp hh.2⟩)]
      obtain ⟨f1, f2⟩ := fin n m hn0 fun k => (hmn k).mono h (by omega) (hn0 k)
      exact ⟨_, rfl, f1, f2⟩

end
end Rounded
end Verif
