import Verif.Model.Solver
import Verif.Spec.Occupation
import Mathlib.Tactic.FieldSimp
import Mathlib.Algebra.BigOperators.Fin

namespace Verif
universe u

/-- A loop over `range(n)` reading `l[i]`. -/
theorem foldlM_pyGet {α β : Type u} (l : List α) (f : β → α → β) (n : ℕ) (b : β) :
    (List.range n).foldlM (fun acc (i : ℕ) => do
      let p ← pyGet l (i : ℤ)
      pure (f acc p)) b =
      if n ≤ l.length then (.ok ((l.take n).foldl f b) : Py β) else .error .indexError := by
  induction n with
  | zero => simp [pure, Except.pure]
  | succ n ih =>
    rw [List.range_succ, List.foldlM_append, ih]
    by_cases h : n + 1 ≤ l.length
    · rw [if_pos (by omega), if_pos h]
      simp only [List.foldlM_cons, List.foldlM_nil]
      rw [pyGet_ofNat l n (by omega)]
      have : l.take (n + 1) = l.take n ++ [l[n]] := by
        rw [List.take_succ, List.getElem?_eq_getElem (by omega)]; rfl
      rw [this, List.foldl_append]
      rfl
    · rw [if_neg h]
      by_cases h2 : n ≤ l.length
      · rw [if_pos h2]
        simp only [List.foldlM_cons, List.foldlM_nil]
        rw [pyGet_ofNat_oob l n (by omega)]
        rfl
      · rw [if_neg h2]; rfl

theorem foldl_add {α M : Type*} [AddCommMonoid M] (l : List α) (g : α → M) (b : M) :
    l.foldl (fun acc p => acc + g p) b = b + (l.map g).sum := by
  induction l generalizing b with
  | nil => simp
  | cons a l ih => rw [List.foldl_cons, ih, List.map_cons, List.sum_cons, add_assoc]

theorem sum_take {α K M : Type*} [Semiring K] [AddCommMonoid M] [Module K M] (l : List α) (g : α → M)
    (n : ℕ) :
    ∑ i : Fin l.length, (if i.1 < n then (1 : K) else 0) • g l[i.1] = ((l.take n).map g).sum := by
  induction l generalizing n with
  | nil => simp
  | cons a l ih =>
    cases n with
    | zero => simp
    | succ n =>
      rw [List.take_succ_cons, List.map_cons, List.sum_cons, ← ih]
      refine (Fin.sum_univ_succ (n := l.length) _).trans ?_
      simp

namespace Spec
variable {K : Type*} [Field K] [LinearOrder K] [IsStrictOrderedRing K] [FloorRing K]

theorem fillingWhole_eq (x : K) (hx : 0 ≤ x) (i : ℕ) :
    fillingWhole x i = if i < ⌊x⌋.toNat then 1 else 0 := by
  unfold fillingWhole
  have h0 : 0 ≤ ⌊x⌋ := Int.floor_nonneg.mpr hx
  have : (i : K) + 1 ≤ x ↔ i < ⌊x⌋.toNat := by
    have h1 : (i : K) + 1 = (((i : ℤ) + 1 : ℤ) : K) := by push_cast; rfl
    rw [h1, ← Int.le_floor]; omega
  simp only [this]

theorem filling_eq (x : K) (hx : 0 ≤ x) (i : ℕ) :
    filling x i = (if i < ⌊x⌋.toNat then 1 else 0) + if i = ⌊x⌋.toNat then x - ⌊x⌋ else 0 := by
  unfold filling
  have h0 : 0 ≤ ⌊x⌋ := Int.floor_nonneg.mpr hx
  have h1 := Int.floor_le x
  have h2 := Int.lt_floor_add_one x
  have hc : ((⌊x⌋.toNat : ℕ) : K) = (⌊x⌋ : K) := by
    rw [← Int.cast_natCast, Int.toNat_of_nonneg h0]
  rcases lt_trichotomy i ⌊x⌋.toNat with h | h | h
  · rw [if_pos h, if_neg (by omega), add_zero]
    have : (i : K) + 1 ≤ ⌊x⌋ := by rw [← hc]; exact_mod_cast h
    rw [max_eq_right (by linarith), min_eq_left (by linarith)]
  · rw [if_neg (by omega), if_pos h, zero_add, h, hc, max_eq_right (by linarith),
      min_eq_right (by linarith)]
  · rw [if_neg (by omega), if_neg (by omega), add_zero]
    have : (⌊x⌋ : K) + 1 ≤ i := by rw [← hc]; exact_mod_cast h
    rw [max_eq_left (by linarith), min_eq_right zero_le_one]

/-- Weighted sum over the orbitals, in closed form. -/
theorem sum_fill {α M : Type*} [AddCommGroup M] [Module K M] (l : List α) (g : α → M) (fr : Bool)
    (x : K) (hx : 0 ≤ x) :
    ∑ i : Fin l.length, fill fr x i.1 • g l[i.1] = ((l.take ⌊x⌋.toNat).map g).sum +
      if fr then (x - ⌊x⌋) • ((l[⌊x⌋.toNat]?.map g).getD 0) else 0 := by
  cases fr with
  | false =>
    simp only [fill, Bool.false_eq_true, if_false, fillingWhole_eq x hx, sum_take, add_zero]
  | true =>
    simp only [fill, if_true, filling_eq x hx, add_smul, Finset.sum_add_distrib, sum_take]
    congr 1
    by_cases h : ⌊x⌋.toNat < l.length
    · rw [Finset.sum_eq_single ⟨⌊x⌋.toNat, h⟩]
      · simp [h]
      · intro b _ hb
        rw [if_neg, zero_smul]
        intro h2; exact hb (Fin.ext h2)
      · intro h2; exact absurd (Finset.mem_univ _) h2
    · rw [List.getElem?_eq_none (by omega)]
      simp only [Option.map_none, Option.getD_none, smul_zero]
      refine Finset.sum_eq_zero fun i _ => ?_
      rw [if_neg (by have := i.2; omega), zero_smul]

/-- Total filling. -/
theorem sum_fill_one (fr : Bool) (x : K) (hx : 0 ≤ x) (n : ℕ) (hn : needed fr x ≤ n) :
    ∑ i : Fin n, fill fr x i.1 = if fr then x else (⌊x⌋ : K) := by
  have h0 : 0 ≤ ⌊x⌋ := Int.floor_nonneg.mpr hx
  have hc : ((⌊x⌋.toNat : ℕ) : K) = (⌊x⌋ : K) := by
    rw [← Int.cast_natCast, Int.toNat_of_nonneg h0]
  have key := sum_fill (List.replicate n ()) (fun _ => (1 : K)) fr x hx
  have hl : (List.replicate n ()).length = n := List.length_replicate
  have e1 : ∑ i : Fin n, fill fr x i.1 =
      ∑ i : Fin (List.replicate n ()).length, fill fr x i.1 • (1 : K) := by
    simp only [smul_eq_mul, mul_one]
    exact (Fin.sum_congr' (fun i : Fin n => fill fr x i.1) hl).symm
  rw [e1, key]
  have h1 : ⌊x⌋.toNat ≤ n := by
    have : ⌊x⌋ ≤ ⌈x⌉ := Int.floor_le_ceil x
    cases fr <;> simp only [needed, if_true, Bool.false_eq_true, if_false] at hn <;> omega
  simp only [List.take_replicate, min_eq_left h1, List.map_replicate, List.sum_replicate,
    nsmul_eq_mul, mul_one, hc]
  cases fr with
  | false => simp
  | true =>
    by_cases h2 : ⌊x⌋.toNat < n
    · simp [h2]
    · have : ⌈x⌉ = ⌊x⌋ := by
        simp only [needed, if_true] at hn
        have : ⌊x⌋ ≤ ⌈x⌉ := Int.floor_le_ceil x
        omega
      have h3 : x - ⌊x⌋ = 0 := by
        have a1 := Int.le_ceil x
        have a2 := Int.floor_le x
        rw [this] at a1; linarith
      simp only [if_true, h3, zero_smul, add_zero]; linarith

theorem fill_nonneg (fr : Bool) (x : K) (i : ℕ) : 0 ≤ fill fr x i := by
  unfold fill filling fillingWhole
  split
  · exact le_min zero_le_one (le_max_left _ _)
  · split <;> norm_num

theorem ceil_eq (x : K) : ⌈x⌉ = if x - ⌊x⌋ = 0 then ⌊x⌋ else ⌊x⌋ + 1 := by
  have h1 := Int.floor_le x
  have h2 := Int.lt_floor_add_one x
  split
  · rename_i h
    have : x = (⌊x⌋ : K) := by linarith
    conv_lhs => rw [this]
    exact Int.ceil_intCast _
  · rename_i h
    rw [Int.ceil_eq_iff]
    have : (⌊x⌋ : K) < x := lt_of_le_of_ne h1 (fun e => h (by linarith))
    push_cast
    constructor <;> linarith

/-- The occupied orbitals are the first `needed` ones. -/
theorem fill_ne_zero (fr : Bool) (x : K) (hx : 0 ≤ x) (i : ℕ) : fill fr x i ≠ 0 ↔ i < needed fr x := by
  cases fr with
  | false => simp [fill, fillingWhole_eq x hx, needed]
  | true =>
    have h0 : 0 ≤ ⌊x⌋ := Int.floor_nonneg.mpr hx
    have hc := ceil_eq x
    simp only [fill, if_true, filling_eq x hx, needed]
    by_cases h : x - ⌊x⌋ = 0
    · rw [if_pos h] at hc; rw [h, hc]; simp
    · rw [if_neg h] at hc
      have e : ⌈x⌉.toNat = ⌊x⌋.toNat + 1 := by omega
      rw [e]
      rcases lt_trichotomy i ⌊x⌋.toNat with h1 | h1 | h1
      · rw [if_pos h1, if_neg (by omega)]; simp; omega
      · rw [if_neg (by omega), if_pos h1, zero_add]
        exact ⟨fun _ => by omega, fun _ => h⟩
      · rw [if_neg (by omega), if_neg (by omega)]; simp; omega

end Spec

namespace Grid
variable {K : Type*} [Field K] (G : Grid K)

theorem integ_add (f g : G.Fld) : G.integ (fun k => f k + g k) = G.integ f + G.integ g := by
  unfold integ
  rw [← mul_add, ← Finset.sum_add_distrib]
  congr 1
  exact Finset.sum_congr rfl fun k _ => by ring

theorem integ_smul (c : K) (f : G.Fld) : G.integ (fun k => c * f k) = c * G.integ f := by
  unfold integ
  rw [mul_left_comm, Finset.mul_sum _ _ c]
  congr 1
  exact Finset.sum_congr rfl fun k _ => by ring

theorem integ_zero : G.integ (fun _ => 0) = 0 := by simp [integ]

theorem integ_sum {ι : Type*} (t : Finset ι) (f : ι → G.Fld) :
    G.integ (fun k => ∑ i ∈ t, f i k) = ∑ i ∈ t, G.integ (f i) := by
  classical
  induction t using Finset.induction_on with
  | empty => simp [integ_zero]
  | insert a t ha ih =>
    simp only [Finset.sum_insert ha]
    rw [integ_add, ih]

end Grid

namespace Solver
variable {K : Type*} [Field K] [LinearOrder K] [IsStrictOrderedRing K] [FloorRing K] {G : Grid K}
open Spec

/-- Capacity of this solver's orbitals as the specification sees it. -/
theorem scale_eq (s : Solver G) (hp : s.pol = 1 ∨ s.pol = 2) :
    s.scale = (orbitalCapacity s.m (s.pol = 2) : K) := by
  unfold scale orbitalCapacity
  rcases hp with h | h <;> by_cases hm : s.m = 0 <;> simp [h, hm]

theorem scale_pos (s : Solver G) : 0 < s.scale := by
  unfold scale; split <;> split <;> norm_num

theorem occupation_eq (s : Solver G) :
    s.occupation = (⌊s.N / s.scale⌋, s.N / s.scale - ⌊s.N / s.scale⌋) := by
  unfold occupation scale
  split <;> split <;> simp

/-- The occupation loop shared by `calc_density` and `calc_energy`. -/
theorem loop_eq {α M : Type u} [AddCommGroup M] [Module K M] (l : List α) (g : α → M) (fr : Bool)
    (x : K) (hx : 0 ≤ x) :
    (do let n ← (pyRange ⌊x⌋).foldlM (fun (n : M) (i : ℕ) => do
          let p ← pyGet l (i : ℤ)
          pure (n + g p)) 0
        if fr = true ∧ x - ⌊x⌋ ≠ 0 then do
          let p ← pyGet l ⌊x⌋
          pure (n + (x - (⌊x⌋ : K)) • g p)
        else pure n) =
      if needed fr x ≤ l.length then
        (.ok (∑ i : Fin l.length, fill fr x i.1 • g l[i.1]) : Py M)
      else .error .indexError := by
  have h0 : 0 ≤ ⌊x⌋ := Int.floor_nonneg.mpr hx
  unfold pyRange
  rw [foldlM_pyGet l (fun n p => n + g p), sum_fill l g fr x hx, foldl_add]
  have hz : (⌊x⌋ : ℤ) = ((⌊x⌋.toNat : ℕ) : ℤ) := (Int.toNat_of_nonneg h0).symm
  have hce := ceil_eq x
  by_cases h1 : ⌊x⌋.toNat ≤ l.length
  · rw [if_pos h1]
    simp only [bind, Except.bind, zero_add]
    by_cases hf : fr = true ∧ x - ⌊x⌋ ≠ 0
    · obtain ⟨rfl, hf⟩ := hf
      have hc : ⌈x⌉.toNat = ⌊x⌋.toNat + 1 := by rw [hce, if_neg hf]; omega
      rw [if_pos ⟨rfl, hf⟩]
      simp only [needed, if_true, hc]
      by_cases h2 : ⌊x⌋.toNat + 1 ≤ l.length
      · rw [if_pos h2]
        have : pyGet l ⌊x⌋ = .ok l[⌊x⌋.toNat] := by
          conv_lhs => rw [hz]
          exact pyGet_ofNat l _ (by omega)
        rw [this, List.getElem?_eq_getElem (by omega)]
        rfl
      · rw [if_neg h2]
        have : pyGet l ⌊x⌋ = .error .indexError := by
          conv_lhs => rw [hz]
          exact pyGet_ofNat_oob l _ (by omega)
        rw [this]
    · rw [if_neg hf]
      cases fr with
      | false => simp [needed, h1, pure, Except.pure]
      | true =>
        have h2 : x - ⌊x⌋ = 0 := by simpa using hf
        have hc : ⌈x⌉ = ⌊x⌋ := by rw [hce, if_pos h2]
        simp [needed, hc, h1, h2, pure, Except.pure]
  · rw [if_neg h1, if_neg]
    · rfl
    · cases fr with
      | false => simpa [needed] using h1
      | true =>
        have : ⌊x⌋ ≤ ⌈x⌉ := Int.floor_le_ceil x
        simp only [needed, if_true]; omega

/-- Closed form of `calc_density`. -/
theorem calcDensity_eq (s : Solver G) (hN : 0 ≤ s.N) (l : List G.Fld) (hl : s.phi = some l) :
    s.calcDensity = if needed s.fractional (s.N / s.scale) ≤ l.length then
      .ok (fun k => s.scale * ∑ i : Fin l.length, fill s.fractional (s.N / s.scale) i.1 *
        (l[i.1] k ^ 2 / G.integ fun k => l[i.1] k ^ 2))
      else .error .indexError := by
  have hx : 0 ≤ s.N / s.scale := div_nonneg hN s.scale_pos.le
  have key := loop_eq l (fun p => (fun k => p k ^ 2 / G.integ fun k => p k ^ 2 : G.Fld)) s.fractional _ hx
  have : s.calcDensity = (do
      let n ← (do let n ← (pyRange ⌊s.N / s.scale⌋).foldlM (fun (n : G.Fld) (i : ℕ) => do
          let p ← pyGet l (i : ℤ)
          pure (n + (fun k => p k ^ 2 / G.integ fun k => p k ^ 2 : G.Fld))) 0
                  if s.fractional = true ∧ s.N / s.scale - ⌊s.N / s.scale⌋ ≠ 0 then do
                    let p ← pyGet l ⌊s.N / s.scale⌋
                    pure (n + (s.N / s.scale - (⌊s.N / s.scale⌋ : K)) •
                      (fun k => p k ^ 2 / G.integ fun k => p k ^ 2 : G.Fld))
                  else pure n)
      pure fun k => s.scale * n k) := by
    unfold calcDensity
    rw [occupation_eq]
    simp only [orb, hl, bind_assoc]
    congr 1
    funext n
    split
    · simp only [bind_assoc, pure_bind]
      congr 1
      funext p
      congr 1
      funext k
      simp [mul_div_assoc]
    · rfl
  rw [this, key]
  split
  · change Except.ok _ = Except.ok _
    congr 1
    funext k
    simp [Finset.sum_apply]
  · rfl

/-- Closed form of the energy sum. -/
theorem calcEks_eq (s : Solver G) (hN : 0 ≤ s.N) (e : List K) (he : s.eig = some e) :
    s.calcEks = if needed s.fractional (s.N / s.scale) ≤ e.length then
      .ok (s.scale * ∑ i : Fin e.length, fill s.fractional (s.N / s.scale) i.1 * e[i.1])
      else .error .indexError := by
  have hx : 0 ≤ s.N / s.scale := div_nonneg hN s.scale_pos.le
  have key := loop_eq e (fun p => p) s.fractional _ hx
  have : s.calcEks = (do
      let n ← (do let n ← (pyRange ⌊s.N / s.scale⌋).foldlM (fun (n : K) (i : ℕ) => do
          let p ← pyGet e (i : ℤ)
          pure (n + p)) 0
                  if s.fractional = true ∧ s.N / s.scale - ⌊s.N / s.scale⌋ ≠ 0 then do
                    let p ← pyGet e ⌊s.N / s.scale⌋
                    pure (n + (s.N / s.scale - (⌊s.N / s.scale⌋ : K)) • p)
                  else pure n)
      pure (s.scale * n)) := by
    unfold calcEks
    rw [occupation_eq]
    simp only [eigAt, he, bind_assoc]
    congr 1
    funext n
    split
    · simp only [bind_assoc, pure_bind, smul_eq_mul]
    · rfl
  rw [this, key]
  split
  · rfl
  · rfl

end Solver

/-- A two-point grid used in the examples: `integ f = f 0 + f 1`. -/
abbrev Grid.tiny (K : Type*) [Field K] : Grid K :=
  { Na := 2, Nr := 1, pi := 1 / 2, ha := 1, hr := 1, wi := fun _ => 1, w := fun _ => 1 }

theorem Grid.tiny_sum {K : Type*} [Field K] (f : (Grid.tiny K).Ix → K) : ∑ k, f k = f 0 + f 1 :=
  Fin.sum_univ_two f

theorem Grid.tiny_integ {K : Type*} [Field K] [CharZero K] (f : (Grid.tiny K).Fld) :
    (Grid.tiny K).integ f = f 0 + f 1 := by
  change 2 * (1 / 2) * 1 * 1 * ∑ k : Fin 2, 1 * 1 * f k = _
  rw [Fin.sum_univ_two]
  ring

end Verif
