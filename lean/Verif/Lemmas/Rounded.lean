import Verif.Model.Rounded
import Mathlib.Data.Int.Log
import Mathlib.Tactic.FieldSimp
import Mathlib.Tactic.Linarith
import Mathlib.Tactic.Ring
import Mathlib.Tactic.Positivity
import Mathlib.Algebra.Order.BigOperators.Group.Finset

/-! # Arithmetic with rounding: rounding to binary digits, accumulation of errors -/

namespace Verif
namespace Rounding
variable {K : Type*} [Field K] [LinearOrder K] [IsStrictOrderedRing K]

theorem fl_zero (R : Rounding K) : R.fl 0 = 0 := by
  have h := R.neg 0
  rw [neg_zero] at h
  linarith

theorem fl_nonneg (R : Rounding K) {x : K} (h : 0 ≤ x) : 0 ≤ R.fl x := by
  rw [← R.fl_zero]; exact R.mono h

theorem add_comm (R : Rounding K) (x y : K) : R.add x y = R.add y x := by
  unfold add; rw [_root_.add_comm]

theorem sub_swap (R : Rounding K) (x y : K) : R.sub x y = -R.sub y x := by
  unfold sub; rw [← R.neg, neg_sub]

/-- No rounding. -/
def exact : Rounding K := ⟨id, monotone_id, fun _ => rfl⟩

theorem exact_precise : (exact : Rounding K).Precise 0 :=
  ⟨le_rfl, zero_lt_one, fun x => by simp [exact]⟩

/-! ## Rounding to binary digits -/

section Binary
variable [FloorRing K]

/-- The nearest integer; the even one of two. -/
def nearest (t : K) : ℤ :=
  if t - ⌊t⌋ < 1 / 2 then ⌊t⌋ else if 1 / 2 < t - ⌊t⌋ then ⌊t⌋ + 1 else if Even ⌊t⌋ then ⌊t⌋ else ⌊t⌋ + 1

theorem floor_le_nearest (t : K) : ⌊t⌋ ≤ nearest t := by
  unfold nearest; split_ifs <;> omega

theorem nearest_le_floor (t : K) : nearest t ≤ ⌊t⌋ + 1 := by
  unfold nearest; split_ifs <;> omega

theorem nearest_mono {s t : K} (h : s ≤ t) : nearest s ≤ nearest t := by
  rcases (Int.floor_mono h).lt_or_eq with hl | he
  · exact (nearest_le_floor s).trans (le_trans (by omega) (floor_le_nearest t))
  · have h' : s - ⌊s⌋ ≤ t - ⌊t⌋ := by rw [he]; linarith
    unfold nearest
    split_ifs with h1 h2 h3 h4 h5 h6 h7 h8 h9 h10 h11 <;> try omega
    all_goals (first | (exfalso; linarith) | (exfalso; rw [he] at *; contradiction))

theorem nearest_int (z : ℤ) : nearest (z : K) = z := by
  unfold nearest; simp

theorem nearest_le {t : K} {z : ℤ} (h : t ≤ z) : nearest t ≤ z := by
  have := nearest_mono h; rwa [nearest_int] at this

theorem le_nearest {t : K} {z : ℤ} (h : (z : K) ≤ t) : z ≤ nearest t := by
  have := nearest_mono h; rwa [nearest_int] at this

theorem nearest_err (t : K) : |(nearest t : K) - t| ≤ 1 / 2 := by
  have h1 := Int.floor_le t
  have h2 := Int.lt_floor_add_one t
  unfold nearest
  rw [abs_le]
  split_ifs <;> push_cast <;> constructor <;> linarith

/-- The exponent of the last digit of a positive number in a format with `p + 1` binary digits; with gradual underflow
it is not below `emin`. -/
def expo (p : ℕ) (emin : Option ℤ) (x : K) : ℤ :=
  match emin with
  | none => Int.log 2 x - p
  | some e => max (Int.log 2 x - p) e

/-- A positive number rounded. -/
def flPos (p : ℕ) (emin : Option ℤ) (x : K) : K := nearest (x / 2 ^ expo p emin x) * 2 ^ expo p emin x

theorem flPos_mono (p : ℕ) (emin : Option ℤ) {x y : K} (hx : 0 < x) (h : x ≤ y) :
    flPos p emin x ≤ flPos p emin y := by
  have hy := hx.trans_le h
  have hlog : Int.log 2 x ≤ Int.log 2 y := Int.log_mono_right hx h
  have two : (0 : K) < 2 := by norm_num
  have hle : expo p emin x ≤ expo p emin y := by
    unfold expo; cases emin <;> simp only
    · omega
    · exact max_le_max (by omega) le_rfl
  rcases hle.eq_or_lt with he | hlt
  · unfold flPos; rw [he]
    have := nearest_mono (div_le_div_of_nonneg_right h (zpow_pos two (expo p emin y)).le)
    exact mul_le_mul_of_nonneg_right (Int.cast_le.mpr this) (zpow_pos two _).le
  · have hey : expo p emin y = Int.log 2 y - p := by
      revert hlt; unfold expo; cases emin <;> simp only
      · exact fun _ => trivial
      · intro hlt; omega
    have hex : Int.log 2 x - p ≤ expo p emin x := by
      unfold expo; cases emin <;> simp only
      · exact le_rfl
      · exact le_max_left _ _
    have hx2 : x ≤ (2 : K) ^ Int.log 2 y := by
      have h1 := Int.lt_zpow_succ_log_self (b := 2) (by norm_num) x
      rw [Nat.cast_ofNat] at h1
      exact h1.le.trans (zpow_le_zpow_right₀ (by norm_num) (by omega))
    have hy2 : (2 : K) ^ Int.log 2 y ≤ y := by
      have h1 := Int.zpow_log_le_self (b := 2) (by norm_num) hy
      rwa [Nat.cast_ofNat] at h1
    refine le_trans (b := (2 : K) ^ Int.log 2 y) ?_ ?_
    · unfold flPos
      obtain ⟨d, hd⟩ := Int.eq_ofNat_of_zero_le (a := Int.log 2 y - expo p emin x) (by omega)
      have h2 : (2 : K) ^ Int.log 2 y = ((2 ^ d : ℤ) : K) * 2 ^ expo p emin x := by
        rw [show Int.log 2 y = d + expo p emin x by omega, zpow_add₀ two.ne', zpow_natCast]; push_cast; rfl
      rw [h2]
      refine mul_le_mul_of_nonneg_right (Int.cast_le.mpr (nearest_le ?_)) (zpow_pos two _).le
      rw [div_le_iff₀ (zpow_pos two _), ← h2]; exact hx2
    · unfold flPos
      have h2 : (2 : K) ^ Int.log 2 y = ((2 ^ p : ℤ) : K) * 2 ^ expo p emin y := by
        rw [hey, show Int.log 2 y = p + (Int.log 2 y - p) by omega, zpow_add₀ two.ne', zpow_natCast]
        push_cast
        rw [show (p : ℤ) + (Int.log 2 y - p) - p = Int.log 2 y - p by omega]
      rw [h2]
      refine mul_le_mul_of_nonneg_right (Int.cast_le.mpr (le_nearest ?_)) (zpow_pos two _).le
      rw [le_div_iff₀ (zpow_pos two _), ← h2]; exact hy2

theorem flPos_nonneg (p : ℕ) (emin : Option ℤ) {x : K} (hx : 0 < x) : 0 ≤ flPos p emin x := by
  have two : (0 : K) < 2 := by norm_num
  refine mul_nonneg ?_ (zpow_pos two _).le
  have : (0 : ℤ) ≤ nearest (x / 2 ^ expo p emin x) := le_nearest (by
    rw [Int.cast_zero]; exact (div_pos hx (zpow_pos two _)).le)
  exact_mod_cast this

/-- Rounding to `p + 1` binary digits, ties to even; `emin` is the exponent of the smallest positive number (`none`: no
underflow).  Double precision: `binary 52 (some (-1074))`. -/
def binary (p : ℕ) (emin : Option ℤ) : Rounding K where
  fl x := if 0 < x then flPos p emin x else if x < 0 then -flPos p emin (-x) else 0
  mono := by
    intro x y h
    dsimp only
    split_ifs with h1 h2 h3 h4 h5 h6 h7 <;> try (exfalso; linarith)
    · exact flPos_mono p emin h1 h
    · exact (neg_nonpos.mpr (flPos_nonneg p emin (neg_pos.mpr h4))).trans (flPos_nonneg p emin ‹_›)
    · exact neg_le_neg (flPos_mono p emin (neg_pos.mpr ‹y < 0›) (neg_le_neg h))
    · exact neg_nonpos.mpr (flPos_nonneg p emin (neg_pos.mpr h4))
    · exact flPos_nonneg p emin ‹_›
    · exact le_rfl
  neg := by
    intro x
    rcases lt_trichotomy x 0 with h | h | h
    · simp [h, not_lt.mpr h.le]
    · simp [h]
    · simp [h, not_lt.mpr h.le]

theorem binary_precise (p : ℕ) : (binary p none : Rounding K).Precise (1 / 2 ^ (p + 1)) := by
  have two : (0 : K) < 2 := by norm_num
  have hp : ∀ x : K, 0 < x → |flPos p none x - x| ≤ 1 / 2 ^ (p + 1) * x := by
    intro x hx
    have h1 : (2 : K) ^ Int.log 2 x ≤ x := by
      have h1 := Int.zpow_log_le_self (b := 2) (by norm_num) hx
      rwa [Nat.cast_ofNat] at h1
    have hz := zpow_pos two (expo p none x)
    have h2 : flPos p none x - x = (nearest (x / 2 ^ expo p none x) - x / 2 ^ expo p none x) * 2 ^ expo p none x := by
      unfold flPos; field_simp
    rw [h2, abs_mul, abs_of_pos hz]
    refine (mul_le_mul_of_nonneg_right (nearest_err _) hz.le).trans ?_
    have h3 : (2 : K) ^ expo p none x * 2 ^ p = 2 ^ Int.log 2 x := by
      rw [← zpow_natCast, ← zpow_add₀ two.ne']; congr 1; unfold expo; simp
    have h4 : (2 : K) ^ expo p none x * 2 ^ p ≤ x := h3.trans_le h1
    rw [pow_succ, one_div_mul_eq_div, one_div_mul_eq_div, div_le_div_iff₀ two (by positivity)]
    nlinarith
  refine ⟨by positivity, ?_, ?_⟩
  · rw [div_lt_one (by positivity)]
    exact one_lt_pow₀ (by norm_num) (by omega)
  · intro x
    unfold binary; dsimp only
    rcases lt_trichotomy x 0 with h | h | h
    · rw [if_neg (not_lt.mpr h.le), if_pos h, abs_of_neg h]
      have := hp (-x) (neg_pos.mpr h)
      rwa [show -flPos p none (-x) - x = -(flPos p none (-x) - -x) by ring, abs_neg]
    · simp [h]
    · rw [if_pos h, abs_of_pos h]; exact hp x h

end Binary

/-! ## Accumulation of errors -/

/-- `a` and `x` differ by no more than the factor `(1 - u)^k`, in either direction. -/
def Within (u : K) (k : ℕ) (a x : K) : Prop := (1 - u) ^ k * x ≤ a ∧ (1 - u) ^ k * a ≤ x

/-- `a` is off from `x` by what `k` roundings make of numbers of size `X`. -/
def Off (u : K) (k : ℕ) (a x X : K) : Prop := |a - x| ≤ ((1 + u) ^ k - 1) * X ∧ |x| ≤ X

section
variable {R : Rounding K} {u : K}

theorem Precise.pos (h : R.Precise u) : 0 < 1 - u := by linarith [h.small]

theorem Precise.pow_pos (h : R.Precise u) (k : ℕ) : 0 < (1 - u) ^ k := _root_.pow_pos h.pos k

theorem Precise.pow_le_one (h : R.Precise u) (k : ℕ) : (1 - u) ^ k ≤ 1 :=
  pow_le_one₀ h.pos.le (by linarith [h.nonneg])

theorem Precise.one_le (h : R.Precise u) (k : ℕ) : 1 ≤ (1 + u) ^ k := one_le_pow₀ (by linarith [h.nonneg])

namespace Within

theorem refl (h : R.Precise u) {x : K} (hx : 0 ≤ x) (k : ℕ) : Within u k x x :=
  ⟨mul_le_of_le_one_left hx (h.pow_le_one k), mul_le_of_le_one_left hx (h.pow_le_one k)⟩

theorem nonneg (h : R.Precise u) {k : ℕ} {a x : K} (w : Within u k a x) (hx : 0 ≤ x) : 0 ≤ a :=
  (mul_nonneg (h.pow_pos k).le hx).trans w.1

theorem pos (h : R.Precise u) {k : ℕ} {a x : K} (w : Within u k a x) (hx : 0 < x) : 0 < a :=
  (mul_pos (h.pow_pos k) hx).trans_le w.1

theorem symm {k : ℕ} {a x : K} (w : Within u k a x) : Within u k x a := ⟨w.2, w.1⟩

theorem trans (h : R.Precise u) {k l : ℕ} {a b c : K} (w : Within u k a b) (v : Within u l b c) :
    Within u (k + l) a c := by
  constructor
  · rw [pow_add, mul_assoc]
    exact (mul_le_mul_of_nonneg_left v.1 (h.pow_pos k).le).trans w.1
  · rw [pow_add, mul_comm ((1 - u) ^ k), mul_assoc]
    exact (mul_le_mul_of_nonneg_left w.2 (h.pow_pos l).le).trans v.2

theorem mono (h : R.Precise u) {k l : ℕ} (hkl : k ≤ l) {a x : K} (hx : 0 ≤ x) (w : Within u k a x) : Within u l a x := by
  obtain ⟨d, rfl⟩ := Nat.exists_eq_add_of_le hkl
  exact w.trans h (refl h hx d)

theorem fl (h : R.Precise u) {x : K} (hx : 0 ≤ x) : Within u 1 (R.fl x) x := by
  have e := h.err x
  rw [abs_of_nonneg hx, abs_le] at e
  have h0 := h.nonneg
  have h1 := h.pos
  constructor
  · rw [pow_one]; linarith [e.1]
  · rw [pow_one]
    have : (1 - u) * R.fl x ≤ (1 - u) * ((1 + u) * x) := mul_le_mul_of_nonneg_left (by linarith [e.2]) h1.le
    have h2 : 0 ≤ u * u * x := mul_nonneg (mul_nonneg h0 h0) hx
    nlinarith

theorem round (h : R.Precise u) {k : ℕ} {a x : K} (hx : 0 ≤ x) (w : Within u k a x) : Within u (k + 1) (R.fl a) x := by
  have := (fl h (w.nonneg h hx)).trans h w
  rwa [Nat.add_comm] at this

theorem mul (h : R.Precise u) {k l : ℕ} {a b x y : K} (hx : 0 ≤ x) (hy : 0 ≤ y) (w : Within u k a x) (v : Within u l b y) :
    Within u (k + l) (a * b) (x * y) := by
  constructor
  · rw [pow_add, mul_mul_mul_comm]
    exact mul_le_mul w.1 v.1 (mul_nonneg (h.pow_pos l).le hy) (w.nonneg h hx)
  · rw [pow_add, mul_mul_mul_comm]
    exact mul_le_mul w.2 v.2 (mul_nonneg (h.pow_pos l).le (v.nonneg h hy)) hx

theorem inv (h : R.Precise u) {k : ℕ} {a x : K} (hx : 0 < x) (w : Within u k a x) : Within u k a⁻¹ x⁻¹ := by
  have ha := w.pos h hx
  constructor
  · rw [← div_eq_mul_inv, div_le_iff₀ hx, ← div_eq_inv_mul, le_div_iff₀ ha]; exact w.2
  · rw [← div_eq_mul_inv, div_le_iff₀ ha, ← div_eq_inv_mul, le_div_iff₀ hx]; exact w.1

theorem div (h : R.Precise u) {k l : ℕ} {a b x y : K} (hx : 0 ≤ x) (hy : 0 < y) (w : Within u k a x) (v : Within u l b y) :
    Within u (k + l) (a / b) (x / y) := by
  rw [div_eq_mul_inv, div_eq_mul_inv]
  exact w.mul h hx (inv_nonneg.mpr hy.le) (v.inv h hy)

theorem add {k : ℕ} {a b x y : K} (w : Within u k a x) (v : Within u k b y) : Within u k (a + b) (x + y) := by
  constructor <;> rw [mul_add]
  · exact add_le_add w.1 v.1
  · exact add_le_add w.2 v.2

theorem sum {ι : Type*} {k : ℕ} (s : Finset ι) {a x : ι → K} (w : ∀ i ∈ s, Within u k (a i) (x i)) :
    Within u k (∑ i ∈ s, a i) (∑ i ∈ s, x i) := by
  constructor <;> rw [Finset.mul_sum]
  · exact Finset.sum_le_sum fun i hi => (w i hi).1
  · exact Finset.sum_le_sum fun i hi => (w i hi).2

end Within

namespace Off

theorem refl (x : K) : Off u 0 x x |x| := ⟨by simp, le_rfl⟩

theorem bound {k : ℕ} {a x X : K} (w : Off u k a x X) : |a| ≤ (1 + u) ^ k * X := by
  have : |a| ≤ |a - x| + |x| := by
    have := abs_add_le (a - x) x; rwa [sub_add_cancel] at this
  linarith [w.1, w.2]

theorem mono (h : R.Precise u) {k l : ℕ} (hkl : k ≤ l) {a x X : K} (w : Off u k a x X) : Off u l a x X := by
  refine ⟨w.1.trans (mul_le_mul_of_nonneg_right ?_ ((abs_nonneg x).trans w.2)), w.2⟩
  exact sub_le_sub_right (pow_le_pow_right₀ (by linarith [h.nonneg]) hkl) 1

theorem round (h : R.Precise u) {k : ℕ} {a x X : K} (w : Off u k a x X) : Off u (k + 1) (R.fl a) x X := by
  refine ⟨?_, w.2⟩
  have h1 : |R.fl a - x| ≤ |R.fl a - a| + |a - x| := by
    have := abs_add_le (R.fl a - a) (a - x); rwa [sub_add_sub_cancel] at this
  have h2 := mul_le_mul_of_nonneg_left w.bound h.nonneg
  rw [pow_succ]
  linarith [h.err a, w.1]

theorem mul (h : R.Precise u) {k l : ℕ} {a b x y X Y : K} (w : Off u k a x X) (v : Off u l b y Y) :
    Off u (k + l) (a * b) (x * y) (X * Y) := by
  have hX := (abs_nonneg x).trans w.2
  have hY := (abs_nonneg y).trans v.2
  refine ⟨?_, by rw [abs_mul]; exact mul_le_mul w.2 v.2 (abs_nonneg _) hX⟩
  have h1 : |a * b - x * y| ≤ |a - x| * |b| + |x| * |b - y| := by
    have := abs_add_le ((a - x) * b) (x * (b - y))
    rw [abs_mul, abs_mul] at this
    rwa [show a * b - x * y = (a - x) * b + x * (b - y) by ring]
  have hp := h.one_le k
  have h2 : |a - x| * |b| ≤ (((1 + u) ^ k - 1) * X) * ((1 + u) ^ l * Y) :=
    mul_le_mul w.1 v.bound (abs_nonneg _) (mul_nonneg (by linarith) hX)
  have h3 : |x| * |b - y| ≤ X * (((1 + u) ^ l - 1) * Y) := mul_le_mul w.2 v.1 (abs_nonneg _) hX
  rw [pow_add]
  nlinarith

theorem add {k : ℕ} {a b x y X Y : K} (w : Off u k a x X) (v : Off u k b y Y) : Off u k (a + b) (x + y) (X + Y) := by
  refine ⟨?_, (abs_add_le x y).trans (add_le_add w.2 v.2)⟩
  rw [mul_add, show a + b - (x + y) = (a - x) + (b - y) by ring]
  exact (abs_add_le _ _).trans (add_le_add w.1 v.1)

end Off

/-! ## Sums in any order -/

variable {ι : Type*}

theorem sum_mono (R : Rounding K) {f g : ι → K} (h : ∀ i, f i ≤ g i) : ∀ o : Order ι, o.sum R f ≤ o.sum R g
  | .zero => le_rfl
  | .one i => h i
  | .both l r => R.mono (add_le_add (sum_mono R h l) (sum_mono R h r))

theorem sum_neg (R : Rounding K) (f : ι → K) : ∀ o : Order ι, (o.sum R fun i => -f i) = -o.sum R f
  | .zero => by simp [Order.sum]
  | .one i => rfl
  | .both l r => by
    simp only [Order.sum, Rounding.add]
    rw [sum_neg R f l, sum_neg R f r, ← R.neg, neg_add]

theorem sum_zero (R : Rounding K) : ∀ o : Order ι, (o.sum R fun _ => (0 : K)) = 0
  | .zero => rfl
  | .one _ => rfl
  | .both l r => by
    simp only [Order.sum, Rounding.add]
    rw [sum_zero R l, sum_zero R r, add_zero, R.fl_zero]

theorem sum_nonneg (R : Rounding K) {f : ι → K} (h : ∀ i, 0 ≤ f i) (o : Order ι) : 0 ≤ o.sum R f := by
  rw [← sum_zero R o]; exact sum_mono R h o

theorem sum_map (R : Rounding K) {κ : Type*} (g : ι → κ) (f : κ → K) :
    ∀ o : Order ι, (o.map g).sum R f = o.sum R fun i => f (g i)
  | .zero => rfl
  | .one _ => rfl
  | .both l r => by simp only [Order.map, Order.sum]; rw [sum_map R g f l, sum_map R g f r]

theorem leaves_sum_nonneg {x : ι → K} (hx : ∀ i, 0 ≤ x i) (l : List ι) : 0 ≤ (l.map x).sum :=
  List.sum_nonneg fun y hy => by obtain ⟨i, -, rfl⟩ := List.mem_map.mp hy; exact hx i

theorem sum_within (h : R.Precise u) {k : ℕ} {a x : ι → K} (hx : ∀ i, 0 ≤ x i) (w : ∀ i, Within u k (a i) (x i)) :
    ∀ o : Order ι, Within u (k + o.depth) (o.sum R a) (o.leaves.map x).sum
  | .zero => by simp only [Order.sum, Order.leaves, List.map_nil, List.sum_nil]; exact Within.refl h le_rfl _
  | .one i => by simp only [Order.sum, Order.leaves, Order.depth, List.map_cons, List.map_nil, List.sum_cons, List.sum_nil, add_zero]; exact w i
  | .both l r => by
    simp only [Order.sum, Order.leaves, Order.depth, List.map_append, List.sum_append, Rounding.add]
    have hl := (sum_within h hx w l).mono h (l := k + max l.depth r.depth) (by omega) (leaves_sum_nonneg hx _)
    have hr := (sum_within h hx w r).mono h (l := k + max l.depth r.depth) (by omega) (leaves_sum_nonneg hx _)
    exact (hl.add hr).round h (add_nonneg (leaves_sum_nonneg hx _) (leaves_sum_nonneg hx _))

theorem sum_off (h : R.Precise u) {k : ℕ} {a x X : ι → K} (w : ∀ i, Off u k (a i) (x i) (X i)) :
    ∀ o : Order ι, Off u (k + o.depth) (o.sum R a) (o.leaves.map x).sum (o.leaves.map X).sum
  | .zero => by
    simp only [Order.sum, Order.leaves, List.map_nil, List.sum_nil]
    exact ⟨by simp, by simp⟩
  | .one i => by simp only [Order.sum, Order.leaves, Order.depth, List.map_cons, List.map_nil, List.sum_cons, List.sum_nil, add_zero]; exact w i
  | .both l r => by
    simp only [Order.sum, Order.leaves, Order.depth, List.map_append, List.sum_append, Rounding.add]
    exact (((sum_off h w l).mono h (l := k + max l.depth r.depth) (by omega)).add
      ((sum_off h w r).mono h (l := k + max l.depth r.depth) (by omega))).round h

theorem leaves_sum [Fintype ι] {o : Order ι} (ho : o.Complete) (x : ι → K) : (o.leaves.map x).sum = ∑ i, x i := by
  classical
  rw [← List.sum_toFinset x ho.1]
  congr 1
  ext i; simp [ho.2 i]

end
end Rounding
end Verif
