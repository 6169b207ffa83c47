import Verif.Lemmas.NCComposite
import Verif.Lemmas.NCExact

/-! # Signs of the Newton-Cotes weights -/

namespace Verif
namespace NC

/-- Exact weights of a block with 2 to 12 points. -/
def blockTable : ℕ → List ℚ
  | 2 => [1 / 2, 1 / 2]
  | 3 => [1 / 3, 4 / 3, 1 / 3]
  | 4 => [3 / 8, 9 / 8, 9 / 8, 3 / 8]
  | 5 => [14 / 45, 64 / 45, 8 / 15, 64 / 45, 14 / 45]
  | 6 => [95 / 288, 125 / 96, 125 / 144, 125 / 144, 125 / 96, 95 / 288]
  | 7 => [41 / 140, 54 / 35, 27 / 140, 68 / 35, 27 / 140, 54 / 35, 41 / 140]
  | 8 => [5257 / 17280, 25039 / 17280, 343 / 640, 20923 / 17280, 20923 / 17280, 343 / 640, 25039 / 17280, 5257 / 17280]
  | 9 => [3956 / 14175, 23552 / 14175, -3712 / 14175, 41984 / 14175, -3632 / 2835, 41984 / 14175, -3712 / 14175, 23552 / 14175, 3956 / 14175]
  | 10 => [25713 / 89600, 141669 / 89600, 243 / 2240, 10881 / 5600, 26001 / 44800, 26001 / 44800, 10881 / 5600, 243 / 2240, 141669 / 89600, 25713 / 89600]
  | 11 => [80335 / 299376, 132875 / 74844, -80875 / 99792, 28375 / 6237, -24125 / 5544, 89035 / 12474, -24125 / 5544, 28375 / 6237, -80875 / 99792, 132875 / 74844, 80335 / 299376]
  | 12 => [4777223 / 17418240, 49450643 / 29030400, -35608243 / 87091200, 6166523 / 1935360, -17591827 / 14515200, 28404871 / 14515200, 28404871 / 14515200, -17591827 / 14515200, 6166523 / 1935360, -35608243 / 87091200, 49450643 / 29030400, 4777223 / 17418240]
  | _ => []

/-- Exact weights of the edges with 2 to 12 points. -/
def edgeTable : ℕ → List ℚ
  | 2 => [1 / 4, 1 / 4]
  | 3 => [2 / 9, 7 / 24, -1 / 72]
  | 4 => [5 / 24, 61 / 192, -1 / 32, 1 / 192]
  | 5 => [314 / 1575, 1943 / 5760, -293 / 5760, 163 / 9600, -113 / 40320]
  | 6 => [27 / 140, 8141 / 23040, -13 / 180, 139 / 3840, -241 / 20160, 41 / 23040]
  | 7 => [3727 / 19845, 23677 / 64512, -91943 / 967680, 10249 / 161280, -35551 / 1128960, 27221 / 2903040, -401 / 322560]
  | 8 => [8333 / 45360, 5868523 / 15482880, -921587 / 7741440, 171337 / 1720320, -254777 / 3870720, 1365751 / 46448640, -6707 / 860160, 14311 / 15482880]
  | 9 => [16444468 / 91216125, 181058477 / 464486400, -200905169 / 1393459200, 112121159 / 774144000, -317641 / 2654208, 59603027 / 836075520, -48299369 / 1703116800, 40600799 / 6038323200, -5002787 / 6967296000]
  | 10 => [7189691 / 40540500, 742435009 / 1857945600, -11300351 / 66355200, 28985699 / 145152000, -91989377 / 464486400, 9133843 / 61931520, -399713521 / 5109350400, 84004253 / 3019161600, -13801663 / 2322432000, 1070653 / 1857945600]
  | 11 => [755300059 / 4321211895, 50105621063 / 122624409600, -1613185337 / 8174960640, 2703539491 / 10218700800, -3128676763 / 10218700800, 16776877853 / 61312204800, -40790514773 / 224811417600, 762037361 / 8856207360, -93903137 / 3406233600, 3715155629 / 694871654400, -1104910469 / 2329863782400]
  | 12 => [4781371 / 27713400, 409047388597 / 980995276800, -4418472815 / 19619905536, 111120523991 / 326998425600, -18373578547 / 40874803200, 8515182367 / 18166579200, -6098416019 / 16349921280, 10443859331 / 47233105920, -154439107 / 1634992128, 152757546427 / 5558973235200, -45431742341 / 9319455129600, 390591433 / 980995276800]
  | _ => []

/-- The tables solve the systems. -/
def Solved (N : ℕ) : Prop :=
  (∀ n : Fin N, ∑ j : Fin N, (blockTable N).getD j.1 0 * (j.1 : ℚ) ^ n.1 = ((N : ℚ) - 1) ^ (n.1 + 1) / (n.1 + 1)) ∧
  ∀ n : Fin N, ∑ j : Fin N, (edgeTable N).getD j.1 0 * (edgePts N j : ℚ) ^ n.1 = (1 / 2) ^ (n.1 + 1) / (n.1 + 1)

instance (N : ℕ) : Decidable (Solved N) := by unfold Solved; infer_instance

theorem solved {N : ℕ} (h2 : 2 ≤ N) (h12 : N ≤ 12) : Solved N := by
  interval_cases N <;> decide +kernel

theorem tables {N : ℕ} (h2 : 2 ≤ N) (h12 : N ≤ 12) {w e : Fin N → ℝ} (hw : IsLstsq (powMatrix (blockPts N)) (blockRhs N) w)
    (he : IsLstsq (powMatrix (edgePts N)) (edgeRhs N) e) :
    (∀ j : Fin N, w j = (((blockTable N).getD j.1 0 : ℚ) : ℝ)) ∧ ∀ j : Fin N, e j = (((edgeTable N).getD j.1 0 : ℚ) : ℝ) := by
  obtain ⟨h1, h3⟩ := solved h2 h12
  constructor
  · refine congrFun (eq_of_moments (blockPts_injective N) fun n hn => ?_)
    rw [block_moments hw n hn]
    have := congrArg (fun x : ℚ => (x : ℝ)) (h1 ⟨n, hn⟩)
    push_cast at this
    rw [← this]
    rfl
  · refine congrFun (eq_of_moments (edgePts_injective N) fun n hn => ?_)
    rw [edge_moments he n hn]
    have := congrArg (fun x : ℚ => (x : ℝ)) (h3 ⟨n, hn⟩)
    push_cast at this
    rw [← this]
    refine Finset.sum_congr rfl fun j _ => ?_
    rw [← congrFun (edgePts_cast N) j]

/-- Weights of blocks, alone and with an edge, are positive. -/
def Safe (N : ℕ) : Prop :=
  (∀ j : Fin N, 0 < (blockTable N).getD j.1 0) ∧
  (∀ j : Fin (N - 1), 0 < (blockTable N).getD j.1 0 + (edgeTable N).getD (j.1 + 1) 0) ∧
  ∀ j : Fin (N - 1), 0 < (blockTable N).getD (j.1 + 1) 0 + (edgeTable N).getD (N - 1 - j.1) 0

instance (N : ℕ) : Decidable (Safe N) := by unfold Safe; infer_instance

theorem safe {N : ℕ} (h : N ∈ [2, 3, 4, 5, 6, 7, 8, 10]) : Safe N := by
  fin_cases h <;> decide +kernel

/-- Weights of the assembled rule. -/
theorem assemble_pos {N Nm : ℕ} (hN : 2 ≤ N) (hNm : 1 ≤ Nm) {w e : Fin N → ℝ} (h0 : ∀ j : Fin N, 0 < w j)
    (h1 : ∀ j (h : j + 1 < N), 0 < w ⟨j, by omega⟩ + e ⟨j + 1, h⟩)
    (h2 : ∀ j (h : j + 1 < N), 0 < w ⟨j + 1, h⟩ + e ⟨N - 1 - j, by omega⟩) {k : ℕ} (hk : k < npts N Nm) :
    0 < (List.range Nm).foldl (addBlock N (ext0 w)) (edges N Nm (ext0 e)) k := by
  rw [foldl_addBlock]
  obtain ⟨M, rfl⟩ : ∃ M, N = M + 1 := ⟨N - 1, by omega⟩
  have hM : 1 ≤ M := by omega
  simp only [Nat.add_sub_cancel] at *
  have hnn : ∀ n, 0 ≤ ext0 w n := by
    intro n
    unfold ext0
    split_ifs with h
    · exact (h0 _).le
    · exact le_rfl
  -- a block that contains the point contributes its weight
  have one : ∀ i < Nm, M * i ≤ k → k < M * i + (M + 1) → ext0 w (k - M * i) ≤ ∑ i ∈ Finset.range Nm,
      (if M * i ≤ k ∧ k < M * i + (M + 1) then ext0 w (k - M * i) else 0) := by
    intro i hi ha hb
    refine le_trans (le_of_eq ?_) (Finset.single_le_sum (f := fun i => if M * i ≤ k ∧ k < M * i + (M + 1) then ext0 w (k - M * i) else 0)
      (fun i _ => ?_) (Finset.mem_range.mpr hi))
    · simp [ha, hb]
    · split_ifs
      · exact hnn _
      · exact le_rfl
  unfold edges npts
  simp only [Nat.add_sub_cancel]
  unfold npts at hk
  simp only [Nat.add_sub_cancel] at hk
  obtain ⟨q, rfl⟩ : ∃ q, Nm = q + 1 := ⟨Nm - 1, by omega⟩
  have hq : M * (q + 1) + 1 - M = M * q + 1 := by rw [Nat.mul_succ]; omega
  rw [Nat.mul_succ] at hk
  rw [hq]
  split_ifs with hl hf
  · -- last block
    have hb := one q (by omega) (by omega) (by omega)
    obtain ⟨j, rfl⟩ : ∃ j, k = M * q + 1 + j := ⟨k - (M * q + 1), by omega⟩
    rw [show M * q + 1 + j - M * q = j + 1 by omega] at hb
    have h3 := h2 j (by omega)
    rw [show M - 1 - (M * q + 1 + j - (M * q + 1)) + 1 = M - j by omega]
    have e1 : ext0 w (j + 1) = w ⟨j + 1, by omega⟩ := dif_pos (by omega)
    have e2 : ext0 e (M - j) = e ⟨M - j, by omega⟩ := dif_pos (by omega)
    rw [e1] at hb
    rw [e2]
    linarith
  · -- first block
    have hb := one 0 (by omega) (by omega) (by omega)
    rw [Nat.mul_zero, Nat.sub_zero] at hb
    have h3 := h1 k (by omega)
    have e1 : ext0 w k = w ⟨k, by omega⟩ := dif_pos (by omega)
    have e2 : ext0 e (k + 1) = e ⟨k + 1, by omega⟩ := dif_pos (by omega)
    rw [e1] at hb
    rw [e2]
    linarith
  · have hm := Nat.div_add_mod k M
    have hlt := Nat.mod_lt k (show M > 0 by omega)
    have hi : k / M < q + 1 := by
      by_contra hc
      have := Nat.mul_le_mul_left M (not_lt.mp hc)
      rw [Nat.mul_succ] at this
      omega
    have hb := one (k / M) hi (by omega) (by omega)
    have e1 : ext0 w (k - M * (k / M)) = w ⟨k - M * (k / M), by omega⟩ := dif_pos (by omega)
    rw [e1] at hb
    have := h0 ⟨k - M * (k / M), by omega⟩
    linarith

theorem Returns.pos {N Nm : ℕ} (h : N ∈ [2, 3, 4, 5, 6, 7, 8, 10]) (hNm : 1 ≤ Nm) {wi : Fin (npts N Nm) → ℝ}
    (hr : Returns N Nm (.ok wi)) (k : Fin (npts N Nm)) : 0 < wi k := by
  have hN : 2 ≤ N ∧ N ≤ 12 := by fin_cases h <;> omega
  obtain ⟨w, e, hw, he, hok⟩ := hr.exact hN.2
  obtain ⟨tw, te⟩ := tables hN.1 hN.2 hw he
  obtain ⟨s0, s1, s2⟩ := safe h
  have cast : ∀ q : ℚ, 0 < q → (0 : ℝ) < q := fun q hq => by exact_mod_cast hq
  unfold assemble at hok
  split_ifs at hok with ha hz
  · omega
  cases hok
  refine assemble_pos hN.1 hNm (fun j => by rw [tw]; exact cast _ (s0 j)) (fun j hj => ?_) (fun j hj => ?_) k.2
  · rw [tw, te]
    exact_mod_cast s1 ⟨j, by omega⟩
  · rw [tw, te]
    exact_mod_cast s2 ⟨j, by omega⟩

/-- The third weight is negative, the first positive. -/
def Unsafe (N : ℕ) : Prop :=
  0 < (blockTable N).getD 0 0 + (edgeTable N).getD 1 0 ∧ (blockTable N).getD 2 0 + (edgeTable N).getD 3 0 < 0 ∧
    (blockTable N).getD 2 0 + (edgeTable N).getD (N - 2) 0 < 0

instance (N : ℕ) : Decidable (Unsafe N) := by unfold Unsafe; infer_instance

theorem unsafe_ {N : ℕ} (h : N ∈ [9, 11, 12]) : Unsafe N := by
  fin_cases h <;> decide +kernel

theorem first_block {N Nm : ℕ} (hN : 2 ≤ N) (hNm : 1 ≤ Nm) (w f : ℕ → ℝ) {k : ℕ} (hk : k + 1 < N) :
    (List.range Nm).foldl (addBlock N w) f k = f k + w k := by
  rw [foldl_addBlock]
  congr 1
  rw [Finset.sum_eq_single 0]
  · rw [if_pos ⟨by omega, by omega⟩, Nat.mul_zero, Nat.sub_zero]
  · intro i _ hi
    rw [if_neg]
    intro hc
    have := Nat.mul_le_mul_left (N - 1) (show 1 ≤ i by omega)
    omega
  · intro hc
    exact absurd (Finset.mem_range.mpr (by omega)) hc

theorem Returns.neg {N Nm : ℕ} (h : N ∈ [9, 11, 12]) (hNm : 1 ≤ Nm) {wi : Fin (npts N Nm) → ℝ} (hr : Returns N Nm (.ok wi)) :
    (∀ k : Fin (npts N Nm), k.1 = 0 → 0 < wi k) ∧ ∀ k : Fin (npts N Nm), k.1 = 2 → wi k < 0 := by
  have hN : 9 ≤ N ∧ N ≤ 12 := by fin_cases h <;> omega
  obtain ⟨w, e, hw, he, hok⟩ := hr.exact hN.2
  obtain ⟨tw, te⟩ := tables (by omega) hN.2 hw he
  obtain ⟨s0, s1, s2⟩ := unsafe_ h
  unfold assemble at hok
  split_ifs at hok with ha hz
  · omega
  cases hok
  have hn := Nat.mul_le_mul_left (N - 1) hNm
  have ew : ∀ n (hn : n < N), ext0 w n = (((blockTable N).getD n 0 : ℚ) : ℝ) := fun n hn => (dif_pos hn).trans (tw ⟨n, hn⟩)
  have ee : ∀ n (hn : n < N), ext0 e n = (((edgeTable N).getD n 0 : ℚ) : ℝ) := fun n hn => (dif_pos hn).trans (te ⟨n, hn⟩)
  constructor
  · intro k hk
    dsimp only
    rw [hk, first_block (by omega) hNm _ _ (by omega)]
    unfold edges npts
    rw [if_neg (by omega), if_pos (by omega), ew 0 (by omega), ee (0 + 1) (by omega), add_comm]
    exact_mod_cast s0
  · intro k hk
    dsimp only
    rw [hk, first_block (by omega) hNm _ _ (by omega)]
    unfold edges npts
    rcases Nat.lt_or_ge 1 Nm with hm | hm
    · have := Nat.mul_le_mul_left (N - 1) hm
      rw [if_neg (by omega), if_pos (by omega), ew 2 (by omega), ee (2 + 1) (by omega), add_comm]
      exact_mod_cast s1
    · obtain rfl : Nm = 1 := by omega
      rw [if_pos (by omega), show N - 1 - 1 - (2 - ((N - 1) * 1 + 1 - (N - 1))) + 1 = N - 2 by omega, ew 2 (by omega), ee (N - 2) (by omega),
        add_comm]
      exact_mod_cast s2

end NC
end Verif
