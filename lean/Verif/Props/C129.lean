import Verif.Props.C86
import Verif.Props.C120
import Mathlib.Algebra.Order.Archimedean.Basic
import Mathlib.Tactic.Positivity
import Mathlib.Tactic.Ring
import Mathlib.Tactic.FieldSimp
import Mathlib.Tactic.SplitIfs

/-!
# C129: when mixing makes the Kohn-Sham calculation converge

`scf` replaces the density `n` by `(1 - alpha) * n + alpha * out`, where `out` is the density of the orbitals in the
potential of `n`.
-/

namespace Verif
open Spec KS KsScf

section
variable {K : Type} [Field K] [LinearOrder K] [IsStrictOrderedRing K] [FloorRing K]
variable {G : Grid K} {r c p : ℕ}

/-- `m` is an output density for the density `n`: the density of the orbitals that the solvers of `ks` find, in one way
or the other, in the potential of `n`. -/
def Spec.Output (F : Functionals G p) (W : Workers G r c p) (ks : KS G r c p) (n m : G.Cols p) : Prop :=
  ∃ (b b' b'' : KS G r c p) (it : Bool), Reused ks b ∧ b.n = some n ∧ potential F b = .ok b' ∧
    b'.calcDensity (W b' it) = .ok (b'', m)

/-- Total energy that a pass from the density `n` gives. -/
def Spec.EnergyOf (F : Functionals G p) (W : Workers G r c p) (o : Options K) (ks : KS G r c p) (n : G.Cols p) (E : Fl K) :
    Prop :=
  ∃ (st st' : State G r c p) (d : Fl K × Fl K) (e : KSEnergy K p), Reused ks st.ks ∧ st.ks.n = some n ∧
    body F W o st = .ok (st', d) ∧ st'.ks.E = some e ∧ E = e.E

/-- Density with which the loop starts. -/
def Spec.StartsFrom (W : Workers G r c p) (o : Options K) (ks : KS G r c p) (n : G.Cols p) : Prop :=
  ∃ b, start W o ks = .ok b ∧ b.n = some n

/-- Integral of the absolute value over all spins. -/
def Spec.size (f : G.Cols p) : K := ∑ s, G.integ fun k => |f s k|

/-- Integral of the product over all spins. -/
def Spec.overlapOf (f g : G.Cols p) : K := ∑ s, G.integ fun k => f s k * g s k

namespace KsScf

/-- The states of a run. -/
theorem loop_states {S : Type} (step : S → Py (S × Fl K × Fl K)) (auto : Bool) (etol : K) :
    ∀ (left : ℕ) (diff : Fl K) (s s' : S) (log), loop step auto etol left diff s = .ok (s', log) →
      ∃ f : ℕ → S, f 0 = s ∧ f log.length = s' ∧ ∀ i (hi : i < log.length), step (f i) = .ok (f (i + 1), log[i]) := by
  intro left
  induction left with
  | zero =>
    intro diff s s' log h
    unfold loop at h
    split at h
    · simp only [Except.ok.injEq, Prod.mk.injEq] at h
      obtain ⟨rfl, rfl⟩ := h
      exact ⟨fun _ => s, rfl, rfl, fun i hi => absurd hi (by simp)⟩
    · split at h
      · cases h
      · simp only [Except.ok.injEq, Prod.mk.injEq] at h
        obtain ⟨rfl, rfl⟩ := h
        exact ⟨fun _ => s, rfl, rfl, fun i hi => absurd hi (by simp)⟩
  | succ left ih =>
    intro diff s s' log h
    unfold loop at h
    split at h
    · simp only [Py.do_eq_ok] at h
      obtain ⟨⟨t, dE, dn⟩, ht, h⟩ := h
      split at h
      · cases h
      · simp only [Py.do_eq_ok, Py.pure_eq_ok] at h
        obtain ⟨⟨t', log'⟩, ht', h⟩ := h
        obtain ⟨rfl, rfl⟩ := Prod.mk.inj h
        obtain ⟨f, h0, h1, h2⟩ := ih _ _ _ _ ht'
        refine ⟨fun i => match i with
          | 0 => s
          | i + 1 => f i, rfl, h1, fun i hi => ?_⟩
        cases i with
        | zero =>
          change step s = .ok (f 0, _)
          rw [h0, ht]
          rfl
        | succ i => exact h2 i (by simpa using hi)
    · split at h
      · cases h
      · simp only [Except.ok.injEq, Prod.mk.injEq] at h
        obtain ⟨rfl, rfl⟩ := h
        exact ⟨fun _ => s, rfl, rfl, fun i hi => absurd hi (by simp)⟩

/-- Every pass but the last was followed by a change above the tolerance. -/
theorem loop_going {S : Type} (step : S → Py (S × Fl K × Fl K)) (auto : Bool) (etol : K) :
    ∀ (left : ℕ) (diff : Fl K) (s s' : S) (log), loop step auto etol left diff s = .ok (s', log) →
      ∀ i (hi : i + 1 < log.length), Fl.gt (Fl.pymax log[i].1 log[i].2) (.fin etol) = true := by
  intro left
  induction left with
  | zero =>
    intro diff s s' log h i hi
    unfold loop at h
    split at h
    · simp only [Except.ok.injEq, Prod.mk.injEq] at h
      obtain ⟨rfl, rfl⟩ := h
      simp at hi
    · split at h
      · cases h
      · simp only [Except.ok.injEq, Prod.mk.injEq] at h
        obtain ⟨rfl, rfl⟩ := h
        simp at hi
  | succ left ih =>
    intro diff s s' log h i hi
    unfold loop at h
    split at h
    · simp only [Py.do_eq_ok] at h
      obtain ⟨⟨t, dE, dn⟩, ht, h⟩ := h
      split at h
      · cases h
      · simp only [Py.do_eq_ok, Py.pure_eq_ok] at h
        obtain ⟨⟨t', log'⟩, ht', h⟩ := h
        obtain ⟨rfl, rfl⟩ := Prod.mk.inj h
        cases i with
        | zero =>
          by_contra hc
          unfold loop at ht'
          simp only [List.getElem_cons_zero] at hc
          rw [if_neg hc] at ht'
          split at ht'
          · cases ht'
          · simp only [Except.ok.injEq, Prod.mk.injEq] at ht'
            obtain ⟨rfl, rfl⟩ := ht'
            simp at hi
        | succ i => exact ih _ _ _ _ ht' i (by simpa using hi)
    · split at h
      · cases h
      · simp only [Except.ok.injEq, Prod.mk.injEq] at h
        obtain ⟨rfl, rfl⟩ := h
        simp at hi

/-- A pass without `spinflipsym`. -/
theorem body_output {F : Functionals G p} {W : Workers G r c p} {o : Options K} (ho : o.spinflipsym = false)
    {ks : KS G r c p} {st st' : State G r c p} {d : Fl K × Fl K} (hr : Reused ks st.ks)
    (h : body F W o st = .ok (st', d)) :
    ∃ n m E, st.ks.n = some n ∧ Output F W ks n m ∧ st'.ks.n = some (mix o.alpha n m) ∧ st'.oldN = mix o.alpha n m ∧
      EnergyOf F W o ks n E ∧ st'.oldE = E ∧ d.1 = Fl.abs (Fl.div (Fl.sub E st.oldE) E) ∧
      difN (mix o.alpha n m) st.oldN = .ok d.2 := by
  have hb := h
  unfold body at h
  simp only [Py.do_eq_ok, Py.pure_eq_ok, density] at h
  obtain ⟨ks1, h1, ks3, ⟨x, h2, n, h3, rfl⟩, ks4, h4, ks5, h5, n5, h6, E, h7, dn, h8, h9⟩ := h
  obtain ⟨rfl, rfl⟩ := Prod.mk.inj h9
  unfold flipPotential at h2
  simp only [ho, Bool.false_eq_true, if_false] at h2 h4
  have e1 : ks1.n = st.ks.n := by
    unfold potential at h1
    simp only [Py.do_eq_ok, Py.pure_eq_ok] at h1
    obtain ⟨m, hm, _, -, _, -, s, hs, rfl⟩ := h1
    exact (calcHxc_keeps hm).2
  have e2 : x.1.n = ks1.n := by
    unfold KS.calcDensity at h2
    simp only [Py.do_eq_ok, Py.pure_eq_ok] at h2
    obtain ⟨_, -, _, -, rfl⟩ := h2
    rfl
  have hn : st.ks.n = some n := by
    rw [← e1, ← e2]
    cases hx : x.1.n with
    | none => rw [hx] at h3; cases h3
    | some y => rw [hx] at h3; exact congrArg some (Except.ok.inj h3)
  have e4 : ks4.n = some (mix o.alpha n x.2) := by
    unfold KS.energy at h4
    simp only [Py.do_eq_ok] at h4
    obtain ⟨y, -, h4⟩ := h4
    cases hk : x.1.kind <;> simp only [hk, Py.do_eq_ok, Py.pure_eq_ok] at h4
    · obtain ⟨_, -, _, -, _, -, _, -, _, -, ⟨_, _, _⟩, -, ⟨_, _, _⟩, -, rfl⟩ := h4
      rfl
    · obtain ⟨_, -, _, -, rfl⟩ := h4
      rfl
  have e5 : ks5.n = some (mix o.alpha n x.2) := by
    unfold KS.calcChempot at h5
    simp only [Py.do_eq_ok, Py.pure_eq_ok] at h5
    obtain ⟨_, -, _, -, rfl⟩ := h5
    exact e4
  have hE : ks5.E = some E := by
    cases hx : ks5.E with
    | none => rw [hx] at h7; cases h7
    | some y => rw [hx] at h7; exact congrArg some (Except.ok.inj h7)
  rw [e5] at h6
  obtain rfl := Except.ok.inj h6
  exact ⟨n, x.2, E.E, hn, ⟨st.ks, ks1, x.1, _, hr, hn, h1, h2⟩, e5, rfl, ⟨st, _, _, E, hr, hn, hb, hE, rfl⟩, rfl, rfl, h8⟩

end KsScf

/-- **C129, the passes.**  The densities of a calculation: each is the last one mixed with an output density for it, and
the changes that are compared with the tolerance are those of the energy and the density between two passes (for the
first pass, from 0). -/
theorem C129_passes (F : Functionals G p) (W : Workers G r c p) (o : Options K) (ho : o.spinflipsym = false)
    {ks ks' : KS G r c p} {log : List (Fl K × Fl K)} (h : scf F W o ks = .ok (ks', log)) :
    ∃ (n : ℕ → G.Cols p) (E : ℕ → Fl K), StartsFrom W o ks (n 0) ∧ ks'.n = some (n log.length) ∧
      (∀ i < log.length, ∃ m, Output F W ks (n i) m ∧ n (i + 1) = fun s k => (1 - o.alpha) * n i s k + o.alpha * m s k) ∧
      (∀ i < log.length, EnergyOf F W o ks (n i) (E i)) ∧
      ∀ i (hi : i < log.length),
        log[i].1 = Fl.abs (Fl.div (Fl.sub (E i) (if i = 0 then .fin 0 else E (i - 1))) (E i)) ∧
          difN (n (i + 1)) (if i = 0 then fun _ _ => 0 else n i) = .ok log[i].2 := by
  unfold scf run at h
  simp only [Py.do_eq_ok, Py.pure_eq_ok] at h
  obtain ⟨s, hs, ⟨st, l⟩, hl, h⟩ := h
  obtain ⟨rfl, rfl⟩ := Prod.mk.inj h
  obtain ⟨f, h0, h1, h2⟩ := loop_states _ _ _ _ _ _ _ _ hl
  have hfresh : ∀ i ≤ l.length, Reused ks (f i).ks := by
    intro i
    induction i with
    | zero => intro _; rw [h0]; exact start_fresh hs
    | succ i ih => intro hi; exact (ih (by omega)).trans (body_fresh (h2 i (by omega)))
  have hstart : ∃ n0, s.n = some n0 := by
    unfold start at hs
    cases hc : o.continuing
    · simp only [hc, Bool.false_eq_true, if_false, Py.do_eq_ok, Py.pure_eq_ok] at hs
      obtain ⟨m, hm, ⟨x, nout⟩, hx, rfl⟩ := hs
      exact ⟨_, rfl⟩
    · simp only [hc, if_true, Py.do_eq_ok, Py.pure_eq_ok] at hs
      obtain ⟨n, hn, rfl⟩ := hs
      cases hx : ks.n with
      | none => rw [hx] at hn; cases hn
      | some y => exact ⟨y, by simpa using hx⟩
  obtain ⟨n0, hn0⟩ := hstart
  have hsome : ∀ i ≤ l.length, ∃ n, (f i).ks.n = some n := by
    intro i hi
    cases i with
    | zero => rw [h0]; exact ⟨n0, hn0⟩
    | succ i =>
      obtain ⟨n, m, E, -, -, e, -⟩ := body_output ho (hfresh i (by omega)) (h2 i (by omega))
      exact ⟨_, e⟩
  have hval : ∀ i ≤ l.length, (f i).ks.n = some (((f i).ks.n).getD fun _ _ => 0) := by
    intro i hi
    obtain ⟨n, hn⟩ := hsome i hi
    rw [hn]
    rfl
  refine ⟨fun i => ((f i).ks.n).getD fun _ _ => 0, fun i => (f (i + 1)).oldE, ⟨s, hs, ?_⟩, ?_, ?_, ?_, ?_⟩ <;>
    dsimp only
  · have := hval 0 (by omega)
    rw [h0] at this ⊢
    exact this
  · rw [← h1]
    exact hval _ le_rfl
  · intro i hi
    obtain ⟨n, m, E, e1, e2, e3, -⟩ := body_output ho (hfresh i (by omega)) (h2 i hi)
    refine ⟨m, ?_, ?_⟩
    · rw [e1]; exact e2
    · rw [e1, e3]; rfl
  · intro i hi
    obtain ⟨n, m, E, e1, e2, e3, -, e5, e6, -⟩ := body_output ho (hfresh i (by omega)) (h2 i hi)
    rw [e1, e6]
    exact e5
  · intro i hi
    obtain ⟨n, m, E, e1, e2, e3, -, e5, e6, e7, e8⟩ := body_output ho (hfresh i (by omega)) (h2 i hi)
    cases i with
    | zero =>
      rw [h0] at e7 e8
      refine ⟨?_, ?_⟩
      · rw [e7, e6]
        rfl
      · rw [e3]
        exact e8
    | succ j =>
      obtain ⟨n', m', E', -, -, g3, g4, -⟩ := body_output ho (hfresh j (by omega)) (h2 j (by omega))
      refine ⟨?_, ?_⟩
      · rw [e7, e6]
        rfl
      · rw [e3, g3]
        rw [g4] at e8
        exact e8

namespace KsScf

omit [LinearOrder K] [IsStrictOrderedRing K] [FloorRing K] in
theorem integ_add (f g : G.Fld) : G.integ (fun k => f k + g k) = G.integ f + G.integ g := by
  unfold Grid.integ
  rw [← mul_add, ← Finset.sum_add_distrib]
  congr 1
  exact Finset.sum_congr rfl fun k _ => by ring

omit [LinearOrder K] [IsStrictOrderedRing K] [FloorRing K] in
theorem integ_smul (a : K) (f : G.Fld) : G.integ (fun k => a * f k) = a * G.integ f := by
  unfold Grid.integ
  rw [Finset.mul_sum, Finset.mul_sum, Finset.mul_sum]
  exact Finset.sum_congr rfl fun k _ => by ring

theorem integ_mono (hG : NonnegWeights G) {f g : G.Fld} (h : ∀ k, f k ≤ g k) : G.integ f ≤ G.integ g := by
  have h1 := G.integ_nonneg hG (f := fun k => g k - f k) fun k => sub_nonneg.2 (h k)
  have h2 : G.integ (fun k => g k - f k) = G.integ g + (-1) * G.integ f := by
    rw [← integ_smul, ← integ_add]
    congr 1
    funext k
    ring
  linarith

theorem size_nonneg (hG : NonnegWeights G) (f : G.Cols p) : 0 ≤ size f :=
  Finset.sum_nonneg fun _ _ => G.integ_nonneg hG fun _ => abs_nonneg _

/-- The size of a combination. -/
theorem size_comb (hG : NonnegWeights G) {a b : K} (ha : 0 ≤ a) (hb : 0 ≤ b) (f g : G.Cols p) :
    size (fun s k => a * f s k + b * g s k) ≤ a * size f + b * size g := by
  unfold size
  rw [Finset.mul_sum, Finset.mul_sum, ← Finset.sum_add_distrib]
  refine Finset.sum_le_sum fun s _ => ?_
  rw [← integ_smul, ← integ_smul, ← integ_add]
  refine integ_mono hG fun k => ?_
  calc |a * f s k + b * g s k| ≤ |a * f s k| + |b * g s k| := abs_add_le _ _
    _ = a * |f s k| + b * |g s k| := by rw [abs_mul, abs_mul, abs_of_nonneg ha, abs_of_nonneg hb]

theorem inner_comb (a b : K) (f g : G.Cols p) :
    overlapOf (fun s k => a * f s k + b * g s k) (fun s k => a * f s k + b * g s k) =
      a ^ 2 * overlapOf f f + 2 * a * b * overlapOf f g + b ^ 2 * overlapOf g g := by
  unfold overlapOf
  rw [Finset.mul_sum, Finset.mul_sum, Finset.mul_sum, ← Finset.sum_add_distrib, ← Finset.sum_add_distrib]
  refine Finset.sum_congr rfl fun s _ => ?_
  rw [← integ_smul, ← integ_smul, ← integ_smul, ← integ_add, ← integ_add]
  congr 1
  funext k
  ring

end KsScf

/-- **C129, contraction.**  If every output density is closer to the self-consistent density `n₀` than its input, by the
factor `L`, then each pass reduces the distance to `n₀` by the factor `1 - alpha + alpha L`. -/
theorem C129_contraction (hG : NonnegWeights G) (F : Functionals G p) (W : Workers G r c p) (o : Options K)
    (ho : o.spinflipsym = false) (h0 : 0 ≤ o.alpha) (h1 : o.alpha ≤ 1) {ks ks' : KS G r c p} {log : List (Fl K × Fl K)}
    (n₀ : G.Cols p) (L : K) (hL : 0 ≤ L)
    (hc : ∀ n m, Output F W ks n m → size (fun s k => m s k - n₀ s k) ≤ L * size (fun s k => n s k - n₀ s k))
    (h : scf F W o ks = .ok (ks', log)) :
    ∃ n n', StartsFrom W o ks n ∧ ks'.n = some n' ∧
      size (fun s k => n' s k - n₀ s k) ≤ (1 - o.alpha + o.alpha * L) ^ log.length * size (fun s k => n s k - n₀ s k) := by
  obtain ⟨n, E, hs, he, hp, -⟩ := C129_passes F W o ho h
  refine ⟨n 0, n log.length, hs, he, ?_⟩
  have key : ∀ i ≤ log.length, size (fun s k => n i s k - n₀ s k) ≤
      (1 - o.alpha + o.alpha * L) ^ i * size (fun s k => n 0 s k - n₀ s k) := by
    intro i
    induction i with
    | zero => intro _; simp
    | succ i ih =>
      intro hi
      obtain ⟨m, hm, e⟩ := hp i (by omega)
      have e' : (fun s k => n (i + 1) s k - n₀ s k) =
          fun s k => (1 - o.alpha) * (n i s k - n₀ s k) + o.alpha * (m s k - n₀ s k) := by
        funext s k
        rw [e]
        ring
      rw [e']
      refine (size_comb hG (sub_nonneg.2 h1) h0 _ _).trans ?_
      have h2 := mul_le_mul_of_nonneg_left (hc _ _ hm) h0
      have h3 : 0 ≤ 1 - o.alpha + o.alpha * L := add_nonneg (sub_nonneg.2 h1) (mul_nonneg h0 hL)
      have h4 := mul_le_mul_of_nonneg_left (ih (by omega)) h3
      calc _ ≤ (1 - o.alpha) * size (fun s k => n i s k - n₀ s k) + o.alpha * (L * size (fun s k => n i s k - n₀ s k)) :=
            by linarith
        _ = (1 - o.alpha + o.alpha * L) * size (fun s k => n i s k - n₀ s k) := by ring
        _ ≤ _ := h4
        _ = _ := by rw [pow_succ]; ring
  exact key _ le_rfl

/-- **C129, repulsion.**  Let the output density move against the input (`b ≤ 0`) or at most a part `b < 1` of the way
with it, in the mean, and at most `√M` times as far.  Then each pass multiplies the squared distance to the
self-consistent density by at most `q = (1 - alpha)² + 2 alpha (1 - alpha) b + alpha² M`. -/
theorem C129_repulsion (F : Functionals G p) (W : Workers G r c p) (o : Options K)
    (ho : o.spinflipsym = false) (h0 : 0 ≤ o.alpha) (h1 : o.alpha ≤ 1) {ks ks' : KS G r c p} {log : List (Fl K × Fl K)}
    (n₀ : G.Cols p) (b M : K) (hM : b ^ 2 ≤ M)
    (hb : ∀ n m, Output F W ks n m →
      overlapOf (fun s k => n s k - n₀ s k) (fun s k => m s k - n₀ s k) ≤
        b * overlapOf (fun s k => n s k - n₀ s k) (fun s k => n s k - n₀ s k))
    (hm : ∀ n m, Output F W ks n m →
      overlapOf (fun s k => m s k - n₀ s k) (fun s k => m s k - n₀ s k) ≤
        M * overlapOf (fun s k => n s k - n₀ s k) (fun s k => n s k - n₀ s k))
    (h : scf F W o ks = .ok (ks', log)) :
    ∃ n n', StartsFrom W o ks n ∧ ks'.n = some n' ∧
      overlapOf (fun s k => n' s k - n₀ s k) (fun s k => n' s k - n₀ s k) ≤
        ((1 - o.alpha) ^ 2 + 2 * o.alpha * (1 - o.alpha) * b + o.alpha ^ 2 * M) ^ log.length *
          overlapOf (fun s k => n s k - n₀ s k) (fun s k => n s k - n₀ s k) := by
  obtain ⟨n, E, hs, he, hp, -⟩ := C129_passes F W o ho h
  refine ⟨n 0, n log.length, hs, he, ?_⟩
  have hq : 0 ≤ (1 - o.alpha) ^ 2 + 2 * o.alpha * (1 - o.alpha) * b + o.alpha ^ 2 * M := by
    have e : (1 - o.alpha) ^ 2 + 2 * o.alpha * (1 - o.alpha) * b + o.alpha ^ 2 * M =
        (1 - o.alpha + o.alpha * b) ^ 2 + o.alpha ^ 2 * (M - b ^ 2) := by ring
    rw [e]
    exact add_nonneg (sq_nonneg _) (mul_nonneg (sq_nonneg _) (sub_nonneg.2 hM))
  have key : ∀ i ≤ log.length, overlapOf (fun s k => n i s k - n₀ s k) (fun s k => n i s k - n₀ s k) ≤
      ((1 - o.alpha) ^ 2 + 2 * o.alpha * (1 - o.alpha) * b + o.alpha ^ 2 * M) ^ i *
        overlapOf (fun s k => n 0 s k - n₀ s k) (fun s k => n 0 s k - n₀ s k) := by
    intro i
    induction i with
    | zero => intro _; simp
    | succ i ih =>
      intro hi
      obtain ⟨m, hmm, e⟩ := hp i (by omega)
      have e' : (fun s k => n (i + 1) s k - n₀ s k) =
          fun s k => (1 - o.alpha) * (n i s k - n₀ s k) + o.alpha * (m s k - n₀ s k) := by
        funext s k
        rw [e]
        ring
      rw [e', inner_comb]
      have g1 := mul_le_mul_of_nonneg_left (hb _ _ hmm)
        (mul_nonneg (mul_nonneg (by norm_num : (0 : K) ≤ 2) (sub_nonneg.2 h1)) h0)
      have g2 := mul_le_mul_of_nonneg_left (hm _ _ hmm) (sq_nonneg o.alpha)
      have g3 := mul_le_mul_of_nonneg_left (ih (by omega)) hq
      rw [pow_succ]
      generalize overlapOf (fun s k => n i s k - n₀ s k) (fun s k => n i s k - n₀ s k) = X at *
      generalize overlapOf (fun s k => n i s k - n₀ s k) (fun s k => m s k - n₀ s k) = Y at *
      generalize overlapOf (fun s k => m s k - n₀ s k) (fun s k => m s k - n₀ s k) = Z at *
      calc _ ≤ (1 - o.alpha) ^ 2 * X + 2 * (1 - o.alpha) * o.alpha * (b * X) + o.alpha ^ 2 * (M * X) := by linarith
        _ = ((1 - o.alpha) ^ 2 + 2 * o.alpha * (1 - o.alpha) * b + o.alpha ^ 2 * M) * X := by ring
        _ ≤ _ := g3
        _ = _ := by ring
  exact key _ le_rfl

omit [FloorRing K] in
/-- **C129, the mixing parameter.**  However strong the feedback, the factor of `C129_repulsion` is below 1 exactly for
the positive mixing parameters below `2 (1 - b) / (1 - 2 b + M)`. -/
theorem C129_alpha (a b M : K) (hb : b < 1) (hM : b ^ 2 ≤ M) (ha : 0 < a) :
    (1 - a) ^ 2 + 2 * a * (1 - a) * b + a ^ 2 * M < 1 ↔ a < 2 * (1 - b) / (1 - 2 * b + M) := by
  have hd : 0 < 1 - 2 * b + M := by nlinarith [sq_pos_of_pos (sub_pos.2 hb)]
  rw [lt_div_iff₀ hd]
  have e : (1 - a) ^ 2 + 2 * a * (1 - a) * b + a ^ 2 * M = 1 + a * (a * (1 - 2 * b + M) - 2 * (1 - b)) := by ring
  rw [e]
  constructor
  · intro h
    by_contra hc
    have := mul_nonneg ha.le (sub_nonneg.2 (not_lt.1 hc))
    linarith
  · intro h
    have := mul_neg_of_pos_of_neg ha (sub_neg.2 h)
    linarith

namespace KsScf

omit [Field K] [IsStrictOrderedRing K] [FloorRing K] in
theorem foldMax_mem (l : List (Fl K)) : ∀ x : Fl K,
    l.foldl (fun m y => if m.isnan then m else if y.isnan then y else if Fl.gt y m then y else m) x ∈ x :: l := by
  induction l with
  | nil => intro x; simp
  | cons z l ih =>
    intro x
    rw [List.foldl_cons]
    have h := ih (if x.isnan then x else if z.isnan then z else if Fl.gt z x then z else x)
    rw [List.mem_cons] at h
    rcases h with h | h
    · rw [h]
      split_ifs <;> simp
    · simp [h]

/-- `dif_n` is at most the largest relative change of the spin densities. -/
theorem difN_le (hp : 2 ≤ p) {n old : G.Cols p} {e : K} (hpos : ∀ s, 0 < G.integ fun k => |n s k|)
    (hle : ∀ s, G.integ (fun k => |n s k - old s k|) ≤ e * G.integ fun k => |n s k|) {x : Fl K}
    (h : difN n old = .ok x) : ∃ y, x = .fin y ∧ y ≤ e := by
  obtain _ | _ | p := p
  · omega
  · omega
  simp only [difN, Grid.integrate] at h
  rw [dif_pos trivial] at h
  generalize hl : ((List.finRange (p + 1 + 1)).flatMap fun s => (List.finRange (G.Na * G.Nr)).map fun _ =>
      Fl.div (.fin (2 * G.pi * G.hr * G.ha * ∑ k, G.wi k * G.w k * |n s k - old s k|))
        (.fin (2 * G.pi * G.hr * G.ha * ∑ k, G.wi k * G.w k * |n s k|))) = l at h
  have hall : ∀ y ∈ l, ∃ v, y = .fin v ∧ v ≤ e := by
    intro y hy
    rw [← hl] at hy
    obtain ⟨s, -, hy⟩ := List.mem_flatMap.mp hy
    obtain ⟨_, -, rfl⟩ := List.mem_map.mp hy
    have h0 : (2 * G.pi * G.hr * G.ha * ∑ k, G.wi k * G.w k * |n s k|) ≠ 0 := (hpos s).ne'
    refine ⟨_, by unfold Fl.div; simp only [if_neg h0]; rfl, ?_⟩
    exact (div_le_iff₀ (hpos s)).2 (hle s)
  cases l with
  | nil => cases h
  | cons y l =>
    obtain rfl := Except.ok.inj h
    exact hall _ (foldMax_mem l y)

end KsScf

/-- **C129, the end of the loop.**  Let the output densities contract towards `n₀`, be non-negative and have at least
`ν` electrons of each spin, and let the energy be Lipschitz continuous and at least `e` in absolute value.  Then, for
every positive mixing parameter and tolerance, there is a number of passes that no calculation from the same object
exceeds, whatever the limit `maxiter`. -/
theorem C129_stops (hp : 2 ≤ p) (hG : NonnegWeights G) (F : Functionals G p) (W : Workers G r c p) (o : Options K)
    (ho : o.spinflipsym = false) (h0 : 0 < o.alpha) (h1 : o.alpha ≤ 1) (ht : 0 < o.etol) {ks : KS G r c p}
    (n₀ : G.Cols p) (L ν C e : K) (hL : 0 ≤ L) (hL1 : L < 1) (hν : 0 < ν) (hC : 0 ≤ C) (he : 0 < e)
    (hc : ∀ n m, Output F W ks n m → size (fun s k => m s k - n₀ s k) ≤ L * size (fun s k => n s k - n₀ s k))
    (hm : ∀ n m, Output F W ks n m → (∀ s k, 0 ≤ m s k) ∧ ∀ s, ν ≤ G.integ (m s))
    (hs : ∀ n, StartsFrom W o ks n → (∀ s k, 0 ≤ n s k) ∧ ∀ s, ν ≤ G.integ (n s))
    (hE : ∀ n n' E E', EnergyOf F W o ks n E → EnergyOf F W o ks n' E' →
      ∃ x x', E = .fin x ∧ E' = .fin x' ∧ e ≤ |x| ∧ |x - x'| ≤ C * size (fun s k => n s k - n' s k)) :
    ∃ N : ℕ, ∀ (maxiter : ℤ) (ks' : KS G r c p) (log : List (Fl K × Fl K)),
      scf F W { o with maxiter } ks = .ok (ks', log) → log.length ≤ N := by
  set q := 1 - o.alpha + o.alpha * L with hq
  have q0 : 0 ≤ q := add_nonneg (sub_nonneg.2 h1) (mul_nonneg h0.le hL)
  have q1 : q < 1 := by
    have := mul_lt_mul_of_pos_left hL1 h0
    rw [hq]
    linarith
  by_cases hst : ∃ n, StartsFrom W o ks n
  swap
  · refine ⟨0, fun mi ks' log h => ?_⟩
    obtain ⟨n, -, h2, -⟩ := C129_passes F W { o with maxiter := mi } ho h
    exact absurd ⟨n 0, h2⟩ hst
  obtain ⟨a, ha⟩ := hst
  have huniq : ∀ b, StartsFrom W o ks b → b = a := by
    rintro b ⟨x, hx, hb⟩
    obtain ⟨y, hy, hya⟩ := ha
    rw [hx] at hy
    obtain rfl := Except.ok.inj hy
    rw [hb] at hya
    exact Option.some.inj hya
  set D := size (fun s k => a s k - n₀ s k) with hD
  have D0 : 0 ≤ D := size_nonneg hG _
  set B := 2 * D * (C / e + 1 / ν) with hB
  have B0 : 0 ≤ B := mul_nonneg (mul_nonneg (by norm_num) D0) (add_nonneg (div_nonneg hC he.le) (by positivity))
  obtain ⟨j, hj⟩ := exists_pow_lt_of_lt_one (y := q) (x := o.etol / (B + 1)) (by positivity) q1
  have hj' : q ^ j * B ≤ o.etol := by
    rw [lt_div_iff₀ (by positivity)] at hj
    have := pow_nonneg q0 j
    nlinarith
  refine ⟨j + 2, fun mi ks' log h => ?_⟩
  by_contra hlen
  push Not at hlen
  obtain ⟨n, E, g0, -, g2, g3, g4⟩ := C129_passes F W { o with maxiter := mi } ho h
  have hn0 : n 0 = a := huniq _ g0
  -- distance to the self-consistent density
  have key : ∀ i ≤ log.length, size (fun s k => n i s k - n₀ s k) ≤ q ^ i * D := by
    intro i
    induction i with
    | zero => intro _; rw [hn0]; simp [hD]
    | succ i ih =>
      intro hi
      obtain ⟨m, hmm, e'⟩ := g2 i (by omega)
      have e'' : (fun s k => n (i + 1) s k - n₀ s k) =
          fun s k => (1 - o.alpha) * (n i s k - n₀ s k) + o.alpha * (m s k - n₀ s k) := by
        funext s k
        rw [e']
        ring
      rw [e'']
      refine (size_comb hG (sub_nonneg.2 h1) h0.le _ _).trans ?_
      have h2 := mul_le_mul_of_nonneg_left (hc _ _ hmm) h0.le
      have h4 := mul_le_mul_of_nonneg_left (ih (by omega)) q0
      calc _ ≤ q * size (fun s k => n i s k - n₀ s k) := by rw [hq]; linarith
        _ ≤ _ := h4
        _ = _ := by rw [pow_succ]; ring
  -- change from pass to pass
  have step : ∀ i < log.length, size (fun s k => n (i + 1) s k - n i s k) ≤ 2 * D * q ^ i := by
    intro i hi
    have e' : (fun s k => n (i + 1) s k - n i s k) =
        fun s k => 1 * (n (i + 1) s k - n₀ s k) + 1 * (-(n i s k - n₀ s k)) := by
      funext s k
      ring
    have e'' : size (fun s k => -(n i s k - n₀ s k)) = size (fun s k => n i s k - n₀ s k) := by
      unfold size
      simp only [abs_neg]
    rw [e']
    refine (size_comb hG zero_le_one zero_le_one _ _).trans ?_
    rw [e'', one_mul, one_mul]
    have k1 := key (i + 1) (by omega)
    have k2 := key i (by omega)
    have k3 : q ^ (i + 1) * D ≤ q ^ i * D :=
      mul_le_mul_of_nonneg_right (pow_le_pow_of_le_one q0 q1.le (by omega)) D0
    linarith
  -- electrons
  have good : ∀ i ≤ log.length, (∀ s k, 0 ≤ n i s k) ∧ ∀ s, ν ≤ G.integ (n i s) := by
    intro i
    induction i with
    | zero => intro _; rw [hn0]; exact hs a ha
    | succ i ih =>
      intro hi
      obtain ⟨m, hmm, e'⟩ := g2 i (by omega)
      obtain ⟨p1, p2⟩ := ih (by omega)
      obtain ⟨m1, m2⟩ := hm _ _ hmm
      rw [e']
      refine ⟨fun s k => add_nonneg (mul_nonneg (sub_nonneg.2 h1) (p1 s k)) (mul_nonneg h0.le (m1 s k)), fun s => ?_⟩
      rw [show (G.integ fun k => (1 - o.alpha) * n i s k + o.alpha * m s k) =
        (1 - o.alpha) * G.integ (n i s) + o.alpha * G.integ (m s) by rw [integ_add, integ_smul, integ_smul]]
      have l1 := mul_le_mul_of_nonneg_left (p2 s) (sub_nonneg.2 h1)
      have l2 := mul_le_mul_of_nonneg_left (m2 s) h0.le
      linarith
  -- the changes of pass `j + 2`
  have hi : j + 1 < log.length := by omega
  obtain ⟨d1, d2⟩ := g4 (j + 1) hi
  rw [if_neg (Nat.succ_ne_zero j)] at d1 d2
  have hgt : Fl.gt (Fl.pymax log[j + 1].1 log[j + 1].2) (.fin o.etol) = true := by
    unfold scf run at h
    simp only [Py.do_eq_ok, Py.pure_eq_ok] at h
    obtain ⟨s, hs', ⟨st, l⟩, hl, h⟩ := h
    obtain ⟨rfl, rfl⟩ := Prod.mk.inj h
    exact loop_going _ _ _ _ _ _ _ _ hl (j + 1) (by omega)
  have hqj : q ^ (j + 1) ≤ q ^ j := pow_le_pow_of_le_one q0 q1.le (by omega)
  have hBC : q ^ j * (2 * D) * (C / e) + q ^ j * (2 * D) * (1 / ν) ≤ o.etol := by
    rw [hB] at hj'
    linarith
  have hx0 : 0 ≤ q ^ j * (2 * D) := mul_nonneg (pow_nonneg q0 j) (by linarith)
  have hx1 : 0 ≤ q ^ j * (2 * D) * (C / e) := mul_nonneg hx0 (div_nonneg hC he.le)
  have hx2 : 0 ≤ q ^ j * (2 * D) * (1 / ν) := mul_nonneg hx0 (by positivity)
  have hdE : ∃ y, log[j + 1].1 = .fin y ∧ y ≤ o.etol := by
    obtain ⟨x, x', ex, ex', k1, k2⟩ := hE _ _ _ _ (g3 (j + 1) hi) (g3 j (by omega))
    have hx : x ≠ 0 := by
      rintro rfl
      rw [abs_zero] at k1
      linarith
    refine ⟨|(x - x') / x|, ?_, ?_⟩
    · rw [d1, Nat.add_sub_cancel, ex, ex', Fl.sub_fin]
      simp [Fl.div, hx]
    · have k3 := step j (by omega)
      rw [abs_div, div_le_iff₀ (abs_pos.2 hx)]
      have k4 : |x - x'| ≤ C * (2 * D * q ^ j) := k2.trans (mul_le_mul_of_nonneg_left k3 hC)
      have k5 : q ^ j * (2 * D) * (C / e) ≤ o.etol := by linarith
      have k6 : C * (2 * D * q ^ j) = q ^ j * (2 * D) * (C / e) * e := by
        field_simp
      have k7 := mul_le_mul_of_nonneg_right k5 he.le
      have k8 := mul_le_mul_of_nonneg_left k1 ht.le
      linarith
  have hdn : ∃ y, log[j + 1].2 = .fin y ∧ y ≤ o.etol := by
    obtain ⟨p1, p2⟩ := good (j + 2) (by omega)
    have habs : ∀ s, (G.integ fun k => |n (j + 2) s k|) = G.integ (n (j + 2) s) := fun s => by
      congr 1
      funext k
      exact abs_of_nonneg (p1 s k)
    refine difN_le hp (n := n (j + 2)) (old := n (j + 1)) (fun s => ?_) (fun s => ?_) d2
    · rw [habs]
      exact hν.trans_le (p2 s)
    · rw [habs]
      have k3 := step (j + 1) hi
      have k4 : G.integ (fun k => |n (j + 2) s k - n (j + 1) s k|) ≤ size fun s k => n (j + 2) s k - n (j + 1) s k :=
        Finset.single_le_sum (f := fun s => G.integ fun k => |n (j + 2) s k - n (j + 1) s k|)
          (fun s _ => G.integ_nonneg hG fun _ => abs_nonneg _) (Finset.mem_univ s)
      have k5 : q ^ j * (2 * D) * (1 / ν) ≤ o.etol := by linarith
      have k6 : q ^ j * (2 * D) = q ^ j * (2 * D) * (1 / ν) * ν := by
        field_simp
      have k7 := mul_le_mul_of_nonneg_right k5 hν.le
      have k8 := mul_le_mul_of_nonneg_left (p2 s) ht.le
      have k9 := mul_le_mul_of_nonneg_left hqj (by linarith : 0 ≤ 2 * D)
      linarith
  obtain ⟨y, hy, hy'⟩ := hdE
  obtain ⟨z, hz, hz'⟩ := hdn
  rw [hy, hz] at hgt
  unfold Fl.pymax at hgt
  split at hgt
  · rw [Fl.gt_fin, decide_eq_true_eq] at hgt
    linarith
  · rw [Fl.gt_fin, decide_eq_true_eq] at hgt
    linarith

end

namespace Sample129

abbrev G := Grid.tiny ℚ

/-- Two electrons in a constant potential. -/
def ks : KS G 1 1 1 :=
  ⟨.dft, false, 1, 2, 1 / 2, fun _ => ⟨1, 2, 0, 1, false, false, none, none, none⟩,
    fun _ _ => -1, none, none, none, none, none, none, {}, none, none, none, fun _ => none⟩

/-- Repulsion within each point, no exchange and correlation. -/
def F : Functionals G 1 :=
  ⟨fun _ => .ok (0, fun _ => 0, fun _ _ => 0), fun _ => .ok (0, fun _ => 0, fun _ _ => 0), fun n => .ok n⟩

/-- An orbital at one point. -/
def orb (j : Fin 2) : G.Fld := fun k => if k = j then 1 else 0

/-- The point with the lower potential. -/
def low (v : G.Fld) : Fin 2 := if v 0 ≤ v 1 then 0 else 1

/-- Electrons that do not hop. -/
def W : Workers G 1 1 1 := fun ks _ w => (ks.solver w).veff.map fun v => ([v (low v)], some [orb (low v)])

/-- The density of two electrons at one of the points. -/
def at_ (j : Fin 2) : G.Cols 1 := fun _ k => if k = j then 2 else 0

/-- A solver with one orbital. -/
def solver (v : G.Fld) (j : Fin 2) : Solver G := ⟨1, 2, 0, 1, false, false, some [orb j], some [v j], some v⟩

theorem orb_one : ∀ j, G.integ (fun k => orb j k ^ 2) = 1 := by decide +kernel

theorem solver_occ (v : G.Fld) (j : Fin 2) : (solver v j).occupation = (1, 0) := by
  simp [solver, Solver.occupation]

theorem solver_density (v : G.Fld) (j : Fin 2) : (solver v j).calcDensity = .ok (at_ j 0) := by
  have h1 := solver_occ v j
  have h2 : pyRange 1 = [0] := by decide +kernel
  have h3 : G.integ (fun k => orb j k ^ 2) = 1 := orb_one j
  unfold Solver.calcDensity
  rw [h1]
  simp only [h2, List.foldlM_cons, List.foldlM_nil]
  simp [solver, Solver.orb, pyGet, bind, Except.bind, pure, Except.pure, Solver.scale, h3]
  funext k
  by_cases hk : k = j <;> simp [orb, at_, hk]

theorem solver_eks (v : G.Fld) (j : Fin 2) : (solver v j).calcEks = .ok (2 * v j) := by
  have h1 := solver_occ v j
  have h2 : pyRange 1 = [0] := by decide +kernel
  unfold Solver.calcEks
  rw [h1]
  simp only [h2, List.foldlM_cons, List.foldlM_nil]
  simp [solver, Solver.eigAt, pyGet, bind, Except.bind, pure, Except.pure, Solver.scale]

theorem solver_energy (v : G.Fld) (j : Fin 2) : ∃ e n, (solver v j).calcEnergy = .ok (e, n) ∧ e.Ts = .fin 0 := by
  unfold Solver.calcEnergy
  rw [solver_density, solver_eks]
  refine ⟨_, _, rfl, ?_⟩
  simp only [Solver.energyGuard, Grid.tiny_integ, Fl.sub_fin, at_]
  congr 1
  fin_cases j <;> simp <;> ring

theorem reused_solver {b : KS G 1 1 1} (hb : Reused ks b) (w) :
    ∃ phi eig v, b.solver w = ⟨1, 2, 0, 1, false, false, phi, eig, v⟩ := by
  have h := hb.solver w
  cases hs : b.solver w
  rw [hs] at h
  simp only [bare, ks, Solver.mk.injEq] at h
  obtain ⟨rfl, rfl, rfl, rfl, rfl, rfl, -⟩ := h
  exact ⟨_, _, _, rfl⟩

/-- The potential of a density. -/
theorem potential_eq {b b' : KS G 1 1 1} {n : G.Cols 1} (hb : Reused ks b) (hn : b.n = some n)
    (h : potential F b = .ok b') : b'.kind = .dft ∧ b'.sym = false ∧ b'.n = some n ∧ b'.Za = 1 ∧ b'.Zb = 2 ∧ b'.a = 1 / 2 ∧
      b'.vnuc = (fun _ _ => -1) ∧ ∀ w, ∃ phi eig, b'.solver w = ⟨1, 2, 0, 1, false, false, phi, eig, some fun k => n 0 k - 1⟩ := by
  unfold potential KS.calcHxc KS.rawHxc at h
  have hk : b.kind = .dft := hb.kind
  have hy : b.sym = false := hb.sym
  simp only [hk, hy, hn, F, Py.do_eq_ok, Py.pure_eq_ok, KS.need, Except.ok.injEq] at h
  obtain ⟨x, ⟨y, ⟨n', rfl, _, rfl, _, rfl, n'', rfl, rfl⟩, z, hz, rfl⟩, v, hv, u, hu, s, hs, rfl⟩ := h
  simp only [Bool.false_eq_true, if_false] at hv hu hs
  have hz' : z = fun s k => 0 + 0 + n s k := by
    injection hz with hz
    exact hz.symm
  rw [distribute_ok _ le_rfl] at hs
  obtain rfl := Except.ok.inj hs
  have hv' : v = fun _ _ => 0 := by
    have := hb.vext
    cases hx : b.vext with
    | none => rw [hx] at hv; cases hv
    | some y =>
      rw [hx] at hv this
      obtain rfl := Except.ok.inj hv
      exact this
  have hu' : u = fun s k => 0 + 0 + n s k := (Except.ok.inj hu).symm
  refine ⟨by trivial, by trivial, by trivial, hb.Za, hb.Zb, hb.a_, hb.vnuc, fun w => ?_⟩
  obtain ⟨phi, eig, v', e⟩ := reused_solver hb w
  refine ⟨phi, eig, ?_⟩
  have hw : b.vnuc = fun _ _ => -1 := hb.vnuc
  simp only [e, hv', hu', hw]
  congr 2
  funext k
  have : (⟨w.2.1, by omega⟩ : Fin 1) = 0 := Subsingleton.elim _ _
  simp only [this]
  ring

/-- The output density. -/
theorem density_eq {b b' : KS G 1 1 1} {v : G.Fld} {it : Bool} {m : G.Cols 1} (hy : b.sym = false)
    (hs : ∀ w, ∃ phi eig, b.solver w = ⟨1, 2, 0, 1, false, false, phi, eig, some v⟩)
    (h : b.calcDensity (W b it) = .ok (b', m)) :
    m = at_ (low v) ∧ b' = { b with solver := fun _ => solver v (low v) } := by
  have hW : ∀ w, W b it w = some ([v (low v)], some [orb (low v)]) := by
    intro w
    obtain ⟨phi, eig, e⟩ := hs w
    simp [W, e]
  unfold KS.calcDensity at h
  rw [collect_ok _ _ _ hW] at h
  have e : (fun w => ({ b.solver w with eig := some [v (low v)], phi := some [orb (low v)] } : Solver G)) =
      fun _ => solver v (low v) := by
    funext w
    obtain ⟨phi, eig, e⟩ := hs w
    rw [e]
    rfl
  have hc : colMajor 1 1 = [(0, 0)] := by decide +kernel
  have hd := solver_density v (low v)
  simp only [e, sumDensities, hc, List.foldlM_cons, List.foldlM_nil, hy] at h
  simp [hd, bind, Except.bind, pure, Except.pure] at h
  obtain ⟨rfl, rfl⟩ := h
  refine ⟨?_, by rw [hy]⟩
  funext s k
  rw [Subsingleton.elim s 0]
  simp

theorem output_eq {n m : G.Cols 1} (h : Output F W ks n m) : m = at_ (low fun k => n 0 k - 1) := by
  obtain ⟨b, b', b'', it, h1, h2, h3, h4⟩ := h
  obtain ⟨-, hy, -, -, -, -, -, hs⟩ := potential_eq h1 h2 h3
  exact (density_eq hy hs h4).1

theorem energy_eq {b b' : KS G 1 1 1} {v : G.Fld} {j : Fin 2} {n : G.Cols 1} {e : KSEnergy ℚ 1} (hk : b.kind = .dft) (hn : b.n = some n)
    (hA : b.Za = 1) (hB : b.Zb = 2) (ha : b.a = 1 / 2) (hv : b.vnuc = fun _ _ => -1) (hs : b.solver = fun _ => solver v j)
    (h : b.energy F = .ok b') (he : b'.E = some e) :
    e.E = .fin (-(n 0 0 + n 0 1) + 1 / 2 * (n 0 0 ^ 2 + n 0 1 ^ 2) + 2) := by
  obtain ⟨ee, nn, h1, h2⟩ := solver_energy v j
  have hc : rowMajor 1 1 = [(0, 0)] := by decide +kernel
  unfold KS.energy at h
  simp only [hk, hn, Py.do_eq_ok, Py.pure_eq_ok, F, KS.need, Except.ok.injEq] at h
  obtain ⟨⟨Eks, Ts, Vks, ev⟩, h3, n', rfl, vext, -, vhxc, -, vh, rfl, vh0, h4, _, rfl, _, rfl, rfl⟩ := h
  simp only [solverEnergies, hc, List.foldlM_cons, List.foldlM_nil, hs, h1] at h3
  simp [bind, Except.bind, pure, Except.pure, solver, KS.need, h2] at h3
  obtain ⟨-, rfl, -⟩ := h3
  simp [col] at h4
  subst h4
  obtain rfl := Option.some.inj he
  simp [KS.inner, Grid.tiny_integ, hv, hA, hB, ha]
  ring

theorem energyOf_eq {o : Options ℚ} (ho : o.spinflipsym = false) {n : G.Cols 1} {E : Fl ℚ} (h : EnergyOf F W o ks n E) :
    ∃ m, Output F W ks n m ∧ E = .fin (-(mix o.alpha n m 0 0 + mix o.alpha n m 0 1) +
      1 / 2 * (mix o.alpha n m 0 0 ^ 2 + mix o.alpha n m 0 1 ^ 2) + 2) := by
  obtain ⟨st, st', d, e, h1, h2, h3, h4, rfl⟩ := h
  unfold body at h3
  simp only [Py.do_eq_ok, Py.pure_eq_ok, density] at h3
  obtain ⟨b1, g1, b3, ⟨⟨x, m⟩, g2, n2, g3, rfl⟩, b4, g4, b5, g5, n5, g6, E, g7, dn, g8, g9⟩ := h3
  obtain ⟨rfl, rfl⟩ := Prod.mk.inj g9
  unfold flipPotential at g2
  simp only [ho, Bool.false_eq_true, if_false] at g2 g4
  obtain ⟨p1, p2, p3, p4, p5, p6, p7, p8⟩ := potential_eq h1 h2 g1
  obtain ⟨q1, q2⟩ := density_eq p2 p8 g2
  have hn : n2 = n := by
    rw [q2] at g3
    simp only [p3, KS.need, Except.ok.injEq] at g3
    exact g3.symm
  subst hn
  refine ⟨m, ⟨_, _, _, _, h1, h2, g1, g2⟩, ?_⟩
  have hE : b4.E = some e := by
    unfold KS.calcChempot at g5
    simp only [Py.do_eq_ok, Py.pure_eq_ok] at g5
    obtain ⟨_, -, _, -, rfl⟩ := g5
    exact h4
  subst q2
  refine energy_eq (v := fun k => n2 0 k - 1) (j := low fun k => n2 0 k - 1) ?_ ?_ ?_ ?_ ?_ ?_ ?_ g4 hE
  exacts [p1, rfl, p4, p5, p6, p7, rfl]

end Sample129

/-- A run whose changes all stay above the tolerance uses up its passes. -/
theorem KsScf.loop_full {K : Type} [Field K] [LinearOrder K] [IsStrictOrderedRing K] {S : Type}
    (step : S → Py (S × Fl K × Fl K)) (auto : Bool) (etol : K) :
    ∀ (left : ℕ) (diff : Fl K) (s s' : S) (log), loop step auto etol left diff s = .ok (s', log) →
      Fl.gt diff (.fin etol) = true → (∀ d ∈ log, Fl.gt (Fl.pymax d.1 d.2) (.fin etol) = true) → log.length = left := by
  intro left
  induction left with
  | zero =>
    intro diff s s' log h hd _
    unfold loop at h
    rw [if_pos hd] at h
    simp only [Except.ok.injEq, Prod.mk.injEq] at h
    rw [← h.2]
    rfl
  | succ left ih =>
    intro diff s s' log h hd hl
    unfold loop at h
    rw [if_pos hd] at h
    simp only [Py.do_eq_ok] at h
    obtain ⟨⟨t, dE, dn⟩, ht, h⟩ := h
    split at h
    · cases h
    · simp only [Py.do_eq_ok, Py.pure_eq_ok] at h
      obtain ⟨⟨t', log'⟩, ht', h⟩ := h
      obtain ⟨rfl, rfl⟩ := Prod.mk.inj h
      rw [List.length_cons, ih _ _ _ _ ht' (hl (dE, dn) (by simp)) fun d hd => hl d (by simp [hd])]

open Sample129 in
/-- **C129, charge sloshing.**  Mixing alone does not make the calculation converge, however small the mixing parameter:
in this object two electrons repel each other within a point, and the orbital always sits at the point with the smaller
density.  Every calculation that ends does so because `maxiter` is reached. -/
theorem C129_refuted_sloshing (o : Options ℚ) (ho : o.spinflipsym = false) (hc : o.continuing = false) (h0 : 0 < o.alpha)
    (h1 : o.alpha ≤ 1) (ht : o.etol < o.alpha) {ks' : KS G 1 1 1} {log : List (Fl ℚ × Fl ℚ)}
    (h : scf F W o ks = .ok (ks', log)) : log.length = (o.maxiter - 1).toNat := by
  obtain ⟨n, E, hs, -, hp, hE, hd⟩ := C129_passes F W o ho h
  have start0 : n 0 = at_ 0 := by
    obtain ⟨b, hb, hbn⟩ := hs
    unfold start at hb
    simp only [hc, Bool.false_eq_true, if_false, Py.do_eq_ok, Py.pure_eq_ok, KS.setEffectivePotential] at hb
    obtain ⟨b1, ⟨v, hv, u, hu, s, hs', rfl⟩, ⟨b2, m⟩, g2, rfl⟩ := hb
    rw [distribute_ok _ le_rfl] at hs'
    obtain rfl := Except.ok.inj hs'
    obtain rfl := Option.some.inj hbn
    obtain rfl := Except.ok.inj hv
    obtain rfl := Except.ok.inj hu
    obtain ⟨e, -⟩ := density_eq (v := fun _ => -1) rfl (fun w => ⟨none, none, by simp [ks]⟩) g2
    rw [e]
    simp [low]
  have good : ∀ i ≤ log.length, 0 ≤ n i 0 0 ∧ 0 ≤ n i 0 1 ∧ n i 0 0 + n i 0 1 = 2 := by
    intro i
    induction i with
    | zero => intro _; rw [start0]; simp [at_]
    | succ i ih =>
      intro hi
      obtain ⟨m, hm, e⟩ := hp i (by omega)
      obtain ⟨g1, g2, g3⟩ := ih (by omega)
      rw [e, output_eq hm]
      generalize low (fun k => n i 0 k - 1) = j
      fin_cases j <;> simp [at_] <;> refine ⟨?_, ?_, ?_⟩ <;> nlinarith
  have move : ∀ i < log.length, o.alpha ≤ |n (i + 1) 0 0 - n i 0 0| ∧ o.alpha ≤ |n (i + 1) 0 1 - n i 0 1| := by
    intro i hi
    obtain ⟨m, hm, e⟩ := hp i hi
    obtain ⟨g1, g2, g3⟩ := good i hi.le
    rw [e, output_eq hm]
    by_cases hl : n i 0 0 ≤ n i 0 1
    · simp only [low, sub_le_sub_iff_right, hl, if_true]
      refine ⟨le_abs.2 (Or.inl ?_), le_abs.2 (Or.inr ?_)⟩ <;> simp [at_] <;> nlinarith
    · simp only [low, sub_le_sub_iff_right, hl, if_false]
      refine ⟨le_abs.2 (Or.inr ?_), le_abs.2 (Or.inl ?_)⟩ <;> simp [at_] <;> nlinarith
  have energy : ∀ i < log.length, ∃ x : ℚ, E i = .fin x ∧ x ≠ 0 := by
    intro i hi
    obtain ⟨m, hm, e⟩ := energyOf_eq ho (hE i hi)
    obtain ⟨m', hm', e'⟩ := hp i hi
    obtain ⟨g1, g2, g3⟩ := good (i + 1) (by omega)
    have : mix o.alpha (n i) m = n (i + 1) := by
      rw [e', output_eq hm, output_eq hm']
      rfl
    rw [this, g3] at e
    exact ⟨_, e, by nlinarith [sq_nonneg (n (i + 1) 0 0 - n (i + 1) 0 1)]⟩
  have dif : ∀ i (hi : i < log.length), ∃ y : ℚ, log[i].2 = .fin y ∧ o.alpha ≤ y := by
    intro i hi
    obtain ⟨-, d⟩ := hd i hi
    obtain ⟨g1, g2, g3⟩ := good (i + 1) (by omega)
    have hform : ∀ old : G.Cols 1, difN (n (i + 1)) old =
        .ok (.fin ((|n (i + 1) 0 0 - old 0 0| + |n (i + 1) 0 1 - old 0 1|) / 2)) := by
      intro old
      have e : difN (n (i + 1)) old = .ok (Fl.div (.fin (∑ k : G.Ix, 2 * |n (i + 1) 0 k - old 0 k|))
          (.fin (∑ k : G.Ix, 2 * |n (i + 1) 0 k|))) := by
        simp [difN, Grid.integrate]
      rw [e, Grid.tiny_sum, Grid.tiny_sum, abs_of_nonneg g1, abs_of_nonneg g2, ← mul_add, ← mul_add, g3]
      simp only [Fl.div]
      rw [if_neg (by norm_num)]
      congr 2
      ring
    rw [hform] at d
    refine ⟨_, (Except.ok.inj d).symm, ?_⟩
    split_ifs with h
    · simp only [sub_zero]
      rw [abs_of_nonneg g1, abs_of_nonneg g2, g3]
      linarith
    · obtain ⟨m1, m2⟩ := move i hi
      linarith
  unfold scf run at h
  simp only [Py.do_eq_ok, Py.pure_eq_ok] at h
  obtain ⟨s, -, ⟨st, l⟩, hl, h⟩ := h
  obtain ⟨rfl, rfl⟩ := Prod.mk.inj h
  refine loop_full _ _ _ _ _ _ _ _ hl (by rw [Fl.gt_fin, decide_eq_true_eq]; linarith) ?_
  intro d hdl
  obtain ⟨i, hi, rfl⟩ := List.getElem_of_mem hdl
  obtain ⟨y, hy, hay⟩ := dif i hi
  obtain ⟨x, hx, hx0⟩ := energy i hi
  obtain ⟨x', hx'⟩ : ∃ x', (if i = 0 then .fin 0 else E (i - 1)) = .fin x' := by
    split_ifs with h
    · exact ⟨0, rfl⟩
    · obtain ⟨x', hx', -⟩ := energy (i - 1) (by omega)
      exact ⟨x', hx'⟩
  have hdE := (hd i hi).1
  rw [hx, hx', Fl.sub_fin] at hdE
  simp only [Fl.div, if_neg hx0, Fl.abs] at hdE
  rw [hdE, hy]
  unfold Fl.pymax
  split_ifs with hgt
  · rw [Fl.gt_fin, decide_eq_true_eq]
    linarith
  · rw [Fl.gt_fin, decide_eq_true_eq] at hgt ⊢
    linarith

/-- With full mixing and with little mixing all three passes are used. -/
example : (scf Sample129.F Sample129.W ⟨false, false, false, false, 4, 1 / 10 ^ 6, 1⟩ Sample129.ks).map
    (fun x => x.2.length) = .ok 3 := by decide +kernel
example : (scf Sample129.F Sample129.W ⟨false, true, false, false, 4, 1 / 10 ^ 6, 1 / 10⟩ Sample129.ks).map
    (fun x => x.2.length) = .ok 3 := by decide +kernel

/-! ### An object for which it converges -/

namespace Sample129
namespace Free

/-- Two electrons of opposite spin without any potential. -/
def ks : KS G 1 2 2 :=
  ⟨.ni, false, 1, 2, 1 / 2, fun _ => ⟨1, 1, 0, 2, false, false, none, none, none⟩,
    fun _ _ => 0, none, none, none, none, none, none, {}, none, none, none, fun _ => none⟩

def F : Functionals G 2 :=
  ⟨fun _ => .ok (0, fun _ => 0, fun _ _ => 0), fun _ => .ok (0, fun _ => 0, fun _ _ => 0), fun n => .ok n⟩

def W : Workers G 1 2 2 := fun _ _ _ => some ([0], some [orb 0])

/-- One electron of each spin at the first point. -/
def n₀ : G.Cols 2 := fun _ => orb 0

def solver (v : G.Fld) : Solver G := ⟨1, 1, 0, 2, false, false, some [orb 0], some [0], some v⟩

theorem solver_occ (v) : (solver v).occupation = (1, 0) := by
  simp [solver, Solver.occupation]

theorem solver_density (v) : (solver v).calcDensity = .ok (orb 0) := by
  have h1 := solver_occ v
  have h2 : pyRange 1 = [0] := by decide +kernel
  have h3 : G.integ (fun k => orb 0 k ^ 2) = 1 := orb_one 0
  unfold Solver.calcDensity
  rw [h1]
  simp only [h2, List.foldlM_cons, List.foldlM_nil]
  simp [solver, Solver.orb, pyGet, bind, Except.bind, pure, Except.pure, Solver.scale, h3]
  funext k
  by_cases hk : k = 0 <;> simp [orb, hk]

theorem solver_energy : ∃ e n, (solver fun _ => 0).calcEnergy = .ok (e, n) ∧ e.Ts = .fin 0 := by
  have h1 := solver_occ fun _ => 0
  have h2 : pyRange 1 = [0] := by decide +kernel
  have h3 : (solver fun _ => 0).calcEks = .ok 0 := by
    unfold Solver.calcEks
    rw [h1]
    simp only [h2, List.foldlM_cons, List.foldlM_nil]
    simp [solver, Solver.eigAt, pyGet, bind, Except.bind, pure, Except.pure]
  unfold Solver.calcEnergy
  rw [solver_density, h3]
  refine ⟨_, _, rfl, ?_⟩
  simp [Solver.energyGuard, Grid.tiny_integ]

theorem reused_solver {b : KS G 1 2 2} (hb : Reused ks b) (w) :
    ∃ phi eig v, b.solver w = ⟨1, 1, 0, 2, false, false, phi, eig, v⟩ := by
  have h := hb.solver w
  cases hs : b.solver w
  rw [hs] at h
  simp only [bare, ks, Solver.mk.injEq] at h
  obtain ⟨rfl, rfl, rfl, rfl, rfl, rfl, -⟩ := h
  exact ⟨_, _, _, rfl⟩

theorem potential_eq {b b' : KS G 1 2 2} (hb : Reused ks b) (h : potential F b = .ok b') :
    b'.kind = .ni ∧ b'.sym = false ∧ b'.n = b.n ∧ b'.Za = 1 ∧ b'.Zb = 2 ∧ b'.a = 1 / 2 ∧ b'.vnuc = (fun _ _ => 0) ∧
      ∀ w, ∃ phi eig, b'.solver w = ⟨1, 1, 0, 2, false, false, phi, eig, some fun _ => 0⟩ := by
  unfold potential KS.calcHxc KS.rawHxc at h
  have hk : b.kind = .ni := hb.kind
  have hy : b.sym = false := hb.sym
  simp only [hk, hy, Py.do_eq_ok, Py.pure_eq_ok, KS.need] at h
  obtain ⟨x, ⟨y, rfl, z, -, rfl⟩, v, hv, u, hu, s, hs, rfl⟩ := h
  simp only [Bool.false_eq_true, if_false] at hv hu hs
  rw [distribute_ok _ le_rfl] at hs
  obtain rfl := Except.ok.inj hs
  have hv' : v = fun _ _ => 0 := by
    have := hb.vext
    cases hx : b.vext with
    | none => rw [hx] at hv; cases hv
    | some y =>
      rw [hx] at hv this
      obtain rfl := Except.ok.inj hv
      exact this
  have hu' : u = fun _ _ => 0 := (Except.ok.inj hu).symm
  have hw : b.vnuc = fun _ _ => 0 := hb.vnuc
  refine ⟨by trivial, by trivial, by trivial, hb.Za, hb.Zb, hb.a_, hb.vnuc, fun w => ?_⟩
  obtain ⟨phi, eig, v', e⟩ := reused_solver hb w
  refine ⟨phi, eig, ?_⟩
  simp [e, hv', hu', hw]

theorem density_eq {b b' : KS G 1 2 2} {v : G.Fld} {it : Bool} {m : G.Cols 2} (hy : b.sym = false)
    (hs : ∀ w, ∃ phi eig, b.solver w = ⟨1, 1, 0, 2, false, false, phi, eig, some v⟩)
    (h : b.calcDensity (W b it) = .ok (b', m)) : m = n₀ ∧ b' = { b with solver := fun _ => solver v } := by
  have hW : ∀ w, W b it w = some ([0], some [orb 0]) := fun w => rfl
  unfold KS.calcDensity at h
  rw [collect_ok _ _ _ hW] at h
  have e : (fun w => ({ b.solver w with eig := some [0], phi := some [orb 0] } : Solver G)) = fun _ => solver v := by
    funext w
    obtain ⟨phi, eig, e⟩ := hs w
    rw [e]
    rfl
  have hc : colMajor 1 2 = [(0, 0), (0, 1)] := by decide +kernel
  simp only [e, sumDensities, hc, List.foldlM_cons, List.foldlM_nil, hy] at h
  simp [solver_density, bind, Except.bind, pure, Except.pure] at h
  obtain ⟨rfl, rfl⟩ := h
  refine ⟨?_, by rw [hy]⟩
  funext s k
  fin_cases s <;> simp [n₀, Function.update]

theorem output_eq {n m : G.Cols 2} (h : Output F W ks n m) : m = n₀ := by
  obtain ⟨b, b', b'', it, h1, -, h3, h4⟩ := h
  obtain ⟨-, hy, -, -, -, -, -, hs⟩ := potential_eq h1 h3
  exact (density_eq hy hs h4).1

theorem start_eq {o : Options ℚ} (hc : o.continuing = false) {n : G.Cols 2} (h : StartsFrom W o ks n) : n = n₀ := by
  obtain ⟨b, hb, hbn⟩ := h
  unfold start at hb
  simp only [hc, Bool.false_eq_true, if_false, Py.do_eq_ok, Py.pure_eq_ok, KS.setEffectivePotential] at hb
  obtain ⟨b1, ⟨v, hv, u, hu, s, hs', rfl⟩, ⟨b2, m⟩, g2, rfl⟩ := hb
  rw [distribute_ok _ le_rfl] at hs'
  obtain rfl := Except.ok.inj hs'
  obtain rfl := Option.some.inj hbn
  obtain rfl := Except.ok.inj hv
  obtain rfl := Except.ok.inj hu
  exact (density_eq (v := fun _ => 0) rfl (fun w => ⟨none, none, by simp [ks]⟩) g2).1

theorem energyOf_eq {o : Options ℚ} (ho : o.spinflipsym = false) {n : G.Cols 2} {E : Fl ℚ} (h : EnergyOf F W o ks n E) :
    E = .fin 2 := by
  obtain ⟨st, st', d, e, h1, h2, h3, h4, rfl⟩ := h
  unfold body at h3
  simp only [Py.do_eq_ok, Py.pure_eq_ok, density] at h3
  obtain ⟨b1, g1, b3, ⟨⟨x, m⟩, g2, n2, g3, rfl⟩, b4, g4, b5, g5, n5, g6, E, g7, dn, g8, g9⟩ := h3
  obtain ⟨rfl, rfl⟩ := Prod.mk.inj g9
  unfold flipPotential at g2
  simp only [ho, Bool.false_eq_true, if_false] at g2 g4
  obtain ⟨p1, p2, p3, p4, p5, p6, p7, p8⟩ := potential_eq h1 g1
  obtain ⟨q1, rfl⟩ := density_eq p2 p8 g2
  have hE : b4.E = some e := by
    unfold KS.calcChempot at g5
    simp only [Py.do_eq_ok, Py.pure_eq_ok] at g5
    obtain ⟨_, -, _, -, rfl⟩ := g5
    exact h4
  obtain ⟨ee, nn, h1, h2⟩ := solver_energy
  have hc : rowMajor 1 2 = [(0, 0), (0, 1)] := by decide +kernel
  unfold KS.energy at g4
  simp only [p1, Py.do_eq_ok, Py.pure_eq_ok] at g4
  obtain ⟨⟨Eks, Ts, Vks, ev⟩, h3, n', -, vext, -, rfl⟩ := g4
  simp only [solverEnergies, hc, List.foldlM_cons, List.foldlM_nil, h1] at h3
  simp [bind, Except.bind, pure, Except.pure, solver, KS.need, h2] at h3
  obtain ⟨-, rfl, -⟩ := h3
  obtain rfl := Option.some.inj hE
  simp [KS.inner, p4, p5, p6, p7, Grid.tiny_integ]

end Free
end Sample129

open Sample129 Free in
/-- The hypotheses hold together: for this object the number of passes is bounded for all options. -/
example (o : Options ℚ) (ho : o.spinflipsym = false) (hc : o.continuing = false) (h0 : 0 < o.alpha) (h1 : o.alpha ≤ 1)
    (ht : 0 < o.etol) : ∃ N : ℕ, ∀ (maxiter : ℤ) ks' log,
      scf Free.F Free.W { o with maxiter } Free.ks = .ok (ks', log) → log.length ≤ N := by
  have hn : (∀ s k, 0 ≤ n₀ s k) ∧ ∀ s, 1 ≤ G.integ (n₀ s) := by decide +kernel
  refine C129_stops (ν := 1) (C := 0) (e := 2) (L := 0) le_rfl ?_ Free.F Free.W o ho h0 h1 ht n₀ le_rfl one_pos one_pos le_rfl two_pos
    ?_ ?_ ?_ ?_
  · exact fun k => by norm_num
  · intro n m h
    rw [Free.output_eq h]
    simp [size, Grid.tiny_integ]
  · intro n m h
    rw [Free.output_eq h]
    exact hn
  · intro n h
    rw [Free.start_eq hc h]
    exact hn
  · intro n n' E E' h h'
    exact ⟨2, 2, Free.energyOf_eq ho h, Free.energyOf_eq ho h', by norm_num, by simp⟩

/-- It needs two passes. -/
example : (scf Sample129.Free.F Sample129.Free.W ⟨false, false, false, false, 100, 1 / 10 ^ 6, 1 / 2⟩
    Sample129.Free.ks).map (fun x => x.2.length) = .ok 2 := by decide +kernel

end Verif
