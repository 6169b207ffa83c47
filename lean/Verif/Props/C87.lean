import Verif.Props.C52
import Verif.Props.C84

/-! # C87: the overlap potential as a functional derivative -/

namespace Verif
open Spec Part PartScf
variable {G : Grid ℝ} {r c p : ℕ}

/-- Density of component `i` moved by `t δ`. -/
def Spec.moved (A : List (G.Cols p × ℝ)) (i : ℕ) (δ : G.Cols p) (t : ℝ) : List (G.Cols p × ℝ) :=
  A.modify i fun x => (fun j k => x.1 j k + t * δ j k, x.2)

theorem average_moved (A : List (G.Cols p × ℝ)) (i : ℕ) (δ : G.Cols p) (t : ℝ) (x : G.Cols p × ℝ) (hx : A[i]? = some x) :
    Spec.average (moved A i δ t) = fun j k => Spec.average A j k + t * (x.2 * δ j k) := by
  funext j k
  unfold moved
  induction A generalizing i with
  | nil => exact nomatch hx
  | cons y A ih =>
    cases i with
    | zero =>
      simp only [List.getElem?_cons_zero, Option.some.injEq] at hx
      subst hx
      simp only [List.modify_zero_cons, Spec.average, List.map_cons, List.sum_cons]
      ring
    | succ i =>
      simp only [List.getElem?_cons_succ] at hx
      have := ih i hx
      simp only [List.modify_succ_cons, Spec.average, List.map_cons, List.sum_cons] at this ⊢
      rw [this]
      ring

/-- The root of a product along a line. -/
theorem root_line (a b η : ℝ) (hb : 0 ≤ b) (h : 0 < a ∨ η = 0) :
    HasDerivAt (fun t : ℝ => √((a + t * η) * b)) (1 / 2 * √(b / a) * η) 0 := by
  rcases h with ha | rfl
  · rcases hb.eq_or_lt with rfl | hb
    · simpa using hasDerivAt_const (0 : ℝ) (0 : ℝ)
    · have h1 : HasDerivAt (fun t : ℝ => (a + t * η) * b) (η * b) 0 := by
        have := (((hasDerivAt_id (0 : ℝ)).mul_const η).const_add a).mul_const b
        simpa using this
      have h2 := h1.sqrt (by simp [ha.ne', hb.ne'])
      refine h2.congr_deriv ?_
      simp only [zero_mul, add_zero]
      have e1 : √(a * b) = √a * √b := Real.sqrt_mul ha.le b
      have e2 : √(b / a) = √b / √a := Real.sqrt_div hb.le a
      have p1 := (Real.sqrt_pos.mpr ha).ne'
      have p2 := (Real.sqrt_pos.mpr hb).ne'
      rw [e1, e2]
      field_simp
      rw [Real.sq_sqrt hb.le]
  · simpa using hasDerivAt_const (0 : ℝ) (√(a * b))

/-- The overlap functional along a line. -/
theorem overlap_line (a b η : G.Fld) (hb : ∀ k, 0 ≤ b k) (h : ∀ k, 0 < a k ∨ η k = 0) :
    HasDerivAt (fun t => erf (2 * G.integ fun k => √((a k + t * η k) * b k)))
      (deriv (fun S => erf (2 * S)) (G.integ fun k => √(a k * b k)) * G.integ fun k => 1 / 2 * √(b k / a k) * η k) 0 := by
  have h1 : HasDerivAt (fun t => G.integ fun k => √((a k + t * η k) * b k))
      (G.integ fun k => 1 / 2 * √(b k / a k) * η k) 0 := by
    simp only [integ_weight]
    have := HasDerivAt.fun_sum (u := Finset.univ) (A := fun k t => weight G k * √((a k + t * η k) * b k))
      (A' := fun k => weight G k * (1 / 2 * √(b k / a k) * η k)) (x := (0 : ℝ))
      fun k _ => (root_line (a k) (b k) (η k) (hb k) (h k)).const_mul _
    exact this
  have h2 : ∀ S, HasDerivAt (fun S => erf (2 * S)) (deriv (fun S => erf (2 * S)) S) S := fun S =>
    (((erf_hasDerivAt (2 * S)).comp S ((hasDerivAt_id S).const_mul 2)).differentiableAt).hasDerivAt
  have h3 := (h2 (G.integ fun k => √((a k + 0 * η k) * b k))).comp (0 : ℝ) h1
  simp only [zero_mul, add_zero] at h3
  exact h3

/-- Sum over spins of an integral with the total density's factor. -/
theorem spin_sum (C s : ℝ) (g : G.Fld) (d δ : G.Cols p) (hd : ∀ j k, d j k * δ j k = C * (s * (1 / 2) * g k) * δ j k) :
    ∑ j, G.integ (fun k => d j k * δ j k) = C * G.integ fun k => 1 / 2 * g k * (s * tot δ k) := by
  rw [← integ_inner, ← G.integ_smul]
  congr 1
  funext k
  simp only [hd, tot, Finset.mul_sum]
  exact Finset.sum_congr rfl fun j _ => by ring

/-- The densities of two fragments have the same spin polarisation wherever they differ from zero. -/
def Spec.SamePolarisation (na nb : G.Cols p) : Prop := ∀ j k, nb j k * (∑ i, na i k) = (∑ i, nb i k) * na j k

theorem polarised_ratio {na nb : G.Cols p} (h : SamePolarisation na nb) {j : Fin p} {k : G.Ix} (ha : ∀ j k, 0 ≤ na j k)
    (hj : 0 < na j k) : nb j k / na j k = tot nb k / tot na k := by
  have ht : 0 < tot na k := lt_of_lt_of_le hj (Finset.single_le_sum (f := fun i => na i k) (fun i _ => ha i k) (Finset.mem_univ j))
  rw [div_eq_div_iff hj.ne' ht.ne']
  exact h j k

/-- One side of the derivative. -/
theorem overlap_side (b : Bool) (na nb : G.Cols p) (s : ℝ) (δ d : G.Cols p) (ha : ∀ j k, 0 ≤ na j k) (hb : ∀ j k, 0 ≤ nb j k)
    (hpol : SamePolarisation na nb) (hδ : ∀ j k, 0 < na j k ∨ δ j k = 0)
    (hd : ∀ j k, d j k = deriv (fun S => erf (2 * S)) (G.integ fun k => √(tot na k * tot nb k)) *
      if na j k = 0 then 0 else s * (1 / 2) * √(nb j k / na j k)) :
    HasDerivAt (fun t => erf (2 * G.integ fun k => √((tot na k + t * (twins ℝ b * (s * tot δ k))) * tot nb k)))
      (twins ℝ b * ∑ j, G.integ fun k => d j k * δ j k) 0 := by
  have h := overlap_line (tot na) (tot nb) (fun k => twins ℝ b * (s * tot δ k)) (fun k => Finset.sum_nonneg fun j _ => hb j k)
    (fun k => by
      by_cases h0 : ∃ j, 0 < na j k
      · obtain ⟨j, hj⟩ := h0
        exact .inl (lt_of_lt_of_le hj (Finset.single_le_sum (f := fun i => na i k) (fun i _ => ha i k) (Finset.mem_univ j)))
      · refine .inr ?_
        have : tot δ k = 0 := Finset.sum_eq_zero fun j _ => (hδ j k).resolve_left fun h => h0 ⟨j, h⟩
        rw [this, mul_zero, mul_zero])
  refine h.congr_deriv ?_
  rw [spin_sum (deriv (fun S => erf (2 * S)) (G.integ fun k => √(tot na k * tot nb k))) s (fun k => √(tot nb k / tot na k)) d δ]
  · rw [mul_left_comm, ← G.integ_smul (twins ℝ b)]
    congr 2
    funext k
    ring
  · intro j k
    rcases hδ j k with h0 | h0
    · rw [hd, if_neg h0.ne', polarised_ratio hpol ha h0]
    · rw [h0, mul_zero, mul_zero]

theorem overlap_run {T : Env G r c p} {P Q : Part G r c p} {A B : List (G.Cols p × ℝ)} (hA : Comps P.compsA A)
    (hB : Comps P.compsB B) (h : (P.calcProtomolecule >>= fun P => P.vpOverlap T) = .ok Q) :
    ∃ P₁ : Part G r c p, P₁.naFrac = some (addFlip P.opt.ensSpinSym (Spec.average A)) ∧
      P₁.nbFrac = some (addFlip P.opt.ensSpinSym (Spec.average B)) ∧ P₁.vpOverlap T = .ok Q ∧
      Comps Q.compsA A ∧ Comps Q.compsB B := by
  unfold calcProtomolecule at h
  rw [weighted_eq _ A hA, weighted_eq _ B hB] at h
  simp only [bind, Except.bind, pure, Except.pure] at h
  have hf := vpOverlap_frame h
  have key : ∀ {l m : List (Frag G r c p)} {A : List (G.Cols p × ℝ)}, Comps l A →
      List.Forall₂ (fun f g => g.ks = f.ks ∧ g.v.frozen = f.v.frozen) l m → Comps m A := by
    intro l m A hA h
    induction h generalizing A with
    | nil => exact hA
    | cons hx _ ih =>
      cases hA with
      | cons ha hA => exact .cons (by rw [hx.1]; exact ha) (ih hA)
  exact ⟨_, rfl, rfl, h, key hA hf.ksA, key hB hf.ksB⟩

theorem comps_get {l : List (Frag G r c p)} {A : List (G.Cols p × ℝ)} (h : Comps l A) {i : ℕ} {f : Frag G r c p}
    (hf : l[i]? = some f) : ∃ x, A[i]? = some x ∧ f.ks.n = some x.1 ∧ f.ks.scale = some x.2 := by
  induction h generalizing i with
  | nil => exact nomatch hf
  | cons hx _ ih =>
    cases i with
    | zero =>
      simp only [List.getElem?_cons_zero, Option.some.injEq] at hf ⊢
      subst hf
      exact ⟨_, rfl, hx⟩
    | succ i =>
      simp only [List.getElem?_cons_succ] at hf ⊢
      exact ih hf

/-- C87, partial: for densities with equal spin polarisation in both fragments (always so with one column), `dFdn` of a
component is the functional derivative of `E.F` with respect to the component's density, in every direction that vanishes
where the fragment has no density; with `ens_spin_sym` the derivative is twice `dFdn`.
Missing: different polarisations (`C87_polarisation`), `ens_spin_sym`. -/
theorem C87_derivative_partial (T : Env G r c p) (hT : RealFunctions T) (hw : ∀ k, 0 ≤ weight G k) (b : Bool)
    (A B : List (G.Cols p × ℝ)) (na nb : G.Cols p) (hna : na = addFlip b (Spec.average A)) (hnb : nb = addFlip b (Spec.average B))
    (ha : ∀ j k, 0 ≤ na j k) (hb : ∀ j k, 0 ≤ nb j k) (hpol : SamePolarisation na nb)
    (δ : G.Cols p) (i : ℕ) (P Q : ℝ → Part G r c p) (F : ℝ → ℝ) (hopt : ∀ t, (P t).opt.ensSpinSym = b)
    (hQ : ∀ t, ((P t).calcProtomolecule >>= fun P => P.vpOverlap T) = .ok (Q t)) (hF : ∀ t, (Q t).F = some (F t))
    (f : Frag G r c p) (d : G.Cols p) (hd : f.v.dFdn = some d) :
    ((∀ t, Comps (P t).compsA (moved A i δ t)) → (∀ t, Comps (P t).compsB B) → (Q 0).compsA[i]? = some f →
      (∀ j k, 0 < na j k ∨ δ j k = 0) → HasDerivAt F (twins ℝ b * ∑ j, G.integ fun k => d j k * δ j k) 0) ∧
    ((∀ t, Comps (P t).compsA A) → (∀ t, Comps (P t).compsB (moved B i δ t)) → (Q 0).compsB[i]? = some f →
      (∀ j k, 0 < nb j k ∨ δ j k = 0) → HasDerivAt F (twins ℝ b * ∑ j, G.integ fun k => d j k * δ j k) 0) := by
  have h0 : ∀ (A : List (G.Cols p × ℝ)), moved A i δ 0 = A := fun A => by
    unfold moved
    simp only [zero_mul, add_zero]
    exact List.modify_id i A
  have hline : ∀ (A : List (G.Cols p × ℝ)) (x : G.Cols p × ℝ) (t : ℝ) (k : G.Ix), A[i]? = some x →
      tot (addFlip b (Spec.average (moved A i δ t))) k =
        tot (addFlip b (Spec.average A)) k + t * (twins ℝ b * (x.2 * tot δ k)) := by
    intro A x t k hx
    rw [tot_addFlip, tot_addFlip, average_moved A i δ t x hx]
    simp only [tot, Finset.sum_add_distrib, ← Finset.mul_sum]
    ring
  subst hna hnb
  constructor
  · intro hA hB hf hδ
    obtain ⟨P₁, q1, q2, q3, q4, -⟩ := overlap_run (hA 0) (hB 0) (hQ 0)
    rw [hopt, h0] at q1
    rw [hopt] at q2
    rw [h0] at q4
    obtain ⟨x, hx, -, hs⟩ := comps_get q4 hf
    obtain ⟨S, -, -, -, hS, -, -, -, -, -, hd', -⟩ := C52_overlap T hT P₁ (Q 0) q3 _ _ q1 q2 hw ha hb
    obtain ⟨s, d', e1, e2, e3⟩ := hd' f (List.mem_of_getElem? hf)
    rw [hs] at e1
    obtain rfl := Option.some.inj e1
    rw [hd] at e2
    obtain rfl := Option.some.inj e2
    refine (overlap_side b _ _ x.2 δ d ha hb hpol hδ (fun j k => by rw [e3, hS]; rfl)).congr_of_eventuallyEq (.of_forall fun t => ?_)
    obtain ⟨R, r1, r2, r3, -, -⟩ := overlap_run (hA t) (hB t) (hQ t)
    rw [hopt] at r1 r2
    have := (vpOverlap_values r3 r1 r2).2
    rw [hF, hT.sqrt, hT.erf] at this
    rw [Option.some.inj this]
    simp only [hline A x t _ hx]
  · intro hA hB hf hδ
    obtain ⟨P₁, q1, q2, q3, -, q4⟩ := overlap_run (hA 0) (hB 0) (hQ 0)
    rw [hopt] at q1
    rw [hopt, h0] at q2
    rw [h0] at q4
    obtain ⟨x, hx, -, hs⟩ := comps_get q4 hf
    obtain ⟨S, -, -, -, hS, -, -, -, -, -, -, hd'⟩ := C52_overlap T hT P₁ (Q 0) q3 _ _ q1 q2 hw ha hb
    obtain ⟨s, d', e1, e2, e3⟩ := hd' f (List.mem_of_getElem? hf)
    rw [hs] at e1
    obtain rfl := Option.some.inj e1
    rw [hd] at e2
    obtain rfl := Option.some.inj e2
    have hpol' : SamePolarisation (addFlip b (Spec.average B)) (addFlip b (Spec.average A)) := fun j k => by
      have := hpol j k
      linear_combination -this
    have hS' : S = G.integ fun k => √(tot (addFlip b (Spec.average B)) k * tot (addFlip b (Spec.average A)) k) := by
      rw [hS]
      congr 1
      funext k
      rw [mul_comm]
      rfl
    refine (overlap_side b _ _ x.2 δ d hb ha hpol' hδ (fun j k => by rw [e3, hS'])).congr_of_eventuallyEq (.of_forall fun t => ?_)
    obtain ⟨R, r1, r2, r3, -, -⟩ := overlap_run (hA t) (hB t) (hQ t)
    rw [hopt] at r1 r2
    have := (vpOverlap_values r3 r1 r2).2
    rw [hF, hT.sqrt, hT.erf] at this
    rw [Option.some.inj this]
    simp only [hline B x t _ hx]
    congr 3
    funext k
    rw [mul_comm]

/-- C87 in general: where both fragments have density (and the weights are positive), `dFdn` is the functional derivative
of `F = erf(2 S)` with respect to the component's density exactly when the two fragments have the same spin polarisation
at every point. -/
theorem C87_polarisation (T : Env G r c p) (hT : RealFunctions T) (hw : ∀ k, 0 < weight G k) (P Q : Part G r c p)
    (h : P.vpOverlap T = .ok Q) (na nb : G.Cols p) (hna : P.naFrac = some na) (hnb : P.nbFrac = some nb)
    (ha : ∀ j k, 0 < na j k) (hb : ∀ j k, 0 < nb j k) (f : Frag G r c p) (hf : f ∈ Q.compsA) (s : ℝ)
    (hs : f.ks.scale = some s) (hs0 : s ≠ 0) (d : G.Cols p) (hd : f.v.dFdn = some d) :
    (∀ δ : G.Cols p, HasDerivAt
      (fun t => erf (2 * G.integ fun k => √((∑ j, (na j k + t * (s * δ j k))) * ∑ j, nb j k)))
      (∑ j, G.integ fun k => d j k * δ j k) 0) ↔ SamePolarisation na nb := by
  obtain ⟨S, -, -, -, hS, -, -, -, -, -, hd', -⟩ := C52_overlap T hT P Q h na nb hna hnb (fun k => (hw k).le)
    (fun j k => (ha j k).le) fun j k => (hb j k).le
  obtain ⟨s', d', e1, e2, e3⟩ := hd' f hf
  rw [hs] at e1
  obtain rfl := Option.some.inj e1
  rw [hd] at e2
  obtain rfl := Option.some.inj e2
  have hline : ∀ (δ : G.Cols p), (fun t => erf (2 * G.integ fun k => √((∑ j, (na j k + t * (s * δ j k))) * ∑ j, nb j k))) =
      fun t => erf (2 * G.integ fun k => √((tot na k + t * (s * tot δ k)) * tot nb k)) := by
    intro δ
    funext t
    congr 3
    funext k
    simp only [tot, Finset.sum_add_distrib, Finset.mul_sum]
  have hcode : ∀ j k, d j k = deriv (fun S => erf (2 * S)) (G.integ fun k => √(tot na k * tot nb k)) *
      if na j k = 0 then 0 else s * (1 / 2) * √(nb j k / na j k) := fun j k => by rw [e3, hS]; rfl
  constructor
  · intro hall j k
    have hp : 0 < tot na k := Finset.sum_pos (fun j _ => ha j k) ⟨j, Finset.mem_univ j⟩
    have hq : 0 < tot nb k := Finset.sum_pos (fun j _ => hb j k) ⟨j, Finset.mem_univ j⟩
    let δ : G.Cols p := fun j' k' => if j' = j ∧ k' = k then 1 else 0
    have h1 := hall δ
    rw [hline] at h1
    have h2 := overlap_line (tot na) (tot nb) (fun k => s * tot δ k) (fun k => Finset.sum_nonneg fun j _ => (hb j k).le)
      (fun k => .inl (Finset.sum_pos (fun j _ => ha j k) ⟨j, Finset.mem_univ j⟩))
    have h3 := h1.unique h2
    have hC : deriv (fun S => erf (2 * S)) (G.integ fun k => √(tot na k * tot nb k)) ≠ 0 := by
      have hd : ∀ S, HasDerivAt (fun S => erf (2 * S)) (2 / √Real.pi * Real.exp (-(2 * S) ^ 2) * (2 * 1)) S := fun S =>
        (erf_hasDerivAt (2 * S)).comp S ((hasDerivAt_id S).const_mul 2)
      rw [(hd _).deriv]
      have := Real.pi_pos
      positivity
    have hδt : ∀ k', tot δ k' = if k' = k then 1 else 0 := by
      intro k'
      simp only [tot, δ]
      by_cases hk : k' = k
      · simp [hk]
      · simp [hk]
    have l : ∑ j', G.integ (fun k' => d j' k' * δ j' k') = weight G k * d j k := by
      rw [← integ_inner, integ_weight]
      rw [Finset.sum_eq_single k]
      · congr 1
        rw [Finset.sum_eq_single j]
        · simp [δ]
        · intro j' _ hj; simp [δ, hj]
        · intro h; exact absurd (Finset.mem_univ _) h
      · intro k' _ hk; simp [δ, hk]
      · intro h; exact absurd (Finset.mem_univ _) h
    have rr : (G.integ fun k' => 1 / 2 * √(tot nb k' / tot na k') * (s * tot δ k')) =
        weight G k * (1 / 2 * √(tot nb k / tot na k) * s) := by
      rw [integ_weight, Finset.sum_eq_single k]
      · rw [hδt, if_pos rfl, mul_one]
      · intro k' _ hk; rw [hδt, if_neg hk, mul_zero, mul_zero, mul_zero]
      · intro h; exact absurd (Finset.mem_univ _) h
    rw [l, rr, hcode, if_neg (ha j k).ne'] at h3
    have h4 : √(nb j k / na j k) = √(tot nb k / tot na k) := by
      have hz : (deriv (fun S => erf (2 * S)) (G.integ fun k => √(tot na k * tot nb k)) * weight G k * s * (1 / 2)) ≠ 0 := by
        have := (hw k).ne'
        positivity
      apply mul_left_cancel₀ hz
      linear_combination h3
    have h5 := (Real.sqrt_inj (div_pos (hb j k) (ha j k)).le (div_pos hq hp).le).mp h4
    rw [div_eq_div_iff (ha j k).ne' hp.ne'] at h5
    exact h5
  · intro hpol δ
    rw [hline]
    have := overlap_side false na nb s δ d (fun j k => (ha j k).le) (fun j k => (hb j k).le) hpol (fun j k => .inl (ha j k)) hcode
    simpa [twins] using this

/-- One column: fragments always have the same polarisation; two columns: not so for opposite spins. -/
example : (∀ na nb : (Grid.tiny ℝ).Cols 1, SamePolarisation na nb) ∧
    ¬ SamePolarisation (G := Grid.tiny ℝ) (p := 2) (fun j _ => if j = 0 then 2 else 1) fun j _ => if j = 0 then 1 else 2 := by
  refine ⟨fun na nb j k => ?_, fun h => ?_⟩
  · rw [Subsingleton.elim j 0]
    simp [mul_comm]
  · have := h 0 ⟨0, by decide⟩
    norm_num [Fin.sum_univ_two] at this

end Verif
