import Verif.Model.InitialGuess
import Verif.Lemmas.Grid
import Verif.Lemmas.KsEnergy
import Verif.Lemmas.Solver

/-! # C92: the initial guess of the inversion -/

namespace Verif
open Guess

variable {G : Grid ℝ} {p : ℕ}

namespace Spec

/-- Orbitals of the solver with index `i` of a fragment. -/
def guessOrbitals (f : Guess.Frag G p) (i : ℕ) : List G.Fld := (f.solver[i]?.bind Sol.phi).getD []

/-- Orbitals the guess for index `i` is built of. -/
def guessSpace (P : Guess.Part G p) (i : ℕ) : List G.Fld :=
  if P.abSym then guessOrbitals P.a i ++ (P.AB.elim [] fun x => guessOrbitals x.1 i)
  else guessOrbitals P.a i ++ (P.AB.elim [] fun x => guessOrbitals x.1 i) ++ guessOrbitals P.b i ++
    P.AB.elim [] fun x => guessOrbitals x.2 i

/-- The fragments which contribute, as a list. -/
def guessFrags (P : Guess.Part G p) : List (Guess.Frag G p) := P.a :: P.b :: P.AB.elim [] fun x => [x.1, x.2]

/-- The solver with index `i` has angular momentum `i`. -/
def Numbered (P : Guess.Part G p) : Prop := ∀ f ∈ guessFrags P, ∀ (i : ℕ) (s : Sol G), f.solver[i]? = some s → s.m = i

/-- `H φ = (H0 φ) / w + v φ`. -/
noncomputable def apply (H0 : Matrix G.Ix G.Ix ℝ) (v φ : G.Fld) : G.Fld :=
  fun k => (∑ l, H0 k l * φ l) / G.w k + v k * φ k

/-- Electrons in an orbital of the guess. -/
def guessOccupation (ensSpinSym : Bool) (i : ℕ) : ℝ :=
  if ensSpinSym then if i = 0 then 1 else 2 else if i = 0 then 2 else 4

/-- The answers of `scipy.linalg.eig`: as many pairs as the dimension; a finite eigenvalue comes with a solution of
`F v = e S v`. -/
def EigCorrect (eig : Eig) : Prop := ∀ n F S l, eig n F S = .ok l → l.length = n ∧
  ∀ x ∈ l, ∀ e, x.1 = .fin e → ∀ a, ∑ b, F a b * x.2 b = e * ∑ b, S a b * x.2 b

end Spec
open Spec

namespace Guess

theorem at_ok {f : Frag G p} {i : ℕ} {s : Sol G} : at' f i = .ok s ↔ f.solver[i]? = some s := by
  unfold at'
  by_cases h : i < f.solver.length
  · rw [pyGet_ofNat _ _ h, List.getElem?_eq_getElem h]
    simp
  · rw [pyGet_ofNat_oob _ _ (by omega), List.getElem?_eq_none (by omega)]
    simp

theorem append_ok {l x : List G.Fld} {s : Sol G} : append l s = .ok x ↔ ∃ y, s.phi = some y ∧ x = l ++ y := by
  unfold append
  cases s.phi with
  | none => simp
  | some y => simp [eq_comm]

theorem fromA_inv {P : Part G p} {i : ℕ} {x y : Block G} (h : fromA P i x = .ok y) (hi : i ≤ P.a.solver.length) :
    ∃ s t, P.a.solver[i]? = some s ∧ P.b.solver[i]? = some t ∧ y.phi = x.phi ++ guessOrbitals P.a i ∧
      y.H0 = some s.m ∧ y.m = some t.m := by
  unfold fromA at h
  rw [if_pos hi] at h
  simp only [Py.do_eq_ok, Py.pure_eq_ok, at_ok, append_ok] at h
  obtain ⟨s, hs, l, ⟨z, hz, rfl⟩, t, ht, rfl⟩ := h
  exact ⟨s, t, hs, ht, by simp [guessOrbitals, hs, hz], rfl, rfl⟩

theorem fromEnsA_inv {A : Frag G p} {i : ℕ} {x y : Block G} (h : fromEnsA A i x = .ok y) (hi : i ≤ A.solver.length) :
    ∃ s, A.solver[i]? = some s ∧ y.phi = x.phi ++ guessOrbitals A i ∧ y.H0 = some s.m ∧ y.m = some s.m := by
  unfold fromEnsA at h
  rw [if_pos hi] at h
  simp only [Py.do_eq_ok, Py.pure_eq_ok, at_ok, append_ok] at h
  obtain ⟨s, hs, l, ⟨z, hz, rfl⟩, rfl⟩ := h
  exact ⟨s, hs, by simp [guessOrbitals, hs, hz], rfl, rfl⟩

theorem fromB_inv {B : Frag G p} {i : ℕ} {x y : Block G} (h : fromB B i x = .ok y) (hi : i ≤ B.solver.length)
    {a b : ℕ} (h0 : x.H0 = some a) (hm : x.m = some b) :
    ∃ s, B.solver[i]? = some s ∧ y.phi = x.phi ++ guessOrbitals B i ∧ y.H0 = some a ∧ y.m = some b := by
  unfold fromB at h
  rw [if_pos hi] at h
  simp only [Py.do_eq_ok, Py.pure_eq_ok, at_ok, append_ok] at h
  obtain ⟨s, hs, l, ⟨z, hz, rfl⟩, rfl⟩ := h
  exact ⟨s, hs, by simp [guessOrbitals, hs, hz], by simp [h0], by simp [hm]⟩

/-- The orbitals in the order of the code. -/
def space (P : Part G p) (i : ℕ) : List G.Fld :=
  if P.abSym then guessSpace P i ++ guessSpace P i else guessSpace P i

theorem mem_space {P : Part G p} {i : ℕ} {χ : G.Fld} : χ ∈ space P i ↔ χ ∈ guessSpace P i := by
  unfold space
  split <;> simp

theorem partA_inv {P : Part G p} {i : ℕ} {x : Block G} (h : partA P i = .ok x) :
    (i ≤ P.a.solver.length → i < P.a.solver.length ∧ i < P.b.solver.length) ∧
    (∀ A B, P.AB = some (A, B) → i ≤ A.solver.length → i < A.solver.length) ∧
    (Numbered P → i < P.a.solver.length → (∀ A B, P.AB = some (A, B) → i < A.solver.length) →
      x.phi = guessOrbitals P.a i ++ (P.AB.elim [] fun x => guessOrbitals x.1 i) ∧ x.H0 = some i ∧ x.m = some i) := by
  unfold partA at h
  rw [Py.do_eq_ok] at h
  obtain ⟨x1, h1, h⟩ := h
  refine ⟨fun e => ?_, fun A B hAB e => ?_, fun hn ha hA => ?_⟩
  · obtain ⟨s, t, hs, ht, -⟩ := fromA_inv h1 e
    exact ⟨(List.getElem?_eq_some_iff.mp hs).1, (List.getElem?_eq_some_iff.mp ht).1⟩
  · rw [hAB] at h
    obtain ⟨s, hs, -⟩ := fromEnsA_inv h e
    exact (List.getElem?_eq_some_iff.mp hs).1
  · obtain ⟨s, t, hs, ht, p1, q1, r1⟩ := fromA_inv h1 ha.le
    rw [hn P.a (List.mem_cons_self ..) i s hs] at q1
    rw [hn P.b (List.mem_cons_of_mem _ (List.mem_cons_self ..)) i t ht] at r1
    cases hP : P.AB with
    | none =>
      rw [hP] at h
      obtain rfl := Py.pure_eq_ok.mp h
      exact ⟨by simpa using p1, q1, r1⟩
    | some AB =>
      obtain ⟨A, B⟩ := AB
      rw [hP] at h
      obtain ⟨s', hs', p2, q2, r2⟩ := fromEnsA_inv h (hA A B hP).le
      rw [hn A (by simp [guessFrags, hP]) i s' hs'] at q2 r2
      exact ⟨by rw [p2, p1]; simp, q2, r2⟩

theorem again_inv {P : Part G p} {i : ℕ} {x y : Block G} (h : again P i x = .ok y) :
    y.phi = x.phi ++ (guessOrbitals P.a i ++ P.AB.elim [] fun x => guessOrbitals x.1 i) ∧ y.H0 = x.H0 ∧ y.m = x.m := by
  unfold again at h
  cases hP : P.AB with
  | none =>
    rw [hP] at h
    simp only [Py.do_eq_ok, Py.pure_eq_ok, at_ok, append_ok] at h
    obtain ⟨s, hs, l, ⟨z, hz, rfl⟩, rfl⟩ := h
    exact ⟨by simp [guessOrbitals, hs, hz], rfl, rfl⟩
  | some AB =>
    rw [hP] at h
    simp only [Py.do_eq_ok, Py.pure_eq_ok, at_ok, append_ok] at h
    obtain ⟨s, hs, l, ⟨z, hz, rfl⟩, s', hs', l', ⟨z', hz', rfl⟩, rfl⟩ := h
    exact ⟨by simp [guessOrbitals, hs, hz, hs', hz'], rfl, rfl⟩

theorem partB_lt {P : Part G p} {i : ℕ} {x y : Block G} (h : partB P i x = .ok y) :
    ∀ A B, P.AB = some (A, B) → i ≤ B.solver.length → i < B.solver.length := by
  intro A B hAB e
  unfold partB at h
  rw [hAB, Py.do_eq_ok] at h
  obtain ⟨z, -, h⟩ := h
  change fromB B i z = .ok y at h
  unfold fromB at h
  rw [if_pos e] at h
  simp only [Py.do_eq_ok, at_ok] at h
  obtain ⟨s, hs, -⟩ := h
  exact (List.getElem?_eq_some_iff.mp hs).1

theorem partB_inv {P : Part G p} {i : ℕ} {x y : Block G} (h : partB P i x = .ok y) {a b : ℕ} (h0 : x.H0 = some a)
    (hm : x.m = some b) (hb : i < P.b.solver.length) (hB : ∀ A B, P.AB = some (A, B) → i < B.solver.length) :
    y.phi = x.phi ++ guessOrbitals P.b i ++ (P.AB.elim [] fun x => guessOrbitals x.2 i) ∧ y.H0 = some a ∧
      y.m = some b := by
  unfold partB at h
  rw [Py.do_eq_ok] at h
  obtain ⟨z, h1, h⟩ := h
  obtain ⟨_, -, p1, q1, r1⟩ := fromB_inv h1 hb.le h0 hm
  cases hP : P.AB with
  | none =>
    rw [hP] at h
    obtain rfl := Py.pure_eq_ok.mp h
    exact ⟨by simpa using p1, q1, r1⟩
  | some AB =>
    obtain ⟨A, B⟩ := AB
    rw [hP] at h
    obtain ⟨_, -, p2, q2, r2⟩ := fromB_inv h (hB A B hP).le q1 r1
    exact ⟨by rw [p2, p1]; simp, q2, r2⟩

theorem basis_lt {P : Part G p} {i : ℕ} {x : Block G} (h : basis P i = .ok x) : i ≠ P.a.solver.length ∧
    (i ≤ P.a.solver.length → i < P.b.solver.length) ∧ (∀ A B, P.AB = some (A, B) → i ≠ A.solver.length ∧
      (P.abSym = false → i ≠ B.solver.length)) := by
  unfold basis at h
  rw [Py.do_eq_ok] at h
  obtain ⟨x1, h1, h⟩ := h
  obtain ⟨e1, e2, -⟩ := partA_inv h1
  refine ⟨fun e => ?_, fun e => (e1 e).2, fun A B hAB => ⟨fun e => ?_, fun hs e => ?_⟩⟩
  · have := e1 e.le; omega
  · have := e2 A B hAB e.le; omega
  · rw [hs] at h
    have := partB_lt h A B hAB e.le
    omega

theorem basis_inv {P : Part G p} {i : ℕ} {x : Block G} (h : basis P i = .ok x) (hn : Numbered P)
    (ha : i < P.a.solver.length) (hb : i < P.b.solver.length)
    (hAB : ∀ A B, P.AB = some (A, B) → i < A.solver.length ∧ (P.abSym = false → i < B.solver.length)) :
    x.phi = space P i ∧ x.H0 = some i ∧ x.m = some i := by
  unfold basis at h
  rw [Py.do_eq_ok] at h
  obtain ⟨x1, h1, h⟩ := h
  obtain ⟨p1, q1, r1⟩ := (partA_inv h1).2.2 hn ha fun A B e => (hAB A B e).1
  cases hs : P.abSym with
  | true =>
    rw [hs] at h
    obtain ⟨p2, q2, r2⟩ := again_inv h
    exact ⟨by rw [p2, p1]; simp [space, guessSpace, hs], q2.trans q1, r2.trans r1⟩
  | false =>
    rw [hs] at h
    obtain ⟨p2, q2, r2⟩ := partB_inv h q1 r1 hb fun A B e => (hAB A B e).2 hs
    exact ⟨by rw [p2, p1]; simp [space, guessSpace, hs], q2, r2⟩

theorem mapM_forall₂ {α β : Type} {f : α → Py β} {l : List α} {m : List β} (h : l.mapM f = .ok m) :
    List.Forall₂ (fun a b => f a = .ok b) l m := by
  induction l generalizing m with
  | nil =>
    obtain rfl := Except.ok.inj h
    exact .nil
  | cons a l ih =>
    rw [List.mapM_cons] at h
    simp only [Py.do_eq_ok, Py.pure_eq_ok] at h
    obtain ⟨b, hb, m', hm, rfl⟩ := h
    exact .cons hb (ih hm)

theorem le_nsol {P : Part G p} {f : Frag G p} (h : f ∈ comps P) : f.solver.length ≤ nsol P := by
  unfold nsol
  have key : ∀ (l : List ℕ) (a : ℕ), a ≤ l.foldl max a ∧ ∀ x ∈ l, x ≤ l.foldl max a := by
    intro l
    induction l with
    | nil => simp
    | cons b l ih =>
      intro a
      obtain ⟨h1, h2⟩ := ih (max a b)
      refine ⟨(le_max_left a b).trans h1, fun x hx => ?_⟩
      rcases List.mem_cons.mp hx with rfl | hx
      · exact (le_max_right a x).trans h1
      · exact h2 x hx
  exact (key _ 0).2 _ (List.mem_map.mpr ⟨f, h, rfl⟩)

/-- Success means that the blocks succeed, and this that no fragment runs out of solvers. -/
theorem initialGuess_inv {eig : Eig} {H0 : ℕ → Matrix G.Ix G.Ix ℝ} {P : Part G p} {ispin : ℕ} {R : Result G}
    (h : initialGuess eig H0 P ispin = .ok R) :
    potential P ispin = .ok R.v0 ∧ ∃ l : List (List (G.Fld × Fl ℝ)), l.length = nsol P ∧
      (∀ i (hi : i < l.length), block eig H0 P R.v0 i = .ok l[i]) ∧ R.phi0 = l.flatten.map Prod.fst ∧
      R.e0 = l.flatten.map (fun x => real0 x.2) ∧
      ∀ i < nsol P, i < P.a.solver.length ∧ i < P.b.solver.length ∧
        ∀ A B, P.AB = some (A, B) → i < A.solver.length ∧ (P.abSym = false → i < B.solver.length) := by
  unfold initialGuess at h
  simp only [Py.do_eq_ok, Py.pure_eq_ok] at h
  obtain ⟨v, hv, l, hl, rfl⟩ := h
  have hlen : l.length = nsol P := by
    have := (mapM_forall₂ hl).length_eq
    simpa using this.symm
  have hall := mapM_forall₂ hl
  have hblock : ∀ i (hi : i < l.length), block eig H0 P v i = .ok l[i] := by
    intro i hi
    have := List.forall₂_iff_get.mp hall |>.2 i (by simpa [hlen] using hi) hi
    simpa using this
  have hbasis : ∀ i < nsol P, ∃ x, basis P i = .ok x := by
    intro i hi
    have := hblock i (by omega)
    unfold block at this
    rw [Py.do_eq_ok] at this
    obtain ⟨x, hx, -⟩ := this
    exact ⟨x, hx⟩
  have ha : nsol P ≤ P.a.solver.length := by
    by_contra hc
    obtain ⟨x, hx⟩ := hbasis P.a.solver.length (by omega)
    exact (basis_lt hx).1 rfl
  refine ⟨hv, l, hlen, hblock, rfl, rfl, fun i hi => ⟨by omega, ?_, fun A B hAB => ⟨?_, fun hs => ?_⟩⟩⟩
  · obtain ⟨x, hx⟩ := hbasis i hi
    exact (basis_lt hx).2.1 (by omega)
  · by_contra hc
    obtain ⟨x, hx⟩ := hbasis A.solver.length (by omega)
    exact ((basis_lt hx).2.2 A B hAB).1 rfl
  · by_contra hc
    obtain ⟨x, hx⟩ := hbasis B.solver.length (by omega)
    exact ((basis_lt hx).2.2 A B hAB).2 hs rfl

theorem dot_combine (f : G.Fld) {l : List G.Fld} (v : Fin l.length → ℝ) :
    dot f (combine l v) = ∑ b, dot f l[b] * v b := by
  have : ∀ k, f k * combine l v k = ∑ b, v b * (f k * l[b] k) := by
    intro k
    unfold combine
    rw [Finset.mul_sum]
    exact Finset.sum_congr rfl fun b _ => by ring
  unfold dot
  simp only [this]
  rw [G.integ_sum]
  exact Finset.sum_congr rfl fun b _ => by rw [G.integ_smul]; ring

theorem dot_comm (f g : G.Fld) : dot f g = dot g f := by
  unfold dot
  congr 1
  funext k
  ring

theorem dot_smul (f g : G.Fld) (c : ℝ) : dot f (fun k => c * g k) = c * dot f g := by
  unfold dot
  rw [← G.integ_smul]
  congr 1
  funext k
  ring

theorem ham_combine (H0 : Matrix G.Ix G.Ix ℝ) (v : G.Fld) {l : List G.Fld} (c : Fin l.length → ℝ) (k : G.Ix) :
    apply H0 v (combine l c) k = ∑ b, ham H0 v l[b] k * c b := by
  unfold apply combine ham Matrix.mulVec dotProduct
  have e : ∑ x, H0 k x * ∑ a, l[a] x * c a = ∑ a, (∑ x, H0 k x * l[a] x) * c a := by
    simp only [Finset.mul_sum, Finset.sum_mul]
    rw [Finset.sum_comm]
    exact Finset.sum_congr rfl fun a _ => Finset.sum_congr rfl fun x _ => by ring
  rw [e, Finset.sum_div, Finset.mul_sum, ← Finset.sum_add_distrib]
  exact Finset.sum_congr rfl fun a _ => by ring

theorem dot_ham (f : G.Fld) (H0 : Matrix G.Ix G.Ix ℝ) (v : G.Fld) {l : List G.Fld} (c : Fin l.length → ℝ) :
    dot f (apply H0 v (combine l c)) = ∑ b, dot f (ham H0 v l[b]) * c b := by
  have : ∀ k, f k * apply H0 v (combine l c) k = ∑ b, c b * (f k * ham H0 v l[b] k) := by
    intro k
    rw [ham_combine, Finset.mul_sum]
    exact Finset.sum_congr rfl fun b _ => by ring
  unfold dot
  simp only [this]
  rw [G.integ_sum]
  exact Finset.sum_congr rfl fun b _ => by rw [G.integ_smul]; ring

theorem unit_pos {f : G.Fld} (h : 0 < dot f f) : dot (unit f) (unit f) = 1 := by
  have e : unit f = fun k => (Real.sqrt (dot f f))⁻¹ * f k := by funext k; unfold unit; ring
  have h' : ∀ c : ℝ, dot (fun k => c * f k) f = c * dot f f := fun c => by rw [dot_comm, dot_smul]
  rw [e, dot_smul, h', ← mul_assoc, ← mul_inv, Real.mul_self_sqrt h.le, inv_mul_cancel₀ h.ne']

theorem unit_norm (f : G.Fld) : (∀ k, unit f k = 0) ∨ dot (unit f) (unit f) = 1 := by
  by_cases h : 0 < dot f f
  · exact .inr (unit_pos h)
  · left
    intro k
    unfold unit
    rw [Real.sqrt_eq_zero_of_nonpos (not_lt.mp h), div_zero]

theorem unit_occ {f : G.Fld} {o : ℝ} (ho : 0 ≤ o) (h : dot (unit f) (unit f) = 1) :
    G.integ (fun k => (unit f k * Real.sqrt o) ^ 2) = o := by
  have : ∀ k, (unit f k * Real.sqrt o) ^ 2 = o * (unit f k * unit f k) := by
    intro k
    rw [mul_pow, Real.sq_sqrt ho]; ring
  simp only [this]
  rw [G.integ_smul]
  change _ * dot _ _ = _
  rw [h, mul_one]

theorem unit_eq (f : G.Fld) : unit f = fun k => (Real.sqrt (dot f f))⁻¹ * f k := by
  funext k; unfold unit; ring

theorem apply_smul (H0 : Matrix G.Ix G.Ix ℝ) (v φ : G.Fld) (c : ℝ) :
    apply H0 v (fun k => c * φ k) = fun k => c * apply H0 v φ k := by
  funext k
  unfold apply
  have : ∑ l, H0 k l * (c * φ l) = c * ∑ l, H0 k l * φ l := by
    rw [Finset.mul_sum]; exact Finset.sum_congr rfl fun l _ => by ring
  rw [this]; ring

theorem le_trans' (x y z : Fl ℝ) : le x y = true → le y z = true → le x z = true := by
  cases x <;> cases y <;> cases z <;> simp [le, Fl.gt]
  exact fun h h' => h.trans h'

theorem le_total' (x y : Fl ℝ) : (le x y || le y x) = true := by
  cases x <;> cases y <;> simp [le, Fl.gt]
  exact le_total _ _

/-- One column of the guess. -/
theorem column {B l : List G.Fld} (hl : l = B.map unit) (v : Fin l.length → ℝ) {o : ℝ} (ho : 0 ≤ o) :
    (fun k => unit (combine l v) k * Real.sqrt o) ∈ Submodule.span ℝ {χ | χ ∈ B} ∧
    ((∀ k, unit (combine l v) k * Real.sqrt o = 0) ∨
      G.integ (fun k => (unit (combine l v) k * Real.sqrt o) ^ 2) = o) ∧
    ∀ (H0 : Matrix G.Ix G.Ix ℝ) (v0 : G.Fld) (e : ℝ),
      (∀ a : Fin l.length, ∑ b, dot l[a] (ham H0 v0 l[b]) * v b =
        e * ∑ b, dot l[a] l[b] * v b) →
      ∀ χ ∈ B, 0 < G.integ (fun k => χ k ^ 2) →
        G.integ (fun k => χ k * apply H0 v0 (fun k => unit (combine l v) k * Real.sqrt o) k) =
          e * G.integ fun k => χ k * (unit (combine l v) k * Real.sqrt o) := by
  obtain ⟨c, hc⟩ : ∃ c : ℝ, (fun k => unit (combine l v) k * Real.sqrt o) = fun k => c * combine l v k :=
    ⟨Real.sqrt o * (Real.sqrt (dot (combine l v) (combine l v)))⁻¹, by rw [unit_eq]; funext k; ring⟩
  refine ⟨?_, ?_, fun H0 v0 x key χ hχ hpos => ?_⟩
  · rw [hc]
    have hsum : combine l v = ∑ a, v a • l[a] := by
      funext k
      rw [Finset.sum_apply]
      unfold combine
      exact Finset.sum_congr rfl fun a _ => by rw [Pi.smul_apply, smul_eq_mul]; ring
    refine Submodule.smul_mem _ c ?_
    rw [hsum]
    refine Submodule.sum_mem _ fun a _ => Submodule.smul_mem _ _ ?_
    have hm : l[a] ∈ B.map unit := hl ▸ List.getElem_mem (l := l) a.2
    obtain ⟨χ, hχ, e⟩ := List.mem_map.mp hm
    rw [← e, unit_eq]
    exact Submodule.smul_mem _ _ (Submodule.subset_span hχ)
  · rcases unit_norm (combine l v) with h | h
    · left
      intro k
      rw [h k, zero_mul]
    · exact .inr (unit_occ ho h)
  · change dot χ (apply H0 v0 fun k => unit (combine l v) k * Real.sqrt o) =
      x * dot χ (fun k => unit (combine l v) k * Real.sqrt o)
    rw [hc, apply_smul, dot_smul, dot_smul]
    have hm : unit χ ∈ l := hl ▸ List.mem_map.mpr ⟨χ, hχ, rfl⟩
    obtain ⟨a, ha1, ha2⟩ := List.getElem_of_mem hm
    obtain ⟨t, hχ'⟩ : ∃ t : ℝ, χ = fun k => t * unit χ k := by
      have hp : 0 < dot χ χ := by
        have : (fun k => χ k ^ 2) = fun k => χ k * χ k := by funext k; ring
        rw [this] at hpos
        exact hpos
      refine ⟨Real.sqrt (dot χ χ), ?_⟩
      funext k
      unfold unit
      rw [mul_div_cancel₀]
      exact (Real.sqrt_pos.mpr hp).ne'
    have h1 := key ⟨a, ha1⟩
    have h2 : l[(⟨a, ha1⟩ : Fin l.length)] = unit χ := ha2
    rw [h2, ← dot_ham, ← dot_combine] at h1
    have h3 : ∀ g, dot χ g = t * dot (unit χ) g := by
      intro g
      conv_lhs => rw [hχ']
      rw [dot_comm, dot_smul, dot_comm]
    rw [h3, h3, h1]
    ring

/-- The projected equation holds for the whole space. -/
theorem galerkin_span {l : List G.Fld} {A φ : G.Fld} {e : ℝ} (hpos : ∀ χ ∈ l, 0 < G.integ fun k => χ k ^ 2)
    (h : ∀ χ ∈ l, 0 < G.integ (fun k => χ k ^ 2) →
      G.integ (fun k => χ k * A k) = e * G.integ fun k => χ k * φ k) {ψ : G.Fld}
    (hψ : ψ ∈ Submodule.span ℝ {χ | χ ∈ l}) : G.integ (fun k => ψ k * A k) = e * G.integ fun k => ψ k * φ k := by
  induction hψ using Submodule.span_induction with
  | mem χ hχ => exact h χ hχ (hpos χ hχ)
  | zero => simp [Grid.integ]
  | add f g _ _ hf hg =>
    have e1 : ∀ B : G.Fld, (G.integ fun k => (f + g) k * B k) = G.integ (fun k => f k * B k) +
        G.integ fun k => g k * B k := fun B => by
      rw [← G.integ_add]; congr 1; funext k; rw [Pi.add_apply]; ring
    rw [e1, e1, hf, hg]; ring
  | smul c f _ hf =>
    have e1 : ∀ B : G.Fld, (G.integ fun k => (c • f) k * B k) = c * G.integ (fun k => f k * B k) := fun B => by
      rw [← G.integ_smul]; congr 1; funext k; rw [Pi.smul_apply, smul_eq_mul]; ring
    rw [e1, e1, hf]; ring

theorem block_ok {eig : Eig} {H0 : ℕ → Matrix G.Ix G.Ix ℝ} {P : Part G p} {v : G.Fld} {i m : ℕ} {mm : Option ℕ}
    {B l : List G.Fld} (hl : B.map unit = l) {ev : List (Fl ℝ × (Fin l.length → ℝ))}
    (h : basis P i = .ok ⟨B, some m, mm⟩)
    (hev : eig l.length (fun a b => dot l[a] (ham (H0 m) v l[b])) (fun a b => dot l[a] l[b]) = .ok ev) :
    block eig H0 P v i = .ok ((ev.mergeSort fun x y => le x.1 y.1).map fun e =>
      (fun k => unit (combine l e.2) k * Real.sqrt (occ P.ensSpinSym mm), e.1)) := by
  subst hl
  unfold block
  rw [h]
  change (eig _ _ _ >>= _) = _
  rw [Py.do_eq_ok]
  exact ⟨ev, hev, rfl⟩

/-- A pass of the loop. -/
theorem block_inv {eig : Eig} {H0 : ℕ → Matrix G.Ix G.Ix ℝ} {P : Part G p} {v : G.Fld} {i : ℕ}
    {l : List (G.Fld × Fl ℝ)} (h : block eig H0 P v i = .ok l) (hn : Numbered P)
    (ha : i < P.a.solver.length) (hb : i < P.b.solver.length)
    (hAB : ∀ A B, P.AB = some (A, B) → i < A.solver.length ∧ (P.abSym = false → i < B.solver.length)) :
    ∃ ev, eig _ (fun a b => dot ((space P i).map unit)[a] (ham (H0 i) v ((space P i).map unit)[b]))
        (fun a b => dot ((space P i).map unit)[a] ((space P i).map unit)[b]) = .ok ev ∧
      l = (ev.mergeSort fun x y => le x.1 y.1).map fun e =>
        (fun k => unit (combine ((space P i).map unit) e.2) k * Real.sqrt (guessOccupation P.ensSpinSym i), e.1) := by
  unfold block at h
  rw [Py.do_eq_ok] at h
  obtain ⟨⟨phi, h0, m⟩, hx, h⟩ := h
  obtain ⟨h1, h2, h3⟩ := basis_inv hx hn ha hb hAB
  simp only at h1 h2 h3
  subst h1 h2 h3
  simp only [Py.do_eq_ok, Py.pure_eq_ok] at h
  obtain ⟨ev, hev, rfl⟩ := h
  refine ⟨ev, hev, ?_⟩
  have : occ P.ensSpinSym (some i) = guessOccupation P.ensSpinSym i := by
    simp [occ, guessOccupation]
  rw [this]

end Guess

/-- C92, orbitals: where `initialguessinvert` returns (solvers numbered by their angular momentum), the guess consists
of one block for every `m`.  The orbitals of a block lie in the space of the fragments' orbitals with this `m`, there
are as many as fragment orbitals (twice as many as those of fragment A with `ab_sym`), each is zero or contains the
electrons of a full shell, energies ascend, and an orbital with a finite energy solves the projected Schrödinger
equation for the guess of the potential.  Orbitals of different energy are orthogonal if the Hamiltonian is symmetric. -/
theorem C92_orbitals_partial (eig : Eig) (H0 : ℕ → Matrix G.Ix G.Ix ℝ) (P : Guess.Part G p) (ispin : ℕ) (R : Guess.Result G)
    (h : initialGuess eig H0 P ispin = .ok R) (hn : Numbered P) (heig : EigCorrect eig) :
    ∃ L : List (List (G.Fld × Fl ℝ)), R.phi0 = L.flatten.map Prod.fst ∧
      List.Forall₂ (fun e x => (∀ y, x = .fin y → e = y) ∧ ((∀ y, x ≠ .fin y) → e = 0)) R.e0 (L.flatten.map Prod.snd) ∧
      L.length = P.a.solver.length ∧ ∀ i (hi : i < L.length),
        L[i].length = (if P.abSym then 2 else 1) * (guessSpace P i).length ∧
        (L[i].Pairwise fun x y => ∀ e e', x.2 = .fin e → y.2 = .fin e' → e ≤ e') ∧
        (∀ x ∈ L[i], x.1 ∈ Submodule.span ℝ {χ | χ ∈ guessSpace P i} ∧
          ((∀ k, x.1 k = 0) ∨ G.integ (fun k => x.1 k ^ 2) = guessOccupation P.ensSpinSym i) ∧
          ∀ e, x.2 = .fin e → ∀ χ ∈ guessSpace P i, 0 < G.integ (fun k => χ k ^ 2) →
            G.integ (fun k => χ k * apply (H0 i) R.v0 x.1 k) = e * G.integ fun k => χ k * x.1 k) ∧
        ((∀ χ ∈ guessSpace P i, 0 < G.integ fun k => χ k ^ 2) →
          (∀ f g : G.Fld, G.integ (fun k => f k * apply (H0 i) R.v0 g k) =
            G.integ fun k => g k * apply (H0 i) R.v0 f k) →
          ∀ x ∈ L[i], ∀ y ∈ L[i], ∀ e e', x.2 = .fin e → y.2 = .fin e' → e ≠ e' →
            G.integ (fun k => x.1 k * y.1 k) = 0) := by
  obtain ⟨hv, L, l1, l2, l3, l4, l5⟩ := initialGuess_inv h
  refine ⟨L, l3, ?_, ?_, fun i hi => ?_⟩
  · rw [l4, List.forall₂_map_left_iff, List.forall₂_map_right_iff]
    refine List.forall₂_same.mpr fun x _ => ⟨fun y hy => by rw [hy]; rfl, fun hy => ?_⟩
    cases hx : x.2 with
    | fin y => exact absurd hx (hy y)
    | _ => rfl
  · rw [l1]
    refine le_antisymm ?_ (le_nsol ?_)
    · by_contra hc
      exact absurd (l5 P.a.solver.length (by omega)).1 (lt_irrefl _)
    · unfold comps
      split <;> split <;> simp
  obtain ⟨ha, hb, hAB⟩ := l5 i (by omega)
  obtain ⟨ev, hev, hl⟩ := block_inv (l2 i hi) hn ha hb hAB
  obtain ⟨hlen, hcor⟩ := heig _ _ _ _ hev
  have main : ∀ x ∈ L[i], x.1 ∈ Submodule.span ℝ {χ | χ ∈ guessSpace P i} ∧
      ((∀ k, x.1 k = 0) ∨ G.integ (fun k => x.1 k ^ 2) = guessOccupation P.ensSpinSym i) ∧
      ∀ e, x.2 = .fin e → ∀ χ ∈ guessSpace P i, 0 < G.integ (fun k => χ k ^ 2) →
        G.integ (fun k => χ k * apply (H0 i) R.v0 x.1 k) = e * G.integ fun k => χ k * x.1 k := by
    intro x hx
    rw [hl] at hx
    obtain ⟨e, he, rfl⟩ := List.mem_map.mp hx
    have he' : e ∈ ev := List.mem_mergeSort.mp he
    have hocc : 0 ≤ guessOccupation P.ensSpinSym i := by
      unfold guessOccupation
      split <;> split <;> norm_num
    obtain ⟨c1, c2, c3⟩ := column rfl e.2 hocc
    refine ⟨?_, c2, fun x hx χ hχ hpos => c3 (H0 i) R.v0 x (hcor e he' x hx) χ (mem_space.mpr hχ) hpos⟩
    have : {χ | χ ∈ guessSpace P i} = {χ | χ ∈ space P i} := by
      ext χ
      exact mem_space.symm
    rw [this]
    exact c1
  refine ⟨?_, ?_, main, fun hpos hsym x hx y hy e e' he he' hne => ?_⟩
  · rw [hl, List.length_map, List.length_mergeSort, hlen, List.length_map]
    unfold space
    split
    · rw [List.length_append]; ring
    · ring
  · rw [hl, List.pairwise_map]
    refine (List.pairwise_mergeSort (le := fun x y => le x.1 y.1) (fun a b c => le_trans' _ _ _)
      (fun a b => le_total' _ _) ev).imp ?_
    intro a b hab e e' he he'
    simp only at he he'
    rw [he, he'] at hab
    simpa [le, Fl.gt] using hab
  · obtain ⟨x1, -, x3⟩ := main x hx
    obtain ⟨y1, -, y3⟩ := main y hy
    have a := galerkin_span hpos (x3 e he) y1
    have b := galerkin_span hpos (y3 e' he') x1
    have c : G.integ (fun k => y.1 k * x.1 k) = G.integ (fun k => x.1 k * y.1 k) := by
      congr 1; funext k; ring
    rw [hsym, b, c] at a
    have : (e' - e) * G.integ (fun k => x.1 k * y.1 k) = 0 := by linear_combination a
    rcases mul_eq_zero.mp this with h | h
    · exact absurd (sub_eq_zero.mp h).symm hne
    · exact h

/-- C92, sizes: the guess exists only if the fragments have the same number of solvers (fragment B may have more than
A with `ab_sym`). -/
theorem C92_sizes_partial (eig : Eig) (H0 : ℕ → Matrix G.Ix G.Ix ℝ) (P : Guess.Part G p) (ispin : ℕ) (R : Guess.Result G)
    (h : initialGuess eig H0 P ispin = .ok R) :
    P.a.solver.length ≤ P.b.solver.length ∧ (P.abSym = false → P.a.solver.length = P.b.solver.length) ∧
      ∀ A B, P.AB = some (A, B) → A.solver.length = P.a.solver.length ∧
        (P.abSym = false → B.solver.length = P.a.solver.length) := by
  obtain ⟨-, L, l1, -, -, -, l5⟩ := initialGuess_inv h
  have mem : ∀ f ∈ comps P, f.solver.length ≤ nsol P := fun f hf => le_nsol hf
  have ha : P.a.solver.length = nsol P := by
    refine le_antisymm (mem _ ?_) ?_
    · unfold comps; split <;> split <;> simp
    · by_contra hc
      exact absurd (l5 P.a.solver.length (by omega)).1 (lt_irrefl _)
  have hb : nsol P ≤ P.b.solver.length := by
    by_contra hc
    exact absurd (l5 P.b.solver.length (by omega)).2.1 (lt_irrefl _)
  refine ⟨by omega, fun hs => ?_, fun A B hAB => ⟨?_, fun hs => ?_⟩⟩
  · have := mem P.b (by unfold comps; rw [hs]; cases P.AB <;> simp)
    omega
  · have h1 := mem A (by unfold comps; rw [hAB]; cases P.abSym <;> simp)
    have h2 : nsol P ≤ A.solver.length := by
      by_contra hc
      exact absurd ((l5 A.solver.length (by omega)).2.2 A B hAB).1 (lt_irrefl _)
    omega
  · have h1 := mem B (by unfold comps; rw [hAB, hs]; simp)
    have h2 : nsol P ≤ B.solver.length := by
      by_contra hc
      exact absurd (((l5 B.solver.length (by omega)).2.2 A B hAB).2 hs) (lt_irrefl _)
    omega

/-- The fragments which are calculated: all, or fragment A with `ab_sym`. -/
def Spec.calculated (P : Guess.Part G p) : List (Guess.Frag G p) :=
  P.a :: (P.AB.elim [] fun x => [x.1]) ++ if P.abSym then [] else P.b :: P.AB.elim [] fun x => [x.2]

/-- `Q`-weighted sum of the effective potentials; with `ens_spin_sym` the other spin is added, its potential
shifted by the chemical potential. -/
noncomputable def Spec.weightedPotential (P : Guess.Part G p) (i o : Fin p) (k : G.Ix) : ℝ :=
  ((calculated P).map fun f => f.veff i k * f.Q i k).sum +
    if P.ensSpinSym then ((calculated P).map fun f => (f.veff o k - f.u) * f.Q o k).sum else 0

namespace Guess

theorem comps_eq (P : Part G p) : comps P = calculated P := by
  unfold comps calculated
  cases P.abSym <;> cases P.AB <;> rfl

theorem addSpin_fold {i : ℕ} (hi : i < p) (l : List (Frag G p)) (v : G.Fld) :
    l.foldlM (addSpin i) v = .ok fun k => v k + (l.map fun f => f.veff ⟨i, hi⟩ k * f.Q ⟨i, hi⟩ k).sum := by
  induction l generalizing v with
  | nil => simp [pure, Except.pure]
  | cons f l ih =>
    have : addSpin i v f = .ok fun k => v k + f.veff ⟨i, hi⟩ k * f.Q ⟨i, hi⟩ k := by
      simp [addSpin, col, hi, bind, Except.bind, pure, Except.pure]
    rw [List.foldlM_cons, this]
    change l.foldlM (addSpin i) _ = _
    rw [ih]
    congr 1
    funext k
    rw [List.map_cons, List.sum_cons]
    ring

theorem addOther_fold {i : ℕ} (hi : i < p) (l : List (Frag G p)) (v : G.Fld) :
    l.foldlM (addOther i) v =
      .ok fun k => v k + (l.map fun f => (f.veff ⟨i, hi⟩ k - f.u) * f.Q ⟨i, hi⟩ k).sum := by
  induction l generalizing v with
  | nil => simp [pure, Except.pure]
  | cons f l ih =>
    have : addOther i v f = .ok fun k => v k + (f.veff ⟨i, hi⟩ k - f.u) * f.Q ⟨i, hi⟩ k := by
      simp [addOther, col, hi, bind, Except.bind, pure, Except.pure]
    rw [List.foldlM_cons, this]
    change l.foldlM (addOther i) _ = _
    rw [ih]
    congr 1
    funext k
    rw [List.map_cons, List.sum_cons]
    ring

end Guess

/-- C92, potential: the guess of the potential is the `Q`-weighted sum of the effective potentials of the fragments,
plus its mirror image with `ab_sym`. -/
theorem C92_potential (P : Guess.Part G p) (i o : Fin p) (ho : P.ensSpinSym = true → o.1 = if i.1 = 0 then 1 else 0) :
    potential P i.1 = .ok fun k => weightedPotential P i o k +
      if P.abSym then weightedPotential P i o (G.mirIx k) else 0 := by
  unfold potential
  rw [comps_eq, addSpin_fold i.2]
  change (do
    let v ← if P.ensSpinSym then (calculated P).foldlM (addOther (if i.1 = 0 then 1 else 0)) _ else pure _
    pure (if P.abSym then fun k => v k + G.mir v k else v) : Py G.Fld) = _
  cases hs : P.ensSpinSym with
  | true =>
    simp only [if_true]
    rw [← ho hs, addOther_fold o.2]
    cases ha : P.abSym <;>
    · simp only [bind, Except.bind, pure, Except.pure]
      congr 1
      funext k
      simp [weightedPotential, hs, Grid.mir]
  | false =>
    cases ha : P.abSym <;>
    · simp only [bind, Except.bind, pure, Except.pure, Bool.false_eq_true, if_false, if_true]
      congr 1
      funext k
      simp [weightedPotential, hs, Grid.mir]

/-- C92, consistency: if all fragments already move in the same potential `V` (mirror symmetric with `ab_sym`) and
their `Q` functions add up to one, the guess is `V` — without `ens_spin_sym`. -/
theorem C92_consistent_partial (P : Guess.Part G p) (i : Fin p) (V : G.Fld) (hens : P.ensSpinSym = false)
    (hV : ∀ f ∈ calculated P, f.veff i = V) (hsym : P.abSym = true → G.mir V = V)
    (hQ : ∀ k, ((calculated P).map fun f => f.Q i k).sum +
      (if P.abSym then ((calculated P).map fun f => f.Q i (G.mirIx k)).sum else 0) = 1) :
    potential P i.1 = .ok V := by
  rw [C92_potential P i i (fun h => by rw [hens] at h; exact nomatch h)]
  congr 1
  funext k
  have e : ∀ k, weightedPotential P i i k = V k * ((calculated P).map fun f => f.Q i k).sum := by
    intro k
    unfold weightedPotential
    rw [hens, ← List.sum_map_mul_left]
    simp only [Bool.false_eq_true, if_false, add_zero]
    congr 1
    exact List.map_congr_left fun f hf => by rw [hV f hf]
  rw [e, e]
  have := hQ k
  cases hs : P.abSym with
  | false =>
    rw [hs] at this
    simp only [Bool.false_eq_true, if_false, add_zero] at this ⊢
    rw [this, mul_one]
  | true =>
    rw [hs] at this
    simp only [if_true] at this ⊢
    have hm : V (G.mirIx k) = V k := congrFun (hsym hs) k
    rw [hm, ← mul_add, this, mul_one]

namespace Guess

/-- An answer to `F v = e S v` for `F = 0`: all eigenvalues are zero. -/
noncomputable def zeroEig : Eig := fun n F _ => open Classical in
  if F = 0 then .ok (List.ofFn fun a : Fin n => (.fin 0, fun b => if b = a then 1 else 0)) else .error .linAlgError

theorem zeroEig_zero {n : ℕ} {F S : Matrix (Fin n) (Fin n) ℝ} (h : ∀ a b, F a b = 0) :
    zeroEig n F S = .ok (List.ofFn fun a : Fin n => (.fin 0, fun b => if b = a then 1 else 0)) := by
  have : F = 0 := by ext a b; exact h a b
  unfold zeroEig
  rw [if_pos this]

theorem zeroEig_correct : EigCorrect zeroEig := by
  intro n F S l h
  unfold zeroEig at h
  split at h
  · next hF =>
    obtain rfl := Except.ok.inj h
    refine ⟨by simp, fun x hx e he a => ?_⟩
    obtain ⟨i, rfl⟩ := List.mem_ofFn.mp hx
    obtain rfl := Fl.fin.inj he
    simp [hF]
  · exact nomatch h

noncomputable abbrev T := Grid.tiny ℝ

/-- A fragment with one solver whose only orbital is `φ`; potential 0. -/
noncomputable def one (φ : T.Fld) (q : ℝ) (n : ℕ) : Frag T p :=
  ⟨fun _ _ => 0, fun _ _ => q, 1, (List.range n).map fun i => ⟨i, some [φ]⟩⟩

/-- Fragment A with the orbital at the first point. -/
noncomputable def lopsided : Part T 1 :=
  ⟨true, false, one (fun k => if k = 0 then 1 else 0) (1 / 2) 1, one (fun k => if k = 0 then 0 else 1) (1 / 2) 1, none⟩

theorem lopsided_ok : ∃ R, initialGuess zeroEig (fun _ => 0) lopsided 0 = .ok R ∧ ∃ φ ∈ R.phi0, φ 0 ≠ 0 := by
  have hV : potential lopsided 0 = .ok fun _ => 0 :=
    C92_consistent_partial lopsided 0 (fun _ => 0) rfl (by simp [calculated, lopsided, one]) (fun _ => rfl)
      (by simp [calculated, lopsided, one]; norm_num)
  let δ : T.Fld := fun k => if k = 0 then 1 else 0
  have hu : unit δ = δ := by
    funext k
    have : dot δ δ = 1 := by
      unfold dot
      rw [Grid.tiny_integ]
      simp [δ]
    unfold unit
    rw [this, Real.sqrt_one, div_one]
  have hb : basis lopsided 0 = .ok ⟨[δ, δ], some 0, some 0⟩ := rfl
  have hB : ∃ l, block zeroEig (fun _ => 0) lopsided (fun _ => 0) 0 = .ok l ∧ ∃ x ∈ l, x.1 0 ≠ 0 := by
    refine ⟨_, block_ok (l := [δ, δ]) (by simp [hu]) hb (zeroEig_zero fun a b => ?_), ?_⟩
    · simp [dot, ham, Grid.integ]
    refine ⟨_, List.mem_map.mpr ⟨_, List.mem_mergeSort.mpr (List.mem_ofFn.mpr ⟨(0 : Fin 2), rfl⟩), rfl⟩, ?_⟩
    have hc : combine [δ, δ] (fun b : Fin 2 => if b = 0 then (1 : ℝ) else 0) = δ := by
      funext k
      change ∑ a : Fin 2, [δ, δ][a] k * (if a = 0 then (1 : ℝ) else 0) = _
      simp [Fin.sum_univ_two]
    change unit (combine [δ, δ] fun b : Fin 2 => if b = 0 then (1 : ℝ) else 0) 0 * Real.sqrt (occ false (some 0)) ≠ 0
    rw [hc, hu]
    simp [δ, occ]
  obtain ⟨l, hl, x, hx, hx0⟩ := hB
  refine ⟨⟨[l].flatten.map Prod.fst, [l].flatten.map (fun x => real0 x.2), fun _ => 0⟩, ?_, x.1, ?_, hx0⟩
  · unfold initialGuess
    rw [hV]
    have : nsol lopsided = 1 := rfl
    rw [this]
    simp only [bind, Except.bind, pure, Except.pure]
    have : (List.range 1).mapM (block zeroEig (fun _ => 0) lopsided fun _ => 0) = .ok [l] := by
      change [0].mapM _ = _
      simp [hl, bind, Except.bind, pure, Except.pure]
    rw [this]
  · simp only [List.flatten_cons, List.flatten_nil, List.append_nil]
    exact List.mem_map.mpr ⟨x, hx, rfl⟩

end Guess

/-- C92 is false with `ab_sym`: the orbitals of fragment A are appended twice, instead of together with their mirror
images.  Whatever the eigensolver, the guess vanishes at the second of two equivalent points, although the potential
and the Hamiltonian are symmetric. -/
theorem C92_symmetry_refuted : ∃ P : Guess.Part (Grid.tiny ℝ) 1, P.abSym = true ∧
    (∀ f ∈ calculated P, ∀ j, (Grid.tiny ℝ).mir (f.veff j) = f.veff j) ∧
    (∀ eig R, EigCorrect eig → initialGuess eig (fun _ => 0) P 0 = .ok R → ∀ φ ∈ R.phi0, φ 1 = 0) ∧
    ∃ eig R, EigCorrect eig ∧ initialGuess eig (fun _ => 0) P 0 = .ok R ∧ ∃ φ ∈ R.phi0, φ 0 ≠ 0 := by
  refine ⟨lopsided, rfl, ?_, fun eig R heig h φ hφ => ?_, zeroEig, ?_⟩
  · intro f hf j
    have : f = lopsided.a := by simpa [calculated, lopsided] using hf
    subst this
    rfl
  · have hn : Numbered lopsided := by
      intro f hf i s hs
      have hf' : f = lopsided.a ∨ f = lopsided.b := by simpa [guessFrags, lopsided] using hf
      rcases hf' with rfl | rfl <;>
      · cases i with
        | zero => obtain rfl := Option.some.inj hs; rfl
        | succ i => exact nomatch hs
    obtain ⟨L, l1, -, -, l4⟩ := C92_orbitals_partial eig _ lopsided 0 R h hn heig
    rw [l1] at hφ
    obtain ⟨x, hx, rfl⟩ := List.mem_map.mp hφ
    obtain ⟨l, hl, hx⟩ := List.mem_flatten.mp hx
    obtain ⟨i, hi, rfl⟩ := List.getElem_of_mem hl
    have hspan := ((l4 i hi).2.2.1 x hx).1
    have hle : Submodule.span ℝ {χ | χ ∈ guessSpace lopsided i} ≤ LinearMap.ker (LinearMap.proj (R := ℝ) (φ := fun _ : T.Ix => ℝ) 1) := by
      rw [Submodule.span_le]
      intro χ hχ
      rw [SetLike.mem_coe, LinearMap.mem_ker]
      cases i with
      | zero =>
        have : χ = fun k => if k = 0 then 1 else 0 := by
          simpa [guessSpace, guessOrbitals, lopsided, one] using hχ
        rw [this]
        rfl
      | succ i => simp [guessSpace, guessOrbitals, lopsided, one] at hχ
    exact hle hspan
  · obtain ⟨R, h1, h2⟩ := lopsided_ok
    exact ⟨R, zeroEig_correct, h1, h2⟩

/-- C92 is false with `ens_spin_sym`: all fragments move in the potential 0, the `Q` functions of both spins add up
to one, the guess is not 0. -/
theorem C92_consistent_refuted : ∃ P : Guess.Part (Grid.tiny ℝ) 2, P.ensSpinSym = true ∧ P.abSym = false ∧
    (∀ f ∈ calculated P, ∀ j k, f.veff j k = 0) ∧
    (∀ k, ((calculated P).map fun f => f.Q 0 k).sum + ((calculated P).map fun f => f.Q 1 k).sum = 1) ∧
    potential P 0 = .ok fun _ => -1 / 2 := by
  refine ⟨⟨false, true, one (fun _ => 1) (1 / 4) 1, one (fun _ => 1) (1 / 4) 1, none⟩, rfl, rfl, ?_, ?_, ?_⟩
  · simp [calculated, one]
  · simp [calculated, one]; norm_num
  · refine (C92_potential _ (0 : Fin 2) 1 fun _ => rfl).trans ?_
    congr 1
    funext k
    simp [weightedPotential, calculated, one]
    norm_num

/-- C92 is false for fragments with different numbers of solvers: no guess, whatever the orbitals and the
eigensolver. -/
theorem C92_sizes_refuted : ∃ P : Guess.Part (Grid.tiny ℝ) 1,
    (∀ f ∈ guessFrags P, f.solver ≠ [] ∧ ∀ s ∈ f.solver, s.phi ≠ none) ∧
    ∀ eig H0 ispin R, initialGuess eig H0 P ispin ≠ .ok R := by
  refine ⟨⟨false, false, one (fun _ => 1) (1 / 2) 1, one (fun _ => 1) (1 / 2) 2, none⟩, ?_, fun eig H0 ispin R h => ?_⟩
  · simp [guessFrags, one]
  · have := (C92_sizes_partial eig H0 _ ispin R h).2.1 rfl
    simp [one] at this

namespace Guess

/-- Two fragments with an orbital on one of the two points each. -/
noncomputable def pair : Part T 1 :=
  ⟨false, false, one (fun k => if k = 0 then 1 else 0) (1 / 2) 1, one (fun k => if k = 0 then 0 else 1) (1 / 2) 1, none⟩

/-- Hopping between the two points. -/
noncomputable def hop : Matrix T.Ix T.Ix ℝ := fun k l => if k = l then 0 else -1

/-- The eigenvectors of `hop`, the upper one first. -/
noncomputable def pairEig : Eig := fun n F S => open Classical in
  if n = 2 ∧ (∀ a b, F a b = if a = b then 0 else -1) ∧ ∀ a b, S a b = if a = b then 1 else 0 then
    .ok [(.fin 1, fun b => if b.1 = 0 then 1 else -1), (.fin (-1), fun _ => 1)] else .error .linAlgError

theorem pairEig_correct : EigCorrect pairEig := by
  intro n F S l h
  unfold pairEig at h
  split at h
  · next hF =>
    obtain ⟨rfl, hF, hS⟩ := hF
    obtain rfl := Except.ok.inj h
    refine ⟨rfl, fun x hx e he a => ?_⟩
    rcases List.mem_cons.mp hx with rfl | hx
    · obtain rfl := Fl.fin.inj he
      simp only [hF, hS, Fin.sum_univ_two]
      fin_cases a <;> simp
    · obtain rfl := List.mem_singleton.mp hx
      obtain rfl := Fl.fin.inj he
      simp only [hF, hS, Fin.sum_univ_two]
      fin_cases a <;> simp
  · exact nomatch h

end Guess

/-- A concrete case of C92: the bonding orbital comes first, both contain two electrons. -/
example : ∃ R, initialGuess pairEig (fun _ => hop) pair 0 = .ok R ∧ R.e0 = [-1, 1] ∧ R.phi0.length = 2 ∧
    ∀ φ ∈ R.phi0, T.integ (fun k => φ k ^ 2) = 2 := by
  have hV : potential pair 0 = .ok fun _ => 0 :=
    C92_consistent_partial pair 0 (fun _ => 0) rfl (by simp [calculated, pair, one]) (fun _ => rfl)
      (by simp [calculated, pair, one]; norm_num)
  let δ : T.Fld := fun k => if k = 0 then 1 else 0
  let ε : T.Fld := fun k => if k = 0 then 0 else 1
  have hd : ∀ f g : T.Fld, dot f g = f 0 * g 0 + f 1 * g 1 := fun f g => by
    unfold dot
    rw [Grid.tiny_integ]
  have hδ : unit δ = δ := by
    funext k
    unfold unit
    rw [hd]
    simp [δ]
  have hε : unit ε = ε := by
    funext k
    unfold unit
    rw [hd]
    simp [ε]
  have hb : basis pair 0 = .ok ⟨[δ, ε], some 0, some 0⟩ := rfl
  have hB : ∃ x y : T.Fld, block pairEig (fun _ => hop) pair (fun _ => 0) 0 = .ok [(x, .fin (-1)), (y, .fin 1)] ∧
      T.integ (fun k => x k ^ 2) = 2 ∧ T.integ (fun k => y k ^ 2) = 2 := by
    have hev : pairEig 2 (fun a b => dot [δ, ε][a] (ham hop (fun _ => 0) [δ, ε][b]))
        (fun a b => dot [δ, ε][a] [δ, ε][b]) =
        .ok [(.fin 1, fun b => if b.1 = 0 then 1 else -1), (.fin (-1), fun _ => 1)] := by
      unfold pairEig
      refine if_pos ⟨rfl, fun a b => ?_, fun a b => ?_⟩
      · fin_cases a <;> fin_cases b <;> simp [hd, ham, hop, Matrix.mulVec, dotProduct, Grid.tiny_sum, δ, ε]
      · fin_cases a <;> fin_cases b <;> simp [hd, δ, ε]
    have hsort : List.mergeSort [((.fin 1 : Fl ℝ), fun b : Fin [δ, ε].length => if b.1 = 0 then (1 : ℝ) else -1),
        (.fin (-1), fun _ => 1)] (fun x y => le x.1 y.1) =
        [(.fin (-1), fun _ => 1), (.fin 1, fun b => if b.1 = 0 then 1 else -1)] := by
      have h1 : le (.fin 1) (.fin (-1)) = false := by simp [le, Fl.gt]
      simp [List.mergeSort, h1]
    have h := block_ok (v := fun _ => 0) (H0 := fun _ => hop) (l := [δ, ε]) (by simp [hδ, hε]) hb hev
    replace h := h.trans (congrArg (fun l => Except.ok (List.map (fun e : Fl ℝ × (Fin [δ, ε].length → ℝ) =>
      (fun k => unit (combine [δ, ε] e.2) k * Real.sqrt (occ pair.ensSpinSym (some 0)), e.1)) l)) hsort)
    have ho : occ pair.ensSpinSym (some 0) = 2 := by simp [occ, pair]
    rw [ho] at h
    refine ⟨_, _, h, unit_occ (by norm_num) (unit_pos ?_), unit_occ (by norm_num) (unit_pos ?_)⟩
    · rw [hd]
      have : ∀ k, combine [δ, ε] (fun _ => 1) k = δ k + ε k := fun k => by simp [combine, Fin.sum_univ_two]
      rw [this, this]
      simp [δ, ε]
    · rw [hd]
      have : ∀ k, combine [δ, ε] (fun b => if b.1 = 0 then 1 else -1) k = δ k - ε k := fun k => by
        simp [combine, Fin.sum_univ_two]; ring
      rw [this, this]
      simp [δ, ε]
  obtain ⟨x, y, hl, hx, hy⟩ := hB
  refine ⟨⟨[x, y], [-1, 1], fun _ => 0⟩, ?_, rfl, rfl, by simp [hx, hy]⟩
  unfold initialGuess
  rw [hV]
  have : nsol pair = 1 := rfl
  rw [this]
  simp only [bind, Except.bind, pure, Except.pure]
  have : (List.range 1).mapM (block pairEig (fun _ => hop) pair fun _ => 0) =
      .ok [[(x, .fin (-1)), (y, .fin 1)]] := by
    change [0].mapM _ = _
    simp [hl, bind, Except.bind, pure, Except.pure]
  rw [this]
  rfl

end Verif
