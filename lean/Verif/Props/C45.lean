import Verif.Lemmas.PartitionPotential
import Verif.Lemmas.KsScf

/-! # C45: the reference chemical potential of the inversion -/

namespace Verif
open Spec Part
variable {K : Type} [Field K] [LinearOrder K] [IsStrictOrderedRing K] [FloorRing K]
variable {G : Grid K} {r c p : ℕ}

/-- All HOMOs the solvers of all components have computed. -/
def Spec.homoTable (P : Part G r c p) : Set K := {x | ∃ f ∈ P.comps, ∃ w, f.ks.homo w = some x}

theorem inversionReference_none (lowest : K) (l : List (Option K × Option K)) (hB : ∀ h ∈ l, h.2 = none) :
    (inversionReference lowest l = lowest ∨ ∃ h ∈ l, h.1 = some (inversionReference lowest l)) ∧
    lowest ≤ inversionReference lowest l ∧
    ∀ h ∈ l, ∀ x, h.1 = some x → x ≤ inversionReference lowest l := by
  have key : ∀ (l : List (Option K × Option K)) (ua : K), (∀ h ∈ l, h.2 = none) → lowest ≤ ua →
      let v := l.foldl (fun ua (h : Option K × Option K) =>
        let ua := match h.1 with | none => ua | some x => max ua x
        match h.2 with | none => ua | some x => max lowest x) ua
      (v = ua ∨ ∃ h ∈ l, h.1 = some v) ∧ ua ≤ v ∧ ∀ h ∈ l, ∀ x, h.1 = some x → x ≤ v := by
    intro l
    induction l with
    | nil => intro ua _ _; simp
    | cons h l ih =>
      intro ua hB hlow
      obtain ⟨a, b⟩ := h
      have hb : b = none := hB (a, b) (List.mem_cons_self ..)
      subst hb
      cases a with
      | none =>
        obtain ⟨h1, h2, h3⟩ := ih ua (fun h hh => hB h (List.mem_cons_of_mem _ hh)) hlow
        refine ⟨?_, h2, ?_⟩
        · rcases h1 with h1 | ⟨h, hh, h1⟩
          · exact .inl h1
          · exact .inr ⟨h, List.mem_cons_of_mem _ hh, h1⟩
        · intro h hh x hx
          rcases List.mem_cons.mp hh with rfl | hh
          · exact nomatch hx
          · exact h3 h hh x hx
      | some x =>
        obtain ⟨h1, h2, h3⟩ := ih (max ua x) (fun h hh => hB h (List.mem_cons_of_mem _ hh))
          (hlow.trans (le_max_left _ _))
        refine ⟨?_, (le_max_left _ _).trans h2, ?_⟩
        · rcases h1 with h1 | ⟨h, hh, h1⟩
          · rcases max_choice ua x with hm | hm
            · exact .inl (h1.trans hm)
            · exact .inr ⟨(some x, none), List.mem_cons_self .., congrArg some (h1.trans hm).symm⟩
          · exact .inr ⟨h, List.mem_cons_of_mem _ hh, h1⟩
        · intro h hh y hy
          rcases List.mem_cons.mp hh with rfl | hh
          · obtain rfl := Option.some.inj hy
            exact (le_max_right _ _).trans h2
          · exact h3 h hh y hy
  obtain ⟨h1, h2, h3⟩ := key l lowest hB le_rfl
  rw [show inversionReference lowest l = _ from max_eq_left h2]
  exact ⟨h1, h2, h3⟩

/-- The list of pairs the code runs through. -/
theorem mem_homoPairs (A B : Frag G r c p) (h : Option K × Option K) :
    h ∈ homoPairs A B ↔ ∃ w, h = (A.ks.homo w, B.ks.homo w) := by
  unfold homoPairs
  rw [List.mem_map]
  constructor
  · rintro ⟨w, -, rfl⟩; exact ⟨w, rfl⟩
  · rintro ⟨w, rfl⟩; exact ⟨w, mem_rowMajor w, rfl⟩

/-- C45, partial: if no HOMO of fragment B was computed (as with `ab_sym`, where only fragment A is
solved) the reference is the largest of all computed HOMOs, and every component's kinetic potential is
this number minus its effective potential.
Missing: computed HOMOs of fragment B, see `C45_refuted`. -/
theorem C45_reference_partial (P : Part G r c p) (hB : ∀ f ∈ P.compsB, ∀ w, f.ks.homo w = none)
    (hne : (homoTable P).Nonempty) (hlow : ∀ x ∈ homoTable P, Solver.noElectrons ≤ x) :
    IsGreatest (homoTable P) P.inversionU ∧
    ∀ f f' : Frag G r c p, eulerVt P.inversionU f = .ok f' →
      ∃ v, f.ks.veff = some v ∧ f'.v.vt = some fun j k => P.inversionU - v j k := by
  constructor
  · have hl : ∀ h : Option K × Option K, (h ∈ homoPairs P.fa P.fb ++
        match P.fAB with | none => [] | some (A, B) => homoPairs A B) →
        h.2 = none ∧ ∃ f ∈ P.compsA, ∃ w, h.1 = f.ks.homo w := by
      intro h hh
      rcases List.mem_append.mp hh with hh | hh
      · obtain ⟨w, rfl⟩ := (mem_homoPairs _ _ _).mp hh
        exact ⟨hB _ (List.mem_cons_self ..) w, P.fa, List.mem_cons_self .., w, rfl⟩
      · cases hAB : P.fAB with
        | none => rw [hAB] at hh; exact nomatch hh
        | some x =>
          obtain ⟨A, B⟩ := x
          rw [hAB] at hh
          obtain ⟨w, rfl⟩ := (mem_homoPairs _ _ _).mp hh
          exact ⟨hB B (by simp [compsB, hAB]) w, A, by simp [compsA, hAB], w, rfl⟩
    have hmem : ∀ f ∈ P.compsA, ∀ w, ∃ h : Option K × Option K, (h ∈ homoPairs P.fa P.fb ++
        match P.fAB with | none => [] | some (A, B) => homoPairs A B) ∧ h.1 = f.ks.homo w := by
      intro f hf w
      unfold compsA at hf
      rcases List.mem_cons.mp hf with rfl | hf
      · exact ⟨_, List.mem_append_left _ ((mem_homoPairs _ _ _).mpr ⟨w, rfl⟩), rfl⟩
      · cases hAB : P.fAB with
        | none => rw [hAB] at hf; exact nomatch hf
        | some x =>
          obtain ⟨A, B⟩ := x
          rw [hAB] at hf
          obtain rfl : f = A := by simpa using hf
          exact ⟨_, List.mem_append_right _ ((mem_homoPairs _ _ _).mpr ⟨w, rfl⟩), rfl⟩
    obtain ⟨h1, h2, h3⟩ := inversionReference_none Solver.noElectrons _ fun h hh => (hl h hh).1
    have htab : ∀ x ∈ homoTable P, ∃ f ∈ P.compsA, ∃ w, f.ks.homo w = some x := by
      rintro x ⟨f, hf, w, hw⟩
      rcases List.mem_append.mp hf with hf | hf
      · exact ⟨f, hf, w, hw⟩
      · rw [hB f hf w] at hw; exact nomatch hw
    have hup : P.inversionU ∈ upperBounds (homoTable P) := by
      intro x hx
      obtain ⟨f, hf, w, hw⟩ := htab x hx
      obtain ⟨h, hh, hhw⟩ := hmem f hf w
      exact h3 h hh x (hhw.trans hw)
    refine ⟨?_, hup⟩
    rcases h1 with h1 | ⟨h, hh, h1⟩
    · obtain ⟨x, hx⟩ := hne
      have e : x = P.inversionU := le_antisymm (hup hx) (le_of_eq_of_le h1 (hlow x hx))
      exact e ▸ hx
    · obtain ⟨-, f, hf, w, hw⟩ := hl h hh
      exact ⟨f, List.mem_append_left _ hf, w, hw.symm.trans h1⟩
  · intro f f' h
    unfold eulerVt at h
    simp only [Py.do_eq_ok, Py.pure_eq_ok, attr_eq_ok] at h
    obtain ⟨v, hv, rfl⟩ := h
    exact ⟨v, hv, rfl⟩

/-- When the last solver of fragment B in the loop has a HOMO, the reference is this HOMO, whatever the others
are (unless it lies below the value for empty solvers). -/
theorem C45_last (lowest : K) (l : List (Option K × Option K)) (a : Option K) (x : K) :
    inversionReference lowest (l ++ [(a, some x)]) = max lowest x := by
  unfold inversionReference
  rw [List.foldl_append]
  simp only [List.foldl_cons, List.foldl_nil]
  exact max_eq_left (le_max_left _ _)

/-- A fragment with the given HOMO. -/
def Frag.withHomo (x : ℚ) : Frag (Grid.tiny ℚ) 1 1 1 :=
  ⟨{ kind := .ni, sym := false, Za := 0, Zb := 0, a := 1,
     solver := fun _ => { Nmo := 1, N := 2, m := 0, pol := 1 }, vnuc := fun _ _ => 0, homo := fun _ => some x }, {}⟩

/-- A partition of the given fragments. -/
def Part.withFragments (o : PartOpt) (fa fb : Frag (Grid.tiny ℚ) 1 1 1) : Part (Grid.tiny ℚ) 1 1 1 where
  opt := o
  Za := 1
  Zb := 1
  a := 1
  va := fun _ => 0
  vb := fun _ => 0
  fa := fa
  fb := fb

/-- C45 is false: HOMOs -1 of fragment A and -2 of fragment B give the reference -2, not -1. -/
theorem C45_refuted : ∃ P : Part (Grid.tiny ℚ) 1 1 1, IsGreatest (homoTable P) (-1) ∧ P.inversionU = -2 := by
  refine ⟨Part.withFragments { kin := .inversion } (Frag.withHomo (-1)) (Frag.withHomo (-2)), ⟨?_, ?_⟩, ?_⟩
  · exact ⟨Frag.withHomo (-1), List.mem_cons_self .., (0, 0), rfl⟩
  · rintro x ⟨f, hf, w, hw⟩
    simp only [Part.withFragments, comps, compsA, compsB, Option.map_none, Option.toList_none, List.cons_append, List.nil_append,
      List.mem_cons, List.not_mem_nil, or_false] at hf
    rcases hf with rfl | rfl
    · obtain rfl := Option.some.inj hw; exact le_rfl
    · obtain rfl := Option.some.inj hw; norm_num
  · have : inversionReference (Solver.noElectrons : ℚ) ([] ++ [(some (-1), some (-2))]) = max (-(2 ^ 52)) (-2) :=
      C45_last _ _ _ _
    refine Eq.trans ?_ (this.trans ?_)
    · rfl
    · norm_num

/-- A concrete case of C45: only fragment A is solved, with HOMO -1. -/
example : (Part.withFragments { kin := .inversion, abSym := true } (Frag.withHomo (-1))
    ⟨{ (Frag.withHomo (-1)).ks with homo := fun _ => none }, {}⟩).inversionU = -1 := by
  have : inversionReference (Solver.noElectrons : ℚ) [(some (-1), none)] = -1 := by
    norm_num [inversionReference, Solver.noElectrons]
  exact this

end Verif
