import Verif.Model.Partition
import Verif.Lemmas.KsEnergy

/-! # Lemmas on fragments and their sums -/

namespace Verif
variable {K : Type} [Field K] [LinearOrder K] [IsStrictOrderedRing K] [FloorRing K]
variable {G : Grid K} {r c p : ℕ}

@[simp] theorem attr_some {α : Type*} (x : α) : attr (some x) = .ok x := rfl
@[simp] theorem need_some {α : Type*} (x : α) : KS.need (some x) = .ok x := rfl
@[simp] theorem needQ_some {α : Type*} (x : α) : Part.needQ (some x) = .ok x := rfl
theorem attr_eq_ok {α : Type*} {o : Option α} {x : α} : attr o = .ok x ↔ o = some x := by
  cases o <;> simp [attr]
theorem need_eq_ok {α : Type*} {o : Option α} {x : α} : KS.need o = .ok x ↔ o = some x := by
  cases o <;> simp [KS.need]
theorem needQ_eq_ok {α : Type*} {o : Option α} {x : α} : Part.needQ o = .ok x ↔ o = some x := by
  cases o <;> simp [Part.needQ]
@[simp] theorem Fl.clean_fin (x : K) : Fl.clean (.fin x) = x := rfl

theorem Fl.clean_div (x y : K) : Fl.clean (Fl.div (.fin x) (.fin y)) = if y = 0 then 0 else x / y := by
  unfold Fl.div
  by_cases h : y = 0
  · simp only [h, ↓reduceIte]; split_ifs <;> rfl
  · simp [h]

namespace Spec

/-- The components `l` have densities and weights `A`. -/
def Comps (l : List (Frag G r c p)) (A : List (G.Cols p × K)) : Prop :=
  List.Forall₂ (fun f x => f.ks.n = some x.1 ∧ f.ks.scale = some x.2) l A

/-- Weighted sum of densities. -/
def average (A : List (G.Cols p × K)) : G.Cols p := fun j k => (A.map fun x => x.2 * x.1 j k).sum

/-- Number of electrons of a density. -/
def count (n : G.Cols p) : K := ∑ j, G.integ (n j)

end Spec

namespace Part
open Spec

theorem weighted_fold (l : List (Frag G r c p)) (A : List (G.Cols p × K)) (h : Comps l A)
    (acc : G.Cols p) :
    l.foldlM (fun acc f => do
      let n ← KS.need f.ks.n
      let s ← KS.need f.ks.scale
      pure fun j k => acc j k + n j k * s) acc =
      (.ok fun j k => acc j k + Spec.average A j k : Py (G.Cols p)) := by
  induction h generalizing acc with
  | nil => simp [Spec.average]; rfl
  | @cons f x l A hf _ ih =>
    rw [List.foldlM_cons, hf.1, hf.2]
    change Except.bind (.ok _) _ = _
    simp only [Except.bind]
    rw [ih]
    congr 1
    funext j k
    simp only [Spec.average, List.map_cons, List.sum_cons]
    ring

theorem weighted_eq (l : List (Frag G r c p)) (A : List (G.Cols p × K)) (h : Comps l A) :
    weighted l = .ok (Spec.average A) := by
  unfold weighted
  rw [weighted_fold l A h]
  simp

theorem count_average (A : List (G.Cols p × K)) :
    count (Spec.average A) = (A.map fun x => x.2 * count x.1).sum := by
  induction A with
  | nil =>
    have h : ∀ j, Spec.average (p := p) (G := G) [] j = fun _ => 0 := fun j => by funext k; simp [Spec.average]
    simp [count, h, G.integ_zero]
  | cons x A ih =>
    have h : ∀ j, Spec.average (x :: A) j = fun k => x.2 * x.1 j k + Spec.average A j k := fun j => by
      funext k; simp [Spec.average]
    rw [List.map_cons, List.sum_cons, ← ih]
    simp only [count, h, G.integ_add, G.integ_smul, Finset.sum_add_distrib, Finset.mul_sum]

theorem count_flip (n : G.Cols p) : count (G.flipCols n) = count n := by
  unfold count Grid.flipCols
  exact Fintype.sum_equiv Fin.revPerm _ _ fun _ => rfl

theorem count_add (n m : G.Cols p) :
    count (fun j k => n j k + m j k) = count n + count m := by
  simp only [count, G.integ_add, Finset.sum_add_distrib]

theorem average_append (A B : List (G.Cols p × K)) (j : Fin p) (k : G.Ix) :
    Spec.average (A ++ B) j k = Spec.average A j k + Spec.average B j k := by
  simp [Spec.average]

/-- Update of every component. -/
abbrev mapPure (g : Frag G r c p → Frag G r c p) (P : Part G r c p) : Part G r c p :=
  { P with fa := g P.fa, fb := g P.fb, fAB := P.fAB.map fun x => (g x.1, g x.2) }

/-- `mapAll` with a pure update. -/
theorem mapAll_ok (f : Frag G r c p → Py (Frag G r c p)) (g : Frag G r c p → Frag G r c p)
    (P : Part G r c p) (h : ∀ x ∈ P.comps, f x = .ok (g x)) :
    P.mapAll f = .ok (P.mapPure g) := by
  unfold mapAll mapA mapB
  cases hAB : P.fAB with
  | none =>
    simp only [comps, compsA, compsB, hAB, Option.map_none, Option.toList_none, List.mem_append,
      List.mem_singleton] at h
    rw [h _ (.inl rfl)]
    change Except.bind (f P.fb) _ = _
    rw [h _ (.inr rfl)]
    simp only [mapPure, hAB, Option.map_none]
    simp [Except.bind, hAB]
    rfl
  | some x =>
    obtain ⟨A, B⟩ := x
    simp only [comps, compsA, compsB, hAB, Option.map_some, Option.toList_some, List.mem_append,
      List.mem_cons, List.not_mem_nil, or_false] at h
    rw [h _ (.inl (.inl rfl))]
    change Except.bind (Except.bind (f A) _) _ = _
    rw [h _ (.inl (.inr rfl))]
    change Except.bind (f P.fb) _ = _
    rw [h _ (.inr (.inl rfl))]
    change Except.bind (f B) _ = _
    rw [h _ (.inr (.inr rfl))]
    simp only [mapPure, hAB, Option.map_some]
    rfl

/-- A predicate pairing components with data transfers to the updated components. -/
theorem comps_map (P : Part G r c p) (g : Frag G r c p → Frag G r c p) :
    (P.mapPure g).comps = P.comps.map g := by
  cases h : P.fAB <;> simp [comps, compsA, compsB, h]

end Part
/-! ## Concrete states for examples -/

/-- A component for concrete examples: no solvers, given density, weight and energies. -/
def Frag.sample {G : Grid K} (n : G.Cols p) (s : K) (e : KSEnergy K p) : Frag G 0 0 p :=
  ⟨{ kind := .ni, sym := false, Za := 0, Zb := 0, a := 1, solver := fun w => w.1.elim0,
     vnuc := fun _ _ => 0, n := some n, scale := some s, E := some e }, {}⟩

/-- Energies for concrete examples. -/
def KSEnergy.sample (E : K) : KSEnergy K p :=
  ⟨fun _ => .fin 0, fun _ => .fin 0, .fin 0, [], 0, 0, none, none, 0, 0, .fin E, 0, .fin E⟩

/-- A partition for concrete examples. -/
def Part.sample {G : Grid K} (o : PartOpt) (fa fb : Frag G 0 0 p) (fAB : Option (Frag G 0 0 p × Frag G 0 0 p)) :
    Part G 0 0 p :=
  { opt := o, Za := 1, Zb := 1, a := 1, va := fun _ => 0, vb := fun _ => 0, fa, fb, fAB }

end Verif
