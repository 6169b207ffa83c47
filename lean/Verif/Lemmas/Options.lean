import Verif.Model.Options
import Mathlib.Data.List.Induction
import Mathlib.Data.List.Nodup

namespace Verif

/-- The value a dictionary gives for an option name: that of the last key which lower-cases to it. -/
def Spec.supplied (lower : String → String) (d : Opt.Dict) (k : String) : Option Opt.Val :=
  ((d.filter fun e => lower e.1 = k).getLast?).map Prod.snd

namespace Opt
open Spec

theorem get?_isSome (d : Dict) (k : String) : (d.get? k).isSome ↔ ∃ e ∈ d, e.1 = k := by
  induction d with
  | nil => simp [Dict.get?]
  | cons a d ih =>
    by_cases h : a.1 = k
    · simp [Dict.get?, h]
    · simp [Dict.get?, h, ih]

theorem get?_append (d : Dict) (e : String × Val) (k : String) :
    Dict.get? (d ++ [e]) k = (d.get? k).or (if e.1 = k then some e.2 else none) := by
  induction d with
  | nil => simp [Dict.get?]
  | cons a d ih =>
    by_cases h : a.1 = k
    · simp [Dict.get?, h]
    · simp [Dict.get?, h, ih]

theorem get?_set (d : Dict) (k k' : String) (v : Val) :
    (d.set k v).get? k' = if k' = k then some v else d.get? k' := by
  unfold Dict.set
  split
  · rename_i h
    have hk : ∃ e ∈ d, e.1 = k := by simpa using h
    clear h
    induction d with
    | nil => obtain ⟨e, he, -⟩ := hk; cases he
    | cons a d ih =>
      by_cases ha : a.1 = k
      · by_cases hkk : k' = k
        · simp [Dict.get?, ha, hkk]
        · have hmap : ∀ d : Dict, Dict.get? (d.map fun e => if e.1 = k then (k, v) else e) k' =
              d.get? k' := by
            intro d
            induction d with
            | nil => rfl
            | cons b d ihd =>
              by_cases hb : b.1 = k
              · simp [Dict.get?, hb, Ne.symm hkk, ihd]
              · simp [Dict.get?, hb, ihd]
          rw [if_neg hkk]
          exact hmap (a :: d)
      · have hk' : ∃ e ∈ d, e.1 = k := by
          obtain ⟨e, he, h⟩ := hk
          rcases List.mem_cons.mp he with rfl | he
          · exact absurd h ha
          · exact ⟨e, he, h⟩
        by_cases hkk : k' = k
        · subst hkk
          have := ih hk'
          rw [if_pos rfl] at this ⊢
          simp only [List.map_cons, if_neg ha, Dict.get?]
          exact this
        · have := ih hk'
          rw [if_neg hkk] at this ⊢
          simp only [List.map_cons, if_neg ha, Dict.get?, this]
  · rename_i h
    have hk : ¬ (d.get? k).isSome := by
      rw [get?_isSome]; simpa using h
    rw [get?_append]
    by_cases hkk : k' = k
    · subst hkk
      rw [Option.not_isSome_iff_eq_none.mp hk]; simp
    · simp [hkk, Ne.symm hkk]

theorem lowered_get? (lower : String → String) (d : Dict) (k : String) :
    (lowered lower d).get? k = supplied lower d k := by
  induction d using List.reverseRecOn with
  | nil => rfl
  | append_singleton d e ih =>
    unfold lowered at ih ⊢
    rw [List.foldl_append, List.foldl_cons, List.foldl_nil, get?_set, ih]
    unfold supplied
    rw [List.filter_append]
    by_cases h : lower e.1 = k
    · simp [h, List.filter]
    · simp [h, Ne.symm h, List.filter]

theorem supplied_isSome (lower : String → String) (d : Dict) (k : String) :
    (supplied lower d k).isSome ↔ ∃ e ∈ d, lower e.1 = k := by
  unfold supplied
  rw [Option.isSome_map, List.getLast?_isSome]
  constructor
  · intro h
    obtain ⟨e, he⟩ := List.exists_mem_of_ne_nil _ h
    exact ⟨e, (List.mem_filter.mp he).1, by simpa using (List.mem_filter.mp he).2⟩
  · rintro ⟨e, he, h⟩ h0
    exact (List.eq_nil_iff_forall_not_mem.mp h0) e (List.mem_filter.mpr ⟨he, by simpa using h⟩)

theorem unknown_iff (lower : String → String) (d : Dict) (names : List String) :
    (∃ e ∈ lowered lower d, e.1 ∉ names) ↔ ∃ e ∈ d, lower e.1 ∉ names := by
  constructor
  · rintro ⟨e, he, hn⟩
    have := (get?_isSome (lowered lower d) e.1).mpr ⟨e, he, rfl⟩
    rw [lowered_get?, supplied_isSome] at this
    obtain ⟨e', he', h⟩ := this
    exact ⟨e', he', h ▸ hn⟩
  · rintro ⟨e, he, hn⟩
    have := (supplied_isSome lower d (lower e.1)).mpr ⟨e, he, rfl⟩
    rw [← lowered_get?, get?_isSome] at this
    obtain ⟨e', he', h⟩ := this
    exact ⟨e', he', h ▸ hn⟩

theorem pydantic_ok (coerce : Kind → Val → Option Val) (fs : List Field)
    (hnd : (fs.map Field.name).Nodup) (d : Dict) (v : Field → Val)
    (h : ∀ f ∈ fs, match d.get? f.name with
      | none => v f = f.default
      | some x => f.accept coerce x = .ok (v f)) :
    ∃ o, pydantic coerce fs d = .ok o ∧ ∀ f ∈ fs, o.get? f.name = some (v f) := by
  refine ⟨fs.map fun f => (f.name, v f), ?_, ?_⟩
  · clear hnd
    unfold pydantic
    induction fs with
    | nil => rfl
    | cons a fs ih =>
      have ha := h a List.mem_cons_self
      have hi := ih fun f hf => h f (List.mem_cons_of_mem _ hf)
      rw [List.mapM_cons, List.map_cons]
      split at ha
      · rename_i hn
        rw [hn, hi, ha]; rfl
      · rename_i x hx
        rw [hx]
        simp only
        rw [ha, hi]; rfl
  · clear h
    induction fs with
    | nil => simp
    | cons a fs ih =>
      rw [List.map_cons, List.nodup_cons] at hnd
      intro f hf
      rcases List.mem_cons.mp hf with rfl | hf
      · simp [Dict.get?]
      · have : ¬ a.name = f.name := fun e => hnd.1 (e ▸ List.mem_map_of_mem hf)
        simp only [List.map_cons, Dict.get?, this, if_false]
        exact ih hnd.2 f hf

theorem pydantic_error (coerce : Kind → Val → Option Val) (fs : List Field) (d : Dict) (f : Field)
    (hf : f ∈ fs) (v : Val) (hv : d.get? f.name = some v)
    (hbad : f.accept coerce v = .error .valueError) :
    pydantic coerce fs d = .error .valueError := by
  unfold pydantic
  induction fs with
  | nil => cases hf
  | cons a fs ih =>
    rw [List.mapM_cons]
    rcases List.mem_cons.mp hf with rfl | hf'
    · rw [hv]
      simp only
      rw [hbad]; rfl
    · rw [ih hf']
      cases d.get? a.name with
      | none => rfl
      | some x =>
        simp only
        unfold Field.accept
        cases coerce a.kind x with
        | none => rfl
        | some w =>
          simp only
          split
          · split <;> rfl
          · rfl

end Opt
end Verif
