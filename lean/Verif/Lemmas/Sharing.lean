import Verif.Model.Sharing
import Mathlib.Tactic.SplitIfs

/-!
# A program that passes the check treats arrays as values

`run_agrees`: if `check` accepts a program, then after any execution from any memory, what can be read is what the
reading without sharing gives.
-/

namespace Verif.Sharing

variable {A : Type}

/-- No other name holds the array of `x`. -/
def Unique (s : Heap A) (x : Name) : Prop :=
  ∀ r, s.ref x = some r → ∀ z r', z ≠ x → s.ref z = some r' → r'.1 ≠ r.1

theorem at_inj {x y : Sym} {env : List Nat} (h : x.at env = y.at env) : x = y := by
  cases x; cases y
  simp only [Sym.at, Name.lib.injEq] at h
  simp [h.1, h.2.1]

theorem at_within {x : Sym} {env : List Nat} (inner : Bool) (i : Nat) (h : x.d ≤ env.length) :
    x.at (within inner env i) = x.at env := by
  cases inner
  · rfl
  · simp only [within, if_true, Sym.at, List.take_append_of_le_length h]

theorem length_within (inner : Bool) (env : List Nat) (i : Nat) :
    (within inner env i).length = if inner then env.length + 1 else env.length := by
  cases inner <;> simp [within]

/-! ## One statement -/

theorem view_fresh (I : Interp A) (k : Nat) (s : Heap A) (x : Name) :
    (s.step I k (.fresh x)).view = Vals.step I k s.view (.fresh x) := by
  funext z
  simp only [Heap.view, Heap.step, Vals.step]
  by_cases hz : z = x
  · subst hz
    simp [Lens.whole]
  · rw [Function.update_of_ne hz, Function.update_of_ne hz]
    cases h : s.ref z with
    | none => simp [Heap.view, h]
    | some r =>
      have hne : r.1 ≠ s.next := Nat.ne_of_lt (s.bound z r h)
      simp [Heap.view, h, Function.update_of_ne hne]

theorem view_bind (I : Interp A) (k : Nat) (s : Heap A) (x y : Name) :
    (s.step I k (.bind x y)).view = Vals.step I k s.view (.bind x y) := by
  funext z
  simp only [Heap.view, Heap.step, Vals.step]
  by_cases hz : z = x
  · subst hz
    rw [Function.update_self, Function.update_self]
    cases s.ref y <;> simp [Lens.comp]
  · rw [Function.update_of_ne hz, Function.update_of_ne hz]
    rfl

theorem view_drop (I : Interp A) (k : Nat) (s : Heap A) (x : Name) :
    (s.step I k (.drop x)).view = Vals.step I k s.view (.drop x) := by
  funext z
  simp only [Heap.view, Heap.step, Vals.step]
  by_cases hz : z = x
  · subst hz; simp
  · rw [Function.update_of_ne hz, Function.update_of_ne hz]; rfl

theorem view_write (I : Interp A) (k : Nat) (s : Heap A) (x : Name) (hx : Unique s x) :
    (s.step I k (.write x)).view = Vals.step I k s.view (.write x) := by
  funext z
  simp only [Heap.step, Vals.step]
  by_cases hz : z = x
  · subst hz
    rw [Function.update_self]
    cases h : s.ref z with
    | none => simp [Heap.view, h]
    | some r => simp [Heap.view, h, Lens.get_put]
  · rw [Function.update_of_ne hz]
    cases h : s.ref x with
    | none => simp [Heap.view]
    | some r =>
      cases h' : s.ref z with
      | none => simp [Heap.view, h']
      | some r' =>
        have hne := hx r h z r' hz h'
        simp [Heap.view, h', Function.update_of_ne hne]

theorem unique_fresh (I : Interp A) (k : Nat) (s : Heap A) (x : Name) : Unique (s.step I k (.fresh x)) x := by
  intro r h z r' hz h'
  simp only [Heap.step, Function.update_self, Option.some.injEq] at h
  simp only [Heap.step, Function.update_of_ne hz] at h'
  subst h
  exact Nat.ne_of_lt (s.bound z r' h')

theorem unique_fresh_of (I : Interp A) (k : Nat) (s : Heap A) (x y : Name) (hxy : y ≠ x) (hy : Unique s y) :
    Unique (s.step I k (.fresh x)) y := by
  intro r h z r' hz h'
  simp only [Heap.step, Function.update_of_ne hxy] at h
  by_cases hzx : z = x
  · subst hzx
    simp only [Heap.step, Function.update_self, Option.some.injEq] at h'
    subst h'
    exact (Nat.ne_of_lt (s.bound y r h)).symm
  · simp only [Heap.step, Function.update_of_ne hzx] at h'
    exact hy r h z r' hz h'

theorem unique_bind_of (I : Interp A) (k : Nat) (s : Heap A) (x y u : Name) (hux : u ≠ x) (huy : u ≠ y)
    (hu : Unique s u) : Unique (s.step I k (.bind x y)) u := by
  intro r h z r' hz h'
  simp only [Heap.step, Function.update_of_ne hux] at h
  by_cases hzx : z = x
  · subst hzx
    simp only [Heap.step, Function.update_self] at h'
    cases hy : s.ref y with
    | none => simp [hy] at h'
    | some t =>
      simp only [hy, Option.map_some, Option.some.injEq] at h'
      subst h'
      exact hu r h y t (Ne.symm huy) hy
  · simp only [Heap.step, Function.update_of_ne hzx] at h'
    exact hu r h z r' hz h'

theorem unique_bind_self (I : Interp A) (k : Nat) (s : Heap A) (x u : Name) (hu : Unique s u) :
    Unique (s.step I k (.bind x x)) u := by
  have key : ∀ z r, (s.step I k (.bind x x)).ref z = some r → ∃ t, s.ref z = some t ∧ t.1 = r.1 := by
    intro z r h
    by_cases hz : z = x
    · subst hz
      simp only [Heap.step, Function.update_self] at h
      cases hy : s.ref z with
      | none => simp [hy] at h
      | some t =>
        simp only [hy, Option.map_some, Option.some.injEq] at h
        subst h
        exact ⟨t, rfl, rfl⟩
    · simp only [Heap.step, Function.update_of_ne hz] at h
      exact ⟨r, h, rfl⟩
  intro r h z r' hz h'
  obtain ⟨t, ht, e⟩ := key u r h
  obtain ⟨t', ht', e'⟩ := key z r' h'
  rw [← e, ← e']
  exact hu t ht z t' hz ht'

theorem unique_write_of (I : Interp A) (k : Nat) (s : Heap A) (x u : Name) (hu : Unique s u) :
    Unique (s.step I k (.write x)) u := hu

theorem unique_drop (I : Interp A) (k : Nat) (s : Heap A) (x : Name) : Unique (s.step I k (.drop x)) x := by
  intro r h
  simp [Heap.step] at h

theorem unique_drop_of (I : Interp A) (k : Nat) (s : Heap A) (x u : Name) (hux : u ≠ x) (hu : Unique s u) :
    Unique (s.step I k (.drop x)) u := by
  intro r h z r' hz h'
  simp only [Heap.step, Function.update_of_ne hux] at h
  by_cases hzx : z = x
  · subst hzx; simp [Heap.step] at h'
  · simp only [Heap.step, Function.update_of_ne hzx] at h'
    exact hu r h z r' hz h'

/-! ## Runs -/

theorem heap_run_append (I : Interp A) (l l' : List (Op Name)) (k : Nat) (s : Heap A) :
    Heap.run I k (l ++ l') s = Heap.run I (k + l.length) l' (Heap.run I k l s) := by
  induction l generalizing k s with
  | nil => rfl
  | cons o l ih =>
    simp only [List.cons_append, Heap.run, ih, List.length_cons]
    congr 1
    omega

theorem vals_run_append (I : Interp A) (l l' : List (Op Name)) (k : Nat) (σ : Vals A) :
    Vals.run I k (l ++ l') σ = Vals.run I (k + l.length) l' (Vals.run I k l σ) := by
  induction l generalizing k σ with
  | nil => rfl
  | cons o l ih =>
    simp only [List.cons_append, Vals.run, ih, List.length_cons]
    congr 1
    omega

/-- Only targets change when names have values of their own. -/
theorem vals_run_other (I : Interp A) (l : List (Op Name)) (k : Nat) (σ : Vals A) (z : Name)
    (h : ∀ o ∈ l, o.target ≠ z) : Vals.run I k l σ z = σ z := by
  induction l generalizing k σ with
  | nil => rfl
  | cons o l ih =>
    have h1 : Vals.step I k σ o z = σ z := by
      have := h o (List.mem_cons_self)
      cases o <;> simp only [Op.target] at this <;>
        simp only [Vals.step, Function.update_of_ne (Ne.symm this)]
    rw [Vals.run, ih _ _ fun o' ho' => h o' (List.mem_cons_of_mem _ ho'), h1]

/-- All names of `U` hold their array alone. -/
def Owned (env : List Nat) (U : List Sym) (s : Heap A) : Prop := ∀ x ∈ U, Unique s (x.at env)

theorem mem_both {U V : List Sym} {x : Sym} (h : x ∈ both U V) : x ∈ U ∧ x ∈ V := by
  simpa [both] using h

theorem check_op {env : List Nat} {U V : List Sym} {o : Op Sym} (h : check env.length U (.op o) = some V)
    (I : Interp A) (k : Nat) (s : Heap A) (hU : Owned env U s) :
    (s.step I k (o.map (·.at env))).view = Vals.step I k s.view (o.map (·.at env)) ∧
      Owned env V (s.step I k (o.map (·.at env))) := by
  cases o with
  | fresh x =>
    refine ⟨view_fresh _ _ _ _, ?_⟩
    simp only [check, Option.some.injEq] at h
    subst h
    intro y hy
    rcases List.mem_cons.mp hy with rfl | hy
    · exact unique_fresh _ _ _ _
    · have := List.mem_filter.mp hy
      have h2 : y ≠ x := by simpa using this.2
      exact unique_fresh_of _ _ _ _ _ (fun e => h2 (at_inj e)) (hU y this.1)
  | bind x y =>
    refine ⟨view_bind _ _ _ _ _, ?_⟩
    simp only [check] at h
    by_cases hxy : x = y
    · subst hxy
      simp only [if_true, Option.some.injEq] at h
      subst h
      exact fun z hz => unique_bind_self _ _ _ _ _ (hU z hz)
    · simp only [if_neg hxy, Option.some.injEq] at h
      subst h
      intro z hz
      have := List.mem_filter.mp hz
      have h2 : z ≠ x ∧ z ≠ y := by simpa using this.2
      exact unique_bind_of _ _ _ _ _ _ (fun e => h2.1 (at_inj e)) (fun e => h2.2 (at_inj e)) (hU z this.1)
  | write x =>
    simp only [check] at h
    split_ifs at h with hx
    simp only [Option.some.injEq] at h
    subst h
    exact ⟨view_write _ _ _ _ (hU x (by simpa using hx)), fun z hz => unique_write_of _ _ _ _ _ (hU z hz)⟩
  | drop x =>
    refine ⟨view_drop _ _ _ _, ?_⟩
    simp only [check, Option.some.injEq] at h
    subst h
    intro y hy
    rcases List.mem_cons.mp hy with rfl | hy
    · exact unique_drop _ _ _ _
    · have := List.mem_filter.mp hy
      have h2 : y ≠ x := by simpa using this.2
      exact unique_drop_of _ _ _ _ _ (fun e => h2 (at_inj e)) (hU y this.1)

theorem check_loop {k : Nat} {U V : List Sym} {p : Prog} {inner : Bool}
    (h : check k U (.loop inner p) = some V) :
    ∃ W, check (if inner then k + 1 else k) V p = some W ∧ (∀ x ∈ V, x ∈ W) ∧ (∀ x ∈ V, x ∈ U) ∧
      (∀ x ∈ V, x.d ≤ k) ∧ ∀ x ∈ V, (decide (x.d ≤ k) && !shares x p) = true := by
  simp only [check, Option.bind_eq_some_iff] at h
  obtain ⟨W, hW, h⟩ := h
  split_ifs at h with hc
  simp only [Option.some.injEq] at h
  subst h
  refine ⟨W, hW, fun x hx => ?_, fun x hx => (List.mem_filter.mp hx).1, fun x hx => ?_, fun x hx => ?_⟩
  · simpa using List.all_eq_true.mp hc x hx
  · have := (List.mem_filter.mp hx).2
    simp only [Bool.and_eq_true, decide_eq_true_eq] at this
    exact this.1
  · exact (List.mem_filter.mp hx).2

/-- Another round of a loop can start from what the last one left. -/
theorem check_loop_again {k : Nat} {V W : List Sym} {p : Prog} {inner : Bool}
    (h1 : check (if inner then k + 1 else k) V p = some W) (h2 : ∀ x ∈ V, x ∈ W)
    (h4 : ∀ x ∈ V, (decide (x.d ≤ k) && !shares x p) = true) : check k V (.loop inner p) = some V := by
  have e : (V.filter fun x => decide (x.d ≤ k) && !shares x p) = V := by
    rw [List.filter_eq_self]
    exact fun x hx => h4 x hx
  simp only [check, e, h1, Option.bind_some]
  rw [if_pos]
  rw [List.all_eq_true]
  exact fun x hx => by simpa using h2 x hx

/-- **Soundness of the check.** -/
theorem run_agrees {env : List Nat} {p : Prog} {l : List (Op Name)} {b : Bool} (e : Exec env p l b) :
    ∀ {U V : List Sym}, check env.length U p = some V → ∀ (I : Interp A) (k : Nat) (s : Heap A),
      Owned env U s → (Heap.run I k l s).view = Vals.run I k l s.view ∧
        (b = true → Owned env V (Heap.run I k l s)) := by
  induction e with
  | stop env p => exact fun _ _ _ _ _ => ⟨rfl, fun h => by simp at h⟩
  | skip env =>
    intro U V h I k s hU
    simp only [check, Option.some.injEq] at h
    subst h
    exact ⟨rfl, fun _ => hU⟩
  | op env o =>
    intro U V h I k s hU
    obtain ⟨h1, h2⟩ := check_op h I k s hU
    exact ⟨h1, fun _ => h2⟩
  | seqStop e ih =>
    intro U V h I k s hU
    simp only [check, Option.bind_eq_some_iff] at h
    obtain ⟨W, h1, h2⟩ := h
    exact ⟨(ih h1 I k s hU).1, fun h => by simp at h⟩
  | seq e e' ih ih' =>
    intro U V h I k s hU
    simp only [check, Option.bind_eq_some_iff] at h
    obtain ⟨W, h1, h2⟩ := h
    obtain ⟨a1, a2⟩ := ih h1 I k s hU
    obtain ⟨b1, b2⟩ := ih' h2 I (k + _) _ (a2 rfl)
    rw [heap_run_append, vals_run_append, b1, a1]
    exact ⟨rfl, b2⟩
  | altL e ih =>
    intro U V h I k s hU
    simp only [check, Option.bind_eq_some_iff, Option.map_eq_some_iff] at h
    obtain ⟨W, h1, W', h2, h3⟩ := h
    subst h3
    obtain ⟨a1, a2⟩ := ih h1 I k s hU
    exact ⟨a1, fun hb x hx => a2 hb x (mem_both hx).1⟩
  | altR e ih =>
    intro U V h I k s hU
    simp only [check, Option.bind_eq_some_iff, Option.map_eq_some_iff] at h
    obtain ⟨W, h1, W', h2, h3⟩ := h
    subst h3
    obtain ⟨a1, a2⟩ := ih h2 I k s hU
    exact ⟨a1, fun hb x hx => a2 hb x (mem_both hx).2⟩
  | loopEnd env inner p =>
    intro U V h I k s hU
    obtain ⟨W, h1, h2, h3, h4, h5⟩ := check_loop h
    exact ⟨rfl, fun _ x hx => hU x (h3 x hx)⟩
  | @loopStop env inner p l i e ih =>
    intro U V h I k s hU
    obtain ⟨W, h1, h2, h3, h4, h5⟩ := check_loop h
    have hO : Owned (within inner env i) V s := fun x hx => by
      rw [at_within inner i (h4 x hx)]
      exact hU x (h3 x hx)
    exact ⟨(ih (by rw [length_within]; exact h1) I k s hO).1, fun h => by simp at h⟩
  | @loopStep env inner p l l' b i e e' ih ih' =>
    intro U V h I k s hU
    obtain ⟨W, h1, h2, h3, h4, h5⟩ := check_loop h
    have hO : Owned (within inner env i) V s := fun x hx => by
      rw [at_within inner i (h4 x hx)]
      exact hU x (h3 x hx)
    obtain ⟨a1, a2⟩ := ih (by rw [length_within]; exact h1) I k s hO
    have hV : Owned env V (Heap.run I k l s) := fun x hx => by
      rw [← at_within inner i (h4 x hx)]
      exact a2 rfl x (h2 x hx)
    obtain ⟨b1, b2⟩ := ih' (check_loop_again h1 h2 h5) I (k + l.length) _ hV
    rw [heap_run_append, vals_run_append, b1, a1]
    exact ⟨rfl, b2⟩

end Verif.Sharing
