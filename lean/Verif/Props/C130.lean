import Verif.Model.GridLife
import Verif.Model.Coordinates
/-!
# C130: the life of a grid object

A `Psgrid` is built in two steps, `Psgrid(…)` and `initialize()`, its attributes are public, and the pieces of
`initialize` are methods of their own.  For every arithmetic (every interpretation of the statements):

* before `initialize`, every method but `spinflip` raises, whatever was called before;
* `initialize` computes every attribute from the seven parameters alone, whatever the object held;
* once `initialize` has succeeded, calls change nothing: each method gives the same answer at any later time;
* after a parameter is changed, calling the pieces is not enough: `operators()` and `factorize_laplacian` after a
  new `a` leave `Z`, `Y`, `w`, `f` as they were, and exactly these;
* a failing `initialize` is not undone, and the old answers keep coming.
-/

namespace Verif
open GridLife GridLife.Attr

namespace Spec

/-- The parameters of a grid. -/
def gridParams : List Attr := [NP, NMa, NMr, a, L, i1, i2]

/-- Two grids built with the same parameters. -/
def SameParams {V : Type} (s s' : State V) : Prop := ∀ q ∈ gridParams, s q = s' q

/-- The two attributes nothing ever assigns or reads. -/
def Unused (q : Attr) : Prop := q = R ∨ q = DISP

end Spec

namespace GridLife

variable {V : Type} {I : Interp V} {A : Answer V}

/-- Attributes assigned by a list of statements. -/
def written : List Stmt → List Attr
  | [] => []
  | c :: cs => c.writes ++ written cs

/-- Every statement reads only attributes in `X` or assigned before it. -/
def definite (X : List Attr) : List Stmt → Bool
  | [] => true
  | c :: cs => (c.reads.all fun q => decide (q ∈ X)) && definite (c.writes ++ X) cs

theorem fetch_congr {s s' : State V} : ∀ {qs : List Attr}, (∀ q ∈ qs, s q = s' q) → fetch s qs = fetch s' qs
  | [], _ => rfl
  | q :: qs, h => by
    have h1 := h q (by simp)
    have h2 := fetch_congr (qs := qs) (fun r hr => h r (by simp [hr]))
    simp only [fetch, h1, h2]

theorem fetch_none {s : State V} : ∀ {qs : List Attr} {q : Attr}, q ∈ qs → s q = none → fetch s qs = none
  | r :: qs, q, hq, h => by
    rcases List.mem_cons.1 hq with rfl | hq
    · simp [fetch, h]
    · simp only [fetch, fetch_none hq h]
      cases s r <;> rfl

theorem fetch_some {s : State V} : ∀ {qs : List Attr}, (∀ q ∈ qs, (s q).isSome) →
    ∃ vs : List V, qs.map s = vs.map some ∧ fetch s qs = some vs
  | [], _ => ⟨[], rfl, rfl⟩
  | q :: qs, h => by
    obtain ⟨v, hv⟩ := Option.isSome_iff_exists.1 (h q (by simp))
    obtain ⟨vs, hm, hvs⟩ := fetch_some (qs := qs) (fun r hr => h r (by simp [hr]))
    exact ⟨v :: vs, by simp [hv, hm], by simp [fetch, hv, hvs]⟩

theorem exec_fetch_none {d : Stmt} {ds : List Stmt} {s : State V} (h : fetch s d.reads = none) :
    exec I (d :: ds) s = (s, false) := by simp only [exec, h]

theorem exec_raise {d : Stmt} {ds : List Stmt} {s : State V} {vs : List V} (h : fetch s d.reads = some vs)
    (hI : I d.file d.line vs = none) : exec I (d :: ds) s = (s, false) := by simp only [exec, h, hI]

theorem exec_step {d : Stmt} {ds : List Stmt} {s : State V} {vs : List V} {g : Attr → V}
    (h : fetch s d.reads = some vs) (hI : I d.file d.line vs = some g) :
    exec I (d :: ds) s = exec I ds (assign s d.writes g) := by simp only [exec, h, hI]

/-- The three ways a first statement can go. -/
theorem exec_cases (d : Stmt) (s : State V) : fetch s d.reads = none ∨
    (∃ vs, fetch s d.reads = some vs ∧ I d.file d.line vs = none) ∨
    (∃ vs g, fetch s d.reads = some vs ∧ I d.file d.line vs = some g) := by
  cases hf : fetch s d.reads with
  | none => exact Or.inl rfl
  | some vs =>
    cases hI : I d.file d.line vs with
    | none => exact Or.inr (Or.inl ⟨vs, rfl, hI⟩)
    | some g => exact Or.inr (Or.inr ⟨vs, g, rfl, hI⟩)

theorem exec_append (b c : List Stmt) (s : State V) :
    exec I (b ++ c) s = if (exec I b s).2 then exec I c (exec I b s).1 else exec I b s := by
  induction b generalizing s with
  | nil => simp [exec]
  | cons d ds ih =>
    rw [List.cons_append]
    rcases exec_cases (I := I) d s with h | ⟨vs, h, hI⟩ | ⟨vs, g, h, hI⟩
    · simp [exec_fetch_none h]
    · simp [exec_raise h hI]
    · rw [exec_step h hI, exec_step h hI, ih]

theorem exec_frame (b : List Stmt) (s : State V) {q : Attr} (hq : q ∉ written b) : (exec I b s).1 q = s q := by
  induction b generalizing s with
  | nil => rfl
  | cons d ds ih =>
    simp only [written, List.mem_append, not_or] at hq
    rcases exec_cases (I := I) d s with h | ⟨vs, h, hI⟩ | ⟨vs, g, h, hI⟩
    · simp [exec_fetch_none h]
    · simp [exec_raise h hI]
    · rw [exec_step h hI, ih _ hq.2]
      simp [assign, hq.1]

theorem exec_isSome (b : List Stmt) (s : State V) {q : Attr} (hok : (exec I b s).2 = true)
    (hq : q ∈ written b ∨ (s q).isSome) : ((exec I b s).1 q).isSome := by
  induction b generalizing s with
  | nil => simpa [exec, written] using hq
  | cons d ds ih =>
    rcases exec_cases (I := I) d s with h | ⟨vs, h, hI⟩ | ⟨vs, g, h, hI⟩
    · simp [exec_fetch_none h] at hok
    · simp [exec_raise h hI] at hok
    · rw [exec_step h hI] at hok ⊢
      refine ih _ hok ?_
      by_cases hw : q ∈ d.writes
      · exact Or.inr (by simp [assign, hw])
      · rcases hq with hq | hq
        · exact Or.inl ((List.mem_append.1 hq).resolve_left hw)
        · exact Or.inr (by simpa [assign, hw] using hq)

theorem exec_reads (b : List Stmt) (s : State V) {q : Attr} (hok : (exec I b s).2 = true)
    (hr : ∃ c ∈ b, q ∈ c.reads) (hq : q ∉ written b) : (s q).isSome := by
  induction b generalizing s with
  | nil => simp at hr
  | cons d ds ih =>
    simp only [written, List.mem_append, not_or] at hq
    rcases exec_cases (I := I) d s with h | ⟨vs, h, hI⟩ | ⟨vs, g, h, hI⟩
    · simp [exec_fetch_none h] at hok
    · simp [exec_raise h hI] at hok
    · obtain ⟨c, hc, hcr⟩ := hr
      rcases List.mem_cons.1 hc with rfl | hc
      · rw [← Option.ne_none_iff_isSome]
        intro hn
        rw [fetch_none hcr hn] at h
        cases h
      · rw [exec_step h hI] at hok
        have := ih _ hok ⟨c, hc, hcr⟩ hq.2
        simpa [assign, hq.1] using this

theorem exec_agree (b : List Stmt) {X : List Attr} {s s' : State V} (hd : definite X b = true)
    (hX : ∀ q ∈ X, s q = s' q) : (exec I b s).2 = (exec I b s').2 ∧
      ((exec I b s).2 = true → ∀ q, q ∈ X ∨ q ∈ written b → (exec I b s).1 q = (exec I b s').1 q) := by
  induction b generalizing s s' X with
  | nil => exact ⟨rfl, fun _ q hq => hX q (by simpa [written] using hq)⟩
  | cons d ds ih =>
    simp only [definite, Bool.and_eq_true, List.all_eq_true, decide_eq_true_eq] at hd
    have hf := fetch_congr (qs := d.reads) (fun q hq => hX q (hd.1 q hq))
    rcases exec_cases (I := I) d s with h | ⟨vs, h, hI⟩ | ⟨vs, g, h, hI⟩
    · simp [exec_fetch_none h, exec_fetch_none (hf ▸ h)]
    · simp [exec_raise h hI, exec_raise (hf ▸ h) hI]
    · rw [exec_step h hI, exec_step (hf ▸ h) hI]
      have hX' : ∀ q ∈ d.writes ++ X, assign s d.writes g q = assign s' d.writes g q := by
        intro q hq
        by_cases hw : q ∈ d.writes
        · simp [assign, hw]
        · simp only [assign, hw, if_false]
          exact hX q ((List.mem_append.1 hq).resolve_left hw)
      obtain ⟨h1, h2⟩ := ih hd.2 hX'
      refine ⟨h1, fun hok q hq => h2 hok q ?_⟩
      rcases hq with hq | hq
      · exact Or.inl (List.mem_append_right _ hq)
      · rcases List.mem_append.1 hq with hq | hq
        · exact Or.inl (List.mem_append_left _ hq)
        · exact Or.inr hq

/-- The attributes on which two runs still agree, starting from agreement on `X`. -/
def flow (X : List Attr) : List Stmt → List Attr
  | [] => X
  | c :: cs => if c.reads.all fun q => decide (q ∈ X) then flow (c.writes ++ X) cs
      else flow (X.filter fun q => decide (q ∉ c.writes)) cs

theorem exec_flow (b : List Stmt) {X : List Attr} {s s' : State V} (hX : ∀ q ∈ X, s q = s' q)
    (h1 : (exec I b s).2 = true) (h2 : (exec I b s').2 = true) :
    ∀ q ∈ flow X b, (exec I b s).1 q = (exec I b s').1 q := by
  induction b generalizing s s' X with
  | nil => exact hX
  | cons d ds ih =>
    rcases exec_cases (I := I) d s with h | ⟨vs, h, hI⟩ | ⟨vs, g, h, hI⟩
    · simp [exec_fetch_none h] at h1
    · simp [exec_raise h hI] at h1
    rcases exec_cases (I := I) d s' with h' | ⟨vs', h', hI'⟩ | ⟨vs', g', h', hI'⟩
    · simp [exec_fetch_none h'] at h2
    · simp [exec_raise h' hI'] at h2
    rw [exec_step h hI] at h1 ⊢
    rw [exec_step h' hI'] at h2 ⊢
    simp only [flow]
    split
    · rename_i hr
      simp only [List.all_eq_true, decide_eq_true_eq] at hr
      have hf := fetch_congr (qs := d.reads) (fun q hq => hX q (hr q hq))
      rw [h, h'] at hf
      cases hf
      rw [hI] at hI'
      cases hI'
      refine ih ?_ h1 h2
      intro q hq
      by_cases hw : q ∈ d.writes
      · simp [assign, hw]
      · simp only [assign, hw, if_false]
        exact hX q ((List.mem_append.1 hq).resolve_left hw)
    · refine ih ?_ h1 h2
      intro q hq
      simp only [List.mem_filter, decide_eq_true_eq] at hq
      simp only [assign, hq.2, if_false]
      exact hX q hq.1

theorem exec_ok_append {b c : List Stmt} {s : State V} (h : (exec I (b ++ c) s).2 = true) :
    (exec I b s).2 = true ∧ exec I (b ++ c) s = exec I c (exec I b s).1 := by
  rw [exec_append] at h ⊢
  by_cases hb : (exec I b s).2 = true
  · simp [hb]
  · simp [hb] at h

/-- A part of a program, run again at the end, changes nothing when its inputs and its results survive the rest. -/
theorem exec_again {b d c : List Stmt} {X : List Attr} {s : State V} (hd : definite X d = true)
    (hX : ∀ q ∈ X, q ∉ written d ∧ q ∉ written c) (hW : ∀ q ∈ written d, q ∉ written c)
    (hok : (exec I (b ++ (d ++ c)) s).2 = true) :
    exec I d (exec I (b ++ (d ++ c)) s).1 = ((exec I (b ++ (d ++ c)) s).1, true) := by
  rw [exec_append, exec_append] at hok ⊢
  by_cases hb : (exec I b s).2 = true
  swap
  · simp [hb] at hok
  simp only [hb, if_true] at hok ⊢
  generalize (exec I b s).1 = t at hok ⊢
  by_cases h1 : (exec I d t).2 = true
  swap
  · simp [h1] at hok
  simp only [h1, if_true] at hok ⊢
  set F := (exec I c (exec I d t).1).1 with hF
  have hFX : ∀ q ∈ X, t q = F q := fun q hq => by
    rw [hF, exec_frame _ _ (hX q hq).2, exec_frame _ _ (hX q hq).1]
  obtain ⟨e1, e2⟩ := exec_agree (I := I) d hd hFX
  have hFd : (exec I d F).2 = true := by rw [← e1, h1]
  refine Prod.ext (funext fun q => ?_) hFd
  by_cases hq : q ∈ written d
  · rw [← e2 h1 q (Or.inr hq), hF, exec_frame _ _ (hW q hq)]
  · exact exec_frame _ _ hq

end GridLife

section

variable {V : Type} {I : Interp V} {A : Answer V}

/-- **C130 (`initialize` starts afresh).**  Whether it succeeds, and every attribute it leaves, depend on the seven
parameters only; on success no attribute is `None` and the parameters are as they were. -/
theorem C130_initialize (s s' : State V) (h : Spec.SameParams s s') :
    (exec I initBody s).2 = (exec I initBody s').2 ∧
    (∀ q, q ∈ Spec.gridParams ∨ Spec.Unused q → (exec I initBody s).1 q = s q) ∧
    ((exec I initBody s).2 = true → ∀ q, ¬ Spec.Unused q →
      (exec I initBody s).1 q = (exec I initBody s').1 q ∧ ((exec I initBody s).1 q).isSome) := by
  have hd : definite Spec.gridParams initBody = true := by decide
  have hp : ∀ q ∈ Spec.gridParams, q ∉ written initBody := by decide
  have hu : ∀ q, q = R ∨ q = DISP → q ∉ written initBody := by rintro q (rfl | rfl) <;> decide
  have hr : ∀ q ∈ Spec.gridParams, ∃ c ∈ initBody, q ∈ c.reads := by decide
  have hall : ∀ q : Attr, (q = R ∨ q = DISP) ∨ (q ∈ Spec.gridParams ∨ q ∈ written initBody) := by
    intro q; cases q <;> decide
  obtain ⟨h1, h2⟩ := exec_agree (I := I) initBody hd h
  refine ⟨h1, fun q hq => exec_frame _ _ (hq.elim (hp q) (hu q)), fun hok q hq => ?_⟩
  have hm := (hall q).resolve_left hq
  refine ⟨h2 hok q hm, exec_isSome _ _ hok ?_⟩
  rcases hm with hm | hm
  · exact Or.inr (exec_reads _ _ hok (hr q hm) (hp q hm))
  · exact Or.inl hm

theorem GridLife.body_again (s : State V) (hok : (exec I initBody s).2 = true) (m : Method) :
    exec I (body m) (exec I initBody s).1 = ((exec I initBody s).1, true) := by
  have key : ∀ (b d c : List Stmt) (X : List Attr), initBody = b ++ (d ++ c) → definite X d = true →
      (∀ q ∈ X, q ∉ written d ∧ q ∉ written c) → (∀ q ∈ written d, q ∉ written c) →
      exec I d (exec I initBody s).1 = ((exec I initBody s).1, true) := by
    intro b d c X e hd hX hW
    rw [e] at hok ⊢
    exact exec_again hd hX hW hok
  cases m
  case «initialize» =>
    exact key [] initBody [] Spec.gridParams (by simp) (by decide) (by decide) (by decide)
  case finite_difference_1d =>
    exact key initHead fd1Body (fd2Body ++ (opsBody ++ (initTail ++ facBody))) [i1, bcN, Na, Nr, ha, hr] rfl
      (by decide) (by decide) (by decide)
  case finite_difference_2d =>
    exact key (initHead ++ fd1Body) fd2Body (opsBody ++ (initTail ++ facBody)) [i2, bcN, Na, Nr, ha, hr]
      (by simp [initBody]) (by decide) (by decide) (by decide)
  case operators =>
    exact key (initHead ++ (fd1Body ++ fd2Body)) opsBody (initTail ++ facBody)
      [a, Xr, Xa, Nelem, Na, Nr, bcN, bc1, bc2, eDa1, eDa2, eDr1, eDr2, oDa1, oDa2, oDr1, oDr2]
      (by simp [initBody]) (by decide) (by decide) (by decide)
  case factorize_laplacian =>
    exact key (initHead ++ (fd1Body ++ (fd2Body ++ (opsBody ++ initTail)))) facBody [] [elap]
      (by simp [initBody]) (by decide) (by decide) (by decide)
  all_goals rfl

theorem GridLife.call_again (s : State V) (hok : (exec I initBody s).2 = true) (m : Method) (x : V) :
    (call I A m x (exec I initBody s).1).1 = (exec I initBody s).1 := by
  simp only [call, GridLife.body_again s hok m]
  split
  · rfl
  split
  · rfl
  split
  · rfl
  split <;> rfl

/-- **C130 (calls are repeatable).**  After a successful `initialize`, whatever the object was before, calls to any
methods, in any order and number, with any arguments, leave every attribute as it is, and each call shows the
caller what it would have shown right after `initialize`.  The methods that only assign attributes succeed, and the
others find every attribute they read. -/
theorem C130_calls (s : State V) (hok : (exec I initBody s).2 = true) (cs : List (Method × V)) :
    (calls I A cs (exec I initBody s).1).1 = (exec I initBody s).1 ∧
    (calls I A cs (exec I initBody s).1).2 = cs.map fun c => (call I A c.1 c.2 (exec I initBody s).1).2 := by
  induction cs with
  | nil => exact ⟨rfl, rfl⟩
  | cons c cs ih =>
    obtain ⟨m, x⟩ := c
    simp only [calls, GridLife.call_again s hok m x, List.map_cons]
    exact ⟨ih.1, by rw [ih.2]⟩

/-- **C130 (what works after `initialize`).**  The five methods that assign attributes return `None`; the others,
except `reduced_grad`, compute their answer from attributes that are all set. -/
theorem C130_after (s : State V) (hok : (exec I initBody s).2 = true) (m : Method) (x : V) :
    (assigns m = true → (call I A m x (exec I initBody s).1).2 = .nothing) ∧
    (assigns m = false → m ≠ .reduced_grad →
      ∃ vs : List V, (uses m).map (exec I initBody s).1 = vs.map some ∧
        (call I A m x (exec I initBody s).1).2 = (match A m x vs with | none => .raised | some v => .value v)) := by
  have hb := GridLife.body_again s hok m
  refine ⟨fun h => by simp only [call, hb, h, if_true], fun h hm => ?_⟩
  have hu : ∀ q ∈ uses m, ¬ Spec.Unused q := by
    unfold Spec.Unused
    cases m <;> decide
  have hs : ∀ q ∈ uses m, ((exec I initBody s).1 q).isSome := fun q hq =>
    ((C130_initialize (I := I) s s (fun _ _ => rfl)).2.2 hok q (hu q hq)).2
  obtain ⟨vs, hv, hf⟩ := fetch_some hs
  refine ⟨vs, hv, ?_⟩
  simp only [call, hb, h, hm, hf, if_false, Bool.false_eq_true]
  cases A m x vs <;> rfl

/-- What holds of an object whose `initialize` was never called. -/
def GridLife.Bare (s : State V) : Prop :=
  ∀ q, q ∉ Spec.gridParams → q ≠ d1 → q ≠ d2 → q ≠ DISP → s q = none

theorem GridLife.bare_fd {s : State V} (hs : GridLife.Bare s) {c : Stmt} {cs : List Stmt} {e : Stmt}
    (hc : c.writes = [d1] ∨ c.writes = [d2]) (he : bcN ∈ e.reads) :
    GridLife.Bare (exec I (c :: e :: cs) s).1 ∧ (exec I (c :: e :: cs) s).2 = false := by
  rcases exec_cases (I := I) c s with h | ⟨vs, h, hI⟩ | ⟨vs, g, h, hI⟩
  · rw [exec_fetch_none h]; exact ⟨hs, rfl⟩
  · rw [exec_raise h hI]; exact ⟨hs, rfl⟩
  · rw [exec_step h hI]
    have hw : ∀ q, q ≠ d1 → q ≠ d2 → q ∉ c.writes := by
      intro q h1 h2
      rcases hc with hc | hc <;> simp [hc, h1, h2]
    have hb : GridLife.Bare (assign s c.writes g) := by
      intro q hp h1 h2 h3
      simp only [assign, hw q h1 h2, if_false]
      exact hs q hp h1 h2 h3
    rw [exec_fetch_none (fetch_none he (hb bcN (by decide) (by decide) (by decide) (by decide)))]
    exact ⟨hb, rfl⟩

theorem GridLife.bare_call {s : State V} (hs : GridLife.Bare s) {m : Method} (hm : m ≠ .initialize) (x : V) :
    GridLife.Bare (call I A m x s).1 ∧ (m ≠ .spinflip → (call I A m x s).2 = .raised) := by
  have none_of : ∀ q, q ∉ Spec.gridParams → q ≠ d1 → q ≠ d2 → q ≠ DISP → s q = none := hs
  have rd : ∀ {c : Stmt} {cs : List Stmt} (q : Attr), q ∈ c.reads → s q = none → exec I (c :: cs) s = (s, false) :=
    fun q hq h => exec_fetch_none (fetch_none hq h)
  cases m
  case «initialize» => exact absurd rfl hm
  case finite_difference_1d =>
    obtain ⟨h1, h2⟩ := GridLife.bare_fd (I := I) hs (c := ⟨.fd1, 16, [i1], [d1]⟩)
      (e := ⟨.fd1, 36, [i1, bcN, Na, Nr], [oDa1]⟩) (cs := fd1Body.drop 2) (Or.inl rfl) (by decide)
    have e : exec I (body .finite_difference_1d) s = ((exec I fd1Body s).1, false) := Prod.ext rfl h2
    simp only [call, e]
    exact ⟨h1, fun _ => trivial⟩
  case finite_difference_2d =>
    obtain ⟨h1, h2⟩ := GridLife.bare_fd (I := I) hs (c := ⟨.fd2, 16, [i2], [d2]⟩)
      (e := ⟨.fd2, 32, [i2, bcN, Na, Nr], [oDa2]⟩) (cs := fd2Body.drop 2) (Or.inr rfl) (by decide)
    have e : exec I (body .finite_difference_2d) s = ((exec I fd2Body s).1, false) := Prod.ext rfl h2
    simp only [call, e]
    exact ⟨h1, fun _ => trivial⟩
  case operators =>
    have e : exec I (body .operators) s = (s, false) :=
      rd Xr (by decide) (none_of Xr (by decide) (by decide) (by decide) (by decide))
    simp only [call, e]
    exact ⟨hs, fun _ => trivial⟩
  case factorize_laplacian =>
    have e : exec I (body .factorize_laplacian) s = (s, false) :=
      rd elap (by decide) (none_of elap (by decide) (by decide) (by decide) (by decide))
    simp only [call, e]
    exact ⟨hs, fun _ => trivial⟩
  case spinflip =>
    refine ⟨?_, fun h => absurd rfl h⟩
    simp only [call, body, exec, assigns, uses, fetch]
    cases A .spinflip x [] <;> simpa using hs
  case reduced_grad => exact ⟨hs, fun _ => rfl⟩
  case mirror =>
    have e := fetch_none (s := s) (qs := uses .mirror) (q := Nelem) (by decide) (none_of _ (by decide) (by decide) (by decide) (by decide))
    simp [call, body, exec, assigns, e, hs]
  case square =>
    have e := fetch_none (s := s) (qs := uses .square) (q := Nelem) (by decide) (none_of _ (by decide) (by decide) (by decide) (by decide))
    simp [call, body, exec, assigns, e, hs]
  case sigma =>
    have e := fetch_none (s := s) (qs := uses .sigma) (q := grada) (by decide) (none_of _ (by decide) (by decide) (by decide) (by decide))
    simp [call, body, exec, assigns, e, hs]
  case integrate =>
    have e := fetch_none (s := s) (qs := uses .integrate) (q := hr) (by decide) (none_of _ (by decide) (by decide) (by decide) (by decide))
    simp [call, body, exec, assigns, e, hs]
  case plotter =>
    have e := fetch_none (s := s) (qs := uses .plotter) (q := Nelem) (by decide) (none_of _ (by decide) (by decide) (by decide) (by decide))
    simp [call, body, exec, assigns, e, hs]
  case axis_plot =>
    have e := fetch_none (s := s) (qs := uses .axis_plot) (q := Z) (by decide) (none_of _ (by decide) (by decide) (by decide) (by decide))
    simp [call, body, exec, assigns, e, hs]

/-- **C130 (before `initialize`).**  On a new grid, as long as `initialize` is not called, whatever else is called
and in whatever order, every call except `spinflip` raises and every attribute that is not a parameter, `d1`, `d2`
or `DISP` stays `None`: the pieces of `initialize` cannot replace it. -/
theorem C130_before (vNP vNMa vNMr va vL vloc vDISP : V) (cs : List (Method × V))
    (hcs : ∀ c ∈ cs, c.1 ≠ .initialize) :
    (∀ k (hk : k < cs.length), (cs[k]'hk).1 ≠ .spinflip →
      (calls I A cs (fresh vNP vNMa vNMr va vL vloc vDISP)).2[k]? = some .raised) ∧
    (∀ q, q ∉ Spec.gridParams → q ≠ d1 → q ≠ d2 → q ≠ DISP →
      (calls I A cs (fresh vNP vNMa vNMr va vL vloc vDISP)).1 q = none) := by
  have h0 : GridLife.Bare (fresh vNP vNMa vNMr va vL vloc vDISP) := by
    intro q hp h1 h2 h3
    cases q <;> first | rfl | exact absurd (by decide) hp | exact absurd rfl h3
  generalize fresh vNP vNMa vNMr va vL vloc vDISP = s at h0
  induction cs generalizing s with
  | nil => exact ⟨fun k hk => absurd hk (by simp), h0⟩
  | cons c cs ih =>
    obtain ⟨m, x⟩ := c
    obtain ⟨h1, h2⟩ := GridLife.bare_call (I := I) (A := A) h0 (hcs (m, x) (by simp)) x
    obtain ⟨i1', i2'⟩ := ih (fun c hc => hcs c (by simp [hc])) _ h1
    refine ⟨fun k hk hm => ?_, i2'⟩
    cases k with
    | zero => simpa [calls] using h2 (by simpa using hm)
    | succ k => simpa [calls] using i1' k (by simpa using hk) (by simpa using hm)

/-- **C130 (changing `a`, what the pieces refresh).**  On an initialised grid let the caller assign a new `a` with
which `initialize` would succeed.  Then `operators()` and `factorize_laplacian` succeed, and leave the object as
`initialize` would except for `Z`, `Y`, `w` and `f`, which are those of the old `a`. -/
theorem C130_refresh (s : State V) (hok : (exec I initBody s).2 = true) (v : V)
    (hnew : (exec I initBody (put (exec I initBody s).1 a (some v))).2 = true) :
    (exec I (opsBody ++ facBody) (put (exec I initBody s).1 a (some v))).2 = true ∧
    (∀ q, q ∉ [Z, Y, w, f] → (exec I (opsBody ++ facBody) (put (exec I initBody s).1 a (some v))).1 q =
      (exec I initBody (put (exec I initBody s).1 a (some v))).1 q) ∧
    (∀ q ∈ [Z, Y, w, f], (exec I (opsBody ++ facBody) (put (exec I initBody s).1 a (some v))).1 q =
      (exec I initBody s).1 q) := by
  set F := (exec I initBody s).1 with hF
  set t := put F a (some v) with ht
  have hfr : ∀ q, q ∉ written initBody → F q = s q := fun q hq => exec_frame _ _ hq
  have hta : ∀ q, q ≠ a → t q = F q := fun q hq => by simp [ht, put, hq]
  -- the runs of `initialize` from `s` and from `t` agree where `a` does not flow
  have hX0 : ∀ q ∈ [NP, NMa, NMr, L, i1, i2, R, DISP], s q = t q := by
    intro q hq
    have hw : ∀ q ∈ [NP, NMa, NMr, L, i1, i2, R, DISP], q ∉ written initBody ∧ q ≠ a := by decide
    rw [hta q (hw q hq).2, hfr q (hw q hq).1]
  have hag := exec_flow (I := I) initBody hX0 hok hnew
  -- splitting `initialize`
  have esplit : initBody = (initHead ++ (fd1Body ++ fd2Body)) ++ (opsBody ++ (initTail ++ facBody)) := by
    simp [initBody]
  obtain ⟨hp1, hp2⟩ := exec_ok_append (I := I) (b := initHead ++ (fd1Body ++ fd2Body))
    (c := opsBody ++ (initTail ++ facBody)) (s := t) (by rw [← esplit]; exact hnew)
  rw [← esplit] at hp2
  set tA := (exec I (initHead ++ (fd1Body ++ fd2Body)) t).1 with htA
  have hG : exec I initBody t = exec I (opsBody ++ (initTail ++ facBody)) tA := hp2
  have hokA : (exec I (opsBody ++ (initTail ++ facBody)) tA).2 = true := by rw [← hG]; exact hnew
  obtain ⟨ho1, ho2⟩ := exec_ok_append hokA
  set tB := (exec I opsBody tA).1 with htB
  have hokB : (exec I (initTail ++ facBody) tB).2 = true := by rw [← ho2]; exact hokA
  obtain ⟨hq1, hq2⟩ := exec_ok_append hokB
  set tC := (exec I initTail tB).1 with htC
  have hokC : (exec I facBody tC).2 = true := by rw [← hq2]; exact hokB
  -- inputs of `operators`
  have hin : ∀ q ∈ [a, Xr, Xa, Nelem, Na, Nr, bcN, bc1, bc2, eDa1, eDa2, eDr1, eDr2, oDa1, oDa2, oDr1, oDr2],
      t q = tA q := by
    intro q hq
    have hw : ∀ q ∈ [a, Xr, Xa, Nelem, Na, Nr, bcN, bc1, bc2, eDa1, eDa2, eDr1, eDr2, oDa1, oDa2, oDr1, oDr2],
        q = a ∨ (q ≠ a ∧ q ∈ flow [NP, NMa, NMr, L, i1, i2, R, DISP] initBody ∧
          q ∉ written (opsBody ++ (initTail ++ facBody))) := by decide
    rcases hw q hq with rfl | ⟨h1, h2, h3⟩
    · rw [htA, exec_frame _ _ (by decide)]
    · rw [hta q h1, hF, hag q h2, hG, exec_frame _ _ h3]
  obtain ⟨a1, a2⟩ := exec_agree (I := I) opsBody (by decide) hin
  have hoks : (exec I opsBody t).2 = true := by rw [a1]; exact ho1
  have hB : ∀ q ∈ written opsBody, (exec I opsBody t).1 q = tB q := fun q hq => a2 hoks q (Or.inr hq)
  have hel : ∀ q ∈ [elap], (exec I opsBody t).1 q = tC q := by
    intro q hq
    have hw : ∀ q ∈ [elap], q ∈ written opsBody ∧ q ∉ written initTail := by decide
    rw [hB q (hw q hq).1, htC, exec_frame _ _ (hw q hq).2]
  obtain ⟨b1, b2⟩ := exec_agree (I := I) facBody (by decide) hel
  have hokf : (exec I facBody (exec I opsBody t).1).2 = true := by rw [b1]; exact hokC
  have eall : exec I (opsBody ++ facBody) t = exec I facBody (exec I opsBody t).1 := by
    rw [exec_append, if_pos hoks]
  refine ⟨by rw [eall]; exact hokf, fun q hq => ?_, fun q hq => ?_⟩
  · have hcase : ∀ q : Attr, q ∉ [Z, Y, w, f] → q ∈ written facBody ∨
        (q ∈ written opsBody ∧ q ∉ written facBody ∧ q ∉ written initTail) ∨
        (q = a ∧ q ∉ written facBody ∧ q ∉ written opsBody ∧ q ∉ written initBody) ∨
        (q ≠ a ∧ q ∉ written facBody ∧ q ∉ written opsBody ∧
          q ∈ flow [NP, NMa, NMr, L, i1, i2, R, DISP] initBody) := by
      intro q; cases q <;> decide
    rcases hcase q hq with h | ⟨h1, h2, h3⟩ | ⟨rfl, h1, h2, h3⟩ | ⟨h0, h1, h2, h3⟩
    · rw [eall, b2 hokf q (Or.inr h), hG, ho2, hq2]
    · rw [eall, exec_frame _ _ h2, hB q h1, hG, ho2, hq2, exec_frame _ _ h2, htC, exec_frame _ _ h3]
    · rw [eall, exec_frame _ _ h1, exec_frame _ _ h2, exec_frame _ _ h3]
    · rw [eall, exec_frame _ _ h1, exec_frame _ _ h2, hta q h0, hF, hag q h3]
  · have hw : ∀ q ∈ [Z, Y, w, f], q ∉ written (opsBody ++ facBody) ∧ q ≠ a := by decide
    rw [exec_frame _ _ (hw q hq).1, hta q (hw q hq).2]

/-- **C130 (a failing `initialize` goes unnoticed).**  On an initialised grid let the caller assign `None` to `L`
(or delete it that way by mistake).  `initialize` raises, no other attribute is changed or reset, and every other
method still answers as before. -/
theorem C130_failed (s : State V) (hok : (exec I initBody s).2 = true) :
    exec I initBody (put (exec I initBody s).1 L none) = (put (exec I initBody s).1 L none, false) ∧
    ∀ m, m ≠ .initialize → ∀ x, (call I A m x (put (exec I initBody s).1 L none)).2 =
      (call I A m x (exec I initBody s).1).2 := by
  set F := (exec I initBody s).1 with hF
  set t := put F L none with ht
  have htL : ∀ q, q ≠ L → F q = t q := fun q hq => by simp [ht, put, hq]
  have same : ∀ (b : List Stmt) (X : List Attr), definite X b = true → L ∉ X → L ∉ written b →
      exec I b F = (F, true) → exec I b t = (t, true) := by
    intro b X hd hX hW hb
    obtain ⟨h1, h2⟩ := exec_agree (I := I) b hd (s := F) (s' := t) (fun q hq => htL q (fun h => hX (h ▸ hq)))
    rw [hb] at h1 h2
    refine Prod.ext (funext fun q => ?_) h1.symm
    by_cases hq : q ∈ written b
    · exact (h2 rfl q (Or.inr hq)).symm.trans (htL q (fun h => hW (h ▸ hq)))
    · exact exec_frame _ _ hq
  have e8 : initBody = initHead.take 8 ++ initBody.drop 8 := rfl
  have h8 : exec I (initHead.take 8) F = (F, true) := by
    have := exec_again (I := I) (b := []) (d := initHead.take 8) (c := initBody.drop 8) (s := s)
      (X := [NP, NMa, NMr]) (by decide) (by decide) (by decide)
      (by rw [List.nil_append, ← e8]; exact hok)
    rw [List.nil_append, ← e8] at this
    exact this
  have h8t := same _ [NP, NMa, NMr] (by decide) (by decide) (by decide) h8
  constructor
  · rw [e8, exec_append, h8t]
    have hn : fetch t [L, Nr] = none := fetch_none (q := L) (by decide) (by simp [ht, put])
    exact exec_fetch_none (I := I) (d := ⟨.initialize, 28, [L, Nr], [xr]⟩) (ds := initBody.drop 9) hn
  · intro m hm x
    have hb := GridLife.body_again s hok m
    rw [← hF] at hb
    have hbt : exec I (body m) t = (t, true) := by
      cases m
      case «initialize» => exact absurd rfl hm
      case finite_difference_1d =>
        exact same fd1Body [i1, bcN, Na, Nr, ha, hr] (by decide) (by decide) (by decide) hb
      case finite_difference_2d =>
        exact same fd2Body [i2, bcN, Na, Nr, ha, hr] (by decide) (by decide) (by decide) hb
      case operators =>
        exact same opsBody
          [a, Xr, Xa, Nelem, Na, Nr, bcN, bc1, bc2, eDa1, eDa2, eDr1, eDr2, oDa1, oDa2, oDr1, oDr2]
          (by decide) (by decide) (by decide) hb
      case factorize_laplacian => exact same facBody [elap] (by decide) (by decide) (by decide) hb
      all_goals rfl
    have hu : L ∉ uses m := by cases m <;> decide
    have hf : fetch t (uses m) = fetch F (uses m) :=
      fetch_congr fun q hq => (htL q (fun h => hu (h ▸ hq))).symm
    simp only [call, hb, hbt, hf]
    split
    · rfl
    split
    · rfl
    split
    · rfl
    split <;> rfl

end

/-- What the attributes of an initialised grid are functions of.  The extent along the axis (`NP`, `NMa`) and across it
(`NP`, `NMr`, `L`) first meet in the arrays with one entry per grid point. -/
def Spec.fedBy : Attr → List Attr
  | NP => [NP] | NMa => [NMa] | NMr => [NMr] | a => [a] | L => [L] | i1 => [i1] | i2 => [i2]
  | R | DISP => []
  | Na | xa | ha => [NP, NMa]
  | Nr => [NP, NMr]
  | xr | hr => [NP, NMr, L]
  | Nelem | wi => [NP, NMa, NMr]
  | Xa | Xr => [NP, NMa, NMr, L]
  | Y | Z | w | f | h1 | h2 | h3 => [NP, NMa, NMr, a, L]
  | d1 => [i1] | d2 => [i2]
  | bcN => [i1, i2]
  | bc1 | bc2 => [NP, NMr, L, i1, i2]
  | eDa1 | eDa2 | oDa1 | oDa2 => [NP, NMa, NMr, i1, i2]
  | eDr1 | eDr2 | oDr1 | oDr2 | bXa | bXr => [NP, NMa, NMr, L, i1, i2]
  | elap | olap | grada | gradr | diva | divr | blap | L_lap | U_lap => [NP, NMa, NMr, a, L, i1, i2]

namespace GridLife

/-- The attributes that a change of the attributes `X` can reach. -/
def taint (X : List Attr) : List Stmt → List Attr
  | [] => X
  | c :: cs => if c.reads.any fun q => decide (q ∈ X) then taint (c.writes ++ X) cs
      else taint (X.filter fun q => decide (q ∉ c.writes)) cs

/-- Every statement computes whether it read `true`. -/
def anyTrue : Interp Bool := fun _ _ vs => some fun _ => vs.any id

theorem fetch_full (X qs : List Attr) :
    fetch (fun q => some (decide (q ∈ X))) qs = some (qs.map fun q => decide (q ∈ X)) := by
  induction qs with
  | nil => rfl
  | cons q qs ih => simp [fetch, ih]

theorem exec_taint (b : List Stmt) (X : List Attr) :
    exec anyTrue b (fun q => some (decide (q ∈ X))) = (fun q => some (decide (q ∈ taint X b)), true) := by
  induction b generalizing X with
  | nil => rfl
  | cons c cs ih =>
    rw [exec_step (fetch_full X c.reads) rfl, taint]
    have e : (c.reads.map fun q => decide (q ∈ X)).any id = c.reads.any fun q => decide (q ∈ X) := by
      rw [List.any_map]; rfl
    simp only [e]
    split
    · rename_i hr
      rw [← ih]
      congr 1
      funext q
      by_cases hq : q ∈ c.writes <;> simp [assign, hq, hr]
    · rename_i hr
      rw [Bool.not_eq_true] at hr
      rw [← ih]
      congr 1
      funext q
      by_cases hq : q ∈ c.writes <;> simp [assign, hq, hr]

/-- All attributes. -/
def everything : List Attr :=
  [NP, NMa, NMr, Na, Nr, Nelem, xa, xr, Xa, Xr, ha, hr, Y, Z, a, R, L, w, wi, f, d1, i1, d2, i2, eDa1, eDa2, eDr1, eDr2,
    oDa1, oDa2, oDr1, oDr2, elap, olap, grada, gradr, diva, divr, bcN, bc1, bc2, blap, bXa, bXr, h1, h2, h3, L_lap, U_lap,
    DISP]

theorem mem_everything (x : Attr) : x ∈ everything := by
  cases x <;> decide +kernel

/-- All attributes but one. -/
def others (q : Attr) : List Attr := everything.filter fun x => decide (x ≠ q)

theorem mem_others {q x : Attr} (h : x ∈ others q) : x ≠ q := by
  unfold others at h
  simpa using (List.mem_filter.1 h).2

end GridLife

/-- **C130 (what depends on what).**  A parameter `q` is one on which the attribute `x` of an initialised grid depends
if and only if a change of `q` alone can change `x`, whatever the statements of `initialize` compute. -/
theorem C130_depends (x q : Attr) (hq : q ∈ Spec.gridParams) :
    q ∈ Spec.fedBy x ↔ ∃ (V : Type) (I : Interp V) (s : State V) (v : V),
      (exec I initBody s).2 = true ∧ (exec I initBody (put s q (some v))).2 = true ∧
        (exec I initBody s).1 x ≠ (exec I initBody (put s q (some v))).1 x := by
  constructor
  · intro h
    refine ⟨Bool, anyTrue, fun y => some (decide (y ∈ [q])), false, ?_, ?_, ?_⟩
    · rw [exec_taint]
    · have e : put (fun y => some (decide (y ∈ [q]))) q (some false) = fun y => some (decide (y ∈ ([] : List Attr))) := by
        funext y
        by_cases hy : y = q <;> simp [put, hy]
      rw [e, exec_taint]
    · have e : put (fun y => some (decide (y ∈ [q]))) q (some false) = fun y => some (decide (y ∈ ([] : List Attr))) := by
        funext y
        by_cases hy : y = q <;> simp [put, hy]
      rw [e, exec_taint, exec_taint]
      have h0 : taint [] initBody = [] := by decide +kernel
      rw [h0]
      have h1 : x ∈ taint [q] initBody := by
        have key : ∀ q ∈ Spec.gridParams, ∀ x : Attr, q ∈ Spec.fedBy x → x ∈ taint [q] initBody := by
          have k : ∀ q ∈ Spec.gridParams, ∀ x ∈ everything, q ∈ Spec.fedBy x → x ∈ taint [q] initBody := by decide +kernel
          exact fun q hq x => k q hq x (mem_everything x)
        exact key q hq x h
      simp [h1]
  · rintro ⟨V, I, s, v, h1, h2, h3⟩
    by_contra h
    refine h3 (exec_flow (I := I) initBody (X := others q) (fun y hy => ?_) h1 h2 x ?_)
    · simp [put, mem_others hy]
    · have key : ∀ q ∈ Spec.gridParams, ∀ x : Attr, q ∉ Spec.fedBy x → x ∈ flow (others q) initBody := by
        have k : ∀ q ∈ Spec.gridParams, ∀ x ∈ everything, q ∉ Spec.fedBy x → x ∈ flow (others q) initBody := by decide +kernel
        exact fun q hq x => k q hq x (mem_everything x)
      exact key q hq x h

namespace Sample130

/-- Every statement computes the first value it reads, and nothing raises. -/
def first : Interp ℕ := fun _ _ vs => some fun _ => vs.headD 0

/-- Every method answers with the sum of the values it reads. -/
def total : Answer ℕ := fun _ x vs => some (x + vs.sum)

/-- A grid with `NP = 7`, `NM = [4, 5]`, `a = 2`, `L = 10` and stencil number `3`. -/
abbrev g : State ℕ := fresh 7 4 5 2 10 3 1

/-- `initialize` succeeds on it: the hypothesis of the theorems above is met. -/
theorem ok : (exec first initBody g).2 = true := by decide +kernel

/-- Before `initialize` the volume element is `None` and `integrate` raises; after it, it answers. -/
example : (call first total .integrate 0 g).2 = .raised ∧
    (calls first total [(.initialize, 0), (.integrate, 0)] g).2 = [.nothing, .value 26] := by decide +kernel

/-- `operators` alone on a new grid raises, `spinflip` does not. -/
example : (calls first total [(.operators, 0), (.spinflip, 5), (.finite_difference_1d, 0)] g).2 =
    [.raised, .value 5, .raised] := by decide +kernel

/-- The first derivative coefficients are there although `finite_difference_1d` raised. -/
example : (call first total .finite_difference_1d 0 g).1 d1 = some 3 := by decide +kernel

end Sample130

/-- **C130 (the pieces are not enough).**  There are an arithmetic, an initialised grid and a new `a` with which
`initialize` succeeds, such that after `operators()` and `factorize_laplacian` the volume element is still that of
the old `a`, and `integrate` shows it. -/
theorem C130_refuted_pieces : ∃ (I : Interp ℕ) (A : Answer ℕ) (s : State ℕ) (v : ℕ),
    (exec I initBody s).2 = true ∧ (exec I initBody (put s a (some v))).2 = true ∧
    (exec I (opsBody ++ facBody) (put s a (some v))).1 w ≠ (exec I initBody (put s a (some v))).1 w ∧
    (calls I A [(.operators, 0), (.factorize_laplacian, 0), (.integrate, 0)] (put s a (some v))).2 ≠
      (calls I A [(.initialize, 0), (.factorize_laplacian, 0), (.integrate, 0)] (put s a (some v))).2 :=
  ⟨Sample130.first, Sample130.total, (exec Sample130.first initBody Sample130.g).1, 9,
    by decide +kernel, by decide +kernel, by decide +kernel, by decide +kernel⟩

/-- **C130 (by how much).**  The volume element of `initialize` scales with the cube of `a` at every point, so after
the pieces alone every integral is that of the new grid times `(old a / new a)³`. -/
theorem C130_volume (Na Nr : ℕ) (a₀ a₁ L : ℝ) (h : a₁ ≠ 0) (k : Fin (Na * Nr)) :
    Init.w Na Nr a₀ L k = (a₀ / a₁) ^ 3 * Init.w Na Nr a₁ L k := by
  simp only [Init.w, Init.mir]
  field_simp

/-- **C130 (a failing `initialize` mixes).**  With `NP` changed and `L` lost, `initialize` raises half way: the
object then has the new number of points and the old radial coordinates and weights. -/
theorem C130_refuted_atomic : ∃ (I : Interp ℕ) (s : State ℕ),
    (exec I initBody s).2 = true ∧
    (exec I initBody (put (put s NP (some 8)) L none)).2 = false ∧
    (exec I initBody (put (put s NP (some 8)) L none)).1 Nelem ≠ s Nelem ∧
    (exec I initBody (put (put s NP (some 8)) L none)).1 xr = s xr ∧
    (exec I initBody (put (put s NP (some 8)) L none)).1 wi = s wi :=
  ⟨Sample130.first, (exec Sample130.first initBody Sample130.g).1,
    by decide +kernel, by decide +kernel, by decide +kernel, by decide +kernel, by decide +kernel⟩

end Verif
