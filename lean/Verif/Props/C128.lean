import Verif.Model.SharingCode
import Verif.Lemmas.Sharing

/-!
# C128 — Arrays taken from the objects keep their content

numpy arrays are shared: `v = KS.veff`, `solver.veff = veff[:, j]`, `KS.vext = vp` copy nothing, and `x += …` changes
the array for everyone.  A caller who keeps `n = KS.n` from one calculation expects it to stay as it is when another
one runs, and every other file of this development treats arrays as values.  Both are right for the methods in
`methods`: whatever is shared when they are called, only the names they assign to change, and what can be read
afterwards is what it would be if nothing were shared.

It is wrong for `orbitalinvert`, which reuses the array of the first inversion, for `iter_orbitals` called directly,
and for `simple`, where the potential of the solver changes before it is set.
-/

namespace Verif

open Sharing

/-! ## Statement -/

/-- A method called on an object: no array changes unless it is under a name the method assigns to. -/
def Spec.Isolated (d : Nat) (p : Prog) : Prop :=
  ∀ (A : Type) (I : Interp A) (k : Nat) (s : Heap A) (obj : List Nat) (ops : List (Op Name)) (done : Bool),
    obj.length = d → Exec obj p ops done →
      ∀ z : Name, (∀ o ∈ ops, o.target ≠ z) → (Heap.run I k ops s).view z = s.view z

/-- What can be read after the method is what can be read if every name has a value of its own. -/
def Spec.ByValue (d : Nat) (p : Prog) : Prop :=
  ∀ (A : Type) (I : Interp A) (k : Nat) (s : Heap A) (obj : List Nat) (ops : List (Op Name)) (done : Bool),
    obj.length = d → Exec obj p ops done → (Heap.run I k ops s).view = Vals.run I k ops s.view

/-- A script: calls of methods on any objects, completed or stopped by an exception that is caught, and in between
the caller takes arrays into variables or makes new ones. -/
inductive Spec.Script (ms : List (Nat × Prog)) : List (Op Name) → Prop
  | nil : Spec.Script ms []
  | call {l l' : List (Op Name)} (d : Nat) (p : Prog) (obj : List Nat) (done : Bool) :
      Spec.Script ms l → (d, p) ∈ ms → obj.length = d → Exec obj p l' done → Spec.Script ms (l ++ l')
  | take {l : List (Op Name)} (j : Nat) (y : Name) :
      Spec.Script ms l → Spec.Script ms (l ++ [.bind (.user j) y])
  | make {l : List (Op Name)} (j : Nat) : Spec.Script ms l → Spec.Script ms (l ++ [.fresh (.user j)])

/-! ## The methods -/

theorem methods_pass : (methods.all fun m => (check m.1 [] m.2).isSome) = true := by decide +kernel

/-- **C128, the methods.**  The methods to which the theorems apply. -/
theorem C128_methods :
    (∀ p ∈ [gridInitialize, finiteDifference1d, finiteDifference2d, operators, pNuclear, mirrorAB, calcProtomolecule, calcQ,
      vpNuclear, vpKinetic, vpHxc, vpOverlap, ensCorHar, epKinetic, epHxc, partitionEnergy, pEnergy, initialGuess,
      partitionPotential, pScf, getTs, getVt, linresponse (L .arg) (L .tmp)], (1, p) ∈ methods) ∧
    (∀ p ∈ [ksNuclear, setEffectivePotential, setVeffExternal, ksDensity, ksEnergy, calcHxc, ksScf], (2, p) ∈ methods) ∧
    ∀ p ∈ [hamiltonian, calcOrbitals, solverDensity, solverEnergy, calcResponse, calcKed], (3, p) ∈ methods := by
  unfold methods
  simp only [List.forall_mem_cons, List.not_mem_nil, false_imp_iff, implies_true, and_true]
  simp only [List.mem_cons, true_or, or_true, and_self]

theorem C128_values {d : Nat} {p : Prog} (h : (d, p) ∈ methods) : Spec.ByValue d p := by
  intro A I k s obj ops done hd e
  have hc := List.all_eq_true.mp methods_pass _ h
  obtain ⟨V, hV⟩ := Option.isSome_iff_exists.mp hc
  rw [← hd] at hV
  exact (run_agrees e hV I k s fun x hx => by simp at hx).1

theorem C128_partial {d : Nat} {p : Prog} (h : (d, p) ∈ methods) : Spec.Isolated d p := by
  intro A I k s obj ops done hd e z hz
  rw [C128_values h A I k s obj ops done hd e]
  exact vals_run_other I ops k s.view z hz

/-- Methods assign to attributes and their own variables only. -/
theorem exec_target {obj : List Nat} {p : Prog} {ops : List (Op Name)} {done : Bool} (e : Exec obj p ops done) :
    ∀ o ∈ ops, ∀ j, o.target ≠ .user j := by
  induction e with
  | op env o =>
    intro o' ho' j
    rw [List.mem_singleton.mp ho']
    cases o <;> simp [Op.map, Op.target, Sym.at]
  | seq _ _ ih ih' =>
    intro o ho j
    rcases List.mem_append.mp ho with h | h
    exacts [ih o h j, ih' o h j]
  | loopStep _ _ _ ih ih' =>
    intro o ho j
    rcases List.mem_append.mp ho with h | h
    exacts [ih o h j, ih' o h j]
  | seqStop _ ih => exact ih
  | altL _ ih => exact ih
  | altR _ ih => exact ih
  | loopStop _ _ ih => exact ih
  | stop => simp
  | skip => simp
  | loopEnd => simp

/-- The variables of the caller keep their arrays and the arrays keep their content during a call. -/
theorem C128_caller_partial {d : Nat} {p : Prog} (h : (d, p) ∈ methods) {A : Type} (I : Interp A) (k : Nat)
    (s : Heap A) {obj : List Nat} {ops : List (Op Name)} {done : Bool} (hd : obj.length = d)
    (e : Exec obj p ops done) (j : Nat) : (Heap.run I k ops s).view (.user j) = s.view (.user j) :=
  C128_partial h A I k s obj ops done hd e _ fun o ho => exec_target e o ho j

/-- A whole script can be read with arrays as values. -/
theorem C128_script_partial {A : Type} {ops : List (Op Name)} (h : Spec.Script methods ops) (I : Interp A) (k : Nat)
    (s : Heap A) : (Heap.run I k ops s).view = Vals.run I k ops s.view := by
  induction h with
  | nil => rfl
  | call d p obj done _ hm hd e ih =>
    rw [heap_run_append, vals_run_append, C128_values hm A I _ _ obj _ done hd e, ih]
  | take j y _ ih =>
    rw [heap_run_append, vals_run_append, ← ih]
    exact view_bind I _ _ _ _
  | make j _ ih =>
    rw [heap_run_append, vals_run_append, ← ih]
    exact view_fresh I _ _ _

/-- What the caller keeps in `user j` stays the same until the caller assigns to `user j` again. -/
theorem C128_kept_partial {A : Type} {before after : List (Op Name)} (h : Spec.Script methods (before ++ after))
    (hb : Spec.Script methods before) (j : Nat) (hj : ∀ o ∈ after, o.target ≠ .user j) (I : Interp A) (s : Heap A) :
    (Heap.run I 0 (before ++ after) s).view (.user j) = (Heap.run I 0 before s).view (.user j) := by
  rw [C128_script_partial h I 0 s, C128_script_partial hb I 0 s, vals_run_append]
  exact vals_run_other I after _ _ _ hj

/-! ## Examples -/

namespace Sample128

/-- Nothing allocated yet. -/
def empty : Heap Nat := ⟨fun _ => none, fun _ => 0, 0, fun _ _ h => by simp at h⟩

/-- The `k`-th statement computes the content `10 + k`; slices show the whole array. -/
def I : Interp Nat := ⟨fun k _ => 10 + k, fun _ => Lens.whole Nat⟩

abbrev sveff : Name := (S .sveff).at [0, 0, 0]
abbrev veff : Name := (K .veff).at [0, 0]
abbrev naFrac : Name := (P .naFrac).at [0]
abbrev nbFrac : Name := (P .nbFrac).at [0]
abbrev nf : Name := (P .nf).at [0]

/-- `set_effective_potential` with one solver -/
def setOps : List (Op Name) := [.fresh veff, .bind sveff veff]

theorem setOps_exec : Exec [0, 0] setEffectivePotential setOps true :=
  Exec.seq (Exec.op [0, 0] (.fresh (K .veff)))
    (Exec.loopStep (l := [.bind sveff veff]) (l' := []) 0 (Exec.op [0, 0, 0] (.bind (S .sveff) (K .veff)))
      (Exec.loopEnd _ _ _))

/-- `calc_protomolecule` with one pair of fragments -/
def protoOps : List (Op Name) :=
  [.fresh naFrac, .fresh nbFrac, .write naFrac, .write nbFrac, .fresh nf]

theorem protoOps_exec : Exec [0] calcProtomolecule protoOps true :=
  Exec.seq (Exec.op _ (.fresh (P .naFrac))) (Exec.seq (Exec.op _ (.fresh (P .nbFrac)))
    (Exec.seq (l := [.write naFrac, .write nbFrac]) (l' := [.fresh nf])
      (Exec.loopStep (l := [.write naFrac, .write nbFrac]) (l' := []) 0
        (Exec.seq (Exec.op _ (.write (P .naFrac))) (Exec.op _ (.write (P .nbFrac)))) (Exec.loopEnd _ _ _))
      (Exec.seq (l := []) (Exec.altR (Exec.skip _)) (Exec.op _ (.fresh (P .nf))))))

/-- The caller keeps `na_frac` from a first call and calls again. -/
def script : List (Op Name) := protoOps ++ [.bind (.user 0) naFrac] ++ protoOps

theorem script_ok : Spec.Script methods script :=
  .call 1 _ [0] true
    (.take 0 naFrac (.call (l := []) 1 _ [0] true .nil (by simp [methods]) rfl protoOps_exec))
    (by simp [methods]) rfl protoOps_exec

end Sample128

open Sample128 in
/-- After the first call `na_frac` is 12 (computed by the third statement); after the second it is 18 and the caller
still has 12. -/
example : (Heap.run I 0 script empty).view (.user 0) = some 12 ∧
    (Heap.run I 0 script empty).view naFrac = some 18 := by
  rw [C128_script_partial script_ok]
  exact ⟨by decide +kernel, by decide +kernel⟩

open Sample128 in
/-- Sharing is really there: after `set_effective_potential` solver and `Kohnsham` object hold one array. -/
example : ((Heap.run I 0 setOps empty).ref sveff).map (·.1) = ((Heap.run I 0 setOps empty).ref veff).map (·.1) ∧
    ((Heap.run I 0 setOps empty).ref veff).isSome = true := by
  exact ⟨by decide +kernel, by decide +kernel⟩

/-! ## Where it fails -/

namespace Sample128

abbrev ivs : Name := (P .ivs).at [0]
abbrev ius : Name := (P .ius).at [0]
abbrev x1 : Name := (L .loc1).at [0]
abbrev x2 : Name := (L .loc2).at [0]

/-- The first call of `orbitalinvert` for an inverter without solvers to update: `vs` and `us` are allocated. -/
def invert1 : List (Op Name) :=
  [.fresh ivs, .fresh ius, .fresh x1, .fresh x2, .write x1, .write ivs]

/-- The second call: they exist. -/
def invert2 : List (Op Name) := [.fresh x1, .fresh x2, .write x1, .write ivs]

theorem symmetrize_exec : Exec [0] symmetrizeX [.fresh x2, .write x1] true :=
  Exec.seq (l := []) (Exec.altR (Exec.skip _))
    (Exec.seq (Exec.op _ (.fresh (L .loc2))) (Exec.op _ (.write (L .loc1))))

/-- What follows the allocation, with no rounds of the loop. -/
theorem tail_exec {l : List (Op Name)} (h : Exec [0] (opt (block [new (P .ivs), new (P .ius)])) l true) :
    Exec [0] orbitalInvert (l ++ [.fresh x1, .fresh x2, .write x1, .write ivs]) true :=
  Exec.seq h (Exec.seq (l := []) (Exec.loopEnd _ _ _) (Exec.seq (Exec.op _ (.fresh (L .loc1)))
    (Exec.seq symmetrize_exec (Exec.seq (l := []) (Exec.loopEnd _ _ _)
      (Exec.seq (Exec.op _ (.write (P .ivs)))
        (Exec.seq (l := []) (l' := []) (Exec.loopEnd _ _ _) (Exec.loopEnd _ _ _)))))))

theorem invert1_exec : Exec [0] orbitalInvert invert1 true :=
  tail_exec (l := [.fresh ivs, .fresh ius])
    (Exec.altL (Exec.seq (Exec.op _ (.fresh (P .ivs))) (Exec.op _ (.fresh (P .ius)))))

theorem invert2_exec : Exec [0] orbitalInvert invert2 true := tail_exec (l := []) (Exec.altR (Exec.skip _))

abbrev sphi : Name := (S .sphi).at [0, 0, 0]
abbrev seig : Name := (S .seig).at [0, 0, 0]

/-- `calc_orbitals` -/
def orbitalOps : List (Op Name) := [.fresh seig, .fresh sphi]

theorem orbitalOps_exec : Exec [0, 0, 0] calcOrbitals orbitalOps true :=
  Exec.altL (Exec.seq (l := []) (Exec.altR (Exec.skip _)) (Exec.seq (Exec.op _ (.fresh (S .seig)))
    (Exec.seq (l' := []) (Exec.op _ (.fresh (S .sphi))) (Exec.seq (l := []) (l' := []) (Exec.loopEnd _ _ _)
      (Exec.seq (l := []) (l' := []) (Exec.loopEnd _ _ _) (Exec.altR (Exec.skip _)))))))

/-- `iter_orbitals` for one orbital -/
def iterOps : List (Op Name) := [.write sphi, .write seig, .write sphi]

theorem iterOps_exec : Exec [0, 0, 0] iterOrbitals iterOps true :=
  Exec.altL (Exec.seq (l := []) (Exec.altR (Exec.skip _))
    (Exec.loopStep (l := iterOps) (l' := []) 0
      (Exec.seq (Exec.op _ (.write (S .sphi))) (Exec.seq (Exec.op _ (.write (S .seig)))
        (Exec.loopStep (l := [.write sphi]) (l' := []) 0 (Exec.op _ (.write (S .sphi))) (Exec.loopEnd _ _ _))))
      (Exec.loopEnd _ _ _)))

abbrev x8 : Name := (L .loc8).at [0]

/-- `simple` with one solver for which no orbitals are wanted, up to the first update of the potential -/
def simpleOps : List (Op Name) :=
  [.fresh x8, .write x8, .bind ivs x8, .bind sveff ivs, .fresh seig, .fresh x1, .bind x1 x1, .fresh x2, .write ivs]

theorem simpleOps_exec : Exec [0] simpleInvert simpleOps true := by
  have round : Exec [0] (each (each (block [set (S .sveff) (P .ivs), calcOrbitals])))
      [.bind sveff ivs, .fresh seig] true :=
    Exec.loopStep (l := [.bind sveff ivs, .fresh seig]) (l' := []) 0
      (Exec.loopStep (l := [.bind sveff ivs, .fresh seig]) (l' := []) 0
        (Exec.seq (Exec.op [0, 0, 0] (.bind (S .sveff) (P .ivs))) (Exec.altR (Exec.op _ (.fresh (S .seig)))))
        (Exec.loopEnd _ _ _)) (Exec.loopEnd _ _ _)
  exact Exec.seq (Exec.op _ (.fresh (L .loc8))) (Exec.seq (Exec.op _ (.write (L .loc8)))
    (Exec.seq (l := []) (Exec.loopEnd _ _ _) (Exec.seq (Exec.op _ (.bind (P .ivs) (L .loc8)))
      (Exec.loopStep (env := [0]) (inner := false) (l' := []) 0
        (Exec.seq round (Exec.seq (Exec.op _ (.fresh (L .loc1))) (Exec.seq (l := []) (Exec.loopEnd _ _ _)
          (Exec.seq (Exec.op _ (.bind (L .loc1) (L .loc1)))
            (Exec.seq (Exec.op _ (.fresh (L .loc2))) (Exec.op _ (.write (P .ivs))))))))
        (Exec.loopEnd _ _ _)))))

end Sample128

open Sample128 in
/-- `v = inverter.vs` taken after a first `orbitalinvert` has the content of the second after the second. -/
theorem C128_refuted_orbitalinvert : ¬ Spec.Isolated 1 orbitalInvert ∧
    (Heap.run I 0 (invert1 ++ [.bind (.user 0) ivs]) empty).view (.user 0) = some 15 ∧
    (Heap.run I 0 (invert1 ++ [.bind (.user 0) ivs] ++ invert2) empty).view (.user 0) = some 20 := by
  have h1 : (Heap.run I 0 (invert1 ++ [.bind (.user 0) ivs]) empty).view (.user 0) = some 15 := by decide +kernel
  have h2 : (Heap.run I 0 (invert1 ++ [.bind (.user 0) ivs] ++ invert2) empty).view (.user 0) = some 20 := by
    decide +kernel
  refine ⟨fun h => ?_, h1, h2⟩
  have := h Nat I 7 (Heap.run I 0 (invert1 ++ [.bind (.user 0) ivs]) empty) [0] invert2 true rfl invert2_exec
    (.user 0) (by decide +kernel)
  rw [h1] at this
  rw [heap_run_append] at h2
  have h3 := h2.symm.trans this
  simp at h3

open Sample128 in
/-- `phi = solver.phi` taken after `calc_orbitals` is changed by a direct call of `iter_orbitals`. -/
theorem C128_refuted_iter : ¬ Spec.Isolated 3 iterOrbitals ∧
    (Heap.run I 0 (orbitalOps ++ [.bind (.user 0) sphi]) empty).view (.user 0) = some 11 ∧
    (Heap.run I 0 (orbitalOps ++ [.bind (.user 0) sphi] ++ iterOps) empty).view (.user 0) = some 15 := by
  have h1 : (Heap.run I 0 (orbitalOps ++ [.bind (.user 0) sphi]) empty).view (.user 0) = some 11 := by
    decide +kernel
  have h2 : (Heap.run I 0 (orbitalOps ++ [.bind (.user 0) sphi] ++ iterOps) empty).view (.user 0) = some 15 := by
    decide +kernel
  refine ⟨fun h => ?_, h1, h2⟩
  have := h Nat I 3 (Heap.run I 0 (orbitalOps ++ [.bind (.user 0) sphi]) empty) [0, 0, 0] iterOps true rfl
    iterOps_exec (.user 0) (by decide +kernel)
  rw [h1] at this
  rw [heap_run_append] at h2
  have h3 := h2.symm.trans this
  simp at h3

open Sample128 in
/-- In `simple` the potential of the solver is the array that the update changes: it has the new content (18) before
`setveff` gives it to the solver, where the reading with values has the old one (11). -/
theorem C128_refuted_simple : ¬ Spec.ByValue 1 simpleInvert ∧
    (Heap.run I 0 simpleOps empty).view sveff = some 18 ∧ Vals.run I 0 simpleOps empty.view sveff = some 11 := by
  have h1 : (Heap.run I 0 simpleOps empty).view sveff = some 18 := by decide +kernel
  have h2 : Vals.run I 0 simpleOps empty.view sveff = some 11 := by decide +kernel
  refine ⟨fun h => ?_, h1, h2⟩
  have := congrFun (h Nat I 0 empty [0] simpleOps true rfl simpleOps_exec) sveff
  rw [h1, h2] at this
  simp at this

end Verif
