import Mathlib.Logic.Function.Basic

/-!
# Arrays that are shared

The other files treat numpy arrays as values.  In Python an assignment `x = y`, an argument and a basic slice
such as `veff[:,j]` share memory, and `x += …`, `x[…] = …`, `x *= …` change that memory for everyone who holds
it.  This file has the two readings side by side: `Heap` with addresses, and `Vals` where every name has its own
value, together with a small language for the statements of /repo that matter (`Prog`).

What an array holds is an arbitrary type `A`, and the numbers computed are arbitrary functions of everything that
can be read at that moment (`Interp`): the results hold whatever is computed.
-/

namespace Verif.Sharing

/-! ## Names -/

/-- Attributes and local variables that hold arrays. They come with a depth (`Sym.d`): 0 for
local variables, 1 for a grid, a partition or an inverter, 2 for the `Kohnsham` objects of a partition (one that
stands alone is numbered as if it had a partition of its own) and 3 for the orbital solvers. -/
inductive Attr
  -- grid (psgrid/initialize.py, finite_difference_1d.py, finite_difference_2d.py)
  | xa | xr | bXr | bXa | Xr | Xa | zz | yy | wi | w | f | d1 | d2 | oDa1 | oDr1 | eDa1 | eDr1 | oDa2 | oDr2
  | eDa2 | eDr2 | bc1 | bc2 | h1 | h2 | h3 | gradr | grada | diva | divr | elap | olap | blap
  -- orbital solver (pssolver.py 60-82)
  | sveff | sH0 | sphi | seig | sn | schi | sked
  -- Kohn-Sham object (kohnsham.py 71-103)
  | vnuc | vext | vhxc | veff | n | q | eks | vks | evals
  | kvx | kvc | kvh | kvp | kex | kec | keh | kvt | kts | kvpPot | kvpKin | kvpH | kvpX | kvpC | kvpHxc | kvhcor
  | kdSdn | kdFdn
  -- partition (partition.py 205-216, 306-390)
  | va | vb | pvext | naFrac | nbFrac | nf | pvp | pvpPot | pvpKin | pvpHxc | pvpH | pvpX | pvpC | pvh | pvx | pvc
  | pvt | epsX | epsC | ptsm | pvs | phi1 | phi2 | vtsm | epH | epX | epC | epKin | eksf | evalsA | evalsB
  -- inverter (inverter.py 103-117)
  | ivs | ius | in0 | iB
  -- local variables and parameters
  | arg | ret | nout | oldN | tmp | loc1 | loc2 | loc3 | loc4 | loc5 | loc6 | loc7 | loc8
  deriving DecidableEq, Repr

/-- A name of the running program: a variable of the caller, or an attribute of the object with the given
indices. -/
inductive Name
  | user (k : Nat)
  | lib (a : Attr) (d : Nat) (ix : List Nat)
  deriving DecidableEq, Repr

/-- A name in the program text: attribute `a` of the object selected by the outermost `d` loop indices. -/
structure Sym where
  a : Attr
  d : Nat
  deriving DecidableEq, Repr

/-- The name meant in a loop with indices `env`. -/
def Sym.at (x : Sym) (env : List Nat) : Name := .lib x.a x.d (env.take x.d)

/-! ## Statements -/

/-- One statement, after the loop indices have been filled in. -/
inductive Op (N : Type)
  /-- `x = <expression>`: a newly allocated array -/
  | fresh (x : N)
  /-- `x = y`, `x = y[:, j]`, `f(y)` with parameter `x`: no copy -/
  | bind (x y : N)
  /-- `x[…] = …`, `x += …`, `x *= …` -/
  | write (x : N)
  /-- `x = None` -/
  | drop (x : N)
  deriving DecidableEq, Repr

def Op.map {N M : Type} (g : N → M) : Op N → Op M
  | .fresh x => .fresh (g x)
  | .bind x y => .bind (g x) (g y)
  | .write x => .write (g x)
  | .drop x => .drop (g x)

/-- The name a statement assigns to. -/
def Op.target {N : Type} : Op N → N
  | .fresh x => x
  | .bind x _ => x
  | .write x => x
  | .drop x => x

/-- A method of /repo, reduced to what it does with arrays.  `alt` is an `if` whose condition is left open,
`loop` a `for` or `while` loop with any number of rounds; in `loop true` the index of a round selects the object
of the next depth. -/
inductive Prog
  | skip
  | op (o : Op Sym)
  | seq (p q : Prog)
  | alt (p q : Prog)
  | loop (inner : Bool) (p : Prog)

/-- The loop indices inside a loop. -/
def within (inner : Bool) (env : List Nat) (i : Nat) : List Nat := if inner then env ++ [i] else env

/-- `Exec env p ops done`: in a loop with indices `env` the program `p` can execute the statements `ops`; `done`
tells whether it has finished. An execution may stop anywhere, as after an exception. -/
inductive Exec : List Nat → Prog → List (Op Name) → Bool → Prop
  | stop (env : List Nat) (p : Prog) : Exec env p [] false
  | skip (env : List Nat) : Exec env .skip [] true
  | op (env : List Nat) (o : Op Sym) : Exec env (.op o) [o.map (·.at env)] true
  | seqStop {env : List Nat} {p q : Prog} {l : List (Op Name)} : Exec env p l false → Exec env (.seq p q) l false
  | seq {env : List Nat} {p q : Prog} {l l' : List (Op Name)} {b : Bool} :
      Exec env p l true → Exec env q l' b → Exec env (.seq p q) (l ++ l') b
  | altL {env : List Nat} {p q : Prog} {l : List (Op Name)} {b : Bool} : Exec env p l b → Exec env (.alt p q) l b
  | altR {env : List Nat} {p q : Prog} {l : List (Op Name)} {b : Bool} : Exec env q l b → Exec env (.alt p q) l b
  | loopEnd (env : List Nat) (inner : Bool) (p : Prog) : Exec env (.loop inner p) [] true
  | loopStop {env : List Nat} {inner : Bool} {p : Prog} {l : List (Op Name)} (i : Nat) :
      Exec (within inner env i) p l false → Exec env (.loop inner p) l false
  | loopStep {env : List Nat} {inner : Bool} {p : Prog} {l l' : List (Op Name)} {b : Bool} (i : Nat) :
      Exec (within inner env i) p l true → Exec env (.loop inner p) l' b → Exec env (.loop inner p) (l ++ l') b

/-! ## What the statements do -/

/-- A part of an array: how to read it, and how a new content of the part changes the whole array. -/
structure Lens (A : Type) where
  get : A → A
  put : A → A → A
  get_put : ∀ a v, get (put a v) = v

/-- The whole array. -/
def Lens.whole (A : Type) : Lens A := ⟨id, fun _ v => v, fun _ _ => rfl⟩

/-- A part of a part. -/
def Lens.comp {A : Type} (L M : Lens A) : Lens A where
  get a := M.get (L.get a)
  put a v := L.put a (M.put (L.get a) v)
  get_put a v := by rw [L.get_put, M.get_put]

/-- What can be read: the content of the array held by each name. -/
abbrev Vals (A : Type) : Type := Name → Option A

/-- The numbers: for the `k`-th statement executed, the content computed from what can be read, and the part
selected by a slice. -/
structure Interp (A : Type) where
  val : Nat → Vals A → A
  part : Nat → Lens A

/-- Memory: for each name the address of an array and the part of it that the name shows. -/
structure Heap (A : Type) where
  ref : Name → Option (Nat × Lens A)
  mem : Nat → A
  next : Nat
  bound : ∀ x r, ref x = some r → r.1 < next

/-- What can be read in a memory. -/
def Heap.view {A : Type} (s : Heap A) : Vals A := fun x => (s.ref x).map fun r => r.2.get (s.mem r.1)

/-- The effect of the `k`-th statement on the memory. -/
def Heap.step {A : Type} (I : Interp A) (k : Nat) (s : Heap A) : Op Name → Heap A
  | .fresh x =>
    { ref := Function.update s.ref x (some (s.next, Lens.whole A))
      mem := Function.update s.mem s.next (I.val k s.view)
      next := s.next + 1
      bound := by
        intro y r h
        by_cases hy : y = x
        · subst hy
          simp only [Function.update_self, Option.some.injEq] at h
          subst h
          exact Nat.lt_succ_self _
        · rw [Function.update_of_ne hy] at h
          exact Nat.lt_succ_of_lt (s.bound y r h) }
  | .bind x y =>
    { ref := Function.update s.ref x ((s.ref y).map fun r => (r.1, r.2.comp (I.part k)))
      mem := s.mem
      next := s.next
      bound := by
        intro z r h
        by_cases hz : z = x
        · subst hz
          rw [Function.update_self] at h
          cases hy : s.ref y with
          | none => simp [hy] at h
          | some t =>
            simp only [hy, Option.map_some, Option.some.injEq] at h
            subst h
            exact s.bound y t hy
        · rw [Function.update_of_ne hz] at h
          exact s.bound z r h }
  | .write x =>
    { ref := s.ref
      mem := match s.ref x with
        | none => s.mem
        | some r => Function.update s.mem r.1 (r.2.put (s.mem r.1) (I.val k s.view))
      next := s.next
      bound := s.bound }
  | .drop x =>
    { ref := Function.update s.ref x none
      mem := s.mem
      next := s.next
      bound := by
        intro z r h
        by_cases hz : z = x
        · subst hz; simp at h
        · rw [Function.update_of_ne hz] at h
          exact s.bound z r h }

/-- The statements `ops`, the first of which is the `k`-th of the run. -/
def Heap.run {A : Type} (I : Interp A) : Nat → List (Op Name) → Heap A → Heap A
  | _, [], s => s
  | k, o :: ops, s => Heap.run I (k + 1) ops (s.step I k o)

/-- The effect of a statement when every name has a value of its own: only the target changes. -/
def Vals.step {A : Type} (I : Interp A) (k : Nat) (σ : Vals A) : Op Name → Vals A
  | .fresh x => Function.update σ x (some (I.val k σ))
  | .bind x y => Function.update σ x ((σ y).map (I.part k).get)
  | .write x => Function.update σ x ((σ x).map fun _ => I.val k σ)
  | .drop x => Function.update σ x none

def Vals.run {A : Type} (I : Interp A) : Nat → List (Op Name) → Vals A → Vals A
  | _, [], σ => σ
  | k, o :: ops, σ => Vals.run I (k + 1) ops (Vals.step I k σ o)

/-! ## A check on the program text

Not part of the claims: it is what the proof computes with. -/

/-- The names of `U` that are also in `V`. -/
def both (U V : List Sym) : List Sym := U.filter (V.contains ·)

/-- Does the program contain an assignment without copy from or to `x`? -/
def shares (x : Sym) : Prog → Bool
  | .op (.bind y z) => y != z && (x == y || x == z)
  | .op _ => false
  | .skip => false
  | .seq p q => shares x p || shares x q
  | .alt p q => shares x p || shares x q
  | .loop _ p => shares x p

/-- Names known to be the only ones that hold their array, after a program that starts with `U`; `none` when an
array that may be shared is written to. `k` is the number of loops around the program. -/
def check : Nat → List Sym → Prog → Option (List Sym)
  | _, U, .skip => some U
  | _, U, .op (.fresh x) => some (x :: U.filter (· != x))
  | _, U, .op (.bind x y) => if x = y then some U else some (U.filter fun z => z != x && z != y)
  | _, U, .op (.write x) => if U.contains x then some U else none
  | _, U, .op (.drop x) => some (x :: U.filter (· != x))
  | k, U, .seq p q => (check k U p).bind fun V => check k V q
  | k, U, .alt p q => (check k U p).bind fun V => (check k U q).map fun W => both V W
  | k, U, .loop inner p =>
    let V := U.filter fun x => decide (x.d ≤ k) && !shares x p
    (check (if inner then k + 1 else k) V p).bind fun W => if V.all (W.contains ·) then some V else none

end Verif.Sharing
