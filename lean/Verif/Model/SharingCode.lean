import Verif.Model.Sharing

/-!
# The methods of /repo, reduced to what they do with arrays

Each definition follows the lines it cites statement by statement.  Left out: numbers (floats, integers, flags),
expressions that only read, and printing.  Calls into numpy, scipy and libxc return newly allocated arrays, except
slices, `reshape`, `np.flip`, `[:, None]`, which are `bind`.  `np.append`, `hstack`, `copy()` and every arithmetic
expression allocate.  `x += y` on a float is an assignment, so the first `+=` of an accumulator that starts at
`0.0` is `fresh`.
-/

namespace Verif.Sharing

open Attr

/-! ## Notation -/

/-- local variable -/
abbrev L (a : Attr) : Sym := ⟨a, 0⟩
/-- attribute of a grid, partition or inverter -/
abbrev P (a : Attr) : Sym := ⟨a, 1⟩
/-- attribute of a `Kohnsham` object -/
abbrev K (a : Attr) : Sym := ⟨a, 2⟩
/-- attribute of an orbital solver -/
abbrev S (a : Attr) : Sym := ⟨a, 3⟩

abbrev new (x : Sym) : Prog := .op (.fresh x)
abbrev set (x y : Sym) : Prog := .op (.bind x y)
abbrev upd (x : Sym) : Prog := .op (.write x)
abbrev none_ (x : Sym) : Prog := .op (.drop x)
/-- an `if` without `else` -/
abbrev opt (p : Prog) : Prog := .alt p .skip
/-- a loop that does not change the object -/
abbrev rep (p : Prog) : Prog := .loop false p
/-- a loop over the objects of the next depth -/
abbrev each (p : Prog) : Prog := .loop true p

/-- statements in order -/
def block : List Prog → Prog
  | [] => .skip
  | [p] => p
  | p :: ps => .seq p (block ps)

/-- one of several branches -/
def oneOf : List Prog → Prog
  | [] => .skip
  | [p] => p
  | p :: ps => .alt p (oneOf ps)

/-! ## Grid (depth 1) -/

/-- finite_difference_1d.py 12-59 -/
def finiteDifference1d : Prog := block
  [ new (L loc1), set (P d1) (L loc1), new (L loc2), rep (upd (L loc2)), new (L loc3), new (L loc4),
    rep (block [upd (L loc3), upd (L loc4)]), new (L loc3), new (L loc4),
    new (P oDa1), new (P oDr1), upd (P oDa1), upd (P oDa1), upd (P oDa1), upd (P oDr1), upd (P oDr1),
    new (P eDa1), new (P eDr1), upd (P eDa1), upd (P eDa1), upd (P eDa1), upd (P eDr1), upd (P eDr1),
    new (P bc1) ]

/-- finite_difference_2d.py 13-58 -/
def finiteDifference2d : Prog := block
  [ new (L loc1), set (P d2) (L loc1), new (L loc2), rep (upd (L loc2)), new (L loc3), new (L loc4),
    rep (block [upd (L loc3), upd (L loc4)]),
    new (P oDa2), new (P oDr2), upd (P oDa2), upd (P oDa2), upd (P oDa2), upd (P oDr2), upd (P oDr2),
    new (P eDa2), new (P eDr2), upd (P eDa2), upd (P eDa2), upd (P eDa2), upd (P eDr2), upd (P eDr2),
    new (P bc2), new (P eDa2), new (P oDa2), new (P eDr2), new (P oDr2) ]

/-- NC.py 12-38 -/
def newtonCotes : Prog := block
  [ new (L loc1), new (L loc1), upd (L loc1), new (L loc2), set (L loc2) (L loc2),
    new (L loc3), upd (L loc3), upd (L loc3), rep (upd (L loc3)), set (L ret) (L loc3) ]

/-- operators.py 14-71 -/
def operators : Prog := block
  [ new (P h1), new (P h2), new (P h3), new (P h1), new (P h2), new (P h3), new (P gradr), new (P grada),
    new (P diva), new (P divr), set (L loc1) (P Xa), set (L loc2) (P Xr), set (L loc1) (L loc1),
    set (L loc2) (L loc2), new (P elap), new (P olap), new (P blap) ]

/-- initialize.py 22-86 -/
def gridInitialize : Prog := block
  [ new (P xa), new (P xa), set (P xa) (P xa), new (P xa), new (P xr), new (P xr), set (P xr) (P xr),
    new (P bXr), new (P bXr), new (P bXa), set (P bXa) (P bXa), set (P bXr) (P bXr),
    new (P Xr), new (P Xa), set (P Xa) (P Xa), set (P Xr) (P Xr),
    new (P zz), new (P yy), new (P zz), new (P yy),
    newtonCotes, set (L loc5) (L ret), newtonCotes, set (L loc6) (L ret), set (L loc5) (L loc5),
    set (L loc6) (L loc6), new (P wi), finiteDifference1d, finiteDifference2d, operators,
    new (P w), new (P w), new (P f), new (P f) ]

/-! ## Hartree and libxc -/

/-- `v_hartree(nh)` (hartree.py 24-80), the result in `ret` -/
def vHartree (nh : Sym) : Prog := block
  [ set (L arg) nh, opt (new (L arg)), new (L loc1), rep (upd (L loc1)), new (L loc2), set (L loc2) (L loc2),
    upd (L loc2), set (L loc2) (L loc2), new (L loc3), upd (L loc3), opt (upd (L loc3)), set (L ret) (L loc3) ]

/-- `get_xc(n)` (libxc.py 15-75, sigma.py 7-24): energy per particle in `tmp`, potential in `ret` -/
def getXc (n : Sym) : Prog := block
  [ set (L arg) n, opt (.alt (new (L loc1)) (block [new (L loc1), upd (L loc1), upd (L loc1), upd (L loc1)])),
    new (L loc2), new (L loc3), opt (.alt (new (L loc3)) (block [upd (L loc3), upd (L loc3)])),
    set (L tmp) (L loc2), set (L ret) (L loc3) ]

/-! ## Orbital solver (depth 3) -/

/-- pssolver.py 97-118 -/
def hamiltonian : Prog := new (S sH0)

/-- calc_orbitals.py 17-77, called in the same process -/
def calcOrbitals : Prog := .alt
  (block
    [ opt hamiltonian, new (S seig), new (S sphi), rep (block [new (S seig), new (S sphi)]),
      rep (rep (opt (block [upd (S sphi), upd (S sphi)]))),
      opt (rep (.alt (block [upd (S sphi), upd (S sphi)]) (upd (S sphi)))) ])
  (new (S seig))

/-- calc_density.py 11-51 -/
def solverDensity : Prog := block
  [ new (S sn), rep (upd (S sn)), opt (upd (S sn)), opt (new (S sn)) ]

/-- calc_energy.py 7-70 -/
def solverEnergy : Prog := solverDensity

/-- calc_response.py 18-103; `ndarray += sparse matrix` may assign instead of changing the array -/
def calcResponse : Prog := block
  [ new (S schi), rep (.alt (upd (S schi)) (new (S schi))), opt (.alt (upd (S schi)) (new (S schi))),
    opt (new (S schi)) ]

/-- calc_ked_WFI.py 12-57 -/
def calcKed : Prog := block
  [ new (S sked), rep (upd (S sked)), opt (upd (S sked)), opt (new (S sked)) ]

/-- normalize_orbitals.py 5-17 -/
def normalizeOrbitals : Prog := rep (upd (S sphi))

/-- iter_orbitals.py 15-64, called in the same process -/
def iterOrbitals : Prog := .alt
  (block [opt calcOrbitals, rep (block [upd (S sphi), upd (S seig), normalizeOrbitals])])
  (new (S seig))

/-! ## Kohn-Sham object (depth 2) -/

/-- kohnsham.py 138-155 -/
def ksNuclear : Prog := block
  [ new (L loc1), new (K vnuc), upd (K vnuc), opt (upd (K vnuc)), opt (new (K vnuc)) ]

/-- kohnsham.py 157-166; pssolver.py 160-167 -/
def setEffectivePotential : Prog := block [new (K veff), each (set (S sveff) (K veff))]

/-- kohnsham.py 168-184 -/
def setVeffExternal : Prog := each (set (S sveff) (K veff))

/-- kohnsham.py 186-244. The orbitals are computed in other processes; what comes back is a pickled copy or
`None`. -/
def ksDensity : Prog := block
  [ new (L nout), each (block [new (S seig), .alt (new (S sphi)) (none_ (S sphi))]),
    each (block [solverDensity, upd (L nout)]), opt (new (L nout)) ]

/-- kohnsham.py 246-320 -/
def ksEnergy : Prog := block
  [ new (K eks), new (K vks), new (K evals),
    each (block [solverEnergy, upd (K eks), upd (K vks), new (K evals)]),
    oneOf
      [ .skip,
        block
          [ vHartree (K n), set (K kvh) (L ret), new (K keh),
            getXc (K n), set (K kex) (L tmp), set (K kvx) (L ret),
            getXc (K n), set (K kec) (L tmp), set (K kvc) (L ret) ] ] ]

/-- kohnsham.py 334-364 -/
def calcHxc : Prog := block
  [ oneOf
      [ new (K vhxc),
        block
          [ getXc (K n), set (K kvx) (L ret), getXc (K n), set (K kvc) (L ret), vHartree (K n),
            set (K kvh) (L ret), new (K vhxc) ],
        .skip ],
    opt (new (K vhxc)) ]

/-- scf.py 36-116 of kohnsham -/
def ksScf : Prog := block
  [ .alt (opt (new (K vext)))
      (block [opt (new (K vext)), new (K vhxc), setEffectivePotential, ksDensity, set (K n) (L nout)]),
    new (L oldN),
    rep (block
      [ calcHxc, new (K veff), each (set (S sveff) (K veff)), opt (new (K veff)), ksDensity, new (K n),
        opt (new (K n)), ksEnergy, set (L oldN) (K n) ]) ]

/-! ## Partition (depth 1) -/

/-- partition.py 310-321 -/
def pNuclear : Prog := block [new (P va), new (P vb), new (P pvext), upd (P pvext), opt (upd (P pvext))]

/-- partition.py 323-352; `copy(KSa.E)` copies the references to the arrays of energies -/
def mirrorAB : Prog := block
  [ each (set (L tmp) (K eks)), each (set (K eks) (L tmp)), each (set (L tmp) (K vks)), each (set (K vks) (L tmp)),
    each (set (L tmp) (K evals)), each (set (K evals) (L tmp)),
    each (block
      [ new (K n), new (K q), new (K veff), new (K vext), opt (new (K kvx)), opt (new (K kvc)), opt (new (K kvh)),
        opt (new (K kvp)), opt (new (K kex)), opt (new (K kec)), opt (new (K keh)) ]) ]

/-- partition.py 354-379 -/
def calcProtomolecule : Prog := block
  [ new (P naFrac), new (P nbFrac), rep (block [upd (P naFrac), upd (P nbFrac)]),
    opt (block [upd (P naFrac), upd (P nbFrac)]), new (P nf) ]

/-- partition.py 381-394 -/
def calcQ : Prog := each (block [new (K q), new (K q)])

/-- vp_nuclear.py 5-16 -/
def vpNuclear : Prog := each (new (K kvpPot))

/-- initialguessinvert.py 13-144; the results `phi0`, `e0`, `v0` in `loc2`, `loc3`, `loc1` -/
def initialGuess : Prog := block
  [ new (L loc1), each (upd (L loc1)),
    opt (block [new (L loc1), each (upd (L loc1)), set (L loc1) (L loc1)]),
    opt (upd (L loc1)), new (L loc2), new (L loc3),
    rep (block
      [ new (L loc4), opt (block [new (L loc4), each (each hamiltonian)]),
        opt (block [new (L loc4), each (each hamiltonian)]), opt (new (L loc4)), opt (new (L loc4)),
        new (L loc4), new (L loc4), new (L loc3), new (L loc4), new (L loc2) ]),
    new (L loc3), new (L loc2) ]

/-- vp_overlap.py 9-42 -/
def vpOverlap : Prog :=
  each (block [new (K kdSdn), opt (new (K kdSdn)), upd (K kdSdn), upd (K kdSdn), new (K kdFdn)])

/-- EnsCorHar.py 8-44 -/
def ensCorHar : Prog := .alt (each (new (K kvhcor))) (rep (block [each (set (L tmp) (K kvh)), each (set (K kvhcor) (L tmp))]))

/-- get_ts_WFI.py 12-38 -/
def getTs : Prog := block
  [ new (L loc4), each (each calcKed), each (each (opt (upd (L loc4)))) ]

/-- ep_kinetic.py 12-192; `Tsf` is `loc3`, an array for `vonweiz` -/
def epKinetic : Prog := block
  [ oneOf
      [ -- vonweiz, 12-39
        block [new (L loc1), new (L loc2), new (L loc3), each (block [upd (L loc3), new (K kts), upd (L loc2)])],
        -- libxcke, paramke, 41-62
        block [none_ (L loc3), set (L loc1) (P ptsm), new (L loc2), each (upd (L loc2))],
        -- inversion, 64-110
        block
          [ none_ (L loc3), getTs, new (L loc1), each (each solverEnergy), new (L loc2), set (L loc2) (L loc2),
            each (block
              [ new (K kts), new (L loc5), each calcKed, each (opt (upd (L loc5))), rep (upd (K kts)),
                upd (L loc2) ]),
            opt (upd (L loc2)) ],
        -- none, 112-117
        block [none_ (L loc3), new (L loc1), new (L loc2)],
        -- twoorbital, 119-163
        block
          [ none_ (L loc3), set (L loc6) (P naFrac), set (L loc7) (P nbFrac), new (L loc5), new (L loc4),
            set (P phi1) (L loc5), set (P phi2) (L loc4), new (L loc1), set (P vtsm) (L loc1), new (L loc2),
            each (block [new (K kts), upd (L loc2)]), opt (upd (L loc2)) ] ],
    opt (block [upd (L loc3), upd (L loc2)]), new (P epKin) ]

/-- ep_hxc.py 11-140 -/
def epHxc : Prog := block
  [ opt (block
      [ new (L loc8), vHartree (L loc8), new (L loc1), new (L loc2),
        .alt (each (block [opt (upd (L loc2)), upd (L loc2)])) (each (opt (upd (L loc2)))),
        set (L loc3) (P epsX), new (L loc4), each (opt (upd (L loc4))), opt (upd (L loc4)),
        set (L loc5) (P epsC), new (L loc6), each (opt (upd (L loc6))), opt (upd (L loc6)),
        new (P epH), new (P epX), new (P epC) ]),
    opt (block [vpOverlap, opt ensCorHar]) ]

/-- partition_energy.py 5-22 -/
def partitionEnergy : Prog := opt (block [epKinetic, epHxc])

/-- energy.py 11-145; `Eksa`, `Eksb` are `loc1`, `loc2` -/
def pEnergy : Prog := block
  [ new (L loc1), rep (upd (L loc1)), .alt (block [new (L loc2), rep (upd (L loc2))]) (new (L loc2)),
    opt (block [upd (L loc1), upd (L loc2)]), new (P eksf), partitionEnergy, new (P evalsA), new (P evalsB),
    .alt (block [rep (new (P evalsA)), set (P evalsB) (P evalsA)])
      (rep (block [new (P evalsA), new (P evalsB)])) ]

/-! ## Inverter (depth 1, its solvers at depth 3) -/

/-- `Ws` (inverter.py 161-205) for the potential `vs` proposed by `least_squares` -/
def wuYangWs : Prog := block
  [ new (L loc1), opt (new (L loc1)),
    each (each (block [set (S sveff) (L loc1), calcOrbitals, solverDensity, solverEnergy, calcResponse])),
    new (L loc2), each (each (upd (L loc2))), opt (new (L loc2)), new (L loc3) ]

/-- `Jacobian` (inverter.py 207-226) -/
def wuYangJacobian : Prog := block [new (L loc4), upd (L loc4), opt (upd (L loc4))]

/-- linresponse.py 16-96, with the arguments `n0` and `vs0` -/
def linresponse (n0 vs0 : Sym) : Prog := block
  [ set (L loc7) n0, set (P in0) (L loc7),
    oneOf [block [new (L loc8), upd (L loc8)], set (L loc8) vs0, each (each (set (L loc8) (S sveff)))],
    new (P ivs), new (P ius),
    .alt
      (block
        [ new (P iB), each (each hamiltonian), rep (block [wuYangWs, opt wuYangJacobian]), upd (P ivs), upd (P ius),
          new (P ivs), new (P ius), each (each (set (S sveff) (P ivs))) ])
      (rep (block
        [ new (P iB), each (each hamiltonian), rep (block [wuYangWs, opt wuYangJacobian]), upd (P ivs),
          upd (P ius) ])) ]

/-- `get_vt` (inverter.py 144-149) -/
def getVt : Prog := new (L ret)

/-- simple.py 16-95 -/
def simpleInvert : Prog := block
  [ new (L loc8), upd (L loc8), each (each hamiltonian), set (P ivs) (L loc8),
    rep (block
      [ each (each (block [set (S sveff) (P ivs), calcOrbitals])), new (L loc1),
        each (each (block [solverDensity, upd (L loc1)])), set (L loc1) (L loc1), new (L loc2), upd (P ivs) ]) ]

/-- `ab_symmetrize` and `normalize` on `X`, which is `loc1` (orbitalinvert.py 24-82) -/
def symmetrizeX : Prog := block
  [ opt (block [set (L loc2) (L loc1), new (L loc2), rep (upd (L loc2)), upd (L loc1), upd (L loc1)]),
    new (L loc2), upd (L loc1) ]

/-- orbitalinvert.py 189-481, Newton steps or updates of the orbitals -/
def orbitalInvert : Prog := block
  [ opt (block [new (P ivs), new (P ius)]), each (each hamiltonian), new (L loc1), symmetrizeX,
    rep (block
      [ opt (.alt (upd (L loc1))
          (block
            [ upd (P ivs), each (each (block [new (S sphi), new (S seig)])),
              each (each (block [set (S sveff) (P ivs), calcOrbitals])), new (L loc1) ])),
        symmetrizeX ]),
    upd (P ivs), each (each (block [new (S sphi), new (S seig)])),
    each (each (block [upd (P ius), solverDensity, set (S sveff) (P ivs)])) ]

/-! ## Partition potential -/

/-- vp_kinetic.py 13-181, without lines 97-100 (`ens_spin_sym` in an inversion) and with `wuyang` as the method of
inversion -/
def vpKinetic : Prog := block
  [ oneOf
      [ -- vonweiz, 13-34
        block [new (P pvt), each (block [new (K kvt), new (K kvt)])],
        -- libxcke, paramke, 36-51
        block
          [ getXc (P nf), set (P ptsm) (L tmp), set (P pvt) (L ret),
            each (block [getXc (K n), set (K kts) (L tmp), set (K kvt) (L ret)]) ],
        -- inversion, 53-95 and 102-104
        block
          [ each (new (K kvt)),
            rep (block
              [ set (L loc6) (P nf), opt (new (L loc6)), initialGuess, set (L loc2) (L loc2), set (L loc3) (L loc3),
                set (L loc5) (L loc1), linresponse (L loc6) (L loc5) ]),
            getVt, set (P pvt) (L ret) ],
        -- none, 106-114
        block [new (P pvt), each (new (K kvt))],
        -- twoorbital, 116-151
        block [set (L loc1) (P naFrac), set (L loc2) (P nbFrac), each (new (K kvt)), new (P pvt)],
        -- fixed, 153-154
        .skip ],
    opt (.alt (each (new (K kvpKin))) (each (block [new (K kvpKin), upd (K kvpKin)]))) ]

/-- vp_hxc.py 12-100 -/
def vpHxc : Prog := block
  [ .alt
      (block
        [ vHartree (P nf), set (P pvh) (L ret), getXc (P nf), set (P epsX) (L tmp), set (P pvx) (L ret),
          getXc (P nf), set (P epsC) (L tmp), set (P pvc) (L ret),
          each (block [new (K kvpH), new (K kvpX), new (K kvpC), new (K kvpHxc)]) ])
      (each (block [new (K kvpH), new (K kvpX), new (K kvpC)])),
    opt vpOverlap,
    oneOf
      [ each (new (K kvpHxc)), each (set (K kvpHxc) (K kvpH)),
        block [opt ensCorHar, pEnergy, each (new (K kvpHxc))], .skip ] ]

/-- partition_potential.py 11-67 (`component`), the result in `ret` -/
def partitionPotential : Prog := block
  [ vpNuclear, vpKinetic, vpHxc,
    new (P pvp), new (P pvpPot), new (P pvpKin), new (P pvpHxc), new (P pvpH), new (P pvpX), new (P pvpC),
    each (block
      [ new (K kvp), upd (P pvp), upd (P pvpPot), upd (P pvpKin), upd (P pvpHxc), upd (P pvpH), upd (P pvpX),
        upd (P pvpC) ]),
    opt (block
      [ upd (P pvp), upd (P pvpPot), upd (P pvpKin), upd (P pvpHxc), upd (P pvpH), upd (P pvpX), upd (P pvpC) ]),
    opt (block
      [ new (P pvp), new (P pvpPot), new (P pvpKin), new (P pvpHxc), new (P pvpH), new (P pvpX), new (P pvpC) ]),
    set (L ret) (P pvp) ]

/-- scf.py 72-245 of partition with `vp_calc_type = 'component'` -/
def pScf : Prog := block
  [ each (opt (block [new (K vext), new (K vhxc), setEffectivePotential, ksDensity, set (K n) (L nout)])),
    opt mirrorAB, opt calcProtomolecule, calcQ, set (L oldN) (P nf),
    rep (block
      [ each (block [set (L tmp) (K vhxc), calcHxc, new (K vhxc)]), opt mirrorAB,
        .alt partitionPotential (block [new (L ret), each (new (K kvp))]), set (L loc8) (L ret),
        each (block
          [ oneOf [.skip, set (K vext) (L loc8), set (K vext) (K kvp)], setEffectivePotential, ksDensity, new (K n),
            ksEnergy ]),
        opt mirrorAB, opt calcProtomolecule, calcQ, pEnergy, set (L oldN) (P nf) ]) ]

/-! ## The methods

Not among them: `normalize_orbitals` and `iter_orbitals` (in the same process), `simple` and `orbitalinvert`, which
change arrays that others hold; `partition_potential` with `potential_inversion`, which always stops with an
exception (C46). -/

/-- Methods with the depth at which they are called. -/
def methods : List (Nat × Prog) :=
  [ (1, gridInitialize), (1, finiteDifference1d), (1, finiteDifference2d), (1, operators),
    (3, hamiltonian), (3, calcOrbitals), (3, solverDensity), (3, solverEnergy), (3, calcResponse), (3, calcKed),
    (2, ksNuclear), (2, setEffectivePotential), (2, setVeffExternal), (2, ksDensity), (2, ksEnergy), (2, calcHxc),
    (2, ksScf), (1, pNuclear), (1, mirrorAB), (1, calcProtomolecule), (1, calcQ), (1, vpNuclear), (1, vpKinetic),
    (1, vpHxc), (1, vpOverlap), (1, ensCorHar), (1, epKinetic), (1, epHxc), (1, partitionEnergy), (1, pEnergy),
    (1, initialGuess), (1, partitionPotential), (1, pScf), (1, getTs), (1, getVt), (1, linresponse (L arg) (L tmp)) ]

end Verif.Sharing
