import Mathlib.Data.Finset.Basic
import Mathlib.Data.Finset.Lattice.Basic
import Mathlib.Data.Finset.SDiff
import Mathlib.Data.List.Nodup

/-!
# Lifetimes of the objects of solvers and drivers

Models which objects `ElectrostaticSolver` (ElectrostaticSolver.cpp:59-175) and `Driver` (Driver.cpp, Driver.h) allocate, use and release, and
in which order. Objects are identified by numbers that are never used twice (addresses could be; a dangling pointer is then never
mistaken for a new object). A computation gives no result if it uses or releases an object that is not alive (undefined behaviour).

What is known of MFEM (published code): spaces do not own their collections (FES.cpp deletes them); forms own their integrators, integrators do not
own their coefficients; assembling a form uses its space and mesh, its integrators and their coefficients; solving uses the assembled
matrices only; grid functions do not own their space; no destructor uses objects it does not own. Objects allocated and released inside
MFEM's functions are left out, and so are the values of all objects.
-/

namespace Tulip.Lifetimes

abbrev Addr := Nat

/-- objects alive, and the next fresh identity -/
structure Heap where
  next : Addr
  live : Finset Addr

/-- computations on the heap; `none` is undefined behaviour -/
abbrev Mem (α : Type) := StateT Heap Option α

/-- `new` -/
def new : Mem Addr := fun h => some (h.next, ⟨h.next + 1, insert h.next h.live⟩)

/-- `delete` of a pointer that is not null -/
def delete (a : Addr) : Mem Unit := fun h => if a ∈ h.live then some ((), ⟨h.next, h.live.erase a⟩) else none

/-- any use of an object -/
def touch (a : Addr) : Mem Unit := fun h => if a ∈ h.live then some ((), h) else none

/-- use of several -/
def touchAll : List Addr → Mem Unit
  | [] => pure ()
  | a :: as => do touch a; touchAll as

/-- `delete` of several in order -/
def deleteAll : List Addr → Mem Unit
  | [] => pure ()
  | a :: as => do delete a; deleteAll as

/-- A finite element space and the collection its class allocates (FES.h:12-54). -/
structure Space where
  mesh : Addr
  obj : Addr
  fec : Addr

/-- Constructors (FES.cpp:5-11, 18-23, 30-35, 42-47): a collection, then the space on the mesh. -/
def Space.new (mesh : Addr) : Mem Space := do
  let fec ← Lifetimes.new
  touch mesh
  let obj ← Lifetimes.new
  pure ⟨mesh, obj, fec⟩

/-- Destructors (FES.cpp:13-16, 25-28, 37-40, 49-52), then that of the base class; `delete` of the pointer. -/
def Space.delete (s : Space) : Mem Unit := do
  Lifetimes.delete s.fec
  Lifetimes.delete s.obj

/-- what a computation with the space uses -/
def Space.uses (s : Space) : List Addr := [s.obj, s.fec, s.mesh]

/-- An integrator with its coefficients. -/
structure Integrator where
  obj : Addr
  coefs : List Addr

/-- A form (`BilinearForm`, `MixedBilinearForm`, `LinearForm`, `DiscreteLinearOperator`) with its spaces and integrators. -/
structure Form where
  obj : Addr
  spaces : List Space
  integrators : List Integrator

/-- `new BilinearForm(space)` and the like -/
def Form.new (spaces : List Space) : Mem Form := do
  touchAll (spaces.map Space.obj)
  let obj ← Lifetimes.new
  pure ⟨obj, spaces, []⟩

/-- `form->AddDomainIntegrator(new ...Integrator(coefs))`: the form takes the integrator over. -/
def Form.add (f : Form) (coefs : List Addr) : Mem Form := do
  let i ← Lifetimes.new
  touch f.obj
  pure { f with integrators := f.integrators ++ [⟨i, coefs⟩] }

/-- `form->Assemble()` -/
def Form.assemble (f : Form) : Mem Unit := do
  touch f.obj
  touchAll (f.spaces.flatMap Space.uses)
  touchAll (f.integrators.flatMap (fun i => i.obj :: i.coefs))

/-- Destructor of a form: its integrators, not their coefficients. -/
def Form.delete (f : Form) : Mem Unit := do
  deleteAll (f.integrators.map Integrator.obj)
  Lifetimes.delete f.obj

/-- `new GridFunction(space)` -/
def newField (s : Space) : Mem Addr := do
  touch s.obj
  Lifetimes.new

/-- The pointers in an `ElectrostaticSolver` (ElectrostaticSolver.h:66-94). -/
structure Solver where
  mesh : Addr
  h1 : Space
  hcurl : Space
  hdiv : Space
  l2 : Space
  eps : Addr
  divEpsGrad : Form
  hDivMass : Form
  h1SurfMass : Form
  hCurlHDivEps : Form
  rhod : Form
  grad : Form
  phi : Addr
  d : Addr
  e : Addr
  sigma : Addr

/-- `Assemble` (ElectrostaticSolver.cpp:177-195) -/
def Solver.assemble (s : Solver) : Mem Unit := do
  s.divEpsGrad.assemble
  s.hDivMass.assemble
  s.hCurlHDivEps.assemble
  s.h1SurfMass.assemble
  s.rhod.assemble
  s.grad.assemble

/-- `applyBoundaryConstantValuesToGridFunction` (ElectrostaticSolver.cpp:197-219) on one of the functions in the nodal space -/
def Solver.applyBoundary (s : Solver) (f : Addr) : Mem Unit := do
  touch s.mesh
  touch f
  touchAll s.h1.uses

/-- The constructor after the Laplacian has its integrators (ElectrostaticSolver.cpp:127-151). -/
def Solver.build (mesh : Addr) (h1 hcurl hdiv l2 : Space) (eps : Addr) (divEpsGrad : Form) : Mem Solver := do
  let hDivMass ← Form.new [hdiv]
  let hDivMass ← hDivMass.add []
  let h1SurfMass ← Form.new [h1]
  let h1SurfMass ← h1SurfMass.add []
  let hCurlHDivEps ← Form.new [hcurl, hdiv]
  let hCurlHDivEps ← hCurlHDivEps.add [eps]
  let rhod ← Form.new [h1]
  let grad ← Form.new [h1, hcurl]
  let grad ← grad.add []
  let phi ← newField h1
  let d ← newField hdiv
  let e ← newField hcurl
  let sigma ← newField h1
  let s : Solver := ⟨mesh, h1, hcurl, hdiv, l2, eps, divEpsGrad, hDivMass, h1SurfMass, hCurlHDivEps, rhod, grad, phi, d, e, sigma⟩
  s.assemble
  s.applyBoundary s.sigma
  pure s

/-- The constructor (ElectrostaticSolver.cpp:59-152); `isOpen`: the inputs have open boundaries. The coefficient of open boundaries is
a local `unique_ptr`: it is released when the constructor is left. -/
def Solver.new (mesh : Addr) (isOpen : Bool) : Mem Solver := do
  let h1 ← Space.new mesh
  let hcurl ← Space.new mesh
  let hdiv ← Space.new mesh
  let l2 ← Space.new mesh
  touch mesh
  let eps ← Lifetimes.new
  let f ← Form.new [h1]
  let f ← f.add [eps]
  if isOpen then do
    let c ← Lifetimes.new
    let f ← f.add [c]
    let s ← Solver.build mesh h1 hcurl hdiv l2 eps f
    Lifetimes.delete c
    pure s
  else Solver.build mesh h1 hcurl hdiv l2 eps f

/-- The destructor (ElectrostaticSolver.cpp:154-175) -/
def Solver.delete (s : Solver) : Mem Unit := do
  Lifetimes.delete s.phi
  s.rhod.delete
  Lifetimes.delete s.d
  Lifetimes.delete s.e
  Lifetimes.delete s.sigma
  s.grad.delete
  s.divEpsGrad.delete
  s.hDivMass.delete
  s.hCurlHDivEps.delete
  s.h1SurfMass.delete
  s.h1.delete
  s.hcurl.delete
  s.hdiv.delete
  s.l2.delete
  Lifetimes.delete s.eps

/-- `Solve` (ElectrostaticSolver.cpp:221-277): the assembled matrices are used, not the integrators; the right-hand side of the
second system is a local field. -/
def Solver.solve (s : Solver) : Mem Unit := do
  touchAll [s.h1SurfMass.obj, s.sigma, s.rhod.obj, s.phi]
  s.applyBoundary s.phi
  touchAll s.h1.uses
  touchAll [s.divEpsGrad.obj, s.phi, s.rhod.obj]
  touchAll [s.grad.obj, s.phi, s.e]
  let ed ← newField s.hdiv
  touchAll [s.hCurlHDivEps.obj, s.e, ed]
  touchAll [s.hDivMass.obj, s.d, ed]
  Lifetimes.delete ed

/-- `setNeumannCondition` (ElectrostaticSolver.cpp:284-293); the coefficient is the caller's. -/
def Solver.setNeumann (s : Solver) : Mem Unit := do
  touch s.mesh
  touch s.sigma
  touchAll s.h1.uses

/-- The fields of a solution, which the caller owns (ElectrostaticSolver.h:20-22). -/
structure Solution where
  phi : Addr
  e : Addr
  d : Addr

/-- `cloneGridFunction` (ElectrostaticSolver.cpp:430-437) -/
def clone (s : Space) (f : Addr) : Mem Addr := do
  let r ← newField s
  touch f
  pure r

/-- `getSolution` (ElectrostaticSolver.cpp:447-454) -/
def Solver.getSolution (s : Solver) : Mem Solution := do
  let phi ← clone s.h1 s.phi
  let e ← clone s.hcurl s.e
  let d ← clone s.hdiv s.d
  pure ⟨phi, e, d⟩

/-- `setSolution` (ElectrostaticSolver.cpp:456-461) -/
def Solver.setSolution (s : Solver) (t : Solution) : Mem Unit :=
  touchAll [s.phi, t.phi, s.e, t.e, s.d, t.d]

/-- the `unique_ptr`s of a solution, last member first -/
def Solution.delete (t : Solution) : Mem Unit := deleteAll [t.d, t.e, t.phi]

/-- A linear form on a space with one integrator, whose coefficient is a local variable of the function that builds the form and is gone when the
form is evaluated (`buildHDivBoundaryIntegrator`, `buildH1BoundaryIntegrator`, ElectrostaticSolver.cpp:388-428; in 295-347 and 470-493 the
coefficient lives longer). -/
def buildIntegral (s : Space) : Mem Form := do
  let c ← Lifetimes.new
  let form ← Form.new [s]
  let form ← form.add [c]
  form.assemble
  Lifetimes.delete c
  pure form

/-- such a form, evaluated on a field -/
def integrate (s : Space) (f : Addr) : Mem Unit := do
  let form ← buildIntegral s
  touchAll [form.obj, f]
  form.delete

/-- The calls of a client that return numbers. -/
inductive Query
  /-- `getTotalCharge`, `getChargeInBoundary` (ElectrostaticSolver.cpp:295-301, 463-468) -/
  | charge
  /-- `getChargeMomentComponent` of an order above 0 (303-347) -/
  | moment
  /-- `getAveragePotentialInDomain`, `getAveragePotentialInBoundary` (470-507) -/
  | average
  /-- `getTotalEnergy` (509-532) -/
  | energy
  /-- `writeParaViewFields`, `writeVisItFields` (534-555) -/
  | export

/-- The objects a call uses. Center of charge and multipolar coefficients are sequences of calls for charges and moments. -/
def Solver.query (s : Solver) : Query → Mem Unit
  | .charge | .moment => integrate s.hdiv s.d
  | .average => do
    let form ← buildIntegral s.h1
    let ones ← newField s.h1
    touchAll [form.obj, s.phi, ones]
    Lifetimes.delete ones
    form.delete
  | .energy => do
    touch s.mesh
    let form ← Form.new [s.hcurl]
    let form ← form.add []
    form.assemble
    touch s.e
    let aux ← newField s.hcurl
    touchAll [form.obj, s.e, aux]
    Lifetimes.delete aux
    form.delete
  | .export => do
    touchAll [s.mesh, s.phi, s.d, s.e]
    touchAll (s.h1.uses ++ s.hdiv.uses ++ s.hcurl.uses)

/-- Calls of a client of one solver. The solutions it got are numbered. -/
inductive SolverCall
  | solve
  /-- `setDirichletConditions` (ElectrostaticSolver.cpp:279-282): copies values -/
  | setDirichlet
  | setNeumann
  | getSolution
  | setSolution (i : Nat)
  | query (q : Query)
  /-- the client releases a solution -/
  | drop (i : Nat)
  /-- the destructor -/
  | destroy

/-- A client: the solver, unless destroyed; the solutions, unless released. -/
structure Client where
  solver : Option Solver
  solutions : List (Option Solution)

/-- One call. A client does not use a solver it destroyed or solutions it released; such calls are left out. -/
def Client.step (c : Client) : SolverCall → Mem Client
  | .solve => match c.solver with
    | some s => do s.solve; pure c
    | none => pure c
  | .setDirichlet => pure c
  | .setNeumann => match c.solver with
    | some s => do s.setNeumann; pure c
    | none => pure c
  | .getSolution => match c.solver with
    | some s => do
      let t ← s.getSolution
      pure { c with solutions := c.solutions ++ [some t] }
    | none => pure c
  | .setSolution i => match c.solver, c.solutions[i]? with
    | some s, some (some t) => do s.setSolution t; pure c
    | _, _ => pure c
  | .query q => match c.solver with
    | some s => do s.query q; pure c
    | none => pure c
  | .drop i => match c.solutions[i]? with
    | some (some t) => do t.delete; pure { c with solutions := c.solutions.set i none }
    | _ => pure c
  | .destroy => match c.solver with
    | some s => do s.delete; pure { c with solver := none }
    | none => pure c

/-- All calls in order. -/
def Client.run (c : Client) : List SolverCall → Mem Client
  | [] => pure c
  | op :: ops => do
    let c ← c.step op
    c.run ops

/-- A client that constructs a solver on a mesh. -/
def client (mesh : Addr) (isOpen : Bool) (ops : List SolverCall) : Mem Client := do
  let s ← Solver.new mesh isOpen
  Client.run ⟨some s, []⟩ ops

/-- `SolvedProblem` (Driver.h:12-15): the solver object, its pointers, the solutions. (The constructor checks that conductors are numbered from 0
on, so that every one of the `resize`d solutions is assigned.) -/
structure Problem where
  obj : Addr
  solver : Solver
  solutions : List Solution

/-- members in reverse order -/
def Problem.delete (p : Problem) : Mem Unit := do
  deleteAll (p.solutions.flatMap (fun t => [t.d, t.e, t.phi]))
  p.solver.delete
  Lifetimes.delete p.obj

/-- Where the computation for all conductors is left by an exception. -/
inductive Fate
  | completes
  /-- `buildSolverInputsFromModel` throws -/
  | inputs
  /-- something throws after that many conductors -/
  | conductor (k : Nat)

/-- The loop over conductors (Driver.cpp:164-179). -/
def solveEach (s : Solver) : Nat → Mem (List Solution)
  | 0 => pure []
  | n + 1 => do
    s.solve
    s.query .export
    let t ← s.getSolution
    let ts ← solveEach s n
    pure (t :: ts)

/-- `solveForAllConductors` (Driver.cpp:150-184) for `n` conductors; `none`: it threw, locals were released. -/
def solveForAllConductors (mesh : Addr) (isOpen : Bool) (n : Nat) : Fate → Mem (Option Problem)
  | .inputs => pure none
  | .completes => do
    let obj ← Lifetimes.new
    let s ← Solver.new mesh isOpen
    let ts ← solveEach s n
    pure (some ⟨obj, s, ts⟩)
  | .conductor k => do
    let obj ← Lifetimes.new
    let s ← Solver.new mesh isOpen
    let ts ← solveEach s k
    Problem.delete ⟨obj, s, ts⟩
    pure none

/-- What a `Driver` owns (Driver.h:45-47, Model.h:57): null pointers after it was moved from. -/
structure Driver where
  mesh : Option Addr
  electric : Option Problem
  magnetic : Option Problem

/-- What determines the objects of a driver. -/
structure Setup where
  isOpen : Bool
  conductors : Nat
  /-- the checks of the constructor fail (Driver.cpp:79-94) -/
  rejected : Bool
  electric : Fate
  magnetic : Fate

/-- Model (Model.cpp:`Model::Model`) and driver (Driver.cpp:66-102); `none`: an exception, the members constructed so far are destroyed. -/
def Driver.new (c : Setup) : Mem (Option Driver) := do
  let mesh ← Lifetimes.new
  touch mesh
  if c.rejected then do
    Lifetimes.delete mesh
    pure none
  else do
    let e ← solveForAllConductors mesh c.isOpen c.conductors c.electric
    match e with
    | none => do
      Lifetimes.delete mesh
      pure none
    | some e => do
      let m ← solveForAllConductors mesh c.isOpen c.conductors c.magnetic
      match m with
      | none => do
        e.delete
        Lifetimes.delete mesh
        pure none
      | some m => pure (some ⟨some mesh, some e, some m⟩)

/-- release by a `unique_ptr` -/
def release (p : Option Addr) : Mem Unit := match p with
  | none => pure ()
  | some a => Lifetimes.delete a

/-- release of a `SolvedProblem` -/
def releaseProblem (p : Option Problem) : Mem Unit := match p with
  | none => pure ()
  | some p => p.delete

/-- The implicit destructor: members in reverse order of declaration (Driver.h:45-47). -/
def Driver.delete (d : Driver) : Mem Unit := do
  releaseProblem d.magnetic
  releaseProblem d.electric
  release d.mesh

/-- The implicit move assignment, member by member in the order of declaration: the old model goes first, then the old solvers. (A
`SolvedProblem` moves its solver, then its solutions; here they are released in the order of `Problem.delete`.) -/
def Driver.moveAssign (d : Driver) : Mem Unit := do
  release d.mesh
  releaseProblem d.electric
  releaseProblem d.magnetic

/-- `getGeneralizedCMatrix` (Driver.cpp:211-256) with the loops over conductors. -/
def chargesOf (s : Solver) (n : Nat) : Mem Unit := match n with
  | 0 => pure ()
  | n + 1 => do s.query .charge; chargesOf s n

/-- rows of the matrix -/
def rows (s : Solver) (n : Nat) : List Solution → Mem Unit
  | [] => pure ()
  | t :: ts => do
    s.setSolution t
    chargesOf s n
    s.query .export
    rows s n ts

/-- `getGeneralizedCMatrix` (Driver.cpp:211-256); it may throw before the loop. -/
def generalizedC (mesh : Addr) (p : Problem) (throws : Bool) : Mem Unit := do
  touch mesh
  if throws then pure () else do
    touch p.obj
    rows p.solver p.solutions.length p.solutions

/-- `Add` of all solutions (Driver.cpp:461-465) -/
def superpose (s : Solver) : List Solution → Mem Unit
  | [] => pure ()
  | t :: ts => do
    touchAll [s.phi, t.phi, s.e, t.e, s.d, t.d]
    superpose s ts

/-- The loop of `getFieldParameters` (Driver.cpp:455-488): `k` conductors are left; averages and moments are computed `a` and `m` times. -/
def fields (s : Solver) (ts : List Solution) (a m : Nat) (mesh : Addr) : Nat → Mem Unit
  | 0 => pure ()
  | k + 1 => do
    touchAll [s.phi, s.e, s.d]
    superpose s ts
    s.query .export
    touch mesh
    repeatQuery s .average a
    repeatQuery s .moment m
    fields s ts a m mesh k
where
  repeatQuery (s : Solver) (q : Query) : Nat → Mem Unit
    | 0 => pure ()
    | n + 1 => do s.query q; repeatQuery s q n

/-- Calls of a client on a driver. -/
inductive DriverQuery
  /-- `getGeneralizedCMatrix`, and what is computed from such matrices (`getCMatrix`, `getLMatrix`, `getPULMTL`, `getFloatingPotentials`, `run`):
  one or several of these in a row -/
  | generalized (ignoreDielectrics throws : Bool)
  /-- the loops of `getInCellPotentials` after the matrices: left after `k` conductors -/
  | inCell (ignoreDielectrics : Bool) (k averages moments : Nat)
  /-- `getPULMTLByDomains` (Driver.cpp:328-344) with the set-ups of its sub-models and whether their queries throw -/
  | byDomains (domains : List (Setup × Bool))

/-- The two matrices of `getPULMTL` (Driver.cpp:286-297), if neither or the first one throws. -/
def Driver.matrices (d : Driver) (throws : Bool) : Mem Unit := match d.mesh, d.electric, d.magnetic with
  | some m, some e, some b => do
    generalizedC m e throws
    if throws then pure () else generalizedC m b throws
  | _, _, _ => pure ()

/-- One domain after the other (Driver.cpp:334-339): a copy of the mesh, a driver for the domain, two matrices; an exception leaves the loop. -/
def domains (mesh : Addr) : List (Setup × Bool) → Mem Unit
  | [] => pure ()
  | (c, throws) :: cs => do
    touch mesh
    let copy ← Lifetimes.new
    touch copy
    let d ← Driver.new c
    match d with
    | none => Lifetimes.delete copy
    | some d => do
      d.matrices throws
      d.delete
      Lifetimes.delete copy
      if throws then pure () else domains mesh cs

/-- One call on a driver that was not moved from. -/
def Driver.query (mesh : Addr) (e m : Problem) : DriverQuery → Mem Unit
  | .generalized b throws => generalizedC mesh (if b then m else e) throws
  | .inCell b k a n => do
    let p := if b then m else e
    touch mesh
    touch p.obj
    fields p.solver p.solutions a n mesh k
  | .byDomains cs => domains mesh cs

/-- Calls of a client with several drivers, numbered in the order of construction. -/
inductive DriverCall
  | load (c : Setup)
  | query (i : Nat) (q : DriverQuery)
  /-- `Driver b{std::move(a)}` -/
  | moveConstruct (i : Nat)
  /-- `a = std::move(b)` -/
  | moveAssign (i j : Nat)
  | destroy (i : Nat)

/-- One call; `none` in the list: destroyed. A client does not use drivers it destroyed, and does not query those it moved from; such calls
are left out. -/
def driversStep (ds : List (Option Driver)) : DriverCall → Mem (List (Option Driver))
  | .load c => do
    let d ← Driver.new c
    pure (ds ++ [d])
  | .query i q => match ds[i]? with
    | some (some ⟨some mesh, some e, some m⟩) => do Driver.query mesh e m q; pure ds
    | _ => pure ds
  | .moveConstruct i => match ds[i]? with
    | some (some d) => pure (ds.set i (some ⟨none, none, none⟩) ++ [some d])
    | _ => pure ds
  | .moveAssign i j => if i = j then pure ds else match ds[i]?, ds[j]? with
    | some (some a), some (some b) => do
      a.moveAssign
      pure ((ds.set i (some b)).set j (some ⟨none, none, none⟩))
    | _, _ => pure ds
  | .destroy i => match ds[i]? with
    | some (some d) => do d.delete; pure (ds.set i none)
    | _ => pure ds

/-- All calls in order. -/
def driversRun (ds : List (Option Driver)) : List DriverCall → Mem (List (Option Driver))
  | [] => pure ds
  | op :: ops => do
    let ds ← driversStep ds op
    driversRun ds ops

end Tulip.Lifetimes
