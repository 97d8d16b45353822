# Formal model of OpenSEMBA/tulip (pulmtln) in Lean 4 — design

## 0. What is modelled, and how

The C++ sources in `/repo/src` are modelled function by function (modules `lean/Verif/Model/*`). Every definition
cites the file and lines it models; simplifications are stated in that comment. `Verif/Spec/*` holds the vocabulary
the statements use (independent of the model's helpers), `Verif/Props/*` the theorems `Cnn_...` with concrete cases
beside them, `Verif/Proofs/*` lemmas.

| source | model | covered |
|---|---|---|
| DirectedGraph.{h,cpp} | `Model/Graph` | everything |
| Materials.{h,cpp}, AttrToValueMap.h | `Model/Materials`, `Model/SMap` | everything |
| Model.{h,cpp} | `Model/Mesh` | everything |
| Domain.{h,cpp} | `Model/Domain` | everything; `SubMesh` for 2D elements and faces |
| Parser.{h,cpp}, SolverOptions.h | `Model/Parser`, `Model/Json`, `Model/JsonText` | everything but the gmsh reader; JSON texts as code points, printing and reading of single `double`s a parameter |
| Results.{h,cpp} | `Model/Results`, `Model/JsonText` | everything; texts as for the parser |
| multipolarExpansion.h | `Model/Multipolar` | everything, over the reals |
| ElectrostaticSolver.{h,cpp}, FES.{h,cpp} | `Model/Solver` | constructor, conditions, `Solve`, charges, averages, energy, moments, expansion; the exporters only as "this field was written under this path" |
| Driver.{h,cpp} | `Model/Driver`, `Model/DMat` | everything |
| pulmtln.cpp, constants.h | `Model/Driver` (`mainProgram`, engine constants) | everything after boost parsed the arguments |

* **Outcomes.** `Outcome α = ok a | throw e | ub | nonfinite`: a C++ exception, undefined behaviour, and "a
  floating-point division by zero happened, so the result holds inf/NaN" are distinct results, never totalised.
* **Numbers.** `double` is an arbitrary exact (ordered) field `𝕜`; rounding, overflow and signed zeros are NOT
  modelled, except for the matrix functions of the driver (C104: any operations whatever) and the integration over
  a box, the expansion, the moments and the in-cell capacitances (C111, C114-C116), the capacitances (C104, C119) and the superposed fields, inner-region averages and parameters (C120: any rounding, unlimited exponents). The multipolar module uses `ℝ`/`ℂ`. `int` is unbounded `Int` except where conversion from text
  saturates (C09) or from a JSON number wraps (C13).
* **Containers.** `std::map`/`std::set` are key-sorted association lists (iteration order is observable in several
  functions); `std::vector` is `List`; `mfem::DenseMatrix` is height, width and entries, with index checks
  (`ub` out of range), and loops written as loops.
* **Boost.** `connected_components` is the depth-first search it is (following *out*-edges only, also on directed
  graphs) and `tiernan_all_cycles` the backtracking machine it is (path + closed lists). The sources are not in the
  sandbox: both follow Boost's published code. `program_options` is not modelled (its result is the input).
* **MFEM.** A discretisation (`FEM`) is abstract: numbers of degrees of freedom, attributes, quadrature points with
  weights, values and gradients of the basis functions, the discrete gradient. Bilinear forms, boundary integrals,
  markers, elimination of essential degrees of freedom (including that MFEM does it once per assembled matrix) are
  computed from it as the code asks MFEM to. The linear solver (`PCG`) is a parameter: any function; theorems about
  fields assume it solves the system exactly (`ExactSolver`), with the exact inverse as the concrete case. C84 is about
  the iteration itself (`Model/ConjugateGradient.lean`: conjugate gradients with symmetric Gauss-Seidel, exact
  arithmetic, after MFEM's published code) and shows when it meets the assumption.
  `DenseMatrix::Invert` is the exact inverse, `nonfinite` for a singular matrix.
* **Effects.** A `Driver` is a state; queries are state transformers that also log what they write (JSON documents
  and fields under their paths); what is written before an exception stays written.
* **Elements.** `Model/Triangles.lean` computes a discretisation from a mesh of triangles at order 1;
  `Model/Elements.lean` does so at any order from given shape functions (polynomials on the reference triangle) and a given
  quadrature rule. That MFEM's shape functions and rules have the properties listed in `Spec/Elements.lean` is assumed, as
  its sources are not in the sandbox; that these can be met at every order, by rules exact for polynomials of any degree, is proved (`C90_spaces`).
* **Not modelled:** rounding in the PCG iteration, MFEM's own construction of basis functions and quadrature, elements
  other than straight triangles (quadrilaterals, curved meshes), gmsh
  parsing, contents of ParaView/VisIt files, digits of `double`s in JSON texts and UTF-8, console output other than the usage, threads,
  allocation failure, file-system errors on writing (the code ignores them).
* **Lifetimes.** `Model/Lifetimes.lean` models which objects are allocated, used and released, in which order, without their values. What MFEM's
  classes own (forms their integrators, not coefficients or spaces; spaces not their collections) is taken from its published code.

## 1. Plan and method per property

Names of the theorems are in MANIFEST.json. *Refuted* means: the full property is false of the code; a theorem proves
it false on a concrete case, another one (`_partial`) proves what does hold.

| id | modelled by | proof |
|----|-------------|-----------|
| C01–C03 | `DGraph` with histories of calls | refinement to (distinct ids, edge list), induction over histories |
| C04 | `getBoundaryGraph` | filter lemma |
| C05, C06 | components (DFS with explicit stack), `split` | loop invariant: visited = earlier ∪ reachable; symmetric reachability for closed paths; C06 refuted; what split really returns is proved exactly for every history (`C06_exact_partial`: each part keeps the vertices whose first introduced ancestor is its leader; `C06_lost_partial`: which edges are lost) |
| C07, C08 | Tiernan machine | machine refines recursive enumeration; enumeration = set of elementary cycles, no duplicates, termination measure |
| C09, C10 | `getMaterialIdFromName` on characters | digit induction; C10 refuted (uninitialised read) |
| C11, C12 | `Materials`, filter | list/map lemmas |
| C13–C15 | JSON values, parser functions | induction on entries; C14, C15 refuted |
| C16, C17 | `determineOpenness` over C07 | vertex-disjoint cycles when out-degree ≤ 1; C17 refuted; `C17_exact_partial` gives the class for any open boundaries (total length of their loops) |
| C18, C19 | min/max, sums | induction |
| C20–C24 | `buildDomains`, `DomainTree` | C05 + set lemmas; C23 refuted |
| C25, C26 | sub-mesh, `getPULMTLByDomains` | frame lemma; C26 refuted for every model with two domains |
| C27–C31, C35 | driver constructor and matrix queries | loop invariants; numbering; linear algebra |
| C32–C34, C36, C37 | matrix functions | linear algebra with Mathlib `Matrix` |
| C38, C39 | driver as state machine | query = function of a history-free part of the state; C38 refuted; `C38_anywhere_partial` gives the exact path for any folder |
| C40, C41, C65 | in-cell computation and exports | superposition by linearity and uniqueness of the discrete problem |
| C42–C46 | JSON codecs | round trip by induction; C45 refuted |
| C47–C51 | grid and averages | telescoping sums, midpoint separation; C50, C51 refuted |
| C52–C54, C68 | `ℝ`/`ℂ` analysis | de Moivre, Taylor series of log with remainder |
| C55, C56, C67, C69 | fluxes, charges, energy | linearity; C56 refuted (sign) |
| C57–C63, C66 | solver; the discrete problem is specified separately in `Spec/Fields` (weak form with quadrature sums over the basis functions) | linear algebra and history induction; C58, C61, C63 refuted |
| C70, C71 | `InCellPotentials` getters over the driver's in-cell results | field arithmetic; the two problems of a driver coincide when permittivities are 1 |
| C72, C73 | `getPULMTL` over C29, C31–C33, C35 | uniqueness and superposition of fields with prescribed potentials; singular matrices |
| C74 | the assembled equations of `Solve` with `firstOrderABC` | energy argument: a field with zero data has zero energy; finite-dimensional injectivity ⇒ existence; false beyond distance 1 (refuted at distance e) |
| C75 | the whole driver on a moved mesh and discretisation (`Spec/Similar.lean`) | stored fields of both drivers are the same solution of the same equations (uniqueness), hence the same charges; side-by-side execution of the queries; false for scaled open models (refuted with the real coefficient) |
| C76 | the whole driver on two declarations of the same materials | uniqueness of the discrete field; `C34_reduction` for renumbered matrices; inverse of a permuted matrix |
| C77 | the driver with conservative fluxes (`Spec/Passive.lean`) | test the discrete equations with the other field: boundary terms are reactions; the form is symmetric and not negative; existence of fields, C72, C73 |
| C78 | parser, loading and the program composed with the driver (`Spec/Input.lean`: what a document describes) | C13, C14, C11 and C15 composed to an equivalence; then C27, C77, C72, C64 and C42 composed |
| C79 | `Model/Triangles.lean`: the discretisation of a triangle mesh at order 1 (`H1(1)`, `ND(1)`, `RT(0)`), `Spec/Triangles.lean` | algebra of barycentric coordinates; sums over edges; then C74 and C31 |
| C80 | same, `ParallelPlates`, `ElectricalDepth` | discrete divergence theorem (sides cancel in pairs); explicit field; uniqueness (C79) |
| C81 | same | *refuted* (`C81_refuted`: square in square); part: constants are fields, superposition, a form vanishing at 1 has 1 in its kernel |
| C82 | `Query.pulMTL`, `weakForm` energies | Dirichlet's principle (least energy), bounds of energies, reduction to conductors 1..n as a least value, `L * C0 = mu0 eps0` |
| C83 | `Triangulation.fem`, `PrescribedField` | *refuted* (`C83_refuted`: obtuse triangle); part: truncation at the bounds does not raise the energy without obtuse angles or, in general (open boundaries included), without positive couplings |
| C84 | `mfemPCG`, `gsSmooth`, `Driver.construct` | conjugacy invariant of the directions (at most n steps), energy error decreases; Gauss-Seidel sweep is symmetric positive definite; uncoupled unknowns keep their value; eliminated matrix and flux mass matrix are positive definite |
| C85 | `findCycles`, `determineOpenness`, `getAreaOfMaterial`, `getBoundingBoxOfMaterial` | uniqueness of the listed cycle of every rotation class (C07); sums and bounds over permutations |
| C86 | `Triangulation.fem`, `Driver.construct`, all queries but `getPULMTLByDomains` | bijection of degrees of freedom with signs; uniqueness of fields; simulation of the queries of two drivers, side by side |
| C87 | `getGeneralizedCMatrix`, `getCFromGeneralizedC`, `getLMatrix`, `getFloatingPotentialsMatrix` | discrete maximum principle (C83) gives the signs of the charges; reduction and inverse keep them; negative parts are in the kernel |
| C88 | `Solve`, `getChargeInBoundary`, `getGeneralizedCMatrix`, `getPULMTL` | the field restricted to an isolated part and 0 elsewhere solves the problem with the potentials elsewhere set to 0; uniqueness (C79); an inverse of a matrix without coupling has none (conjugation with signs) |
| C89 | `getGeneralizedCMatrix`, `getPULMTL` of two models | Dirichlet principle in the first model with the field of the second one as competitor; reduction takes the least energy; L from equal quadratic forms |
| C90 | `Model/Elements.lean`: the discretisation with given shape functions of order p and quadrature, `Spec/Elements.lean` | only constants have no gradient; polynomials determined at the points; existence by Bernstein polynomials on the triangle and their traces, discrete gradient by a dimension-free basis argument; then C74 and C31 |
| C91 | same, `ParallelPlates`, `ElectricalDepth` | divergence theorem for polynomials on a triangle with exact quadrature (beta integrals); sides cancel in pairs; explicit piecewise linear field; uniqueness (C90) |
| C92 | as C90, regions as C88 | degrees of freedom that do not vanish in a region form an isolated part (locality of shape functions; the discrete gradient does not leave the region because Nedelec functions are a basis); then as C88 |
| C93 | as C90, `Spec/Patch.lean` | the exact solution solves the discrete problem (divergence theorem, C91); uniqueness (C90) |
| C94 | `Spec/Spaces.lean`, `Spec/Galerkin.lean` (spaces and field without shape functions) | coefficients in a complete basis are equivalent to functions, so the discrete equations are those of the spaces; rules agree on products of polynomials; then twin drivers (`Props/Twin.lean`); complete bases exist (Bernstein polynomials, `Proofs/BernsteinComplete.lean`) |
| C95 | as in C94; `Proofs/Order.lean` | the solution of lower order is among the trial functions of the higher one, the difference is orthogonal to the solution of higher order, so energies differ by the energy of the difference; if that is 0 both solve the problem of higher order, which has one solution |
| C96 | as in C94; `Spec/Congruent.lean`; `Proofs/Carry.lean`, `CarryIntegral.lean`, `Congruent.lean`, `CongruentField.lean` | polynomials and Raviart-Thomas fields are carried from a triangle to its copy (barycentric coordinates permuted, vectors turned); exact rules integrate by the formula for products of barycentric coordinates, which has no order of vertices; the carried potential and D meet the characterisation of C94 on the copy, so they are the ones found there, and fluxes through corresponding sides agree |
| C97 | solver, driver | the field of one model with D multiplied by the factor is the field of the other one, unique by well-posedness; floating systems and the reduction to C are homogeneous |
| C98 | solver, triangles, elements of any order | the coarse potential, as a function on the fine mesh, is admissible there (continuous, same conductor values) and has the same energy, since an exact rule integrates over a triangle as over its parts (Green: integrals from the sides, inner sides cancel, pieces of a side add up); then as in C95 |
| C99 | driver (all requests), `buildDomains`, `getCenterOfCharge` | table of refusals in `Spec/Refusals.lean`; each request unfolded to the point of its throw, before any write; conversely the shapes of the matrices are tracked through every loop, so only divisions by zero and the inversion can fail |
| C100 | `getInCellPotentials` and what it calls; `Spec/InCell.lean` | charges of the one-volt fields form a positive definite matrix (energy, C77), so floating potentials exist (C37) and the charge divided by is positive; the loops of `getFieldParameters` reduced to superposition (C40), moments (C69), means (C62), box (C18); then C64, C43 and C78 composed |
| C101 | solver on triangle meshes in the plane over the reals; `Spec/Limit.lean` (triangles as point sets, Lebesgue integrals, potentials as functions) | lower bound: the discrete potential is itself a potential of the cross-section (polynomials on triangles, continuous across sides), its discrete energy the integral (exact rules, change of variables); upper bound: Galerkin minimality against the interpolant of a potential with bounded slopes, whose energy converges (almost everywhere differentiable by Rademacher's theorem, there the gradients of the interpolants converge because triangles are not flat, and they are bounded: dominated convergence); existence of fine meshes: each triangle cut in four at the middles of its sides is again a mesh of the same cross-section (barycentric coordinates), half the size, as flat as before. Not covered: rates; charges |
| C102 | as C101 (`Finds`: the potential found as a function in the plane) | energies on the line through two potentials are a quadratic function (almost everywhere differentiability; `Proofs/EnergySplit`), whose middle is a potential, C101. Example: a capacitor, whose exact potential is proved least (Fubini, fundamental theorem for Lipschitz functions). Not covered: rates |
| C103 | as C102 | the quadratic function of C102 is nowhere below the least energy; C102 for the fine mesh. Exact solutions: it has its minimum at 0. Example: the capacitor with and without dielectric, any order. Not covered: rates (solutions on polygons are singular at corners, so a rate for smooth solutions would say little) |
| C104 | `Model/Rounding.lean`: the matrix functions of the driver over any type with total operations (no laws) | loop invariants give the entries as expressions of these operations; the two expressions of a pair are equal up to one commutation. Relative errors compose. Exact numbers: the loops are those of `Model/DMat.lean` |
| C105 | `Spec/Shrunk.lean` (sets of points in the plane) and that of C101 | a potential is extended by the potential of the conductor into the space this leaves; a straight line leaving the former cross-section does so at the surface of the conductor, so slopes stay bounded; the gradient vanishes in the new part. Then C101. On nested meshes the extension is a polynomial on every triangle of the new mesh (the former one, or a constant), hence among the functions the run minimizes over (`Proofs/Pieces.lean`). Example: a capacitor whose plate is moved away |
| C106 | that of C31 and C73 | fields of conductors with one tag solve the same problem, which has one solution; e_i − e_j is in the kernel of the matrix, which C73 excludes when parameters are computed |
| C107 | `Spec/Shrunk.lean` (`Removed`: sets of points in the plane, lists of materials) and that of C101 | as C105, the surface of the conductor no longer being one. Example: two plates with a block between them |
| C108 | `Spec/Bonded.lean` (`Retagged`: the discretisation with other boundary attributes; `Bonded`: which conductors become which) and that of C29, C31, C35 | the field of the bonded conductors solves the equations of the separate ones; uniqueness and superposition. That other tags change the discretisation only so is `C108_mesh` (`C108_orders`). Example: a conductor between two plates, which are bonded |
| C109 | `Spec/Lifetimes.lean` (what a solver, a solution, a driver owns; `Keeps`) | a separation-style triple (owned and borrowed objects) for every function of `Model/Lifetimes.lean`, by induction over the calls; exceptions leave through the releases of the locals. Example: a solver with two solutions, three drivers of which one throws |
| C110 | `Spec/Bounds.lean` (`Discretises`, `Tagged`: tags of the mesh and of the discretisation) and that of C11, C27, C28 | the filter keeps tags of the mesh, which are positive; the loop over permittivities leaves the vector iff a key is too large. That triangle meshes give such discretisations is `C110_triangles`. The sides a domain exposes are exposed in the mesh, because domains are components (C20), so domain models are built (C25) and their drivers constructed or refused (C27): `C110_by_domains`. Examples: plates with a dielectric that has the tag of the sides; the two domains of C26 |
| C111 | `Model/RoundedGrid.lean`: the functions of C47 and C48 with every operation rounded; `Spec/Rounding.lean` (`Rounding`: what is known of the arithmetic) | the offset of the last point of a gap is at most 0.994 of the gap, whatever the roundings; rounding is monotone, so points between representable ends stay between them; the midpoint is the rounded exact one because halving is exact, so it stays in its cell; points keep a two-hundredth of the gap from the ends, which separates midpoints from sides. Sums: relative errors compose (`Near`), at most 302² cells. Instance: rounding to nearest with p + 1 digits and unlimited exponents (`Proofs/Nearest.lean`). Without rounding the functions are those of C47, C48 (`C111_exact`) |
| C112 | the driver of C65; `Spec/FieldFiles.lean` (what a file holds: what was written to it last) | every call writes stored fields or fields of floating problems (`Writes`, by the structure of the calls, using that calls keep the stored fields); a suffix does not change the number read from a name with an underscore, and numbers are unique, so paths are distinct. Refuted by domains and for a pair of names |
| C113 | `getAveragePotential` with the code's `multipolarExpansion` over ℝ; `Spec/Accuracy.lean` (exact mean: Lebesgue integral over box minus inner region) | the grid partitions the integral (induction over planes); midpoint rule on a cell by reflection about its midpoint; cells are at most a hundredth of the sides and do not cross the inner region; second differences of Laurent series by derivatives along segments; charges: C54 and bounds of moments; `C113_in_cell`: the coefficients of an entry are the moments of the charges on the conductors; `C113_driver`, `C113_driver_inductance`: C100 and C113 together, the capacitances a driver reports (example: `lonely`, a driver over ℝ whose capacitance on the inner region is 3) |
| C114 | `Model/RoundedGrid.lean` over ℝ, any rounding of `Spec/Rounding.lean` | the computed cells against values at exact midpoints (`rounded_cells`, shared with C111); computed gaps are at most a hundredth of the sides up to 16uM; midpoint rule on any grid through the sides (`lists_error`, shared with C113); first and second differences of the potential of line charges |
| C115 | `Model/RoundedExpansion.lean`: the lines of multipolarExpansion.h with every operation rounded, library functions as parameters; assumptions on them in `Spec/Library.lean` | running error analysis (`Near`, shared with C111) through the loop; unit vectors of nearby points for the angle; logarithm and powers of a distance known up to two roundings; combined with C114 for averages |
| C116 | `getCapacitanceOnBox` and `getInductanceOnBox` of `Model/RoundedGrid.lean` (every operation rounded) | roundings as factors between 1-u and 1/(1-u); the quotient through factors; the average from C115; for the results of a driver, with the entries of C100 |
| C117 | `Model/JsonText.lean`: writer and parser of `nlohmann::json` on texts; grammar of RFC 8259 in `Spec/JsonText.lean` | parser = grammar (completeness and soundness by induction on the fuel, which the length of the text provides); the writer's output is derived in the grammar by induction on the value; combined with C42 and C43 |
| C118 | `mainProgram` on files that hold texts (`documents`, `textFiles`) | C78 with C117 on both ends; maps with the same lookups are equal, so the order of members does not matter |
| C119 | `Arithmetic.capacitances` with `roundedArithmetic` | error bound per intermediate result (value, size without cancellation, number of roundings), by induction over the loops; quotient lemma |
| C120 | `Model/RoundedCell.lean`: `getInnerRegionAveragePotential`, the superposition of `getFieldParameters` and the two functions over the inner region, every operation rounded; areas and averages of each material are parameters | the error calculus of C119 along the loops, quotient lemma; parameters with the factors of C116 |
| C64 | `mainProgram` | case analysis over C38 and C15; refuted; exact location for every input path (`C15_anywhere_partial`, `C64_anywhere_partial`) |

Nothing in the list is inexpressible.

## 2. Trusted base

* Lean 4.33 kernel (every theorem is re-checked by `vcheck`).
* Axioms: every theorem depends on at most `propext`, `Classical.choice`, `Quot.sound`. No axioms are added, no
  `native_decide`/`bv_decide`; `decide +kernel` is evaluated by the kernel.
* Faithfulness of the model to the C++ text as cited, including the simplifications in the comments.
* The assumptions on Boost, MFEM, nlohmann::json and std::filesystem listed in section 0.

## 3. Findings

Divergences between what a user relies on and the code; those with a property id are proved.

* F1 `getInductanceOnBox` reads the *electric* conductor potentials (C50, C51).
* F2 The ground of a domain depends on the order of the mesh elements (C23).
* F3 `getPULMTLByDomains` fails for every model with two or more domains: the driver of a domain without conductor 0
  rejects it; `groundConductorId` is never used by the driver (C26).
* F4 The parser reads `exportParaviewSolution`, documented is `exportParaViewSolution` (C14).
* F5 `split` drops one-way edges and isolated vertices (C06).
* F6 `getTotalCharge` is minus the sum of the boundary charges (C56).
* F7 `readJSON` constructs but does not throw its exception (modelled; `json::parse` throws anyway).
* F8 Names without a number after the underscore are read as an uninitialised `int` (C10).
* F9 `setDirichletConditions` does not refresh the essential boundary markers (C58, C61).
* F10 A lone attribute −1 is accepted by `AttrToMarker`, but `Solve` writes out of range.
* F11 Absolute input paths: mesh and results are looked for below the current directory (C15, C64).
* F12 The PCG initial guess is uninitialised memory.
* F13 Openness: coincidence of element counts accepts branching boundaries as loops (C17).
* F14 The material filter matches tags across boundary and domain elements (C11 states it as is).
* F15 A JSON round trip loses map keys and r×0 shapes (C42, C43).
* F16 `addClosedPath` keeps the edges added before it throws (C01, C03).
* F17 `run` throws for semiopen models, which the README lists as supported; output names differ from the README.
* F18 Duplicate conductor tags are accepted; the parameters are then not finite (C106).
* F19 `run` concatenates folder and file name without separator (C38).
* F20 The bounding box of an absent material is inverted and infinite (C18).
* F21 The command line overrides `exportFolder`; F27 but the constructor has exported fields to it before (C64).
* F24 Floating potentials with one conductor are `[1]` also for closed models.
* F25 Tags beyond the range of `int` are wrapped (C13).
* F26 A conductor numbered −1 makes the domain tree undefined (excluded by hypothesis in C24).
* F28 MFEM eliminates essential degrees of freedom once, so an earlier `Solve` matters (C63).
* F29 An attribute both prescribed and Neumann is counted twice in the zeroth moment.
* F30 `saveToJSONFile` ignores failures to write.
* F31 A negative expansion order −1 gives no coefficients, below that throws `length_error`.
* F32 Matrices whose first row is empty are silently dropped on reading (C45).
* F33 The open-boundary coefficient −1/(r log r) is negative for r > 1 and singular at r = 1 (C68).
* F34 Drivers of domains export fields under the names of the conductors, over those of the enclosing driver
  (C112_refuted).
* F35 Consequence of F33: with an open boundary beyond distance 1 the assembled problem can be singular or indefinite (C74_refuted).
* F36 Consequence of F33: results for open models depend on the unit of length and on the origin of coordinates (C75_refuted).
* F37 Charges are fluxes of the projection of D, which balance only in the limit of fine meshes (or of exact fields, as
  between plates). On coarse meshes `getGeneralizedCMatrix` symmetrises a response whose rows add up to zero and whose
  columns do not: the result can be indefinite, and C of a closed line depends on the choice of conductor 0
  (C81_refuted). The hypotheses `Reciprocity` of C72 and `Conservative` of C77 are not automatic.
* F38 On meshes with obtuse angles potentials can leave the range of the conductor potentials (C83_refuted), as for all
  methods with piecewise linear functions; nothing in the code checks the mesh for it.
* F39 `Solve` does not look at whether PCG converged, and starts D from uninitialised storage: with the tolerances of the
  code the charges depend, within the tolerance, on what was in it (C63_storage_refuted).
* F40 `ElectrostaticSolver` has a destructor that deletes ten raw pointers and more, but its copy constructor and assignment are the implicit ones:
  destroying a solver and a copy of it releases everything twice (C109_copied). Nothing in the code copies one.
* F41 The coefficient of open boundaries is a local of the constructor; an integrator of the Laplacian keeps pointing to it. This is harmless only because
  nothing assembles the Laplacian again (C109_no_second_assembly).
* F42 Consequence of F14: a dielectric with the tag of a boundary (above the tags of all elements) passes the filter; the constructor of the solver then
  writes beyond the end of the vector of permittivities. The `assert` against it is compiled out in release builds (C110_refuted).
* F43 Names of conductors are not checked: conductors `1_no_dielectrics` (number 0: no digits after the underscore) and `1` are accepted, and the
  field of the second one without dielectrics is written over that of the first one (C112_names).
* F44 Results with entries that are not finite are saved with `null` in their place, without warning; `PULParameters` cannot be constructed from
  such a file (C117_not_finite).
