{"id": "C01", "title": "Graph contents equal the accepted history", "statement": "After any sequence of addVertex/addEdge/addClosedPath calls (rejected ones included), getVertices() is exactly the set of ids mentioned by accepted calls, verticesSize() its cardinality, getEdgesAsPairs() lists exactly the accepted edges in the order they were added with multiplicity, and edgesSize() is the length of that list.", "quantifier": "every finite sequence of mutating calls on an initially empty graph, all vertex ids", "why_tests_cant": "the claim ranges over all call histories; tests fix a handful of graphs", "anchors": ["src/DirectedGraph.cpp:addVertex", "src/DirectedGraph.cpp:addEdge", "src/DirectedGraph.cpp:addClosedPath", "src/DirectedGraph.cpp:getVertices", "src/DirectedGraph.cpp:getEdgesAsPairs"]}
{"id": "C02", "title": "Self-loops are always rejected", "statement": "addEdge(v,v) throws and leaves the graph observably unchanged; addClosedPath of one vertex throws and leaves it unchanged; no reachable graph ever reports an edge from a vertex to itself; addClosedPath that throws midway keeps exactly the edges preceding the first repeated consecutive pair and nothing else.", "quantifier": "every reachable graph and every argument", "why_tests_cant": "needs all histories and all rejected calls, including partially executed ones", "anchors": ["src/DirectedGraph.cpp:addEdge", "src/DirectedGraph.cpp:addClosedPath"]}
{"id": "C03", "title": "Closed path adds exactly its cyclic edges", "statement": "A successful addClosedPath(v0..vn-1) appends exactly the edges v0->v1, ..., vn-2->vn-1, vn-1->v0 in this order, and nothing else; it succeeds exactly when the list does not have length one and no two cyclically consecutive ids coincide.", "quantifier": "every reachable graph, every list of ids of any length", "why_tests_cant": "unbounded path length", "anchors": ["src/DirectedGraph.cpp:addClosedPath"]}
{"id": "C04", "title": "Boundary graph is the set of unmatched edges", "statement": "getBoundaryGraph() contains exactly the edges whose reverse edge is not in the graph, in the original order and with multiplicity, and exactly the vertices touched by them; taking the boundary of a boundary changes nothing.", "quantifier": "every reachable graph", "why_tests_cant": "all graphs of all sizes", "anchors": ["src/DirectedGraph.cpp:getBoundaryGraph"]}
{"id": "C05", "title": "Split of a mesh-like graph is the partition into connected components", "statement": "If every edge of the graph came from a closed path, split() returns one graph per connected component: every edge is in exactly one returned graph, every vertex is in exactly one returned graph, two vertices are in the same returned graph iff they are connected (ignoring edge direction), and no returned graph is empty.", "quantifier": "every graph obtained by any sequence of successful addClosedPath calls", "why_tests_cant": "component search over arbitrary graphs; a test sees a few", "anchors": ["src/DirectedGraph.cpp:split", "boost connected_components (DFS)"]}
{"id": "C06", "title": "Split of an arbitrary graph loses nothing", "statement": "For every graph, split() returns one graph for each disconnected subgraph, and together they contain every vertex and edge of the original.", "quantifier": "every reachable graph", "why_tests_cant": "all graphs; the shipped tests only check the number of parts", "anchors": ["src/DirectedGraph.cpp:split"]}
{"id": "C07", "title": "findCycles enumerates each elementary cycle exactly once", "statement": "findCycles() terminates on every graph and returns exactly the elementary directed cycles (at least two distinct vertices, consecutive edges, closing edge), each exactly once up to rotation, written starting from the vertex that was added first to the graph.", "quantifier": "every reachable graph", "why_tests_cant": "number of cycles and steps is unbounded; needs an inductive argument about the backtracking search", "anchors": ["src/DirectedGraph.cpp:findCycles", "boost tiernan_all_cycles"]}
{"id": "C08", "title": "findCycles is empty iff the graph is acyclic", "statement": "findCycles() returns an empty list iff no vertex can be reached from itself along at least one edge.", "quantifier": "every reachable graph", "why_tests_cant": "both directions quantify over all walks of all lengths", "anchors": ["src/DirectedGraph.cpp:findCycles"]}
{"id": "C09", "title": "Conductor number is read from the name", "statement": "For every prefix without underscore and every k up to INT_MAX, the id of material '<prefix>_<k in decimal>' is k, also with leading zeros; larger numbers saturate at INT_MAX.", "quantifier": "all prefixes, all k", "why_tests_cant": "infinitely many names", "anchors": ["src/Materials.cpp:getMaterialIdFromName"]}
{"id": "C10", "title": "Every material name has a well-defined id", "statement": "getMaterialIdFromName returns a determinate value for every name (a name without a number gets id 0).", "quantifier": "all strings", "why_tests_cant": "infinitely many names, one class of which hits an uninitialised read", "anchors": ["src/Materials.cpp:getMaterialIdFromName"]}
{"id": "C11", "title": "Model keeps exactly the materials present in the mesh", "statement": "Constructing a Model from materials with distinct names keeps, in order and unmodified, exactly those whose tag is the attribute of some element or boundary element of the mesh; doing it twice changes nothing.", "quantifier": "all material lists and meshes", "why_tests_cant": "all combinations of tags and meshes", "anchors": ["src/Model.cpp:filterOutMaterialsNotPresentInMesh", "src/Materials.cpp:removeMaterialsNotInList", "src/Model.cpp:Model::Model"]}
{"id": "C12", "title": "Name-to-tag lookup agrees with the declared materials", "statement": "For materials with distinct names, buildNameToAttrMap() maps a name to a tag iff some declared material has that name and tag; by-name and by-id lookup return the first declared material that matches and throw (\"Invalid material type\") iff there is none; with repeated names conductors win over open boundaries and those over dielectrics; the conductor id-to-tag map sends an id to the tag of the last conductor declared with it; the number of conductors is the number of different names among the declared conductors.", "quantifier": "all material lists and names", "why_tests_cant": "unbounded lists", "anchors": ["src/Materials.cpp:buildNameToAttrMap", "src/Materials.h:buildNameToAttrMapFor", "src/Materials.h:buildIdToAttrMapFor", "src/Materials.h:get"]}
{"id": "C13", "title": "Materials section is read completely and faithfully", "statement": "Reading the materials object either throws, or yields exactly one material per entry in the class of its type (Vacuum being a dielectric of relative permittivity 1), with its name, tag, permittivity, and area converted from mm^2 to m^2 (0 when absent); it throws iff some entry lacks a usable type, tag, or (for Dielectric) eps_r. A list is read like an object with the positions as names, null like an empty object, anything else throws.", "quantifier": "all JSON materials values whose tags are within the range of int (wider ones are wrapped silently)", "why_tests_cant": "all JSON documents", "anchors": ["src/Parser.cpp:readMaterials"]}
{"id": "C14", "title": "Every documented analysis option is honoured", "statement": "readDriverOptions returns, for each documented option (order, printIterations, exportParaViewSolution, exportVisItSolution, exportFolder), the value given in the file when present and the documented default otherwise.", "quantifier": "all analysis objects", "why_tests_cant": "all subsets of options and values", "anchors": ["src/Parser.cpp:readDriverOptions", "README.md"]}
{"id": "C15", "title": "Mesh is read from the directory of the input file", "statement": "The mesh path used is the gmshFile entry resolved in the directory of the input file, whatever the current directory and the input path.", "quantifier": "all input paths and working directories", "why_tests_cant": "all paths", "anchors": ["src/Parser.cpp:readModel"]}
{"id": "C16", "title": "Closed iff no open boundary is present", "statement": "A model is classified closed iff no open-boundary material survives in it; classification never depends on conductors or dielectrics.", "quantifier": "all models with at most one open boundary", "why_tests_cant": "all meshes", "anchors": ["src/Model.cpp:determineOpenness"]}
{"id": "C17", "title": "Open iff the open boundary consists of closed loops", "statement": "A model with an open boundary is classified open iff every boundary element with that tag lies on a closed loop of consistently oriented such elements, and semiopen otherwise.", "quantifier": "all models with one open boundary", "why_tests_cant": "all meshes and orderings of boundary elements; relies on a cycle-count coincidence argument", "anchors": ["src/Model.cpp:determineOpenness", "src/Model.cpp:determineClosedLoops", "src/Model.cpp:elementsFormOpenLoops"]}
{"id": "C18", "title": "Bounding box encloses the material tightly", "statement": "For a known material the box contains every vertex of every element with its tag and each of its four sides touches such a vertex; an unknown name throws; a material without elements yields the inverted infinite box.", "quantifier": "all meshes, all material lists with distinct names (as a JSON object gives them), all names", "why_tests_cant": "all meshes", "anchors": ["src/Model.cpp:getBoundingBoxOfMaterial"]}
{"id": "C19", "title": "Area of a material", "statement": "For a dielectric present in the model the area is the sum of the volumes of exactly the elements with its tag, for a conductor it is the declared area, unknown names throw.", "quantifier": "all meshes, all material lists with distinct names (as a JSON object gives them), all names", "why_tests_cant": "all meshes", "anchors": ["src/Model.cpp:getAreaOfMaterial"]}
{"id": "C20", "title": "Every element belongs to exactly one domain", "statement": "For every closed model buildDomains (when it returns) numbers the domains 0..n-1 and puts every mesh element in exactly one; two elements sharing a vertex are in the same one, and more precisely two elements are in the same domain iff they are joined by a chain of elements sharing vertices.", "quantifier": "all closed models", "why_tests_cant": "all meshes; connectivity is unbounded", "anchors": ["src/Domain.cpp:buildDomains", "src/Domain.cpp:buildMeshGraph"]}
{"id": "C21", "title": "Conductors and boundary elements of a domain", "statement": "A conductor is listed in a domain iff some boundary element with its tag has at least two distinct vertices in the domain, the domain's boundary elements are exactly those elements, and every two-vertex conductor boundary element lies in at most one domain.", "quantifier": "all closed models", "why_tests_cant": "all meshes", "anchors": ["src/Domain.cpp:getBdrElemsInDomain", "src/Domain.cpp:buildDomains"]}
{"id": "C22", "title": "Conductor 0 is in exactly one domain or the call throws", "statement": "If buildDomains returns, exactly one domain contains conductor 0; if none or several do, it throws.", "quantifier": "all closed models", "why_tests_cant": "all meshes", "anchors": ["src/Domain.cpp:DomainTree::DomainTree", "src/Domain.cpp:buildDomains"]}
{"id": "C23", "title": "Grounds follow the domain tree", "statement": "Whenever buildDomains returns, the domain containing conductor 0 has ground 0, and the ground of every other domain is the conductor it shares with the domain that encloses it (the next one on the way to the domain of conductor 0).", "quantifier": "all closed models whose domains form a tree", "why_tests_cant": "depends on the numbering of mesh vertices, which tests fix", "anchors": ["src/Domain.cpp:buildDomains"]}
{"id": "C24", "title": "Domain tree is acyclic and spans the domains", "statement": "The domain tree has one vertex per domain, every edge joins two different domains that share a conductor and goes from the lower to the higher domain id, a conductor present in k domains contributes exactly k-1 edges, and the graph never has a directed cycle, so the post-condition assertion never fires.", "quantifier": "all domain sets accepted by the constructor (non-negative ids)", "why_tests_cant": "all domain sets", "anchors": ["src/Domain.cpp:DomainTree::DomainTree"]}
{"id": "C25", "title": "Building a domain model does not alter the global mesh", "statement": "buildModelForDomain leaves the attributes of all elements of the global mesh as they were; the returned model has exactly the elements of the domain, in order, with their original attributes, keeps only materials present there, and its ground is the domain's ground.", "quantifier": "all meshes and domains", "why_tests_cant": "all meshes and element subsets", "anchors": ["src/Domain.cpp:buildModelForDomain"]}
{"id": "C26", "title": "Per-domain parameters are available for every closed model", "statement": "getPULMTLByDomains returns one parameter set for each domain of any closed model.", "quantifier": "all closed models", "why_tests_cant": "the only multi-domain test is disabled", "anchors": ["src/Driver.cpp:getPULMTLByDomains", "src/Driver.cpp:Driver::Driver"]}
{"id": "C27", "title": "Driver accepts exactly consecutively numbered conductors", "statement": "The Driver constructor accepts a model iff the conductor ids are exactly 0..N-1 with N >= 1, each once; otherwise it throws before solving anything.", "quantifier": "all models whose conductors have distinct names that carry an id (C09, C10 treat the others)", "why_tests_cant": "all sets of names", "anchors": ["src/Driver.cpp:Driver::Driver"]}
{"id": "C28", "title": "Conductor indexing is always in range", "statement": "On an accepted model, no matrix or solution access indexed by conductor ids is out of range in solving, getGeneralizedCMatrix, or the in-cell computation of open models; every conductor gets its own solution slot.", "quantifier": "all accepted models", "why_tests_cant": "memory safety for all models", "anchors": ["src/Driver.cpp:solveForAllConductors", "src/Driver.cpp:getGeneralizedCMatrix", "src/Driver.cpp:getFieldParameters"]}
{"id": "C29", "title": "One-volt excitation per conductor", "statement": "For conductor i the solver is run with every boundary tagged by conductor i at 1 V and every other conductor boundary at 0 V, and the set of prescribed boundaries is the same in every run.", "quantifier": "all accepted models", "why_tests_cant": "all models", "anchors": ["src/Driver.cpp:solveForAllConductors", "src/Driver.cpp:buildAttrToValueMap"]}
{"id": "C30", "title": "Solver inputs reflect the materials", "statement": "With dielectrics the permittivity of each dielectric tag is its declared value, ignoring dielectrics it is 1 for every tag; open boundaries and conductor tags are passed completely; nothing else is passed; if all permittivities are 1 both variants coincide.", "quantifier": "all models with distinct names and tags", "why_tests_cant": "all models", "anchors": ["src/Driver.cpp:buildSolverInputsFromModel"]}
{"id": "C31", "title": "Generalized capacitance matrix is symmetric", "statement": "getGeneralizedCMatrix returns an N x N symmetric matrix whose (i,j) entry is the mean of the charge on j with i at one volt and the charge on i with j at one volt; it throws for a closed model with a single conductor.", "quantifier": "all accepted models, any solver", "why_tests_cant": "all matrices", "anchors": ["src/Driver.cpp:getGeneralizedCMatrix"]}
{"id": "C32", "title": "Capacitance of closed lines is referred to grounded conductor 0", "statement": "For closed problems getCFromGeneralizedC deletes exactly row and column 0: the charges on conductors 1..N-1 are C V for every choice of their potentials when conductor 0 is at 0 V.", "quantifier": "all N and all generalized matrices", "why_tests_cant": "all sizes and entries", "anchors": ["src/Driver.cpp:getCFromGeneralizedC"]}
{"id": "C33", "title": "Capacitance of open lines describes charge-neutral operation", "statement": "For open and semiopen problems with non-zero entry sum, getCFromGeneralizedC gives the matrix C such that for all potentials V for which the total charge is zero, the charges on conductors 1..N-1 are C applied to the potentials relative to conductor 0; it is the only such matrix; a zero entry sum leads to non-finite output when N > 1.", "quantifier": "all N, all generalized matrices, all potentials", "why_tests_cant": "all sizes and entries (an algebraic identity)", "anchors": ["src/Driver.cpp:getCFromGeneralizedC"]}
{"id": "C34", "title": "Capacitance reduction preserves symmetry and positivity", "statement": "getCFromGeneralizedC maps symmetric matrices to symmetric ones, positive semidefinite to positive semidefinite and positive definite to positive definite ones, commutes with scaling, and is equivariant under renumbering of conductors other than 0.", "quantifier": "all N, all generalized matrices", "why_tests_cant": "all matrices", "anchors": ["src/Driver.cpp:getCFromGeneralizedC"]}
{"id": "C35", "title": "L and vacuum C satisfy L C0 = mu0 eps0 I", "statement": "The returned L is mu0 times the inverse of the reduced capacitance without dielectrics, is symmetric, and whenever no dielectric differs from vacuum the returned matrices satisfy L C = mu0 eps0 I.", "quantifier": "all accepted models", "why_tests_cant": "all models", "anchors": ["src/Driver.cpp:getLMatrix", "src/Driver.cpp:buildPULParametersForModel"]}
{"id": "C36", "title": "Floating conductors carry no charge", "statement": "Row i of the floating-potential matrix has 1 at position i and gives potentials for which the charge (by the capacitance matrix) on every other conductor is zero; it is the only such potential vector.", "quantifier": "all N, all capacitance matrices for which the system is regular", "why_tests_cant": "all sizes and matrices", "anchors": ["src/Driver.cpp:getFloatingPotentialsMatrix"]}
{"id": "C37", "title": "Floating potentials always exist and lie between 0 and 1", "statement": "If the capacitance matrix is positive definite all floating systems are regular; if moreover off-diagonal entries are non-positive and row sums non-negative, all floating potentials lie between 0 and 1.", "quantifier": "all N, all such matrices", "why_tests_cant": "needs a proof about matrices of all sizes", "anchors": ["src/Driver.cpp:getFloatingPotentialsMatrix"]}
{"id": "C38", "title": "run() dispatches on openness", "statement": "run writes pulmtln.out.json for closed models, inCellPotentials.out.json for open ones, in the export folder, and throws without writing anything for semiopen ones.", "quantifier": "all accepted models", "why_tests_cant": "all models", "anchors": ["src/Driver.cpp:run"]}
{"id": "C39", "title": "Query results do not depend on call history", "statement": "Any sequence of queries on one Driver gives each query the same answer as on a freshly constructed Driver.", "quantifier": "all finite sequences of public queries", "why_tests_cant": "all call histories; the queries mutate shared solver fields", "anchors": ["src/Driver.cpp:getGeneralizedCMatrix", "src/Driver.cpp:getFieldParameters", "src/Driver.cpp:getInnerRegionAveragePotential"]}
{"id": "C40", "title": "In-cell field equals the field solved with floating potentials", "statement": "The superposed field used for conductor i is the field the solver would produce with the floating potentials of row i prescribed on the conductors.", "quantifier": "all accepted open models, any solver linear in its boundary data", "why_tests_cant": "all models", "anchors": ["src/Driver.cpp:getFieldParameters"]}
{"id": "C41", "title": "Monopole coefficient is the charge of the prescribed conductor", "statement": "If the raw charge matrix is symmetric, the zeroth coefficient stored for conductor i equals the charge on conductor i alone, because the others carry none.", "quantifier": "all accepted open models", "why_tests_cant": "all models", "anchors": ["src/Driver.cpp:getFieldParameters", "src/ElectrostaticSolver.cpp:getChargeMomentComponent"]}
{"id": "C42", "title": "PUL parameters survive a JSON round trip", "statement": "Serialising PUL parameters and reading them back gives equal parameters for all matrix sizes (with at least one column, or empty) and finite entries.", "quantifier": "all matrices", "why_tests_cant": "all sizes and entries", "anchors": ["src/Results.cpp:PULParameters::toJSON", "src/Results.cpp:PULParameters::PULParameters", "src/Results.cpp:toVecVec", "src/Results.cpp:toMFEMDenseMatrix"]}
{"id": "C43", "title": "In-cell results survive a JSON round trip", "statement": "Serialising in-cell potentials and reading them back gives equal results whenever all maps are keyed 0..n-1, and only then; results produced by the Driver always are.", "quantifier": "all in-cell results", "why_tests_cant": "all key sets and sizes", "anchors": ["src/Results.cpp:InCellPotentials::toJSON", "src/Results.cpp:InCellPotentials::InCellPotentials", "src/Results.cpp:potentialsFromJSON"]}
{"id": "C44", "title": "Result comparison is exact equality", "statement": "operator== on field reconstructions, in-cell potentials and PUL parameters is true iff all components are equal; in particular it is an equivalence relation.", "quantifier": "all results without NaN", "why_tests_cant": "all sizes", "anchors": ["src/Results.cpp:FieldReconstruction::operator==", "src/Results.cpp:InCellPotentials::operator==", "src/Results.cpp:PULParameters::operator=="]}
{"id": "C45", "title": "Malformed matrices are rejected", "statement": "Reading PUL parameters throws iff C or L is missing or some matrix has rows of different lengths; it never produces a matrix with entries not in the document.", "quantifier": "all row lists", "why_tests_cant": "all shapes", "anchors": ["src/Results.cpp:PULParameters::PULParameters", "src/Results.cpp:toMFEMDenseMatrix"]}
{"id": "C46", "title": "Coupling coefficients are normalised", "statement": "getCapacitiveCouplingCoefficients has unit diagonal, is unchanged when C is scaled by a non-zero factor, and row i is C's row i divided by C_ii, for all C with non-zero diagonal.", "quantifier": "all N and all such matrices", "why_tests_cant": "all sizes", "anchors": ["src/Results.cpp:getCapacitiveCouplingCoefficients"]}
{"id": "C47", "title": "Integration grid resolves cell and inner region", "statement": "For a box that contains the inner region, the planes are strictly increasing, start and end at the box sides, contain the inner region's sides and split every gap between consecutive distinct control coordinates in 100 equal parts.", "quantifier": "all boxes", "why_tests_cant": "all coordinates", "anchors": ["src/Results.cpp:buildIntegrationPlanesForBox"]}
{"id": "C48", "title": "Box average is a correct area-weighted mean", "statement": "For every box containing the inner region (non-degenerate), the area of the integrated grid cells is the box area minus the inner area, so a potential constant in the box averages to that constant, the average lies between the least and greatest sampled value, and a potential that is a + b x + c y + d x y outside the inner region is integrated exactly.", "quantifier": "all boxes and expansions", "why_tests_cant": "all coordinates, 10^4..9*10^4 cells", "anchors": ["src/Results.cpp:getAveragePotential", "src/Model.h:Box"]}
{"id": "C49", "title": "Box smaller than the inner region is rejected", "statement": "Capacitance or inductance on a box throws iff the box fails to contain the inner region's box (or a conductor index is missing).", "quantifier": "all boxes", "why_tests_cant": "all coordinates", "anchors": ["src/Results.cpp:buildIntegrationPlanesForBox", "src/Results.cpp:getCapacitanceOnBox", "src/Results.cpp:getInductanceOnBox"]}
{"id": "C50", "title": "On the inner region itself the box formulas agree with the inner-region formulas", "statement": "getCapacitanceOnBox(i,j,inner box) = getCapacitanceUsingInnerRegion(i,j) and getInductanceOnBox(i,j,inner box) = getInductanceUsingInnerRegion(i,j).", "quantifier": "all in-cell results, all i,j", "why_tests_cant": "all values", "anchors": ["src/Results.cpp:getCapacitanceOnBox", "src/Results.cpp:getInductanceOnBox", "src/Results.cpp:getCapacitanceUsingInnerRegion", "src/Results.cpp:getInductanceUsingInnerRegion"]}
{"id": "C51", "title": "Inductance depends on magnetic data only", "statement": "getInductanceUsingInnerRegion and getInductanceOnBox are determined by the magnetic reconstructions (and boxes); changing electric data does not change them, and symmetrically for capacitance.", "quantifier": "all in-cell results", "why_tests_cant": "all values", "anchors": ["src/Results.cpp:getInductanceOnBox", "src/Results.cpp:getCapacitanceOnBox"]}
{"id": "C52", "title": "Moment components are harmonic polynomials", "statement": "momentComponent(p,n,0,c) and momentComponent(p,n,1,c) are the real and imaginary part of (p-c)^n / n seen as complex numbers, for all n >= 1 and all points.", "quantifier": "all points, centers and orders", "why_tests_cant": "all real inputs", "anchors": ["src/multipolarExpansion.h:momentComponent"]}
{"id": "C53", "title": "Multipolar expansion is a truncated Laurent series", "statement": "For p different from the center, multipolarExpansion equals (1/2pi)(-a0 log|z| + Re sum (a_n + i b_n)/z^n) with z = p - center; it is linear in the coefficients and invariant under translating position and center together.", "quantifier": "all points, centers, coefficient lists", "why_tests_cant": "all real inputs and orders", "anchors": ["src/multipolarExpansion.h:multipolarExpansion"]}
{"id": "C54", "title": "Multipolar expansion reproduces the potential of its charges", "statement": "For any finite set of line charges, the expansion with their moments about a center converges to their exact potential at every point farther from the center than all charges, with error at most (sum|q|/2pi) rho^(n+1)/((n+1)(1-rho)) at order n, where rho is the ratio of radii.", "quantifier": "all charge sets, points, centers, orders", "why_tests_cant": "an analytic limit statement", "anchors": ["src/multipolarExpansion.h:multipolarExpansion", "src/multipolarExpansion.h:momentComponent", "src/ElectrostaticSolver.cpp:getMultipolarCoefficients"]}
{"id": "C55", "title": "Dipole moment vanishes about the center of charge", "statement": "When the total flux through all boundaries is zero (Gauss) and the net charge is non-zero, the order-1 coefficients computed about getCenterOfCharge are zero and the order-0 coefficient is the total charge on the prescribed boundaries.", "quantifier": "all flux distributions", "why_tests_cant": "all fields", "anchors": ["src/ElectrostaticSolver.cpp:getCenterOfCharge", "src/ElectrostaticSolver.cpp:getMultipolarCoefficients", "src/ElectrostaticSolver.cpp:getChargeMomentComponent"]}
{"id": "C56", "title": "Total charge is the sum of the boundary charges", "statement": "getTotalCharge equals the sum of getChargeInBoundary over all boundary attributes.", "quantifier": "all flux distributions", "why_tests_cant": "tests only check that the total is near zero, where the sign does not matter", "anchors": ["src/ElectrostaticSolver.cpp:getTotalCharge", "src/ElectrostaticSolver.cpp:getChargeInBoundary"]}
{"id": "C57", "title": "Attribute markers select exactly the given attributes", "statement": "The marker array built for a list of positive attributes has a 1 exactly at the positions of these attributes, is long enough for every boundary attribute of the mesh, and non-positive attributes are rejected (except a lone -1, meaning all).", "quantifier": "all attribute lists and meshes", "why_tests_cant": "all lists", "anchors": ["src/ElectrostaticSolver.cpp:AttrToMarker"]}
{"id": "C58", "title": "Prescribed potentials are attained", "statement": "After setDirichletConditions(v) and Solve, the potential equals v(a) on all degrees of freedom of boundary a (those not shared with another prescribed boundary), for any prescribed set v.", "quantifier": "all meshes, all v, all call sequences", "why_tests_cant": "all boundary sets and histories", "anchors": ["src/ElectrostaticSolver.cpp:Solve", "src/ElectrostaticSolver.cpp:setDirichletConditions", "src/ElectrostaticSolver.cpp:applyBoundaryConstantValuesToGridFunction"]}
{"id": "C59", "title": "Superposition", "statement": "Solutions depend linearly on the prescribed potentials (without surface charges): potential, E, D and all derived charges for a combination of boundary values are the combination of the individual results.", "quantifier": "all meshes with regular stiffness, all boundary values", "why_tests_cant": "all data", "anchors": ["src/ElectrostaticSolver.cpp:Solve"]}
{"id": "C60", "title": "Equal potentials on all conductors of a closed problem give no field", "statement": "Without open boundary and surface charge, prescribing the same value on every prescribed boundary gives that constant potential, zero E and D and zero charges; consequently the charges on each conductor, added over the excitations of all conductors at one volt each, are zero.", "quantifier": "all meshes, all values", "why_tests_cant": "all data", "anchors": ["src/ElectrostaticSolver.cpp:Solve", "src/ElectrostaticSolver.cpp:getChargeInBoundary"]}
{"id": "C61", "title": "Saved solutions are independent snapshots", "statement": "getSolution returns a copy that later solves do not change, and setSolution restores it so that every derived quantity is the one computed originally.", "quantifier": "all call sequences", "why_tests_cant": "all histories", "anchors": ["src/ElectrostaticSolver.cpp:getSolution", "src/ElectrostaticSolver.cpp:setSolution"]}
{"id": "C62", "title": "Average potentials are means", "statement": "Average potentials over a domain or boundary, and the inner-region average, return c for a potential equal to c everywhere, are linear in the potential, and the inner-region average lies between the smallest and largest of its parts' averages when areas are non-negative with positive sum.", "quantifier": "all models, all fields", "why_tests_cant": "all data", "anchors": ["src/ElectrostaticSolver.cpp:getAveragePotentialInDomain", "src/ElectrostaticSolver.cpp:getAveragePotentialInBoundary", "src/Driver.cpp:getInnerRegionAveragePotential"]}
{"id": "C63", "title": "Solve is independent of earlier solves", "statement": "The result of Solve depends only on the mesh, the inputs and the current boundary conditions, not on earlier calls or on uninitialised storage.", "quantifier": "all call sequences", "why_tests_cant": "all histories; initial iterate of the flux solve is inherited", "anchors": ["src/ElectrostaticSolver.cpp:Solve"]}
{"id": "C64", "title": "Command line", "statement": "Without arguments or with help the program prints its usage and exits successfully without reading any file; otherwise it writes its results next to the input file, whatever exportFolder says in it.", "quantifier": "all command lines", "why_tests_cant": "all inputs", "anchors": ["src/pulmtln.cpp:main"]}
{"id": "C65", "title": "Exported field files hold the solution they are named after", "statement": "When field export is enabled, constructing a Driver writes for every conductor the field of the one-volt excitation of that conductor with all others grounded, under its name, with and without dielectrics; in-cell runs also write the field used for each conductor's in-cell potentials; when export is disabled nothing is written.", "quantifier": "all models and options", "why_tests_cant": "the set of files depends on every branch of the driver", "anchors": ["src/Driver.cpp:exportFieldSolutions", "src/Driver.cpp:solveForAllConductors"]}
{"id": "C66", "title": "Solve solves the discrete problem", "statement": "After any sequence of calls that keeps some boundary prescribed, Solve leaves the unique potential with the prescribed values at the prescribed nodes satisfying the assembled equations elsewhere, E = -grad of it and D the projection of permittivity times E; setNeumannCondition on a boundary of the mesh does not touch the fields held and adds its charge density to the next solve.", "quantifier": "all meshes with a regular problem, all inputs and histories", "why_tests_cant": "all data", "anchors": ["src/ElectrostaticSolver.cpp:Solve"]}
{"id": "C67", "title": "Energy", "statement": "For a closed problem without surface charges getTotalEnergy is one half of the integral of permittivity times |grad phi|^2, is not negative, and is the least energy of all potentials with the same values on the prescribed boundaries.", "quantifier": "all meshes, all inputs and histories", "why_tests_cant": "a minimisation over all fields", "anchors": ["src/ElectrostaticSolver.cpp:getTotalEnergy", "src/ElectrostaticSolver.cpp:Solve"]}
{"id": "C68", "title": "Open boundary condition is exact for a line charge at the origin", "statement": "The potential of a line charge at the origin satisfies the open boundary condition of the solver exactly at every distance other than 0 and 1; the coefficient is positive at distances below 1 and negative above.", "quantifier": "all charges and points", "why_tests_cant": "all reals", "anchors": ["src/ElectrostaticSolver.cpp:firstOrderABC"]}
{"id": "C69", "title": "Charges are fluxes of D", "statement": "In every state of the solver the charge of a boundary is minus the outward flux of D through it, the total charge is the flux through all boundary elements, average potentials are the integral of the potential over the material divided by its measure, and charge moments are those of the charges on the boundaries with prescribed potential or surface charge.", "quantifier": "all meshes and fields", "why_tests_cant": "all data", "anchors": ["src/ElectrostaticSolver.cpp:getChargeInBoundary", "src/ElectrostaticSolver.cpp:getTotalCharge", "src/ElectrostaticSolver.cpp:getAveragePotentialInDomain", "src/ElectrostaticSolver.cpp:getChargeMomentComponent"]}
{"id": "C70", "title": "Values of in-cell capacitances and inductances", "statement": "With q the zeroth coefficient stored for conductor j and v the potential stored there for conductor i, the in-cell capacitance is eps0 q / (v - average) and the inductance mu0 (v - average) / q, the average being that of the inner region or of the box asked for; a finite number is returned exactly when the entries exist and the denominator is not zero (inductance on a box: whenever the electric and magnetic potentials of the conductor agree).", "quantifier": "all in-cell results, conductors and boxes", "why_tests_cant": "all values", "anchors": ["src/Results.cpp:getCapacitanceUsingInnerRegion", "src/Results.cpp:getInductanceUsingInnerRegion", "src/Results.cpp:getCapacitanceOnBox", "src/Results.cpp:getInductanceOnBox"]}
{"id": "C71", "title": "In-cell parameters of a model in vacuum", "statement": "If all relative permittivities are 1, the electric and magnetic halves of the in-cell results agree, and in-cell capacitance times in-cell inductance is eps0 mu0 for every pair of conductors, in the inner region and on every box.", "quantifier": "all open models without dielectrics, all boxes", "why_tests_cant": "two independent computations must agree for every input", "anchors": ["src/Driver.cpp:getInCellPotentials", "src/Results.cpp:getCapacitanceOnBox", "src/Results.cpp:getInductanceOnBox"]}
{"id": "C72", "title": "Meaning of the per-unit-length parameters", "statement": "If getPULMTL answers, then in every field with dielectrics and prescribed conductor potentials the charges on conductors 1..n, times eps0, are C times the voltages to conductor 0, and in every field without dielectrics the voltages, times mu0, are L times the charges; for closed models with conductor 0 grounded, for others with zero total charge; provided the discretisation is reciprocal.", "quantifier": "all models, all conductor potentials", "why_tests_cant": "an infinite family of excitations", "anchors": ["src/Driver.cpp:getPULMTL", "src/Driver.cpp:getCMatrix", "src/Driver.cpp:getLMatrix", "src/Driver.cpp:getCFromGeneralizedC"]}
{"id": "C73", "title": "When per-unit-length parameters exist", "statement": "getPULMTL answers exactly if the entries of the generalized capacitance matrices, with and without dielectrics, do not add up to zero (models that are not closed, more than one conductor) and, without dielectrics, a line operated without charge on conductors 1..n has no voltages.", "quantifier": "all models", "why_tests_cant": "all matrices", "anchors": ["src/Driver.cpp:getPULMTL", "src/Driver.cpp:getLMatrix"]}
{"id": "C74", "title": "One field for every excitation", "statement": "If the integration weights and all relative permittivities are positive and the elements separate functions (no non-zero potential vanishing on the conductors has zero gradient everywhere, no non-zero flux vanishes everywhere), the discrete problem is well posed: for any conductor potentials there is exactly one field, with and without dielectrics, wherever the open boundaries are.", "quantifier": "all meshes, materials and conductor potentials", "why_tests_cant": "an existence and uniqueness statement over all fields", "anchors": ["src/ElectrostaticSolver.cpp:Solve", "src/ElectrostaticSolver.cpp:firstOrderABC"]}
{"id": "C75", "title": "Position, orientation and unit of length", "statement": "Turning, moving and uniformly scaling a model (mesh coordinates, with permittivities and attributes kept) does not change its generalized capacitance matrices, per-unit-length parameters and floating potentials.", "quantifier": "all models, all similarities of the plane", "why_tests_cant": "an infinite group of transformations", "anchors": ["src/Driver.cpp:getPULMTL", "src/Driver.cpp:getGeneralizedCMatrix", "src/Driver.cpp:getFloatingPotentials", "src/ElectrostaticSolver.cpp:firstOrderABC"]}
{"id": "C76", "title": "Declaration order and labels", "statement": "The order in which materials are declared, the names of dielectrics and open boundaries and the choice of the ground do not change the generalized capacitance matrices, per-unit-length parameters and floating potentials; exchanging the numbers of conductors other than 0 exchanges the rows and columns of the generalized matrices and of C and L accordingly and changes nothing else in them.", "quantifier": "all models, all permutations", "why_tests_cant": "all permutations of all material lists", "anchors": ["src/Driver.cpp:getPULMTL", "src/Driver.cpp:getGeneralizedCMatrix", "src/Materials.h:buildNameToAttrMap"]}
{"id": "C77", "title": "Energy, reciprocity and passivity of the line", "statement": "If the fluxes of D agree with the discrete equations (the charge of a conductor is the residual of the equations at its nodes), charges times potentials add up to twice the field energy and Green's reciprocity holds between any two fields of a model. With positive permittivities the generalized capacitance matrices are then symmetric positive semidefinite, and if the mesh is in one piece and (for models that are not closed) some open boundary absorbs, getPULMTL answers and C and L are symmetric positive definite.", "quantifier": "all models, all conductor potentials", "why_tests_cant": "positivity over all excitations of all models", "anchors": ["src/Driver.cpp:getPULMTL", "src/Driver.cpp:getGeneralizedCMatrix", "src/ElectrostaticSolver.cpp:Solve"]}
{"id": "C78", "title": "The program, from the input file to the results file", "statement": "Reading an input file of the documented shape (keys not repeated, materials and analysis are objects, tags and order within int), given by a relative path, succeeds exactly when the file describes a model and options: the mesh in the file named gmshFile in the folder of the input file, the declared materials whose tag occurs in the mesh, and the analysis options with their defaults; it then gives exactly these, and otherwise throws. Run on the file of a closed line of at least two conductors (mesh in one piece, positive permittivities and weights, exact linear solver, fluxes of D consistent with the discrete equations) the program succeeds and writes one JSON file, pulmtln.out.json next to the input file; reading it back gives symmetric positive definite C and L, which give the charges of conductors 1..n from their voltages to conductor 0, and mu0 times the voltages from the charges without dielectrics.", "quantifier": "all input documents of the documented shape, directories, relative paths, disks, meshes and discretisations", "why_tests_cant": "The documents, meshes and directory layouts are infinite families; a test checks one file.", "anchors": ["src/Parser.cpp:readModel", "src/Parser.cpp:readMaterials", "src/Parser.cpp:readDriverOptions", "src/pulmtln.cpp:main", "src/Driver.cpp:loadFromFile", "src/Driver.cpp:run", "src/Results.cpp:saveToJSONFile"]}
{"id": "C79", "title": "First-order elements on triangles", "statement": "On a mesh of triangles with positive area, at order 1: constants are represented exactly, the discrete gradient is the gradient and D is determined by its values. If boundary segments are sides of triangles, every vertex is joined along sides with a conductor, conductors have no common vertex, permittivities are positive, tags are positive and known to the mesh, conductors are numbered 0..n and open boundaries (if any) have a non-negative absorbing coefficient, then openness is determined, a driver is constructed, every choice of conductor potentials has exactly one field with and without dielectrics, and the generalized capacitance matrices are computed (unless the model is closed with a single conductor), with the mean of the two mutual charges as entries. Integrals of a potential are those of its linear interpolation, the area of a dielectric is the sum of the areas of its triangles, its bounding box the smallest box holding them.", "quantifier": "all triangle meshes, materials and conductor potentials", "why_tests_cant": "all meshes of all sizes and shapes", "anchors": ["src/FES.cpp", "src/Model.cpp:getAreaOfMaterial", "src/Model.cpp:getBoundingBoxOfMaterial", "src/ElectrostaticSolver.cpp:ElectrostaticSolver", "src/ElectrostaticSolver.cpp:Solve", "src/Driver.cpp:getGeneralizedCMatrix"]}
{"id": "C80", "title": "Parallel plates are exact on every mesh", "statement": "For two plates facing each other, with layers of dielectrics parallel to them and otherwise free boundaries perpendicular to them, every conforming mesh of triangles at order 1 gives the exact answer: potentials at the vertices are proportional to the electrical distance (the sum of thickness over permittivity), charges are opposite, and the per-unit-length parameters are C = eps0 width / electrical distance and L = mu0 distance / width.", "quantifier": "all meshes, layers, widths and distances", "why_tests_cant": "all conforming meshes of a geometry", "anchors": ["src/ElectrostaticSolver.cpp:Solve", "src/ElectrostaticSolver.cpp:getChargeInBoundary", "src/Driver.cpp:getPULMTL"]}
{"id": "C81", "title": "Charge neutrality of closed models", "statement": "In a closed model meshed with triangles, equal potentials on all conductors give no charges, the charges of the conductors add up to zero in every field, the generalized capacitance matrix is positive semidefinite, and the capacitance of a line of two conductors does not depend on which of them is number 0.", "quantifier": "all closed models and conductor potentials", "why_tests_cant": "all meshes and excitations", "anchors": ["src/ElectrostaticSolver.cpp:Solve", "src/ElectrostaticSolver.cpp:getChargeInBoundary", "src/Driver.cpp:getGeneralizedCMatrix", "src/Driver.cpp:getPULMTL"]}
{"id": "C82", "title": "Speed of the modes of the line", "statement": "If the relative permittivities in the mesh lie between lo and hi (and, if there are open boundaries, lo <= 1 <= hi), getPULMTL answers and the fluxes of D agree with the discrete equations, then C lies between lo and hi times the capacitance without dielectrics, which is mu0 eps0 times the inverse of L, and every eigenvalue of L C lies between mu0 eps0 lo and mu0 eps0 hi: no mode is faster than light in vacuum if no permittivity is below 1, and none faster or slower than light in the thinnest or densest dielectric.", "quantifier": "all models, all excitations, all eigenvectors", "why_tests_cant": "an inequality over all models and all excitations", "anchors": ["src/Driver.cpp:getPULMTL", "src/Driver.cpp:getCMatrix", "src/Driver.cpp:getLMatrix", "src/ElectrostaticSolver.cpp:Solve"]}
{"id": "C83", "title": "Bounds of the potential", "statement": "In a closed model meshed with triangles, at order 1, the computed potential lies between the lowest and the highest conductor potential, at every vertex and in every average over a material or boundary; the potentials the driver stores lie between 0 and 1.", "quantifier": "all triangle meshes, materials and conductor potentials", "why_tests_cant": "a maximum principle over all meshes and excitations", "anchors": ["src/ElectrostaticSolver.cpp:Solve", "src/ElectrostaticSolver.cpp:getAveragePotentialInDomain", "src/ElectrostaticSolver.cpp:getAveragePotentialInBoundary", "src/Driver.cpp:solveForAllConductors"]}
{"id": "C84", "title": "The iterative linear solver", "statement": "For symmetric positive definite matrices, conjugate gradients preconditioned with symmetric Gauss-Seidel never raise the error in energy above that of the initial guess, reach the tolerances within as many iterations as unknowns and, with zero tolerances, the solution. However many iterations are made and whatever the tolerances, every field the driver stores is exactly 1 V on its conductor and 0 V on the others, and E is minus the gradient of that potential; with positive permittivities the energy of the stored potential lies between that of the exact solution and that of the initial guess; with zero tolerances and as many iterations as unknowns the driver constructed is the one any exact solver gives.", "quantifier": "all matrices, right-hand sides, initial guesses, tolerances and iteration counts; all models", "why_tests_cant": "all matrices of all sizes; iterations that stop early", "anchors": ["src/ElectrostaticSolver.cpp:Solve", "src/Driver.cpp:solveForAllConductors"]}
{"id": "C85", "title": "Names and order in graphs and meshes", "statement": "The elementary cycles found in a graph depend only on its edges, up to their order and first vertices: not on the names of vertices or the order in which edges and vertices were added. Openness of a model, areas and bounding boxes of its materials do not change when vertices are renamed, elements and boundary segments listed in another order, or the vertices of an element listed from another one on.", "quantifier": "all graphs and histories of building them, all meshes, renamings and orders", "why_tests_cant": "all permutations of all meshes", "anchors": ["src/DirectedGraph.cpp:findCycles", "src/Model.cpp:determineOpenness", "src/Model.cpp:getAreaOfMaterial", "src/Model.cpp:getBoundingBoxOfMaterial"]}
{"id": "C86", "title": "The numbers in a mesh do not matter", "statement": "On a mesh of triangles at order 1 (elements as in C79): with the vertices renumbered, triangles and boundary segments listed in any other order and triangles from any other of their vertices, all queries but the one by domains answer the same after any history of queries, and write the same JSON files into the same folder. More generally this holds for any two discretisations which differ in the numbers and directions of degrees of freedom only, such as those of different versions of the finite element library.", "quantifier": "all triangle meshes, all renumberings and orders, all queries and histories", "why_tests_cant": "all permutations of all meshes, whose degrees of freedom change number and sign", "anchors": ["src/ElectrostaticSolver.cpp:Solve", "src/ElectrostaticSolver.cpp:getChargeInBoundary", "src/Driver.cpp:getPULMTL", "src/Driver.cpp:getInCellPotentials", "src/Driver.cpp:run"]}
{"id": "C87", "title": "Signs of the line parameters", "statement": "If permittivities are positive, the fluxes of D agree with the discrete equations and no two degrees of freedom are coupled with the wrong sign (as on triangles without obtuse angles in closed models), then no generalized capacitance matrix has a positive entry off the diagonal or a row with a negative sum, neither has the per-unit-length capacitance matrix, no entry of the inductance matrix is negative, and floating potentials lie between 0 and 1.", "quantifier": "all models, open or closed, with and without dielectrics", "why_tests_cant": "inequalities over all models and meshes", "anchors": ["src/Driver.cpp:getGeneralizedCMatrix", "src/Driver.cpp:getPULMTL", "src/Driver.cpp:getFloatingPotentialsMatrix", "src/ElectrostaticSolver.cpp:Solve"]}
{"id": "C88", "title": "Regions with no connection", "statement": "On a mesh of triangles at order 1 (elements as in C79), conductors that touch no common connected region of the mesh (such as wires in separate chambers of a shield) have no mutual capacitance: their entries in the generalized matrices are 0, and in a closed model the per-unit-length C and L have no entries between groups of conductors that touch no common region. An entry does not change with the dielectrics of regions that not both conductors touch. In any discretisation, potential, E and D in a part without connection with the rest depend only on the potentials of the conductors and the materials there.", "quantifier": "all triangle meshes, materials, excitations and groups of conductors; all discretisations with an isolated part", "why_tests_cant": "all meshes with several regions and all materials elsewhere", "anchors": ["src/ElectrostaticSolver.cpp:Solve", "src/ElectrostaticSolver.cpp:getChargeInBoundary", "src/Driver.cpp:getGeneralizedCMatrix", "src/Driver.cpp:getPULMTL"]}
{"id": "C89", "title": "Raising permittivities", "statement": "If two models differ in dielectrics only and the relative permittivity is nowhere lower in the second one (positive permittivities and weights, fluxes of D that agree with the discrete equations), then at any conductor potentials the generalized capacitance matrix of the second one gives at least as much energy, at any voltages so does its per-unit-length capacitance matrix, no diagonal entry of either is lower, and the inductance matrix is the same.", "quantifier": "all pairs of models that differ in dielectrics, all excitations", "why_tests_cant": "an inequality over all pairs of models and all excitations", "anchors": ["src/Driver.cpp:getGeneralizedCMatrix", "src/Driver.cpp:getPULMTL", "src/ElectrostaticSolver.cpp:Solve"]}
{"id": "C90", "title": "Elements of any order", "statement": "On a mesh of straight triangles at any order from 1 on, with finite element spaces of that order (piecewise polynomials, continuous nodal functions that add up to 1, discrete gradient equal to the gradient) and a quadrature rule with positive weights that determines polynomials of that degree, and the hypotheses of C79 on mesh and materials: a driver is constructed, for any conductor potentials there is exactly one field with and without dielectrics, and the generalized capacitance matrices are symmetric and computed from the charges of these fields. Such spaces and rules exist at every order on every mesh of triangles with positive area.", "quantifier": "all triangle meshes, orders, shape functions, quadrature rules, materials and potentials", "why_tests_cant": "all orders and meshes", "anchors": ["src/ElectrostaticSolver.cpp:ElectrostaticSolver", "src/FES.cpp", "src/Driver.cpp:Driver", "src/Driver.cpp:getGeneralizedCMatrix"]}
{"id": "C91", "title": "Parallel plates at any order", "statement": "Two parallel plates with layers of dielectrics between them, on any conforming mesh of triangles and with elements of any order (C90, and quadrature exact for polynomials of this order): the potential is the exact one everywhere in every triangle, the charges are exact and opposite, the capacitance is eps0 times the width divided by the electrical distance, the inductance mu0 times the distance divided by the width, so results do not depend on mesh, order, shape functions or quadrature.", "quantifier": "all conforming triangle meshes between the plates, all orders, layers and potentials", "why_tests_cant": "all orders, meshes and layers", "anchors": ["src/ElectrostaticSolver.cpp:Solve", "src/ElectrostaticSolver.cpp:getChargeInBoundary", "src/Driver.cpp:getPULMTL"]}
{"id": "C92", "title": "Regions with no connection, at any order", "statement": "C88 with elements of any order (C90): conductors that touch no common connected region of the mesh have entries 0 in the generalized matrices, in a closed model the per-unit-length C and L have no entries between groups of conductors that touch no common region, an entry does not change with the dielectrics of regions that not both conductors touch, and the charge on a conductor depends only on the potentials of the conductors with which it shares a region.", "quantifier": "all triangle meshes, orders, shape functions, quadrature rules, materials, potentials and groups of conductors", "why_tests_cant": "all meshes with several regions, all orders", "anchors": ["src/ElectrostaticSolver.cpp:Solve", "src/ElectrostaticSolver.cpp:getChargeInBoundary", "src/Driver.cpp:getGeneralizedCMatrix", "src/Driver.cpp:getPULMTL"]}
{"id": "C93", "title": "Exact solutions are found", "statement": "If the exact solution of a model, closed or with open boundaries (where it fulfils the absorbing condition), is linear in each triangle with the same displacement everywhere (in any direction, through any layers of dielectrics), the solver finds exactly this solution: potential, E and D are exact everywhere in every triangle and the charge on every boundary is the exact flux, on every conforming mesh of triangles, with elements of every order (C90, quadrature exact at this order). For two conductors in a closed model C is eps0 times the flux per volt, L is mu0 divided by the flux per volt without dielectrics.", "quantifier": "all conforming triangle meshes, orders, layers of dielectrics and directions", "why_tests_cant": "all meshes, orders and directions", "anchors": ["src/ElectrostaticSolver.cpp:Solve", "src/ElectrostaticSolver.cpp:getChargeInBoundary", "src/Driver.cpp:getPULMTL"]}
{"id": "C94", "title": "Shape functions and quadrature rules do not matter", "statement": "On a mesh of triangles at any order (C90), the field depends only on the spaces: potential and D are the functions determined by mesh, materials and order alone (among the continuous piecewise polynomials with the prescribed values on the conductors the one orthogonal to those that vanish there; the projection of permittivity times minus its gradient on the Raviart-Thomas fields), E is minus the gradient. Two builds of the program with other shape functions and degrees of freedom of the same spaces, and with quadrature rules that agree on polynomials of twice the order (with the same points on segments if there are open boundaries), answer all queries but the one by domains alike after any histories and write the same JSON files.", "quantifier": "all triangle meshes, orders, bases of the finite element spaces, quadrature rules, queries and histories", "why_tests_cant": "all bases, all rules, all meshes and orders", "anchors": ["src/ElectrostaticSolver.cpp:ElectrostaticSolver", "src/ElectrostaticSolver.cpp:Solve", "src/FES.cpp", "src/Driver.cpp:Driver", "src/Driver.cpp:getPULMTL", "src/Driver.cpp:getInCellPotentials"]}
{"id": "C95", "title": "Raising the order does not raise the energy", "statement": "For a closed model on a mesh of triangles (C90, C94): of two solvers, one with elements of order p, the other of order p' >= p, whatever was done to them before (without surface charges), after solving with the same potentials on the conductors the one of higher order does not report more energy (getTotalEnergy), and reports the same only if both have found the same potential. So raising the order in the options lowers the energy or finds the same potential again.", "quantifier": "all triangle meshes, pairs of orders, bases of the spaces, quadrature rules, permittivities, potentials and histories of calls", "why_tests_cant": "an inequality over all meshes, orders and potentials", "anchors": ["src/ElectrostaticSolver.cpp:Solve", "src/ElectrostaticSolver.cpp:getTotalEnergy", "src/FES.cpp", "src/Driver.cpp:buildSolverInputsFromModel"]}
{"id": "C96", "title": "Congruent cross-sections", "statement": "Two closed models whose meshes of triangles are turned, mirrored, shifted or scaled copies of each other, with vertices, triangles, sides and labels numbered in any other way, the same permittivities in corresponding triangles and the same conductor numbers, give the same generalized capacitance matrix, C, L and floating potential matrices and the same per-unit-length parameters, at any order and with any bases of the finite element spaces and exact quadrature rules (C94), after any histories of queries. If the cross-section is taken into itself (say by a reflection) with conductor i going to conductor s(i), the generalized capacitance matrix has equal entries at (i, j) and (s(i), s(j)), and if conductor 0 stays, so have C and L.", "quantifier": "all closed triangle meshes, similarities of the plane, numberings, orders, bases, rules, queries and histories", "why_tests_cant": "all meshes, similarities and numberings", "anchors": ["src/ElectrostaticSolver.cpp:Solve", "src/ElectrostaticSolver.cpp:getChargeInBoundary", "src/Driver.cpp:getGeneralizedCMatrix", "src/Driver.cpp:getPULMTL"]}
{"id": "C97", "title": "Scaling permittivities, homogeneous dielectrics", "statement": "Multiplying all relative permittivities of a closed model by k (not 0) multiplies the generalized and per-unit-length capacitance matrices by k and leaves the matrices without dielectrics, the inductance matrix and the floating potentials as they were. A closed line with the relative permittivity er everywhere has er times the generalized capacitances it has without dielectrics, floating potentials equal to those without dielectrics, and L C = C L = mu0 eps0 er times the identity, on every mesh and at every order.", "quantifier": "all closed models with well posed discrete problem, all factors", "why_tests_cant": "all models and factors; an exact identity of matrices", "anchors": ["src/ElectrostaticSolver.cpp:Solve", "src/Driver.cpp:getGeneralizedCMatrix", "src/Driver.cpp:getPULMTL", "src/Driver.cpp:getFloatingPotentialsMatrix", "src/Driver.cpp:buildSolverInputsFromModel"]}
{"id": "C98", "title": "Refining the mesh does not raise the energy", "statement": "Solving the same closed model with the same conductor potentials on a mesh and on a refinement of it (triangles cut into triangles, sides cut at new vertices, boundary segments cut alike; same or higher order), the reported energy on the finer mesh is not larger, and not negative; it is the same only if both potentials are the same function of the position.", "quantifier": "all meshes and refinements of them, orders, materials, conductor potentials and earlier calls without surface charges", "why_tests_cant": "Ranges over all meshes, all ways to refine them and all orders; a test compares a few meshes, and with rounding.", "anchors": ["src/ElectrostaticSolver.cpp:Solve", "src/ElectrostaticSolver.cpp:getTotalEnergy", "src/FES.cpp", "src/Driver.cpp:buildSolverInputsFromModel"]}
{"id": "C99", "title": "Requests the kind of problem does not support", "statement": "Whatever the model, a request that its kind of problem (closed, open, semiopen) or its number of conductors does not support (generalized capacitances, C, L and per-unit-length parameters and run of a closed model with one conductor; floating potentials of a semiopen model with several; parameters by domains of one not closed; in-cell parameters of one not open; run of a semiopen one) is answered by the std::runtime_error with the documented text for it, nothing is written and the driver is left as it was. Every other request for matrices returns them unless a matrix is singular: no other error and no undefined behaviour. The solver refuses the center of charge unless there is exactly one open boundary.", "quantifier": "all models, drivers, requests", "why_tests_cant": "All models and requests: a test sees some of the refusals on some models, and never that no other failure is possible.", "anchors": ["src/Driver.cpp:getGeneralizedCMatrix", "src/Driver.cpp:getFloatingPotentialsMatrix", "src/Driver.cpp:getInCellPotentials", "src/Driver.cpp:run", "src/Driver.cpp:getPULMTLByDomains", "src/Domain.cpp:buildDomains", "src/ElectrostaticSolver.cpp:getCenterOfCharge"]}
{"id": "C100", "title": "In-cell results of open problems", "statement": "For an open problem whose boundary consists of the conductors and one open boundary, with a meshed region Vacuum_0, inner region parts of non-zero measure, positive permittivities and weights, an exact linear solver, an absorbing open boundary and fluxes of D that agree with the discrete equations and Gauss' law, in-cell results exist for every expansion order from 0. They hold, with and without dielectrics, one entry per conductor: the potentials with 1 V on this conductor that leave no charge on the others, the mean potential of the inner region, the centre of charge, and the charge (which is positive) and multipole moments about this centre up to the order; the box is the smallest around Vacuum_0. Run on the input file of such a problem, the program writes exactly this next to the file.", "quantifier": "all such open models, discretisations, orders, input files and directories", "why_tests_cant": "All models, discretisations and orders: tests compare numbers of a few meshes with tolerances, and none settles that the entries exist and mean this for every model.", "anchors": ["src/Driver.cpp:getInCellPotentials", "src/Driver.cpp:getFieldParameters", "src/Driver.cpp:getInnerRegionAveragePotential", "src/ElectrostaticSolver.cpp:getCenterOfCharge", "src/ElectrostaticSolver.cpp:getMultipolarCoefficients", "src/Model.cpp:getBoundingBoxOfMaterial", "src/pulmtln.cpp:main"]}
{"id": "C101", "title": "Energies converge as the mesh gets finer", "statement": "For closed models on triangle meshes in the plane: the energy reported by getTotalEnergy after solving with given conductor potentials is never below the least Dirichlet energy (half the Lebesgue integral of permittivity times squared gradient) of the potentials of the cross-section with these values on the conductors (functions whose slopes along straight lines in it are bounded), and is as near to it as one wants on every mesh of the cross-section that is fine enough without being flat, whatever order, shape functions, quadrature rules and earlier calls. So the results of two fine meshes agree, and there are meshes that reach every accuracy at every order. The limit depends on the cross-section only.", "quantifier": "all cross-sections, meshes of them, orders, bases, rules, materials, conductor potentials and histories without surface charges", "why_tests_cant": "A limit over all meshes of a cross-section; tests compare a few meshes with tolerances chosen to fit.", "anchors": ["src/ElectrostaticSolver.cpp:Solve", "src/ElectrostaticSolver.cpp:getTotalEnergy", "src/FES.cpp", "src/Driver.cpp:buildSolverInputsFromModel"]}
{"id": "C102", "title": "Fields converge as the mesh gets finer", "statement": "For closed models on triangle meshes in the plane: the potentials found (getSolution) on any two meshes of a cross-section that are fine enough without being flat have nearly the same field: the energy of their difference is as small as one wants, whatever orders, shape functions, quadrature rules and earlier calls. If the cross-section has a potential of least energy with the given conductor potentials, the fields found converge to its field. In general the energy of the difference of two potentials is at most twice the sum of what their energies exceed the least one.", "quantifier": "all cross-sections, meshes of them, orders, bases, rules, materials, conductor potentials and histories without surface charges", "why_tests_cant": "A limit over all meshes of a cross-section; tests compare a few meshes with tolerances chosen to fit.", "anchors": ["src/ElectrostaticSolver.cpp:Solve", "src/ElectrostaticSolver.cpp:getSolution", "src/FES.cpp", "src/Driver.cpp:buildSolverInputsFromModel"]}
{"id": "C103", "title": "Energies tell the error of the field", "statement": "For closed models on triangle meshes in the plane: what the energy reported on any mesh (however coarse) exceeds the least energy of the potentials of the cross-section is the energy of the error of the field found there: the energy of the difference between the potential found and the one found on any mesh that is fine enough, up to any tolerance; and exactly that of the difference from the potential of least energy, if the cross-section has one. So of two runs for the same conductor potentials, whatever their meshes and orders, the one that reports the smaller energy has the better field.", "quantifier": "all cross-sections, meshes of them, orders, bases, rules, materials, conductor potentials and histories without surface charges", "why_tests_cant": "Ranges over all meshes and orders and compares with a limit; tests have no exact field to compare with, except in a few cases.", "anchors": ["src/ElectrostaticSolver.cpp:Solve", "src/ElectrostaticSolver.cpp:getTotalEnergy", "src/ElectrostaticSolver.cpp:getSolution", "src/FES.cpp"]}
{"id": "C104", "title": "The capacitance matrix is symmetric in computer arithmetic", "statement": "However the numbers are rounded and whatever charges were computed, including infinities and NaN, the capacitance matrix is symmetric to the last bit (both entries of a pair are the same double; this only uses that multiplication of doubles is commutative). For closed problems each entry is the mean of two charges in three operations, so its relative error is at most (1+u)^3 - 1 of that mean when those do not overflow or underflow. The floating potential of the prescribed conductor is exactly 1, whatever the linear solver returns. With exact numbers these functions are those of the other properties.", "quantifier": "all charge matrices, sizes, kinds of openness, arithmetics, linear solvers", "why_tests_cant": "Ranges over all doubles, roundings and sizes; tests compare with a tolerance.", "anchors": ["src/Driver.cpp:getCFromGeneralizedC", "src/Driver.cpp:getGeneralizedCMatrix", "src/Driver.cpp:getCMatrix", "src/Driver.cpp:getFloatingPotentialsMatrix"]}
{"id": "C105", "title": "A smaller conductor stores less energy", "statement": "For closed models on triangle meshes in the plane: if a conductor is made smaller (moved back, thinned or carved, the space it leaves filled with any of the dielectrics) and everything else stays, then for the same conductor potentials the energy found afterwards, on meshes that are fine enough, does not exceed the energy found before on any mesh, up to any tolerance; and the least energies, which the energies converge to, do not rise. If the mesh is kept (or refined) where it was and the order is not lowered, the energy found does not rise at all. So the capacitance of a conductor against all others, as the energy defines it, does not rise when conductors shrink.", "quantifier": "all cross-sections, conductors, ways of shrinking, meshes, orders, bases, rules, materials, conductor potentials and histories without surface charges", "why_tests_cant": "Ranges over all pairs of cross-sections and meshes; tests compare a few geometries.", "anchors": ["src/ElectrostaticSolver.cpp:Solve", "src/ElectrostaticSolver.cpp:getTotalEnergy", "src/Driver.cpp:buildSolverInputsFromModel", "src/FES.cpp"]}
{"id": "C106", "title": "No parameters for conductors that share a tag", "statement": "Conductors with the same mesh tag are accepted, but no per-unit-length parameters are reported for them: the rows and columns of two such conductors in the generalized capacitance matrix are equal, so that the computation of the parameters divides by zero (in a closed model: if neither is conductor 0). A line with a doubled conductor is never mistaken for one with two conductors.", "quantifier": "all models, meshes, materials, positions of the two conductors among the others", "why_tests_cant": "Ranges over all models and meshes with a shared tag; no test has one.", "anchors": ["src/Driver.cpp:getPULMTL", "src/Driver.cpp:getGeneralizedCMatrix", "src/Driver.cpp:getCFromGeneralizedC", "src/Driver.cpp:getLMatrix"]}
{"id": "C107", "title": "Removing a conductor does not raise the energy", "statement": "For closed models on triangle meshes in the plane: if a conductor is removed (the space it leaves filled with any of the dielectrics) and everything else stays, then for the same potentials of the other conductors, and whatever the potential of the removed one was, the energy found afterwards, on meshes that are fine enough, does not exceed the energy found before on any mesh, up to any tolerance; and the least energies do not rise. If the mesh is kept (or refined) where it was and the order is not lowered, the energy found does not rise at all.", "quantifier": "all cross-sections, conductors, meshes, orders, bases, rules, materials, conductor potentials and histories without surface charges", "why_tests_cant": "Ranges over all pairs of cross-sections and meshes; tests compare a few geometries.", "anchors": ["src/ElectrostaticSolver.cpp:Solve", "src/ElectrostaticSolver.cpp:getTotalEnergy", "src/Driver.cpp:buildSolverInputsFromModel", "src/FES.cpp"]}
{"id": "C108", "title": "Bonded conductors act as one", "statement": "If conductors are bonded, that is the surfaces of several of them get one mesh tag and one conductor is declared in their place, then with the same mesh and order otherwise the field found for given potentials is the one of the separate conductors with bonded ones at the same potential; the charge of a bonded conductor is the sum of the charges of its parts; and each entry of the generalized capacitance matrix is the sum of the entries of the parts. For closed models the same holds for the per-unit-length capacitance matrix; conductors bonded to conductor 0 drop out.", "quantifier": "all models, meshes, orders, materials, groupings of the conductors, conductor potentials", "why_tests_cant": "Ranges over all models and groupings; no test compares two declarations of the same conductors.", "anchors": ["src/Driver.cpp:getGeneralizedCMatrix", "src/Driver.cpp:getPULMTL", "src/Driver.cpp:buildSolverInputsFromModel", "src/ElectrostaticSolver.cpp:Solve", "src/ElectrostaticSolver.cpp:getChargeInBoundary"]}
{"id": "C109", "title": "Nothing is leaked, released twice or used after release", "statement": "Whatever a client does with a solver (solving, changing conditions, reading and restoring solutions, queries, releasing solutions before or after the solver) or with drivers (constructing them, also when the constructor throws half-way, queries in any order, also when they throw, moving, assigning and destroying them in any order), no object is used after it was released, none is released twice, and none is left over: the objects alive are at any time those alive before and those owned by what the client has not yet destroyed. Two things are not safe: a copy of a solver (the class can be copied, the pointers are copied with it) and assembling a solver for an open model a second time, which the class does not do.", "quantifier": "all sequences of calls, numbers of solvers, solutions, drivers, conductors and domains, points where exceptions are thrown", "why_tests_cant": "Ranges over all sequences of calls and points of failure; tests run under one of them.", "anchors": ["src/ElectrostaticSolver.cpp:~ElectrostaticSolver", "src/ElectrostaticSolver.cpp:Solve", "src/ElectrostaticSolver.cpp:getSolution", "src/ElectrostaticSolver.cpp:setSolution", "src/FES.cpp", "src/Driver.h", "src/Driver.cpp:solveForAllConductors", "src/Driver.cpp:getPULMTLByDomains"]}
{"id": "C110", "title": "Tags never lead out of range, but for one mistake", "statement": "Constructing a driver from a mesh with positive tags and materials with distinct names and numbered conductors makes no access out of range, whatever the tags of the materials are, and neither do later calls in any order; with one exception: a dielectric declared with the tag of a boundary that is greater than the tags of all elements is not sorted out with the materials that are not in the mesh, and the constructor writes beyond the end of the permittivities. It does so exactly in that case. The parameters by domains are among the later calls if every exposed side of the mesh carries a boundary element and dielectrics and boundaries, and conductors and elements, do not share tags.", "quantifier": "all meshes, materials, tags, options and histories of calls", "why_tests_cant": "Ranges over all combinations of mesh and material tags; tests declare dielectrics with tags of elements.", "anchors": ["src/Driver.cpp:Driver", "src/ElectrostaticSolver.cpp:AttrToMarker", "src/ElectrostaticSolver.cpp:ElectrostaticSolver", "src/Model.cpp:filterOutMaterialsNotPresentInMesh", "src/Driver.cpp:buildSolverInputsFromModel"]}
{"id": "C111", "title": "The integration grid in computer arithmetic", "statement": "In binary floating-point arithmetic, whatever the direction of rounding and the precision (at least about ten digits), for every integration box that contains the inner region: the planes of the integration grid run exactly from side to side of the box and exactly through the sides of the inner region, never leave the box, strictly increase, and are equally spaced up to a few roundings of the largest coordinate. If sides that differ are not almost equal, the cells that are left out are exactly those of the inner region, all others are counted once, and the average of a potential that is an affine function outside the inner region differs from the exact average by an amount proportional to the relative error of one rounding: for double precision by at most 3e-11 of the largest potential, plus 1e-15 times the gradient times the largest coordinate.", "quantifier": "all roundings, precisions, boxes, inner regions, expansions and inner averages, within the range of the exponents", "why_tests_cant": "Ranges over all boxes and all roundings; tests compare a few averages with loose tolerances.", "anchors": ["src/Results.cpp:buildIntegrationPlanesForBox", "src/Results.cpp:getAveragePotential", "src/Model.h:Box"]}
{"id": "C112", "title": "The field file of a conductor holds its field", "statement": "With export enabled, after constructing a driver and any sequence of queries, whether they succeed or throw, the file under the name of every conductor (with the suffix for ignored dielectrics, or without) holds the field stored for that conductor, the one with one volt on it and zero volts on all others, and no other field has ever been written to it: queries that write the same or other fields do not replace it by something else.", "quantifier": "all models, conductor names, options, histories of queries", "why_tests_cant": "Ranges over all histories and all names; tests look for the presence of files, at most.", "anchors": ["src/Driver.cpp:exportFieldSolutions", "src/Driver.cpp:solveForAllConductors", "src/Driver.cpp:getGeneralizedCMatrix", "src/Driver.cpp:getFieldParameters", "src/Driver.cpp:getPULMTLByDomains"]}
{"id": "C113", "title": "Box averages are accurate", "statement": "For every box that contains the inner region, and every multipolar expansion about a centre at distance at least rho from the part of the box outside the inner region, the average potential over the box differs from the exact mean (the integral of the expansion over that part, plus the mean over the inner region times its area, over the area of the box) by at most (W^2 + H^2)/240000 times the bound of the second derivatives of the expansion, (|a0|/rho^2 + sum n(n+1)|an + i bn|/rho^(n+2))/2pi, times the fraction of the box outside the inner region, W and H being the sides of the box. If the coefficients are the moments up to order N of line charges within distance R < rho of the centre, it differs from the mean of the exact potential of the charges by at most (sum|q|/2pi)((R/rho)^(N+1)/((N+1)(1-R/rho)) + (W^2+H^2)/(240000(rho-R)^2)) times that fraction; this applies to every entry of the in-cell results of a driver, with the charges on its conductors. In-cell capacitances and inductances have the corresponding accuracy.", "quantifier": "all boxes, inner regions, centres, coefficients of any order, line charges, distances", "why_tests_cant": "Ranges over all fields and boxes and compares with an integral; tests compare a few averages with loose tolerances.", "anchors": ["src/Results.cpp:getAveragePotential", "src/Results.cpp:buildIntegrationPlanesForBox", "src/Results.cpp:getCapacitanceOnBox", "src/multipolarExpansion.h:multipolarExpansion"]}
{"id": "C114", "title": "Box averages are accurate as computed", "statement": "The average potential over a box, computed with every arithmetic operation rounded (relative error at most u, 2^-53 for a double), differs from the mean of the exact potential of the line charges by at most the sum of five errors: that of the evaluation of the expansion (given), its truncation, (sum|q|/2pi)(R/rho)^(N+1)/((N+1)(1-R/rho)), the rounding of the midpoints, (sum|q|/2pi) 2uM/(rho-R), the quadrature, (sum|q|/2pi)((W+1600uM)^2+(H+1600uM)^2)/(240000(rho-R)^2), and the rounding of the sums, ((1-u)^-100000 - 1)K; W and H are the sides of the box, M bounds the coordinates of its corners, K the potentials, R the distance of the charges from the centre and rho > R that of the points of the box outside the inner region. Sides are representable and, if distinct, at least 1000uM apart.", "quantifier": "all roundings, boxes, inner regions, line charges, orders, distances, evaluation errors", "why_tests_cant": "Ranges over all fields, boxes and roundings and compares with an integral; tests compare a few averages with loose tolerances.", "anchors": ["src/Results.cpp:getAveragePotential", "src/Results.cpp:buildIntegrationPlanesForBox", "src/multipolarExpansion.h:multipolarExpansion"]}
{"id": "C115", "title": "The expansion and the moments are accurate as computed", "statement": "With every arithmetic operation rounded and every function of the mathematical library (norm, atan2, log, cos, sin, pow, the constant pi) of relative error at most u, the value of a multipolar expansion of order N at any point other than its centre exists and differs from the value of the series by at most (22N+18)u times the sum of the sizes of its terms, (|a_0|(|log r|+1) + sum (|a_n|+|b_n|)/r^n)/2pi, as long as (22N+18)u <= 1 (and by ((1-u)^-(11N+9) - 1) times that in general); the moment components of order n differ from Re z^n/n and Im z^n/n by at most ((1-u)^-(11n+4) - 1)|z|^n/n, and that of order 0 is exactly 1. Together with the accuracy of box averages this bounds the error of an average with every operation rounded.", "quantifier": "all roundings, mathematical libraries, points, centres, orders, coefficients, boxes", "why_tests_cant": "Ranges over all inputs and all roundings; a test checks a few values with loose tolerances.", "anchors": ["src/multipolarExpansion.h:multipolarExpansion", "src/multipolarExpansion.h:momentComponent", "src/Results.cpp:getAveragePotential"]}
{"id": "C116", "title": "In-cell capacitances and inductances are accurate as computed", "statement": "With every operation rounded (relative error at most u): if the average of a field over a box is m up to E as computed, the capacitance of the box for conductors i and j exists whenever the potential V of conductor i differs from m by more than E, and differs from Q/(V-m) eps0 by at most the fraction |V-m|/(|V-m|-E) (1-u)^-3 - 1 of it; the inductance, with a nonzero current I, differs from (A-m)/I mu0 by at most ((1-u)^-3(|A-m|+E) - |A-m|)|mu0/I|. For the field of line charges m is the mean of their exact potential, Q their sum and E the sum of the evaluation, truncation, midpoint, quadrature and summation errors.", "quantifier": "all roundings, mathematical libraries, in-cell results, conductors, boxes, line charges, orders", "why_tests_cant": "Ranges over all fields, boxes and roundings; tests compare a few capacitances with tolerances of a few percent.", "anchors": ["src/Results.cpp:getCapacitanceOnBox", "src/Results.cpp:getInductanceOnBox", "src/Results.cpp:getAveragePotential"]}
{"id": "C117", "title": "Result files say what the results are", "statement": "A JSON text is accepted if and only if it belongs to the grammar of RFC 8259, and is then read as the one value it denotes (of members with the same name the last counts). What is written for a value whose numbers are finite is such a text and denotes that value, whatever the strings, nesting and sizes. So the file of per-unit-length parameters with finite entries, and that of the driver's results for cells, are read back, from the text alone, as exactly what was written. A parameter that is not finite is written as null: the file is then a valid document from which no parameters can be read (the constructor throws).", "quantifier": "all texts, all JSON values, all result objects, all number formats that read back what they print", "why_tests_cant": "Ranges over all texts and values; tests save and load a few results.", "anchors": ["src/Results.cpp:saveToJSONFile", "src/Results.cpp:PULParameters::toJSON", "src/Results.cpp:InCellPotentials::toJSON", "src/Parser.cpp:readJSON", "src/Driver.cpp:run"]}
{"id": "C118", "title": "From the text of the input to the text of the results", "statement": "Two input texts are treated alike if and only if they denote the same values: white space, escapes, the spelling of numbers and the order of members with distinct names do not matter. If the input file is missing or its text does not belong to the JSON grammar, the program prints its usage, ends with an exception of the JSON library and writes nothing. For the text of a regular closed line (as in C78) the program succeeds and writes one file next to the input; if the entries of the matrices can be printed, its text alone gives back the symmetric positive definite matrices that relate voltages and charges.", "quantifier": "all texts of input files, all discretisations, solvers and line geometries as in C78", "why_tests_cant": "Ranges over all texts and all lines; tests run the program on a few files.", "anchors": ["src/pulmtln.cpp:main", "src/Parser.cpp:readJSON", "src/Driver.cpp:run", "src/Results.cpp:saveToJSONFile"]}
{"id": "C119", "title": "The capacitances of open problems are accurate as computed", "statement": "With every operation rounded (relative error at most u): if the total charge D is larger than the error of summing its terms, the capacitance of conductors i and j of an open or semiopen problem is q_ij - (sum of row i)(sum of column j)/D of the symmetric part q of the computed charges, up to an error that is bounded by the roundings of the operations and the cancellation in the three sums. For doubles, up to 1000 conductors and a total charge of at least a millionth of its absolute terms T: relative error 1e-15 in q_ij and the result plus 1e-9 of S_i S_j T / D^2, S the sums of absolute values. Without rounding the formula is exact.", "quantifier": "all charge matrices, sizes, roundings, units", "why_tests_cant": "Ranges over all matrices and roundings, with cancellation; tests compare a few capacitances of open lines with tolerances of some percent.", "anchors": ["src/Driver.cpp:getCFromGeneralizedC", "src/Driver.cpp:getCMatrix", "src/Driver.cpp:getGeneralizedCMatrix"]}
{"id": "C120", "title": "Fields with floating conductors, inner-region averages and parameters are accurate as computed", "statement": "With every operation rounded (relative error at most u): each entry of a field superposed with factors c_k from fields t_k is sum c_k t_k up to ((1+u)^(n+1)-1) sum |c_k||t_k|, whatever was in it before; the average over n materials of areas a and average potentials v of size at most K is (sum v a)/(sum a) up to a small multiple of K (K/10^12 for doubles and at most 1000 materials); the capacitance and the inductance over the inner region are the exact quotients Q/(V-m) eps0 and (A-m)/I mu0 up to the stated relative errors, where E is the error of the stored average m. Without rounding these are the functions of the other properties.", "quantifier": "all fields, factors, materials, areas, averages, roundings", "why_tests_cant": "Ranges over all values and roundings, with cancellation; tests compare a few averages and capacitances with tolerances of some percent.", "anchors": ["src/Driver.cpp:getInnerRegionAveragePotential", "src/Driver.cpp:getFieldParameters", "src/Results.cpp:getCapacitanceUsingInnerRegion", "src/Results.cpp:getInductanceUsingInnerRegion"]}
