{
 "claims": [
  {
   "property": "C01",
   "status": "proved",
   "theorems": [
    "Tulip.Props.C01_contents"
   ],
   "note": ""
  },
  {
   "property": "C02",
   "status": "proved",
   "theorems": [
    "Tulip.Props.C02_selfloops",
    "Tulip.Props.C02_messages"
   ],
   "note": ""
  },
  {
   "property": "C03",
   "status": "proved",
   "theorems": [
    "Tulip.Props.C03_closed_path"
   ],
   "note": ""
  },
  {
   "property": "C04",
   "status": "proved",
   "theorems": [
    "Tulip.Props.C04_boundary"
   ],
   "note": ""
  },
  {
   "property": "C05",
   "status": "proved",
   "theorems": [
    "Tulip.Props.C05_split_components"
   ],
   "note": ""
  },
  {
   "property": "C06",
   "status": "partial",
   "theorems": [
    "Tulip.Props.C06_split_partial",
    "Tulip.Props.C06_exact_partial",
    "Tulip.Props.C06_lost_partial",
    "Tulip.Props.C06_refuted_edge",
    "Tulip.Props.C06_refuted_vertex"
   ],
   "note": "The full property is false of the code: one-way edges and isolated vertices are dropped (refutations proved). The partial theorems give what holds for every graph: the exact result of the split for every history of additions, and exactly which edges are lost."
  },
  {
   "property": "C07",
   "status": "proved",
   "theorems": [
    "Tulip.Props.C07_findCycles"
   ],
   "note": ""
  },
  {
   "property": "C08",
   "status": "proved",
   "theorems": [
    "Tulip.Props.C08_acyclic"
   ],
   "note": ""
  },
  {
   "property": "C09",
   "status": "proved",
   "theorems": [
    "Tulip.Props.C09_id_from_name",
    "Tulip.Props.C09_signed"
   ],
   "note": ""
  },
  {
   "property": "C10",
   "status": "partial",
   "theorems": [
    "Tulip.Props.C10_determinate_partial",
    "Tulip.Props.C10_refuted"
   ],
   "note": "False of the code for names with nothing but white space after the first underscore (uninitialised read, refutation proved)."
  },
  {
   "property": "C11",
   "status": "proved",
   "theorems": [
    "Tulip.Props.C11_filter"
   ],
   "note": ""
  },
  {
   "property": "C12",
   "status": "proved",
   "theorems": [
    "Tulip.Props.C12_lookup",
    "Tulip.Props.C12_lookup_by_id",
    "Tulip.Props.C12_precedence",
    "Tulip.Props.C12_id_map",
    "Tulip.Props.C12_count",
    "Tulip.Props.C12_messages"
   ],
   "note": ""
  },
  {
   "property": "C13",
   "status": "proved",
   "theorems": [
    "Tulip.Props.C13_materials",
    "Tulip.Props.C13_materials_only",
    "Tulip.Props.C13_other_shapes",
    "Tulip.Props.C13_refuted_wide_tag"
   ],
   "note": "Tags beyond the range of int are excluded by hypothesis; they are silently wrapped (proved)."
  },
  {
   "property": "C14",
   "status": "partial",
   "theorems": [
    "Tulip.Props.C14_options_partial",
    "Tulip.Props.C14_refuted"
   ],
   "note": "False of the code: the key read is exportParaviewSolution, the documented one is exportParaViewSolution (refutation proved). All other options proved."
  },
  {
   "property": "C15",
   "status": "partial",
   "theorems": [
    "Tulip.Props.C15_mesh_path_partial",
    "Tulip.Props.C15_anywhere_partial",
    "Tulip.Props.C15_refuted"
   ],
   "note": "False of the code for absolute input paths (refutation proved); proved for all relative paths, with the exact location for all paths."
  },
  {
   "property": "C16",
   "status": "proved",
   "theorems": [
    "Tulip.Props.C16_closed_iff"
   ],
   "note": ""
  },
  {
   "property": "C17",
   "status": "partial",
   "theorems": [
    "Tulip.Props.C17_open_iff_loops_partial",
    "Tulip.Props.C17_exact_partial",
    "Tulip.Props.C17_refuted"
   ],
   "note": "False for branching open boundaries (count coincidence, refutation proved); proved when at most one segment starts at each vertex; what the code computes for any open boundaries is proved exactly."
  },
  {
   "property": "C18",
   "status": "proved",
   "theorems": [
    "Tulip.Props.C18_bounding_box"
   ],
   "note": ""
  },
  {
   "property": "C19",
   "status": "proved",
   "theorems": [
    "Tulip.Props.C19_area"
   ],
   "note": ""
  },
  {
   "property": "C20",
   "status": "proved",
   "theorems": [
    "Tulip.Props.C20_partition"
   ],
   "note": ""
  },
  {
   "property": "C21",
   "status": "proved",
   "theorems": [
    "Tulip.Props.C21_conductors"
   ],
   "note": ""
  },
  {
   "property": "C22",
   "status": "proved",
   "theorems": [
    "Tulip.Props.C22_conductor0",
    "Tulip.Props.C22_messages"
   ],
   "note": ""
  },
  {
   "property": "C23",
   "status": "partial",
   "theorems": [
    "Tulip.Props.C23_grounds_partial",
    "Tulip.Props.C23_exact_partial",
    "Tulip.Props.C23_refuted"
   ],
   "note": "False of the code: grounds depend on the order of the mesh elements (refutation proved). Proved: in nested domains the grounds are right if and only if each domain is numbered after the one enclosing it."
  },
  {
   "property": "C24",
   "status": "proved",
   "theorems": [
    "Tulip.Props.C24_tree",
    "Tulip.Props.C24_edge_count"
   ],
   "note": ""
  },
  {
   "property": "C25",
   "status": "proved",
   "theorems": [
    "Tulip.Props.C25_domain_model"
   ],
   "note": ""
  },
  {
   "property": "C26",
   "status": "partial",
   "theorems": [
    "Tulip.Props.C26_domains_partial",
    "Tulip.Props.C26_never",
    "Tulip.Props.C26_refuted"
   ],
   "note": "False of the code: with two or more domains the query always fails, because the driver of a domain without conductor 0 rejects it (proved for all such models). The partial theorem characterises exactly when it succeeds and what it returns."
  },
  {
   "property": "C27",
   "status": "proved",
   "theorems": [
    "Tulip.Props.C27_accepts",
    "Tulip.Props.C27_messages"
   ],
   "note": "For conductors with distinct names that carry an id (C09, C10 cover the others); success also needs what MFEM needs to build the solver (Buildable)."
  },
  {
   "property": "C28",
   "status": "proved",
   "theorems": [
    "Tulip.Props.C28_in_range"
   ],
   "note": ""
  },
  {
   "property": "C29",
   "status": "proved",
   "theorems": [
    "Tulip.Props.C29_excitation"
   ],
   "note": ""
  },
  {
   "property": "C30",
   "status": "proved",
   "theorems": [
    "Tulip.Props.C30_inputs"
   ],
   "note": ""
  },
  {
   "property": "C31",
   "status": "proved",
   "theorems": [
    "Tulip.Props.C31_generalized"
   ],
   "note": ""
  },
  {
   "property": "C32",
   "status": "proved",
   "theorems": [
    "Tulip.Props.C32_closed"
   ],
   "note": ""
  },
  {
   "property": "C33",
   "status": "proved",
   "theorems": [
    "Tulip.Props.C33_open"
   ],
   "note": ""
  },
  {
   "property": "C34",
   "status": "proved",
   "theorems": [
    "Tulip.Props.C34_reduction"
   ],
   "note": ""
  },
  {
   "property": "C35",
   "status": "proved",
   "theorems": [
    "Tulip.Props.C35_inductance"
   ],
   "note": ""
  },
  {
   "property": "C36",
   "status": "proved",
   "theorems": [
    "Tulip.Props.C36_floating",
    "Tulip.Props.C36_driver"
   ],
   "note": ""
  },
  {
   "property": "C37",
   "status": "proved",
   "theorems": [
    "Tulip.Props.C37_bounds",
    "Tulip.Props.C37_driver"
   ],
   "note": ""
  },
  {
   "property": "C38",
   "status": "partial",
   "theorems": [
    "Tulip.Props.C38_run_partial",
    "Tulip.Props.C38_anywhere_partial",
    "Tulip.Props.C38_refuted"
   ],
   "note": "False of the code for export folders written without a final slash (refutation proved); proved for all others, with the exact behaviour for every folder."
  },
  {
   "property": "C39",
   "status": "proved",
   "theorems": [
    "Tulip.Props.C39_history"
   ],
   "note": ""
  },
  {
   "property": "C40",
   "status": "proved",
   "theorems": [
    "Tulip.Props.C40_in_cell"
   ],
   "note": ""
  },
  {
   "property": "C41",
   "status": "proved",
   "theorems": [
    "Tulip.Props.C41_monopole"
   ],
   "note": ""
  },
  {
   "property": "C42",
   "status": "proved",
   "theorems": [
    "Tulip.Props.C42_round_trip"
   ],
   "note": ""
  },
  {
   "property": "C43",
   "status": "proved",
   "theorems": [
    "Tulip.Props.C43_round_trip",
    "Tulip.Props.C43_driver"
   ],
   "note": ""
  },
  {
   "property": "C44",
   "status": "proved",
   "theorems": [
    "Tulip.Props.C44_equality"
   ],
   "note": ""
  },
  {
   "property": "C45",
   "status": "partial",
   "theorems": [
    "Tulip.Props.C45_reading_partial",
    "Tulip.Props.C45_exact_partial",
    "Tulip.Props.C45_refuted"
   ],
   "note": "False of the code when the first row is empty: ragged matrices are then accepted (refutation proved); proved otherwise, with the exact set of accepted documents."
  },
  {
   "property": "C46",
   "status": "proved",
   "theorems": [
    "Tulip.Props.C46_coupling"
   ],
   "note": ""
  },
  {
   "property": "C47",
   "status": "proved",
   "theorems": [
    "Tulip.Props.C47_planes"
   ],
   "note": ""
  },
  {
   "property": "C48",
   "status": "proved",
   "theorems": [
    "Tulip.Props.C48_average",
    "Tulip.Props.C48_exact"
   ],
   "note": ""
  },
  {
   "property": "C49",
   "status": "proved",
   "theorems": [
    "Tulip.Props.C49_rejects"
   ],
   "note": ""
  },
  {
   "property": "C50",
   "status": "partial",
   "theorems": [
    "Tulip.Props.C50_inner_partial",
    "Tulip.Props.C50_error_partial",
    "Tulip.Props.C50_refuted"
   ],
   "note": "False of the code for the inductance: the box formula reads the electric conductor potentials (refutation proved)."
  },
  {
   "property": "C51",
   "status": "partial",
   "theorems": [
    "Tulip.Props.C51_dependence_partial",
    "Tulip.Props.C51_error_partial",
    "Tulip.Props.C51_refuted"
   ],
   "note": "False of the code: the box inductance depends on electric data (refutation proved); all other parts proved."
  },
  {
   "property": "C52",
   "status": "proved",
   "theorems": [
    "Tulip.Props.C52_moments"
   ],
   "note": ""
  },
  {
   "property": "C53",
   "status": "proved",
   "theorems": [
    "Tulip.Props.C53_laurent"
   ],
   "note": ""
  },
  {
   "property": "C54",
   "status": "proved",
   "theorems": [
    "Tulip.Props.C54_expansion",
    "Tulip.Props.C54_solver"
   ],
   "note": ""
  },
  {
   "property": "C55",
   "status": "proved",
   "theorems": [
    "Tulip.Props.C55_center",
    "Tulip.Props.C55_bias"
   ],
   "note": "Under Gauss's law for the discrete field; C55_bias gives the error otherwise."
  },
  {
   "property": "C56",
   "status": "partial",
   "theorems": [
    "Tulip.Props.C56_total_partial",
    "Tulip.Props.C56_refuted"
   ],
   "note": "False of the code: the total has the opposite sign (refutation proved); proved up to sign."
  },
  {
   "property": "C57",
   "status": "proved",
   "theorems": [
    "Tulip.Props.C57_markers"
   ],
   "note": ""
  },
  {
   "property": "C58",
   "status": "partial",
   "theorems": [
    "Tulip.Props.C58_attained_partial",
    "Tulip.Props.C58_exact_partial",
    "Tulip.Props.C58_ignored_partial",
    "Tulip.Props.C58_refuted"
   ],
   "note": "False of the code for boundaries that were not prescribed at construction (refutation proved); proved for those that were, with exactly which values Solve takes: those on degrees of freedom of boundaries prescribed at construction."
  },
  {
   "property": "C59",
   "status": "proved",
   "theorems": [
    "Tulip.Props.C59_superposition"
   ],
   "note": ""
  },
  {
   "property": "C60",
   "status": "proved",
   "theorems": [
    "Tulip.Props.C60_uniform"
   ],
   "note": ""
  },
  {
   "property": "C61",
   "status": "partial",
   "theorems": [
    "Tulip.Props.C61_snapshot_partial",
    "Tulip.Props.C61_refuted"
   ],
   "note": "False of the code for charge moments after the prescribed set changed (refutation proved); everything else proved."
  },
  {
   "property": "C62",
   "status": "proved",
   "theorems": [
    "Tulip.Props.C62_averages",
    "Tulip.Props.C62_inner",
    "Tulip.Props.C62_inner_mean"
   ],
   "note": ""
  },
  {
   "property": "C63",
   "status": "partial",
   "theorems": [
    "Tulip.Props.C63_history_partial",
    "Tulip.Props.C63_refuted",
    "Tulip.Props.C63_storage_refuted"
   ],
   "note": "False when an earlier Solve had no prescribed boundary (refutation proved, given MFEM's caching of the eliminated matrix), and, with the tolerances of the code, for the uninitialised storage D is computed in (refutation proved); proved for all other histories and an exact linear solver."
  },
  {
   "property": "C64",
   "status": "partial",
   "theorems": [
    "Tulip.Props.C64_usage",
    "Tulip.Props.C64_results_partial",
    "Tulip.Props.C64_anywhere_partial",
    "Tulip.Props.C64_refuted_absolute",
    "Tulip.Props.C64_refuted_fields"
   ],
   "note": "False of the code for absolute input paths and for the field files the constructor exports (both refutations proved); proved for usage and for the JSON results with relative paths, with the exact location for all paths."
  },
  {
   "property": "C65",
   "status": "proved",
   "theorems": [
    "Tulip.Props.C65_construct",
    "Tulip.Props.C65_in_cell",
    "Tulip.Props.C65_disabled"
   ],
   "note": ""
  },
  {
   "property": "C66",
   "status": "proved",
   "theorems": [
    "Tulip.Props.C66_discrete_problem",
    "Tulip.Props.C66_surface_charge"
   ],
   "note": ""
  },
  {
   "property": "C67",
   "status": "proved",
   "theorems": [
    "Tulip.Props.C67_energy"
   ],
   "note": ""
  },
  {
   "property": "C68",
   "status": "proved",
   "theorems": [
    "Tulip.Props.C68_open_boundary"
   ],
   "note": ""
  },
  {
   "property": "C69",
   "status": "proved",
   "theorems": [
    "Tulip.Props.C69_charges",
    "Tulip.Props.C69_moments"
   ],
   "note": ""
  },
  {
   "property": "C70",
   "status": "proved",
   "theorems": [
    "Tulip.Props.C70_values"
   ],
   "note": "The condition on the inductance on a box is needed: see C51."
  },
  {
   "property": "C71",
   "status": "proved",
   "theorems": [
    "Tulip.Props.C71_vacuum"
   ],
   "note": ""
  },
  {
   "property": "C72",
   "status": "proved",
   "theorems": [
    "Tulip.Props.C72_parameters"
   ],
   "note": ""
  },
  {
   "property": "C73",
   "status": "proved",
   "theorems": [
    "Tulip.Props.C73_success"
   ],
   "note": ""
  },
  {
   "property": "C74",
   "status": "partial",
   "theorems": [
    "Tulip.Props.C74_unique_partial",
    "Tulip.Props.C74_refuted"
   ],
   "note": "False of the code for open boundaries beyond distance 1, where the coefficient of the absorbing boundary condition is negative (refutation proved: an open boundary at distance e with several fields for one potential); proved when the coefficient is not negative on the open boundaries."
  },
  {
   "property": "C75",
   "status": "partial",
   "theorems": [
    "Tulip.Props.C75_similarity_partial",
    "Tulip.Props.absorbs_closed",
    "Tulip.Props.absorbs_turn",
    "Tulip.Props.C75_refuted"
   ],
   "note": "Proved for closed models under every similarity and for all models under turns about the origin; false of the code for other similarities of open models, since the coefficient of the absorbing boundary condition contains the logarithm of the distance to the origin of coordinates (refutation proved: scaling an open model by 1/e changes its capacitance from 1/2 to 1/3)."
  },
  {
   "property": "C76",
   "status": "proved",
   "theorems": [
    "Tulip.Props.C76_redeclared"
   ],
   "note": "Discrete problem well posed, conductors with no common node, exact linear solver; openness determined for both models."
  },
  {
   "property": "C77",
   "status": "proved",
   "theorems": [
    "Tulip.Props.C77_energy",
    "Tulip.Props.C77_passive",
    "Tulip.Props.reciprocity_of_conservative"
   ],
   "note": "Condition on the absorbing coefficient as in C74."
  },
  {
   "property": "C78",
   "status": "proved",
   "theorems": [
    "Tulip.Props.C78_input",
    "Tulip.Props.C78_program",
    "Tulip.Props.C78_open_program"
   ],
   "note": "Closed lines and open problems; relative paths as in C15 and C64."
  },
  {
   "property": "C79",
   "status": "proved",
   "theorems": [
    "Tulip.Props.C79_elements",
    "Tulip.Props.C79_triangles",
    "Tulip.Props.C79_geometry"
   ],
   "note": "Textbook first-order elements (MFEM's sources are not available); exact linear solver."
  },
  {
   "property": "C80",
   "status": "proved",
   "theorems": [
    "Tulip.Props.C80_field",
    "Tulip.Props.C80_plates"
   ],
   "note": "Plates perpendicular to the x axis; other positions by C75."
  },
  {
   "property": "C81",
   "status": "partial",
   "theorems": [
    "Tulip.Props.C81_closed_partial",
    "Tulip.Props.C81_refuted"
   ],
   "note": "False of the code on coarse meshes, where fluxes of the projected D do not balance (refutation proved: a square conductor in a square shield, eight triangles, total charge 280/29, indefinite matrix, capacitance 38/29 or 318/29 depending on the numbering). Proved: equal potentials give no charge; a positive semidefinite matrix requires neutrality; C77 gives everything when fluxes agree with the discrete equations."
  },
  {
   "property": "C82",
   "status": "proved",
   "theorems": [
    "Tulip.Props.C82_modes",
    "Tulip.Props.C82_constants"
   ],
   "note": "Under the hypotheses of C77 (fluxes of D consistent with the discrete equations, which is not automatic: F37)."
  },
  {
   "property": "C83",
   "status": "partial",
   "theorems": [
    "Tulip.Props.C83_bounds_partial",
    "Tulip.Props.C83_couplings_partial",
    "Tulip.Props.C83_refuted"
   ],
   "note": "False of the code on meshes with obtuse angles (refutation proved: -119/169 V between conductors at 0 and 1 V). Proved: on meshes without obtuse angles in closed models; on every mesh and order, open or closed, whose discrete equations have no positive couplings. Missing: meshes with positive couplings (false there)."
  },
  {
   "property": "C84",
   "status": "proved",
   "theorems": [
    "Tulip.Props.C84_linear_solver",
    "Tulip.Props.C84_conductors",
    "Tulip.Props.C84_energy",
    "Tulip.Props.C84_exact"
   ],
   "note": "Exact arithmetic; MFEM's PCG and GSSmoother follow the published code (sources not available)."
  },
  {
   "property": "C85",
   "status": "proved",
   "theorems": [
    "Tulip.Props.C85_cycles",
    "Tulip.Props.C85_model"
   ],
   "note": ""
  },
  {
   "property": "C86",
   "status": "proved",
   "theorems": [
    "Tulip.Props.C86_triangles",
    "Tulip.Props.C86_discretisation"
   ],
   "note": "Exact linear solver, well posed problem as in C79. The answer by domains is not covered: there the order does matter (F2)."
  },
  {
   "property": "C87",
   "status": "proved",
   "theorems": [
    "Tulip.Props.C87_signs"
   ],
   "note": "Exact linear solver. That the fluxes of D agree with the discrete equations is a hypothesis (as in C77, C82): it is not true of all triangle meshes (C81)."
  },
  {
   "property": "C88",
   "status": "proved",
   "theorems": [
    "Tulip.Props.C88_fields",
    "Tulip.Props.C88_shielded",
    "Tulip.Props.C88_elsewhere",
    "Tulip.Props.C88_line"
   ],
   "note": "Exact linear solver; elements as in C79."
  },
  {
   "property": "C89",
   "status": "proved",
   "theorems": [
    "Tulip.Props.C89_raised"
   ],
   "note": "Exact linear solver. That the fluxes of D agree with the discrete equations is a hypothesis (as in C77, C82, C87)."
  },
  {
   "property": "C90",
   "status": "proved",
   "theorems": [
    "Tulip.Props.C90_spaces",
    "Tulip.Props.C90_elements",
    "Tulip.Props.C90_orders"
   ],
   "note": "That MFEM's shape functions and rules meet the two specifications is assumed (sources not available); exact linear solver."
  },
  {
   "property": "C91",
   "status": "proved",
   "theorems": [
    "Tulip.Props.C91_field",
    "Tulip.Props.C91_plates",
    "Tulip.Props.C91_order_independent"
   ],
   "note": "As in C90; plates perpendicular to the x axis (C93 has other directions)."
  },
  {
   "property": "C92",
   "status": "proved",
   "theorems": [
    "Tulip.Props.C92_charges",
    "Tulip.Props.C92_shielded",
    "Tulip.Props.C92_elsewhere",
    "Tulip.Props.C92_line"
   ],
   "note": "As in C90."
  },
  {
   "property": "C93",
   "status": "proved",
   "theorems": [
    "Tulip.Props.C93_field",
    "Tulip.Props.C93_line"
   ],
   "note": "As in C90."
  },
  {
   "property": "C94",
   "status": "proved",
   "theorems": [
    "Tulip.Props.C94_spaces",
    "Tulip.Props.C94_field",
    "Tulip.Props.C94_rule",
    "Tulip.Props.C94_basis"
   ],
   "note": "As in C90; the spaces are assumed complete (H1 and Raviart-Thomas spaces of the order are), which complete_exist meets. The answer by domains is not covered."
  },
  {
   "property": "C95",
   "status": "proved",
   "theorems": [
    "Tulip.Props.C95_order"
   ],
   "note": "As in C94; quadrature of the higher order agrees with that of the lower one on polynomials of twice the lower order."
  },
  {
   "property": "C96",
   "status": "proved",
   "theorems": [
    "Tulip.Props.C96_congruent",
    "Tulip.Props.C96_symmetric"
   ],
   "note": "As in C94, with quadrature exact for polynomials of twice the order. Closed models; queries answered from the matrices. The mesh has to be a copy too, not only the geometry."
  },
  {
   "property": "C97",
   "status": "proved",
   "theorems": [
    "Tulip.Props.C97_scaled",
    "Tulip.Props.C97_homogeneous"
   ],
   "note": "Exact linear solver, discrete problem well posed (C74, C79, C90), conductors with no common node."
  },
  {
   "property": "C98",
   "status": "proved",
   "theorems": [
    "Tulip.Props.C98_refined"
   ],
   "note": "As in C94, with quadrature exact for polynomials of twice the lower order; closed models."
  },
  {
   "property": "C99",
   "status": "proved",
   "theorems": [
    "Tulip.Props.C99_refusals",
    "Tulip.Props.C99_center"
   ],
   "note": "For drivers the constructor returned, of models with numbered conductors whose openness is determined."
  },
  {
   "property": "C100",
   "status": "proved",
   "theorems": [
    "Tulip.Props.C100_exists",
    "Tulip.Props.C100_meaning",
    "Tulip.Props.C100_box",
    "Tulip.Props.C78_open_program"
   ],
   "note": "Fluxes consistent with the discrete equations and Gauss' law are hypotheses (not automatic: F37)."
  },
  {
   "property": "C101",
   "status": "proved",
   "theorems": [
    "Tulip.Props.C101_energy",
    "Tulip.Props.C101_upper",
    "Tulip.Props.C101_converges",
    "Tulip.Props.C101_agree",
    "Tulip.Props.C101_reached"
   ],
   "note": "Energies; nothing is said on the rate, and nothing on charges computed from fluxes of D (F37)."
  },
  {
   "property": "C102",
   "status": "proved",
   "theorems": [
    "Tulip.Props.C102_close",
    "Tulip.Props.C102_fields",
    "Tulip.Props.C102_solution"
   ],
   "note": "In the energy norm; nothing is said on the rate."
  },
  {
   "property": "C103",
   "status": "proved",
   "theorems": [
    "Tulip.Props.C103_difference",
    "Tulip.Props.C103_error",
    "Tulip.Props.C103_solution"
   ],
   "note": ""
  },
  {
   "property": "C104",
   "status": "proved",
   "theorems": [
    "Tulip.Props.C104_symmetric",
    "Tulip.Props.C104_closed",
    "Tulip.Props.C104_accuracy",
    "Tulip.Props.C104_prescribed",
    "Tulip.Props.C104_exact"
   ],
   "note": ""
  },
  {
   "property": "C105",
   "status": "proved",
   "theorems": [
    "Tulip.Props.C105_potentials",
    "Tulip.Props.C105_runs",
    "Tulip.Props.C105_least",
    "Tulip.Props.C105_nested"
   ],
   "note": ""
  },
  {
   "property": "C106",
   "status": "proved",
   "theorems": [
    "Tulip.Props.C106_rows",
    "Tulip.Props.C106_shared"
   ],
   "note": ""
  },
  {
   "property": "C107",
   "status": "proved",
   "theorems": [
    "Tulip.Props.C107_potentials",
    "Tulip.Props.C107_runs",
    "Tulip.Props.C107_least",
    "Tulip.Props.C107_nested"
   ],
   "note": ""
  },
  {
   "property": "C108",
   "status": "proved",
   "theorems": [
    "Tulip.Props.C108_fields",
    "Tulip.Props.C108_generalized",
    "Tulip.Props.C108_line",
    "Tulip.Props.C108_mesh",
    "Tulip.Props.C108_orders"
   ],
   "note": ""
  },
  {
   "property": "C109",
   "status": "proved",
   "theorems": [
    "Tulip.Props.C109_solver",
    "Tulip.Props.C109_solver_released",
    "Tulip.Props.C109_driver",
    "Tulip.Props.C109_driver_released",
    "Tulip.Props.C109_copied",
    "Tulip.Props.C109_no_second_assembly"
   ],
   "note": "which objects MFEM itself owns is taken from its published code (DESIGN.md)"
  },
  {
   "property": "C110",
   "status": "proved",
   "theorems": [
    "Tulip.Props.C110_safe",
    "Tulip.Props.C110_out_of_range",
    "Tulip.Props.C110_elements",
    "Tulip.Props.C110_triangles",
    "Tulip.Props.C110_by_domains",
    "Tulip.Props.C110_refuted"
   ],
   "note": "C110_by_domains adds the parameters by domains, which C28 leaves out"
  },
  {
   "property": "C111",
   "status": "proved",
   "theorems": [
    "Tulip.Props.C111_planes",
    "Tulip.Props.C111_average",
    "Tulip.Props.C111_double",
    "Tulip.Props.C111_exact",
    "Tulip.Props.C111_adjacent"
   ],
   "note": "any rounding with relative error at most 1/1000 that is monotone and commutes with doubling, in particular to nearest with 53 digits (C111_double); overflow and underflow are not modelled; C111_adjacent shows why sides that differ have to be apart"
  },
  {
   "property": "C112",
   "status": "partial",
   "theorems": [
    "Tulip.Props.C112_files_partial",
    "Tulip.Props.C112_folders_partial",
    "Tulip.Props.C112_refuted",
    "Tulip.Props.C112_names"
   ],
   "note": "Proved for names with an underscore and all queries but those by domains (names without slash if the export folder changes); false with queries by domains, whose drivers write over the files (F34), and for some names without underscore (F43)."
  },
  {
   "property": "C113",
   "status": "proved",
   "theorems": [
    "Tulip.Props.C113_average",
    "Tulip.Props.C113_charges",
    "Tulip.Props.C113_capacitance",
    "Tulip.Props.C113_in_cell",
    "Tulip.Props.C113_driver",
    "Tulip.Props.C113_driver_inductance",
    "Tulip.Props.C113_general"
   ],
   "note": "In exact arithmetic (C111 bounds the roundings of the same function); real numbers, Lebesgue integral in the plane."
  },
  {
   "property": "C114",
   "status": "proved",
   "theorems": [
    "Tulip.Props.C114_charges",
    "Tulip.Props.C114_double",
    "Tulip.Props.C114_general"
   ],
   "note": "Overflow, underflow and the evaluation of logarithms and powers are not modelled: the error of the evaluated expansion is a parameter."
  },
  {
   "property": "C115",
   "status": "proved",
   "theorems": [
    "Tulip.Props.C115_expansion",
    "Tulip.Props.C115_moment",
    "Tulip.Props.C115_average",
    "Tulip.Props.C115_exact"
   ],
   "note": "The accuracy of the functions of the mathematical library is an assumption (a structure with a proved instance); overflow, underflow and fused operations are not modelled."
  },
  {
   "property": "C116",
   "status": "proved",
   "theorems": [
    "Tulip.Props.C116_charges",
    "Tulip.Props.C116_capacitance",
    "Tulip.Props.C116_inductance",
    "Tulip.Props.C116_exact",
    "Tulip.Props.C116_driver",
    "Tulip.Props.C116_driver_inductance"
   ],
   "note": "Assumptions on rounding and the mathematical library as in C111 and C115. The inductance takes the conductor potential from the electric results, as the code does. C116_driver and C116_driver_inductance are for the in-cell results of a driver, as C113_driver and C113_driver_inductance."
  },
  {
   "property": "C117",
   "status": "proved",
   "theorems": [
    "Tulip.Props.C117_reads",
    "Tulip.Props.C117_unambiguous",
    "Tulip.Props.C117_writes",
    "Tulip.Props.C117_pul",
    "Tulip.Props.C117_in_cell",
    "Tulip.Props.C117_driver",
    "Tulip.Props.C117_not_finite"
   ],
   "note": "Text as a sequence of code points; writer and parser follow the published code of nlohmann::json (not in the sandbox). How single doubles are printed and read is a parameter; finite means that the format reads back what it prints."
  },
  {
   "property": "C118",
   "status": "proved",
   "theorems": [
    "Tulip.Props.C118_formatting",
    "Tulip.Props.C118_order",
    "Tulip.Props.C118_refuses",
    "Tulip.Props.C118_program",
    "Tulip.Props.C118_open_program"
   ],
   "note": "Command line as boost parses it; the mesh file is loaded by MFEM (not modelled). Assumptions on the discretisation and the solver as in C78; texts as in C117."
  },
  {
   "property": "C119",
   "status": "proved",
   "theorems": [
    "Tulip.Props.C119_accuracy",
    "Tulip.Props.C119_double",
    "Tulip.Props.C119_exact"
   ],
   "note": "Any rounding with relative error at most u (no overflow or underflow); MFEM's Symmetrize as published. The charges themselves are as computed by the field solver."
  },
  {
   "property": "C120",
   "status": "proved",
   "theorems": [
    "Tulip.Props.C120_average",
    "Tulip.Props.C120_superposition",
    "Tulip.Props.C120_double",
    "Tulip.Props.C120_capacitance",
    "Tulip.Props.C120_inductance",
    "Tulip.Props.C120_exact_average",
    "Tulip.Props.C120_exact_superposition",
    "Tulip.Props.C120_exact_parameters"
   ],
   "note": "Any rounding with relative error at most u (no overflow or underflow). Areas and averages of each material are as computed by the model and MFEM."
  }
 ]
}