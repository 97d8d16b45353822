#!/usr/bin/env python3
"""Generates /verif/MANIFEST.json. Edit CLAIMS; properties without an entry are listed as partial/none."""
import json
P, A, N = "proved", "partial", "not_applicable"
CLAIMS = [
 ("C01", P, ["C01_contents"], ""),
 ("C02", P, ["C02_selfloops", "C02_messages"], ""),
 ("C03", P, ["C03_closed_path"], ""),
 ("C04", P, ["C04_boundary"], ""),
 ("C05", P, ["C05_split_components"], ""),
 ("C06", A, ["C06_split_partial", "C06_exact_partial", "C06_lost_partial", "C06_refuted_edge", "C06_refuted_vertex"],
  "The full property is false of the code: one-way edges and isolated vertices are dropped (refutations proved). The partial theorems give what holds for every graph: the exact result of the split for every history of additions, and exactly which edges are lost."),
 ("C07", P, ["C07_findCycles"], ""),
 ("C08", P, ["C08_acyclic"], ""),
 ("C09", P, ["C09_id_from_name", "C09_signed"], ""),
 ("C10", A, ["C10_determinate_partial", "C10_refuted"], "False of the code for names with nothing but white space after the first underscore (uninitialised read, refutation proved)."),
 ("C11", P, ["C11_filter"], ""),
 ("C12", P, ["C12_lookup", "C12_lookup_by_id", "C12_precedence", "C12_id_map", "C12_count", "C12_messages"], ""),
 ("C13", P, ["C13_materials", "C13_materials_only", "C13_other_shapes", "C13_refuted_wide_tag"], "Tags beyond the range of int are excluded by hypothesis; they are silently wrapped (proved)."),
 ("C14", A, ["C14_options_partial", "C14_refuted"], "False of the code: the key read is exportParaviewSolution, the documented one is exportParaViewSolution (refutation proved). All other options proved."),
 ("C15", A, ["C15_mesh_path_partial", "C15_anywhere_partial", "C15_refuted"], "False of the code for absolute input paths (refutation proved); proved for all relative paths, with the exact location for all paths."),
 ("C16", P, ["C16_closed_iff"], ""),
 ("C17", A, ["C17_open_iff_loops_partial", "C17_exact_partial", "C17_refuted"], "False for branching open boundaries (count coincidence, refutation proved); proved when at most one segment starts at each vertex; what the code computes for any open boundaries is proved exactly."),
 ("C18", P, ["C18_bounding_box"], ""),
 ("C19", P, ["C19_area"], ""),
 ("C20", P, ["C20_partition"], ""),
 ("C21", P, ["C21_conductors"], ""),
 ("C22", P, ["C22_conductor0", "C22_messages"], ""),
 ("C23", A, ["C23_grounds_partial", "C23_exact_partial", "C23_refuted"], "False of the code: grounds depend on the order of the mesh elements (refutation proved). Proved: in nested domains the grounds are right if and only if each domain is numbered after the one enclosing it."),
 ("C24", P, ["C24_tree", "C24_edge_count"], ""),
 ("C25", P, ["C25_domain_model"], ""),
 ("C26", A, ["C26_domains_partial", "C26_never", "C26_refuted"], "False of the code: with two or more domains the query always fails, because the driver of a domain without conductor 0 rejects it (proved for all such models). The partial theorem characterises exactly when it succeeds and what it returns."),
 ("C27", P, ["C27_accepts", "C27_messages"], "For conductors with distinct names that carry an id (C09, C10 cover the others); success also needs what MFEM needs to build the solver (Buildable)."),
 ("C28", P, ["C28_in_range"], ""),
 ("C29", P, ["C29_excitation"], ""),
 ("C30", P, ["C30_inputs"], ""),
 ("C31", P, ["C31_generalized"], ""),
 ("C32", P, ["C32_closed"], ""),
 ("C33", P, ["C33_open"], ""),
 ("C34", P, ["C34_reduction"], ""),
 ("C35", P, ["C35_inductance"], ""),
 ("C36", P, ["C36_floating", "C36_driver"], ""),
 ("C37", P, ["C37_bounds", "C37_driver"], ""),
 ("C38", A, ["C38_run_partial", "C38_anywhere_partial", "C38_refuted"], "False of the code for export folders written without a final slash (refutation proved); proved for all others, with the exact behaviour for every folder."),
 ("C39", P, ["C39_history"], ""),
 ("C40", P, ["C40_in_cell"], ""),
 ("C41", P, ["C41_monopole"], ""),
 ("C42", P, ["C42_round_trip"], ""),
 ("C43", P, ["C43_round_trip", "C43_driver"], ""),
 ("C44", P, ["C44_equality"], ""),
 ("C45", A, ["C45_reading_partial", "C45_exact_partial", "C45_refuted"], "False of the code when the first row is empty: ragged matrices are then accepted (refutation proved); proved otherwise, with the exact set of accepted documents."),
 ("C46", P, ["C46_coupling"], ""),
 ("C47", P, ["C47_planes"], ""),
 ("C48", P, ["C48_average", "C48_exact"], ""),
 ("C49", P, ["C49_rejects"], ""),
 ("C50", A, ["C50_inner_partial", "C50_error_partial", "C50_refuted"], "False of the code for the inductance: the box formula reads the electric conductor potentials (refutation proved)."),
 ("C51", A, ["C51_dependence_partial", "C51_error_partial", "C51_refuted"], "False of the code: the box inductance depends on electric data (refutation proved); all other parts proved."),
 ("C52", P, ["C52_moments"], ""),
 ("C53", P, ["C53_laurent"], ""),
 ("C54", P, ["C54_expansion", "C54_solver"], ""),
 ("C55", P, ["C55_center", "C55_bias"], "Under Gauss's law for the discrete field; C55_bias gives the error otherwise."),
 ("C56", A, ["C56_total_partial", "C56_refuted"], "False of the code: the total has the opposite sign (refutation proved); proved up to sign."),
 ("C57", P, ["C57_markers"], ""),
 ("C58", A, ["C58_attained_partial", "C58_exact_partial", "C58_ignored_partial", "C58_refuted"], "False of the code for boundaries that were not prescribed at construction (refutation proved); proved for those that were, with exactly which values Solve takes: those on degrees of freedom of boundaries prescribed at construction."),
 ("C59", P, ["C59_superposition"], ""),
 ("C60", P, ["C60_uniform"], ""),
 ("C61", A, ["C61_snapshot_partial", "C61_refuted"], "False of the code for charge moments after the prescribed set changed (refutation proved); everything else proved."),
 ("C62", P, ["C62_averages", "C62_inner", "C62_inner_mean"], ""),
 ("C63", A, ["C63_history_partial", "C63_refuted", "C63_storage_refuted"], "False when an earlier Solve had no prescribed boundary (refutation proved, given MFEM's caching of the eliminated matrix), and, with the tolerances of the code, for the uninitialised storage D is computed in (refutation proved); proved for all other histories and an exact linear solver."),
 ("C64", A, ["C64_usage", "C64_results_partial", "C64_anywhere_partial", "C64_refuted_absolute", "C64_refuted_fields"], "False of the code for absolute input paths and for the field files the constructor exports (both refutations proved); proved for usage and for the JSON results with relative paths, with the exact location for all paths."),
 ("C65", P, ["C65_construct", "C65_in_cell", "C65_disabled"], ""),
 ("C66", P, ["C66_discrete_problem", "C66_surface_charge"], ""),
 ("C67", P, ["C67_energy"], ""),
 ("C68", P, ["C68_open_boundary"], ""),
 ("C69", P, ["C69_charges", "C69_moments"], ""),
 ("C70", P, ["C70_values"], "The condition on the inductance on a box is needed: see C51."),
 ("C71", P, ["C71_vacuum"], ""),
 ("C72", P, ["C72_parameters"], ""),
 ("C73", P, ["C73_success"], ""),
 ("C74", A, ["C74_unique_partial", "C74_refuted"], "False of the code for open boundaries beyond distance 1, where the coefficient of the absorbing boundary condition is negative (refutation proved: an open boundary at distance e with several fields for one potential); proved when the coefficient is not negative on the open boundaries."),
 ("C75", A, ["C75_similarity_partial", "absorbs_closed", "absorbs_turn", "C75_refuted"], "Proved for closed models under every similarity and for all models under turns about the origin; false of the code for other similarities of open models, since the coefficient of the absorbing boundary condition contains the logarithm of the distance to the origin of coordinates (refutation proved: scaling an open model by 1/e changes its capacitance from 1/2 to 1/3)."),
 ("C76", P, ["C76_redeclared"], "Discrete problem well posed, conductors with no common node, exact linear solver; openness determined for both models."),
 ("C77", P, ["C77_energy", "C77_passive", "reciprocity_of_conservative"], "Condition on the absorbing coefficient as in C74."),
 ("C78", P, ["C78_input", "C78_program", "C78_open_program"], "Closed lines and open problems; relative paths as in C15 and C64."),
 ("C79", P, ["C79_elements", "C79_triangles", "C79_geometry"], "Textbook first-order elements (MFEM's sources are not available); exact linear solver."),
 ("C80", P, ["C80_field", "C80_plates"], "Plates perpendicular to the x axis; other positions by C75."),
 ("C81", A, ["C81_closed_partial", "C81_refuted"], "False of the code on coarse meshes, where fluxes of the projected D do not balance (refutation proved: a square conductor in a square shield, eight triangles, total charge 280/29, indefinite matrix, capacitance 38/29 or 318/29 depending on the numbering). Proved: equal potentials give no charge; a positive semidefinite matrix requires neutrality; C77 gives everything when fluxes agree with the discrete equations."),
 ("C82", P, ["C82_modes", "C82_constants"], "Under the hypotheses of C77 (fluxes of D consistent with the discrete equations, which is not automatic: F37)."),
 ("C83", A, ["C83_bounds_partial", "C83_couplings_partial", "C83_refuted"], "False of the code on meshes with obtuse angles (refutation proved: -119/169 V between conductors at 0 and 1 V). Proved: on meshes without obtuse angles in closed models; on every mesh and order, open or closed, whose discrete equations have no positive couplings. Missing: meshes with positive couplings (false there)."),
 ("C84", P, ["C84_linear_solver", "C84_conductors", "C84_energy", "C84_exact"], "Exact arithmetic; MFEM's PCG and GSSmoother follow the published code (sources not available)."),
 ("C85", P, ["C85_cycles", "C85_model"], ""),
 ("C86", P, ["C86_triangles", "C86_discretisation"], "Exact linear solver, well posed problem as in C79. The answer by domains is not covered: there the order does matter (F2)."),
 ("C87", P, ["C87_signs"], "Exact linear solver. That the fluxes of D agree with the discrete equations is a hypothesis (as in C77, C82): it is not true of all triangle meshes (C81)."),
 ("C88", P, ["C88_fields", "C88_shielded", "C88_elsewhere", "C88_line"], "Exact linear solver; elements as in C79."),
 ("C89", P, ["C89_raised"], "Exact linear solver. That the fluxes of D agree with the discrete equations is a hypothesis (as in C77, C82, C87)."),
 ("C90", P, ["C90_spaces", "C90_elements", "C90_orders"], "That MFEM's shape functions and rules meet the two specifications is assumed (sources not available); exact linear solver."),
 ("C91", P, ["C91_field", "C91_plates", "C91_order_independent"], "As in C90; plates perpendicular to the x axis (C93 has other directions)."),
 ("C92", P, ["C92_charges", "C92_shielded", "C92_elsewhere", "C92_line"], "As in C90."),
 ("C93", P, ["C93_field", "C93_line"], "As in C90."),
 ("C94", P, ["C94_spaces", "C94_field", "C94_rule", "C94_basis"], "As in C90; the spaces are assumed complete (H1 and Raviart-Thomas spaces of the order are), which complete_exist meets. The answer by domains is not covered."),
 ("C95", P, ["C95_order"], "As in C94; quadrature of the higher order agrees with that of the lower one on polynomials of twice the lower order."),
 ("C96", P, ["C96_congruent", "C96_symmetric"], "As in C94, with quadrature exact for polynomials of twice the order. Closed models; queries answered from the matrices. The mesh has to be a copy too, not only the geometry."),
 ("C97", P, ["C97_scaled", "C97_homogeneous"], "Exact linear solver, discrete problem well posed (C74, C79, C90), conductors with no common node."),
 ("C98", P, ["C98_refined"], "As in C94, with quadrature exact for polynomials of twice the lower order; closed models."),
 ("C99", P, ["C99_refusals", "C99_center"], "For drivers the constructor returned, of models with numbered conductors whose openness is determined."),
 ("C100", P, ["C100_exists", "C100_meaning", "C100_box", "C78_open_program"], "Fluxes consistent with the discrete equations and Gauss' law are hypotheses (not automatic: F37)."),
 ("C101", P, ["C101_energy", "C101_upper", "C101_converges", "C101_agree", "C101_reached"], "Energies; nothing is said on the rate, and nothing on charges computed from fluxes of D (F37)."),
 ("C102", P, ["C102_close", "C102_fields", "C102_solution"], "In the energy norm; nothing is said on the rate."),
 ("C103", P, ["C103_difference", "C103_error", "C103_solution"], ""),
 ("C104", P, ["C104_symmetric", "C104_closed", "C104_accuracy", "C104_prescribed", "C104_exact"], ""),
 ("C105", P, ["C105_potentials", "C105_runs", "C105_least", "C105_nested"], ""),
 ("C106", P, ["C106_rows", "C106_shared"], ""),
 ("C107", P, ["C107_potentials", "C107_runs", "C107_least", "C107_nested"], ""),
 ("C108", P, ["C108_fields", "C108_generalized", "C108_line", "C108_mesh", "C108_orders"], ""),
 ("C109", P, ["C109_solver", "C109_solver_released", "C109_driver", "C109_driver_released", "C109_copied", "C109_no_second_assembly"], "which objects MFEM itself owns is taken from its published code (DESIGN.md)"),
 ("C110", P, ["C110_safe", "C110_out_of_range", "C110_elements", "C110_triangles", "C110_by_domains", "C110_refuted"], "C110_by_domains adds the parameters by domains, which C28 leaves out"),
 ("C111", P, ["C111_planes", "C111_average", "C111_double", "C111_exact", "C111_adjacent"], "any rounding with relative error at most 1/1000 that is monotone and commutes with doubling, in particular to nearest with 53 digits (C111_double); overflow and underflow are not modelled; C111_adjacent shows why sides that differ have to be apart"),
 ("C112", A, ["C112_files_partial", "C112_folders_partial", "C112_refuted", "C112_names"], "Proved for names with an underscore and all queries but those by domains (names without slash if the export folder changes); false with queries by domains, whose drivers write over the files (F34), and for some names without underscore (F43)."),
 ("C113", P, ["C113_average", "C113_charges", "C113_capacitance", "C113_in_cell", "C113_driver", "C113_driver_inductance", "C113_general"], "In exact arithmetic (C111 bounds the roundings of the same function); real numbers, Lebesgue integral in the plane."),
 ("C114", P, ["C114_charges", "C114_double", "C114_general"], "Overflow, underflow and the evaluation of logarithms and powers are not modelled: the error of the evaluated expansion is a parameter."),
 ("C115", P, ["C115_expansion", "C115_moment", "C115_average", "C115_exact"], "The accuracy of the functions of the mathematical library is an assumption (a structure with a proved instance); overflow, underflow and fused operations are not modelled."),
 ("C116", P, ["C116_charges", "C116_capacitance", "C116_inductance", "C116_exact", "C116_driver", "C116_driver_inductance"], "Assumptions on rounding and the mathematical library as in C111 and C115. The inductance takes the conductor potential from the electric results, as the code does. C116_driver and C116_driver_inductance are for the in-cell results of a driver, as C113_driver and C113_driver_inductance."),
 ("C117", P, ["C117_reads", "C117_unambiguous", "C117_writes", "C117_pul", "C117_in_cell", "C117_driver", "C117_not_finite"], "Text as a sequence of code points; writer and parser follow the published code of nlohmann::json (not in the sandbox). How single doubles are printed and read is a parameter; finite means that the format reads back what it prints."),
 ("C118", P, ["C118_formatting", "C118_order", "C118_refuses", "C118_program", "C118_open_program"], "Command line as boost parses it; the mesh file is loaded by MFEM (not modelled). Assumptions on the discretisation and the solver as in C78; texts as in C117."),
 ("C119", P, ["C119_accuracy", "C119_double", "C119_exact"], "Any rounding with relative error at most u (no overflow or underflow); MFEM's Symmetrize as published. The charges themselves are as computed by the field solver."),
 ("C120", P, ["C120_average", "C120_superposition", "C120_double", "C120_capacitance", "C120_inductance", "C120_exact_average", "C120_exact_superposition", "C120_exact_parameters"], "Any rounding with relative error at most u (no overflow or underflow). Areas and averages of each material are as computed by the model and MFEM."),
]
NS = "Tulip.Props."
out = {"claims": [{"property": c, "status": s, "theorems": [NS + t for t in ts], "note": n} for c, s, ts, n in CLAIMS]}
json.dump(out, open("/verif/MANIFEST.json", "w"), indent=1)
print(len(CLAIMS), "claims")
