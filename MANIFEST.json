{
 "claims": [
  {
   "property": "C01",
   "status": "proved",
   "theorems": [
    "Samurai.C01_shiftRight",
    "Samurai.C01_shiftLeft",
    "Samurai.C01_roundTrip",
    "Samurai.C01_cover",
    "Samurai.C01_valid",
    "Samurai.C01_contains"
   ],
   "note": ""
  },
  {
   "property": "C02",
   "status": "proved",
   "theorems": [
    "Samurai.C02_even",
    "Samurai.C02_odd",
    "Samurai.C02_partition",
    "Samurai.C02_parent"
   ],
   "note": ""
  },
  {
   "property": "C03",
   "status": "partial",
   "theorems": [
    "Samurai.C03_div_refuted",
    "Samurai.C03_div_partial"
   ],
   "note": "the code violates the documented contract; refuted with a witness, holds when the end is a multiple of the divisor"
  },
  {
   "property": "C04",
   "status": "proved",
   "theorems": [
    "Samurai.C04_content"
   ],
   "note": ""
  },
  {
   "property": "C05",
   "status": "proved",
   "theorems": [
    "Samurai.C05_canonical",
    "Samurai.C05_order_independent"
   ],
   "note": ""
  },
  {
   "property": "C50",
   "status": "partial",
   "theorems": [
    "Samurai.C50_add",
    "Samurai.C50_sub",
    "Samurai.C50_mul",
    "Samurai.C50_subLeft_refuted"
   ],
   "note": "v - i computes i - v: refuted"
  },
  {
   "property": "C06",
   "status": "proved",
   "theorems": [
    "Samurai.C06_content",
    "Samurai.C06_wellformed",
    "Samurai.C06_touch_refuted"
   ],
   "note": "content holds for every history; a row touched with operator[] but left empty breaks the array, shown by C06_touch_refuted"
  },
  {
   "property": "C07",
   "status": "proved",
   "theorems": [
    "Samurai.C07_canonical",
    "Samurai.C07_sound"
   ],
   "note": ""
  },
  {
   "property": "C08",
   "status": "proved",
   "theorems": [
    "Samurai.C08_level",
    "Samurai.C08_levels"
   ],
   "note": ""
  },
  {
   "property": "C09",
   "status": "proved",
   "theorems": [
    "Samurai.C09_find_present",
    "Samurai.C09_find_absent",
    "Samurai.C09_get_index",
    "Samurai.C09_get_index_absent",
    "Samurai.C09_touching_refuted"
   ],
   "note": "get_index of an absent cell is an out-of-bounds read; the search needs non-touching intervals, which C06 guarantees"
  },
  {
   "property": "C10",
   "status": "proved",
   "theorems": [
    "Samurai.C10_for_each_interval",
    "Samurai.C10_for_each_cell",
    "Samurai.C10_for_each_cell_levels",
    "Samurai.C10_for_each_cell_empty_refuted"
   ],
   "note": "for_each_cell on an empty level array is undefined in dimension >= 2 (refuted part)"
  },
  {
   "property": "C11",
   "status": "partial",
   "theorems": [
    "Samurai.C11_increment",
    "Samurai.C11_decrement",
    "Samurai.C11_roundtrip_partial",
    "Samurai.C11_roundtrip_end_refuted"
   ],
   "note": "the round trip ++ then -- fails when ++ reaches the end (witness); proved otherwise"
  },
  {
   "property": "C12",
   "status": "proved",
   "theorems": [
    "Samurai.C12_box"
   ],
   "note": ""
  },
  {
   "property": "C13",
   "status": "partial",
   "theorems": [
    "Samurai.C13_iterate_partial",
    "Samurai.C13_gap_refuted"
   ],
   "note": "false when a level is empty between two non-empty ones (witness); proved without gaps"
  },
  {
   "property": "C14",
   "status": "proved",
   "theorems": [
    "Samurai.C14_set_algebra"
   ],
   "note": ""
  },
  {
   "property": "C15",
   "status": "proved",
   "theorems": [
    "Samurai.C15_on",
    "Samurai.C15_default"
   ],
   "note": ""
  },
  {
   "property": "C16",
   "status": "proved",
   "theorems": [
    "Samurai.C16_canonical",
    "Samurai.C16_same_sequence",
    "Samurai.C16_refined"
   ],
   "note": ""
  },
  {
   "property": "C17",
   "status": "proved",
   "theorems": [
    "Samurai.C17_terminates"
   ],
   "note": "the sweep of the model fails on any out of bounds read and when a loop exceeds its number of boundary values"
  },
  {
   "property": "C18",
   "status": "proved",
   "theorems": [
    "Samurai.C18_history",
    "Samurai.C18_last_on"
   ],
   "note": ""
  },
  {
   "property": "C19",
   "status": "partial",
   "theorems": [
    "Samurai.C19_translate",
    "Samurai.C19_translate_level",
    "Samurai.C19_twice_dim1_partial",
    "Samurai.C19_twice_refuted"
   ],
   "note": "translating twice adds the vectors in dimension 1; refuted in dimension 2 (the transform of the inner translate is not called)"
  },
  {
   "property": "C20",
   "status": "partial",
   "theorems": [
    "Samurai.C20_expand_partial",
    "Samurai.C20_expand_refuted",
    "Samurai.C20_contraction",
    "Samurai.C20_contraction_refuted"
   ],
   "note": "expand is the union of the diagonal translates and does not contain the set (witness)"
  },
  {
   "property": "C21",
   "status": "partial",
   "theorems": [
    "Samurai.C21_inner_on_partial",
    "Samurai.C21_inner_on_refuted"
   ],
   "note": "the inner levels are forgotten (proved in general); witness"
  },
  {
   "property": "C22",
   "status": "partial",
   "theorems": [
    "Samurai.C22_projection_refuted"
   ],
   "note": "the projection of a cell on a coarser level can be empty (witness)"
  },
  {
   "property": "C29",
   "status": "proved",
   "theorems": [
    "Samurai.C29_projection_prediction",
    "Samurai.C29_projection_predictFine"
   ],
   "note": "exact arithmetic in any field of characteristic 0"
  },
  {
   "property": "C30",
   "status": "proved",
   "theorems": [
    "Samurai.C30_exact",
    "Samurai.C30_exact_dim1",
    "Samurai.C30_affine"
   ],
   "note": "means as integrals over R; several dimensions: sums of one-variable polynomials, in particular affine functions"
  },
  {
   "property": "C31",
   "status": "partial",
   "theorems": [
    "Samurai.C31_dim1",
    "Samurai.C31_separable_partial",
    "Samurai.C31_refuted",
    "Samurai.C31_xy_refuted"
   ],
   "note": "false in dimension 2 at every order: the cross terms have the wrong sign (witnesses, x*y included); holds in dimension 1 and on sums of one-variable functions"
  },
  {
   "property": "C32",
   "status": "proved",
   "theorems": [
    "Samurai.C32_restore",
    "Samurai.C32_zero_iff",
    "Samurai.C32_self",
    "Samurai.C32_mean_zero"
   ],
   "note": ""
  },
  {
   "property": "C34",
   "status": "proved",
   "theorems": [
    "Samurai.C34_history",
    "Samurai.C34_composition"
   ],
   "note": ""
  },
  {
   "property": "C35",
   "status": "partial",
   "theorems": [
    "Samurai.C35_portion_cell",
    "Samurai.C35_same_delta_partial",
    "Samurai.C35_refuted"
   ],
   "note": "the cache of portion omits delta_l (witness); proved when delta_l is a function of the key"
  },
  {
   "property": "C36",
   "status": "proved",
   "theorems": [
    "Samurai.C36_sum_one",
    "Samurai.C36_polynomials"
   ],
   "note": ""
  },
  {
   "property": "C53",
   "status": "proved",
   "theorems": [
    "Samurai.C53_same_value",
    "Samurai.C53_even_cells",
    "Samurai.C53_odd_cells"
   ],
   "note": ""
  },
  {
   "property": "C54",
   "status": "proved",
   "theorems": [
    "Samurai.C54_reconstruction"
   ],
   "note": ""
  },
  {
   "property": "C23",
   "status": "proved",
   "theorems": [
    "Samurai.C23_union",
    "Samurai.C23_coarse_refuted"
   ],
   "note": "holds at the levels >= min_level - 1; the coarser levels are never filled (witness)"
  },
  {
   "property": "C24",
   "status": "proved",
   "theorems": [
    "Samurai.C24_mr_ghosts",
    "Samurai.C24_uniform_ghosts",
    "Samurai.C24_amr_ghosts",
    "Samurai.C24_amr_level0_refuted"
   ],
   "note": "sequential, not periodic; an amr::Mesh with a leaf of level 0 takes a reference out of bounds (refuted part)"
  },
  {
   "property": "C25",
   "status": "proved",
   "theorems": [
    "Samurai.C25_mr_numbering",
    "Samurai.C25_uniform_numbering",
    "Samurai.C25_amr_numbering"
   ],
   "note": "sequential, not periodic; amr::Mesh without leaf of level 0"
  },
  {
   "property": "C55",
   "status": "proved",
   "theorems": [
    "Samurai.C55_reference",
    "Samurai.C55_amr_reference"
   ],
   "note": ""
  },
  {
   "property": "C56",
   "status": "proved",
   "theorems": [
    "Samurai.C56_subdomain"
   ],
   "note": ""
  },
  {
   "property": "C27",
   "status": "proved",
   "theorems": [
    "Samurai.C27_update_tiles"
   ],
   "note": "update_field_mr; the tags are given, in range; siblings coarsened together and every leaf tagged are hypotheses, as in the statement"
  },
  {
   "property": "C33",
   "status": "proved",
   "theorems": [
    "Samurai.C33_integral",
    "Samurai.C33_children"
   ],
   "note": "exact arithmetic (a field of characteristic 0), dimensions 1 to 3"
  },
  {
   "property": "C28",
   "status": "proved",
   "theorems": [
    "Samurai.C28_maximum"
   ],
   "note": "all tag words; the set is any list of calls"
  },
  {
   "property": "C57",
   "status": "proved",
   "theorems": [
    "Samurai.C57_step",
    "Samurai.C57_min_level_0_refuted",
    "Samurai.C57_domain_refuted"
   ],
   "note": "sequential, not periodic; min_level >= 1 (with 0 the first loop reads level -1: refuted part) and the domain is a union of cells of min_level (otherwise a leaf can leave the domain: refuted part)"
  },
  {
   "property": "C58",
   "status": "partial",
   "theorems": [
    "Samurai.C58_history",
    "Samurai.C58_width2_refuted"
   ],
   "note": "proved for graduation_width = 1 (the default); with 2 the mesh can lose the grading and then overlap (witness)"
  },
  {
   "property": "C59",
   "status": "proved",
   "theorems": [
    "Samurai.C59_integral"
   ],
   "note": "graduation_width = 1; exact arithmetic; update_ghost_mr is any function that does not change the leaves"
  },
  {
   "property": "C60",
   "status": "proved",
   "theorems": [
    "Samurai.C60_large_details_refined"
   ],
   "note": "min_level >= 1; the comparisons of the details with the thresholds are inputs"
  },
  {
   "property": "C61",
   "status": "proved",
   "theorems": [
    "Samurai.C61_only_small_details_coarsened"
   ],
   "note": "min_level >= 1; in dimension 1 the code looks at the first child only (the two details are opposite)"
  },
  {
   "property": "C62",
   "status": "proved",
   "theorems": [
    "Samurai.C62_nothing_refined"
   ],
   "note": "graduation_width = 1, without enlarge"
  },
  {
   "property": "C63",
   "status": "proved",
   "theorems": [
    "Samurai.C63_small_families_coarsened"
   ],
   "note": "graduation_width = 1, without enlarge"
  },
  {
   "property": "C38",
   "status": "proved",
   "theorems": [
    "Samurai.C38_interior_interfaces",
    "Samurai.C38_adapted_meshes"
   ],
   "note": "graded leaves that tile a domain made of cells of min_level; second theorem: every mesh reached by any sequence of adaptations"
  },
  {
   "property": "C40",
   "status": "proved",
   "theorems": [
    "Samurai.C40_level_jump",
    "Samurai.C40_unaligned_refuted"
   ],
   "note": "on a domain that is a union of cells of min_level; otherwise an interval can start on an odd cell and the coarse cell is wrong (witness)"
  },
  {
   "property": "C41",
   "status": "proved",
   "theorems": [
    "Samurai.C41_boundary",
    "Samurai.C41_boundary_calls"
   ],
   "note": "set and calls of the boundary loops; Cartesian directions and their opposites; mesh.subdomain() without MPI"
  },
  {
   "property": "C64",
   "status": "proved",
   "theorems": [
    "Samurai.C64_apply_scheme"
   ],
   "note": "non-linear flux-based schemes, fixed input field, one call per component in exact arithmetic"
  },
  {
   "property": "C37",
   "status": "proved",
   "theorems": [
    "Samurai.C37_conservation",
    "Samurai.C37_time_step",
    "Samurai.C37_adapted_meshes"
   ],
   "note": "non-linear flux-based schemes; the total is the boundary flux, 0 without boundary; also on every mesh reached by adaptations"
  },
  {
   "property": "C39",
   "status": "proved",
   "theorems": [
    "Samurai.C39_schedule",
    "Samurai.C39_lost_update"
   ],
   "note": "exact arithmetic; tasks per interval, atomic updates in one step, unprotected boundary updates as load and store; C39_lost_update shows that races are visible in the model"
  },
  {
   "property": "C65",
   "status": "proved",
   "theorems": [
    "Samurai.C65_linear_scheme",
    "Samurai.C65_conservation",
    "Samurai.C65_linearity"
   ],
   "note": "exact arithmetic; coefficients as linear maps between the values of one cell"
  },
  {
   "property": "C45",
   "status": "proved",
   "theorems": [
    "Samurai.C45_rotation",
    "Samurai.C45_stencil",
    "Samurai.C45_is_cartesian",
    "Samurai.C45_diagonal_refuted"
   ],
   "note": "Cartesian directions in dimensions 1 to 3; for other directions convert_for_direction is not a rotation (witness)"
  },
  {
   "property": "C52",
   "status": "partial",
   "theorems": [
    "Samurai.C52_star",
    "Samurai.C52_line",
    "Samurai.C52_origin",
    "Samurai.C52_line_origin",
    "Samurai.C52_is_line",
    "Samurai.C52_directions",
    "Samurai.C52_directional",
    "Samurai.C52_line_size_one_refuted",
    "Samurai.C52_directional_refuted"
   ],
   "note": "line_stencil of size 1 lacks the origin and directional_stencils of width 0 leaves entries uninitialised (witnesses); all the other sizes and dimensions are proved"
  },
  {
   "property": "C42",
   "status": "partial",
   "theorems": [
    "Samurai.C42_partition_partial",
    "Samurai.C42_partition_refuted"
   ],
   "note": "disjoint parts of the domain; they cover it only if the number of x-intervals divides well (witness: a box in dimension 1 on two processes)"
  },
  {
   "property": "C43",
   "status": "partial",
   "theorems": [
    "Samurai.C43_swap_partial",
    "Samurai.C43_swap_refuted"
   ],
   "note": "the periodicity is not exchanged (witness)"
  },
  {
   "property": "C44",
   "status": "partial",
   "theorems": [
    "Samurai.C44_level_partial",
    "Samurai.C44_mesh_partial",
    "Samurai.C44_mesh_refuted",
    "Samurai.C44_geometry_refuted"
   ],
   "note": "cells, numbers, domain, subdomain, union and min_level are restored; max_level, periodicity, origin point and scaling factor are not (witnesses)"
  },
  {
   "property": "C46",
   "status": "proved",
   "theorems": [
    "Samurai.C46_tiling",
    "Samurai.C46_corner",
    "Samurai.C46_face",
    "Samurai.C46_constructors"
   ],
   "note": "any dimension, exact arithmetic in an ordered field"
  },
  {
   "property": "C47",
   "status": "proved",
   "theorems": [
    "Samurai.C47_convex",
    "Samurai.C47_exact_quadratic",
    "Samurai.C47_optimal",
    "Samurai.C47_optimal_exact",
    "Samurai.C47_translation",
    "Samurai.C47_convection",
    "Samurai.C47_convection_nonlinear",
    "Samurai.C47_weights",
    "Samurai.C47_candidates",
    "Samurai.C47_nonlinear_exact",
    "Samurai.C47_upwind"
   ],
   "note": "exact arithmetic in an ordered field"
  },
  {
   "property": "C48",
   "status": "partial",
   "theorems": [
    "Samurai.C48_exists_partial",
    "Samurai.C48_exists_refuted"
   ],
   "note": "only the first entry of the result is initialised (witness)"
  },
  {
   "property": "C49",
   "status": "partial",
   "theorems": [
    "Samurai.C49_restricted_cells_partial",
    "Samurai.C49_restricted_cells_refuted",
    "Samurai.C49_stale_row_refuted"
   ],
   "note": "right in dimension 1; in the other dimensions the number is looked up with the row of the previous interval (refuted for every set)"
  },
  {
   "property": "C66",
   "status": "partial",
   "theorems": [
    "Samurai.C66_regular_leaf",
    "Samurai.C66_linear",
    "Samurai.C66_diffusion",
    "Samurai.C66_multi_diffusion",
    "Samurai.C66_laplacian",
    "Samurai.C66_gradient",
    "Samurai.C66_divergence",
    "Samurai.C66_upwind",
    "Samurai.C66_diffusion_exact",
    "Samurai.C66_gradient_exact",
    "Samurai.C66_divergence_exact",
    "Samurai.C66_upwind_exact",
    "Samurai.C66_vector_upwind_partial",
    "Samurai.C66_vector_upwind_refuted",
    "Samurai.C66_upwind_columns_refuted"
   ],
   "note": "exact arithmetic; upwind convection of a vector field mixes the components (witness) and writes outside the matrix of coefficients for 1 < number of components < dim; the other operators are proved"
  },
  {
   "property": "C67",
   "status": "proved",
   "theorems": [
    "Samurai.C67_free_stream",
    "Samurai.C67_uniform_field"
   ],
   "note": "exact arithmetic"
  },
  {
   "property": "C68",
   "status": "partial",
   "theorems": [
    "Samurai.C68_scalar_nonlinear",
    "Samurai.C68_scalar_linear",
    "Samurai.C68_negation",
    "Samurai.C68_sum_partial",
    "Samurai.C68_sum_stencil_refuted",
    "Samurai.C68_sum_boundary_refuted",
    "Samurai.C68_operator_sum"
   ],
   "note": "scheme1 + scheme2 keeps the stencil and the boundary treatment of scheme1: proved when they are equal, refuted otherwise (witnesses); the other operations are proved"
  },
  {
   "property": "C69",
   "status": "proved",
   "theorems": [
    "Samurai.C69_heterogeneous_scheme",
    "Samurai.C69_conservation",
    "Samurai.C69_linearity",
    "Samurai.C69_diffusion",
    "Samurai.C69_upwind",
    "Samurai.C69_burgers"
   ],
   "note": "exact arithmetic; also the values of the provided operators on regular leaves"
  },
  {
   "property": "C70",
   "status": "partial",
   "theorems": [
    "Samurai.C70_diffusion_partial",
    "Samurai.C70_upwind_partial",
    "Samurai.C70_diffusion_refuted",
    "Samurai.C70_burgers_refuted"
   ],
   "note": "holds for constant coefficients on regular leaves; fails for diffusion with a field of coefficients and for the Burgers convection (witnesses)"
  },
  {
   "property": "C26",
   "status": "proved",
   "theorems": [
    "Samurai.C26_make_graduation",
    "Samurai.C26_is_graduated",
    "Samurai.C26_already_graded",
    "Samurai.C26_coarsest",
    "Samurai.C26_star"
   ],
   "note": "for meshes whose coordinates leave a margin in the range of int; termination is the existence of a number of turns after which the loop has ended; also: is_graduated decides the property, and with a stencil of radius one the result is the coarsest graded refinement"
  },
  {
   "property": "C71",
   "status": "proved",
   "theorems": [
    "Samurai.C71_imposed",
    "Samurai.C71_adapted"
   ],
   "note": "domains that are boxes of cells of the level; exact arithmetic; the theorem asks that the reference mesh holds the inner cells of the lines (bcReady_uniform: every uniform mesh; C71_adapted: every graded adapted mesh with the default prediction order and a stencil of width at most 2, nothing left to assume about the mesh)"
  },
  {
   "property": "C72",
   "status": "partial",
   "theorems": [
    "Samurai.C72_directions",
    "Samurai.C72_coords",
    "Samurai.C72_edges_refuted"
   ],
   "note": "the directions along an axis are proved; in dimension 3 the regions of the edges are empty whatever the domain"
  },
  {
   "property": "C73",
   "status": "proved",
   "theorems": [
    "Samurai.C73_only_ghosts"
   ],
   "note": "domains that are boxes"
  },
  {
   "property": "C74",
   "status": "proved",
   "theorems": [
    "Samurai.C74_extrapolated"
   ],
   "note": "domains that are boxes; exact arithmetic"
  },
  {
   "property": "C75",
   "status": "partial",
   "theorems": [
    "Samurai.C75_untouched",
    "Samurai.C75_all_ghosts_refuted"
   ],
   "note": "false: the ghosts near a corner that are not on its diagonal, those of the edges and corners in dimension 3 and those more than three cells from the boundary never get a value (exact description and witness)"
  },
  {
   "property": "C76",
   "status": "proved",
   "theorems": [
    "Samurai.C76_update_ghosts"
   ],
   "note": "default configuration (one ghost, prediction order 1), no periodic direction, domains that are boxes of cells of a level three below min_level (or of level 0); exact arithmetic; covered cells from the level min_level - 1"
  },
  {
   "property": "C77",
   "status": "partial",
   "theorems": [
    "Samurai.C77_leaves_determine",
    "Samurai.C77_dim3_refuted"
   ],
   "note": "proved in dimensions 1 and 2; false in dimension 3: the prediction along an edge of the domain reads ghosts that are never filled"
  },
  {
   "property": "C51",
   "status": "partial",
   "theorems": [
    "Samurai.C51_periodic",
    "Samurai.C51_mesh",
    "Samurai.C51_none",
    "Samurai.C51_narrow_refuted"
   ],
   "note": "multiresolution meshes whose domain is a box aligned on the cells of level min_level - 2 (or 0), on the levels where the domain has at least ghost_width cells in the periodic directions; false on the other levels (witness with two ghosts and one cell). Missing: AMR meshes, domains that are not boxes"
  },
  {
   "property": "C78",
   "status": "proved",
   "theorems": [
    "Samurai.C78_update_ghosts",
    "Samurai.C78_leaves_determine"
   ],
   "note": "default configuration (one ghost, prediction order 1), all directions periodic, domains that are boxes of cells of a level three below min_level (or of level 0); exact arithmetic; cells farther than one cell from the domain are not filled and not used"
  },
  {
   "property": "C79",
   "status": "proved",
   "theorems": [
    "Samurai.C79_history",
    "Samurai.C79_tags",
    "Samurai.C79_step",
    "Samurai.C79_star",
    "Samurai.C79_diagonals"
   ],
   "note": "meshes without leaf of level 0 (min_level at least 1), no periodic direction, 1 <= graduation_width <= ghost_width; in dimension 1 stencils with |s| <= 1 (for a longer vector the interval of the fine cells and of the coarse cells in one row may have different lengths, which the model treats as an error); exact arithmetic"
  },
  {
   "property": "C80",
   "status": "proved",
   "theorems": [
    "Samurai.C80_save",
    "Samurai.C80_save_level",
    "Samurai.C80_element"
   ],
   "note": "exact arithmetic: with rounding two computations of the same corner may differ and the point be duplicated; the files, the XML description and MPI are not modelled"
  },
  {
   "property": "C81",
   "status": "proved",
   "theorems": [
    "Samurai.C81_matrix",
    "Samurai.C81_matrix_heterogeneous"
   ],
   "note": "exact arithmetic; the coefficients set by the scheme itself (ADD_VALUES); the rows of the boundary conditions and of the ghosts are not in this matrix; preallocation and the PETSc library are not modelled"
  },
  {
   "property": "C82",
   "status": "proved",
   "theorems": [
    "Samurai.C82_elimination"
   ],
   "note": "domain without holes; exact arithmetic"
  },
  {
   "property": "C83",
   "status": "partial",
   "theorems": [
    "Samurai.C83_matrix",
    "Samurai.C83_dim1_partial",
    "Samurai.C83_dim2_refuted"
   ],
   "note": "true in dimension 1 with the default configuration (C83_dim1_partial), and in any dimension for fields whose ghosts satisfy the elimination relations (C83_matrix); false in dimension 2, because the prediction used by update_ghost_mr has cross terms of the wrong sign (C83_dim2_refuted)"
  },
  {
   "property": "C84",
   "status": "partial",
   "theorems": [
    "Samurai.C84_system_partial",
    "Samurai.C84_value_refuted"
   ],
   "note": "the whole claim for conditions given by constants or functions of the coordinates; false for functions of the direction or of the inner cell, which the implicit schemes call with a direction of zeros and a default cell (C84_value_refuted); stencils of two cells; exact arithmetic; the PETSc solver itself is not modelled"
  },
  {
   "property": "C85",
   "status": "partial",
   "theorems": [
    "Samurai.C85_dim1_partial",
    "Samurai.C83_dim2_refuted"
   ],
   "note": "dimension 1, default configuration, conditions given by functions of the coordinates; in dimension 2 the two differ because of the signs of the cross terms of the prediction (C83_dim2_refuted)"
  },
  {
   "property": "C86",
   "status": "partial",
   "theorems": [
    "Samurai.C86_linear",
    "Samurai.C86_nonlinear",
    "Samurai.C86_algebra_partial",
    "Samurai.C86_algebra_nonlinear_partial",
    "Samurai.C86_algebra_mixed",
    "Samurai.C86_identity",
    "Samurai.C86_diffusion",
    "Samurai.C86_sum_stencil_refuted"
   ],
   "note": "the application of the schemes, the scalings and the operators are proved in full (identity and diffusion in dimensions 1 to 3); sums and differences for schemes with the same stencil: scheme1 + scheme2 with different stencils uses the stencil of scheme1 (C86_sum_stencil_refuted); exact arithmetic"
  },
  {
   "property": "C87",
   "status": "proved",
   "theorems": [
    "Samurai.C87_cell",
    "Samurai.C87_sum"
   ],
   "note": "homogeneous linear schemes; exact arithmetic; skipping the coefficients equal to 0 and the preallocation are not modelled"
  },
  {
   "property": "C88",
   "status": "partial",
   "theorems": [
    "Samurai.C88_system_partial",
    "Samurai.C88_backward_euler",
    "Samurai.C88_cell_refuted"
   ],
   "note": "flux-based schemes with two-cell stencils and cell-based schemes on one cell (identity, mass, reaction): false for cell-based schemes that read their neighbours, on meshes with level jumps, where the system sets the ghosts to 0 (C88_cell_refuted); boundary values as functions of the coordinates (C84_value_refuted)"
  },
  {
   "property": "C89",
   "status": "partial",
   "theorems": [
    "Samurai.C89_matrix",
    "Samurai.C89_layout_refuted"
   ],
   "note": "the whole claim when the layouts of the fields of a row and of a column of a block are the same, or the result has one component; false otherwise: the rows of a block use the layout of its column (C89_layout_refuted: a vector field stored by components with a scalar field of the default layout); linear homogeneous schemes; exact arithmetic"
  },
  {
   "property": "C90",
   "status": "partial",
   "theorems": [
    "Samurai.C90_system_partial"
   ],
   "note": "schemes as in C88 in the blocks (C88_cell_refuted), 0 outside of the diagonal, layouts as in C89 (C89_layout_refuted), boundary values as functions of the coordinates (C84_value_refuted)"
  },
  {
   "property": "C91",
   "status": "proved",
   "theorems": [
    "Samurai.C91_nested"
   ],
   "note": "the whole claim, for operators whose diagonal blocks are schemes (a literal 0 on the diagonal does not compile with the solver); exact arithmetic"
  },
  {
   "property": "C92",
   "status": "partial",
   "theorems": [
    "Samurai.C92_vectors",
    "Samurai.C92_fieldsplit_refuted",
    "Samurai.C92_rect_refuted"
   ],
   "note": "false for the field-split sets of an operator with one row, which are not initialised (C92_fieldsplit_refuted), and for the size of the vectors of rectangular operators, the sum of the sizes of the diagonal blocks (C92_rect_refuted)"
  },
  {
   "property": "C93",
   "status": "partial",
   "theorems": [
    "Samurai.C93_preallocation_partial",
    "Samurai.C93_sum_refuted",
    "Samurai.C93_soa_refuted",
    "Samurai.C93_domain_refuted"
   ],
   "note": "boxes, schemes and sums whose operator with the largest stencil reads the cells of the others; false if it does not (C93_sum_refuted), for cell-based operators whose coefficients contain 0 with fields stored by components (C93_soa_refuted) and for domains where a ghost has conditions with three neighbours or more (C93_domain_refuted); PETSc's allocation itself is not modelled"
  },
  {
   "property": "C94",
   "status": "proved",
   "theorems": [
    "Samurai.C94_residual",
    "Samurai.C94_jacobian"
   ],
   "note": "exact arithmetic; (1) with the default configuration on boxes, as C76; SNESSolve is not modelled; the directions are those whose ghosts have the values of the projection and of the prediction, or any direction with a stencil of two cells, the matrix replacing the eliminated ghosts"
  },
  {
   "property": "C95",
   "status": "partial",
   "theorems": [
    "Samurai.C95_newton_dim1_partial",
    "Samurai.C95_newton_refuted"
   ],
   "note": "proved for the iterates whose eliminated ghosts have the values of the projection and of the prediction, and for the matrix assembled after update_ghost_mr; false for the second iterate on a mesh with a level jump (C95_newton_refuted): the matrix is assembled after update_bc only and the increments are 0 in the eliminated ghosts; dimension 1"
  },
  {
   "property": "C96",
   "status": "partial",
   "theorems": [
    "Samurai.C96_field_expression_partial",
    "Samurai.C96_field_expression_refuted"
   ],
   "note": "exact arithmetic; false for scalar fields with vector fields stored by cells, the default layout (C96_field_expression_refuted): xtensor aligns the components with the cells"
  },
  {
   "property": "C97",
   "status": "proved",
   "theorems": [
    "Samurai.C97_make_field",
    "Samurai.C97_L2_error",
    "Samurai.C97_zero",
    "Samurai.C97_equal",
    "Samurai.C97_equal_not_transitive"
   ],
   "note": "real numbers, no rounding; the comparison of the meshes in operator== is not part of it; make_field with a quadrature does not compile (a non-const function is called on a const object)"
  },
  {
   "property": "C98",
   "status": "partial",
   "theorems": [
    "Samurai.C98_quadrature_partial",
    "Samurai.C98_quadrature_refuted"
   ],
   "note": "real numbers, the tables being the decimal numbers of the source; degrees up to 39; above, the points are not initialized (C98_quadrature_refuted)"
  },
  {
   "property": "C99",
   "status": "proved",
   "theorems": [
    "Samurai.C99_details"
   ],
   "note": "one scalar field, exact arithmetic, sequential, not periodic; at least one level between min_level and max_level"
  },
  {
   "property": "C100",
   "status": "partial",
   "theorems": [
    "Samurai.C100_thresholds_partial",
    "Samurai.C100_wide_levels_refuted"
   ],
   "note": "one scalar field, exact arithmetic, sequential, not periodic, default configuration, a box; dim (max_level - min_level) < 31: above, 1 << exponent is undefined (C100_wide_levels_refuted)"
  },
  {
   "property": "C101",
   "status": "partial",
   "theorems": [
    "Samurai.C101_uniform_field_partial"
   ],
   "note": "dimensions 1 and 2, graduation_width 1, without enlarge, default configuration, a box, dim (max_level - min_level) < 31; dimension 3 is missing: the ghosts of the corners are not determined by the leaves (see C77)"
  },
  {
   "property": "C102",
   "status": "partial",
   "theorems": [
    "Samurai.C102_time_loop_partial"
   ],
   "note": "dimensions 1 to 3, graduation_width 1, one ghost, prediction of order 1, a box, min_level >= 1, dim (max_level - min_level) < 31; prediction order 0 or above 1 and wider ghosts are missing"
  },
  {
   "property": "C103",
   "status": "proved",
   "theorems": [
    "Samurai.C103_update_ghost_amr",
    "Samurai.C103_any_tiling"
   ],
   "note": "one scalar field, exact arithmetic, sequential, not periodic; the domain is a box of cells of level 0; leaves graded through faces and corners; C103_any_tiling is the part that holds without grading, for every prediction order"
  },
  {
   "property": "C104",
   "status": "proved",
   "theorems": [
    "Samurai.C104_leaves_determine_amr",
    "Samurai.C104_face_graded_refuted"
   ],
   "note": "prediction of order 1, min_level < max_level; hypotheses of C103, in particular leaves graded through faces and corners; C104_face_graded_refuted shows that the property is false of meshes graded through the faces only with one ghost"
  },
  {
   "property": "C105",
   "status": "proved",
   "theorems": [
    "Samurai.C105_amr_time_loop"
   ],
   "note": "one scalar field, exact arithmetic, sequential, not periodic; the domain is a box of cells of level 0 and min_level >= 1; every leaf is tagged"
  },
  {
   "property": "C106",
   "status": "partial",
   "theorems": [
    "Samurai.C106_amr_uniform_partial",
    "Samurai.C106_face_graded_refuted"
   ],
   "note": "C106_face_graded_refuted: the property is false on meshes graded through the faces only (star stencil) with one ghost; C106_amr_uniform_partial: dimensions 1 and 2, prediction of order 1, min_level < max_level, conditions of one ghost; meshes graded through faces and corners; dimension 3 and higher orders are missing"
  },
  {
   "property": "C107",
   "status": "proved",
   "theorems": [
    "Samurai.C107_fv_step",
    "Samurai.C107_balance",
    "Samurai.C107_upwind_side",
    "Samurai.C107_upwind_bounds",
    "Samurai.C107_in_place_refuted"
   ],
   "note": "scalar fields on one mesh, exact arithmetic, sequential; u and unp1 are different fields (C107_in_place_refuted: false when the result is assigned to u itself); C107_fv_step and C107_balance hold for any flux function"
  },
  {
   "property": "C108",
   "status": "partial",
   "theorems": [
    "Samurai.C108_godunov_partial",
    "Samurai.C108_velocity_refuted"
   ],
   "note": "C108_velocity_refuted: the size of the velocity has no effect on the flux; C108_godunov_partial: Godunov flux of u^2/2 for a > 0, of the reversed direction for a < 0"
  },
  {
   "property": "C109",
   "status": "partial",
   "theorems": [
    "Samurai.C109_no_dangling",
    "Samurai.C109_no_leak_partial",
    "Samurai.C109_leak_refuted",
    "Samurai.C109_matrix_leak_refuted",
    "Samurai.C109_copy_refuted",
    "Samurai.C109_move_refuted",
    "Samurai.C109_moved_from"
   ],
   "note": "no use after free: all programs without assignments by copy, and without assignments by move when there are non-linear solvers (C109_copy_refuted, C109_move_refuted: false otherwise); nothing left behind: programs with non-linear solvers only (C109_leak_refuted, C109_matrix_leak_refuted: the linear solvers leak a KSP each, and a matrix after assemble_matrix()); without the multigrid"
  },
  {
   "property": "C110",
   "status": "partial",
   "theorems": [
    "Samurai.C110_matrix_of_unknown",
    "Samurai.C110_stale_refuted"
   ],
   "note": "programs that call reset() after each change of the unknown; C110_stale_refuted: false without it (solve(u1,b1); solve(u2,b2))"
  },
  {
   "property": "C111",
   "status": "proved",
   "theorems": [
    "Samurai.C111_local_equations",
    "Samurai.C111_schedule_independent",
    "Samurai.C111_alias_refuted",
    "Samurai.C111_assign_refuted"
   ],
   "note": "rhs is another field than u, or the fields have several components stored component by component (C111_alias_refuted: false for solve(u, u) otherwise); an assigned solver keeps its own scheme (C111_assign_refuted); independence of the schedule for methods whose iterates do not depend on the state kept by the SNES; the solves of two cells are not interleaved; exact arithmetic"
  },
  {
   "property": "C112",
   "status": "proved",
   "theorems": [
    "Samurai.C112_value",
    "Samurai.C112_jacobian"
   ],
   "note": "products by numbers, sums and differences of a linear scheme and an expression (the sum of two non-linear cell-based schemes does not compile); exact arithmetic"
  },
  {
   "property": "C113",
   "status": "proved",
   "theorems": [
    "Samurai.C113_exchanges",
    "Samurai.C113_deterministic"
   ],
   "note": "the rounds succeed when they are done together; the collective reductions are given as common values; MPI: reliable messages that do not overtake each other"
  },
  {
   "property": "C114",
   "status": "partial",
   "theorems": [
    "Samurai.C114_ghosts",
    "Samurai.C114_shared_cell",
    "Samurai.C114_components_refuted"
   ],
   "note": "scalar fields; C114_components_refuted: false for fields with several components; a coarse cell that is in the subdomains of two processes has its two values exchanged (C114_shared_cell); the serialization of the meshes is not modelled here"
  },
  {
   "property": "C115",
   "status": "proved",
   "theorems": [
    "Samurai.C115_tags"
   ],
   "note": "tags of one component; the bitwise or is any operation"
  },
  {
   "property": "C116",
   "status": "partial",
   "theorems": [
    "Samurai.C116_overleaves_partial",
    "Samurai.C116_projection_partial",
    "Samurai.C116_numbering_partial",
    "Samurai.C116_projection_refuted",
    "Samurai.C116_dim3_refuted",
    "Samurai.C116_numbering_refuted"
   ],
   "note": "Proved in dimensions 1 and 2: the contents of the sub-meshes; the children of a projection cell are all in the reference mesh or none is; the numbering if all the refined cells are in the reference mesh. Refuted: in dimension 3 half of the overleaves are missing; a projection cell may have no child in the reference mesh; renumbering() looks for cells of union_cells that are not in the reference mesh (out of bounds)."
  },
  {
   "property": "C117",
   "status": "partial",
   "theorems": [
    "Samurai.Timers.C117_elapsed",
    "Samurai.Timers.C117_untimed",
    "Samurai.Timers.C117_nested_refuted",
    "Samurai.Timers.C117_reentry_refuted",
    "Samurai.Timers.C117_stop_unknown",
    "Samurai.Timers.C117_mpi_extremes",
    "Samurai.Timers.C117_mpi_average_is_own",
    "Samurai.Timers.C117_mpi_average_refuted",
    "Samurai.Timers.C117_mpi_deviation_refuted"
   ],
   "note": "Proved: the elapsed times and counts of every bracketed run, the non-negative untimed part of runs without nesting, minimum and maximum over the processes. Refuted: the average and the deviation printed under MPI, the untimed part with nested sections, sections nested in themselves."
  },
  {
   "property": "C118",
   "status": "partial",
   "theorems": [
    "Samurai.C118_update_ghost_mro_partial",
    "Samurai.C118_leaves_determine_partial",
    "Samurai.C118_stale_refuted"
   ],
   "note": "Proved in dimensions 1 and 2, prediction order 1, no periodic direction: the relations after the update, for every graded mesh; the dependence on the leaves alone when each refined cell of the mesh has a child in the mesh. Refuted without this condition: with two ghosts a graded mesh has refined cells that are never set, and a ghost of a leaf depends on them. Missing: dimension 3 (the overleaves themselves are wrong there, C116)."
  },
  {
   "property": "C119",
   "status": "proved",
   "theorems": [
    "Samurai.FieldLife.C119_fields_are_maps",
    "Samurai.FieldLife.C119_time_loop",
    "Samurai.FieldLife.C119_forgotten_refuted",
    "Samurai.FieldLife.C119_too_small_refuted",
    "Samurai.FieldLife.C119_twice_refuted",
    "Samurai.FieldLife.C119_other_mesh_refuted"
   ],
   "note": "Proved for all programs without misuse, in the sense of the small semantics of Spec/FieldLife.lean; the four refutations show what each misuse does: nothing in the library detects a field left out of an adaptation, passed twice, or of another mesh."
  },
  {
   "property": "C120",
   "status": "partial",
   "theorems": [
    "Samurai.C120_level_partial",
    "Samurai.C120_mesh_partial",
    "Samurai.C120_file",
    "Samurai.C120_axis2_refuted",
    "Samurai.C120_empty_level_refuted"
   ],
   "note": "Proved: in every dimension the counts of cells and intervals and the extreme sizes of every axis, the intervals per component of the axis 1, meshes without empty level in between, and the contents of the file. Refuted: from the axis 2 on the intervals per component are those of the axis 1; an empty level between two others makes the statistics read the end of an empty vector."
  },
  {
   "property": "C121",
   "status": "proved",
   "theorems": [
    "Samurai.C121_level",
    "Samurai.C121_array",
    "Samurai.C121_mesh",
    "Samurai.C121_same_cells",
    "Samurai.C121_monotone_refuted"
   ],
   "note": "Every dimension, every well-formed array, any sizes of the types; unbounded numbers. C121_monotone_refuted: more cells may need less memory."
  },
  {
   "property": "C122",
   "status": "proved",
   "theorems": [
    "Samurai.C122_one_mesh",
    "Samurai.C122_owner"
   ],
   "note": "Every dimension, number of processes and shape of the parts. The hypotheses on the tags (whole families, nothing below the minimum level) are those the tagging of harten establishes on one process; the tags of the siblings on other processes are those of their owners (update_tag_subdomains, C115)."
  },
  {
   "property": "C123",
   "status": "proved",
   "theorems": [
    "Samurai.C123_flags",
    "Samurai.C123_equal",
    "Samurai.C123_none",
    "Samurai.C123_copies_refuted"
   ],
   "note": "Every dimension, box and mesh built by mrMeshPeriodic. C123_copies_refuted: the copies of one cell on the two sides of a domain narrower than twice the ghost width do not all end with the same tag."
  }
 ]
}