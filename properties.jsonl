{"id": "C01", "title": "Interval level shifts are exact", "statement": "Coarsening an interval I by k levels (I >> k) contains x exactly when some y in I has x as its k-th ancestor (y >> k == x); refining (I << k) contains x exactly when the k-th ancestor of x is in I. In particular (I << k) >> k has the bounds of I, and (I >> k) << k contains I.", "quantifier": "every valid interval (negative bounds included) and every shift amount", "why_tests_cant": "Bounds are arbitrary signed integers and shifts arbitrary; tests sample a few positive bounds, off-by-one errors show on odd or negative bounds.", "anchors": ["include/samurai/interval.hpp: operator>>=, operator<<=, contains, is_valid"]}
{"id": "C02", "title": "Even and odd sub-intervals partition an interval", "statement": "Walking i.even_elements() and i.odd_elements() with their step visits every element of i exactly once, the first only even ones and the second only odd ones; the k-th even (odd) element has as parent the k-th element of the coarse interval of that parity.", "quantifier": "every valid interval with step 1", "why_tests_cant": "Parity and sign cases of both bounds interact; the claim ranges over all bounds.", "anchors": ["include/samurai/interval.hpp: even_elements, odd_elements"]}
{"id": "C03", "title": "Interval division by an integer covers the original", "statement": "The documented contract of I / n is the smallest interval that contains the divided interval: every x/n (floor) with x in I is in I / n.", "quantifier": "every valid interval and every positive divisor", "why_tests_cant": "The contract is universal; the code violates it only when the end is not a multiple of the divisor and the floors of the bounds differ.", "anchors": ["include/samurai/interval.hpp: operator/="]}
{"id": "C04", "title": "An interval list holds exactly what was added", "statement": "After any sequence of add_interval / add_point calls on a ListOfIntervals, an integer x is in one of the stored intervals exactly when it was in one of the added valid intervals.", "quantifier": "every finite history of insertions in any order, with overlaps, duplicates, adjacency and invalid intervals", "why_tests_cant": "The number of interleavings of overlapping insertions is unbounded; each merge erases list nodes.", "anchors": ["include/samurai/list_of_intervals.hpp: add_interval, add_point"]}
{"id": "C05", "title": "An interval list is canonical", "statement": "At every moment of any history the stored intervals are non-empty, increasing, disjoint and not even adjacent; hence the list of (start,end) pairs depends only on the set of integers held, not on the order, multiplicity or splitting of insertions.", "quantifier": "every pair of finite histories inserting the same set of integers", "why_tests_cant": "Order independence quantifies over pairs of histories.", "anchors": ["include/samurai/list_of_intervals.hpp: add_interval"]}
{"id": "C06", "title": "A level cell array holds exactly the cells of the list it is built from", "statement": "Building a LevelCellArray from a LevelCellList that was filled by any history of lcl[index].add_interval(i) / add_cell calls (with valid intervals) yields an array whose cells are exactly the inserted cells, in every dimension, without reading out of bounds.", "quantifier": "every dimension, every history of insertions", "why_tests_cant": "Compressed row storage is built by a recursion over nested maps; correctness is for every nesting and every gap pattern in every dimension.", "anchors": ["include/samurai/level_cell_list.hpp: operator[], add_cell", "include/samurai/level_cell_array.hpp: LevelCellArray(const LevelCellList&), init_from_level_cell_list"]}
{"id": "C07", "title": "Level cell arrays are canonical", "statement": "Two LevelCellArrays built from lists with the same level and the same cells (however inserted, no empty rows and default interval indices) compare equal with operator==; conversely arrays that compare equal hold the same cells.", "quantifier": "every pair of insertion histories in every dimension", "why_tests_cant": "Equality of meshes is used to stop adaptation loops; it must be insensitive to the insertion order for every pair of histories.", "anchors": ["include/samurai/level_cell_array.hpp: operator==, init_from_level_cell_list", "include/samurai/mesh.hpp: operator=="]}
{"id": "C08", "title": "Cell numbering is a bijection", "statement": "After update_index on a LevelCellArray (or on a CellArray, across its levels) the numbers interval.index + x of its cells are pairwise distinct and are exactly 0, ..., nb_cells()-1, increasing along the iteration order.", "quantifier": "every well formed array of every dimension and every set of levels", "why_tests_cant": "Every Field access relies on it: a clash or a hole corrupts data silently; it ranges over all meshes.", "anchors": ["include/samurai/level_cell_array.hpp: update_index, nb_cells", "include/samurai/cell_array.hpp: update_index, nb_cells"]}
{"id": "C09", "title": "Cell lookup is exact", "statement": "find(lca, coord) returns the position of the x-interval holding coord in the row of coord exactly when the cell is in the array, and -1 otherwise; get_index(coord) of a present cell is the number of that cell; both stay in bounds for any coordinates (get_interval/get_index on an absent cell is out of bounds).", "quantifier": "every well formed array of every dimension and every coordinate", "why_tests_cant": "The binary search and the descent through offsets must be right for all row layouts and all coordinates, present or not.", "anchors": ["include/samurai/algorithm.hpp: my_binary_search, find_impl, find, find_on_dim", "include/samurai/level_cell_array.hpp: get_interval, get_index, get_cell"]}
{"id": "C10", "title": "for_each_interval and for_each_cell visit every cell exactly once", "statement": "for_each_interval on a LevelCellArray calls the functor on each stored x-interval once, with the transverse coordinates of its row, in lexicographic order (outermost direction slowest); for_each_cell visits each cell of the array exactly once with its own coordinates and number.", "quantifier": "every well formed array of every dimension", "why_tests_cant": "The traversal goes through an iterator that keeps several cursors in step; a mistake shows for some row layouts only.", "anchors": ["include/samurai/algorithm.hpp: for_each_interval, for_each_cell", "include/samurai/level_cell_array.hpp: cbegin, cend, LevelCellArray_iterator::operator++"]}
{"id": "C11", "title": "Level cell array iterators can be stepped in both directions", "statement": "Incrementing begin() k times gives the k-th interval with the coordinates of its row; decrementing end() k times gives the k-th interval from the end with its coordinates; decrementing an incremented iterator that is not past the end gives back the same interval and coordinates.", "quantifier": "every well formed array of every dimension and every number of steps", "why_tests_cant": "All positions and layouts; the two directions use different cursor updates.", "anchors": ["include/samurai/level_cell_array.hpp: LevelCellArray_iterator::operator++, operator--, begin, end"]}
{"id": "C12", "title": "A box fills a level cell array with every integer point of the box, once", "statement": "LevelCellArray(level, box) contains exactly the integer points of the half-open box, its cells are numbered 0..nb_cells-1 without calling update_index and nb_cells is the product of the side lengths.", "quantifier": "every box with positive side lengths in every dimension", "why_tests_cant": "All side lengths and all dimensions; offsets are computed by index arithmetic.", "anchors": ["include/samurai/level_cell_array.hpp: LevelCellArray(level, box), init_from_box"]}
{"id": "C13", "title": "Iterating a CellArray visits all its levels", "statement": "Range-for over a CellArray visits every x-interval of every level, in increasing level order, whatever levels are empty.", "quantifier": "every assignment of (possibly empty) level cell arrays to levels", "why_tests_cant": "Which levels are empty is arbitrary; the failing layouts have a gap between occupied levels.", "anchors": ["include/samurai/cell_array.hpp: CellArray_iterator::operator++, begin, end"]}
{"id": "C14", "title": "Set algebra on meshes is exact", "statement": "At the level of the operands, the cells passed to the functor by intersection(...), union_(...), difference(...), nested in any way over meshes and translated meshes of the same level, are exactly the cells of the corresponding set expression.", "quantifier": "every expression, every dimension, every family of well formed level cell arrays", "why_tests_cant": "The algorithm is a plane sweep over boundaries with per-leaf state, in every dimension; the input space is all expressions over all meshes.", "anchors": ["include/samurai/subset/subset_op.hpp: intersect_fn, union_fn, difference_fn", "include/samurai/subset/subset_op_base.hpp: operator(), apply, sub_apply", "include/samurai/subset/subset_node.hpp: eval, update, decrement_dim"]}
{"id": "C15", "title": "Changing the level of a set expression is exact", "statement": "For operands of various levels, expr.on(l) passes to the functor exactly the cells c of level l such that the expression holds at c, where each operand finer than l counts as present when one of its cells is a descendant of c, and each operand coarser than l counts as present when it holds an ancestor of c (for l above all operands the expression is taken at the finest operand level and refined).", "quantifier": "every expression, every dimension, every level for each operand and for the result", "why_tests_cant": "Quantifies over all level combinations and meshes; coarsening merges rows and intervals on the fly.", "anchors": ["include/samurai/subset/subset_op_base.hpp: on, init, set_shift, common_level, sub_apply", "include/samurai/subset/subset_node.hpp: set_shift, shift_value, decrement_dim, update, max"]}
{"id": "C16", "title": "Each cell of a set expression is visited once, in canonical order", "statement": "The calls of the functor of expr.on(l), for l at most the finest operand level, have non-empty pairwise disjoint intervals; rows come in lexicographic order, intervals of a row increase and are never adjacent. Therefore two expressions denoting the same set of cells at l produce the identical sequence of calls, which is what makes MPI peers that compute the same set agree on the order of the values they exchange.", "quantifier": "every pair of expressions with the same meaning, every mesh, every dimension", "why_tests_cant": "Send and receive orders are computed by different processes from different expressions; agreement quantifies over all of them.", "anchors": ["include/samurai/subset/subset_op_base.hpp: apply", "include/samurai/algorithm/update.hpp: update_ghost_subdomains"]}
{"id": "C17", "title": "Evaluating a set expression terminates and stays in bounds", "statement": "operator() of a set expression over well formed meshes (coordinates within the int range margins stated) ends after finitely many steps and never reads outside a cells, offsets or work vector.", "quantifier": "every expression, mesh, dimension and level", "why_tests_cant": "Loop exit depends on sentinels and on strict progress for every input.", "anchors": ["include/samurai/subset/subset_op_base.hpp: apply", "include/samurai/subset/subset_node.hpp: update, min, max, decrement_dim"]}
{"id": "C18", "title": "A set expression can be evaluated any number of times", "statement": "The sequence of calls made by the functor does not depend on what was evaluated before with the same expression object (same level, other levels through on, partial runs).", "quantifier": "every history of on(level) and operator() calls on one expression object", "why_tests_cant": "The object keeps mutable cursors and work vectors between runs; histories are unbounded.", "anchors": ["include/samurai/subset/subset_op_base.hpp: operator(), on, reset", "include/samurai/subset/subset_node.hpp: reset"]}
{"id": "C19", "title": "Translated sets are translates", "statement": "A cell c is in translate(mesh, s) exactly when c - s is in mesh, including when the translate is used at another level (s is in units of the mesh's level), and translating twice adds the vectors.", "quantifier": "every mesh, stencil vector, level, dimension", "why_tests_cant": "Arbitrary vectors and levels, coordinates must be transformed coherently in search and in bounds.", "anchors": ["include/samurai/subset/node_op.hpp: translate_op, translate"]}
{"id": "C20", "title": "expand grows a set", "statement": "expand(mesh, n) is documented by use as growing a mesh by n cells; a user relies on it to contain the mesh itself and the cells at distance n.", "quantifier": "every mesh and width", "why_tests_cant": "Universal inclusion; fails on meshes thinner than 2n.", "anchors": ["include/samurai/subset/node_op.hpp: expand, contraction"]}
{"id": "C21", "title": "Inner on(level) of a nested expression is respected", "statement": "In expr = op(a.on(l1), b) the first operand is the set a taken at level l1.", "quantifier": "every nested expression and level", "why_tests_cant": "The outer operator re-initialises the level of all leaves; only particular meshes show the difference.", "anchors": ["include/samurai/subset/subset_op_base.hpp: subset_operator ctor, init, set_shift"]}
{"id": "C22", "title": "projection(mesh, level) covers the mesh", "statement": "projection(mesh, level) used in a set expression denotes the mesh coarsened (or refined) to level, and contains the ancestor of each cell.", "quantifier": "every mesh and level", "why_tests_cant": "Rounding of the ends depends on parity; universal inclusion.", "anchors": ["include/samurai/subset/node_op.hpp: projection_op"]}
{"id": "C23", "title": "The union meshes hold exactly the covered coarse cells", "statement": "mesh.get_union()[l] contains a cell exactly when it is the ancestor of a leaf cell of a strictly finer level of the mesh, for the levels l >= min_level - 1.", "quantifier": "every mesh, every range of levels, every dimension", "why_tests_cant": "Defined by a recursion from fine to coarse levels over arbitrary meshes.", "anchors": ["include/samurai/mesh.hpp: construct_union"]}
{"id": "C24", "title": "Ghosts surround every leaf cell", "statement": "In a UniformMesh (and at each level of an MRMesh / amr::Mesh) every cell at Chebyshev distance at most ghost_width (max_stencil_width) of a leaf cell belongs to the reference cells_and_ghosts mesh, so that every stencil access within that width finds a cell.", "quantifier": "every leaf mesh, every ghost width, every dimension", "why_tests_cant": "All meshes and all offsets in the stencil box.", "anchors": ["include/samurai/uniform_mesh.hpp: update_sub_mesh", "include/samurai/mr/mesh.hpp: update_sub_mesh_impl", "include/samurai/amr/mesh.hpp: update_sub_mesh_impl"]}
{"id": "C25", "title": "Sub-meshes share the numbering of the reference mesh", "statement": "After mesh construction, the number of a cell obtained through any sub-mesh contained in the reference mesh (cells, ghosts, union ...) is the number the reference mesh gives it, hence fields are addressed consistently.", "quantifier": "every mesh and sub-mesh contained in the reference, every cell", "why_tests_cant": "All cells of all meshes; the renumbering copies the index of the interval found at the start of each interval.", "anchors": ["include/samurai/mesh.hpp: renumbering"]}
{"id": "C26", "title": "Graduation yields a graduated mesh with the same domain", "statement": "make_graduation terminates and returns a mesh whose cells cover exactly the domain of the input mesh, in which adjacent leaf cells (in the given stencil) differ by at most one level, each input cell is either kept or refined, and levels stay within the original range.", "quantifier": "every mesh (levels, geometry), every stencil", "why_tests_cant": "A fixed-point loop over arbitrary level jumps; the result must hold for all meshes.", "anchors": ["include/samurai/graduation.hpp: is_graduated, make_graduation", "include/samurai/stencil.hpp: star_stencil"]}
{"id": "C27", "title": "Tags cannot lose or duplicate part of the domain", "statement": "Applying keep/refine/coarsen tags in update_field_mr gives leaf cells that tile the same domain without overlap, provided siblings are coarsened together; refine at the maximum level and coarsen at the minimum level leave the cell unchanged, so levels stay in [min_level, max_level].", "quantifier": "every leaf mesh and every tag assignment with sibling agreement", "why_tests_cant": "All tag combinations on all meshes.", "anchors": ["include/samurai/algorithm/update.hpp: update_field_mr, update_field"]}
{"id": "C28", "title": "Tag reduction makes siblings agree", "statement": "After the maximum step of the adaptation a set of 2^dim siblings is either entirely coarsened or not coarsened at all, a keep on one child forces all siblings and the parent to be kept, and refine tags are not lost.", "quantifier": "every tag assignment, every dimension 1..3", "why_tests_cant": "All 2^(4*2^dim) tag words of the siblings and parent.", "anchors": ["include/samurai/mr/operators.hpp: maximum_op", "include/samurai/cell_flag.hpp: CellFlag"]}
{"id": "C29", "title": "Projection after prediction gives back the coarse value", "statement": "For every prediction order and dimension, the mean of the 2^dim predicted child values is the parent value: prediction is conservative and consistent with projection, whatever the neighbour values.", "quantifier": "every field, every order, dimensions 1 to 3", "why_tests_cant": "All real field values.", "anchors": ["include/samurai/numeric/prediction.hpp: prediction_op, Qs_i, Qs_j, Qs_k, Qs_ij, Qs_ijk", "include/samurai/numeric/projection.hpp: projection_op_"]}
{"id": "C30", "title": "Prediction reproduces polynomials", "statement": "In 1D, prediction of order s is exact on cell averages of polynomials of degree at most 2s; in any dimension constants and affine functions are exact.", "quantifier": "every polynomial of the degree, every cell, every order s in 1..5", "why_tests_cant": "All coefficients, positions and mesh sizes; coefficient tables with typos pass smoke tests.", "anchors": ["include/samurai/numeric/prediction.hpp: prediction_coeffs, interp_coeffs, Qs_i_impl"]}
{"id": "C31", "title": "Multi-dimensional prediction agrees with the tensor product", "statement": "In 2D/3D the prediction operator equals the tensor product of the 1D predictions, as used by prediction<order>(...) in reconstruction, hence is exact on products of polynomials such as x*y.", "quantifier": "every field", "why_tests_cant": "Sign of cross terms only matters for fields with mixed derivatives.", "anchors": ["include/samurai/numeric/prediction.hpp: prediction_op<2>, Qs_ij", "include/samurai/reconstruction.hpp: prediction"]}
{"id": "C32", "title": "Details vanish exactly when the prediction is exact, and restore the field", "statement": "compute_detail stores child value minus predicted value; child value = prediction + detail for every child; if the details are zero then refinement reproduces the values; the mean of the details of the 2^dim siblings is zero when the parent is the projection of its children.", "quantifier": "every field, every order, dims 1..3", "why_tests_cant": "All values.", "anchors": ["include/samurai/mr/operators.hpp: compute_detail_op"]}
{"id": "C33", "title": "Mesh adaptation conserves the integral", "statement": "Transferring a field to the adapted mesh with update_field_mr (projection on coarsened cells, prediction on refined cells, copy on kept cells) preserves the integral of the field.", "quantifier": "every mesh, tag assignment with sibling agreement, field and prediction order", "why_tests_cant": "All meshes and fields.", "anchors": ["include/samurai/algorithm/update.hpp: update_field_mr", "include/samurai/numeric/projection.hpp", "include/samurai/numeric/prediction.hpp"]}
{"id": "C34", "title": "Prediction maps do not depend on the call history", "statement": "prediction<order>(level, i...) returns the same coefficients for the same arguments whatever calls were made before (it memoises in static maps) and the coefficients are the level-fold composition of the one-level prediction.", "quantifier": "every finite history of calls and arguments", "why_tests_cant": "The cache is global mutable state; the property is about all histories.", "anchors": ["include/samurai/reconstruction.hpp: prediction"]}
{"id": "C35", "title": "Portion values do not depend on the call history", "statement": "portion(field, level, i, delta_l, ii) with an interval ii returns the same value for the same arguments whatever calls were made before.", "quantifier": "every finite history of calls", "why_tests_cant": "The cache key omits delta_l; only particular histories show it.", "anchors": ["include/samurai/reconstruction.hpp: portion_impl"]}
{"id": "C36", "title": "Prediction coefficients sum to one", "statement": "The coefficients of prediction<order>(level, i...) sum to 1, so constants are reconstructed exactly at any number of levels.", "quantifier": "every order, level and index in dimensions 1 to 3", "why_tests_cant": "Unbounded number of levels.", "anchors": ["include/samurai/reconstruction.hpp: prediction, reconstruction"]}
{"id": "C37", "title": "Conservative flux schemes conserve", "statement": "For a conservative flux-based scheme on any graduated mesh, the sum over all cells of volume times the contribution of interior interfaces is zero, including across level jumps.", "quantifier": "every mesh, every flux function, every field", "why_tests_cant": "All meshes and fluxes; errors appear only at level jumps.", "anchors": ["include/samurai/schemes/fv/flux_based/flux_based_scheme__nonlin.hpp", "include/samurai/schemes/fv/flux_based/flux_based_scheme__lin_hom.hpp", "include/samurai/schemes/fv/flux_based/flux_based_scheme.hpp"]}
{"id": "C38", "title": "Every interior interface is visited exactly once", "statement": "for_each_interior_interface in a direction visits, for each pair of adjacent leaf cells of equal level, the pair once, and for each fine cell adjacent to a coarser (by one level) leaf cell, the pair (coarse, fine) once.", "quantifier": "every graduated mesh, direction, dimension", "why_tests_cant": "All meshes.", "anchors": ["include/samurai/interface.hpp: for_each_interior_interface"]}
{"id": "C39", "title": "The result of parallel flux accumulation does not depend on the schedule", "statement": "With atomic updates, the output of applying a flux scheme with parallel loops is the sequential result for every interleaving of the interface contributions (over exact arithmetic).", "quantifier": "every interleaving of the interface updates", "why_tests_cant": "Schedules are not controllable by tests.", "anchors": ["include/samurai/schemes/fv/flux_based/explicit_flux_based_scheme__nonlin.hpp", "include/samurai/schemes/fv/flux_based/explicit_flux_based_scheme__lin_hom.hpp", "include/samurai/algorithm.hpp: parallel_for_each_interval"]}
{"id": "C40", "title": "Level jump iteration pairs a fine cell with its own coarse neighbour", "statement": "Moving a LevelJumpIterator along a fine interval keeps the coarse cursor on the parent-side neighbour of the current fine cell.", "quantifier": "every interval emitted by the level jump intersection and every position in it", "why_tests_cant": "Depends on the parity of the interval start; all intervals.", "anchors": ["include/samurai/stencil.hpp: LevelJumpIterator"]}
{"id": "C41", "title": "The boundary is the set of leaf cells whose neighbour leaves the domain", "statement": "boundary(mesh, level, direction) contains a leaf cell of that level exactly when the cell next to it in that direction is outside the domain.", "quantifier": "every mesh and domain, every direction and level", "why_tests_cant": "All shapes of domain, including holes.", "anchors": ["include/samurai/boundary.hpp: boundary"]}
{"id": "C42", "title": "Domain partition covers the domain", "statement": "partition_mesh gives each process a sub-box so that the sub-domains are disjoint and cover the whole domain.", "quantifier": "every domain size and number of processes", "why_tests_cant": "Integer division remainders for arbitrary sizes.", "anchors": ["include/samurai/mesh.hpp: partition_mesh"]}
{"id": "C43", "title": "Mesh swap exchanges the whole state", "statement": "a.swap(b) exchanges every observable attribute of the two meshes.", "quantifier": "every pair of meshes", "why_tests_cant": "All attribute combinations; the omitted attribute only matters for periodic meshes.", "anchors": ["include/samurai/mesh.hpp: swap"]}
{"id": "C44", "title": "Mesh serialisation round-trips", "statement": "Deserialising what serialize wrote yields a mesh with the same cells, levels and periodicity.", "quantifier": "every mesh", "why_tests_cant": "All states.", "anchors": ["include/samurai/mesh.hpp: serialize"]}
{"id": "C45", "title": "Direction conversion of stencils is a rotation", "statement": "convert_for_direction(stencil, direction) maps the x-axis unit vector to the direction and preserves the size and the geometry of the stencil in 1D/2D/3D.", "quantifier": "every Cartesian direction and stencil", "why_tests_cant": "All stencil vectors.", "anchors": ["include/samurai/stencil.hpp: convert_for_direction"]}
{"id": "C46", "title": "Children tile their parent", "statement": "The 2^(k*dim) level-(l+k) descendants of a cell are pairwise disjoint and cover exactly the cell; the centre of a cell is the mean of the centres of its children.", "quantifier": "every cell, level difference and dimension", "why_tests_cant": "All levels and coordinates.", "anchors": ["include/samurai/cell.hpp: Cell, corner, center", "include/samurai/level_cell_array.hpp"]}
{"id": "C47", "title": "WENO5 reconstruction is a convex combination", "statement": "compute_weno5_flux returns the weighted mean of the three stencil reconstructions with positive weights summing to one, hence is exact on constants and affine data and bounded by the candidate values. The weights are 1/10, 6/10, 3/10 divided by the square of 1e-6 plus the integral, on the central cell, of the squares of the derivatives of the quadratic polynomial of each candidate. The convection fluxes built on it are upwind and exact on quadratic data.", "quantifier": "every five real values", "why_tests_cant": "All real inputs; includes non-smooth data.", "anchors": ["include/samurai/schemes/fv/operators/weno_impl.hpp: compute_weno5_flux"]}
{"id": "C48", "title": "Existence test of an MR mesh", "statement": "mesh.exists(type, level, interval, index...) is true exactly when the whole interval belongs to the sub-mesh.", "quantifier": "every mesh and interval", "why_tests_cant": "All intervals, including those spanning gaps.", "anchors": ["include/samurai/mr/mesh.hpp: exists"]}
{"id": "C49", "title": "Restricted cell iteration uses the cells of the set", "statement": "for_each_cell(lca, set, f) calls f on exactly the cells of the set with their coordinates and the number given by lca.", "quantifier": "every lca and set", "why_tests_cant": "All rows; the coordinates of a row are assigned after the number is looked up.", "anchors": ["include/samurai/algorithm.hpp: for_each_cell(lca, set, f)"]}
{"id": "C50", "title": "Interval arithmetic is a translation and a scaling", "statement": "i + v, i - v translate an interval, v - i and v + i agree with their mathematical meaning, i * n contains exactly the multiples n*x of its elements with step n.", "quantifier": "every interval and integer", "why_tests_cant": "All integers; the order of operands of subtraction matters.", "anchors": ["include/samurai/interval.hpp: operator+, operator-, operator*"]}
{"id": "C51", "title": "The periodic ghost update copies the values one period away", "statement": "On a mesh with periodic directions, the mesh contains, with every ghost at most ghost_width cells outside the domain, the cell that periodicity identifies with it; after update_ghost_periodic on a level these ghosts have the value of that cell and all the other values are unchanged.", "quantifier": "every box domain, set of periodic directions, leaves in the domain, level and field", "why_tests_cant": "All meshes: a ghost of a corner is reached by copies in several directions, whose order matters.", "anchors": ["include/samurai/algorithm/update.hpp: update_ghost_periodic", "include/samurai/mr/mesh.hpp: update_sub_mesh_impl (245-304)"]}
{"id": "C52", "title": "Star and line stencils", "statement": "star_stencil<dim, w>() lists the centre and the 2*dim*w axis neighbours exactly once, line_stencil<dim, d, size>() lists consecutive offsets along d; find_stencil_origin returns the position of the centre.", "quantifier": "every dimension, direction and width", "why_tests_cant": "Template parameters unbounded.", "anchors": ["include/samurai/stencil.hpp: star_stencil, line_stencil, find_stencil_origin"]}
{"id": "C53", "title": "Both prediction paths give each fine cell the value of its own parent", "statement": "Predicting from the coarse level onto level+1 and predicting on a fine interval from level-1 give every fine cell the same value; on a fine interval of any parity each cell is assigned once, with the value and the correction of its own parent (the views of the correction arrays are aligned and have the right length).", "quantifier": "every interval (all parities of start and end), field, order and dimension 1..3", "why_tests_cant": "All interval parities and values; a misaligned view only shows on some intervals.", "anchors": ["include/samurai/numeric/prediction.hpp: prediction_op (dest_on_level true and false)"]}
{"id": "C54", "title": "Reconstruction gives the multi-level prediction of each leaf", "statement": "reconstruction(field) gives every finest cell under a leaf the composition of the one-level predictions of the field of the level of the leaf, evaluated at that cell, whatever calls of prediction were made before.", "quantifier": "every mesh with disjoint leaves, field, order, dimension, number of levels and history of calls", "why_tests_cant": "Unbounded level differences and call histories.", "anchors": ["include/samurai/reconstruction.hpp: reconstruction, reconstruction_op_, portion"]}
{"id": "C55", "title": "The reference mesh of a multiresolution mesh is closed under the accesses of the ghost update", "statement": "In an MRMesh with min_level < max_level: the projection cells are the cells of the reference mesh refined by a leaf, and all their children are in the reference mesh; the prediction stencil around the parent of any ghost that no leaf refines, and around the grandparent of any leaf, is in the reference mesh.", "quantifier": "every leaf mesh, configuration (stencil width, prediction order), dimension", "why_tests_cant": "The closure is obtained by two loops over the levels feeding each other; a missing cell is read out of bounds only for particular geometries.", "anchors": ["include/samurai/mr/mesh.hpp:MRMesh::update_sub_mesh_impl"]}
{"id": "C56", "title": "The subdomain is the set of finest cells under the leaves", "statement": "The (sub)domain of a mesh built from its leaves is exactly the set of cells of level max_level that lie under a leaf.", "quantifier": "every leaf mesh, every range of levels, every dimension", "why_tests_cant": "Quantifies over all meshes and level gaps.", "anchors": ["include/samurai/mesh.hpp:Mesh_base::construct_subdomain"]}
{"id": "C57", "title": "One adaptation step keeps a valid mesh", "statement": "One step of the mesh adaptation (criteria, graduation of the tags, update of the mesh) on a mesh whose leaves tile the domain and are graded succeeds without reading out of bounds, and its new leaves tile exactly the same domain without overlap, with levels in [min_level, max_level], whatever the details are.", "quantifier": "every graded tiling of every domain that is a union of min_level cells, every outcome of the detail criteria, every iteration number, every graduation width, with or without enlarge, every dimension", "why_tests_cant": "The tags of the leaves interact through four passes over all the levels; a leaf lost or an overlap only shows for particular combinations of details.", "anchors": ["include/samurai/mr/adapt.hpp: Adapt::harten", "include/samurai/mr/operators.hpp: maximum, keep_around_refine, extend, balance_2to1, make_graduation, enlarge", "include/samurai/mr/criteria.hpp: to_coarsen_mr, to_refine_mr", "include/samurai/algorithm/update.hpp: update_field_mr"]}
{"id": "C58", "title": "The mesh stays graded through any history of adaptations", "statement": "For every sequence of calls of the adaptation, with any changes of the field in between, every call succeeds and the leaves always tile the domain, do not overlap and are graded: leaves that touch (also by a corner) differ by at most one level.", "quantifier": "every finite sequence of calls of MRadaptation(eps, regularity), all fields, all graduation widths, dimensions 1 to 3", "why_tests_cant": "Unbounded histories; a grading defect appears only after several adaptations with moving fronts.", "anchors": ["include/samurai/mr/adapt.hpp: Adapt::operator(), Adapt::harten", "include/samurai/samurai_config.hpp: graduation_width"]}
{"id": "C59", "title": "The adaptation conserves the integral of the field", "statement": "A call of the adaptation leaves the integral of the field over the domain unchanged.", "quantifier": "every graded mesh, field, prediction order, outcome of the criteria, dimensions 1 to 3", "why_tests_cant": "All fields and all refinement patterns.", "anchors": ["include/samurai/mr/adapt.hpp: Adapt::operator()", "include/samurai/algorithm/update.hpp: update_field_mr"]}
{"id": "C60", "title": "Large details are refined", "statement": "In one step of the adaptation, every leaf whose detail is above the refinement threshold, of a level below max_level that the iteration looks at, is replaced by its 2^dim children.", "quantifier": "every graded tiling, every outcome of the detail criteria, every iteration, every graduation width, with or without enlarge, every dimension", "why_tests_cant": "A later pass of the graduation could overwrite the flag for some geometries only.", "anchors": ["include/samurai/mr/adapt.hpp: Adapt::harten", "include/samurai/mr/criteria.hpp: to_refine_mr"]}
{"id": "C61", "title": "Only small details are coarsened", "statement": "In one step of the adaptation a leaf is replaced by its parent only if the details of the whole family are below the coarsening threshold, the detail of the parent is below its threshold, and the level of the leaf is above min_level.", "quantifier": "every graded tiling, every outcome of the detail criteria, every iteration, every graduation width, with or without enlarge, every dimension", "why_tests_cant": "All combinations of details of a family and its neighbours.", "anchors": ["include/samurai/mr/adapt.hpp: Adapt::harten", "include/samurai/mr/criteria.hpp: to_coarsen_mr"]}
{"id": "C62", "title": "No spurious refinement", "statement": "With graduation width 1 and without enlarge, on a graded mesh, when no leaf has a detail above the refinement threshold no leaf is refined.", "quantifier": "every graded tiling, every dimension, every outcome of the other criteria", "why_tests_cant": "The graduation passes add refine flags from keep flags; that none hits a leaf depends on the grading of the whole mesh.", "anchors": ["include/samurai/mr/adapt.hpp: Adapt::harten", "include/samurai/mr/operators.hpp: make_graduation"]}
{"id": "C63", "title": "Small families are coarsened", "statement": "With graduation width 1 and without enlarge, when no leaf has a detail above the refinement threshold, every family of leaves with small details (and a small detail of the parent) is replaced by its parent, unless a finer leaf is close to it.", "quantifier": "every graded tiling, every dimension, every field", "why_tests_cant": "A keep flag spread too far by one of the passes would only make meshes larger than needed.", "anchors": ["include/samurai/mr/adapt.hpp: Adapt::harten", "include/samurai/mr/operators.hpp: maximum, balance_2to1"]}
{"id": "C64", "title": "Applying a flux scheme sums the fluxes through the interfaces of each cell", "statement": "Applying an explicit flux-based scheme to a field succeeds, and its value on each leaf is the inverse of the volume times the sum of the fluxes through all the interfaces of the leaf, each counted once, with the measure of the finer side and the flux computed from the stencil cells at the finer level; boundary interfaces are included on request; ghost cells stay at zero.", "quantifier": "every graded mesh, every flux function, every stencil that fits in the ghost width, every field, every dimension", "why_tests_cant": "Every combination of interval boundaries, level jumps and directions; one interface missed or counted twice changes only some cells.", "anchors": ["include/samurai/schemes/fv/flux_based/explicit_flux_based_scheme__nonlin.hpp", "include/samurai/schemes/fv/flux_based/flux_based_scheme__nonlin.hpp: for_each_interior_interface, for_each_boundary_interface, contribution", "include/samurai/schemes/fv/explicit_FV_scheme.hpp: apply_to"]}
{"id": "C65", "title": "The interval implementation of linear schemes equals the cell by cell one", "statement": "Applying a linear homogeneous flux-based scheme gives the same output as applying, interface by interface, the flux function that sums the coefficients of the stencil times the field: with one thread and with several, whatever their schedule; its internal assertions on interval sizes never fail. The output depends linearly on the field and the scheme is conservative.", "quantifier": "every graded mesh, every coefficient function of the cell length, every stencil that fits in the ghost width, every field, every dimension, every schedule", "why_tests_cant": "The implementation loops over intervals of cells and its two branches depend on the number of threads and on the parity of intervals at level jumps; tests compare a few fields on a few meshes.", "anchors": ["include/samurai/schemes/fv/flux_based/explicit_flux_based_scheme__lin_hom.hpp", "include/samurai/schemes/fv/flux_based/flux_based_scheme__lin_hom.hpp: for_each_interior_interface, for_each_boundary_interface"]}
{"id": "C66", "title": "The provided operators are the finite volume formulas they name", "statement": "On a leaf that lies between leaves of its level, the diffusion, multi-component diffusion, Laplacian, gradient, divergence and upwind convection operators give the classical difference formulas: second differences, centred differences and upwind differences of the field, for each component, at every level; they are exact for quadratic functions (upwind: affine functions). Upwind convection of a vector field advects each of its components.", "quantifier": "every graded mesh, field, number of components, coefficient, velocity, dimension, level", "why_tests_cant": "The coefficients are filled in matrices per direction; a wrong row, column or sign only shows for vector fields or particular velocities, and tests use a few cases.", "anchors": ["include/samurai/schemes/fv/operators/diffusion.hpp: make_diffusion_order2, make_multi_diffusion_order2, make_laplacian_order2", "include/samurai/schemes/fv/operators/gradient.hpp: make_gradient_order2", "include/samurai/schemes/fv/operators/divergence.hpp: make_divergence_order2", "include/samurai/schemes/fv/operators/convection_lin.hpp: make_convection_upwind"]}
{"id": "C67", "title": "Schemes preserve uniform states", "statement": "If the flux in each direction is the same through all the interfaces (for instance because the field is uniform), a conservative flux-based scheme with boundary fluxes gives zero on every leaf, also next to level jumps and at the boundary; without boundary fluxes, on every leaf that does not touch the boundary.", "quantifier": "every graded mesh, every configuration of levels around a leaf, every flux function, stencil and dimension", "why_tests_cant": "The areas of the interfaces on the two sides of a leaf must match for all the configurations of the neighbours.", "anchors": ["include/samurai/schemes/fv/flux_based/explicit_flux_based_scheme__nonlin.hpp: apply", "include/samurai/schemes/fv/flux_based/explicit_flux_based_scheme__lin_hom.hpp: apply", "include/samurai/interface.hpp"]}
{"id": "C68", "title": "Algebra of schemes", "statement": "Applying s * scheme, -scheme, scheme1 + scheme2 and a sum of operators to a field gives s times the output, the opposite of the output and the sums of the outputs.", "quantifier": "every graded mesh, field, scalar, pair of schemes of the same configuration, list of operators", "why_tests_cant": "All pairs of schemes: stencils, boundary treatment and coefficient functions.", "anchors": ["include/samurai/schemes/fv/flux_based/algebraic_operators.hpp: operator*, operator-, operator+", "include/samurai/schemes/fv/explicit_operator_sum.hpp", "include/samurai/schemes/fv/scheme_operators.hpp"]}
{"id": "C69", "title": "Linear heterogeneous schemes", "statement": "Applying a linear scheme whose coefficients depend on the cells (diffusion with a field of coefficients, convection with a velocity field) gives the same output as the flux function that applies these coefficients interface by interface; the scheme is conservative and linear in the field.", "quantifier": "every graded mesh, every coefficient function of the cells, every stencil that fits in the ghost width, every field, every dimension", "why_tests_cant": "All meshes, level jumps and coefficient fields.", "anchors": ["include/samurai/schemes/fv/flux_based/explicit_flux_based_scheme__lin_het.hpp: apply", "include/samurai/schemes/fv/flux_based/flux_based_scheme__lin_het.hpp: for_each_interior_interface_and_coeffs, for_each_boundary_interface_and_coeffs", "include/samurai/schemes/fv/operators/diffusion.hpp", "include/samurai/schemes/fv/operators/convection_lin.hpp", "include/samurai/schemes/fv/operators/convection_nonlin.hpp"]}
{"id": "C70", "title": "Mirror symmetry of the provided operators", "statement": "The provided operators give mirror images for mirror images: diffusion of the mirror image of a field (and of its coefficients) is the mirror image of the diffusion, and convection with the opposite velocity of the mirror image is the mirror image of the convection.", "quantifier": "every graded mesh, field, field of coefficients, velocity, dimension", "why_tests_cant": "All fields and coefficient fields; tests with symmetric or constant coefficients cannot see which side a coefficient is read on.", "anchors": ["include/samurai/schemes/fv/operators/diffusion.hpp: make_diffusion_order2", "include/samurai/schemes/fv/operators/convection_lin.hpp: make_convection_upwind", "include/samurai/schemes/fv/operators/convection_nonlin.hpp: make_convection_upwind"]}
{"id": "C71", "title": "Boundary conditions impose their values", "statement": "update_bc(level, field) succeeds on every mesh whose domain is a box, and every ghost of the level on which a boundary condition acts gets the value of the last condition that acts on it: for Dirichlet<order> (orders 1 to 4) the ghost is on the polynomial of degree order through the boundary value and the order inner cells of its line; for Neumann<1> the difference quotient across the boundary is the given value.", "quantifier": "every box domain, mesh, level, dimension, number and order of boundary conditions, regions, boundary value functions, fields", "why_tests_cant": "The ghosts are filled by several passes over sets of cells for each direction, layer and condition; all the orders of application and all the mesh shapes.", "anchors": ["include/samurai/bc.hpp: update_bc, apply_bc_impl, Dirichlet, Neumann"]}
{"id": "C72", "title": "Regions of boundary conditions", "statement": "The region of a boundary condition given by directions, by a function of the coordinates, or by default, holds for each direction along an axis exactly the cells of the domain whose neighbour in this direction is outside the domain (and whose face satisfies the function).", "quantifier": "every domain (not only boxes), dimensions 1 to 3, all lists of directions and all functions", "why_tests_cant": "All shapes of domains.", "anchors": ["include/samurai/bc.hpp: Everywhere::get_region, OnDirection::get_region, CoordsRegion::get_region"]}
{"id": "C73", "title": "Boundary conditions change ghosts only", "statement": "update_bc(level, field) changes neither a leaf nor a cell of another level nor a cell inside the domain.", "quantifier": "every box domain, mesh, level, dimension, list of boundary conditions, field", "why_tests_cant": "All shapes of meshes and all lists of conditions.", "anchors": ["include/samurai/bc.hpp: update_bc, apply_extrapolation_bc_impl"]}
{"id": "C74", "title": "Ghosts beyond the conditions are extrapolated", "statement": "After update_bc(level, field), the ghosts further than those of the boundary conditions, up to the third, and in dimension 2 the ghosts on the diagonals of the corners, are on the polynomial of degree 2k-2 through the 2k-1 cells before them on their line, with their final values.", "quantifier": "every box domain, mesh, level, dimension, list of boundary conditions, field", "why_tests_cant": "The layers are filled one after the other and read the ghosts of other passes; that the values read are the final ones must hold for all meshes.", "anchors": ["include/samurai/bc.hpp: update_bc, update_extrapolation_bc, PolynomialExtrapolation"]}
{"id": "C75", "title": "All the ghosts outside the domain get a value", "statement": "After update_bc(level, field), every cell of the reference mesh of this level outside the domain has a value computed from the field and the conditions.", "quantifier": "every box domain, mesh, level, dimension, list of boundary conditions, field", "why_tests_cant": "A ghost that is never written keeps what was in memory; tests on particular schemes do not read it.", "anchors": ["include/samurai/bc.hpp: update_bc, apply_extrapolation_bc_impl"]}
{"id": "C76", "title": "update_ghost_mr gives every cell of the mesh the value it must have", "statement": "After update_ghost_mr(field) on an adapted multiresolution mesh: the leaves have the values they had; each cell covered by finer leaves has the mean of its children; each cell inside a coarser leaf has the value predicted from the level below; the ghosts outside the domain satisfy the boundary conditions or the extrapolation on every level; all with the final values. No cell outside the mesh is read or written.", "quantifier": "every graded mesh of leaves that tile a box domain, default configuration, dimension, list of boundary conditions, field", "why_tests_cant": "The projection, the boundary conditions and the prediction run level by level and read each other's results; the order must be right for every arrangement of levels.", "anchors": ["include/samurai/algorithm/update.hpp: update_ghost_mr", "include/samurai/numeric/projection.hpp", "include/samurai/numeric/prediction.hpp", "include/samurai/bc.hpp: update_bc"]}
{"id": "C77", "title": "Ghost values are functions of the leaf values", "statement": "With boundary conditions on the whole boundary, two fields that agree on the leaves agree, after update_ghost_mr, on every cell of the mesh inside the domain and next to it, whatever values the ghosts had before.", "quantifier": "every graded mesh of leaves that tile a box domain, default configuration, dimension, boundary conditions, pair of fields", "why_tests_cant": "A stale ghost value that enters a prediction gives a plausible result; the tests start from fields filled everywhere.", "anchors": ["include/samurai/algorithm/update.hpp: update_ghost_mr", "include/samurai/bc.hpp: update_bc, apply_extrapolation_bc_impl"]}
{"id": "C78", "title": "Ghost update on periodic adapted meshes", "statement": "On a multiresolution mesh of a domain periodic in all the directions, whose leaves are graded also across the periodic boundaries, update_ghost_mr succeeds and leaves consistent values: leaves unchanged, covered cells the mean of their children, cells inside coarser leaves predicted from the level below, cells next to the domain equal to the cells periodicity identifies with them. The result depends only on the values on the leaves.", "quantifier": "all adapted leaf sets on a periodic box, all levels, all dimensions 1 to 3, all fields, all lists of boundary conditions", "why_tests_cant": "the passes read ghosts written by other passes on other levels and across the periodic boundaries; tests compare a few fields on a few meshes", "anchors": ["include/samurai/algorithm/update.hpp: update_ghost_mr, update_ghost_periodic", "include/samurai/mr/mesh.hpp: update_sub_mesh_impl", "include/samurai/bc.hpp: update_bc"]}
{"id": "C79", "title": "adaptation of AMR meshes keeps them graded tilings and conserves the field", "statement": "For an AMR mesh whose leaves tile the domain without overlap and are graded, any number of turns of the adaptation loop of the AMR programs (graduation(tag, stencil) then update_field(tag, field)) succeed, whatever the criterion chose as long as it flags every leaf: the leaves still tile the domain without overlap, have levels in [min_level, max_level] and are graded (through faces for the star stencil, through corners for the diagonal stencil). graduation only adds flags: refine and keep become the least sets closed under its rules (neighbours across a level jump, parents of leaves, siblings, cells around a leaf to refine). In each turn kept leaves keep their values, coarsened leaves get the mean of their children, refined leaves give predicted values, and the integral of the field does not change.", "quantifier": "all AMR meshes, domains, stencils reaching the neighbours, tags that flag every leaf, fields, sequences of turns; dimensions 1 to 3", "why_tests_cant": "a missing rule breaks the tiling only for particular combinations of tags on neighbouring leaves of several levels, after several turns; the demos run a few criteria", "anchors": ["include/samurai/algorithm/graduation.hpp: graduation, graduate_op", "include/samurai/algorithm/utils.hpp: tag_to_keep, keep_children_together", "include/samurai/algorithm/update.hpp: update_field", "demos/FiniteVolume/AMR_Burgers_Hat.cpp: main", "demos/FiniteVolume/level_set.cpp: main"]}
{"id": "C80", "title": "Saved files describe the mesh and the field", "statement": "For every mesh of dimension 1, 2 or 3, with any number of cells and levels, saving it (whole or level by level) produces a connectivity array with one row per cell, in the order of the rows of the data array of a field: the row of a cell in the data is the value of the field in that cell, its row in the connectivity holds the numbers of its 2^dim corners in the order of the XDMF element, and the coordinates stored for these numbers are the corners of the cell. Corners shared by several cells are stored once and no stored point is unused.", "quantifier": "all well formed cell arrays and level cell arrays in dimensions 1 to 3, all fields, all origins and scaling factors", "why_tests_cant": "the numbering of the points depends on the whole history of the visited cells; tests only look at files of a few meshes", "anchors": ["include/samurai/hdf5.hpp: extract_coords_and_connectivity, extract_data, get_element"]}
{"id": "C81", "title": "The assembled matrix computes the explicit scheme", "statement": "For every linear flux-based scheme (coefficients depending on the cell length, or on the cells), every number of components, every storage layout of the fields and every position of the operator in a block matrix: the product of the assembled matrix by the vector of a field whose ghosts satisfy the elimination relations equals the vector of the field obtained by applying the scheme explicitly, boundary interfaces included or not. Coefficients appear only in the rows of the leaves and in the columns of the cells of the mesh.", "quantifier": "all graded meshes in any dimension, all linear schemes and stencils fitting in the ghosts, all fields and layouts, all elimination relations", "why_tests_cant": "the same scheme is implemented twice (explicit loops and matrix assembly); tests compare them on a few fields and meshes", "anchors": ["include/samurai/petsc/fv/flux_based_scheme_assembly.hpp: assemble_scheme", "include/samurai/petsc/fv/FV_scheme_assembly.hpp: col_index, row_index", "include/samurai/schemes/fv/flux_based/flux_based_scheme__lin_hom.hpp", "include/samurai/schemes/fv/flux_based/flux_based_scheme__lin_het.hpp"]}
{"id": "C82", "title": "Elimination of the ghosts in implicit schemes", "statement": "For every graded multiresolution mesh, every stencil width and prediction order, the recursive substitution that expresses the ghosts by other unknowns terminates; it eliminates exactly the ghosts one of whose children is a leaf and the ghosts whose parent is a leaf; each is expressed by unknowns that are not eliminated; and for every field the resulting relations hold if and only if the ghosts of the first kind hold the mean of their children and those of the second kind the tensor product prediction from the neighbours of their parent.", "quantifier": "all graded meshes in any dimension, all stencil widths, orders 0 to 5, all fields", "why_tests_cant": "the number of substitutions depends on the chain of levels of the mesh; tests only run small meshes", "anchors": ["include/samurai/petsc/fv/FV_scheme_assembly.hpp: ghost_recursion, prediction_linear_combination", "include/samurai/indices.hpp: for_each_projection_ghost_and_children_cells, for_each_prediction_ghost", "include/samurai/numeric/prediction.hpp: interp_coeffs"]}
{"id": "C83", "title": "Implicit and explicit application of a scheme agree after the ghost update", "statement": "For every graded multiresolution mesh and every linear flux-based scheme, after the ghosts of a field are updated the product of the assembled matrix by the vector of the field is the result of the explicit application of the scheme to the field.", "quantifier": "all graded meshes in any dimension, all linear schemes, all fields, all boundary conditions", "why_tests_cant": "explicit ghost update and matrix elimination are two implementations of the same interpolation; a difference only shows on adapted meshes of dimension 2 or more near a jump of level", "anchors": ["include/samurai/petsc/fv/flux_based_scheme_assembly.hpp: assemble_scheme", "include/samurai/algorithm/update.hpp: update_ghost_mr", "include/samurai/numeric/prediction.hpp: prediction_op"]}
{"id": "C84", "title": "The linear system of an implicit scheme is the scheme with its boundary conditions", "statement": "For every graded multiresolution mesh of a box, every linear flux-based scheme with a two-cell stencil, every right-hand side and every list of Dirichlet and Neumann conditions of order 1: a vector solves the assembled linear system if and only if the scheme gives the right-hand side in every leaf (ghosts at level jumps interpolated), the ghost of every boundary face satisfies the condition that the explicit schemes impose there (the last one if there are several), and all remaining unknowns are zero.", "quantifier": "all graded meshes of boxes in dimension 1 to 3, all two-cell linear schemes, all boundary conditions, all layouts of the unknowns, all vectors", "why_tests_cant": "a wrong row only shows as a wrong solution; a test solves one system on one mesh and compares with a tolerance", "anchors": ["include/samurai/petsc/matrix_assembly.hpp: create_matrix, assemble_matrix", "include/samurai/petsc/fv/FV_scheme_assembly.hpp: assemble_boundary_conditions, enforce_bc, insert_value_on_diag_for_useless_ghosts, set_0_for_useless_ghosts", "include/samurai/petsc/linear_solver.hpp: prepare_rhs_and_solve", "include/samurai/schemes/fv/FV_scheme.hpp: dirichlet_config, init_dirichlet_config"]}
{"id": "C85", "title": "Implicit and explicit schemes have the same solutions", "statement": "For every graded multiresolution mesh, every linear flux-based scheme with a two-cell stencil, every right-hand side and Dirichlet and Neumann conditions of order 1 on the whole boundary: the values of a field in the leaves are those of a solution of the assembled linear system if and only if updating the ghosts of the field with the same conditions and applying the scheme explicitly gives the right-hand side in every leaf.", "quantifier": "all graded meshes in any dimension, all linear schemes, all boundary values, all right-hand sides and fields", "why_tests_cant": "the system has unknowns in the ghosts, rows for conditions and eliminated ghosts; that its leaf values are those of the explicit operator must hold for every mesh and field, tests solve a few problems", "anchors": ["include/samurai/petsc/fv/flux_based_scheme_assembly.hpp", "include/samurai/petsc/fv/FV_scheme_assembly.hpp: assemble_boundary_conditions, enforce_bc, enforce_projection_prediction", "include/samurai/algorithm/update.hpp: update_ghost_mr", "include/samurai/schemes/fv/flux_based/explicit_flux_based_scheme__lin_hom.hpp"]}
{"id": "C86", "title": "Cell-based schemes compute what their stencils say, and their algebra is pointwise", "statement": "For every graded mesh with its ghosts and every field: applying a linear cell-based scheme gives, in every leaf of level l, the sum of its coefficients at the cell length of l times the values of the field in the cells of the stencil around the leaf, and 0 in the other cells; applying a non-linear one gives the value of its function on the cells of the stencil; the output of s * scheme, -scheme, scheme1 + scheme2 and scheme1 - scheme2 is the same combination of the outputs; make_identity gives the field back in the leaves, make_zero_operator gives 0 and the former diffusion operator gives the sum over the directions of (2 u - u_after - u_before) / h^2.", "quantifier": "all graded meshes with their ghosts, all stencils that contain their centre, all coefficients and functions, all fields", "why_tests_cant": "the sums run over all the cells of all the levels of arbitrary adapted meshes and over arbitrary stencils; a test fixes one mesh, one stencil and one field", "anchors": ["include/samurai/schemes/fv/cell_based/cell_based_scheme.hpp: CellBasedScheme", "include/samurai/schemes/fv/cell_based/cell_based_scheme__lin_hom.hpp", "include/samurai/schemes/fv/cell_based/cell_based_scheme__nonlin.hpp", "include/samurai/schemes/fv/cell_based/explicit_cell_based_scheme.hpp: apply", "include/samurai/schemes/fv/cell_based/algebraic_operators.hpp: operator*, operator+", "include/samurai/schemes/fv/operators/diffusion_old.hpp: make_diffusion_old", "include/samurai/schemes/fv/operators/identity.hpp: make_identity", "include/samurai/schemes/fv/operators/zero_operator.hpp: make_zero_operator", "include/samurai/stencil.hpp: for_each_stencil"]}
{"id": "C87", "title": "The matrices of cell-based schemes and of sums of schemes are those of their explicit application", "statement": "For every graded mesh and every linear cell-based scheme: the product of the assembled matrix and of the vector of any field is the explicit application of the scheme to this field. For every sum of linear flux-based and cell-based schemes, on every field whose ghosts at the level jumps have the values of the projection and of the prediction: the product of the assembled matrix and of the vector of the field is the explicit application of the sum.", "quantifier": "all graded multiresolution meshes, both layouts of the fields, all stencils, coefficients, numbers of components and shifts of the rows and columns, all fields", "why_tests_cant": "the coefficients are added in rows computed from the numbers of the cells, over all the cells of arbitrary meshes and arbitrary lists of operators", "anchors": ["include/samurai/petsc/fv/cell_based_scheme_assembly.hpp: assemble_scheme", "include/samurai/petsc/fv/operator_sum_assembly.hpp: assemble_scheme", "include/samurai/petsc/fv/flux_based_scheme_assembly.hpp: assemble_scheme", "include/samurai/schemes/fv/cell_based/explicit_cell_based_scheme.hpp: apply", "include/samurai/schemes/fv/explicit_operator_sum.hpp: apply"]}
{"id": "C88", "title": "The linear systems of sums of schemes are the implicit equations", "statement": "For every graded multiresolution mesh of a box and every sum of linear schemes, in particular id + dt * scheme: a vector solves the linear system that the library assembles if and only if the explicit application of the sum to the field, with its ghosts at the level jumps interpolated, gives the right-hand side in every leaf, every ghost next to the boundary satisfies its boundary condition and the other cells are 0.", "quantifier": "all graded multiresolution meshes of a box in dimensions 1 to 3, all nonempty sums of flux-based schemes with two-cell stencils and of cell-based schemes, all right-hand sides, all Dirichlet and Neumann conditions of order 1", "why_tests_cant": "an equivalence between the solutions of a linear system of arbitrary size and a statement on fields of arbitrary adapted meshes", "anchors": ["include/samurai/petsc/fv/operator_sum_assembly.hpp: OperatorSum assembly", "include/samurai/petsc/fv/cell_based_scheme_assembly.hpp: assemble_scheme", "include/samurai/petsc/fv/FV_scheme_assembly.hpp: assemble_boundary_conditions, enforce_bc", "include/samurai/petsc/matrix_assembly.hpp: assemble_matrix", "include/samurai/schemes/fv/operators/identity.hpp: make_identity"]}
{"id": "C89", "title": "The matrix of a block operator is the block operator", "statement": "For every graded mesh and every block operator (any number of rows and columns, sums of linear schemes or 0 in the blocks), on fields whose ghosts at the level jumps have the values of the projection and of the prediction: the product of the monolithic matrix and of the vector of the unknowns is the vector of the results, where the row r is the sum over the columns of the explicit application of the block (r, c) to the field c.", "quantifier": "all graded multiresolution meshes, all block operators of linear schemes, all sizes and layouts of the unknowns, all fields", "why_tests_cant": "the shifts of the blocks depend on the sizes of all the blocks before; tests assemble one 2x2 Stokes operator", "anchors": ["include/samurai/petsc/block_assembly.hpp:BlockAssembly", "include/samurai/petsc/zero_block_assembly.hpp:Assembly<int>", "include/samurai/schemes/block_operator.hpp:BlockOperator", "include/samurai/petsc/fv/FV_scheme_assembly.hpp:row_index"]}
{"id": "C90", "title": "The linear system of a block operator is the system of equations of its rows", "statement": "For every graded multiresolution mesh of a box and every square block operator: a vector solves the monolithic linear system (matrix and prepared right-hand side) if and only if, in every leaf and for every row, the sum of the explicit applications of the blocks gives the right-hand side of this row, every boundary ghost of every unknown satisfies the boundary condition attached to this unknown, and the other ghosts are 0.", "quantifier": "all graded multiresolution meshes of a box in dimensions 1 to 3, all square block operators, all boundary values and right-hand sides", "why_tests_cant": "the conditions of one unknown must not touch the rows of another one and this depends on the shifts of all the blocks; a test sees one mesh", "anchors": ["include/samurai/petsc/block_assembly.hpp:BlockAssembly", "include/samurai/petsc/zero_block_assembly.hpp:Assembly<int>", "include/samurai/schemes/block_operator.hpp:BlockOperator", "include/samurai/petsc/fv/FV_scheme_assembly.hpp:row_index"]}
{"id": "C91", "title": "Monolithic and nested block systems are the same", "statement": "For every graded multiresolution mesh of a box and every square block operator: the coefficient of the monolithic matrix in the row i of the block row r and in the column j of the block column c is the coefficient (i, j) of the block (r, c) of the nested matrix, and the prepared right-hand sides have the same values.", "quantifier": "all graded multiresolution meshes of a box in dimensions 1 to 3, all square block operators, all layouts of the unknowns, all boundary values and right-hand sides", "why_tests_cant": "two assembly paths over every mesh and operator; tests compare one product of one matrix", "anchors": ["include/samurai/petsc/block_assembly.hpp:BlockAssembly", "include/samurai/petsc/zero_block_assembly.hpp:Assembly<int>", "include/samurai/schemes/block_operator.hpp:BlockOperator", "include/samurai/petsc/fv/FV_scheme_assembly.hpp:row_index"]}
{"id": "C92", "title": "Block vectors are the unknowns one after the other", "statement": "For every block operator and every list of fields: the vectors made from the unknowns and from the right-hand sides hold the arrays of the fields one after the other at the places that the matrix uses, copying a solution or a product back gives each field its part, and the sets of numbers given to the field-split preconditioner are the numbers of the unknowns of each field.", "quantifier": "all block operators, all sizes and layouts of the fields, all values", "why_tests_cant": "the places depend on the sizes of all the fields; a test with two fields sees one offset", "anchors": ["include/samurai/petsc/block_assembly.hpp:create_fields_IS", "include/samurai/petsc/utils.hpp:copy", "include/samurai/petsc/linear_block_solver.hpp:set_pc_fieldsplit"]}
{"id": "C93", "title": "Every place written in a matrix was announced", "statement": "For every graded mesh, every linear scheme or sum of linear schemes with its boundary conditions: the number of non-zeros that is announced to PETSc for a row, before the assembly, is at least the number of distinct columns where the assembly writes in this row, and all the coefficients of the matrix that are not 0 are at places that are written. So PETSc never refuses an insertion.", "quantifier": "all graded multiresolution meshes, all sums of linear flux-based and cell-based schemes, all boundary conditions, both layouts of the fields", "why_tests_cant": "the counts depend on the levels of the neighbours and on the interpolation of the ghosts, and a row that is one place short stops the program only on the meshes where all the places are used", "anchors": ["include/samurai/petsc/matrix_assembly.hpp:create_matrix", "include/samurai/petsc/fv/flux_based_scheme_assembly.hpp:sparsity_pattern_scheme", "include/samurai/petsc/fv/cell_based_scheme_assembly.hpp:sparsity_pattern_scheme", "include/samurai/petsc/fv/operator_sum_assembly.hpp:sparsity_pattern_scheme", "include/samurai/petsc/fv/FV_scheme_assembly.hpp:sparsity_pattern_boundary"]}
{"id": "C94", "title": "The equation of the Newton solver is that of the explicit scheme, and its Jacobian matrix is the derivative", "statement": "For every graded mesh and every non-linear flux-based scheme: (1) the vector that the Newton solver evaluates is equal to the prepared right-hand side if and only if the explicit scheme, applied after the update of the ghosts, gives the right-hand side in all the leaves; (2) when the Jacobian functions of the user are the derivatives of their flux functions, the product of the assembled Jacobian matrix and of a vector is the derivative of the explicit scheme in the direction of this vector, in all the leaves.", "quantifier": "all graded multiresolution meshes (on a box for (1)), all non-linear flux-based schemes, conservative or not, all fields and all directions, all boundary conditions", "why_tests_cant": "the derivative is for all fields and directions, and the contributions differ at level jumps, at the boundary and where ghosts are eliminated", "anchors": ["include/samurai/petsc/nonlinear_solver.hpp:PETSC_nonlinear_function", "include/samurai/petsc/nonlinear_solver.hpp:prepare_rhs", "include/samurai/petsc/fv/flux_based_scheme_assembly.hpp:assemble_scheme", "include/samurai/schemes/fv/flux_based/flux_based_scheme__nonlin.hpp:for_each_interior_interface_and_coeffs", "include/samurai/schemes/fv/flux_based/flux_definition.hpp:NormalFluxDefinition"]}
{"id": "C95", "title": "The matrix of the Newton solver is the derivative of its function", "statement": "At each iterate of the Newton solver, in every direction that satisfies the homogeneous boundary conditions, the derivative of the vector that the solver evaluates is, in the rows of the leaves, the product of the direction and of the matrix that the solver assembles at this iterate.", "quantifier": "all graded multiresolution meshes of dimension 1 on an interval with conditions on the whole boundary, all non-linear flux-based schemes whose stencil has two cells, all iterates and directions", "why_tests_cant": "the two callbacks update the ghosts of the iterate in different ways, so that it depends on the values of the ghosts at all the previous iterates", "anchors": ["include/samurai/petsc/nonlinear_solver.hpp:PETSC_nonlinear_function", "include/samurai/petsc/nonlinear_solver.hpp:PETSC_jacobian_function", "include/samurai/bc.hpp:update_bc", "include/samurai/algorithm/update.hpp:update_ghost_mr"]}
{"id": "C96", "title": "Assigning an expression of fields sets every leaf to the value of the expression in this cell", "statement": "`field = expression`, the expression being built from fields, numbers and element-wise functions, succeeds, gives to each component of each leaf of the field the value of the functions at the values that the operands had in this same cell before the assignment (each in its own mesh), and changes neither the ghosts of the field nor any other field.", "quantifier": "all meshes, all fields with the same number of components or one, both layouts, all expressions of any depth, all element-wise functions, also if the field is one of the operands", "why_tests_cant": "the rows of the operands are found by binary search in different meshes and the arrays are combined by the broadcasting rules of xtensor, which depend on the lengths of the rows", "anchors": ["include/samurai/field.hpp:Field::operator=(const field_expression<E>&)", "include/samurai/field.hpp:Field::get_interval", "include/samurai/field_expression.hpp:field_function"]}
{"id": "C97", "title": "A field made from a function has its values at the centres of the leaves, and L2_error is the distance to it", "statement": "`make_field(name, mesh, f)` gives f(centre) to each leaf and 0 to the other cells. `L2_error(field, exact)` is the square root of the sum over the leaves, each counted once, of the volume times the square of the norm of exact(centre) minus the value; the relative error is its quotient by the norm of exact. The error is 0 exactly if the field has the values of exact at all the centres. Two fields on a mesh are equal exactly if they differ by at most 1e-15 in all the leaves.", "quantifier": "all adapted meshes in dimension 1 to 3, all functions, all numbers of components", "why_tests_cant": "a leaf counted twice or missed is visible only on some meshes", "anchors": ["include/samurai/field.hpp:make_field", "include/samurai/field.hpp:operator==", "include/samurai/numeric/error.hpp:L2_error"]}
{"id": "C98", "title": "The Gauss-Legendre quadrature integrates the polynomials of its degree", "statement": "`GaussLegendre<degree>().quadrature<1>(cell, f)` is the integral of f over the cell, up to 1e-14 relatively to the size of the coefficients, for every polynomial f of degree at most `degree` in each variable.", "quantifier": "all degrees, all cells in dimension 1 to 3, all polynomials", "why_tests_cant": "there are 20 tables of points and weights, and a wrong digit or a wrong pairing of a point and a weight is visible only for some polynomials", "anchors": ["include/samurai/numeric/gauss_legendre.hpp:GaussLegendre::quadrature", "include/samurai/numeric/gauss_legendre.hpp:GaussLegendre::init"]}
{"id": "C99", "title": "The details of the adaptation are the differences with the prediction", "statement": "For the mesh of an adaptation, the detail of each sibling of a leaf of a level the iteration looks at, and of each parent of such a leaf, is the value of the cell minus the value predicted from the cells of the coarser level; the detail of every other cell is 0; every value read belongs to a cell of the mesh.", "quantifier": "all adapted meshes in dimension 1 to 3, all prediction orders, all fields, all iterations", "why_tests_cant": "the cells that need a ghost, two levels or a neighbour that is not a leaf depend on the whole mesh", "anchors": ["include/samurai/mr/operators.hpp:compute_detail_op", "include/samurai/mr/adapt.hpp:Adapt::harten"]}
{"id": "C100", "title": "The adaptation compares the details with the thresholds of the levels", "statement": "In each step of the adaptation with eps and a regularity, a leaf whose detail is above 2^(regularity + dim) eps_l is refined; a leaf is replaced by its parent only if the details of the whole family are below eps_l and the detail of the parent is below its own threshold; eps_l is eps / 2^(dim (max_level - l)); the fields are transferred with the values after the update of the ghosts.", "quantifier": "all adapted meshes on a box, all fields, all boundary conditions, all eps and regularities, all levels", "why_tests_cant": "the thresholds depend on the level and only some cells of some meshes are close to them; the shift overflows only with many levels", "anchors": ["include/samurai/mr/adapt.hpp:Adapt::harten", "include/samurai/mr/criteria.hpp:to_coarsen_mr", "include/samurai/mr/criteria.hpp:to_refine_mr"]}
{"id": "C101", "title": "A uniform field is adapted to the coarsest mesh", "statement": "If the field is uniform and the boundary conditions hold for it, the adaptation gives the mesh of all the cells of level min_level of the domain, whatever the initial mesh is, and the field keeps its value.", "quantifier": "all adapted meshes on a box, all uniform fields with consistent boundary conditions, all positive eps", "why_tests_cant": "it takes one iteration per level, and every step must coarsen every finest family of every reachable mesh", "anchors": ["include/samurai/mr/adapt.hpp:Adapt::operator()", "include/samurai/algorithm/update.hpp:update_ghost_mr"]}
{"id": "C102", "title": "A time loop with adaptation never reads a missing cell and conserves the integral", "statement": "For every sequence of turns of a time loop, each changing the field and then adapting the mesh (ghosts, details, thresholds, graduation, refinement, coarsening), every adaptation succeeds, the leaves always tile the domain without overlap, are graded and have levels in [min_level, max_level]; and if the changes of the field conserve its integral over the leaves then the integral after any number of turns is the initial one.", "quantifier": "all adapted meshes of a box, all fields, all sequences of changes of the field, all eps and regularities, all boundary conditions", "why_tests_cant": "the mesh of each turn depends on the values of the field, so the histories are unbounded and cannot be enumerated", "anchors": ["include/samurai/mr/adapt.hpp: Adapt::operator(), Adapt::harten", "include/samurai/algorithm/update.hpp: update_ghost_mr, update_field_mr", "include/samurai/mr/criteria.hpp: to_coarsen_mr, to_refine_mr"]}
{"id": "C103", "title": "The update of the ghosts of an AMR mesh gives every ghost its value", "statement": "update_ghost(field) on an AMR mesh succeeds without reading a missing cell; afterwards the leaves have the values they had, each cell covered by finer leaves has the mean of its children, each cell inside a coarser leaf has the value predicted from the level below, there is no other cell of the mesh inside the domain, and on every level the ghosts outside satisfy the boundary conditions; all these relations hold between the final values.", "quantifier": "all AMR meshes with graded leaves of level at least 1 tiling a box, dimensions 1 to 3, all ghost widths, all prediction orders at most (ghost_width + 1) / 2, all fields and boundary conditions", "why_tests_cant": "the order of the passes over the levels matters only on meshes with several jumps, and one missing ghost is read only for particular arrangements of leaves", "anchors": ["include/samurai/algorithm/update.hpp:update_ghost", "include/samurai/amr/mesh.hpp:update_sub_mesh_impl"]}
{"id": "C104", "title": "The values after the update of the ghosts of an AMR mesh depend only on the leaves", "statement": "Two fields with the same values on the leaves have, after update_ghost, the same values on all the cells of the mesh inside the domain or next to it, whatever their ghosts held before.", "quantifier": "all AMR meshes with leaves graded through faces and corners tiling a box in dimension 1 and 2, all fields, all conditions of one ghost that cover the boundary", "why_tests_cant": "a ghost read before it is computed holds, in a test, the value of the last update, which is often close to the right one", "anchors": ["include/samurai/algorithm/update.hpp:update_ghost", "include/samurai/amr/mesh.hpp:update_sub_mesh_impl"]}
{"id": "C105", "title": "Time loops on AMR meshes always succeed and conserve the integral", "statement": "A program that, any number of times, changes its field, updates the ghosts, flags the leaves, calls graduation and update_field, never reads a cell that does not exist, keeps leaves that tile the domain, are graded and stay between the two levels, and conserves the integral of the field if its own changes do.", "quantifier": "all graded AMR meshes of a box in dimension 1 to 3, all sequences of turns, all fields, tags and boundary conditions", "why_tests_cant": "a missing cell or a lost amount of mass may appear only after many turns on one shape of mesh", "anchors": ["include/samurai/algorithm/update.hpp:update_ghost", "include/samurai/algorithm/graduation.hpp:graduation", "include/samurai/algorithm/update.hpp:update_field", "demos/FiniteVolume/AMR_Burgers_Hat.cpp:main"]}
{"id": "C106", "title": "Uniform fields stay uniform on AMR time loops", "statement": "A field with the same value on all the leaves, with boundary conditions that agree with it, has this value on all the leaves after any number of turns of ghost update, flagging, graduation and transfer, whatever its ghosts held.", "quantifier": "all AMR meshes graded through faces and corners of a box, all sequences of turns with any tags", "why_tests_cant": "a ghost with an old value leaks into a leaf only for some shapes of mesh and histories", "anchors": ["include/samurai/algorithm/update.hpp:update_ghost", "include/samurai/algorithm/update.hpp:update_field"]}
{"id": "C107", "title": "Explicit upwind steps with field expressions", "statement": "`unp1 = u - dt * upwind(a, u)` succeeds whenever the neighbours across faces of the leaves are cells of the mesh, gives each leaf its value minus dt/h times the sum over the directions of the upwind flux of its upper face minus that of its lower face, all read in u before the assignment, and changes no other cell and no other field. The sum over any set of leaves of one level changes only by the fluxes through its boundary. If dt times the sum of |a_d| is at most h, the new value of a leaf lies between the least and the greatest old value of the leaf and its neighbours.", "quantifier": "all dimensions, meshes, fields, velocities and time steps", "why_tests_cant": "a row read at a wrong offset or a flux with a wrong sign shows only for some shapes of mesh and velocities; the bounds hold for every field or not at all", "anchors": ["include/samurai/stencil_field.hpp:finite_volume", "include/samurai/stencil_field.hpp:upwind_op", "include/samurai/operators_base.hpp:field_operator_function", "include/samurai/field.hpp:Field::operator="]}
{"id": "C108", "title": "Flux of upwind_scalar_burgers", "statement": "`upwind_scalar_burgers(a, u)` uses, on each face, the Godunov flux of the flux function a u^2/2: its least value between the two states if they increase, its greatest value if they decrease.", "quantifier": "all velocities and all pairs of states", "why_tests_cant": "the cases (rarefaction through zero, shocks, signs, size of the velocity) are too many to sample, and the flux must be right for every pair of states", "anchors": ["include/samurai/stencil_field.hpp:upwind_scalar_burgers_op", "demos/FiniteVolume/scalar_burgers_2d.cpp"]}
{"id": "C109", "title": "Solvers never use a freed object of PETSc and leave none behind", "statement": "A program that builds solvers, sets their unknowns, assembles, sets up, solves, resets, assigns by move and destroys them, in any order, never uses or frees a KSP, SNES or matrix after it was freed; and once all the solvers are destroyed no object of PETSc that they created is left.", "quantifier": "all finite programs over any number of solvers of the three classes (LinearSolver, LinearBlockSolver, NonLinearSolver)", "why_tests_cant": "memory errors depend on the order of construction, moves, resets and destructions, of which there are infinitely many; a double free need not fail in a test", "anchors": ["include/samurai/petsc/linear_solver.hpp: LinearSolverBase, LinearSolver", "include/samurai/petsc/linear_block_solver.hpp: LinearBlockSolver", "include/samurai/petsc/nonlinear_solver.hpp: NonLinearSolverBase, NonLinearSolver"]}
{"id": "C110", "title": "A solve uses the matrix of the current unknown", "statement": "Each call of solve on a solver uses a matrix that was assembled for the unknown (the field with its mesh and boundary conditions) that the solver has at this call.", "quantifier": "all finite programs over any number of solvers, and all the calls of solve in them", "why_tests_cant": "the matrix is kept between calls: whether it is stale depends on the history of the calls on the solver", "anchors": ["include/samurai/petsc/linear_solver.hpp: LinearSolver::solve, setup, reset", "include/samurai/petsc/linear_block_solver.hpp: solve", "include/samurai/petsc/nonlinear_solver.hpp: solve, setup, reset"]}
{"id": "C111", "title": "Local solvers solve the equation of every cell, whatever the order and the threads", "statement": "When solve(u, rhs) of the solver of a non-linear cell-local scheme returns, in every cell of the mesh the values of u solve (up to the test of convergence) the equation scheme(cell, u) = rhs of this cell; rhs, the other fields and the values of u outside the cells of the mesh do not change; the result depends neither on the order in which the cells are solved nor on the threads that solve them.", "quantifier": "all Newton methods, schemes, meshes, numbers of components, layouts, and all schedules of the cells over the threads", "why_tests_cant": "schedules of threads cannot be enumerated, and one solver object is reused from a cell to the next", "anchors": ["include/samurai/petsc/nonlinear_local_solvers.hpp: NonLinearLocalSolvers::solve, operator=", "include/samurai/petsc/utils.hpp: copy, create_petsc_vector_from(f, cell)", "include/samurai/schemes/fv/cell_based/local_field.hpp: LocalField"]}
{"id": "C112", "title": "Expressions of cell-local schemes have the right value and the right Jacobian", "statement": "The scheme made from non-linear and linear cell-local schemes with the operators a * s, l + s and l - s evaluates to the same combination of their values in every cell, and its Jacobian is the derivative of this combination whenever the Jacobians given by the user are derivatives.", "quantifier": "all expressions of any depth, all cells and all values", "why_tests_cant": "expressions nest without bound and the derivative is a statement about all values", "anchors": ["include/samurai/schemes/fv/cell_based/algebraic_operators.hpp: operator*, operator+, operator-", "include/samurai/schemes/fv/utils.hpp: mat_vec", "include/samurai/schemes/fv/operators/identity_fv.hpp: make_identity"]}
{"id": "C113", "title": "Exchanges between processes never block and do not depend on their speeds", "statement": "When the processes do the same sequence of exchanges (each one: non-blocking sends to the neighbours, receives from the same neighbours in their order, wait for the sends), with local work in between, and the neighbours are symmetric, then whatever the speeds of the processes, and whether the sends are buffered or not, no execution blocks, every execution ends after a bounded number of steps, no message is left or is taken for one of another exchange, and the memories at the end are those of the processes doing each exchange together.", "quantifier": "all numbers of processes, all sequences of exchanges and of local work, all interleavings of the processes, buffered and unbuffered sends", "why_tests_cant": "the interleavings of the processes are not controlled by a test, all the messages between two processes have the same tag, and a fast process may be several exchanges ahead of a slow one", "anchors": ["include/samurai/algorithm/update.hpp: update_ghost_subdomains, update_tag_subdomains", "include/samurai/mesh.hpp: update_mesh_neighbour"]}
{"id": "C114", "title": "The exchange of ghosts gives each cell the value of the process that owns it", "statement": "After update_mesh_neighbour() and update_ghost_subdomains(field), each process has the current mesh of each other process, and each cell of its mesh that is in the mesh and in the subdomain of another process has the value that this process had before the exchange; all the other cells have kept their values; both processes list the cells of their interface in the same order without exchanging it.", "quantifier": "all numbers of processes, all meshes and subdomains, all stale copies, all fields, all interleavings", "why_tests_cant": "the two processes compute the list of the cells of the interface separately, with different operands, and only the values are sent; an error needs meshes with particular overlaps to show", "anchors": ["include/samurai/algorithm/update.hpp: update_ghost_subdomains", "include/samurai/mesh.hpp: update_mesh_neighbour, partition_mesh"]}
{"id": "C115", "title": "The exchange of tags combines the tags of the processes that share a cell", "statement": "After update_tag_subdomains<out>(level, tag, erase), the tag of each cell is the bitwise or (or the last one, with erase) of its tag and of the tags of the other processes that have the cell and own it (out), or, for the cells that the process owns, of all the other processes that have the cell (not out); no other tag changes.", "quantifier": "all numbers of processes, all meshes and subdomains, all tags, both values of out and erase, all interleavings", "why_tests_cant": "same as C114: the lists of cells are computed separately by the two processes, with the operands in different orders", "anchors": ["include/samurai/algorithm/update.hpp: update_tag_subdomains"]}
{"id": "C116", "title": "A mesh with overleaves holds the cells its fluxes and ghost updates need", "statement": "For every set of leaves, a mesh with overleaves (MROMesh) is built; its cells_and_ghosts are exactly the cells within ghost_width of a leaf of the same level; its overleaves are exactly the children of every leaf coarser than max_level and of all the cells around it; these cells are in the reference mesh, so that a field has a value there; every projection cell is refined by leaves and has its children in the reference mesh; and a cell has the same number through all the sub-meshes.", "quantifier": "all sets of leaves, levels, ghost widths, dimensions 1 to 3", "why_tests_cant": "the cells depend on the shape of the adapted mesh; a missing cell is an out-of-bounds access only for some meshes", "anchors": ["include/samurai/mr/mesh_with_overleaves.hpp: MROMesh, update_sub_mesh_impl", "include/samurai/mesh.hpp: renumbering", "include/samurai/algorithm/update.hpp: update_ghost_mro"]}
{"id": "C117", "title": "The timers report the time spent in their sections, and their table accounts for the run", "statement": "After a run whose timed sections are properly bracketed, every timer holds the time spent in its section (pauses excluded), cut to at most one microsecond per closing, and the number of its closings; no start or stop fails. If the sections are never nested, the measured times add up to at most the total run time, so that the line '(untimed)' is not negative. Under MPI, the minimum, maximum, average and standard deviation printed for a timer are those of the times of the processes.", "quantifier": "every program of bracketed and paused sections, of any length and depth, with any durations; every number of processes and every list of times", "why_tests_cant": "the times of a run, the nesting of the calls and the number of processes cannot be enumerated; the tests never read the printed table", "anchors": ["include/samurai/timers.hpp: Timers::start, stop, getElapsedTime, print", "include/samurai/samurai.hpp: initialize, finalize", "include/samurai/mr/adapt.hpp: timers around update_ghost_mr"]}
{"id": "C118", "title": "On a mesh with overleaves, the update of the ghosts gives every cell the value its leaves determine", "statement": "After update_ghost_mro on a mesh with overleaves the leaves keep their values, each cell covered by finer leaves has the mean of its children, each cell inside a coarser leaf (the overleaves among them) has the value predicted from the level below, the ghosts outside the domain satisfy the boundary conditions, and all these values depend on the values of the leaves only.", "quantifier": "every graded set of leaves that tiles a box, every ghost width, field and list of boundary conditions", "why_tests_cant": "The cells read and written depend on the shape of the mesh; a ghost that is never set keeps an old value that is usually close to the right one, so a test on a few meshes does not see it.", "anchors": ["include/samurai/algorithm/update.hpp: update_ghost_mro", "include/samurai/mr/mesh_with_overleaves.hpp: update_sub_mesh_impl"]}
{"id": "C119", "title": "Fields are maps from the cells of their meshes to values, and time loops with adaptation compute what they say", "statement": "In a program that creates, copies, fills, resizes and assigns fields, attaches conditions, exchanges arrays and adapts meshes, the value of a field on a cell is always the one that the statements define: copies do not share values or conditions, the adaptation replaces the values of the fields passed to it by their transfers and leaves the others out of date, and no statement reads out of an array, provided that no field out of date and no value never set is read. In particular the usual time loop (adapt u, update its ghosts, resize unp1, unp1 = scheme(u), exchange the arrays) computes the iterates of its scheme.", "quantifier": "every program made of these statements, every number of fields and meshes, every sequence of adapted meshes, transfers and schemes", "why_tests_cant": "A field only holds a pointer to a mesh whose contents change under it and an array read with the numbers of the moment: whether the array matches the mesh depends on the whole history of the program.", "anchors": ["include/samurai/field.hpp: Field, resize, operator=, array", "include/samurai/mesh_holder.hpp: inner_mesh_type", "include/samurai/algorithm/update.hpp: detail::update_fields, update_field_mr"]}
{"id": "C120", "title": "The statistics of a mesh are those of its cells, and none of the records is lost", "statement": "The statistics recorded for a mesh give, for each level, its number of cells, for each axis the number of its intervals (maximal runs of the cells seen from this axis outwards) with the sizes of the shortest and of the longest, and for each axis from the second on the smallest and the largest number of intervals of the axis below for one value of the coordinates; they are computed for every mesh. After any number of calls the file has all the records up to the last periodic save, in the order of the calls and under their test case, and all of them once the object is destroyed.", "quantifier": "every mesh of every dimension, every sequence of calls and test cases, every saving period", "why_tests_cant": "The counts depend on the compressed storage of arbitrary sets of cells; a wrong axis or an empty level only shows on particular shapes, and the file on every point at which a run can stop.", "anchors": ["include/samurai/statistics.hpp: Statistics::operator(), ~Statistics", "include/samurai/level_cell_array.hpp: offsets, nb_cells"]}
{"id": "C121", "title": "memory_usage is determined by the sets of cells", "statement": "memory_usage of a level counts one interval for each run of cells along each axis (of the level seen from this axis outwards), one offset for each point and one more for each axis but the first, and one number for the level; that of an array adds its levels from the coarsest to the finest one with cells, empty levels in between included; that of a mesh adds its arrays. Two arrays with the same cells use the same memory, whatever the order in which the cells were added.", "quantifier": "every set of cells of every dimension and number of levels, every way to build it, every size of the types", "why_tests_cant": "The number depends on the compressed storage of arbitrary sets of cells; tests compare it for a few shapes only.", "anchors": ["include/samurai/memory.hpp: memory_usage", "include/samurai/level_cell_array.hpp: nb_intervals, offsets"]}
{"id": "C122", "title": "The processes that adapt their meshes together get one mesh", "statement": "When the processes of a run adapt their parts of a mesh with the tags of one field, the new leaves of all the processes together are what the tags ask for, no leaf lies in another one, of the same process or not, and they cover the same region as before. A family of cells shared between processes that is coarsened gives one leaf, which belongs to the process with the least rank among its owners.", "quantifier": "every dimension, every number of processes, every shape of their parts (families on several processes included), every field of tags in which cells are coarsened by whole families", "why_tests_cant": "The number of processes and the way the families are cut by the borders are unbounded; tests run one or two processes on a square.", "anchors": ["include/samurai/algorithm/update.hpp: keep_only_one_coarse_tag, update_field_mr", "include/samurai/mr/adapt.hpp: harten"]}
{"id": "C123", "title": "The refinement and coarsening flags are shared across a periodic boundary", "statement": "On a multiresolution mesh of a box with periodic directions, the exchange of the tags across the periodic boundary (done after each tagging step of the adaptation) loses no flag; each cell of the mesh in the layer of ghosts and the cell of the domain that periodicity identifies with it have afterwards the flags of the other one; and a cell gains a flag only from a cell of the mesh that periodicity identifies with it. With one periodic direction in which the domain has at least twice as many cells as the layer of ghosts, a ghost and its cell inside have afterwards the same tag. Without periodic direction nothing changes.", "quantifier": "every dimension, box, set of leaves in the box, choice of periodic directions, ghost width, level where the domain has at least ghost_width cells in the periodic directions, and field of tags", "why_tests_cant": "A corner ghost reaches its image only through the composition of the exchanges of all the directions, so the result depends on the dimension, the periodic directions and which ghosts the mesh has; tests of a few 1D or 2D meshes cannot settle it.", "anchors": ["include/samurai/algorithm/update.hpp: update_tag_periodic", "include/samurai/mr/adapt.hpp: harten", "include/samurai/mr/mesh.hpp: MRMesh::update_sub_mesh_impl"]}
