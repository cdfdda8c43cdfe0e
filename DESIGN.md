# Formal model of samurai: design

Target: hpc-maths/samurai, pinned commit in `/repo` (headers under
`/repo/include/samurai`). Prover: Lean 4.33.0 with Mathlib.

## Layout

| directory | content |
|---|---|
| `lean/Verif/Model/` | executable model of the C++ functions, each definition cites file and lines |
| `lean/Verif/Spec/` | small independent specifications (sets of cells, ancestors, canonical lists) |
| `lean/Verif/Lemmas/` | helper lemmas and invariants |
| `lean/Verif/Props/` | one file per family: property theorems plus a concrete witness (`example`) next to each |

## Modelling choices

* Coordinates (`int`), interval indices (`long long`) and offsets (`size_t`)
  are Lean `Int`/`Nat` without wrap-around. The only machine constant kept is
  `INT_MAX`, used by the sweep as "no value"; the sweep theorems carry an
  explicit hypothesis that the coordinates stay away from it, and the theorems
  are about inputs for which the C++ does not overflow.
* `x >> k`, `x << k` are floor division / multiplication by `2^k` (arithmetic shift).
* Reading a vector out of bounds, dereferencing an end iterator and running out
  of loop fuel are an explicit failure (`none`); theorems state `some`.
  Loops bounded only by data carry a computed fuel; showing that the
  result is not `none` proves termination.
* `std::map<int, T>` is a sorted association list, `std::forward_list` and
  `std::vector` are `List`.
* A point is a `List Int` with the OUTERMOST coordinate first (`[z, y, x]`),
  because every recursion of the code goes from direction `dim-1` down to 0.
  The dimension is arbitrary (`Nat`) wherever the code is generic in `dim`.
* Set expressions are binary trees. The C++ operators are variadic, but
  `intersect_fn`, `union_fn`, `difference_fn`, `do_min`, `do_max` are right
  folds; the n-ary call is the nesting of the binary one (for difference:
  `a \ (b1 u b2 u ...)`).
* Floating point field values are exact rationals (or an arbitrary field of
  characteristic 0 where possible). Round-off is out of scope.
* OpenMP and MPI are modelled only where a property is about schedules: as
  arbitrary permutations / interleavings of atomic updates, and as sequences of
  values agreed on by sender and receiver.

## Properties: plan

| id | modelled | proof |
|---|---|---|
| C01 | `Interval` `>>=`, `<<=` | arithmetic on floor division |
| C02 | `even_elements`, `odd_elements`, stepped walk | arithmetic |
| C03 | `/=` | refuted by witness; `_partial` for exact cases |
| C04, C05 | `ListOfIntervals::add_interval` | induction on the list, then on the history; uniqueness of canonical lists |
| C06, C07 | nested maps, `init_from_level_cell_list` building CSR arrays | invariant of the append-only construction, induction on dimension |
| C08 | `update_index`, `nb_cells` (level and cell array) | prefix sums |
| C09 | `my_binary_search`, `find_impl` | lower_bound correctness, induction on dimension |
| C10, C11 | `LevelCellArray_iterator` | simulation: cursors stay in step with the row structure |
| C12 | `init_from_box` | index arithmetic, induction on dimension |
| C13 | `CellArray_iterator::operator++` | refuted by witness, partial without gaps |
| C14-C18 | full sweep: `subset_node`, `subset_operator` | leaf refinement to an abstract boundary automaton, loop invariant, induction on dimension |
| C19 | `translate_op` | part of the leaf refinement |
| C20-C22 | `expand`, nested `on`, `projection_op` | refuted by witnesses, partial statements |
| C23 | `construct_union` | induction on levels, using C15 |
| C24 | `UniformMesh::update_sub_mesh`, MR/AMR ghost construction | using C06, C15 |
| C25 | `renumbering` | using C09 |
| C26 | `make_graduation`, `is_graduated` | invariant of the turns + decreasing weight (a cell weighs more than its children) |
| C27, C33 | `update_field_mr`, `update_fields` | effect of a tag on a leaf; the new leaf above a finest cell comes from the old one; integral by a double sum over pairs (old leaf, new leaf) |
| C28 | `maximum_op` | exact effect of the operator on the three flags, by induction on the set |
| C57-C59 | `Adapt::harten`, `Adapt::operator()`, the tag operators and criteria (comparisons of details arbitrary) | exact effect of each operator, invariants of the four level loops, C15 for the sets, C27 and C33 for the update |
| C60-C63 | as C57, plus the exact tags after the criteria | monotonicity of the passes after the criteria (C60, C61); closed sets of kept and refined cells on a graded mesh (C62, C63) |
| C29-C32 | prediction / projection / detail operators | ring identities |
| C34-C36 | memoised `prediction`, `portion` | cache invariant over histories; refutation for `portion` |
| C37, C39, C64 | `FluxBasedScheme` (non-linear), `contribution`, `apply`, the parallel regions as tasks with atomic and unprotected updates | the loops of C38 and C41 as lists of updates; sums do not depend on the order; boundary regions have distinct cells, so no update is lost in any interleaving |
| C65 | `FluxBasedScheme` (linear homogeneous): the loops over interval offsets, their sequential and parallel branches | each task simulates the task of the non-linear scheme with the flux `linFlux` (`Lemmas/LinScheme.lean`), then C64, C37, C39 |
| C66 | the coefficients of the provided operators as matrices | C64 and C65 on a leaf whose neighbours are leaves of its level (one interface per side), then field identities; quadratic functions by one-step expansion |
| C67 | `FluxBasedScheme` (non-linear and linear) | the areas of the interfaces of one side of a leaf sum to the area of the side, for the three cases of `side_cases` |
| C68 | `operator*`, `operator-`, `operator+`, `OperatorSum` | the value of C64 is linear in the flux function |
| C69 | `FluxBasedScheme` (linear heterogeneous) | each region has the same effect as the region of the non-linear scheme with the flux `hetFlux` (`Lemmas/Het.lean`) |
| C70 | as C66, C69 | from the formulas of C66; refutations from the formulas of C69 |
| C71, C73-C75 | `update_bc` and its passes on box domains | exact effect of each pass over a set (C15) on lines that leave the domain; the lines of different passes do not overlap; invariant of the layers; polynomials from the tables of coefficients; `C71_adapted` discharges the hypotheses on the mesh for graded adapted meshes |
| C76, C77 | `update_ghost_mr` on adapted meshes: its three loops, on top of `update_bc` (C71-C75), the projection and the prediction (C29-C31, C53) | frame conditions for each pass (which numbers it writes); invariants of the descending and ascending loops; geometry of graded leaves shows that every stencil is in the mesh; C77 by descending then ascending induction on the level from the relations of C76 |
| C72 | the regions of bc.hpp | C15 |
| C38 | `for_each_interior_interface` and its three loops, `IteratorStencil`, `LevelJumpIterator` | exact sets of the intersections (C15), invariant of the moved iterators, grading |
| C40 | `LevelJumpIterator` | the rows of a jump intersection start on an even cell; induction on the moves |
| C41 | `boundary`, `for_each_boundary_interface` | using C15 and C56 |
| C42-C44 | `partition_mesh`, `swap`, `serialize` | refutations and partial statements |
| C45, C52 | stencils | case analysis, induction |
| C46 | cell geometry | arithmetic |
| C47 | WENO5 | field inequalities over ordered fields |
| C48, C49 | `exists`, `for_each_cell(lca,set)` | refutations and partial statements |
| C50 | interval arithmetic | arithmetic |
| C51 | construction of a mesh with periodic directions (mr/mesh.hpp:245-304) and `update_ghost_periodic` | the loop over the directions keeps: every cell around the domain has its image in the directions done (Lemmas/PeriodicMesh.lean); the copies of one direction read values that the loop does not change (Lemmas/Periodic.lean) |
| C78 | `update_ghost_mr` on the meshes of C51, all directions periodic | the leaves and their periodic copies tile the whole space, do not overlap and are graded (Lemmas/PeriodicGeo.lean), so a cell predicted at a level lies in a leaf of the level below; the loops as in C76, with `update_bc` the identity and `update_ghost_periodic` of C51 (Lemmas/GhostPeriodic.lean) |
| C79 | `graduation(tag, stencil)` and `update_field` on an AMR mesh | each tag operator adds an explicit set of flags (Lemmas/AMRTags.lean), the sets it runs on by C15 (AMRSets), the loop from fine to coarse levels by an invariant that inverts the inductive rules `MustRefine`, `MustKeep` (AMRGraduation); siblings are reached by changing one coordinate after the other, gradation by cases on the levels of two neighbouring old leaves (AMRGeo); the new mesh and field as in C27, C33 |
| C80 | the arrays written by `save`: `extract_coords_and_connectivity`, `extract_data` (Model/Hdf5.lean), dimensions 1 to 3, exact arithmetic | invariant of the loop on the cells: points numbered in the order of insertion, no key twice, every row of the connectivity points to the corners of its cell; the file format, the XML and MPI are not modelled |
| C81 | the assembly of the matrix of a linear flux-based scheme: `flux_based_scheme_assembly.hpp`, `col_index` and `row_index`, elimination of the ghosts by linear combinations (Model/Petsc.lean); the matrix is the function of its coefficients, changed by `MatSetValue` | a call of `MatSetValue` adds to one product row times vector (Lemmas/PetscMat.lean); group by group of interfaces the entries give the contributions of the explicit scheme (Lemmas/PetscScheme.lean) |
| C82 | `ghost_recursion` and its loops on the projection and prediction ghosts (Model/Petsc.lean), fuel for the `while` loop | the depth of a ghost (twice the level, the kind of the ghost) bounds the number of substitutions (Lemmas/GhostElim.lean); the relations of the loops are those of the specification (Lemmas/GhostRel.lean); substitution keeps the set of solutions |
| C83 | C82 and C81 together with `update_ghost_mr` (C76) | the matrix has no coefficient in the columns of eliminated ghosts (Lemmas/PetscFree.lean); in dimension 1 the two predictions agree; in dimension 2 a concrete mesh and field where they do not |
| C84 | the rows of the boundary conditions, the diagonal of the unused ghosts and the right-hand side: `assemble_matrix`, `assemble_boundary_conditions`, `enforce_bc`, `prepare_rhs_and_solve` (Model/PetscSystem.lean); `MatSetValue` with INSERT_VALUES overwrites a coefficient | the rows written by each part are disjoint (leaves, ghosts outside the domain, the others); the last condition on a ghost determines its row (Lemmas/PetscRows.lean); each row is one of the three clauses of the specification |
| C85 | nothing new: the systems of C84 and the ghost update of C76 | in dimension 1 every cell next to a leaf is a leaf, an eliminated ghost or a ghost of a condition (Lemmas/PetscSeg.lean), and the scheme reads only cells next to leaves (Lemmas/PetscLocal.lean): a solution and the updated field agree there; the converse builds the solution from the updated field |
| C86 | the cell-based schemes: `for_each_stencil`, `apply` of the linear and of the non-linear schemes, their algebra, the identity, the zero operator and the former diffusion (Model/CellScheme.lean) | one call per leaf, with distinct rows (Lemmas/CellScheme.lean): the sum of the updates of a row is that of its call; a witness on a line for the sum of schemes with different stencils |
| C87 | `assemble_scheme` of the cell-based schemes and of the sums (Model/CellScheme.lean) | the coefficients of a cell are those of a boundary interface of the cell (Lemmas/CellAssembly.lean); the matrix of a sum is the sum of the matrices (Lemmas/SumMatrix.lean) |
| C88 | `assemble_matrix` of the sums: the rows, the boundary conditions and the unused ghosts of the operator with the largest stencil | the rows of the system as in C84 (`AdaptInv.system_iff`), the rows of the leaves by C87; a concrete system on a segment for the cell-based schemes with neighbours |
| C89 | the shifts and the assembly of the block operators, sums of schemes or `0` in the blocks | the entries of a block are in its rows and columns (`InBlocks`), so the product splits in the products of the blocks, each by C87; a concrete product on a segment for the layouts |
| C90 | the monolithic `assemble_matrix` and the right-hand side | the rows of a block row as in C88 (`AdaptInv.system_iff`), the conditions and unused ghosts of the other rows do not touch them |
| C91 | the nested assembly: each block without shifts | every list of entries of the monolithic assembly in a block is the shifted list of the nested one (`Lemmas/BlockShift.lean`) |
| C92 | `create_rhs_vector`, `create_applicable_vector`, `update_unknowns`, `update_result_fields`, `create_fields_IS` | disjoint intervals of numbers; direct computation for the refutations |
| C93 | `create_matrix`, the `sparsity_pattern_*` and the places of the calls of `MatSetValue(s)` (Model/Sparsity.lean) | the lists of announced counts and of places are walked together (Lemmas/Sparsity.lean, SparsityFlux, SparsityCell); the places of an operator within a larger one: the combination of a prediction ghost contains the leaf itself (Lemmas/SparsityWithin.lean); kernel computation for the refutations |
| C94 | `PETSC_nonlinear_function`, `prepare_rhs`, `set_0_for_all_ghosts`, the assembly of the Jacobians of non-linear flux-based schemes (Model/Newton.lean) | the matrix is a sum on the faces, as in C81, and so is the derivative of the scheme, term by term (Lemmas/NewtonScheme.lean, NewtonDeriv.lean); the vectors are equal on the ghosts by construction, and the leaves are not touched (Lemmas/NewtonRhs.lean) |
| C95 | `PETSC_jacobian_function`, `update_bc` of all the levels (Model/Newton.lean) | the ghosts after `update_ghost_mr` are affine functions of the step along a direction that satisfies the homogeneous conditions (uniqueness of the values of the ghosts next to the leaves, dimension 1, Lemmas/NewtonDim1.lean), then C94; kernel computation of two iterations for the refutation |
| C96 | `Field::operator=(field_expression)`, `get_interval`, views, `field_function` with the broadcasting of xtensor (Model/Field.lean) | induction on the expression: the shapes of all the arrays are prefixes of the shape of the row (Lemmas/Field.lean); induction on the rows of the mesh, which have no cell in common; kernel computation for the refutation |
| C97 | `make_field(name, mesh, f)`, `L2_error`, `operator==` (Model/FieldError.lean) | induction on the cells visited, whose numbers differ; the sum over the array is a permutation of the sum over any list of the leaves |
| C98 | `GaussLegendre` with its 20 tables as exact decimals (Model/Quadrature.lean) | the 420 moments of the tables are checked with integers by the kernel, then the error for all polynomials and cells follows by linearity, Fubini on the cell and the change of variable (Mathlib's integral) |
| C99 | `compute_detail_op` row by row on the arrays of values, with strided writes and reads through views that must exist (Model/Details.lean) | each row fills the details of its cells; the sets of the loop are the parents of leaves, whose neighbours are in the reference mesh; the values do not depend on the order because each detail is a function of the field only |
| C100 | `harten` with `update_ghost_mr`, the details and `eps_l`; `1 << exponent` is undefined from 31 | the masks of the comparisons are put in C60, C61; in dimension 1 the second child has the opposite detail (C32), because the parent has the mean (C76) |
| C101 | the loop of `Adapt::operator()` with the thresholds | the constant satisfies the relations that determine the ghosts (C77), so the details are 0; the families of the finest level are then coarsened (C63), and the iteration `i` leaves no level above `max_level - i - 1` |
| C102 | `runMr` (Spec/Details.lean): arbitrary changes of the field alternating with the whole `Adapt::operator()` | invariant `AdaptInv` preserved by each iteration, whatever the details are (C58), ghosts computed without reading a missing cell (C76), integral kept by the projection and the prediction (C33) |
| C103, C104 | `update_ghost` on AMR meshes (Model/AMRGhost.lean): projection from the finest level down, `update_bc(0)`, then prediction and `update_bc` level by level | frame conditions and loop invariants as in C76 (Lemmas/AMRGhost.lean); geometry: walking from a leaf to a cell of `pred_cells`, the first cell in a coarser leaf has a leaf as parent, so the stencils of the predictions stay within `ghost_width` of a leaf (Lemmas/AMRAdapted.lean); C104 by induction on the levels from the relations of C103; the geometry that needs no grading gives `C103_any_tiling`, and `C104_face_graded_refuted` a mesh with a stale ghost |
| C105, C106 | the adaptation loops of the AMR programs with the update of the ghosts (Model/AMRLoop.lean): `update_ghost`, any criterion, `graduation`, `update_field`; Spec/AMRLoop.lean runs any list of turns | induction on the turns with the invariant of C79 (`AMRInv`); C103 on the mesh built by the code for the ghosts; uniform fields: by the uniqueness of C104 the ghosts next to the leaves have the value of the leaves, so the transfer reads one value only |
| C107, C108 | the finite volume expressions of fields (Model/StencilField.lean): rows read at an offset, fluxes of `upwind` and `upwind_scalar_burgers`, sum over the directions, assignment row by row to another field; Spec/StencilField.lean has the formula of the new value (`fvUpdate`) and the definition of the Godunov flux | induction on the rows, which write different cells and read another field; the balance by a bijection between the inner faces seen from both sides; the bounds because the new value is a convex combination; the Godunov flux by cases on the signs |
| C109, C110 | the life of the solvers (Model/SolverLife.lean): the objects of PETSc are handles with a number of references, the solvers hold handles at addresses, a program is a list of constructions, `set_unknown`, `assemble_matrix`, `setup`, `solve`, `reset`, assignments by move and copy, destructions | an invariant on the ownership of the handles, kept by each statement; for C110 also: the matrix of a solver was assembled for its unknown |
| C111, C112 | cell-local schemes, their algebra, and the solvers of one equation per cell (Model/LocalSolver.lean): arrays of fields by address, both layouts, vectors that wrap or copy them, a Newton method as a function of its state, the function and the Jacobian | the solve of a cell in the memory is the solve on its own vectors; then induction on the schedule; C112 by induction on the expression, with partial derivatives (`HasDerivAt`) |
| C113–C115 | MPI processes that do rounds of sends, receives and waits at any speed, with a queue for each pair of processes (Model/Mpi.lean: `MpiStep`); the exchanges of meshes, ghosts and tags as rounds, with the rows of `intersection(...).on(level)` (Model/MpiGhost.lean) | C113 by an invariant: each process is in a round, its memory is that of the rounds done together, and the queue from p to q holds the messages of the rounds that p has sent and q has not received; progress by the slowest process; C114, C115: both processes get the same calls (C16), then induction on the rows, the neighbours and the levels |
| C116 | `MROMesh::update_sub_mesh_impl` and the renumbering of its sub-meshes (Model/MroMesh.lean) | exact content of the cell list after each loop (`Hist`), union meshes from the lemmas of `construct_union`; the failing parts on explicit meshes; `update_ghost_mro` is not modelled |
| C117 | `Timers::start`, `stop`, `getElapsedTime`, the totals of `print`, its statistics under MPI (Model/Timers.lean); a run is a program of timed and paused parts | an invariant relates every timer to exact accounts, by induction over the program; the sums over sections never open together; the failing parts on explicit runs |
| C118 | `update_ghost_mro` (Model/MroGhost.lean) on the sub-meshes of C116 with the reference mesh numbered | the reference mesh is closed under what each step reads (Lemmas/MroAdapted.lean); then each step is one of the projection, prediction and boundary passes of C76; uniqueness by induction over the levels; the stale value on an explicit mesh |
| C119 | fields as a pointer to a mesh object and an array, meshes as numbered lists of cells, the statements of a program (Model/FieldLife.lean) | refinement: the arrays hold the values of maps (Spec/FieldLife.lean), preserved by every statement and by induction by every program; the time loop is an induction on its steps |
| C120 | the records and the file of `Statistics` (Model/Statistics.lean) on the arrays of C06 | runs of the set of cells (Spec/Statistics.lean) against the rows of the array; the outer axes by dropping the innermost direction of the array, by induction; the file by induction over the calls |
| C121 | `memory_usage` (Model/Memory.lean) on the arrays of C06 | the runs and the points of the outer axes of C120 (Spec/Memory.lean); the sums of the levels from the coarsest to the finest one by the cases of `min_level`, `max_level` |
| C122 | `keep_only_one_coarse_tag` and the new leaves of `update_field_mr` on each process (Model/MpiTag.lean) | Spec/MpiTag.lean states what the leaves and tags of the processes are; the tags after the function (Lemmas/MpiTag.lean), then the new leaves of each process by the lemma of C27; the least rank among the owners of a family is the only one that keeps the tag |
| C123 | `update_tag_periodic` on the meshes of `mrMeshPeriodic` (Model/TagPeriodic.lean) | each exchange keeps the flags and takes new ones from the same class of cells; the composition over the directions by induction on the list of directions, with the images that C51 shows to be in the mesh (Lemmas/TagPeriodic.lean); a witness shows that on a narrow domain the copies of a cell can differ |
| C53 | the two `prediction_op` paths | index arithmetic on the strided views |
| C54 | `reconstruction` | C34 and linearity |
| C55 | reference mesh of MR and AMR meshes | specification of the level loops, using C15, C23 |
| C56 | `construct_subdomain` | using C06 |

## What the model found in the code

Each item has a theorem with a concrete witness (suffix `_refuted`) and, where something true remains, a
theorem about it (suffix `_partial`, or the property restated with the needed hypothesis).

| id | finding |
|---|---|
| C03 | `Interval / n` does not cover the divided interval |
| C09 | the search by binary search needs non-touching intervals |
| C10 | `for_each_cell` on an empty `LevelCellArray` reads out of bounds in dimension >= 2 |
| C11 | `++` then `--` on an iterator does not come back when `++` reaches the end |
| C13 | range-for over a `CellArray` stops at a gap between levels |
| C19 | `translate(translate(m, a), b)` ignores one vector in dimension >= 2 |
| C20 | `expand` does not contain the set; `contraction` |
| C21 | an inner `.on(l)` is forgotten by the outer expression |
| C22 | the projection of a cell on a coarser level can be empty |
| C23 | `get_union()` is never filled below `min_level - 1` |
| C24 | an `amr::Mesh` with a leaf of level 0 takes a reference to `cl[-1]` |
| C31 | the cross terms of the 2D / 3D prediction have the wrong sign |
| C35 | the cache of `portion` omits `delta_l` from its key |
| C50 | interval arithmetic |
| C57 | with `min_level = 0` the adaptation reads level -1 of the reference mesh (`level - 1` in the first loops of `harten`) |
| C57 | if the domain is not a union of cells of `min_level`, a leaf can be coarsened into a cell that leaves the domain (the code that prevented it is commented out, adapt.hpp:316-333) |
| C58 | with `graduation_width` 2 (a documented template parameter, used by demos) the stencil only holds the offsets +-2: one step can produce a mesh that is not graded and the next one overlapping leaves |
| C40 | if the domain is not a union of cells of the coarse level (mesh from a cell list), `LevelJumpIterator` starts on an odd cell and gives the flux of a fine cell to a coarse cell that it does not touch |
| C42 | `partition_mesh` divides the number of intervals of all directions by the number of processes and drops the remainder: on a box in dimension 1 no process owns anything |
| C43 | `swap` does not exchange the periodicity |
| C44 | `serialize` writes `min_level` twice and never `max_level`; periodicity, origin point and scaling factor are not written |
| C45 | `convert_for_direction` on a direction that is not Cartesian is not a rotation |
| C48 | `Mesh::exists` initialises the first entry only |
| C49 | `for_each_cell(lca, set, f)` looks up the number before it assigns the row |
| C52 | `line_stencil` with one element is `{1}`, without the origin; `directional_stencils` with width 0 |
| C66 | `make_convection_upwind(velocity)` on a vector field fills the column `d` of the coefficients: every component of the output is the same mixture of the components; for 1 < `field_size` < `dim` it writes outside the matrix |
| C68 | `scheme1 + scheme2` copies the stencil and `include_boundary_fluxes` of `scheme1`: the coefficients of `scheme2` are applied to other cells, its boundary treatment is lost |
| C70 | heterogeneous diffusion reads the coefficient of the left cell twice (`k_right = K[cells[left]]`) and never that of the right cell; the Burgers convection and the upwind scheme with a velocity field look at the sign of the left cell only: none is mirror symmetric |
| C72 | in dimension 3 the set of a diagonal direction with a zero component (an edge) subtracts the domain translated by zero: it is empty for every domain |
| C75 | with two ghosts or more the ghosts of a corner that are not on its diagonal are never filled; nor are those of the edges in dimension 3 (the set is empty) and of its corners (the stencil of a direction that is not Cartesian loses the third component, C45), nor the layers after the third |
| C77 | in dimension 3 the prediction of a cell along an edge of the domain reads ghosts beyond the edge, which `update_bc` never fills (C72, C75): the predicted value depends on what was in memory (by 1/64 of the old ghost value) |
| C76 | the cells of level `min_level - 2` inside the domain, which the mesh holds when `min_level` is at least 2, never get a value (no other value of the update depends on them) |
| C51 | on a level where the domain has fewer cells than `ghost_width` in a periodic direction, the outer ghosts get the old value of other ghosts (witness); the bounds of the domain are shifted to the level, so a domain not aligned on the coarse cells is not handled; ghosts farther than `ghost_width` are not filled |
| C71 | `apply_bc_impl` does not check that the ghosts of a condition exist: `Dirichlet<2>` with `max_stencil_width` 1 works only if `prediction_order` is at least 2 and the mesh is not uniform; a level finer than the level of the domain shifts by a negative number; `SetRegion` (bc.hpp:525-540) translates by a `size_t`: not modelled |
| C83 | the implicit matrix of a scheme and its explicit application after `update_ghost_mr` differ in dimension 2 next to a jump of level: the matrix uses the tensor product prediction, the ghost update the prediction with the cross terms of the wrong sign (C31) |
| C84 | the implicit schemes call the function of a boundary condition with an empty direction and an empty cell (`bc->value({}, {}, boundary_point)`): a condition given by a function of the direction or of the cell is another one than in the explicit schemes |
| C86 | `scheme1 + scheme2` of two cell-based schemes with the same configuration copies `scheme1` and adds the coefficients of `scheme2`: when their stencils differ (a forward and a backward difference), the coefficients of `scheme2` are applied to the wrong cells, without an error |
| C88 | the assembly of the cell-based schemes does not replace the ghosts at the level jumps by their combinations, while the rows of these ghosts are always those of eliminated ghosts (`value = 0`): an implicit cell-based scheme that reads its neighbours takes 0 for them at every level jump; on a segment with two levels the constant 1 is a solution of `-u'' = f` with f = 4 and 16 next to the jump |
| C89 | `row_index` uses `field_t::is_soa`, the layout of the input field, for the rows of the output field: with a vector unknown stored by components and a scalar unknown with the default layout (gradient block), the coefficients go to the wrong rows |
| C92 | `create_fields_IS` fills the index sets from the blocks of row 1: for an operator with one row they are not initialised; `matrix_rows` and `matrix_cols` sum the diagonal blocks only, so that the matrix and the vectors of a rectangular operator are too small |
| C93 | too few non-zeros are announced: for a sum, only the operator with the largest stencil announces, so that `make_diffusion_old + make_diffusion_order2` writes more columns than announced at level jumps; cell-based operators on fields stored by components announce the coefficients that are not 0 but write all those of the contiguous indices (and read the coefficients from the index 0 instead of `contiguous_indices_start`); a ghost in a hole of the domain has more than 3 columns; PETSc stops with an error in each case |
| C95 | the Newton solver evaluates its function after `update_ghost_mr` but assembles its matrix after `update_bc` only: the ghosts at the level jumps keep the values of the first guess (the increments are 0 there), and from the second iteration on the matrix is not the Jacobian matrix of the function. The converged solution is right (C94), the convergence is not that of Newton's method |
| C96 | with the default layout (`SOA = false`), an expression that combines a scalar field and a vector field is aligned by xtensor on the last dimension: the components of the vector with the cells of the scalar. It throws if the length of a row is neither the number of components nor 1, and gives wrong values silently if it is the number of components |
| C97 | `operator==` of fields is an equality up to `1e-15`: it is not transitive; fields with `NaN` compare equal (`abs(NaN) > 1e-15` is false). `make_field(name, mesh, f, gl)` calls the non-const `quadrature` on a `const` object and cannot be instantiated |
| C98 | `GaussLegendre<degree>` with `degree >= 40` compiles but its points and weights are never initialized |
| C100 | `eps / (1 << exponent)` in `Adapt::harten`: `1` is an `int` and `exponent = dim * (max_level - level)`; with 11 levels above `min_level` in dimension 3 (16 in dimension 2) the shift is undefined, and so is every adaptation |
| C104 | `update_ghost` on an AMR mesh graded through the faces only (the star stencil in `graduation`), with one ghost, in dimension 2: the prediction of a ghost inside a leaf two levels coarser, met by a corner, reads cells of `reference` that belong neither to `proj_cells` nor to `pred_cells`; nothing fills them, so the value left in memory enters the ghosts next to the leaves (`C104_face_graded_refuted`). `level_set.cpp`, which takes the star stencil, has two ghosts |
| C106 | on an AMR mesh graded through the faces only (star stencil of `graduation`, as in demos/FiniteVolume/level_set.cpp) with the default single ghost, one turn of `update_ghost`, refinement and `update_field` can turn a field that is 0 on all the leaves into one that is not: the ghost that `update_ghost` leaves with its old value (C104) is read, through a predicted ghost, by the prediction of a new leaf |
| C107 | `u = u - dt * upwind(a, u)` in place compiles and runs, but the rows read the new values of the rows written before them: the result is not the explicit step (`C107_in_place_refuted`). The demos assign to a second field |
| C108 | `upwind_scalar_burgers_op::flux(a, ul, ur)` uses only the sign of `a` (in comparisons): the flux is not multiplied by `a`, and for `a = 0` it is not 0. demos/FiniteVolume/scalar_burgers_2d.cpp passes (√2/2, √2/2), and the flow is √2 times too fast in each direction; for `a < 0` the flux has the wrong sign (`C108_velocity_refuted`) |
| C109 | `petsc/linear_solver.hpp:31-35, 242-246`, `linear_block_solver.hpp:39-43`: the base class and the derived class both call `KSPCreate` in their constructors on the same handle: each linear solver leaks a `KSP` (`C109_leak_refuted`) |
| C109 | `petsc/linear_solver.hpp:126-143, 318-348`: `LinearSolver::setup` creates the matrix whether or not `assemble_matrix()` did: the first one is leaked (`C109_matrix_leak_refuted`) |
| C109 | `petsc/linear_solver.hpp:65-77`, `nonlinear_solver.hpp:61-73`: the assignment by copy copies the handles without a reference: both destructors free them (`C109_copy_refuted`) |
| C109 | `petsc/nonlinear_solver.hpp:75-88, 125-153`: the callbacks of the `SNES` keep the address of the solver that set it up: after an assignment by move they refer to the old object (`C109_move_refuted`) |
| C110 | `petsc/linear_solver.hpp:350-371`: `solve(u2, b2)` after `solve(u1, b1)` without `reset()` uses the matrix of `u1` (`C110_stale_refuted`) |
| C111 | `petsc/nonlinear_local_solvers.hpp:67-85`: the assignments drop `m_scheme`: after `a = b`, `a` solves its old equations with the unknown of `b` (`C111_assign_refuted`) |
| C111 | `petsc/nonlinear_local_solvers.hpp:168-170`: with `solve(u, u)` both vectors wrap the same memory, the right-hand side changes with the iterates: the solve converges to a wrong value (`C111_alias_refuted`); with the components stored first the values are copied and it is right |
| C112 | `cell_based/algebraic_operators.hpp:102-127`: the sum of two non-linear cell-based schemes gives `std::function`s of a `LocalField` a lambda that takes a `const field_t&`: `operator+` does not compile for them (not modelled) |
| C114 | `algorithm/update.hpp:219-226` (and 320-330): the sender pushes `i.size() * size` values for an interval, the receiver reads `i.size()` values and puts them in the first entries of the row: the ghosts of a field with several components are wrong after the exchange (`C114_components_refuted`) |
| C114 | `algorithm/update.hpp:185-216`: a coarse cell that is in the subdomains of two processes is sent both ways, each overwrites its value with that of the other: they agree afterwards only if they agreed before (`C114_shared_cell`) |
| C116 | `mr/mesh_with_overleaves.hpp:232-236`: the rows `2 * index` and `2 * index + 1` add one to all the outer coordinates: in dimension 3 the rows with one odd and one even coordinate are forgotten, half of the children of a leaf are missing |
| C116 | `mr/mesh_with_overleaves.hpp:111-127` with `mesh.hpp:534-552`: `union_cells` is a sub-mesh but is not included in the reference mesh; `renumbering()` then reads `m_cells[0][size_t(-1)]` (`get_interval` of a cell that is not found) |
| C116 | `mr/mesh_with_overleaves.hpp:198-210`: with `ghost_width` 2 a graduated mesh has projection cells with no child in the reference mesh: `update_ghost_mro` never sets their value |
| C117 | `timers.hpp:130`: under MPI the average adds `timer.second.elapsed`, the time of the printing process, instead of `all[iproc]`: the average printed is its own time |
| C117 | `timers.hpp:137`: the deviation is assigned (`=`) in the loop instead of accumulated: only the last process counts |
| C117 | `timers.hpp:110`: the maximum starts from `numeric_limits<double>::min()`, the smallest positive number: if no process measured more, it is printed as the maximum with the rank -1 |
| C117 | `timers.hpp:159-176,223`: the time of nested sections is counted twice, `(untimed)` can be negative; a section nested in itself loses the time before the inner start and counts the inner time twice |
| C117 | `samurai.hpp:44-55`: `initialize()` without arguments does not start the timer that `finalize()` stops: with `args::timers` set, `stop` fails |
| C118 | `update.hpp:61-65` on the meshes of C116: a projection cell without child in the reference mesh keeps its old value, which enters the mean of its parent: with `ghost_width` 2 a ghost within two cells of a leaf depends on values that are not those of leaves |
| C119 | `update.hpp:733-743,885-887`: the adaptation exchanges the contents of the mesh object under all its fields but transfers only the fields passed: any other field silently reads the values of other cells or out of its array until it is resized and assigned; a field passed twice is corrupted, and so is a field of another mesh |
| C120 | `statistics.hpp:59`: `offsets(1)` is read for every axis instead of `offsets(d)`: in dimension 3 the record of the axis 2 is that of the axis 1 |
| C120 | `statistics.hpp:41,51-53`: a level without cells between the coarsest and the finest one: `minmax_element` of an empty vector gives its end, which is read |
| C123 | where the domain has fewer than 2 `ghost_width` cells in a periodic direction, a cell and its copies on the two sides do not all get the same tag: the side treated first misses the flag of the other side (witness) |

## What is modelled

| file in `/repo/include/samurai` | modelled | not modelled |
|---|---|---|
| `interval.hpp` | all operators, `even_elements`, `odd_elements`, `contains` | output, xtensor slices |
| `list_of_intervals.hpp` | `add_interval`, `add_point` | iterators of `forward_list` (a list) |
| `level_cell_list.hpp`, `cell_list.hpp` | `operator[]`, `add_cell` | `to_stream`, origin point and scaling factor |
| `level_cell_array.hpp`, `cell_array.hpp` | construction from lists and boxes, `update_index`, `nb_cells`, `get_index`, iterators, equality | output, serialisation |
| `algorithm.hpp` | `for_each_interval`, `for_each_cell` on arrays, `find` | parallel variants |
| `subset/` (`node.hpp`, `operator*`, `apply.hpp`) | the sweep on expression trees, `on`, `translate`, `expand`, `contraction`, `projection` | self-generated types |
| `numeric/prediction.hpp`, `numeric/projection.hpp`, `mr/operators.hpp` | `prediction_op` (orders as tables), `projection_op`, details, tag operators | `Eigen` variants |
| `reconstruction.hpp` | `prediction` maps and cache, `portion`, `reconstruction` | |
| `mesh.hpp`, `mr/mesh.hpp`, `amr/mesh.hpp`, `uniform_mesh.hpp` | union, sub-meshes, renumbering, subdomain, periodic ghosts of `MRMesh` (Model/PeriodicMesh.lean), `update_mesh_neighbour` (Model/MpiGhost.lean) | periodic AMR meshes |
| `algorithm/graduation.hpp`, `algorithm/utils.hpp` on AMR meshes | `graduation(tag, stencil)` with `tag_to_keep`, `keep_children_together`, `graduate` (Model/AMRAdapt.lean) | |
| `algorithm/update.hpp` | `update_field`, `update_field_mr`, `update_fields`, `update_ghost_mr` with `update_ghost_periodic` (Model/GhostUpdate.lean; C76 and C77 are for meshes without periodic direction, C78 for meshes periodic in all the directions), `update_ghost` of AMR meshes (Model/AMRGhost.lean, C103, C104), the loops of the AMR demos (Model/AMRLoop.lean, C105, C106), `update_tag_periodic` (Model/TagPeriodic.lean, C123; one cell at a time instead of an interval) | `update_ghost*` is an arbitrary function in C59; `update_ghost_mro` and the MPI part are below |
| `mr/adapt.hpp`, `mr/criteria.hpp`, `mr/operators.hpp` (`compute_detail_op`), `algorithm/utils.hpp` | `Adapt::operator()`, `harten`, criteria as arbitrary outcomes of the comparisons (C54-C63), and the computation of the details and the thresholds for one scalar field (C99-C102) | several fields or components in the details, periodic and MPI tags |
| `interface.hpp`, `boundary.hpp`, `stencil.hpp` (iterators) | the loops on interior and boundary interfaces, in sequential order | `Get::Intervals` variants, MPI |
| `schemes/fv/flux_based/*__nonlin.hpp`, `schemes/fv/explicit_FV_scheme.hpp`, parallel loops of `algorithm.hpp` | `contribution`, interior and boundary loops, `apply`, `apply_to`, interleavings of OpenMP tasks | components of vector fields (each is a module element), floating point, Jacobians, their use by the PETSc solvers |
| `schemes/fv/flux_based/*__lin_hom.hpp` | `for_each_interior_interface`, `for_each_boundary_interface`, `apply` with the branches for one and several threads | SIMD loops (their lanes write distinct or summed addresses in sequence) |
| `petsc/fv/flux_based_scheme_assembly.hpp`, `petsc/fv/cell_based_scheme_assembly.hpp`, `petsc/fv/operator_sum_assembly.hpp`, `petsc/fv/FV_scheme_assembly.hpp`, `petsc/matrix_assembly.hpp` | the coefficients of the matrix, the equations of the boundary conditions, the unused ghosts, the right-hand side, the preallocation | the PETSc library and its solvers, multigrid |
| `petsc/block_assembly.hpp`, `petsc/zero_block_assembly.hpp`, `petsc/utils.hpp`, `petsc/linear_block_solver.hpp` | sizes, shifts, monolithic and nested matrices and right-hand sides, copies between fields and vectors, index sets | the sparsity patterns, the creation of PETSc objects, the solver |
| `petsc/nonlinear_solver.hpp`, `schemes/fv/flux_based/*__nonlin.hpp` (loops with Jacobians), `flux_definition.hpp` | the function, the matrix and the right-hand side that `SNESSolve` uses | `SNESSolve`, the local solvers, cell-based non-linear schemes |
| `field.hpp`, `field_expression.hpp` | assignment of expressions, views, `get_interval`, `make_field` with a value or a function, `operator==` | iterators, `Field_tuple`, `to_stream`, `SAMURAI_CHECK_NAN` |
| `stencil_field.hpp`, `operators_base.hpp` | `upwind`, `upwind_scalar_burgers`, `finite_volume::operator()`, `field_operator_function`, assignment of `u - dt * op` (one definition for the three dimensions; `upwind_scalar_burgers` exists in dimension 2 only) | vector fields, other expressions that contain these operators |
| `petsc/linear_solver.hpp`, `petsc/linear_block_solver.hpp`, `petsc/nonlinear_solver.hpp` (life of the objects) | constructors, `_configure_solver`, `_destroy_petsc_objects`, assignments, `set_unknown`, `assemble_matrix`, `setup`, `solve`, `reset`, destructors, on handles with numbers of references (Model/SolverLife.lean) | the multigrid, the options of PETSc, the nested matrices of the block solver (one handle), errors of PETSc |
| `petsc/nonlinear_local_solvers.hpp`, `petsc/utils.hpp` (copies of cells), `cell_based/local_field.hpp`, `cell_based/algebraic_operators.hpp` | `solve`, assignments, `make_identity`, products, sums and differences of local schemes (Model/LocalSolver.lean) | the methods of PETSc (any function), interleavings inside the solve of a cell |
| `algorithm/update.hpp` (MPI part) | `update_ghost_subdomains`, `update_tag_subdomains` as rounds of processes that run at any speed (Model/Mpi.lean, Model/MpiGhost.lean); `keep_only_one_coarse_tag` (Model/MpiTag.lean: one cell at a time instead of masks on an interval) | the reductions (`all_reduce`: common values), the layout by components, failures of processes; MPI is trusted to deliver messages in order |
| `mr/mesh_with_overleaves.hpp` | `update_sub_mesh_impl`, construction from a cell list (Model/MroMesh.lean) | `exists` (the one of the base class is modelled), periodic directions (the code adds no periodic ghost) |
| `algorithm/update.hpp` (overleaves) | `update_ghost_mro` (Model/MroGhost.lean) | periodic directions, several processes (the function has no exchange) |
| `timers.hpp` | `start`, `stop`, `getElapsedTime`, totals and statistics of `print` (Model/Timers.lean) | the text layout, the order of the lines and the percentages of `print`; wrap-around of the counters; the clock is exact and the bookkeeping takes no time; under MPI, times are rationals and the square root is left out |
| `field.hpp` (construction, copy, assignment, `resize`, `fill`, `array`), `mesh_holder.hpp`, the end of `update_field_mr` | Model/FieldLife.lean | one component, exact values; moves, `change_mesh_ptr`, names and `hold` are not modelled; the cells read by the transfer are parameters |
| `statistics.hpp` | Model/Statistics.lean: the records of a mesh and the file | the JSON text, errors of the file system |
| `memory.hpp` | Model/Memory.lean: `memory_usage` of levels, arrays and meshes | overflow, what `verbose` prints |
| `numeric/error.hpp`, `numeric/gauss_legendre.hpp` | `L2_error`, the quadrature and its tables | convergence orders, functions with several components in `quadrature` |
| `schemes/fv/flux_based/*__lin_het.hpp` | `for_each_*_interface_and_coeffs`, `apply` | |
| `schemes/fv/cell_based/*.hpp`, `operators/identity.hpp`, `zero_operator.hpp`, `diffusion_old.hpp` | `for_each_stencil`, `apply`, the algebra, the stencils and coefficients of the three operators | boundary equations of the former diffusion, Jacobians |
| `schemes/fv/operators/diffusion.hpp`, `gradient.hpp`, `divergence.hpp`, `convection_lin.hpp`, `convection_nonlin.hpp` | the flux functions and coefficients | lifetime of the captured references, boundary condition enforcement |
| `schemes/fv/flux_based/algebraic_operators.hpp`, `operators_sum.hpp`, `explicit_operator_sum.hpp` | scalar multiples, opposite, sums | sums of non-linear schemes |
| `stencil.hpp` (tables) | `star_stencil`, `line_stencil`, `cartesian_directions`, `directional_stencils`, `convert_for_direction`, `is_line` | |
| `mesh.hpp` (rest), `level_cell_array.hpp`, `cell_array.hpp` (`serialize`) | `swap`, `serialize`, `partition_mesh`, `exists`, `for_each_cell(lca, set, f)` | MPI exchanges, the archive library (a list of numbers) |
| `graduation.hpp` | `is_graduated`, `make_graduation` on a `CellArray` | |
| `bc.hpp` | `update_bc`, `apply_bc_impl`, `apply_extrapolation_bc_impl`, `Dirichlet<1..4>`, `Neumann<1>`, `PolynomialExtrapolation`, regions `Everywhere`, `OnDirection`, `CoordsRegion` | `SetRegion`, MPI subdomains, the coordinates of the faces (an arbitrary function of the direction and the cell) |
| `cell.hpp` | constructors, `corner`, `center`, `face_center` | rounding |
| `hdf5.hpp` | `get_element`, `extract_coords_and_connectivity`, `extract_data` | the files, the XML description, MPI |
| `schemes/fv/operators/weno_impl.hpp` | `compute_weno5_flux` and the fluxes of `make_convection_weno5` | rounding |

## Trusted base

Lean's kernel; the axioms `propext`, `Classical.choice`, `Quot.sound`; the
faithfulness of the hand-written model to the C++ text (each definition cites
what it models). Not modelled: xtensor, floating point rounding, HDF5 files,
PETSc, memory allocation, template/type level behaviour, integer overflow.
