/-
Model of the linear system of an implicit scheme: `assemble_matrix` (petsc/matrix_assembly.hpp), the equations of the boundary conditions and the rows of the
ghosts without equation (petsc/fv/FV_scheme_assembly.hpp, schemes/fv/FV_scheme.hpp, boundary.hpp), and the right-hand side (petsc/linear_solver.hpp). With the
elimination of the ghosts (`ghost_elimination_enabled`) and `DirichletEnforcement::Equation`, the values that the library uses. `KSPSolve` is not modelled. `n` is
`dim - 1`. Exact arithmetic.
-/
import Verif.Model.Petsc
import Verif.Model.Bc
import Verif.Model.Cell
import Verif.Model.Stencil

namespace Samurai

section
variable {K : Type} [Field K]

/-! ### the rows that are not empty -/

/-- `set_is_row_not_empty` in the callback of the interior interfaces (flux_based_scheme_assembly.hpp:191-192). -/
def faceMarks (L : MatLayout) (f : FaceCall) : List Int := (List.range L.outSize).flatMap fun i => [L.row f.left.index i, L.row f.right.index i]

/-- `set_is_row_not_empty` in the callback of the boundary interfaces (flux_based_scheme_assembly.hpp:215). -/
def bdryMarks (L : MatLayout) (f : BdryCall) : List Int := (List.range L.outSize).map fun i => L.row f.cell.index i

/-- The rows marked by the boundary interfaces of one direction and one level. -/
def bdryLevelMarks (n : Nat) (L : MatLayout) (ref : CA) (sub : LCA) (cells : CA) (dir : Nat → Int) (S : List (Nat → Int)) (level : Nat) : Option (List Int) :=
  match bdryFaces n ref sub cells dir S level, bdryFacesOpp n ref sub cells dir S level with
  | some a, some b => some ((a ++ b).flatMap (bdryMarks L))
  | _, _ => none

/-- The rows marked by `assemble_scheme` (flux_based_scheme_assembly.hpp:135-217), in the loops of `assembleScheme`. -/
def schemeMarks (n : Nat) (L : MatLayout) (ref : CA) (sub : LCA) (cells : CA) (maxL : Nat) (bdry : Bool) (S : Nat → List (Nat → Int)) : Option (List Int) :=
  match overLevels (fun d => (interiorFaces n ref cells maxL (cartesianDir d) (S d)).map fun fs => fs.flatMap (faceMarks L)) (List.range (n + 1)),
    (if bdry then overLevels (fun d => overLevels (bdryLevelMarks n L ref sub cells (cartesianDir d) (S d)) cells.usedLevels) (List.range (n + 1)) else some []) with
  | some a, some b => some (a ++ b)
  | _, _ => none

/-! ### the boundary conditions -/

/-- The stencil of `dirichlet_config(direction)` and `neumann_config(direction)` (FV_scheme.hpp:251-263, 310-322): the entry of `directional_stencils<dim, 1>()` with this
direction; `none` is the failed assertion. -/
def bdryStencil (n : Nat) (dir : Nat → Int) : Option (List (Nat → Int)) :=
  match directionalStencils n 1 with
  | none => none
  | some l => ((l.filterMap id).find? fun e => (List.range (n + 1)).all fun k => dir k == e.1 k).map Prod.snd

/-- The equation of a condition (FV_scheme.hpp:265-306, 324-355): the coefficients of the cell, of the interior cell and of the ghost (multiples of the identity), the
coefficient of the right-hand side. `none` for the other conditions ("Unknown boundary condition type"). -/
def bcEquation (h0 : K) (level : Nat) : BcKind → Option ((Nat → K) × K)
  | .dirichlet 1 => some (fun c => [1 / 2, 0, 1 / 2].getD c 0, 1)
  | .neumann => some (fun c => [-1, 0, 1].getD c 0, cellLength h0 level)
  | _ => none

/-- A boundary condition of a field with `m` components in dimension `n + 1`: its type, the function `value` of the direction, the inner cell and the coordinates of
the centre of the face (bc.hpp:594-660, 744-747), its region. -/
structure FieldBc (K : Type) (n m : Nat) where
  kind : BcKind
  value : (Nat → Int) → Cell K (n + 1) → (Fin (n + 1) → K) → Fin m → K
  region : List ((Nat → Int) × LCA)

/-- The cell handed to the user. -/
def userCell (n : Nat) (origin : Fin (n + 1) → K) (h0 : K) (c : MCell) : Cell K (n + 1) :=
  Cell.mk' origin h0 c.level (fun d => toPt c.pt d) c.index

/-- `bc->value({}, {}, boundary_point)` (FV_scheme_assembly.hpp:551-577): a direction of zeros and a cell that is not the cell of the boundary. -/
def FieldBc.implicitValue {n m : Nat} (origin : Fin (n + 1) → K) (h0 : K) (b : FieldBc K n m) (dir : Nat → Int) (c : MCell) : Fin m → K :=
  b.value (fun _ => 0) ⟨fun _ => 0, 0, fun _ => 0, 0, 0⟩ fun i => (userCell n origin h0 c).faceCenter (fun d => dir d) i

/-- `bc.value(direction, cell_in, face_coords)` (bc.hpp:866-884): the value that the explicit schemes use. -/
def FieldBc.explicitValue {n m : Nat} (origin : Fin (n + 1) → K) (h0 : K) (b : FieldBc K n m) (dir : Nat → Int) (c : MCell) : Fin m → K :=
  b.value dir (userCell n origin h0 c) fun i => (userCell n origin h0 c).faceCenter (fun d => dir d) i

/-- A call of `assemble_bc` and `enforce_bc`: the condition, the direction, the level, the cells of the stencil. -/
structure BcCall (K : Type) (n m : Nat) where
  bc : FieldBc K n m
  dir : Nat → Int
  level : Nat
  cells : List MCell

/-- `for_each_stencil_on_boundary` (boundary.hpp:44-75) for one direction of a condition (FV_scheme_assembly.hpp:394-436): nothing for a diagonal direction or for a condition
without equation. -/
def bcCallsDir (n : Nat) {m : Nat} (h0 : K) (ref cells : CA) (b : FieldBc K n m) (d : (Nat → Int) × LCA) : Option (List (BcCall K n m)) :=
  if numberOfOne n d.1 = 1 ∧ (bcEquation h0 0 b.kind).isSome then
    match bdryStencil n d.1 with
    | none => none
    | some S => overLevels (fun level =>
        (stencilsOf n ref S (.op .inter (.leaf (.mesh (cells.lca level))) (.leaf (.mesh d.2))) level).map fun l => l.map fun cs => ⟨b, d.1, level, cs⟩) cells.usedLevels
  else some []

/-- A loop whose turns give lists. -/
def overList {α β : Type} (f : α → Option (List β)) : List α → Option (List β)
  | [] => some []
  | a :: l => match f a, overList f l with
    | some x, some y => some (x ++ y)
    | _, _ => none

/-- The loops of `assemble_boundary_conditions` and `enforce_bc` (FV_scheme_assembly.hpp:388-437, 496-541). -/
def bcCalls (n : Nat) {m : Nat} (h0 : K) (ref cells : CA) (bcs : List (FieldBc K n m)) : Option (List (BcCall K n m)) :=
  overList (fun b => overList (bcCallsDir n h0 ref cells b) b.region) bcs

/-- `MatSetValue(A, row, col, value, INSERT_VALUES)`. -/
def matInsert (A : Int → Int → K) (e : MatEntry K) : Int → Int → K := fun r c => if r = e.1 ∧ c = e.2.1 then e.2.2 else A r c

/-- `assemble_bc` (FV_scheme_assembly.hpp:441-472): the row of the equation is `col_index(ghost, field_i)`. -/
def bcEntriesOf [DecidableEq K] {n m : Nat} (h0 : K) (L : MatLayout) (call : BcCall K n m) : List (MatEntry K) :=
  match bcEquation h0 call.level call.bc.kind with
  | none => []
  | some eq => (List.range 3).flatMap fun c => (List.range m).flatMap fun i =>
      if eq.1 c ≠ 0 then [(L.col (cellAt call.cells 2).index i, L.col (cellAt call.cells c).index i, eq.1 c)] else []

/-- `insert_value_on_diag_for_useless_ghosts` (FV_scheme_assembly.hpp:606-636): `m_is_row_empty` has `matrix_rows()` entries. -/
def uselessRows (L : MatLayout) (marked : List Int) : List Nat := (List.range (L.nCells * L.outSize)).filter fun i => L.rowShift + (i : Int) ∉ marked

/-- `assemble_matrix` (matrix_assembly.hpp:211-245) after `assemble_scheme`, which has made the calls `E` and marked the rows `R`: the boundary conditions, the ghosts without
equation (`diag` is `m_diag_value_for_useless_ghosts`). The projection and the prediction have no rows: their ghosts are eliminated. Also the rows that are not empty. -/
def finishMatrix [DecidableEq K] (n : Nat) (h0 diag : K) (L : MatLayout) {m : Nat} (ref cells : CA) (bcs : List (FieldBc K n m)) (E : List (MatEntry K)) (R : List Int) :
    Option ((Int → Int → K) × List Int) :=
  (bcCalls n h0 ref cells bcs).map fun B =>
    let T := B.flatMap (bcEntriesOf h0 L)
    let marked := R ++ T.map Prod.fst
    (((uselessRows L marked).map fun (i : Nat) => (L.rowShift + (i : Int), L.colShift + (i : Int), diag)).foldl matInsert (T.foldl matInsert (schemeMatrix E)), marked)

/-- `assemble_matrix` (matrix_assembly.hpp:211-245) of a flux-based scheme. -/
def assembleMatrix [DecidableEq K] (n : Nat) (h0 diag : K) (L : MatLayout) (rec : GhostMap K) {m p : Nat} (ref : CA) (sub : LCA) (cells : CA) (maxL : Nat) (bdry : Bool)
    (S : Nat → List (Nat → Int)) (C : Nat → Nat → List MCell → List ((Fin m → K) →ₗ[K] (Fin p → K))) (bcs : List (FieldBc K n m)) :
    Option ((Int → Int → K) × List Int) :=
  match assembleScheme n h0 L rec ref sub cells maxL bdry S C, schemeMarks n L ref sub cells maxL bdry S with
  | some E, some R => finishMatrix n h0 diag L ref cells bcs E R
  | _, _ => none

/-! ### the right-hand side -/

/-- `VecSetValue(b, row, value, INSERT_VALUES)`. -/
def vecInsert (b : Int → K) (e : Int × K) : Int → K := fun r => if r = e.1 then e.2 else b r

/-- `enforce_bc` for one stencil (FV_scheme_assembly.hpp:544-590). -/
def bcRhsOf {n m : Nat} (origin : Fin (n + 1) → K) (h0 : K) (L : MatLayout) (call : BcCall K n m) : List (Int × K) :=
  match bcEquation h0 call.level call.bc.kind with
  | none => []
  | some eq => (List.finRange m).map fun (i : Fin m) =>
      (L.row (cellAt call.cells 2).index i, eq.2 * call.bc.implicitValue origin h0 call.dir (cellAt call.cells 0) i)

/-- `for_each_cell(mesh, set, f)` (algorithm.hpp:327-358) for the set `e.on(level)`: the numbers of the cells. -/
def setNumbers (n : Nat) (ref : CA) (e : Expr Node) (level : Nat) : Option (List Int) :=
  match runSet n e level with
  | none => none
  | some calls => facesOf (fun c => (getIndex (ref.lca level) n c.1 c.2.start).map fun a => (List.range c.2.size).map fun (ii : Nat) => a + (ii : Int)) calls

/-- `for_each_projection_ghost` and `for_each_prediction_ghost` (indices.hpp:36-52, 160-175): the numbers of the ghosts. -/
def eliminatedGhosts (n : Nat) (ref cag cells : CA) : Option (List Int) :=
  match overLevels (fun l => setNumbers n ref (.op .inter (.leaf (.mesh (cag.lca l))) (.leaf (.mesh (cells.lca (l + 1))))) l)
      (List.range' cells.minLevel (cells.maxLevel - cells.minLevel)),
    overLevels (fun l => setNumbers n ref (.op .inter (.leaf (.mesh (cag.lca l))) (.leaf (.mesh (cells.lca (l - 1))))) l)
      (List.range' (cells.minLevel + 1) (cells.maxLevel - cells.minLevel)) with
  | some a, some b => some (a ++ b)
  | _, _ => none

/-- `prepare_rhs_and_solve` before the solver (linear_solver.hpp:173-183): `enforce_bc`, `enforce_projection_prediction` (FV_scheme_assembly.hpp:716-737),
`set_0_for_useless_ghosts` (FV_scheme_assembly.hpp:638-647). `marked` are the rows that are not empty. -/
def prepareRhs (n : Nat) (origin : Fin (n + 1) → K) (h0 : K) (L : MatLayout) {m : Nat} (ref cag cells : CA) (bcs : List (FieldBc K n m)) (marked : List Int)
    (b : Int → K) : Option (Int → K) :=
  match bcCalls n h0 ref cells bcs, eliminatedGhosts n ref cag cells with
  | some B, some G => some ((B.flatMap (bcRhsOf origin h0 L) ++ (G.flatMap fun k => (List.range L.outSize).map fun i => (L.row k i, 0)) ++
      (uselessRows L marked).map fun (i : Nat) => (L.rowShift + (i : Int), 0)).foldl vecInsert b)
  | _, _ => none

end

end Samurai
