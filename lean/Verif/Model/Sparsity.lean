/-
Model of the preallocation of the matrix: `create_matrix` (petsc/matrix_assembly.hpp:164-205) and the `sparsity_pattern_*` of the flux-based schemes, of the cell-based schemes, of
the sums of schemes, of the boundary conditions and of the ghosts; and of the places where `assemble_matrix` writes. PETSc allocates `nnz[row]` places for each row and refuses a
new one when they are used (`MAT_NEW_NONZERO_ALLOCATION_ERR` is left as it is); a 0 that is written takes a place (`MAT_IGNORE_ZERO_ENTRIES` is off). `n` is `dim - 1`.
-/
import Verif.Model.CellScheme

namespace Samurai

/-- `nnz[row] += v`. -/
def nnzAdd (z : Int → Nat) (e : Int × Nat) : Int → Nat := fun r => if r = e.1 then z r + e.2 else z r

/-- `nnz[row] = v`. -/
def nnzSet (z : Int → Nat) (e : Int × Nat) : Int → Nat := fun r => if r = e.1 then e.2 else z r

section
variable {K : Type} [Field K]

/-! ### what is announced -/

/-- The places counted for one cell of the stencil: 1, or the size of its combination if it is an eliminated ghost (flux_based_scheme_assembly.hpp:79-97). -/
def combSize (rec : GhostMap K) (c : MCell) : Nat :=
  match rec.find c.index with
  | none => 1
  | some l => l.length

/-- The callback of the interior interfaces (flux_based_scheme_assembly.hpp:71-107). -/
def facePattern (L : MatLayout) (rec : GhostMap K) (f : FaceCall) : List (Int × Nat) :=
  (List.range L.outSize).flatMap fun i => (List.range L.inSize).flatMap fun _ => f.comput.flatMap fun c =>
    [(L.row f.left.index i, combSize rec c * L.inSize), (L.row f.right.index i, combSize rec c * L.inSize)]

/-- The callback of the boundary interfaces (flux_based_scheme_assembly.hpp:115-125). -/
def bdryPattern (L : MatLayout) (size : Nat) (f : BdryCall) : List (Int × Nat) :=
  (List.range L.outSize).flatMap fun i => (List.range L.inSize).map fun _ => (L.row f.cell.index i, size * L.inSize)

/-- `for_each_boundary_interface__both_directions` (interface.hpp:429-464), one level. -/
def bdryLevelPattern (n : Nat) (L : MatLayout) (ref : CA) (sub : LCA) (cells : CA) (dir : Nat → Int) (S : List (Nat → Int)) (level : Nat) : Option (List (Int × Nat)) :=
  match bdryFaces n ref sub cells dir S level, bdryFacesOpp n ref sub cells dir S level with
  | some a, some b => some ((a ++ b).flatMap (bdryPattern L S.length))
  | _, _ => none

/-- `sparsity_pattern_scheme` of a flux-based scheme (flux_based_scheme_assembly.hpp:62-129). -/
def fluxPattern (n : Nat) (L : MatLayout) (rec : GhostMap K) (ref : CA) (sub : LCA) (cells : CA) (maxL : Nat) (bdry : Bool) (S : Nat → List (Nat → Int)) :
    Option (List (Int × Nat)) :=
  overLevels (fun d =>
    match interiorFaces n ref cells maxL (cartesianDir d) (S d),
      (if bdry then overLevels (bdryLevelPattern n L ref sub cells (cartesianDir d) (S d)) cells.usedLevels else some []) with
    | some fs, some b => some (fs.flatMap (facePattern L rec) ++ b)
    | _, _ => none) (List.range (n + 1))

/-- An operator and, for a cell-based one, `cfg_t::contiguous_indices_start` and `cfg_t::contiguous_indices_size`. -/
structure PatOp (K : Type) [Field K] (m p : Nat) where
  op : LinOp K m p
  start : Nat
  size : Nat

/-- `cell_coeff(coeffs, c, i, j)`. -/
def coeffAt {m p : Nat} (A : List ((Fin m → K) →ₗ[K] (Fin p → K))) (c : Nat) (i : Fin p) (j : Fin m) : K := cellCoeff (A.getD c 0) i j

/-- `scheme_nnz_i` (cell_based_scheme_assembly.hpp:97-139): with fields stored component by component, the coefficients for a cell of length 1 that are not 0; the loop on the
contiguous indices reads the coefficients from the index 0. -/
def cellRowNnz [DecidableEq K] (L : MatLayout) {m p : Nat} (start size : Nat) (cd : CellDef K (Fin m → K) (Fin p → K)) (i : Fin p) : Nat :=
  if L.soa = true then
    let A := cd.coeffs (cellLength 1 0)
    ((List.finRange m).map fun (j : Fin m) =>
      ((List.range start).filter fun c => coeffAt A c i j ≠ 0).length +
      (if (List.range size).any fun c => coeffAt A c i j ≠ 0 then size else 0) +
      ((List.range' (start + size) (cd.stencil.length - (start + size))).filter fun c => coeffAt A c i j ≠ 0).length).sum
  else cd.stencil.length * L.inSize

/-- `sparsity_pattern_scheme` of a cell-based scheme (cell_based_scheme_assembly.hpp:88-148). The numbers of the cells are those of `for_each_cell`. -/
def cellPattern [DecidableEq K] (n : Nat) (L : MatLayout) {m p : Nat} (cells : CA) (start size : Nat) (cd : CellDef K (Fin m → K) (Fin p → K)) : Option (List (Int × Nat)) :=
  if cd.stencil.length = 0 then some []
  else (forEachCellCA n (fun (trace : List (Nat × List Int × Int)) l q k => trace ++ [(l, q, k)]) cells []).map fun ks =>
    (List.finRange p).flatMap fun (i : Fin p) => ks.map fun e => (L.row e.2.2 i, cellRowNnz L start size cd i)

/-- `sparsity_pattern_scheme` of an operator. -/
def PatOp.pattern [DecidableEq K] {m p : Nat} (n : Nat) (L : MatLayout) (rec : GhostMap K) (ref : CA) (sub : LCA) (cells : CA) (maxL : Nat) (o : PatOp K m p) :
    Option (List (Int × Nat)) :=
  match o.op with
  | .flux ld bdry => fluxPattern n L rec ref sub cells maxL bdry ld.stencil
  | .cell cd => cellPattern n L cells o.start o.size cd

/-- `sparsity_pattern_dirichlet_bc` and `sparsity_pattern_neumann_bc` (FV_scheme_assembly.hpp:326-362): `bdry_stencil_size` is 3, the Dirichlet conditions are equations. -/
def bcPattern (L : MatLayout) {n m : Nat} (call : BcCall K n m) : List (Int × Nat) :=
  (List.range L.outSize).map fun i => (L.row (cellAt call.cells 2).index i, 3)

/-- `sparsity_pattern_projection` and `sparsity_pattern_prediction` (FV_scheme_assembly.hpp:671-722) for one ghost: `m_ghost_recursion.at` throws if there is no combination. -/
def ghostPattern (L : MatLayout) (rec : GhostMap K) (k : Int) : Option (List (Int × Nat)) :=
  (rec.find k).map fun l => (List.range L.outSize).map fun i => (L.row k i, l.length)

/-- `sparsity_pattern_useless_ghosts` (matrix_assembly.hpp:300-310): 1 where nothing is announced. -/
def uselessPattern (L : MatLayout) (z : Int → Nat) : Int → Nat := fun r =>
  if L.rowShift ≤ r ∧ r < L.rowShift + ((L.nCells * L.outSize : Nat) : Int) ∧ z r = 0 then 1 else z r

/-- `create_matrix` (matrix_assembly.hpp:164-205) of a sum of operators (operator_sum_assembly.hpp:156-178): the operator with the largest stencil announces. A scheme that is alone
is the sum of one operator. -/
def createMatrix [DecidableEq K] (n : Nat) (h0 : K) (L : MatLayout) (rec : GhostMap K) {m p : Nat} (ref : CA) (sub : LCA) (cag cells : CA) (maxL : Nat) (ops : List (PatOp K m p))
    (bcs : List (FieldBc K n m)) : Option (Int → Nat) :=
  match (ops[largestIndex (ops.map fun o => o.op.stencilSize)]?).bind (PatOp.pattern n L rec ref sub cells maxL), bcCalls n h0 ref cells bcs,
    (eliminatedGhosts n ref cag cells).bind (overList (ghostPattern L rec)) with
  | some P, some B, some G => some (uselessPattern L (G.foldl nnzSet ((B.flatMap (bcPattern L)).foldl nnzSet (P.foldl nnzAdd fun _ => 0))))
  | _, _, _ => none

/-! ### where the matrix is written -/

/-- The callback of `assemble_scheme` (cell_based_scheme_assembly.hpp:166-296): the places, with the calls that are skipped. The coefficients out of the contiguous indices are skipped if
they are 0 and not on the diagonal; the others never. -/
def cellPlaces [DecidableEq K] (L : MatLayout) {m p : Nat} (start size center : Nat) (c : List MCell × List ((Fin m → K) →ₗ[K] (Fin p → K))) : List (Int × Int) :=
  if m = 1 ∨ L.soa = true then
    (List.finRange p).flatMap fun (i : Fin p) => (List.finRange m).flatMap fun (j : Fin m) =>
      let row := L.row (cellAt c.1 center).index i
      let col := fun k => L.col (cellAt c.1 k).index j
      let kept := fun k => decide (coeffAt c.2 k i j ≠ 0 ∨ row = col k)
      (((List.range start).filter kept) ++ List.range' start size ++ ((List.range' (start + size) (c.1.length - (start + size))).filter kept)).map fun k => (row, col k)
  else (List.range c.1.length).flatMap fun k => (List.finRange p).flatMap fun (i : Fin p) => (List.finRange m).map fun (j : Fin m) =>
    (L.row (cellAt c.1 center).index i, L.col (cellAt c.1 k).index j)

/-- The places where `assemble_scheme` of an operator writes. -/
def PatOp.places [DecidableEq K] {m p : Nat} (n : Nat) (h0 : K) (L : MatLayout) (rec : GhostMap K) (ref : CA) (sub : LCA) (cells : CA) (maxL : Nat) (o : PatOp K m p) :
    Option (List (Int × Int)) :=
  match o.op with
  | .flux ld bdry => (assembleScheme n h0 L rec ref sub cells maxL bdry ld.stencil (ld.flux h0)).map fun E => E.map fun e => (e.1, e.2.1)
  | .cell cd => (cellCalls n h0 ref cells cd).map fun l => l.flatMap (cellPlaces L o.start o.size cd.center)

/-- The places where `assemble_matrix` writes (matrix_assembly.hpp:211-245, operator_sum_assembly.hpp:180-239): the operators, the boundary conditions, the ghosts without equation. -/
def matrixPlaces [DecidableEq K] (n : Nat) (h0 : K) (L : MatLayout) (rec : GhostMap K) {m p : Nat} (ref : CA) (sub : LCA) (cells : CA) (maxL : Nat) (ops : List (PatOp K m p))
    (bcs : List (FieldBc K n m)) : Option (List (Int × Int)) :=
  match overList (PatOp.places n h0 L rec ref sub cells maxL) ops,
    (ops[largestIndex (ops.map fun o => o.op.stencilSize)]?).bind fun o => o.op.marks n h0 L ref sub cells maxL, bcCalls n h0 ref cells bcs with
  | some E, some R, some B =>
    let T := B.flatMap (bcEntriesOf h0 L)
    some (E ++ T.map (fun e => (e.1, e.2.1)) ++ (uselessRows L (R ++ T.map Prod.fst)).map fun (i : Nat) => (L.rowShift + (i : Int), L.colShift + (i : Int)))
  | _, _, _ => none

end

end Samurai
