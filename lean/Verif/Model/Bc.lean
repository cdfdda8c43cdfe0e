/-
Model of `include/samurai/bc.hpp`: the boundary conditions. `n` is `dim - 1`; a field is the array of its values, addressed by the number of
the cell in the reference mesh; all the values are exact. Sequential code (no MPI).
-/
import Verif.Model.Stencil
import Verif.Model.Cell

namespace Samurai

/-! ### regions -/

/-- The vectors visited by `static_nested_loop<dim, -1, 2>` (static_algorithm.hpp:12-51), in order: the first loop is on the last coordinate. -/
def boxDirections (n : Nat) : List (Nat → Int) :=
  (nestedIndices 3 (n + 1)).map fun st k => if k ≤ n then st.reverse.getD k 0 - 1 else 0

/-- `xt::sum(xt::abs(stencil))[0]` (bc.hpp:369). -/
def numberOfOne (n : Nat) (dir : Nat → Int) : Nat := ((List.range (n + 1)).map fun k => (dir k).natAbs).sum

/-- `LevelCellArray(set)` (level_cell_array.hpp:320-332). -/
def lcaOfSet (n : Nat) (e : Expr Node) : Option LCA :=
  match runDefault n e with
  | none => none
  | some calls => some (lcaOfCalls n (mkSet e).ref calls)

/-- The vector with the coordinate `d` of `-a * dir` and zeros, e.g. `direction_t{0, -stencil[1]}` (bc.hpp:385-392, 1021-1030). -/
def axisPart (a : Int) (dir : Nat → Int) (d : Nat) : Nat → Int := fun k => if k = d then - a * dir d else 0

/-- `difference(domain, translate(domain, -a * dir))` (bc.hpp:377, 1013). -/
def faceSet (dom : LCA) (a : Int) (dir : Nat → Int) : Expr Node :=
  .op .diff (.leaf (.mesh dom)) (.leaf (.translate (.mesh dom) fun k => - a * dir k))

/-- `difference(domain, union_(translate(domain, ...), ...))` with one translate for each coordinate (bc.hpp:383-393, 1020-1031); dimensions 2
and 3 (`n = 1, 2`). -/
def cornerSet (n : Nat) (dom : LCA) (a : Int) (dir : Nat → Int) : Expr Node :=
  .op .diff (.leaf (.mesh dom)) (unionAll (.translate (.mesh dom) (axisPart a dir 0))
    ((List.range n).map fun d => .translate (.mesh dom) (axisPart a dir (d + 1))))

/-- One direction of `Everywhere::get_region` and of `OnDirection::get_region` (bc.hpp:369-394, 421-446): nothing for the zero vector. In
dimension 4 and more the list of the directions would be longer than the list of the regions (`none`). -/
def directionRegion (n : Nat) (dom : LCA) (dir : Nat → Int) : Option (List ((Nat → Int) × LCA)) :=
  if numberOfOne n dir = 0 then some []
  else if numberOfOne n dir = 1 then (lcaOfSet n (faceSet dom 1 dir)).map fun L => [(dir, L)]
  else if n = 1 ∨ n = 2 then (lcaOfSet n (cornerSet n dom 1 dir)).map fun L => [(dir, L)]
  else none

/-- `OnDirection::get_region` (bc.hpp:413-450): the directions with their regions. -/
def onDirectionRegion (n : Nat) (dom : LCA) : List (Nat → Int) → Option (List ((Nat → Int) × LCA))
  | [] => some []
  | dir :: dirs =>
    match directionRegion n dom dir, onDirectionRegion n dom dirs with
    | some a, some b => some (a ++ b)
    | _, _ => none

/-- `Everywhere::get_region` (bc.hpp:360-398). -/
def everywhereRegion (n : Nat) (dom : LCA) : Option (List ((Nat → Int) × LCA)) := onDirectionRegion n dom (boxDirections n)

/-- One direction of `CoordsRegion::get_region` (bc.hpp:482-509): the boundary cells whose face centre satisfies the function of the user; `f dir p`
is its value on the face of the cell `p` in the direction `dir` (the numbers of the cells, found by `for_each_cell(domain, ...)`, are not used). -/
def coordsDirection (n : Nat) (dom : LCA) (f : (Nat → Int) → List Int → Bool) (dir : Nat → Int) : Option (List ((Nat → Int) × LCA)) :=
  if numberOfOne n dir = 1 then
    match runDefault n (faceSet dom 1 dir) with
    | none => none
    | some calls =>
      let picked := (callCells calls).filter (f dir)
      if picked.isEmpty then some []
      else some [(dir, LCA.ofList (runCellCalls n dom.level (picked.map fun p => .cell p.dropLast (p.getLastD 0))))]
  else some []

/-- `CoordsRegion::get_region` (bc.hpp:473-511). -/
def coordsRegion (n : Nat) (dom : LCA) (f : (Nat → Int) → List Int → Bool) : List (Nat → Int) → Option (List ((Nat → Int) × LCA))
  | [] => some []
  | dir :: dirs =>
    match coordsDirection n dom f dir, coordsRegion n dom f dirs with
    | some a, some b => some (a ++ b)
    | _, _ => none

/-! ### formulas -/

section
variable {K : Type} [Field K]

/-- `cells[i]` of a `std::array` (the index is always in range). -/
def cellAt (cells : List MCell) (i : Nat) : MCell := cells.getD i ⟨0, [], 0, 0⟩

/-- `u[cells[i]]`. -/
def readAt (u : Int → K) (cells : List MCell) (i : Nat) : K := u (cellAt cells i).index

/-- `u[cells[i]] = v`. -/
def writeAt (u : Int → K) (cells : List MCell) (i : Nat) (v : K) : Int → K :=
  fun j => if j = (cellAt cells i).index then v else u j

/-- The right-hand sides of `DirichletImpl` (bc.hpp:1054-1114): the value of `u[cells[i]]`; `v` is the boundary value, `a j` is `u[cells[j]]`. -/
def dirichletRow : Nat → Nat → K → (Nat → K) → K
  | 1, 1, v, a => 2 * v - a 0
  | 2, 2, v, a => 8 / 3 * v + 1 / 3 * a 0 - 2 * a 1
  | 2, 3, v, a => 8 * v + 2 * a 0 - 9 * a 1
  | 3, 3, v, a => 16 / 5 * v - 1 / 5 * a 0 + a 1 - 3 * a 2
  | 3, 4, v, a => 64 / 5 * v - 9 / 5 * a 0 + 8 * a 1 - 18 * a 2
  | 3, 5, v, a => 32 * v - 6 * a 0 + 25 * a 1 - 50 * a 2
  | 4, 4, v, a => 128 / 35 * v + 1 / 7 * a 0 - 4 / 5 * a 1 + 2 * a 2 - 4 * a 3
  | 4, 5, v, a => 128 / 7 * v + 12 / 7 * a 0 - 9 * a 1 + 20 * a 2 - 30 * a 3
  | 4, 6, v, a => 384 / 7 * v + 50 / 7 * a 0 - 36 * a 1 + 75 * a 2 - 100 * a 3
  | 4, 7, v, a => 128 * v + 20 * a 0 - 98 * a 1 + 196 * a 2 - 245 * a 3
  | _, i, _, a => a i

/-- The boundary conditions of the library: `Dirichlet<order>` (bc.hpp:1040-1128) and `Neumann<1>` (bc.hpp:1130-1165). -/
inductive BcKind
  | dirichlet (order : Nat)
  | neumann

/-- `stencil_size()` (bc.hpp:1043, 1133). -/
def BcKind.stencilSize : BcKind → Nat
  | dirichlet order => 2 * order
  | neumann => 2

/-- The function returned by `get_apply_function` (bc.hpp:1050-1120, 1140-1157): the assignments one after the other. `h0` is the length of a
cell of level 0. -/
def BcKind.apply (h0 : K) : BcKind → (Int → K) → List MCell → K → Int → K
  | dirichlet order, u, cells, v =>
    (List.range' order order).foldl (fun u i => writeAt u cells i (dirichletRow order i v (readAt u cells))) u
  | neumann, u, cells, v => writeAt u cells 1 (cellLength h0 (cellAt cells 1).level * v + readAt u cells 0)

/-- The right-hand side of `PolynomialExtrapolation` (bc.hpp:1218-1230), stencil of `size` cells, `size` is 2, 4 or 6. -/
def extrapolationRow : Nat → (Nat → K) → K
  | 2, a => a 0
  | 4, a => a 0 - a 1 * 3 + a 2 * 3
  | 6, a => a 0 - a 1 * 5 + a 2 * 10 - a 3 * 10 + a 4 * 5
  | size, a => a (size - 1)

/-- The function of `PolynomialExtrapolation` (bc.hpp:1177-1232). -/
def applyExtrapolation (size : Nat) (u : Int → K) (cells : List MCell) : Int → K :=
  writeAt u cells (size - 1) (extrapolationRow size (readAt u cells))

/-! ### application -/

/-- A boundary condition attached to a field (bc.hpp:594-660): its type, its value (constant, or a function of the direction and of the inner
cell; the coordinates of the centre of the face are determined by them) and its region. -/
structure BcCond (K : Type) where
  kind : BcKind
  value : (Nat → Int) → MCell → K
  region : List ((Nat → Int) × LCA)

/-- What `update_bc` reads from the mesh: `mesh[cells]`, `mesh[reference]`, `domain()`, `min_level()`, `max_level()`, `is_periodic`, the length
of a cell of level 0 and the integers of the configuration. -/
structure BcMesh (K : Type) where
  cells : CA
  ref : CA
  dom : LCA
  minL : Nat
  maxL : Nat
  periodic : Nat → Bool
  h0 : K
  cfg : MeshConfig

/-- `for_each_stencil_sliding_in_interval` (stencil.hpp:648-659): the arrays of cells on which the function is called. -/
def stencilRow (n : Nat) (ref : CA) (S : List (Nat → Int)) (level : Nat) (c : Call) : Option (List (List MCell)) :=
  (stencilInit n ref S level c).map (slide stencilNext c.2.size)

/-- `for_each_stencil(mesh, set, stencil, f)` (stencil.hpp:693-709) for the set `e.on(level)`. -/
def stencilsOf (n : Nat) (ref : CA) (S : List (Nat → Int)) (e : Expr Node) (level : Nat) : Option (List (List MCell)) :=
  match runSet n e level with
  | none => none
  | some calls => facesOf (stencilRow n ref S level) calls

/-- `__apply_bc_on_subset` (bc.hpp:852-888): `f u cells value` is the apply function, `value` is called on the cell of the origin of the
stencil. -/
def applyOnSubset (n : Nat) (ref : CA) (level : Nat) (S : List (Nat → Int)) (e : Expr Node) (f : (Int → K) → List MCell → K → Int → K)
    (value : MCell → K) (u : Int → K) : Option (Int → K) :=
  match stencilOrigin n S, stencilsOf n ref S e level with
  | some o, some l => some (l.foldl (fun u cells => f u cells (value (cellAt cells o))) u)
  | _, _ => none

/-- `is_periodic` in `apply_bc_impl` and `apply_extrapolation_bc_impl` (bc.hpp:906-914, 996-1004). -/
def touchesPeriodic (n : Nat) (periodic : Nat → Bool) (dir : Nat → Int) : Bool :=
  (List.range (n + 1)).any fun i => dir i != 0 && periodic i

/-- `translate(mesh[reference][level], -(stencil_size / 2) * direction)` (bc.hpp:931). -/
def outerNeighbours (ref : CA) (level size : Nat) (dir : Nat → Int) : Expr Node :=
  .leaf (.translate (.mesh (ref.lca level)) fun k => - ((size / 2 : Nat) : Int) * dir k)

/-- One direction of `apply_bc_impl` (bc.hpp:906-938). The operands of `difference` are set expressions: their `on(level)` has no effect
(C21). -/
def applyBcDir (n : Nat) (M : BcMesh K) (b : BcCond K) (level : Nat) (u : Int → K) (d : (Nat → Int) × LCA) : Option (Int → K) :=
  if touchesPeriodic n M.periodic d.1 || !isCartesian n d.1 then some u
  else
    let S := convertForDirection n (lineStencil 0 b.kind.stencilSize) d.1
    let bdry : Expr Node := .op .inter (.leaf (.mesh (M.cells.lca level))) (.leaf (.mesh d.2))
    match applyOnSubset n M.ref level S bdry (b.kind.apply M.h0) (b.value d.1) u with
    | none => none
    | some u =>
      if M.minL ≠ M.maxL then
        applyOnSubset n M.ref level S (.op .diff (.op .inter (outerNeighbours M.ref level b.kind.stencilSize d.1) (.leaf (.mesh d.2))) bdry)
          (b.kind.apply M.h0) (b.value d.1) u
      else some u

/-- `apply_bc_impl` (bc.hpp:890-940). -/
def applyBc (n : Nat) (M : BcMesh K) (b : BcCond K) (level : Nat) (u : Int → K) : Option (Int → K) :=
  b.region.foldlM (applyBcDir n M b level) u

/-- `__apply_extrapolation_bc_on_subset` (bc.hpp:942-977). -/
def applyExtrapolationOn (n : Nat) (M : BcMesh K) (size level : Nat) (dir : Nat → Int) (subset : Expr Node) (onlyGhosts : Bool)
    (u : Int → K) : Option (Int → K) :=
  let S := convertForDirection n (lineStencil 0 size) dir
  let bdry : Expr Node := .op .inter (.leaf (.mesh (M.cells.lca level))) subset
  match (if onlyGhosts then some u
      else applyOnSubset n M.ref level S (.op .inter (outerNeighbours M.ref level size dir) bdry) (fun u c _ => applyExtrapolation size u c)
        (fun _ => 0) u) with
  | none => none
  | some u =>
    applyOnSubset n M.ref level S (.op .diff (.op .inter (outerNeighbours M.ref level size dir) subset) bdry)
      (fun u c _ => applyExtrapolation size u c) (fun _ => 0) u

/-- One direction of `apply_extrapolation_bc_impl` (bc.hpp:992-1036). A level finer than the domain is a shift by a negative number. -/
def applyExtrapolationDir (n : Nat) (M : BcMesh K) (size level : Nat) (diagonalsOnly onlyGhosts : Bool) (u : Int → K) (dir : Nat → Int) :
    Option (Int → K) :=
  if numberOfOne n dir = 0 || touchesPeriodic n M.periodic dir then some u
  else if diagonalsOnly && isCartesian n dir then some u
  else if isCartesian n dir then
    applyExtrapolationOn n M size level dir (faceSet M.dom (2 ^ (M.dom.level - level)) dir) onlyGhosts u
  else if n = 1 ∨ n = 2 then
    applyExtrapolationOn n M size level dir (cornerSet n M.dom (2 ^ (M.dom.level - level)) dir) onlyGhosts u
  else some u

/-- `apply_extrapolation_bc_impl` (bc.hpp:979-1038). -/
def applyExtrapolationBc (n : Nat) (M : BcMesh K) (size level : Nat) (diagonalsOnly onlyGhosts : Bool) (u : Int → K) : Option (Int → K) :=
  if M.dom.level < level then none
  else (boxDirections n).foldlM (applyExtrapolationDir n M size level diagonalsOnly onlyGhosts) u

/-- The turn of the loops on the ghost layers (bc.hpp:1257-1278, 1313-1336): the largest stencil of `PolynomialExtrapolation` has 6 cells. -/
def extrapolationLayer (n : Nat) (M : BcMesh K) (level : Nat) (layers : Nat) (diagonalsOnly : Nat → Bool) (onlyGhosts : Bool) (u : Int → K)
    (layer : Nat) : Option (Int → K) :=
  if 2 * layer ≤ min 6 (2 * layers) then applyExtrapolationBc n M (2 * layer) level (diagonalsOnly layer) onlyGhosts u else some u

/-- Step 0 of `update_bc` (bc.hpp:1252-1280). -/
def updateBcGhosts (n : Nat) (M : BcMesh K) (level : Nat) (u : Int → K) : Option (Int → K) :=
  if M.cfg.maxStencilWidth > M.cfg.predictionOrder ∧ M.minL ≠ M.maxL then
    (List.range' 1 M.cfg.predictionOrder).foldlM (extrapolationLayer n M level M.cfg.predictionOrder (fun _ => false) true) u
  else some u

/-- Step 1 of `update_bc` (bc.hpp:1286-1300): a stencil with no cell or more than 10 is not applied. -/
def updateBcUser (n : Nat) (M : BcMesh K) (bcs : List (BcCond K)) (level : Nat) (u : Int → K) : Option (Int → K) :=
  bcs.foldlM (fun u b => if 1 ≤ b.kind.stencilSize ∧ b.kind.stencilSize ≤ 10 then applyBc n M b level u else some u) u

/-- `real_max_stencil_size` (bc.hpp:1284, 1299). -/
def maxStencilSize (bcs : List (BcCond K)) : Nat := bcs.foldl (fun s b => Nat.max s b.kind.stencilSize) 0

/-- Step 2 of `update_bc` (bc.hpp:1313-1336). -/
def updateBcLayers (n : Nat) (M : BcMesh K) (bcs : List (BcCond K)) (level : Nat) (u : Int → K) : Option (Int → K) :=
  (List.range' 1 M.cfg.ghostWidth).foldlM
    (extrapolationLayer n M level M.cfg.ghostWidth (fun layer => decide (layer ≤ maxStencilSize bcs / 2)) false) u

/-- `update_bc(level, field)` (bc.hpp:1235-1338); `bcs` is `field.get_bc()`. -/
def updateBc (n : Nat) (M : BcMesh K) (bcs : List (BcCond K)) (level : Nat) (u : Int → K) : Option (Int → K) :=
  match updateBcGhosts n M level u with
  | none => none
  | some u =>
    match updateBcUser n M bcs level u with
    | none => none
    | some u => updateBcLayers n M bcs level u

end

end Samurai
