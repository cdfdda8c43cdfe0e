/-
Model of `include/samurai/algorithm/update.hpp` (lines 685-887): the new mesh built from the tags and the transfer of a field
to it. Sequential code (no MPI). A tag is a 32 bits `int`.
-/
import Verif.Model.Mesh
import Verif.Model.Prediction

namespace Samurai

/-- `CellFlag` (cell_flag.hpp:8-14) converted to `int`. -/
def CellFlag.keep : BitVec 32 := 1#32
def CellFlag.coarsen : BitVec 32 := 2#32
def CellFlag.refine : BitVec 32 := 4#32
def CellFlag.enlarge : BitVec 32 := 8#32

/-- `tag & flag` used as a condition. -/
def flagged (t f : BitVec 32) : Bool := t &&& f != 0#32

/-- The body of the loop on `i` in `update_field_mr` and `update_field` (update.hpp:838-867, 764-794): the calls on `cl` for the
cell `(yz, x)` of level `l` with tag `t`. -/
def updateCell (minL maxL : Nat) (t : BitVec 32) (l : Nat) (yz : List Int) (x : Int) : List (Nat × CellCall) :=
  if flagged t CellFlag.refine then
    if l < maxL then
      (nestedIndices 2 yz.length).map fun st =>
        (l + 1, .interval (List.zipWith (fun y s => 2 * y + s) yz st) (Interval.mk' (2 * x) (2 * x + 2)))
    else [(l, .cell yz x)]
  else if flagged t CellFlag.keep then [(l, .cell yz x)]
  else if flagged t CellFlag.coarsen then
    if l > minL then [(l - 1, .cell (yz.map fun y => shr y 1) (shr x 1))]
    else [(l, .cell yz x)]
  else []

/-- The functor of the `for_each_interval` (update.hpp:832-869): `itag` starts at `interval.start + interval.index`.
`tag` is the tag field as an array (total here: reading it out of bounds is not modelled). -/
def updateInterval (minL maxL : Nat) (tag : Int → BitVec 32) (l : Nat) (yz : List Int) (i : Interval) :
    List (Nat × CellCall) :=
  (List.range (i.stop - i.start).toNat).flatMap fun (k : Nat) =>
    updateCell minL maxL (tag (i.start + i.index + (k : Int))) l yz (i.start + (k : Int))

/-- `cl` after the loop (update.hpp:829-870), as the cells of the mesh built from it. `cells` is `mesh[mesh_id_t::cells]`. -/
def updateLeaves (n minL maxL : Nat) (tag : Int → BitVec 32) (cells : CA) : Option CA :=
  match collectCalls n (updateInterval minL maxL tag) cells with
  | none => none
  | some h =>
    match (CL.new n cells.maxSize).calls h with
    | none => none
    | some cl => some (CA.ofCL cl)

/-! ### fields -/

/-- The cells of a sequence of calls. -/
def callCells (calls : List Call) : List (List Int) := calls.flatMap fun c => (coords1 c.2).map fun x => c.1 ++ [x]

/-- The point with the coordinates of a list (outermost first). -/
def toPt (p : List Int) : Pt := fun d => p.reverse.getD d 0

/-- A field: its value at each cell of each level. (The C++ addresses it by the number of the cell; C25 says that the numbers
are those of the reference mesh.) -/
abbrev CellField (K : Type) := Nat → List Int → K

/-- Write a value in a cell. -/
def CellField.put {K : Type} (f : CellField K) (l : Nat) (p : List Int) (v : K) : CellField K :=
  fun l' p' => if l' = l ∧ p' = p then v else f l' p'

/-- The children of a cell, in the order of the recursion. -/
def childrenOf : List Int → List (List Int)
  | [] => [[]]
  | c :: p => (childrenOf p).flatMap fun q => [(2 * c) :: q, (2 * c + 1) :: q]

section
variable {K : Type} [Field K]

/-- The coordinates of a point in dimension `dim`, outermost first. -/
def ofPt (dim : Nat) (q : Pt) : List Int := ((List.range dim).map q).reverse

/-- The field of one level as a function of the point. -/
def CellField.at (dim : Nat) (f : CellField K) (l : Nat) : Pt → K := fun q => f l (ofPt dim q)

/-- `copy(new_field, field)` on a cell (algorithm/utils.hpp:20-49). -/
def copyCell (f : CellField K) (l : Nat) (new : CellField K) (p : List Int) : CellField K := new.put l p (f l p)

/-- `projection(new_field, field)` on a cell (numeric/projection.hpp:14-44). -/
def projectCell (dim : Nat) (f : CellField K) (l : Nat) (new : CellField K) (p : List Int) : CellField K :=
  new.put l p (project dim (f.at dim (l + 1)) (toPt p))

/-- `prediction<order, true>(new_field, field)` on a cell (numeric/prediction.hpp:365-378, 403-418 ...): writes the children
of the cell at `l + 1`. -/
def predictCell (dim order : Nat) (f : CellField K) (l : Nat) (new : CellField K) (p : List Int) : CellField K :=
  (childrenOf p).foldl (fun new q =>
    new.put (l + 1) q (predictChild dim order (f.at dim l) (toPt p) fun d => isOdd (toPt q d))) new

/-- `set.apply_op(op)`: the operator on all the cells of the set. -/
def applyOp (op : CellField K → List Int → CellField K) (calls : List Call) (new : CellField K) : CellField K :=
  (callCells calls).foldl op new

/-- One turn of the first loop of `update_fields` (update.hpp:704-708). -/
def copyLevel (n : Nat) (cells newCells : CA) (f : CellField K) (new : CellField K) (level : Nat) : Option (CellField K) :=
  match runDefault n (.op .inter (.leaf (.mesh (cells.lca level))) (.leaf (.mesh (newCells.lca level)))) with
  | none => none
  | some calls => some (applyOp (copyCell f level) calls new)

/-- One turn of the second loop of `update_fields` (update.hpp:710-717). -/
def transferLevel (n order : Nat) (cells newCells : CA) (f : CellField K) (new : CellField K) (level : Nat) :
    Option (CellField K) :=
  match runSet n (.op .inter (.leaf (.mesh (cells.lca level))) (.leaf (.mesh (newCells.lca (level - 1))))) (level - 1) with
  | none => none
  | some coarsen =>
    match runSet n (.op .inter (.leaf (.mesh (newCells.lca level))) (.leaf (.mesh (cells.lca (level - 1))))) (level - 1) with
    | none => none
    | some refine =>
      some (applyOp (predictCell (n + 1) order f (level - 1)) refine (applyOp (projectCell (n + 1) f (level - 1)) coarsen new))

/-- `detail::update_fields(new_mesh, field)` (update.hpp:685-720). `new_field` is filled with 0. -/
def updateFields (n order minL maxL : Nat) (cells newCells : CA) (f : CellField K) : Option (CellField K) :=
  match (List.range' minL (maxL + 1 - minL)).foldlM (copyLevel n cells newCells f) (fun _ _ => 0) with
  | none => none
  | some new => (List.range' (minL + 1) (maxL - minL)).foldlM (transferLevel n order cells newCells f) new

/-- `operator==` on meshes with the same level bounds (mesh.hpp:867-885). -/
def meshEq (n minL maxL : Nat) (a b : CA) : Bool := (List.range' minL (maxL + 1 - minL)).all fun l => (a.lca l).beq n (b.lca l)

/-- `update_field_mr(tag, field)` (update.hpp:816-887) on a multiresolution mesh: returned value, sub-meshes, union and field.
`m`, `u` are the sub-meshes and the union of the mesh. -/
def updateFieldMr (n : Nat) (cfg : MeshConfig) (minL maxL : Nat) (tag : Int → BitVec 32) (m : SubMeshes) (u : CA)
    (f : CellField K) : Option (Bool × SubMeshes × CA × CellField K) :=
  match updateLeaves n minL maxL tag m.cells with
  | none => none
  | some cells =>
    match mrMesh n cfg cells minL maxL with
    | none => none
    | some (m', u') =>
      if meshEq n minL maxL m.cells m'.cells then some (true, m, u, f)
      else
        match updateFields n cfg.predictionOrder minL maxL m.cells m'.cells f with
        | none => none
        | some f' => some (false, m', u', f')

end

end Samurai
