/-
Model of the arrays written by `save` (hdf5.hpp): coordinates of the points, connectivity of the cells and values of a field on the cells.
`R` stands for `double`, without rounding. The files themselves, the XML description and MPI (one process) are not modelled.
-/
import Verif.Model.CellArray
import Verif.Model.Cell

namespace Samurai

/-- `get_element` (hdf5.hpp:61-83): the corners of the reference cell, x first; `none` for the dimensions where it is not defined. -/
def getElement : Nat → Option (List (List Nat))
  | 1 => some [[0], [1]]
  | 2 => some [[0, 0], [1, 0], [1, 1], [0, 1]]
  | 3 => some [[0, 0, 0], [1, 0, 0], [1, 1, 0], [0, 1, 0], [0, 0, 1], [1, 0, 1], [1, 1, 1], [0, 1, 1]]
  | _ => none

section
variable {R : Type} [Field R] [DecidableEq R]

/-- `cell.corner()` (cell.hpp:113-116) as an array, x first; the points of the model are outermost coordinate first. -/
def cornerOf (origin : Nat → R) (scaling : R) (level : Nat) (p : List Int) : List R :=
  p.reverse.zipIdx.map fun xi => origin xi.2 + cellLength scaling level * (xi.1 : R)

/-- `start_corner + cell.length * element[i]` (hdf5.hpp:135). -/
def vertexOf (origin : Nat → R) (scaling : R) (level : Nat) (p : List Int) (e : List Nat) : List R :=
  List.zipWith (fun a (o : Nat) => a + cellLength scaling level * (o : R)) (cornerOf origin scaling level p) e

/-- `points_id` and `id` (hdf5.hpp:119, 125). The map is the list of its pairs in the order of insertion; `find` compares the keys. -/
structure PointIds (R : Type) where
  points : List (List R × Nat)
  id : Nat

/-- The body of the loop on the corners (hdf5.hpp:137-147): the number of the point `a`. -/
def pointId (s : PointIds R) (a : List R) : PointIds R × Nat :=
  match s.points.find? (fun e => decide (e.1 = a)) with
  | none => (⟨s.points ++ [(a, s.id)], s.id + 1⟩, s.id)
  | some e => (s, e.2)

/-- The loop on the corners of a cell (hdf5.hpp:133-148), with the row `c` of their numbers. -/
def cellIds (s : PointIds R) (as : List (List R)) : PointIds R × List Nat :=
  as.foldl (fun st a => let r := pointId st.1 a; (r.1, st.2 ++ [r.2])) (s, [])

/-- The functor given to `for_each_cell` (hdf5.hpp:127-152). The rows of `connectivity` are written at `index = 0, 1, ..`: they are appended. -/
def connectivityStep (origin : Nat → R) (scaling : R) (element : List (List Nat)) (st : PointIds R × List (List Nat)) (level : Nat) (p : List Int) (_ : Int) :
    PointIds R × List (List Nat) :=
  let r := cellIds st.1 (element.map (vertexOf origin scaling level p))
  (r.1, st.2 ++ [r.2])

/-- One turn of the loop that writes the coordinates (hdf5.hpp:156-161): row `e.second`, columns `0 .. dim - 1`; `none` out of bounds. -/
def coordsStep (c : List (List R)) (e : List R × Nat) : Option (List (List R)) :=
  if e.2 < c.length then some (c.set e.2 (e.1 ++ List.replicate (3 - e.1.length) 0)) else none

/-- `coords` (hdf5.hpp:154-161). -/
def coordsOf (s : PointIds R) : Option (List (List R)) :=
  s.points.foldlM coordsStep (List.replicate s.points.length (List.replicate 3 0))

/-- `extract_coords_and_connectivity(mesh)` (hdf5.hpp:104-163) on the cells of all the levels, dimension `n + 1`. -/
def extractCA (n : Nat) (origin : Nat → R) (scaling : R) (c : CA) : Option (List (List R) × List (List Nat)) :=
  if c.nbCells = 0 then some ([], [])
  else match getElement (n + 1) with
    | none => none
    | some element =>
      match forEachCellCA n (connectivityStep origin scaling element) c (⟨[], 0⟩, []) with
      | none => none
      | some st => (coordsOf st.1).map fun k => (k, st.2)

/-- `extract_coords_and_connectivity(mesh[level])` (hdf5.hpp:104-163) on the cells of one level: option `by_level`. -/
def extractLCA (n : Nat) (origin : Nat → R) (scaling : R) (L : LCA) : Option (List (List R) × List (List Nat)) :=
  if L.nbCells = 0 then some ([], [])
  else match getElement (n + 1) with
    | none => none
    | some element =>
      match forEachCell n (fun st p k => connectivityStep origin scaling element st L.level p k) L (⟨[], 0⟩, []) with
      | none => none
      | some st => (coordsOf st.1).map fun k => (k, st.2)

end

/-- `extract_data(field, submesh)` (hdf5.hpp:85-102) on all the levels: one row per cell; `f` is the array of the field, read at the number of the cell. -/
def extractDataCA {α : Type} (n : Nat) (f : Int → α) (c : CA) : Option (List α) :=
  if c.nbCells = 0 then some []
  else forEachCellCA n (fun (data : List α) _ _ k => data ++ [f k]) c []

/-- `extract_data(field, submesh)` (hdf5.hpp:85-102) on one level. -/
def extractDataLCA {α : Type} (n : Nat) (f : Int → α) (L : LCA) : Option (List α) :=
  if L.nbCells = 0 then some []
  else forEachCell n (fun (data : List α) _ k => data ++ [f k]) L []

end Samurai
