/-
Specification of the saved arrays: the corners of a cell in the order of the XDMF elements, and what it means that arrays describe a list of cells.
-/
import Mathlib.Algebra.Field.Basic

namespace Samurai

/-- The corners of the reference quadrilateral, turning around it. -/
def xdmfQuad : List (List Nat) := [[0, 0], [1, 0], [1, 1], [0, 1]]

/-- The corners of the reference segment, quadrilateral and hexahedron: the hexahedron is the bottom quadrilateral followed by the top one. -/
def xdmfCorners : Nat → List (List Nat)
  | 1 => [[0], [1]]
  | 2 => xdmfQuad
  | 3 => xdmfQuad.map (· ++ [0]) ++ xdmfQuad.map (· ++ [1])
  | _ => []

/-- `v` is the corner `e` of the cell `p` (outermost coordinate first) of a level, as a point of space completed by zeros. -/
structure IsCorner {R : Type} [Field R] (dim : Nat) (origin : Nat → R) (scaling : R) (level : Nat) (p : List Int) (e : List Nat) (v : List R) : Prop where
  len : v.length = 3
  coord : ∀ (i : Nat) (x : Int) (o : Nat), p.reverse[i]? = some x → e[i]? = some o → v[i]? = some (origin i + scaling / 2 ^ level * ((x : R) + (o : R)))
  rest : ∀ i, dim ≤ i → i < 3 → v[i]? = some 0

/-- The arrays describe the cells `cells` (level, coordinates), in this order: one row per cell with the numbers of its corners,
one row per point, no point twice, no unused point. -/
structure Describes {R : Type} [Field R] (dim : Nat) (origin : Nat → R) (scaling : R) (cells : List (Nat × List Int)) (coords : List (List R))
    (conn : List (List Nat)) : Prop where
  len : conn.length = cells.length
  corners : ∀ (k l : Nat) (p : List Int), cells[k]? = some (l, p) → ∃ row : List Nat, conn[k]? = some row ∧ row.length = 2 ^ dim ∧
    ∀ (i : Nat) (e : List Nat), (xdmfCorners dim)[i]? = some e → ∃ (j : Nat) (v : List R), row[i]? = some j ∧ coords[j]? = some v ∧ IsCorner dim origin scaling l p e v
  shared : coords.Nodup
  used : ∀ j, j < coords.length → ∃ row ∈ conn, j ∈ row

end Samurai
