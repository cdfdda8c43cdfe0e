/-
Model of the stencils of `include/samurai/stencil.hpp`. As in `Model/Interface.lean` a stencil is the list of its vectors, a vector is a
function of the coordinate (0 is x), and `n` is `dim - 1`. The dimension of the tables is at most 3 (`static_assert`): `none` beyond.
-/
import Verif.Model.Interface

namespace Samurai

/-- A row of a braced table, e.g. `{-1, 0}`. -/
def vec (l : List Int) : Nat → Int := fun k => l.getD k 0

/-- `is_cartesian` (stencil.hpp:24-28): the sum of the absolute values is 1. -/
def isCartesian (n : Nat) (dir : Nat → Int) : Bool := ((List.range (n + 1)).map fun k => (dir k).natAbs).sum == 1

/-- The loop of `find_direction_index` (stencil.hpp:79-85) from the coordinate `i`, `k` coordinates left; 0 if all are zero. -/
def findDirFrom (dir : Nat → Int) : Nat → Nat → Nat
  | 0, _ => 0
  | k + 1, i => if dir i ≠ 0 then i else findDirFrom dir k (i + 1)

/-- `find_direction_index` (stencil.hpp:76-87). -/
def findDirectionIndex (n : Nat) (dir : Nat → Int) : Nat := findDirFrom dir (n + 1) 0

/-- `star_stencil<dim, neighbourhood_width>` (stencil.hpp:93-146), in the order of the tables; `dim` is `n + 1`. -/
def starStencil : Nat → Nat → Option (List (Nat → Int))
  | 0, 0 => some [vec [0]]
  | 1, 0 => some [vec [0, 0]]
  | 2, 0 => some [vec [0, 0, 0]]
  | 0, 1 => some [vec [-1], vec [0], vec [1]]
  | 1, 1 => some [vec [-1, 0], vec [0, 0], vec [1, 0], vec [0, -1], vec [0, 1]]
  | 2, 1 => some [vec [-1, 0, 0], vec [0, 0, 0], vec [1, 0, 0], vec [0, -1, 0], vec [0, 1, 0], vec [0, 0, -1], vec [0, 0, 1]]
  | 0, 2 => some [vec [-2], vec [-1], vec [0], vec [1], vec [2]]
  | 1, 2 => some [vec [-2, 0], vec [-1, 0], vec [0, 0], vec [1, 0], vec [2, 0], vec [0, -2], vec [0, -1], vec [0, 1], vec [0, 2]]
  | 2, 2 => some [vec [-2, 0, 0], vec [-1, 0, 0], vec [0, 0, 0], vec [1, 0, 0], vec [2, 0, 0], vec [0, -2, 0], vec [0, -1, 0], vec [0, 1, 0],
      vec [0, 2, 0], vec [0, 0, -2], vec [0, 0, -1], vec [0, 0, 1], vec [0, 0, 2]]
  | _, _ => none

/-- `line_stencil<dim, d>(neighbours...)` (stencil.hpp:148-165): a vector filled with 0 whose coordinate `d` is assigned. -/
def lineStencilOf (d : Nat) (neighbours : List Int) : List (Nat → Int) := neighbours.map fun v => fun k => if k = d then v else 0

/-- `line_stencil_from<dim, d, stencil_size>(from)` (stencil.hpp:167-181). -/
def lineStencilFrom (d size : Nat) (start : Int) : List (Nat → Int) :=
  (List.range size).map fun i : Nat => fun k => if k = d then start + (i : Int) else 0

/-- `line_stencil<dim, d, stencil_size>()` (stencil.hpp:183-187); the division of C++ truncates. -/
def lineStencil (d size : Nat) : List (Nat → Int) := lineStencilFrom d size (Int.tdiv (- (size : Int)) 2 + 1)

/-- The loop on the coordinates of one vector in `is_line_stencil` (stencil.hpp:198-212), from the coordinate `d` with `k` left;
the state is the direction found so far, `none` at the end is `return false`. -/
def isLineVec (s : Nat → Int) : Nat → Nat → Option Nat → Option (Option Nat)
  | 0, _, st => some st
  | k + 1, d, st =>
    if s d ≠ 0 then
      match st with
      | none => isLineVec s k (d + 1) (some d)
      | some dir => if dir ≠ d then none else isLineVec s k (d + 1) st
    else isLineVec s k (d + 1) st

/-- The loop on the vectors in `is_line_stencil` (stencil.hpp:196-213). -/
def isLineLoop (n : Nat) : List (Nat → Int) → Option Nat → Bool
  | [], _ => true
  | s :: S, st =>
    match isLineVec s (n + 1) 0 st with
    | none => false
    | some st => isLineLoop n S st

/-- `is_line_stencil` (stencil.hpp:189-216). -/
def isLineStencil (n : Nat) (S : List (Nat → Int)) : Bool := if n = 0 then true else isLineLoop n S none

/-- `cartesian_directions` (stencil.hpp:218-241). -/
def cartesianDirections : Nat → Option (List (Nat → Int))
  | 0 => some [vec [-1], vec [1]]
  | 1 => some [vec [-1, 0], vec [1, 0], vec [0, -1], vec [0, 1]]
  | 2 => some [vec [-1, 0, 0], vec [1, 0, 0], vec [0, -1, 0], vec [0, 1, 0], vec [0, 0, -1], vec [0, 0, 1]]
  | _ => none

/-- `positive_cartesian_directions` (stencil.hpp:243-264). -/
def positiveDirections : Nat → Option (List (Nat → Int))
  | 0 => some [vec [1]]
  | 1 => some [vec [1, 0], vec [0, 1]]
  | 2 => some [vec [1, 0, 0], vec [0, 1, 0], vec [0, 0, 1]]
  | _ => none

/-- `directional_stencils<dim, neighbourhood_width>` (stencil.hpp:274-392): the pairs (direction, stencil). With width 0 only the first
entry is initialised (`none` for the others, whose value is undefined). -/
def directionalStencils : Nat → Nat → Option (List (Option ((Nat → Int) × List (Nat → Int))))
  | 0, 0 => some [some (vec [0], [vec [0]]), none]
  | 1, 0 => some [some (vec [0, 0], [vec [0, 0]]), none, none, none]
  | 2, 0 => some [some (vec [0, 0, 0], [vec [0, 0, 0]]), none, none, none, none, none]
  | 0, 1 => some [some (vec [-1], [vec [0], vec [1], vec [-1]]), some (vec [1], [vec [0], vec [-1], vec [1]])]
  | 1, 1 => some [some (vec [-1, 0], [vec [0, 0], vec [1, 0], vec [-1, 0]]), some (vec [0, 1], [vec [0, 0], vec [0, -1], vec [0, 1]]),
      some (vec [1, 0], [vec [0, 0], vec [-1, 0], vec [1, 0]]), some (vec [0, -1], [vec [0, 0], vec [0, 1], vec [0, -1]])]
  | 2, 1 => some [some (vec [-1, 0, 0], [vec [0, 0, 0], vec [1, 0, 0], vec [-1, 0, 0]]),
      some (vec [0, 1, 0], [vec [0, 0, 0], vec [0, -1, 0], vec [0, 1, 0]]),
      some (vec [1, 0, 0], [vec [0, 0, 0], vec [-1, 0, 0], vec [1, 0, 0]]),
      some (vec [0, -1, 0], [vec [0, 0, 0], vec [0, 1, 0], vec [0, -1, 0]]),
      some (vec [0, 0, -1], [vec [0, 0, 0], vec [0, 0, 1], vec [0, 0, -1]]),
      some (vec [0, 0, 1], [vec [0, 0, 0], vec [0, 0, -1], vec [0, 0, 1]])]
  | 0, 2 => some [some (vec [-1], [vec [0], vec [1], vec [2], vec [-1], vec [-2]]), some (vec [1], [vec [0], vec [-1], vec [-2], vec [1], vec [2]])]
  | 1, 2 => some [some (vec [-1, 0], [vec [0, 0], vec [1, 0], vec [2, 0], vec [-1, 0], vec [-2, 0]]),
      some (vec [0, 1], [vec [0, 0], vec [0, -1], vec [0, -2], vec [0, 1], vec [0, 2]]),
      some (vec [1, 0], [vec [0, 0], vec [-1, 0], vec [-2, 0], vec [1, 0], vec [2, 0]]),
      some (vec [0, -1], [vec [0, 0], vec [0, 1], vec [0, 2], vec [0, -1], vec [0, -2]])]
  | 2, 2 => some [some (vec [-1, 0, 0], [vec [0, 0, 0], vec [1, 0, 0], vec [2, 0, 0], vec [-1, 0, 0], vec [-2, 0, 0]]),
      some (vec [0, 1, 0], [vec [0, 0, 0], vec [0, -1, 0], vec [0, -2, 0], vec [0, 1, 0], vec [0, 2, 0]]),
      some (vec [1, 0, 0], [vec [0, 0, 0], vec [-1, 0, 0], vec [-2, 0, 0], vec [1, 0, 0], vec [2, 0, 0]]),
      some (vec [0, -1, 0], [vec [0, 0, 0], vec [0, 1, 0], vec [0, 2, 0], vec [0, -1, 0], vec [0, -2, 0]]),
      some (vec [0, 0, -1], [vec [0, 0, 0], vec [0, 0, 1], vec [0, 0, 2], vec [0, 0, -1], vec [0, 0, -2]]),
      some (vec [0, 0, 1], [vec [0, 0, 0], vec [0, 0, -1], vec [0, 0, -2], vec [0, 0, 1], vec [0, 0, 2]])]
  | _, _ => none

/-- The rotation of one vector in `convert_for_direction` (stencil.hpp:428-441): a copy of `v` whose coordinates 0 and `d` are assigned
from the vector before the conversion. -/
def rotateVec (cos sin : Int) (d : Nat) (v : Nat → Int) : Nat → Int := fun k =>
  if k = d then sin * v 0 + cos * v d else if k = 0 then cos * v 0 - sin * v d else v k

/-- `convert_for_direction` (stencil.hpp:409-444). -/
def convertForDirection (n : Nat) (S : List (Nat → Int)) (dir : Nat → Int) : List (Nat → Int) :=
  if n = 0 then S.map fun v => fun k => dir 0 * v k
  else
    let d := findDirectionIndex n dir
    let d := if d = 0 then d + 1 else d
    S.map (rotateVec (dir 0) (dir d) d)

end Samurai
