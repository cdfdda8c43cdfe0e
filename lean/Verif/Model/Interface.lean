/-
Model of the iteration on the interfaces: `include/samurai/interface.hpp`, `boundary.hpp` and the iterators of `stencil.hpp`.
Sequential order of the calls. A stencil vector is a function (0 is x).
-/
import Verif.Model.Adapt

namespace Samurai

/-- `Cell` (cell.hpp:20-70) without its geometry: level, coordinates of the row (outermost first), x, number. -/
structure MCell where
  level : Nat
  yz : List Int
  x : Int
  index : Int
  deriving DecidableEq, Repr

/-- The coordinates of a cell. -/
def MCell.pt (c : MCell) : List Int := c.yz ++ [c.x]

/-- One cell in `move_next` (stencil.hpp:562-569): the number and x are incremented. -/
def MCell.next (c : MCell) : MCell := { c with x := c.x + 1, index := c.index + 1 }

/-- `find(stencil, vector)` (stencil.hpp:53-76): the first vector equal to `v` (`none` is -1). -/
def stencilFind (n : Nat) (S : List (Nat → Int)) (v : Nat → Int) : Option Nat :=
  S.findIdx? fun s => (List.range (n + 1)).all fun k => s k == v k

/-- `find_stencil_origin` (stencil.hpp:31-51). -/
def stencilOrigin (n : Nat) (S : List (Nat → Int)) : Option Nat :=
  S.findIdx? fun s => (List.range (n + 1)).all fun k => s k == 0

/-- The body of the loop of `IteratorStencil::init` (stencil.hpp:505-544): the cell of the vector `s`. `v` is the number of the
origin cell, `c` the mesh interval. -/
def stencilCell (n : Nat) (ref : CA) (level : Nat) (c : Call) (v : Int) (s : Nat → Int) : Option MCell :=
  if (List.range n).all fun k => s (k + 1) == 0 then
    some ⟨level, shiftPoint s n c.1, c.2.start + s 0, v + s 0⟩
  else
    match getIndex (ref.lca level) n (shiftPoint s n c.1) (c.2.start + s 0) with
    | none => none
    | some w => some ⟨level, shiftPoint s n c.1, c.2.start + s 0, w⟩

/-- The loop of `IteratorStencil::init` (stencil.hpp:505-544); `o` is `m_origin_cell`, `id` the position in the stencil. -/
def stencilCells (n : Nat) (ref : CA) (level : Nat) (c : Call) (v : Int) (o : Nat) : Nat → List (Nat → Int) → Option (List MCell)
  | _, [] => some []
  | id, s :: S =>
    match (if id = o then some ⟨level, c.1, c.2.start, v⟩ else stencilCell n ref level c v s), stencilCells n ref level c v o (id + 1) S with
    | some m, some l => some (m :: l)
    | _, _ => none

/-- `IteratorStencil::init(mesh_interval)` (stencil.hpp:480-545): the cells of the stencil at the start of the interval. `ref` is the
reference mesh (`mesh.get_index`, mesh.hpp:471-474); a cell that is not found is an out of bounds access. -/
def stencilInit (n : Nat) (ref : CA) (S : List (Nat → Int)) (level : Nat) (c : Call) : Option (List MCell) :=
  match stencilOrigin n S with
  | none => none
  | some o =>
    match getIndex (ref.lca level) n c.1 c.2.start with
    | none => none
    | some v => stencilCells n ref level c v o 0 S

/-- `for (ii = 0; ii < size; ++ii) { f(...); move_next(); }`: the states on which `f` is called. -/
def slide {σ : Type} (next : σ → σ) : Nat → σ → List σ
  | 0, _ => []
  | k + 1, s => s :: slide next k (next s)

/-- `IteratorStencil::move_next` (stencil.hpp:562-569). -/
def stencilNext (l : List MCell) : List MCell := l.map MCell.next

/-- `LevelJumpIterator` (stencil.hpp:582-645): the coarse and the fine cell and `m_ii`. -/
structure JumpIter where
  coarse : MCell
  fine : MCell
  ii : Nat

/-- `LevelJumpIterator::init` (stencil.hpp:607-617) on an interval of level `level + 1`; `fineCells` are the cells of the fine iterator. -/
def jumpInit (n : Nat) (ref : CA) (level : Nat) (fineCells : List MCell) (dirIndex : Nat) (c : Call) : Option JumpIter :=
  match stencilInit n ref [fun _ => 0] level (c.1.map fun y => shr y 1, c.2.shiftRight 1), fineCells[dirIndex]? with
  | some [a], some b => some ⟨a, b, 0⟩
  | _, _ => none

/-- `LevelJumpIterator::move_next` (stencil.hpp:624-634). -/
def JumpIter.next (j : JumpIter) : JumpIter where
  fine := j.fine.next
  coarse := { j.coarse with
    index := j.coarse.index + (if j.ii % 2 = 1 then 1 else 0)
    x := j.coarse.x + (if j.ii % 2 = 1 then 1 else 0) }
  ii := j.ii + 1

/-- The arguments of the callback: the two cells of the interface and the cells of the computational stencil. -/
structure FaceCall where
  left : MCell
  right : MCell
  comput : List MCell

/-- `in_out_stencil` (stencil.hpp:400-407). -/
def inOutStencil (dir : Nat → Int) : List (Nat → Int) := [fun _ => 0, dir]

/-- The calls of a set, each treated by a function that can fail. -/
def facesOf {α : Type} (row : Call → Option (List α)) : List Call → Option (List α)
  | [] => some []
  | c :: cs =>
    match row c, facesOf row cs with
    | some a, some b => some (a ++ b)
    | _, _ => none

/-- The functor of `for_each_interior_interface__same_level` (interface.hpp:42-66) on one interval. -/
def sameLevelRow (n : Nat) (ref : CA) (level : Nat) (dir : Nat → Int) (S : List (Nat → Int)) (c : Call) : Option (List FaceCall) :=
  match stencilInit n ref (inOutStencil dir) level c, stencilInit n ref S level c with
  | some [a, b], some l =>
    some ((slide (fun s : MCell × MCell × List MCell => (s.1.next, s.2.1.next, stencilNext s.2.2)) c.2.size (a, b, l)).map
      fun s => ⟨s.1, s.2.1, s.2.2⟩)
  | _, _ => none

/-- `for_each_interior_interface__same_level` (interface.hpp:11-67). -/
def sameLevelFaces (n : Nat) (ref cells : CA) (level : Nat) (dir : Nat → Int) (S : List (Nat → Int)) : Option (List FaceCall) :=
  match runDefault n (.op .inter (.leaf (.mesh (cells.lca level))) (.leaf (.translate (.mesh (cells.lca level)) fun d => - dir d))) with
  | none => none
  | some calls => facesOf (sameLevelRow n ref level dir S) calls

/-- The functor of `for_each_interior_interface__level_jump_direction` (interface.hpp:120-144) on one fine interval. -/
def jumpRow (n : Nat) (ref : CA) (level : Nat) (dir : Nat → Int) (S : List (Nat → Int)) (c : Call) : Option (List FaceCall) :=
  match stencilFind n S dir, stencilInit n ref S (level + 1) c with
  | some k, some l =>
    match jumpInit n ref level l k c with
    | none => none
    | some j =>
      some ((slide (fun s : JumpIter × List MCell => (s.1.next, stencilNext s.2)) c.2.size (j, l)).map
        fun s => ⟨s.1.coarse, s.1.fine, s.2⟩)
  | _, _ => none

/-- `for_each_interior_interface__level_jump_direction` (interface.hpp:82-145); `maxL` is `mesh.max_level()`. -/
def jumpFaces (n : Nat) (ref cells : CA) (maxL level : Nat) (dir : Nat → Int) (S : List (Nat → Int)) : Option (List FaceCall) :=
  if level ≥ maxL then some []
  else
    match runSet n (.op .inter (.leaf (.mesh (cells.lca level)))
        (.leaf (.translate (.mesh (cells.lca (level + 1))) fun d => - dir d))) (level + 1) with
    | none => none
    | some calls => facesOf (jumpRow n ref level dir S) calls

/-- `comput_stencil - direction`. -/
def minusStencil (dir : Nat → Int) (S : List (Nat → Int)) : List (Nat → Int) := S.map fun s => fun d => s d - dir d

/-- The functor of `for_each_interior_interface__level_jump_opposite_direction` (interface.hpp:203-227) on one fine interval. -/
def jumpRowOpp (n : Nat) (ref : CA) (level : Nat) (dir : Nat → Int) (S : List (Nat → Int)) (c : Call) : Option (List FaceCall) :=
  match stencilFind n (minusStencil dir S) (fun d => - dir d), stencilInit n ref (minusStencil dir S) (level + 1) c with
  | some k, some l =>
    match jumpInit n ref level l k c with
    | none => none
    | some j =>
      some ((slide (fun s : JumpIter × List MCell => (s.1.next, stencilNext s.2)) c.2.size (j, l)).map
        fun s => ⟨s.1.fine, s.1.coarse, s.2⟩)
  | _, _ => none

/-- `for_each_interior_interface__level_jump_opposite_direction` (interface.hpp:161-228). -/
def jumpFacesOpp (n : Nat) (ref cells : CA) (maxL level : Nat) (dir : Nat → Int) (S : List (Nat → Int)) : Option (List FaceCall) :=
  if level ≥ maxL then some []
  else
    match runSet n (.op .inter (.leaf (.mesh (cells.lca level)))
        (.leaf (.translate (.mesh (cells.lca (level + 1))) dir))) (level + 1) with
    | none => none
    | some calls => facesOf (jumpRowOpp n ref level dir S) calls

/-- `for_each_interior_interface(mesh, level, ...)` (interface.hpp:244-259). -/
def levelFaces (n : Nat) (ref cells : CA) (maxL : Nat) (dir : Nat → Int) (S : List (Nat → Int)) (level : Nat) :
    Option (List FaceCall) :=
  match sameLevelFaces n ref cells level dir S, jumpFaces n ref cells maxL level dir S, jumpFacesOpp n ref cells maxL level dir S with
  | some a, some b, some c => some (a ++ (b ++ c))
  | _, _, _ => none

/-- A loop on the levels, the calls in order. -/
def overLevels {α : Type} (f : Nat → Option (List α)) : List Nat → Option (List α)
  | [] => some []
  | l :: ls =>
    match f l, overLevels f ls with
    | some a, some b => some (a ++ b)
    | _, _ => none

/-- `for_each_level` (algorithm.hpp:46-55): the levels that are not empty. -/
def CA.usedLevels (c : CA) : List Nat := c.levels.filter fun l => !(c.lca l).isEmpty

/-- `for_each_interior_interface(mesh, direction, comput_stencil, f)` (interface.hpp:273-284): the calls of `f` in order. -/
def interiorFaces (n : Nat) (ref cells : CA) (maxL : Nat) (dir : Nat → Int) (S : List (Nat → Int)) : Option (List FaceCall) :=
  overLevels (levelFaces n ref cells maxL dir S) cells.usedLevels

/-! ### boundary -/

/-- `boundary(mesh, level, direction)` (boundary.hpp:6-18). `sub` is `mesh.subdomain()`. A level finer than its level is a negative
shift. -/
def boundarySet (n : Nat) (sub : LCA) (cells : CA) (level : Nat) (dir : Nat → Int) : Option (List Call) :=
  if sub.level < level then none
  else runSet n (.op .diff (.leaf (.mesh (cells.lca level)))
    (.leaf (.translate (.mesh sub) fun d => - (2 ^ (sub.level - level)) * dir d))) level

/-- The arguments of the callback on a boundary interface: the cell and the cells of the computational stencil. -/
structure BdryCall where
  cell : MCell
  comput : List MCell

/-- The functor of `for_each_boundary_interface__direction` (interface.hpp:363-386) on one interval. -/
def bdryRow (n : Nat) (ref : CA) (level : Nat) (dir : Nat → Int) (S : List (Nat → Int)) (c : Call) : Option (List BdryCall) :=
  match stencilInit n ref (inOutStencil dir) level c, stencilInit n ref S level c with
  | some [a, b], some l =>
    some ((slide (fun s : MCell × MCell × List MCell => (s.1.next, s.2.1.next, stencilNext s.2.2)) c.2.size (a, b, l)).map
      fun s => ⟨s.1, s.2.2⟩)
  | _, _ => none

/-- `for_each_boundary_interface__direction(mesh, level, ...)` (interface.hpp:336-387). -/
def bdryFaces (n : Nat) (ref : CA) (sub : LCA) (cells : CA) (dir : Nat → Int) (S : List (Nat → Int)) (level : Nat) :
    Option (List BdryCall) :=
  match boundarySet n sub cells level dir with
  | none => none
  | some calls => facesOf (bdryRow n ref level dir S) calls

/-- `for_each_boundary_interface__opposite_direction(mesh, level, ...)` (interface.hpp:389-403). -/
def bdryFacesOpp (n : Nat) (ref : CA) (sub : LCA) (cells : CA) (dir : Nat → Int) (S : List (Nat → Int)) (level : Nat) :
    Option (List BdryCall) :=
  bdryFaces n ref sub cells (fun d => - dir d) (minusStencil dir S) level

end Samurai
