/-
Model of the cells handed to the user (cell.hpp): level, integer coordinates, number, length, and the corner and centres computed from them.
`R` stands for `double`, without rounding.
-/
import Mathlib.Algebra.Field.Basic
import Mathlib.Algebra.Order.Field.Basic

namespace Samurai

/-- `cell_length` (cell.hpp:14-18). `1 << level` is `2^level`: an overflow of `int` (level ≥ 31) is not modelled. -/
def cellLength {R : Type} [Field R] (scaling : R) (level : Nat) : R := scaling / 2 ^ level

/-- `Cell` (cell.hpp:30-75) in dimension `dim`. -/
structure Cell (R : Type) (dim : Nat) where
  origin : Fin dim → R
  level : Nat
  indices : Fin dim → Int
  index : Int
  length : R

/-- The constructor from the coordinates (cell.hpp:77-89). -/
def Cell.mk' {R : Type} [Field R] {dim : Nat} (origin : Fin dim → R) (scaling : R) (level : Nat) (indices : Fin dim → Int) (index : Int) : Cell R dim :=
  ⟨origin, level, indices, index, cellLength scaling level⟩

/-- The constructor from the coordinate in x and the other ones (cell.hpp:91-108). -/
def Cell.mkRow {R : Type} [Field R] {n : Nat} (origin : Fin (n + 1) → R) (scaling : R) (level : Nat) (i : Int) (others : Fin n → Int) (index : Int) : Cell R (n + 1) :=
  ⟨origin, level, Fin.cases i others, index, cellLength scaling level⟩

/-- `Cell::corner` (cell.hpp:113-123), one coordinate. -/
def Cell.corner {R : Type} [Field R] {dim : Nat} (c : Cell R dim) (i : Fin dim) : R := c.origin i + c.length * (c.indices i : R)

/-- `Cell::center` (cell.hpp:128-138), one coordinate. -/
def Cell.center {R : Type} [Field R] {dim : Nat} (c : Cell R dim) (i : Fin dim) : R := c.origin i + c.length * ((c.indices i : R) + 1 / 2)

/-- `Cell::face_center` (cell.hpp:140-146), one coordinate. -/
def Cell.faceCenter {R : Type} [Field R] {dim : Nat} (c : Cell R dim) (direction : Fin dim → Int) (i : Fin dim) : R :=
  c.center i + c.length / 2 * (direction i : R)

end Samurai
