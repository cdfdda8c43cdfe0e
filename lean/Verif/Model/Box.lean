/-
Model of `Box<value_t, dim>` (include/samurai/box.hpp) with integer corners and of
`LevelCellArray::init_from_box` (include/samurai/level_cell_array.hpp:849-877).
-/
import Verif.Model.LevelCellArray
import Mathlib.Logic.Function.Basic

namespace Samurai

/-- `Box<int, dim>` (box.hpp:24-51): `min_corner()` and `max_corner()`, by direction. -/
structure Box where
  lo : Nat → Int
  hi : Nat → Int

/-- `Box::length()` cast to `size_t` (box.hpp:109-113, level_cell_array.hpp:852). The cast of a
negative length wraps in C++; the model gives 0 (only valid boxes are considered in the theorems). -/
def Box.len (b : Box) (d : Nat) : Nat := (b.hi d - b.lo d).toNat

/-- `Box::is_valid` (box.hpp:127-131) in dimension `n + 1`. -/
def Box.isValid (b : Box) (n : Nat) : Bool := (List.range (n + 1)).all fun d => decide (b.lo d < b.hi d)

/-- `Box::operator*=` (box.hpp:133-139). -/
def Box.scale (b : Box) (v : Int) : Box := { lo := fun d => b.lo d * v, hi := fun d => b.hi d * v }

/-- The loop over the directions of `init_from_box` (level_cell_array.hpp:857-870), from `d = dim - 1`
down to 1, with the running `size`. -/
def boxLoop (b : Box) : Nat → Nat → LCA → Nat × LCA
  | 0, size, s => (size, s)
  | d + 1, size, s =>
    let offs := List.range (b.len (d + 1) * size + 1)
    let cells := (List.range size).map fun i =>
      Interval.mk' (b.lo (d + 1)) (b.hi (d + 1)) ((offs.getD (i * b.len (d + 1)) 0 : Nat) - b.lo (d + 1))
    boxLoop b d (size * b.len (d + 1))
      { s with offsets := Function.update s.offsets d offs
               cells := Function.update s.cells (d + 1) cells }

/-- `LevelCellArray(level, box)` (level_cell_array.hpp:334-341, 849-877), dimension `n + 1`. -/
def LCA.ofBox (n level : Nat) (b : Box) : LCA :=
  let r := boxLoop b n 1 { level := level }
  { r.2 with cells := Function.update r.2.cells 0 ((List.range r.1).map fun (i : Nat) =>
      Interval.mk' (b.lo 0) (b.hi 0) ((i * b.len 0 : Nat) - b.lo 0)) }

end Samurai
