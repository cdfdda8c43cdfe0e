/-
Model of `include/samurai/level_cell_list.hpp`.
-/
import Verif.Model.ListOfIntervals

namespace Samurai

/-- `detail::PartialGrid<coord, ListOfIntervals, N>::type` (level_cell_list.hpp:22-33): nested
`std::map`s over the outer directions ending in an interval list along x.
A `std::map<int, T>` is its list of entries in key order. -/
@[reducible] def Grid : Nat → Type
  | 0 => List Interval
  | n + 1 => List (Int × Grid n)

/-- Value-initialised grid (an empty map or an empty list). -/
def Grid.empty : (n : Nat) → Grid n
  | 0 => ([] : List Interval)
  | n + 1 => ([] : List (Int × Grid n))

/-- `map[k] = f(map[k])`: `std::map::operator[]` value-initialises a missing entry. -/
def mapUpsert {α : Type} (k : Int) (dflt : α) (f : α → α) : List (Int × α) → List (Int × α)
  | [] => [(k, f dflt)]
  | e :: tl =>
    if k < e.1 then (k, f dflt) :: e :: tl
    else if k = e.1 then (e.1, f e.2) :: tl
    else e :: mapUpsert k dflt f tl

/-- `access_grid_yz` followed by a modification `f` of the interval list it returns
(level_cell_list.hpp:40-52, 137-141). The transverse index is outermost coordinate first; an index of
the wrong length (impossible in C++, fixed-size arrays) changes nothing. -/
def Grid.modify : (n : Nat) → (List Interval → List Interval) → List Int → Grid n → Grid n
  | 0, f, _, g => f g
  | _ + 1, _, [], g => g
  | n + 1, f, k :: idx, g => mapUpsert k (Grid.empty n) (Grid.modify n f idx) g

/-- `LevelCellList<dim>` with `dim = n + 1` (level_cell_list.hpp:59-102). Origin and scaling factor
are not modelled here. -/
structure LCL (n : Nat) where
  level : Nat
  grid : Grid n

/-- `LevelCellList(level)` (level_cell_list.hpp:114-119). -/
def LCL.new (n level : Nat) : LCL n := ⟨level, Grid.empty n⟩

/-- `lcl[index].add_interval(i)` (level_cell_list.hpp:137-141, list_of_intervals.hpp:86-118). -/
def LCL.addInterval {n : Nat} (c : LCL n) (idx : List Int) (i : Interval) : LCL n :=
  { c with grid := c.grid.modify n (fun l => Samurai.addInterval l i) idx }

/-- `lcl.add_cell(cell)` (level_cell_list.hpp:170-176); the cell is `(transverse index, x)`. -/
def LCL.addCell {n : Nat} (c : LCL n) (idx : List Int) (x : Int) : LCL n :=
  { c with grid := c.grid.modify n (fun l => Samurai.addPoint l x) idx }

/-- `lcl[index]` used for reading on a non-const list (level_cell_list.hpp:137-141): creates the row. -/
def LCL.touch {n : Nat} (c : LCL n) (idx : List Int) : LCL n :=
  { c with grid := c.grid.modify n id idx }

/-- Emptiness of the grid container, `m_grid_yz.empty()`. -/
def Grid.isEmpty : (n : Nat) → Grid n → Bool
  | 0, g => List.isEmpty (α := Interval) g
  | n + 1, g => List.isEmpty (α := Int × Grid n) g

/-- `LevelCellList::empty` (level_cell_list.hpp:156-160). -/
def LCL.isEmpty {n : Nat} (c : LCL n) : Bool := c.grid.isEmpty n

end Samurai

namespace Samurai

/-- A call on a `LevelCellList` of dimension `n + 1`, the transverse index being outermost first. -/
inductive CellCall
  | interval (idx : List Int) (i : Interval)   -- lcl[idx].add_interval(i)
  | cell (idx : List Int) (x : Int)            -- lcl.add_cell({x, idx})
  | touch (idx : List Int)                     -- lcl[idx] without adding anything

/-- Execute one call. -/
def CellCall.run {n : Nat} (c : LCL n) : CellCall → LCL n
  | .interval idx i => c.addInterval idx i
  | .cell idx x => c.addCell idx x
  | .touch idx => c.touch idx

/-- The transverse index of a call. -/
def CellCall.idx : CellCall → List Int
  | .interval idx _ => idx
  | .cell idx _ => idx
  | .touch idx => idx

/-- Execute a history of calls on a new list. -/
def runCellCalls (n level : Nat) (h : List CellCall) : LCL n := h.foldl CellCall.run (LCL.new n level)

end Samurai
