/-
Model of `include/samurai/level_cell_array.hpp` (construction, queries) and of the search
functions of `include/samurai/algorithm.hpp`.
-/
import Verif.Model.LevelCellList

namespace Samurai

/-- `LevelCellArray<dim>` (level_cell_array.hpp, members `m_cells`, `m_offsets`, `m_level`).
`cells d` is `m_cells[d]`, `offsets d` is `m_offsets[d]`, i.e. `lca.offsets(d + 1)`
(level_cell_array.hpp:760-772). The arrays are functions of the direction, only the directions
below `dim` matter. Origin and scaling factor are not modelled here. -/
structure LCA where
  level : Nat := 0
  cells : Nat → List Interval := fun _ => []
  offsets : Nat → List Nat := fun _ => []

/-- `v[d].insert(v[d].end(), xs...)` on an array of vectors. -/
def appendAt {α : Type} (a : Nat → List α) (d : Nat) (xs : List α) : Nat → List α :=
  fun d' => if d' = d then a d' ++ xs else a d'

/-- `m_cells[d].emplace_back(i)` -/
def LCA.pushCell (s : LCA) (d : Nat) (i : Interval) : LCA := { s with cells := appendAt s.cells d [i] }

/-- `m_offsets[d].emplace_back(o)` -/
def LCA.pushOffset (s : LCA) (d : Nat) (o : Nat) : LCA := { s with offsets := appendAt s.offsets d [o] }

/-- One turn of the loop of `init_from_level_cell_list<N>` with `N = n + 1`
(level_cell_array.hpp:784-830): `rec` is the recursive call on the sub-grid. -/
def initStep (n : Nat) (rec : Grid n → LCA → LCA) (st : LCA × Interval) (e : Int × Grid n) :
    LCA × Interval :=
  let s := st.1
  let cur := st.2
  let i := e.1
  let previousOffset := (s.cells n).length
  let s1 := rec e.2 s
  let fresh := Interval.mk' i (i + 1) ((s1.offsets n).length - i)
  let r :=
    if cur.isValid then
      if i > cur.stop then (s1.pushCell (n + 1) cur, fresh)
      else (s1, { cur with stop := cur.stop + 1 })
    else (s1, fresh)
  (r.1.pushOffset n previousOffset, r.2)

/-- `init_from_level_cell_list` (level_cell_array.hpp:774-847). The `index` argument is only
passed along in C++ and is omitted. -/
def initFromGrid : (n : Nat) → Grid n → LCA → LCA
  | 0, g, s => { s with cells := appendAt s.cells 0 g }
  | n + 1, g, s =>
    let r := List.foldl (initStep n (initFromGrid n)) (s, Interval.mk' 0 0 0) g
    if r.2.isValid then r.1.pushCell (n + 1) r.2 else r.1

/-- The final loop `for d < dim - 1: m_offsets[d].emplace_back(m_cells[d].size())`
(level_cell_array.hpp:313-316). -/
def LCA.closeOffsets (s : LCA) : Nat → LCA
  | 0 => s
  | n + 1 => (s.closeOffsets n).pushOffset n (s.cells n).length

/-- `LevelCellArray(const LevelCellList&)` (level_cell_array.hpp:289-318). -/
def LCA.ofList {n : Nat} (c : LCL n) : LCA :=
  let s : LCA := { level := c.level }
  if c.isEmpty then s else (initFromGrid n c.grid s).closeOffsets n

/-- `LevelCellArray::empty` (level_cell_array.hpp:612-616). -/
def LCA.isEmpty (s : LCA) : Bool := (s.cells 0).isEmpty

/-- `LevelCellArray::nb_cells` (level_cell_array.hpp:640-649). -/
def LCA.nbCells (s : LCA) : Nat := (s.cells 0).foldl (fun acc i => acc + i.size) 0

/-- `LevelCellArray::nb_intervals` (level_cell_array.hpp:629-638), `dim = n + 1`. -/
def LCA.nbIntervals (n : Nat) (s : LCA) : Nat :=
  (List.range (n + 1)).foldl (fun acc d => acc + (s.cells d).length) 0

/-- `operator==` on level cell arrays of dimension `n + 1` (level_cell_array.hpp:906-935). The shape
test (line 914) is implied by the equality of the vectors but kept. -/
def LCA.beq (n : Nat) (a b : LCA) : Bool :=
  decide (a.level = b.level) &&
  ((List.range (n + 1)).all fun d => decide ((a.cells d).length = (b.cells d).length)) &&
  ((List.range (n + 1)).all fun d => decide (a.cells d = b.cells d)) &&
  ((List.range n).all fun d => decide (a.offsets d = b.offsets d))

/-- Part `[lo, hi)` of a vector, as delimited by two iterators. -/
def slice {α : Type} (l : List α) (lo hi : Nat) : List α := (l.take hi).drop lo

end Samurai

namespace Samurai

/-- `std::lower_bound(first, last, value, comp)` with `comp(interval, v) = interval.end < v`
(algorithm.hpp:369-374), on the vector `l`, starting at `first` with `count` elements: the usual
halving loop, with a fuel. Reading outside the vector or running out of fuel gives `none`. -/
def lowerBoundLoop (l : List Interval) (v : Int) : Nat → Nat → Nat → Option Nat
  | fuel, first, count =>
    if count = 0 then some first
    else
      match fuel with
      | 0 => none
      | fuel + 1 =>
        match l[first + count / 2]? with
        | none => none
        | some i =>
          if i.stop < v then lowerBoundLoop l v fuel (first + count / 2 + 1) (count - (count / 2 + 1))
          else lowerBoundLoop l v fuel first (count / 2)

/-- `std::lower_bound`; `count` turns are always enough since the count is halved (see
`lowerBound_spec`: the result is never `none` on a correct range). -/
def lowerBound (l : List Interval) (v : Int) (first count : Nat) : Option Nat :=
  lowerBoundLoop l v count first count

/-- `detail::my_binary_search` (algorithm.hpp:366-384) on the part `[first, last)` of `l`.
`some (-1)` when not found, `none` for an out of bounds access. -/
def myBinarySearch (l : List Interval) (first last : Nat) (v : Int) : Option Int :=
  match lowerBound l v first (last - first) with
  | none => none
  | some r =>
    if r = last then some (-1)
    else match l[r]? with
      | none => none
      | some i =>
        if !(decide (i.stop < v)) then
          if i.contains v then some ((r : Int) - first) else some (-1)
        else some (-1)

/-- `detail::find_impl` (algorithm.hpp:386-429); the coordinates are outermost first. -/
def findImpl (L : LCA) : Nat → Nat → Nat → List Int → Option Int
  | 0, lo, hi, [x] =>
    match myBinarySearch (L.cells 0) lo hi x with
    | none => none
    | some k => some (if k ≠ -1 then k + lo else k)
  | N + 1, lo, hi, c :: p =>
    match myBinarySearch (L.cells (N + 1)) lo hi c with
    | none => none
    | some k =>
      if k ≠ -1 then
        match (L.cells (N + 1))[k.toNat + lo]? with
        | none => none
        | some i =>
          if i.index + c < 0 then none
          else match (L.offsets N)[(i.index + c).toNat]?, (L.offsets N)[(i.index + c).toNat + 1]? with
            | some a, some b => findImpl L N a b p
            | _, _ => none
      else some k
  | _, _, _, _ => none

/-- `find(lca, coord)` (algorithm.hpp:432-436), dimension `n + 1`. -/
def find (L : LCA) (n : Nat) (coord : List Int) : Option Int :=
  findImpl L n 0 (L.cells n).length coord

/-- `find_on_dim` (algorithm.hpp:438-449): `none` out of bounds, `some none` for
`numeric_limits<size_t>::max()` (not found). -/
def findOnDim (L : LCA) (d lo hi : Nat) (c : Int) : Option (Option Nat) :=
  match myBinarySearch (L.cells d) lo hi c with
  | none => none
  | some k => some (if k ≠ -1 then some (k.toNat + lo) else none)

/-- `get_interval(coord)` (level_cell_array.hpp:544-549): a row of `-1` is out of bounds. -/
def getInterval (L : LCA) (n : Nat) (coord : List Int) : Option Interval :=
  match find L n coord with
  | none => none
  | some k => if k < 0 then none else (L.cells 0)[k.toNat]?

/-- `get_index(coord)` (level_cell_array.hpp:565-569). `x` is `coord(0)`, the last of the list. -/
def getIndex (L : LCA) (n : Nat) (idx : List Int) (x : Int) : Option Int :=
  (getInterval L n (idx ++ [x])).map fun i => i.index + x

end Samurai
